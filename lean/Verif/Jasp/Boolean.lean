import Verif.Jasp.MetricSim
import Verif.Types.JList

/-!
# Boolean simulation

`boolean_simulation` (jasp/evaluation_tools/boolean_simulation.py) executes a program whose gates only permute basis states on a packed
array of bits; `jasp/interpreter_tools/interpreters/cl_func_interpreter.py` contains the handlers.  A qubit is an index, an array of
qubits a `Jlist` of indices (Types/JList.lean), the quantum state the words of bits with a `Jlist` of free indices.
-/

namespace Verif.Jasp.Met
open Verif.Types

/-! ### Bits -/

/-- `jnp.uint64(index)`. -/
def u64 (i : Int) : Nat := (i % 2 ^ 64).toNat

/-- `get_bit_array` (cl_func_interpreter.py:1130-1152); reading outside of the array is clipped. -/
def getBit (w : List Nat) (i : Int) : Nat :=
  let i := u64 i
  let a := i >>> 6
  (w.getD (min a (w.length - 1)) 0 >>> (i ^^^ (a <<< 6))) &&& 1

/-- `conditional_bit_flip_bit_array` (cl_func_interpreter.py:1087-1123); writing outside of the array has no effect. -/
def flipBit (w : List Nat) (i : Int) (c : Nat) : List Nat :=
  let i := u64 i
  let a := i >>> 6
  w.set a (w.getD (min a (w.length - 1)) 0 ^^^ (c <<< (i ^^^ (a <<< 6))))

/-- `~x` for 64 bits. -/
def not64 (x : Nat) : Nat := x ^^^ (2 ^ 64 - 1)

/-- The condition of `cl_multi_cx` (cl_func_interpreter.py:443-452); too short a control state is an error. -/
def flipCond (w : List Nat) : List Bool → List Int → Nat → Option (Nat × Int)
  | _, [], _ => none
  | _, [t], f => some (f, t)
  | [], _ :: _ :: _, _ => none
  | c :: cs, i :: l, f => flipCond w cs l (f &&& if c then getBit w i else not64 (getBit w i))

/-- `cl_multi_cx` (cl_func_interpreter.py:411-457). -/
def multiCx (w : List Nat) (cs : List Bool) (pos : List Int) : Option (List Nat) :=
  (flipCond w cs pos 1).map fun z => flipBit w z.2 z.1

/-- Exchanging the last two qubits (cl_func_interpreter.py:395-396). -/
def swapLast : List Int → Option (List Int)
  | [a, b] => some [b, a]
  | a :: b :: c :: l => (swapLast (b :: c :: l)).map (a :: ·)
  | _ => none

def phaseNames : List String := ["z", "rz", "t", "s", "t_dg", "s_dg", "p"]

/-- The last part of `process_op` (cl_func_interpreter.py:391-405). -/
def applyOp (swp : Bool) (cs : List Bool) (pos : List Int) (w : List Nat) : Option (List Nat) :=
  if swp then
    (swapLast pos).bind fun sw => (multiCx w (cs ++ [true]) sw).bind fun w => (multiCx w (cs ++ [true]) pos).bind fun w =>
      multiCx w (cs ++ [true]) sw
  else multiCx w cs pos

/-- `process_op` (cl_func_interpreter.py:332-408).  The name of a controlled operation contains `swap` iff its base operation is
    a swap. -/
def processOp (g : Gd) (pos : List Int) (w : List Nat) : Option (List Nat) :=
  if g.name ∈ ["x", "y", "swap"] then applyOp (g.name = "swap") [] pos w
  else match g.ctrl with
    | some (b, cs) =>
      if b ∈ ["x", "y", "z", "pt2cx", "swap"] then
        if b ∈ phaseNames then some w else applyOp (b = "swap") cs pos w
      else if g.name ∈ phaseNames then some w else none
    | none => if g.name ∈ phaseNames then some w else none

/-! ### The handlers -/

/-- The words of bits, the free indices and the number of warnings (line 950) submitted so far. -/
structure Bq where
  w : List Nat
  free : JList
  warn : Nat

/-- `process_create_qubits` (cl_func_interpreter.py:199-213). -/
def allocLoop : Nat → JList → JList → JList × JList
  | 0, reg, free => (reg, free)
  | n + 1, reg, free => allocLoop n (reg.append free.pop.2) free.pop.1

/-- `process_delete_qubits` (cl_func_interpreter.py:956-971). -/
def freeLoop : Nat → JList → Bq → Bq
  | 0, _, s => s
  | n + 1, reg, s => freeLoop n reg.pop.1
      ⟨flipBit s.w reg.pop.2 (getBit s.w reg.pop.2), s.free.append reg.pop.2, s.warn + if getBit s.w reg.pop.2 = 0 then 0 else 1⟩

/-- `exec_multi_measurement` (cl_func_interpreter.py:516-525). -/
def measLoop (w : List Nat) (reg : JList) : Nat → Nat → Int → Int
  | 0, _, acc => acc
  | n + 1, i, acc => measLoop w reg n (i + 1) (acc + (getBit w (reg.get i) : Int) * 2 ^ i)

/-- The loop of `process_reset` for arrays (cl_func_interpreter.py:1000-1005). -/
def resetLoop : Nat → Int → List Nat → List Nat
  | 0, _, w => w
  | n + 1, i, w => resetLoop n (i + 1) (flipBit w i (getBit w i))

/-- The handlers of `cl_func_interpreter.py`; the capacity `cap` of every array is `64 * qreg.size // 64`, the
    number of words (lines 197, 256).  The
    limit of 64 bits for measured numbers is not modelled. -/
abbrev boolI (cap : Nat) : Interp where
  Q := Int
  A := JList
  S := Bq
  create n s :=
    let z := allocLoop n.toNat (JList.init [] cap) s.free
    some (z.1, { s with free := z.2 })
  getq a i := some (a.get i)
  size a := a.counter
  fuse x y := match x, y with
    | .inl p, .inl q => some (JList.init [p, q] cap)
    | .inr a, .inl q => some (a.append q)
    | .inl p, .inr b => some (b.prepend p)
    | .inr a, .inr b => some (a.extend b)
  slice a s t := some (a.slice (some s) (some t))
  gate g qs s := (processOp g qs s.w).map fun w => { s with w := w }
  meas1 q _ s := some ((getBit s.w q : Int), s)
  measA a _ s := some (measLoop s.w a a.counter.toNat 0 0, s)
  reset x s := match x with
    | .inl q => some { s with w := flipBit s.w q (getBit s.w q) }
    | .inr a =>
      let start := a.get 0
      let stop := start + a.get 1
      some { s with w := resetLoop (stop - start).toNat start s.w }
  delete a s := some (freeLoop a.counter.toNat a s)

/-- The state at the beginning for `bit_array_padding = 64 * W` (boolean_simulation.py:270-281). -/
def Bq.init (W : Nat) : Bq :=
  ⟨List.replicate W 0, JList.init ((List.range (64 * W)).map fun (i : Nat) => (i : Int)) (64 * W), 0⟩

/-! ### Execution -/

/-- The execution of a program on basis states: the next name, the value of every qubit, the names of the qubits that are not deleted and
    the number of qubits that were in state 1 when they were deleted. -/
structure Bx where
  next : Nat
  val : Nat → Bool
  live : List Nat
  dirty : Nat

/-- The effect of an uncontrolled gate on basis states, up to a phase. -/
def baseAct : String → List Bool → Option (List Bool)
  | "x", [b] => some [!b]
  | "y", [b] => some [!b]
  | "z", [b] => some [b]
  | "rz", [b] => some [b]
  | "t", [b] => some [b]
  | "s", [b] => some [b]
  | "t_dg", [b] => some [b]
  | "s_dg", [b] => some [b]
  | "p", [b] => some [b]
  | "swap", [a, b] => some [b, a]
  | _, _ => none

/-- The effect of a gate on basis states: a controlled operation acts iff its controls are in the control state. -/
def gateAct (g : Gd) (bs : List Bool) : Option (List Bool) :=
  match g.ctrl with
  | none => baseAct g.name bs
  | some (b, cs) => (baseAct b (bs.drop cs.length)).map fun r => if bs.take cs.length = cs then cs ++ r else bs

/-- Assigning values to qubits. -/
def setVals (f : Nat → Bool) : List Nat → List Bool → Nat → Bool
  | q :: qs, b :: bs => setVals (fun x => if x = q then b else f x) qs bs
  | _, _ => f

/-- The number with the given bits. -/
def bitsNum : List Bool → Int
  | [] => 0
  | b :: l => (if b then 1 else 0) + 2 * bitsNum l

/-- Restrictions of the executions that a theorem is about. -/
structure BGuard where
  slice : List Nat → Int → Int → Bool
  fuse : Nat ⊕ List Nat → Nat ⊕ List Nat → Bool
  create : Int → Nat → Bool
  gate : Gd → Bool
  resetA : Bool

def BGuard.free : BGuard := ⟨fun _ _ _ => true, fun _ _ => true, fun _ _ => true, fun _ => true, true⟩

/-- The execution on qubits with names that are never used again.  Using deleted qubits is an error, also gates on the same qubit twice. -/
abbrev boolX (G : BGuard) : Interp where
  Q := Nat
  A := List Nat
  S := Bx
  create n s := if 0 ≤ n ∧ G.create n s.live.length = true then
      let l := (List.range n.toNat).map (s.next + ·)
      some (l, ⟨s.next + n.toNat, fun q => if q ∈ l then false else s.val q, s.live ++ l, s.dirty⟩)
    else none
  getq l i := pyIdx l i
  size l := l.length
  fuse x y := if G.fuse x y then some (eitherQs x ++ eitherQs y) else none
  slice l s t := if G.slice l s t then some (pySlice l s t) else none
  gate g qs s := if G.gate g = true ∧ qs.Nodup ∧ ∀ q ∈ qs, q ∈ s.live then
      (gateAct g (qs.map s.val)).map fun bs => { s with val := setVals s.val qs bs }
    else none
  meas1 q _ s := if q ∈ s.live then some (if s.val q then 1 else 0, s) else none
  measA l _ s := if ∀ q ∈ l, q ∈ s.live then some (bitsNum (l.map s.val), s) else none
  reset x s := if (x.isLeft || G.resetA) = true ∧ ∀ q ∈ eitherQs x, q ∈ s.live then
      some { s with val := fun q => if q ∈ eitherQs x then false else s.val q } else none
  delete l s := if l.Nodup ∧ ∀ q ∈ l, q ∈ s.live then 
      some { s with live := s.live.filter (· ∉ l), dirty := s.dirty + (l.filter s.val).length } else none

end Verif.Jasp.Met
