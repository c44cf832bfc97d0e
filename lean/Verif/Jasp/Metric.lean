import Mathlib.Data.List.Dedup
import Verif.Jasp.Prog

/-!
# Resource estimation of Jasp programs

`jasp/interpreter_tools/interpreters/profiling_interpreter.py` executes a program with other handlers for the
quantum primitives; `count_ops_metric.py`, `num_qubits_metric.py` and `depth_metric.py` contain them.
-/

namespace Verif.Jasp.Met

abbrev Var := Nat

/-- A gate: the operations of its (transpiled) definition with the positions of their qubits; a
    gate without definition is a single operation on all its qubits.  `name` and, for a controlled operation, the name of its
    base operation and its control state are only used by Boolean.lean. -/
structure Gd where
  ops : List (String × List Nat)
  name : String := ""
  ctrl : Option (String × List Bool) := none

/-- Programs as in Prog.lean, with the primitives for arrays of qubits as equations of their own: `getq`
    (`get_qubit`), `size` (`get_size`), `fuse`, `slice`, and measurements of a qubit or an array.  The condition of a loop is a
    function of the carried numbers. -/
inductive Pg where
  | done
  | cls (f : List Int → Option (List Int)) (ins outs : List Var) (rest : Pg)
  | create (out size : Var) (rest : Pg)
  | getq (out a i : Var) (rest : Pg)
  | size (out a : Var) (rest : Pg)
  | fuse (out a b : Var) (rest : Pg)
  | slice (out a s t : Var) (rest : Pg)
  | gate (g : Gd) (qs : List Var) (rest : Pg)
  | meas (out q : Var) (rest : Pg)
  | reset (q : Var) (rest : Pg)
  | delete (a : Var) (rest : Pg)
  | call (ji jo : List Var) (body : Pg) (ins outs : List Var) (rest : Pg)
  | whl (c : List (Option Int) → Option Bool) (bi bo : List Var) (body : Pg) (consts carries outs : List Var) (rest : Pg)
  | cond (p : Var) (ti tt : List Var) (t : Pg) (fi ft : List Var) (f : Pg) (ins outs : List Var) (rest : Pg)

inductive Val (Q A : Type) where
  | int (i : Int)
  | qb (q : Q)
  | arr (a : A)

/-- A set of handlers (`BaseMetric.get_handlers`, profiling_interpreter.py:221-235): what qubits, arrays and the quantum
    state are replaced by. -/
structure Interp where
  Q : Type
  A : Type
  S : Type
  create : Int → S → Option (A × S)
  getq : A → Int → Option Q
  size : A → Int
  fuse : Q ⊕ A → Q ⊕ A → Option A
  slice : A → Int → Int → Option A
  gate : Gd → List Q → S → Option S
  meas1 : Q → Int → S → Option (Int × S)
  measA : A → Int → S → Option (Int × S)
  reset : Q ⊕ A → S → Option S
  delete : A → S → Option S

variable (I : Interp)

abbrev Ctx := Var → Option (Val I.Q I.A)

variable {I}

def Ctx.set (c : Ctx I) (v : Var) (x : Val I.Q I.A) : Ctx I := fun w => if w = v then some x else c w

def gets (c : Ctx I) : List Var → Option (List (Val I.Q I.A))
  | [] => some []
  | v :: vs => (c v).bind fun x => (gets c vs).bind fun xs => some (x :: xs)

def sets (c : Ctx I) : List Var → List (Val I.Q I.A) → Option (Ctx I)
  | [], [] => some c
  | v :: vs, x :: xs => sets (c.set v x) vs xs
  | _, _ => none

def Val.toInt {Q A : Type} : Val Q A → Option Int
  | .int i => some i
  | _ => none

def Val.toQb {Q A : Type} : Val Q A → Option Q
  | .qb q => some q
  | _ => none

def Val.toArr {Q A : Type} : Val Q A → Option A
  | .arr a => some a
  | _ => none

def Val.toEither {Q A : Type} : Val Q A → Option (Q ⊕ A)
  | .qb q => some (.inl q)
  | .arr a => some (.inr a)
  | _ => none

def loop {α σ : Type} (body : α → σ → Option (α × σ)) (c : α → Option Bool) : Nat → α → σ → Option (α × σ)
  | 0, _, _ => none
  | fuel + 1, x, s => (c x).bind fun b => if b then (body x s).bind fun r => loop body c fuel r.1 r.2 else some (x, s)

/-- `profiling_eqn_evaluator` (profiling_interpreter.py:411-583) in `eval_jaxpr`: the variables, the entry
    `_meas_number` of the `context_dic`, which is new in every called program, branch and iteration (num_qubits_metric.py:157, depth_metric.py:263),
    and the quantum state. -/
def eval (I : Interp) (fuel : Nat) : Pg → Ctx I → Int → I.S → Option (Ctx I × I.S)
  | .done, c, _, s => some (c, s)
  | .cls f i o r, c, k, s => (gets c i).bind fun xs => (allM Val.toInt xs).bind fun ys => (f ys).bind fun zs =>
      (sets c o (zs.map .int)).bind fun c' => eval I fuel r c' k s
  | .create o v r, c, k, s => (c v).bind fun x => x.toInt.bind fun n => (I.create n s).bind fun z =>
      eval I fuel r (c.set o (.arr z.1)) k z.2
  | .getq o a v r, c, k, s => (c a).bind fun x => x.toArr.bind fun x => (c v).bind fun y => y.toInt.bind fun i =>
      (I.getq x i).bind fun q => eval I fuel r (c.set o (.qb q)) k s
  | .size o a r, c, k, s => (c a).bind fun x => x.toArr.bind fun x => eval I fuel r (c.set o (.int (I.size x))) k s
  | .fuse o a b r, c, k, s => (c a).bind fun x => x.toEither.bind fun x => (c b).bind fun y => y.toEither.bind fun y =>
      (I.fuse x y).bind fun z => eval I fuel r (c.set o (.arr z)) k s
  | .slice o a u v r, c, k, s => (c a).bind fun x => x.toArr.bind fun x => (c u).bind fun y => y.toInt.bind fun i =>
      (c v).bind fun y => y.toInt.bind fun j => (I.slice x i j).bind fun z => eval I fuel r (c.set o (.arr z)) k s
  | .gate g qs r, c, k, s => (gets c qs).bind fun xs => (allM Val.toQb xs).bind fun bs => (I.gate g bs s).bind fun s' =>
      eval I fuel r c k s'
  | .meas o q r, c, k, s => (c q).bind fun x => match x with
      | .int _ => none
      | .qb b => (I.meas1 b k s).bind fun z => eval I fuel r (c.set o (.int z.1)) (k + 1) z.2
      | .arr a => (I.measA a k s).bind fun z => eval I fuel r (c.set o (.int z.1)) (k + I.size a) z.2
  | .reset q r, c, k, s => (c q).bind fun x => x.toEither.bind fun x => (I.reset x s).bind fun s' => eval I fuel r c k s'
  | .delete a r, c, k, s => (c a).bind fun x => x.toArr.bind fun x => (I.delete x s).bind fun s' => eval I fuel r c k s'
  | .call ji jo b i o r, c, k, s => (gets c i).bind fun xs => (sets (fun _ => none) ji xs).bind fun c0 =>
      (eval I fuel b c0 0 s).bind fun z => (gets z.1 jo).bind fun ys => (sets c o ys).bind fun c' => eval I fuel r c' k z.2
  | .whl cn bi bo b ks cs o r, c, k, s => (gets c ks).bind fun kv => (gets c cs).bind fun xs =>
      (loop (fun vs s => (sets (fun _ => none) bi (kv ++ vs)).bind fun c0 => (eval I fuel b c0 0 s).bind fun z =>
          (gets z.1 bo).bind fun ys => some (ys, z.2)) (fun vs => cn (vs.map Val.toInt)) fuel xs s).bind fun z =>
      (sets c o z.1).bind fun c' => eval I fuel r c' k z.2
  | .cond p ti tt t fi ft f i o r, c, k, s => (c p).bind fun x => x.toInt.bind fun n => (gets c i).bind fun xs =>
      (if n = 0 then (sets (fun _ => none) fi xs).bind fun c0 => (eval I fuel f c0 0 s).bind fun z =>
            (gets z.1 ft).bind fun ys => some (ys, z.2)
        else (sets (fun _ => none) ti xs).bind fun c0 => (eval I fuel t c0 0 s).bind fun z =>
            (gets z.1 tt).bind fun ys => some (ys, z.2)).bind fun z =>
      (sets c o z.1).bind fun c' => eval I fuel r c' k z.2

/-! ### Execution -/

/-- What happens to the qubits. -/
inductive Ev where
  | create (qs : List Nat)
  | delete (qs : List Nat)
  | gate (name : String) (qs : List Nat)
  | meas (qs : List Nat)
deriving DecidableEq, Repr

/-- Restrictions of the executions that a theorem is about: for `get_qubit` (array, index), `slice` (array, start, stop), `fuse`
    (operands), `create` (size, number of qubits so far). -/
structure Guard where
  getq : List Nat → Int → Bool
  slice : List Nat → Int → Int → Bool
  fuse : Nat ⊕ List Nat → Nat ⊕ List Nat → Bool
  create : Int → Nat → Bool

def Guard.free : Guard := ⟨fun _ _ => true, fun _ _ _ => true, fun _ _ => true, fun _ _ => true⟩

/-- The state of an execution: the number of qubits created so far (the next name) and what happened. -/
structure St where
  next : Nat
  ev : List Ev

/-- The number of measured qubits. -/
def measured : List Ev → Nat
  | [] => 0
  | .meas qs :: l => qs.length + measured l
  | _ :: l => measured l

def eitherQs : Nat ⊕ List Nat → List Nat
  | .inl q => [q]
  | .inr l => l

/-- Python `l[i]`: negative indices count from the end (jasp/primitives/abstract_quantum_register.py, evaluation of
    `get_qubit_p`). -/
def pyIdx (l : List Nat) (i : Int) : Option Nat :=
  if 0 ≤ i then l[i.toNat]? else if 0 ≤ i + l.length then l[(i + l.length).toNat]? else none

/-- A bound of a Python slice. -/
def pyBound (n : Nat) (i : Int) : Nat := if 0 ≤ i then min i.toNat n else (i + n).toNat

/-- Python `l[s:t]`. -/
def pySlice (l : List Nat) (s t : Int) : List Nat :=
  (l.take (pyBound l.length t)).drop (pyBound l.length s)

/-- The outcome of measuring `n` qubits with outcomes `mb` from key `k` on (profiling_interpreter.py:87-92). -/
def outcome (mb : Int → Bool) (k : Int) : Nat → Int
  | 0 => 0
  | n + 1 => outcome mb k n + (if mb (k + n) then 2 ^ n else 0)

/-- The elementary operations of a gate. -/
def elems (g : Gd) (qs : List Nat) : Option (List Ev) :=
  allM (fun o => (allM (fun i => qs[i]?) o.2).map (Ev.gate o.1)) g.ops

/-- The execution of a program on real qubits.  The outcome of a measurement is given by `mb` for a key: the number of qubits
    measured before (`glob`) or the number of qubits measured before in the same called program or iteration. -/
abbrev exact (G : Guard) (mb : Int → Bool) (glob : Bool) : Interp where
  Q := Nat
  A := List Nat
  S := St
  create n s := if G.create n s.next then
      let l := (List.range n.toNat).map (s.next + ·)
      some (l, ⟨s.next + n.toNat, s.ev ++ [.create l]⟩)
    else none
  getq l i := if G.getq l i then pyIdx l i else none
  size l := l.length
  fuse x y := if G.fuse x y then some (eitherQs x ++ eitherQs y) else none
  slice l s t := if G.slice l s t then some (pySlice l s t) else none
  gate g qs s := (elems g qs).map fun l => { s with ev := s.ev ++ l }
  meas1 q k s := some (outcome mb (if glob then measured s.ev else k) 1, { s with ev := s.ev ++ [.meas [q]] })
  measA l k s := some (outcome mb (if glob then measured s.ev else k) l.length, { s with ev := s.ev ++ [.meas l] })
  reset _ s := some s
  delete l s := some { s with ev := s.ev ++ [.delete l] }

/-! ### The number of operations -/

/-- `op_counts` of a gate (count_ops_metric.py:162-165). -/
def opCounts (g : Gd) : List (String × Nat) :=
  ((g.ops.map (·.1)).dedup).map fun n => (n, (g.ops.map (·.1)).count n)

/-- The addition in steps of at most 5 (count_ops_metric.py:182-185). -/
def bump : Nat → Nat → Nat → Nat
  | 0, _, x => x
  | _ + 1, 0, x => x
  | fuel + 1, c + 1, x => bump fuel (c + 1 - min (c + 1) 5) (x + min (c + 1) 5)

/-- The counters; the array with the positions of `profiling_dic` is a function of the names. -/
structure Cnt where
  op : String → Int
  meas : Int

/-- `CountOpsMetric` (count_ops_metric.py:49-206).  A qubit is `None`, an array its size; `None + int` is an error. -/
abbrev countI (mb : Int → Bool) : Interp where
  Q := Unit
  A := Int
  S := Cnt
  create n s := some (n, s)
  getq _ _ := some ()
  size n := n
  fuse x y := match x, y with
    | .inr a, .inr b => some (a + b)
    | _, _ => none
  slice n s t := some (min t n - max s 0)
  gate g _ s := some { s with op := (opCounts g).foldl (fun (f : String → Int) x n => if n = x.1 then f n + (bump x.2 x.2 0 : Nat) else f n) s.op }
  meas1 _ _ s := some (outcome mb s.meas 1, { s with meas := s.meas + 1 })
  measA n _ s := some (outcome mb s.meas n.toNat, { s with meas := s.meas + n })
  reset _ s := some s
  delete _ s := some s

/-! ### The number of qubits -/

/-- The array of allocations, the next index and the flag for an overflow (num_qubits_metric.py:100-104). -/
structure Al where
  arr : List Int
  idx : Nat
  bad : Bool

/-- Recording a size (num_qubits_metric.py:116-120, 203-207); writing outside of the array has no effect in jax. -/
def Al.push (max : Nat) (s : Al) (x : Int) : Al :=
  ⟨s.arr.set s.idx x, s.idx + 1, s.bad || decide (max < s.idx + 1)⟩

/-- `NumQubitsMetric` (num_qubits_metric.py:53-230). -/
abbrev numI (mb : Int → Bool) (mx : Nat) : Interp where
  Q := Unit
  A := Int
  S := Al
  create n s := some (n, s.push mx n)
  getq _ _ := some ()
  size n := n
  fuse x y := match x, y with
    | .inr a, .inr b => some (a + b)
    | _, _ => none
  slice n s t := some (min t n - max s 0)
  gate _ _ s := some s
  meas1 _ k s := some (outcome mb k 1, s)
  measA n k s := some (outcome mb k n.toNat, s)
  reset _ s := some s
  delete n s := some (s.push mx (-n))

/-- `_peak_allocated_qubits` (num_qubits_metric.py:233-239). -/
def peak (l : List Int) : Int := (l.foldl (fun (p : Int × Int) d => (p.1 + d, max p.2 (p.1 + d))) (0, 0)).2

/-- The result of `extract_num_qubits` (num_qubits_metric.py:242-266): allocated, deallocated, peak, at the end. -/
def extractNum (s : Al) : Option (Int × Int × Int × Int) :=
  if s.bad then none
  else
    let l := s.arr.take s.idx
    some ((l.filter (0 < ·)).sum, -(l.filter (· < 0)).sum, peak l, l.sum)

def Al.init (mx : Nat) : Al := ⟨List.replicate mx 0, 0, false⟩

/-! ### The depth -/

/-- The depths of the qubits, the depth of the circuit, the number of qubits, the flag for an overflow
    (depth_metric.py:138-163). -/
structure Dp where
  dep : List Int
  cur : Int
  prev : Int
  bad : Bool

/-- `depth_array[i]` with `jnp.take`: outside of the array the smallest number. -/
def takeAt (l : List Int) (i : Int) : Int := if 0 ≤ i then l.getD i.toNat (-2 ^ 63) else -2 ^ 63

def maxL : List Int → Int
  | [] => 0
  | [x] => x
  | x :: l => max x (maxL l)

/-- `.at[ids].set(e)`. -/
def setAll (l : List Int) (ids : List Int) (e : Int) : List Int :=
  ids.foldl (fun l i => if 0 ≤ i then l.set i.toNat e else l) l

/-- `_apply_duration_on_qubits` with duration 1 (depth_metric.py:43-59). -/
def apply1 (s : Dp) (ids : List Int) : Dp :=
  let e := maxL (ids.map (takeAt s.dep)) + 1
  { s with dep := setAll s.dep ids e, cur := max s.cur e }

/-- Reading a jax array: a negative index counts from the end, then it is clipped (0 for the empty array). -/
def gat (l : List Int) (i : Int) : Int :=
  let j := if i < 0 then i + l.length else i
  l.getD (min (max j 0) (l.length - 1)).toNat 0

/-- `_as_qubit_array_handle` (depth_metric.py:79-84). -/
def handle : Int ⊕ (List Int × Int) → List Int × Int
  | .inl q => ([q], 1)
  | .inr a => a

/-- `DepthMetric` (depth_metric.py:102-357); an array is a table of numbers with a size, the length of the table is the size, if it
    is known at compile time, else `mx` (`len`). -/
abbrev depthI (mb : Int → Bool) (mx : Nat) (len : Int → Nat) : Interp where
  Q := Int
  A := List Int × Int
  S := Dp
  create n s := some (((List.range (len n)).map fun (i : Nat) => s.prev + (i : Int), n),
    { s with prev := s.prev + n, bad := s.bad || decide ((mx : Int) < s.prev + n) })
  getq a i := some (gat a.1 i)
  size a := a.2
  fuse x y :=
    let a := handle x
    let b := handle y
    let sz := min (a.2 + b.2) mx
    some ((List.range (len sz)).map fun (i : Nat) =>
      if (i : Int) < a.2 then gat a.1 (min (max (i : Int) 0) (max (a.2 - 1) 0))
      else gat b.1 (min (max ((i : Int) - a.2) 0) (max (b.2 - 1) 0)), sz)
  slice a s t :=
    let s := if s < 0 then s + a.2 else s
    let t := if t < 0 then t + a.2 else t
    let s := max s 0
    let t := max (min t a.2) s
    some ((List.range (len (t - s))).map fun (i : Nat) => gat a.1 (s + i), t - s)
  gate g qs s := (allM (fun o => allM (fun i => qs[i]?) o.2) g.ops).map fun l =>
    l.foldl (fun s ids => if ids = [] then s else apply1 s ids) s
  meas1 _ k s := some (outcome mb k 1, s)
  measA a k s := some (outcome mb k a.2.toNat, s)
  reset _ s := some s
  delete _ s := some s

def Dp.init (mx : Nat) : Dp := ⟨List.replicate mx 0, 0, 0, false⟩

/-- `extract_depth` (depth_metric.py:360-368). -/
def extractDepth (s : Dp) : Option Int := if s.bad then none else some s.cur

end Verif.Jasp.Met
