import Mathlib.Data.List.Basic

/-!
# Circuits and post-processing functions of Jasp programs

`Jaspr.to_qc` (jasp/interpreter_tools/interpreters/qc_extraction_interpreter.py) turns a program into a circuit,
`Jaspr.extract_post_processing` (post_processing_interpreter.py) into the function that computes the results of the program
from the measurement results of the circuit.  Both are interpretations of the program with other values; `eval` is
`eval_jaxpr` for any of them.  Not modelled: `scan`, arrays of classical values (`MeasurementArray`), arguments that are qubits, and
the width of the integers.
-/

namespace Verif.Jasp.Xt

abbrev Var := Nat

inductive Ty where
  | bool
  | int
  | float
deriving DecidableEq

/-- Equations without subprograms.  `cls f n` is any classical primitive with `n` results; `conv` is
    `convert_element_type`; `gate g n` has `n` qubits and then parameters.  The quantum state is not listed among the
    arguments, because there is always exactly one. -/
inductive Prim where
  | cls (f : List Int → Option (List Int)) (n : Nat)
  | conv (t : Ty)
  | parity (e obs : Bool)
  | create
  | getq
  | size
  | fuse
  | slice
  | gate (g : String) (n : Nat)
  | meas
  | reset
  | delete

/-- The condition of a loop: one of the carried values itself, or a function of some of them. -/
inductive Cnd where
  | val (i : Nat)
  | fn (f : List Int → Option Bool) (pos : List Nat)

/-- Programs.  A call has constants (`jc` are the `constvars`, `kc` their values). -/
inductive Pg where
  | done
  | op (p : Prim) (ins outs : List Var) (rest : Pg)
  | call (jc : List Var) (kc : List Int) (ji jo : List Var) (body : Pg) (ins outs : List Var) (rest : Pg)
  | whl (c : Cnd) (bi bo : List Var) (body : Pg) (consts carries outs : List Var) (rest : Pg)
  | cond (p : Var) (ti tt : List Var) (t : Pg) (fi ft : List Var) (f : Pg) (ins outs : List Var) (rest : Pg)

/-- An interpretation: values, what stands for the quantum state, the equations, and the control flow.  `branch`
    gives the branch to take or `none`, if both are to be turned into conditional operations (from `enter` to `leave`). -/
structure Mach where
  V : Type
  S : Type
  lit : Int → V
  prim : Prim → List V → S → Option (List V × S)
  cnd : Cnd → List V → S → Option (Bool × S)
  branch : V → S → Option (Option Bool)
  args : List V → List V → List V
  enter : S → S
  leave : V → Bool → S → S → S

abbrev Ctx (V : Type) := Var → Option V

def Ctx.set {V : Type} (c : Ctx V) (v : Var) (x : V) : Ctx V := fun w => if w = v then some x else c w

def gets {V : Type} (c : Ctx V) : List Var → Option (List V)
  | [] => some []
  | v :: vs => (c v).bind fun x => (gets c vs).bind fun xs => some (x :: xs)

def sets {V : Type} (c : Ctx V) : List Var → List V → Option (Ctx V)
  | [], [] => some c
  | v :: vs, x :: xs => sets (c.set v x) vs xs
  | _, _ => none

/-- `evaluate_while_loop` (control_flow_interpretation.py:65-124). -/
def loop {α σ : Type} (body : α → σ → Option (α × σ)) (c : α → σ → Option (Bool × σ)) : Nat → α → σ → Option (α × σ)
  | 0, _, _ => none
  | fuel + 1, x, s => (c x s).bind fun b => if b.1 then (body x b.2).bind fun r => loop body c fuel r.1 r.2 else some (x, b.2)

/-- A subprogram: new variables, the program, its results. -/
def sub {V S : Type} (ev : Ctx V → S → Option (Ctx V × S)) (vi vo : List Var) (xs : List V) (s : S) : Option (List V × S) :=
  (sets (fun _ => none) vi xs).bind fun c0 => (ev c0 s).bind fun z => (gets z.1 vo).bind fun ys => some (ys, z.2)

/-- `eval_jaxpr` (abstract_interpreter.py:124-232). -/
def eval (M : Mach) (fuel : Nat) : Pg → Ctx M.V → M.S → Option (Ctx M.V × M.S)
  | .done, c, s => some (c, s)
  | .op p i o r, c, s => (gets c i).bind fun xs => (M.prim p xs s).bind fun z => (sets c o z.1).bind fun c' =>
      eval M fuel r c' z.2
  | .call jc kc ji jo b i o r, c, s => (gets c i).bind fun xs =>
      (sub (eval M fuel b) (jc ++ ji) jo (M.args (kc.map M.lit) xs) s).bind fun z => (sets c o z.1).bind fun c' =>
      eval M fuel r c' z.2
  | .whl cn bi bo b ks cs o r, c, s => (gets c ks).bind fun kv => (gets c cs).bind fun xs =>
      (loop (fun vs s => sub (eval M fuel b) bi bo (kv ++ vs) s) (M.cnd cn) fuel xs s).bind fun z =>
      (sets c o z.1).bind fun c' => eval M fuel r c' z.2
  | .cond p ti tt t fi ft f i o r, c, s => (c p).bind fun x => (gets c i).bind fun xs => (M.branch x s).bind fun b =>
      match b with
      | some false => (sub (eval M fuel f) fi ft xs s).bind fun z => (sets c o z.1).bind fun c' => eval M fuel r c' z.2
      | some true => (sub (eval M fuel t) ti tt xs s).bind fun z => (sets c o z.1).bind fun c' => eval M fuel r c' z.2
      | none => if o = [] then
            (sub (eval M fuel f) fi ft xs (M.enter s)).bind fun z =>
            (sub (eval M fuel t) ti tt xs (M.enter (M.leave x false s z.2))).bind fun z' =>
            eval M fuel r c (M.leave x true (M.leave x false s z.2) z'.2)
          else none

def allM {α β : Type} (f : α → Option β) : List α → Option (List β)
  | [] => some []
  | x :: xs => (f x).bind fun y => (allM f xs).bind fun ys => some (y :: ys)

def b2i (b : Bool) : Int := if b then 1 else 0

/-- The integer of a list of bits, the first is the lowest. -/
def ofBits : List Bool → Int
  | [] => 0
  | b :: l => b2i b + 2 * ofBits l

def xors : List Bool → Bool
  | [] => false
  | b :: l => b ^^ xors l

def convInt (t : Ty) (i : Int) : Int := match t with
  | .bool => if i = 0 then 0 else 1
  | _ => i

/-! ### Execution -/

inductive EVal where
  | int (i : Int)
  | qb (q : Nat)
  | arr (l : List Nat)

def EVal.toInt : EVal → Option Int
  | .int i => some i
  | _ => none

def EVal.toQb : EVal → Option Nat
  | .qb q => some q
  | _ => none

/-- What happens to the qubits. -/
inductive Ev where
  | alloc (q : Nat)
  | dealloc (q : Nat)
  | gate (g : String) (qs : List Nat) (ps : List Int)
  | meas (q : Nat)
  | reset (q : Nat)
deriving DecidableEq, Repr

/-- The state of an execution: number of qubits created and of qubits measured so far, what happened.  `odd` only
    notes that something happened that post-processing does not treat (see `postM`); it has no influence. -/
structure St where
  next : Nat
  k : Nat
  ev : List Ev
  odd : Bool

/-- Python `l[i]`. -/
def pyIdx (l : List Nat) (i : Int) : Option Nat :=
  if 0 ≤ i then l[i.toNat]? else if 0 ≤ i + l.length then l[(i + l.length).toNat]? else none

def pyBound (n : Nat) (i : Int) : Nat := if 0 ≤ i then min i.toNat n else (i + n).toNat

/-- Python `l[s:t]`. -/
def pySlice (l : List Nat) (s t : Int) : List Nat :=
  (l.take (pyBound l.length t)).drop (pyBound l.length s)

def fuseE : EVal → EVal → Option (List Nat)
  | .arr a, .arr b => some (a ++ b)
  | .qb q, .arr b => some (q :: b)
  | .arr a, .qb q => some (a ++ [q])
  | .qb p, .qb q => some [p, q]
  | _, _ => none

def isArr : EVal → Bool
  | .arr _ => true
  | _ => false

/-- The outcomes of `n` measurements from the `k`-th on. -/
def outs (mb : Nat → Bool) (k n : Nat) : List Bool := (List.range n).map fun i => mb (k + i)

/-- The primitives: abstract_quantum_register.py:125-208, abstract_quantum_state.py:65-105, measurement_primitive.py:56-114,
    parity_primitive.py:231-241 (the exception for a deviating detector is left out: the value is the one that is returned for an
    observable). -/
def execP (mb : Nat → Bool) : Prim → List EVal → St → Option (List EVal × St)
  | .cls f n, xs, s => (allM EVal.toInt xs).bind fun ys => (f ys).bind fun zs =>
      if zs.length = n then some (zs.map .int, s) else none
  | .conv t, [.int i], s => some ([.int (convInt t i)], s)
  | .parity e _, xs, s => (allM EVal.toInt xs).bind fun ys =>
      some ([.int (b2i (xors (ys.map fun i => decide (i % 2 = 1)) ^^ e))], s)
  | .create, [.int n], s =>
      let l := (List.range n.toNat).map (s.next + ·)
      some ([.arr l], { s with next := s.next + n.toNat, ev := s.ev ++ l.map .alloc, odd := s.odd || decide (n < 0) })
  | .getq, [.arr l, .int i], s => (pyIdx l i).bind fun q => some ([.qb q], s)
  | .size, [.arr l], s => some ([.int l.length], s)
  | .fuse, [x, y], s => (fuseE x y).bind fun l => some ([.arr l], { s with odd := s.odd || !(isArr x && isArr y) })
  | .slice, [.arr l, .int i, .int j], s =>
      some ([.arr (pySlice l i j)], { s with odd := s.odd || !decide (0 ≤ i ∧ i ≤ j ∧ j ≤ l.length) })
  | .gate g n, xs, s => (allM EVal.toQb (xs.take n)).bind fun qs => (allM EVal.toInt (xs.drop n)).bind fun ps =>
      some ([], { s with ev := s.ev ++ [.gate g qs ps] })
  | .meas, [.qb q], s => some ([.int (b2i (mb s.k))], { s with k := s.k + 1, ev := s.ev ++ [.meas q] })
  | .meas, [.arr l], s => some ([.int (ofBits (outs mb s.k l.length))],
      { s with k := s.k + l.length, ev := s.ev ++ l.map .meas })
  | .reset, [.qb q], s => some ([], { s with ev := s.ev ++ [.reset q] })
  | .reset, [.arr l], s => some ([], { s with ev := s.ev ++ l.map .reset })
  | .delete, [.arr l], s => some ([], { s with ev := s.ev ++ l.map .dealloc })
  | _, _, _ => none

def cndInts (c : Cnd) (xs : List (Option Int)) : Option Bool := match c with
  | .val i => (xs[i]?).bind fun x => x.bind fun n => some (decide (n ≠ 0))
  | .fn f pos => (allM (fun i => (xs[i]?).bind id) pos).bind f

/-- The execution of a program on qubits: `mb k` is the outcome of the `k`-th measurement of a qubit.  The index of a
    condition is 0 or 1. -/
abbrev execM (mb : Nat → Bool) : Mach where
  V := EVal
  S := St
  lit := .int
  prim := execP mb
  cnd c xs s := (cndInts c (xs.map EVal.toInt)).bind fun b => some (b, s)
  branch x _ := match x with
    | .int n => if n = 0 then some (some false) else if n = 1 then some (some true) else none
    | _ => none
  args ks xs := ks ++ xs
  enter s := s
  leave _ _ s _ := s

/-! ### Post-processing -/

/-- Arrays of qubits are their sizes, qubits are `None`. -/
inductive PVal where
  | int (i : Int)
  | sz (n : Int)
  | non

def PVal.toInt : PVal → Option Int
  | .int i => some i
  | _ => none

/-- Reading an array in jax: a negative index counts from the end, then it is clipped. -/
def bitAt (l : List Bool) (i : Int) : Bool :=
  let j := if i < 0 then i + l.length else i
  l.getD (min (max j 0) (l.length - 1)).toNat false

/-- The `fori_loop` over the bits (post_processing_interpreter.py:165-177). -/
def readBits (l : List Bool) (k : Int) (n : Nat) : Int := ofBits ((List.range n).map fun (i : Nat) => bitAt l (k + (i : Int)))

/-- The handlers (post_processing_interpreter.py:149-254); the state is `last_popped`.  A qubit that is fused is `None + …`, an
    error; the size of a slice is `stop - start`. -/
def postP (l : List Bool) : Prim → List PVal → Int → Option (List PVal × Int)
  | .cls f n, xs, s => (allM PVal.toInt xs).bind fun ys => (f ys).bind fun zs =>
      if zs.length = n then some (zs.map .int, s) else none
  | .conv t, [.int i], s => some ([.int (convInt t i)], s)
  | .parity e _, xs, s => (allM PVal.toInt xs).bind fun ys =>
      some ([.int (b2i (decide (ys.sum % 2 = 1) ^^ e))], s)
  | .create, [.int n], s => some ([.sz n], s)
  | .getq, [.sz _, .int _], s => some ([.non], s)
  | .size, [.sz n], s => some ([.int n], s)
  | .fuse, [.sz a, .sz b], s => some ([.sz (a + b)], s)
  | .slice, [.sz _, .int i, .int j], s => some ([.sz (j - i)], s)
  | .gate _ _, _, s => some ([], s)
  | .meas, [.non], s => some ([.int (b2i (bitAt l s))], s + 1)
  | .meas, [.sz n], s => some ([.int (readBits l s n.toNat)], s + n)
  | .reset, [_], s => some ([], s)
  | .delete, [_], s => some ([], s)
  | _, _, _ => none

/-- `extract_post_processing` (post_processing_interpreter.py:62-470).  A called program gets its constants after its arguments (line
    282), but expects them before (abstract_interpreter.py:159); the index of a condition is clipped (`jax.lax.switch`, line 337). -/
abbrev postM (l : List Bool) : Mach where
  V := PVal
  S := Int
  lit := .int
  prim := postP l
  cnd c xs s := (cndInts c (xs.map PVal.toInt)).bind fun b => some (b, s)
  branch x _ := match x with
    | .int n => some (some (decide (1 ≤ n)))
    | _ => none
  args ks xs := xs ++ ks
  enter s := s
  leave _ _ s _ := s

/-! ### Circuits -/

/-- Values during the construction of a circuit: `clb` is a `Clbit`, `clist` the list of them for an array, `par` a `ParityHandle`, `proc` a
    `ProcessedMeasurement`. -/
inductive XVal where
  | int (i : Int)
  | clb (c : Nat)
  | clist (l : List Nat)
  | par (cs : List Nat) (e : Bool)
  | proc
  | qb (q : Nat)
  | arr (l : List Nat)

def XVal.toInt : XVal → Option Int
  | .int i => some i
  | _ => none

def XVal.toQb : XVal → Option Nat
  | .qb q => some q
  | _ => none

/-- `contains_measurement_data` (qc_extraction_interpreter.py:306-327). -/
def mdata : XVal → Bool
  | .clb _ => true
  | .clist l => !l.isEmpty
  | .par _ _ => true
  | .proc => true
  | _ => false

/-- Instructions of a circuit; `cif c b` are instructions under the condition that the bit `c` is `b`. -/
inductive Ins where
  | ev (e : Ev)
  | meas (q c : Nat)
  | par (cs : List Nat) (e obs : Bool)
  | cif (c : Nat) (b : Bool) (body : List Ins)

/-- The circuit under construction: number of qubits, `qc.clbits`, the instructions.  `lost`: the variable of the quantum state
    is a `ProcessedMeasurement`.  `odd` and `nest` have no influence, they only note what happened: `odd` that something was taken for a value that
    it is not (see `extP`, `extCnd`, `leaveX`), `nest` that bits were added inside of a conditional operation. -/
structure Qc where
  nq : Nat
  clb : List Nat
  data : List Ins
  lost : Bool
  inner : Bool
  odd : Bool
  nest : Bool

def emit (s : Qc) (l : List Ins) : Qc := { s with data := s.data ++ l }

/-- A measurement of a qubit: the new bit is put in front (measurement_primitive.py:67-69, 74-76). -/
def measQ (s : Qc) (q : Nat) : Qc := { s with clb := s.clb.length :: s.clb, data := s.data ++ [.meas q s.clb.length] }

/-- `clbit_set.symmetric_difference_update` (qc_extraction_interpreter.py:737-746). -/
def symd (s l : List Nat) : List Nat := s.filter (fun c => !l.contains c) ++ l.filter (fun c => !s.contains c)

def parBits : XVal → List Nat
  | .clb c => [c]
  | .par cs _ => cs
  | .clist l => l
  | _ => []

/-- Sorting by the position in `qc.clbits` (qc_extraction_interpreter.py:749). -/
def sortBits (clb l : List Nat) : List Nat := clb.filter l.contains

/-- Inputs of a parity that do not contribute what they should: handles with expectation 1, known true values, lists. -/
def oddIn : XVal → Bool
  | .par _ e => e
  | .int i => decide (i % 2 = 1)
  | .clist _ => true
  | _ => false

def fuseX : XVal → XVal → Option (List Nat)
  | .arr a, .arr b => some (a ++ b)
  | .qb q, .arr b => some (q :: b)
  | .arr a, .qb q => some (a ++ [q])
  | .qb p, .qb q => some [p, q]
  | _, _ => none

def XVal.isProc : XVal → Bool
  | .proc => true
  | _ => false

/-- The number of results of a quantum primitive. -/
def outsOf : Prim → Nat
  | .create => 1
  | .getq => 1
  | .size => 1
  | .fuse => 1
  | .slice => 1
  | .meas => 1
  | _ => 0

/-- Does the primitive take the quantum state? -/
def takesState : Prim → Bool
  | .create => true
  | .gate _ _ => true
  | .meas => true
  | .reset => true
  | .delete => true
  | _ => false

/-- Quantum primitives whose inputs are all known (qc_extraction_interpreter.py:972-976). -/
def quantX : Prim → List XVal → Qc → Option (List XVal × Qc)
  | .create, [.int n], s =>
      let l := (List.range n.toNat).map (s.nq + ·)
      some ([.arr l], { emit s (l.map fun q => .ev (.alloc q)) with nq := s.nq + n.toNat })
  | .getq, [.arr l, .int i], s => (pyIdx l i).bind fun q => some ([.qb q], s)
  | .size, [.arr l], s => some ([.int l.length], s)
  | .fuse, [x, y], s => (fuseX x y).bind fun l => some ([.arr l], s)
  | .slice, [.arr l, .int i, .int j], s => some ([.arr (pySlice l i j)], s)
  | .gate g n, xs, s => (allM XVal.toQb (xs.take n)).bind fun qs => (allM XVal.toInt (xs.drop n)).bind fun ps =>
      some ([], emit s [.ev (.gate g qs ps)])
  | .meas, [.qb q], s => some ([.clb s.clb.length], measQ s q)
  | .meas, [.arr l], s => some ([.clist ((List.range l.length).map (s.clb.length + ·))], l.foldl measQ s)
  | .reset, [.qb q], s => some ([], emit s [.ev (.reset q)])
  | .reset, [.arr l], s => some ([], emit s (l.map fun q => .ev (.reset q)))
  | .delete, [.arr l], s => some ([], emit s (l.map fun q => .ev (.dealloc q)))
  | _, _, _ => none

/-- `convert_element_type` (qc_extraction_interpreter.py:778-814).  A list that is converted to a truth value stays the list. -/
def convX (t : Ty) (x : XVal) (s : Qc) : Option (List XVal × Qc) := match x with
  | .int i => some ([.int (convInt t i)], s)
  | .clb c => some ([if t = .float then .proc else .clb c], s)
  | .proc => some ([.proc], s)
  | .clist [] => none
  | .clist l => if t = .bool then some ([.clist l], { s with odd := s.odd || decide (l.length ≠ 1) }) else some ([.proc], s)
  | _ => none

/-- `jasp.parity` (qc_extraction_interpreter.py:725-767).  Inside of a conditional operation the parity is appended to
    the outermost circuit; here it is appended to the inner one and `odd` is noted. -/
def parityX (e obs : Bool) (xs : List XVal) (s : Qc) : Option (List XVal × Qc) :=
  if xs.any XVal.isProc then some ([.proc], s)
  else
    let cs := sortBits s.clb (xs.foldl (fun a x => symd a (parBits x)) [])
    some ([.par cs e], { emit s [.par cs e obs] with odd := s.odd || s.inner || xs.any oddIn })

/-- `qc_extraction_eqn_evaluator` (qc_extraction_interpreter.py:642-995) without control flow.  A quantum primitive with an input that
    depends on a measurement is left out and all its results, also the quantum state, are `ProcessedMeasurement`s (lines
    967-995). -/
def extP : Prim → List XVal → Qc → Option (List XVal × Qc)
  | .cls f n, xs, s => if xs.any mdata then some (List.replicate n .proc, s)
      else (allM XVal.toInt xs).bind fun ys => (f ys).bind fun zs => if zs.length = n then some (zs.map .int, s) else none
  | .conv t, xs, s => match xs with
      | [x] => convX t x s
      | _ => none
  | .parity e obs, xs, s => parityX e obs xs s
  | p, xs, s => if takesState p && s.lost || xs.any mdata then
        some (List.replicate (outsOf p) .proc, { s with lost := s.lost || takesState p })
      else quantX p xs s

/-- The condition of a loop (control_flow_interpretation.py:88-100, 106): a `ProcessedMeasurement` is an error, but a `Clbit`, a handle or
    a list that is not empty is true in Python. -/
def extCnd (c : Cnd) (xs : List XVal) (s : Qc) : Option (Bool × Qc) := match c with
  | .val i => (xs[i]?).bind fun x => match x with
      | .int n => some (decide (n ≠ 0), s)
      | .clb _ => some (true, { s with odd := true })
      | .par _ _ => some (true, { s with odd := true })
      | .clist l => some (!l.isEmpty, { s with odd := true })
      | _ => none
  | .fn f pos => (cndInts (.fn f pos) (xs.map XVal.toInt)).bind fun b => some (b, s)

/-- `eval_qc` and `cond_to_cl_control` (jaspr_to_gate_interpreter.py:21-98): a bit as condition; the new bits are appended at the
    end (in the order of a Python set, here the order of their creation).  The state of the branch is replaced by the inner circuit, even if
    it is a `ProcessedMeasurement`. -/
def leaveX (x : XVal) (b : Bool) (s t : Qc) : Qc := match x with
  | .clb c =>
    { s with
      nq := t.nq
      clb := s.clb ++ (List.range (t.clb.length - s.clb.length)).map (s.clb.length + ·)
      data := s.data ++ (match t.data with | [] => [] | l => [.cif c b l])
      odd := t.odd || t.lost
      nest := s.nest || t.nest || decide (t.clb.length ≠ s.clb.length) }
  | _ => s

abbrev extM : Mach where
  V := XVal
  S := Qc
  lit := .int
  prim := extP
  cnd := extCnd
  branch x s := match x with
    | .int n => if n = 0 then some (some false) else if n = 1 then some (some true) else none
    | .clb _ => if s.lost then none else some none
    | _ => none
  args ks xs := ks ++ xs
  enter s := { s with data := [], inner := true }
  leave := leaveX

def Qc.init : Qc := ⟨0, [], [], false, false, false, false⟩

/-! ### Running a circuit -/

/-- Number of measurements so far, the values of the bits, what happened to the qubits. -/
structure Rt where
  k : Nat
  mem : Nat → Option Bool
  ev : List Ev

mutual

/-- Running an instruction; `mb k` is the outcome of the `k`-th measurement. -/
def runI (mb : Nat → Bool) : Ins → Rt → Rt
  | .ev e, r => { r with ev := r.ev ++ [e] }
  | .meas q c, r => ⟨r.k + 1, fun d => if d = c then some (mb r.k) else r.mem d, r.ev ++ [.meas q]⟩
  | .par _ _ _, r => r
  | .cif c b body, r => if (r.mem c).getD false = b then runL mb body r else r

def runL (mb : Nat → Bool) : List Ins → Rt → Rt
  | [], r => r
  | i :: l, r => runL mb l (runI mb i r)

end

def Rt.init : Rt := ⟨0, fun _ => none, []⟩

/-- The key of `qc.run()`: the bits in reverse order (simulator.py:322-398). -/
def key (s : Qc) (r : Rt) : List Bool := (s.clb.map fun c => (r.mem c).getD false).reverse

end Verif.Jasp.Xt
