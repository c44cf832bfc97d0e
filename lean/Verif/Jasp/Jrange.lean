import Mathlib.Data.List.Basic
import Mathlib.Data.Set.Function

/-!
# Loops over `jrange`

`for i in jrange(start, stop)` (jasp/program_control/jrange_iterator.py) traces the body of the loop twice; `collect_environments`
(jasp/jasp_expression/environment_collection.py) turns the equations of each iteration into an equation with input and output variables, and
`iteration_env_evaluator` (environments/jiteration_environment.py) makes a `while` loop from the first of them, after
comparing it with the second.
-/

namespace Verif.Jasp.Jr

/-- An argument of an equation. -/
inductive Atom (X : Type) where
  | v (x : X)
  | lit (i : Int)
  deriving DecidableEq

def Atom.map {X Y : Type} (f : X → Y) : Atom X → Atom Y
  | .v x => .v (f x)
  | .lit i => .lit i

def Atom.var {X : Type} : Atom X → Option X
  | .v x => some x
  | .lit _ => none

/-- A primitive and its parameters (the gate of `jasp.quantum_gate`, the name of a compiled function). -/
structure Op where
  name : String
  param : String
  deriving DecidableEq

def addOp : Op := ⟨"add", ""⟩

/-- `_jrange_marker` (jrange_iterator.py:33-42). -/
def markOp : Op := ⟨"jit", "_jrange_marker"⟩

structure Eqn (X : Type) where
  op : Op
  ins : List (Atom X)
  outs : List X
  deriving DecidableEq

def Eqn.map {X Y : Type} (f : X → Y) (q : Eqn X) : Eqn Y := ⟨q.op, q.ins.map (Atom.map f), q.outs.map f⟩

/-- A statement of a Python program on names; `copy a b` is `a = b`. -/
inductive Stm where
  | op (o : Op) (ins : List (Atom Nat)) (outs : List Nat)
  | copy (a b : Nat)

/-- Numbers and everything else (the quantum state, qubits). -/
inductive Val (S : Type) where
  | int (i : Int)
  | q (s : S)
  deriving DecidableEq

section
variable {X : Type} [DecidableEq X]

def upd {Y : Type} (f : X → Y) (x : X) (y : Y) : X → Y := fun z => if z = x then y else f z

def getA {S : Type} (e : X → Option (Val S)) : List (Atom X) → Option (List (Val S))
  | [] => some []
  | .v x :: l => (e x).bind fun a => (getA e l).map (a :: ·)
  | .lit i :: l => (getA e l).map (.int i :: ·)

def setA {S : Type} (e : X → Option (Val S)) : List X → List (Val S) → Option (X → Option (Val S))
  | [], [] => some e
  | x :: l, y :: r => setA (upd e x (some y)) l r
  | _, _ => none

/-- The execution of equations. -/
def run {S : Type} (F : Op → List (Val S) → Option (List (Val S))) : List (Eqn X) → (X → Option (Val S)) → Option (X → Option (Val S))
  | [], e => some e
  | q :: r, e => (getA e q.ins).bind fun xs => (F q.op xs).bind fun ys => (setA e q.outs ys).bind (run F r)

/-- New names of values. -/
def assign {Y : Type} (t : Nat → Y) : List Nat → List Y → Nat → Y
  | a :: l, y :: r => assign (upd t a y) l r
  | _, _ => t

/-- Tracing: every executed operation becomes an equation with new variables, assignments only change what a name means. -/
def traceG (mk : Nat → X) : List Stm → (Nat → X) → Nat → List (Eqn X) × (Nat → X) × Nat
  | [], t, n => ([], t, n)
  | .op o i outs :: r, t, n =>
    let fresh := (List.range' n outs.length).map mk
    let z := traceG mk r (assign t outs fresh) (n + outs.length)
    (⟨o, i.map (Atom.map t), fresh⟩ :: z.1, z.2)
  | .copy a b :: r, t, n => traceG mk r (upd t a (t b)) n

/-! ### Collecting the environments -/

def uses (E : List (Eqn X)) : List X := E.flatMap fun q => q.ins.filterMap Atom.var
def prods (E : List (Eqn X)) : List X := E.flatMap fun q => q.outs

/-- The variables of a list in the order of their first appearance, without those in `seen`. -/
def firsts (seen : List X) : List X → List X
  | [] => []
  | x :: l => if x ∈ seen then firsts seen l else x :: firsts (x :: seen) l

/-- The input variables (environment_collection.py:159-165, 186, 466-501): used and not produced, in the order of the first use, the quantum
    state `s` at the end. -/
def envIns (E : List (Eqn X)) (s : X) : List X := (firsts (prods E) (uses E)).erase s ++ [s]

/-- The output variables (environment_collection.py:167-181, 187, 233-264): produced and used later, the quantum state at the end.  The order
    of the others in the code is that of a Python set. -/
def envOuts (E : List (Eqn X)) (s : X) (later : List X) : List X := (prods E).filter (fun v => v ∈ later ∧ v ≠ s) ++ [s]

/-- An equation `jasp.q_env`; the variables of its body are those of the equation. -/
structure EnvE (X : Type) where
  ins : List X
  outs : List X
  eqns : List (Eqn X)

end

/-! ### Compiling the loop -/

/-- `_find_marker_eqn` (jiteration_environment.py:144-150). -/
def findMarker (E : List (Eqn Nat)) : Option (Eqn Nat) := E.reverse.find? fun q => q.op = markOp

/-- `_find_vars_from_marker` (jiteration_environment.py:157-179): the threshold and the loop index. -/
def markerVars (e : EnvE Nat) : Option (Nat × Nat) :=
  (findMarker e.eqns).bind fun m => match m.ins with
    | [.v u, .v th] => (e.eqns.reverse.find? fun q => q.outs.head? = some u).bind fun q => match q.ins.head? with
      | some (.v l) => if th ∈ e.ins ∧ l ∈ e.ins then some (th, l) else none
      | _ => none
    | _ => none

/-- `_move_var_to_front` (jiteration_environment.py:201-204). -/
def toFront {X : Type} [DecidableEq X] (l : List X) (v : X) : List X := v :: l.erase v

/-- The comparison of arguments in `verify_semantic_equivalence` (jiteration_environment.py:356-367). -/
def checkAtoms : List (Atom Nat) → List (Atom Nat) → (Nat → Option (Atom Nat)) → Option (Nat → Option (Atom Nat))
  | _, [], d => some d
  | [], _ :: _, _ => none
  | .lit i :: r, y :: s, d => if y = .lit i then checkAtoms r s d else none
  | .v x :: r, y :: s, d => match d x with
    | some z => if z = y then checkAtoms r s d else none
    | none => checkAtoms r s (upd d x (some y))

/-- `verify_semantic_equivalence` (jiteration_environment.py:328-367): the names of the primitives and the arguments are compared,
    parameters and outputs are not. -/
def verify (ins : List Nat) : List (Eqn Nat) → List (Eqn Nat) → (Nat → Option (Atom Nat)) → Bool
  | [], _, _ => true
  | _ :: _, [], _ => false
  | a :: r, b :: s, d =>
    if a.op.name = b.op.name then match checkAtoms a.ins b.ins d with
      | some d' => verify ins r s d'
      | none => false
    else if a.op.name = "convert_element_type" ∧ (∃ x ∈ ins, a.ins.head? = some (.v x)) then verify ins r (b :: s) d
    else false

/-- The rule of one input (jiteration_environment.py:250-276): `none` for no update; `cls` are the variables of numbers and arrays. -/
def rule (cls : Nat → Bool) (outs : List Nat) (v1 v2 : Nat) : Option (Option Nat) :=
  if v1 = v2 then some none
  else if v2 ∈ outs then some (some (outs.idxOf v2))
  else if cls v2 then some none
  else none

/-- The rules from position 2 on; too few inputs of the second iteration are an error. -/
def rules (cls : Nat → Bool) (outs : List Nat) : List Nat → List Nat → Option (List (Option Nat))
  | [], _ => some []
  | _ :: _, [] => none
  | a :: r, b :: s => (rule cls outs a b).bind fun x => (rules cls outs r s).map (x :: ·)

structure Loop where
  ins : List Nat
  outs : List Nat
  eqns : List (Eqn Nat)
  rules : List (Option Nat)

/-- `iteration_env_evaluator` (jiteration_environment.py:98-276). -/
def compile (cls : Nat → Bool) (e1 e2 : EnvE Nat) : Option Loop :=
  if e2.outs.length > 1 then none else
  (markerVars e1).bind fun z1 => (markerVars e2).bind fun z2 => (findMarker e1.eqns).bind fun m => m.outs.head?.bind fun o =>
  if o ∈ e1.outs then
    let i1 := toFront (toFront e1.ins z1.2) z1.1
    let i2 := toFront (toFront e2.ins z2.2) z2.1
    if verify e1.ins e1.eqns e2.eqns (fun _ => none) then
      (rules cls e1.outs (i1.drop 2) (i2.drop 2)).map fun r => ⟨i1, e1.outs, e1.eqns, none :: some (e1.outs.idxOf o) :: r⟩
    else none
  else none

/-- The new values (jiteration_environment.py:292-301). -/
def newVals {V : Type} (res : List V) : List (Option Nat) → List V → Option (List V)
  | [], [] => some []
  | none :: r, v :: l => (newVals res r l).map (v :: ·)
  | some j :: r, _ :: l => res[j]?.bind fun v => (newVals res r l).map (v :: ·)
  | _, _ => none

variable {S : Type} (F : Op → List (Val S) → Option (List (Val S)))

/-- `body_fun` (jiteration_environment.py:282-301). -/
def Loop.body (L : Loop) (vals : List (Val S)) : Option (List (Val S)) :=
  (setA (fun _ => none) L.ins vals).bind fun e => (run F L.eqns e).bind fun e => (getA e (L.outs.map .v)).bind fun res => newVals res L.rules vals

/-- `cond_fun` (jiteration_environment.py:305-306). -/
def loopCond : List (Val S) → Option Bool
  | .int th :: .int i :: _ => some (decide (i ≤ th))
  | _ => none

/-- The `while` loop, with a bound for the number of iterations. -/
def Loop.iter (L : Loop) : Nat → List (Val S) → Option (List (Val S))
  | 0, _ => none
  | fuel + 1, vals => (loopCond vals).bind fun b => if b then (L.body F vals).bind (iter L fuel) else some vals

/-- The quantum state after the loop (jiteration_environment.py:310-321). -/
def Loop.exec (L : Loop) (fuel : Nat) (e : Nat → Option (Val S)) : Option (Val S) :=
  (getA e (L.ins.map .v)).bind fun vals => (L.iter F fuel vals).bind fun r => r.getLast?

/-! ### Python programs -/

def pyExec : List Stm → (Nat → Option (Val S)) → Option (Nat → Option (Val S))
  | [], σ => some σ
  | .op o i outs :: r, σ => (getA σ i).bind fun xs => (F o xs).bind fun ys => (setA σ outs ys).bind (pyExec r)
  | .copy a b :: r, σ => pyExec r (upd σ a (σ b))

/-- Names: 0 is the quantum state, 1 the index of the iterator, 2 the last index, 3 the variable of the loop. -/
def nQ : Nat := 0
def nIdx : Nat := 1
def nStop : Nat := 2
def nI : Nat := 3

/-- What is executed in an iteration: the loop variable gets the index (jrange_iterator.py:85, 100), after the body the index is
    incremented and marked (lines 89-94, 103-106). -/
def iteration (body : List Stm) : List Stm :=
  .copy nI nIdx :: body ++ [.op addOp [.v nIdx, .lit 1] [nIdx], .op markOp [.v nIdx, .v nStop] [nIdx]]

/-- The two traced iterations of the bodies `b1`, `b2` (the body may depend on what Python does in between), starting with the meaning `t` of the names, and
    the variables `later` used after the loop. -/
def jrangeEnvs (b1 b2 : List Stm) (t : Nat → Nat) (n : Nat) (later : List Nat) : EnvE Nat × EnvE Nat :=
  let z1 := traceG id (iteration b1) t n
  let z2 := traceG id (iteration b2) z1.2.1 z1.2.2
  (⟨envIns z1.1 (t nQ), envOuts z1.1 (z1.2.1 nQ) (uses z2.1 ++ later), z1.1⟩,
   ⟨envIns z2.1 (z1.2.1 nQ), envOuts z2.1 (z2.2.1 nQ) later, z2.1⟩)

/-- The compiled loop. -/
def jrange (cls : Nat → Bool) (b1 b2 : List Stm) (t : Nat → Nat) (n : Nat) (later : List Nat) : Option Loop :=
  compile cls (jrangeEnvs b1 b2 t n later).1 (jrangeEnvs b1 b2 t n later).2

end Verif.Jasp.Jr
