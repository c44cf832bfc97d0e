import Verif.Env.Sem
import Mathlib.Analysis.SpecialFunctions.Complex.Circle

/-!
Model of the compilation of nested quantum environments in static mode:
`/repo/src/qrisp/environments/control_environment.py` (`ControlEnvironment.compile`),
`quantum_conditionals.py` (`ConditionEnvironment.compile`) and `quantum_inversion.py`
(`InversionEnvironment.compile`), `conjugation_environment.py`, `custom_control_environment.py`, and its
specification `sem`.

Simplifications: allocation gates are left out, an ancilla is the next unused number; the environments that never
appear in the circuit (empty ones, quantum_environments.py:508) are left out; gates on the truth value of an environment
other than x, p, rz and those of conjugation environments (other custom controls) are not modelled; conjugator and body
of a conjugation environment are lists of gates; a condition function is evaluated as an exact XOR of its predicate.
-/

namespace Verif.Env

/-- What the model takes from outside: gates `G` with their qubits, inverses and operators, condition functions `K`
with their argument qubits and predicates, and the phases of the phase tolerant `mcx`. -/
structure Par (G K : Type) where
  supp : G → List Nat
  ginv : G → G
  args : K → List Nat
  mat : G → E
  pred : K → B → Bool
  th : List Nat → List Bool → B → ℂ

variable {G K : Type}

/-- The body of an environment and what follows. -/
inductive Prog (G K : Type) where
  | done
  /-- a gate -/
  | gate (g : G) (r : Prog G K)
  /-- `x` on the truth value of the enclosing environment -/
  | flip (r : Prog G K)
  /-- `p` on the truth value -/
  | phase (φ : ℝ) (r : Prog G K)
  /-- `rz` on the truth value -/
  | rzt (φ : ℝ) (r : Prog G K)
  /-- `with control(qs, ctrl_state=st, invert=i): body` -/
  | ctrl (qs : List Nat) (st : List Bool) (i : Bool) (body r : Prog G K)
  /-- `with ConditionEnvironment(k): body` -/
  | cond (k : K) (body r : Prog G K)
  /-- `with invert(): body` -/
  | undo (body r : Prog G K)
  /-- `with conjugate(us)(): vs` -/
  | conj (us vs : List G) (r : Prog G K)

/-- Operations of the compiled circuit. -/
inductive OpI (G K : Type) where
  | gate (g : G)
  | x (q : Nat)
  | p (φ : ℝ) (q : Nat)
  | rz (φ : ℝ) (q : Nat)
  | mcx (cs : List Nat) (st : List Bool) (t : Nat) (inv : Bool)
  | eval (k : K) (t : Nat) (inv : Bool)
  | ctl (q : Nat) (pol : Bool) (o : OpI G K)
  /-- `CustomControlOperation` that does not use its control qubit (custom_control_environment.py:312-340) -/
  | cus (q : Nat) (o : OpI G K)
  /-- `convert_to_custom_control` with `invert_control` (control_environment.py:394-405) -/
  | xc (q : Nat) (o : OpI G K)

/-- Qubits of an operation. -/
def OpI.qubits (P : Par G K) : OpI G K → List Nat
  | .gate g => P.supp g
  | .x q => [q]
  | .p _ q => [q]
  | .rz _ q => [q]
  | .mcx cs _ t _ => cs ++ [t]
  | .eval k t _ => P.args k ++ [t]
  | .ctl q _ o => q :: o.qubits P
  | .cus q o => q :: o.qubits P
  | .xc q o => q :: o.qubits P

/-- `Operation.inverse`. -/
def OpI.inv (P : Par G K) : OpI G K → OpI G K
  | .gate g => .gate (P.ginv g)
  | .x q => .x q
  | .p φ q => .p (-φ) q
  | .rz φ q => .rz (-φ) q
  | .mcx cs st t i => .mcx cs st t (!i)
  | .eval k t i => .eval k t (!i)
  | .ctl q pol o => .ctl q pol (o.inv P)
  | .cus q o => .cus q (o.inv P)
  | .xc q o => .xc q (o.inv P)

/-- The truth value qubit of an environment and the value for which its content is executed: `self.ctrl_state` for
a single control qubit without parent environment, otherwise one; inverted by `invert` (control_environment.py:200-209
for the children, lines 303-316 for the content). `user` is the qubit that takes the place of the truth value until the
environment is compiled: the control qubit of a nested environment with one control qubit (lines 116-117, 182-194). -/
structure Ctx where
  ctv : Nat
  pol : Bool
  user : Option Nat

/-- The operations x, p, rz on the truth value. -/
def plain : OpI G K → Bool
  | .x _ => true
  | .p _ _ => true
  | .rz _ _ => true
  | _ => false

/-- control_environment.py:270-337, quantum_conditionals.py:469-503: how an instruction of the content is appended. -/
def wrap (P : Par G K) (c : Ctx) (subs : List Nat) (o : OpI G K) : OpI G K :=
  if (o.qubits P).any fun q => subs.contains q then o
  else if (o.qubits P).contains c.ctv then (if plain o || c.pol then o else .xc c.ctv o)
  else .ctl c.ctv c.pol o

/-- Operations of child environments (flag `true`) are appended directly (lines 243-247). -/
def wrapAll (P : Par G K) (c : Ctx) (subs : List Nat) (l : List (Bool × OpI G K)) : List (OpI G K) :=
  l.map fun x => if x.1 then x.2 else wrap P c subs x.2

/-- An X gate on the truth value (lines 287-289, `inversion_tracker`). -/
def isX (c : Nat) : Bool × OpI G K → Bool
  | (false, .x q) => q == c
  | _ => false

/-- `inversion_tracker == -1` (line 343). -/
def odd (c : Nat) (l : List (Bool × OpI G K)) : Bool := (l.filter (isX c)).length % 2 == 1

/-- Lines 343-344. -/
def closing (c : Nat) (l : List (Bool × OpI G K)) : List (OpI G K) := if odd c l then [.x c] else []

/-- Operations of the environment with truth value `c` and content `l`. -/
def content (P : Par G K) (c : Ctx) (x : List (Bool × OpI G K) × List Nat × Nat) : List (OpI G K) :=
  wrapAll P c x.2.1 x.1 ++ closing c.ctv x.1

/-- The control qubits of the truth value: those of the environment and the truth value of the parent
(control_environment.py:196-211). -/
def ctrls (cx : Option Ctx) (qs : List Nat) (st : List Bool) : List Nat × List Bool :=
  match cx with
  | none => (qs, st)
  | some p => (qs ++ [p.ctv], st ++ [p.pol])

/-- How an environment gets its truth value. -/
structure Plan (G K : Type) where
  c : Ctx
  pre : List (OpI G K)
  post : List (OpI G K)
  next : Nat

/-- The control qubit of an environment with one control qubit. -/
def userOf : List Nat → Option Nat
  | [q] => some q
  | _ => none

/-- control_environment.py:116-120, 163-224, 346-358. A single control qubit without parent is its own truth value,
otherwise the truth value is computed into a new qubit. -/
def planCtrl (cx : Option Ctx) (qs : List Nat) (st : List Bool) (i : Bool) (m : Nat) : Plan G K :=
  match cx, qs, st with
  | none, [q], [v] => ⟨⟨q, v ^^ i, none⟩, [], [], m⟩
  | _, _, _ => ⟨⟨m, !i, userOf qs⟩, [.mcx (ctrls cx qs st).1 (ctrls cx qs st).2 m false],
      [.mcx (ctrls cx qs st).1 (ctrls cx qs st).2 m true], m + 1⟩

/-- quantum_conditionals.py:384-422, 517-552. Without parent the condition is evaluated into the truth value, otherwise
into a further qubit, combined with the truth value of the parent by a Toffoli gate. -/
def planCond (cx : Option Ctx) (k : K) (m : Nat) : Plan G K :=
  match cx with
  | none => ⟨⟨m, true, none⟩, [.eval k m false], [.eval k m true], m + 1⟩
  | some p => ⟨⟨m, true, none⟩, [.eval k (m + 1) false, .mcx [p.ctv, m + 1] [true, true] m false],
      [.mcx [p.ctv, m + 1] [true, true] m true, .eval k (m + 1) true], m + 2⟩

/-- The operations of a conjugation environment. -/
def conjOps (P : Par G K) (cx : Option Ctx) (us vs : List G) : List (OpI G K) :=
  match cx with
  | none => us.map .gate ++ vs.map .gate ++ (us.reverse.map P.ginv).map .gate
  | some c => us.map (fun u => .cus (c.user.getD c.ctv) (.gate u)) ++
      vs.map (fun v => .ctl (c.user.getD c.ctv) true (.gate v)) ++
      (us.reverse.map P.ginv).map (fun u => .cus (c.user.getD c.ctv) (.gate u))

/-- Compilation of the instructions inside of an environment `cx` (`none`: outside of all). The result are
instructions (`true`: of a child environment), the truth values of the child environments (`sub_condition_envs`) and
the next unused number. The content of `invert` is compiled, reversed and then treated like other instructions
(quantum_inversion.py:106-360, control_environment.py:252-261). In a conjugation environment only the body is controlled
(conjugation_environment.py:216-229), on the qubit `condition_truth_value` at that time
(custom_control_environment.py:192-231); the inner `control` has no parent (control_environment.py:146-153); the further
operations are custom controlled (lines 297-316). -/
def comp (P : Par G K) (cx : Option Ctx) : Prog G K → Nat → List (Bool × OpI G K) × List Nat × Nat
  | .done, m => ([], [], m)
  | .gate g r, m =>
    let y := comp P cx r m
    ((false, .gate g) :: y.1, y.2)
  | .flip r, m =>
    let y := comp P cx r m
    ((cx.map fun c => (false, OpI.x c.ctv)).toList ++ y.1, y.2)
  | .phase φ r, m =>
    let y := comp P cx r m
    ((cx.map fun c => (false, OpI.p φ c.ctv)).toList ++ y.1, y.2)
  | .rzt φ r, m =>
    let y := comp P cx r m
    ((cx.map fun c => (false, OpI.rz φ c.ctv)).toList ++ y.1, y.2)
  | .ctrl qs st i body r, m =>
    let pl : Plan G K := planCtrl cx qs st i m
    let x := comp P (some pl.c) body pl.next
    let y := comp P cx r x.2.2
    ((pl.pre ++ content P pl.c x ++ pl.post).map (true, ·) ++ y.1, x.2.1 ++ pl.c.ctv :: y.2.1, y.2.2)
  | .cond k body r, m =>
    let pl : Plan G K := planCond cx k m
    let x := comp P (some pl.c) body pl.next
    let y := comp P cx r x.2.2
    ((pl.pre ++ content P pl.c x ++ pl.post).map (true, ·) ++ y.1, x.2.1 ++ pl.c.ctv :: y.2.1, y.2.2)
  | .undo body r, m =>
    let x := comp P cx body m
    let y := comp P cx r x.2.2
    ((x.1.reverse.map fun o => (false, o.2.inv P)) ++ y.1, x.2.1 ++ y.2.1, y.2.2)
  | .conj us vs r, m =>
    let y := comp P cx r m
    ((conjOps P cx us vs).map (false, ·) ++ y.1, y.2)
termination_by structural p => p

/-- The circuit of a program outside of all environments; numbers from `m` on are unused. -/
def compile (P : Par G K) (p : Prog G K) (m : Nat) : List (OpI G K) := (comp P none p m).1.map Prod.snd

/-! ### Meaning of the operations -/

/-- The qubits have the required values. -/
def matches' (cs : List Nat) (st : List Bool) (b : B) : Bool := (cs.zip st).all fun x => b x.1 == x.2

/-- The operator of an operation. -/
noncomputable def op (P : Par G K) : OpI G K → E
  | .gate g => P.mat g
  | .x q => X q
  | .p φ q => dg fun b => if b q then Complex.exp (φ * Complex.I) else 1
  | .rz φ q => dg fun b => if b q then Complex.exp (φ / 2 * Complex.I) else Complex.exp (-(φ / 2) * Complex.I)
  | .mcx cs st t i =>
    if i then when (matches' cs st) (X t) * dg fun b => (P.th cs st b)⁻¹
    else dg (P.th cs st) * when (matches' cs st) (X t)
  | .eval k t _ => when (P.pred k) (X t)
  | .ctl q pol o => when (fun b => b q == pol) (op P o)
  | .cus _ o => op P o
  | .xc q o => X q * op P o * X q

/-- The operator of a circuit. -/
noncomputable def run (P : Par G K) : List (OpI G K) → E
  | [] => 1
  | o :: l => run P l * op P o

/-! ### Specification -/

/-- A list of gates. -/
noncomputable def prodG (P : Par G K) : List G → E
  | [] => 1
  | g :: l => prodG P l * P.mat g

/-- What a program does in an environment that is active where `T` holds: everything happens only there, a nested
environment is active where additionally its own condition holds, a flip of the truth value exchanges the
active and inactive part of this environment. -/
noncomputable def sem (P : Par G K) : (B → Bool) → Prog G K → E
  | _, .done => 1
  | T, .gate g r => sem P T r * when T (P.mat g)
  | T, .flip r => sem P (fun b => !T b) r
  | T, .phase φ r => sem P T r * when T (Complex.exp (φ * Complex.I) • 1)
  | T, .rzt φ r => sem P T r * when T (Complex.exp (φ / 2 * Complex.I) • 1)
  | T, .ctrl qs st i body r => sem P T r * when T (sem P (fun b => matches' qs st b ^^ i) body)
  | T, .cond k body r => sem P T r * when T (sem P (P.pred k) body)
  | T, .undo body r => sem P T r * when T (Ring.inverse (sem P (fun _ => true) body))
  | T, .conj us vs r => sem P T r * when T (Ring.inverse (prodG P us) * prodG P vs * prodG P us)

end Verif.Env
