import Mathlib.Data.List.Basic
import Mathlib.Algebra.Group.Defs

/-!
# Jasp programs (jaxprs with quantum primitives)

The intermediate representation of dynamic programs, as it is handled by
`jasp/jasp_expression/inv_transform.py` and `jasp/jasp_expression/control_transform.py`: lists of
equations that read and write variables.  The equations are classical primitives, quantum gates,
measurements, resets, allocations and deletions, calls of other programs (`jit`), `while` loops and
`cond`.

The variable of the abstract quantum state is left out: every quantum equation takes the state
that the previous one returned, so the order of the list is the order of execution.  The
meaning of a program is the list of the operations that it executes (its trace).
-/

namespace Verif.Jasp

abbrev Var := Nat

/-- A qubit at run time: one that was passed to the program, or the `k`-th qubit of the array that
    was created for variable `v` at a place of the execution (calls and loop indices that led
    there).  The real names are running numbers, they only differ by a renaming. -/
inductive Qubit where
  | arg (n : Nat)
  | fresh (path : List Int) (v k : Nat)
deriving DecidableEq, Repr

/-- Run-time values: numbers, qubits, arrays of qubits (`jasp/primitives/abstract_qubit.py`,
    `jasp/primitives/abstract_quantum_register.py`). -/
inductive Val where
  | int (i : Int)
  | qb (q : Qubit)
  | arr (l : List Qubit)
deriving DecidableEq, Repr

/-- What the program does to the qubits.  A gate has controls, each with the value for which
    it is active (`ctrl_state`), and targets. -/
inductive Ev (U : Type) where
  | gate (u : U) (cs : List (Qubit × Bool)) (qs : List Qubit)
  | meas (qs : List Qubit)
  | reset (qs : List Qubit)
  | create (qs : List Qubit)
  | delete (qs : List Qubit)
deriving DecidableEq, Repr

/-- A jaxpr: its equations in order.  `gate` carries the states of its controls (the first
    entries of `qs` are the controls) and a function from its parameters to the operation;
    `mark` is the call of `_jrange_marker` (jasp/program_control/jrange_iterator.py:33-39), whose
    second argument is not used by it; `add` is `add_p` / `sub_p` with a constant; `cls` stands for
    all other classical equations (including `get_qubit`, `slice`, `fuse`, `get_size`, calls of
    classical functions).  `call` (`jit`), `whl` (`while`) and `cond` contain programs with their
    own input and output variables.  The numbers `id` and `ix` (position of the loop index)
    are used only to name new qubits. -/
inductive P (U : Type) where
  | done
  | cls (f : List Val → Option (List Val)) (ins outs : List Var) (rest : P U)
  | add (sub : Bool) (out a : Var) (c : Int) (rest : P U)
  | mark (out upd thr : Var) (rest : P U)
  | gate (cst : List Bool) (u : List Int → U) (ps qs : List Var) (rest : P U)
  | meas (out q : Var) (rest : P U)
  | reset (q : Var) (rest : P U)
  | create (out size : Var) (rest : P U)
  | delete (a : Var) (rest : P U)
  | call (id : Nat) (ji jo : List Var) (body : P U) (ins outs : List Var) (rest : P U)
  | whl (id ix : Nat) (le : Bool) (pa pb : Nat) (bi bo : List Var) (body : P U)
      (consts carries outs : List Var) (rest : P U)
  | cond (id : Nat) (p : Var) (ti tt : List Var) (t : P U) (fi ft : List Var) (f : P U)
      (ins outs : List Var) (rest : P U)

variable {U : Type}

/-- Appending the equations of another program. -/
def P.app : P U → P U → P U
  | .done, q => q
  | .cls f i o r, q => .cls f i o (r.app q)
  | .add s o a c r, q => .add s o a c (r.app q)
  | .mark o u t r, q => .mark o u t (r.app q)
  | .gate c u ps qs r, q => .gate c u ps qs (r.app q)
  | .meas o a r, q => .meas o a (r.app q)
  | .reset a r, q => .reset a (r.app q)
  | .create o s r, q => .create o s (r.app q)
  | .delete a r, q => .delete a (r.app q)
  | .call id ji jo b i o r, q => .call id ji jo b i o (r.app q)
  | .whl id ix le pa pb bi bo b k c o r, q => .whl id ix le pa pb bi bo b k c o (r.app q)
  | .cond id p ti tt t fi ft f i o r, q => .cond id p ti tt t fi ft f i o (r.app q)

/-- The values of the variables (`context_dic`,
    jasp/interpreter_tools/abstract_interpreter.py). -/
abbrev Ctx := Var → Option Val

def Ctx.set (c : Ctx) (v : Var) (x : Val) : Ctx := fun w => if w = v then some x else c w

/-- `extract_invalues`; an undefined variable is a `KeyError`. -/
def gets (c : Ctx) : List Var → Option (List Val)
  | [] => some []
  | v :: vs => (c v).bind fun x => (gets c vs).bind fun xs => some (x :: xs)

/-- `insert_outvalues`. -/
def sets (c : Ctx) : List Var → List Val → Option Ctx
  | [], [] => some c
  | v :: vs, x :: xs => sets (c.set v x) vs xs
  | _, _ => none

def Val.toInt : Val → Option Int
  | .int i => some i
  | _ => none

def Val.toQb : Val → Option Qubit
  | .qb q => some q
  | _ => none

/-- A qubit or an array of qubits. -/
def Val.toQbs : Val → Option (List Qubit)
  | .qb q => some [q]
  | .arr l => some l
  | _ => none

def allM {α β : Type} (f : α → Option β) : List α → Option (List β)
  | [] => some []
  | x :: xs => (f x).bind fun y => (allM f xs).bind fun ys => some (y :: ys)

/-- The comparison of two carried values that keeps the loop running
    (environments/jiteration_environment.py:305-306; `le` or `ge`). -/
def cnd (le : Bool) (pa pb : Nat) (cs : List Val) : Option Bool :=
  (cs[pa]?).bind fun a => (cs[pb]?).bind fun b => a.toInt.bind fun x => b.toInt.bind fun y =>
    some (if le then decide (x ≤ y) else decide (x ≥ y))

/-- `while_loop`: at most `fuel` tests of the condition. -/
def loop (body : List Val → Option (List Val × List (Ev U))) (c : List Val → Option Bool) :
    Nat → List Val → Option (List Val × List (Ev U))
  | 0, _ => none
  | fuel + 1, cs => (c cs).bind fun b =>
      if b then (body cs).bind fun r => (loop body c fuel r.1).bind fun r' =>
        some (r'.1, r.2 ++ r'.2)
      else some (cs, [])

/-- The event of a gate equation: the first qubits are the controls. -/
def gateEv (cst : List Bool) (u : List Int → U) (ps : List Val) (qs : List Val) :
    Option (Ev U) :=
  (allM Val.toInt ps).bind fun xs => (allM Val.toQb qs).bind fun bs =>
    if cst.length ≤ bs.length then
      some (.gate (u xs) ((bs.take cst.length).zip cst) (bs.drop cst.length))
    else none

/-- Execution (`eval_jaxpr`, jasp/interpreter_tools/abstract_interpreter.py): the variables at the
    end and the operations in the order of execution.  `orc` supplies the outcomes of the
    measurements.  Called programs see only their arguments. -/
def eval (orc : List Int → Var → Int) (fuel : Nat) :
    P U → List Int → Ctx → Option (Ctx × List (Ev U))
  | .done, _, c => some (c, [])
  | .cls f i o r, p, c => (gets c i).bind fun xs => (f xs).bind fun ys => (sets c o ys).bind fun c' =>
      eval orc fuel r p c'
  | .add s o a k r, p, c => (c a).bind fun x => x.toInt.bind fun y =>
      eval orc fuel r p (c.set o (.int (if s then y - k else y + k)))
  | .mark o u _ r, p, c => (c u).bind fun x => eval orc fuel r p (c.set o x)
  | .gate cst u ps qs r, p, c => (gets c ps).bind fun xs => (gets c qs).bind fun bs =>
      (gateEv cst u xs bs).bind fun e => (eval orc fuel r p c).bind fun z => some (z.1, e :: z.2)
  | .meas o q r, p, c => (c q).bind fun x => x.toQbs.bind fun bs =>
      (eval orc fuel r p (c.set o (.int (orc p o)))).bind fun z => some (z.1, .meas bs :: z.2)
  | .reset q r, p, c => (c q).bind fun x => x.toQbs.bind fun bs =>
      (eval orc fuel r p c).bind fun z => some (z.1, .reset bs :: z.2)
  | .create o s r, p, c => (c s).bind fun x => x.toInt.bind fun n =>
      (eval orc fuel r p (c.set o (.arr ((List.range n.toNat).map (Qubit.fresh p o))))).bind fun z =>
        some (z.1, .create ((List.range n.toNat).map (Qubit.fresh p o)) :: z.2)
  | .delete a r, p, c => (c a).bind fun x => x.toQbs.bind fun bs =>
      (eval orc fuel r p c).bind fun z => some (z.1, .delete bs :: z.2)
  | .call id ji jo b i o r, p, c => (gets c i).bind fun xs => (sets (fun _ => none) ji xs).bind fun c0 =>
      (eval orc fuel b (id :: p) c0).bind fun z => (gets z.1 jo).bind fun ys =>
      (sets c o ys).bind fun c' => (eval orc fuel r p c').bind fun z' => some (z'.1, z.2 ++ z'.2)
  | .whl id ix le pa pb bi bo b k cs o r, p, c => (gets c k).bind fun ks => (gets c cs).bind fun xs =>
      (loop (fun vs => (vs[ix]?).bind fun i => i.toInt.bind fun i =>
          (sets (fun _ => none) bi (ks ++ vs)).bind fun c0 =>
          (eval orc fuel b (i :: id :: p) c0).bind fun z => (gets z.1 bo).bind fun ys =>
          some (ys, z.2)) (cnd le pa pb) fuel xs).bind fun z =>
      (sets c o z.1).bind fun c' => (eval orc fuel r p c').bind fun z' => some (z'.1, z.2 ++ z'.2)
  | .cond id q ti tt t fi ft f i o r, p, c => (c q).bind fun x => x.toInt.bind fun n =>
      (gets c i).bind fun xs =>
      (if n = 0 then (sets (fun _ => none) fi xs).bind fun c0 =>
            (eval orc fuel f (0 :: id :: p) c0).bind fun z => (gets z.1 ft).bind fun ys => some (ys, z.2)
        else (sets (fun _ => none) ti xs).bind fun c0 =>
            (eval orc fuel t (1 :: id :: p) c0).bind fun z => (gets z.1 tt).bind fun ys =>
            some (ys, z.2)).bind fun z =>
      (sets c o z.1).bind fun c' => (eval orc fuel r p c').bind fun z' => some (z'.1, z.2 ++ z'.2)

/-- The variables that the equations of a program read (not those inside called programs). -/
def P.reads : P U → List Var
  | .done => []
  | .cls _ i _ r => i ++ r.reads
  | .add _ _ a _ r => a :: r.reads
  | .mark _ u _ r => u :: r.reads
  | .gate _ _ ps qs r => (ps ++ qs) ++ r.reads
  | .meas _ q r => q :: r.reads
  | .reset q r => q :: r.reads
  | .create _ s r => s :: r.reads
  | .delete a r => a :: r.reads
  | .call _ _ _ _ i _ r => i ++ r.reads
  | .whl _ _ _ _ _ _ _ _ k c _ r => (k ++ c) ++ r.reads
  | .cond _ q _ _ _ _ _ _ i _ r => (q :: i) ++ r.reads

/-- The variables that the equations of a program write. -/
def P.writes : P U → List Var
  | .done => []
  | .cls _ _ o r => o ++ r.writes
  | .add _ o _ _ r => o :: r.writes
  | .mark o _ _ r => o :: r.writes
  | .gate _ _ _ _ r => r.writes
  | .meas o _ r => o :: r.writes
  | .reset _ r => r.writes
  | .create o _ r => o :: r.writes
  | .delete _ r => r.writes
  | .call _ _ _ _ _ o r => o ++ r.writes
  | .whl _ _ _ _ _ _ _ _ _ _ o r => o ++ r.writes
  | .cond _ _ _ _ _ _ _ _ _ o r => o ++ r.writes

/-- The gates of a trace. -/
def gates (l : List (Ev U)) : List (Ev U) := l.filter fun | .gate .. => true | _ => false

/-- Everything else of a trace. -/
def others (l : List (Ev U)) : List (Ev U) := l.filter fun | .gate .. => false | _ => true

/-! ### Basic facts -/

theorem gets_congr {c c' : Ctx} {vs : List Var} (h : ∀ v ∈ vs, c v = c' v) :
    gets c vs = gets c' vs := by
  induction vs with
  | nil => rfl
  | cons v vs ih =>
    simp only [gets]
    rw [h v (by simp), ih (fun w hw => h w (by simp [hw]))]

theorem sets_congr {X : Var → Prop} {vs : List Var} :
    ∀ {c c' : Ctx} {xs : List Val} {d : Ctx}, (∀ v, ¬ X v → c v = c' v) → sets c vs xs = some d →
      ∃ d', sets c' vs xs = some d' ∧ ∀ v, ¬ X v → d v = d' v := by
  induction vs with
  | nil =>
    intro c c' xs d h hs
    cases xs with
    | nil => simp only [sets, Option.some.injEq] at hs ⊢; subst hs; exact ⟨c', rfl, h⟩
    | cons => simp [sets] at hs
  | cons v vs ih =>
    intro c c' xs d h hs
    cases xs with
    | nil => simp [sets] at hs
    | cons x xs =>
      simp only [sets] at hs ⊢
      refine ih (fun w hw => ?_) hs
      simp only [Ctx.set]; split <;> [rfl; exact h w hw]

theorem sets_frame {vs : List Var} : ∀ {c : Ctx} {xs : List Val} {d : Ctx},
    sets c vs xs = some d → ∀ v, v ∉ vs → d v = c v := by
  induction vs with
  | nil =>
    intro c xs d hs v _
    cases xs with
    | nil => simp only [sets, Option.some.injEq] at hs; rw [hs]
    | cons => simp [sets] at hs
  | cons w vs ih =>
    intro c xs d hs v hv
    cases xs with
    | nil => simp [sets] at hs
    | cons x xs =>
      simp only [sets] at hs
      rw [ih hs v (by simp at hv; exact hv.2)]
      simp only [Ctx.set]; simp at hv; simp [hv.1]

theorem set_congr {X : Var → Prop} {c c' : Ctx} (h : ∀ v, ¬ X v → c v = c' v) (o : Var) (x : Val) :
    ∀ v, ¬ X v → c.set o x v = c'.set o x v := by
  intro v hv; simp only [Ctx.set]; split <;> [rfl; exact h v hv]

variable {orc : List Int → Var → Int} {fuel : Nat}

/-- A program writes only the variables of its equations. -/
theorem eval_frame : ∀ {p : P U} {path : List Int} {c : Ctx} {z : Ctx × List (Ev U)},
    eval orc fuel p path c = some z → ∀ v, v ∉ p.writes → z.1 v = c v := by
  intro p
  induction p with
  | done => intro path c z h v _; simp only [eval, Option.some.injEq] at h; rw [← h]
  | cls f i o r ih =>
    intro path c z h v hv
    simp only [eval, Option.bind_eq_some_iff] at h
    obtain ⟨xs, _, ys, _, c', h3, h4⟩ := h
    simp only [P.writes, List.mem_append, not_or] at hv
    rw [ih h4 v hv.2, sets_frame h3 v hv.1]
  | add s o a k r ih =>
    intro path c z h v hv
    simp only [eval, Option.bind_eq_some_iff] at h
    obtain ⟨x, _, y, _, h4⟩ := h
    simp only [P.writes, List.mem_cons, not_or] at hv
    rw [ih h4 v hv.2]; simp [Ctx.set, hv.1]
  | mark o u t r ih =>
    intro path c z h v hv
    simp only [eval, Option.bind_eq_some_iff] at h
    obtain ⟨x, _, h4⟩ := h
    simp only [P.writes, List.mem_cons, not_or] at hv
    rw [ih h4 v hv.2]; simp [Ctx.set, hv.1]
  | gate cst u ps qs r ih =>
    intro path c z h v hv
    simp only [eval, Option.bind_eq_some_iff, Option.some.injEq] at h
    obtain ⟨_, _, _, _, _, _, z', h4, rfl⟩ := h
    exact ih h4 v hv
  | meas o q r ih =>
    intro path c z h v hv
    simp only [eval, Option.bind_eq_some_iff, Option.some.injEq] at h
    obtain ⟨_, _, _, _, z', h4, rfl⟩ := h
    simp only [P.writes, List.mem_cons, not_or] at hv
    rw [ih h4 v hv.2]; simp [Ctx.set, hv.1]
  | reset q r ih =>
    intro path c z h v hv
    simp only [eval, Option.bind_eq_some_iff, Option.some.injEq] at h
    obtain ⟨_, _, _, _, z', h4, rfl⟩ := h
    exact ih h4 v hv
  | create o s r ih =>
    intro path c z h v hv
    simp only [eval, Option.bind_eq_some_iff, Option.some.injEq] at h
    obtain ⟨_, _, _, _, z', h4, rfl⟩ := h
    simp only [P.writes, List.mem_cons, not_or] at hv
    rw [ih h4 v hv.2]; simp [Ctx.set, hv.1]
  | delete a r ih =>
    intro path c z h v hv
    simp only [eval, Option.bind_eq_some_iff, Option.some.injEq] at h
    obtain ⟨_, _, _, _, z', h4, rfl⟩ := h
    exact ih h4 v hv
  | call id ji jo b i o r _ ih =>
    intro path c z h v hv
    simp only [eval, Option.bind_eq_some_iff, Option.some.injEq] at h
    obtain ⟨_, _, _, _, _, _, _, _, c', h5, z', h6, rfl⟩ := h
    simp only [P.writes, List.mem_append, not_or] at hv
    exact (ih h6 v hv.2).trans (sets_frame h5 v hv.1)
  | whl id ix le pa pb bi bo b k cs o r _ ih =>
    intro path c z h v hv
    simp only [eval, Option.bind_eq_some_iff, Option.some.injEq] at h
    obtain ⟨_, _, _, _, _, _, c', h5, z', h6, rfl⟩ := h
    simp only [P.writes, List.mem_append, not_or] at hv
    exact (ih h6 v hv.2).trans (sets_frame h5 v hv.1)
  | cond id q ti tt t fi ft f i o r _ _ ih =>
    intro path c z h v hv
    simp only [eval, Option.bind_eq_some_iff, Option.some.injEq] at h
    obtain ⟨_, _, _, _, _, _, _, _, c', h5, z', h6, rfl⟩ := h
    simp only [P.writes, List.mem_append, not_or] at hv
    exact (ih h6 v hv.2).trans (sets_frame h5 v hv.1)

/-- A program depends only on the variables that it reads. -/
theorem eval_congr {X : Var → Prop} : ∀ {p : P U} {path : List Int} {c c' : Ctx}
    {z : Ctx × List (Ev U)}, (∀ v, ¬ X v → c v = c' v) → (∀ v ∈ p.reads, ¬ X v) →
    eval orc fuel p path c = some z →
    ∃ d, eval orc fuel p path c' = some (d, z.2) ∧ ∀ v, ¬ X v → z.1 v = d v := by
  intro p
  induction p with
  | done =>
    intro path c c' z h _ he
    simp only [eval, Option.some.injEq] at he
    subst he; exact ⟨c', rfl, h⟩
  | cls f i o r ih =>
    intro path c c' z h hr he
    simp only [eval, Option.bind_eq_some_iff] at he
    obtain ⟨xs, h1, ys, h2, c1, h3, h4⟩ := he
    simp only [P.reads, List.mem_append] at hr
    obtain ⟨c1', h3', hc⟩ := sets_congr h h3
    obtain ⟨d, h5, h6⟩ := ih hc (fun v hv => hr v (Or.inr hv)) h4
    refine ⟨d, ?_, h6⟩
    simp only [eval]
    rw [← gets_congr (fun v hv => h v (hr v (Or.inl hv))), h1]
    simp only [Option.bind_some, h2, h3', h5]
  | add s o a k r ih =>
    intro path c c' z h hr he
    simp only [eval, Option.bind_eq_some_iff] at he
    obtain ⟨x, h1, y, h2, h4⟩ := he
    simp only [P.reads, List.mem_cons] at hr
    obtain ⟨d, h5, h6⟩ := ih (set_congr h o _) (fun v hv => hr v (Or.inr hv)) h4
    refine ⟨d, ?_, h6⟩
    simp only [eval]
    rw [← h a (hr a (Or.inl rfl)), h1]
    simp only [Option.bind_some, h2, h5]
  | mark o u t r ih =>
    intro path c c' z h hr he
    simp only [eval, Option.bind_eq_some_iff] at he
    obtain ⟨x, h1, h4⟩ := he
    simp only [P.reads, List.mem_cons] at hr
    obtain ⟨d, h5, h6⟩ := ih (set_congr h o x) (fun v hv => hr v (Or.inr hv)) h4
    refine ⟨d, ?_, h6⟩
    simp only [eval]
    rw [← h u (hr u (Or.inl rfl)), h1]
    simp only [Option.bind_some, h5]
  | gate cst u ps qs r ih =>
    intro path c c' z h hr he
    simp only [eval, Option.bind_eq_some_iff, Option.some.injEq] at he
    obtain ⟨xs, h1, bs, h2, e, h3, z', h4, rfl⟩ := he
    simp only [P.reads, List.mem_append] at hr
    obtain ⟨d, h5, h6⟩ := ih h (fun v hv => hr v (Or.inr hv)) h4
    refine ⟨d, ?_, h6⟩
    simp only [eval]
    rw [← gets_congr (fun v hv => h v (hr v (Or.inl (Or.inl hv)))), h1,
      ← gets_congr (fun v hv => h v (hr v (Or.inl (Or.inr hv)))), h2]
    simp only [Option.bind_some, h3, h5]
  | meas o q r ih =>
    intro path c c' z h hr he
    simp only [eval, Option.bind_eq_some_iff, Option.some.injEq] at he
    obtain ⟨x, h1, y, h2, z', h4, rfl⟩ := he
    simp only [P.reads, List.mem_cons] at hr
    obtain ⟨d, h5, h6⟩ := ih (set_congr h o _) (fun v hv => hr v (Or.inr hv)) h4
    refine ⟨d, ?_, h6⟩
    simp only [eval]
    rw [← h q (hr q (Or.inl rfl)), h1]
    simp only [Option.bind_some, h2, h5]
  | reset q r ih =>
    intro path c c' z h hr he
    simp only [eval, Option.bind_eq_some_iff, Option.some.injEq] at he
    obtain ⟨x, h1, y, h2, z', h4, rfl⟩ := he
    simp only [P.reads, List.mem_cons] at hr
    obtain ⟨d, h5, h6⟩ := ih h (fun v hv => hr v (Or.inr hv)) h4
    refine ⟨d, ?_, h6⟩
    simp only [eval]
    rw [← h q (hr q (Or.inl rfl)), h1]
    simp only [Option.bind_some, h2, h5]
  | create o q r ih =>
    intro path c c' z h hr he
    simp only [eval, Option.bind_eq_some_iff, Option.some.injEq] at he
    obtain ⟨x, h1, y, h2, z', h4, rfl⟩ := he
    simp only [P.reads, List.mem_cons] at hr
    obtain ⟨d, h5, h6⟩ := ih (set_congr h o _) (fun v hv => hr v (Or.inr hv)) h4
    refine ⟨d, ?_, h6⟩
    simp only [eval]
    rw [← h q (hr q (Or.inl rfl)), h1]
    simp only [Option.bind_some, h2, h5]
  | delete q r ih =>
    intro path c c' z h hr he
    simp only [eval, Option.bind_eq_some_iff, Option.some.injEq] at he
    obtain ⟨x, h1, y, h2, z', h4, rfl⟩ := he
    simp only [P.reads, List.mem_cons] at hr
    obtain ⟨d, h5, h6⟩ := ih h (fun v hv => hr v (Or.inr hv)) h4
    refine ⟨d, ?_, h6⟩
    simp only [eval]
    rw [← h q (hr q (Or.inl rfl)), h1]
    simp only [Option.bind_some, h2, h5]
  | call id ji jo b i o r _ ih =>
    intro path c c' z h hr he
    simp only [eval, Option.bind_eq_some_iff, Option.some.injEq] at he
    obtain ⟨xs, h1, c0, h2, z0, h3, ys, h4, c1, h5, z', h6, rfl⟩ := he
    simp only [P.reads, List.mem_append] at hr
    obtain ⟨c1', h5', hc⟩ := sets_congr h h5
    obtain ⟨d, h7, h8⟩ := ih hc (fun v hv => hr v (Or.inr hv)) h6
    refine ⟨d, ?_, h8⟩
    simp only [eval]
    rw [← gets_congr (fun v hv => h v (hr v (Or.inl hv))), h1]
    simp only [Option.bind_some, h2, h3, h4, h5', h7]
  | whl id ix le pa pb bi bo b k cs o r _ ih =>
    intro path c c' z h hr he
    simp only [eval, Option.bind_eq_some_iff, Option.some.injEq] at he
    obtain ⟨ks, h1, xs, h2, z0, h3, c1, h5, z', h6, rfl⟩ := he
    simp only [P.reads, List.mem_append] at hr
    obtain ⟨c1', h5', hc⟩ := sets_congr h h5
    obtain ⟨d, h7, h8⟩ := ih hc (fun v hv => hr v (Or.inr hv)) h6
    refine ⟨d, ?_, h8⟩
    simp only [eval]
    rw [← gets_congr (fun v hv => h v (hr v (Or.inl (Or.inl hv)))), h1,
      ← gets_congr (fun v hv => h v (hr v (Or.inl (Or.inr hv)))), h2]
    simp only [Option.bind_some, h3, h5', h7]
  | cond id q ti tt t fi ft f i o r _ _ ih =>
    intro path c c' z h hr he
    simp only [eval, Option.bind_eq_some_iff, Option.some.injEq] at he
    obtain ⟨x, h0, n, h0', xs, h1, z0, h3, c1, h5, z', h6, rfl⟩ := he
    simp only [P.reads, List.mem_append, List.mem_cons] at hr
    obtain ⟨c1', h5', hc⟩ := sets_congr h h5
    obtain ⟨d, h7, h8⟩ := ih hc (fun v hv => hr v (Or.inr hv)) h6
    refine ⟨d, ?_, h8⟩
    simp only [eval]
    rw [← h q (hr q (Or.inl (Or.inl rfl))), h0,
      ← gets_congr (fun v hv => h v (hr v (Or.inl (Or.inr hv)))), h1]
    simp only [Option.bind_some, h0', h3, h5', h7]

/-- Running an appended program. -/
theorem eval_app : ∀ (p q : P U) (path : List Int) (c : Ctx),
    eval orc fuel (p.app q) path c = (eval orc fuel p path c).bind fun z =>
      (eval orc fuel q path z.1).bind fun z' => some (z'.1, z.2 ++ z'.2) := by
  intro p q
  induction p with
  | done => intro path c; simp only [P.app, eval, Option.bind_some, List.nil_append]; cases eval orc fuel q path c <;> rfl
  | cls f i o r ih => intro path c; simp [P.app, eval, Option.bind_assoc, ih]
  | add s o a k r ih => intro path c; simp [P.app, eval, Option.bind_assoc, ih]
  | mark o u t r ih => intro path c; simp [P.app, eval, Option.bind_assoc, ih]
  | gate cst u ps qs r ih => intro path c; simp [P.app, eval, Option.bind_assoc, ih]
  | meas o a r ih => intro path c; simp [P.app, eval, Option.bind_assoc, ih]
  | reset a r ih => intro path c; simp [P.app, eval, Option.bind_assoc, ih]
  | create o s r ih => intro path c; simp [P.app, eval, Option.bind_assoc, ih]
  | delete a r ih => intro path c; simp [P.app, eval, Option.bind_assoc, ih]
  | call id ji jo b i o r _ ih => intro path c; simp [P.app, eval, Option.bind_assoc, ih]
  | whl id ix le pa pb bi bo b k cs o r _ ih =>
    intro path c; simp [P.app, eval, Option.bind_assoc, ih]
  | cond id q ti tt t fi ft f i o r _ _ ih =>
    intro path c; simp [P.app, eval, Option.bind_assoc, ih]

theorem app_assoc : ∀ (p q r : P U), (p.app q).app r = p.app (q.app r) := by
  intro p q r
  induction p <;> simp_all [P.app]

theorem app_done : ∀ (p : P U), p.app .done = p := by
  intro p
  induction p <;> simp_all [P.app]

theorem reads_app : ∀ (p q : P U), (p.app q).reads = p.reads ++ q.reads := by
  intro p q
  induction p <;> simp_all [P.app, P.reads]

theorem writes_app : ∀ (p q : P U), (p.app q).writes = p.writes ++ q.writes := by
  intro p q
  induction p <;> simp_all [P.app, P.writes]

end Verif.Jasp
