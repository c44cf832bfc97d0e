import Verif.Env.Control

/-!
The compiled circuit of nested environments meets its specification.
-/

namespace Verif.Env

variable {G K : Type} {P : Par G K}

/-- The interpretation: a gate acts on its qubits only and has an inverse, a condition depends on its arguments, the
phases of `mcx` depend on the control qubits. -/
structure Par.OK (P : Par G K) : Prop where
  locX : ∀ g q, q ∉ P.supp g → Commute (P.mat g) (X q)
  locZ : ∀ g q, q ∉ P.supp g → Commute (P.mat g) (D fun b => b q)
  inv1 : ∀ g, P.mat (P.ginv g) * P.mat g = 1
  inv2 : ∀ g, P.mat g * P.mat (P.ginv g) = 1
  supp_inv : ∀ g, P.supp (P.ginv g) = P.supp g
  dep : ∀ k, Dep (P.args k) (P.pred k)
  th_dep : ∀ cs st, Dep cs (P.th cs st)
  th_ne : ∀ cs st b, P.th cs st b ≠ 0

/-- A qubit that does not occur in the program. -/
def avoid (P : Par G K) (c : Nat) : Prog G K → Prop
  | .done => True
  | .gate g r => c ∉ P.supp g ∧ avoid P c r
  | .flip r => avoid P c r
  | .phase _ r => avoid P c r
  | .rzt _ r => avoid P c r
  | .ctrl qs _ _ body r => c ∉ qs ∧ avoid P c body ∧ avoid P c r
  | .cond k body r => c ∉ P.args k ∧ avoid P c body ∧ avoid P c r
  | .undo body r => avoid P c body ∧ avoid P c r
  | .conj us vs r => (∀ g ∈ us ++ vs, c ∉ P.supp g) ∧ avoid P c r

/-- No condition environments. -/
def noCond : Prog G K → Prop
  | .done => True
  | .gate _ r => noCond r
  | .flip r => noCond r
  | .phase _ r => noCond r
  | .rzt _ r => noCond r
  | .ctrl _ _ _ body r => noCond body ∧ noCond r
  | .cond _ _ _ => False
  | .undo body r => noCond body ∧ noCond r
  | .conj _ _ r => noCond r

/-- No conjugation environments directly in this environment. -/
def noConj : Prog G K → Prop
  | .done => True
  | .gate _ r => noConj r
  | .flip r => noConj r
  | .phase _ r => noConj r
  | .rzt _ r => noConj r
  | .ctrl _ _ _ _ r => noConj r
  | .cond _ _ r => noConj r
  | .undo body r => noConj body ∧ noConj r
  | .conj _ _ _ => False

/-- The value of the truth value qubit for which an environment is executed. -/
def polOf (top : Bool) (qs : List Nat) (st : List Bool) (i : Bool) : Bool :=
  match top, qs, st with
  | true, [_], [v] => v ^^ i
  | _, _, _ => !i

/-- Programs for which the compiled circuit is right. `e` describes the enclosing environment: the value for which it is
executed and whether it is an outermost one. `S` are the control qubits and arguments of the enclosing
environments; gates may not change them (`perm_lock`). In nested environments there is no `invert=True` and no
flip of the truth value; `p` is applied and conditions are opened only in environments that are executed for the value
one; conditions are not nested in `invert` inside of environments; no `rz`; no conjugation environment directly in a nested
environment with one control qubit and `ctrl_state = 0`. -/
def WF (P : Par G K) (n : Nat) : Option (Bool × Bool) → List Nat → Prog G K → Prop
  | _, _, .done => True
  | e, S, .gate g r => (∀ q ∈ P.supp g, q < n) ∧ (∀ q ∈ S, Commute (P.mat g) (D fun b => b q)) ∧ WF P n e S r
  | e, S, .flip r => e.map Prod.snd = some true ∧ WF P n e S r
  | e, S, .phase _ r => e.map Prod.fst = some true ∧ WF P n e S r
  | _, _, .rzt _ _ => False
  | e, S, .ctrl qs st i body r => qs ≠ [] ∧ st.length = qs.length ∧ (∀ q ∈ qs, q < n) ∧ (e = none ∨ i = false) ∧
      (∀ q, qs = [q] → avoid P q body ∧ (e = none ∨ st = [true] ∨ noConj body)) ∧ WF P n (some (polOf e.isNone qs st i, e.isNone)) (S ++ qs) body ∧ WF P n e S r
  | e, S, .cond k body r => (∀ q ∈ P.args k, q < n) ∧ (e = none ∨ e.map Prod.fst = some true) ∧
      WF P n (some (true, e.isNone)) (S ++ P.args k) body ∧ WF P n e S r
  | e, S, .conj us vs r => (∀ g ∈ us ++ vs, (∀ q ∈ P.supp g, q < n) ∧ ∀ q ∈ S, Commute (P.mat g) (D fun b => b q)) ∧ WF P n e S r
  | e, S, .undo body r => (e = none ∨ noCond body) ∧ WF P n (e.map fun x => (x.1, false)) S body ∧ WF P n e S r

/-- An operator that commutes with everything in the program. -/
def Comm (P : Par G K) (A : E) : Prog G K → Prop
  | .done => True
  | .gate g r => Commute A (P.mat g) ∧ Comm P A r
  | .flip r => Comm P A r
  | .phase _ r => Comm P A r
  | .rzt _ r => Comm P A r
  | .ctrl qs st i body r => Commute A (D fun b => matches' qs st b ^^ i) ∧ Comm P A body ∧ Comm P A r
  | .cond k body r => Commute A (D (P.pred k)) ∧ Comm P A body ∧ Comm P A r
  | .undo body r => Comm P A body ∧ Comm P A r
  | .conj us vs r => (∀ g ∈ us ++ vs, Commute A (P.mat g)) ∧ Comm P A r

theorem prodG_comm {A : E} (l : List G) (h : ∀ g ∈ l, Commute A (P.mat g)) : Commute A (prodG P l) := by
  induction l with
  | nil => exact Commute.one_right A
  | cons g l ih => exact (ih fun g hg => h g (by simp [hg])).mul_right (h g (by simp))

theorem conj_comm {A : E} {us vs : List G} (h : ∀ g ∈ us ++ vs, Commute A (P.mat g)) :
    Commute A (Ring.inverse (prodG P us) * prodG P vs * prodG P us) := by
  have h1 := prodG_comm us fun g hg => h g (by simp [hg])
  have h2 := prodG_comm vs fun g hg => h g (by simp [hg])
  exact ((ringInverse_commute h1).mul_right h2).mul_right h1

/-! ### The specification -/

/-- Moving an operator past a program. -/
theorem sem_nat {A : E} (p : Prog G K) : ∀ {T T' : B → Bool}, Comm P A p → D T * A = A * D T' →
    sem P T p * A = A * sem P T' p := by
  induction p with
  | done => intro T T' _ _; simp [sem]
  | gate g r ih =>
    intro T T' h hT
    simp only [sem]
    rw [mul_assoc, when_nat hT h.1, ← mul_assoc, ih h.2 hT, mul_assoc]
  | flip r ih => intro T T' h hT; exact ih h (not_nat hT)
  | phase φ r ih =>
    intro T T' h hT
    simp only [sem]
    rw [mul_assoc, when_nat hT ((Commute.one_right A).smul_right _), ← mul_assoc, ih h hT, mul_assoc]
  | rzt φ r ih =>
    intro T T' h hT
    simp only [sem]
    rw [mul_assoc, when_nat hT ((Commute.one_right A).smul_right _), ← mul_assoc, ih h hT, mul_assoc]
  | ctrl qs st i body r ihb ihr =>
    intro T T' h hT
    simp only [sem]
    rw [mul_assoc, when_nat hT (ihb h.2.1 h.1.eq.symm).symm, ← mul_assoc, ihr h.2.2 hT, mul_assoc]
  | cond k body r ihb ihr =>
    intro T T' h hT
    simp only [sem]
    rw [mul_assoc, when_nat hT (ihb h.2.1 h.1.eq.symm).symm, ← mul_assoc, ihr h.2.2 hT, mul_assoc]
  | undo body r ihb ihr =>
    intro T T' h hT
    simp only [sem]
    have h1 : Commute A (sem P (fun _ => true) body) := (ihb h.1 (by simp [D_true])).symm
    rw [mul_assoc, when_nat hT (ringInverse_commute h1), ← mul_assoc, ihr h.2 hT, mul_assoc]
  | conj us vs r ih =>
    intro T T' h hT
    simp only [sem]
    rw [mul_assoc, when_nat hT (conj_comm h.1), ← mul_assoc, ih h.2 hT, mul_assoc]

theorem sem_comm {A : E} {T : B → Bool} {p : Prog G K} (h : Comm P A p) (hT : Commute A (D T)) :
    Commute A (sem P T p) := (sem_nat p h hT.eq.symm).symm

/-- A program without flips in an environment with two conditions. -/
theorem sem_and {n : Nat} {Q : B → Bool} {v : Bool} (p : Prog G K) : ∀ {S : List Nat} {T : B → Bool},
    WF P n (some (v, false)) S p → Comm P (D Q) p → sem P (fun b => Q b && T b) p = when Q (sem P T p) := by
  induction p with
  | done => intro S T _ _; simp [sem, when_one]
  | gate g r ih =>
    intro S T h hc
    simp only [sem]
    rw [ih h.2.2 hc.2, ← when_when, when_mul (sem_comm hc.2 (D_comm _ _))]
  | flip r ih => intro S T h; simp [WF] at h
  | phase φ r ih =>
    intro S T h hc
    simp only [sem]
    rw [ih h.2 hc, ← when_when, when_mul (sem_comm (p := r) hc (D_comm _ _))]
  | rzt φ r ih => intro S T h; simp [WF] at h
  | ctrl qs st i body r ihb ihr =>
    intro S T h hc
    simp only [sem]
    rw [ihr h.2.2.2.2.2.2 hc.2.2, ← when_when, when_mul (sem_comm hc.2.2 (D_comm _ _))]
  | cond k body r ihb ihr =>
    intro S T h hc
    simp only [sem]
    rw [ihr h.2.2.2 hc.2.2, ← when_when, when_mul (sem_comm hc.2.2 (D_comm _ _))]
  | undo body r ihb ihr =>
    intro S T h hc
    simp only [sem]
    rw [ihr h.2.2 hc.2, ← when_when, when_mul (sem_comm hc.2 (D_comm _ _))]
  | conj us vs r ih =>
    intro S T h hc
    simp only [sem]
    rw [ih h.2 hc.2, ← when_when, when_mul (sem_comm hc.2 (D_comm _ _))]

theorem matches_dep (cs : List Nat) (st : List Bool) : Dep cs (matches' cs st) := by
  intro b c h
  unfold matches'
  have : ∀ x ∈ cs.zip st, (b x.1 == x.2) = (c x.1 == x.2) := by
    intro x hx
    rw [h x.1 (List.of_mem_zip hx).1]
  rw [Bool.eq_iff_iff, List.all_eq_true, List.all_eq_true]
  exact ⟨fun h x hx => (this x hx) ▸ h x hx, fun h x hx => (this x hx) ▸ h x hx⟩

theorem matchesx_dep (cs : List Nat) (st : List Bool) (i : Bool) : Dep cs fun b => matches' cs st b ^^ i :=
  fun b c h => by dsimp only; rw [matches_dep cs st b c h]

theorem bit_dep (c : Nat) (v : Bool) : Dep [c] fun b : B => b c == v := by
  intro b d h
  dsimp only
  rw [h c (by simp)]

/-- Functions of the locked qubits commute with the program. -/
theorem comm_lock {n : Nat} {f : B → ℂ} (p : Prog G K) : ∀ {e S}, WF P n e S p → Dep S f → Comm P (dg f) p := by
  induction p with
  | done => intros; trivial
  | gate g r ih => intro e S h hd; exact ⟨(dep_comm h.2.1 hd).symm, ih h.2.2 hd⟩
  | flip r ih => intro e S h hd; exact ih h.2 hd
  | phase φ r ih => intro e S h hd; exact ih h.2 hd
  | rzt φ r ih => intro e S h; exact h.elim
  | ctrl qs st i body r ihb ihr =>
    intro e S h hd
    exact ⟨dg_comm _ _, ihb h.2.2.2.2.2.1 (hd.mono fun q hq => List.mem_append_left _ hq), ihr h.2.2.2.2.2.2 hd⟩
  | cond k body r ihb ihr =>
    intro e S h hd
    exact ⟨dg_comm _ _, ihb h.2.2.1 (hd.mono fun q hq => List.mem_append_left _ hq), ihr h.2.2.2 hd⟩
  | undo body r ihb ihr => intro e S h hd; exact ⟨ihb h.2.1 hd, ihr h.2.2 hd⟩
  | conj us vs r ih => intro e S h hd; exact ⟨fun g hg => (dep_comm (h.1 g hg).2 hd).symm, ih h.2 hd⟩

theorem comm_mul {A A' : E} (p : Prog G K) : Comm P A p → Comm P A' p → Comm P (A * A') p := by
  induction p with
  | done => intros; trivial
  | gate g r ih => intro h h'; exact ⟨h.1.mul_left h'.1, ih h.2 h'.2⟩
  | flip r ih => exact ih
  | phase φ r ih => exact ih
  | rzt φ r ih => exact ih
  | ctrl qs st i body r ihb ihr => intro h h'; exact ⟨h.1.mul_left h'.1, ihb h.2.1 h'.2.1, ihr h.2.2 h'.2.2⟩
  | cond k body r ihb ihr => intro h h'; exact ⟨h.1.mul_left h'.1, ihb h.2.1 h'.2.1, ihr h.2.2 h'.2.2⟩
  | undo body r ihb ihr => intro h h'; exact ⟨ihb h.1 h'.1, ihr h.2 h'.2⟩
  | conj us vs r ih => intro h h'; exact ⟨fun g hg => (h.1 g hg).mul_left (h'.1 g hg), ih h.2 h'.2⟩

theorem comm_add {A A' : E} (p : Prog G K) : Comm P A p → Comm P A' p → Comm P (A + A') p := by
  induction p with
  | done => intros; trivial
  | gate g r ih => intro h h'; exact ⟨h.1.add_left h'.1, ih h.2 h'.2⟩
  | flip r ih => exact ih
  | phase φ r ih => exact ih
  | rzt φ r ih => exact ih
  | ctrl qs st i body r ihb ihr => intro h h'; exact ⟨h.1.add_left h'.1, ihb h.2.1 h'.2.1, ihr h.2.2 h'.2.2⟩
  | cond k body r ihb ihr => intro h h'; exact ⟨h.1.add_left h'.1, ihb h.2.1 h'.2.1, ihr h.2.2 h'.2.2⟩
  | undo body r ihb ihr => intro h h'; exact ⟨ihb h.1 h'.1, ihr h.2 h'.2⟩
  | conj us vs r ih => intro h h'; exact ⟨fun g hg => (h.1 g hg).add_left (h'.1 g hg), ih h.2 h'.2⟩

theorem comm_X (hP : P.OK) {c : Nat} (p : Prog G K) : avoid P c p → Comm P (X c) p := by
  induction p with
  | done => intros; trivial
  | gate g r ih => intro h; exact ⟨(hP.locX g c h.1).symm, ih h.2⟩
  | flip r ih => exact ih
  | phase φ r ih => exact ih
  | rzt φ r ih => exact ih
  | ctrl qs st i body r ihb ihr =>
    intro h; exact ⟨X_D_comm ((matchesx_dep qs st i).flip h.1), ihb h.2.1, ihr h.2.2⟩
  | cond k body r ihb ihr => intro h; exact ⟨X_D_comm ((hP.dep k).flip h.1), ihb h.2.1, ihr h.2.2⟩
  | undo body r ihb ihr => intro h; exact ⟨ihb h.1, ihr h.2⟩
  | conj us vs r ih => intro h; exact ⟨fun g hg => (hP.locX g c (h.1 g hg)).symm, ih h.2⟩

/-- Functions of locked and of unused qubits. -/
theorem comm_dg (hP : P.OK) {n : Nat} {L : List Nat} {f : B → ℂ} (hd : Dep L f) (p : Prog G K) : ∀ {e S}, WF P n e S p →
    (∀ q ∈ L, q ∈ S ∨ avoid P q p) → Comm P (dg f) p := by
  induction p with
  | done => intros; trivial
  | gate g r ih =>
    intro e S h hq
    refine ⟨(dep_comm ?_ hd).symm, ih h.2.2 fun q hL => (hq q hL).imp_right And.right⟩
    intro q hL
    rcases hq q hL with h1 | h1
    · exact h.2.1 q h1
    · exact hP.locZ g q h1.1
  | flip r ih => intro e S h hq; exact ih h.2 hq
  | phase φ r ih => intro e S h hq; exact ih h.2 hq
  | rzt φ r ih => intro e S h; exact h.elim
  | ctrl qs st i body r ihb ihr =>
    intro e S h hq
    exact ⟨dg_comm _ _, ihb h.2.2.2.2.2.1 fun q hL => (hq q hL).imp (List.mem_append_left _) fun h => h.2.1,
      ihr h.2.2.2.2.2.2 fun q hL => (hq q hL).imp_right fun h => h.2.2⟩
  | cond k body r ihb ihr =>
    intro e S h hq
    exact ⟨dg_comm _ _, ihb h.2.2.1 fun q hL => (hq q hL).imp (List.mem_append_left _) fun h => h.2.1,
      ihr h.2.2.2 fun q hL => (hq q hL).imp_right fun h => h.2.2⟩
  | undo body r ihb ihr =>
    intro e S h hq
    exact ⟨ihb h.2.1 fun q hL => (hq q hL).imp_right And.left, ihr h.2.2 fun q hL => (hq q hL).imp_right And.right⟩
  | conj us vs r ih =>
    intro e S h hq
    refine ⟨fun g hg => (dep_comm ?_ hd).symm, ih h.2 fun q hL => (hq q hL).imp_right And.right⟩
    intro q hL
    rcases hq q hL with h1 | h1
    · exact (h.1 g hg).2 q h1
    · exact hP.locZ g q (h1.1 g hg)

theorem comm_D (hP : P.OK) {n : Nat} {L : List Nat} {T : B → Bool} (hd : Dep L T) {p : Prog G K} {e S} (h : WF P n e S p)
    (hq : ∀ q ∈ L, q ∈ S ∨ avoid P q p) : Comm P (D T) p :=
  comm_dg hP (f := fun b => if T b then 1 else 0) (fun b c hbc => by dsimp only; rw [hd b c hbc]) p h hq

/-- New qubits do not occur. -/
theorem wf_avoid {n a : Nat} (ha : n ≤ a) (p : Prog G K) : ∀ {e S}, WF P n e S p → avoid P a p := by
  have key : ∀ l : List Nat, (∀ q ∈ l, q < n) → a ∉ l := fun l h hm => absurd (h a hm) (by omega)
  induction p with
  | done => intros; trivial
  | gate g r ih => intro e S h; exact ⟨key _ h.1, ih h.2.2⟩
  | flip r ih => intro e S h; exact ih h.2
  | phase φ r ih => intro e S h; exact ih h.2
  | rzt φ r ih => intro e S h; exact h.elim
  | ctrl qs st i body r ihb ihr => intro e S h; exact ⟨key _ h.2.2.1, ihb h.2.2.2.2.2.1, ihr h.2.2.2.2.2.2⟩
  | cond k body r ihb ihr => intro e S h; exact ⟨key _ h.1, ihb h.2.2.1, ihr h.2.2.2⟩
  | undo body r ihb ihr => intro e S h; exact ⟨ihb h.2.1, ihr h.2.2⟩
  | conj us vs r ih => intro e S h; exact ⟨fun g hg => key _ (h.1 g hg).1, ih h.2⟩

theorem comm_clean (hP : P.OK) {n N m : Nat} (hm : n ≤ m) {p : Prog G K} {e S} (h : WF P n e S p) : Comm P (Clean N m) p := by
  refine comm_D hP (clean_dep N m) h ?_
  intro q hq
  refine Or.inr (wf_avoid ?_ p h)
  have : m ≤ q := by simpa using (List.mem_filter.1 hq).2
  omega

theorem isUnit_when {T : B → Bool} {M : E} (h : Commute (D T) M) (hu : IsUnit M) : IsUnit (when T M) :=
  ⟨⟨_, _, (when_unit h hu).1, (when_unit h hu).2⟩, rfl⟩

theorem isUnit_inverse {M : E} (hu : IsUnit M) : IsUnit (Ring.inverse M) := by
  obtain ⟨u, rfl⟩ := hu
  rw [Ring.inverse_unit]
  exact (u⁻¹).isUnit

theorem isUnit_phase (φ : ℂ) : IsUnit (Complex.exp φ • (1 : E)) := by
  refine ⟨⟨Complex.exp φ • 1, Complex.exp (-φ) • 1, ?_, ?_⟩, rfl⟩
  · rw [smul_mul_smul_comm, ← Complex.exp_add]; simp
  · rw [smul_mul_smul_comm, ← Complex.exp_add]; simp

theorem one_comm (p : Prog G K) : Comm P (1 : E) p := by
  induction p with
  | done => trivial
  | gate g r ih => exact ⟨Commute.one_left _, ih⟩
  | flip r ih => exact ih
  | phase φ r ih => exact ih
  | rzt φ r ih => exact ih
  | ctrl qs st i body r ihb ihr => exact ⟨Commute.one_left _, ihb, ihr⟩
  | cond k body r ihb ihr => exact ⟨Commute.one_left _, ihb, ihr⟩
  | undo body r ihb ihr => exact ⟨ihb, ihr⟩
  | conj us vs r ih => exact ⟨fun g _ => Commute.one_left _, ih⟩

theorem prodG_unit (hP : P.OK) (l : List G) : IsUnit (prodG P l) := by
  induction l with
  | nil => exact isUnit_one
  | cons g l ih => exact ih.mul ⟨⟨_, _, hP.inv2 g, hP.inv1 g⟩, rfl⟩

/-- The specification is invertible. -/
theorem sem_unit (hP : P.OK) {n : Nat} (p : Prog G K) : ∀ {e S} {T : B → Bool}, WF P n e S p → Comm P (D T) p →
    IsUnit (sem P T p) := by
  have neg : ∀ {T : B → Bool} {p : Prog G K} {e S}, WF P n e S p → Comm P (D T) p → Comm P (D fun b => !T b) p := by
    intro T p
    rw [D_not]
    induction p with
    | done => intros; trivial
    | gate g r ih => intro e S h hc; exact ⟨(Commute.one_left _).sub_left hc.1, ih h.2.2 hc.2⟩
    | flip r ih => intro e S h hc; exact ih h.2 hc
    | phase φ r ih => intro e S h hc; exact ih h.2 hc
    | rzt φ r ih => intro e S h; exact h.elim
    | ctrl qs st i body r ihb ihr =>
      intro e S h hc
      exact ⟨(Commute.one_left _).sub_left hc.1, ihb h.2.2.2.2.2.1 hc.2.1, ihr h.2.2.2.2.2.2 hc.2.2⟩
    | cond k body r ihb ihr =>
      intro e S h hc
      exact ⟨(Commute.one_left _).sub_left hc.1, ihb h.2.2.1 hc.2.1, ihr h.2.2.2 hc.2.2⟩
    | undo body r ihb ihr => intro e S h hc; exact ⟨ihb h.2.1 hc.1, ihr h.2.2 hc.2⟩
    | conj us vs r ih => intro e S h hc; exact ⟨fun g hg => (Commute.one_left _).sub_left (hc.1 g hg), ih h.2 hc.2⟩
  induction p with
  | done => intros; exact isUnit_one
  | gate g r ih =>
    intro e S T h hc
    exact (ih h.2.2 hc.2).mul (isUnit_when hc.1 ⟨⟨_, _, hP.inv2 g, hP.inv1 g⟩, rfl⟩)
  | flip r ih => intro e S T h hc; exact ih h.2 (neg h.2 hc)
  | phase φ r ih =>
    intro e S T h hc
    exact (ih h.2 hc).mul (isUnit_when ((Commute.one_right _).smul_right _) (isUnit_phase _))
  | rzt φ r ih => intro e S T h; exact h.elim
  | ctrl qs st i body r ihb ihr =>
    intro e S T h hc
    refine (ihr h.2.2.2.2.2.2 hc.2.2).mul (isUnit_when (sem_comm hc.2.1 (D_comm _ _)) (ihb h.2.2.2.2.2.1 ?_))
    exact comm_D hP (matchesx_dep qs st i) h.2.2.2.2.2.1 fun q hq => .inl (List.mem_append_right _ hq)
  | cond k body r ihb ihr =>
    intro e S T h hc
    refine (ihr h.2.2.2 hc.2.2).mul (isUnit_when (sem_comm hc.2.1 (D_comm _ _)) (ihb h.2.2.1 ?_))
    exact comm_D hP (hP.dep k) h.2.2.1 fun q hq => .inl (List.mem_append_right _ hq)
  | undo body r ihb ihr =>
    intro e S T h hc
    refine (ihr h.2.2 hc.2).mul (isUnit_when ?_ (isUnit_inverse (ihb h.2.1 ?_)))
    · exact ringInverse_commute (sem_comm hc.1 (D_comm _ _))
    · rw [D_true]; exact one_comm body
  | conj us vs r ih =>
    intro e S T h hc
    exact (ih h.2 hc.2).mul (isUnit_when (conj_comm hc.1)
      (((isUnit_inverse (prodG_unit hP us)).mul (prodG_unit hP vs)).mul (prodG_unit hP us)))

end Verif.Env
