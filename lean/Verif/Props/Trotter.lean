import Verif.Ham.Trotter
import Verif.Props.ChangeBasis
import Mathlib.Analysis.Normed.Algebra.MatrixExponential
import Mathlib.Analysis.SpecialFunctions.Exponential

/-! C97: Trotterization. -/

namespace Verif.Props

open Verif.Oper Verif.Circ Verif.Ham
open Verif.Rev (upd)
open NormedSpace (exp)

variable {χ : HQ × Bool → HQ × Bool → HQ → (HQ → Bool) → ℂ}

theorem runT_append (a b : List TOp) (ψ : Amp HQ) : runT χ (a ++ b) ψ = runT χ b (runT χ a ψ) := by
  induction a generalizing ψ with
  | nil => rfl
  | cons o a ih => exact ih _

theorem runT_b (C : List BG) (ψ : Amp HQ) : runT χ (C.map .b) ψ = runB C ψ := by
  induction C generalizing ψ with
  | nil => rfl
  | cons g C ih => exact ih _

theorem runT_bi (C : List BG) (ψ : Amp HQ) : runT χ (C.map .bi).reverse ψ = runBinv C ψ := by
  induction C with
  | nil => rfl
  | cons g C ih => rw [List.map_cons, List.reverse_cons, runT_append, ih]; rfl

theorem runT_h (l : List HOp) (ψ : Amp HQ) : runT χ (l.map .h) ψ = runH χ l ψ := by
  induction l generalizing ψ with
  | nil => rfl
  | cons g C ih => exact ih _

/-! ### The diagonal part -/

/-- The eigenvalue of a diagonal operator at a basis state. -/
noncomputable def eigO (d : QOp ℂ) (c : HQ → Bool) : ℝ := (d.map fun p => p.2.re * ((eigT p.1 c : ℚ) : ℝ)).sum

theorem cleanH_mul {ψ : Amp HQ} (h : CleanH ψ) (f : (HQ → Bool) → ℂ) : CleanH fun c => f c * ψ c := by
  intro c hc
  beta_reduce
  rw [h c hc, mul_zero]

theorem simAll_spec (hχ : UnitH χ) (x : ℝ) : ∀ (d : QOp ℂ), (∀ p ∈ d, DiagT p.1 ∧ p.1.keys.Nodup) → ∃ l, simAll (fun c => c.re * x) d = some l ∧
    ∀ ψ, CleanH ψ → ∀ c, runH χ l ψ c = ph (-(x * eigO d c)) * ψ c
  | [], _ => ⟨[], rfl, fun ψ _ c => by
      have : eigO [] c = 0 := rfl
      rw [this, mul_zero, neg_zero, ph_zero, one_mul]; rfl⟩
  | (t, a) :: d, h => by
    obtain ⟨h1, h2⟩ := h (t, a) List.mem_cons_self
    obtain ⟨r, r1, r2⟩ := simAll_spec hχ x d fun p hp => h p (List.mem_cons_of_mem _ hp)
    obtain ⟨l, l1, _⟩ := C95_simulate hχ false (a.re * x) h1 h2 (ψ := fun _ => 0) (fun _ _ => rfl)
    refine ⟨l ++ r, ?_, fun ψ hψ c => ?_⟩
    · unfold simAll
      rw [l1, r1]
    · obtain ⟨l', l1', l2⟩ := C95_simulate hχ false (a.re * x) h1 h2 hψ
      rw [l1] at l1'
      cases l1'
      have e : runH χ l ψ = fun c => ph (-(a.re * x * ((eigT t c : ℚ) : ℝ))) * ψ c := by
        funext c
        rw [l2 c]; rfl
      rw [runH_append, r2 _ (by rw [e]; exact cleanH_mul hψ _), e, ← mul_assoc, ← ph_add]
      congr 2
      have : eigO ((t, a) :: d) c = a.re * ((eigT t c : ℚ) : ℝ) + eigO d c := rfl
      rw [this]; ring

theorem coeffT_eq (fwd : Bool) (t : ℝ) (steps : Nat) : coeffT fwd t steps = fun c => c.re * ((if fwd then t else -t) / steps) := by
  funext c
  unfold coeffT
  cases fwd <;> simp <;> ring

theorem eigO_perm {d e : QOp ℂ} (h : d.Perm e) (c : HQ → Bool) : eigO d c = eigO e c := (h.map _).sum_eq

/-- The real parts of the coefficients. -/
noncomputable def reC (z : ℂ) : ℂ := (z.re : ℂ)

theorem omat_diag (n : Nat) : ∀ (d : QOp ℂ), (∀ p ∈ d, DiagT p.1 ∧ p.1.keys.Nodup ∧ ∀ k ∈ p.1.keys, k < n) →
    ∃ v : (Fin n → Bool) → ℂ, omat reC n d = Matrix.diagonal v ∧ ∀ c, v (rd n c) = (eigO d c : ℂ)
  | [], _ => ⟨fun _ => 0, by simp [omat], fun c => by simp [eigO]⟩
  | (t, a) :: d, h => by
    obtain ⟨v, v1, v2⟩ := omat_diag n d fun p hp => h p (List.mem_cons_of_mem _ hp)
    obtain ⟨h1, h2, h3⟩ := h (t, a) List.mem_cons_self
    refine ⟨fun b => reC a * tmat n t b b + v b, ?_, fun c => ?_⟩
    · have hg : ∀ k, t.get k = .I ∨ t.get k = .Z ∨ t.get k = .P0 ∨ t.get k = .P1 := by
        intro k
        rcases hl : List.lookup k t with _ | f
        · left; simp [Term.get, hl]
        · rw [lookup_get hl]
          exact h1 _ (mem_of_lookup hl)
      have ht : tmat n t = Matrix.diagonal fun b => tmat n t b b := by
        ext b b'
        by_cases e : b = b'
        · subst e; rw [Matrix.diagonal_apply_eq]
        · rw [Matrix.diagonal_apply_ne _ e, tmat_diag hg, if_neg e]
      show reC a • tmat n t + omat reC n d = _
      rw [v1, ht]
      ext b b'
      by_cases e : b = b'
      · subst e; simp
      · simp [Matrix.diagonal_apply_ne _ e]
    · have e1 : eigO ((t, a) :: d) c = a.re * ((eigT t c : ℚ) : ℝ) + eigO d c := rfl
      have e2 := C95_eigenvalue n h1 h2 h3 c
      have e3 : rd n c = fun k : Fin n => c (.qv k) := rfl
      beta_reduce
      rw [v2, e1, e3, e2]
      unfold reC
      push_cast
      rfl

theorem ph_exp (x : ℝ) : ph x = Complex.exp (-Complex.I * ((-x : ℝ) : ℂ)) := by
  unfold ph
  congr 1
  push_cast
  ring

/-- The matrix of one group. -/
noncomputable def expG (n : Nat) (x : ℝ) (g : QOp ℂ) : MatN n := exp ((-Complex.I * (x : ℂ)) • symOp reC n g)

theorem clean_actM {n : Nat} (M : MatN n) {ψ : Amp HQ} (h : CleanH ψ) : CleanH (actM M ψ) := by
  intro c hc
  unfold actM
  refine Finset.sum_eq_zero fun b _ => ?_
  rw [h, mul_zero]
  rcases hc with hc | ⟨i, hc⟩
  · exact Or.inl hc
  · exact Or.inr ⟨i, hc⟩

theorem opGroups_perm {R : Type} (rel : Term → Term → Bool) (d : QOp R) : (opGroups rel d).flatten.Perm d := by
  unfold opGroups
  split
  · simp
  · exact (C98_groups _ d).1

/-- One group: conjugating the diagonal evolution gives the evolution of the group. -/
theorem group_spec (hχ : UnitH χ) {n : Nat} {g : QOp ℂ} (hG : Grp n (g.map Prod.fst)) (hD : DWF g) (fwd : Bool) (t : ℝ) (steps : Nat) :
    ∃ l, groupStep fwd t steps g = some l ∧ ∀ ψ, CleanH ψ → runT χ l ψ = actM (expG n ((if fwd then t else -t) / steps) g) ψ := by
  obtain ⟨C, d, h1, h2, _, h4, h5, _⟩ := C96_matrix hG hD
  have h5 := h5 reC fun c => by unfold reC; simp
  set x : ℝ := (if fwd then t else -t) / steps with hx
  have hp := opGroups_perm (fun a b => !intersectT a b) d
  obtain ⟨l, l1, l2⟩ := simAll_spec hχ x (opGroups (fun a b => !intersectT a b) d).flatten
    fun p hp' => ⟨(h4 p (hp.mem_iff.mp hp')).1, (h4 p (hp.mem_iff.mp hp')).2.1⟩
  refine ⟨C.map .b ++ l.map .h ++ (C.map .bi).reverse, ?_, fun ψ hψ => ?_⟩
  · unfold groupStep
    rw [h1]
    dsimp only
    rw [coeffT_eq, ← hx, l1]
  · rw [runT_append, runT_append, runT_b, runT_h, runT_bi, runB_actM h2, runBinv_actM h2]
    obtain ⟨v, v1, v2⟩ := omat_diag n d h4
    have hdiag : runH χ l (actM (gmatL n C) ψ) = actM (exp ((-Complex.I * (x : ℂ)) • omat reC n d)) (actM (gmatL n C) ψ) := by
      rw [v1, ← Matrix.diagonal_smul, Matrix.exp_diagonal]
      funext c
      rw [l2 _ (clean_actM _ hψ), actM_diag, eigO_perm hp]
      congr 1
      rw [Pi.coe_exp, ← Complex.exp_eq_exp_ℂ]
      show _ = Complex.exp ((-Complex.I * (x : ℂ)) • v (rd n c))
      rw [v2, ph_exp, neg_neg]
      congr 1
      push_cast
      rw [smul_eq_mul]; ring
    rw [hdiag, ← actM_mul, ← actM_mul]
    congr 1
    have hI := gmatIL_mul h2
    have hI' : gmatL n C * gmatIL n C = 1 := mul_eq_one_comm.mp hI
    let U : (MatN n)ˣ := ⟨gmatIL n C, gmatL n C, hI, hI'⟩
    have e1 : symOp reC n g = gmatIL n C * omat reC n d * gmatL n C := by
      rw [mul_assoc, ← h5, ← mul_assoc, hI, one_mul]
    unfold expG
    rw [e1]
    have e2 := Matrix.exp_units_conj U ((-Complex.I * (x : ℂ)) • omat reC n d)
    have e3 : (U : MatN n) = gmatIL n C := rfl
    have e4 : ((U⁻¹ : (MatN n)ˣ) : MatN n) = gmatL n C := rfl
    rw [e3, e4] at e2
    rw [← Matrix.smul_mul, ← Matrix.mul_smul, e2, mul_assoc]

/-! ### The groups -/

/-- An operator with proper terms on `n` qubits. -/
structure OpOk (n : Nat) (d : QOp ℂ) : Prop where
  dwf : DWF d
  wf : ∀ p ∈ d, p.1.WF
  noI : ∀ p ∈ d, NoI p.1
  lt : ∀ p ∈ d, ∀ k ∈ p.1.keys, k < n

theorem dwf_of_pairwise {R : Type} {d : QOp R} (h : d.Pairwise fun p q => keyEq p.1 q.1 = false) : DWF d := by
  induction d with
  | nil => trivial
  | cons p d ih =>
    obtain ⟨s, c⟩ := p
    rw [List.pairwise_cons] at h
    refine ⟨dmem_false.mpr fun q hq => ?_, ih h.2⟩
    have := h.1 q hq
    rcases e : keyEq q.1 s with _ | _
    · rfl
    · rw [keyEq_symm e] at this; cases this

theorem opOk_group {n : Nat} {d : QOp ℂ} (h : OpOk n d) (rel : Term → Term → Bool) {g : QOp ℂ} (hg : g ∈ opGroups rel d) : OpOk n g := by
  have hp := opGroups_perm rel d
  have hs : g.Sublist (opGroups rel d).flatten := List.sublist_flatten_of_mem hg
  have hm : ∀ p ∈ g, p ∈ d := fun p hp' => hp.mem_iff.mp (hs.subset hp')
  refine ⟨?_, fun p hp' => h.wf p (hm p hp'), fun p hp' => h.noI p (hm p hp'), fun p hp' => h.lt p (hm p hp')⟩
  apply dwf_of_pairwise
  refine List.Pairwise.sublist hs ?_
  refine (hp.symm.pairwise_iff ?_).mp (dwf_pairwise h.dwf)
  intro a b hab
  rcases e : keyEq b.1 a.1 with _ | _
  · rfl
  · rw [keyEq_symm e] at hab; cases hab

theorem mem_ladIdx {t : Term} (hw : t.WF) {k : Nat} : k ∈ ladIdx t ↔ isLad (t.get k) = true := by
  unfold ladIdx
  constructor
  · intro h
    obtain ⟨p, hp, rfl⟩ := List.mem_map.mp h
    obtain ⟨h1, h2⟩ := List.mem_filter.mp hp
    rw [lookup_get ((lookup_mem hw).mpr h1)]
    simpa using h2
  · intro h
    have hp := (ladders_perm t).mem_iff.mp ((mem_ladders (p := (k, t.get k)) hw).mpr ⟨rfl, h⟩)
    exact List.mem_map.mpr ⟨_, hp, rfl⟩

theorem qwRel_spec {a b : Term} (ha : a.WF) (hb : b.WF) (h : qwRel a b = true) (k : Nat) :
    table (a.get k) (b.get k) = table (b.get k) (a.get k) ∧ isLad (a.get k) = isLad (b.get k) := by
  unfold qwRel at h
  rw [Bool.and_eq_true, commuteQw_iff] at h
  constructor
  · by_cases hk : k ∈ a.keys ++ b.keys
    · exact h.1 k hk
    · rw [List.mem_append, not_or] at hk
      rw [get_notin hk.1, get_notin hk.2]
  · unfold laddersAgree at h
    rw [Bool.and_eq_true, List.all_eq_true, List.all_eq_true] at h
    rw [Bool.eq_iff_iff, ← mem_ladIdx ha, ← mem_ladIdx hb]
    exact ⟨fun x => by simpa using h.2.1 k x, fun x => by simpa using h.2.2 k x⟩

theorem grp_of_group {n : Nat} {d : QOp ℂ} (h : OpOk n d) {g : QOp ℂ} (hg : g ∈ opGroups qwRel d) : Grp n (g.map Prod.fst) := by
  have ho := opOk_group h qwRel hg
  have hrel : ∀ s ∈ g.map Prod.fst, ∀ t ∈ g.map Prod.fst, ∀ k,
      table (s.get k) (t.get k) = table (t.get k) (s.get k) ∧ isLad (s.get k) = isLad (t.get k) := by
    have hpw : g.Pairwise fun a b => qwRel a.1 b.1 = true ∧ qwRel b.1 a.1 = true := by
      unfold opGroups at hg
      split at hg
      · rename_i h0
        rw [List.mem_singleton] at hg
        subst hg
        have := (C98_groups (fun a b : Term × ℂ => qwRel a.1 b.1) g).1
        rw [List.eq_nil_of_length_eq_zero h0, List.flatten_nil, List.nil_perm] at this
        rw [this]; exact List.Pairwise.nil
      · exact ((C98_groups _ d).2 g hg).2
    intro s hs t ht k
    obtain ⟨p, hp, rfl⟩ := List.mem_map.mp hs
    obtain ⟨q, hq, rfl⟩ := List.mem_map.mp ht
    have : Std.Symm fun a b : Term × ℂ => table (a.1.get k) (b.1.get k) = table (b.1.get k) (a.1.get k) ∧
        isLad (a.1.get k) = isLad (b.1.get k) := ⟨fun a b hab => ⟨hab.1.symm, hab.2.symm⟩⟩
    have := List.Pairwise.forall_of_forall (R := fun a b : Term × ℂ => table (a.1.get k) (b.1.get k) = table (b.1.get k) (a.1.get k) ∧
      isLad (a.1.get k) = isLad (b.1.get k)) (fun a _ => ⟨rfl, rfl⟩)
      (List.Pairwise.imp_of_mem (fun {a b} ha hb hab => qwRel_spec (ho.wf a ha) (ho.wf b hb) hab.1 k) hpw)
    exact this hp hq
  refine ⟨?_, ?_, ?_, fun s hs t ht k => (hrel s hs t ht k).1, fun s hs t ht k => (hrel s hs t ht k).2⟩
  · intro t ht
    obtain ⟨p, hp, rfl⟩ := List.mem_map.mp ht
    exact ho.wf p hp
  · intro t ht
    obtain ⟨p, hp, rfl⟩ := List.mem_map.mp ht
    exact ho.noI p hp
  · intro t ht
    obtain ⟨p, hp, rfl⟩ := List.mem_map.mp ht
    exact ho.lt p hp

/-- The product formula: the exponentials of the groups, the first group on the right. -/
noncomputable def prodF (n : Nat) (x : ℝ) : List (QOp ℂ) → MatN n
  | [] => 1
  | g :: gs => prodF n x gs * expG n x g

theorem stepAll_spec (hχ : UnitH χ) {n : Nat} (fwd : Bool) (t : ℝ) (steps : Nat) : ∀ (gs : List (QOp ℂ)),
    (∀ g ∈ gs, Grp n (g.map Prod.fst) ∧ DWF g) → ∃ l, stepAll fwd t steps gs = some l ∧
      ∀ ψ, CleanH ψ → runT χ l ψ = actM (prodF n ((if fwd then t else -t) / steps) gs) ψ
  | [], _ => ⟨[], rfl, fun ψ _ => (actM_one ψ).symm⟩
  | g :: gs, h => by
    obtain ⟨r, r1, r2⟩ := stepAll_spec hχ fwd t steps gs fun x hx => h x (List.mem_cons_of_mem _ hx)
    obtain ⟨l, l1, l2⟩ := group_spec hχ (h g List.mem_cons_self).1 (h g List.mem_cons_self).2 fwd t steps
    refine ⟨l ++ r, by unfold stepAll; rw [l1, r1], fun ψ hψ => ?_⟩
    rw [runT_append, l2 ψ hψ, r2 _ (clean_actM _ hψ), ← actM_mul]
    rfl

theorem qwGroups_ok {n : Nat} {d : QOp ℂ} (h : OpOk n d) (o : Term → Term → List Nat) : ∀ g ∈ qwGroups o d, Grp n (g.map Prod.fst) ∧ DWF g := by
  intro g hg
  obtain ⟨c, hc, hg⟩ := List.mem_flatMap.mp hg
  have := opOk_group h _ hc
  exact ⟨grp_of_group this hg, (opOk_group this _ hg).dwf⟩

theorem symOp_perm {R : Type} (φ : R → ℂ) (n : Nat) {d e : QOp R} (h : d.Perm e) : symOp φ n d = symOp φ n e := (h.map _).sum_eq

theorem symOp_flatten {R : Type} (φ : R → ℂ) (n : Nat) (gs : List (QOp R)) : symOp φ n gs.flatten = (gs.map (symOp φ n)).sum := by
  induction gs with
  | nil => rfl
  | cons g gs ih =>
    rw [List.flatten_cons, List.map_cons, List.sum_cons, ← ih]
    unfold symOp
    rw [List.map_append, List.sum_append]

/-- C97: the operators of the groups add up to the operator. -/
theorem C97_groups_sum (n : Nat) (d : QOp ℂ) (o : Term → Term → List Nat) :
    ((qwGroups o d).map (symOp reC n)).sum = symOp reC n d := by
  rw [← symOp_flatten]
  apply symOp_perm
  unfold qwGroups
  have h : ∀ l : List (QOp ℂ), (l.flatMap (opGroups qwRel)).flatten.Perm l.flatten := by
    intro l
    induction l with
    | nil => simp
    | cons g l ih =>
      rw [List.flatMap_cons, List.flatten_append, List.flatten_cons]
      exact (opGroups_perm qwRel g).append ih
  exact (h _).trans (opGroups_perm _ d)

/-- C97: a Trotter step does not raise and is the product of the exponentials `exp(-i·θ·H_g)` of the groups. -/
theorem C97_step (hχ : UnitH χ) {n : Nat} {d : QOp ℂ} (h : OpOk n d) (o : Term → Term → List Nat) (fwd : Bool) (t : ℝ) (steps : Nat) :
    ∃ l, trotterStep o fwd d t steps = some l ∧
      ∀ ψ, CleanH ψ → runT χ l ψ = actM (prodF n ((if fwd then t else -t) / steps) (qwGroups o d)) ψ :=
  stepAll_spec hχ fwd t steps _ (qwGroups_ok h o)

theorem runT_pow {n : Nat} {l : List TOp} {M : MatN n} (h : ∀ ψ, CleanH ψ → runT χ l ψ = actM M ψ) (k : Nat) :
    ∀ ψ, CleanH ψ → runT χ (List.replicate k l).flatten ψ = actM (M ^ k) ψ := by
  induction k with
  | zero => intro ψ _; rw [pow_zero, actM_one]; rfl
  | succ k ih =>
    intro ψ hψ
    rw [List.replicate_succ, List.flatten_cons, runT_append, h ψ hψ, ih _ (clean_actM _ hψ), ← actM_mul, pow_succ]

/-- C97: with `order=1` the whole circuit is the `iter·steps`-th power of the product formula. -/
theorem C97_first_order (hχ : UnitH χ) {n : Nat} {d : QOp ℂ} (h : OpOk n d) (o : Term → Term → List Nat) (fwd : Bool) (t : ℝ) (steps iter : Nat) :
    ∃ l, trotterU o fwd false d t steps iter = some l ∧
      ∀ ψ, CleanH ψ → runT χ l ψ = actM (prodF n ((if fwd then t else -t) / steps) (qwGroups o d) ^ (iter * steps)) ψ := by
  obtain ⟨l, l1, l2⟩ := C97_step hχ h o fwd t steps
  refine ⟨_, ?_, runT_pow l2 (iter * steps)⟩
  unfold trotterU
  rw [if_neg Bool.false_ne_true, l1]

end Verif.Props
