import Mathlib.Probability.Moments.SubGaussian
import Mathlib.Probability.ProbabilityMassFunction.Monad
import Verif.Iqae.Budget

/-!
# The probability that the estimate is right
-/

namespace Verif.Iqae
open Real MeasureTheory ProbabilityTheory
open scoped ENNReal NNReal

/-! ### The mean of independent measurements -/

section Mean
variable {Ω : Type} [MeasurableSpace Ω] {μ : Measure Ω} [IsProbabilityMeasure μ]

theorem upper_tail {X : ℕ → Ω → ℝ} (hi : iIndepFun X μ) (hm : ∀ i, Measurable (X i)) (hb : ∀ i ω, X i ω ∈ Set.Icc (0 : ℝ) 1) {p : ℝ}
    (hp : ∀ i, ∫ ω, X i ω ∂μ = p) {n : ℕ} (hn : 0 < n) {e : ℝ} (he : 0 ≤ e) :
    μ.real {ω | n * e ≤ ∑ i ∈ Finset.range n, (X i ω - p)} ≤ exp (-2 * n * e ^ 2) := by
  have hi' : iIndepFun (fun i ω => X i ω - p) μ := hi.comp (fun _ x => x - p) fun _ => measurable_id.sub_const p
  have hs : ∀ i < n, HasSubgaussianMGF (fun ω => X i ω - p) ((‖(1 : ℝ) - 0‖₊ / 2) ^ 2) μ := by
    intro i _
    have := hasSubgaussianMGF_of_mem_Icc (hm i).aemeasurable (μ := μ) (Filter.Eventually.of_forall (hb i))
    rwa [hp i] at this
  have := HasSubgaussianMGF.measure_sum_range_ge_le_of_iIndepFun hi' hs (ε := n * e) (by positivity)
  refine this.trans (le_of_eq ?_)
  congr 1
  have hn' : (n : ℝ) ≠ 0 := by exact_mod_cast hn.ne'
  push_cast
  simp
  field_simp

theorem mean_tail {X : ℕ → Ω → ℝ} (hi : iIndepFun X μ) (hm : ∀ i, Measurable (X i)) (hb : ∀ i ω, X i ω ∈ Set.Icc (0 : ℝ) 1) {p : ℝ}
    (hp : ∀ i, ∫ ω, X i ω ∂μ = p) {n : ℕ} (hn : 0 < n) {e : ℝ} (he : 0 ≤ e) :
    μ {ω | e < |(∑ i ∈ Finset.range n, X i ω) / n - p|} ≤ ENNReal.ofReal (2 * exp (-2 * n * e ^ 2)) := by
  have hn' : (0 : ℝ) < n := by exact_mod_cast hn
  have h1 := upper_tail hi hm hb hp hn he
  have hi2 : iIndepFun (fun i ω => 1 - X i ω) μ := hi.comp (fun _ x => 1 - x) fun _ => measurable_id.const_sub 1
  have hp2 : ∀ i, ∫ ω, (1 - X i ω) ∂μ = 1 - p := by
    intro i
    rw [integral_sub (integrable_const _) (Integrable.of_mem_Icc 0 1 (hm i).aemeasurable (Filter.Eventually.of_forall (hb i))), hp i]
    simp
  have h2 := upper_tail hi2 (fun i => (hm i).const_sub 1) (fun i ω => by
    have := hb i ω; constructor <;> linarith [this.1, this.2]) hp2 hn he
  have hsub : {ω | e < |(∑ i ∈ Finset.range n, X i ω) / n - p|} ⊆
      {ω | n * e ≤ ∑ i ∈ Finset.range n, (X i ω - p)} ∪ {ω | n * e ≤ ∑ i ∈ Finset.range n, (1 - X i ω - (1 - p))} := by
    intro ω hω
    simp only [Set.mem_ofPred_eq] at hω
    have e1 : ∑ i ∈ Finset.range n, (X i ω - p) = n * ((∑ i ∈ Finset.range n, X i ω) / n - p) := by
      rw [Finset.sum_sub_distrib, Finset.sum_const, Finset.card_range, mul_sub, mul_div_cancel₀ _ hn'.ne', nsmul_eq_mul]
    have e2 : ∑ i ∈ Finset.range n, (1 - X i ω - (1 - p)) = -(n * ((∑ i ∈ Finset.range n, X i ω) / n - p)) := by
      rw [← e1, ← Finset.sum_neg_distrib]
      exact Finset.sum_congr rfl fun i _ => by ring
    rcases lt_abs.mp hω with h | h
    · left
      rw [Set.mem_ofPred_eq, e1]
      exact mul_le_mul_of_nonneg_left h.le hn'.le
    · right
      rw [Set.mem_ofPred_eq, e2, ← mul_neg]
      exact mul_le_mul_of_nonneg_left h.le hn'.le
  refine (measure_mono hsub).trans ((measure_union_le _ _).trans ?_)
  rw [two_mul, ENNReal.ofReal_add (exp_pos _).le (exp_pos _).le]
  refine add_le_add ?_ ?_
  · rw [← ofReal_measureReal]; exact ENNReal.ofReal_le_ofReal h1
  · rw [← ofReal_measureReal]; exact ENNReal.ofReal_le_ofReal h2

end Mean

/-- `q` is the distribution of the mean of `n` independent results, each 0 or 1 (or between), with expectation `p`. -/
def IsMean (q : PMF ℝ) (n : ℤ) (p : ℝ) : Prop :=
  ∃ (Ω : Type) (_ : MeasurableSpace Ω) (μ : Measure Ω) (_ : IsProbabilityMeasure μ) (X : ℕ → Ω → ℝ),
    iIndepFun X μ ∧ (∀ i, Measurable (X i)) ∧ (∀ i ω, X i ω ∈ Set.Icc (0 : ℝ) 1) ∧ (∀ i, ∫ ω, X i ω ∂μ = p) ∧
    q.toMeasure = μ.map fun ω => (∑ i ∈ Finset.range n.toNat, X i ω) / n.toNat

theorem isMean_tail {q : PMF ℝ} {n : ℤ} (hn : 0 < n) {p : ℝ} (h : IsMean q n p) {e : ℝ} (he : 0 ≤ e) :
    q.toOuterMeasure {A | e < |A - p|} ≤ ENNReal.ofReal (2 * exp (-2 * n * e ^ 2)) := by
  obtain ⟨Ω, _, μ, _, X, h1, h2, h3, h4, h5⟩ := h
  have hmm : Measurable fun ω => (∑ i ∈ Finset.range n.toNat, X i ω) / (n.toNat : ℝ) :=
    (Finset.measurable_sum _ fun i _ => h2 i).div_const _
  have hms : MeasurableSet {A : ℝ | e < |A - p|} := measurableSet_lt measurable_const ((measurable_id.sub_const p).abs)
  rw [← PMF.toMeasure_apply_eq_toOuterMeasure_apply _ hms, h5, Measure.map_apply hmm hms]
  have := mean_tail h1 h2 h3 h4 (n := n.toNat) (by omega) he
  have en : ((n.toNat : ℕ) : ℝ) = n := by
    have : ((n.toNat : ℤ) : ℝ) = n := by rw [Int.toNat_of_nonneg hn.le]
    exact_mod_cast this
  simp only [en] at this ⊢
  exact this

theorem isMean_mem {q : PMF ℝ} {n : ℤ} {p : ℝ} (h : IsMean q n p) {A : ℝ} (hA : A ∈ q.support) : 0 ≤ A ∧ A ≤ 1 := by
  obtain ⟨Ω, _, μ, _, X, h1, h2, h3, h4, h5⟩ := h
  by_contra hc
  have hmm : Measurable fun ω => (∑ i ∈ Finset.range n.toNat, X i ω) / (n.toNat : ℝ) :=
    (Finset.measurable_sum _ fun i _ => h2 i).div_const _
  have h0 : q.toMeasure {A} = 0 := by
    rw [h5, Measure.map_apply hmm (measurableSet_singleton A)]
    convert measure_empty (μ := μ)
    ext ω
    simp only [Set.mem_preimage, Set.mem_singleton_iff, Set.mem_empty_iff_false, iff_false]
    rintro rfl
    apply hc
    have s0 : 0 ≤ ∑ i ∈ Finset.range n.toNat, X i ω := Finset.sum_nonneg fun i _ => (h3 i ω).1
    have s1 : ∑ i ∈ Finset.range n.toNat, X i ω ≤ n.toNat := by
      have := Finset.sum_le_sum (s := Finset.range n.toNat) fun i _ => (h3 i ω).2
      simpa using this
    exact ⟨by positivity, div_le_one_of_le₀ s1 (Nat.cast_nonneg _)⟩
  rw [PMF.toMeasure_apply_singleton _ _ (measurableSet_singleton A)] at h0
  exact (PMF.mem_support_iff _ _).mp hA h0

/-! ### The whole algorithm -/

open Classical in
/-- `IQAE` with random results of the quantum steps: `samp K N` is the distribution of the result with `(K - 1) / 2` iterations and `N` shots. -/
noncomputable def prun (samp : ℕ → ℤ → PMF ℝ) (al eps : ℝ) : ℕ → Stt → ℝ → PMF (Option ℝ)
  | 0, _, _ => PMF.pure none
  | f + 1, s, bc => if bc > 2 * eps then (samp s.K (shots al eps s.K)).bind fun A =>
        prun samp al eps f (body A s) |(body A s).tb - (body A s).ts|
      else PMF.pure (some (result s))

/-- No result, or one that is not within `eps`. -/
def Bad (eps a : ℝ) : Set (Option ℝ) := {o | ∀ r, o = some r → eps < |r - a|}

theorem outer_le_one {α : Type} (q : PMF α) (B : Set α) : q.toOuterMeasure B ≤ 1 := by
  have h : q.toOuterMeasure B ≤ q.toOuterMeasure Set.univ := measure_mono (Set.subset_univ B)
  have : q.toOuterMeasure Set.univ = 1 := (PMF.toOuterMeasure_apply_eq_one_iff _ _).mpr (Set.subset_univ _)
  rwa [this] at h

theorem bind_le {α β : Type} (p : PMF α) (f : α → PMF β) (B : Set α) (S : Set β) {c : ℝ≥0∞}
    (h : ∀ a ∈ p.support, a ∉ B → (f a).toOuterMeasure S ≤ c) : (p.bind f).toOuterMeasure S ≤ p.toOuterMeasure B + c := by
  classical
  rw [PMF.toOuterMeasure_bind_apply, PMF.toOuterMeasure_apply]
  have h1 : ∀ a, p a * (f a).toOuterMeasure S ≤ B.indicator p a + p a * c := by
    intro a
    by_cases ha : a ∈ p.support
    · by_cases hB : a ∈ B
      · rw [Set.indicator_of_mem hB]
        refine le_trans ?_ le_self_add
        calc p a * (f a).toOuterMeasure S ≤ p a * 1 := mul_le_mul_right (outer_le_one _ _) _
          _ = p a := mul_one _
      · rw [Set.indicator_of_notMem hB, zero_add]
        exact mul_le_mul_right (h a ha hB) _
    · rw [PMF.mem_support_iff, not_not] at ha
      simp [ha]
  refine (ENNReal.tsum_le_tsum h1).trans ?_
  rw [ENNReal.tsum_add, ENNReal.tsum_mul_right, p.tsum_coe, one_mul]

/-- What holds before a round. -/
structure Before (t : ℝ) (s : Stt) (H : ℝ) : Prop where
  pos : 0 < s.K
  odd : s.K % 2 = 1
  lo : s.m * (π / 2) ≤ s.K * t
  hi : s.K * t ≤ (s.m + 1) * (π / 2)
  nonneg : 0 ≤ H
  past : 2 * H ≤ s.K

/-- What holds after a round. -/
structure After (t : ℝ) (s : Stt) (H : ℝ) : Prop extends Before t s H where
  btw : Btw s.tb s.ts t
  from_ : ∃ P : ℝ, 0 < P ∧ |s.tb - s.ts| * P ≤ 2 * cF ∧ 2 * H ≤ 3 * P
  next : |s.tb - s.ts| * s.K ≤ π / 2

theorem After.step {t : ℝ} {s : Stt} {H : ℝ} (h : Before t s H) {A : ℝ} (h0 : 0 ≤ A) (h1 : A ≤ 1) (hA : |A - sin (s.K * t) ^ 2| ≤ cE) :
    After t (body A s) (H + s.K) ∧ 3 * (s.K : ℝ) ≤ (body A s).K := by
  obtain ⟨b1, b2, b3⟩ := body_inside h.pos h0 h1 h.lo h.hi hA
  obtain ⟨⟨L, hL, e⟩, r2, r3⟩ := round_body h.pos h0 h1
  have hp : (0 : ℝ) < s.K := by exact_mod_cast h.pos
  have h3 : (3 : ℝ) ≤ L := by
    have : 3 ≤ L := by omega
    exact_mod_cast this
  have hK : 3 * (s.K : ℝ) ≤ (body A s).K := by
    rw [e]; push_cast; exact mul_le_mul_of_nonneg_right h3 hp.le
  have hpast := h.past
  have hn := h.nonneg
  refine ⟨⟨⟨?_, ?_, b2, b3, by linarith, by linarith⟩, b1, ⟨s.K, hp, r2, by linarith⟩, r3⟩, hK⟩
  · rw [e]; exact Nat.mul_pos (by omega) h.pos
  · rw [e, Nat.mul_mod, h.odd]
    rcases hL with rfl | rfl | rfl <;> rfl

theorem result_near {t eps : ℝ} {s : Stt} (h : Btw s.tb s.ts t) (hw : |s.tb - s.ts| ≤ 2 * eps) : |result s - sin t ^ 2| ≤ eps := by
  refine (sq_lipschitz _ _).trans ?_
  rw [abs_le] at hw ⊢
  rcases h with ⟨a, b⟩ | ⟨a, b⟩
  · constructor <;> linarith
  · constructor <;> linarith

section Run
variable {samp : ℕ → ℤ → PMF ℝ} {al eps t : ℝ}

theorem bind_step (ha : 0 < al) (ha1 : al ≤ 1) (he : 0 < eps)
    (hs : ∀ K N, K % 2 = 1 → 0 < N → IsMean (samp K N) N (sin (K * t) ^ 2)) {s : Stt} {H : ℝ} (h : Before t s H)
    (hc : cC * (eps * (H + s.K)) ≤ 1) {f : ℕ}
    (ih : ∀ s', After t s' (H + s.K) → 3 * (s.K : ℝ) ≤ s'.K →
      (prun samp al eps f s' |s'.tb - s'.ts|).toOuterMeasure (Bad eps (sin t ^ 2)) ≤ ENNReal.ofReal (al * (1 - cC * (eps * (H + s.K))))) :
    ((samp s.K (shots al eps s.K)).bind fun A => prun samp al eps f (body A s) |(body A s).tb - (body A s).ts|).toOuterMeasure
      (Bad eps (sin t ^ 2)) ≤ ENNReal.ofReal (al * (1 - cC * (eps * H))) := by
  have hKp : (0 : ℝ) < s.K := by exact_mod_cast h.pos
  have hC := cC_pos
  have halp : 0 < alp al eps s.K := by unfold alp; positivity
  have halp1 : alp al eps s.K ≤ 1 := by
    have e1 : alp al eps s.K = al * (cC * (eps * s.K)) := by unfold alp; ring
    have e2 : cC * (eps * s.K) ≤ 1 := by
      refine le_trans (mul_le_mul_of_nonneg_left (mul_le_mul_of_nonneg_left ?_ he.le) hC.le) hc
      linarith [h.nonneg]
    rw [e1]
    have : 0 ≤ cC * (eps * s.K) := by positivity
    nlinarith
  have hN : 0 < shots al eps s.K := by
    unfold shots
    rw [Int.ceil_pos]
    have : 0 < log (2 / alp al eps s.K) := log_pos (by rw [lt_div_iff₀ halp]; linarith)
    have := cE_pos
    positivity
  have hm := hs s.K (shots al eps s.K) h.odd hN
  refine (bind_le _ _ {A | cE < |A - sin (s.K * t) ^ 2|} _ (c := ENNReal.ofReal (al * (1 - cC * (eps * (H + s.K))))) ?_).trans ?_
  · intro A hA hB
    simp only [Set.mem_ofPred_eq, not_lt] at hB
    obtain ⟨a0, a1⟩ := isMean_mem hm hA
    obtain ⟨k1, k2⟩ := After.step h a0 a1 hB
    exact ih _ k1 k2
  · have h1 := (isMean_tail hN hm cE_pos.le).trans (ENNReal.ofReal_le_ofReal (shots_enough halp))
    refine (add_le_add h1 le_rfl).trans ?_
    rw [← ENNReal.ofReal_add halp.le (mul_nonneg ha.le (by linarith))]
    apply ENNReal.ofReal_le_ofReal
    unfold alp
    apply le_of_eq
    ring

theorem prob_from (ha : 0 < al) (ha1 : al ≤ 1) (he : 0 < eps)
    (hs : ∀ K N, K % 2 = 1 → 0 < N → IsMean (samp K N) N (sin (K * t) ^ 2)) : ∀ (f : ℕ) (s : Stt) (H : ℝ), After t s H →
    π / 4 ≤ eps * s.K * 3 ^ f →
    (prun samp al eps (f + 1) s |s.tb - s.ts|).toOuterMeasure (Bad eps (sin t ^ 2)) ≤ ENNReal.ofReal (al * (1 - cC * (eps * H))) := by
  classical
  intro f
  induction f with
  | zero =>
    intro s H h hf
    have hKp : (0 : ℝ) < s.K := by exact_mod_cast h.pos
    have hw : |s.tb - s.ts| ≤ 2 * eps := by
      have h2 := h.next
      by_contra hc
      push Not at hc
      have := mul_lt_mul_of_pos_right hc hKp
      simp only [pow_zero, mul_one] at hf
      linarith
    unfold prun
    rw [if_neg (not_lt.mpr hw), PMF.toOuterMeasure_pure_apply, if_neg]
    · exact zero_le
    · intro hb
      exact absurd (result_near h.btw hw) (not_le.mpr (hb _ rfl))
  | succ f ih =>
    intro s H h hf
    have hKp : (0 : ℝ) < s.K := by exact_mod_cast h.pos
    by_cases hw : |s.tb - s.ts| > 2 * eps
    · unfold prun
      rw [if_pos hw]
      obtain ⟨P, p1, p2, p3⟩ := h.from_
      have hc := spend he p2 h.next p3 p1 hKp hw
      refine bind_step ha ha1 he hs h.toBefore hc fun s' k1 k2 => ih s' _ k1 ?_
      rw [pow_succ] at hf
      have : eps * (3 * s.K) * 3 ^ f ≤ eps * s'.K * 3 ^ f :=
        mul_le_mul_of_nonneg_right (mul_le_mul_of_nonneg_left k2 he.le) (by positivity)
      linarith
    · unfold prun
      rw [if_neg hw, PMF.toOuterMeasure_pure_apply, if_neg]
      · exact zero_le
      · intro hb
        exact absurd (result_near h.btw (not_lt.mp hw)) (not_le.mpr (hb _ rfl))

theorem prob_init (h0 : 0 ≤ t) (h1 : t ≤ π / 2) (ha : 0 < al) (ha1 : al ≤ 1) (he : 0 < eps) (he1 : eps ≤ 1)
    (hs : ∀ K N, K % 2 = 1 → 0 < N → IsMean (samp K N) N (sin (K * t) ^ 2)) {f : ℕ} (hf : π / 4 ≤ eps * 3 ^ (f + 1)) :
    (prun samp al eps (f + 2) init (2 * eps + 1)).toOuterMeasure (Bad eps (sin t ^ 2)) ≤ ENNReal.ofReal al := by
  unfold prun
  rw [if_pos (by linarith)]
  have hb : Before t init 0 := ⟨by simp [init], rfl, by simpa [init] using h0, by simpa [init] using h1, le_refl _, by simp [init]⟩
  have hC := cC_pos
  have hC1 := cC_le
  have := bind_step (f := f + 1) ha ha1 he hs hb (by simp only [init]; push_cast; nlinarith) fun s' k1 k2 => prob_from ha ha1 he hs f s' _ k1 (by
    simp only [init] at k2
    push_cast at k2
    rw [pow_succ] at hf
    have : eps * 3 * 3 ^ f ≤ eps * s'.K * 3 ^ f :=
      mul_le_mul_of_nonneg_right (mul_le_mul_of_nonneg_left (by linarith) he.le) (by positivity)
    linarith)
  simpa using this

end Run

end Verif.Iqae
