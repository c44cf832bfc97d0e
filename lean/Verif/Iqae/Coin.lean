import Verif.Iqae.Prob
import Mathlib.Probability.Independence.InfinitePi
import Mathlib.Probability.ProbabilityMassFunction.Constructions

/-!
# Independent shots

The distribution of the mean of `n` independent shots with probability `p` of 1; it exists for all `n` and `p`.
-/

namespace Verif.Iqae
open Real MeasureTheory ProbabilityTheory
open scoped ENNReal NNReal

/-- The law of one shot. -/
noncomputable def coin (p : ℝ) : Measure Bool :=
  ENNReal.ofReal p • Measure.dirac true + ENNReal.ofReal (1 - p) • Measure.dirac false

theorem coin_prob {p : ℝ} (h0 : 0 ≤ p) (h1 : p ≤ 1) : IsProbabilityMeasure (coin p) := by
  constructor
  simp only [coin, Measure.coe_add, Measure.coe_smul, Pi.add_apply, Pi.smul_apply, measure_univ, smul_eq_mul, mul_one]
  rw [← ENNReal.ofReal_add h0 (by linarith)]
  simp

theorem isMean_exists {p : ℝ} (h0 : 0 ≤ p) (h1 : p ≤ 1) (n : ℤ) : ∃ q : PMF ℝ, IsMean q n p := by
  haveI := coin_prob h0 h1
  let μ : Measure (ℕ → Bool) := Measure.infinitePi fun _ => coin p
  let cnt : (ℕ → Bool) → ℕ := fun ω => ∑ i ∈ Finset.range n.toNat, if ω i then 1 else 0
  have hc : Measurable cnt := Finset.measurable_sum _ fun i _ =>
    (measurable_from_top (f := fun b : Bool => if b then 1 else 0)).comp (measurable_pi_apply i)
  haveI : IsProbabilityMeasure (μ.map cnt) := Measure.isProbabilityMeasure_map hc.aemeasurable
  refine ⟨PMF.map (fun k : ℕ => (k : ℝ) / n.toNat) (μ.map cnt).toPMF, ℕ → Bool, inferInstance, μ, inferInstance,
    fun i ω => if ω i then 1 else 0, ?_, ?_, ?_, ?_, ?_⟩
  · exact iIndepFun_infinitePi (X := fun _ (b : Bool) => if b then (1 : ℝ) else 0) fun _ => measurable_from_top
  · intro i
    exact (measurable_from_top (f := fun b : Bool => if b then (1 : ℝ) else 0)).comp (measurable_pi_apply i)
  · intro i ω
    dsimp only
    split_ifs <;> simp
  · intro i
    have : ∫ ω, (if ω i then (1 : ℝ) else 0) ∂μ = ∫ b, (if b then (1 : ℝ) else 0) ∂(μ.map fun ω => ω i) := by
      rw [integral_map (measurable_pi_apply i).aemeasurable]
      exact (measurable_from_top (f := fun b : Bool => if b then (1 : ℝ) else 0)).aestronglyMeasurable
    haveI f1 : IsFiniteMeasure (ENNReal.ofReal p • Measure.dirac true : Measure Bool) := ⟨by simp⟩
    haveI f2 : IsFiniteMeasure (ENNReal.ofReal (1 - p) • Measure.dirac false : Measure Bool) := ⟨by simp⟩
    rw [this, Measure.infinitePi_map_eval, coin, integral_add_measure (Integrable.of_finite) (Integrable.of_finite),
      integral_smul_measure, integral_smul_measure, integral_dirac, integral_dirac]
    simp [h0]
  · rw [← PMF.toMeasure_map _ _ (measurable_from_top), Measure.toPMF_toMeasure, Measure.map_map measurable_from_top hc]
    congr 1
    funext ω
    simp only [Function.comp_def, cnt]
    push_cast
    rfl

end Verif.Iqae
