import Mathlib.Analysis.SpecialFunctions.Exponential
import Mathlib.Analysis.Calculus.Deriv.Mul
import Mathlib.Analysis.Calculus.Deriv.Add
import Mathlib.Analysis.Calculus.Deriv.Slope

/-!
The Lie product formula for finitely many elements of a Banach algebra.
-/

namespace Verif.Ham

open NormedSpace (exp)
open Filter Topology

variable {𝔸 : Type*} [NormedRing 𝔸] [NormedAlgebra ℝ 𝔸] [CompleteSpace 𝔸] [NormOneClass 𝔸]

theorem norm_exp_le (x : 𝔸) : ‖exp x‖ ≤ Real.exp ‖x‖ := by
  have h1 := NormedSpace.norm_expSeries_summable' (𝕂 := ℝ) x
  have h2 : HasSum (fun n : ℕ => ((n.factorial : ℝ)⁻¹) • ‖x‖ ^ n) (exp ‖x‖) := NormedSpace.exp_series_hasSum_exp' (𝕂 := ℝ) ‖x‖
  rw [NormedSpace.exp_eq_tsum ℝ]
  beta_reduce
  rw [Real.exp_eq_exp_ℝ]
  refine (norm_tsum_le_tsum_norm h1).trans ?_
  rw [← h2.tsum_eq]
  refine h1.tsum_le_tsum (fun n => ?_) h2.summable
  rw [norm_smul, smul_eq_mul]
  refine mul_le_mul ?_ (norm_pow_le x n) (norm_nonneg _) (by positivity)
  rw [Real.norm_of_nonneg (by positivity)]

/-- The product of exponentials, the first factor on the right. -/
noncomputable def expProd (s : ℝ) : List 𝔸 → 𝔸
  | [] => 1
  | a :: l => expProd s l * exp (s • a)

theorem expProd_zero (l : List 𝔸) : expProd 0 l = 1 := by
  induction l with
  | nil => rfl
  | cons a l ih => unfold expProd; rw [ih, zero_smul, NormedSpace.exp_zero, one_mul]

theorem expProd_deriv (l : List 𝔸) : HasDerivAt (fun s : ℝ => expProd s l) l.sum 0 := by
  induction l with
  | nil => exact hasDerivAt_const _ _
  | cons a l ih =>
    have h1 : HasDerivAt (fun s : ℝ => exp (s • a)) (exp ((0 : ℝ) • a) * a) 0 := hasDerivAt_exp_smul_const a (0 : ℝ)
    have h2 := ih.mul h1
    rw [expProd_zero, zero_smul, NormedSpace.exp_zero, one_mul, one_mul, mul_one] at h2
    rw [List.sum_cons, add_comm]
    exact h2

theorem expProd_norm (l : List 𝔸) {s : ℝ} (hs : 0 ≤ s) : ‖expProd s l‖ ≤ Real.exp (s * (l.map norm).sum) := by
  induction l with
  | nil => simp [expProd]
  | cons a l ih =>
    unfold expProd
    refine (norm_mul_le _ _).trans ?_
    rw [List.map_cons, List.sum_cons, mul_add, Real.exp_add, mul_comm (Real.exp _)]
    refine mul_le_mul ih ?_ (norm_nonneg _) (Real.exp_nonneg _)
    refine (norm_exp_le _).trans ?_
    rw [norm_smul, Real.norm_of_nonneg hs]

theorem pow_sub_pow {x y : 𝔸} {M : ℝ} (hx : ‖x‖ ≤ M) (hy : ‖y‖ ≤ M) (hM : 1 ≤ M) (n : ℕ) : ‖x ^ n - y ^ n‖ ≤ n * M ^ n * ‖x - y‖ := by
  induction n with
  | zero => simp
  | succ n ih =>
    have e : x ^ (n + 1) - y ^ (n + 1) = x ^ n * (x - y) + (x ^ n - y ^ n) * y := by
      rw [pow_succ, pow_succ, mul_sub, sub_mul]
      abel
    have h0 : (0 : ℝ) ≤ M := zero_le_one.trans hM
    have h1 : ‖x ^ n * (x - y)‖ ≤ M ^ (n + 1) * ‖x - y‖ := by
      refine (norm_mul_le _ _).trans (mul_le_mul_of_nonneg_right ?_ (norm_nonneg _))
      refine (norm_pow_le x n).trans ((pow_le_pow_left₀ (norm_nonneg _) hx n).trans ?_)
      rw [pow_succ]
      exact le_mul_of_one_le_right (pow_nonneg h0 n) hM
    have h2 : ‖(x ^ n - y ^ n) * y‖ ≤ n * M ^ (n + 1) * ‖x - y‖ := by
      refine (norm_mul_le _ _).trans ((mul_le_mul ih hy (norm_nonneg _) (by positivity)).trans (le_of_eq ?_))
      ring
    rw [e]
    refine (norm_add_le _ _).trans ((add_le_add h1 h2).trans (le_of_eq ?_))
    push_cast
    ring

/-- The Lie product formula. -/
theorem lie_product (l : List 𝔸) : Tendsto (fun N : ℕ => expProd (1 / (N : ℝ)) l ^ N) atTop (𝓝 (exp l.sum)) := by
  set H := l.sum with hH
  set K : ℝ := (l.map norm).sum with hK
  have hK0 : 0 ≤ K := List.sum_nonneg fun x hx => by
    obtain ⟨a, _, rfl⟩ := List.mem_map.mp hx
    exact norm_nonneg a
  have hHK : ‖H‖ ≤ K := by
    have : ∀ l : List 𝔸, ‖l.sum‖ ≤ (l.map norm).sum := by
      intro l
      induction l with
      | nil => simp
      | cons a l ih => rw [List.sum_cons, List.map_cons, List.sum_cons]; exact (norm_add_le _ _).trans (by gcongr)
    exact this l
  have hd : HasDerivAt (fun s : ℝ => expProd s l - exp (s • H)) 0 0 := by
    have h1 : HasDerivAt (fun s : ℝ => exp (s • H)) (exp ((0 : ℝ) • H) * H) 0 := hasDerivAt_exp_smul_const H (0 : ℝ)
    rw [zero_smul, NormedSpace.exp_zero, one_mul] at h1
    have := (expProd_deriv l).sub h1
    rwa [← hH, sub_self] at this
  have hD0 : expProd 0 l - exp ((0 : ℝ) • H) = 0 := by rw [expProd_zero, zero_smul, NormedSpace.exp_zero, sub_self]
  have hslope := hasDerivAt_iff_tendsto_slope_zero.mp hd
  have hN : Tendsto (fun N : ℕ => (1 / (N : ℝ))) atTop (𝓝[≠] 0) := by
    rw [tendsto_nhdsWithin_iff]
    refine ⟨tendsto_one_div_atTop_nhds_zero_nat, ?_⟩
    filter_upwards [eventually_gt_atTop 0] with N hN
    have : (0 : ℝ) < N := by exact_mod_cast hN
    exact (one_div_pos.mpr this).ne'
  have hsm := (hslope.comp hN).norm
  rw [norm_zero] at hsm
  have hlim : Tendsto (fun N : ℕ => (N : ℝ) * Real.exp K * ‖expProd (1 / (N : ℝ)) l - exp ((1 / (N : ℝ)) • H)‖) atTop (𝓝 0) := by
    have := hsm.const_mul (Real.exp K)
    rw [mul_zero] at this
    refine this.congr fun N => ?_
    simp only [Function.comp_apply]
    rw [zero_add, hD0, sub_zero, norm_smul, norm_inv, Real.norm_of_nonneg (by positivity : (0 : ℝ) ≤ 1 / (N : ℝ)), one_div, inv_inv]
    ring
  rw [tendsto_iff_norm_sub_tendsto_zero]
  refine squeeze_zero' (Eventually.of_forall fun _ => norm_nonneg _) ?_ hlim
  filter_upwards [eventually_gt_atTop 0] with N hN0
  have hNp : (0 : ℝ) < N := by exact_mod_cast hN0
  have hs : (0 : ℝ) ≤ 1 / (N : ℝ) := by positivity
  have hy : exp H = exp ((1 / (N : ℝ)) • H) ^ N := by
    let _ : NormedAlgebra ℚ 𝔸 := .restrictScalars ℚ ℝ 𝔸
    rw [← NormedSpace.exp_nsmul, ← Nat.cast_smul_eq_nsmul ℝ, smul_smul, mul_one_div_cancel hNp.ne', one_smul]
  rw [hy]
  have hx1 : ‖expProd (1 / (N : ℝ)) l‖ ≤ Real.exp (1 / (N : ℝ) * K) := expProd_norm l hs
  have hy1 : ‖exp ((1 / (N : ℝ)) • H)‖ ≤ Real.exp (1 / (N : ℝ) * K) := by
    refine (norm_exp_le _).trans (Real.exp_le_exp.mpr ?_)
    rw [norm_smul, Real.norm_of_nonneg hs]
    exact mul_le_mul_of_nonneg_left hHK hs
  have := pow_sub_pow hx1 hy1 (Real.one_le_exp (by positivity)) N
  rw [← Real.exp_nat_mul, ← mul_assoc, mul_one_div_cancel hNp.ne', one_mul] at this
  exact this

end Verif.Ham
