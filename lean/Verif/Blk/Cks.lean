import Mathlib.Analysis.SpecialFunctions.Log.Deriv
import Mathlib.Analysis.SpecialFunctions.Trigonometric.Series
import Mathlib.Analysis.SpecialFunctions.Trigonometric.Inverse
import Mathlib.Analysis.SpecialFunctions.Trigonometric.Chebyshev.Basic
import Mathlib.Data.Nat.Choose.Sum
import Verif.Blk.Cheb

/-!
The Chebyshev approximation of 1/x of Childs, Kothari and Somma (algorithms/cks.py, algorithms/gqsp/inversion.py).
-/

namespace Verif.Blk

open Polynomial
open Polynomial.Chebyshev (T)

/-- `beta` before it is cast to an integer (cks.py:81-84); `max_beta` is the optional cap. -/
noncomputable def cksBeta (eps kappa : ℝ) (max_beta : Option ℝ) : ℝ :=
  match max_beta with
  | none => kappa ^ 2 * Real.log (kappa / eps)
  | some m => min (kappa ^ 2 * Real.log (kappa / eps)) m

/-- `cks_params(eps, kappa, max_beta)` (cks.py:42-86): (j0, beta); `int` of non-negative numbers. -/
noncomputable def cksParams (eps kappa : ℝ) (max_beta : Option ℝ) : ℕ × ℕ :=
  let beta := cksBeta eps kappa max_beta
  (⌊Real.sqrt (beta * Real.log (4 * beta / eps))⌋₊, ⌊beta⌋₊)

/-- `binom.sf(b + j, 2 * b, 0.5)` (cks.py:136): the probability that a binomial variable exceeds b + j. -/
noncomputable def binomSf (b j : ℕ) : ℝ := ∑ k ∈ Finset.range (2 * b + 1), if b + j < k then ((2 * b).choose k : ℝ) * (1 / 2) ^ (2 * b) else 0

/-- `cks_coeffs(j0, b)` (cks.py:89-137). -/
noncomputable def cksCoeffs (b : ℕ) : ℕ → ℝ := fun j => 4 * binomSf b j

/-- `_inversion_cheb(theta, eps)` (inversion.py:174-214): alternating signs, the coefficients at the odd places. -/
noncomputable def invCheb (b : ℕ) : ℕ → ℝ := fun k => if k % 2 = 1 then cksCoeffs b (k / 2) * (-1) ^ (k / 2) else 0

/-! ### The binomial tail -/

/-- The probability of b + j. -/
noncomputable def binW (b j : ℕ) : ℝ := ((2 * b).choose (b + j) : ℝ) * (1 / 2) ^ (2 * b)

theorem binomSf_big {b j : ℕ} (h : b ≤ j) : binomSf b j = 0 := by
  refine Finset.sum_eq_zero fun k hk => if_neg ?_
  have := Finset.mem_range.1 hk; omega

theorem binomSf_nonneg (b j : ℕ) : 0 ≤ binomSf b j := Finset.sum_nonneg fun k _ => by split_ifs <;> positivity

theorem binomSf_step {b j : ℕ} (h : j + 1 ≤ b) : binomSf b j = binW b (j + 1) + binomSf b (j + 1) := by
  rw [binomSf, binomSf, binW]
  have e : ∀ k ∈ Finset.range (2 * b + 1), (if b + j < k then ((2 * b).choose k : ℝ) * (1 / 2) ^ (2 * b) else 0)
      = (if k = b + (j + 1) then ((2 * b).choose (b + (j + 1)) : ℝ) * (1 / 2) ^ (2 * b) else 0)
        + (if b + (j + 1) < k then ((2 * b).choose k : ℝ) * (1 / 2) ^ (2 * b) else 0) := by
    intro k _
    rcases lt_trichotomy k (b + (j + 1)) with h1 | h1 | h1
    · rw [if_neg (by omega), if_neg (by omega), if_neg (by omega), add_zero]
    · subst h1; rw [if_pos (by omega), if_pos rfl, if_neg (by omega), add_zero]
    · rw [if_pos (by omega), if_neg (by omega), if_pos h1, zero_add]
  rw [Finset.sum_congr rfl e, Finset.sum_add_distrib, Finset.sum_ite_eq' (Finset.range (2 * b + 1)) (b + (j + 1)), if_pos (Finset.mem_range.2 (by omega))]

/-- A sum over 0..2b of a function symmetric about b. -/
theorem sum_symm (b : ℕ) (f : ℕ → ℝ) (hf : ∀ k ≤ 2 * b, f (2 * b - k) = f k) : ∑ k ∈ Finset.range (2 * b + 1), f k = f b + 2 * ∑ j ∈ Finset.range b, f (b + 1 + j) := by
  rw [show 2 * b + 1 = b + (b + 1) by ring, Finset.sum_range_add, Finset.sum_range_succ' (fun x => f (b + x)) b, add_zero,
    ← Finset.sum_range_reflect (fun k => f k) b]
  have : ∑ j ∈ Finset.range b, f (b - 1 - j) = ∑ j ∈ Finset.range b, f (b + 1 + j) := by
    refine Finset.sum_congr rfl fun j hj => ?_
    have := Finset.mem_range.1 hj
    rw [← hf (b + 1 + j) (by omega)]; congr 1; omega
  rw [this]
  have : ∑ j ∈ Finset.range b, f (b + (j + 1)) = ∑ j ∈ Finset.range b, f (b + 1 + j) := Finset.sum_congr rfl fun j _ => by congr 1; ring
  rw [this]; ring

theorem binW_sum (b : ℕ) : binW b 0 + 2 * binomSf b 0 = 1 := by
  have h : ∑ k ∈ Finset.range (2 * b + 1), ((2 * b).choose k : ℝ) * (1 / 2) ^ (2 * b) = 1 := by
    rw [← Finset.sum_mul, ← Nat.cast_sum, Nat.sum_range_choose]
    push_cast; rw [← mul_pow]; norm_num
  rw [sum_symm b (fun k => ((2 * b).choose k : ℝ) * (1 / 2) ^ (2 * b)) (fun k hk => by rw [Nat.choose_symm hk])] at h
  rw [← h, binW, add_zero]
  congr 2
  rw [binomSf, show 2 * b + 1 = b + 1 + b by ring, Finset.sum_range_add]
  rw [Finset.sum_eq_zero fun k hk => if_neg (by have := Finset.mem_range.1 hk; omega), zero_add]
  exact Finset.sum_congr rfl fun j _ => if_pos (by omega)

/-! ### The identity -/

/-- sin²ᵇ as a cosine sum. -/
theorem sin_pow (b : ℕ) (t : ℝ) : Real.sin t ^ (2 * b) = binW b 0 + 2 * ∑ j ∈ Finset.range b, (-1) ^ (j + 1) * binW b (j + 1) * Real.cos (2 * (j + 1 : ℕ) * t) := by
  have key : (Real.sin t ^ (2 * b) : ℝ) = ∑ k ∈ Finset.range (2 * b + 1), (-1) ^ (b + k) * (((2 * b).choose k : ℝ) * (1 / 2) ^ (2 * b)) * Real.cos (2 * ((k : ℝ) - b) * t) := by
    have h := (Commute.all (Complex.exp (t * Complex.I)) (-Complex.exp (-(t * Complex.I)))).add_pow (2 * b)
    have hl : Complex.exp (t * Complex.I) + -Complex.exp (-(t * Complex.I)) = 2 * Complex.I * (Real.sin t : ℂ) := by
      rw [Complex.ofReal_sin, Complex.sin, show -(t : ℂ) * Complex.I = -(t * Complex.I) by ring]
      linear_combination (-(Complex.exp (-(t * Complex.I)) - Complex.exp (t * Complex.I))) * Complex.I_mul_I
    have hr : ∀ k ∈ Finset.range (2 * b + 1), Complex.exp (t * Complex.I) ^ k * (-Complex.exp (-(t * Complex.I))) ^ (2 * b - k) * ((2 * b).choose k : ℂ)
        = (-1) ^ k * ((2 * b).choose k : ℂ) * Complex.exp ((2 * ((k : ℝ) - b) * t : ℝ) * Complex.I) := by
      intro k hk
      have hk := Finset.mem_range.1 hk
      rw [neg_pow, ← Complex.exp_nat_mul, ← Complex.exp_nat_mul, show (-1 : ℂ) ^ (2 * b - k) = (-1) ^ k by
        exact neg_one_pow_congr (by rw [Nat.even_iff, Nat.even_iff]; omega)]
      rw [show Complex.exp ((2 * ((k : ℝ) - b) * t : ℝ) * Complex.I) = Complex.exp (k * (t * Complex.I)) * Complex.exp ((2 * b - k : ℕ) * -(t * Complex.I)) by
        rw [← Complex.exp_add]; congr 1; rw [Nat.cast_sub (by omega)]; push_cast; ring]
      ring
    rw [hl, Finset.sum_congr rfl hr, mul_pow, pow_mul, show (2 * Complex.I) ^ 2 = -4 by rw [mul_pow, Complex.I_sq]; norm_num, ← Complex.ofReal_pow] at h
    have h2 := congrArg Complex.re h
    rw [show ((-4 : ℂ) ^ b) = (((-4 : ℝ) ^ b : ℝ) : ℂ) by push_cast; rfl, ← Complex.ofReal_mul, Complex.ofReal_re, Complex.re_sum] at h2
    have hs : ∀ k ∈ Finset.range (2 * b + 1), ((-1 : ℂ) ^ k * ((2 * b).choose k : ℂ) * Complex.exp ((2 * ((k : ℝ) - b) * t : ℝ) * Complex.I)).re
        = (-1) ^ k * ((2 * b).choose k : ℝ) * Real.cos (2 * ((k : ℝ) - b) * t) := by
      intro k _
      rw [show ((-1 : ℂ) ^ k * ((2 * b).choose k : ℂ)) = (((-1 : ℝ) ^ k * ((2 * b).choose k : ℝ) : ℝ) : ℂ) by push_cast; rfl, Complex.re_ofReal_mul, Complex.exp_ofReal_mul_I_re]
    rw [Finset.sum_congr rfl hs] at h2
    have h4 : ((-4 : ℝ) ^ b) * ((-1) ^ b * (1 / 2) ^ (2 * b)) = 1 := by
      rw [pow_mul (1 / 2 : ℝ), ← mul_pow, ← mul_pow]; norm_num
    calc Real.sin t ^ (2 * b) = (((-4 : ℝ) ^ b) * ((-1) ^ b * (1 / 2) ^ (2 * b))) * Real.sin t ^ (2 * b) := by rw [h4, one_mul]
      _ = ((-1) ^ b * (1 / 2) ^ (2 * b)) * ((-4) ^ b * Real.sin t ^ (2 * b)) := by ring
      _ = _ := by rw [h2, Finset.mul_sum]; refine Finset.sum_congr rfl fun k _ => ?_; ring
  rw [key, sum_symm b]
  · congr 1
    · rw [← two_mul, pow_mul, binW, sub_self]; simp
    · congr 1
      refine Finset.sum_congr rfl fun j _ => ?_
      rw [binW, show b + (b + 1 + j) = 2 * b + (j + 1) by ring, pow_add, pow_mul, neg_one_sq, one_pow, one_mul, show b + 1 + j = b + (j + 1) by ring]
      congr 2; push_cast; ring
  · intro k hk
    rw [Nat.choose_symm hk, show (2 * ((((2 * b - k : ℕ) : ℝ)) - b) * t) = -(2 * ((k : ℝ) - b) * t) by rw [Nat.cast_sub hk]; push_cast; ring, Real.cos_neg]
    congr 2
    exact neg_one_pow_congr (by rw [Nat.even_iff, Nat.even_iff]; omega)

/-- Summation by parts. -/
theorem parts (b : ℕ) (a c : ℕ → ℝ) : ∑ j ∈ Finset.range b, (-1) ^ j * a j * (c (j + 1) + c j)
    = a 0 * c 0 + (∑ j ∈ Finset.range b, (-1) ^ j * (a j - a (j + 1)) * c (j + 1)) - (-1) ^ b * a b * c b := by
  induction b with
  | zero => simp
  | succ b ih => rw [Finset.sum_range_succ, Finset.sum_range_succ, ih]; ring

/-- The full sum: 4 Σ (-1)ʲ P(X > b + j) T₂ⱼ₊₁(x) x = 1 - (1 - x²)ᵇ. -/
theorem cks_full (b : ℕ) (t : ℝ) : Real.cos t * ∑ j ∈ Finset.range b, (-1) ^ j * cksCoeffs b j * Real.cos ((2 * j + 1 : ℕ) * t) = 1 - Real.sin t ^ (2 * b) := by
  have e : Real.cos t * ∑ j ∈ Finset.range b, (-1) ^ j * cksCoeffs b j * Real.cos ((2 * j + 1 : ℕ) * t)
      = 2 * ∑ j ∈ Finset.range b, (-1) ^ j * binomSf b j * (Real.cos (2 * (j + 1 : ℕ) * t) + Real.cos (2 * (j : ℕ) * t)) := by
    rw [Finset.mul_sum, Finset.mul_sum]
    refine Finset.sum_congr rfl fun j _ => ?_
    have h : Real.cos (2 * (j + 1 : ℕ) * t) + Real.cos (2 * (j : ℕ) * t) = 2 * (Real.cos ((2 * j + 1 : ℕ) * t) * Real.cos t) := by
      have h1 := Real.cos_add ((2 * j + 1 : ℕ) * t) t
      have h2 := Real.cos_sub ((2 * j + 1 : ℕ) * t) t
      rw [show ((2 * j + 1 : ℕ) : ℝ) * t + t = 2 * (j + 1 : ℕ) * t by push_cast; ring] at h1
      rw [show ((2 * j + 1 : ℕ) : ℝ) * t - t = 2 * (j : ℕ) * t by push_cast; ring] at h2
      rw [h1, h2]; ring
    rw [h, cksCoeffs]; ring
  rw [e, parts b (fun j => binomSf b j) (fun j => Real.cos (2 * (j : ℕ) * t)), sin_pow]
  have hb : binomSf b b = 0 := binomSf_big le_rfl
  have hs : ∑ j ∈ Finset.range b, (-1) ^ j * (binomSf b j - binomSf b (j + 1)) * Real.cos (2 * (j + 1 : ℕ) * t)
      = -∑ j ∈ Finset.range b, (-1) ^ (j + 1) * binW b (j + 1) * Real.cos (2 * (j + 1 : ℕ) * t) := by
    rw [← Finset.sum_neg_distrib]
    refine Finset.sum_congr rfl fun j hj => ?_
    rw [binomSf_step (by have := Finset.mem_range.1 hj; omega)]; ring
  simp only [hb, hs]
  have := binW_sum b
  simp only [Nat.cast_zero, mul_zero, zero_mul, Real.cos_zero, mul_one, sub_zero]
  linarith

/-! ### The error -/

/-- Chernoff bound for the tail. -/
theorem binomSf_le {b : ℕ} (hb : 0 < b) (j : ℕ) : binomSf b j ≤ Real.exp (-((j : ℝ) + 1) ^ 2 / b) := by
  have hb' : (0 : ℝ) < b := by exact_mod_cast hb
  set t : ℝ := ((j : ℝ) + 1) / b with ht
  have h0 : 0 ≤ t := by positivity
  have hc : ∑ k ∈ Finset.range (2 * b + 1), ((2 * b).choose k : ℝ) * (1 / 2) ^ (2 * b) * Real.exp (2 * t * ((k : ℝ) - b)) = Real.cosh t ^ (2 * b) := by
    have h := (Commute.all (Real.exp t) (Real.exp (-t))).add_pow (2 * b)
    rw [Real.cosh_eq, div_pow (Real.exp t + Real.exp (-t)), h, show ∀ y : ℝ, y / 2 ^ (2 * b) = y * (2 ^ (2 * b))⁻¹ from fun y => div_eq_mul_inv _ _, Finset.sum_mul]
    refine Finset.sum_congr rfl fun k hk => ?_
    have hk := Finset.mem_range.1 hk
    rw [← Real.exp_nat_mul, ← Real.exp_nat_mul, ← Real.exp_add, show (k : ℝ) * t + ((2 * b - k : ℕ) : ℝ) * -t = 2 * t * ((k : ℝ) - b) by
      rw [Nat.cast_sub (by omega)]; push_cast; ring, one_div, inv_pow]
    field_simp
  have h1 : binomSf b j * Real.exp (2 * t * ((j : ℝ) + 1)) ≤ Real.cosh t ^ (2 * b) := by
    rw [← hc, binomSf, Finset.sum_mul]
    refine Finset.sum_le_sum fun k _ => ?_
    split_ifs with h
    · refine mul_le_mul_of_nonneg_left (Real.exp_le_exp.2 ?_) (by positivity)
      refine mul_le_mul_of_nonneg_left ?_ (by positivity)
      have : ((b + j + 1 : ℕ) : ℝ) ≤ k := by exact_mod_cast h
      push_cast at this; linarith
    · rw [zero_mul]; positivity
  have h2 : Real.cosh t ^ (2 * b) ≤ Real.exp (b * t ^ 2) := by
    calc Real.cosh t ^ (2 * b) ≤ Real.exp (t ^ 2 / 2) ^ (2 * b) := by
          have := (Real.cosh_pos t).le
          gcongr
          exact Real.cosh_le_exp_half_sq t
      _ = Real.exp (b * t ^ 2) := by rw [← Real.exp_nat_mul]; congr 1; push_cast; ring
  have h3 : binomSf b j ≤ Real.exp (b * t ^ 2) / Real.exp (2 * t * ((j : ℝ) + 1)) := by
    rw [le_div_iff₀ (Real.exp_pos _)]; exact h1.trans h2
  refine h3.trans (le_of_eq ?_)
  rw [← Real.exp_sub]; congr 1
  rw [ht]; field_simp; ring

/-- The approximation without truncation. -/
theorem cks_full_eval (b : ℕ) {x : ℝ} (h1 : -1 ≤ x) (h2 : x ≤ 1) :
    x * ∑ j ∈ Finset.range b, (-1) ^ j * cksCoeffs b j * (T ℝ ((2 * j + 1 : ℕ) : ℤ)).eval x = 1 - (1 - x ^ 2) ^ b := by
  have h := cks_full b (Real.arccos x)
  rw [Real.cos_arccos h1 h2, pow_mul, Real.sin_sq, Real.cos_arccos h1 h2] at h
  rw [← h]
  congr 1
  refine Finset.sum_congr rfl fun j _ => ?_
  conv_lhs => rw [← Real.cos_arccos h1 h2]
  rw [Polynomial.Chebyshev.T_real_cos]
  push_cast; rfl

theorem T_abs_le {x : ℝ} (h1 : -1 ≤ x) (h2 : x ≤ 1) (k : ℤ) : |(T ℝ k).eval x| ≤ 1 := by
  rw [← Real.cos_arccos h1 h2, Polynomial.Chebyshev.T_real_cos]
  exact Real.abs_cos_le_one _

theorem chebPoly_invCheb (b m : ℕ) (x : ℝ) : (chebPoly (2 * m) (invCheb b)).eval x
    = ∑ j ∈ Finset.range m, (-1) ^ j * cksCoeffs b j * (T ℝ ((2 * j + 1 : ℕ) : ℤ)).eval x := by
  rw [chebPoly, eval_finsetSum]
  induction m with
  | zero => simp
  | succ m ih =>
    rw [show 2 * (m + 1) = 2 * m + 1 + 1 by ring, Finset.sum_range_succ, Finset.sum_range_succ, Finset.sum_range_succ, ih]
    rw [show invCheb b (2 * m) = 0 by simp [invCheb], show invCheb b (2 * m + 1) = cksCoeffs b m * (-1) ^ m by
      rw [invCheb, if_pos (by omega), show (2 * m + 1) / 2 = m by omega]]
    simp only [map_zero, zero_mul, eval_zero, add_zero, eval_mul, eval_C]
    ring

/-- The truncation error. -/
theorem cks_truncation {b : ℕ} (hb : 0 < b) {j0 : ℕ} {e : ℝ} (he : Real.exp (-((j0 : ℝ) + 1) ^ 2 / b) ≤ e / (4 * b)) (he0 : 0 ≤ e) {x : ℝ} (h1 : -1 ≤ x) (h2 : x ≤ 1) :
    |(∑ j ∈ Finset.range (j0 + 1), (-1) ^ j * cksCoeffs b j * (T ℝ ((2 * j + 1 : ℕ) : ℤ)).eval x)
      - ∑ j ∈ Finset.range b, (-1) ^ j * cksCoeffs b j * (T ℝ ((2 * j + 1 : ℕ) : ℤ)).eval x| ≤ e := by
  have hb' : (0 : ℝ) < b := by exact_mod_cast hb
  rcases le_total b (j0 + 1) with h | h
  · rw [← Nat.add_sub_cancel' h, Finset.sum_range_add, add_sub_cancel_left, Finset.sum_eq_zero, abs_zero]
    · exact he0
    · intro j _
      rw [cksCoeffs, binomSf_big (by omega)]; ring
  · have hsplit : ∀ f : ℕ → ℝ, (∑ j ∈ Finset.range (j0 + 1), f j) - ∑ j ∈ Finset.range b, f j = -∑ j ∈ Finset.range (b - (j0 + 1)), f (j0 + 1 + j) := by
      intro f
      have : ∑ j ∈ Finset.range b, f j = ∑ j ∈ Finset.range (j0 + 1 + (b - (j0 + 1))), f j := by rw [Nat.add_sub_cancel' h]
      rw [this, Finset.sum_range_add _ (j0 + 1), sub_add_cancel_left]
    rw [hsplit, abs_neg]
    refine (Finset.abs_sum_le_sum_abs _ _).trans ?_
    have hj : ∀ j ∈ Finset.range (b - (j0 + 1)), |(-1) ^ (j0 + 1 + j) * cksCoeffs b (j0 + 1 + j) * (T ℝ ((2 * (j0 + 1 + j) + 1 : ℕ) : ℤ)).eval x| ≤ e / b := by
      intro j _
      rw [abs_mul, abs_mul, abs_pow, abs_neg, abs_one, one_pow, one_mul, cksCoeffs, abs_mul, abs_of_nonneg (binomSf_nonneg b _), abs_of_pos (by norm_num : (0:ℝ) < 4)]
      have ht : binomSf b (j0 + 1 + j) ≤ e / (4 * b) := by
        refine (binomSf_le hb _).trans (le_trans (Real.exp_le_exp.2 ?_) he)
        refine div_le_div_of_nonneg_right ?_ hb'.le
        push_cast
        have : (0 : ℝ) ≤ j := Nat.cast_nonneg j
        have : (0 : ℝ) ≤ j0 := Nat.cast_nonneg j0
        nlinarith
      calc 4 * binomSf b (j0 + 1 + j) * |(T ℝ ((2 * (j0 + 1 + j) + 1 : ℕ) : ℤ)).eval x| ≤ 4 * (e / (4 * b)) * 1 := by
            have := T_abs_le h1 h2 ((2 * (j0 + 1 + j) + 1 : ℕ) : ℤ)
            have := binomSf_nonneg b (j0 + 1 + j)
            gcongr
        _ = e / b := by field_simp
    refine (Finset.sum_le_card_nsmul _ _ _ hj).trans ?_
    rw [Finset.card_range, nsmul_eq_mul]
    calc ((b - (j0 + 1) : ℕ) : ℝ) * (e / b) ≤ b * (e / b) := by
          have : ((b - (j0 + 1) : ℕ) : ℝ) ≤ b := by exact_mod_cast Nat.sub_le _ _
          gcongr
      _ = e := by field_simp

/-- The error of the smoothed inverse. -/
theorem cks_smooth {b : ℕ} (hb : 0 < b) {eps kappa : ℝ} (hk : 1 ≤ kappa) (he : 0 < eps) (hL : 3 ≤ Real.log (kappa / eps))
    (hbeta : kappa ^ 2 * Real.log (kappa / eps) - 1 ≤ b) {x : ℝ} (h1 : 1 / kappa ≤ |x|) (h2 : |x| ≤ 1) : (1 - x ^ 2) ^ b / |x| ≤ eps := by
  have k0 : 0 < kappa := by linarith
  have x0 : 0 < |x| := lt_of_lt_of_le (by positivity) h1
  set L := Real.log (kappa / eps) with hLd
  set y := (1 / kappa) ^ 2 with hy
  have y0 : 0 < y := by positivity
  have y1 : y ≤ 1 := by rw [hy]; exact pow_le_one₀ (by positivity) (by rw [div_le_one k0]; exact hk)
  have hx : y ≤ x ^ 2 := by rw [← sq_abs x, hy]; gcongr
  have hx1 : x ^ 2 ≤ 1 := by rw [← sq_abs x]; exact pow_le_one₀ (abs_nonneg x) h2
  have step : (1 - x ^ 2) ^ b / |x| ≤ kappa * (1 - y) ^ b := by
    rw [div_le_iff₀ x0]
    have h3 : (1 - x ^ 2) ^ b ≤ (1 - y) ^ b := by
      have : 0 ≤ 1 - x ^ 2 := by linarith
      gcongr
    have h4 : 1 ≤ kappa * |x| := by rw [div_le_iff₀ k0] at h1; linarith
    have h5 : 0 ≤ (1 - y) ^ b := by have : 0 ≤ 1 - y := by linarith
                                    positivity
    calc (1 - x ^ 2) ^ b ≤ 1 * (1 - y) ^ b := by rw [one_mul]; exact h3
      _ ≤ (kappa * |x|) * (1 - y) ^ b := by gcongr
      _ = _ := by ring
  refine step.trans ?_
  rcases eq_or_lt_of_le y1 with h | h
  · rw [h, sub_self, zero_pow (by omega), mul_zero]; exact he.le
  · have hlog : Real.log (1 - y) ≤ -(y + y ^ 2 / 2) := by
      have hs := Real.hasSum_pow_div_log_of_abs_lt_one (x := y) (by rw [abs_of_pos y0]; exact h)
      have := sum_le_hasSum (Finset.range 2) (fun i _ => by positivity) hs
      simp only [Finset.sum_range_succ, Finset.sum_range_zero] at this
      norm_num at this
      linarith
    have hpos : 0 < 1 - y := by linarith
    have e1 : kappa * (1 - y) ^ b = Real.exp (Real.log kappa + b * Real.log (1 - y)) := by
      rw [Real.exp_add, Real.exp_log k0, Real.exp_nat_mul, Real.exp_log hpos]
    have e2 : eps = Real.exp (Real.log kappa - L) := by
      rw [hLd, Real.log_div k0.ne' he.ne', sub_sub_cancel, Real.exp_log he]
    rw [e1]
    conv_rhs => rw [e2]
    refine Real.exp_le_exp.2 ?_
    have hky : kappa ^ 2 * y = 1 := by rw [hy]; field_simp
    have hbn : (0 : ℝ) ≤ b := Nat.cast_nonneg b
    have a1 : (b : ℝ) * Real.log (1 - y) ≤ -((b : ℝ) * (y + y ^ 2 / 2)) := by nlinarith
    have a2 : (kappa ^ 2 * L - 1) * (y + y ^ 2 / 2) ≤ b * (y + y ^ 2 / 2) := by gcongr
    have a3 : (kappa ^ 2 * L - 1) * (y + y ^ 2 / 2) = L + L * y / 2 - y - y ^ 2 / 2 := by
      linear_combination (L + L * y / 2) * hky
    nlinarith

/-- The error of the polynomial of the code: at most 2 eps on [-1, -1/kappa] and [1/kappa, 1], if kappa/eps is at least e³. -/
theorem invCheb_error {eps kappa : ℝ} (hk : 1 ≤ kappa) (he : 0 < eps) (hL : 3 ≤ Real.log (kappa / eps)) {x : ℝ} (h1 : 1 / kappa ≤ |x|) (h2 : |x| ≤ 1) :
    |(chebPoly (2 * ((cksParams eps kappa none).1 + 1)) (invCheb (cksParams eps kappa none).2)).eval x - 1 / x| ≤ 2 * eps := by
  have k0 : 0 < kappa := by linarith
  have x0 : 0 < |x| := lt_of_lt_of_le (by positivity) h1
  have xne : x ≠ 0 := abs_pos.1 x0
  have hx := abs_le.1 h2
  set beta := kappa ^ 2 * Real.log (kappa / eps) with hbeta
  have k2 : 1 ≤ kappa ^ 2 := one_le_pow₀ hk
  have b3 : 3 ≤ beta := by nlinarith
  have ef : (cksParams eps kappa none).2 = ⌊beta⌋₊ := rfl
  have ej : (cksParams eps kappa none).1 = ⌊Real.sqrt (beta * Real.log (4 * beta / eps))⌋₊ := rfl
  rw [ef, ej]
  set b := ⌊beta⌋₊ with hb
  set j0 := ⌊Real.sqrt (beta * Real.log (4 * beta / eps))⌋₊ with hj
  have bpos : 0 < b := Nat.floor_pos.2 (by linarith)
  have bpos' : (0 : ℝ) < b := by exact_mod_cast bpos
  have ble : (b : ℝ) ≤ beta := Nat.floor_le (by linarith)
  have bge : beta - 1 ≤ b := by have := Nat.lt_floor_add_one beta; linarith
  have hke : eps ≤ kappa := by
    have : 0 < kappa / eps := by positivity
    have h := Real.log_le_sub_one_of_pos this
    have : 1 ≤ kappa / eps := by linarith
    rwa [le_div_iff₀ he, one_mul] at this
  have hbk : eps ≤ b := by nlinarith
  have hl : 0 ≤ Real.log (4 * b / eps) := Real.log_nonneg (by rw [le_div_iff₀ he]; linarith)
  have hll : Real.log (4 * b / eps) ≤ Real.log (4 * beta / eps) := Real.log_le_log (by positivity) (by gcongr)
  have hsq : (b : ℝ) * Real.log (4 * b / eps) ≤ ((j0 : ℝ) + 1) ^ 2 := by
    have h3 : Real.sqrt (beta * Real.log (4 * beta / eps)) ≤ (j0 : ℝ) + 1 := (Nat.lt_floor_add_one _).le
    have h4 : 0 ≤ beta * Real.log (4 * beta / eps) := mul_nonneg (by linarith) (by linarith)
    calc (b : ℝ) * Real.log (4 * b / eps) ≤ beta * Real.log (4 * beta / eps) := by gcongr
      _ = Real.sqrt (beta * Real.log (4 * beta / eps)) ^ 2 := (Real.sq_sqrt h4).symm
      _ ≤ _ := by gcongr
  have htail : Real.exp (-((j0 : ℝ) + 1) ^ 2 / b) ≤ eps / (4 * b) := by
    have e : eps / (4 * b) = Real.exp (-Real.log (4 * b / eps)) := by
      rw [← Real.log_inv, Real.exp_log (by positivity), inv_div]
    rw [e]
    refine Real.exp_le_exp.2 ?_
    rw [div_le_iff₀ bpos']; linarith
  have htr := cks_truncation bpos htail he.le hx.1 hx.2
  have hsm := cks_smooth bpos hk he hL bge h1 h2
  have hfull := cks_full_eval b hx.1 hx.2
  rw [chebPoly_invCheb]
  set S := ∑ j ∈ Finset.range b, (-1) ^ j * cksCoeffs b j * (T ℝ ((2 * j + 1 : ℕ) : ℤ)).eval x with hS
  have hS1 : S - 1 / x = -((1 - x ^ 2) ^ b / x) := by
    field_simp; linarith
  have hS2 : |S - 1 / x| ≤ eps := by
    rw [hS1, abs_neg, abs_div, abs_of_nonneg (a := (1 - x ^ 2) ^ b)]
    · exact hsm
    · have : 0 ≤ 1 - x ^ 2 := by nlinarith
      positivity
  calc _ = |(_ - S) + (S - 1 / x)| := by ring_nf
    _ ≤ _ := abs_add_le _ _
    _ ≤ eps + eps := add_le_add htr hS2
    _ = 2 * eps := by ring

end Verif.Blk
