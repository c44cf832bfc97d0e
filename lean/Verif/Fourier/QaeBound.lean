import Verif.Fourier.QPE
import Mathlib.Analysis.SpecialFunctions.Trigonometric.Bounds
import Mathlib.Analysis.Real.Pi.Bounds
import Mathlib.Tactic.NormNum
import Mathlib.Tactic.Positivity
import Mathlib.Tactic.FieldSimp
import Mathlib.Tactic.Linarith

/-!
# Bounds for the two closest results of a phase estimation
-/

namespace Verif.Fourier

open Real

/-- `(1 - w²)² ≤ (1 + w²) cos² (π w / 2)` for `0 ≤ w ≤ 1`. -/
theorem cos_bound {w : ℝ} (h0 : 0 ≤ w) (h1 : w ≤ 1) : (1 - w ^ 2) ^ 2 ≤ (1 + w ^ 2) * cos (π * w / 2) ^ 2 := by
  have hp1 := pi_gt_d2
  have hp2 := pi_lt_d2
  rcases le_or_gt w (3 / 5) with hw | hw
  · have hc := one_sub_sq_div_two_le_cos (x := π * w / 2)
    have hv : 0 ≤ w ^ 2 := sq_nonneg w
    have hv1 : w ^ 2 ≤ 9 / 25 := by nlinarith
    have hpi2 : π ^ 2 ≤ 9.93 := by nlinarith
    have hlow : 1 - 1.2413 * w ^ 2 ≤ cos (π * w / 2) := by
      refine le_trans ?_ hc
      nlinarith
    have hpos : 0 ≤ 1 - 1.2413 * w ^ 2 := by nlinarith
    have hsq : (1 - 1.2413 * w ^ 2) ^ 2 ≤ cos (π * w / 2) ^ 2 := pow_le_pow_left₀ hpos hlow 2
    generalize w ^ 2 = v at *
    have h2 : (1 - v) ^ 2 ≤ (1 + v) * (1 - 1.2413 * v) ^ 2 := by nlinarith [mul_nonneg hv (sub_nonneg.mpr hv1), mul_nonneg hv hv]
    exact h2.trans (mul_le_mul_of_nonneg_left hsq (by linarith))
  · set m := 1 - w with hm
    have hm0 : 0 ≤ m := by linarith
    have hm1 : m ≤ 2 / 5 := by linarith
    have hcs : cos (π * w / 2) = sin (π * m / 2) := by
      rw [← cos_pi_div_two_sub]
      congr 1
      rw [hm]; ring
    rcases hm0.eq_or_lt with h | hmp
    · have : w = 1 := by linarith
      rw [this]
      have : (0 : ℝ) ≤ (1 + 1 ^ 2) * cos (π * 1 / 2) ^ 2 := by positivity
      norm_num at this ⊢
    · have hx0 : 0 < π * m / 2 := by positivity
      have hs := sin_gt_sub_cube hx0
      have hw' : w = 1 - m := by rw [hm]; ring
      have hlow : m * (1.57 * (1 - 0.4139 * m ^ 2)) ≤ sin (π * m / 2) := by
        refine le_trans ?_ hs.le
        have e : π * m / 2 - (π * m / 2) ^ 3 / 6 = m * (π / 2 * (1 - π ^ 2 / 24 * m ^ 2)) := by ring
        rw [e]
        have hpi2 : π ^ 2 / 24 ≤ 0.4139 := by nlinarith
        have hm2 : m ^ 2 ≤ 4 / 25 := by nlinarith
        have h3 : 1 - 0.4139 * m ^ 2 ≤ 1 - π ^ 2 / 24 * m ^ 2 := by nlinarith [sq_nonneg m]
        have h4 : 0 ≤ 1 - 0.4139 * m ^ 2 := by nlinarith
        refine mul_le_mul_of_nonneg_left ?_ hm0
        exact mul_le_mul (by linarith) h3 h4 (by linarith)
      have hm2 : m ^ 2 ≤ 4 / 25 := by nlinarith
      have hpos : 0 ≤ m * (1.57 * (1 - 0.4139 * m ^ 2)) := mul_nonneg hm0 (by nlinarith)
      have hsq := pow_le_pow_left₀ hpos hlow 2
      rw [hcs, hw']
      refine le_trans ?_ (mul_le_mul_of_nonneg_left hsq (by positivity))
      have e1 : (1 - (1 - m) ^ 2) ^ 2 = m ^ 2 * (2 - m) ^ 2 := by ring
      have e2 : (1 + (1 - m) ^ 2) * (m * (1.57 * (1 - 0.4139 * m ^ 2))) ^ 2 =
          m ^ 2 * ((1 + (1 - m) ^ 2) * (1.57 ^ 2 * (1 - 0.4139 * m ^ 2) ^ 2)) := by ring
      rw [e1, e2]
      refine mul_le_mul_of_nonneg_left ?_ (sq_nonneg m)
      have h5 : 1 - 0.8278 * m ^ 2 ≤ (1 - 0.4139 * m ^ 2) ^ 2 := by nlinarith [sq_nonneg (m ^ 2)]
      have h6 : (1 + (1 - m) ^ 2) * (1.57 ^ 2 * (1 - 0.8278 * m ^ 2)) ≤ (1 + (1 - m) ^ 2) * (1.57 ^ 2 * (1 - 0.4139 * m ^ 2) ^ 2) :=
        mul_le_mul_of_nonneg_left (by linarith) (by positivity)
      refine le_trans ?_ h6
      have h7 : 0 ≤ m * (2 / 5 - m) := mul_nonneg hm0 (by linarith)
      have h8 : m ^ 4 ≤ 2 / 5 * m ^ 3 := by
        have : m ^ 4 = m * m ^ 3 := by ring
        rw [this]
        exact mul_le_mul_of_nonneg_right hm1 (by positivity)
      have h9 : 0 ≤ m ^ 3 := by positivity
      nlinarith

/-- The two factors add up to at least 8. -/
theorem two_closest {δ : ℝ} (h0 : 0 < δ) (h1 : δ < 1) : 8 ≤ sin (π * δ) ^ 2 * (1 / δ ^ 2 + 1 / (1 - δ) ^ 2) := by
  have key : ∀ w : ℝ, 0 ≤ w → w < 1 → ∀ δ : ℝ, δ = (1 - w) / 2 → sin (π * δ) ^ 2 = cos (π * w / 2) ^ 2 →
      8 ≤ sin (π * δ) ^ 2 * (1 / δ ^ 2 + 1 / (1 - δ) ^ 2) := by
    intro w hw0 hw1 δ hδ hs
    have hb := cos_bound hw0 hw1.le
    rw [hs, hδ]
    have hq : (0 : ℝ) < 1 - w ^ 2 := by nlinarith
    have h1w : (0 : ℝ) < 1 - w := by linarith
    have h2w : (0 : ℝ) < 1 + w := by linarith
    have e : 1 / ((1 - w) / 2) ^ 2 + 1 / (1 - (1 - w) / 2) ^ 2 = 8 * (1 + w ^ 2) / (1 - w ^ 2) ^ 2 := by
      have : (1 - (1 - w) / 2) = (1 + w) / 2 := by ring
      rw [this]
      have e2 : (1 - w ^ 2) = (1 - w) * (1 + w) := by ring
      rw [e2]
      field_simp
      ring
    rw [e, mul_div_assoc', le_div_iff₀ (by positivity)]
    nlinarith
  rcases le_total δ (1 / 2) with h | h
  · refine key (1 - 2 * δ) (by linarith) (by linarith) δ (by ring) ?_
    rw [← sin_pi_div_two_sub]
    congr 2
    ring
  · have := key (2 * δ - 1) (by linarith) (by linarith) (1 - δ) (by ring) (by
      rw [← sin_pi_div_two_sub]
      congr 2
      ring)
    have e : sin (π * (1 - δ)) = sin (π * δ) := by rw [mul_sub, mul_one, sin_pi_sub]
    rw [e, sub_sub_cancel, add_comm] at this
    exact this

/-- The amplitude depends on the distance only. -/
noncomputable def dist1 (n : ℕ) (x : ℝ) : ℂ := 1 / 2 ^ n * ∑ X ∈ Finset.range (2 ^ n), E (X * x)

theorem qpeAmp_dist (n : ℕ) (θ : ℝ) (Y : ℕ) : qpeAmp n θ Y = dist1 n (θ - Y / 2 ^ n) := rfl

theorem dist1_int (n : ℕ) (x : ℝ) (k : ℤ) : dist1 n (x + k) = dist1 n x := by
  unfold dist1
  congr 1
  refine Finset.sum_congr rfl fun X _ => ?_
  rw [mul_add, E_add]
  have : (X : ℝ) * (k : ℝ) = ((X * k : ℤ) : ℝ) := by push_cast; rfl
  rw [this, E_int, mul_one]

theorem dist1_zero (n : ℕ) : dist1 n 0 = 1 := by
  unfold dist1
  simp only [mul_zero, E_zero, Finset.sum_const, Finset.card_range, nsmul_eq_mul, mul_one]
  push_cast
  have : (2 : ℂ) ^ n ≠ 0 := pow_ne_zero _ two_ne_zero
  field_simp

theorem E_ne_one {x : ℝ} (h0 : x ≠ 0) (h1 : |x| < 1) : E x ≠ 1 := fun e => by
  obtain ⟨k, hk⟩ := E_eq_one e
  have hδ : 0 < |x| := abs_pos.2 h0
  rw [hk, ← Int.cast_abs] at hδ h1
  have h3 : (0 : ℤ) < |k| := by exact_mod_cast hδ
  have h2 : (1 : ℝ) ≤ (|k| : ℤ) := by exact_mod_cast h3
  linarith

theorem norm_dist1 (n : ℕ) {x : ℝ} (h0 : x ≠ 0) (h1 : |x| < 1) :
    ‖dist1 n x‖ = |sin (π * (2 ^ n * x))| / (2 ^ n * |sin (π * x)|) := by
  unfold dist1
  have hpow : ∀ X : ℕ, E (X * x) = E x ^ X := fun X => (E_pow x X).symm
  simp only [hpow]
  have hc : ‖(1 / 2 ^ n : ℂ)‖ = 1 / 2 ^ n := by simp
  rw [norm_mul, hc, geom_sum_eq (E_ne_one h0 h1), E_pow, norm_div, norm_E_sub_one, norm_E_sub_one,
    mul_div_mul_left _ _ (by norm_num : (2 : ℝ) ≠ 0)]
  push_cast
  rw [div_mul_div_comm, one_mul]

theorem sin_pi_pos {x : ℝ} (h0 : x ≠ 0) (h1 : |x| < 1) : 0 < |sin (π * x)| := by
  refine abs_pos.2 fun e => E_ne_one h0 h1 ?_
  have := norm_E_sub_one x
  rw [e, abs_zero, mul_zero, norm_eq_zero, sub_eq_zero] at this
  exact this

theorem dist1_lower (n : ℕ) {x : ℝ} (h0 : x ≠ 0) (h1 : |x| < 1) :
    sin (π * (2 ^ n * x)) ^ 2 / (π * (2 ^ n * x)) ^ 2 ≤ ‖dist1 n x‖ ^ 2 := by
  rw [norm_dist1 n h0 h1, div_pow, sq_abs, mul_pow _ |sin (π * x)|, sq_abs]
  have hN : (0 : ℝ) < 2 ^ n := by positivity
  have hp := sin_pi_pos h0 h1
  have h2 : 0 < sin (π * x) ^ 2 := by rw [← sq_abs]; positivity
  refine div_le_div_of_nonneg_left (sq_nonneg _) (by positivity) ?_
  have h3 : sin (π * x) ^ 2 ≤ (π * x) ^ 2 := by
    rw [← sq_abs, ← sq_abs (π * x)]
    exact pow_le_pow_left₀ (abs_nonneg _) abs_sin_le_abs 2
  calc (2 ^ n) ^ 2 * sin (π * x) ^ 2 ≤ (2 ^ n) ^ 2 * (π * x) ^ 2 := mul_le_mul_of_nonneg_left h3 (by positivity)
    _ = (π * (2 ^ n * x)) ^ 2 := by ring

theorem dist1_upper (n : ℕ) {x : ℝ} (h0 : x ≠ 0) (h1 : |x| ≤ 1 / 2) : ‖dist1 n x‖ ^ 2 ≤ 1 / (4 * (2 ^ n * x) ^ 2) := by
  have h1' : |x| < 1 := by linarith
  rw [norm_dist1 n h0 h1', div_pow, sq_abs, mul_pow _ |sin (π * x)|, sq_abs]
  have hN : (0 : ℝ) < 2 ^ n := by positivity
  have hx : 0 < |x| := abs_pos.mpr h0
  have h2 : 2 * |x| ≤ |sin (π * x)| := by
    have h3 := mul_le_sin (x := π * |x|) (by positivity) (by nlinarith [pi_pos])
    have h4 : |sin (π * x)| = |sin (π * |x|)| := by
      rcases abs_choice x with e | e <;> rw [e]
      rw [mul_neg, sin_neg, abs_neg]
    rw [h4]
    refine le_trans (le_of_eq ?_) (h3.trans (le_abs_self _))
    field_simp
  have h5 : 4 * x ^ 2 ≤ sin (π * x) ^ 2 := by
    rw [← sq_abs (sin _), ← sq_abs x]
    calc 4 * |x| ^ 2 = (2 * |x|) ^ 2 := by ring
      _ ≤ _ := pow_le_pow_left₀ (by positivity) h2 2
  have hx2 : 0 < x ^ 2 := by positivity
  refine div_le_div₀ (by norm_num) (sin_sq_le_one _) (by positivity) ?_
  calc 4 * (2 ^ n * x) ^ 2 = (2 ^ n) ^ 2 * (4 * x ^ 2) := by ring
    _ ≤ _ := mul_le_mul_of_nonneg_left h5 (by positivity)

/-- The result `Y` is at most `r` steps away from the phase `θ` (modulo 1). -/
def Near (n : ℕ) (θ : ℝ) (r : ℝ) (Y : ℕ) : Prop := ∃ m : ℤ, |2 ^ n * θ - Y - 2 ^ n * m| ≤ r

theorem reduce_mod (n : ℕ) (θ : ℝ) (k : ℤ) : ∃ Y : ℕ, Y < 2 ^ n ∧ (Y : ℤ) = k % 2 ^ n ∧ (∀ r, |2 ^ n * θ - k| ≤ r → Near n θ r Y) ∧
    qpeAmp n θ Y = dist1 n ((2 ^ n * θ - k) / 2 ^ n) := by
  have hM : (0 : ℤ) < 2 ^ n := by positivity
  have hN : (2 : ℝ) ^ n ≠ 0 := by positivity
  have h1 := Int.emod_nonneg k hM.ne'
  have h2 := Int.emod_lt_of_pos k hM
  have h3 := Int.emod_add_mul_ediv k (2 ^ n)
  refine ⟨(k % 2 ^ n).toNat, ?_, Int.toNat_of_nonneg h1, ?_, ?_⟩
  · have : ((k % 2 ^ n).toNat : ℤ) < ((2 ^ n : ℕ) : ℤ) := by
      rw [Int.toNat_of_nonneg h1]
      push_cast
      exact h2
    exact_mod_cast this
  all_goals
    have hc : (((k % 2 ^ n).toNat : ℕ) : ℝ) = ((k % 2 ^ n : ℤ) : ℝ) := by
      rw [← Int.cast_natCast, Int.toNat_of_nonneg h1]
    have h4 : (k : ℝ) = ((k % 2 ^ n : ℤ) : ℝ) + 2 ^ n * ((k / 2 ^ n : ℤ) : ℝ) := by
      have := congrArg (fun z : ℤ => (z : ℝ)) h3
      push_cast at this ⊢
      linarith
  · intro r hr
    refine ⟨k / 2 ^ n, ?_⟩
    rw [hc]
    refine le_trans (le_of_eq ?_) hr
    congr 1
    rw [h4]; ring
  · rw [qpeAmp_dist, hc, ← dist1_int n ((2 ^ n * θ - k) / 2 ^ n) (k / 2 ^ n)]
    congr 1
    rw [h4]
    field_simp
    ring

theorem two_results {n : ℕ} (hn : 0 < n) (θ : ℝ) : ∃ Y1 Y2 : ℕ, Y1 < 2 ^ n ∧ Y2 < 2 ^ n ∧ Y1 ≠ Y2 ∧ Near n θ 1 Y1 ∧ Near n θ 1 Y2 ∧
    8 / π ^ 2 ≤ ‖qpeAmp n θ Y1‖ ^ 2 + ‖qpeAmp n θ Y2‖ ^ 2 := by
  have hN : (0 : ℝ) < 2 ^ n := by positivity
  have hN2 : (2 : ℝ) ≤ 2 ^ n := by
    calc (2 : ℝ) = 2 ^ 1 := by norm_num
      _ ≤ 2 ^ n := pow_le_pow_right₀ (by norm_num) hn
  have hpi := pi_pos
  set k := ⌊2 ^ n * θ⌋ with hk
  have hf0 : (0 : ℝ) ≤ 2 ^ n * θ - k := by have := Int.floor_le (2 ^ n * θ); linarith
  have hf1 : 2 ^ n * θ - k < 1 := by have := Int.lt_floor_add_one (2 ^ n * θ); linarith
  obtain ⟨Y1, a1, b1, c1, d1⟩ := reduce_mod n θ k
  obtain ⟨Y2, a2, b2, c2, d2⟩ := reduce_mod n θ (k + 1)
  refine ⟨Y1, Y2, a1, a2, ?_, c1 1 ?_, c2 1 ?_, ?_⟩
  · intro e
    rw [e, b2] at b1
    have h2 : (2 ^ n : ℤ) ∣ (k + 1) - k := Int.ModEq.dvd (show k ≡ k + 1 [ZMOD 2 ^ n] from b1.symm)
    have h3 : (2 ^ n : ℤ) ∣ 1 := by simpa using h2
    have h4 := Int.le_of_dvd (by norm_num) h3
    have h5 : ((2 ^ n : ℤ) : ℝ) ≤ 1 := by exact_mod_cast h4
    push_cast at h5
    linarith
  · rw [abs_of_nonneg hf0]; exact hf1.le
  · push_cast
    rw [abs_le]
    constructor <;> linarith
  · rw [d1, d2]
    push_cast
    rcases hf0.eq_or_lt with h | hpos
    · rw [← h, zero_div, dist1_zero, norm_one]
      have h8 : 8 / π ^ 2 ≤ 1 := by
        rw [div_le_one (by positivity)]
        nlinarith [pi_gt_three]
      have : (0 : ℝ) ≤ ‖dist1 n ((2 ^ n * θ - (k + 1)) / 2 ^ n)‖ ^ 2 := by positivity
      linarith
    · set δ := 2 ^ n * θ - k with hδ
      have e2 : 2 ^ n * θ - ((k : ℝ) + 1) = -(1 - δ) := by rw [hδ]; ring
      rw [e2]
      have hx1 : δ / 2 ^ n ≠ 0 := by positivity
      have hx1' : |δ / 2 ^ n| < 1 := by
        rw [abs_of_pos (by positivity), div_lt_one hN]; linarith
      have h1δ : 0 < 1 - δ := by linarith
      have hx2 : -(1 - δ) / 2 ^ n ≠ 0 := by
        rw [neg_div]; exact neg_ne_zero.mpr (by positivity)
      have hx2' : |-(1 - δ) / 2 ^ n| < 1 := by
        rw [neg_div, abs_neg, abs_of_pos (by positivity), div_lt_one hN]; linarith
      have l1 := dist1_lower n hx1 hx1'
      have l2 := dist1_lower n hx2 hx2'
      have m1 : 2 ^ n * (δ / 2 ^ n) = δ := by field_simp
      have m2 : 2 ^ n * (-(1 - δ) / 2 ^ n) = -(1 - δ) := by field_simp
      rw [m1] at l1
      rw [m2, mul_neg, sin_neg, neg_sq, neg_sq] at l2
      have hs : sin (π * (1 - δ)) = sin (π * δ) := by rw [mul_sub, mul_one, sin_pi_sub]
      rw [hs] at l2
      have hb := two_closest hpos hf1
      refine le_trans ?_ (add_le_add l1 l2)
      have e3 : sin (π * δ) ^ 2 / (π * δ) ^ 2 + sin (π * δ) ^ 2 / (π * (1 - δ)) ^ 2 =
          sin (π * δ) ^ 2 * (1 / δ ^ 2 + 1 / (1 - δ) ^ 2) / π ^ 2 := by
        field_simp
      rw [e3]
      exact div_le_div_of_nonneg_right hb (by positivity)

theorem sin_sq_sub_le (x y : ℝ) : |sin x ^ 2 - sin y ^ 2| ≤ |x - y| := by
  have e : sin x ^ 2 - sin y ^ 2 = sin (x - y) * sin (x + y) := by
    rw [sin_sub, sin_add]
    have h1 := sin_sq_add_cos_sq x
    have h2 := sin_sq_add_cos_sq y
    have : cos y ^ 2 = 1 - sin y ^ 2 := by linarith
    have h3 : cos x ^ 2 = 1 - sin x ^ 2 := by linarith
    ring_nf
    rw [this, h3]
    ring
  rw [e, abs_mul]
  calc |sin (x - y)| * |sin (x + y)| ≤ |x - y| * 1 := mul_le_mul abs_sin_le_abs (abs_sin_le_one _) (abs_nonneg _) (abs_nonneg _)
    _ = _ := mul_one _

/-- A close result gives a close estimate. -/
theorem near_estimate {n : ℕ} {θ r : ℝ} {Y : ℕ} (h : Near n θ r Y) : |sin (π * (Y / 2 ^ n)) ^ 2 - sin (π * θ) ^ 2| ≤ π * r / 2 ^ n := by
  obtain ⟨m, hm⟩ := h
  have hN : (0 : ℝ) < 2 ^ n := by positivity
  have hper : sin (π * (Y / 2 ^ n)) ^ 2 = sin (π * (Y / 2 ^ n) + m * π) ^ 2 := by
    rw [sin_add, sin_int_mul_pi, mul_zero, add_zero, mul_pow]
    have := sin_sq_add_cos_sq ((m : ℝ) * π)
    rw [sin_int_mul_pi] at this
    have h1 : cos ((m : ℝ) * π) ^ 2 = 1 := by linarith
    rw [h1, mul_one]
  rw [hper]
  refine (sin_sq_sub_le _ _).trans ?_
  have e : π * (Y / 2 ^ n) + m * π - π * θ = -(π / 2 ^ n) * (2 ^ n * θ - Y - 2 ^ n * m) := by
    field_simp
    ring
  rw [e, abs_mul, abs_neg, abs_of_pos (div_pos pi_pos hN)]
  calc π / 2 ^ n * |2 ^ n * θ - Y - 2 ^ n * m| ≤ π / 2 ^ n * r := mul_le_mul_of_nonneg_left hm (div_pos pi_pos hN).le
    _ = π * r / 2 ^ n := by ring

theorem eight_le : 8 / π ^ 2 ≤ 1 := by
  rw [div_le_one (by have := pi_pos; positivity)]
  nlinarith [pi_gt_three]

/-- The probability of an estimate with an error of at most `π / 2^n`. -/
theorem event_prob (n : ℕ) (θ : ℝ) : 8 / π ^ 2 ≤ ∑ Y ∈ Finset.range (2 ^ n),
    if |sin (π * ((Y : ℕ) / 2 ^ n)) ^ 2 - sin (π * θ) ^ 2| ≤ π / 2 ^ n then ‖qpeAmp n θ Y‖ ^ 2 else 0 := by
  have hnn : ∀ Y ∈ Finset.range (2 ^ n), (0 : ℝ) ≤
      if |sin (π * ((Y : ℕ) / 2 ^ n)) ^ 2 - sin (π * θ) ^ 2| ≤ π / 2 ^ n then ‖qpeAmp n θ Y‖ ^ 2 else 0 := by
    intro Y _
    split <;> positivity
  rcases Nat.eq_zero_or_pos n with rfl | hn
  · rw [pow_zero, Finset.sum_range_one, if_pos]
    · have : qpeAmp 0 θ 0 = 1 := by simp [qpeAmp, E_zero]
      rw [this, norm_one, one_pow]
      exact eight_le
    · have h1 := sin_sq_le_one (π * θ)
      have h2 := sq_nonneg (sin (π * θ))
      have h3 := pi_gt_three
      simp only [Nat.cast_zero, zero_div, mul_zero, sin_zero, pow_zero, div_one]
      rw [abs_le]
      constructor <;> nlinarith
  · obtain ⟨Y1, Y2, a1, a2, hne, n1, n2, hs⟩ := two_results hn θ
    refine hs.trans ?_
    have e1 := near_estimate n1
    have e2 := near_estimate n2
    rw [mul_one] at e1 e2
    have hsub : ({Y1, Y2} : Finset ℕ) ⊆ Finset.range (2 ^ n) := by
      intro y hy
      rw [Finset.mem_insert, Finset.mem_singleton] at hy
      rw [Finset.mem_range]
      rcases hy with rfl | rfl <;> assumption
    refine le_trans (le_of_eq ?_) (Finset.sum_le_sum_of_subset_of_nonneg hsub fun y hy _ => hnn y hy)
    rw [Finset.sum_pair hne, if_pos e1, if_pos e2]

theorem best_exists (n : ℕ) (θ : ℝ) : ∃ Y : ℕ, Y < 2 ^ n ∧ 4 / π ^ 2 ≤ ‖qpeAmp n θ Y‖ ^ 2 := by
  obtain ⟨Y, a, _, _, d⟩ := reduce_mod n θ (round (2 ^ n * θ))
  refine ⟨Y, a, ?_⟩
  have h0 : qpeAmp n ((2 ^ n * θ - round (2 ^ n * θ)) / 2 ^ n) 0 = dist1 n ((2 ^ n * θ - round (2 ^ n * θ)) / 2 ^ n) := by
    rw [qpeAmp_dist]; simp
  rw [d, ← h0]
  refine qpeAmp_bound _ _ _ ?_
  have hN : (0 : ℝ) < 2 ^ n := by positivity
  rw [Nat.cast_zero, zero_div, sub_zero, abs_div, abs_of_pos hN, div_le_div_iff₀ hN (by positivity)]
  have := abs_sub_round (2 ^ n * θ)
  nlinarith

/-- A result with at least half the probability of the best one is close. -/
theorem likely_near {n : ℕ} {θ : ℝ} {Y : ℕ} (h : 2 / π ^ 2 ≤ ‖qpeAmp n θ Y‖ ^ 2) : Near n θ (π / (2 * √2)) Y := by
  have hN : (0 : ℝ) < 2 ^ n := by positivity
  have hpi := pi_pos
  have h2 : (0 : ℝ) < √2 := by positivity
  refine ⟨round (θ - Y / 2 ^ n), ?_⟩
  set m := round (θ - Y / 2 ^ n) with hm
  have hx := abs_sub_round (θ - Y / 2 ^ n)
  rw [← hm] at hx
  obtain ⟨x, hxe⟩ : ∃ x, x = θ - Y / 2 ^ n - m := ⟨_, rfl⟩
  rw [← hxe] at hx
  have e : 2 ^ n * θ - Y - 2 ^ n * m = 2 ^ n * x := by rw [hxe]; field_simp
  rw [e]
  by_cases h0 : x = 0
  · rw [h0, mul_zero, abs_zero]; positivity
  have hd : qpeAmp n θ Y = dist1 n x := by
    rw [qpeAmp_dist, ← dist1_int n x m, hxe]
    congr 1
    ring
  rw [hd] at h
  have h3 := h.trans (dist1_upper n h0 hx)
  have hpos : 0 < (2 ^ n * x) ^ 2 := by positivity
  rw [div_le_div_iff₀ (by positivity) (by positivity)] at h3
  rw [← sq_le_sq₀ (abs_nonneg _) (by positivity), sq_abs]
  rw [div_pow, mul_pow 2 (√2), Real.sq_sqrt (by norm_num)]
  linarith

end Verif.Fourier
