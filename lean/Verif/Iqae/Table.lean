import Mathlib.Analysis.SpecialFunctions.Trigonometric.Bounds
import Mathlib.Analysis.Real.Pi.Bounds
import Verif.Iqae.Model

/-!
# One of the factors 3, 5, 7 always fits
-/

namespace Verif.Iqae
open Real

theorem sin_sq (x : ℝ) : sin x ^ 2 = (1 - cos (2 * x)) / 2 := by
  rw [cos_two_mul, ← sin_sq_add_cos_sq x]; ring

theorem sq_mono {x y : ℝ} (h0 : 0 ≤ x) (h : x ≤ y) (h1 : y ≤ π / 2) : sin x ^ 2 ≤ sin y ^ 2 := by
  have := sin_le_sin_of_le_of_le_pi_div_two (by linarith [pi_pos]) h1 h
  exact pow_le_pow_left₀ (sin_nonneg_of_nonneg_of_le_pi h0 (by linarith [pi_pos])) this 2

theorem sq_lt {x y : ℝ} (h0 : 0 ≤ x) (h : x < y) (h1 : y ≤ π / 2) : sin x ^ 2 < sin y ^ 2 := by
  have := sin_lt_sin_of_lt_of_le_pi_div_two (by linarith [pi_pos]) h1 h
  exact pow_lt_pow_left₀ this (sin_nonneg_of_nonneg_of_le_pi h0 (by linarith [pi_pos])) (by norm_num)

theorem sq_compl (x : ℝ) : sin (π / 2 - x) ^ 2 = 1 - sin x ^ 2 := by
  rw [sin_pi_div_two_sub, ← sin_sq_add_cos_sq x]; ring

theorem two_cE : 2 * cE = sin (3 * π / 14) ^ 2 - 1 / 4 := by
  have : π * 1 / 6 = π / 6 := by ring
  rw [cE, this, sin_pi_div_six]
  have : π * 3 / 14 = 3 * π / 14 := by ring
  rw [this]; ring

theorem sin_lower {x a b : ℝ} (ha : a ≤ x) (hb : x ≤ b) (h0 : 0 < a) : a - b ^ 3 / 6 ≤ sin x := by
  have := sin_gt_sub_cube (lt_of_lt_of_le h0 ha)
  have h3 : x ^ 3 ≤ b ^ 3 := pow_le_pow_left₀ (by linarith) hb 3
  linarith

theorem sqrt5_lt : √5 < 2.2361 := by
  rw [sqrt_lt' (by norm_num)]; norm_num

theorem sqrt5_gt : 2.236 < √5 := lt_sqrt_of_sq_lt (by norm_num)

theorem sq_pi_14_3 : sin (3 * π / 14) ^ 2 = (1 - sin (π / 14)) / 2 := by
  have : 2 * (3 * π / 14) = π / 2 - π / 14 := by ring
  rw [sin_sq, this, cos_pi_div_two_sub]

theorem sin_14 : 0.2223 ≤ sin (π / 14) := by
  have := sin_lower (x := π / 14) (a := 0.22428) (b := 0.2251) (by linarith [pi_gt_d2]) (by linarith [pi_lt_d2]) (by norm_num)
  norm_num at this ⊢
  linarith

theorem sin_3_14 : 0.6215 ≤ sin (3 * π / 14) := by
  have := sin_lower (x := 3 * π / 14) (a := 0.67285) (b := 0.6751) (by linarith [pi_gt_d2]) (by linarith [pi_lt_d2]) (by norm_num)
  norm_num at this ⊢
  linarith

theorem cE_pos : 0 < cE := by
  have h := two_cE
  have := sq_lt (x := π / 6) (y := 3 * π / 14) (by positivity) (by linarith [pi_pos]) (by linarith [pi_pos])
  rw [sin_pi_div_six] at this
  norm_num at this ⊢
  linarith

theorem two_cE_lt : 2 * cE ≤ 0.13885 := by
  have := sin_14
  rw [two_cE, sq_pi_14_3]
  norm_num at this ⊢
  linarith

theorem gap_10 : 2 * cE < 1 / 4 - sin (π / 10) ^ 2 := by
  have e : 2 * (π / 10) = π / 5 := by ring
  rw [sin_sq, e, cos_pi_div_five]
  have := two_cE_lt
  have := sqrt5_gt
  norm_num at *
  linarith

theorem gap_5_7 : 2 * cE < sin (π / 5) ^ 2 - sin (π / 7) ^ 2 := by
  have e2 : 2 * (π / 7) = π / 2 - 3 * π / 14 := by ring
  rw [sin_sq (π / 5), sin_sq (π / 7), e2, cos_pi_div_two_sub, cos_two_mul, cos_pi_div_five]
  have h1 := two_cE_lt
  have h2 := sin_3_14
  have h3 := sqrt5_lt
  have h4 : √5 ^ 2 = 5 := sq_sqrt (by norm_num)
  norm_num at h1 h2 h3
  nlinarith

/-- If the interval does not fit for the factor `L`, a multiple of `π / (2 L)` is inside. -/
theorem fits_or (L : ℕ) (hL : 0 < L) {u v : ℝ} (h0 : 0 ≤ u) (h1 : v ≤ π / 2) (huv : u ≤ v) :
    (∃ j, j < L ∧ j * (π / 2) ≤ L * u ∧ L * v ≤ (j + 1) * (π / 2)) ∨ ∃ j, 0 < j ∧ j < L ∧ L * u < j * (π / 2) ∧ j * (π / 2) < L * v := by
  have hp : 0 < π / 2 := by positivity
  have hLr : (0 : ℝ) < L := by exact_mod_cast hL
  set j := ⌊L * u / (π / 2)⌋₊ with hj
  have j1 : (j : ℝ) ≤ L * u / (π / 2) := Nat.floor_le (by positivity)
  have j2 : L * u / (π / 2) < j + 1 := Nat.lt_floor_add_one _
  rw [le_div_iff₀ hp] at j1
  rw [div_lt_iff₀ hp] at j2
  have hLv : L * v ≤ L * (π / 2) := mul_le_mul_of_nonneg_left h1 hLr.le
  have hLu : L * u ≤ L * v := mul_le_mul_of_nonneg_left huv hLr.le
  by_cases hfit : L * v ≤ (j + 1) * (π / 2)
  · by_cases hjL : j < L
    · exact .inl ⟨j, hjL, j1, hfit⟩
    · -- then `u` is the right end
      push Not at hjL
      have hjr : (L : ℝ) ≤ j := by exact_mod_cast hjL
      refine .inl ⟨L - 1, by omega, ?_, ?_⟩
      · rw [Nat.cast_sub (by omega)]
        have : (L : ℝ) * (π / 2) ≤ j * (π / 2) := mul_le_mul_of_nonneg_right hjr hp.le
        push_cast
        nlinarith
      · rw [Nat.cast_sub (by omega)]
        push_cast
        nlinarith
  · push Not at hfit
    refine .inr ⟨j + 1, by omega, ?_, by push_cast; exact j2, by push_cast; exact hfit⟩
    have : ((j + 1 : ℕ) : ℝ) < L := by
      have := lt_of_lt_of_le hfit hLv
      push_cast
      exact lt_of_mul_lt_mul_right this hp.le
    exact_mod_cast this

/-- Lines 124 and 136-137: an interval of angles whose squared sines differ by at most `2 E` stays, for one of the factors, within one
    quadrant. -/
theorem some_fits_left {u v : ℝ} (h0 : 0 ≤ u) (h1 : v ≤ π / 2) (huv : u ≤ v) (hw : sin v ^ 2 - sin u ^ 2 ≤ 2 * cE) (h6 : u < π / 6) (h6' : π / 6 < v) :
    ∃ L ∈ ([3, 5, 7] : List ℕ), ∃ j : ℕ, j < L ∧ (j : ℝ) * (π / 2) ≤ L * u ∧ (L : ℝ) * v ≤ (j + 1) * (π / 2) := by
  have hp := pi_pos
  have hv : v ≤ 3 * π / 14 := by
    by_contra hc
    push Not at hc
    have a := sq_lt (x := 3 * π / 14) (by positivity) hc h1
    have b := sq_lt h0 h6 (by linarith)
    rw [sin_pi_div_six] at b
    have := two_cE
    norm_num at b
    linarith
  have hu : π / 10 ≤ u := by
    by_contra hc
    push Not at hc
    have a := sq_lt (x := π / 6) (by positivity) h6' h1
    have b := sq_lt h0 hc (by linarith)
    rw [sin_pi_div_six] at a
    have := gap_10
    norm_num at a
    linarith
  rcases fits_or 5 (by norm_num) h0 h1 huv with ⟨j, hj⟩ | ⟨j, j0, j5, j1, j2⟩
  · exact ⟨5, by simp, j, hj⟩
  rcases fits_or 7 (by norm_num) h0 h1 huv with ⟨i, hi⟩ | ⟨i, i0, i7, i1, i2⟩
  · exact ⟨7, by simp, i, hi⟩
  exfalso
  have hv5 : π / 5 < v := by
    push_cast at j1 j2
    have : 2 ≤ j := by
      by_contra hc
      have : j = 1 := by omega
      subst this
      push_cast at j1
      linarith
    have : (2 : ℝ) ≤ j := by exact_mod_cast this
    nlinarith
  have hu7 : u < π / 7 := by
    push_cast at i1 i2
    have : i ≤ 2 := by
      by_contra hc
      have : 3 ≤ i := by omega
      have : (3 : ℝ) ≤ i := by exact_mod_cast this
      nlinarith
    have : (i : ℝ) ≤ 2 := by exact_mod_cast this
    nlinarith
  have a := sq_lt (x := π / 5) (by positivity) hv5 h1
  have b := sq_lt h0 hu7 (by linarith)
  have := gap_5_7
  linarith

theorem some_fits {u v : ℝ} (h0 : 0 ≤ u) (h1 : v ≤ π / 2) (huv : u ≤ v) (hw : sin v ^ 2 - sin u ^ 2 ≤ 2 * cE) :
    ∃ L ∈ ([3, 5, 7] : List ℕ), ∃ j : ℕ, j < L ∧ (j : ℝ) * (π / 2) ≤ L * u ∧ (L : ℝ) * v ≤ (j + 1) * (π / 2) := by
  rcases fits_or 3 (by norm_num) h0 h1 huv with ⟨j, hj⟩ | ⟨j, j0, j3, j1, j2⟩
  · exact ⟨3, by simp, j, hj⟩
  have : j = 1 ∨ j = 2 := by omega
  push_cast at j1 j2
  rcases this with rfl | rfl
  · push_cast at j1 j2
    exact some_fits_left h0 h1 huv hw (by linarith) (by linarith)
  · push_cast at j1 j2
    obtain ⟨L, hL, j, k1, k2, k3⟩ := some_fits_left (u := π / 2 - v) (v := π / 2 - u) (by linarith) (by linarith) (by linarith)
      (by rw [sq_compl, sq_compl]; linarith) (by linarith) (by linarith)
    refine ⟨L, hL, L - 1 - j, by omega, ?_, ?_⟩
    · rw [Nat.cast_sub (by omega), Nat.cast_sub (by omega)]
      push_cast
      linarith
    · rw [Nat.cast_sub (by omega), Nat.cast_sub (by omega)]
      push_cast
      linarith

end Verif.Iqae
