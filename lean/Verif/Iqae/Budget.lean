import Verif.Iqae.Run

/-!
# The numbers of rounds and shots
-/

namespace Verif.Iqae
open Real

theorem cF_ge : (0.18 : ℝ) ≤ cF := by
  have h1 : sin (π / 14) ≤ 0.225 := (sin_le (by positivity)).trans (by norm_num; linarith [pi_lt_d2])
  have h2 : (0.1375 : ℝ) ≤ 2 * cE := by
    rw [two_cE, sq_pi_14_3]; norm_num at h1 ⊢; linarith
  have h3 : (0.36 : ℝ) ≤ √(2 * cE) := le_sqrt_of_sq_le (by norm_num at h2 ⊢; linarith)
  have h4 : √(2 * cE) ≤ 1 := sqrt_le_one.mpr (two_cE_lt.trans (by norm_num))
  have h5 : √(2 * cE) ≤ arcsin (√(2 * cE)) := by
    have := sin_le (arcsin_nonneg.mpr (sqrt_nonneg (2 * cE)))
    rwa [sin_arcsin (by linarith [sqrt_nonneg (2 * cE)]) h4] at this
  have e : (0.18 : ℝ) = 1 / 2 * 0.36 := by norm_num
  rw [cF, e]
  linarith

theorem cC_pos : 0 < cC := by
  have := cF_ge
  have := pi_pos
  unfold cC
  apply div_pos (by norm_num)
  norm_num at *
  linarith

theorem cC_mul {x : ℝ} (h : 4 * x ≤ 6 * cF + π) : cC * x ≤ 1 := by
  have := cF_ge
  have := pi_pos
  have h0 : 0 < 6 * cF + π := by norm_num at *; linarith
  rw [cC, div_mul_eq_mul_div, div_le_one h0]
  exact h

theorem cC_le : cC ≤ 1 := by
  have := cC_mul (x := 1) (by have := cF_ge; have := pi_gt_d2; norm_num at *; linarith)
  simpa using this

/-- What is spent so far, in a state that was reached by a round from factor `P`. -/
theorem spend {P K H w eps : ℝ} (he : 0 < eps) (h1 : w * P ≤ 2 * cF) (h2 : w * K ≤ π / 2) (h3 : 2 * H ≤ 3 * P) (hP : 0 < P) (hK : 0 < K)
    (hw : 2 * eps < w) : cC * (eps * (H + K)) ≤ 1 := by
  apply cC_mul
  have a : 2 * eps * P ≤ w * P := mul_le_mul_of_nonneg_right hw.le hP.le
  have b : 2 * eps * K ≤ w * K := mul_le_mul_of_nonneg_right hw.le hK.le
  nlinarith

/-- Factors before round `n`. -/
noncomputable def spent (A : ℕ → ℝ) (n : ℕ) : ℝ := ((List.range n).map fun i => ((after A i).K : ℝ)).sum

theorem spent_succ (A : ℕ → ℝ) (n : ℕ) : spent A (n + 1) = spent A n + (after A n).K := by
  simp [spent, List.range_succ]

theorem spent_le {A : ℕ → ℝ} (hA : ∀ i, 0 ≤ A i ∧ A i ≤ 1) : ∀ n, 2 * spent A n ≤ (after A n).K
  | 0 => by simp [spent]
  | n + 1 => by
    have ih := spent_le hA n
    obtain ⟨L, hL, e⟩ := (round_after hA n).K
    have h3 : (3 : ℝ) ≤ L := by
      have : 3 ≤ L := by omega
      exact_mod_cast this
    rw [spent_succ, e]
    push_cast
    have : (0 : ℝ) ≤ (after A n).K := Nat.cast_nonneg _
    nlinarith

theorem budget {A : ℕ → ℝ} (hA : ∀ i, 0 ≤ A i ∧ A i ≤ 1) {eps : ℝ} (he : 0 < eps) (he1 : eps ≤ 1) {fuel n : ℕ} (h : rounds A eps fuel = some n) :
    cC * (eps * spent A n) ≤ 1 := by
  obtain ⟨h0, _, h2⟩ := rounds_some h
  obtain ⟨m, rfl⟩ : ∃ m, n = m + 1 := ⟨n - 1, by omega⟩
  rw [spent_succ]
  cases m with
  | zero =>
    simp only [spent, List.range_zero, List.map_nil, List.sum_nil, zero_add, after, init]
    have := cC_le
    have := cC_pos
    push_cast
    nlinarith
  | succ m =>
    have r := round_after hA m
    have hp := pos_after hA m
    have hp' := pos_after hA (m + 1)
    have p1 : (0 : ℝ) < (after A m).K := by exact_mod_cast lt_of_lt_of_le (by positivity) hp
    have p2 : (0 : ℝ) < (after A (m + 1)).K := by exact_mod_cast lt_of_lt_of_le (by positivity) hp'
    refine spend he r.wide r.next ?_ p1 p2 (h2 (m + 1) (by omega) (by omega))
    have := spent_le hA m
    rw [spent_succ]
    linarith

theorem shots_enough {al eps : ℝ} {K : ℕ} (h : 0 < alp al eps K) : 2 * exp (-2 * (shots al eps K : ℝ) * cE ^ 2) ≤ alp al eps K := by
  have hE : 0 < cE ^ 2 := pow_pos cE_pos 2
  have h1 : 1 / (2 * cE ^ 2) * log (2 / alp al eps K) ≤ shots al eps K := Int.le_ceil _
  have h2 : log (2 / alp al eps K) ≤ 2 * (shots al eps K : ℝ) * cE ^ 2 := by
    rw [one_div_mul_eq_div, div_le_iff₀ (by positivity)] at h1
    linarith
  have h3 : exp (-2 * (shots al eps K : ℝ) * cE ^ 2) ≤ exp (-log (2 / alp al eps K)) := exp_le_exp.mpr (by linarith)
  rw [exp_neg, exp_log (by positivity), inv_div] at h3
  linarith

end Verif.Iqae
