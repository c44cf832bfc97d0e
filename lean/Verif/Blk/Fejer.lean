import Mathlib.Algebra.Polynomial.Reverse
import Mathlib.Analysis.Complex.Polynomial.Basic
import Verif.Blk.Nlft

/-!
The theorem of Fejér and Riesz for real coefficients: a trigonometric polynomial that is positive on the circle is the squared modulus of a
polynomial. It shows that the completions which the angle finding computes exist.
-/

namespace Verif.Blk

open Polynomial
open scoped ComplexConjugate

theorem aeval_conj' (S : ℝ[X]) (z : ℂ) : aeval (conj z) S = conj (aeval z S) := by
  have := aeval_algHom_apply (Complex.conjAe : ℂ ≃ₐ[ℝ] ℂ).toAlgHom z S
  exact this

theorem aeval_reflect {S : ℝ[X]} {N : ℕ} (h : S.natDegree ≤ N) {z : ℂ} (hz : z ≠ 0) : aeval z (reflect N S) = z ^ N * aeval z⁻¹ S := by
  have hi : z⁻¹ ≠ 0 := inv_ne_zero hz
  letI : Invertible (z⁻¹) := invertibleOfNonzero hi
  have e := eval₂_reflect_mul_pow (algebraMap ℝ ℂ) z⁻¹ N S h
  rw [invOf_eq_inv, inv_inv] at e
  rw [aeval_def, aeval_def, ← e, inv_pow]
  field_simp

/-- The polynomial divided by z^e is positive on the circle. -/
def PosOn (e : ℕ) (S : ℝ[X]) : Prop := ∀ z : ℂ, ‖z‖ = 1 → ∃ r : ℝ, 0 < r ∧ aeval z S = r * z ^ e

theorem norm_one_inv {z : ℂ} (h : ‖z‖ = 1) : z⁻¹ = conj z ∧ z ≠ 0 ∧ z * conj z = 1 := by
  have h0 : z ≠ 0 := by rintro rfl; simp at h
  have h1 : z * conj z = 1 := by rw [Complex.mul_conj, Complex.normSq_eq_norm_sq, h]; norm_num
  exact ⟨(eq_inv_of_mul_eq_one_right h1).symm, h0, h1⟩

theorem PosOn.reflect {e : ℕ} {S : ℝ[X]} (hd : S.natDegree ≤ 2 * e) (h : PosOn e S) : Polynomial.reflect (2 * e) S = S := by
  have hz : (Polynomial.reflect (2 * e) S - S).map (algebraMap ℝ ℂ) = 0 := by
    apply eq_zero_of_infinite_isRoot
    apply circle_infinite.mono
    intro z hz
    obtain ⟨h1, h2, h3⟩ := norm_one_inv hz
    obtain ⟨r, _, hr⟩ := h z hz
    show eval z _ = 0
    rw [eval_map_algebraMap, map_sub, aeval_reflect hd h2, h1, aeval_conj', hr, map_mul, Complex.conj_ofReal, map_pow]
    have : z ^ (2 * e) * (r * (conj z) ^ e) = r * z ^ e := by
      calc _ = r * z ^ e * (z * conj z) ^ e := by rw [two_mul, pow_add, mul_pow]; ring
        _ = _ := by rw [h3, one_pow, mul_one]
    rw [this, sub_self]
  rw [Polynomial.map_eq_zero] at hz
  exact sub_eq_zero.1 hz

/-- On the circle (z - r)(z - 1/r̄) is z |z - r|² up to a constant. -/
theorem pair_circle {z r : ℂ} (hz : ‖z‖ = 1) (hr : r ≠ 0) : (z - r) * (z - (conj r)⁻¹) = -(conj r)⁻¹ * z * ((‖z - r‖ ^ 2 : ℝ) : ℂ) := by
  obtain ⟨_, h2, h3⟩ := norm_one_inv hz
  have hc : conj r ≠ 0 := by simpa using hr
  rw [← Complex.normSq_eq_norm_sq, ← Complex.mul_conj, map_sub]
  field_simp
  linear_combination (z - r) * h3

/-- The real polynomial with the roots w and w̄. -/
noncomputable def quadR (w : ℂ) : ℝ[X] := X ^ 2 - C (2 * w.re) * X + C (‖w‖ ^ 2)

theorem quadR_aeval (w z : ℂ) : aeval z (quadR w) = (z - w) * (z - conj w) := by
  have h1 : ((‖w‖ ^ 2 : ℝ) : ℂ) = w * conj w := by rw [Complex.mul_conj, Complex.normSq_eq_norm_sq]
  have h2 : ((2 * w.re : ℝ) : ℂ) = w + conj w := by rw [Complex.add_conj]
  rw [quadR, map_add, map_sub, map_mul, map_pow, aeval_X, aeval_C, aeval_C, Complex.coe_algebraMap, h1, h2]; ring

theorem quadR_dvd {S : ℝ[X]} {w : ℂ} (h : aeval w S = 0) (hi : w.im ≠ 0) : quadR w ∣ S := quadratic_dvd_of_aeval_eq_zero_im_ne_zero S h hi

theorem fejer_riesz : ∀ e : ℕ, ∀ S : ℝ[X], S.natDegree ≤ 2 * e → PosOn e S →
    ∃ q : ℝ[X], q.natDegree ≤ e ∧ 0 < q.coeff 0 ∧ ∀ z : ℂ, ‖z‖ = 1 → aeval z S = ((‖aeval z q‖ ^ 2 : ℝ) : ℂ) * z ^ e := by
  intro e
  induction e using Nat.strong_induction_on with
  | _ e ih =>
    intro S hd hS
    -- the step: a factor that is |m|² z^j on the circle
    have step : ∀ (m S' : ℝ[X]) (j : ℕ), 1 ≤ j → j ≤ e → m.natDegree ≤ j → 0 < m.coeff 0 → S'.natDegree ≤ 2 * (e - j) → (∀ z : ℂ, ‖z‖ = 1 → aeval z m ≠ 0)
        → (∀ z : ℂ, ‖z‖ = 1 → aeval z S = ((‖aeval z m‖ ^ 2 : ℝ) : ℂ) * z ^ j * aeval z S')
        → ∃ q : ℝ[X], q.natDegree ≤ e ∧ 0 < q.coeff 0 ∧ ∀ z : ℂ, ‖z‖ = 1 → aeval z S = ((‖aeval z q‖ ^ 2 : ℝ) : ℂ) * z ^ e := by
      intro m S' j h1 h2 hm hm0 hS' hmz hSz
      obtain ⟨q, q1, q2, q3⟩ := ih (e - j) (by omega) S' hS' (by
        intro z hz
        obtain ⟨r, r0, hr⟩ := hS z hz
        obtain ⟨_, hz0, _⟩ := norm_one_inv hz
        have hn : 0 < ‖aeval z m‖ ^ 2 := by have := norm_pos_iff.2 (hmz z hz); positivity
        refine ⟨r / ‖aeval z m‖ ^ 2, div_pos r0 hn, ?_⟩
        have e1 := hSz z hz
        rw [hr, show z ^ e = z ^ (e - j) * z ^ j by rw [← pow_add, Nat.sub_add_cancel h2]] at e1
        have hnc : ((‖aeval z m‖ ^ 2 : ℝ) : ℂ) ≠ 0 := by exact_mod_cast hn.ne'
        have hzj : z ^ j ≠ 0 := pow_ne_zero _ hz0
        rw [Complex.ofReal_div]
        field_simp
        apply mul_right_cancel₀ hzj
        linear_combination -e1)
      refine ⟨q * m, (natDegree_mul_le.trans (by omega)), by rw [mul_coeff_zero]; exact mul_pos q2 hm0, ?_⟩
      intro z hz
      rw [hSz z hz, q3 z hz, map_mul, norm_mul, mul_pow]
      have : z ^ e = z ^ (e - j) * z ^ j := by rw [← pow_add, Nat.sub_add_cancel h2]
      rw [this]; push_cast; ring
    rcases Nat.eq_zero_or_pos e with rfl | hpos
    · -- a constant
      rw [mul_zero, Nat.le_zero] at hd
      obtain ⟨c, rfl⟩ := natDegree_eq_zero.1 hd
      obtain ⟨r, r0, hr⟩ := hS 1 (by simp)
      rw [aeval_C, pow_zero, mul_one, Complex.coe_algebraMap] at hr
      have hc : c = r := by exact_mod_cast hr
      subst hc
      refine ⟨C (Real.sqrt c), by simp, by simpa using r0, ?_⟩
      intro z _
      simp [Real.sq_sqrt r0.le, sq_abs]
    have hrefl := hS.reflect hd
    have hco : ∀ k ≤ 2 * e, S.coeff k = S.coeff (2 * e - k) := by
      intro k hk
      conv_lhs => rw [← hrefl]
      rw [coeff_reflect, revAt_le hk]
    by_cases h0 : S.coeff 0 = 0
    · -- divisible by X
      obtain ⟨S', rfl⟩ := X_dvd_iff.2 h0
      have htop : (X * S').coeff (2 * e) = 0 := by rw [hco _ le_rfl, Nat.sub_self]; exact h0
      refine step 1 S' 1 le_rfl hpos (by simp) (by simp) ?_ (by simp) (by intro z _; simp)
      rw [natDegree_le_iff_coeff_eq_zero]
      intro k hk
      have : S'.coeff k = (X * S').coeff (k + 1) := by rw [coeff_X_mul]
      rw [this]
      rcases Nat.lt_or_ge (2 * e) (k + 1) with h | h
      · exact coeff_eq_zero_of_natDegree_lt (by omega)
      · rw [show k + 1 = 2 * e by omega]; exact htop
    · have htop : S.coeff (2 * e) ≠ 0 := by rw [hco _ le_rfl, Nat.sub_self]; exact h0
      have hdeg : S.natDegree = 2 * e := le_antisymm hd (le_natDegree_of_ne_zero htop)
      have hSne : S ≠ 0 := by rintro rfl; simp at h0
      obtain ⟨r, hr⟩ : ∃ r : ℂ, aeval r S = 0 := by
        refine IsAlgClosed.exists_aeval_eq_zero ℂ S ?_
        rw [degree_eq_natDegree hSne, hdeg]
        intro h
        have : 2 * e = 0 := by exact_mod_cast h
        omega
      have r0 : r ≠ 0 := by
        rintro rfl
        rw [← coeff_zero_eq_aeval_zero', Complex.coe_algebraMap] at hr
        exact h0 (by exact_mod_cast hr)
      have rn : ‖r‖ ≠ 1 := by
        intro h
        obtain ⟨x, x0, hx⟩ := hS r h
        rw [hr] at hx
        exact mul_ne_zero (by exact_mod_cast x0.ne') (pow_ne_zero _ r0) hx.symm
      have rinv : aeval r⁻¹ S = 0 := by
        have := aeval_reflect hd r0
        rw [hrefl, hr] at this
        exact (mul_eq_zero.1 this.symm).resolve_left (pow_ne_zero _ r0)
      have nzr : ∀ z : ℂ, ‖z‖ = 1 → z - r ≠ 0 := by
        intro z hz h
        rw [sub_eq_zero] at h; rw [h] at hz; exact rn hz
      have rinvne : r⁻¹ ≠ r := by
        intro h
        have h2 := congrArg (fun w => ‖w‖) h
        simp only [norm_inv] at h2
        have h3 : 0 < ‖r‖ := norm_pos_iff.2 r0
        have h4 : ‖r‖ * ‖r‖ = 1 := by rw [inv_eq_iff_eq_inv] at h2; nth_rw 1 [h2]; exact inv_mul_cancel₀ h3.ne'
        have : (‖r‖ - 1) * (‖r‖ + 1) = 0 := by ring_nf; nlinarith
        rcases mul_eq_zero.1 this with h5 | h5
        · exact rn (by linarith)
        · linarith
      by_cases him : r.im = 0
      · -- a real root
        obtain ⟨x, rfl⟩ : ∃ x : ℝ, r = x := ⟨r.re, by apply Complex.ext <;> simp [him]⟩
        have x0 : x ≠ 0 := by rintro rfl; simp at r0
        have hx : IsRoot S x := by
          have : aeval (algebraMap ℝ ℂ x) S = 0 := hr
          rw [aeval_algebraMap_apply] at this
          have : ((eval x S : ℝ) : ℂ) = 0 := by simpa using this
          exact_mod_cast this
        have hxi : IsRoot S x⁻¹ := by
          have : aeval (algebraMap ℝ ℂ x⁻¹) S = 0 := by rw [← rinv]; congr 1; simp
          rw [aeval_algebraMap_apply] at this
          have : ((eval x⁻¹ S : ℝ) : ℂ) = 0 := by simpa using this
          exact_mod_cast this
        obtain ⟨S1, e1⟩ := dvd_iff_isRoot.2 hx
        have hx1 : IsRoot S1 x⁻¹ := by
          rw [e1, IsRoot, eval_mul] at hxi
          refine (mul_eq_zero.1 hxi).resolve_left ?_
          simp only [eval_sub, eval_X, eval_C]
          intro h
          apply rinvne
          rw [← Complex.ofReal_inv]; exact_mod_cast sub_eq_zero.1 h
        obtain ⟨S2, e2⟩ := dvd_iff_isRoot.2 hx1
        have hS2 : S2 ≠ 0 := by rintro rfl; rw [e2, mul_zero] at e1; rw [e1] at hSne; simp at hSne
        have hdeg2 : S2.natDegree = 2 * e - 2 := by
          have h := hdeg
          rw [e1, e2, natDegree_mul (X_sub_C_ne_zero _) (mul_ne_zero (X_sub_C_ne_zero _) hS2), natDegree_mul (X_sub_C_ne_zero _) hS2, natDegree_X_sub_C, natDegree_X_sub_C] at h
          omega
        have circ : ∀ z : ℂ, ‖z‖ = 1 → aeval z S = ((‖z - x‖ ^ 2 : ℝ) : ℂ) * z ^ 1 * aeval z (C (-x⁻¹) * S2) := by
          intro z hz
          have hp := pair_circle hz r0
          rw [Complex.conj_ofReal] at hp
          rw [e1, e2]
          simp only [map_mul, map_sub, aeval_X, aeval_C, Complex.coe_algebraMap, pow_one]
          rw [← mul_assoc, Complex.ofReal_inv, hp]; push_cast; ring
        rcases lt_or_gt_of_ne x0 with hneg | hp
        · refine step (X - C x) (C (-x⁻¹) * S2) 1 le_rfl hpos (by simp) (by simp; exact hneg) ((natDegree_C_mul_le _ _).trans (by omega)) ?_ ?_
          · intro z hz; simpa using nzr z hz
          · intro z hz; rw [circ z hz]; simp
        · refine step (C x - X) (C (-x⁻¹) * S2) 1 le_rfl hpos ?_ (by simp; exact hp) ((natDegree_C_mul_le _ _).trans (by omega)) ?_ ?_
          · rw [← neg_sub, natDegree_neg]; simp
          · intro z hz
            have := nzr z hz
            simp only [map_sub, aeval_C, aeval_X, Complex.coe_algebraMap]
            rw [← neg_sub]; exact neg_ne_zero.2 this
          · intro z hz
            rw [circ z hz]
            simp only [map_sub, aeval_C, aeval_X, Complex.coe_algebraMap]
            rw [norm_sub_rev]
      · -- a pair of complex roots
        have quad := quadR_aeval
        obtain ⟨S1, e1⟩ := quadR_dvd hr him
        have hcinv : r⁻¹ ≠ conj r := by
          intro h
          have h2 := congrArg (fun w => ‖w‖) h
          simp only [norm_inv, Complex.norm_conj] at h2
          have h3 : 0 < ‖r‖ := norm_pos_iff.2 r0
          have h4 : ‖r‖ * ‖r‖ = 1 := by nth_rw 1 [← h2]; exact inv_mul_cancel₀ h3.ne'
          have : (‖r‖ - 1) * (‖r‖ + 1) = 0 := by ring_nf; nlinarith
          rcases mul_eq_zero.1 this with h5 | h5
          · exact rn (by linarith)
          · linarith
        have h1i : aeval r⁻¹ S1 = 0 := by
          rw [e1, map_mul, quad] at rinv
          refine (mul_eq_zero.1 rinv).resolve_left (mul_ne_zero (sub_ne_zero.2 rinvne) (sub_ne_zero.2 hcinv))
        have himi : r⁻¹.im ≠ 0 := by
          rw [Complex.inv_im]
          exact div_ne_zero (neg_ne_zero.2 him) (by simpa using r0)
        obtain ⟨S2, e2⟩ := quadR_dvd h1i himi
        have hdq : ∀ w : ℂ, (quadR w).natDegree = 2 := by
          intro w; rw [quadR]; compute_degree!
        have hq0 : ∀ w : ℂ, (quadR w) ≠ 0 := by
          intro w h; have := hdq w; rw [h] at this; simp at this
        have hS2 : S2 ≠ 0 := by rintro rfl; rw [e2, mul_zero] at e1; rw [e1] at hSne; simp at hSne
        have hdeg2 : S2.natDegree + 4 = 2 * e := by
          have h := hdeg
          rw [e1, e2, natDegree_mul (hq0 _) (mul_ne_zero (hq0 _) hS2), natDegree_mul (hq0 _) hS2, hdq, hdq] at h
          omega
        refine step (quadR r) (C ((‖r‖ ^ 2)⁻¹) * S2) 2 (by norm_num) (by omega) (hdq r).le ?_ ((natDegree_C_mul_le _ _).trans (by omega)) ?_ ?_
        · have := norm_pos_iff.2 r0
          have e : (quadR r).coeff 0 = ‖r‖ ^ 2 := by rw [quadR, coeff_add, coeff_C_zero]; simp
          rw [e]; positivity
        · intro z hz
          rw [quad]
          refine mul_ne_zero (nzr z hz) ?_
          intro h
          rw [sub_eq_zero] at h
          rw [h, Complex.norm_conj] at hz; exact rn hz
        · intro z hz
          have p1 := pair_circle hz r0
          have p2 := pair_circle (r := conj r) hz (by simpa using r0)
          rw [Complex.conj_conj] at p2
          rw [e1, e2, map_mul, map_mul, quad, quad, map_mul, aeval_C, norm_mul]
          rw [map_inv₀]
          have h1 : ((‖r‖ ^ 2 : ℝ) : ℂ) = r * conj r := by rw [Complex.mul_conj, Complex.normSq_eq_norm_sq]
          have hc0 : conj r ≠ 0 := by simpa using r0
          calc (z - r) * (z - conj r) * ((z - r⁻¹) * (z - (conj r)⁻¹) * aeval z S2)
              = ((z - r) * (z - (conj r)⁻¹)) * ((z - conj r) * (z - r⁻¹)) * aeval z S2 := by ring
            _ = _ := by
              rw [p1, p2, Complex.coe_algebraMap, Complex.ofReal_inv, h1]
              push_cast
              field_simp

end Verif.Blk
