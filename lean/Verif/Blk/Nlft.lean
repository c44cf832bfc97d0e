import Mathlib.Analysis.SpecialFunctions.Complex.Arctan
import Mathlib.Analysis.SpecialFunctions.Trigonometric.Arctan
import Mathlib.Analysis.Complex.Basic
import Mathlib.Algebra.Polynomial.Roots
import Mathlib.Algebra.Polynomial.BigOperators
import Mathlib.Analysis.Normed.Module.Connected
import Mathlib.LinearAlgebra.Complex.FiniteDimensional
import Mathlib.Algebra.BigOperators.Field
import Mathlib.Topology.Separation.Connected

/-!
The angles of generalized quantum signal processing (algorithms/gqsp/gqsp_angles.py).

Arrays of length `d + 1` are functions on the naturals of which the values up to `d` count.
-/

namespace Verif.Blk

open Polynomial
open scoped ComplexConjugate

/-- The value of the polynomial with the given coefficients. -/
noncomputable def ev {R : Type} [Ring R] [Algebra ℂ R] (d : ℕ) (c : ℕ → ℂ) (u : R) : R := ∑ k ∈ Finset.range (d + 1), c k • u ^ k

/-- `jnp.roll(c, -1)` for an array of length `d + 1`. -/
def roll (d : ℕ) (c : ℕ → ℂ) : ℕ → ℂ := fun k => c ((k + 1) % (d + 1))

/-- `Fk = b_arr[0] / a_star[0]` (gqsp_angles.py:179). -/
noncomputable def stripF (s : (ℕ → ℂ) × (ℕ → ℂ)) : ℂ := s.2 0 / s.1 0

/-- `s = jnp.sqrt(1.0 + jnp.abs(Fk) ** 2)` (gqsp_angles.py:182). -/
noncomputable def stripR (s : (ℕ → ℂ) × (ℕ → ℂ)) : ℝ := Real.sqrt (1 + ‖stripF s‖ ^ 2)

/-- `step` (gqsp_angles.py:175-189): one layer is stripped. -/
noncomputable def strip (d : ℕ) (s : (ℕ → ℂ) × (ℕ → ℂ)) : (ℕ → ℂ) × (ℕ → ℂ) :=
  (fun k => (s.1 k + conj (stripF s) * s.2 k) / stripR s, roll d (fun k => (s.2 k - stripF s * s.1 k) / stripR s))

/-- The k-th element of the sequence computed by `_inlft` (gqsp_angles.py:150-198), from the initial carry `(a_star, b)`. -/
noncomputable def layers (d : ℕ) (s : (ℕ → ℂ) × (ℕ → ℂ)) : ℕ → ℂ := fun k => stripF ((strip d)^[k] s)

/-- `_inlft(a, b)` (gqsp_angles.py:150-198): the initial carry is `(jnp.conjugate(a), b)`. -/
noncomputable def inlft (d : ℕ) (a b : ℕ → ℂ) : ℕ → ℂ := layers d (fun k => conj (a k), b)

/-- `thres` (gqsp_angles.py:222). -/
noncomputable def thres : ℝ := 1e-10

/-- `psi` (gqsp_angles.py:224-232). -/
noncomputable def psi (F : ℂ) : ℝ :=
  if ‖F‖ < thres then 0 else if |F.im| < thres then -Real.pi / 4 else -(1 / 2) * Real.arctan (F.re / F.im)

/-- `phi` (gqsp_angles.py:235 and 245). -/
noncomputable def phi (F : ℂ) : ℝ := (Complex.arctan (-Complex.I * Complex.exp (-2 * Complex.I * psi F) * F)).re

/-- `theta` before the switch (gqsp_angles.py:236-237). -/
noncomputable def thetaRaw (d : ℕ) (F : ℕ → ℂ) (j : ℕ) : ℝ := (if j + 1 ≤ d then psi (F (j + 1)) else 0) - psi (F j)

/-- `theta` (gqsp_angles.py:236-244). -/
noncomputable def thetaA (d : ℕ) (F : ℕ → ℂ) (j : ℕ) : ℝ := if j = d then -thetaRaw d F d else thetaRaw d F j

/-- `phi` (gqsp_angles.py:235-245). -/
noncomputable def phiA (d : ℕ) (F : ℕ → ℂ) (j : ℕ) : ℝ := if j = d then phi (F d) + Real.pi / 2 else phi (F j)

/-- `lambda_` (gqsp_angles.py:238). -/
noncomputable def lambdaA (F : ℕ → ℂ) : ℝ := psi (F 0)

/-- `poly_to_nlft_sequence(p)` (gqsp_angles.py:304-335) for the maximum `M` of |p| and the completion `q`: p is divided by M, multiplied with 0.99 and
with -i. -/
noncomputable def nlftSeq (d : ℕ) (M : ℝ) (q p : ℕ → ℂ) : ℕ → ℂ := inlft d q (fun k => -Complex.I * ((0.99 : ℝ) * (p k / M)))

/-! ### Evaluation -/

section
variable {R : Type} [Ring R] [Algebra ℂ R]

theorem ev_roll (d : ℕ) (c : ℕ → ℂ) (h : c 0 = 0) (u : R) : u * ev d (roll d c) u = ev d c u := by
  rw [ev, ev, Finset.mul_sum, Finset.sum_range_succ, Finset.sum_range_succ' (fun k => c k • u ^ k)]
  congr 1
  · apply Finset.sum_congr rfl
    intro k hk
    rw [Finset.mem_range] at hk
    rw [roll, Nat.mod_eq_of_lt (by omega), mul_smul_comm, pow_succ']
  · rw [roll, Nat.mod_self, h, zero_smul, mul_zero, zero_smul]

theorem ev_add (d : ℕ) (c c' : ℕ → ℂ) (u : R) : ev d (fun k => c k + c' k) u = ev d c u + ev d c' u := by
  rw [ev, ev, ev, ← Finset.sum_add_distrib]
  apply Finset.sum_congr rfl; intro k _; rw [add_smul]

theorem ev_smul (d : ℕ) (x : ℂ) (c : ℕ → ℂ) (u : R) : ev d (fun k => x * c k) u = x • ev d c u := by
  rw [ev, ev, Finset.smul_sum]
  apply Finset.sum_congr rfl; intro k _; rw [smul_smul]

theorem ev_congr (d : ℕ) {c c' : ℕ → ℂ} (h : ∀ k ≤ d, c k = c' k) (u : R) : ev d c u = ev d c' u := by
  apply Finset.sum_congr rfl; intro k hk; rw [h k (by rw [Finset.mem_range] at hk; omega)]

theorem stripR_pos (s : (ℕ → ℂ) × (ℕ → ℂ)) : 0 < stripR s := Real.sqrt_pos.mpr (by positivity)

theorem stripR_sq (s : (ℕ → ℂ) × (ℕ → ℂ)) : (stripR s : ℂ) * stripR s = 1 + stripF s * conj (stripF s) := by
  rw [← Complex.ofReal_mul, stripR, Real.mul_self_sqrt (by positivity), Complex.mul_conj, Complex.normSq_eq_norm_sq]
  push_cast; ring

theorem ev_strip_fst (d : ℕ) (s : (ℕ → ℂ) × (ℕ → ℂ)) (u : R) :
    ev d (strip d s).1 u = (stripR s : ℂ)⁻¹ • (ev d s.1 u + conj (stripF s) • ev d s.2 u) := by
  rw [strip, ← ev_smul, ← ev_add, ← ev_smul]
  apply ev_congr; intro k _
  simp only; field_simp

theorem ev_strip_snd (d : ℕ) {s : (ℕ → ℂ) × (ℕ → ℂ)} (h0 : s.1 0 ≠ 0) (u : R) :
    u * ev d (strip d s).2 u = (stripR s : ℂ)⁻¹ • (ev d s.2 u - stripF s • ev d s.1 u) := by
  rw [strip]
  have hr := (stripR_pos s).ne'
  simp only
  rw [ev_roll _ _ (by rw [stripF, div_mul_cancel₀ _ h0, sub_self, zero_div])]
  rw [sub_eq_add_neg, ← neg_smul, ← ev_smul, ← ev_add, ← ev_smul]
  apply ev_congr; intro k _
  ring

/-- The layer put back. -/
theorem ev_unstrip (d : ℕ) {s : (ℕ → ℂ) × (ℕ → ℂ)} (h0 : s.1 0 ≠ 0) (u : R) :
    ev d s.2 u = (stripR s : ℂ)⁻¹ • (stripF s • ev d (strip d s).1 u + u * ev d (strip d s).2 u)
      ∧ ev d s.1 u = (stripR s : ℂ)⁻¹ • (ev d (strip d s).1 u - conj (stripF s) • (u * ev d (strip d s).2 u)) := by
  have hr : (stripR s : ℂ) ≠ 0 := by exact_mod_cast (stripR_pos s).ne'
  have hsq := stripR_sq s
  have hi : (stripR s : ℂ)⁻¹ * (stripR s : ℂ)⁻¹ * (1 + stripF s * conj (stripF s)) = 1 := by rw [← hsq]; field_simp
  rw [ev_strip_fst, ev_strip_snd d h0]
  generalize ev d s.1 u = A
  generalize ev d s.2 u = B
  generalize (stripR s : ℂ)⁻¹ = r at hi ⊢
  generalize stripF s = F at hi ⊢
  constructor
  · have : r • (F • r • (A + conj F • B) + r • (B - F • A)) = (r * r * (1 + F * conj F)) • B := by module
    rw [this, hi, one_smul]
  · have : r • (r • (A + conj F • B) - conj F • r • (B - F • A)) = (r * r * (1 + F * conj F)) • A := by module
    rw [this, hi, one_smul]

end

/-! ### The invariant of layer stripping -/

theorem circle_infinite : {z : ℂ | ‖z‖ = 1}.Infinite := by
  have h := isPreconnected_sphere (E := ℂ) (by rw [Complex.rank_real_complex]; norm_num) 0 1
  have e : Metric.sphere (0 : ℂ) 1 = {z : ℂ | ‖z‖ = 1} := by ext z; simp
  rw [e] at h
  exact h.infinite_of_nontrivial ⟨1, by simp, -1, by simp, by norm_num⟩

/-- The polynomial with the given coefficients. -/
noncomputable def toPoly (d : ℕ) (c : ℕ → ℂ) : ℂ[X] := ∑ k ∈ Finset.range (d + 1), C (c k) * X ^ k

theorem toPoly_coeff (d : ℕ) (c : ℕ → ℂ) (k : ℕ) (h : k ≤ d) : (toPoly d c).coeff k = c k := by
  rw [toPoly, finsetSum_coeff, Finset.sum_eq_single k]
  · simp
  · intro j _ hj; rw [coeff_C_mul, coeff_X_pow, if_neg (Ne.symm hj), mul_zero]
  · intro h'; exact absurd (Finset.mem_range.mpr (by omega)) h'

theorem toPoly_deg (d : ℕ) (c : ℕ → ℂ) : (toPoly d c).natDegree ≤ d := by
  apply natDegree_sum_le_of_forall_le
  intro k hk
  rw [Finset.mem_range] at hk
  exact (natDegree_C_mul_X_pow_le _ _).trans (by omega)

theorem toPoly_eval (d : ℕ) (c : ℕ → ℂ) (z : ℂ) : (toPoly d c).eval z = ev d c z := by
  rw [toPoly, eval_finsetSum, ev]
  apply Finset.sum_congr rfl; intro k _; simp

/-- On the unit circle, the reversed conjugated polynomial is z^m times the conjugate. -/
theorem rev_eval (m : ℕ) (c : ℕ → ℂ) {z : ℂ} (hz : ‖z‖ = 1) : ev m (fun k => conj (c (m - k))) z = z ^ m * conj (ev m c z) := by
  have hzc : z * conj z = 1 := by rw [Complex.mul_conj, Complex.normSq_eq_norm_sq, hz]; norm_num
  rw [ev, ev, map_sum, Finset.mul_sum, ← Finset.sum_range_reflect]
  apply Finset.sum_congr rfl
  intro k hk
  rw [Finset.mem_range] at hk
  rw [show m + 1 - 1 - k = m - k by omega, show m - (m - k) = k by omega, smul_eq_mul, smul_eq_mul, map_mul, map_pow]
  have : z ^ m = z ^ (m - k) * z ^ k := by rw [← pow_add]; congr 1; omega
  rw [this]
  have h2 : z ^ k * conj z ^ k = 1 := by rw [← mul_pow, hzc, one_pow]
  linear_combination (-(conj (c k)) * z ^ (m - k)) * h2

/-- If |a|² + |b|² = 1 on the unit circle for polynomials of degree m > 0, then the leading coefficients are orthogonal to the constant ones. -/
theorem top_coeff {m : ℕ} (hm : 0 < m) {a b : ℕ → ℂ} (h : ∀ z : ℂ, ‖z‖ = 1 → ‖ev m a z‖ ^ 2 + ‖ev m b z‖ ^ 2 = 1) :
    a m * conj (a 0) + b m * conj (b 0) = 0 := by
  set P := toPoly m a * toPoly m (fun k => conj (a (m - k))) + toPoly m b * toPoly m (fun k => conj (b (m - k))) - X ^ m with hP
  have hz : P = 0 := by
    apply eq_zero_of_infinite_isRoot
    apply circle_infinite.mono
    intro z hz
    have hz' : ‖z‖ = 1 := hz
    show P.eval z = 0
    rw [hP]
    simp only [eval_sub, eval_add, eval_mul, toPoly_eval, rev_eval _ _ hz', eval_pow, eval_X]
    have h1 := h z hz'
    have c1 : ev m a z * conj (ev m a z) = ((‖ev m a z‖ ^ 2 : ℝ) : ℂ) := by rw [Complex.mul_conj, Complex.normSq_eq_norm_sq]
    have c2 : ev m b z * conj (ev m b z) = ((‖ev m b z‖ ^ 2 : ℝ) : ℂ) := by rw [Complex.mul_conj, Complex.normSq_eq_norm_sq]
    have h1' : ((‖ev m a z‖ ^ 2 : ℝ) : ℂ) + ((‖ev m b z‖ ^ 2 : ℝ) : ℂ) = 1 := by rw [← Complex.ofReal_add, h1, Complex.ofReal_one]
    linear_combination z ^ m * (c1 + c2 + h1')
  have hc := congrArg (fun p : ℂ[X] => p.coeff (m + m)) hz
  simp only [hP, coeff_sub, coeff_add, coeff_zero, coeff_X_pow] at hc
  rw [coeff_mul_add_eq_of_natDegree_le (toPoly_deg _ _) (toPoly_deg _ _), coeff_mul_add_eq_of_natDegree_le (toPoly_deg _ _) (toPoly_deg _ _),
    toPoly_coeff _ _ _ le_rfl, toPoly_coeff _ _ _ le_rfl, toPoly_coeff _ _ _ le_rfl, toPoly_coeff _ _ _ le_rfl, Nat.sub_self,
    if_neg (by omega), sub_zero] at hc
  exact hc

theorem ev_shrink {R : Type} [Ring R] [Algebra ℂ R] {d m : ℕ} (hm : m ≤ d) {c : ℕ → ℂ} (h : ∀ j, m < j → j ≤ d → c j = 0) (u : R) : ev d c u = ev m c u := by
  rw [ev, ev]
  symm
  apply Finset.sum_subset (Finset.range_subset_range.mpr (by omega))
  intro k hk hk'
  rw [Finset.mem_range] at hk hk'
  rw [h k (by omega) (by omega), zero_smul]

/-- The state of layer stripping when polynomials of degree `m` remain. -/
structure LInv (d m : ℕ) (s : (ℕ → ℂ) × (ℕ → ℂ)) : Prop where
  le : m ≤ d
  sup : ∀ j, m < j → j ≤ d → s.1 j = 0 ∧ s.2 j = 0
  circ : ∀ z : ℂ, ‖z‖ = 1 → ‖ev d s.1 z‖ ^ 2 + ‖ev d s.2 z‖ ^ 2 = 1
  pos : ∃ x : ℝ, 0 < x ∧ s.1 0 = x

theorem LInv.ne {d m : ℕ} {s : (ℕ → ℂ) × (ℕ → ℂ)} (h : LInv d m s) : s.1 0 ≠ 0 := by
  obtain ⟨x, hx, e⟩ := h.pos
  rw [e]; exact_mod_cast hx.ne'

theorem norm_mix (F x y : ℂ) : ‖F * x + y‖ ^ 2 + ‖x - conj F * y‖ ^ 2 = (1 + ‖F‖ ^ 2) * (‖x‖ ^ 2 + ‖y‖ ^ 2) := by
  simp only [← Complex.normSq_eq_norm_sq, Complex.normSq_apply, Complex.add_re, Complex.add_im, Complex.sub_re, Complex.sub_im, Complex.mul_re, Complex.mul_im,
    Complex.conj_re, Complex.conj_im]
  ring

theorem strip_pos {d m : ℕ} {s : (ℕ → ℂ) × (ℕ → ℂ)} (h : LInv d m s) : ∃ x : ℝ, 0 < x ∧ (strip d s).1 0 = x := by
  obtain ⟨x, hx, e⟩ := h.pos
  refine ⟨(x + ‖s.2 0‖ ^ 2 / x) / stripR s, by have := stripR_pos s; positivity, ?_⟩
  simp only [strip]
  rw [stripF, e, map_div₀, Complex.conj_ofReal, div_mul_eq_mul_div, mul_comm (conj _), Complex.mul_conj, Complex.normSq_eq_norm_sq]
  push_cast
  rfl

theorem strip_circ {d m : ℕ} {s : (ℕ → ℂ) × (ℕ → ℂ)} (h : LInv d m s) (z : ℂ) (hz : ‖z‖ = 1) :
    ‖ev d (strip d s).1 z‖ ^ 2 + ‖ev d (strip d s).2 z‖ ^ 2 = 1 := by
  have hc := h.circ z hz
  obtain ⟨e2, e1⟩ := ev_unstrip d h.ne z
  simp only [smul_eq_mul] at e1 e2
  rw [e1, e2, norm_mul, norm_mul, mul_pow, mul_pow, ← mul_add, add_comm, norm_mix] at hc
  have hr := stripR_pos s
  have n : ‖(stripR s : ℂ)⁻¹‖ ^ 2 * (1 + ‖stripF s‖ ^ 2) = 1 := by
    rw [norm_inv, Complex.norm_real, Real.norm_eq_abs, abs_of_pos hr, inv_pow, stripR, Real.sq_sqrt (by positivity)]
    field_simp
  rw [← mul_assoc, n, one_mul, norm_mul, hz, one_mul] at hc
  exact hc

theorem strip_step {d m : ℕ} {s : (ℕ → ℂ) × (ℕ → ℂ)} (h : LInv d (m + 1) s) : LInv d m (strip d s) := by
  refine ⟨by have := h.le; omega, ?_, strip_circ h, strip_pos h⟩
  intro j hj hjd
  have hne := h.ne
  constructor
  · simp only [strip]
    by_cases hj1 : j = m + 1
    · subst hj1
      have hcc : conj (s.1 0) ≠ 0 := by rwa [ne_eq, map_eq_zero]
      have top := top_coeff (m := m + 1) (a := s.1) (b := s.2) (by omega) (by
        intro z hz
        rw [← ev_shrink h.le (fun j h1 h2 => (h.sup j h1 h2).1), ← ev_shrink h.le (fun j h1 h2 => (h.sup j h1 h2).2)]
        exact h.circ z hz)
      have : s.1 (m + 1) + conj (stripF s) * s.2 (m + 1) = 0 := by
        rw [stripF, map_div₀]
        field_simp
        linear_combination top
      rw [this, zero_div]
    · rw [(h.sup j (by omega) hjd).1, (h.sup j (by omega) hjd).2, mul_zero, add_zero, zero_div]
  · simp only [strip, roll]
    by_cases hjd' : j = d
    · subst hjd'
      rw [Nat.mod_self, stripF, div_mul_cancel₀ _ hne, sub_self, zero_div]
    · rw [Nat.mod_eq_of_lt (by omega), (h.sup (j + 1) (by omega) (by omega)).1, (h.sup (j + 1) (by omega) (by omega)).2, mul_zero, sub_zero, zero_div]

/-- After the last layer nothing is left. -/
theorem strip_last {d : ℕ} {s : (ℕ → ℂ) × (ℕ → ℂ)} (h : LInv d 0 s) {R : Type} [Ring R] [Algebra ℂ R] (u : R) :
    ev d (strip d s).1 u = 1 ∧ ev d (strip d s).2 u = 0 := by
  have hne := h.ne
  have z1 : ∀ j, 0 < j → j ≤ d → (strip d s).1 j = 0 := by
    intro j hj hjd
    simp only [strip]
    rw [(h.sup j hj hjd).1, (h.sup j hj hjd).2, mul_zero, add_zero, zero_div]
  have z2 : ∀ j ≤ d, (strip d s).2 j = 0 := by
    intro j hjd
    simp only [strip, roll]
    by_cases hjd' : j = d
    · subst hjd'
      rw [Nat.mod_self, stripF, div_mul_cancel₀ _ hne, sub_self, zero_div]
    · rw [Nat.mod_eq_of_lt (by omega), (h.sup (j + 1) (by omega) (by omega)).1, (h.sup (j + 1) (by omega) (by omega)).2, mul_zero, sub_zero, zero_div]
  have e2 : ∀ {R : Type} [Ring R] [Algebra ℂ R] (u : R), ev d (strip d s).2 u = 0 := by
    intro R _ _ u
    rw [ev_congr d (c' := fun _ => 0) (fun k hk => z2 k hk), ev]
    simp
  have e1 : ∀ {R : Type} [Ring R] [Algebra ℂ R] (u : R), ev d (strip d s).1 u = (strip d s).1 0 • (1 : R) := by
    intro R _ _ u
    rw [ev_shrink (Nat.zero_le d) z1, ev]
    simp
  refine ⟨?_, e2 u⟩
  have hc := strip_circ h 1 (by simp)
  rw [e1, e2] at hc
  obtain ⟨x, hx, ex⟩ := strip_pos h
  rw [ex] at hc
  simp only [smul_eq_mul, mul_one, Complex.norm_real, Real.norm_eq_abs, sq_abs, norm_zero] at hc
  have hx1 : x = 1 := by nlinarith
  rw [e1, ex, hx1, Complex.ofReal_one, one_smul]

theorem strip_iter {d : ℕ} {s : (ℕ → ℂ) × (ℕ → ℂ)} (h : LInv d d s) : ∀ k ≤ d, LInv d (d - k) ((strip d)^[k] s)
  | 0, _ => h
  | k + 1, hk => by
    rw [Function.iterate_succ', Function.comp_apply]
    have := strip_iter h k (by omega)
    rw [show d - k = d - (k + 1) + 1 by omega] at this
    exact strip_step this

/-! ### Angles -/

/-- The cases in which the thresholds of `psi` do not round: the coefficient is imaginary, or it is real and not below the threshold, or its imaginary
part is not below the threshold. -/
def Sharp (F : ℂ) : Prop := F.re = 0 ∨ (thres ≤ ‖F‖ ∧ (F.im = 0 ∨ thres ≤ |F.im|))

theorem thres_pos : 0 < thres := by norm_num [thres]

theorem psi_imag {F : ℂ} (h : F.re = 0) : psi F = 0 := by
  rw [psi]
  by_cases h1 : ‖F‖ < thres
  · rw [if_pos h1]
  · rw [if_neg h1]
    have : ‖F‖ = |F.im| := by
      conv_lhs => rw [← Complex.re_add_im F, h]
      simp
    rw [if_neg (by rwa [← this]), h, zero_div, Real.arctan_zero, mul_zero]

/-- Rotating with psi makes the coefficient imaginary. -/
theorem psi_rot {F : ℂ} (h : Sharp F) : ∃ w : ℝ, -Complex.I * Complex.exp (-2 * Complex.I * psi F) * F = w := by
  rcases h with h | ⟨h1, h | h⟩
  · refine ⟨F.im, ?_⟩
    rw [psi_imag h]
    conv_lhs => rw [← Complex.re_add_im F, h]
    simp only [Complex.ofReal_zero, mul_zero, Complex.exp_zero]
    linear_combination (-(F.im : ℂ)) * Complex.I_mul_I
  · refine ⟨F.re, ?_⟩
    rw [psi, if_neg (not_lt.mpr h1), if_pos (by rw [h, abs_zero]; exact thres_pos)]
    have e : (-2 * Complex.I * ((-Real.pi / 4 : ℝ) : ℂ)) = Real.pi / 2 * Complex.I := by push_cast; ring
    rw [e, Complex.exp_pi_div_two_mul_I]
    conv_lhs => rw [← Complex.re_add_im F, h]
    simp only [Complex.ofReal_zero, zero_mul, add_zero]
    linear_combination (-(F.re : ℂ)) * Complex.I_mul_I
  · have him : F.im ≠ 0 := by
      intro h0; rw [h0, abs_zero] at h; exact absurd h (not_le.mpr thres_pos)
    rw [psi, if_neg (not_lt.mpr h1), if_neg (not_lt.mpr h)]
    have e : (-2 * Complex.I * ((-(1 / 2) * Real.arctan (F.re / F.im) : ℝ) : ℂ)) = (Real.arctan (F.re / F.im) : ℝ) * Complex.I := by push_cast; ring
    rw [e, Complex.exp_mul_I, ← Complex.ofReal_cos, ← Complex.ofReal_sin, Real.cos_arctan, Real.sin_arctan]
    set r := Real.sqrt (1 + (F.re / F.im) ^ 2) with hr
    have hrp : 0 < r := Real.sqrt_pos.mpr (by positivity)
    refine ⟨1 / r * F.im + F.re / F.im / r * F.re, ?_⟩
    have hi : (F.im : ℂ) ≠ 0 := by exact_mod_cast him
    have hrc : (r : ℂ) ≠ 0 := by exact_mod_cast hrp.ne'
    conv_lhs => rw [← Complex.re_add_im F]
    push_cast
    simp only [Complex.add_re, Complex.add_im, Complex.mul_re, Complex.mul_im, Complex.ofReal_re, Complex.ofReal_im, Complex.I_re, Complex.I_im]
    have key : ((F.re : ℂ) / F.im) * F.im = F.re := by field_simp
    generalize (F.re : ℂ) / F.im = t at key ⊢
    simp only [mul_zero, mul_one, zero_mul, add_zero, zero_add, sub_zero]
    rw [← key]
    field_simp
    linear_combination (-1 - Complex.I * t - t ^ 2) * Complex.I_mul_I

/-- The angles of a coefficient: cosine and sine of phi. -/
theorem phi_trig {F : ℂ} (h : Sharp F) :
    (Real.cos (phi F) : ℂ) = ((Real.sqrt (1 + ‖F‖ ^ 2))⁻¹ : ℝ)
      ∧ Complex.I * Complex.exp (2 * Complex.I * psi F) * Real.sin (phi F) = ((Real.sqrt (1 + ‖F‖ ^ 2))⁻¹ : ℝ) * F := by
  obtain ⟨w, hw⟩ := psi_rot h
  have hF : Complex.I * Complex.exp (2 * Complex.I * psi F) * w = F := by
    rw [← hw]
    have : Complex.exp (2 * Complex.I * psi F) * Complex.exp (-2 * Complex.I * psi F) = 1 := by
      rw [← Complex.exp_add, show 2 * Complex.I * (psi F : ℂ) + -2 * Complex.I * psi F = 0 by ring, Complex.exp_zero]
    linear_combination (-Complex.I * Complex.I * F) * this + (-F) * Complex.I_mul_I
  have hn : ‖F‖ ^ 2 = w ^ 2 := by
    rw [← hF, norm_mul, norm_mul, Complex.norm_I, one_mul, Complex.norm_real, Real.norm_eq_abs]
    rw [show 2 * Complex.I * (psi F : ℂ) = ((2 * psi F : ℝ) : ℂ) * Complex.I by push_cast; ring, Complex.norm_exp_ofReal_mul_I, one_mul, sq_abs]
  have hp : phi F = Real.arctan w := by
    rw [phi, hw, ← Complex.ofReal_arctan, Complex.ofReal_re]
  rw [hp, hn, Real.cos_arctan, Real.sin_arctan]
  refine ⟨by rw [one_div], ?_⟩
  conv_rhs => rw [← hF]
  push_cast
  ring

end Verif.Blk
