import Verif.Blk.Fejer
import Verif.Props.Inversion
import Mathlib.Analysis.Complex.ExponentialBounds

/-!
# Existence of the completions

The theorems of C104 and C106 to C111 are about every completion with the defining property. Here such completions are shown to exist for every real
polynomial, so that none of the theorems is about an empty set of inputs.
-/

namespace Verif.Props

open Matrix Polynomial Verif.Blk
open scoped ComplexConjugate
open scoped Matrix.Norms.L2Operator

/-- The real polynomial with the given coefficients. -/
noncomputable def toPolyR (d : ℕ) (c : ℕ → ℝ) : ℝ[X] := ∑ k ∈ Finset.range (d + 1), C (c k) * X ^ k

theorem toPolyR_aeval (d : ℕ) (c : ℕ → ℝ) (z : ℂ) : aeval z (toPolyR d c) = ev d (fun k => (c k : ℂ)) z := by
  rw [toPolyR, ev, map_sum]
  refine Finset.sum_congr rfl fun k _ => ?_
  rw [map_mul, aeval_C, map_pow, aeval_X, smul_eq_mul, Complex.coe_algebraMap]

theorem toPolyR_degree (d : ℕ) (c : ℕ → ℝ) : (toPolyR d c).natDegree ≤ d :=
  natDegree_sum_le_of_forall_le _ _ fun k hk => (natDegree_C_mul_X_pow_le _ _).trans (by have := Finset.mem_range.1 hk; omega)

/-- Every real polynomial has a completion, for every bound M of its modulus on the circle. -/
theorem completion_exists (d : ℕ) (c : ℕ → ℝ) {M : ℝ} (hM : 0 < M) (h : ∀ z : ℂ, ‖z‖ = 1 → ‖ev d (fun k => (c k : ℂ)) z‖ ≤ M) :
    ∃ q : ℕ → ℝ, Completes d (fun k => q k) (scaled M (fun k => c k)) := by
  set P := C (0.99 / M) * toPolyR d c with hP
  have hPd : P.natDegree ≤ d := (natDegree_C_mul_le _ _).trans (toPolyR_degree d c)
  set S := X ^ d - P * reflect d P with hS
  have hSd : S.natDegree ≤ 2 * d := by
    refine (natDegree_sub_le _ _).trans (max_le ?_ ?_)
    · rw [natDegree_X_pow]; omega
    · refine natDegree_mul_le.trans ?_
      have := natDegree_reflect_le (N := d) (p := P)
      have : max d P.natDegree = d := max_eq_left hPd
      omega
  have hSz : ∀ z : ℂ, ‖z‖ = 1 → aeval z S = ((1 - ‖aeval z P‖ ^ 2 : ℝ) : ℂ) * z ^ d := by
    intro z hz
    obtain ⟨h1, h2, h3⟩ := norm_one_inv hz
    rw [hS, map_sub, map_pow, aeval_X, map_mul, aeval_reflect hPd h2, h1, aeval_conj', Complex.ofReal_sub, Complex.ofReal_one, ← Complex.normSq_eq_norm_sq, ← Complex.mul_conj]
    ring
  have hPn : ∀ z : ℂ, ‖z‖ = 1 → ‖aeval z P‖ ≤ 0.99 := by
    intro z hz
    rw [hP, map_mul, aeval_C, toPolyR_aeval, norm_mul, Complex.coe_algebraMap, Complex.norm_real, Real.norm_eq_abs, abs_of_pos (by positivity)]
    have := h z hz
    rw [div_mul_eq_mul_div, div_le_iff₀ hM]
    gcongr
  obtain ⟨q, q1, q2, q3⟩ := fejer_riesz d S hSd (by
    intro z hz
    refine ⟨1 - ‖aeval z P‖ ^ 2, ?_, hSz z hz⟩
    have := hPn z hz
    have := norm_nonneg (aeval z P)
    nlinarith)
  refine ⟨fun k => q.coeff k, ?_, q.coeff 0, q2, rfl⟩
  intro z hz
  have e1 : ev d (fun k => ((q.coeff k : ℝ) : ℂ)) z = aeval z q := by
    rw [aeval_eq_sum_range' (Nat.lt_succ_of_le q1), ev]
    refine Finset.sum_congr rfl fun k _ => ?_
    rw [Complex.coe_smul]
  have e2 : ‖ev d (scaled M (fun k => (c k : ℂ))) z‖ = ‖aeval z P‖ := by
    rw [ev_scaled, norm_smul, hP, map_mul, aeval_C, toPolyR_aeval, norm_mul, norm_mul, norm_neg, Complex.norm_I, one_mul, Complex.coe_algebraMap]
  have e3 := q3 z hz
  rw [hSz z hz] at e3
  have hz0 : z ^ d ≠ 0 := pow_ne_zero _ (norm_one_inv hz).2.1
  have e4 := mul_right_cancel₀ hz0 e3
  have e5 : 1 - ‖aeval z P‖ ^ 2 = ‖aeval z q‖ ^ 2 := by exact_mod_cast e4
  rw [e1, e2, ← e5]; ring

/-- For a polynomial of one parity there is an even completion. -/
theorem completion_exists_parity (e o : ℕ) (ho : o ≤ 1) (c : ℕ → ℝ) (hc : ∀ k ≤ 2 * e + o, k % 2 ≠ o % 2 → c k = 0) {M : ℝ} (hM : 0 < M)
    (h : ∀ z : ℂ, ‖z‖ = 1 → ‖ev (2 * e + o) (fun k => (c k : ℂ)) z‖ ≤ M) :
    ∃ q : ℕ → ℝ, (∀ k ≤ 2 * e + o, k % 2 = 1 → q k = 0) ∧ Completes (2 * e + o) (fun k => q k) (scaled M (fun k => c k)) := by
  -- polynomials of one parity
  have spread : ∀ (w : ℕ → ℂ) (z : ℂ), (∀ k ≤ 2 * e + o, k % 2 ≠ o % 2 → w k = 0) → ev (2 * e + o) w z = z ^ o * ev e (half o w) (z ^ 2) := by
    intro w z hw
    rw [ev, ev, Finset.mul_sum]
    have : ∀ m ≤ e, ∑ k ∈ Finset.range (2 * m + o + 1), w k • z ^ k = ∑ k ∈ Finset.range (m + 1), z ^ o * half o w k • (z ^ 2) ^ k := by
      intro m hm
      induction m with
      | zero =>
        rcases Nat.le_one_iff_eq_zero_or_eq_one.1 ho with rfl | rfl
        · simp [half]
        · rw [show 2 * 0 + 1 + 1 = 2 by norm_num, Finset.sum_range_succ, Finset.sum_range_one, hw 0 (by omega) (by norm_num)]
          simp [half, mul_comm]
      | succ m ih =>
        rw [show 2 * (m + 1) + o + 1 = 2 * m + o + 1 + 1 + 1 by ring, Finset.sum_range_succ, Finset.sum_range_succ, ih (by omega), Finset.sum_range_succ _ (m + 1),
          hw (2 * m + o + 1) (by omega) (by omega), zero_smul, add_zero]
        congr 1
        rw [half, show 2 * (m + 1) + o = 2 * m + o + 1 + 1 by ring, smul_eq_mul, smul_eq_mul]
        ring
    exact this e le_rfl
  obtain ⟨q, hq1, x, x0, hx⟩ := completion_exists e (fun k => c (2 * k + o)) hM (by
    intro w hw
    obtain ⟨z, hz⟩ := IsAlgClosed.exists_pow_nat_eq w (n := 2) (by norm_num)
    have hzn : ‖z‖ = 1 := by
      have := congrArg norm hz
      rw [norm_pow, hw] at this
      exact (pow_eq_one_iff_of_nonneg (norm_nonneg z) two_ne_zero).1 this
    have := h z hzn
    rw [spread _ z (fun k hk hk2 => by rw [hc k hk hk2]; simp), norm_mul, norm_pow, hzn, one_pow, one_mul, hz] at this
    exact this)
  refine ⟨fun k => if k % 2 = 0 then q (k / 2) else 0, fun k _ hk => by simp [hk], ?_, x, x0, by simpa using hx⟩
  intro z hz
  have hz2 : ‖z ^ 2‖ = 1 := by rw [norm_pow, hz, one_pow]
  have := hq1 (z ^ 2) hz2
  have e1 : ev (2 * e + o) (scaled M (fun k => (c k : ℂ))) z = z ^ o * ev e (scaled M (fun k => ((c (2 * k + o) : ℝ) : ℂ))) (z ^ 2) := by
    rw [spread _ z (fun k hk hk2 => by simp [scaled, hc k hk hk2])]
    rfl
  have e2 : ev (2 * e + o) (fun k => ((if k % 2 = 0 then q (k / 2) else 0 : ℝ) : ℂ)) z = ev e (fun k => (q k : ℂ)) (z ^ 2) := by
    rw [ev, ev]
    have hs : ∀ m, ∑ k ∈ Finset.range (2 * m + 1), ((if k % 2 = 0 then q (k / 2) else 0 : ℝ) : ℂ) • z ^ k = ∑ k ∈ Finset.range (m + 1), (q k : ℂ) • (z ^ 2) ^ k := by
      intro m
      induction m with
      | zero => simp
      | succ m ih =>
        rw [show 2 * (m + 1) + 1 = 2 * m + 1 + 1 + 1 by ring, Finset.sum_range_succ, Finset.sum_range_succ, ih, Finset.sum_range_succ _ (m + 1)]
        rw [if_neg (by omega), if_pos (by omega), show (2 * m + 1 + 1) / 2 = m + 1 by omega, ← pow_mul, show 2 * (m + 1) = 2 * m + 1 + 1 by ring]
        simp
    rcases Nat.le_one_iff_eq_zero_or_eq_one.1 ho with rfl | rfl
    · exact hs e
    · rw [Finset.sum_range_succ, if_neg (by omega), Complex.ofReal_zero, zero_smul, add_zero]; exact hs e
  rw [e1, e2, norm_mul, norm_pow, hz, one_pow, one_mul]
  exact this

theorem ev_bound (d : ℕ) (c : ℕ → ℝ) {z : ℂ} (hz : ‖z‖ = 1) : ‖ev d (fun k => (c k : ℂ)) z‖ ≤ 1 + ∑ k ∈ Finset.range (d + 1), |c k| := by
  rw [ev]
  refine (norm_sum_le _ _).trans ?_
  have : ∀ k ∈ Finset.range (d + 1), ‖((c k : ℝ) : ℂ) • z ^ k‖ = |c k| := by
    intro k _; rw [norm_smul, norm_pow, hz, one_pow, mul_one, Complex.norm_real, Real.norm_eq_abs]
  rw [Finset.sum_congr rfl this]
  linarith

/-- The completions needed for the inversion exist. -/
theorem invComp_exists {n : Type} [Fintype n] [DecidableEq n] (B : BE n) (eps kappa : ℝ) (method : InvMethod) : ∃ M : ℝ, 0 < M ∧ ∃ q : ℕ → ℝ, InvComp B eps kappa method M q := by
  set m := (cksParams eps kappa none).1 with hm
  set p := invCheb (cksParams eps kappa none).2 with hp
  have pos : ∀ (d : ℕ) (c : ℕ → ℝ), 0 < 1 + ∑ k ∈ Finset.range (d + 1), |c k| := fun d c => by
    have := Finset.sum_nonneg (s := Finset.range (d + 1)) (f := fun k => |c k|) fun k _ => abs_nonneg _
    linarith
  cases method with
  | qet =>
    have hl : 2 * (m + 1) - 1 = 2 * m + 1 := by omega
    obtain ⟨q, h1, h2⟩ := completion_exists_parity m 1 le_rfl (chebCoeffs (2 * (m + 1) - 1 + 1) B.alpha .cheb false p) (fun k _ hk => by
      show p k = 0
      rw [hp, invCheb, if_neg (by omega)]) (pos _ _) (fun z hz => ev_bound _ _ hz)
    refine ⟨1 + ∑ k ∈ Finset.range (2 * m + 1 + 1), |chebCoeffs (2 * (m + 1) - 1 + 1) B.alpha .cheb false p k|, pos _ _, q, ?_⟩
    show (∀ k ≤ 2 * (m + 1) - 1, _) ∧ Completes (2 * (m + 1) - 1) _ _
    rw [hl] at h2 ⊢
    exact ⟨h1, h2⟩
  | qsvt =>
    obtain ⟨q, h⟩ := completion_exists (analyticDeg (2 * (m + 1)) false) (analytic (2 * (m + 1)) false (chebCoeffs (2 * (m + 1)) B.alpha .cheb false p)) (pos _ _) (fun z hz => ev_bound _ _ hz)
    exact ⟨_, pos _ _, q, h⟩
  | gqsvt =>
    obtain ⟨q, h⟩ := completion_exists (2 * (m + 1) - 1) (chebCoeffs (2 * (m + 1) - 1 + 1) B.alpha .cheb false p) (pos _ _) (fun z hz => ev_bound _ _ hz)
    exact ⟨_, pos _ _, q, h⟩

/-- The inverse of the sample A = 3 (alpha = 5) to precision 1/100. -/
example : ∃ M : ℝ, 0 < M ∧ ∃ q : ℕ → ℝ, ‖(sample.inversion 0.01 (5 / 3) .qsvt M (fun k => q k)).enc - sample.enc⁻¹‖ ≤ 2 * 0.01 / 5 := by
  obtain ⟨M, hM, q, hq⟩ := invComp_exists sample 0.01 (5 / 3) .qsvt
  have hinv : sample.enc⁻¹ = ((1 / 3 : ℝ) : ℂ) • (1 : Matrix Unit Unit ℂ) := by
    apply inv_eq_left_inv
    rw [sample_enc, Matrix.smul_mul, Matrix.one_mul, smul_smul]
    norm_num
  have hdet : IsUnit sample.enc.det := by rw [sample_enc]; simp
  refine ⟨M, hM, q, ?_⟩
  have h3 : Real.exp 3 < 27.1 := by
    have h := Real.exp_one_lt_d9
    have e : Real.exp 3 = Real.exp 1 ^ 3 := by rw [← Real.exp_nat_mul]; norm_num
    rw [e]
    calc Real.exp 1 ^ 3 < 2.7182818286 ^ 3 := by gcongr
      _ < 27.1 := by norm_num
  refine inversion_error sample_valid (by norm_num [sample]) (by norm_num) (by norm_num) (by linarith) hdet ?_ (by simp) hM hq
  rw [hinv, show ((1 / 3 : ℝ) : ℂ) • (1 : Matrix Unit Unit ℂ) = diagonal (fun _ => ((1 / 3 : ℝ) : ℂ)) by
    rw [← diagonal_one, ← diagonal_smul]; congr 1; funext i; simp, l2_opNorm_diagonal, pi_norm_const, Complex.norm_real, Real.norm_eq_abs, abs_of_pos (by norm_num)]
  norm_num [sample]

end Verif.Props
