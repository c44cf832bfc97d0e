import Verif.Blk.CksCirc
import Verif.Props.Inversion
import Mathlib.Analysis.Complex.ExponentialBounds

/-!
# Property C113: the circuit of Childs, Kothari and Somma

The specification is Mathlib's `aeval` (Chebyshev polynomials of the encoded matrix), the inverse of a matrix and the operator norm.
-/

namespace Verif.Props

open Matrix Polynomial Verif.Blk
open Polynomial.Chebyshev (T)
open scoped Matrix.Norms.L2Operator

variable {n : Type} [Fintype n] [DecidableEq n]

/-- `unary_prep` prepares the unary encoding: the state with k+1 ones has the amplitude sqrt(c_k / sum of c), all other states have amplitude 0. -/
theorem unary_prep_state {coeffs : ℕ → ℝ} {j : ℕ} (hj : 0 < j) (hp : ∀ i < j, 0 < coeffs i) (hl : 0 ≤ coeffs j) :
    ∃ th, unaryAngles coeffs j = some th ∧ ∀ x : Fin (j + 1) → Bool, unaryPrep (j + 1) th x (fun _ => false)
      = ((∑ k ∈ Finset.range (j + 1), if x = (fun i : Fin (j + 1) => decide (i.1 ≤ k)) then Real.sqrt (coeffs k / ∑ k ∈ Finset.range (j + 1), coeffs k) else 0 : ℝ) : ℂ) := by
  obtain ⟨th, h1, h2⟩ := unaryAngles_eq hj hp
  refine ⟨th, h1, fun x => ?_⟩
  rw [unaryPrep_col hj, Complex.ofReal_sum]
  refine Finset.sum_congr rfl fun k hk => ?_
  have hk := Finset.mem_range.1 hk
  have hc : 0 ≤ coeffs k := by
    rcases Nat.lt_or_eq_of_le (Nat.lt_succ_iff.1 hk) with h | h
    · exact (hp k h).le
    · rw [h]; exact hl
  rw [h2 k (by omega) hl, ← Real.sqrt_div hc]
  change (if x = unary (j + 1) k then _ else _) = (((if x = unary (j + 1) k then _ else _) : ℝ) : ℂ)
  split_ifs <;> simp

/-- Three equal coefficients: the three unary states are equally likely. -/
example : ∃ th, unaryAngles (fun _ => 5) 2 = some th ∧ unaryPrep 3 th (fun i => decide (i.1 ≤ 1)) (fun _ => false) = ((Real.sqrt (1 / 3) : ℝ) : ℂ) := by
  obtain ⟨th, h1, h2⟩ := unary_prep_state (coeffs := fun _ => 5) (j := 2) (by norm_num) (fun _ _ => by norm_num) (by norm_num)
  refine ⟨th, h1, ?_⟩
  rw [h2, Finset.sum_range_succ, Finset.sum_range_succ, Finset.sum_range_one, if_neg, if_pos rfl, if_neg]
  · norm_num
  · intro h; have := congrFun h 2; simp at this
  · intro h; have := congrFun h 1; simp at this

theorem cksCoeffs_pos {b i : ℕ} (h : i < b) : 0 < cksCoeffs b i := by
  rw [cksCoeffs, binomSf_step h]
  have h1 : 0 < binW b (i + 1) := by
    rw [binW]
    have := Nat.choose_pos (n := 2 * b) (k := b + (i + 1)) (by omega)
    positivity
  have := binomSf_nonneg b (i + 1)
  linarith

/-- The combination of the circuit, for any encoded matrix: products with odd Chebyshev polynomials. -/
theorem cks_combination {B : BE n} (hB : B.Valid) (ha : 0 < B.alpha) {eps kappa : ℝ} {mb : Option ℝ} (h1 : 0 < (cksParams eps kappa mb).1) (h2 : (cksParams eps kappa mb).1 ≤ (cksParams eps kappa mb).2) :
    ∃ C, B.cks eps kappa mb = some C ∧ C.Valid ∧ C.enc = ((1 / B.alpha : ℝ) : ℂ) • ∑ k ∈ Finset.range ((cksParams eps kappa mb).1 + 1),
      (((-1) ^ k * cksCoeffs (cksParams eps kappa mb).2 k : ℝ) : ℂ) • (blk B.zero B.U * aeval ((blk B.zero B.U)ᴴ * blk B.zero B.U) (oddPart k)) := by
  set j := (cksParams eps kappa mb).1 with hj
  set b := (cksParams eps kappa mb).2 with hb
  have hp : ∀ i < j, 0 < cksCoeffs b i := fun i hi => cksCoeffs_pos (by omega)
  have hnn : ∀ i, 0 ≤ cksCoeffs b i := fun i => by have := binomSf_nonneg b i; rw [cksCoeffs]; linarith
  obtain ⟨th, e1, e2⟩ := unaryAngles_eq h1 hp
  have hS : 0 < ∑ k ∈ Finset.range (j + 1), cksCoeffs b k := by
    rw [Finset.sum_range_succ']
    have := Finset.sum_nonneg (s := Finset.range j) (f := fun k => cksCoeffs b (k + 1)) fun k _ => hnn _
    linarith [hp 0 h1]
  have habs : ∑ k ∈ Finset.range (j + 1), |cksCoeffs b k| = ∑ k ∈ Finset.range (j + 1), cksCoeffs b k :=
    Finset.sum_congr rfl fun k _ => abs_of_nonneg (hnn k)
  have hC : B.cks eps kappa mb = some
    { anc := (Fin (j + 1) → Bool) × B.anc, zero := (fun _ => false, B.zero), ancs := 1 + B.ancs,
      U := (regC B.anc n (unaryPrep (j + 1) th))ᴴ * (cksSelect j B.zero B.U * regC B.anc n (unaryPrep (j + 1) th)),
      alpha := (∑ k ∈ Finset.range (j + 1), |cksCoeffs b k|) / B.alpha, herm := false } := by
    unfold BE.cks
    change (if j = 0 then none else Option.map _ (unaryAngles (cksCoeffs b) j)) = _
    rw [if_neg h1.ne', e1, Option.map_some]
  refine ⟨_, hC, ⟨?_, fun h => by simp at h, ?_⟩, ?_⟩
  · exact ((unaryPrep_unitary h1 th).regC.ct).mul ((cksSelect_unitary j B.zero hB.unitary).mul (unaryPrep_unitary h1 th).regC)
  · simp only; rw [habs]; positivity
  · have he : ∀ C : BE n, C.enc = (C.alpha : ℂ) • blk C.zero C.U := by intro C; ext i j; simp [BE.enc, blk]
    rw [he]
    simp only
    rw [habs, cksSelect, cksSelect_eq j B.zero B.U j le_rfl, lcu_blk]
    have step : ∀ x : Fin (j + 1) → Bool, ((‖unaryPrep (j + 1) th x (fun _ => false)‖ ^ 2 : ℝ) : ℂ)
        = ∑ l ∈ Finset.range (j + 1), if x = unary (j + 1) l then ((cksCoeffs b l / ∑ k ∈ Finset.range (j + 1), cksCoeffs b k : ℝ) : ℂ) else 0 := by
      intro x
      rw [unaryPrep_col h1]
      by_cases hx : ∃ l < j + 1, x = unary (j + 1) l
      · obtain ⟨l, hl, rfl⟩ := hx
        have hne : ∀ k ∈ Finset.range (j + 1), k ≠ l → ¬ unary (j + 1) l = unary (j + 1) k := fun k hk hkl e => hkl (unary_inj hl (Finset.mem_range.1 hk) e).symm
        rw [Finset.sum_eq_single l (fun k hk hkl => if_neg (hne k hk hkl)) (fun h => absurd (Finset.mem_range.2 hl) h), if_pos rfl]
        rw [Finset.sum_eq_single l (fun k hk hkl => if_neg (hne k hk hkl)) (fun h => absurd (Finset.mem_range.2 hl) h), if_pos rfl]
        rw [e2 l (by omega) (hnn j), Complex.norm_real, Real.norm_eq_abs, sq_abs, div_pow, Real.sq_sqrt (hnn l), Real.sq_sqrt hS.le]
      · have hne : ∀ l ∈ Finset.range (j + 1), ¬ x = unary (j + 1) l := fun l hl e => hx ⟨l, Finset.mem_range.1 hl, e⟩
        rw [Finset.sum_eq_zero fun l hl => if_neg (hne l hl), Finset.sum_eq_zero fun l hl => if_neg (hne l hl)]
        simp
    simp only [step, Finset.sum_smul]
    rw [Finset.sum_comm, Finset.smul_sum, Finset.smul_sum]
    refine Finset.sum_congr rfl fun l hl => ?_
    have hl := Finset.mem_range.1 hl
    rw [Finset.sum_eq_single (unary (j + 1) l)]
    · rw [if_pos rfl, select_unary j B.zero B.U j le_rfl, min_eq_right (by omega)]
      have hs : ∀ (c : ℂ) (M : Matrix (B.anc × n) (B.anc × n) ℂ), blk B.zero (c • M) = c • blk B.zero M := fun c M => rfl
      rw [hs, blk_U_step B.zero hB.unitary, smul_smul, smul_smul, smul_smul]
      congr 1
      have h0 : ((∑ k ∈ Finset.range (j + 1), cksCoeffs b k : ℝ) : ℂ) ≠ 0 := Complex.ofReal_ne_zero.2 hS.ne'
      have h3 : (B.alpha : ℂ) ≠ 0 := Complex.ofReal_ne_zero.2 ha.ne'
      rw [Complex.ofReal_div, Complex.ofReal_div, Complex.ofReal_div]
      push_cast at h0 ⊢
      field_simp
    · intro x _ hx; rw [if_neg hx, zero_smul]
    · simp

/-- For a Hermitian matrix the circuit encodes the polynomial of the approximation, divided by alpha. -/
theorem cks_encodes {B : BE n} (hB : B.Valid) (ha : 0 < B.alpha) (hH : B.encᴴ = B.enc) {eps kappa : ℝ} {mb : Option ℝ} (h1 : 0 < (cksParams eps kappa mb).1) (h2 : (cksParams eps kappa mb).1 ≤ (cksParams eps kappa mb).2) :
    ∃ C, B.cks eps kappa mb = some C ∧ C.Valid ∧ C.enc = ((1 / B.alpha : ℝ) : ℂ) •
      ∑ k ∈ Finset.range ((cksParams eps kappa mb).1 + 1), (((-1) ^ k * cksCoeffs (cksParams eps kappa mb).2 k : ℝ) : ℂ) • aeval (((1 / B.alpha : ℝ) : ℂ) • B.enc) (T ℂ (2 * k + 1 : ℤ)) := by
  obtain ⟨C, e1, e2, e3⟩ := cks_combination hB ha h1 h2
  refine ⟨C, e1, e2, ?_⟩
  rw [e3]
  have hs : ((1 / B.alpha : ℝ) : ℂ) • B.enc = blk B.zero B.U := by
    ext i j
    have h3 : (B.alpha : ℂ) ≠ 0 := Complex.ofReal_ne_zero.2 ha.ne'
    simp only [BE.enc, Matrix.smul_apply, smul_eq_mul, blk]
    push_cast; field_simp
  have hbh : (blk B.zero B.U)ᴴ = blk B.zero B.U := by
    rw [← hs, conjTranspose_smul, hH]; simp
  refine congrArg _ (Finset.sum_congr rfl fun k _ => ?_)
  rw [hs, (oddPart_T k).1, map_mul, aeval_X, aeval_comp, map_pow, aeval_X, hbh, sq]

/-- When the parameters of the code give well defined angles. -/
theorem cks_params_ok {eps kappa : ℝ} (he : 0 < eps) (hk : 2 ≤ kappa) (hL : Real.exp 3 * eps ≤ kappa) : 0 < (cksParams eps kappa none).1 ∧ (cksParams eps kappa none).1 ≤ (cksParams eps kappa none).2 := by
  set L := Real.log (kappa / eps) with hLd
  have k0 : 0 < kappa := by linarith
  have hL3 : 3 ≤ L := by
    rw [hLd, Real.le_log_iff_exp_le (by positivity), le_div_iff₀ he]; exact hL
  set beta := kappa ^ 2 * L with hbeta
  have hb : 12 ≤ beta := by nlinarith
  have ex : Real.log (4 * beta / eps) = L + Real.log (4 * kappa * L) := by
    rw [hLd, ← Real.log_mul (by positivity) (by positivity)]
    congr 1
    rw [hbeta]; ring
  have up : Real.log (4 * kappa * L) ≤ (kappa ^ 2 - 1) * L := by
    have l1 : Real.log (4 * kappa * L) = Real.log 4 + Real.log kappa + Real.log L := by
      rw [Real.log_mul (by positivity) (by positivity), Real.log_mul (by norm_num) (by positivity)]
    have l2 := Real.log_le_sub_one_of_pos k0
    have l3 := Real.log_le_sub_one_of_pos (show 0 < L by linarith)
    have l4 := Real.log_le_sub_one_of_pos (show (0 : ℝ) < 4 by norm_num)
    rw [l1]
    have k4 : 4 ≤ kappa ^ 2 := by nlinarith
    nlinarith [mul_nonneg (show 0 ≤ kappa ^ 2 - 2 by linarith) (show 0 ≤ L - 3 by linarith)]
  have lo : 3 ≤ Real.log (4 * beta / eps) := by
    rw [ex]
    have : 0 ≤ Real.log (4 * kappa * L) := Real.log_nonneg (by nlinarith)
    linarith
  have ej : (cksParams eps kappa none).1 = ⌊Real.sqrt (beta * Real.log (4 * beta / eps))⌋₊ := rfl
  have eb : (cksParams eps kappa none).2 = ⌊beta⌋₊ := rfl
  rw [ej, eb]
  constructor
  · refine Nat.floor_pos.2 ?_
    rw [show (1 : ℝ) = Real.sqrt 1 by simp]
    exact Real.sqrt_le_sqrt (by nlinarith)
  · refine Nat.floor_le_floor ?_
    rw [Real.sqrt_le_left (by linarith)]
    rw [ex, sq]
    refine mul_le_mul_of_nonneg_left ?_ (by linarith)
    rw [hbeta]; linarith

/-- `CKS(A, eps, kappa)` for kappa at least 2: for a Hermitian matrix whose inverse has norm at most kappa/alpha, the result exists and its encoded
matrix differs from the inverse by at most 2 eps/alpha. -/
theorem cks_error {B : BE n} (hB : B.Valid) (ha : 0 < B.alpha) (hH : B.encᴴ = B.enc) {eps kappa : ℝ} (he : 0 < eps) (hk : 2 ≤ kappa) (hL : Real.exp 3 * eps ≤ kappa)
    (hdet : IsUnit B.enc.det) (hn : ‖B.enc⁻¹‖ ≤ kappa / B.alpha) : ∃ C, B.cks eps kappa none = some C ∧ C.Valid ∧ ‖C.enc - B.enc⁻¹‖ ≤ 2 * eps / B.alpha := by
  obtain ⟨p1, p2⟩ := cks_params_ok he hk hL
  obtain ⟨C, e1, e2, e3⟩ := cks_encodes hB ha hH p1 p2
  refine ⟨C, e1, e2, ?_⟩
  obtain ⟨h, hh⟩ := invCheb_odd (cksParams eps kappa none).2 ((cksParams eps kappa none).1 + 1)
  have hL' : 3 ≤ Real.log (kappa / eps) := by
    rw [Real.le_log_iff_exp_le (by positivity), le_div_iff₀ he]; exact hL
  have key := odd_norm ha (by linarith) hdet hn (norm_enc hB ha) (e := 2 * eps) (h := h) (by positivity) fun x h1 h2 => by
    have hx : 0 < x := lt_of_lt_of_le (by positivity) h1
    rw [← hh]
    exact invCheb_error (by linarith) he hL' (by rw [abs_of_pos hx]; exact h1) (by rw [abs_of_pos hx]; exact h2)
  have heq : C.enc = ((1 / B.alpha : ℝ) : ℂ) • (((1 / B.alpha : ℝ) : ℂ) • (B.encᴴ * aeval ((((1 / B.alpha) ^ 2 : ℝ) : ℂ) • (B.enc * B.encᴴ)) h)) := by
    rw [e3]
    congr 1
    set s : ℂ := ((1 / B.alpha : ℝ) : ℂ) with hs
    have r : aeval (s • B.enc) (X * h.comp (X ^ 2)) = s • (B.encᴴ * aeval ((((1 / B.alpha) ^ 2 : ℝ) : ℂ) • (B.enc * B.encᴴ)) h) := by
      rw [map_mul, aeval_X, aeval_comp, map_pow, aeval_X, hH, Matrix.smul_mul, sq, Matrix.smul_mul, Matrix.mul_smul, smul_smul]
      rw [Complex.ofReal_pow, ← hs, sq]
    rw [← r, ← hh, chebPoly, map_sum]
    have hTe : ∀ k : ℤ, aeval (s • B.enc) (T ℝ k) = aeval (s • B.enc) (T ℂ k) := by
      intro k
      rw [← aeval_map_algebraMap ℂ, Chebyshev.map_T]
    generalize (cksParams eps kappa none).1 + 1 = m
    induction m with
    | zero => simp
    | succ m ih =>
      rw [show 2 * (m + 1) = 2 * m + 1 + 1 by ring, Finset.sum_range_succ, Finset.sum_range_succ, Finset.sum_range_succ, ih]
      rw [show invCheb (cksParams eps kappa none).2 (2 * m) = 0 by simp [invCheb],
        show invCheb (cksParams eps kappa none).2 (2 * m + 1) = cksCoeffs (cksParams eps kappa none).2 m * (-1) ^ m by
          rw [invCheb, if_pos (by omega), show (2 * m + 1) / 2 = m by omega]]
      rw [C_0, zero_mul, map_zero, add_zero, map_mul, aeval_C, hTe, Algebra.algebraMap_eq_smul_one, Matrix.smul_mul, Matrix.one_mul, Complex.coe_smul ((-1) ^ m * cksCoeffs _ m), mul_comm (cksCoeffs _ m)]
      push_cast
      rfl
  rw [heq]
  exact key

/-- If j0 exceeds beta the last two coefficients vanish and the angles are NaN. -/
theorem cks_nan (B : BE n) {eps kappa : ℝ} {mb : Option ℝ} (h : (cksParams eps kappa mb).2 < (cksParams eps kappa mb).1) : B.cks eps kappa mb = none := by
  unfold BE.cks
  simp only
  rw [if_neg (by omega), unaryAngles_nan (by omega), Option.map_none]
  · rw [cksCoeffs, binomSf_big (by omega), mul_zero]
  · rw [cksCoeffs, binomSf_big (by omega), mul_zero]

/-- Well conditioned matrices (kappa = 1): for every precision of at most 1/100 the angles are NaN. -/
theorem cks_nan_witness (B : BE n) {eps : ℝ} (he : 0 < eps) (h : eps ≤ 1 / 100) : B.cks eps 1 none = none := by
  apply cks_nan
  set L := Real.log (1 / eps) with hL
  have hL4 : 4 ≤ L := by
    rw [hL, Real.le_log_iff_exp_le (by positivity), le_div_iff₀ he]
    have h1 := Real.exp_one_lt_d9
    have e : Real.exp 4 = Real.exp 1 ^ 4 := by rw [← Real.exp_nat_mul]; norm_num
    have : Real.exp 4 ≤ 60 := by
      rw [e]
      calc Real.exp 1 ^ 4 ≤ 2.7182818286 ^ 4 := by gcongr
        _ ≤ 60 := by norm_num
    nlinarith
  have ej : (cksParams eps 1 none).1 = ⌊Real.sqrt (L * Real.log (4 * L / eps))⌋₊ := by simp [cksParams, cksBeta, hL]
  have eb : (cksParams eps 1 none).2 = ⌊L⌋₊ := by simp [cksParams, cksBeta, hL]
  rw [ej, eb]
  have ex : Real.log (4 * L / eps) = L + Real.log (4 * L) := by
    rw [hL, ← Real.log_mul (by positivity) (by positivity)]
    congr 1
    ring
  have l4 : 9 / 4 ≤ Real.log (4 * L) := by
    rw [Real.le_log_iff_exp_le (by positivity)]
    have h1 := Real.exp_one_lt_d9
    have e : Real.exp (9 / 4) ≤ 16 := by
      have : Real.exp (9 / 4) ≤ Real.exp 1 ^ 3 := by rw [← Real.exp_nat_mul]; exact Real.exp_le_exp.2 (by norm_num)
      have h4 : Real.exp (9 / 4) ^ 4 ≤ 16 ^ 4 := by
        have : Real.exp (9 / 4) ^ 4 = Real.exp 1 ^ 9 := by rw [← Real.exp_nat_mul, ← Real.exp_nat_mul]; norm_num
        rw [this]
        calc Real.exp 1 ^ 9 ≤ 2.7182818286 ^ 9 := by gcongr
          _ ≤ 16 ^ 4 := by norm_num
      exact le_of_pow_le_pow_left₀ (by norm_num) (by norm_num) h4
    linarith
  refine Nat.lt_of_succ_le (Nat.le_floor ?_)
  have hf : (⌊L⌋₊ : ℝ) ≤ L := Nat.floor_le (by linarith)
  push_cast
  refine Real.le_sqrt_of_sq_le ?_
  rw [ex]
  nlinarith [Nat.cast_nonneg (α := ℝ) ⌊L⌋₊]

/-- The inverse of the sample A = 3 (alpha = 5) with kappa = 2. -/
example : ∃ C, sample.cks 0.01 2 none = some C ∧ C.Valid ∧ ‖C.enc - ((1 / 3 : ℝ) : ℂ) • (1 : Matrix Unit Unit ℂ)‖ ≤ 2 * 0.01 / 5 := by
  have hinv : sample.enc⁻¹ = ((1 / 3 : ℝ) : ℂ) • (1 : Matrix Unit Unit ℂ) := by
    apply inv_eq_left_inv
    rw [sample_enc, Matrix.smul_mul, Matrix.one_mul, smul_smul]
    norm_num
  have hdet : IsUnit sample.enc.det := by rw [sample_enc]; simp
  have h3 : Real.exp 3 < 27.1 := by
    have h := Real.exp_one_lt_d9
    have e : Real.exp 3 = Real.exp 1 ^ 3 := by rw [← Real.exp_nat_mul]; norm_num
    rw [e]
    calc Real.exp 1 ^ 3 < 2.7182818286 ^ 3 := by gcongr
      _ < 27.1 := by norm_num
  rw [← hinv]
  refine cks_error sample_valid (by norm_num [sample]) sample_herm (by norm_num) le_rfl (by linarith) hdet ?_
  rw [hinv, show ((1 / 3 : ℝ) : ℂ) • (1 : Matrix Unit Unit ℂ) = diagonal (fun _ => ((1 / 3 : ℝ) : ℂ)) by
    rw [← diagonal_one, ← diagonal_smul]; congr 1; funext i; simp, l2_opNorm_diagonal, pi_norm_const, Complex.norm_real, Real.norm_eq_abs, abs_of_pos (by norm_num)]
  norm_num [sample]

end Verif.Props
