import Verif.Blk.Gqet
import Verif.Props.Gqsp
import Verif.Props.BlockEnc

/-!
# Properties C106, C107, C108: polynomials of block encodings

The specification evaluates polynomials (Mathlib's `aeval`) of the encoded matrix `enc`.
-/

namespace Verif.Props

open Matrix Polynomial Verif.Blk
open Polynomial.Chebyshev (T)
open scoped ComplexConjugate

variable {n a : Type} [Fintype n] [DecidableEq n] [Fintype a] [DecidableEq a]

theorem gqspOn_enc {W : BE n} {d k : ℕ} {M : ℝ} {q c : ℕ → ℂ} (hM : 0 < M) {Y : Matrix (W.anc × n) (W.anc × n) ℂ}
    (h : gqspBlock W.U d k M q c = ((0.99 / M : ℝ) : ℂ) • Y) : (W.gqspOn d k M q c).enc = blk W.zero Y := by
  ext i j
  have e := congrFun (congrFun h (W.zero, i)) (W.zero, j)
  show ((M / 0.99 : ℝ) : ℂ) * gqspBlock W.U d k M q c (W.zero, i) (W.zero, j) = Y (W.zero, i) (W.zero, j)
  have hMc : (M : ℂ) ≠ 0 := by exact_mod_cast hM.ne'
  rw [e, Matrix.smul_apply, smul_eq_mul]
  push_cast
  field_simp

theorem gqspOn_valid {W : BE n} (h : IsU W.U) (d k : ℕ) {M : ℝ} (hM : 0 < M) (q c : ℕ → ℂ) : (W.gqspOn d k M q c).Valid :=
  ⟨gqsp_unitary h _ _ _ _ _, fun h => by simp [BE.gqspOn] at h, by simp only [BE.gqspOn]; positivity⟩

/-! ## C106: GQET -/

/-- `GQET` encodes p((A + A†)/2), so p(A) for Hermitian A; without rescaling p((A + A†)/(2 alpha)). For every real polynomial in either basis. -/
theorem gqet_encodes {B : BE n} (hB : B.Valid) (ha : 0 < B.alpha) (h0 : B.ancs = 0 → B.herm = true ∧ Subsingleton B.anc) (d : ℕ) (p : ℕ → ℝ) (kind : PKind)
    (rescale : Bool) {M : ℝ} (hM : 0 < M) {q : ℕ → ℝ} (hq : Completes d (fun k => q k) (scaled M (fun k => (chebCoeffs (d + 1) B.alpha kind rescale p k : ℂ)))) :
    (B.gqet d p kind rescale M (fun k => q k)).Valid
      ∧ (B.gqet d p kind rescale M (fun k => q k)).enc
        = aeval ((((if rescale then 1 else 1 / B.alpha : ℝ) / 2 : ℝ) : ℂ) • (B.enc + B.encᴴ)) (target (d + 1) kind p) := by
  have hp := fun k => qubitization_powers hB ha h0 k
  refine ⟨gqspOn_valid (hp 0).2.1 d 0 hM _ _, ?_⟩
  rw [BE.gqet]
  refine (gqspOn_enc hM (gqsp_real (Nat.zero_le d) (hp 0).2.1 hq)).trans ?_
  rw [pow_zero, Matrix.one_mul, ev, blk_sum]
  simp only [blk_smul, (hp _).1]
  rw [← aeval_chebPoly]
  have e : ((1 / (2 * B.alpha) : ℝ) : ℂ) • (B.enc + B.encᴴ) = ((1 / B.alpha : ℝ) : ℂ) • ((1 / 2 : ℂ) • (B.enc + B.encᴴ)) := by
    rw [smul_smul]; congr 1; push_cast; ring
  rw [e, aeval_target (d + 1) B.alpha ha.ne']
  congr 2
  cases rescale
  · simp only [Bool.false_eq_true, if_false]
    rw [smul_smul]; congr 1; push_cast; ring
  · simp only [if_true]; congr 1; push_cast; ring

/-- Hermitian operators: p(A). -/
theorem gqet_hermitian {B : BE n} (hB : B.Valid) (ha : 0 < B.alpha) (hA : B.encᴴ = B.enc) (h0 : B.ancs = 0 → B.herm = true ∧ Subsingleton B.anc) (d : ℕ) (p : ℕ → ℝ)
    (kind : PKind) {M : ℝ} (hM : 0 < M) {q : ℕ → ℝ} (hq : Completes d (fun k => q k) (scaled M (fun k => (chebCoeffs (d + 1) B.alpha kind true p k : ℂ)))) :
    (B.gqet d p kind true M (fun k => q k)).enc = aeval B.enc (target (d + 1) kind p) := by
  rw [(gqet_encodes hB ha h0 d p kind true hM hq).2, hA]
  congr 2
  simp only [if_true]
  rw [← two_smul ℂ B.enc, smul_smul]
  norm_num

/-! ## C107: Hamiltonian simulation -/

/-- `hamiltonian_simulation` encodes the Jacobi-Anger expansion truncated after N terms, J₀ + 2 Σ (-i)^m J_m T_m, of the Hermitian part of A/alpha, with the
Bessel functions J_m(t alpha) computed by the midpoint rule. -/
theorem hamsim_encodes {B : BE n} (hB : B.Valid) (ha : 0 < B.alpha) (h0 : B.ancs = 0 → B.herm = true ∧ Subsingleton B.anc) (t : ℝ) (N : ℕ) {M : ℝ} (hM : 0 < M)
    {q : ℕ → ℂ} (hq : Completes (2 * N) q (scaled M (jaCoeffs N (t * B.alpha)))) (hr : ∀ k, ∃ r : ℝ, q k = Complex.I ^ k * r)
    (hs : ∀ j ≤ 2 * N, nlftSeq (2 * N) M q (jaCoeffs N (t * B.alpha)) j = 0 ∨ thres ≤ ‖nlftSeq (2 * N) M q (jaCoeffs N (t * B.alpha)) j‖) :
    (B.hamsim t N M q).Valid
      ∧ (B.hamsim t N M q).enc = (jv 0 (t * B.alpha) : ℂ) • 1
        + ∑ m ∈ Finset.range N, (2 * (-Complex.I) ^ (m + 1) * jv (m + 1) (t * B.alpha) : ℂ)
            • aeval (((1 / (2 * B.alpha) : ℝ) : ℂ) • (B.enc + B.encᴴ)) (T ℂ ((m + 1 : ℕ) : ℤ)) := by
  have hp := fun k => qubitization_powers hB ha h0 k
  have hW := (hp 0).2.1
  set τ := t * B.alpha with hτ
  refine ⟨gqspOn_valid hW (2 * N) N hM _ _, ?_⟩
  have sharp : ∀ j ≤ 2 * N, Sharp (nlftSeq (2 * N) M q (jaCoeffs N τ) j) := by
    intro j hj
    obtain ⟨i, r, e⟩ : ∃ i : ℕ, ∃ r : ℝ, nlftSeq (2 * N) M q (jaCoeffs N τ) j = Complex.I ^ i * r := by
      refine layers_axis (2 * N) (N + 3) (s := (fun k => conj (q k), scaled M (jaCoeffs N τ))) ?_ ?_ ?_ j
      · intro k _
        obtain ⟨r, e⟩ := hr k
        refine ⟨(-1) ^ k * r, ?_⟩
        simp only
        rw [e, map_mul, map_pow, Complex.conj_I, Complex.conj_ofReal, neg_pow]; push_cast; ring
      · intro k _
        have ez : (-Complex.I) ^ ((k : ℤ) - N) = (-1) ^ k * Complex.I ^ k * Complex.I ^ N := by
          rw [zpow_sub₀ negI_ne, zpow_natCast, zpow_natCast, div_eq_mul_inv, ← inv_pow, negI_inv, neg_pow]
        obtain ⟨x, hx⟩ : ∃ x : ℝ, jaCoeffs N τ k = Complex.I ^ k * Complex.I ^ N * x := by
          rw [jaCoeffs, ez]
          by_cases h : k ≤ N
          · exact ⟨(-1) ^ k * (jv (N - k) τ * (-1) ^ (N - k)), by rw [if_pos h]; push_cast; ring⟩
          · exact ⟨(-1) ^ k * jv (k - N) τ, by rw [if_neg h]; push_cast; ring⟩
        refine ⟨0.99 * (x / M), ?_⟩
        simp only [scaled]
        rw [hx, pow_add, Complex.I_pow_three]
        push_cast
        ring
      · obtain ⟨x, hx, e⟩ := hq.2
        exact ⟨x, hx, by simp only; rw [e, Complex.conj_ofReal]⟩
    rcases hs j hj with h | h
    · left; rw [h]; rfl
    · rw [e]
      rw [e] at h
      rcases Nat.even_or_odd i with hi | hi
      · right
        refine ⟨h, Or.inl ?_⟩
        obtain ⟨l, rfl⟩ := hi
        rw [← two_mul, pow_mul, Complex.I_sq, show ((-1 : ℂ)) ^ l * r = (((-1 : ℝ) ^ l * r : ℝ) : ℂ) by push_cast; ring, Complex.ofReal_im]
      · left
        obtain ⟨l, rfl⟩ := hi
        rw [pow_add, pow_mul, Complex.I_sq, pow_one, show ((-1 : ℂ)) ^ l * Complex.I * r = (((-1 : ℝ) ^ l * r : ℝ) : ℂ) * Complex.I by push_cast; ring, Complex.re_ofReal_mul,
          Complex.I_re, mul_zero]
  rw [BE.hamsim]
  refine (gqspOn_enc hM (gqsp_applies (by omega) hW hq (fun z hz => pal_conj (fun j hj => jaCoeffs_pal N τ hj) hz) sharp)).trans ?_
  rw [ev_shift (fun j hj => jaCoeffs_pal N τ hj) hW, blk_add, blk_smul, blk_sum]
  have hN := jaCoeffs_right N τ 0
  rw [Nat.add_zero, pow_zero, one_mul] at hN
  have one : blk B.qubitization.zero (1 : Matrix (B.qubitization.anc × n) (B.qubitization.anc × n) ℂ) = 1 := by
    have := (hp 0).1
    simpa using this
  rw [hN, one]
  congr 1
  apply Finset.sum_congr rfl; intro m _
  have herm : (((1 / (2 * B.alpha) : ℝ) : ℂ) • (B.enc + B.encᴴ))ᴴ = ((1 / (2 * B.alpha) : ℝ) : ℂ) • (B.enc + B.encᴴ) := by
    rw [conjTranspose_smul, Complex.star_def, Complex.conj_ofReal, conjTranspose_add, conjTranspose_conjTranspose, add_comm]
  rw [blk_smul, blk_add, blk_ct_pow, (hp (m + 1)).1, aeval_T_ct _ herm, jaCoeffs_right, ← two_smul ℂ (aeval _ _), smul_smul]
  congr 1
  ring

/-! ## C108: QET -/

theorem qet_layers_re {d : ℕ} {M : ℝ} {q c : ℕ → ℝ} (j : ℕ) : (layers d (fun k => conj ((q k : ℝ) : ℂ), scaled M (fun k => (c k : ℂ))) j).re = 0 := by
  refine (layers_imag d ?_ j).2
  intro k
  constructor
  · simp
  · simp only [scaled, Complex.mul_re, Complex.neg_re, Complex.I_re, Complex.neg_im, Complex.I_im, neg_zero, zero_mul, zero_sub]
    rw [show ((0.99 : ℝ) : ℂ) * ((c k : ℂ) / M) = ((0.99 * (c k / M) : ℝ) : ℂ) by push_cast; ring, Complex.ofReal_im]
    ring

theorem real_inv {d : ℕ} {M : ℝ} {q c : ℕ → ℝ} (hq : Completes d (fun k => q k) (scaled M (fun k => c k))) :
    LInv d d (fun k => conj ((q k : ℝ) : ℂ), scaled M (fun k => (c k : ℂ))) := by
  refine start_inv hq ?_
  intro z _
  have := ev_conj d (fun k => (c k : ℂ)) (conj z)
  simp only [Complex.conj_ofReal, Complex.conj_conj] at this
  rw [this, RCLike.norm_conj]

/-- The circuit with every second angle, for arrays whose compression satisfies the invariant. -/
theorem qet_core {d e o : ℕ} (hd : d = 2 * e + o) (ho : o ≤ 1) {M : ℝ} {q c : ℕ → ℝ} {V : Matrix (a × n) (a × n) ℂ} (hV : IsU V)
    (hq : Completes d (fun k => q k) (scaled M (fun k => c k))) (hqe : ∀ k ≤ d, k % 2 = 1 → q k = 0) (hc : ∀ k ≤ d, k % 2 ≠ o % 2 → c k = 0) :
    colB (qetBody V d (phiA d (nlftSeq d M (fun k => q k) (fun k => c k)))) false = ((0.99 / M : ℝ) : ℂ) • ev e (half o (fun k => (c k : ℂ))) V := by
  set s : (ℕ → ℂ) × (ℕ → ℂ) := (fun k => conj ((q k : ℝ) : ℂ), scaled M (fun k => (c k : ℂ))) with hs
  have inv := real_inv hq
  have pos : Pos0 s := inv.pos
  have z1 : ∀ k ≤ d, k % 2 = 1 → s.1 k = 0 := by
    intro k hk h1; simp only [hs]; rw [hqe k hk h1]; simp
  have z2 : ∀ k ≤ d, k % 2 ≠ o % 2 → s.2 k = 0 := by
    intro k hk h1; simp only [hs, scaled]; rw [hc k hk h1]; simp
  set F : ℕ → ℂ := layers d s with hF
  set s' : (ℕ → ℂ) × (ℕ → ℂ) := (half 0 s.1, half o s.2) with hs'
  have key : LInv e e s' ∧ ∀ j, F (2 * j + o) = layers e s' j := by
    rcases Nat.lt_or_ge o 1 with h | h
    · have : o = 0 := by omega
      subst this
      have be : BothEven d s := fun k hk h1 => ⟨z1 k hk h1, z2 k hk (by omega)⟩
      exact ⟨half_inv_even (Or.inl hd) inv be, fun j => (layers_even (Or.inl hd) j be pos).1⟩
    · have : o = 1 := by omega
      subst this
      have z3 : ∀ k ≤ d, k % 2 = 0 → s.2 k = 0 := fun k hk h1 => z2 k hk (by omega)
      exact ⟨half_inv_odd hd inv z1 z3, fun j => (layers_odd hd z1 z3 pos j).1⟩
  obtain ⟨inv', hl⟩ := key
  have re' : ∀ j, (layers e s' j).re = 0 := fun j => by rw [← hl]; exact qet_layers_re _
  have th : ∀ j, thetaA e (layers e s') j = 0 := by
    intro j
    have r : ∀ j, thetaRaw e (layers e s') j = 0 := by
      intro j; rw [thetaRaw, psi_imag (re' _), psi_imag (re' _)]; simp
    rw [thetaA, r, r]; simp
  have hphi : ∀ i ≤ e, phiA d F (d - 2 * i) = phiA e (layers e s') (e - i) := by
    intro i hi
    have e1 : d - 2 * i = 2 * (e - i) + o := by omega
    rw [phiA, phiA, e1, hl, hd, hl]
    by_cases h : e - i = e
    · rw [if_pos (by omega), if_pos h]
    · rw [if_neg (by omega), if_neg h]
  have hb := qetBody_gqsp (V := V) (show (d + 2) / 2 = e + 1 by omega) hphi th
  have g := (gqsp_col inv' (fun j _ => Or.inl (re' j)) hV (Nat.zero_le e)).1
  rw [lambdaA, psi_imag (re' 0)] at g
  show colB (qetBody V d (phiA d F)) false = _
  rw [hb]
  refine g.trans ?_
  rw [pow_zero, Matrix.one_mul]
  have es : s'.2 = scaled M (half o (fun k => (c k : ℂ))) := rfl
  rw [es, ev_scaled, smul_smul]
  congr 1
  linear_combination (-((0.99 / M : ℝ) : ℂ)) * Complex.I_mul_I

theorem enc_of_block {B : BE n} (ha : 0 < B.alpha) : blk B.zero B.U = ((1 / B.alpha : ℝ) : ℂ) • B.enc := by
  have hc : (B.alpha : ℂ) ≠ 0 := by exact_mod_cast ha.ne'
  ext i j
  simp only [Matrix.smul_apply, BE.enc, blk, smul_eq_mul]
  push_cast
  field_simp

/-- The encoded matrix of `QET` for a polynomial of the parity of its length. -/
theorem qet_enc {B : BE n} {d : ℕ} {p : ℕ → ℝ} {kind : PKind} {rescale : Bool} {M : ℝ} (hM : 0 < M) {q : ℕ → ℂ} {Y : Matrix (B.anc × n) (B.anc × n) ℂ}
    (h : colB (qetBody (stepT2 B.zero B.U) d (phiA d (nlftSeq d M q (fun k => (chebCoeffs (d + 1) B.alpha kind rescale p k : ℂ))))) false = ((0.99 / M : ℝ) : ℂ) • Y) :
    (B.qet d p kind rescale M q).enc = blk B.zero ((if isOdd d p then B.U else 1) * Y) := by
  have e : colB (B.qet d p kind rescale M q).U false = ((0.99 / M : ℝ) : ℂ) • ((if isOdd d p then B.U else 1) * Y) := by
    show colB ((if isOdd d p then padL Bool B.U else 1) * _) false = _
    by_cases ho : isOdd d p
    · rw [if_pos ho, if_pos ho, colB_padL, h, Matrix.mul_smul]
    · rw [if_neg ho, if_neg ho, Matrix.one_mul, Matrix.one_mul, h]
  have hMc : (M : ℂ) ≠ 0 := by exact_mod_cast hM.ne'
  ext i j
  have e' := congrFun (congrFun e (B.zero, i)) (B.zero, j)
  show ((M / 0.99 : ℝ) : ℂ) * colB (B.qet d p kind rescale M q).U false (B.zero, i) (B.zero, j) = _
  rw [e', Matrix.smul_apply, smul_eq_mul, blk]
  push_cast
  field_simp

theorem T_double (k : ℕ) : T ℂ (2 * k : ℤ) = ((T ℂ (k : ℤ)).comp (2 * X - 1)).comp (X ^ 2) := by
  rw [mul_comm, Chebyshev.T_mul, Chebyshev.T_two, comp_assoc]
  congr 1
  simp

theorem comp_sq_inj {p q : ℂ[X]} (h : p.comp (X ^ 2) = q.comp (X ^ 2)) : p = q := by
  rw [← expand_eq_comp_X_pow, ← expand_eq_comp_X_pow] at h
  exact expand_injective (by norm_num) h

/-- Rescaling of an even polynomial. -/
theorem even_rescale {alpha : ℝ} {P g : ℝ[X]} (hg : P = g.comp (X ^ 2)) : P.comp (C alpha * X) = (g.comp (C (alpha ^ 2) * X)).comp (X ^ 2) := by
  rw [hg, comp_assoc, comp_assoc]
  congr 1
  simp only [pow_comp, X_comp, mul_comp, C_comp, mul_pow, C_pow]

theorem odd_rescale {alpha : ℝ} {P g : ℝ[X]} (hg : P = X * g.comp (X ^ 2)) : P.comp (C alpha * X) = X * (C alpha * g.comp (C (alpha ^ 2) * X)).comp (X ^ 2) := by
  rw [hg, mul_comp, X_comp, mul_comp, C_comp, comp_assoc, comp_assoc]
  simp only [pow_comp, X_comp, mul_comp, C_comp, mul_pow, C_pow]
  ring

theorem map_comp_sq (g : ℝ[X]) : (g.comp (X ^ 2)).map (algebraMap ℝ ℂ) = (g.map (algebraMap ℝ ℂ)).comp (X ^ 2) := by
  rw [Polynomial.map_comp]; simp

theorem aeval_scale (alpha : ℝ) (D : Matrix n n ℂ) (g : ℝ[X]) : aeval D (g.comp (C alpha * X)) = aeval ((alpha : ℂ) • D) g := by
  rw [aeval_comp]
  congr 2
  rw [map_mul, aeval_C, aeval_X, Algebra.algebraMap_eq_smul_one, Matrix.smul_mul, Matrix.one_mul]
  rfl

section
variable {B : BE n}

theorem gram_block (ha : 0 < B.alpha) : (blk B.zero B.U)ᴴ * blk B.zero B.U = (((1 / B.alpha) ^ 2 : ℝ) : ℂ) • (B.encᴴ * B.enc) := by
  rw [enc_of_block ha, conjTranspose_smul, Complex.star_def, Complex.conj_ofReal, Matrix.smul_mul, Matrix.mul_smul, smul_smul]
  congr 1
  push_cast; ring

/-- `QET` with an even polynomial p(x) = g(x²), given with even degree: the encoded matrix is g(A†A), for any matrix A (with A/alpha instead of A without
rescaling). -/
theorem qet_even (hB : B.Valid) (ha : 0 < B.alpha) {d : ℕ} (hd : d % 2 = 0) {p : ℕ → ℝ} (hp : ∀ k ≤ d, k % 2 = 1 → p k = 0) (hbig : ∃ k ≤ d, 1e-6 < |p k|)
    (kind : PKind) (rescale : Bool) {M : ℝ} (hM : 0 < M) {q : ℕ → ℝ} (hqe : ∀ k ≤ d, k % 2 = 1 → q k = 0)
    (hq : Completes d (fun k => q k) (scaled M (fun k => (chebCoeffs (d + 1) B.alpha kind rescale p k : ℂ)))) (g : ℝ[X]) (hg : target (d + 1) kind p = g.comp (X ^ 2)) :
    (B.qet d p kind rescale M (fun k => q k)).enc
      = aeval (((if rescale then 1 else (1 / B.alpha) ^ 2 : ℝ) : ℂ) • (B.encᴴ * B.enc)) g := by
  obtain ⟨e, rfl⟩ : ∃ e, d = 2 * e := ⟨d / 2, by omega⟩
  set c := chebCoeffs (2 * e + 1) B.alpha kind rescale p with hc
  have hpar : ∀ k ≤ 2 * e, k % 2 ≠ 0 % 2 → c k = 0 := fun k hk h1 =>
    chebCoeffs_parity B.alpha rescale (o := 0) (fun k hk h1 => hp k (by omega) (by omega)) k (by omega) h1
  have core := qet_core (d := 2 * e) (o := 0) rfl (by omega) (step_unitary B.zero hB.unitary) hq hqe hpar
  have notodd : ¬ isOdd (2 * e) p := by
    intro h
    obtain ⟨k, hk, hb⟩ := hbig
    rcases Nat.mod_two_eq_zero_or_one k with h1 | h1
    · exact absurd (h k hk h1) (not_le.mpr hb)
    · rw [hp k hk h1] at hb; norm_num at hb
  rw [qet_enc hM core, if_neg notodd, Matrix.one_mul, ev, blk_sum]
  simp only [blk_smul, blk_step B.zero hB.unitary]
  have hh : 2 • ((blk B.zero B.U)ᴴ * blk B.zero B.U) - 1 = aeval ((blk B.zero B.U)ᴴ * blk B.zero B.U) (2 * X - 1 : ℂ[X]) := by
    rw [map_sub, map_mul, aeval_X, map_ofNat, map_one, two_smul, two_mul]
  have hDe := gram_block (B := B) ha
  set D := (blk B.zero B.U)ᴴ * blk B.zero B.U with hD
  set G : ℂ[X] := ∑ j ∈ Finset.range (e + 1), C (c (2 * j) : ℂ) * (T ℂ (j : ℤ)).comp (2 * X - 1) with hG
  have s1 : ∑ j ∈ Finset.range (e + 1), half 0 (fun k => (c k : ℂ)) j • aeval (2 • D - 1) (T ℂ (j : ℤ)) = aeval D G := by
    rw [hG, map_sum]
    apply Finset.sum_congr rfl; intro j _
    rw [map_mul, aeval_C, aeval_comp, ← hh, Algebra.algebraMap_eq_smul_one, Matrix.smul_mul, Matrix.one_mul]
    rfl
  have s2 : G.comp (X ^ 2) = (chebPoly (2 * e + 1) c).map (algebraMap ℝ ℂ) := by
    rw [hG, Polynomial.sum_comp, chebPoly, Polynomial.map_sum]
    have : ∀ k ∈ Finset.range (2 * e + 1), (C (c k) * T ℝ (k : ℤ)).map (algebraMap ℝ ℂ) = (fun k => if k % 2 = 1 then 0 else C (c k : ℂ) * T ℂ (k : ℤ)) k := by
      intro k hk
      rw [Finset.mem_range] at hk
      simp only
      by_cases h1 : k % 2 = 1
      · rw [if_pos h1, hpar k (by omega) (by omega)]; simp
      · rw [if_neg h1, Polynomial.map_mul, map_C, Chebyshev.map_T]; rfl
    rw [Finset.sum_congr rfl this, sum_even _ (fun k hk => by rw [if_pos hk])]
    apply Finset.sum_congr rfl; intro j _
    rw [if_neg (by omega), mul_comp, C_comp, show ((2 * j : ℕ) : ℤ) = 2 * (j : ℤ) by push_cast; ring, T_double]
  rw [s1]
  rw [hc, chebCoeffs_target] at s2
  cases rescale
  · simp only [Bool.false_eq_true, if_false] at s2 ⊢
    rw [hg, map_comp_sq] at s2
    rw [comp_sq_inj s2, aeval_map_algebraMap, hDe]
  · simp only [if_true] at s2 ⊢
    rw [even_rescale hg, map_comp_sq] at s2
    rw [comp_sq_inj s2, aeval_map_algebraMap, aeval_scale, hDe, smul_smul]
    congr 3
    rw [← Complex.ofReal_mul]
    congr 1
    field_simp

/-- `QET` with an odd polynomial p(x) = x g(x²), given with odd degree: the encoded matrix is A g(A†A), for any matrix A. -/
theorem qet_odd (hB : B.Valid) (ha : 0 < B.alpha) {d : ℕ} (hd : d % 2 = 1) {p : ℕ → ℝ} (hp : ∀ k ≤ d, k % 2 = 0 → p k = 0)
    (kind : PKind) (rescale : Bool) {M : ℝ} (hM : 0 < M) {q : ℕ → ℝ} (hqe : ∀ k ≤ d, k % 2 = 1 → q k = 0)
    (hq : Completes d (fun k => q k) (scaled M (fun k => (chebCoeffs (d + 1) B.alpha kind rescale p k : ℂ)))) (g : ℝ[X]) (hg : target (d + 1) kind p = X * g.comp (X ^ 2)) :
    (B.qet d p kind rescale M (fun k => q k)).enc
      = ((if rescale then 1 else 1 / B.alpha : ℝ) : ℂ) • (B.enc * aeval (((if rescale then 1 else (1 / B.alpha) ^ 2 : ℝ) : ℂ) • (B.encᴴ * B.enc)) g) := by
  obtain ⟨e, rfl⟩ : ∃ e, d = 2 * e + 1 := ⟨d / 2, by omega⟩
  set c := chebCoeffs (2 * e + 1 + 1) B.alpha kind rescale p with hc
  have hpar : ∀ k ≤ 2 * e + 1, k % 2 ≠ 1 % 2 → c k = 0 := fun k hk h1 =>
    chebCoeffs_parity B.alpha rescale (o := 1) (fun k hk h1 => hp k (by omega) (by omega)) k (by omega) h1
  have core := qet_core (d := 2 * e + 1) (o := 1) rfl (by omega) (step_unitary B.zero hB.unitary) hq hqe hpar
  have odd : isOdd (2 * e + 1) p := fun k hk h1 => by rw [hp k hk h1]; norm_num
  rw [qet_enc hM core, if_pos odd, ev, Finset.mul_sum, blk_sum]
  simp only [Matrix.mul_smul, blk_smul, blk_U_step B.zero hB.unitary]
  have hDe := gram_block (B := B) ha
  set D := (blk B.zero B.U)ᴴ * blk B.zero B.U with hD
  set G : ℂ[X] := ∑ j ∈ Finset.range (e + 1), C (c (2 * j + 1) : ℂ) * oddPart j with hG
  have s1 : ∑ j ∈ Finset.range (e + 1), half 1 (fun k => (c k : ℂ)) j • (blk B.zero B.U * aeval D (oddPart j)) = blk B.zero B.U * aeval D G := by
    rw [hG, map_sum, Finset.mul_sum]
    apply Finset.sum_congr rfl; intro j _
    rw [map_mul, aeval_C, Algebra.algebraMap_eq_smul_one, Matrix.smul_mul, Matrix.one_mul, Matrix.mul_smul]
    rfl
  have s2 : X * G.comp (X ^ 2) = (chebPoly (2 * e + 1 + 1) c).map (algebraMap ℝ ℂ) := by
    rw [hG, Polynomial.sum_comp, chebPoly, Polynomial.map_sum, Finset.mul_sum, Finset.sum_range_succ' _ (2 * e + 1)]
    have z : (C (c 0) * T ℝ ((0 : ℕ) : ℤ)).map (algebraMap ℝ ℂ) = 0 := by rw [hpar 0 (by omega) (by omega)]; simp
    rw [z, add_zero]
    have : ∀ k ∈ Finset.range (2 * e + 1), (C (c (k + 1)) * T ℝ ((k + 1 : ℕ) : ℤ)).map (algebraMap ℝ ℂ)
        = (fun k => if k % 2 = 1 then 0 else C (c (k + 1) : ℂ) * T ℂ ((k + 1 : ℕ) : ℤ)) k := by
      intro k hk
      rw [Finset.mem_range] at hk
      simp only
      by_cases h1 : k % 2 = 1
      · rw [if_pos h1, hpar (k + 1) (by omega) (by omega)]; simp
      · rw [if_neg h1, Polynomial.map_mul, map_C, Chebyshev.map_T]; rfl
    rw [Finset.sum_congr rfl this, sum_even _ (fun k hk => by rw [if_pos hk])]
    apply Finset.sum_congr rfl; intro j _
    rw [if_neg (by omega), mul_comp, C_comp, show ((2 * j + 1 : ℕ) : ℤ) = 2 * (j : ℤ) + 1 by push_cast; ring, (oddPart_T j).1]
    ring
  rw [s1, enc_of_block ha, Matrix.smul_mul]
  rw [hc, chebCoeffs_target] at s2
  cases rescale
  · simp only [Bool.false_eq_true, if_false] at s2 ⊢
    rw [hg, Polynomial.map_mul, map_X, map_comp_sq] at s2
    rw [comp_sq_inj (mul_left_cancel₀ X_ne_zero s2), aeval_map_algebraMap, hDe]
  · simp only [if_true] at s2 ⊢
    rw [odd_rescale hg, Polynomial.map_mul, map_X, map_comp_sq] at s2
    rw [comp_sq_inj (mul_left_cancel₀ X_ne_zero s2), aeval_map_algebraMap, map_mul, aeval_C, aeval_scale, hDe, smul_smul, Algebra.algebraMap_eq_smul_one, Matrix.smul_mul,
      Matrix.one_mul, Matrix.mul_smul]
    have h1 : ((B.alpha ^ 2 : ℝ) : ℂ) * (((1 / B.alpha) ^ 2 : ℝ) : ℂ) = ((1 : ℝ) : ℂ) := by
      rw [← Complex.ofReal_mul]; congr 1; field_simp
    rw [h1, ← Complex.coe_smul, smul_smul, ← Complex.ofReal_mul, one_div, inv_mul_cancel₀ ha.ne']

end

/-- Even and odd polynomials as polynomials in x². -/
theorem even_sq {P : ℝ[X]} (h : P.comp (-X) = P) : ∃ g : ℝ[X], P = g.comp (X ^ 2) := by
  refine ⟨contract 2 P, ?_⟩
  rw [← expand_eq_comp_X_pow]
  ext k
  rw [coeff_expand (by norm_num)]
  split
  · next hk => rw [coeff_contract (by norm_num), Nat.div_mul_cancel hk]
  · next hk =>
    have e := congrArg (fun q : ℝ[X] => q.coeff k) h
    have : (P.comp (-X)).coeff k = (-1) ^ k * P.coeff k := by
      rw [show (-X : ℝ[X]) = C (-1) * X by simp, comp_C_mul_X_coeff, mul_comm]
    simp only [this] at e
    have ho : Odd k := by rcases Nat.even_or_odd k with h | h; exact absurd h.two_dvd hk; exact h
    rw [ho.neg_one_pow] at e
    linarith

theorem odd_sq {P : ℝ[X]} (h : P.comp (-X) = -P) : ∃ g : ℝ[X], P = X * g.comp (X ^ 2) := by
  have h0 : P.coeff 0 = 0 := by
    have e := congrArg (fun q : ℝ[X] => q.eval 0) h
    simp only [eval_comp, eval_neg, eval_X, neg_zero] at e
    rw [coeff_zero_eq_eval_zero]; linarith
  obtain ⟨Q, rfl⟩ : ∃ Q, P = X * Q := X_dvd_iff.mpr h0
  have h1 : Q.comp (-X) = Q := by
    rw [mul_comp, X_comp, neg_mul] at h
    exact mul_left_cancel₀ X_ne_zero (neg_injective h)
  obtain ⟨g, rfl⟩ := even_sq h1
  exact ⟨g, rfl⟩

/-- `QET` of a Hermitian operator encodes p(A), for polynomials whose parity is that of their degree (and that are not rounded to 0). -/
theorem qet_hermitian {B : BE n} (hB : B.Valid) (ha : 0 < B.alpha) (hA : B.encᴴ = B.enc) {d : ℕ} {p : ℕ → ℝ} (hp : ∀ k ≤ d, k % 2 ≠ d % 2 → p k = 0)
    (hbig : d % 2 = 0 → ∃ k ≤ d, 1e-6 < |p k|) (kind : PKind) {M : ℝ} (hM : 0 < M) {q : ℕ → ℝ} (hqe : ∀ k ≤ d, k % 2 = 1 → q k = 0)
    (hq : Completes d (fun k => q k) (scaled M (fun k => (chebCoeffs (d + 1) B.alpha kind true p k : ℂ)))) :
    (B.qet d p kind true M (fun k => q k)).enc = aeval B.enc (target (d + 1) kind p) := by
  have hn := target_neg (N := d + 1) (kind := kind) (o := d) (fun k hk h1 => hp k (by omega) h1)
  rcases Nat.mod_two_eq_zero_or_one d with hd | hd
  · rw [neg_one_pow_eq_pow_mod_two, hd, pow_zero, C_1, one_mul] at hn
    obtain ⟨g, hg⟩ := even_sq hn
    rw [qet_even hB ha hd (fun k hk h1 => hp k hk (by omega)) (hbig hd) kind true hM hqe hq g hg, hg, aeval_comp, hA]
    simp [sq]
  · rw [neg_one_pow_eq_pow_mod_two, hd, pow_one, C_neg, C_1, neg_one_mul] at hn
    obtain ⟨g, hg⟩ := odd_sq hn
    rw [qet_odd hB ha hd (fun k hk h1 => hp k hk (by omega)) kind true hM hqe hq g hg, hg, map_mul, aeval_X, aeval_comp, hA]
    simp [sq]

/-! ### Findings -/

/-- An odd polynomial with even degree bound (a trailing zero): the block vanishes. -/
theorem qet_trailing {d e : ℕ} (hd : d = 2 * e) {M : ℝ} {q c : ℕ → ℝ} (V : Matrix (a × n) (a × n) ℂ)
    (hq : Completes d (fun k => q k) (scaled M (fun k => c k))) (hqe : ∀ k ≤ d, k % 2 = 1 → q k = 0) (hc : ∀ k ≤ d, k % 2 = 0 → c k = 0) :
    colB (qetBody V d (phiA d (nlftSeq d M (fun k => q k) (fun k => c k)))) false = 0 := by
  set s : (ℕ → ℂ) × (ℕ → ℂ) := (fun k => conj ((q k : ℝ) : ℂ), scaled M (fun k => (c k : ℂ))) with hs
  have pos : Pos0 s := (real_inv hq).pos
  have z2 : ∀ k ≤ d, k % 2 = 0 → s.2 k = 0 := by
    intro k hk h1; simp only [hs, scaled]; rw [hc k hk h1]; simp
  have F0 : stripF s = 0 := by rw [stripF, z2 0 (Nat.zero_le d) rfl, zero_div]
  have be : BothEven d (strip d s) := by
    rw [strip_zero F0]
    intro k hk h1
    refine ⟨by simp only [hs]; rw [hqe k hk h1]; simp, ?_⟩
    simp only [roll]
    rw [Nat.mod_eq_of_lt (by omega)]
    exact z2 _ (by omega) (by omega)
  have F : ∀ j, layers d s (2 * j) = 0 := by
    intro j
    cases j with
    | zero => exact F0
    | succ j => rw [show 2 * (j + 1) = 2 * j + 1 + 1 by ring, layers_succ]; exact (layers_even (Or.inl hd) j be pos.strip).2
  have p0 : phi 0 = 0 := by simp [phi, Complex.arctan]
  have rx0 : rxM (-2 * 0) = 1 := by
    ext x y
    cases x <;> cases y <;> simp [rxM]
  have ph : ∀ i, 1 ≤ i → i ≤ e → phiA d (layers d s) (d - 2 * i) = 0 := by
    intro i h1 h2
    rw [phiA, if_neg (by omega), show d - 2 * i = 2 * (e - i) by omega, F, p0]
  show colB (qetBody V d (phiA d (layers d s))) false = 0
  rw [qetBody, show (d + 2) / 2 = e + 1 by omega]
  refine fori_inv (P := fun _ X => colB X false = 0) (by omega) _ _ ?_ ?_
  · rw [phiA, if_pos (by omega), show layers d s d = 0 by have := F e; rwa [← hd] at this, p0, zero_add, ← Matrix.mul_one (bit a n _), colB_bit, colB_one, colB_one]
    simp only [Bool.false_eq_true, if_false, if_true, smul_zero, add_zero, rxM]
    rw [show -2 * (Real.pi / 2) / 2 = -(Real.pi / 2) by ring, Real.cos_neg, Real.cos_pi_div_two, Complex.ofReal_zero, zero_smul]
  · intro i X h1 h2 hX
    rw [ph i h1 (by omega), rx0, bit_one, Matrix.one_mul, colB_ctl, if_pos rfl, hX, Matrix.mul_zero]

theorem sample_cheb : ∀ k < 3, chebCoeffs 3 sample.alpha .poly true (fun k => if k = 1 then 1 else 0) k = if k = 1 then 5 else 0 := by
  intro k hk
  refine chebPoly_inj (N := 3) (c' := fun k => if k = 1 then 5 else 0) ?_ hk
  rw [chebCoeffs_target, if_pos rfl, target, powPoly, chebPoly]
  simp only [Finset.sum_range_succ, Finset.sum_range_zero]
  simp [sample]

/-- Finding: the odd polynomial x given as the array [0, 1, 0] is encoded as 0. -/
theorem qet_trailing_witness : Completes 2 (fun k => ((if k = 0 then rt else 0 : ℝ) : ℂ)) (scaled 5 (fun k => (chebCoeffs 3 sample.alpha .poly true (fun k => if k = 1 then 1 else 0) k : ℂ)))
    ∧ (sample.qet 2 (fun k => if k = 1 then 1 else 0) .poly true 5 (fun k => ((if k = 0 then rt else 0 : ℝ) : ℂ))).enc = 0
    ∧ aeval sample.enc (target 3 .poly (fun k => if k = 1 then 1 else 0)) = (3 : ℂ) • (1 : Matrix Unit Unit ℂ) := by
  have comp : Completes 2 (fun k => ((if k = 0 then rt else 0 : ℝ) : ℂ)) (scaled 5 (fun k => (chebCoeffs 3 sample.alpha .poly true (fun k => if k = 1 then 1 else 0) k : ℂ))) := by
    refine ⟨?_, rt, rt_pos, by simp⟩
    intro z hz
    rw [ev, ev]
    simp only [Finset.sum_range_succ, Finset.sum_range_zero, scaled]
    rw [sample_cheb 0 (by norm_num), sample_cheb 1 (by norm_num), sample_cheb 2 (by norm_num)]
    simp only [if_true, one_ne_zero, if_false, OfNat.ofNat_ne_zero, OfNat.ofNat_ne_one, zero_ne_one, Complex.ofReal_zero, zero_smul, add_zero, zero_add, zero_div, mul_zero, pow_zero, pow_one]
    rw [smul_eq_mul, smul_eq_mul, mul_one, norm_mul, hz, mul_one, Complex.norm_real, Real.norm_eq_abs, sq_abs]
    have : ‖-Complex.I * (((0.99 : ℝ) : ℂ) * (((5 : ℝ) : ℂ) / ((5 : ℝ) : ℂ)))‖ = 0.99 := by
      rw [norm_mul, norm_neg, Complex.norm_I, one_mul, div_self (by norm_num), mul_one, Complex.norm_real]; norm_num
    rw [this, sq, rt_sq]; norm_num
  refine ⟨comp, ?_, ?_⟩
  · have hc : ∀ k ≤ 2, k % 2 = 0 → chebCoeffs 3 sample.alpha .poly true (fun k => if k = 1 then 1 else 0) k = 0 := by
      intro k hk h; rw [sample_cheb k (by omega), if_neg (by omega)]
    have z := qet_trailing (e := 1) (d := 2) rfl (stepT2 sample.zero sample.U) comp (fun k _ h => by rw [if_neg (by omega)]) hc
    have := qet_enc (B := sample) (d := 2) (p := fun k => if k = 1 then 1 else 0) (kind := .poly) (rescale := true) (M := 5) (Y := 0) (by norm_num) (z.trans (smul_zero _).symm)
    rw [this, Matrix.mul_zero]; rfl
  · rw [sample_enc, target, powPoly]
    simp only [Finset.sum_range_succ, Finset.sum_range_zero]
    simp

/-- Finding: the constant polynomial 10⁻⁷ is taken as odd; for the sample (alpha = 5, A = 3) it is encoded as 10⁻⁷ · 3/5. -/
theorem qet_small_witness : Completes 0 (fun _ => ((rt : ℝ) : ℂ)) (scaled 1e-7 (fun k => (chebCoeffs 1 sample.alpha .poly true (fun _ => 1e-7) k : ℂ)))
    ∧ (sample.qet 0 (fun _ => 1e-7) .poly true 1e-7 (fun _ => ((rt : ℝ) : ℂ))).enc = (0.6e-7 : ℂ) • (1 : Matrix Unit Unit ℂ)
    ∧ aeval sample.enc (target 1 .poly (fun _ => 1e-7)) = (1e-7 : ℂ) • (1 : Matrix Unit Unit ℂ) := by
  have c0 : chebCoeffs 1 sample.alpha .poly true (fun _ => 1e-7) 0 = 1e-7 := by
    refine chebPoly_inj (N := 1) (c' := fun _ => 1e-7) ?_ (by norm_num)
    rw [chebCoeffs_target, if_pos rfl, target, powPoly, chebPoly]
    simp
  have comp : Completes 0 (fun _ => ((rt : ℝ) : ℂ)) (scaled 1e-7 (fun k => (chebCoeffs 1 sample.alpha .poly true (fun _ => 1e-7) k : ℂ))) := by
    refine ⟨?_, rt, rt_pos, rfl⟩
    intro z hz
    rw [ev, ev]
    simp only [Finset.sum_range_succ, Finset.sum_range_zero, scaled]
    rw [c0]
    simp only [zero_add, pow_zero]
    rw [smul_eq_mul, smul_eq_mul, mul_one, mul_one, Complex.norm_real, Real.norm_eq_abs, sq_abs]
    have : ‖-Complex.I * (((0.99 : ℝ) : ℂ) * (((1e-7 : ℝ) : ℂ) / ((1e-7 : ℝ) : ℂ)))‖ = 0.99 := by
      rw [norm_mul, norm_neg, Complex.norm_I, one_mul, div_self (by norm_num), mul_one, Complex.norm_real]; norm_num
    rw [this, sq, rt_sq]; norm_num
  refine ⟨comp, ?_, ?_⟩
  · have core := qet_core (d := 0) (e := 0) (o := 0) (M := 1e-7) (q := fun _ => rt) rfl (by omega) (step_unitary sample.zero sample_valid.unitary) comp (fun k hk h => by omega) (fun k hk h => by omega)
    have odd : isOdd 0 (fun _ => (1e-7 : ℝ)) := by
      intro k _ _; norm_num [abs_of_pos]
    have h := qet_enc (B := sample) (d := 0) (p := fun _ => 1e-7) (kind := .poly) (rescale := true) (M := 1e-7) (by norm_num) core
    rw [h, if_pos odd, ev, Finset.sum_range_one, pow_zero, Matrix.mul_smul, Matrix.mul_one, half, c0, blk_smul, enc_of_block (by norm_num [sample]), sample_enc, smul_smul, smul_smul]
    congr 1
    norm_num [sample]
  · rw [sample_enc, target, powPoly]
    simp only [Finset.sum_range_succ, Finset.sum_range_zero]
    ext i j
    simp [Matrix.smul_apply, algebraMap_matrix_apply]

/-! ### Examples -/

theorem sample_comp : Completes 1 (fun k => ((if k = 0 then rt else 0 : ℝ) : ℂ)) (scaled 5 (fun k => (chebCoeffs 2 sample.alpha .poly true (fun k => if k = 1 then 1 else 0) k : ℂ))) := by
  have hcc : ∀ k < 2, chebCoeffs 2 sample.alpha .poly true (fun k => if k = 1 then 1 else 0) k = if k = 1 then 5 else 0 := by
    intro k hk
    refine chebPoly_inj (N := 2) (c' := fun k => if k = 1 then 5 else 0) ?_ hk
    rw [chebCoeffs_target, if_pos rfl, target, powPoly, chebPoly]
    simp only [Finset.sum_range_succ, Finset.sum_range_zero]
    simp [sample]
  refine ⟨?_, rt, rt_pos, by simp⟩
  intro z hz
  rw [ev, ev]
  simp only [Finset.sum_range_succ, Finset.sum_range_zero, scaled]
  rw [hcc 0 (by norm_num), hcc 1 (by norm_num)]
  simp only [if_true, one_ne_zero, if_false, zero_ne_one, Complex.ofReal_zero, zero_smul, add_zero, zero_add, zero_div, mul_zero, pow_zero, pow_one]
  rw [smul_eq_mul, smul_eq_mul, mul_one, norm_mul, hz, mul_one, Complex.norm_real, Real.norm_eq_abs, sq_abs]
  have : ‖-Complex.I * (((0.99 : ℝ) : ℂ) * (((5 : ℝ) : ℂ) / ((5 : ℝ) : ℂ)))‖ = 0.99 := by
    rw [norm_mul, norm_neg, Complex.norm_I, one_mul, div_self (by norm_num), mul_one, Complex.norm_real]; norm_num
  rw [this, sq, rt_sq]; norm_num

theorem sample_herm : sample.encᴴ = sample.enc := by
  rw [sample_enc]
  ext i j
  simp [conjTranspose_apply, Matrix.smul_apply]

/-- The polynomial x as [0, 1] is encoded as A = 3. -/
example : (sample.qet 1 (fun k => if k = 1 then 1 else 0) .poly true 5 (fun k => ((if k = 0 then rt else 0 : ℝ) : ℂ))).enc = (3 : ℂ) • (1 : Matrix Unit Unit ℂ) := by
  rw [qet_hermitian sample_valid (by norm_num [sample]) sample_herm (fun k hk h => by rw [if_neg (by omega)]) (by norm_num) .poly (by norm_num) (fun k _ h => by rw [if_neg (by omega)]) sample_comp]
  rw [sample_enc, target, powPoly]
  simp only [Finset.sum_range_succ, Finset.sum_range_zero]
  simp

/-- The same by `GQET`. -/
example : (sample.gqet 1 (fun k => if k = 1 then 1 else 0) .poly true 5 (fun k => ((if k = 0 then rt else 0 : ℝ) : ℂ))).enc = (3 : ℂ) • (1 : Matrix Unit Unit ℂ) := by
  rw [gqet_hermitian sample_valid (by norm_num [sample]) sample_herm (by intro h; simp [sample] at h) 1 _ .poly (by norm_num) sample_comp]
  rw [sample_enc, target, powPoly]
  simp only [Finset.sum_range_succ, Finset.sum_range_zero]
  simp

/-- Hamiltonian simulation of the sample with one term: the number J₀(0) = 1. -/
example : (sample.hamsim 0 0 1 (fun k => ((if k = 0 then rt else 0 : ℝ) : ℂ))).enc = 1 := by
  have j0 : jv 0 0 = 1 := by
    rw [jv]; simp
  have c0 : jaCoeffs 0 (0 * sample.alpha) 0 = 1 := by
    rw [jaCoeffs, zero_mul]; simp [j0]
  have sc : scaled 1 (jaCoeffs 0 (0 * sample.alpha)) 0 = -Complex.I * ((0.99 : ℝ) : ℂ) := by
    simp only [scaled]; rw [c0]; simp
  have n9 : ‖-Complex.I * ((0.99 : ℝ) : ℂ)‖ = 0.99 := by
    rw [norm_mul, norm_neg, Complex.norm_I, one_mul, Complex.norm_real]; norm_num
  have comp : Completes (2 * 0) (fun k => ((if k = 0 then rt else 0 : ℝ) : ℂ)) (scaled 1 (jaCoeffs 0 (0 * sample.alpha))) := by
    refine ⟨?_, rt, rt_pos, by simp⟩
    intro z _
    rw [ev, ev]
    simp only [Finset.sum_range_succ, Finset.sum_range_zero, pow_zero, smul_eq_mul, mul_one, mul_zero, zero_add, if_true]
    rw [sc, n9, Complex.norm_real, Real.norm_eq_abs, sq_abs, sq, rt_sq]; norm_num
  have big : ∀ j ≤ 2 * 0, nlftSeq (2 * 0) 1 (fun k => ((if k = 0 then rt else 0 : ℝ) : ℂ)) (jaCoeffs 0 (0 * sample.alpha)) j = 0
      ∨ thres ≤ ‖nlftSeq (2 * 0) 1 (fun k => ((if k = 0 then rt else 0 : ℝ) : ℂ)) (jaCoeffs 0 (0 * sample.alpha)) j‖ := by
    intro j hj
    obtain rfl : j = 0 := by omega
    right
    show thres ≤ ‖scaled 1 (jaCoeffs 0 (0 * sample.alpha)) 0 / conj ((if (0 : ℕ) = 0 then rt else 0 : ℝ) : ℂ)‖
    rw [if_pos rfl, sc, norm_div, n9, Complex.conj_ofReal, Complex.norm_real, Real.norm_of_nonneg rt_pos.le, thres, le_div_iff₀ rt_pos]
    have : rt ≤ 1 := by
      rw [rt]; exact Real.sqrt_le_one.mpr (by norm_num)
    nlinarith
  rw [(hamsim_encodes sample_valid (by norm_num [sample]) (by intro h; simp [sample] at h) 0 0 one_pos comp (fun k => ⟨if k = 0 then rt else 0, ?_⟩) big).2]
  · simp [j0]
  · split_ifs with h <;> simp [h]

end Verif.Props
