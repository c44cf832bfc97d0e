import Verif.Blk.Inv
import Verif.Props.Svt

/-!
# Properties C111, C112: inversion and pseudo inversion of block encoded matrices

The specification is Mathlib's inverse of a matrix and the operator norm.
-/

namespace Verif.Props

open Matrix Polynomial Verif.Blk
open scoped ComplexConjugate
open scoped Matrix.Norms.L2Operator

variable {n : Type} [Fintype n] [DecidableEq n]

/-- The polynomial and the completion agree, as in C104, C108, C109 and C110. -/
def InvComp (B : BE n) (eps kappa : ℝ) (method : InvMethod) (M : ℝ) (q : ℕ → ℝ) : Prop :=
  let P := cksParams eps kappa none
  let p := invCheb P.2
  match method with
  | .qet => (∀ k ≤ 2 * (P.1 + 1) - 1, k % 2 = 1 → q k = 0)
      ∧ Completes (2 * (P.1 + 1) - 1) (fun k => q k) (scaled M (fun k => (chebCoeffs (2 * (P.1 + 1) - 1 + 1) B.alpha .cheb false p k : ℂ)))
  | .qsvt => Completes (analyticDeg (2 * (P.1 + 1)) false) (fun k => q k) (scaled M (fun k => (analytic (2 * (P.1 + 1)) false (chebCoeffs (2 * (P.1 + 1)) B.alpha .cheb false p) k : ℂ)))
  | .gqsvt => Completes (2 * (P.1 + 1) - 1) (fun k => q k) (scaled M (fun k => (chebCoeffs (2 * (P.1 + 1) - 1 + 1) B.alpha .cheb false p k : ℂ)))

theorem split_parity (P : ℝ[X]) : ∃ g h : ℝ[X], P = g.comp (X ^ 2) + X * h.comp (X ^ 2) := by
  induction P using Polynomial.induction_on' with
  | add p q hp hq =>
    obtain ⟨g, h, e⟩ := hp
    obtain ⟨g', h', e'⟩ := hq
    exact ⟨g + g', h + h', by rw [e, e', add_comp, add_comp]; ring⟩
  | monomial k c =>
    rcases Nat.even_or_odd' k with ⟨m, rfl | rfl⟩
    · exact ⟨C c * X ^ m, 0, by rw [← C_mul_X_pow_eq_monomial, mul_comp, C_comp, X_pow_comp, zero_comp, ← pow_mul]; ring⟩
    · exact ⟨0, C c * X ^ m, by rw [← C_mul_X_pow_eq_monomial, mul_comp, C_comp, X_pow_comp, zero_comp, ← pow_mul]; ring⟩

/-- The polynomial of the inversion is odd. -/
theorem invCheb_odd (b m : ℕ) : ∃ h : ℝ[X], chebPoly (2 * m) (invCheb b) = X * h.comp (X ^ 2) := by
  obtain ⟨g, h, e⟩ := split_parity (chebPoly (2 * m) (invCheb b))
  have hneg : ∀ x, (chebPoly (2 * m) (invCheb b)).eval (-x) = -(chebPoly (2 * m) (invCheb b)).eval x := by
    intro x
    rw [chebPoly_invCheb, chebPoly_invCheb, ← Finset.sum_neg_distrib]
    refine Finset.sum_congr rfl fun j _ => ?_
    rw [Polynomial.Chebyshev.T_eval_neg]
    rw [Int.negOnePow_odd _ ⟨j, by push_cast; ring⟩]
    push_cast; ring
  have hg : g.comp (X ^ 2) = 0 := by
    refine Polynomial.funext fun x => ?_
    have h1 := hneg x
    rw [e] at h1
    simp only [eval_add, eval_mul, eval_X, eval_comp, eval_pow, even_two.neg_pow, eval_zero] at h1 ⊢
    linarith
  exact ⟨h, by rw [e, hg, zero_add]⟩

/-- All three methods encode the same matrix. -/
theorem inversion_enc {B : BE n} (hB : B.Valid) (ha : 0 < B.alpha) {eps kappa : ℝ} {method : InvMethod} (hH : method = .qet → B.encᴴ = B.enc) {M : ℝ} (hM : 0 < M) {q : ℕ → ℝ}
    (hq : InvComp B eps kappa method M q) {h : ℝ[X]} (hh : chebPoly (2 * ((cksParams eps kappa none).1 + 1)) (invCheb (cksParams eps kappa none).2) = X * h.comp (X ^ 2)) :
    (B.inversion eps kappa method M (fun k => q k)).enc
      = ((1 / B.alpha : ℝ) : ℂ) • (((1 / B.alpha : ℝ) : ℂ) • (B.encᴴ * aeval ((((1 / B.alpha) ^ 2 : ℝ) : ℂ) • (B.enc * B.encᴴ)) h)) := by
  have hs : ∀ (C : BE n), ({ C with alpha := C.alpha / B.alpha } : BE n).enc = ((1 / B.alpha : ℝ) : ℂ) • C.enc := by
    intro C
    ext i j
    simp only [BE.enc, Matrix.smul_apply, smul_eq_mul]
    push_cast; ring
  have hl : 2 * ((cksParams eps kappa none).1 + 1) - 1 + 1 = 2 * ((cksParams eps kappa none).1 + 1) := by omega
  unfold BE.inversion
  rw [one_div_one_div]
  cases method with
  | qet =>
    obtain ⟨h1, h2⟩ := hq
    have := qet_odd hB ha (d := 2 * ((cksParams eps kappa none).1 + 1) - 1) (by omega) (p := invCheb (cksParams eps kappa none).2)
      (fun k _ hk => by rw [invCheb, if_neg (by omega)]) .cheb false hM h1 h2 h (by rw [target, hl, hh])
    simp only
    rw [hs, this, hH rfl]
    simp
  | qsvt =>
    have := (qsvt_odd (B := B.dagger) (valid_dagger hB) ha (L := 2 * ((cksParams eps kappa none).1 + 1)) (by omega) (invCheb (cksParams eps kappa none).2) .cheb false hM hq
      (g := 0) (h := h) (by rw [target, hh, zero_comp, zero_add])).2
    simp only
    rw [hs, this, enc_dagger, conjTranspose_conjTranspose]
    simp [BE.dagger]
  | gqsvt =>
    have := (gqsvt_odd hB ha (2 * ((cksParams eps kappa none).1 + 1) - 1) (invCheb (cksParams eps kappa none).2) .cheb false hM hq (g := 0) (h := h)
      (by rw [target, hl, hh, zero_comp, zero_add])).2
    simp only
    rw [hs, this]
    simp

theorem norm_enc {B : BE n} (hB : B.Valid) (ha : 0 < B.alpha) : ‖B.enc‖ ≤ B.alpha := by
  have e : B.enc = (B.alpha : ℂ) • blk B.zero B.U := by ext i j; simp [BE.enc, blk]
  have h := norm_blk (z := B.zero) hB.unitary
  rw [e, norm_smul, Complex.norm_real, Real.norm_eq_abs, abs_of_pos ha]
  exact mul_le_of_le_one_right ha.le h

/-- `inversion(A, eps, kappa, method)`: if the singular values of A are at least alpha/kappa, the encoded matrix differs from the inverse of A by at
most 2 eps/alpha. For "QET" the matrix must be Hermitian. -/
theorem inversion_error {B : BE n} (hB : B.Valid) (ha : 0 < B.alpha) {eps kappa : ℝ} (he : 0 < eps) (hk : 1 ≤ kappa) (hL : Real.exp 3 * eps ≤ kappa)
    (hdet : IsUnit B.enc.det) (hn : ‖B.enc⁻¹‖ ≤ kappa / B.alpha) {method : InvMethod} (hH : method = .qet → B.encᴴ = B.enc) {M : ℝ} (hM : 0 < M) {q : ℕ → ℝ}
    (hq : InvComp B eps kappa method M q) :
    ‖(B.inversion eps kappa method M (fun k => q k)).enc - B.enc⁻¹‖ ≤ 2 * eps / B.alpha := by
  obtain ⟨h, hh⟩ := invCheb_odd (cksParams eps kappa none).2 ((cksParams eps kappa none).1 + 1)
  rw [inversion_enc hB ha hH hM hq hh]
  have hL' : 3 ≤ Real.log (kappa / eps) := by
    rw [Real.le_log_iff_exp_le (by positivity), le_div_iff₀ he]; exact hL
  refine odd_norm ha (by linarith) hdet hn (norm_enc hB ha) (by positivity) fun x h1 h2 => ?_
  have hx : 0 < x := lt_of_lt_of_le (by positivity) h1
  rw [← hh]
  exact invCheb_error hk he hL' (by rw [abs_of_pos hx]; exact h1) (by rw [abs_of_pos hx]; exact h2)

theorem qet_valid {B : BE n} (hB : B.Valid) (d : ℕ) (p : ℕ → ℝ) (kind : PKind) (rescale : Bool) {M : ℝ} (hM : 0 < M) (q : ℕ → ℂ) : (B.qet d p kind rescale M q).Valid := by
  have hx : ∀ t, IsU (rxM t) := by
    intro t
    have h : ((Real.cos (t / 2) : ℝ) : ℂ) * Real.cos (t / 2) + (Real.sin (t / 2) : ℝ) * Real.sin (t / 2) = 1 := by
      rw [← Complex.ofReal_mul, ← Complex.ofReal_mul, ← Complex.ofReal_add, ← sq, ← sq, Real.cos_sq_add_sin_sq, Complex.ofReal_one]
    rw [IsU]
    ext i j
    rw [mul_apply]
    cases i <;> cases j <;> simp [rxM, -Complex.ofReal_cos, -Complex.ofReal_sin] <;>
      first
      | linear_combination h - ((Real.sin (t / 2) : ℝ) : ℂ) * ((Real.sin (t / 2) : ℝ) : ℂ) * Complex.I_mul_I
      | ring
  have ht : IsU (stepT2 B.zero B.U) := (refl_unitary _).mul (hB.unitary.ct.mul ((refl_unitary _).mul hB.unitary))
  refine ⟨?_, fun h => by simp [BE.qet] at h, by simp only [BE.qet]; positivity⟩
  have hb : ∀ phi : ℕ → ℝ, IsU (qetBody (stepT2 B.zero B.U) d phi) := by
    intro phi
    rw [qetBody]
    exact fori_inv (P := fun _ X => IsU X) (by omega) _ _ (IsU.bit (hx _)) (fun i X _ _ hX => (IsU.bit (hx _)).mul ((IsU.ctl false ht).mul hX))
  show IsU ((if isOdd d p then padL Bool B.U else 1) * _)
  refine IsU.mul ?_ (hb _)
  split
  · exact IsU.padL hB.unitary
  · exact IsU.one

/-- The result is a block encoding. -/
theorem inversion_valid {B : BE n} (hB : B.Valid) (ha : 0 < B.alpha) (eps kappa : ℝ) (method : InvMethod) {M : ℝ} (hM : 0 < M) (q : ℕ → ℂ) :
    (B.inversion eps kappa method M q).Valid := by
  have hs : ∀ (C : BE n), C.Valid → ({ C with alpha := C.alpha / B.alpha } : BE n).Valid := fun C hC =>
    ⟨hC.unitary, hC.herm, div_nonneg hC.alpha ha.le⟩
  unfold BE.inversion
  cases method with
  | qet => exact hs _ (qet_valid hB _ _ _ _ hM _)
  | qsvt => exact hs _ (qsvt_valid (valid_dagger hB) _ _ _ _ _ hM _)
  | gqsvt => exact hs _ (gqsvt_valid hB _ _ _ _ _ hM _)

/-! ### Finding: the precision for coarse eps -/

/-- The sample with alpha = 1: it encodes 3/5. -/
noncomputable def sample1 : BE Unit := { sample with alpha := 1 }

theorem sample1_valid : sample1.Valid := ⟨sample_valid.unitary, sample_valid.herm, by norm_num [sample1]⟩

theorem sample1_enc : sample1.enc = ((3 / 5 : ℝ) : ℂ) • (1 : Matrix Unit Unit ℂ) := by
  have h := sample_enc
  ext i j
  have h2 := congrFun (congrFun h i) j
  simp only [BE.enc, Matrix.smul_apply, smul_eq_mul] at h2 ⊢
  show ((1 : ℝ) : ℂ) * sample.U (sample.zero, i) (sample.zero, j) = _
  have h5 : ((5 : ℝ) : ℂ) * sample.U (sample.zero, i) (sample.zero, j) = 3 * (1 : Matrix Unit Unit ℂ) i j := h2
  push_cast at h5 ⊢
  linear_combination (1 / 5 : ℂ) * h5

/-- A coarse precision below 1. -/
noncomputable def coarse : ℝ := 5 / 3 * Real.exp (-(7 / 10))

theorem coarse_lt : coarse < 1 := by
  have h := Real.add_one_lt_exp (show (7 / 10 : ℝ) ≠ 0 by norm_num)
  rw [coarse, Real.exp_neg, mul_inv_lt_iff₀ (Real.exp_pos _)]
  linarith

theorem coarse_beta : (cksParams coarse (5 / 3) none).2 = 1 := by
  show ⌊(5 / 3 : ℝ) ^ 2 * Real.log (5 / 3 / coarse)⌋₊ = 1
  have e : (5 / 3 : ℝ) / coarse = Real.exp (7 / 10) := by
    rw [coarse, Real.exp_neg]; field_simp
  rw [e, Real.log_exp, Nat.floor_eq_iff (by norm_num)]
  norm_num

theorem invCheb_one (k : ℕ) : invCheb 1 k = if k = 1 then 1 else 0 := by
  rw [invCheb]
  split_ifs with h1 h2 h2
  · subst h2; rw [cksCoeffs, binomSf]; simp [Finset.sum_range_succ]; norm_num
  · rw [cksCoeffs, binomSf_big (by omega)]; ring
  · omega
  · rfl

theorem coarse_comp : InvComp sample1 coarse (5 / 3) .gqsvt 1 (fun k => if k = 0 then rt else 0) := by
  show Completes _ _ (scaled 1 (fun k => (invCheb (cksParams coarse (5 / 3) none).2 k : ℂ)))
  rw [coarse_beta]
  set m := (cksParams coarse (5 / 3) none).1
  refine ⟨?_, rt, rt_pos, by simp⟩
  intro z hz
  have e1 : ev (2 * (m + 1) - 1) (fun k => ((if k = 0 then rt else 0 : ℝ) : ℂ)) z = (rt : ℂ) := by
    rw [ev, Finset.sum_eq_single 0]
    · simp
    · intro k _ hk; simp [hk]
    · intro h; simp at h
  have e2 : ev (2 * (m + 1) - 1) (scaled 1 (fun k => ((invCheb 1 k : ℝ) : ℂ))) z = -Complex.I * ((0.99 : ℝ) : ℂ) * z := by
    rw [ev, Finset.sum_eq_single 1]
    · simp only [scaled, invCheb_one, if_true, smul_eq_mul]; push_cast; ring
    · intro k _ hk; simp only [scaled, invCheb_one, if_neg hk]; simp
    · intro h; exfalso; apply h; rw [Finset.mem_range]; omega
  rw [e1, e2, norm_mul, norm_mul, norm_neg, Complex.norm_I, hz, Complex.norm_real, Complex.norm_real, Real.norm_eq_abs, Real.norm_eq_abs, sq_abs, sq, rt_sq]
  norm_num

/-- Finding: for coarse eps the documented error bound eps fails: A = 3/5 with alpha = 1, kappa = 5/3 and eps < 1; beta is rounded down to 1, the
polynomial is x and the "inverse" is 3/5 instead of 5/3. -/
theorem inversion_coarse_witness : coarse < 1 ∧ InvComp sample1 coarse (5 / 3) .gqsvt 1 (fun k => if k = 0 then rt else 0)
    ∧ ‖sample1.enc⁻¹‖ ≤ (5 / 3) / sample1.alpha
    ∧ coarse < ‖(sample1.inversion coarse (5 / 3) .gqsvt 1 (fun k => ((if k = 0 then rt else 0 : ℝ) : ℂ))).enc - sample1.enc⁻¹‖ := by
  have hinv : sample1.enc⁻¹ = ((5 / 3 : ℝ) : ℂ) • (1 : Matrix Unit Unit ℂ) := by
    apply inv_eq_left_inv
    rw [sample1_enc, Matrix.smul_mul, Matrix.one_mul, smul_smul, ← Complex.ofReal_mul]
    norm_num
  have hnorm : ∀ x : ℝ, ‖((x : ℝ) : ℂ) • (1 : Matrix Unit Unit ℂ)‖ = |x| := by
    intro x
    rw [show ((x : ℝ) : ℂ) • (1 : Matrix Unit Unit ℂ) = diagonal (fun _ => (x : ℂ)) by rw [← diagonal_one, ← diagonal_smul]; congr 1; funext i; simp, l2_opNorm_diagonal]
    rw [pi_norm_const, Complex.norm_real, Real.norm_eq_abs]
  refine ⟨coarse_lt, coarse_comp, ?_, ?_⟩
  · rw [hinv, hnorm, abs_of_pos (by norm_num)]; simp [sample1]
  · have hpoly : chebPoly (2 * ((cksParams coarse (5 / 3) none).1 + 1)) (invCheb (cksParams coarse (5 / 3) none).2) = X * (1 : ℝ[X]).comp (X ^ 2) := by
      rw [coarse_beta, chebPoly, Finset.sum_eq_single 1]
      · rw [invCheb_one]; simp
      · intro k _ hk; rw [invCheb_one, if_neg hk]; simp
      · intro h; exfalso; apply h; rw [Finset.mem_range]; omega
    rw [inversion_enc sample1_valid (by norm_num [sample1]) (by simp) (by norm_num) coarse_comp hpoly, map_one, Matrix.mul_one, hinv, sample1_enc]
    have e : ((1 / sample1.alpha : ℝ) : ℂ) • (((1 / sample1.alpha : ℝ) : ℂ) • (((3 / 5 : ℝ) : ℂ) • (1 : Matrix Unit Unit ℂ))ᴴ) - ((5 / 3 : ℝ) : ℂ) • (1 : Matrix Unit Unit ℂ)
        = ((-(16 / 15) : ℝ) : ℂ) • (1 : Matrix Unit Unit ℂ) := by
      have : sample1.alpha = 1 := rfl
      rw [this, conjTranspose_smul, conjTranspose_one, Complex.star_def, Complex.conj_ofReal, smul_smul, smul_smul, ← sub_smul]
      congr 1; push_cast; norm_num
    rw [e, hnorm]
    have := coarse_lt
    rw [abs_neg, abs_of_pos (by norm_num)]
    linarith

/-! ## C112: the pseudo inverse -/

/-- The four conditions of Penrose. -/
structure IsPinv (A X : Matrix n n ℂ) : Prop where
  axa : A * X * A = A
  xax : X * A * X = X
  ax : (A * X)ᴴ = A * X
  xa : (X * A)ᴴ = X * A

/-- What `pseudo_inversion` encodes: a right singular vector v is mapped to p(s/alpha)/alpha times the left singular vector u (the pseudo inverse maps
u to v/s). -/
theorem pseudo_inversion_encodes {B : BE n} (hB : B.Valid) (ha : 0 < B.alpha) {L : ℕ} (hL : 2 ≤ L) (p : ℕ → ℝ) {M : ℝ} (hM : 0 < M) {q : ℕ → ℝ}
    (hq : Completes (analyticDeg L false) (fun k => q k) (scaled M (fun k => (analytic L false (chebCoeffs L B.alpha .cheb false p) k : ℂ))))
    {g h : ℝ[X]} (hp : chebPoly L p = g.comp (X ^ 2) + X * h.comp (X ^ 2)) {u v : n → ℂ} {s : ℝ} (h1 : B.enc *ᵥ v = (s : ℂ) • u) (h2 : B.encᴴ *ᵥ u = (s : ℂ) • v) :
    (B.pseudoInversion L p M (fun k => q k)).Valid
      ∧ (B.pseudoInversion L p M (fun k => q k)).enc *ᵥ v = (((1 / B.alpha) * (X * h.comp (X ^ 2)).eval (s / B.alpha) : ℝ) : ℂ) • u := by
  have hv := qsvt_valid hB L p .cheb false false hM (fun k => (q k : ℂ))
  refine ⟨⟨hv.unitary, hv.herm, div_nonneg hv.alpha ha.le⟩, ?_⟩
  have hs : (B.pseudoInversion L p M (fun k => q k)).enc = ((1 / B.alpha : ℝ) : ℂ) • (B.qsvt L p .cheb false false M (fun k => q k)).enc := by
    ext i j
    simp only [BE.enc, BE.pseudoInversion, Matrix.smul_apply, smul_eq_mul]
    push_cast; ring
  rw [hs, (qsvt_odd hB ha hL p .cheb false hM hq hp).2]
  simp only [Bool.false_eq_true, if_false]
  rw [Matrix.smul_mulVec, odd_singular h1 h2, smul_smul, ← Complex.ofReal_mul, div_eq_inv_mul s, ← one_div]

/-- A cyclic permutation of the four states. -/
def nilPerm : Bool × Bool → Bool × Bool
  | (false, true) => (false, false)
  | (false, false) => (true, false)
  | (true, false) => (true, true)
  | (true, true) => (false, true)

/-- Its matrix. -/
def nilU : Matrix (Bool × Bool) (Bool × Bool) ℂ := fun x y => if x = nilPerm y then 1 else 0

/-- A block encoding of |0><1| (alpha = 1). -/
def nilBE : BE Bool where
  anc := Bool
  zero := false
  ancs := 1
  U := nilU
  alpha := 1
  herm := false

theorem nilU_unitary : IsU nilU := by
  rw [IsU]
  ext x y
  rw [mul_apply, one_apply]
  have hinj : nilPerm y = nilPerm x ↔ x = y := by revert x y; decide
  simp [conjTranspose_apply, nilU, hinj]

theorem nilBE_valid : nilBE.Valid := ⟨nilU_unitary, fun h => by simp [nilBE] at h, by simp [nilBE]⟩

/-- Finding: for A = |0><1|, whose pseudo inverse is |1><0|, no polynomial makes `pseudo_inversion` encode a matrix within distance less than 1 of it:
a multiple of A is encoded, since QSVT is applied to A instead of its adjoint. -/
theorem pseudo_inversion_witness : IsPinv nilBE.enc nilBE.encᴴ ∧ nilBE.encᴴ ≠ 0
    ∧ ∀ (L : ℕ) (p q : ℕ → ℝ) (M : ℝ), 2 ≤ L → 0 < M → Completes (analyticDeg L false) (fun k => q k) (scaled M (fun k => (analytic L false (chebCoeffs L nilBE.alpha .cheb false p) k : ℂ)))
      → 1 ≤ ‖(nilBE.pseudoInversion L p M (fun k => q k)).enc - nilBE.encᴴ‖ := by
  have he : ∀ i j, nilBE.enc i j = if i = false ∧ j = true then 1 else 0 := by
    intro i j
    show ((1 : ℝ) : ℂ) * nilU (false, i) (false, j) = _
    cases i <;> cases j <;> simp [nilU, nilPerm]
  refine ⟨⟨?_, ?_, ?_, ?_⟩, ?_, ?_⟩
  · ext i j; simp only [mul_apply, Fintype.sum_bool, he, conjTranspose_apply]; cases i <;> cases j <;> simp
  · ext i j; simp only [mul_apply, Fintype.sum_bool, he, conjTranspose_apply]; cases i <;> cases j <;> simp
  · ext i j; simp only [mul_apply, Fintype.sum_bool, he, conjTranspose_apply]; cases i <;> cases j <;> simp
  · ext i j; simp only [mul_apply, Fintype.sum_bool, he, conjTranspose_apply]; cases i <;> cases j <;> simp
  · intro h
    have := congrFun (congrFun h true) false
    simp [conjTranspose_apply, he] at this
  · intro L p q M hL hM hq
    obtain ⟨g, h, hp⟩ := split_parity (chebPoly L p)
    have h1 : nilBE.enc *ᵥ (fun b => if b = false then 1 else 0) = ((0 : ℝ) : ℂ) • (fun b => if b = true then (1 : ℂ) else 0) := by
      funext i; simp [mulVec, dotProduct, he]
    have h2 : nilBE.encᴴ *ᵥ (fun b => if b = true then 1 else 0) = ((0 : ℝ) : ℂ) • (fun b => if b = false then (1 : ℂ) else 0) := by
      funext i; simp [mulVec, dotProduct, he]
    have h3 := (pseudo_inversion_encodes nilBE_valid (by norm_num [nilBE]) hL p hM hq hp h1 h2).2
    set E := (nilBE.pseudoInversion L p M (fun k => q k)).enc - nilBE.encᴴ with hE
    have h5 : E *ᵥ (fun b => if b = false then 1 else 0) = fun b => if b = true then -1 else 0 := by
      rw [hE, Matrix.sub_mulVec, h3]
      have h6 : nilBE.encᴴ *ᵥ (fun b => if b = false then 1 else 0) = fun b => if b = true then 1 else 0 := by
        funext i; simp [mulVec, dotProduct, he]
      rw [h6]
      funext i
      simp only [Pi.sub_apply, Pi.smul_apply, smul_eq_mul, zero_div, eval_mul, eval_X, zero_mul, mul_zero, Complex.ofReal_zero, zero_sub]
      cases i <;> simp
    have h7 := l2_opNorm_mulVec E (WithLp.toLp 2 (fun b => if b = false then 1 else 0))
    rw [WithLp.ofLp_toLp, h5, EuclideanSpace.norm_eq, EuclideanSpace.norm_eq] at h7
    simpa using h7

end Verif.Props
