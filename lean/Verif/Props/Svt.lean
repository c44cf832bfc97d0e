import Verif.Blk.Svt2
import Verif.Props.Gqet

/-!
# Properties C109, C110: singular value transformations

The specification evaluates polynomials (Mathlib's `aeval`) of A†A and AA†: for p(x) = g(x²) + x h(x²) and a singular value decomposition A = U Σ V†,
g(A†A) = V p(Σ) V† if h = 0, and A h(A†A) = U p(Σ) V† if g = 0.
-/

namespace Verif.Props

open Matrix Polynomial Verif.Blk
open Polynomial.Chebyshev (T)
open scoped ComplexConjugate

variable {n a : Type} [Fintype n] [DecidableEq n] [Fintype a] [DecidableEq a]

theorem real_theta {d : ℕ} {M : ℝ} {q c : ℕ → ℝ} :
    thetaA d (nlftSeq d M (fun k => q k) (fun k => c k)) = (fun _ => 0) ∧ lambdaA (nlftSeq d M (fun k => q k) (fun k => c k)) = 0 := by
  have re : ∀ j, (nlftSeq d M (fun k => (q k : ℂ)) (fun k => (c k : ℂ)) j).re = 0 := fun j => qet_layers_re (q := q) (c := c) j
  have r : ∀ j, thetaRaw d (nlftSeq d M (fun k => (q k : ℂ)) (fun k => (c k : ℂ))) j = 0 := by
    intro j; rw [thetaRaw, psi_imag (re _), psi_imag (re _)]; simp
  constructor
  · funext j
    rw [thetaA, r, r]; simp
  · rw [lambdaA, psi_imag (re 0)]

/-- The block of the circuit of `QSVT` for the array `b`, whose first half is zero. -/
theorem qsvt_block (z : a) {U : Matrix (a × n) (a × n) ℂ} (hU : IsU U) {d e o : ℕ} (hd : d = 2 * e + o) (h1 : 1 ≤ d) {M : ℝ} {q b : ℕ → ℝ}
    (hq : Completes d (fun k => q k) (scaled M (fun k => b k))) (hb : ∀ k < e + o, b k = 0) (i j : n) :
    blk (false, z) (qsvtU z U d (qsvtPhi d (qspPhi d (phiA d (nlftSeq d M (fun k => q k) (fun k => b k)))))) i j
      = ((0.99 / M : ℝ) : ℂ) * (∑ k ∈ Finset.range (e + 1), (b (e + o + k) : ℂ) • aeval (hermN (blk z U)ᴴ) (T ℂ ((2 * k + o : ℕ) : ℤ))) (decide (d % 2 = 1), i) (false, j) := by
  set phi := phiA d (nlftSeq d M (fun k => (q k : ℂ)) (fun k => (b k : ℂ))) with hphi
  set psi := qsvtPhi d (qspPhi d phi) with hpsi
  set R := padL Bool (reflM n z) with hRdef
  set K := hermK Uᴴ with hKdef
  set F := embB n z with hFdef
  have hF : Fᴴ * F = 1 := ct_embB_embB z
  have hRe : R = 2 • (F * Fᴴ) - 1 := reflB_eq z
  have hR : R * R = 1 := by rw [hRdef, padL_mul, refl_refl, padL_one]
  have hRh : Rᴴ = R := by rw [hRdef, padL_ct, refl_ct]
  have hRF : R * F = F := by
    rw [hRe, Matrix.sub_mul, Matrix.smul_mul, Matrix.mul_assoc, hF, Matrix.mul_one, Matrix.one_mul, two_smul, add_sub_cancel_right]
  have hFR : Fᴴ * R = Fᴴ := by
    rw [hRe, Matrix.mul_sub, Matrix.mul_smul, ← Matrix.mul_assoc, hF, Matrix.mul_one, Matrix.one_mul, two_smul, add_sub_cancel_right]
  have hKu : IsU K := hermK_unitary hU.ct
  have hKh : Kᴴ = K := hermK_herm _
  have hKK : K * K = 1 := by have := hKu; rwa [IsU, hKh] at this
  set J := walkJ R K with hJdef
  have hJ : IsU J := walkJ_unitary hR hRh hKu
  have hJI : R * J * R = Jᴴ := walkJ_inv hR hRh hKh
  have ent : ∀ ps : ℕ → ℝ, blk z (seqR (reflM n z) (altU U) d ps) i j = (Fᴴ * seqR R (fun _ => K) d ps * F) (decide (d % 2 = 1), i) (false, j) := by
    intro ps
    rw [← seqR_lift, mul_embB, ct_embB_mul]
    rfl
  have pw : ∀ k : ℕ, Fᴴ * J ^ k * F = aeval (hermN (blk z U)ᴴ) (T ℂ (k : ℤ)) := by
    intro k
    have w := walk_gen hRe hF hKK k
    rw [show Fᴴ * K * F = hermN (blk z U)ᴴ from hermK_blk z Uᴴ] at w
    rw [← w, hJdef, walkJ_pow hR]
    have : Fᴴ * (eR R (Real.pi / 4) * (R * K) ^ k * eR R (-(Real.pi / 4))) * F = (Fᴴ * eR R (Real.pi / 4)) * (R * K) ^ k * (eR R (-(Real.pi / 4)) * F) := by
      simp only [Matrix.mul_assoc]
    rw [this, eR_row hFR, eR_col hRF, Matrix.smul_mul, Matrix.smul_mul, Matrix.mul_smul, smul_smul, ← Complex.exp_add]
    rw [show Complex.I * ((Real.pi / 4 : ℝ) : ℂ) + Complex.I * ((-(Real.pi / 4) : ℝ) : ℂ) = 0 by push_cast; ring, Complex.exp_zero, one_smul]
  have hg := (gqsp_col (real_inv hq) (fun j _ => Or.inl (qet_layers_re j)) (hJ.mul hJ) (Nat.zero_le d)).1
  rw [← pow_two] at hg
  have hth := real_theta (d := d) (M := M) (q := q) (c := b)
  have hg' : colB (gqsp (J ^ 2) d 0 (fun _ => 0) phi 0) false = Complex.I • ev d (scaled M (fun k => (b k : ℂ))) (J ^ 2) := by
    have e1 : thetaA d (layers d (fun k => conj ((q k : ℝ) : ℂ), scaled M (fun k => (b k : ℂ)))) = fun _ => 0 := hth.1
    have e2 : lambdaA (layers d (fun k => conj ((q k : ℝ) : ℂ), scaled M (fun k => (b k : ℂ)))) = 0 := hth.2
    rw [e1, e2, pow_zero, Matrix.one_mul] at hg
    exact hg
  have cancel : ∀ i k : ℕ, Jᴴ ^ i * J ^ (i + k) = J ^ k := by
    intro i k
    induction i with
    | zero => simp
    | succ i ih =>
      rw [pow_succ, show i + 1 + k = (i + k) + 1 by ring, pow_succ' J, Matrix.mul_assoc, ← Matrix.mul_assoc Jᴴ J, hJ, Matrix.one_mul, ih]
  have sum : Jᴴ ^ d * ev d (fun k => (b k : ℂ)) (J ^ 2) = ∑ k ∈ Finset.range (e + 1), (b (e + o + k) : ℂ) • J ^ (2 * k + o) := by
    rw [ev, show d + 1 = (e + o) + (e + 1) by omega, Finset.sum_range_add, Finset.sum_eq_zero, zero_add, Finset.mul_sum]
    · apply Finset.sum_congr rfl; intro k _
      rw [Matrix.mul_smul, ← pow_mul, show 2 * (e + o + k) = d + (2 * k + o) by omega, cancel]
    · intro k hk
      rw [hb k (Finset.mem_range.mp hk), Complex.ofReal_zero, zero_smul]
  have main : (1 / 2 : ℂ) • (Fᴴ * seqR R (fun _ => K) d psi * F + Fᴴ * seqR R (fun _ => K) d (fun j => -psi j) * F)
      = ((0.99 / M : ℝ) : ℂ) • ∑ k ∈ Finset.range (e + 1), (b (e + o + k) : ℂ) • aeval (hermN (blk z U)ᴴ) (T ℂ ((2 * k + o : ℕ) : ℤ)) := by
    have sb := seqR_block hR K hRF hFR h1 phi
    rw [hpsi, sb.1, sb.2, ← Matrix.add_mul, ← Matrix.mul_add, ← Matrix.smul_mul, ← Matrix.mul_smul, seqR_gqsp hR hJ hJI d phi, hg', ev_scaled, smul_smul, Matrix.mul_smul, sum, Matrix.mul_smul, Matrix.smul_mul,
      Matrix.mul_sum, Matrix.sum_mul]
    congr 1
    · linear_combination (-((0.99 / M : ℝ) : ℂ)) * Complex.I_mul_I
    · apply Finset.sum_congr rfl; intro k _
      rw [Matrix.mul_smul, Matrix.smul_mul, pw]
  rw [qsvtU_blk, Matrix.smul_apply, Matrix.add_apply, ent, ent, ← Matrix.add_apply, ← Matrix.smul_apply, main, Matrix.smul_apply, smul_eq_mul]

theorem scale_even {A D : Matrix n n ℂ} {alpha : ℝ} (ha : 0 < alpha) (hD : D = ((1 / alpha : ℝ) : ℂ) • A) (rescale : Bool) (g : ℝ[X]) :
    aeval (Dᴴ * D) (if rescale then g.comp (C (alpha ^ 2) * X) else g) = aeval (((if rescale then 1 else (1 / alpha) ^ 2 : ℝ) : ℂ) • (Aᴴ * A)) g := by
  have hDe : Dᴴ * D = (((1 / alpha) ^ 2 : ℝ) : ℂ) • (Aᴴ * A) := by
    rw [hD, conjTranspose_smul, Complex.star_def, Complex.conj_ofReal, Matrix.smul_mul, Matrix.mul_smul, smul_smul]
    congr 1
    push_cast; ring
  cases rescale
  · simp only [Bool.false_eq_true, if_false]; rw [hDe]
  · simp only [if_true]
    rw [aeval_scale, hDe, smul_smul]
    congr 3
    rw [← Complex.ofReal_mul]
    congr 1
    field_simp

theorem scale_odd {A D : Matrix n n ℂ} {alpha : ℝ} (ha : 0 < alpha) (hD : D = ((1 / alpha : ℝ) : ℂ) • A) (rescale : Bool) (h : ℝ[X]) :
    D * aeval (Dᴴ * D) (if rescale then C alpha * h.comp (C (alpha ^ 2) * X) else h)
      = ((if rescale then 1 else 1 / alpha : ℝ) : ℂ) • (A * aeval (((if rescale then 1 else (1 / alpha) ^ 2 : ℝ) : ℂ) • (Aᴴ * A)) h) := by
  have e := scale_even ha hD rescale h
  cases rescale
  · simp only [Bool.false_eq_true, if_false] at e ⊢
    rw [e, hD, Matrix.smul_mul]
  · simp only [if_true] at e ⊢
    rw [map_mul, aeval_C, e, Algebra.algebraMap_eq_smul_one, Matrix.smul_mul, Matrix.one_mul, hD, Matrix.smul_mul, Matrix.mul_smul, ← Complex.coe_smul, smul_smul,
      ← Complex.ofReal_mul, one_div, inv_mul_cancel₀ ha.ne']

/-- The coefficients used for the angles, split by parity. -/
theorem cheb_split {L : ℕ} (alpha : ℝ) (kind : PKind) (rescale : Bool) {p : ℕ → ℝ} {g h : ℝ[X]} (hp : target L kind p = g.comp (X ^ 2) + X * h.comp (X ^ 2)) :
    chebPoly L (chebCoeffs L alpha kind rescale p) = (if rescale then g.comp (C (alpha ^ 2) * X) else g).comp (X ^ 2)
      + X * (if rescale then C alpha * h.comp (C (alpha ^ 2) * X) else h).comp (X ^ 2) := by
  rw [chebCoeffs_target]
  cases rescale
  · simp only [Bool.false_eq_true, if_false]; exact hp
  · simp only [if_true]
    rw [hp, add_comp, even_rescale rfl, odd_rescale rfl]

/-! ## C109: QSVT -/

section
variable {B : BE n}

theorem qsvt_valid (hB : B.Valid) (L : ℕ) (p : ℕ → ℝ) (kind : PKind) (even rescale : Bool) {M : ℝ} (hM : 0 < M) (q : ℕ → ℂ) : (B.qsvt L p kind even rescale M q).Valid := by
  refine ⟨?_, fun h => by simp [BE.qsvt] at h, by simp only [BE.qsvt]; positivity⟩
  have hr : ∀ t, IsU (qsvtRefl n B.zero (2 * t)) := by
    intro t; rw [qsvtRefl_eq]
    exact IsU.sel (fun q => eR_unitary (refl_refl _) (refl_ct _) _)
  have hu : ∀ i, IsU (if i % 2 = 0 then B.U else B.Uᴴ) := by
    intro i; split
    · exact hB.unitary
    · exact hB.unitary.ct
  show IsU (qsvtU _ _ _ _)
  rw [qsvtU]
  refine (IsU.bit h_unitary.1).mul ((hr _).mul ?_)
  exact fori_inv (P := fun _ X => IsU X) (Nat.zero_le _) _ _ (IsU.bit h_unitary.1) (fun i X _ _ hX => (IsU.padL (hu i)).mul ((hr _).mul hX))

/-- The encoded matrix of `QSVT` as a block of a polynomial of the hermitized matrix. -/
theorem qsvt_enc (hB : B.Valid) {L : ℕ} {p : ℕ → ℝ} {kind : PKind} {even rescale : Bool} {M : ℝ} (hM : 0 < M) {q : ℕ → ℝ} (hL : if even then 3 ≤ L else 2 ≤ L)
    (hq : Completes (analyticDeg L even) (fun k => q k) (scaled M (fun k => (analytic L even (chebCoeffs L B.alpha kind rescale p) k : ℂ)))) (i j : n) :
    (B.qsvt L p kind even rescale M (fun k => q k)).enc i j
      = aeval (hermN (blk B.zero B.U)ᴴ) (chebPoly L (fun k => if k % 2 = (if even then 0 else 1) then chebCoeffs L B.alpha kind rescale p k else 0)) (!even, i) (false, j) := by
  set c := chebCoeffs L B.alpha kind rescale p with hc
  have hMc : (M : ℂ) ≠ 0 := by exact_mod_cast hM.ne'
  have key : ∀ (o : ℕ), o = (if even then 0 else 1) → ∃ e, analyticDeg L even = 2 * e + o ∧ 1 ≤ analyticDeg L even ∧ e + 1 = (L + 1 - o) / 2 ∧ (∀ k < e + o, analytic L even c k = 0)
      ∧ (∀ k, analytic L even c (e + o + k) = c (2 * k + o)) := by
    intro o ho
    cases even
    · simp only [Bool.false_eq_true, if_false] at ho hL
      subst ho
      refine ⟨L / 2 - 1, ?_, ?_, by omega, ?_, ?_⟩
      · simp only [analyticDeg, Bool.false_eq_true, if_false]; omega
      · simp only [analyticDeg, Bool.false_eq_true, if_false]; omega
      · intro k hk
        simp only [analytic, Bool.false_eq_true, if_false]
        rw [if_pos (by omega)]
      · intro k
        simp only [analytic, Bool.false_eq_true, if_false]
        rw [if_neg (by omega)]
        congr 1; omega
    · simp only [if_true] at ho hL
      subst ho
      refine ⟨(L + 1) / 2 - 1, ?_, ?_, by omega, ?_, ?_⟩
      · simp only [analyticDeg, if_true]; omega
      · simp only [analyticDeg, if_true]; omega
      · intro k hk
        simp only [analytic, if_true]
        rw [if_pos (by omega)]
      · intro k
        simp only [analytic, if_true]
        rw [if_neg (by omega)]
        congr 1; omega
  obtain ⟨e, hd, h1, he, hz, hb⟩ := key _ rfl
  have main := qsvt_block B.zero hB.unitary hd h1 hq hz i j
  have hpar : decide (analyticDeg L even % 2 = 1) = !even := by
    cases even
    · simp only [Bool.false_eq_true, if_false] at hd; simp; omega
    · simp only [if_true] at hd; simp; omega
  rw [hpar] at main
  show ((M / 0.99 : ℝ) : ℂ) * _ = _
  refine (congrArg (fun x => ((M / 0.99 : ℝ) : ℂ) * x) main).trans ?_
  beta_reduce
  rw [← mul_assoc, ← Complex.ofReal_mul, show M / 0.99 * (0.99 / M) = 1 by field_simp, Complex.ofReal_one, one_mul, aeval_chebPoly]
  refine congrFun (congrFun ?_ _) _
  have ho : (if even = true then 0 else 1) ≤ 1 := by cases even <;> simp
  have s := sum_parity (fun k => (c k : ℂ) • aeval (hermN (blk B.zero B.U)ᴴ) (T ℂ (k : ℤ))) _ ho L
  rw [← he] at s
  rw [Finset.sum_congr rfl (fun k _ => by rw [hb k])]
  rw [← s]
  apply Finset.sum_congr rfl; intro k _
  by_cases h : k % 2 = (if even = true then 0 else 1)
  · rw [if_pos h, if_pos h]
  · rw [if_neg h, if_neg h, Complex.ofReal_zero, zero_smul]

/-- `QSVT` with parity "even": the encoded matrix is g(A†A), where g(x²) is the even part of p. -/
theorem qsvt_even (hB : B.Valid) (ha : 0 < B.alpha) {L : ℕ} (hL : 3 ≤ L) (p : ℕ → ℝ) (kind : PKind) (rescale : Bool) {M : ℝ} (hM : 0 < M) {q : ℕ → ℝ}
    (hq : Completes (analyticDeg L true) (fun k => q k) (scaled M (fun k => (analytic L true (chebCoeffs L B.alpha kind rescale p) k : ℂ))))
    {g h : ℝ[X]} (hp : target L kind p = g.comp (X ^ 2) + X * h.comp (X ^ 2)) :
    (B.qsvt L p kind true rescale M (fun k => q k)).Valid
      ∧ (B.qsvt L p kind true rescale M (fun k => q k)).enc = aeval (((if rescale then 1 else (1 / B.alpha) ^ 2 : ℝ) : ℂ) • (B.encᴴ * B.enc)) g := by
  refine ⟨qsvt_valid hB L p kind true rescale hM _, ?_⟩
  ext i j
  rw [qsvt_enc hB hM (by simpa using hL) hq]
  simp only [if_true, Bool.not_true]
  rw [(chebPoly_part L _ _ _ (cheb_split B.alpha kind rescale hp)).1]
  have e := (hermN_entries (blk B.zero B.U)ᴴ (if rescale then g.comp (C (B.alpha ^ 2) * X) else g) 0 i j).1
  rw [zero_comp, mul_zero, add_zero, conjTranspose_conjTranspose] at e
  rw [e, scale_even ha (enc_of_block ha)]

/-- `QSVT` with parity "odd": the encoded matrix is A h(A†A), where x h(x²) is the odd part of p. -/
theorem qsvt_odd (hB : B.Valid) (ha : 0 < B.alpha) {L : ℕ} (hL : 2 ≤ L) (p : ℕ → ℝ) (kind : PKind) (rescale : Bool) {M : ℝ} (hM : 0 < M) {q : ℕ → ℝ}
    (hq : Completes (analyticDeg L false) (fun k => q k) (scaled M (fun k => (analytic L false (chebCoeffs L B.alpha kind rescale p) k : ℂ))))
    {g h : ℝ[X]} (hp : target L kind p = g.comp (X ^ 2) + X * h.comp (X ^ 2)) :
    (B.qsvt L p kind false rescale M (fun k => q k)).Valid
      ∧ (B.qsvt L p kind false rescale M (fun k => q k)).enc
        = ((if rescale then 1 else 1 / B.alpha : ℝ) : ℂ) • (B.enc * aeval (((if rescale then 1 else (1 / B.alpha) ^ 2 : ℝ) : ℂ) • (B.encᴴ * B.enc)) h) := by
  refine ⟨qsvt_valid hB L p kind false rescale hM _, ?_⟩
  ext i j
  rw [qsvt_enc hB hM (by simpa using hL) hq]
  simp only [Bool.false_eq_true, if_false, Bool.not_false]
  rw [(chebPoly_part L _ _ _ (cheb_split B.alpha kind rescale hp)).2]
  have e := (hermN_entries (blk B.zero B.U)ᴴ 0 (if rescale then C B.alpha * h.comp (C (B.alpha ^ 2) * X) else h) i j).2.2
  rw [zero_comp, zero_add, conjTranspose_conjTranspose] at e
  rw [e, scale_odd ha (enc_of_block ha)]

/-! ## C110: GQSVT -/

omit [DecidableEq n] [DecidableEq a] in
theorem colB_mul_padL (V : Matrix (a × n) (a × n) ℂ) (M : Matrix ((Bool × a) × n) ((Bool × a) × n) ℂ) (q : Bool) : colB (M * padL Bool V) q = colB M q * V := by
  ext x y
  simp only [colB, mul_apply, padL, Fintype.sum_prod_type]
  rw [Fintype.sum_bool]
  simp

theorem herm_walk (hB : B.Valid) (k : ℕ) : IsU (padL Bool (reflM n B.zero) * hermK B.U)
    ∧ (embB n B.zero)ᴴ * (padL Bool (reflM n B.zero) * hermK B.U) ^ k * embB n B.zero = aeval (hermN (blk B.zero B.U)) (T ℂ (k : ℤ)) := by
  have hK : hermK B.U * hermK B.U = 1 := by have := hermK_unitary hB.unitary; rwa [IsU, hermK_herm] at this
  refine ⟨(IsU.padL (refl_unitary _)).mul (hermK_unitary hB.unitary), ?_⟩
  rw [walk_gen (reflB_eq B.zero) (ct_embB_embB B.zero) hK k, hermK_blk]

/-- The encoded matrix of `GQSVT` as a block of a polynomial of the hermitized matrix. -/
theorem gqsvt_enc (hB : B.Valid) {d : ℕ} {p : ℕ → ℝ} {kind : PKind} {even rescale : Bool} {M : ℝ} (hM : 0 < M) {q : ℕ → ℝ}
    (hq : Completes d (fun k => q k) (scaled M (fun k => (chebCoeffs (d + 1) B.alpha kind rescale p k : ℂ)))) (i j : n) :
    (B.gqsvt d p kind even rescale M (fun k => q k)).enc i j
      = aeval (hermN (blk B.zero B.U)) (chebPoly (d + 1) (chebCoeffs (d + 1) B.alpha kind rescale p)) (true, i) (even, j) := by
  set c := chebCoeffs (d + 1) B.alpha kind rescale p with hc
  set W := padL Bool (reflM n B.zero) * hermK B.U with hW
  have hMc : (M : ℂ) ≠ 0 := by exact_mod_cast hM.ne'
  have hg := gqsp_real (Nat.zero_le d) (herm_walk hB 0).1 hq
  rw [pow_zero, Matrix.one_mul] at hg
  set G := gqsp W d 0 (thetaA d (nlftSeq d M (fun k => (q k : ℂ)) (fun k => (c k : ℂ)))) (phiA d (nlftSeq d M (fun k => (q k : ℂ)) (fun k => (c k : ℂ)))) (lambdaA (nlftSeq d M (fun k => (q k : ℂ)) (fun k => (c k : ℂ)))) with hG
  have hG2 : colB G false = ((0.99 / M : ℝ) : ℂ) • ev d (fun k => (c k : ℂ)) W := hg
  have hcol : ∀ x y : (Bool × B.anc) × n, (B.gqsvt d p kind even rescale M (fun k => (q k : ℂ))).U ((false, x.1), x.2) ((false, y.1), y.2)
      = (bit B.anc n xM * (colB G false * (if even then bit B.anc n xM else 1))) x y := by
    intro x y
    have e : colB (padL Bool (bit B.anc n xM) * (G * (if even then padL Bool (bit B.anc n xM) else 1))) false = bit B.anc n xM * (colB G false * (if even then bit B.anc n xM else 1)) := by
      rw [colB_padL]
      congr 1
      cases even
      · simp
      · simp only [if_true]; rw [colB_mul_padL]
    rw [← e]; rfl
  have hent : (bit B.anc n xM * (colB G false * (if even then bit B.anc n xM else 1))) ((false, B.zero), i) ((false, B.zero), j) = colB G false ((true, B.zero), i) ((even, B.zero), j) := by
    rw [bit_mul_apply]
    simp only [Fintype.sum_bool, xM]
    cases even
    · simp
    · simp only [if_true, mul_bit_apply, Fintype.sum_bool]; simp [xM]
  have hev : ev d (fun k => (c k : ℂ)) W ((true, B.zero), i) ((even, B.zero), j) = aeval (hermN (blk B.zero B.U)) (chebPoly (d + 1) c) (true, i) (even, j) := by
    have e1 : ((embB n B.zero)ᴴ * ev d (fun k => (c k : ℂ)) W * embB n B.zero) (true, i) (even, j) = ev d (fun k => (c k : ℂ)) W ((true, B.zero), i) ((even, B.zero), j) := by
      rw [mul_embB, ct_embB_mul]
    rw [← e1, ev, Matrix.mul_sum, Matrix.sum_mul, aeval_chebPoly]
    refine congrFun (congrFun ?_ _) _
    apply Finset.sum_congr rfl; intro k _
    rw [Matrix.mul_smul, Matrix.smul_mul, (herm_walk hB k).2]
  show ((M / 0.99 : ℝ) : ℂ) * (B.gqsvt d p kind even rescale M (fun k => (q k : ℂ))).U ((false, (false, B.zero)), i) ((false, (false, B.zero)), j) = _
  rw [hcol ((false, B.zero), i) ((false, B.zero), j), hent, hG2, Matrix.smul_apply, hev, smul_eq_mul, ← mul_assoc, ← Complex.ofReal_mul, show M / 0.99 * (0.99 / M) = 1 by field_simp,
    Complex.ofReal_one, one_mul]

theorem gqsvt_valid (hB : B.Valid) (d : ℕ) (p : ℕ → ℝ) (kind : PKind) (even rescale : Bool) {M : ℝ} (hM : 0 < M) (q : ℕ → ℂ) : (B.gqsvt d p kind even rescale M q).Valid := by
  refine ⟨?_, fun h => by simp [BE.gqsvt] at h, by simp only [BE.gqsvt]; positivity⟩
  have hx : IsU (padL Bool (bit B.anc n xM)) := IsU.padL (IsU.bit x_unitary.1)
  refine hx.mul (IsU.mul (gqsp_unitary (herm_walk hB 0).1 _ _ _ _ _) ?_)
  cases even
  · exact IsU.one
  · exact hx

/-- `GQSVT` with parity "even": the encoded matrix is g(A†A), where g(x²) is the even part of p. -/
theorem gqsvt_even (hB : B.Valid) (ha : 0 < B.alpha) (d : ℕ) (p : ℕ → ℝ) (kind : PKind) (rescale : Bool) {M : ℝ} (hM : 0 < M) {q : ℕ → ℝ}
    (hq : Completes d (fun k => q k) (scaled M (fun k => (chebCoeffs (d + 1) B.alpha kind rescale p k : ℂ))))
    {g h : ℝ[X]} (hp : target (d + 1) kind p = g.comp (X ^ 2) + X * h.comp (X ^ 2)) :
    (B.gqsvt d p kind true rescale M (fun k => q k)).Valid
      ∧ (B.gqsvt d p kind true rescale M (fun k => q k)).enc = aeval (((if rescale then 1 else (1 / B.alpha) ^ 2 : ℝ) : ℂ) • (B.encᴴ * B.enc)) g := by
  refine ⟨gqsvt_valid hB d p kind true rescale hM _, ?_⟩
  ext i j
  rw [gqsvt_enc hB hM hq, cheb_split B.alpha kind rescale hp, (hermN_entries _ _ _ i j).2.1, scale_even ha (enc_of_block ha)]

/-- `GQSVT` with parity "odd": the encoded matrix is A† h(AA†) = (A h(A†A))†, where x h(x²) is the odd part of p. -/
theorem gqsvt_odd (hB : B.Valid) (ha : 0 < B.alpha) (d : ℕ) (p : ℕ → ℝ) (kind : PKind) (rescale : Bool) {M : ℝ} (hM : 0 < M) {q : ℕ → ℝ}
    (hq : Completes d (fun k => q k) (scaled M (fun k => (chebCoeffs (d + 1) B.alpha kind rescale p k : ℂ))))
    {g h : ℝ[X]} (hp : target (d + 1) kind p = g.comp (X ^ 2) + X * h.comp (X ^ 2)) :
    (B.gqsvt d p kind false rescale M (fun k => q k)).Valid
      ∧ (B.gqsvt d p kind false rescale M (fun k => q k)).enc
        = ((if rescale then 1 else 1 / B.alpha : ℝ) : ℂ) • (B.encᴴ * aeval (((if rescale then 1 else (1 / B.alpha) ^ 2 : ℝ) : ℂ) • (B.enc * B.encᴴ)) h) := by
  refine ⟨gqsvt_valid hB d p kind false rescale hM _, ?_⟩
  ext i j
  have hD : (blk B.zero B.U)ᴴ = ((1 / B.alpha : ℝ) : ℂ) • B.encᴴ := by
    rw [enc_of_block ha, conjTranspose_smul, Complex.star_def, Complex.conj_ofReal]
  have s := scale_odd ha hD rescale h
  rw [conjTranspose_conjTranspose, conjTranspose_conjTranspose] at s
  rw [gqsvt_enc hB hM hq, cheb_split B.alpha kind rescale hp, (hermN_entries _ _ _ i j).2.2, s]

/-! ### Singular vectors -/

theorem aeval_vec {A : Matrix n n ℂ} {v : n → ℂ} {x : ℝ} (h : A *ᵥ v = (x : ℂ) • v) (g : ℝ[X]) : aeval A g *ᵥ v = ((g.eval x : ℝ) : ℂ) • v := by
  have hp : ∀ k : ℕ, A ^ k *ᵥ v = ((x ^ k : ℝ) : ℂ) • v := by
    intro k
    induction k with
    | zero => simp
    | succ k ih => rw [pow_succ, ← Matrix.mulVec_mulVec, h, Matrix.mulVec_smul, ih, smul_smul]; congr 1; push_cast; ring
  induction g using Polynomial.induction_on' with
  | add p q hp hq => rw [map_add, Matrix.add_mulVec, hp, hq, eval_add, Complex.ofReal_add, add_smul]
  | monomial k c =>
    rw [aeval_monomial, Algebra.algebraMap_eq_smul_one, Matrix.smul_mul, Matrix.one_mul, Matrix.smul_mulVec, hp, eval_monomial, ← Complex.coe_smul, smul_smul, ← Complex.ofReal_mul]

/-- The matrix A h(A†A) maps a right singular vector to the left singular vector times x h(x²). -/
theorem odd_singular {A : Matrix n n ℂ} {u v : n → ℂ} {s x : ℝ} (h1 : A *ᵥ v = (x : ℂ) • u) (h2 : Aᴴ *ᵥ u = (x : ℂ) • v) (h : ℝ[X]) :
    ((s : ℂ) • (A * aeval (((s ^ 2 : ℝ) : ℂ) • (Aᴴ * A)) h)) *ᵥ v = (((X * h.comp (X ^ 2)).eval (s * x) : ℝ) : ℂ) • u := by
  have e : (((s ^ 2 : ℝ) : ℂ) • (Aᴴ * A)) *ᵥ v = (((s * x) ^ 2 : ℝ) : ℂ) • v := by
    rw [Matrix.smul_mulVec, ← Matrix.mulVec_mulVec, h1, Matrix.mulVec_smul, h2, smul_smul, smul_smul]
    congr 1; push_cast; ring
  rw [Matrix.smul_mulVec, ← Matrix.mulVec_mulVec, aeval_vec e, Matrix.mulVec_smul, h1, smul_smul, smul_smul]
  congr 1
  simp only [eval_mul, eval_X, eval_comp, eval_pow]
  push_cast; ring

theorem even_singular {A : Matrix n n ℂ} {u v : n → ℂ} {s x : ℝ} (h1 : A *ᵥ v = (x : ℂ) • u) (h2 : Aᴴ *ᵥ u = (x : ℂ) • v) (g : ℝ[X]) :
    aeval (((s ^ 2 : ℝ) : ℂ) • (Aᴴ * A)) g *ᵥ v = (((g.comp (X ^ 2)).eval (s * x) : ℝ) : ℂ) • v := by
  have e : (((s ^ 2 : ℝ) : ℂ) • (Aᴴ * A)) *ᵥ v = (((s * x) ^ 2 : ℝ) : ℂ) • v := by
    rw [Matrix.smul_mulVec, ← Matrix.mulVec_mulVec, h1, Matrix.mulVec_smul, h2, smul_smul, smul_smul]
    congr 1; push_cast; ring
  rw [aeval_vec e, eval_comp, eval_pow, eval_X]

end

/-! ### Finding -/

/-- Finding: the angles for a constant polynomial are shifted by π/4: the encoded matrix for the constant 1 is not the identity. -/
theorem qsvt_constant_witness : Completes (analyticDeg 1 true) (fun k => ((if k = 0 then rt else 0 : ℝ) : ℂ)) (scaled 1 (fun k => (analytic 1 true (chebCoeffs 1 sample.alpha .poly true (fun _ => 1)) k : ℂ)))
    ∧ aeval sample.enc (target 1 .poly (fun _ => 1)) = 1
    ∧ (sample.qsvt 1 (fun _ => 1) .poly true true 1 (fun k => ((if k = 0 then rt else 0 : ℝ) : ℂ))).enc ≠ 1 := by
  have c0 : chebCoeffs 1 sample.alpha .poly true (fun _ => 1) 0 = 1 := by
    refine chebPoly_inj (N := 1) (c' := fun _ => 1) ?_ (by norm_num)
    rw [chebCoeffs_target, if_pos rfl, target, powPoly, chebPoly]
    simp
  have a0 : analytic 1 true (chebCoeffs 1 sample.alpha .poly true (fun _ => 1)) 0 = 1 := by
    simp [analytic, c0]
  have hd : analyticDeg 1 true = 0 := rfl
  have n9 : ‖-Complex.I * (((0.99 : ℝ) : ℂ) * (((1 : ℝ) : ℂ) / ((1 : ℝ) : ℂ)))‖ = 0.99 := by
    rw [norm_mul, norm_neg, Complex.norm_I, one_mul, div_self (by norm_num), mul_one, Complex.norm_real]; norm_num
  have comp : Completes 0 (fun k => ((if k = 0 then rt else 0 : ℝ) : ℂ)) (scaled 1 (fun k => (analytic 1 true (chebCoeffs 1 sample.alpha .poly true (fun _ => 1)) k : ℂ))) := by
    refine ⟨?_, rt, rt_pos, by simp⟩
    intro z _
    rw [ev, ev]
    simp only [Finset.sum_range_succ, Finset.sum_range_zero, pow_zero, smul_eq_mul, mul_one, zero_add, if_true, scaled]
    rw [a0, n9, Complex.norm_real, Real.norm_eq_abs, sq_abs, sq, rt_sq]; norm_num
  refine ⟨by rw [hd]; exact comp, ?_, ?_⟩
  · rw [target, powPoly]; simp
  · intro h
    set phi := phiA 0 (nlftSeq 0 1 (fun k => ((if k = 0 then rt else 0 : ℝ) : ℂ)) (fun k => (analytic 1 true (chebCoeffs 1 sample.alpha .poly true (fun _ => 1)) k : ℂ))) with hphi
    have hg := (gqsp_col (real_inv (q := fun k => if k = 0 then rt else 0) comp) (fun j _ => Or.inl (qet_layers_re j)) (IsU.one (ι := Unit × Unit)) (Nat.zero_le 0)).1
    have hth := real_theta (d := 0) (M := 1) (q := fun k => if k = 0 then rt else 0) (c := analytic 1 true (chebCoeffs 1 sample.alpha .poly true (fun _ => 1)))
    have e1 : thetaA 0 (layers 0 (fun k => conj ((if k = 0 then rt else 0 : ℝ) : ℂ), scaled 1 (fun k => (analytic 1 true (chebCoeffs 1 sample.alpha .poly true (fun _ => 1)) k : ℂ)))) = fun _ => 0 := hth.1
    have e2 : lambdaA (layers 0 (fun k => conj ((if k = 0 then rt else 0 : ℝ) : ℂ), scaled 1 (fun k => (analytic 1 true (chebCoeffs 1 sample.alpha .poly true (fun _ => 1)) k : ℂ)))) = 0 := hth.2
    have e0 : phiA 0 (layers 0 (fun k => conj ((if k = 0 then rt else 0 : ℝ) : ℂ), scaled 1 (fun k => (analytic 1 true (chebCoeffs 1 sample.alpha .poly true (fun _ => 1)) k : ℂ)))) = phi := rfl
    rw [e1, e2, e0] at hg
    have hcos : Real.cos (phi 0) = 0.99 := by
      have := congrFun (congrFun hg ((), ())) ((), ())
      rw [gqsp] at this
      simp only [fori_self, Nat.sub_self] at this
      rw [rz_zero, bit_one, Matrix.one_mul, Matrix.mul_one, ← Matrix.mul_one (bit Unit Unit _), colB_bit, colB_one, colB_one, (rM_apply 0 _).1, ev_scaled, ev] at this
      simp only [zero_add, Finset.sum_range_one, pow_zero, Bool.false_eq_true, if_false, if_true, a0, Matrix.one_mul] at this
      simp only [Matrix.add_apply, Matrix.smul_apply, smul_eq_mul, Matrix.one_apply_eq, Matrix.zero_apply] at this
      have e : ((Real.cos (phi 0) : ℝ) : ℂ) = ((0.99 : ℝ) : ℂ) := by
        have e3 : ((Real.cos (phi 0) : ℝ) : ℂ) = Complex.I * (-Complex.I * ((0.99 / 1 : ℝ) : ℂ) * (((1 : ℝ) : ℂ) * 1)) := by
          rw [← this]; simp
        rw [e3, Complex.ofReal_one]
        push_cast
        linear_combination (-0.99) * Complex.I_mul_I
      exact_mod_cast e
    have hb := congrFun (congrFun h ()) ()
    have hq := qsvtU_blk sample.zero sample.U 0 (qsvtPhi 0 (qspPhi 0 phi))
    have hv : qsvtPhi 0 (qspPhi 0 phi) 0 = phi 0 - Real.pi / 4 := by
      simp [qsvtPhi, qspPhi]
    have hs : ∀ t : ℕ → ℝ, blk sample.zero (seqR (reflM Unit sample.zero) (altU sample.U) 0 t) () () = Complex.exp (Complex.I * t 0) := by
      intro t
      rw [seqR, fori_self, Matrix.mul_one, blk, eR_refl_apply]
      simp
    have hb2 : blk (false, sample.zero) (qsvtU sample.zero sample.U 0 (qsvtPhi 0 (qspPhi 0 phi))) () () = ((Real.cos (phi 0 - Real.pi / 4) : ℝ) : ℂ) := by
      rw [hq, Matrix.smul_apply, Matrix.add_apply, hs, hs, hv, exp_eR, exp_eR, Real.cos_neg, Real.sin_neg]
      simp only [smul_eq_mul]; push_cast; ring
    have hb3 : (((1 / 0.99 : ℝ) : ℝ) : ℂ) * blk (false, sample.zero) (qsvtU sample.zero sample.U 0 (qsvtPhi 0 (qspPhi 0 phi))) () () = 1 := hb
    rw [hb2, ← Complex.ofReal_mul] at hb3
    have hb4 : 1 / 0.99 * Real.cos (phi 0 - Real.pi / 4) = 1 := by exact_mod_cast hb3
    rw [Real.cos_sub, Real.cos_pi_div_four, Real.sin_pi_div_four, hcos] at hb4
    have hsin := Real.sin_sq_add_cos_sq (phi 0)
    rw [hcos] at hsin
    have h2 : Real.sqrt 2 * Real.sqrt 2 = 2 := Real.mul_self_sqrt (by norm_num)
    have h3 : Real.sqrt 2 ≤ 1.5 := by nlinarith [Real.sqrt_nonneg 2]
    have h4 : 0 ≤ Real.sqrt 2 := Real.sqrt_nonneg 2
    have h5 : Real.sin (phi 0) ≤ 0.15 := by nlinarith
    have h6 : 1.41 ≤ Real.sqrt 2 := by nlinarith
    nlinarith

/-! ### Examples -/

theorem sample_comp2 : Completes (analyticDeg 2 false) (fun k => ((if k = 0 then rt else 0 : ℝ) : ℂ)) (scaled 5 (fun k => (analytic 2 false (chebCoeffs 2 sample.alpha .poly true (fun k => if k = 1 then 1 else 0)) k : ℂ))) := by
  have h := sample_comp
  have hcc : ∀ k < 2, chebCoeffs 2 sample.alpha .poly true (fun k => if k = 1 then 1 else 0) k = if k = 1 then 5 else 0 := by
    intro k hk
    refine chebPoly_inj (N := 2) (c' := fun k => if k = 1 then 5 else 0) ?_ hk
    rw [chebCoeffs_target, if_pos rfl, target, powPoly, chebPoly]
    simp only [Finset.sum_range_succ, Finset.sum_range_zero]
    simp [sample]
  refine ⟨?_, h.2⟩
  intro z hz
  refine Eq.trans ?_ (h.1 z hz)
  congr 3
  show ev 1 _ z = ev 1 _ z
  apply ev_congr; intro k hk
  have : k = 0 ∨ k = 1 := by omega
  rcases this with rfl | rfl
  · simp only [scaled, analytic]
    rw [hcc 0 (by norm_num)]; simp
  · simp only [scaled, analytic]
    simp

/-- The polynomial x as [0, 1] is encoded as A = 3. -/
example : (sample.qsvt 2 (fun k => if k = 1 then 1 else 0) .poly false true 5 (fun k => ((if k = 0 then rt else 0 : ℝ) : ℂ))).enc = (3 : ℂ) • (1 : Matrix Unit Unit ℂ) := by
  rw [(qsvt_odd sample_valid (by norm_num [sample]) le_rfl _ .poly true (by norm_num) sample_comp2 (g := 0) (h := 1) (by
    rw [target, powPoly]
    simp only [Finset.sum_range_succ, Finset.sum_range_zero]
    simp)).2]
  rw [sample_enc, map_one]
  simp

/-- The same by `GQSVT`. -/
example : (sample.gqsvt 1 (fun k => if k = 1 then 1 else 0) .poly false true 5 (fun k => ((if k = 0 then rt else 0 : ℝ) : ℂ))).enc = (3 : ℂ) • (1 : Matrix Unit Unit ℂ) := by
  rw [(gqsvt_odd sample_valid (by norm_num [sample]) 1 _ .poly true (by norm_num) sample_comp (g := 0) (h := 1) (by
    rw [target, powPoly]
    simp only [Finset.sum_range_succ, Finset.sum_range_zero]
    simp)).2]
  rw [sample_herm, sample_enc, map_one]
  simp

end Verif.Props
