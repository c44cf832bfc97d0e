import Mathlib.Analysis.CStarAlgebra.Matrix
import Mathlib.Analysis.Matrix.PosDef
import Verif.Blk.Cks
import Verif.Blk.Svt2

/-!
Matrix inversion: `inversion` and `pseudo_inversion` (algorithms/gqsp), and the operator norm of encoded matrices.
-/

namespace Verif.Blk

open Matrix Polynomial
open scoped Matrix.Norms.L2Operator

variable {n a : Type} [Fintype n] [DecidableEq n] [Fintype a] [DecidableEq a]

/-- `method` (inversion.py:34). -/
inductive InvMethod
  | qet
  | qsvt
  | gqsvt

/-- `inversion(A, eps, kappa, method)` (inversion.py:149-171); M and q are the maximum and the completion of the angle finding. -/
noncomputable def BE.inversion (B : BE n) (eps kappa : ℝ) (method : InvMethod) (M : ℝ) (q : ℕ → ℂ) : BE n :=
  let P := cksParams eps (1 / (1 / kappa)) none
  let p := invCheb P.2
  let C : BE n := match method with
    | .qet => B.qet (2 * (P.1 + 1) - 1) p .cheb false M q
    | .qsvt => B.dagger.qsvt (2 * (P.1 + 1)) p .cheb false false M q
    | .gqsvt => B.gqsvt (2 * (P.1 + 1) - 1) p .cheb false false M q
  { C with alpha := C.alpha / B.alpha }

/-- `pseudo_inversion(A, eps, theta, delta)` (pseudo_inversion.py:192-199) for the polynomial `p` of length `L` of
`_pseudo_inversion_cheb`, which is not modelled; the default parity of `QSVT` is "odd". -/
noncomputable def BE.pseudoInversion (B : BE n) (L : ℕ) (p : ℕ → ℝ) (M : ℝ) (q : ℕ → ℂ) : BE n :=
  let C := B.qsvt L p .cheb false false M q
  { C with alpha := C.alpha / B.alpha }

/-! ### Norms -/

/-- The block with the ancillas |0>. -/
def embZ (n : Type) [DecidableEq n] (z : a) : Matrix (a × n) n ℂ := fun x y => if x = (z, y) then 1 else 0

theorem embZ_iso (z : a) : (embZ n z)ᴴ * embZ n z = 1 := by
  ext i j
  rw [mul_apply]
  simp only [conjTranspose_apply, embZ]
  by_cases h : i = j
  · subst h; simp
  · simp [h, Ne.symm h]

theorem blk_embZ (z : a) (U : Matrix (a × n) (a × n) ℂ) : blk z U = (embZ n z)ᴴ * (U * embZ n z) := by
  ext i j
  rw [mul_apply]
  have : ∀ x, (U * embZ n z) x j = U x (z, j) := by intro x; rw [mul_apply]; simp [embZ]
  simp [this, embZ, blk]

theorem norm_one_le : ‖(1 : Matrix n n ℂ)‖ ≤ 1 := by
  rw [show (1 : Matrix n n ℂ) = diagonal 1 from (diagonal_one).symm, l2_opNorm_diagonal]
  exact (pi_norm_le_iff_of_nonneg (by norm_num)).2 fun i => by simp

theorem norm_iso {m : Type} [Fintype m] [DecidableEq m] {V : Matrix m n ℂ} (h : Vᴴ * V = 1) : ‖V‖ ≤ 1 := by
  have := l2_opNorm_conjTranspose_mul_self V
  rw [h] at this
  have h1 := norm_one_le (n := n)
  have h0 := norm_nonneg V
  nlinarith

theorem norm_blk {z : a} {U : Matrix (a × n) (a × n) ℂ} (hU : Uᴴ * U = 1) : ‖blk z U‖ ≤ 1 := by
  rw [blk_embZ]
  have h1 := norm_iso (embZ_iso (n := n) z)
  have h2 := norm_iso hU
  have h3 : ‖(embZ n z)ᴴ‖ ≤ 1 := by rw [l2_opNorm_conjTranspose]; exact h1
  refine (l2_opNorm_mul _ _).trans ((mul_le_of_le_one_left (norm_nonneg _) h3).trans ((l2_opNorm_mul _ _).trans ?_))
  exact mul_le_one₀ h2 (norm_nonneg _) h1

theorem aeval_diag (d : n → ℝ) (g : ℝ[X]) : aeval (diagonal (fun i => (d i : ℂ)) : Matrix n n ℂ) g = diagonal (fun i => ((g.eval (d i) : ℝ) : ℂ)) := by
  have h := aeval_algHom_apply (diagonalAlgHom ℝ (n := n) (α := ℂ)) (fun i => (d i : ℂ)) g
  rw [diagonalAlgHom_apply, diagonalAlgHom_apply] at h
  rw [h]
  congr 1
  funext i
  have h2 := aeval_algHom_apply (Pi.evalAlgHom ℝ (fun _ : n => ℂ) i) (fun i => (d i : ℂ)) g
  rw [Pi.evalAlgHom_apply, Pi.evalAlgHom_apply] at h2
  rw [← h2]
  exact aeval_algebraMap_apply ℂ (d i) g

/-- The distance of an odd function of the singular values, applied to the adjoint, and the inverse. -/
theorem odd_norm {A : Matrix n n ℂ} {alpha kappa e : ℝ} (ha : 0 < alpha) (hk : 0 < kappa) (hA : IsUnit A.det) (hn : ‖A⁻¹‖ ≤ kappa / alpha) (hup : ‖A‖ ≤ alpha) {h : ℝ[X]}
    (he : 0 ≤ e) (hf : ∀ x, 1 / kappa ≤ x → x ≤ 1 → |(X * h.comp (X ^ 2)).eval x - 1 / x| ≤ e) :
    ‖((1 / alpha : ℝ) : ℂ) • (((1 / alpha : ℝ) : ℂ) • (Aᴴ * aeval ((((1 / alpha) ^ 2 : ℝ) : ℂ) • (A * Aᴴ)) h)) - A⁻¹‖ ≤ e / alpha := by
  have hG := isHermitian_mul_conjTranspose_self A
  obtain ⟨V, d, hV1, hV2, hd⟩ : ∃ (V : Matrix n n ℂ) (d : n → ℝ), Vᴴ * V = 1 ∧ V * Vᴴ = 1 ∧ A * Aᴴ * V = V * diagonal (fun i => (d i : ℂ)) := by
    refine ⟨hG.eigenvectorUnitary, hG.eigenvalues, ?_, ?_, ?_⟩
    · exact (mem_unitaryGroup_iff'.1 hG.eigenvectorUnitary.2)
    · exact (mem_unitaryGroup_iff.1 hG.eigenvectorUnitary.2)
    · have h := hG.spectral_theorem
      rw [Unitary.conjStarAlgAut_apply] at h
      have h2 := congrArg (fun M => M * (hG.eigenvectorUnitary : Matrix n n ℂ)) h
      beta_reduce at h2
      rw [Matrix.mul_assoc (_ * _), mem_unitaryGroup_iff'.1 hG.eigenvectorUnitary.2, Matrix.mul_one] at h2
      exact h2
  have hAA : A * A⁻¹ = 1 := mul_nonsing_inv A hA
  have hAA' : A⁻¹ * A = 1 := nonsing_inv_mul A hA
  have hT : A⁻¹ᴴ * Aᴴ = 1 := by rw [← conjTranspose_mul, hAA, conjTranspose_one]
  have hT' : Aᴴ * A⁻¹ᴴ = 1 := by rw [← conjTranspose_mul, hAA', conjTranspose_one]
  -- the eigenvalues
  have hD : diagonal (fun i => (d i : ℂ)) = (Aᴴ * V)ᴴ * (Aᴴ * V) := by
    rw [conjTranspose_mul, conjTranspose_conjTranspose, Matrix.mul_assoc, ← Matrix.mul_assoc A, hd, ← Matrix.mul_assoc, hV1, Matrix.one_mul]
  have hI : ((A⁻¹ * V)ᴴ * (A⁻¹ * V)) * diagonal (fun i => (d i : ℂ)) = 1 := by
    rw [Matrix.mul_assoc, Matrix.mul_assoc, ← hd, conjTranspose_mul, Matrix.mul_assoc, ← Matrix.mul_assoc A⁻¹, ← Matrix.mul_assoc A⁻¹, hAA', Matrix.one_mul, ← Matrix.mul_assoc A⁻¹ᴴ, hT, Matrix.one_mul, hV1]
  have nV : ‖V‖ ≤ 1 := norm_iso hV1
  have hdr : ∀ i, 0 < d i ∧ d i ≤ alpha ^ 2 ∧ (alpha / kappa) ^ 2 ≤ d i := by
    intro i
    have n1 : ‖diagonal (fun i => (d i : ℂ))‖ ≤ alpha ^ 2 := by
      rw [hD, l2_opNorm_conjTranspose_mul_self, ← sq]
      have : ‖Aᴴ * V‖ ≤ alpha := (l2_opNorm_mul _ _).trans ((mul_le_of_le_one_right (norm_nonneg _) nV).trans (by rw [l2_opNorm_conjTranspose]; exact hup))
      gcongr
    have n2 : ‖((A⁻¹ * V)ᴴ * (A⁻¹ * V))‖ ≤ (kappa / alpha) ^ 2 := by
      rw [l2_opNorm_conjTranspose_mul_self, ← sq]
      have : ‖A⁻¹ * V‖ ≤ kappa / alpha := (l2_opNorm_mul _ _).trans ((mul_le_of_le_one_right (norm_nonneg _) nV).trans hn)
      gcongr
    rw [l2_opNorm_diagonal] at n1
    have n1' : |d i| ≤ alpha ^ 2 := by
      have := norm_le_pi_norm (fun i => (d i : ℂ)) i
      rw [Complex.norm_real, Real.norm_eq_abs] at this; exact this.trans n1
    have hii := congrFun (congrFun hI i) i
    rw [mul_diagonal, one_apply_eq] at hii
    have dne : d i ≠ 0 := by rintro h0; rw [h0] at hii; simp at hii
    have dnn : 0 ≤ d i := by
      have h1 := congrFun (congrFun hD i) i
      rw [diagonal_apply_eq, mul_apply] at h1
      have h2 := congrArg Complex.re h1
      rw [Complex.ofReal_re, Complex.re_sum] at h2
      rw [h2]
      refine Finset.sum_nonneg fun j _ => ?_
      rw [conjTranspose_apply, Complex.star_def, ← Complex.normSq_eq_conj_mul_self, Complex.ofReal_re]
      exact Complex.normSq_nonneg _
    have dpos : 0 < d i := lt_of_le_of_ne dnn (Ne.symm dne)
    refine ⟨dpos, (le_abs_self _).trans n1', ?_⟩
    have hinv : ((A⁻¹ * V)ᴴ * (A⁻¹ * V)) = diagonal (fun i => ((d i)⁻¹ : ℂ)) := by
      have hd2 : diagonal (fun i => (d i : ℂ)) * diagonal (fun i => ((d i)⁻¹ : ℂ)) = 1 := by
        rw [diagonal_mul_diagonal, ← diagonal_one]
        congr 1; funext j
        have hjj := congrFun (congrFun hI j) j
        rw [mul_diagonal, one_apply_eq] at hjj
        have : (d j : ℂ) ≠ 0 := by intro h0; rw [h0] at hjj; simp at hjj
        exact mul_inv_cancel₀ this
      calc _ = ((A⁻¹ * V)ᴴ * (A⁻¹ * V)) * (diagonal (fun i => (d i : ℂ)) * diagonal (fun i => ((d i)⁻¹ : ℂ))) := by rw [hd2, Matrix.mul_one]
        _ = _ := by rw [← Matrix.mul_assoc, hI, Matrix.one_mul]
    rw [hinv, l2_opNorm_diagonal] at n2
    have n3 : (d i)⁻¹ ≤ (kappa / alpha) ^ 2 := by
      have := (norm_le_pi_norm (fun i => ((d i)⁻¹ : ℂ)) i).trans n2
      rw [norm_inv, Complex.norm_real, Real.norm_eq_abs, abs_of_pos dpos] at this; exact this
    rw [inv_le_comm₀ dpos (by positivity), ← inv_pow, inv_div] at n3
    exact n3
  -- the columns
  set c : n → ℝ := fun i => (1 / alpha) ^ 2 * h.eval ((1 / alpha) ^ 2 * d i) - (d i)⁻¹ with hc
  set E := ((1 / alpha : ℝ) : ℂ) • (((1 / alpha : ℝ) : ℂ) • (Aᴴ * aeval ((((1 / alpha) ^ 2 : ℝ) : ℂ) • (A * Aᴴ)) h)) - A⁻¹ with hE
  have hEV : E * V = Aᴴ * V * diagonal (fun i => (c i : ℂ)) := by
    have h1 : aeval ((((1 / alpha) ^ 2 : ℝ) : ℂ) • (A * Aᴴ)) h * V = V * diagonal (fun i => ((h.eval ((1 / alpha) ^ 2 * d i) : ℝ) : ℂ)) := by
      rw [aeval_intertwine (Y := diagonal (fun i => (((1 / alpha) ^ 2 * d i : ℝ) : ℂ))), aeval_diag]
      rw [Matrix.smul_mul, hd, ← Matrix.mul_smul, ← diagonal_smul]
      congr 2; funext i; rw [Pi.smul_apply, smul_eq_mul]; push_cast; rfl
    have h2 : A⁻¹ * V = Aᴴ * V * diagonal (fun i => (((d i)⁻¹ : ℝ) : ℂ)) := by
      have hd2 : diagonal (fun i => (d i : ℂ)) * diagonal (fun i => (((d i)⁻¹ : ℝ) : ℂ)) = 1 := by
        rw [diagonal_mul_diagonal, ← diagonal_one]
        congr 1; funext j
        have : (d j : ℂ) ≠ 0 := by exact_mod_cast (hdr j).1.ne'
        rw [Complex.ofReal_inv, mul_inv_cancel₀ this]
      calc A⁻¹ * V = A⁻¹ * (V * (diagonal (fun i => (d i : ℂ)) * diagonal (fun i => (((d i)⁻¹ : ℝ) : ℂ)))) := by rw [hd2, Matrix.mul_one]
        _ = A⁻¹ * (A * Aᴴ * V * diagonal (fun i => (((d i)⁻¹ : ℝ) : ℂ))) := by rw [hd, Matrix.mul_assoc V]
        _ = (A⁻¹ * A) * (Aᴴ * V * diagonal (fun i => (((d i)⁻¹ : ℝ) : ℂ))) := by simp only [Matrix.mul_assoc]
        _ = _ := by rw [hAA', Matrix.one_mul]
    rw [hE, Matrix.sub_mul, Matrix.smul_mul, Matrix.smul_mul, Matrix.mul_assoc Aᴴ, h1, h2, ← Matrix.mul_assoc, smul_smul, ← Matrix.mul_smul, ← diagonal_smul, ← Matrix.mul_sub, diagonal_sub]
    congr 2; funext i
    simp only [Pi.smul_apply, smul_eq_mul, hc]
    push_cast; ring
  have hnorm : ‖E‖ = ‖E * V‖ := by
    refine le_antisymm ?_ ((l2_opNorm_mul _ _).trans (mul_le_of_le_one_right (norm_nonneg _) nV))
    calc ‖E‖ = ‖E * V * Vᴴ‖ := by rw [Matrix.mul_assoc, hV2, Matrix.mul_one]
      _ ≤ _ := (l2_opNorm_mul _ _).trans (mul_le_of_le_one_right (norm_nonneg _) (by rw [l2_opNorm_conjTranspose]; exact nV))
  have hsq : ‖E * V‖ * ‖E * V‖ ≤ (e / alpha) ^ 2 := by
    rw [← l2_opNorm_conjTranspose_mul_self, hEV]
    have : (Aᴴ * V * diagonal (fun i => (c i : ℂ)))ᴴ * (Aᴴ * V * diagonal (fun i => (c i : ℂ))) = diagonal (fun i => ((c i ^ 2 * d i : ℝ) : ℂ)) := by
      rw [conjTranspose_mul, Matrix.mul_assoc, ← Matrix.mul_assoc (Aᴴ * V)ᴴ, ← hD, diagonal_conjTranspose, diagonal_mul_diagonal, diagonal_mul_diagonal]
      congr 1; funext i
      simp only [Pi.star_apply, Complex.star_def, Complex.conj_ofReal]
      push_cast; ring
    rw [this, l2_opNorm_diagonal]
    refine (pi_norm_le_iff_of_nonneg (by positivity)).2 fun i => ?_
    obtain ⟨h0, h1, h2⟩ := hdr i
    set s := Real.sqrt (d i) with hs
    have s0 : 0 < s := Real.sqrt_pos.2 h0
    have s2 : s ^ 2 = d i := Real.sq_sqrt h0.le
    have sl : alpha / kappa ≤ s := by rw [hs]; exact Real.le_sqrt_of_sq_le h2
    have su : s ≤ alpha := by rw [hs, Real.sqrt_le_left ha.le]; exact h1
    have hx := hf (s / alpha) (by rw [div_le_div_iff₀ hk ha, one_mul]; rwa [div_le_iff₀ hk] at sl) (by rw [div_le_one ha]; exact su)
    have hval : c i * s = (1 / alpha) * ((X * h.comp (X ^ 2)).eval (s / alpha) - 1 / (s / alpha)) := by
      rw [hc]
      simp only [eval_mul, eval_X, eval_comp, eval_pow]
      rw [show (s / alpha) ^ 2 = (1 / alpha) ^ 2 * d i by rw [← s2]; ring]
      rw [← s2]; field_simp
    rw [Complex.norm_real, Real.norm_eq_abs, abs_of_nonneg (by positivity), ← s2, ← mul_pow, hval, mul_pow, ← sq_abs (_ - _), div_pow, div_pow, one_pow, one_div, inv_mul_eq_div]
    gcongr
  rw [hnorm]
  have := abs_le_of_sq_le_sq (a := ‖E * V‖) (b := e / alpha) (by rw [sq]; exact hsq) (by positivity)
  exact (abs_le.1 this).2

end Verif.Blk
