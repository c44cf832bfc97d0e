import Mathlib.RingTheory.Polynomial.Chebyshev
import Mathlib.LinearAlgebra.Matrix.Block
import Mathlib.LinearAlgebra.Matrix.NonsingularInverse
import Mathlib.LinearAlgebra.Matrix.ToLin
import Mathlib.Data.Real.Basic
import Mathlib.Algebra.Polynomial.AlgebraMap

/-!
Conversion between powers and Chebyshev polynomials (algorithms/gqsp/helper_functions.py). Arrays of length `N` are functions on the naturals of which
the values below `N` count. Floating point numbers are real numbers.
-/

namespace Verif.Blk

open Polynomial Matrix
open Polynomial.Chebyshev (T)

/-- The rows of the matrix `C` of `poly2cheb` and `cheb2poly` (helper_functions.py:67-78 and 121-132). `roll` by one with the first entry set to 0. The
entries beyond the last column vanish, as row n has no entries after n. -/
def chebRow : ℕ → ℕ → ℝ
  | 0, k => if k = 0 then 1 else 0
  | 1, k => if k = 1 then 1 else 0
  | n + 2, k => (if k = 0 then 0 else chebRow (n + 1) (k - 1) * 2) - chebRow n k

/-- `cheb2poly(cheb)` (helper_functions.py:90-137): `jnp.dot(cheb, C)`. -/
def cheb2poly (N : ℕ) (c : ℕ → ℝ) : ℕ → ℝ := fun k => ∑ n ∈ Finset.range N, c n * chebRow n k

/-- The matrix `C`. -/
def chebMat (N : ℕ) : Matrix (Fin N) (Fin N) ℝ := fun n k => chebRow n k

/-- `poly2cheb(poly)` (helper_functions.py:36-84): `jnp.linalg.solve(C.T, poly)`. -/
noncomputable def poly2cheb (N : ℕ) (p : ℕ → ℝ) : ℕ → ℝ := fun n => if h : n < N then ((chebMat N)ᵀ⁻¹ *ᵥ (fun i => p i)) ⟨n, h⟩ else 0

/-- The values of the parameter `kind`. -/
inductive PKind
  | poly
  | cheb

/-- `_rescale_poly(alpha, p, kind)` (helper_functions.py:140-175). -/
noncomputable def rescalePoly (N : ℕ) (alpha : ℝ) (p : ℕ → ℝ) : PKind → ℕ → ℝ
  | .poly => fun k => p k * alpha ^ k
  | .cheb => poly2cheb N (fun k => cheb2poly N p k * alpha ^ k)

/-- The Chebyshev coefficients computed at the beginning of `GQET`, `QET`, `QSVT`, `GQSVT` (gqet.py:166-169, qet.py:154-157, qsvt.py:178-184,
gqsvt.py:175-178). -/
noncomputable def chebCoeffs (N : ℕ) (alpha : ℝ) (kind : PKind) (rescale : Bool) (p : ℕ → ℝ) : ℕ → ℝ :=
  let p1 := if rescale then rescalePoly N alpha p kind else p
  match kind with
  | .poly => poly2cheb N p1
  | .cheb => p1

theorem chebRow_coeff : ∀ n k, chebRow n k = (T ℝ (n : ℤ)).coeff k
  | 0, k => by
    rw [chebRow, Nat.cast_zero, Chebyshev.T_zero, coeff_one]
  | 1, k => by
    rw [chebRow, Nat.cast_one, Chebyshev.T_one, coeff_X]
    simp only [eq_comm]
  | n + 2, k => by
    rw [chebRow, chebRow_coeff (n + 1), chebRow_coeff n]
    have h := Chebyshev.T_add_two ℝ (n : ℤ)
    rw [show ((n + 2 : ℕ) : ℤ) = (n : ℤ) + 2 by push_cast; ring, h, coeff_sub]
    rw [show ((n + 1 : ℕ) : ℤ) = (n : ℤ) + 1 by push_cast; ring]
    congr 1
    cases k with
    | zero => simp
    | succ k =>
      rw [if_neg (Nat.succ_ne_zero k), show (2 * X * T ℝ ((n : ℤ) + 1) : ℝ[X]) = C 2 * (X * T ℝ ((n : ℤ) + 1)) by rw [mul_assoc]; rfl, coeff_C_mul, coeff_X_mul]
      simp [mul_comm]

theorem chebRow_zero : ∀ n k, n < k → chebRow n k = 0
  | 0, k, h => by rw [chebRow, if_neg (by omega)]
  | 1, k, h => by rw [chebRow, if_neg (by omega)]
  | n + 2, k, h => by
    rw [chebRow, if_neg (by omega), chebRow_zero (n + 1) (k - 1) (by omega), chebRow_zero n k (by omega)]; simp

theorem chebRow_diag : ∀ n, chebRow n n ≠ 0
  | 0 => by simp [chebRow]
  | 1 => by simp [chebRow]
  | n + 2 => by
    rw [chebRow, if_neg (by omega), chebRow_zero n (n + 2) (by omega)]
    have := chebRow_diag (n + 1)
    simpa using this

theorem chebMat_det (N : ℕ) : IsUnit ((chebMat N)ᵀ).det := by
  rw [det_transpose, det_of_isLowerTriangular _ (by
    intro i j hij
    exact chebRow_zero _ _ (by simpa using hij))]
  rw [isUnit_iff_ne_zero, Finset.prod_ne_zero_iff]
  intro i _
  exact chebRow_diag i

theorem cheb2poly_mulVec (N : ℕ) (c : ℕ → ℝ) (k : Fin N) : cheb2poly N c k = ((chebMat N)ᵀ *ᵥ (fun i => c i)) k := by
  rw [cheb2poly, mulVec, dotProduct, ← Fin.sum_univ_eq_sum_range (fun n => c n * chebRow n k)]
  apply Finset.sum_congr rfl; intro n _
  rw [transpose_apply, chebMat, mul_comm]

/-- `poly2cheb` and `cheb2poly` are inverse to each other. -/
theorem cheb2poly_poly2cheb (N : ℕ) (p : ℕ → ℝ) {k : ℕ} (hk : k < N) : cheb2poly N (poly2cheb N p) k = p k := by
  have h := cheb2poly_mulVec N (poly2cheb N p) ⟨k, hk⟩
  rw [show (fun i : Fin N => poly2cheb N p i) = (chebMat N)ᵀ⁻¹ *ᵥ (fun i => p i) by
    funext i; rw [poly2cheb, dif_pos i.2]] at h
  rw [mulVec_mulVec, Matrix.mul_nonsing_inv _ (chebMat_det N), one_mulVec] at h
  exact h

theorem poly2cheb_cheb2poly (N : ℕ) (c : ℕ → ℝ) {n : ℕ} (hn : n < N) : poly2cheb N (cheb2poly N c) n = c n := by
  rw [poly2cheb, dif_pos hn, show (fun i : Fin N => cheb2poly N c i) = (chebMat N)ᵀ *ᵥ (fun i => c i) by
    funext i; exact cheb2poly_mulVec N c i]
  rw [mulVec_mulVec, Matrix.nonsing_inv_mul _ (chebMat_det N), one_mulVec]

/-- The polynomial with the given coefficients in powers of x. -/
noncomputable def powPoly (N : ℕ) (p : ℕ → ℝ) : ℝ[X] := ∑ k ∈ Finset.range N, C (p k) * X ^ k

/-- The polynomial with the given Chebyshev coefficients. -/
noncomputable def chebPoly (N : ℕ) (c : ℕ → ℝ) : ℝ[X] := ∑ n ∈ Finset.range N, C (c n) * T ℝ (n : ℤ)

theorem chebRow_poly (N n : ℕ) (h : n < N) : ∑ k ∈ Finset.range N, C (chebRow n k) * X ^ k = T ℝ (n : ℤ) := by
  ext k
  rw [finsetSum_coeff]
  simp only [coeff_C_mul, coeff_X_pow, mul_ite, mul_one, mul_zero]
  rw [Finset.sum_ite_eq]
  split
  · exact chebRow_coeff n k
  · next hk =>
    rw [Finset.mem_range] at hk
    rw [← chebRow_coeff, chebRow_zero _ _ (by omega)]

/-- `cheb2poly` gives the coefficients of the same polynomial. -/
theorem powPoly_cheb2poly (N : ℕ) (c : ℕ → ℝ) : powPoly N (cheb2poly N c) = chebPoly N c := by
  simp only [powPoly, cheb2poly, chebPoly, map_sum, Finset.sum_mul, map_mul]
  rw [Finset.sum_comm]
  apply Finset.sum_congr rfl; intro n hn
  rw [← chebRow_poly N n (Finset.mem_range.mp hn), Finset.mul_sum]
  apply Finset.sum_congr rfl; intro k _
  ring

theorem powPoly_congr (N : ℕ) {p p' : ℕ → ℝ} (h : ∀ k < N, p k = p' k) : powPoly N p = powPoly N p' := by
  apply Finset.sum_congr rfl; intro k hk; rw [h k (Finset.mem_range.mp hk)]

/-- `poly2cheb` gives the Chebyshev coefficients of the same polynomial. -/
theorem chebPoly_poly2cheb (N : ℕ) (p : ℕ → ℝ) : chebPoly N (poly2cheb N p) = powPoly N p := by
  rw [← powPoly_cheb2poly]
  exact powPoly_congr N (fun k hk => cheb2poly_poly2cheb N p hk)

theorem powPoly_rescale (N : ℕ) (alpha : ℝ) (p : ℕ → ℝ) : powPoly N (fun k => p k * alpha ^ k) = (powPoly N p).comp (C alpha * X) := by
  simp only [powPoly, Polynomial.sum_comp, mul_comp, C_comp, pow_comp, X_comp]
  apply Finset.sum_congr rfl; intro k _
  rw [mul_pow, map_mul, map_pow]
  ring

/-- The polynomial a user means. -/
noncomputable def target (N : ℕ) : PKind → (ℕ → ℝ) → ℝ[X]
  | .poly, p => powPoly N p
  | .cheb, p => chebPoly N p

/-- The Chebyshev coefficients are those of p(alpha x), or of p(x) without rescaling. -/
theorem chebCoeffs_target (N : ℕ) (alpha : ℝ) (kind : PKind) (rescale : Bool) (p : ℕ → ℝ) :
    chebPoly N (chebCoeffs N alpha kind rescale p) = if rescale then (target N kind p).comp (C alpha * X) else target N kind p := by
  cases kind <;> cases rescale <;> simp only [chebCoeffs, target, rescalePoly, if_true, Bool.false_eq_true, if_false]
  · exact chebPoly_poly2cheb N p
  · rw [chebPoly_poly2cheb, powPoly_rescale]
  · rw [chebPoly_poly2cheb, powPoly_rescale, powPoly_cheb2poly]

end Verif.Blk
