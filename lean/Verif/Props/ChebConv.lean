import Verif.Blk.Cheb

/-!
# Property C105: conversion between powers and Chebyshev polynomials

The specification uses only the polynomials Σ pₖ xᵏ (`powPoly`) and Σ cₙ Tₙ(x) (`chebPoly`, with Mathlib's Chebyshev polynomials).
-/

namespace Verif.Props

open Polynomial Verif.Blk
open Polynomial.Chebyshev (T)

/-- `poly2cheb` gives Chebyshev coefficients of the same polynomial, and these are the only ones. -/
theorem poly2cheb_spec (N : ℕ) (p c : ℕ → ℝ) (h : chebPoly N c = powPoly N p) :
    chebPoly N (poly2cheb N p) = powPoly N p ∧ ∀ n < N, poly2cheb N p n = c n := by
  refine ⟨chebPoly_poly2cheb N p, ?_⟩
  intro n hn
  rw [← poly2cheb_cheb2poly N c hn]
  have e : ∀ k < N, p k = cheb2poly N c k := by
    intro k hk
    have h2 := congrArg (fun q : ℝ[X] => q.coeff k) ((powPoly_cheb2poly N c).trans h)
    simp only [powPoly, finsetSum_coeff, coeff_C_mul, coeff_X_pow, mul_ite, mul_one, mul_zero, Finset.sum_ite_eq, Finset.mem_range, if_pos hk] at h2
    exact h2.symm
  rw [poly2cheb, poly2cheb, dif_pos hn, dif_pos hn]
  congr 2
  funext i
  exact e i i.2

/-- `cheb2poly` gives the power coefficients of the same polynomial. -/
theorem cheb2poly_spec (N : ℕ) (c : ℕ → ℝ) : powPoly N (cheb2poly N c) = chebPoly N c := powPoly_cheb2poly N c

/-- The two conversions are inverse to each other. -/
theorem cheb_roundtrip (N : ℕ) (p : ℕ → ℝ) {k : ℕ} (hk : k < N) : cheb2poly N (poly2cheb N p) k = p k ∧ poly2cheb N (cheb2poly N p) k = p k :=
  ⟨cheb2poly_poly2cheb N p hk, poly2cheb_cheb2poly N p hk⟩

/-- The coefficients from which `GQET`, `QET`, `QSVT`, `GQSVT` compute angles: at x they have the value of the polynomial of the user at alpha·x
(or at x without rescaling). -/
theorem rescale_spec (N : ℕ) (alpha : ℝ) (kind : PKind) (rescale : Bool) (p : ℕ → ℝ) (x : ℝ) :
    (chebPoly N (chebCoeffs N alpha kind rescale p)).eval x = (target N kind p).eval (if rescale then alpha * x else x) := by
  rw [chebCoeffs_target]
  cases rescale <;> simp

/-- x² = (T₀ + T₂)/2, as `poly2cheb` finds. -/
example : poly2cheb 3 (fun k => if k = 2 then 1 else 0) 0 = 1 / 2 ∧ poly2cheb 3 (fun k => if k = 2 then 1 else 0) 1 = 0
    ∧ poly2cheb 3 (fun k => if k = 2 then 1 else 0) 2 = 1 / 2 := by
  have h : chebPoly 3 (fun n => if n = 1 then 0 else 1 / 2) = powPoly 3 (fun k => if k = 2 then 1 else 0) := by
    rw [chebPoly, powPoly]
    simp only [Finset.sum_range_succ, Finset.sum_range_zero]
    norm_num
    rw [Chebyshev.T_two, show C (1 / 2 : ℝ) * (2 * X ^ 2 - 1) = C (1 / 2 : ℝ) * C 2 * X ^ 2 - C (1 / 2) by rw [show (C 2 : ℝ[X]) = 2 from rfl]; ring, ← C_mul]
    norm_num
  obtain ⟨-, e⟩ := poly2cheb_spec 3 _ _ h
  exact ⟨by rw [e 0 (by norm_num)]; norm_num, by rw [e 1 (by norm_num)]; norm_num, by rw [e 2 (by norm_num)]; norm_num⟩

/-- With alpha = 3 the polynomial x² is rescaled to 9 x². -/
example (x : ℝ) : (chebPoly 3 (chebCoeffs 3 3 .poly true (fun k => if k = 2 then 1 else 0))).eval x = 9 * x ^ 2 := by
  rw [rescale_spec, if_pos rfl, target, powPoly]
  simp only [Finset.sum_range_succ, Finset.sum_range_zero]
  norm_num
  ring

end Verif.Props
