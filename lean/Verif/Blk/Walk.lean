import Verif.Blk.Arith
import Mathlib.RingTheory.Polynomial.Chebyshev
import Mathlib.Data.Matrix.Basic
import Mathlib.LinearAlgebra.Matrix.Polynomial

/-!
Qubitization and Chebyshev polynomials of block encodings (block_encodings/block_encoding_base.py:792-1026).
-/

namespace Verif.Blk

open Matrix Polynomial
open Polynomial.Chebyshev (T)

variable {n a : Type} [Fintype n] [DecidableEq n] [Fintype a] [DecidableEq a]

/-- `reflection(ancillas)` (alg_primitives/reflection.py:42-221) with the default phase: the phase π on |0...0>, then a global phase π. -/
def reflM (n : Type) [DecidableEq n] (z : a) : Matrix (a × n) (a × n) ℂ := fun x y => if x = y then (if x.1 = z then 1 else -1) else 0

/-- The Hadamard gate. -/
noncomputable def hM : Matrix Bool Bool ℂ := fun x y => if x && y then -((Real.sqrt 2)⁻¹ : ℝ) else ((Real.sqrt 2)⁻¹ : ℝ)

/-- The `x` gate. -/
def xM : Matrix Bool Bool ℂ := fun x y => if x = y then 0 else 1

/-- The unitary of lines 872-883 (before the reflection): with h conjugated, x on the new ancilla, U if it is 0, then the inverse of U if it is 1. -/
noncomputable def hermU (U : Matrix (a × n) (a × n) ℂ) : Matrix ((Bool × a) × n) ((Bool × a) × n) ℂ :=
  (bit a n hM)ᴴ * (ctl true Uᴴ * (ctl false U * (bit a n xM * bit a n hM)))

/-- `qubitization` (block_encoding_base.py:792-894). -/
noncomputable def BE.qubitization (B : BE n) : BE n :=
  if B.ancs = 0 then B
  else if B.herm then
    { anc := B.anc, zero := B.zero, ancs := B.ancs, U := reflM n B.zero * B.U, alpha := B.alpha, herm := true }
  else
    { anc := Bool × B.anc, zero := (false, B.zero), ancs := 1 + B.ancs, U := reflM n (false, B.zero) * hermU B.U, alpha := B.alpha, herm := true }

/-- One iteration of the loop of `chebyshev` (block_encoding_base.py:1011-1013, 1019-1021): a reflection, then a reflection conjugated with the
unitary. -/
def chebStep (z : a) (U : Matrix (a × n) (a × n) ℂ) : Matrix (a × n) (a × n) ℂ := Uᴴ * reflM n z * U * reflM n z

/-- `chebyshev(k, rescale=False)` (block_encoding_base.py:1000-1026). -/
def BE.chebyshev (B : BE n) (k : ℕ) : BE n where
  anc := B.anc
  zero := B.zero
  ancs := B.ancs
  U := if k % 2 = 0 then chebStep B.zero B.U ^ (k / 2) else B.U * reflM n B.zero * chebStep B.zero B.U ^ (k / 2)
  alpha := if k = 1 then B.alpha else 1
  herm := false

/-! ### The isometry onto the block -/

/-- The operand with all ancillas |0>. -/
def emb (n : Type) [DecidableEq n] (z : a) : Matrix (a × n) n ℂ := fun x j => if x = (z, j) then 1 else 0

theorem mul_emb (z : a) {ι : Type} (M : Matrix ι (a × n) ℂ) (i : ι) (j : n) : (M * emb n z) i j = M i (z, j) := by
  rw [mul_apply]; simp [emb]

theorem ct_emb_mul (z : a) {ι : Type} (M : Matrix (a × n) ι ℂ) (i : n) (j : ι) : ((emb n z)ᴴ * M) i j = M (z, i) j := by
  rw [mul_apply]; simp [emb, conjTranspose_apply]

theorem blk_eq (z : a) (U : Matrix (a × n) (a × n) ℂ) : blk z U = (emb n z)ᴴ * U * emb n z := by
  ext i j
  rw [mul_emb, ct_emb_mul, blk]

theorem ct_emb_emb (z : a) : (emb n z)ᴴ * emb n z = 1 := by
  ext i j
  rw [ct_emb_mul]; simp only [emb, Matrix.one_apply, Prod.mk.injEq, true_and]

theorem refl_eq (z : a) : reflM n z = 2 • (emb n z * (emb n z)ᴴ) - 1 := by
  ext ⟨p, i⟩ ⟨q, j⟩
  rw [Matrix.sub_apply, Matrix.smul_apply, mul_apply, Matrix.one_apply]
  have : ∑ k, emb n z (p, i) k * (emb n z)ᴴ k (q, j) = if p = z ∧ q = z ∧ i = j then 1 else 0 := by
    rw [Finset.sum_eq_single i]
    · simp only [emb, conjTranspose_apply, Prod.mk.injEq]
      by_cases h1 : p = z <;> by_cases h2 : q = z <;> by_cases h3 : i = j <;> simp [h1, h2, h3, eq_comm]
    · intro k _ hk
      simp [emb, Ne.symm hk]
    · simp
  rw [this]
  simp only [reflM, Prod.mk.injEq]
  by_cases h1 : p = z <;> by_cases h2 : q = z <;> by_cases h3 : i = j <;> by_cases h4 : p = q <;> simp_all
  norm_num

theorem refl_emb (z : a) : reflM n z * emb n z = emb n z := by
  rw [refl_eq, Matrix.sub_mul, Matrix.smul_mul, Matrix.mul_assoc, ct_emb_emb, Matrix.mul_one, Matrix.one_mul, two_smul, add_sub_cancel_right]

omit [Fintype n] [Fintype a] in
theorem refl_ct (z : a) : (reflM n z)ᴴ = reflM n z := by
  ext x y
  simp only [reflM, conjTranspose_apply]
  by_cases h : x = y
  · subst h; simp only [if_true]; split <;> simp
  · rw [if_neg h, if_neg (Ne.symm h), star_zero]

theorem ct_emb_refl (z : a) : (emb n z)ᴴ * reflM n z = (emb n z)ᴴ := by
  have := congrArg conjTranspose (refl_emb (n := n) z)
  rwa [conjTranspose_mul, refl_ct] at this

theorem refl_refl (z : a) : reflM n z * reflM n z = 1 := by
  ext x y
  rw [mul_apply]
  simp only [reflM]
  rw [Finset.sum_eq_single x]
  · by_cases h : x = y
    · subst h; simp only [if_true, Matrix.one_apply_eq]; split <;> simp
    · simp [h]
  · intro w _ hw; simp [Ne.symm hw]
  · simp

theorem refl_unitary (z : a) : IsU (reflM n z) := by rw [IsU, refl_ct, refl_refl]

/-! ### Chebyshev recursion of the powers of a walk -/

/-- Two mutually inverse unitaries whose sum maps the block to twice the matrix B on the block: their powers follow the Chebyshev recursion. -/
theorem walk_rec {ι : Type} [Fintype ι] [DecidableEq ι] {V V' : Matrix ι ι ℂ} {F : Matrix ι n ℂ} {B : Matrix n n ℂ} (hV : V * V' = 1)
    (h : V * F + V' * F = 2 • (F * B)) (k : ℕ) : V ^ (k + 2) * F = 2 • (V ^ (k + 1) * F * B) - V ^ k * F := by
  have h2 : V ^ (k + 1) * (V * F + V' * F) = V ^ (k + 1) * (2 • (F * B)) := by rw [h]
  rw [Matrix.mul_add, ← Matrix.mul_assoc, ← Matrix.mul_assoc, ← pow_succ, pow_succ (n := k) V, Matrix.mul_assoc (V ^ k), hV, Matrix.mul_one,
    Matrix.mul_smul, ← Matrix.mul_assoc, ← pow_succ] at h2
  exact eq_sub_of_add_eq h2

theorem aeval_T_step (B : Matrix n n ℂ) (k : ℕ) :
    aeval B (T ℂ ((k + 2 : ℕ) : ℤ)) = 2 • (aeval B (T ℂ ((k + 1 : ℕ) : ℤ)) * B) - aeval B (T ℂ (k : ℤ)) := by
  have : T ℂ ((k + 2 : ℕ) : ℤ) = 2 * X * T ℂ ((k + 1 : ℕ) : ℤ) - T ℂ (k : ℤ) := by push_cast; exact Chebyshev.T_add_two ℂ k
  rw [this, map_sub, mul_comm (2 * X), ← mul_assoc, map_mul, map_mul, aeval_X, map_ofNat]
  congr 1
  rw [two_smul, ← two_mul (_ * B), mul_assoc]
  have c : (2 : Matrix n n ℂ) * aeval B (T ℂ ((k + 1 : ℕ) : ℤ)) = aeval B (T ℂ ((k + 1 : ℕ) : ℤ)) * 2 := by rw [two_mul, mul_two]
  rw [← mul_assoc 2, c, mul_assoc]

/-- Powers of a walk have the Chebyshev polynomials of the block as blocks. -/
theorem walk_T {ι : Type} [Fintype ι] [DecidableEq ι] {V V' : Matrix ι ι ℂ} {F : Matrix ι n ℂ} {B : Matrix n n ℂ} (hV : V * V' = 1)
    (hF : Fᴴ * F = 1) (h : V * F + V' * F = 2 • (F * B)) (h1 : Fᴴ * V * F = B) :
    ∀ k : ℕ, Fᴴ * V ^ k * F = aeval B (T ℂ (k : ℤ)) ∧ Fᴴ * V ^ (k + 1) * F = aeval B (T ℂ ((k + 1 : ℕ) : ℤ))
  | 0 => by
    refine ⟨?_, ?_⟩
    · rw [pow_zero, Matrix.mul_one, hF]; simp
    · rw [zero_add, pow_one, h1]; simp
  | k + 1 => by
    obtain ⟨i1, i2⟩ := walk_T hV hF h h1 k
    refine ⟨i2, ?_⟩
    rw [show k + 1 + 1 = k + 2 from rfl, aeval_T_step, ← i1, ← i2, Matrix.mul_assoc, walk_rec hV h, Matrix.mul_sub, Matrix.mul_smul]
    simp only [Matrix.mul_assoc]

/-- The walk of a Hermitian unitary. -/
theorem walk_refl (z : a) {U : Matrix (a × n) (a × n) ℂ} (hU : IsU U) (hh : Uᴴ = U) (k : ℕ) :
    blk z ((reflM n z * U) ^ k) = aeval (blk z U) (T ℂ (k : ℤ)) := by
  rw [blk_eq]
  refine (walk_T (V := reflM n z * U) (V' := U * reflM n z) (F := emb n z) ?_ (ct_emb_emb z) ?_ ?_ k).1
  · have := hU; rw [IsU, hh] at this
    rw [Matrix.mul_assoc, ← Matrix.mul_assoc U U, this, Matrix.one_mul, refl_refl]
  · rw [Matrix.mul_assoc, Matrix.mul_assoc, refl_emb, blk_eq, refl_eq, Matrix.sub_mul, Matrix.one_mul, sub_add_cancel, Matrix.smul_mul]
    simp only [Matrix.mul_assoc]
  · rw [← Matrix.mul_assoc, ct_emb_refl, ← blk_eq]

theorem h_unitary : IsU hM ∧ hMᴴ = hM := by
  have e : hMᴴ = hM := by
    ext x y
    cases x <;> cases y <;> simp [conjTranspose_apply, hM]
  refine ⟨?_, e⟩
  have s : ((Real.sqrt 2)⁻¹ : ℝ) * ((Real.sqrt 2)⁻¹ : ℝ) = 1 / 2 := by
    rw [← mul_inv, Real.mul_self_sqrt (by norm_num)]; norm_num
  have s' : (((Real.sqrt 2)⁻¹ : ℝ) : ℂ) * (((Real.sqrt 2)⁻¹ : ℝ) : ℂ) = 1 / 2 := by rw [← Complex.ofReal_mul, s]; norm_num
  rw [IsU, e]
  ext x y
  rw [mul_apply, Fintype.sum_bool]
  cases x <;> cases y <;> simp only [hM, Matrix.one_apply, Bool.and_true, Bool.and_false, if_true, reduceCtorEq, if_false, Bool.false_eq_true]
  · rw [s']; norm_num
  · ring
  · ring
  · rw [neg_mul_neg, s']; norm_num

theorem x_unitary : IsU xM ∧ xMᴴ = xM := by
  refine ⟨?_, ?_⟩
  · rw [IsU]
    ext x y
    rw [mul_apply, Fintype.sum_bool]
    cases x <;> cases y <;> simp [conjTranspose_apply, xM]
  · ext x y
    cases x <;> cases y <;> simp [conjTranspose_apply, xM]

theorem hermU_unitary {U : Matrix (a × n) (a × n) ℂ} (h : IsU U) : IsU (hermU U) :=
  (IsU.bit h_unitary.1).ct.mul ((h.ct.ctl _).mul ((h.ctl _).mul ((IsU.bit x_unitary.1).mul (IsU.bit h_unitary.1))))

/-- Exchanging the values of the new ancilla exchanges the two unitaries. -/
theorem sel_x (F : Bool → Matrix (a × n) (a × n) ℂ) : sel F * bit a n xM = bit a n xM * sel (fun q => F (!q)) := by
  ext x y
  rw [mul_bit_apply, bit_mul_apply, Fintype.sum_bool, Fintype.sum_bool]
  simp only [sel, xM]
  cases h : x.1.1 <;> cases h' : y.1.1 <;> simp

theorem ctl_pair (U : Matrix (a × n) (a × n) ℂ) (W : Matrix (a × n) (a × n) ℂ) : ctl true W * ctl false U = sel (fun q => if q then W else U) := by
  rw [ctl_eq, ctl_eq, sel_mul]
  congr 1; funext q; cases q <;> simp

theorem hermU_herm (U : Matrix (a × n) (a × n) ℂ) : (hermU U)ᴴ = hermU U := by
  have e : hermU U = bit a n hM * (sel (fun q => if q then Uᴴ else U) * bit a n xM) * bit a n hM := by
    rw [hermU, bit_ct, h_unitary.2, ← Matrix.mul_assoc (ctl true _), ctl_pair]
    simp only [Matrix.mul_assoc]
  rw [e, conjTranspose_mul, conjTranspose_mul, conjTranspose_mul, sel_ct, bit_ct, bit_ct, h_unitary.2, x_unitary.2, sel_x]
  simp only [Matrix.mul_assoc]
  congr 4
  funext q; cases q <;> simp

theorem hermU_blk (z : a) (U : Matrix (a × n) (a × n) ℂ) : blk (false, z) (hermU U) = (1 / 2 : ℂ) • (blk z U + (blk z U)ᴴ) := by
  have s : ((Real.sqrt 2)⁻¹ : ℝ) * ((Real.sqrt 2)⁻¹ : ℝ) = 1 / 2 := by
    rw [← mul_inv, Real.mul_self_sqrt (by norm_num)]; norm_num
  have s' : (((Real.sqrt 2)⁻¹ : ℝ) : ℂ) * (((Real.sqrt 2)⁻¹ : ℝ) : ℂ) = 1 / 2 := by rw [← Complex.ofReal_mul, s]; norm_num
  ext i j
  rw [blk, hermU, ← Matrix.mul_assoc (ctl true _), ctl_pair, bit_ct, h_unitary.2, bit_mul_apply, Fintype.sum_bool, bit_mul, mul_bit_apply, mul_bit_apply,
    Fintype.sum_bool, Fintype.sum_bool]
  have xh : ∀ q, (xM * hM) q false = ((Real.sqrt 2)⁻¹ : ℝ) := by
    intro q; rw [mul_apply, Fintype.sum_bool]; cases q <;> simp [xM, hM]
  rw [xh, xh, Matrix.smul_apply, Matrix.add_apply, conjTranspose_apply, blk, blk]
  simp only [sel, hM, if_true, reduceCtorEq, if_false, Bool.and_false, Bool.false_and, Bool.false_eq_true, zero_mul, add_zero, zero_add, conjTranspose_apply, smul_eq_mul]
  linear_combination (U (z, i) (z, j) + star (U (z, j) (z, i))) * s'

/-! ### Chebyshev polynomials of an arbitrary matrix -/

theorem blk_conj_refl (z : a) (U : Matrix (a × n) (a × n) ℂ) (hU : IsU U) : blk z (Uᴴ * reflM n z * U) = 2 • ((blk z U)ᴴ * blk z U) - 1 := by
  rw [blk_eq, blk_eq, refl_eq, Matrix.mul_sub, Matrix.sub_mul, Matrix.mul_sub, Matrix.sub_mul, Matrix.mul_one, show Uᴴ * U = 1 from hU, Matrix.mul_one, ct_emb_emb]
  congr 1
  simp only [conjTranspose_mul, conjTranspose_conjTranspose, Matrix.mul_smul, Matrix.smul_mul, Matrix.mul_assoc]

theorem cheb_rel (z : a) {U : Matrix (a × n) (a × n) ℂ} (hU : IsU U) :
    chebStep z U * (reflM n z * Uᴴ * reflM n z * U) = 1
      ∧ chebStep z U * emb n z + (reflM n z * Uᴴ * reflM n z * U) * emb n z = 2 • (emb n z * (2 • ((blk z U)ᴴ * blk z U) - 1)) := by
  refine ⟨?_, ?_⟩
  · have e : chebStep z U * (reflM n z * Uᴴ * reflM n z * U) = Uᴴ * (reflM n z * (U * (reflM n z * reflM n z) * Uᴴ) * reflM n z) * U := by
      simp only [chebStep, Matrix.mul_assoc]
    rw [e, refl_refl, Matrix.mul_one, hU.right, Matrix.mul_one, refl_refl, Matrix.mul_one, show Uᴴ * U = 1 from hU]
  · rw [← blk_conj_refl z U hU, blk_eq]
    have e1 : chebStep z U * emb n z = Uᴴ * reflM n z * U * emb n z := by rw [chebStep, Matrix.mul_assoc, refl_emb]
    have e2 : reflM n z * Uᴴ * reflM n z * U * emb n z = reflM n z * (Uᴴ * reflM n z * U * emb n z) := by simp only [Matrix.mul_assoc]
    rw [e1, e2]
    generalize Uᴴ * reflM n z * U = Y
    rw [refl_eq, Matrix.sub_mul, Matrix.one_mul, add_sub_cancel, Matrix.smul_mul]
    simp only [Matrix.mul_assoc]

/-- Even powers: the Chebyshev polynomials of 2 A†A - 1. -/
theorem cheb_even (z : a) {U : Matrix (a × n) (a × n) ℂ} (hU : IsU U) (k : ℕ) :
    blk z (chebStep z U ^ k) = aeval (2 • ((blk z U)ᴴ * blk z U) - 1) (T ℂ (k : ℤ)) := by
  rw [blk_eq]
  obtain ⟨h1, h2⟩ := cheb_rel z hU
  refine (walk_T h1 (ct_emb_emb z) h2 ?_ k).1
  rw [chebStep, ← blk_conj_refl z U hU, blk_eq]
  simp only [Matrix.mul_assoc, refl_emb]

/-- The polynomials `h` with T_(2k+1)(x) = x h(x²). -/
noncomputable def oddPart : ℕ → ℂ[X]
  | 0 => 1
  | 1 => 4 * X - 3
  | k + 2 => 2 * (2 * X - 1) * oddPart (k + 1) - oddPart k

theorem oddPart_T : ∀ k : ℕ, T ℂ (2 * k + 1 : ℤ) = X * (oddPart k).comp (X ^ 2) ∧ T ℂ (2 * (k + 1 : ℕ) + 1 : ℤ) = X * (oddPart (k + 1)).comp (X ^ 2)
  | 0 => by
    refine ⟨by simp [oddPart], ?_⟩
    have : (2 * ((0 + 1 : ℕ) : ℤ) + 1) = 1 + 2 := by norm_num
    rw [this, Chebyshev.T_add_two, show (1 : ℤ) + 1 = 2 from rfl, Chebyshev.T_two, Chebyshev.T_one]
    simp only [oddPart, sub_comp, mul_comp, X_comp, ofNat_comp]
    ring
  | k + 1 => by
    obtain ⟨i1, i2⟩ := oddPart_T k
    refine ⟨i2, ?_⟩
    have h := Chebyshev.T_mul_T ℂ (2 * ((k + 1 : ℕ) : ℤ) + 1) 2
    have e1 : (2 * ((k + 1 : ℕ) : ℤ) + 1 + 2) = 2 * ((k + 1 + 1 : ℕ) : ℤ) + 1 := by push_cast; ring
    have e2 : (2 * ((k + 1 : ℕ) : ℤ) + 1 - 2) = 2 * (k : ℤ) + 1 := by push_cast; ring
    rw [e1, e2, i1, i2, Chebyshev.T_two] at h
    rw [oddPart, sub_comp, mul_comp, mul_comp, sub_comp, mul_comp, X_comp, one_comp, ofNat_comp]
    linear_combination -h

theorem cheb_odd (z : a) {U : Matrix (a × n) (a × n) ℂ} (hU : IsU U) : ∀ k : ℕ,
    blk z (U * reflM n z * chebStep z U ^ k) = blk z U * aeval ((blk z U)ᴴ * blk z U) (oddPart k)
      ∧ blk z (U * reflM n z * chebStep z U ^ (k + 1)) = blk z U * aeval ((blk z U)ᴴ * blk z U) (oddPart (k + 1))
  | 0 => by
    refine ⟨?_, ?_⟩
    · rw [pow_zero, Matrix.mul_one, oddPart, map_one, Matrix.mul_one, blk_eq, blk_eq, Matrix.mul_assoc, Matrix.mul_assoc, refl_emb]
      simp only [Matrix.mul_assoc]
    · have e : blk z (U * reflM n z * chebStep z U ^ (0 + 1)) = (emb n z)ᴴ * (U * reflM n z * Uᴴ) * (reflM n z * U * emb n z) := by
        rw [zero_add, pow_one, blk_eq, chebStep]
        simp only [Matrix.mul_assoc, refl_emb]
      have c := blk_conj_refl z U hU
      rw [blk_eq] at c
      rw [e, refl_eq, Matrix.mul_sub, Matrix.sub_mul, Matrix.mul_one, hU.right, ← refl_eq, Matrix.mul_sub, Matrix.mul_one, Matrix.sub_mul, zero_add, oddPart]
      have e1 : (emb n z)ᴴ * (U * (2 • (emb n z * (emb n z)ᴴ)) * Uᴴ) * (reflM n z * U * emb n z)
          = 2 • (blk z U * ((emb n z)ᴴ * (Uᴴ * reflM n z * U) * emb n z)) := by
        rw [blk_eq]; simp only [Matrix.mul_smul, Matrix.smul_mul, Matrix.mul_assoc]
      have e2 : (emb n z)ᴴ * (reflM n z * U * emb n z) = blk z U := by
        rw [blk_eq, Matrix.mul_assoc, ← Matrix.mul_assoc, ct_emb_refl]
        simp only [Matrix.mul_assoc]
      rw [e1, c, e2]
      simp only [map_sub, map_mul, aeval_X, map_ofNat, Matrix.mul_sub, Matrix.mul_one]
      generalize blk z U = A
      have e4 : (4 : Matrix n n ℂ) = (4 : ℕ) • (1 : Matrix n n ℂ) := by simp
      have e3 : (3 : Matrix n n ℂ) = (3 : ℕ) • (1 : Matrix n n ℂ) := by simp
      rw [e4, e3]
      simp only [Matrix.smul_mul, Matrix.mul_smul, Matrix.one_mul, Matrix.mul_one]
      module
  | k + 1 => by
    obtain ⟨i1, i2⟩ := cheb_odd z hU k
    refine ⟨i2, ?_⟩
    obtain ⟨h1, h2⟩ := cheb_rel z hU
    have r := walk_rec h1 h2 k
    rw [blk_eq] at i1 i2 ⊢
    rw [show k + 1 + 1 = k + 2 from rfl, Matrix.mul_assoc, Matrix.mul_assoc (U * reflM n z), r, oddPart]
    have i1' : (emb n z)ᴴ * (U * reflM n z * (chebStep z U ^ k * emb n z)) = blk z U * aeval ((blk z U)ᴴ * blk z U) (oddPart k) := by
      rw [← i1]; simp only [Matrix.mul_assoc]
    have i2' : (emb n z)ᴴ * (U * reflM n z * (chebStep z U ^ (k + 1) * emb n z)) = blk z U * aeval ((blk z U)ᴴ * blk z U) (oddPart (k + 1)) := by
      rw [← i2]; simp only [Matrix.mul_assoc]
    rw [Matrix.mul_sub, Matrix.mul_sub, i1', Matrix.mul_smul, Matrix.mul_smul, ← Matrix.mul_assoc (U * reflM n z), ← Matrix.mul_assoc (emb n z)ᴴ, i2']
    have comm : 2 * (2 * X - 1) * oddPart (k + 1) = oddPart (k + 1) * (2 * (2 * X - 1) : ℂ[X]) := by ring
    rw [comm, map_sub (aeval _), map_mul, Matrix.mul_sub (blk z U)]
    congr 1
    simp only [map_sub, map_mul, aeval_X, map_ofNat, map_one]
    rw [← Matrix.mul_assoc]
    generalize blk z U * aeval ((blk z U)ᴴ * blk z U) (oddPart (k + 1)) = Y
    generalize (blk z U)ᴴ * blk z U = D
    have e2 : (2 : Matrix n n ℂ) = (2 : ℕ) • (1 : Matrix n n ℂ) := by simp
    rw [e2]
    simp only [Matrix.smul_mul, Matrix.mul_smul, Matrix.one_mul, Matrix.mul_one]

end Verif.Blk
