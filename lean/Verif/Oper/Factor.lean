import Mathlib.Data.Complex.Basic
import Mathlib.LinearAlgebra.Matrix.Notation
import Mathlib.NumberTheory.Zsqrtd.GaussianInt
import Mathlib.Data.Fintype.Basic

/-!
Single qubit factors of qubit terms and their multiplication table.
-/

namespace Verif.Oper

/-- The factor names of a `QubitTerm`
(src/qrisp/operators/qubit/qubit_term.py lines 24-89). -/
inductive Fac where
  | I | X | Y | Z | A | C | P0 | P1
  deriving DecidableEq, Repr

instance : Fintype Fac :=
  ⟨{.I, .X, .Y, .Z, .A, .C, .P0, .P1}, fun f => by cases f <;> decide⟩

/-- Coefficients of the multiplication table: Gaussian integers. -/
abbrev GI := GaussianInt

/-- The imaginary unit. -/
def gi : GI := ⟨0, 1⟩

open Fac in
/-- `PAULI_TABLE` (src/qrisp/operators/qubit/qubit_term.py lines 24-89), row by row. -/
def table : Fac → Fac → Fac × GI
  | I, I => (I, 1)
  | I, X => (X, 1)
  | I, Y => (Y, 1)
  | I, Z => (Z, 1)
  | I, A => (A, 1)
  | I, C => (C, 1)
  | I, P0 => (P0, 1)
  | I, P1 => (P1, 1)
  | X, I => (X, 1)
  | X, X => (I, 1)
  | X, Y => (Z, gi)
  | X, Z => (Y, -gi)
  | X, A => (P1, 1)
  | X, C => (P0, 1)
  | X, P0 => (C, 1)
  | X, P1 => (A, 1)
  | Y, I => (Y, 1)
  | Y, X => (Z, -gi)
  | Y, Y => (I, 1)
  | Y, Z => (X, gi)
  | Y, A => (P1, gi)
  | Y, C => (P0, -gi)
  | Y, P0 => (C, gi)
  | Y, P1 => (A, -gi)
  | Z, I => (Z, 1)
  | Z, X => (Y, gi)
  | Z, Y => (X, -gi)
  | Z, Z => (I, 1)
  | Z, A => (A, 1)
  | Z, C => (C, -1)
  | Z, P0 => (P0, 1)
  | Z, P1 => (P1, -1)
  | A, I => (A, 1)
  | A, X => (P0, 1)
  | A, Y => (P0, gi)
  | A, Z => (A, -1)
  | A, A => (I, 0)
  | A, C => (P0, 1)
  | A, P0 => (I, 0)
  | A, P1 => (A, 1)
  | C, I => (C, 1)
  | C, X => (P1, 1)
  | C, Y => (P1, -gi)
  | C, Z => (C, 1)
  | C, A => (P1, 1)
  | C, C => (I, 0)
  | C, P0 => (C, 1)
  | C, P1 => (I, 0)
  | P0, I => (P0, 1)
  | P0, X => (A, 1)
  | P0, Y => (A, -gi)
  | P0, Z => (P0, 1)
  | P0, A => (A, 1)
  | P0, C => (I, 0)
  | P0, P0 => (P0, 1)
  | P0, P1 => (I, 0)
  | P1, I => (P1, 1)
  | P1, X => (C, 1)
  | P1, Y => (C, gi)
  | P1, Z => (P1, -1)
  | P1, A => (I, 0)
  | P1, C => (C, 1)
  | P1, P0 => (I, 0)
  | P1, P1 => (P1, 1)

/-- The matrices of the factors as Gaussian integers (row index = output bit);
src/qrisp/operators/qubit/qubit_operator.py lines 675-684. -/
def matG : Fac → Bool → Bool → GI
  | .I, a, b => if a = b then 1 else 0
  | .X, a, b => if a = b then 0 else 1
  | .Y, a, b => if a = b then 0 else if a then gi else -gi
  | .Z, a, b => if a = b then (if a then -1 else 1) else 0
  | .A, a, b => if !a && b then 1 else 0
  | .C, a, b => if a && !b then 1 else 0
  | .P0, a, b => if !a && !b then 1 else 0
  | .P1, a, b => if a && b then 1 else 0

/-- Operators of `n` qubits: matrices indexed by basis states. -/
abbrev MatN (n : Nat) := Matrix (Fin n → Bool) (Fin n → Bool) ℂ

/-- The complex number of a Gaussian integer. -/
noncomputable def toC : GI →+* ℂ := GaussianInt.toComplex

theorem toC_inj {a b : GI} : toC a = toC b ↔ a = b := GaussianInt.toComplex_inj

theorem toC_zero {a : GI} : toC a = 0 ↔ a = 0 := GaussianInt.toComplex_eq_zero

theorem toC_gi : toC gi = Complex.I := by
  have h : toC gi = ⟨(0 : ℤ), (1 : ℤ)⟩ := GaussianInt.toComplex_def₂ _ |>.trans (by rfl)
  rw [h]
  apply Complex.ext <;> simp

/-- The 2×2 matrix of a factor. -/
noncomputable def mat (f : Fac) : Matrix Bool Bool ℂ := fun a b => toC (matG f a b)

/-- The table entry is the product. -/
theorem table_matG (f g : Fac) (i j : Bool) :
    matG f i false * matG g false j + matG f i true * matG g true j =
      (table f g).2 * matG (table f g).1 i j := by
  revert f g i j; decide +kernel

theorem mat_mul (f g : Fac) : mat f * mat g = toC (table f g).2 • mat (table f g).1 := by
  ext i j
  have h := congrArg toC (table_matG f g i j)
  simp only [map_add, map_mul] at h
  simp [Matrix.mul_apply, mat, smul_eq_mul, ← h, add_comm]

/-- A factor matrix is not zero. -/
theorem mat_ne (f : Fac) : ∃ i j, mat f i j ≠ 0 := by
  have h : ∀ f, ∃ i j, matG f i j ≠ 0 := by decide +kernel
  obtain ⟨i, j, hij⟩ := h f
  exact ⟨i, j, fun h0 => hij (toC_zero.1 h0)⟩

/-- Different factors are not proportional: some 2×2 minor of the pair does not vanish. -/
theorem mat_minor {f g : Fac} (h : f ≠ g) :
    ∃ i j k l, mat f i j * mat g k l ≠ mat f k l * mat g i j := by
  have h' : ∀ f g, f ≠ g → ∃ i j k l, matG f i j * matG g k l ≠ matG f k l * matG g i j := by
    decide +kernel
  obtain ⟨i, j, k, l, hm⟩ := h' f g h
  refine ⟨i, j, k, l, fun h0 => hm ?_⟩
  simp only [mat, ← map_mul] at h0
  exact toC_inj.1 h0

end Verif.Oper
