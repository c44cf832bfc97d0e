import Mathlib.Analysis.Complex.Trigonometric
import Mathlib.Analysis.SpecialFunctions.Trigonometric.Arctan
import Mathlib.LinearAlgebra.Matrix.Hermitian
import Mathlib.LinearAlgebra.UnitaryGroup
import Mathlib.Data.Matrix.Basic

/-!
Block encodings (block_encodings/block_encoding_base.py).

A block encoding is a unitary on ancillas and operands together with a scaling factor and a flag. The basis states of the operand variables form
the type `n`, the basis states of the ancilla variables the type `anc`, with `zero` the state in which all of them are |0>.
-/

namespace Verif.Blk

open Matrix

variable {n a b : Type} [Fintype n] [DecidableEq n] [Fintype a] [DecidableEq a] [Fintype b] [DecidableEq b]

/-- `BlockEncoding` (block_encoding_base.py:45-330): `alpha`, `_anc_templates`, `unitary`, `is_hermitian`. `ancs` is the number of ancilla
templates, `anc` the type of their joint basis states. Number and sizes of the operand variables are those of the type `n`. -/
structure BE (n : Type) where
  anc : Type
  [fin : Fintype anc]
  [dec : DecidableEq anc]
  zero : anc
  ancs : ℕ
  U : Matrix (anc × n) (anc × n) ℂ
  alpha : ℝ
  herm : Bool

attribute [instance] BE.fin BE.dec

/-- The block of a unitary in which all ancillas stay |0>. -/
def blk (z : a) (U : Matrix (a × n) (a × n) ℂ) : Matrix n n ℂ := fun i j => U (z, i) (z, j)

/-- The unitary on the first ancillas of a pair, nothing on the others. -/
def padR (b : Type) [DecidableEq b] (V : Matrix (a × n) (a × n) ℂ) : Matrix ((a × b) × n) ((a × b) × n) ℂ :=
  fun x y => if x.1.2 = y.1.2 then V (x.1.1, x.2) (y.1.1, y.2) else 0

/-- The unitary on the second ancillas of a pair, nothing on the others. -/
def padL (a : Type) [DecidableEq a] (V : Matrix (b × n) (b × n) ℂ) : Matrix ((a × b) × n) ((a × b) × n) ℂ :=
  fun x y => if x.1.1 = y.1.1 then V (x.1.2, x.2) (y.1.2, y.2) else 0

/-- `with control(args[0], ctrl_state=c)`: the unitary if the first ancilla is `c`. -/
def ctl (c : Bool) (V : Matrix (a × n) (a × n) ℂ) : Matrix ((Bool × a) × n) ((Bool × a) × n) ℂ :=
  fun x y => if x.1.1 = y.1.1 then (if x.1.1 = c then V (x.1.2, x.2) (y.1.2, y.2) else (1 : Matrix (a × n) (a × n) ℂ) (x.1.2, x.2) (y.1.2, y.2))
    else 0

/-- A gate on the first ancilla. -/
def bit (a n : Type) [DecidableEq a] [DecidableEq n] (G : Matrix Bool Bool ℂ) : Matrix ((Bool × a) × n) ((Bool × a) × n) ℂ :=
  fun x y => if x.1.2 = y.1.2 ∧ x.2 = y.2 then G x.1.1 y.1.1 else 0

/-! ### Products and adjoints of the pieces -/

theorem padR_mul (V W : Matrix (a × n) (a × n) ℂ) : padR b V * padR b W = padR b (V * W) := by
  ext x y
  rw [mul_apply]
  simp only [padR, mul_apply, Fintype.sum_prod_type]
  by_cases h : x.1.2 = y.1.2
  · rw [if_pos h]
    apply Finset.sum_congr rfl; intro p _
    rw [Finset.sum_comm]
    apply Finset.sum_congr rfl; intro i _
    rw [Finset.sum_eq_single x.1.2]
    · simp [h]
    · intro q _ hq; simp [Ne.symm hq]
    · simp
  · rw [if_neg h]
    apply Finset.sum_eq_zero; intro p _
    apply Finset.sum_eq_zero; intro q _
    apply Finset.sum_eq_zero; intro i _
    by_cases hq : x.1.2 = q
    · simp [← hq, h]
    · simp [hq]

theorem padL_mul (V W : Matrix (b × n) (b × n) ℂ) : padL a V * padL a W = padL a (V * W) := by
  ext x y
  rw [mul_apply]
  simp only [padL, mul_apply, Fintype.sum_prod_type]
  by_cases h : x.1.1 = y.1.1
  · rw [if_pos h, Finset.sum_eq_single x.1.1]
    · simp [h]
    · intro q _ hq; simp [Ne.symm hq]
    · simp
  · rw [if_neg h]
    apply Finset.sum_eq_zero; intro p _
    apply Finset.sum_eq_zero; intro q _
    apply Finset.sum_eq_zero; intro i _
    by_cases hq : x.1.1 = p
    · simp [← hq, h]
    · simp [hq]

omit [Fintype n] [Fintype a] [Fintype b] in
theorem padR_one : padR b (1 : Matrix (a × n) (a × n) ℂ) = 1 := by
  ext ⟨⟨p, q⟩, i⟩ ⟨⟨p', q'⟩, i'⟩
  simp only [padR, Matrix.one_apply, Prod.mk.injEq]
  by_cases h : q = q' <;> simp [h]

omit [Fintype n] [Fintype a] [Fintype b] in
theorem padL_one : padL a (1 : Matrix (b × n) (b × n) ℂ) = 1 := by
  ext ⟨⟨p, q⟩, i⟩ ⟨⟨p', q'⟩, i'⟩
  simp only [padL, Matrix.one_apply, Prod.mk.injEq]
  by_cases h : p = p' <;> simp [h]

omit [Fintype n] [DecidableEq n] [Fintype a] [DecidableEq a] [Fintype b] in
theorem padR_ct (V : Matrix (a × n) (a × n) ℂ) : (padR b V)ᴴ = padR b Vᴴ := by
  ext x y
  simp only [padR, conjTranspose_apply]
  by_cases h : x.1.2 = y.1.2
  · simp [h]
  · simp [h, Ne.symm h]

omit [Fintype n] [DecidableEq n] [Fintype a] [Fintype b] [DecidableEq b] in
theorem padL_ct (V : Matrix (b × n) (b × n) ℂ) : (padL a V)ᴴ = padL a Vᴴ := by
  ext x y
  simp only [padL, conjTranspose_apply]
  by_cases h : x.1.1 = y.1.1
  · simp [h]
  · simp [h, Ne.symm h]

/-- Different unitaries for the values of the first ancilla. -/
def sel (F : Bool → Matrix (a × n) (a × n) ℂ) : Matrix ((Bool × a) × n) ((Bool × a) × n) ℂ :=
  fun x y => if x.1.1 = y.1.1 then F x.1.1 (x.1.2, x.2) (y.1.2, y.2) else 0

omit [Fintype n] [Fintype a] in
theorem ctl_eq (c : Bool) (V : Matrix (a × n) (a × n) ℂ) : ctl c V = sel (fun q => if q = c then V else 1) := by
  ext x y
  simp only [ctl, sel]
  by_cases h : x.1.1 = y.1.1
  · rw [if_pos h, if_pos h]
    by_cases h' : x.1.1 = c
    · rw [if_pos h', if_pos h']
    · rw [if_neg h', if_neg h']
  · rw [if_neg h, if_neg h]

omit [DecidableEq n] [DecidableEq a] in
theorem sel_mul (F G : Bool → Matrix (a × n) (a × n) ℂ) : sel F * sel G = sel (fun q => F q * G q) := by
  ext x y
  rw [mul_apply]
  simp only [sel, mul_apply, Fintype.sum_prod_type]
  by_cases h : x.1.1 = y.1.1
  · rw [if_pos h, Finset.sum_eq_single x.1.1]
    · simp [h]
    · intro q _ hq; simp [Ne.symm hq]
    · simp
  · rw [if_neg h]
    apply Finset.sum_eq_zero; intro p _
    apply Finset.sum_eq_zero; intro q _
    apply Finset.sum_eq_zero; intro i _
    by_cases hq : x.1.1 = p
    · rw [← hq]; simp [h]
    · simp [hq]

omit [Fintype n] [DecidableEq n] [Fintype a] [DecidableEq a] in
theorem sel_ct (F : Bool → Matrix (a × n) (a × n) ℂ) : (sel F)ᴴ = sel (fun q => (F q)ᴴ) := by
  ext x y
  simp only [sel, conjTranspose_apply]
  by_cases h : x.1.1 = y.1.1
  · simp [h]
  · simp [h, Ne.symm h]

omit [Fintype n] [Fintype a] in
theorem sel_one : sel (fun _ => (1 : Matrix (a × n) (a × n) ℂ)) = 1 := by
  ext ⟨⟨p, q⟩, i⟩ ⟨⟨p', q'⟩, i'⟩
  simp only [sel, Matrix.one_apply, Prod.mk.injEq]
  by_cases h : p = p' <;> simp [h]

theorem bit_mul (G G' : Matrix Bool Bool ℂ) : bit a n G * bit a n G' = bit a n (G * G') := by
  ext ⟨⟨p, q⟩, i⟩ ⟨⟨p', q'⟩, i'⟩
  rw [mul_apply]
  simp only [bit, mul_apply, Fintype.sum_prod_type]
  rw [Finset.sum_congr rfl (g := fun r => if q = q' ∧ i = i' then G p r * G' r p' else 0)]
  · by_cases h : q = q' ∧ i = i'
    · simp [h]
    · simp [h]
  · intro r _
    rw [Finset.sum_eq_single q, Finset.sum_eq_single i]
    · simp
    · intro k _ hk; simp [Ne.symm hk]
    · simp
    · intro k _ hk; apply Finset.sum_eq_zero; intro l _; simp [Ne.symm hk]
    · simp

omit [Fintype n] [Fintype a] in
theorem bit_one : bit a n 1 = 1 := by
  ext ⟨⟨p, q⟩, i⟩ ⟨⟨p', q'⟩, i'⟩
  simp only [bit, Matrix.one_apply, Prod.mk.injEq]
  by_cases h : p = p' <;> simp [h]

omit [Fintype n] [Fintype a] in
theorem bit_ct (G : Matrix Bool Bool ℂ) : (bit a n G)ᴴ = bit a n Gᴴ := by
  ext x y
  simp only [bit, conjTranspose_apply]
  by_cases h : x.1.2 = y.1.2 ∧ x.2 = y.2
  · simp [h]
  · rw [if_neg h, if_neg (fun h' => h ⟨h'.1.symm, h'.2.symm⟩)]; simp

theorem bit_mul_apply (G : Matrix Bool Bool ℂ) (M : Matrix ((Bool × a) × n) ((Bool × a) × n) ℂ) (x y : (Bool × a) × n) :
    (bit a n G * M) x y = ∑ r, G x.1.1 r * M ((r, x.1.2), x.2) y := by
  obtain ⟨⟨p, q⟩, i⟩ := x
  rw [mul_apply]
  simp only [bit, Fintype.sum_prod_type]
  apply Finset.sum_congr rfl; intro r _
  rw [Finset.sum_eq_single q, Finset.sum_eq_single i]
  · simp
  · intro k _ hk; simp [Ne.symm hk]
  · simp
  · intro k _ hk; apply Finset.sum_eq_zero; intro l _; simp [Ne.symm hk]
  · simp

theorem mul_bit_apply (G : Matrix Bool Bool ℂ) (M : Matrix ((Bool × a) × n) ((Bool × a) × n) ℂ) (x y : (Bool × a) × n) :
    (M * bit a n G) x y = ∑ r, M x ((r, y.1.2), y.2) * G r y.1.1 := by
  obtain ⟨⟨p, q⟩, i⟩ := y
  rw [mul_apply]
  simp only [bit, Fintype.sum_prod_type]
  apply Finset.sum_congr rfl; intro r _
  rw [Finset.sum_eq_single q, Finset.sum_eq_single i]
  · simp
  · intro k _ hk; simp [hk]
  · simp
  · intro k _ hk; apply Finset.sum_eq_zero; intro l _; simp [hk]
  · simp

/-! ### Unitarity -/

/-- A unitary matrix. -/
def IsU {ι : Type} [Fintype ι] [DecidableEq ι] (U : Matrix ι ι ℂ) : Prop := Uᴴ * U = 1

theorem IsU.right {ι : Type} [Fintype ι] [DecidableEq ι] {U : Matrix ι ι ℂ} (h : IsU U) : U * Uᴴ = 1 := mul_eq_one_comm.mp h

theorem IsU.ct {ι : Type} [Fintype ι] [DecidableEq ι] {U : Matrix ι ι ℂ} (h : IsU U) : IsU Uᴴ := by
  rw [IsU, conjTranspose_conjTranspose]; exact h.right

theorem IsU.mul {ι : Type} [Fintype ι] [DecidableEq ι] {U V : Matrix ι ι ℂ} (h : IsU U) (h' : IsU V) : IsU (U * V) := by
  rw [IsU, conjTranspose_mul, Matrix.mul_assoc, ← Matrix.mul_assoc Uᴴ, h, Matrix.one_mul, h']

theorem IsU.one {ι : Type} [Fintype ι] [DecidableEq ι] : IsU (1 : Matrix ι ι ℂ) := by rw [IsU, conjTranspose_one, Matrix.one_mul]

theorem IsU.neg {ι : Type} [Fintype ι] [DecidableEq ι] {U : Matrix ι ι ℂ} (h : IsU U) : IsU (-U) := by
  rw [IsU, conjTranspose_neg, neg_mul_neg, h]

theorem IsU.padR {V : Matrix (a × n) (a × n) ℂ} (h : IsU V) : IsU (padR b V) := by
  rw [IsU, padR_ct, padR_mul, h, padR_one]

theorem IsU.padL {V : Matrix (b × n) (b × n) ℂ} (h : IsU V) : IsU (padL a V) := by
  rw [IsU, padL_ct, padL_mul, h, padL_one]

theorem IsU.sel {F : Bool → Matrix (a × n) (a × n) ℂ} (h : ∀ q, IsU (F q)) : IsU (sel F) := by
  rw [IsU, sel_ct, sel_mul]; simp only [show ∀ q, (F q)ᴴ * F q = 1 from h, sel_one]

theorem IsU.ctl {V : Matrix (a × n) (a × n) ℂ} (c : Bool) (h : IsU V) : IsU (ctl c V) := by
  rw [ctl_eq]
  apply IsU.sel; intro q
  by_cases hq : q = c
  · rw [if_pos hq]; exact h
  · rw [if_neg hq]; exact IsU.one

theorem IsU.bit {G : Matrix Bool Bool ℂ} (h : IsU G) : IsU (bit a n G) := by
  rw [IsU, bit_ct, bit_mul, h, bit_one]

end Verif.Blk
