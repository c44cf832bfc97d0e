import Mathlib.Analysis.SpecialFunctions.Pow.Complex
import Mathlib.Data.Nat.Size
import Verif.Blk.Lcu
import Verif.Blk.Arith

/-!
Constructors of block encodings (block_encodings/constructors): `from_lcu`, `from_projector`, `from_eye`.
-/

namespace Verif.Blk

open Matrix

variable {n : Type} [Fintype n] [DecidableEq n]

/-- A matrix on the operand as a matrix on no ancilla and the operand. -/
def liftU (M : Matrix n n ℂ) : Matrix (Unit × n) (Unit × n) ℂ := fun x y => M x.2 y.2

/-- `np.sqrt` of complex numbers: the principal root. -/
noncomputable def csqrt (c : ℂ) : ℂ := c ^ ((2 : ℂ)⁻¹)

/-- The state preparation `prepare(qv, array)`: for every size, a matrix for every array. -/
abbrev Prep := (k : ℕ) → (Fin (2 ^ k) → ℂ) → Matrix (Fin (2 ^ k)) (Fin (2 ^ k)) ℂ

/-- `_is_real_non_negative_array` (from_lcu.py:198-209). -/
def nonNeg (coeffs : List ℂ) : Prop := ∀ c ∈ coeffs, |c.im| < 1e-12 ∧ 0 ≤ c.re

/-- The number of index qubits, `(m - 1).bit_length()` (from_lcu.py:141); for m = 0 the bit length of -1. -/
def lcuBits (m : ℕ) : ℕ := if m = 0 then 1 else Nat.size (m - 1)

/-- `q_switch(index, unitaries)` (from_lcu.py:167, 185): nothing for values without branch (C89). -/
noncomputable def lcuSel (k : ℕ) (us : List (Matrix n n ℂ)) : Matrix ((Fin (2 ^ k) × Unit) × n) ((Fin (2 ^ k) × Unit) × n) ℂ :=
  selC fun i => liftU (us.getD i 1)

open scoped Classical in
/-- `build_from_lcu(coeffs, unitaries, is_hermitian)` (from_lcu.py:33-195); `none` for the error of line 157 and if the sum of the coefficients is
0, when `coeffs / alpha` is NaN. -/
noncomputable def fromLcu (prep : Prep) (coeffs : List ℂ) (us : List (Matrix n n ℂ)) (herm : Bool) : Option (BE n) :=
  let k := lcuBits coeffs.length
  let alpha : ℝ := (coeffs.map fun c => ‖c‖).sum
  let v : Fin (2 ^ k) → ℂ := fun i => csqrt (coeffs.getD i 0 / alpha)
  if coeffs.length = 1 then
    if |(coeffs.getD 0 0).im| < 1e-12 then
      some { anc := Unit, zero := (), ancs := 0, U := liftU (us.getD 0 1), alpha := (coeffs.getD 0 0).re, herm := herm }
    else none
  else if alpha = 0 then none
  else if nonNeg coeffs then
    some { anc := Fin (2 ^ k) × Unit, zero := (⟨0, Nat.two_pow_pos k⟩, ()), ancs := 1,
           U := (regC Unit n (prep k v))ᴴ * (lcuSel k us * regC Unit n (prep k v)), alpha := alpha, herm := herm }
  else
    some { anc := Fin (2 ^ k) × Unit, zero := (⟨0, Nat.two_pow_pos k⟩, ()), ancs := 1,
           U := (regC Unit n (prep k fun i => star (v i)))ᴴ * (lcuSel k us * regC Unit n (prep k v)), alpha := alpha, herm := herm }

/-- The matrix of a classical map. -/
def mapU {ι : Type} [DecidableEq ι] (f : ι → ι) : Matrix ι ι ℂ := fun x y => if x = f y then 1 else 0

/-- `build_from_projector(left, right, kernel)` (from_projector.py:26-176) with the preparations `L`, `R` as matrices and the operand value
`o` in which all qubits are 0: x on the ancilla unless `kernel`, the inverse of R (of L if `kernel`), x on the ancilla if the operand is 0, L. -/
def fromProjector (o : n) (L R : Matrix n n ℂ) (kernel : Bool) : BE n where
  anc := Bool × Unit
  zero := (false, ())
  ancs := 1
  U :=
    let R' := if kernel then L else R
    padL Bool (liftU L) * (mapU (fun y => ((if y.2 = o then !y.1.1 else y.1.1, ()), y.2)) * (padL Bool (liftU R'ᴴ) * (if kernel then 1 else bit Unit n xM)))
  alpha := 1
  herm := false

/-- The classical maps of `build_from_eye` (from_eye.py:84-105 and 113-133) on operand values below 2^w: the in-place subtraction, then the
comparison is added to the ancilla. -/
def eyeMap (w : ℕ) (k : ℤ) (x : Bool × Fin (2 ^ w)) : Bool × Fin (2 ^ w) :=
  let y : Fin (2 ^ w) := ⟨(((x.2 : ℤ) - k) % (2 ^ w : ℤ)).toNat % 2 ^ w, Nat.mod_lt _ (Nat.two_pow_pos w)⟩
  if 0 < k then
    if k = 1 then (xor x.1 (decide ((y : ℤ) = 2 ^ w - 1)), y) else (xor x.1 (decide ((y : ℤ) ≥ 2 ^ w - k)), y)
  else
    if k = -1 then (xor x.1 (decide ((y : ℤ) = 0)), y) else (xor x.1 (decide ((y : ℤ) < -k)), y)

/-- `build_from_eye(diagonal_index)` (from_eye.py:22-135) on an operand of w qubits. -/
def fromEye (w : ℕ) (k : ℤ) : BE (Fin (2 ^ w)) :=
  if k = 0 then { anc := Unit, zero := (), ancs := 0, U := 1, alpha := 1, herm := true }
  else
    { anc := Bool × Unit, zero := (false, ()), ancs := 1,
      U := mapU (fun y => (((eyeMap w k (y.1.1, y.2)).1, ()), (eyeMap w k (y.1.1, y.2)).2)), alpha := 1, herm := false }

/-! ### Lemmas -/

theorem csqrt_sq (c : ℂ) : csqrt c * csqrt c = c := by
  have := Complex.cpow_nat_inv_pow c (n := 2) two_ne_zero
  rw [← sq]; exact_mod_cast this

theorem csqrt_norm (c : ℂ) : ‖csqrt c‖ ^ 2 = ‖c‖ := by
  rw [sq, ← norm_mul, csqrt_sq]

omit [Fintype n] [DecidableEq n] in
theorem blk_liftU (M : Matrix n n ℂ) : blk () (liftU M) = M := rfl

theorem liftU_mul (M N : Matrix n n ℂ) : liftU M * liftU N = liftU (M * N) := by
  ext x y
  rw [mul_apply, Fintype.sum_prod_type]
  simp only [Finset.univ_unique, Finset.sum_singleton, liftU, mul_apply]

omit [Fintype n] [DecidableEq n] in
theorem liftU_ct (M : Matrix n n ℂ) : (liftU M)ᴴ = liftU Mᴴ := rfl

theorem liftU_one : liftU (1 : Matrix n n ℂ) = 1 := by
  ext x y
  simp only [liftU, Matrix.one_apply]
  by_cases h : x = y
  · simp [h]
  · rw [if_neg h, if_neg fun e => h (Prod.ext (Subsingleton.elim _ _) e)]

theorem IsU.liftU {M : Matrix n n ℂ} (h : IsU M) : IsU (liftU M) := by
  rw [IsU, liftU_ct, liftU_mul, h, liftU_one]

/-- The matrix of a reversible classical map. -/
theorem IsU.mapU {ι : Type} [Fintype ι] [DecidableEq ι] {f : ι → ι} (hf : Function.Injective f) : IsU (mapU f) := by
  unfold IsU
  ext x y
  rw [mul_apply, Finset.sum_eq_single (f x)]
  · rw [conjTranspose_apply, Blk.mapU, Blk.mapU, if_pos rfl, star_one, one_mul, Matrix.one_apply]
    by_cases h : x = y
    · simp [h]
    · rw [if_neg h, if_neg fun e => h (hf e)]
  · intro z _ hz; rw [conjTranspose_apply, Blk.mapU, if_neg hz, star_zero, zero_mul]
  · simp

omit [Fintype n] in
/-- A sum over the index register is the sum over the lists. -/
theorem sum_getD (cs : List ℂ) (us : List (Matrix n n ℂ)) (h : us.length = cs.length) (N : ℕ) (hN : cs.length ≤ N) :
    ∑ i : Fin N, cs.getD i 0 • us.getD i 1 = (List.zipWith (fun c U => c • U) cs us).sum := by
  rw [← Finset.sum_range (fun i => cs.getD i 0 • us.getD i 1)]
  induction cs generalizing us N with
  | nil => simp
  | cons c cs ih =>
    cases us with
    | nil => simp at h
    | cons u us =>
      obtain ⟨N, rfl⟩ : ∃ M, N = M + 1 := ⟨N - 1, by simp at hN; omega⟩
      rw [Finset.sum_range_succ']
      simp only [List.getD_cons_succ, List.getD_cons_zero, List.zipWith_cons_cons, List.sum_cons]
      rw [ih us (by simpa using h) N (by simpa using hN), add_comm]

theorem sum_norm_getD (cs : List ℂ) (N : ℕ) (hN : cs.length ≤ N) : ∑ i : Fin N, ‖cs.getD i 0‖ = (cs.map fun c => ‖c‖).sum := by
  rw [← Finset.sum_range (fun i => ‖cs.getD i 0‖)]
  induction cs generalizing N with
  | nil => simp
  | cons c cs ih =>
    obtain ⟨N, rfl⟩ : ∃ M, N = M + 1 := ⟨N - 1, by simp at hN; omega⟩
    rw [Finset.sum_range_succ']
    simp only [List.getD_cons_succ, List.getD_cons_zero, List.map_cons, List.sum_cons]
    rw [ih N (by simpa using hN), add_comm]

theorem lcuBits_le (m : ℕ) : m ≤ 2 ^ lcuBits m := by
  rw [lcuBits]
  split_ifs with h
  · omega
  · have := Nat.lt_size_self (m - 1); omega

/-- The blocks of a matrix on one ancilla and the operand. -/
def subB (p q : Bool) (M : Matrix ((Bool × Unit) × n) ((Bool × Unit) × n) ℂ) : Matrix n n ℂ := fun i j => M ((p, ()), i) ((q, ()), j)

omit [DecidableEq n] in
theorem subB_mul (p q : Bool) (M N : Matrix ((Bool × Unit) × n) ((Bool × Unit) × n) ℂ) :
    subB p q (M * N) = subB p false M * subB false q N + subB p true M * subB true q N := by
  ext i j
  simp only [subB, mul_apply, Matrix.add_apply, Fintype.sum_prod_type, Fintype.sum_bool, Finset.univ_unique, Finset.sum_singleton]
  rw [add_comm]

omit [Fintype n] [DecidableEq n] in
theorem subB_padL (p q : Bool) (V : Matrix n n ℂ) : subB p q (padL Bool (liftU V)) = if p = q then V else 0 := by
  ext i j
  simp only [subB, padL, liftU]
  split_ifs <;> rfl

end Verif.Blk
