import Mathlib.Data.Nat.Bitwise
import Mathlib.Data.Int.ModEq
import Mathlib.Data.Rat.Floor
import Mathlib.Algebra.Order.Floor.Ring
import Mathlib.Tactic.Ring
import Mathlib.Tactic.FieldSimp
import Mathlib.Tactic.Linarith
import Mathlib.Tactic.Positivity

/-!
Rounding of quantum floats (src/qrisp/alg_primitives/arithmetic/arithmetic_tools.py lines 187-393), on
basis states, outside of tracing mode.
-/

namespace Verif.Types.Rounding

/-! ### Model

A register with `n` qubits holds a number below `2^n`; for signed floats `n` includes the sign qubit.
`e` is the exponent. -/

/-- Python index into a list of `n` entries; `none` is an `IndexError`. -/
def pyIdx (n : Nat) (i : Int) : Option Nat :=
  if 0 ≤ i then (if i < n then some i.toNat else none)
  else if -(n : Int) ≤ i then some (i + n).toNat else none

/-- `cx(a[k], b[k])`. -/
def cxBit (a b k : Nat) : Nat := if a.testBit k then b ^^^ 2 ^ k else b

/-- One pass of the loop in lines 210-211. -/
def floorStep (n a : Nat) (b : Option Nat) (i : Int) : Option Nat :=
  match b, pyIdx n i with
  | some b, some k => some (cxBit a b k)
  | _, _ => none

/-- `q_floor` (lines 187-213): the loop over `range(-e, n)`. -/
def qFloor (n : Nat) (e : Int) (a : Nat) : Option Nat :=
  ((List.range (n + e).toNat).map fun j : Nat => -e + (j : Int)).foldl (floorStep n a) (some 0)

/-- `logical_OR` (lines 258-264) on the qubits `a[:k]` of a register with `n` qubits. -/
def logicalOr (n a k : Nat) (flag : Bool) : Bool :=
  xor (!flag) ((List.range (min k n)).all fun i => !a.testBit i)

/-- `b += 1` for exponent `e ≤ 0`, modulo the size of the register. -/
def addOne (n : Nat) (e : Int) (b : Nat) : Nat := (b + 2 ^ (-e).toNat) % 2 ^ n

/-- `q_ceil` (lines 216-255): the result, and the flag when it is deleted. -/
def qCeil (n : Nat) (e : Int) (a : Nat) : Option (Nat × Bool) :=
  (qFloor n e a).map fun b =>
    if e < 0 then
      let flag := logicalOr n a (-e).toNat false
      (if flag then addOne n e b else b, logicalOr n a (-e).toNat flag)
    else (b, false)

/-- `q_round` (lines 267-301). -/
def qRound (n : Nat) (e : Int) (a : Nat) : Option Nat :=
  match qFloor n e a with
  | none => none
  | some b =>
    if e < 0 then (pyIdx n (-e - 1)).map fun k => if a.testBit k then addOne n e b else b
    else some b

/-- `b -= c` for registers of the same shape. -/
def subReg (n b c : Nat) : Nat := (b + (2 ^ n - c)) % 2 ^ n

/-- `q_fractional` (lines 304-361). -/
def qFractional (n : Nat) (e : Int) (signed : Bool) (a : Nat) : Option Nat :=
  if signed && a.testBit (n - 1) then (qCeil n e a).map fun c => subReg n a c.1
  else (qFloor n e a).map fun c => subReg n a c

/-- `q_modf` (lines 364-393). -/
def qModf (n : Nat) (e : Int) (signed : Bool) (a : Nat) : Option (Nat × Nat) :=
  match qFloor n e a, qFractional n e signed a with
  | some i, some f => some (i, f)
  | _, _ => none

/-! ### Specification -/

/-- The integer in a register: two's complement if signed. -/
def ival (n : Nat) (signed : Bool) (u : Nat) : Int :=
  if signed && decide (2 ^ (n - 1) ≤ u) then (u : Int) - 2 ^ n else u

/-- The value of a quantum float with exponent `-d`. -/
def fval (n d : Nat) (signed : Bool) (u : Nat) : ℚ := (ival n signed u : ℚ) / 2 ^ d

/-! ### Lemmas -/

theorem cxBit_testBit (a b k j : Nat) :
    (cxBit a b k).testBit j = xor (b.testBit j) (decide (j = k) && a.testBit k) := by
  rw [cxBit]
  split
  · rename_i h
    rw [Nat.testBit_xor, Nat.testBit_two_pow, h]
    by_cases hjk : j = k
    · simp [hjk]
    · have : ¬ k = j := fun h => hjk h.symm
      simp [hjk, this]
  · rename_i h
    simp [h]

/-- The loop over indices which are not negative. -/
theorem floor_loop (n d a m : Nat) (hm : d + m ≤ n) :
    ∃ r, ((List.range m).map fun j : Nat => (d : Int) + (j : Int)).foldl (floorStep n a) (some 0) = some r ∧
      ∀ j, r.testBit j = (decide (d ≤ j ∧ j < d + m) && a.testBit j) := by
  induction m with
  | zero => exact ⟨0, rfl, fun j => by
    have : ¬ (d ≤ j ∧ j < d + 0) := by omega
    rw [Nat.zero_testBit, decide_eq_false this]; rfl⟩
  | succ m ih =>
    obtain ⟨r, h1, h2⟩ := ih (by omega)
    refine ⟨cxBit a r (d + m), ?_, fun j => ?_⟩
    · rw [List.range_succ, List.map_append, List.foldl_append, h1]
      have : pyIdx n ((d : Int) + (m : Int)) = some (d + m) := by
        rw [pyIdx, if_pos (by omega), if_pos (by omega)]
        congr 1
      simp [floorStep, this]
    · rw [cxBit_testBit, h2]
      by_cases h3 : j = d + m
      · subst h3; simp
      · have : (d ≤ j ∧ j < d + m) ↔ (d ≤ j ∧ j < d + (m + 1)) := by omega
        simp [h3, this]

theorem qFloor_eq {n d a : Nat} (ha : a < 2 ^ n) (hd : d ≤ n) :
    qFloor n (-(d : Int)) a = some (a - a % 2 ^ d) := by
  have e : ((n : Int) + -(d : Int)).toNat = n - d := by omega
  obtain ⟨r, h1, h2⟩ := floor_loop n d a (n - d) (by omega)
  rw [qFloor, e, neg_neg, h1]
  congr 1
  have e2 : a - a % 2 ^ d = a >>> d <<< d := by
    rw [Nat.shiftRight_eq_div_pow, Nat.shiftLeft_eq]
    have := Nat.div_add_mod a (2 ^ d)
    rw [Nat.mul_comm] at this
    omega
  rw [e2]
  apply Nat.eq_of_testBit_eq
  intro j
  rw [h2, Nat.testBit_shiftLeft, Nat.testBit_shiftRight]
  by_cases hj : d ≤ j
  · have e3 : d + (j - d) = j := by omega
    rw [e3]
    by_cases hj2 : j < n
    · have : d ≤ j ∧ j < d + (n - d) := by omega
      simp [this]
    · have : a.testBit j = false := Nat.testBit_lt_two_pow
        (lt_of_lt_of_le ha (Nat.pow_le_pow_right (by decide) (by omega)))
      simp [this]
  · have : ¬ (d ≤ j ∧ j < d + (n - d)) := by omega
    simp [hj]

theorem qFloor_eq_ge {n d a : Nat} (hd : n ≤ d) : qFloor n (-(d : Int)) a = some 0 := by
  have e : ((n : Int) + -(d : Int)).toNat = 0 := by omega
  rw [qFloor, e]; rfl

theorem logicalOr_eq {n a k : Nat} (hk : k ≤ n) (f : Bool) :
    logicalOr n a k f = xor f (decide (a % 2 ^ k ≠ 0)) := by
  have : ((List.range (min k n)).all fun i => !a.testBit i) = decide (a % 2 ^ k = 0) := by
    rw [Nat.min_eq_left hk, Bool.eq_iff_iff, List.all_eq_true, decide_eq_true_iff]
    constructor
    · intro h
      apply Nat.eq_of_testBit_eq
      intro i
      rw [Nat.testBit_mod_two_pow, Nat.zero_testBit]
      by_cases hi : i < k
      · have := h i (List.mem_range.2 hi)
        simp at this; simp [this]
      · simp [hi]
    · intro h i hi
      have h1 : (a % 2 ^ k).testBit i = false := by rw [h, Nat.zero_testBit]
      rw [Nat.testBit_mod_two_pow] at h1
      have := List.mem_range.1 hi
      simpa [this] using h1
  rw [logicalOr, this]
  by_cases h : a % 2 ^ k = 0 <;> cases f <;> simp [h]

theorem ival_modEq (n : Nat) (signed : Bool) (u : Nat) :
    ival n signed u ≡ (u : Int) [ZMOD 2 ^ n] := by
  rw [ival]
  split
  · exact Int.ModEq.symm (Int.modEq_iff_dvd.2 ⟨-1, by ring⟩)
  · rfl

/-- The integers which a register can hold. -/
def Fits (n : Nat) (signed : Bool) (t : Int) : Prop :=
  if signed then -2 ^ (n - 1) ≤ t ∧ t < 2 ^ (n - 1) else 0 ≤ t ∧ t < 2 ^ n

theorem ival_fits {n u : Nat} (signed : Bool) (hu : u < 2 ^ n) (hn : signed = true → 0 < n) :
    Fits n signed (ival n signed u) := by
  have hz : (u : Int) < 2 ^ n := by exact_mod_cast hu
  cases signed with
  | false => simpa [Fits, ival] using hz
  | true =>
    obtain ⟨m, rfl⟩ := Nat.exists_eq_succ_of_ne_zero (hn rfl).ne'
    have hp : (2 : Int) ^ (m + 1) = 2 * 2 ^ m := by ring
    simp only [Fits, ival, if_true, Bool.true_and, Nat.succ_eq_add_one, Nat.add_sub_cancel,
      decide_eq_true_eq] at *
    split
    · rename_i h
      have h' : (2 : Int) ^ m ≤ u := by exact_mod_cast h
      constructor <;> linarith
    · rename_i h
      have h' : (u : Int) < 2 ^ m := by exact_mod_cast not_le.1 h
      have : (0 : Int) < 2 ^ m := by positivity
      constructor <;> omega

theorem fits_unique {n : Nat} {signed : Bool} (hn : signed = true → 0 < n) {s t : Int}
    (hs : Fits n signed s) (ht : Fits n signed t) (h : s ≡ t [ZMOD 2 ^ n]) : s = t := by
  obtain ⟨k, hk⟩ := Int.modEq_iff_dvd.1 h
  have hb : -(2 : Int) ^ n < t - s ∧ t - s < 2 ^ n := by
    cases signed with
    | false => simp only [Fits, Bool.false_eq_true, if_false] at hs ht; constructor <;> linarith
    | true =>
      obtain ⟨m, rfl⟩ := Nat.exists_eq_succ_of_ne_zero (hn rfl).ne'
      have hp : (2 : Int) ^ (m + 1) = 2 * 2 ^ m := by ring
      simp only [Fits, if_true, Nat.succ_eq_add_one, Nat.add_sub_cancel] at hs ht
      rw [Nat.succ_eq_add_one, hp]
      constructor <;> linarith
  have hP : (0 : Int) < 2 ^ n := by positivity
  rw [hk] at hb
  have : k = 0 := by
    have h1 : k < 1 := by
      by_contra h1
      nlinarith [hb.2]
    have h2 : -1 < k := by
      by_contra h2
      nlinarith [hb.1]
    omega
  rw [this] at hk
  linarith

theorem ival_unique {n u : Nat} {signed : Bool} (hn : signed = true → 0 < n) (hu : u < 2 ^ n) {t : Int}
    (ht : Fits n signed t) (h : (u : Int) ≡ t [ZMOD 2 ^ n]) : ival n signed u = t :=
  fits_unique hn (ival_fits signed hu hn) ht ((ival_modEq n signed u).trans h)

theorem ival_emod {n d : Nat} (signed : Bool) (u : Nat) (hd : d ≤ n) :
    ival n signed u % 2 ^ d = ((u % 2 ^ d : Nat) : Int) := by
  have h : ival n signed u ≡ (u : Int) [ZMOD 2 ^ d] :=
    (ival_modEq n signed u).of_dvd (pow_dvd_pow 2 hd)
  rw [h]; push_cast; rfl

theorem floor_fval (n d : Nat) (signed : Bool) (u : Nat) :
    ⌊fval n d signed u⌋ * 2 ^ d = ival n signed u - ival n signed u % 2 ^ d := by
  have h : ⌊fval n d signed u⌋ = ival n signed u / 2 ^ d := by
    have := Rat.floor_intCast_div_natCast (ival n signed u) (2 ^ d)
    rw [fval]; push_cast at this; exact this
  rw [h]
  have := Int.emod_add_mul_ediv (ival n signed u) (2 ^ d)
  linarith

theorem ceil_fval (n d : Nat) (signed : Bool) (u : Nat) :
    ⌈fval n d signed u⌉ * 2 ^ d = ival n signed u + (-ival n signed u) % 2 ^ d := by
  have h : ⌈fval n d signed u⌉ = -((-ival n signed u) / 2 ^ d) := by
    have := Rat.ceil_intCast_div_natCast (ival n signed u) (2 ^ d)
    rw [fval]; push_cast at this; exact this
  rw [h]
  have := Int.emod_add_mul_ediv (-ival n signed u) (2 ^ d)
  linarith

theorem neg_emod (s : Int) {p : Int} (hp : 0 < p) :
    (-s) % p = if s % p = 0 then 0 else p - s % p := by
  split
  · rename_i h
    exact Int.emod_eq_zero_of_dvd ((Int.dvd_neg).2 (Int.dvd_of_emod_eq_zero h))
  · rename_i h
    have h1 := Int.emod_nonneg s hp.ne'
    have h2 := Int.emod_lt_of_pos s hp
    have e : -s = (p - s % p) + p * (-(s / p) - 1) := by
      have := Int.emod_add_mul_ediv s p
      linarith [this]
    rw [e, Int.add_mul_emod_self_left]
    exact Int.emod_eq_of_lt (by omega) (by omega)

theorem addOne_modEq (n d b : Nat) :
    ((addOne n (-(d : Int)) b : Nat) : Int) ≡ b + 2 ^ d [ZMOD 2 ^ n] := by
  rw [addOne]
  have : (- -(d : Int)).toNat = d := by omega
  rw [this]
  push_cast
  exact Int.mod_modEq _ _

theorem subReg_modEq {n b c : Nat} (hc : c < 2 ^ n) :
    ((subReg n b c : Nat) : Int) ≡ b - c [ZMOD 2 ^ n] := by
  rw [subReg]
  rw [Int.natCast_mod, Nat.cast_add, Nat.cast_sub hc.le]
  push_cast
  refine (Int.mod_modEq _ _).trans ?_
  exact Int.modEq_iff_dvd.2 ⟨-1, by ring⟩

/-- Register of the floor, for every size of the fraction below the size of the register. -/
theorem floor_modEq {n d a : Nat} (signed : Bool) (hd : d ≤ n) :
    ((a - a % 2 ^ d : Nat) : Int) ≡ ⌊fval n d signed a⌋ * 2 ^ d [ZMOD 2 ^ n] := by
  rw [floor_fval, ival_emod signed a hd, Nat.cast_sub (Nat.mod_le _ _)]
  exact ((ival_modEq n signed a).symm).sub_right _

/-- Value of a register known modulo its size. -/
theorem fval_of_modEq {n d r : Nat} {signed : Bool} (hn : signed = true → 0 < n) (hr : r < 2 ^ n)
    {t : Int} (ht : Fits n signed t) (h : (r : Int) ≡ t [ZMOD 2 ^ n]) :
    fval n d signed r = (t : ℚ) / 2 ^ d := by
  rw [fval, ival_unique hn hr ht h]

end Verif.Types.Rounding
