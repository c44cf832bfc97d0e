import Verif.Types.MaxMin

/-!
Property theorems C164: maximum and minimum of quantum floats.
-/

namespace Verif.Props
open Verif.Types.MaxMin

/-- The value of a float, in the form used below. -/
theorem val_split (q : QF) : q.val = ((q.u % 2 ^ q.m : Nat) : ℚ) * 2 ^ q.e -
    (if q.s && q.u.testBit q.m then 2 ^ q.top else 0) := by
  have h2 : (2 : ℚ) ≠ 0 := by norm_num
  rw [QF.val, QF.top, zpow_add₀ h2, zpow_natCast]
  split <;> ring

/-- Not negative: unsigned, or the sign qubit is 0. -/
def NonNeg (q : QF) : Prop := (q.s && q.u.testBit q.m) = false

/-- The selected float is copied exactly if it is not negative, or if its mantissa ends at the
highest significance of the result. -/
theorem sel_exact (c : Bool) (a b : QF) (h : max a.e b.e ≤ min a.top b.top)
    (hw : NonNeg (if c then a else b) ∨ (if c then a else b).top = max a.top b.top) :
    (sel c a b).val = (if c then a else b).val := by
  have h1 := sel_val c a b h
  have h2 := val_split (if c then a else b)
  simp only at h1
  rw [h1, h2]
  rcases hw with hw | hw
  · rw [NonNeg] at hw
    rw [hw]; simp
  · rw [hw]

/-- `q_max` gives the maximum for all floats whose mantissas overlap or touch, if the larger value is
not negative or both mantissas end at the same significance. Missing: negative maxima with different
shapes, see `max_signed_wrong`; shapes with a gap. -/
theorem max_value_partial (a b : QF) (h : max a.e b.e ≤ min a.top b.top)
    (hw : a.top = b.top ∨ (a.val ≤ b.val → NonNeg b) ∧ (b.val ≤ a.val → NonNeg a)) :
    (qMax a b).val = max a.val b.val := by
  rw [qMax, sel_exact _ a b h]
  · by_cases hc : b.val ≤ a.val
    · simp [hc]
    · simp [hc, (not_le.1 hc).le]
  · rcases hw with hw | hw
    · right
      by_cases hc : b.val ≤ a.val <;> simp [hc, hw]
    · left
      by_cases hc : b.val ≤ a.val
      · simp [hc, hw.2 hc]
      · simp [hc, hw.1 (not_le.1 hc).le]

/-- `q_min`, likewise. -/
theorem min_value_partial (a b : QF) (h : max a.e b.e ≤ min a.top b.top)
    (hw : a.top = b.top ∨ (b.val ≤ a.val → NonNeg b) ∧ (a.val ≤ b.val → NonNeg a)) :
    (qMin a b).val = min a.val b.val := by
  rw [qMin, sel_exact _ a b h]
  · by_cases hc : a.val ≤ b.val
    · simp [hc]
    · simp [hc, (not_le.1 hc).le]
  · rcases hw with hw | hw
    · right
      by_cases hc : a.val ≤ b.val <;> simp [hc, hw]
    · left
      by_cases hc : a.val ≤ b.val
      · simp [hc, hw.2 hc]
      · simp [hc, hw.1 (not_le.1 hc).le]

/-- A negative float which is selected, with a mantissa that ends below the highest significance of
the result, comes out too small: there is no sign extension. -/
theorem max_signed_wrong (c : Bool) (a b : QF) (h : max a.e b.e ≤ min a.top b.top)
    (hw : ¬ NonNeg (if c then a else b)) (ht : (if c then a else b).top < max a.top b.top) :
    (sel c a b).val < (if c then a else b).val := by
  have h1 := sel_val c a b h
  have h2 := val_split (if c then a else b)
  simp only at h1
  rw [NonNeg, Bool.not_eq_false] at hw
  rw [h1, h2, hw]
  simp only [if_true]
  have := zpow_lt_zpow_right₀ (by norm_num : (1 : ℚ) < 2) ht
  linarith

/-- `q_max(-1, -5)` with mantissas of 2 and 4 bits gives -13; `q_max(1.25, 0.125)` is right. -/
example : (qMax ⟨2, 0, true, 7⟩ ⟨4, 0, true, 27⟩).val = -13 ∧
    (⟨2, 0, true, 7⟩ : QF).val = -1 ∧ (⟨4, 0, true, 27⟩ : QF).val = -5 ∧
    qMax ⟨4, -2, false, 5⟩ ⟨3, -3, false, 1⟩ = ⟨5, -3, false, 10⟩ ∧
    qMin ⟨4, -2, false, 5⟩ ⟨3, -3, false, 1⟩ = ⟨5, -3, false, 1⟩ := by decide +kernel

end Verif.Props
