import Mathlib.Data.Nat.Bitwise
import Mathlib.Tactic.IntervalCases

/-!
`bit_reverse` and `_bitrev_indices` (misc/utility.py:1158-1214, 2220-2248).
-/

namespace Verif.Prep

/-- misc/utility.py:1207: `((i >> 1) & m1) | ((i & m1) << 1)` and the following lines. -/
def revStep (m : BitVec 64) (k : Nat) (i : BitVec 64) : BitVec 64 := ((i >>> k) &&& m) ||| ((i &&& m) <<< k)

/-- misc/utility.py:1197-1214 `bit_reverse`, on numbers below `2^64` (`uint64`). -/
def bitReverse (i width : Nat) : Nat :=
  let i := BitVec.ofNat 64 i
  let i := revStep 0x5555555555555555#64 1 i
  let i := revStep 0x3333333333333333#64 2 i
  let i := revStep 0x0F0F0F0F0F0F0F0F#64 4 i
  let i := revStep 0x00FF00FF00FF00FF#64 8 i
  let i := revStep 0x0000FFFF0000FFFF#64 16 i
  let i := revStep 0x00000000FFFFFFFF#64 32 i
  (i >>> (64 - width)).toNat

/-- misc/utility.py:2220-2226 `_bitrev_indices`, one entry. -/
def bitrevIdx (j : Nat) : Nat → Nat
  | 0 => 0
  | k + 1 => (bitrevIdx j k <<< 1) ||| ((j >>> k) &&& 1)

theorem revStep_bit (m : BitVec 64) (k : Nat) (i : BitVec 64) (j : Nat) (hj : j < 64) : (revStep m k i).getLsbD j =
    ((i.getLsbD (k + j) && m.getLsbD j) || (!decide (j < k) && (i.getLsbD (j - k) && m.getLsbD (j - k)))) := by
  unfold revStep
  rw [BitVec.getLsbD_or, BitVec.getLsbD_and, BitVec.getLsbD_ushiftRight, BitVec.getLsbD_shiftLeft, BitVec.getLsbD_and, decide_eq_true hj, Bool.true_and]

theorem step1 (i : BitVec 64) (j : Nat) (hj : j < 64) : (revStep 0x5555555555555555#64 1 i).getLsbD j = i.getLsbD (j ^^^ 1) := by
  rw [revStep_bit _ _ _ _ hj]
  interval_cases j <;> simp
theorem step2 (i : BitVec 64) (j : Nat) (hj : j < 64) : (revStep 0x3333333333333333#64 2 i).getLsbD j = i.getLsbD (j ^^^ 2) := by
  rw [revStep_bit _ _ _ _ hj]
  interval_cases j <;> simp
theorem step3 (i : BitVec 64) (j : Nat) (hj : j < 64) : (revStep 0x0F0F0F0F0F0F0F0F#64 4 i).getLsbD j = i.getLsbD (j ^^^ 4) := by
  rw [revStep_bit _ _ _ _ hj]
  interval_cases j <;> simp
theorem step4 (i : BitVec 64) (j : Nat) (hj : j < 64) : (revStep 0x00FF00FF00FF00FF#64 8 i).getLsbD j = i.getLsbD (j ^^^ 8) := by
  rw [revStep_bit _ _ _ _ hj]
  interval_cases j <;> simp
theorem step5 (i : BitVec 64) (j : Nat) (hj : j < 64) : (revStep 0x0000FFFF0000FFFF#64 16 i).getLsbD j = i.getLsbD (j ^^^ 16) := by
  rw [revStep_bit _ _ _ _ hj]
  interval_cases j <;> simp
theorem step6 (i : BitVec 64) (j : Nat) (hj : j < 64) : (revStep 0x00000000FFFFFFFF#64 32 i).getLsbD j = i.getLsbD (j ^^^ 32) := by
  rw [revStep_bit _ _ _ _ hj]
  interval_cases j <;> simp

theorem xor_rev : ∀ j < 64, (((((j ^^^ 32) ^^^ 16) ^^^ 8) ^^^ 4) ^^^ 2) ^^^ 1 = 63 - j := by decide +kernel
theorem xor_lt (a b : Nat) (ha : a < 64) (hb : b < 64) : a ^^^ b < 64 := Nat.xor_lt_two_pow (n := 6) ha hb

theorem bitReverse_testBit {i w : Nat} (hw : w ≤ 64) (j : Nat) : (bitReverse i w).testBit j = (decide (j < w) && i.testBit (w - 1 - j)) := by
  unfold bitReverse
  simp only
  rw [BitVec.testBit_toNat, BitVec.getLsbD_ushiftRight]
  by_cases hj : j < w
  · have hk : 64 - w + j < 64 := by omega
    have x1 := xor_lt _ 32 hk (by decide)
    have x2 := xor_lt _ 16 x1 (by decide)
    have x3 := xor_lt _ 8 x2 (by decide)
    have x4 := xor_lt _ 4 x3 (by decide)
    have x5 := xor_lt _ 2 x4 (by decide)
    rw [step6 _ _ hk, step5 _ _ x1, step4 _ _ x2, step3 _ _ x3, step2 _ _ x4, step1 _ _ x5, xor_rev _ hk, BitVec.getLsbD_ofNat,
      show 63 - (64 - w + j) = w - 1 - j by omega, decide_eq_true hj, decide_eq_true (show w - 1 - j < 64 by omega)]
  · rw [decide_eq_false hj, Bool.false_and]
    exact BitVec.getLsbD_of_ge _ _ (by omega)

theorem bitrevIdx_testBit (j : Nat) : ∀ n k, (bitrevIdx j n).testBit k = (decide (k < n) && j.testBit (n - 1 - k))
  | 0, k => by simp [bitrevIdx]
  | n + 1, k => by
    unfold bitrevIdx
    rw [Nat.testBit_or, Nat.testBit_shiftLeft, bitrevIdx_testBit j n]
    rcases Nat.eq_zero_or_pos k with h | h
    · subst h
      simp
    · rw [show ((j >>> n) &&& 1).testBit k = false by
        rw [Nat.and_one_is_mod]; exact Nat.testBit_lt_two_pow (lt_of_lt_of_le (Nat.mod_lt _ (by decide)) (Nat.pow_le_pow_right (n := 2) (by decide) h))]
      rw [Bool.or_false, decide_eq_true (show k ≥ 1 from h), Bool.true_and, show n - 1 - (k - 1) = n + 1 - 1 - k by omega]
      congr 1
      rw [decide_eq_decide]; omega

end Verif.Prep
