import Verif.Limb.KnuthMain

/-!
Property theorems C01–C08: limb arithmetic of `BigInteger`.

Specification vocabulary: `val` (value of a little-endian base 2^32 digit list), `WF` (every digit
is a 32-bit word), plain `Nat` arithmetic, `Nat.testBit`, `Nat.size`.
-/
namespace Verif.Props
open Verif.Limb

/-- C01. Building `size` limbs from a non-negative integer and reading it back with `__call__`
returns the integer modulo 2^(32*size), hence the integer itself when it fits; the limbs are 32-bit
words; a negative integer is rejected. Both constructors agree. -/
theorem C01_create_roundtrip (n size : Nat) :
    (∃ d, createStatic (n : Int) size = .ok d ∧ d.length = size ∧ WF d ∧ call d = n % 2 ^ (32 * size) ∧
      (n < 2 ^ (32 * size) → call d = n) ∧ create n size = d) ∧
    (∀ z : Int, z < 0 → ∃ e, createStatic z size = .error e) := by
  constructor
  · obtain ⟨d, h1, h2, h3, h4⟩ := createStatic_spec n size
    obtain ⟨c1, c2, c3⟩ := create_spec n size
    rw [BASE_pow] at h4 c3
    refine ⟨d, h1, h2, h3, by rw [call_eq_val, h4], ?_, ?_⟩
    · intro h; rw [call_eq_val, h4, Nat.mod_eq_of_lt h]
    · exact val_inj _ _ c2 h3 (by rw [c1, h2]) (by rw [c3, h4])
  · intro z hz
    exact ⟨_, by unfold createStatic; rw [if_pos hz]⟩

example : createStatic (2 ^ 40 + 7) 2 = .ok [7, 256] ∧ call [7, 256] = 2 ^ 40 + 7 := by decide +kernel

/-- C01 (uniqueness). Two well-formed digit lists of equal length with the same value are equal, so
reading back loses nothing. -/
theorem C01_call_injective (a b : Digits) (ha : WF a) (hb : WF b) (hl : a.length = b.length)
    (h : call a = call b) : a = b :=
  val_inj a b ha hb hl (by rw [← call_eq_val, ← call_eq_val, h])

/-- C01 (widening). `coerce` to a larger size keeps the value, to a smaller size raises. -/
theorem C01_coerce (a : Digits) (size : Nat) (ha : WF a) :
    (a.length ≤ size → ∃ d, coerceBI a size = .ok d ∧ d.length = size ∧ WF d ∧ call d = call a) ∧
    (size < a.length → ∃ e, coerceBI a size = .error e) := by
  constructor
  · intro h
    unfold coerceBI
    split
    · next h1 => exact ⟨a, rfl, h1, ha, rfl⟩
    · rw [if_neg (by omega)]
      refine ⟨_, rfl, by simp; omega, ?_, ?_⟩
      · intro d hd
        rcases List.mem_append.1 hd with h2 | h2
        · exact ha d h2
        · exact WF_replicate _ d h2
      · rw [call_eq_val, call_eq_val, val_append, val_replicate_zero]; simp
  · intro h
    unfold coerceBI
    rw [if_neg (by omega), if_pos h]
    exact ⟨_, rfl⟩

/-- C02. Addition and subtraction wrap modulo 2^(32n) for every length and every operand pair. -/
theorem C02_add_sub (a b : Digits) (ha : WF a) (hb : WF b) (hl : a.length = b.length) :
    ((add a b).length = a.length ∧ WF (add a b) ∧
      val (add a b) = (val a + val b) % 2 ^ (32 * a.length)) ∧
    ((sub a b).length = a.length ∧ WF (sub a b) ∧
      ((val (sub a b) : Int) = ((val a : Int) - val b) % 2 ^ (32 * a.length))) := by
  obtain ⟨a1, a2, c, a3, a4⟩ := add_core a b ha hb hl
  obtain ⟨s1, s2, d, s3, s4⟩ := sub_core a b ha hb hl
  have la := val_lt a2
  have ls := val_lt s2
  rw [a1, BASE_pow] at la
  rw [s1, BASE_pow] at ls
  rw [BASE_pow] at a4 s4
  refine ⟨⟨a1, a2, ?_⟩, ⟨s1, s2, ?_⟩⟩
  · rw [← a4, Nat.add_mul_mod_self_right, Nat.mod_eq_of_lt la]
  · have e : ((val a : Int) - val b) = (val (sub a b) : Int) + (-(d : Int)) * 2 ^ (32 * a.length) := by
      have : (val (sub a b) : Int) + val b = val a + d * 2 ^ (32 * a.length) := by exact_mod_cast s4
      linarith
    rw [e, Int.add_mul_emod_self_right, Int.emod_eq_of_lt (by positivity) (by exact_mod_cast ls)]

example : add [0xFFFFFFFF, 0xFFFFFFFF] [1, 0] = [0, 0] ∧ sub [0, 1] [1, 0] = [0xFFFFFFFF, 0] ∧
    sub [0, 0] [1, 0] = [0xFFFFFFFF, 0xFFFFFFFF] := by decide +kernel

/-- C03. Multiplication is the product modulo 2^(32n). -/
theorem C03_mul (a b : Digits) (ha : WF a) (hb : WF b) (hl : a.length = b.length) :
    (mul a b).length = a.length ∧ WF (mul a b) ∧
      val (mul a b) = val a * val b % 2 ^ (32 * a.length) := by
  have := mul_core a b ha hb hl
  rwa [BASE_pow] at this

example : val (mul [0xFFFFFFFF, 0xFFFFFFFF] [0xFFFFFFFF, 0xFFFFFFFF]) = (2 ^ 64 - 1) ^ 2 % 2 ^ 64 := by
  decide +kernel

/-- C03 (powers). `__pow__` with any uint64 exponent is the power modulo 2^(32n). -/
theorem C03_pow (a : Digits) (ha : WF a) (e : Nat) (he : e < 2 ^ 64) :
    (pow a e).length = a.length ∧ WF (pow a e) ∧ val (pow a e) = val a ^ e % 2 ^ (32 * a.length) := by
  have := pow_core a ha e he
  rwa [BASE_pow] at this

example : val (pow [3, 0] 40) = 3 ^ 40 % 2 ^ 64 := by decide +kernel

/-- C04. The six comparisons agree with the order of the represented integers. -/
theorem C04_comparisons (a b : Digits) (ha : WF a) (hb : WF b) (hl : a.length = b.length) :
    lt a b = decide (val a < val b) ∧ le a b = decide (val a ≤ val b) ∧
    gt a b = decide (val a > val b) ∧ ge a b = decide (val a ≥ val b) ∧
    eq a b = decide (val a = val b) ∧ ne a b = decide (val a ≠ val b) := by
  have key : ∀ x y : Digits, WF x → WF y → x.length = y.length →
      lt x y = decide (val x < val y) ∧ le x y = decide (val x ≤ val y) := by
    intro x y hx hy hxy
    unfold lt le
    rcases cmpScan_spec x y hx hy hxy with ⟨h1, h2⟩ | ⟨h1, h2⟩ | ⟨h1, h2⟩
    · simp [h1, h2, le_of_lt h2]
    · have : ¬ (val x < val y) := by omega
      have h3 : ¬ (val x ≤ val y) := by omega
      simp [h1, this, h3]
    · simp [h1, h2]
  have e1 : eq a b = decide (val a = val b) := by
    rw [Bool.eq_iff_iff, eq_iff a b hl, decide_eq_true_eq]
    exact ⟨fun h => by rw [h], val_inj a b ha hb hl⟩
  refine ⟨(key a b ha hb hl).1, (key a b ha hb hl).2, ?_, ?_, e1, ?_⟩
  · exact (key b a hb ha hl.symm).1
  · exact (key b a hb ha hl.symm).2
  · unfold ne; rw [e1]; simp

example : lt [5, 1] [4, 2] = true ∧ lt [4, 2] [5, 1] = false ∧ le [7, 7] [7, 7] = true := by decide +kernel

/-- C05. Bit access, bit flips and shifts. -/
theorem C05_bits_shifts (a : Digits) (ha : WF a) :
    (∀ i, getBit a i = ((val a).testBit i).toNat) ∧
    (∀ i, i < 32 * a.length → (flipBit a i).length = a.length ∧ WF (flipBit a i) ∧
      ∀ j, (val (flipBit a i)).testBit j = (if j = i then !(val a).testBit j else (val a).testBit j)) ∧
    (∀ k, (shl a k).length = a.length ∧ WF (shl a k) ∧
      val (shl a k) = val a * 2 ^ k % 2 ^ (32 * a.length)) ∧
    (∀ k, (shr a k).length = a.length ∧ WF (shr a k) ∧ val (shr a k) = val a / 2 ^ k) := by
  refine ⟨getBit_spec a ha, flipBit_spec a ha, ?_, shr_spec a ha⟩
  intro k
  have := shl_spec a ha k
  rwa [BASE_pow] at this

example : shl [0x80000001, 0] 1 = [2, 1] ∧ shr [2, 1] 1 = [0x80000001, 0] ∧ shl [1, 1] 64 = [0, 0] := by
  decide +kernel

/-- C06. Bitwise operators. -/
theorem C06_bitwise (a b : Digits) (ha : WF a) (hb : WF b) (hl : a.length = b.length) :
    (WF (and a b) ∧ (and a b).length = a.length ∧ val (and a b) = val a &&& val b) ∧
    (WF (or a b) ∧ (or a b).length = a.length ∧ val (or a b) = val a ||| val b) ∧
    (WF (xor a b) ∧ (xor a b).length = a.length ∧ val (xor a b) = val a ^^^ val b) ∧
    (WF (inv a) ∧ (inv a).length = a.length ∧ val (inv a) = 2 ^ (32 * a.length) - 1 - val a) := by
  obtain ⟨a1, a2, a3⟩ := and_spec a b ha hb hl
  obtain ⟨o1, o2, o3⟩ := or_spec a b ha hb hl
  obtain ⟨x1, x2, x3⟩ := xor_spec a b ha hb hl
  obtain ⟨i1, i2, i3⟩ := inv_spec a ha
  rw [BASE_pow] at i3
  exact ⟨⟨a2, a1, a3⟩, ⟨o2, o1, o3⟩, ⟨x2, x1, x3⟩, ⟨i2, i1, by omega⟩⟩

/-- C06 (alternative subtraction `~(~a + b)`, jasp_bigintiger.py:324-342) is `__sub__`. -/
theorem C06_sub_alt (a b : Digits) (ha : WF a) (hb : WF b) (hl : a.length = b.length) :
    subAlt a b = sub a b := by
  obtain ⟨i1, i2, i3⟩ := inv_spec a ha
  obtain ⟨a1, a2, c, a3, a4⟩ := add_core (inv a) b i2 hb (by rw [i1, hl])
  obtain ⟨j1, j2, j3⟩ := inv_spec _ a2
  obtain ⟨s1, s2, d, s3, s4⟩ := sub_core a b ha hb hl
  rw [a1, i1] at j1 j3
  rw [i1] at a4
  apply val_inj _ _ j2 s2 (by rw [j1, s1])
  have l1 := val_lt j2
  have l2 := val_lt s2
  rw [j1] at l1
  rw [s1] at l2
  generalize BASE ^ a.length = T at *
  have e : val (subAlt a b) = val (inv (add (inv a) b)) := rfl
  have hc : c = 0 ∨ c = 1 := by omega
  have hd : d = 0 ∨ d = 1 := by omega
  rcases hc with rfl | rfl <;> rcases hd with rfl | rfl <;> omega

example : val (inv [0, 1]) = 2 ^ 64 - 1 - 2 ^ 32 := by decide +kernel

/-- C07 fails for the code as written: `rhat << 32` wraps in uint64, so a quotient digit is
decremented although it was right. Dividing 0x80000000_80000000_00000000 by 0x80000000_FFFFFFFF gives
quotient 2^32 - 3 instead of 2^32 - 1, and a remainder that is not below the divisor. -/
theorem C07_division_wrong :
    ∃ u v : Digits, WF u ∧ WF v ∧ u.length = v.length ∧ val v ≠ 0 ∧
      val (floordiv u v) ≠ val u / val v ∧ val (mod u v) ≠ val u % val v := by
  refine ⟨[0, 0x80000000, 0x80000000], [0xFFFFFFFF, 0x80000000, 0], ?_, ?_, rfl, ?_, ?_, ?_⟩
  · intro d hd; simp at hd; rcases hd with rfl | rfl | rfl <;> norm_num [BASE]
  · intro d hd; simp at hd; rcases hd with rfl | rfl | rfl <;> norm_num [BASE]
  all_goals decide +kernel

/-- C07 (partial). Quotient and remainder are exact whenever the divisor has one limb or no base-2^32
digit of the true quotient is among the three largest ones (so no digit estimate is clipped).
Missing for the full property: the clipped case, where the code is wrong (`C07_division_wrong`). -/
theorem C07_divmod_partial (u v : Digits) (hu : WF u) (hv : WF v) (hl : u.length = v.length)
    (hv0 : val v ≠ 0)
    (hclip : 2 ^ 32 ≤ val v → ∀ i, val u / val v / (2 ^ 32) ^ i % 2 ^ 32 < 2 ^ 32 - 3) :
    WF (mod u v) ∧ WF (floordiv u v) ∧ (mod u v).length = u.length ∧ (floordiv u v).length = u.length ∧
      val (floordiv u v) = val u / val v ∧ val (mod u v) = val u % val v := by
  obtain ⟨h1, h2, h3, h4, h5, h6⟩ := divmodKnuth_spec u v hu hv hl hv0 hclip
  exact ⟨h3, h4, h1, h2, h6, h5⟩

/-- C07 (partial, corollary). In particular whenever `u < v * (2^32 - 3)`. -/
theorem C07_divmod_small_quotient_partial (u v : Digits) (hu : WF u) (hv : WF v)
    (hl : u.length = v.length) (hv0 : val v ≠ 0) (h : val u < val v * (2 ^ 32 - 3)) :
    val (floordiv u v) = val u / val v ∧ val (mod u v) = val u % val v := by
  have hq : val u / val v < 2 ^ 32 - 3 := Nat.div_lt_of_lt_mul h
  obtain ⟨_, _, _, _, h5, h6⟩ := C07_divmod_partial u v hu hv hl hv0 (by
    intro _ i
    exact lt_of_le_of_lt (le_trans (Nat.mod_le _ _) (Nat.div_le_self _ _)) hq)
  exact ⟨h5, h6⟩

/-- C07 (division by zero): both results are zero. -/
theorem C07_divmod_by_zero (u v : Digits) (hv0 : val v = 0) :
    val (floordiv u v) = 0 ∧ val (mod u v) = 0 := by
  unfold floordiv mod divmodKnuth
  rw [if_pos ((msLength_spec v).1 hv0)]
  exact ⟨val_replicate_zero _, val_replicate_zero _⟩

example : floordiv [5, 9, 77] [3, 2, 0] = [(77 * 2 ^ 64 + 9 * 2 ^ 32 + 5) / (2 ^ 33 + 3) % 2 ^ 32, 38, 0] := by
  decide +kernel

/-- C08. `bit_size` is the bit length. -/
theorem C08_bit_size (a : Digits) (ha : WF a) :
    bitSize a = Nat.size (val a) ∧ (val a = 0 → bitSize a = 0) ∧
    (val a ≠ 0 → 2 ^ (bitSize a - 1) ≤ val a ∧ val a < 2 ^ bitSize a) := by
  have h := bitSize_spec a ha
  refine ⟨h, ?_, ?_⟩
  · intro h0; rw [h, h0]; simp
  · intro h0
    rw [h]
    refine ⟨?_, Nat.lt_size_self _⟩
    have : 0 < Nat.size (val a) := Nat.size_pos.2 (by omega)
    exact Nat.lt_size.1 (by omega)

example : bitSize [0xFFFFFFFF, 1, 0] = 33 := by decide +kernel

end Verif.Props
