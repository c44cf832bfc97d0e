import Verif.Types.Rounding

/-!
Property theorems C163: floor, ceiling, rounding and fractional part of quantum floats.
-/

namespace Verif.Props
open Verif.Types.Rounding

/-- `q_floor` of a float with exponent `-d` is the floor, for negative values too. For signed floats
at least the sign qubit is not part of the fraction (otherwise -1 has no place in the register).
Missing: positive exponents, see `round_floor_wrong`. -/
theorem round_floor_partial {n d a : Nat} {signed : Bool} (ha : a < 2 ^ n)
    (hd : signed = true → d < n) :
    ∃ r, qFloor n (-(d : Int)) a = some r ∧ r < 2 ^ n ∧
      fval n d signed r = (⌊fval n d signed a⌋ : ℚ) := by
  have hn : signed = true → 0 < n := fun h => by have := hd h; omega
  by_cases hdn : d ≤ n
  · refine ⟨a - a % 2 ^ d, qFloor_eq ha hdn, by omega, ?_⟩
    have hf := ival_fits signed ha hn
    have hP : (0 : Int) < 2 ^ d := by positivity
    have h0 := Int.emod_nonneg (ival n signed a) hP.ne'
    have hfl := floor_fval n d signed a
    rw [fval_of_modEq hn (by omega) (t := ⌊fval n d signed a⌋ * 2 ^ d) ?_ (floor_modEq signed hdn)]
    · push_cast; field_simp
    · rw [hfl]
      cases signed with
      | false =>
        simp only [Fits, Bool.false_eq_true, if_false] at hf ⊢
        refine ⟨?_, by linarith⟩
        have := Int.emod_add_mul_ediv (ival n false a) (2 ^ d)
        have h2 : 0 ≤ ival n false a / 2 ^ d := Int.ediv_nonneg hf.1 hP.le
        nlinarith
      | true =>
        have hd' := hd rfl
        simp only [Fits, if_true] at hf ⊢
        refine ⟨?_, by linarith⟩
        have e : (2 : Int) ^ (n - 1) = 2 ^ (n - 1 - d) * 2 ^ d := by
          rw [← pow_add]; congr 1; omega
        have h3 : -(2 : Int) ^ (n - 1 - d) ≤ ival n true a / 2 ^ d := by
          rw [Int.le_ediv_iff_mul_le hP]; linarith [hf.1]
        have := Int.emod_add_mul_ediv (ival n true a) (2 ^ d)
        nlinarith
  · have hs : signed = false := by
      cases signed with
      | false => rfl
      | true => exact absurd (hd rfl) (by omega)
    subst hs
    refine ⟨0, qFloor_eq_ge (by omega), by positivity, ?_⟩
    have h1 : ⌊fval n d false a⌋ = 0 := by
      rw [Int.floor_eq_zero_iff]
      have hlt : (a : ℚ) < 2 ^ d := by
        have : a < 2 ^ d := lt_of_lt_of_le ha (Nat.pow_le_pow_right (by decide) (by omega))
        exact_mod_cast this
      refine ⟨by simp [fval, ival]; positivity, ?_⟩
      simp only [fval, ival, Bool.false_and, Bool.false_eq_true, if_false, Int.cast_natCast]
      rw [div_lt_one (by positivity)]
      exact hlt
    rw [h1]
    simp [fval, ival]

/-- 3.25 and -1.75 in signed floats with exponent -2. -/
example : qFloor 5 (-2) 13 = some 12 ∧ fval 5 2 true 13 = 13 / 4 ∧ fval 5 2 true 12 = 3 ∧
    qFloor 5 (-2) 25 = some 24 ∧ fval 5 2 true 25 = -7 / 4 ∧ fval 5 2 true 24 = -2 := by
  refine ⟨by decide +kernel, ?_, ?_, by decide +kernel, ?_, ?_⟩ <;> norm_num [fval, ival]

/-- With a positive exponent the loop starts at a negative index: the highest bits are copied twice
and vanish. `QuantumFloat(3, 1)` with the value 8 has the floor 0. -/
theorem round_floor_wrong : qFloor 3 1 4 = some 0 ∧ qFloor 3 1 7 = some 3 ∧
    qFloor 2 3 1 = none := by decide +kernel

/-- `q_ceil` is the ceiling modulo the size of the register, and the ceiling itself if it fits; the
flag is 0 when it is deleted. -/
theorem round_ceil {n d a : Nat} {signed : Bool} (ha : a < 2 ^ n) (hdn : d ≤ n)
    (hd : signed = true → d < n) :
    ∃ r, qCeil n (-(d : Int)) a = some (r, false) ∧ r < 2 ^ n ∧
      (r : Int) ≡ ⌈fval n d signed a⌉ * 2 ^ d [ZMOD 2 ^ n] ∧
      (Fits n signed (⌈fval n d signed a⌉ * 2 ^ d) →
        fval n d signed r = (⌈fval n d signed a⌉ : ℚ)) := by
  have hn : signed = true → 0 < n := fun h => by have := hd h; omega
  have hP : (0 : Int) < 2 ^ d := by positivity
  obtain ⟨r, h1, h2, h3⟩ : ∃ r, qCeil n (-(d : Int)) a = some (r, false) ∧ r < 2 ^ n ∧
      (r : Int) ≡ ⌈fval n d signed a⌉ * 2 ^ d [ZMOD 2 ^ n] := by
    have hm := ival_modEq n signed a
    rw [ceil_fval, neg_emod _ hP, ival_emod signed a hdn, qCeil, qFloor_eq ha hdn]
    have e : (- -(d : Int)).toNat = d := by omega
    simp only [Option.map_some, e, logicalOr_eq hdn, Bool.false_xor, Bool.xor_self]
    by_cases h0 : a % 2 ^ d = 0
    · refine ⟨a, ?_, ha, ?_⟩
      · simp [h0]
      · rw [if_pos (by exact_mod_cast h0), add_zero]; exact hm.symm
    · have hd0 : ¬ d = 0 := by rintro rfl; simp [Nat.mod_one] at h0
      refine ⟨addOne n (-(d : Int)) (a - a % 2 ^ d), ?_, ?_, ?_⟩
      · have hneg : -(d : Int) < 0 := by omega
        simp [h0, hneg, hd0, Nat.pos_of_ne_zero]
      · rw [addOne]; exact Nat.mod_lt _ (by positivity)
      · rw [if_neg (by exact_mod_cast h0)]
        refine (addOne_modEq n d _).trans ?_
        rw [Nat.cast_sub (Nat.mod_le _ _)]
        have := (hm.symm).add_right ((2 : Int) ^ d - ((a % 2 ^ d : Nat) : Int))
        have e1 : (a : Int) - ((a % 2 ^ d : Nat) : Int) + 2 ^ d =
          a + (2 ^ d - ((a % 2 ^ d : Nat) : Int)) := by ring
        rw [e1]; exact this
  refine ⟨r, h1, h2, h3, fun hf => ?_⟩
  rw [fval_of_modEq hn h2 hf h3]
  push_cast; field_simp

example : qCeil 5 (-2) 13 = some (16, false) ∧ qCeil 5 (-2) 25 = some (28, false) ∧
    qCeil 4 (-2) 13 = some (0, false) := by decide +kernel

/-- `q_round` rounds to the nearest integer, halves up (modulo the size of the register). -/
theorem round_nearest {n d a : Nat} {signed : Bool} (ha : a < 2 ^ n) (hdn : d ≤ n)
    (hd : signed = true → d < n) :
    ∃ r, qRound n (-(d : Int)) a = some r ∧ r < 2 ^ n ∧
      (r : Int) ≡ ⌊fval n d signed a + 1 / 2⌋ * 2 ^ d [ZMOD 2 ^ n] ∧
      (Fits n signed (⌊fval n d signed a + 1 / 2⌋ * 2 ^ d) →
        fval n d signed r = (⌊fval n d signed a + 1 / 2⌋ : ℚ)) := by
  have hn : signed = true → 0 < n := fun h => by have := hd h; omega
  obtain ⟨r, h1, h2, h3⟩ : ∃ r, qRound n (-(d : Int)) a = some r ∧ r < 2 ^ n ∧
      (r : Int) ≡ ⌊fval n d signed a + 1 / 2⌋ * 2 ^ d [ZMOD 2 ^ n] := by
    have hm := ival_modEq n signed a
    rcases Nat.eq_zero_or_pos d with rfl | hd0
    · refine ⟨a, ?_, ha, ?_⟩
      · rw [qRound, qFloor_eq ha hdn]; simp [Nat.mod_one]
      · have : ⌊fval n 0 signed a + 1 / 2⌋ = ival n signed a := by
          rw [fval, pow_zero, div_one, Int.floor_intCast_add]
          norm_num
        rw [this, pow_zero, mul_one]; exact hm.symm
    · obtain ⟨k, rfl⟩ := Nat.exists_eq_succ_of_ne_zero hd0.ne'
      rw [Nat.succ_eq_add_one] at *
      set s := ival n signed a with hs
      have hP : (0 : Int) < 2 ^ k := by positivity
      have hp : (2 : Int) ^ (k + 1) = 2 * 2 ^ k := by ring
      have hpn : 2 ^ (k + 1) = 2 * 2 ^ k := by rw [pow_succ, Nat.mul_comm]
      have hfl : ⌊fval n (k + 1) signed a + 1 / 2⌋ = (s + 2 ^ k) / 2 ^ (k + 1) := by
        have := Rat.floor_intCast_div_natCast (s + 2 ^ k) (2 ^ (k + 1))
        rw [fval, ← hs]
        have e : (s : ℚ) / 2 ^ (k + 1) + 1 / 2 = ((s + 2 ^ k : Int) : ℚ) / ((2 ^ (k + 1) : Nat) : ℚ) := by
          push_cast
          rw [pow_succ]; field_simp
        rw [e, this]; push_cast; rfl
      have hem := ival_emod signed a hdn
      rw [← hs] at hem
      have hidx : pyIdx n (-(-((k + 1 : Nat) : Int)) - 1) = some k := by
        rw [pyIdx, if_pos (by omega), if_pos (by omega)]
        congr 1; omega
      have hbit : a.testBit k = decide (2 ^ k ≤ a % 2 ^ (k + 1)) := by
        have h1 : (a % 2 ^ (k + 1)).testBit k = a.testBit k := by
          rw [Nat.testBit_mod_two_pow]; simp
        have h2 : a % 2 ^ (k + 1) < 2 ^ (k + 1) := Nat.mod_lt _ (by positivity)
        rw [← h1]
        by_cases h : 2 ^ k ≤ a % 2 ^ (k + 1)
        · rw [decide_eq_true h]
          exact Nat.testBit_of_two_pow_le_and_two_pow_add_one_gt h h2
        · rw [decide_eq_false h]
          exact Nat.testBit_lt_two_pow (by omega)
      have hdm := Int.emod_add_mul_ediv s (2 ^ (k + 1))
      have hneg : -((k + 1 : Nat) : Int) < 0 := by omega
      rw [qRound, qFloor_eq ha hdn]
      simp only [if_pos hneg, hidx, Option.map_some, hbit, decide_eq_true_eq]
      rw [hfl]
      have hb0 : a % 2 ^ (k + 1) < 2 ^ (k + 1) := Nat.mod_lt _ (by positivity)
      have hb1 : ((a % 2 ^ (k + 1) : Nat) : Int) < 2 ^ (k + 1) := by exact_mod_cast hb0
      by_cases h : 2 ^ k ≤ a % 2 ^ (k + 1)
      · refine ⟨_, rfl, ?_, ?_⟩
        · rw [if_pos h, addOne]; exact Nat.mod_lt _ (by positivity)
        · rw [if_pos h]
          refine (addOne_modEq n (k + 1) _).trans ?_
          have hz : (2 : Int) ^ k ≤ ((a % 2 ^ (k + 1) : Nat) : Int) := by exact_mod_cast h
          have hq : (s + 2 ^ k) / 2 ^ (k + 1) = s / 2 ^ (k + 1) + 1 := by
            rw [Int.ediv_eq_iff_of_pos (by positivity)]
            constructor <;> nlinarith
          rw [hq, Nat.cast_sub (Nat.mod_le _ _)]
          have e1 : (s / 2 ^ (k + 1) + 1) * 2 ^ (k + 1) =
            s + (2 ^ (k + 1) - ((a % 2 ^ (k + 1) : Nat) : Int)) := by
            rw [← hem]; linarith
          have e2 : (a : Int) - ((a % 2 ^ (k + 1) : Nat) : Int) + 2 ^ (k + 1) =
            a + (2 ^ (k + 1) - ((a % 2 ^ (k + 1) : Nat) : Int)) := by ring
          rw [e1, e2]
          exact hm.symm.add_right _
      · refine ⟨_, rfl, ?_, ?_⟩
        · rw [if_neg h]; omega
        · rw [if_neg h]
          have hz : ((a % 2 ^ (k + 1) : Nat) : Int) < 2 ^ k := by exact_mod_cast not_le.1 h
          have hz0 : (0 : Int) ≤ ((a % 2 ^ (k + 1) : Nat) : Int) := Int.natCast_nonneg _
          have hq : (s + 2 ^ k) / 2 ^ (k + 1) = s / 2 ^ (k + 1) := by
            rw [Int.ediv_eq_iff_of_pos (by positivity)]
            constructor <;> nlinarith
          rw [hq, Nat.cast_sub (Nat.mod_le _ _)]
          have e1 : (s / 2 ^ (k + 1)) * 2 ^ (k + 1) = s - ((a % 2 ^ (k + 1) : Nat) : Int) := by
            rw [← hem]; linarith
          rw [e1]
          exact hm.symm.sub_right _
  refine ⟨r, h1, h2, h3, fun hf => ?_⟩
  rw [fval_of_modEq hn h2 hf h3]
  push_cast; field_simp

example : qRound 5 (-2) 14 = some 16 ∧ qRound 5 (-2) 25 = some 24 ∧ qRound 5 (-2) 26 = some 28 := by
  decide +kernel

/-- `q_fractional`: the value minus the floor, for negative values minus the ceiling (as `math.modf`
does it). -/
theorem round_fractional {n d a : Nat} {signed : Bool} (ha : a < 2 ^ n) (hdn : d ≤ n)
    (hd : signed = true → d < n) :
    ∃ r, qFractional n (-(d : Int)) signed a = some r ∧ r < 2 ^ n ∧
      fval n d signed r = fval n d signed a -
        (if fval n d signed a < 0 then (⌈fval n d signed a⌉ : ℚ) else (⌊fval n d signed a⌋ : ℚ)) := by
  have hn : signed = true → 0 < n := fun h => by have := hd h; omega
  have hP : (0 : Int) < 2 ^ d := by positivity
  have hPd : (2 : Int) ^ d ≤ 2 ^ n := pow_le_pow_right₀ (by norm_num) hdn
  have hsign : fval n d signed a < 0 ↔ ival n signed a < 0 := by
    rw [fval, div_lt_iff₀ (by positivity), zero_mul]; exact_mod_cast Iff.rfl
  have hval : ∀ t : Int, fval n d signed a - (t : ℚ) =
      ((ival n signed a - t * 2 ^ d : Int) : ℚ) / 2 ^ d := by
    intro t; rw [fval]; push_cast; field_simp
  have hm := ival_modEq n signed a
  have hbit : (signed && a.testBit (n - 1)) = decide (ival n signed a < 0) := by
    cases signed with
    | false => simp [ival]
    | true =>
      obtain ⟨m, rfl⟩ := Nat.exists_eq_succ_of_ne_zero (hn rfl).ne'
      rw [Nat.succ_eq_add_one, Nat.add_sub_cancel, Bool.true_and]
      have hz : (a : Int) < 2 ^ (m + 1) := by exact_mod_cast ha
      by_cases h : 2 ^ m ≤ a
      · rw [Nat.testBit_of_two_pow_le_and_two_pow_add_one_gt h ha]
        simp [ival, h]; exact_mod_cast ha
      · rw [Nat.testBit_lt_two_pow (by omega)]
        simp [ival, h]
  rw [qFractional, hbit]
  by_cases hneg : ival n signed a < 0
  · have hs : signed = true := by
      cases signed with
      | true => rfl
      | false => simp [ival] at hneg; omega
    obtain ⟨c, h1, h2, h3, -⟩ := round_ceil (signed := signed) ha hdn hd
    rw [if_pos (by simpa using hneg), h1, if_pos (hsign.2 hneg)]
    have hr : subReg n a c < 2 ^ n := Nat.mod_lt _ (by positivity)
    refine ⟨_, rfl, hr, ?_⟩
    rw [hval]
    refine fval_of_modEq hn hr ?_ ((subReg_modEq h2).trans (hm.symm.sub h3))
    rw [ceil_fval]
    have h4 := Int.emod_nonneg (-ival n signed a) hP.ne'
    have h5 := Int.emod_lt_of_pos (-ival n signed a) hP
    have hd' := hd hs
    have h6 : (2 : Int) ^ d ≤ 2 ^ (n - 1) := pow_le_pow_right₀ (by norm_num) (by omega)
    rw [hs] at *
    simp only [Fits, if_true]
    constructor <;> linarith
  · rw [if_neg (by simpa using hneg), qFloor_eq ha hdn, if_neg (fun h => hneg (hsign.1 h))]
    have hr : subReg n a (a - a % 2 ^ d) < 2 ^ n := Nat.mod_lt _ (by positivity)
    refine ⟨_, rfl, hr, ?_⟩
    rw [hval]
    refine fval_of_modEq hn hr ?_ ((subReg_modEq (by omega)).trans (hm.symm.sub (floor_modEq signed hdn)))
    rw [floor_fval]
    have h4 := Int.emod_nonneg (ival n signed a) hP.ne'
    have h5 := Int.emod_lt_of_pos (ival n signed a) hP
    cases signed with
    | false => simp only [Fits, Bool.false_eq_true, if_false]; constructor <;> linarith
    | true =>
      have hd' := hd rfl
      have h6 : (2 : Int) ^ d ≤ 2 ^ (n - 1) := pow_le_pow_right₀ (by norm_num) (by omega)
      have h7 : (0 : Int) < 2 ^ (n - 1) := by positivity
      simp only [Fits, if_true]
      constructor <;> linarith

example : qFractional 5 (-2) true 13 = some 1 ∧ qFractional 5 (-2) true 25 = some 29 ∧
    fval 5 2 true 29 = -3 / 4 := by
  refine ⟨by decide +kernel, by decide +kernel, ?_⟩
  norm_num [fval, ival]

/-- The parts of `q_modf` add up for values which are not negative. Missing: negative values, see
`round_modf_wrong`. -/
theorem round_modf_partial {n d a : Nat} {signed : Bool} (ha : a < 2 ^ n) (hdn : d ≤ n)
    (hd : signed = true → d < n) (h0 : 0 ≤ fval n d signed a) :
    ∃ i f, qModf n (-(d : Int)) signed a = some (i, f) ∧
      fval n d signed i + fval n d signed f = fval n d signed a ∧
      fval n d signed i = (⌊fval n d signed a⌋ : ℚ) := by
  obtain ⟨i, h1, -, h2⟩ := round_floor_partial (d := d) (signed := signed) ha hd
  obtain ⟨f, h3, -, h4⟩ := round_fractional ha hdn hd
  refine ⟨i, f, by rw [qModf, h1, h3], ?_, h2⟩
  rw [h2, h4, if_neg (not_lt.2 h0)]; ring

/-- For every negative value with a fraction the parts of `q_modf` add up to one less than the
value: the integer part is the floor, the fraction is taken from the ceiling. -/
theorem round_modf_wrong {n d a : Nat} (ha : a < 2 ^ n) (hd : d < n)
    (h0 : fval n d true a < 0) (h1 : fval n d true a ≠ (⌊fval n d true a⌋ : ℚ)) :
    ∃ i f, qModf n (-(d : Int)) true a = some (i, f) ∧
      fval n d true i + fval n d true f = fval n d true a - 1 := by
  obtain ⟨i, h2, -, h3⟩ := round_floor_partial (d := d) (signed := true) ha (fun _ => hd)
  obtain ⟨f, h4, -, h5⟩ := round_fractional (d := d) (signed := true) ha hd.le (fun _ => hd)
  refine ⟨i, f, by rw [qModf, h2, h4], ?_⟩
  rw [h3, h5, if_pos h0]
  have hc : ⌈fval n d true a⌉ = ⌊fval n d true a⌋ + 1 := by
    rw [Int.ceil_eq_iff]
    have e1 := Int.floor_le (fval n d true a)
    have e2 := Int.lt_floor_add_one (fval n d true a)
    push_cast
    exact ⟨by rw [add_sub_cancel_right]; exact lt_of_le_of_ne e1 (Ne.symm h1), e2.le⟩
  rw [hc]; push_cast; ring

/-- -1.75 is taken apart into -2 and -0.75. -/
example : qModf 5 (-2) true 25 = some (24, 29) ∧ fval 5 2 true 25 = -7 / 4 ∧
    fval 5 2 true 24 = -2 ∧ fval 5 2 true 29 = -3 / 4 := by
  refine ⟨by decide +kernel, ?_, ?_, ?_⟩ <;> norm_num [fval, ival]

end Verif.Props
