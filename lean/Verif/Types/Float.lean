import Mathlib.Data.Rat.Floor
import Mathlib.Data.Int.Log
import Mathlib.Algebra.Order.Ring.Rat
import Mathlib.Algebra.Order.Round
import Mathlib.Tactic.Linarith
import Mathlib.Tactic.Ring
import Mathlib.Tactic.FieldSimp
import Mathlib.Tactic.NormNum
import Mathlib.Tactic.Positivity

/-!
Encoding of QuantumFloats (src/qrisp/qtypes/quantum_float.py).

Values are rationals. `fl` is the rounding of a value to float64 (53 bit mantissa, ties to even)
without exponent limits; multiplication and division by powers of two are exact in float64.
-/

namespace Verif.Types

/-- Rounding to the nearest integer, ties to even (`jnp.round`, float64 mantissas). -/
def rhe (q : ℚ) : ℤ :=
  if q - ⌊q⌋ < 1 / 2 then ⌊q⌋
  else if 1 / 2 < q - ⌊q⌋ then ⌊q⌋ + 1
  else if ⌊q⌋ % 2 = 0 then ⌊q⌋ else ⌊q⌋ + 1

/-- Rounding to float64. -/
noncomputable def fl (q : ℚ) : ℚ :=
  if q = 0 then 0
  else rhe (q / 2 ^ (Int.log 2 |q| - 52)) * 2 ^ (Int.log 2 |q| - 52)

/-- Conversion of a float to an integer (`jnp.int64(x)`, `astype(int)`): towards zero. -/
def truncZ (q : ℚ) : ℤ := if 0 ≤ q then ⌊q⌋ else ⌈q⌉

/-- `_signed_int_iso` (quantum_float.py lines 52-53); `n + 1 ≤ 63` so that the shift does not
overflow. -/
def iso (x : ℤ) (n : ℕ) : ℤ := x % 2 ^ (n + 1)

/-- `_signed_int_iso_inv` (lines 79-85). -/
def isoInv (y : ℤ) (n : ℕ) : ℤ :=
  let w := y % 2 ^ (n + 1)
  if w.toNat.testBit n then w - 2 ^ (n + 1) else w

/-- `QuantumFloat.size` (lines 348-351). -/
def qfSize (msize : ℕ) (signed : Bool) : ℕ := if signed then msize + 1 else msize

/-- `QuantumFloat.decoder` (lines 370-380). -/
noncomputable def qfDecode (msize : ℕ) (e : ℤ) (signed : Bool) (i : ℤ) : ℚ :=
  if signed then fl (isoInv i msize) * 2 ^ e else fl i * 2 ^ e

/-- `QuantumFloat.encoder` outside tracing (lines 393-435); `none` = ValueError. -/
noncomputable def qfEncode (msize : ℕ) (e : ℤ) (signed : Bool) (v : ℚ) : Option ℤ :=
  if !signed ∧ v < 0 then none
  else
    let maxInt : ℤ := 2 ^ msize - 1
    let minInt : ℤ := if signed then -2 ^ msize else 0
    if v > maxInt * 2 ^ e ∨ v < minInt * 2 ^ e then none
    else if signed then some (iso (truncZ (fl v / 2 ^ e)) msize)
    else some (truncZ (fl v / 2 ^ e))

/-- `QuantumFloat.truncate` (lines 1030-1039). The isomorphism is called with `size` instead of
`msize` (line 1035). -/
noncomputable def qfTruncate (msize : ℕ) (e : ℤ) (signed : Bool) (x : ℚ) : ℚ :=
  let r := rhe (fl x / 2 ^ e)
  let r := min (2 ^ msize - 1) r
  if signed then
    qfDecode msize e signed (iso (max (-2 ^ msize) r) (qfSize msize signed))
  else qfDecode msize e signed (max 0 r)

/-! ### Rounding -/

theorem rhe_int (z : ℤ) : rhe z = z := by
  unfold rhe
  simp

theorem rhe_near (q : ℚ) : |q - rhe q| ≤ 1 / 2 := by
  have h1 := Int.floor_le q
  have h2 := Int.lt_floor_add_one q
  unfold rhe
  split
  · next h => rw [abs_le]; constructor <;> linarith
  · next h =>
    split
    · next h3 => push_cast; rw [abs_le]; constructor <;> linarith
    · next h3 =>
      split
      · rw [abs_le]; constructor <;> linarith
      · push_cast; rw [abs_le]; constructor <;> linarith

theorem rhe_nearest (q : ℚ) (k : ℤ) : |q - rhe q| ≤ |q - k| := by
  by_cases h : k = rhe q
  · rw [h]
  · have h1 := rhe_near q
    have h2 : (1 : ℚ) ≤ |(k : ℚ) - rhe q| := by
      have : (1 : ℤ) ≤ |k - rhe q| := Int.one_le_abs (sub_ne_zero.2 h)
      exact_mod_cast this
    have h3 : |(k : ℚ) - rhe q| ≤ |q - rhe q| + |q - k| := by
      have := abs_sub_le (k : ℚ) q (rhe q)
      rw [abs_sub_comm (k : ℚ) q] at this
      linarith
    linarith

theorem two_zpow_pos (e : ℤ) : (0 : ℚ) < 2 ^ e := zpow_pos (by norm_num) e

theorem fl_exact (m e : ℤ) (hm : |m| ≤ 2 ^ 53) : fl (m * 2 ^ e) = m * 2 ^ e := by
  unfold fl
  split
  · next h => exact h.symm
  next h0 =>
  set L := Int.log 2 |(m : ℚ) * 2 ^ e| with hL
  have hpos : (0 : ℚ) < |(m : ℚ) * 2 ^ e| := abs_pos.2 h0
  have hlow : (2 : ℚ) ^ L ≤ |(m : ℚ) * 2 ^ e| := by
    have := Int.zpow_log_le_self (b := 2) (r := |(m : ℚ) * 2 ^ e|) (by norm_num) hpos
    exact_mod_cast this
  have habs : |(m : ℚ) * 2 ^ e| = |(m : ℚ)| * 2 ^ e := by
    rw [abs_mul, abs_of_pos (two_zpow_pos e)]
  have hint : ∃ z : ℤ, (m : ℚ) * 2 ^ e / 2 ^ (L - 52) = z := by
    have hdiv : (m : ℚ) * 2 ^ e / 2 ^ (L - 52) = m * 2 ^ (e - L + 52) := by
      rw [mul_div_assoc, ← zpow_sub₀ (by norm_num)]
      congr 2; ring
    rw [hdiv]
    by_cases hl : 0 ≤ e - L + 52
    · obtain ⟨n, hn⟩ := Int.eq_ofNat_of_zero_le hl
      refine ⟨m * 2 ^ n, ?_⟩
      rw [hn]; push_cast; rw [zpow_natCast]
    · have hmq : |(m : ℚ)| ≤ 2 ^ (53 : ℤ) := by
        have : ((|m| : ℤ) : ℚ) ≤ ((2 ^ 53 : ℤ) : ℚ) := by exact_mod_cast hm
        push_cast at this
        exact this
      have h1 : (2 : ℚ) ^ L ≤ 2 ^ (53 + e) := by
        rw [zpow_add₀ (by norm_num)]
        rw [habs] at hlow
        exact hlow.trans (mul_le_mul_of_nonneg_right hmq (two_zpow_pos e).le)
      have h2 : L ≤ 53 + e := (zpow_le_zpow_iff_right₀ (by norm_num)).1 h1
      have h3 : L = 53 + e := by omega
      have h4 : (2 : ℚ) ^ (53 : ℤ) ≤ |(m : ℚ)| := by
        rw [habs, h3, zpow_add₀ (by norm_num)] at hlow
        exact le_of_mul_le_mul_right hlow (two_zpow_pos e)
      have h5 : |m| = 2 ^ 53 := by
        refine le_antisymm hm ?_
        have : ((2 ^ 53 : ℤ) : ℚ) ≤ ((|m| : ℤ) : ℚ) := by
          push_cast; exact h4
        exact_mod_cast this
      have h6 : e - L + 52 = -1 := by omega
      rw [h6]
      rcases abs_eq (by norm_num : (0 : ℤ) ≤ 2 ^ 53) |>.1 h5 with h | h
      · exact ⟨2 ^ 52, by rw [h]; norm_num⟩
      · exact ⟨-2 ^ 52, by rw [h]; norm_num⟩
  obtain ⟨z, hz⟩ := hint
  rw [hz, rhe_int, ← hz, div_mul_cancel₀ _ (two_zpow_pos _).ne']

theorem fl_int (m : ℤ) (hm : |m| ≤ 2 ^ 53) : fl m = m := by
  have := fl_exact m 0 hm
  simpa using this

/-- The first integer which is not a float64. -/
theorem fl_big : fl ((2 ^ 53 + 1 : ℤ) : ℚ) = 2 ^ 53 := by
  have hlog : Int.log 2 |((2 ^ 53 + 1 : ℤ) : ℚ)| = 53 := by
    have habs : |((2 ^ 53 + 1 : ℤ) : ℚ)| = ((2 ^ 53 + 1 : ℕ) : ℚ) := by norm_num
    rw [habs, Int.log_natCast]
    norm_cast
  unfold fl
  rw [if_neg (by norm_num), hlog]
  have hf : ⌊((2 ^ 53 + 1 : ℤ) : ℚ) / 2 ^ ((53 : ℤ) - 52)⌋ = 2 ^ 52 := by
    rw [Int.floor_eq_iff]; norm_num
  unfold rhe
  rw [hf]
  norm_num

theorem truncZ_int (z : ℤ) : truncZ z = z := by
  unfold truncZ; split <;> simp

/-! ### The isomorphism -/

theorem isoInv_eq (y : ℤ) (n : ℕ) : isoInv y n =
    if 2 ^ n ≤ y % 2 ^ (n + 1) then y % 2 ^ (n + 1) - 2 ^ (n + 1) else y % 2 ^ (n + 1) := by
  unfold isoInv
  have h1 : 0 ≤ y % 2 ^ (n + 1) := Int.emod_nonneg _ (by positivity)
  have h2 : y % 2 ^ (n + 1) < 2 ^ (n + 1) := Int.emod_lt_of_pos _ (by positivity)
  obtain ⟨w, hw⟩ := Int.eq_ofNat_of_zero_le h1
  simp only [hw, Int.toNat_natCast]
  rw [hw] at h2
  have h2' : w < 2 ^ (n + 1) := by exact_mod_cast h2
  have h3 : (w.testBit n = true) ↔ (2 ^ n : ℤ) ≤ (w : ℤ) := by
    have : (2 ^ n : ℤ) ≤ (w : ℤ) ↔ 2 ^ n ≤ w := by exact_mod_cast Iff.rfl
    rw [this, Nat.testBit_eq_decide_div_mod_eq, decide_eq_true_eq]
    have hd : w / 2 ^ n < 2 := by
      rw [Nat.div_lt_iff_lt_mul (by positivity), Nat.mul_comm, ← Nat.pow_succ]; exact h2'
    constructor
    · intro h
      by_contra hlt
      rw [Nat.div_eq_of_lt (by omega)] at h
      omega
    · intro h
      have : 1 ≤ w / 2 ^ n := (Nat.one_le_div_iff (by positivity)).2 h
      omega
  simp only [h3]

theorem isoInv_range (y : ℤ) (n : ℕ) : -2 ^ n ≤ isoInv y n ∧ isoInv y n < 2 ^ n := by
  rw [isoInv_eq]
  have h1 : 0 ≤ y % 2 ^ (n + 1) := Int.emod_nonneg _ (by positivity)
  have h2 : y % 2 ^ (n + 1) < 2 ^ (n + 1) := Int.emod_lt_of_pos _ (by positivity)
  have h3 : (2 : ℤ) ^ (n + 1) = 2 * 2 ^ n := by ring
  split <;> constructor <;> omega

theorem isoInv_emod (y : ℤ) (n : ℕ) : isoInv y n % 2 ^ (n + 1) = y % 2 ^ (n + 1) := by
  rw [isoInv_eq]
  split
  · rw [Int.sub_emod_right, Int.emod_emod]
  · rw [Int.emod_emod]

theorem isoInv_of (x y : ℤ) (n : ℕ) (h1 : -2 ^ n ≤ x) (h2 : x < 2 ^ n)
    (h : y % 2 ^ (n + 1) = x % 2 ^ (n + 1)) : isoInv y n = x := by
  rw [isoInv_eq, h]
  have h3 : (2 : ℤ) ^ (n + 1) = 2 * 2 ^ n := by ring
  have hp : (0 : ℤ) < 2 ^ n := by positivity
  by_cases hx : 0 ≤ x
  · rw [Int.emod_eq_of_lt hx (by omega), if_neg (by omega)]
  · have : x % 2 ^ (n + 1) = x + 2 ^ (n + 1) := by
      rw [← Int.add_emod_right, Int.emod_eq_of_lt (by omega) (by omega)]
    rw [this, if_pos (by omega)]; ring

end Verif.Types
