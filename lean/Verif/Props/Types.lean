import Verif.Types.Float
import Verif.Types.JList

/-!
Property theorems C39, C40, C52: QuantumFloat encoding and rounding, traced lists.
-/

namespace Verif.Props

open Verif.Types

/-! ### C39

Specification: a (signed) QuantumFloat with mantissa size `m` and exponent `e` represents the numbers
`k * 2^e` with `Rep m signed k`. -/

/-- Representable integers: `0 ≤ k < 2^m`, or `-2^m ≤ k < 2^m` if signed. -/
def Rep (m : ℕ) (signed : Bool) (k : ℤ) : Prop :=
  (if signed then -2 ^ m else 0) ≤ k ∧ k < 2 ^ m

theorem rep_abs {m : ℕ} (hm : m ≤ 53) {s : Bool} {k : ℤ} (h : Rep m s k) : |k| ≤ 2 ^ 53 := by
  have h1 : (2 : ℤ) ^ m ≤ 2 ^ 53 := pow_le_pow_right₀ (by norm_num) hm
  obtain ⟨h2, h3⟩ := h
  have h4 : (0 : ℤ) < 2 ^ m := by positivity
  rw [abs_le]
  cases s <;> simp at h2 <;> constructor <;> omega

theorem rep_decode {m : ℕ} (hm : m ≤ 53) (e : ℤ) (s : Bool) {i : ℤ} (h0 : 0 ≤ i)
    (h1 : i < 2 ^ qfSize m s) :
    ∃ k, Rep m s k ∧ qfDecode m e s i = k * 2 ^ e ∧ (if s then iso k m else k) = i := by
  cases s with
  | false =>
    have hr : Rep m false i := ⟨h0, h1⟩
    exact ⟨i, hr, by rw [qfDecode, if_neg (by simp), fl_int _ (rep_abs hm hr)], rfl⟩
  | true =>
    have hr : Rep m true (isoInv i m) := isoInv_range i m
    refine ⟨isoInv i m, hr, by rw [qfDecode, if_pos rfl, fl_int _ (rep_abs hm hr)], ?_⟩
    rw [if_pos rfl, iso, isoInv_emod]
    exact Int.emod_eq_of_lt h0 h1

theorem encode_value {m : ℕ} (hm : m ≤ 53) (e : ℤ) (s : Bool) {k : ℤ} (h : Rep m s k) :
    qfEncode m e s (k * 2 ^ e) = some (if s then iso k m else k) := by
  have hp := two_zpow_pos e
  have hk : (if s then (-2 ^ m : ℤ) else 0) ≤ k := h.1
  have hk2 : k ≤ 2 ^ m - 1 := by have := h.2; omega
  rw [qfEncode, if_neg]
  · simp only
    rw [if_neg]
    · rw [fl_exact _ _ (rep_abs hm h), mul_div_assoc, div_self hp.ne', mul_one, truncZ_int]
      cases s <;> simp
    · rw [not_or, not_lt, not_lt]
      exact ⟨mul_le_mul_of_nonneg_right (by exact_mod_cast hk2) hp.le,
        mul_le_mul_of_nonneg_right (by exact_mod_cast hk) hp.le⟩
  · rintro ⟨h1, h2⟩
    cases s with
    | true => simp at h1
    | false =>
      have : (0 : ℚ) ≤ k := by
        have : (0 : ℤ) ≤ k := by simpa using hk
        exact_mod_cast this
      have := mul_nonneg this hp.le
      linarith

/-- Round-trips up to 53 bits of mantissa: every outcome decodes to a representable value which
encodes to the outcome, and every representable value encodes to an outcome which decodes to it.
Missing: larger sizes, for which it is false since the values pass through float64 (below). -/
theorem C39_round_trip_partial {m : ℕ} (hm : m ≤ 53) (e : ℤ) (s : Bool) :
    (∀ i, 0 ≤ i → i < 2 ^ qfSize m s →
      (∃ k, Rep m s k ∧ qfDecode m e s i = k * 2 ^ e) ∧
      qfEncode m e s (qfDecode m e s i) = some i) ∧
    (∀ k, Rep m s k → ∃ i, 0 ≤ i ∧ i < 2 ^ qfSize m s ∧
      qfEncode m e s (k * 2 ^ e) = some i ∧ qfDecode m e s i = k * 2 ^ e) := by
  refine ⟨fun i h0 h1 => ?_, fun k hk => ⟨_, ?_, ?_, encode_value hm e s hk, ?_⟩⟩
  · obtain ⟨k, h2, h3, h4⟩ := rep_decode hm e s h0 h1
    exact ⟨⟨k, h2, h3⟩, by rw [h3, encode_value hm e s h2, h4]⟩
  · cases s with
    | false => exact hk.1
    | true => exact Int.emod_nonneg _ (by positivity)
  · cases s with
    | false => exact hk.2
    | true => exact Int.emod_lt_of_pos _ (by positivity)
  · cases s with
    | false => rw [qfDecode]; simp only [Bool.false_eq_true, if_false]; rw [fl_int _ (rep_abs hm hk)]
    | true =>
      rw [qfDecode]; simp only [if_true]
      rw [isoInv_of k _ m hk.1 hk.2 (by rw [iso, Int.emod_emod]), fl_int _ (rep_abs hm hk)]

/-- Decoding is injective on the outcomes. -/
theorem C39_injective_partial {m : ℕ} (hm : m ≤ 53) (e : ℤ) (s : Bool) {i j : ℤ} (hi : 0 ≤ i)
    (hi' : i < 2 ^ qfSize m s) (hj : 0 ≤ j) (hj' : j < 2 ^ qfSize m s)
    (h : qfDecode m e s i = qfDecode m e s j) : i = j := by
  have h1 := ((C39_round_trip_partial hm e s).1 i hi hi').2
  have h2 := ((C39_round_trip_partial hm e s).1 j hj hj').2
  rw [h] at h1
  exact Option.some.inj (h1.symm.trans h2)

/-- The encoder rejects exactly the values outside the range (any size). -/
theorem C39_rejects (m : ℕ) (e : ℤ) (s : Bool) (v : ℚ) :
    qfEncode m e s v = none ↔
      v < ((if s then -2 ^ m else 0 : ℤ) : ℚ) * 2 ^ e ∨ ((2 ^ m - 1 : ℤ) : ℚ) * 2 ^ e < v := by
  rw [qfEncode]
  by_cases h : (!s) = true ∧ v < 0
  · rw [if_pos h]
    obtain ⟨h1, h2⟩ := h
    have hs : s = false := by simpa using h1
    subst hs
    simp [h2]
  · rw [if_neg h]
    simp only
    by_cases h3 : v > ((2 ^ m - 1 : ℤ) : ℚ) * 2 ^ e ∨
        v < ((if s then -2 ^ m else 0 : ℤ) : ℚ) * 2 ^ e
    · rw [if_pos h3]; exact ⟨fun _ => h3.symm, fun _ => rfl⟩
    · rw [if_neg h3]
      refine ⟨fun h' => ?_, fun h' => absurd h'.symm h3⟩
      cases s <;> simp at h'

/-- A 54 bit QuantumFloat: two outcomes decode to the same value. -/
theorem C39_large_wrong : qfDecode 54 0 false (2 ^ 53 + 1) = qfDecode 54 0 false (2 ^ 53) ∧
    (2 ^ 53 + 1 : ℤ) < 2 ^ qfSize 54 false := by
  refine ⟨?_, by norm_num [qfSize]⟩
  have h1 : fl ((2 ^ 53 : ℤ) : ℚ) = ((2 ^ 53 : ℤ) : ℚ) := fl_int _ (by norm_num)
  rw [qfDecode, qfDecode]
  simp only [Bool.false_eq_true, if_false]
  rw [fl_big, h1]; norm_num

/-- A float in range that is not representable is encoded as the neighbour towards zero. -/
theorem C39_round_towards_zero {m : ℕ} (hm : m ≤ 53) (e : ℤ) (s : Bool) (v : ℚ) (hv : fl v = v)
    (h1 : ((if s then -2 ^ m else 0 : ℤ) : ℚ) * 2 ^ e ≤ v) (h2 : v ≤ ((2 ^ m - 1 : ℤ) : ℚ) * 2 ^ e) :
    ∃ i, 0 ≤ i ∧ i < 2 ^ qfSize m s ∧ qfEncode m e s v = some i ∧
      |qfDecode m e s i| ≤ |v| ∧ |v - qfDecode m e s i| < 2 ^ e ∧ 0 ≤ qfDecode m e s i * v := by
  have he : (0 : ℚ) < 2 ^ e := two_zpow_pos e
  obtain ⟨u, hu⟩ : ∃ u : ℚ, v = u * 2 ^ e := ⟨v / 2 ^ e, by field_simp⟩
  have g1 : ((if s then -2 ^ m else 0 : ℤ) : ℚ) ≤ u := by
    rw [hu] at h1; exact le_of_mul_le_mul_right h1 he
  have g2 : u ≤ ((2 ^ m - 1 : ℤ) : ℚ) := by rw [hu] at h2; exact le_of_mul_le_mul_right h2 he
  have hdiv : v / 2 ^ e = u := by rw [hu]; field_simp
  have tz : |(truncZ u : ℚ)| ≤ |u| ∧ |u - truncZ u| < 1 ∧ 0 ≤ (truncZ u : ℚ) * u := by
    unfold truncZ
    split
    · rename_i h
      have a1 := Int.floor_le u
      have a2 := Int.lt_floor_add_one u
      have a3 : (0 : ℚ) ≤ ⌊u⌋ := by exact_mod_cast Int.floor_nonneg.2 h
      refine ⟨?_, ?_, mul_nonneg a3 h⟩
      · rw [abs_of_nonneg a3, abs_of_nonneg h]; exact a1
      · rw [abs_lt]; constructor <;> linarith
    · rename_i h
      have h : u < 0 := not_le.1 h
      have a1 := Int.le_ceil u
      have a2 := Int.ceil_lt_add_one u
      have a3 : ((⌈u⌉ : ℤ) : ℚ) ≤ 0 := by exact_mod_cast Int.ceil_le.2 (by simpa using h.le)
      refine ⟨?_, ?_, mul_nonneg_of_nonpos_of_nonpos a3 h.le⟩
      · rw [abs_of_nonpos a3, abs_of_neg h]; linarith
      · rw [abs_lt]; constructor <;> linarith
  have hk : Rep m s (truncZ u) := by
    unfold truncZ Rep
    by_cases h : 0 ≤ u
    · rw [if_pos h]
      have a0 : 0 ≤ ⌊u⌋ := Int.floor_nonneg.2 h
      have a1 : ⌊u⌋ ≤ 2 ^ m - 1 := by
        have : (⌊u⌋ : ℚ) ≤ ((2 ^ m - 1 : ℤ) : ℚ) := (Int.floor_le u).trans g2
        exact_mod_cast this
      have a4 : (0 : ℤ) < 2 ^ m := by positivity
      cases s <;> simp <;> constructor <;> omega
    · rw [if_neg h]
      have a1 : (if s then -2 ^ m else 0 : ℤ) ≤ ⌈u⌉ := by
        have : ((if s then -2 ^ m else 0 : ℤ) : ℚ) ≤ ((⌈u⌉ : ℤ) : ℚ) := g1.trans (Int.le_ceil u)
        exact_mod_cast this
      have a3 : ⌈u⌉ ≤ 0 := Int.ceil_le.2 (by simpa using (not_le.1 h).le)
      have a4 : (0 : ℤ) < 2 ^ m := by positivity
      exact ⟨a1, by omega⟩
  obtain ⟨i, i1, i2, i3, i4⟩ := (C39_round_trip_partial hm e s).2 _ hk
  refine ⟨i, i1, i2, ?_, ?_⟩
  · have r1 : qfEncode m e s v = qfEncode m e s ((truncZ u : ℚ) * 2 ^ e) := by
      have q1 := encode_value hm e s hk
      rw [q1]
      rw [qfEncode, if_neg, if_neg]
      · rw [hv, hdiv]; cases s <;> rfl
      · push Not; exact ⟨h2, h1⟩
      · rintro ⟨n1, n2⟩
        have hs : s = false := by simpa using n1
        subst hs
        simp at h1
        linarith
    rw [r1, i3]
  · rw [i4, hu]
    obtain ⟨t1, t2, t3⟩ := tz
    refine ⟨?_, ?_, ?_⟩
    · rw [abs_mul, abs_mul]; exact mul_le_mul_of_nonneg_right t1 (abs_nonneg _)
    · rw [← sub_mul, abs_mul, abs_of_pos he]
      calc _ < 1 * (2 : ℚ) ^ e := mul_lt_mul_of_pos_right t2 he
        _ = _ := one_mul _
    · calc (0 : ℚ) ≤ (truncZ u * u) * (2 ^ e * 2 ^ e) := mul_nonneg t3 (by positivity)
        _ = _ := by ring

/-- A value between two representable ones is accepted and rounded towards zero, although the
documentation (lines 1017-1021) shows an exception. -/
theorem C39_unrepresentable_accepted :
    qfEncode 4 (-1) false (1 / 4) = some 0 ∧ qfDecode 4 (-1) false 0 ≠ 1 / 4 := by
  have h1 : fl (1 / 4) = 1 / 4 := by
    have := fl_exact 1 (-2) (by norm_num)
    norm_num at this ⊢
    exact this
  refine ⟨?_, ?_⟩
  · rw [qfEncode]
    norm_num [h1, truncZ]
  · rw [qfDecode]
    have := fl_int 0 (by norm_num)
    simp only [Bool.false_eq_true, if_false]
    rw [this]; norm_num

/-- The signed 3 bit QuantumFloat with exponent -1 encodes -2.5 = -5/2 as 11 = 0b1011. -/
example : qfEncode 3 (-1) true ((-5 : ℤ) * 2 ^ (-1 : ℤ)) = some 11 := by
  rw [encode_value (by norm_num) _ _ (by norm_num [Rep])]; decide

/-! ### C52: truncate -/

/-- `truncate` returns a representable value closest to the given float64. -/
theorem C52_truncate {m : ℕ} (hm : m ≤ 53) (e : ℤ) (s : Bool) {x : ℚ} (hx : fl x = x) :
    ∃ r, Rep m s r ∧ qfTruncate m e s x = r * 2 ^ e ∧
      ∀ k, Rep m s k → |x - qfTruncate m e s x| ≤ |x - k * 2 ^ e| := by
  have hp := two_zpow_pos e
  have h2m : (0 : ℤ) < 2 ^ m := by positivity
  have hlo : (if s then (-2 ^ m : ℤ) else 0) ≤ 2 ^ m - 1 := by split <;> omega
  -- the clamped integer
  have hr : Rep m s (max (if s then (-2 ^ m : ℤ) else 0) (min (2 ^ m - 1) (rhe (x / 2 ^ e)))) := by
    constructor
    · exact le_max_left _ _
    · have : max (if s then (-2 ^ m : ℤ) else 0) (min (2 ^ m - 1) (rhe (x / 2 ^ e))) ≤ 2 ^ m - 1 :=
        max_le hlo (min_le_left _ _)
      omega
  have hval : qfTruncate m e s x =
      ((max (if s then (-2 ^ m : ℤ) else 0) (min (2 ^ m - 1) (rhe (x / 2 ^ e))) : ℤ) : ℚ) *
        2 ^ e := by
    rw [qfTruncate, hx]
    cases s with
    | false =>
      simp only [Bool.false_eq_true, if_false] at hr ⊢
      rw [qfDecode, if_neg (by simp), fl_int _ (rep_abs hm hr)]
    | true =>
      simp only [if_true] at hr ⊢
      rw [qfDecode, if_pos rfl, isoInv_of _ _ m hr.1 hr.2, fl_int _ (rep_abs hm hr)]
      rw [iso, qfSize, if_pos rfl]
      exact Int.emod_emod_of_dvd _ (pow_dvd_pow _ (by omega))
  refine ⟨_, hr, hval, fun k hk => ?_⟩
  rw [hval]
  have hx' : x = x / 2 ^ e * 2 ^ e := (div_mul_cancel₀ _ hp.ne').symm
  generalize hq : x / 2 ^ e = q at *
  have hdist : ∀ z : ℤ, |x - z * 2 ^ e| = |q - z| * 2 ^ e := by
    intro z
    rw [hx', ← sub_mul, abs_mul, abs_of_pos hp]
  rw [hdist, hdist]
  apply mul_le_mul_of_nonneg_right _ hp.le
  have hn := rhe_near q
  rw [abs_le] at hn
  obtain ⟨hk1, hk2⟩ := hk
  have hk2' : k ≤ 2 ^ m - 1 := by omega
  by_cases c1 : 2 ^ m - 1 < rhe q
  · rw [min_eq_left c1.le, max_eq_right hlo]
    have a1 : ((2 ^ m - 1 : ℤ) : ℚ) + 1 ≤ rhe q := by exact_mod_cast c1
    have a2 : (k : ℚ) ≤ ((2 ^ m - 1 : ℤ) : ℚ) := by exact_mod_cast hk2'
    rw [abs_of_nonneg (by linarith), abs_of_nonneg (by linarith)]
    linarith
  · rw [min_eq_right (not_lt.1 c1)]
    by_cases c2 : rhe q < if s then (-2 ^ m : ℤ) else 0
    · rw [max_eq_left c2.le]
      generalize (if s then (-2 ^ m : ℤ) else 0) = lo at *
      have a1 : (rhe q : ℚ) + 1 ≤ lo := by exact_mod_cast c2
      have a2 : (lo : ℚ) ≤ k := by exact_mod_cast hk1
      rw [abs_of_nonpos (by linarith), abs_of_nonpos (by linarith)]
      linarith
    · rw [max_eq_right (not_lt.1 c2)]
      exact rhe_nearest q k

/-- 3.75 truncated to an integer with 2 bits is 3. -/
example : ∃ r, Rep 2 false r ∧ qfTruncate 2 0 false (15 / 4) = r * 2 ^ (0 : ℤ) := by
  have h : fl (15 / 4) = 15 / 4 := by
    have := fl_exact 15 (-2) (by norm_num)
    norm_num at this ⊢
    exact this
  obtain ⟨r, h1, h2, _⟩ := C52_truncate (m := 2) (by norm_num) 0 false h
  exact ⟨r, h1, h2⟩

/-! ### C40

Specification: Python lists with a capacity. `none` = the operation raises in Python, exceeds the
capacity or is excluded from the partial theorem. -/

/-- List operations. -/
inductive LOp where
  | append (v : ℤ)
  | prepend (v : ℤ)
  | pop
  | extend (l : List ℤ)
  | get (k : ℤ)
  | slice (start stop : Option ℤ)

/-- A bound of a Python slice: negative values count from the end; then clamped to the list. -/
def pyBound (n : ℕ) (x : ℤ) : ℕ := (min (max (if x < 0 then x + n else x) 0) n).toNat

/-- Python's `l[start:stop]`. -/
def pySlice (l : List ℤ) (start stop : Option ℤ) : List ℤ :=
  let s := (start.map (pyBound l.length)).getD 0
  let e := (stop.map (pyBound l.length)).getD l.length
  (l.take e).drop s

/-- Slices for which the claim is proved: the bounds are at least `-len`, start is at most `len`
and, after adding `len` to negative bounds, start is at most stop. -/
def SliceOK (n : ℕ) (start stop : Option ℤ) : Prop :=
  (∀ x, start = some x → -(n : ℤ) ≤ x ∧ x ≤ n) ∧ (∀ x, stop = some x → -(n : ℤ) ≤ x) ∧
  (start.map (pyBound n)).getD 0 ≤ (stop.map (pyBound n)).getD n

instance (n : ℕ) (a b : Option ℤ) : Decidable (SliceOK n a b) := by
  have : SliceOK n a b ↔ ((match a with | none => True | some x => -(n : ℤ) ≤ x ∧ x ≤ n) ∧
    (match b with | none => True | some x => -(n : ℤ) ≤ x) ∧
    (a.map (pyBound n)).getD 0 ≤ (b.map (pyBound n)).getD n) := by
    unfold SliceOK
    cases a <;> cases b <;> simp
  refine @decidable_of_iff' _ _ this ?_
  cases a <;> cases b <;> exact inferInstance

/-- The Python list after an operation and the returned value. -/
def pyStep (cap : ℕ) (l : List ℤ) : LOp → Option (List ℤ × Option ℤ)
  | .append v => if l.length < cap then some (l ++ [v], none) else none
  | .prepend v => if l.length < cap then some (v :: l, none) else none
  | .pop => l.getLast?.map fun v => (l.dropLast, some v)
  | .extend m => if l.length + m.length ≤ cap then some (l ++ m, none) else none
  | .get k => if -(l.length : ℤ) ≤ k ∧ k < l.length then
      (l[(if k < 0 then k + l.length else k).toNat]?).map fun v => (l, some v) else none
  | .slice a b => if SliceOK l.length a b then some (pySlice l a b, none) else none

/-- The same operation on the traced list; `extend` receives `Jlist(m, cap)`. -/
def jStep (cap : ℕ) (j : JList) : LOp → JList × Option ℤ
  | .append v => (j.append v, none)
  | .prepend v => (j.prepend v, none)
  | .pop => (j.pop.1, some j.pop.2)
  | .extend m => (j.extend (JList.init m cap), none)
  | .get k => (j, some (j.get k))
  | .slice a b => (j.slice a b, none)

/-- A history of the Python list. -/
def pyRun (cap : ℕ) : List LOp → List ℤ → Option (List ℤ × List (Option ℤ))
  | [], l => some (l, [])
  | o :: os, l => (pyStep cap l o).bind fun r =>
      (pyRun cap os r.1).map fun q => (q.1, r.2 :: q.2)

/-- A history of the traced list. -/
def jRun (cap : ℕ) : List LOp → JList → JList × List (Option ℤ)
  | [], j => (j, [])
  | o :: os, j =>
    let r := jStep cap j o
    let q := jRun cap os r.1
    (q.1, r.2 :: q.2)

theorem jStep_ok {cap : ℕ} {j : JList} (h : j.OK) (hc : j.array.length = cap) {o : LOp}
    {l : List ℤ} {v : Option ℤ} (hp : pyStep cap j.val o = some (l, v)) :
    (jStep cap j o).1.OK ∧ (jStep cap j o).1.val = l ∧ (jStep cap j o).2 = v ∧
    (jStep cap j o).1.array.length = cap := by
  have hl := val_length h
  cases o with
  | append x =>
    rw [pyStep] at hp
    split at hp
    · next hlt =>
      cases hp
      obtain ⟨a, b, c⟩ := append_ok h (by omega) x
      exact ⟨a, b, rfl, c.trans hc⟩
    · cases hp
  | prepend x =>
    rw [pyStep] at hp
    split at hp
    · next hlt =>
      cases hp
      obtain ⟨a, b, c⟩ := prepend_ok h (by omega) x
      exact ⟨a, b, rfl, c.trans hc⟩
    · cases hp
  | pop =>
    rw [pyStep, Option.map_eq_some_iff] at hp
    obtain ⟨x, h1, h2⟩ := hp
    cases h2
    have hne : j.val ≠ [] := by rintro e; rw [e] at h1; simp at h1
    have hpos := List.length_pos_iff.2 hne
    obtain ⟨a, b, c⟩ := pop_ok h (by omega)
    refine ⟨a, ?_, ?_, c.trans hc⟩
    · show j.pop.1.val = j.val.dropLast
      rw [b]; simp
    · rw [b] at h1
      simp at h1
      show some j.pop.2 = some x
      rw [h1]
  | extend m =>
    rw [pyStep] at hp
    split at hp
    · next hlt =>
      cases hp
      obtain ⟨i1, i2, i3⟩ := init_ok m cap (by omega)
      have hi := val_length i1
      rw [i2] at hi
      obtain ⟨a, b, c⟩ := extend_ok h i1 (by omega)
      exact ⟨a, b.trans (by rw [i2]), rfl, c.trans hc⟩
    · cases hp
  | get k =>
    rw [pyStep] at hp
    split at hp
    · next hk =>
      have := get_ok h k (by omega) (by omega)
      rw [hl, this] at hp
      cases hp
      exact ⟨h, rfl, rfl, hc⟩
    · cases hp
  | slice a b =>
    rw [pyStep] at hp
    split at hp
    · next hs =>
      cases hp
      obtain ⟨s1, s2, s3⟩ := hs
      have hlen : (j.val.length : ℤ) = j.counter := hl
      obtain ⟨x1, x2, x3⟩ := slice_ok h a b ((a.map (pyBound j.val.length)).getD 0)
        ((b.map (pyBound j.val.length)).getD j.val.length)
        (by
          cases a with
          | none => rfl
          | some x =>
            obtain ⟨y1, y2⟩ := s1 x rfl
            simp only [Option.map_some, Option.getD_some, pyBound, sliceStart]
            split <;> omega)
        (by
          cases b with
          | none => exact hlen
          | some x =>
            have y1 := s2 x rfl
            simp only [Option.map_some, Option.getD_some, pyBound, sliceStop]
            split <;> split <;> omega)
        s3
        (by
          cases b with
          | none => exact hlen.le
          | some x =>
            simp only [Option.map_some, Option.getD_some, pyBound]
            omega)
      refine ⟨x1, ?_, rfl, x3.trans hc⟩
      show (j.slice a b).val = _
      rw [x2, pySlice, List.drop_take]
    · cases hp

/-- A history of operations that Python accepts, within capacity and with slices as in `SliceOK`,
gives the same list and the same returned values. Missing: slices with a start behind the stop or
a start out of range, clearing in place, popping an empty list (below). -/
theorem C40_history_partial (cap : ℕ) (l : List ℤ) (hl : l.length ≤ cap) (ops : List LOp)
    (l' : List ℤ) (out : List (Option ℤ)) (h : pyRun cap ops l = some (l', out)) :
    (jRun cap ops (JList.init l cap)).1.val = l' ∧ (jRun cap ops (JList.init l cap)).2 = out := by
  have gen : ∀ (j : JList), j.OK → j.array.length = cap → ∀ l' out,
      pyRun cap ops j.val = some (l', out) →
      (jRun cap ops j).1.val = l' ∧ (jRun cap ops j).2 = out := by
    clear h
    induction ops with
    | nil => intro j _ _ l' out h; rw [pyRun] at h; cases h; exact ⟨rfl, rfl⟩
    | cons o os ih =>
      intro j hj hc l' out h
      rw [pyRun, Option.bind_eq_some_iff] at h
      obtain ⟨⟨m, v⟩, h1, h2⟩ := h
      rw [Option.map_eq_some_iff] at h2
      obtain ⟨⟨q1, q2⟩, h3, h4⟩ := h2
      cases h4
      obtain ⟨a1, a2, a3, a4⟩ := jStep_ok hj hc h1
      obtain ⟨b1, b2⟩ := ih _ a1 a4 q1 q2 (by rw [a2]; exact h3)
      exact ⟨b1, by rw [jRun]; simp only; rw [a3, b2]⟩
  obtain ⟨i1, i2, i3⟩ := init_ok l cap hl
  exact gen _ i1 i3 l' out (by rw [i2]; exact h)

/-- A history with negative indices, slices and both ends. -/
example : pyRun 8 [.append 4, .prepend 0, .get (-1), .slice (some 1) (some (-1)), .extend [7, 8],
    .pop] [1, 2, 3] = some ([1, 2, 3, 7], [none, none, some 4, none, none, some 8]) := by
  decide +kernel

/-- `xs[2:1]` should be empty, but its length is -1, and a value appended to it is lost. -/
theorem C40_slice_reversed_wrong :
    pySlice [1, 2, 3] (some 2) (some 1) ++ [9] = [9] ∧
    ((JList.init [1, 2, 3] 5).slice (some 2) (some 1)).counter = -1 ∧
    (((JList.init [1, 2, 3] 5).slice (some 2) (some 1)).append 9).val = [] := by decide +kernel

/-- `xs[-5:]` of a list with three elements should be the whole list. -/
theorem C40_slice_start_wrong :
    pySlice [1, 2, 3] (some (-5)) none = [1, 2, 3] ∧
    ((JList.init [1, 2, 3] 8).slice (some (-5)) none).val = [0, 0, 1, 2, 3] := by decide +kernel

/-- `clear` leaves the list it is called on unchanged; only the returned list is empty. -/
theorem C40_clear_wrong (j : JList) : j.clear.1 = j ∧ j.clear.2.val = [] :=
  ⟨rfl, by simp [JList.clear, JList.val]⟩

/-- After popping an empty list the next appended value is lost. -/
theorem C40_pop_empty_wrong : ((JList.init [] 4).pop.1.append 9).val = [] := by decide +kernel

end Verif.Props
