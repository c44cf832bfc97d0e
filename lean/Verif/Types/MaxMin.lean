import Mathlib.Data.Nat.Bitwise
import Mathlib.Data.Rat.Floor
import Mathlib.Algebra.Order.Field.Power
import Mathlib.Tactic.Ring
import Mathlib.Tactic.FieldSimp
import Mathlib.Tactic.Linarith
import Mathlib.Tactic.Positivity

/-!
Maximum and minimum of quantum floats
(src/qrisp/alg_primitives/arithmetic/arithmetic_tools.py lines 27-184), on basis states.
-/

namespace Verif.Types.MaxMin

/-! ### Model -/

/-- A quantum float: mantissa size, exponent, sign, and the number in its register. -/
structure QF where
  m : Nat
  e : Int
  s : Bool
  u : Nat
deriving DecidableEq, Repr

/-- `mshape[1]`. -/
def QF.top (q : QF) : Int := q.e + q.m

/-- `size`. -/
def QF.size (q : QF) : Nat := q.m + (if q.s then 1 else 0)

/-- `cx(src[lo:hi], dst[dlo:dlo+hi-lo])` under the control of `c`; the new value of `dst`. -/
def cxs (c : Bool) (src lo hi dst dlo : Nat) : Nat :=
  if c then (List.range (hi - lo)).foldl
    (fun r j => if src.testBit (lo + j) then r ^^^ 2 ^ (dlo + j) else r) dst
  else dst

/-- `q_max` and `q_min` (lines 53-104, 133-184), `c` being the result of the comparison. The bounds
of the slices are not negative if the mantissas overlap or touch (`l ≤ r`). -/
def sel (c : Bool) (a b : QF) : QF :=
  let l := max a.e b.e
  let r := min a.top b.top
  let ne := min a.e b.e
  let rm := (max a.top b.top - ne).toNat
  let ov := (l - ne).toNat
  -- line 71
  let r0 := cxs true a.u (l - a.e).toNat (r - a.e).toNat 0 ov
  -- lines 73-78
  let b' := cxs true a.u (l - a.e).toNat (r - a.e).toNat b.u (l - b.e).toNat
  let r1 := cxs (!c) b' (l - b.e).toNat (r - b.e).toNat r0 ov
  -- lines 80-89
  let r2 := cxs c a.u 0 (min a.size (l - a.e).toNat) r1 0
  let la := max r a.e
  let r3 := cxs c a.u (la - a.e).toNat a.m r2 (la - ne).toNat
  let r4 := if a.s then cxs c a.u a.m (a.m + 1) r3 rm else r3
  -- lines 91-100
  let r5 := cxs (!c) b.u 0 (min b.size (l - b.e).toNat) r4 0
  let lb := max r b.e
  let r6 := cxs (!c) b.u (lb - b.e).toNat b.m r5 (lb - ne).toNat
  let r7 := if b.s then cxs (!c) b.u b.m (b.m + 1) r6 rm else r6
  ⟨rm, ne, a.s || b.s, r7⟩

/-! ### Specification -/

/-- The value: mantissa minus the sign qubit, times the power of two. -/
def QF.val (q : QF) : ℚ :=
  (((q.u % 2 ^ q.m : Nat) : ℚ) - (if q.s && q.u.testBit q.m then 2 ^ q.m else 0)) * 2 ^ q.e

/-- `q_max(a, b)`: the comparison `a >= b` is exact. -/
def qMax (a b : QF) : QF := sel (decide (b.val ≤ a.val)) a b

/-- `q_min(a, b)`. -/
def qMin (a b : QF) : QF := sel (decide (a.val ≤ b.val)) a b

/-! ### Lemmas -/

theorem cxs_testBit (c : Bool) (src lo hi dst dlo k : Nat) :
    (cxs c src lo hi dst dlo).testBit k =
      xor (dst.testBit k) (c && (decide (dlo ≤ k ∧ k < dlo + (hi - lo)) &&
        src.testBit (lo + (k - dlo)))) := by
  cases c with
  | false => simp [cxs]
  | true =>
    simp only [cxs, if_true, Bool.true_and]
    generalize hi - lo = m
    induction m with
    | zero =>
      have : ¬ (dlo ≤ k ∧ k < dlo + 0) := by omega
      rw [decide_eq_false this]; simp
    | succ m ih =>
      rw [List.range_succ, List.foldl_append, List.foldl_cons, List.foldl_nil]
      generalize (List.range m).foldl _ dst = r at ih
      by_cases hk : k = dlo + m
      · have h1 : ¬ (dlo ≤ k ∧ k < dlo + m) := by omega
        have h2 : dlo ≤ k ∧ k < dlo + (m + 1) := by omega
        have h3 : k - dlo = m := by omega
        rw [decide_eq_false h1] at ih
        rw [decide_eq_true h2, h3]
        by_cases hs : src.testBit (lo + m) = true
        · simp [hs, ih, hk, Nat.testBit_xor, Nat.testBit_two_pow]
          simp [hk] at ih; rw [ih]
        · simp [hs, ih]
      · have h1 : (dlo ≤ k ∧ k < dlo + m) ↔ (dlo ≤ k ∧ k < dlo + (m + 1)) := by omega
        rw [← decide_eq_decide.2 h1, ← ih]
        have h4 : ¬ dlo + m = k := fun h => hk h.symm
        split
        · simp [Nat.testBit_xor, Nat.testBit_two_pow, h4]
        · rfl

theorem sgn_testBit (s c : Bool) (src m r rm k : Nat) :
    (if s then cxs c src m (m + 1) r rm else r).testBit k =
      xor (r.testBit k) (c && (s && (decide (k = rm) && src.testBit m))) := by
  cases s with
  | false => simp
  | true =>
    rw [if_pos rfl, cxs_testBit]
    by_cases hk : k = rm
    · have h1 : rm ≤ k ∧ k < rm + (m + 1 - m) := by omega
      have h2 : m + (k - rm) = m := by omega
      rw [decide_eq_true h1, decide_eq_true hk, h2]; simp
    · have h1 : ¬ (rm ≤ k ∧ k < rm + (m + 1 - m)) := by omega
      rw [decide_eq_false h1, decide_eq_false hk]; simp

/-- The register of the result with natural numbers instead of significances. -/
def selN (c : Bool) (ma : Nat) (sa : Bool) (ua mb : Nat) (sb : Bool) (ub x y : Nat) : Nat :=
  let l := max x y
  let r := min (x + ma) (y + mb)
  let rm := max (x + ma) (y + mb)
  let r0 := cxs true ua (l - x) (r - x) 0 l
  let b' := cxs true ua (l - x) (r - x) ub (l - y)
  let r1 := cxs (!c) b' (l - y) (r - y) r0 l
  let r2 := cxs c ua 0 (l - x) r1 0
  let r3 := cxs c ua (r - x) ma r2 r
  let r4 := if sa then cxs c ua ma (ma + 1) r3 rm else r3
  let r5 := cxs (!c) ub 0 (l - y) r4 0
  let r6 := cxs (!c) ub (r - y) mb r5 r
  if sb then cxs (!c) ub mb (mb + 1) r6 rm else r6

theorem d1 (ne : Int) (x y : Nat) : (max (ne + x) (ne + y) - ne).toNat = max x y := by omega
theorem d2 (ne : Int) (x y : Nat) : (max (ne + x) (ne + y) - (ne + x)).toNat = max x y - x := by omega
theorem d3 (ne : Int) (x y : Nat) : (max (ne + x) (ne + y) - (ne + y)).toNat = max x y - y := by omega
theorem d4 (ne : Int) (x y m n : Nat) :
    (min (ne + x + m) (ne + y + n) - (ne + x)).toNat = min (x + m) (y + n) - x := by omega
theorem d5 (ne : Int) (x y m n : Nat) :
    (min (ne + x + m) (ne + y + n) - (ne + y)).toNat = min (x + m) (y + n) - y := by omega
theorem d6 (ne : Int) (x y m n : Nat) :
    (max (ne + x + m) (ne + y + n) - ne).toNat = max (x + m) (y + n) := by omega
theorem d7 (ne : Int) (x y m n : Nat) :
    (min (ne + x + m) (ne + y + n) - ne).toNat = min (x + m) (y + n) := by omega
theorem d8 (ne : Int) (x y m n : Nat) (h : max x y ≤ min (x + m) (y + n)) :
    max (min (ne + x + m) (ne + y + n)) (ne + x) = min (ne + x + m) (ne + y + n) := by omega
theorem d9 (ne : Int) (x y m n : Nat) (h : max x y ≤ min (x + m) (y + n)) :
    max (min (ne + x + m) (ne + y + n)) (ne + y) = min (ne + x + m) (ne + y + n) := by omega
theorem d10 (x y m n s : Nat) (h : max x y ≤ min (x + m) (y + n)) :
    min (m + s) (max x y - x) = max x y - x := by omega
theorem d11 (x y m n s : Nat) (h : max x y ≤ min (x + m) (y + n)) :
    min (n + s) (max x y - y) = max x y - y := by omega

theorem sel_eq (c : Bool) (ma : Nat) (sa : Bool) (ua mb : Nat) (sb : Bool) (ub x y : Nat) (ne : Int)
    (hne : min (ne + x) (ne + y) = ne) (h : max x y ≤ min (x + ma) (y + mb)) :
    sel c ⟨ma, ne + x, sa, ua⟩ ⟨mb, ne + y, sb, ub⟩ =
      ⟨max (x + ma) (y + mb), ne, sa || sb, selN c ma sa ua mb sb ub x y⟩ := by
  simp only [sel, selN, QF.top, QF.size, hne, d1, d2, d3, d4, d5, d6, d8 ne x y ma mb h,
    d9 ne x y ma mb h, d7, d10 x y ma mb _ h, d11 x y ma mb _ h]

/-- The bits of the result. -/
theorem selN_bits (c : Bool) (ma : Nat) (sa : Bool) (ua mb : Nat) (sb : Bool) (ub x y : Nat)
    (h0 : x = 0 ∨ y = 0) (h : max x y ≤ min (x + ma) (y + mb)) (k : Nat) :
    (selN c ma sa ua mb sb ub x y).testBit k = if c then
      xor (decide (x ≤ k ∧ k < x + ma) && ua.testBit (k - x))
        (sa && (decide (k = max (x + ma) (y + mb)) && ua.testBit ma))
    else xor (decide (y ≤ k ∧ k < y + mb) && ub.testBit (k - y))
        (sb && (decide (k = max (x + ma) (y + mb)) && ub.testBit mb)) := by
  simp only [selN, sgn_testBit, cxs_testBit, Nat.zero_testBit]
  generalize hl : max x y = l at *
  generalize hr : min (x + ma) (y + mb) = r at *
  generalize max (x + ma) (y + mb) = rm
  have i1 : ∀ k, l ≤ k → l - x + (k - l) = k - x := by intro k hk; omega
  have i2 : ∀ k, l ≤ k → l - y + (k - l) = k - y := by intro k hk; omega
  have i3 : ∀ k, r ≤ k → r - x + (k - r) = k - x := by intro k hk; omega
  have i4 : ∀ k, r ≤ k → r - y + (k - r) = k - y := by intro k hk; omega
  have hov : (l ≤ k ∧ k < l + (r - x - (l - x))) ↔ (l ≤ k ∧ k < r) := by omega
  have hov' : (l ≤ k ∧ k < l + (r - y - (l - y))) ↔ (l ≤ k ∧ k < r) := by omega
  have hhi : (r ≤ k ∧ k < r + (ma - (r - x))) ↔ (r ≤ k ∧ k < x + ma) := by omega
  have hhi' : (r ≤ k ∧ k < r + (mb - (r - y))) ↔ (r ≤ k ∧ k < y + mb) := by omega
  have hlo : (0 ≤ k ∧ k < l - x) ↔ (k < l ∧ x ≤ k) := by omega
  have hlo' : (0 ≤ k ∧ k < l - y) ↔ (k < l ∧ y ≤ k) := by omega
  simp only [Nat.zero_add, Nat.sub_zero]
  simp only [decide_eq_decide.2 hov, decide_eq_decide.2 hov', decide_eq_decide.2 hhi,
    decide_eq_decide.2 hhi', decide_eq_decide.2 hlo, decide_eq_decide.2 hlo']
  cases c with
  | true =>
    simp only [Bool.not_true, Bool.false_and, Bool.xor_false, Bool.true_and, if_true, Bool.false_xor]
    congr 1
    rcases Nat.lt_or_ge k l with h1 | h1
    · have a1 : ¬ (l ≤ k ∧ k < r) := by omega
      have a2 : ¬ (r ≤ k ∧ k < x + ma) := by omega
      have a3 : (k < l ∧ x ≤ k) ↔ (x ≤ k ∧ k < x + ma) := by omega
      rw [decide_eq_false a1, decide_eq_false a2, decide_eq_decide.2 a3]
      by_cases hx : x = 0
      · simp [hx]
      · have a4 : ¬ (x ≤ k ∧ k < x + ma) := by omega
        rw [decide_eq_false a4]; simp
    · rcases Nat.lt_or_ge k r with h2 | h2
      · have a1 : l ≤ k ∧ k < r := ⟨h1, h2⟩
        have a2 : ¬ (r ≤ k ∧ k < x + ma) := by omega
        have a3 : ¬ (k < l ∧ x ≤ k) := by omega
        have a4 : x ≤ k ∧ k < x + ma := by omega
        rw [decide_eq_true a1, decide_eq_false a2, decide_eq_false a3, decide_eq_true a4, i1 k h1]
        simp
      · have a1 : ¬ (l ≤ k ∧ k < r) := by omega
        have a3 : ¬ (k < l ∧ x ≤ k) := by omega
        have a4 : (r ≤ k ∧ k < x + ma) ↔ (x ≤ k ∧ k < x + ma) := by omega
        have a5 : decide (r ≤ k ∧ k < x + ma) = decide (x ≤ k ∧ k < x + ma) := decide_eq_decide.2 a4
        rw [decide_eq_false a1, decide_eq_false a3, a5, i3 k h2]
        simp
  | false =>
    simp only [Bool.not_false, Bool.false_and, Bool.xor_false, Bool.true_and, Bool.false_xor,
      Bool.false_eq_true, if_false]
    congr 1
    rcases Nat.lt_or_ge k l with h1 | h1
    · have a1 : ¬ (l ≤ k ∧ k < r) := by omega
      have a2 : ¬ (r ≤ k ∧ k < y + mb) := by omega
      have a3 : (k < l ∧ y ≤ k) ↔ (y ≤ k ∧ k < y + mb) := by omega
      rw [decide_eq_false a1, decide_eq_false a2, decide_eq_decide.2 a3]
      by_cases hy : y = 0
      · simp [hy]
      · have a4 : ¬ (y ≤ k ∧ k < y + mb) := by omega
        rw [decide_eq_false a4]; simp
    · rcases Nat.lt_or_ge k r with h2 | h2
      · have a1 : l ≤ k ∧ k < r := ⟨h1, h2⟩
        have a2 : ¬ (r ≤ k ∧ k < y + mb) := by omega
        have a3 : ¬ (k < l ∧ y ≤ k) := by omega
        have a4 : y ≤ k ∧ k < y + mb := by omega
        have a5 : l - y ≤ k - y ∧ k - y < l - y + (r - x - (l - x)) := by omega
        have a6 : l - x + (k - y - (l - y)) = k - x := by omega
        rw [decide_eq_true a1, decide_eq_false a2, decide_eq_false a3, decide_eq_true a4, i1 k h1,
          i2 k h1, decide_eq_true a5, a6]
        cases ua.testBit (k - x) <;> cases ub.testBit (k - y) <;> rfl
      · have a1 : ¬ (l ≤ k ∧ k < r) := by omega
        have a3 : ¬ (k < l ∧ y ≤ k) := by omega
        have a4 : (r ≤ k ∧ k < y + mb) ↔ (y ≤ k ∧ k < y + mb) := by omega
        have a5 : decide (r ≤ k ∧ k < y + mb) = decide (y ≤ k ∧ k < y + mb) := decide_eq_decide.2 a4
        rw [decide_eq_false a1, decide_eq_false a3, a5, i4 k h2]
        simp

/-- Mantissa and sign of a register with the bits above. -/
theorem val_bits {U u m x rm : Nat} {s : Bool} (hrm : x + m ≤ rm)
    (h : ∀ k, U.testBit k = xor (decide (x ≤ k ∧ k < x + m) && u.testBit (k - x))
      (s && (decide (k = rm) && u.testBit m))) :
    U % 2 ^ rm = (u % 2 ^ m) * 2 ^ x ∧ U.testBit rm = (s && u.testBit m) := by
  constructor
  · rw [← Nat.shiftLeft_eq]
    apply Nat.eq_of_testBit_eq
    intro k
    rw [Nat.testBit_mod_two_pow, Nat.testBit_shiftLeft, Nat.testBit_mod_two_pow, h]
    by_cases h1 : x ≤ k ∧ k < x + m
    · have a1 : k < rm := by omega
      have a2 : ¬ k = rm := by omega
      have a3 : k - x < m := by omega
      simp [h1, a1, a2, a3]
    · by_cases h2 : x ≤ k
      · have a3 : ¬ k - x < m := by omega
        by_cases h3 : k < rm
        · have a2 : ¬ k = rm := by omega
          simp only [decide_eq_false h1, decide_eq_false a2, decide_eq_false a3]; simp
        · simp only [decide_eq_false h3, decide_eq_false a3]; simp
      · by_cases h3 : k < rm
        · have a2 : ¬ k = rm := by omega
          simp only [decide_eq_false h1, decide_eq_false a2, ge_iff_le, decide_eq_false h2]; simp
        · exfalso; omega
  · rw [h]
    have h1 : ¬ (x ≤ rm ∧ rm < x + m) := by omega
    rw [decide_eq_false h1]; simp

/-- Value of the result: the mantissa is right, the sign qubit counts `2^top` of the result. -/
theorem sel_val (c : Bool) (a b : QF) (h : max a.e b.e ≤ min a.top b.top) :
    let w := if c then a else b
    (sel c a b).val = (((w.u % 2 ^ w.m : Nat) : ℚ)) * 2 ^ w.e -
      (if w.s && w.u.testBit w.m then 2 ^ (max a.top b.top) else 0) := by
  obtain ⟨ma, ea, sa, ua⟩ := a
  obtain ⟨mb, eb, sb, ub⟩ := b
  simp only [QF.top] at h ⊢
  obtain ⟨x, hx⟩ : ∃ x : Nat, ea = min ea eb + x := ⟨(ea - min ea eb).toNat, by omega⟩
  obtain ⟨y, hy⟩ : ∃ y : Nat, eb = min ea eb + y := ⟨(eb - min ea eb).toNat, by omega⟩
  have hxy : x = 0 ∨ y = 0 := by omega
  generalize hne : min ea eb = ne at *
  subst hx hy
  have hL : max x y ≤ min (x + ma) (y + mb) := by omega
  rw [sel_eq c ma sa ua mb sb ub x y ne hne hL]
  have hbits := selN_bits c ma sa ua mb sb ub x y hxy hL
  have htop : max (ne + x + ma) (ne + y + mb) = ne + ((max (x + ma) (y + mb) : Nat) : Int) := by omega
  rw [htop]
  have h2 : (2 : ℚ) ≠ 0 := by norm_num
  simp only [QF.val]
  cases c with
  | true =>
    obtain ⟨v1, v2⟩ := val_bits (le_max_left _ _) (by simpa using hbits)
    rw [v1, v2]
    simp only [if_true]
    have e : ((sa || sb) && (sa && ua.testBit ma)) = (sa && ua.testBit ma) := by cases sa <;> simp
    rw [e, zpow_add₀ h2, zpow_add₀ h2, zpow_natCast, zpow_natCast]
    split <;> push_cast <;> ring
  | false =>
    obtain ⟨v1, v2⟩ := val_bits (le_max_right _ _) (by simpa using hbits)
    rw [v1, v2]
    simp only [Bool.false_eq_true, if_false]
    have e : ((sa || sb) && (sb && ub.testBit mb)) = (sb && ub.testBit mb) := by cases sb <;> simp
    rw [e, zpow_add₀ h2, zpow_add₀ h2, zpow_natCast, zpow_natCast]
    split <;> push_cast <;> ring

end Verif.Types.MaxMin
