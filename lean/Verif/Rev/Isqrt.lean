import Verif.Rev.IsqrtAdd
import Verif.Rev.Montgomery
import Mathlib.Data.Nat.Sqrt

/-!
Model of `/repo/src/qrisp/alg_primitives/arithmetic/isqrt/isqrt_algorithm.py` lines 100-247: the
integer square root. `n` is the size of `R` and `F` after the extension, `z` is the single qubit of the
helper variable.
-/

set_option linter.unusedSectionVars false

namespace Verif.Rev

variable {Q : Type} [DecidableEq Q]

/-- isqrt_algorithm.py:100-119 `initial_subtraction`. -/
def isqInit (n : Nat) (R F : Nat → Q) (z : Q) (s : St Q) : St Q :=
  let s := xS (R (n - 2)) s
  let s := cxS (R (n - 2)) (R (n - 1)) s
  let s := cxS (R (n - 1)) (F 1) s
  let s := cx0S (R (n - 1)) z s
  let s := cx0S (R (n - 1)) (F 2) s
  isqAddSub 4 z (fun j => R (n - 4 + j)) F s

/-- One round of isqrt_algorithm.py:125-148 in `conditional_addition_or_subtraction`. -/
def isqStep (n : Nat) (R F : Nat → Q) (z : Q) (i : Nat) (s : St Q) : St Q :=
  let s := cx0S z (F 1) s
  let s := cxS (F 2) z s
  let s := cxS (R (n - 1)) (F 1) s
  let s := cx0S (R (n - 1)) z s
  let s := cx0S (R (n - 1)) (F (i + 1)) s
  let s := ford 3 (i + 2) (fun j => swapS (F j) (F (j - 1))) s
  isqAddSub (2 * i + 2) z (fun j => R (n - 2 * i - 2 + j)) F s

/-- isqrt_algorithm.py:151-180 `remainder_restoration`. -/
def isqRestore (n : Nat) (R F : Nat → Q) (z : Q) (s : St Q) : St Q :=
  let s := cx0S z (F 1) s
  let s := cxS (F 2) z s
  let s := cx0S (R (n - 1)) z s
  let s := cx0S (R (n - 1)) (F (n / 2 + 1)) s
  let s := xS z s
  let s := isqCtlAdd n z R F s
  let s := xS z s
  let s := ford 3 (n / 2 + 2) (fun j => swapS (F j) (F (j - 1))) s
  cxS (F 2) z s

/-- isqrt_algorithm.py:229-241: the body of `q_isqrt` on the extended register (`F`, `z` fresh). -/
def isqMain (n : Nat) (R F : Nat → Q) (z : Q) (s : St Q) : St Q :=
  let s := xS (F 0) s
  let s := isqInit n R F z s
  let s := fori 2 (n / 2) (isqStep n R F z) s
  let s := isqRestore n R F z s
  let s := xS (F 0) s
  fori 2 (n / 2 + 2) (fun i => swapS (F i) (F (i - 2))) s

/-- isqrt_algorithm.py:224-226: size of the extended register. -/
def isqExt (size : Nat) : Nat := if size % 2 = 1 then size + 1 else size + 2

/-- isqrt_algorithm.py:183-247 `q_isqrt(R)` for exponent 0 (other exponents raise); the qubits that
`R.extend` adds are `R size, …`. -/
def qIsqrt (size : Nat) (R F : Nat → Q) (z : Q) (s : St Q) : St Q :=
  if size = 1 then cxS (F 0) (R 0) (cxS (R 0) (F 0) s)
  else isqMain (isqExt size) R F z s

/-! ### Arithmetic -/

theorem bval_shift (k m : Nat) (a : Nat → Bool) :
    bval (k + m) a = bval k a + 2 ^ k * bval m (fun i => a (k + i)) := by
  induction m with
  | zero => simp [bval]
  | succ m ih => rw [← add_assoc, bval, bval, ih, pow_add]; ring

theorem bval_testBit (n v : Nat) : bval n v.testBit = v % 2 ^ n := by
  induction n with
  | zero => simp [bval, Nat.mod_one]
  | succ n ih =>
    rw [bval, ih, pow_succ, Nat.mod_mul, Nat.testBit_eq_decide_div_mod_eq]
    have := Nat.mod_two_eq_zero_or_one (v / 2 ^ n)
    rcases this with h | h <;> simp [h]

theorem testBit_zero_of_lt (v k j : Nat) (h : v < 2 ^ k) (hj : k ≤ j) : v.testBit j = false := by
  apply Nat.testBit_lt_two_pow
  exact lt_of_lt_of_le h (Nat.pow_le_pow_right (by decide) hj)

/-- The contents of `F`: bit 0 is one, bit 1 is `b`, then the digits of the root. -/
def fBits (q : Nat) (b : Bool) : Nat → Bool
  | 0 => true
  | 1 => b
  | j + 2 => q.testBit j

theorem fBits_eq (q : Nat) (b : Bool) : fBits q b = (4 * q + 2 * b.toNat + 1).testBit := by
  funext j
  match j with
  | 0 => rw [Nat.testBit_zero]; simp [fBits]; omega
  | 1 =>
    rw [Nat.testBit_succ, Nat.testBit_zero]
    have : (4 * q + 2 * b.toNat + 1) / 2 % 2 = b.toNat := by cases b <;> simp <;> omega
    rw [this]; cases b <;> rfl
  | j + 2 =>
    rw [Nat.testBit_succ, Nat.testBit_succ]
    have : (4 * q + 2 * b.toNat + 1) / 2 / 2 = q := by cases b <;> simp <;> omega
    rw [this]; rfl

theorem bval_fBits (m k q : Nat) (b : Bool) (hq : q < 2 ^ k) (hm : k + 2 ≤ m) :
    bval m (fBits q b) = 4 * q + 2 * b.toNat + 1 := by
  rw [fBits_eq, bval_testBit, Nat.mod_eq_of_lt]
  refine lt_of_lt_of_le ?_ (Nat.pow_le_pow_right (by decide) hm)
  rw [pow_add]
  have := Bool.toNat_le b
  omega

/-- The next digit of the square root. -/
theorem sqrt_digit (T t : Nat) (ht : t < 4) :
    Nat.sqrt (4 * T + t)
      = 2 * Nat.sqrt T + (decide ((2 * Nat.sqrt T + 1) ^ 2 ≤ 4 * T + t)).toNat := by
  set q := Nat.sqrt T with hq
  have h1 : q ^ 2 ≤ T := Nat.sqrt_le' T
  have h2 : T < (q + 1) ^ 2 := Nat.lt_succ_sqrt' T
  by_cases h : (2 * q + 1) ^ 2 ≤ 4 * T + t
  · rw [decide_eq_true h]
    symm
    rw [Nat.eq_sqrt']
    simp only [Bool.toNat_true]
    refine ⟨h, ?_⟩
    nlinarith
  · rw [decide_eq_false h]
    symm
    rw [Nat.eq_sqrt']
    simp only [Bool.toNat_false, add_zero]
    refine ⟨by nlinarith, by omega⟩

/-! ### The registers as bit functions -/

/-- `t` has bits `r`, `f` in `R`, `F`, bit `zv` in `z`, and agrees with `s` elsewhere. -/
structure IV (n : Nat) (R F : Nat → Q) (z : Q) (s : St Q) (r f : Nat → Bool) (zv : Bool)
    (t : St Q) : Prop where
  hr : ∀ i, i < n → t (R i) = r i
  hf : ∀ i, i < n → t (F i) = f i
  hz : t z = zv
  ho : ∀ q, q ≠ z → (∀ i, i < n → q ≠ R i ∧ q ≠ F i) → t q = s q

variable {n : Nat} {R F : Nat → Q} {z : Q} {s t : St Q} {r f : Nat → Bool} {zv : Bool}

theorem IV.congr {r' f' : Nat → Bool} {zv' : Bool} (h : IV n R F z s r f zv t)
    (hr : ∀ i, i < n → r i = r' i) (hf : ∀ i, i < n → f i = f' i) (hz : zv = zv') :
    IV n R F z s r' f' zv' t :=
  ⟨fun i hi => (h.hr i hi).trans (hr i hi), fun i hi => (h.hf i hi).trans (hf i hi), h.hz.trans hz, h.ho⟩

theorem IV.updF (hl : Lay n R F) (hz : ∀ i, i < n → z ≠ R i ∧ z ≠ F i)
    (h : IV n R F z s r f zv t) (k : Nat) (hk : k < n) (v : Bool) :
    IV n R F z s r (fun i => if i = k then v else f i) zv (upd t (F k) v) := by
  refine ⟨fun i hi => ?_, fun i hi => ?_, ?_, fun q hq hq2 => ?_⟩
  · have := hl.ab i k hi hk
    simp [upd, this, h.hr i hi]
  · by_cases e : i = k
    · subst e; simp [upd]
    · have : F i ≠ F k := fun e' => e (hl.b i k hi hk e')
      simp [upd, this, e, h.hf i hi]
  · simp [upd, (hz k hk).2, h.hz]
  · simp [upd, (hq2 k hk).2, h.ho q hq hq2]

theorem IV.updR (hl : Lay n R F) (hz : ∀ i, i < n → z ≠ R i ∧ z ≠ F i)
    (h : IV n R F z s r f zv t) (k : Nat) (hk : k < n) (v : Bool) :
    IV n R F z s (fun i => if i = k then v else r i) f zv (upd t (R k) v) := by
  refine ⟨fun i hi => ?_, fun i hi => ?_, ?_, fun q hq hq2 => ?_⟩
  · by_cases e : i = k
    · subst e; simp [upd]
    · have : R i ≠ R k := fun e' => e (hl.a i k hi hk e')
      simp [upd, this, e, h.hr i hi]
  · have : F i ≠ R k := fun e => hl.ab k i hk hi e.symm
    simp [upd, this, h.hf i hi]
  · simp [upd, (hz k hk).1, h.hz]
  · simp [upd, (hq2 k hk).1, h.ho q hq hq2]

theorem IV.updZ (hz : ∀ i, i < n → z ≠ R i ∧ z ≠ F i)
    (h : IV n R F z s r f zv t) (v : Bool) : IV n R F z s r f v (upd t z v) := by
  refine ⟨fun i hi => ?_, fun i hi => ?_, by simp [upd], fun q hq hq2 => ?_⟩
  · simp [upd, (hz i hi).1.symm, h.hr i hi]
  · simp [upd, (hz i hi).2.symm, h.hf i hi]
  · simp [upd, hq, h.ho q hq hq2]

theorem IV.swapF (hl : Lay n R F) (hz : ∀ i, i < n → z ≠ R i ∧ z ≠ F i)
    (h : IV n R F z s r f zv t) (i j : Nat) (hi : i < n) (hj : j < n) :
    IV n R F z s r (fun l => if l = i then f j else if l = j then f i else f l) zv
      (swapS (F i) (F j) t) := by
  refine ⟨fun l hl' => ?_, fun l hl' => ?_, ?_, fun q hq hq2 => ?_⟩
  · simp [swapS, hl.ab l i hl' hi, hl.ab l j hl' hj, h.hr l hl']
  · by_cases e : l = i
    · subst e; simp [swapS, h.hf j hj]
    · have e1 : F l ≠ F i := fun e' => e (hl.b l i hl' hi e')
      by_cases e2 : l = j
      · subst e2; simp [swapS, e1, e, h.hf i hi]
      · have e3 : F l ≠ F j := fun e' => e2 (hl.b l j hl' hj e')
        simp [swapS, e1, e3, e, e2, h.hf l hl']
  · simp [swapS, (hz i hi).2, (hz j hj).2, h.hz]
  · simp [swapS, (hq2 i hi).2, (hq2 j hj).2, h.ho q hq hq2]

/-- The rotation by swaps (steps 6 and 8). -/
theorem IV.rotate (hl : Lay n R F) (hz : ∀ i, i < n → z ≠ R i ∧ z ≠ F i)
    (h : IV n R F z s r f zv t) (k : Nat) (hk : 1 ≤ k) (hkn : k + 1 < n) :
    IV n R F z s r (fun j => if j = 2 then f (k + 1) else if 3 ≤ j ∧ j ≤ k + 1 then f (j - 1) else f j)
      zv (ford 3 (k + 2) (fun j => swapS (F j) (F (j - 1))) t) := by
  have := ford_inv (P := fun m t => IV n R F z s r (fun j => if j = m - 1 then f (k + 1)
      else if m ≤ j ∧ j ≤ k + 1 then f (j - 1) else f j) zv t) (lo := 3) (hi := k + 2) (by omega)
    (fun j => swapS (F j) (F (j - 1))) t
    (h.congr (fun _ _ => rfl) (fun j hj => by
      by_cases e : j = k + 2 - 1
      · rw [if_pos e]; congr 1
      · rw [if_neg e, if_neg (by omega)]) rfl)
    (by
      intro i t h1 h2 hv
      refine (hv.swapF hl hz i (i - 1) (by omega) (by omega)).congr (fun _ _ => rfl)
        (fun j hj => ?_) rfl
      by_cases e1 : j = i
      · subst e1
        rw [if_pos rfl, if_neg (by omega), if_neg (by omega), if_neg (by omega), if_pos (by omega)]
      · by_cases e2 : j = i - 1
        · rw [if_neg e1, if_pos e2, if_pos (by omega), if_pos e2]
        · rw [if_neg e1, if_neg e2, if_neg (by omega), if_neg e2]
          have : (i + 1 ≤ j ∧ j ≤ k + 1) = (i ≤ j ∧ j ≤ k + 1) := by apply propext; omega
          simp only [this])
  exact this

/-- The final shift of `F` by two positions. -/
theorem IV.shift (hl : Lay n R F) (hz : ∀ i, i < n → z ≠ R i ∧ z ≠ F i)
    (h : IV n R F z s r f zv t) (k : Nat) (hkn : k + 2 ≤ n) (h0 : f 0 = false)
    (h1 : f 1 = false) :
    IV n R F z s r (fun j => if j < k then f (j + 2) else if j < k + 2 then false else f j)
      zv (fori 2 (k + 2) (fun i => swapS (F i) (F (i - 2))) t) := by
  have := fori_inv (P := fun m t => IV n R F z s r (fun j => if j + 2 < m then f (j + 2)
      else if j < m then false else f j) zv t) (lo := 2) (hi := k + 2) (by omega)
    (fun i => swapS (F i) (F (i - 2))) t
    (h.congr (fun _ _ => rfl) (fun j hj => by
      rw [if_neg (by omega)]
      by_cases e : j < 2
      · rw [if_pos e]
        rcases (by omega : j = 0 ∨ j = 1) with e | e <;> subst e <;> assumption
      · rw [if_neg e]) rfl)
    (by
      intro i t h1 h2 hv
      refine (hv.swapF hl hz i (i - 2) (by omega) (by omega)).congr (fun _ _ => rfl)
        (fun j hj => ?_) rfl
      by_cases e1 : j = i
      · subst e1
        rw [if_pos rfl, if_neg (by omega), if_pos (by omega), if_neg (by omega), if_pos (by omega)]
      · by_cases e2 : j = i - 2
        · rw [if_neg e1, if_pos e2, if_neg (by omega), if_neg (by omega), if_pos (by omega)]
          congr 1; omega
        · rw [if_neg e1, if_neg e2]
          have a1 : (j + 2 < i) = (j + 2 < i + 1) := by apply propext; omega
          have a2 : (j < i) = (j < i + 1) := by apply propext; omega
          simp only [a1, a2])
  refine this.congr (fun _ _ => rfl) (fun j hj => ?_) rfl
  have a1 : (j + 2 < k + 2) = (j < k) := by apply propext; omega
  simp only [a1]

/-! ### The rounds -/

/-- Specification quantities: the top `2k` bits of the input, their root, the running remainder. -/
def isqT (h X k : Nat) : Nat := X / 4 ^ (h - k)
def isqQ (h X k : Nat) : Nat := Nat.sqrt (isqT h X k)
def isqP (h X k : Nat) : Int := isqT h X k - (2 * (isqQ h X (k - 1) : Int) + 1) ^ 2
def isqBit (h X k : Nat) : Bool := decide (0 ≤ isqP h X k)

theorem isqT_succ (h X k : Nat) (hk : k < h) :
    isqT h X (k + 1) = 4 * isqT h X k + isqT h X (k + 1) % 4 := by
  unfold isqT
  have e : 4 ^ (h - k) = 4 ^ (h - (k + 1)) * 4 := by rw [← pow_succ]; congr 1; omega
  rw [e, ← Nat.div_div_eq_div_mul]
  omega

theorem isqT_lt (h X k : Nat) (hX : X < 2 ^ (2 * h - 1)) (hk1 : 1 ≤ k) (hk : k ≤ h) :
    isqT h X k < 2 ^ (2 * k - 1) := by
  unfold isqT
  rw [Nat.div_lt_iff_lt_mul (by positivity)]
  refine lt_of_lt_of_le hX ?_
  have : (4 : Nat) = 2 ^ 2 := rfl
  rw [this, ← pow_mul, ← pow_add]
  exact Nat.pow_le_pow_right (by decide) (by omega)

theorem isqQ_lt (h X k : Nat) (hX : X < 2 ^ (2 * h - 1)) (hk : k ≤ h) : isqQ h X k < 2 ^ k := by
  unfold isqQ
  rw [Nat.sqrt_lt']
  rcases Nat.eq_zero_or_pos k with h0 | h0
  · subst h0
    simp only [isqT, Nat.sub_zero, pow_zero, one_pow]
    rw [Nat.div_lt_iff_lt_mul (by positivity), one_mul]
    refine lt_of_lt_of_le hX ?_
    have : (4 : Nat) = 2 ^ 2 := rfl
    rw [this, ← pow_mul]
    exact Nat.pow_le_pow_right (by decide) (by omega)
  · refine lt_of_lt_of_le (isqT_lt h X k hX h0 hk) ?_
    rw [← pow_mul]
    exact Nat.pow_le_pow_right (by decide) (by omega)

/-- Digit recursion of the root. -/
theorem isqQ_succ (h X k : Nat) (hk : k < h) :
    isqQ h X (k + 1) = 2 * isqQ h X k + (isqBit h X (k + 1)).toNat := by
  have e := isqT_succ h X k hk
  have hd : isqBit h X (k + 1)
      = decide ((2 * Nat.sqrt (isqT h X k) + 1) ^ 2 ≤ 4 * isqT h X k + isqT h X (k + 1) % 4) := by
    unfold isqBit
    rw [← e]
    apply decide_eq_decide.2
    unfold isqP isqQ
    simp only [Nat.add_sub_cancel]
    constructor
    · intro h'
      have : ((2 * (Nat.sqrt (isqT h X k) : Int) + 1) ^ 2) ≤ isqT h X (k + 1) := by linarith
      exact_mod_cast this
    · intro h'
      have : ((2 * (Nat.sqrt (isqT h X k) : Int) + 1) ^ 2) ≤ isqT h X (k + 1) := by exact_mod_cast h'
      linarith
  rw [hd]
  have := sqrt_digit (isqT h X k) (isqT h X (k + 1) % 4) (Nat.mod_lt _ (by decide))
  rw [← e] at this
  rw [← e]
  exact this

/-- The remainder recursion (non-restoring). -/
theorem isqP_succ (h X k : Nat) (hk1 : 1 ≤ k) (hk : k < h) :
    isqP h X (k + 1) = 4 * isqP h X k + (isqT h X (k + 1) % 4 : Nat)
      + if isqBit h X k then -(4 * (isqQ h X k : Int) + 1) else 4 * isqQ h X k + 3 := by
  have e := isqT_succ h X k hk
  obtain ⟨j, rfl⟩ : ∃ j, k = j + 1 := ⟨k - 1, by omega⟩
  have e2 := isqQ_succ h X j (by omega)
  have e' : (isqT h X (j + 1 + 1) : Int) = 4 * isqT h X (j + 1) + (isqT h X (j + 1 + 1) % 4 : Nat) := by
    exact_mod_cast e
  unfold isqP
  simp only [Nat.add_sub_cancel]
  have e2' : (isqQ h X (j + 1) : Int) = 2 * isqQ h X j + ((isqBit h X (j + 1)).toNat : Int) := by
    exact_mod_cast e2
  rw [e']
  generalize (isqT h X (j + 1 + 1) % 4 : Nat) = w
  rw [e2']
  cases isqBit h X (j + 1) <;> simp <;> ring

theorem isqP_bounds (h X k : Nat) (hX : X < 2 ^ (2 * h - 1)) (hk1 : 1 ≤ k) (hk : k ≤ h) :
    -(2 ^ (2 * k - 1) : Int) ≤ isqP h X k ∧ isqP h X k < 2 ^ (2 * k - 1) := by
  have h1 := isqT_lt h X k hX hk1 hk
  obtain ⟨j, rfl⟩ : ∃ j, k = j + 1 := ⟨k - 1, by omega⟩
  have h2 := isqQ_lt h X j hX (by omega)
  have h3 : (isqQ h X j) ^ 2 ≤ isqT h X j := Nat.sqrt_le' _
  have h4 := isqT_succ h X j (by omega)
  unfold isqP
  simp only [Nat.add_sub_cancel]
  constructor
  · have h5 : (4 * (isqQ h X j : Int) ^ 2) ≤ isqT h X (j + 1) := by
      have : 4 * (isqQ h X j) ^ 2 ≤ isqT h X (j + 1) := by omega
      exact_mod_cast this
    have h6 : 4 * (isqQ h X j : Int) + 1 ≤ 2 ^ (2 * (j + 1) - 1) := by
      have h7 : 4 * isqQ h X j + 1 ≤ 2 ^ (2 * (j + 1) - 1) := by
        rcases Nat.eq_zero_or_pos j with h0 | h0
        · subst h0; simp at h2 ⊢; omega
        · have h8 : 2 ^ (j + 2) ≤ 2 ^ (2 * (j + 1) - 1) := Nat.pow_le_pow_right (by decide) (by omega)
          have h9 : 2 ^ (j + 2) = 4 * 2 ^ j := by rw [pow_add]; ring
          omega
      exact_mod_cast h7
    nlinarith
  · have h5 : (isqT h X (j + 1) : Int) < 2 ^ (2 * (j + 1) - 1) := by exact_mod_cast h1
    have : (0 : Int) ≤ (2 * (isqQ h X j : Int) + 1) ^ 2 := by positivity
    linarith

/-- State before a digit is extracted: `2k` bits of `R` hold the remainder, `F` the root so far. -/
structure Clean (h X : Nat) (R F : Nat → Q) (z : Q) (s : St Q) (k : Nat) (b zv : Bool)
    (r : Nat → Bool) (t : St Q) : Prop where
  iv : IV (2 * h) R F z s r (fBits (isqQ h X (k - 1)) b) zv t
  low : ∀ j, j < 2 * h - 2 * k → r j = s (R j)
  top : (bval (2 * k) (fun j => r (2 * h - 2 * k + j)) : Int) = isqP h X k % 2 ^ (2 * k)

theorem sign_of (m : Nat) (a : Nat → Bool) (P : Int) (hm : 1 ≤ m)
    (hv : (bval m a : Int) = P % 2 ^ m) (h1 : -(2 ^ (m - 1) : Int) ≤ P) (h2 : P < 2 ^ (m - 1)) :
    a (m - 1) = decide (P < 0) := by
  obtain ⟨j, rfl⟩ : ∃ j, m = j + 1 := ⟨m - 1, by omega⟩
  simp only [Nat.add_sub_cancel] at h1 h2 ⊢
  have hlt := bval_lt j a
  have hlt' : (bval j a : Int) < 2 ^ j := by exact_mod_cast hlt
  have h0 : (0 : Int) ≤ bval j a := by positivity
  rw [bval] at hv
  push_cast at hv
  have hp : (2 : Int) ^ (j + 1) = 2 * 2 ^ j := by rw [pow_succ]; ring
  by_cases hP : P < 0
  · have e : P % 2 ^ (j + 1) = P + 2 ^ (j + 1) := by
      rw [← Int.add_emod_right, Int.emod_eq_of_lt (by rw [hp]; linarith) (by linarith)]
    rw [e, hp] at hv
    rw [decide_eq_true hP]
    cases ha : a j
    · rw [ha] at hv; simp at hv; linarith
    · rfl
  · have e : P % 2 ^ (j + 1) = P := Int.emod_eq_of_lt (by linarith) (by rw [hp]; linarith)
    rw [e] at hv
    rw [decide_eq_false hP]
    cases ha : a j
    · rfl
    · rw [ha] at hv; simp at hv; linarith

/-- The part common to the initial subtraction and the loop rounds. -/
def isqBlock (n : Nat) (R F : Nat → Q) (z : Q) (i : Nat) (s : St Q) : St Q :=
  let s := cxS (R (n - 1)) (F 1) s
  let s := cx0S (R (n - 1)) z s
  let s := cx0S (R (n - 1)) (F (i + 1)) s
  let s := ford 3 (i + 2) (fun j => swapS (F j) (F (j - 1))) s
  isqAddSub (2 * i + 2) z (fun j => R (n - 2 * i - 2 + j)) F s

variable {h X : Nat}

theorem rot_fBits (h X k : Nat) (hX : X < 2 ^ (2 * h - 1)) (hk1 : 1 ≤ k) (hk : k ≤ h) (b : Bool)
    (f : Nat → Bool)
    (hf : ∀ j, j < 2 * h → f j = if j = k + 1 then isqBit h X k else fBits (isqQ h X (k - 1)) b j)
    (j : Nat) (hj : j < 2 * h) (hk2 : k + 1 < 2 * h) :
    (if j = 2 then f (k + 1) else if 3 ≤ j ∧ j ≤ k + 1 then f (j - 1) else f j)
      = fBits (isqQ h X k) b j := by
  obtain ⟨i, rfl⟩ : ∃ i, k = i + 1 := ⟨k - 1, by omega⟩
  simp only [Nat.add_sub_cancel] at hf
  have hq := isqQ_succ h X i (by omega)
  have hlt := isqQ_lt h X i hX (by omega)
  have hlt2 := isqQ_lt h X (i + 1) hX hk
  match j with
  | 0 => rw [if_neg (by omega), if_neg (by omega), hf 0 (by omega), if_neg (by omega)]; rfl
  | 1 => rw [if_neg (by omega), if_neg (by omega), hf 1 (by omega), if_neg (by omega)]; rfl
  | 2 =>
    rw [if_pos rfl, hf _ (by omega), if_pos rfl]
    simp only [fBits]
    rw [hq, Nat.testBit_zero]
    cases isqBit h X (i + 1) <;> simp
  | j + 3 =>
    rw [if_neg (by omega)]
    have e : (isqQ h X (i + 1)).testBit (j + 1) = (isqQ h X i).testBit j := by
      rw [Nat.testBit_succ, hq]
      congr 1
      cases isqBit h X (i + 1) <;> simp <;> omega
    by_cases hc : 3 ≤ j + 3 ∧ j + 3 ≤ i + 1 + 1
    · rw [if_pos hc, show j + 3 - 1 = j + 2 by omega, hf _ (by omega), if_neg (by omega)]
      simp only [fBits]
      exact e.symm
    · rw [if_neg hc, hf _ hj, if_neg (by omega)]
      simp only [fBits]
      rw [testBit_zero_of_lt _ _ _ hlt2 (by omega), testBit_zero_of_lt _ _ _ hlt (by omega)]

theorem top_bit (h X : Nat) (hX : X < 2 ^ (2 * h - 1)) (k : Nat) (hk1 : 1 ≤ k) (hk : k ≤ h)
    {b zv : Bool} {r : Nat → Bool} {t : St Q} (hc : Clean h X R F z s k b zv r t) :
    t (R (2 * h - 1)) = !(isqBit h X k) := by
  obtain ⟨b1, b2⟩ := isqP_bounds h X k hX hk1 hk
  have := sign_of (2 * k) _ _ (by omega) hc.top b1 b2
  rw [hc.iv.hr _ (by omega)]
  rw [show 2 * h - 2 * k + (2 * k - 1) = 2 * h - 1 by omega] at this
  rw [this]
  unfold isqBit
  by_cases hP : isqP h X k < 0
  · rw [decide_eq_true hP, decide_eq_false (by omega)]; rfl
  · rw [decide_eq_false hP, decide_eq_true (by omega)]; rfl

theorem block_spec (hl : Lay (2 * h) R F) (hz : ∀ i, i < 2 * h → z ≠ R i ∧ z ≠ F i)
    (hX : X < 2 ^ (2 * h - 1)) (hXv : bval (2 * h) (fun i => s (R i)) = X)
    (k : Nat) (hk1 : 1 ≤ k) (hk : k < h) {r : Nat → Bool} {t : St Q}
    (hc : Clean h X R F z s k false false r t) :
    ∃ r', Clean h X R F z s (k + 1) (!(isqBit h X k)) (isqBit h X k) r'
      (isqBlock (2 * h) R F z k t) := by
  have hsgn := top_bit h X hX k hk1 hk.le hc
  set q := isqBit h X k with hq
  -- the single qubit gates
  have v1 := hc.iv.updF hl hz 1 (by omega) (t (F 1) ^^ t (R (2 * h - 1)))
  change IV _ _ _ _ _ _ _ _ (cxS (R (2 * h - 1)) (F 1) t) at v1
  set t1 := cxS (R (2 * h - 1)) (F 1) t with ht1
  have hR1 : t1 (R (2 * h - 1)) = !q := by rw [v1.hr _ (by omega), ← hc.iv.hr _ (by omega), hsgn]
  have v2 := v1.updZ hz (t1 z ^^ !(t1 (R (2 * h - 1))))
  change IV _ _ _ _ _ _ _ _ (cx0S (R (2 * h - 1)) z t1) at v2
  set t2 := cx0S (R (2 * h - 1)) z t1 with ht2
  have hR2 : t2 (R (2 * h - 1)) = !q := by rw [v2.hr _ (by omega), ← v1.hr _ (by omega), hR1]
  have v3 := v2.updF hl hz (k + 1) (by omega) (t2 (F (k + 1)) ^^ !(t2 (R (2 * h - 1))))
  change IV _ _ _ _ _ _ _ _ (cx0S (R (2 * h - 1)) (F (k + 1)) t2) at v3
  set t3 := cx0S (R (2 * h - 1)) (F (k + 1)) t2 with ht3
  have hlt := isqQ_lt h X (k - 1) hX (by omega)
  have v3' : IV (2 * h) R F z s r (fun j => if j = k + 1 then q
      else fBits (isqQ h X (k - 1)) (!q) j) q t3 := by
    refine v3.congr (fun _ _ => rfl) (fun j hj => ?_) ?_
    · by_cases e : j = k + 1
      · subst e
        rw [if_pos rfl, if_pos rfl, hR2, v2.hf _ hj, if_neg (by omega)]
        obtain ⟨i, rfl⟩ : ∃ i, k = i + 1 := ⟨k - 1, by omega⟩
        simp only [fBits, Nat.add_sub_cancel] at hlt ⊢
        rw [testBit_zero_of_lt _ _ _ hlt le_rfl]; simp
      · rw [if_neg e, if_neg e]
        by_cases e1 : j = 1
        · subst e1
          rw [if_pos rfl, hc.iv.hf 1 hj, hsgn]; simp [fBits]
        · rw [if_neg e1]
          match j, e1 with
          | 0, _ => rfl
          | j + 2, _ => rfl
    · rw [v1.hz, hR1]; simp
  have v4 := v3'.rotate hl hz k hk1 (by omega)
  set t4 := ford 3 (k + 2) (fun j => swapS (F j) (F (j - 1))) t3 with ht4
  have v4' : IV (2 * h) R F z s r (fBits (isqQ h X k) (!q)) q t4 :=
    v4.congr (fun _ _ => rfl) (fun j hj =>
      rot_fBits h X k hX hk1 hk.le (!q) _ (fun j _ => rfl) j hj (by omega)) rfl
  -- the addition
  set o := 2 * h - 2 * k - 2 with ho
  set m := 2 * k + 2 with hm
  have hom : o + m = 2 * h := by omega
  have hlA : Lay m (fun j => R (o + j)) F :=
    ⟨fun i j hi hj e => by have := hl.a _ _ (by omega) (by omega) e; omega,
      fun i j hi hj e => hl.b i j (by omega) (by omega) e,
      fun i j hi hj => hl.ab _ _ (by omega) (by omega)⟩
  obtain ⟨a1, a2⟩ := isqAddSub_spec hlA z (fun i hi => ⟨(hz _ (by omega)).1, (hz i (by omega)).2⟩) t4
  set t5 := isqAddSub m z (fun j => R (o + j)) F t4 with ht5
  have e5 : isqBlock (2 * h) R F z k t = t5 := rfl
  rw [e5]
  refine ⟨fun i => t5 (R i), ⟨⟨fun i _ => rfl, fun i hi => ?_, ?_, fun p hp hp2 => ?_⟩, ?_, ?_⟩⟩
  · rw [a2 _ (fun j hj e => hl.ab _ _ (by omega) hi e.symm), v4'.hf i hi]; rfl
  · rw [a2 _ (fun j hj => (hz _ (by omega)).1), v4'.hz]
  · rw [a2 _ (fun j hj => (hp2 _ (by omega)).1), v4'.ho p hp hp2]
  · intro j hj
    rw [a2 _ (fun i hi e => by have := hl.a _ _ (by omega) (by omega) e; omega), v4'.hr j (by omega)]
    exact hc.low j (by omega)
  · rw [show 2 * h - 2 * (k + 1) = o by omega, show 2 * (k + 1) = m by omega, a1]
    -- value of the slice before the addition
    have hbits : bval m (fun i => t4 (R (o + i)))
        = isqT h X (k + 1) % 4 + 4 * bval (2 * k) (fun j => r (2 * h - 2 * k + j)) := by
      rw [show m = 2 + 2 * k by omega, bval_shift]
      congr 1
      · have hT : isqT h X (k + 1) = bval m (fun i => s (R (o + i))) := by
          unfold isqT
          rw [← hXv, ← hom, bval_shift]
          have : (4 : Nat) ^ (h - (k + 1)) = 2 ^ o := by
            rw [show (4 : Nat) = 2 ^ 2 from rfl, ← pow_mul]; congr 1; omega
          rw [this, Nat.add_mul_div_left _ _ (by positivity), Nat.div_eq_of_lt (bval_lt _ _), zero_add]
        rw [hT, show m = 2 + 2 * k by omega, bval_shift, show (2 : Nat) ^ 2 = 4 from rfl,
          Nat.add_mul_mod_self_left,
          Nat.mod_eq_of_lt (show _ < 4 from bval_lt 2 _)]
        apply bval_congr
        intro i hi
        rw [v4'.hr _ (by omega), hc.low _ (by omega)]
      · have : bval (2 * k) (fun i => t4 (R (o + (2 + i))))
            = bval (2 * k) (fun j => r (2 * h - 2 * k + j)) := by
          apply bval_congr
          intro i hi
          rw [v4'.hr _ (by omega)]; congr 1; omega
        rw [this]; rfl
    have hF : bval m (fun i => t4 (F i)) = 4 * isqQ h X k + 2 * (!q).toNat + 1 := by
      rw [bval_congr m (fun i hi => v4'.hf i (by omega))]
      exact bval_fBits m k _ _ (isqQ_lt h X k hX hk.le) (by omega)
    rw [hbits, hF, v4'.hz, isqP_succ h X k hk1 hk, ← hq]
    have hmod : ∀ d : Int, ((4 * bval (2 * k) (fun j => r (2 * h - 2 * k + j)) : Int) + d) % 2 ^ m
        = (4 * isqP h X k + d) % 2 ^ m := by
      intro d
      rw [hc.top]
      have hd := Int.emod_add_mul_ediv (isqP h X k) (2 ^ (2 * k))
      have hp : (2 : Int) ^ m = 4 * 2 ^ (2 * k) := by rw [hm, pow_add]; ring
      have : 4 * isqP h X k + d
          = 4 * (isqP h X k % 2 ^ (2 * k)) + d + 2 ^ m * (isqP h X k / 2 ^ (2 * k)) := by
        rw [hp]; linear_combination (-4 : Int) * hd
      rw [this, Int.add_mul_emod_self_left]
    push_cast
    cases q
    · have := hmod ((isqT h X (k + 1) : Int) % 4 + (4 * isqQ h X k + 3))
      simp only [Bool.false_eq_true, if_false, Bool.not_false, Bool.toNat_true, Nat.cast_one]
      rw [show (4 * isqP h X k + (isqT h X (k + 1) : Int) % 4 + (4 * (isqQ h X k : Int) + 3))
        = 4 * isqP h X k + ((isqT h X (k + 1) : Int) % 4 + (4 * isqQ h X k + 3)) by ring, ← this]
      congr 1; ring
    · have := hmod ((isqT h X (k + 1) : Int) % 4 + -(4 * isqQ h X k + 1))
      simp only [if_true, Bool.not_true, Bool.toNat_false, Nat.cast_zero, mul_zero, add_zero]
      rw [show (4 * isqP h X k + (isqT h X (k + 1) : Int) % 4 + -(4 * (isqQ h X k : Int) + 1))
        = 4 * isqP h X k + ((isqT h X (k + 1) : Int) % 4 + -(4 * isqQ h X k + 1)) by ring, ← this]
      congr 1; ring

/-- Steps 1 and 2 of a round clear the second bit of `F` and `z`. -/
theorem clear_spec (hl : Lay (2 * h) R F) (hz : ∀ i, i < 2 * h → z ≠ R i ∧ z ≠ F i)
    (k : Nat) (hk1 : 1 ≤ k) (hk : k < h) {r : Nat → Bool} {t : St Q}
    (hc : Clean h X R F z s (k + 1) (!(isqBit h X k)) (isqBit h X k) r t) :
    Clean h X R F z s (k + 1) false false r (cxS (F 2) z (cx0S z (F 1) t)) := by
  have v1 := hc.iv.updF hl hz 1 (by omega) (t (F 1) ^^ !(t z))
  change IV _ _ _ _ _ _ _ _ (cx0S z (F 1) t) at v1
  set t1 := cx0S z (F 1) t
  have v2 := v1.updZ hz (t1 z ^^ t1 (F 2))
  change IV _ _ _ _ _ _ _ _ (cxS (F 2) z t1) at v2
  refine ⟨v2.congr (fun _ _ => rfl) (fun j hj => ?_) ?_, hc.low, hc.top⟩
  · by_cases e : j = 1
    · subst e
      rw [if_pos rfl, hc.iv.hf 1 hj, hc.iv.hz]; simp [fBits]
    · rw [if_neg e]
      match j, e with
      | 0, _ => rfl
      | j + 2, _ => rfl
  · rw [v1.hz, v1.hf 2 (by omega), if_neg (by omega)]
    obtain ⟨i, rfl⟩ : ∃ i, k = i + 1 := ⟨k - 1, by omega⟩
    simp only [fBits, Nat.add_sub_cancel]
    rw [Nat.testBit_zero, isqQ_succ h X i (by omega)]
    cases isqBit h X (i + 1) <;> simp

theorem isqT_zero (h X : Nat) (hX : X < 2 ^ (2 * h - 1)) : isqT h X 0 = 0 := by
  unfold isqT
  apply Nat.div_eq_of_lt
  rw [Nat.sub_zero, show (4 : Nat) = 2 ^ 2 from rfl, ← pow_mul]
  exact lt_of_lt_of_le hX (Nat.pow_le_pow_right (by decide) (by omega))

theorem isqQ_zero (h X : Nat) (hX : X < 2 ^ (2 * h - 1)) : isqQ h X 0 = 0 := by
  unfold isqQ; rw [isqT_zero h X hX]; rfl

theorem fBits_zero (j : Nat) : fBits 0 false j = decide (j = 0) := by
  match j with
  | 0 => rfl
  | 1 => rfl
  | j + 2 => simp [fBits]

/-- The first two gates of `initial_subtraction`. -/
theorem start_spec (hl : Lay (2 * h) R F) (hz : ∀ i, i < 2 * h → z ≠ R i ∧ z ≠ F i) (hh : 2 ≤ h)
    (hX : X < 2 ^ (2 * h - 1)) (hXv : bval (2 * h) (fun i => s (R i)) = X)
    (hF : ∀ i, i < 2 * h → s (F i) = false) (hzs : s z = false) :
    ∃ r, Clean h X R F z s 1 false false r
      (cxS (R (2 * h - 2)) (R (2 * h - 1)) (xS (R (2 * h - 2)) (xS (F 0) s))) := by
  have v0 : IV (2 * h) R F z s (fun i => s (R i)) (fun _ => false) false s :=
    ⟨fun _ _ => rfl, fun i hi => hF i hi, hzs, fun _ _ _ => rfl⟩
  have v1 := v0.updF hl hz 0 (by omega) (!(s (F 0)))
  change IV _ _ _ _ _ _ _ _ (xS (F 0) s) at v1
  set t1 := xS (F 0) s
  have v2 := v1.updR hl hz (2 * h - 2) (by omega) (!(t1 (R (2 * h - 2))))
  change IV _ _ _ _ _ _ _ _ (xS (R (2 * h - 2)) t1) at v2
  set t2 := xS (R (2 * h - 2)) t1
  have v3 := v2.updR hl hz (2 * h - 1) (by omega) (t2 (R (2 * h - 1)) ^^ t2 (R (2 * h - 2)))
  change IV _ _ _ _ _ _ _ _ (cxS (R (2 * h - 2)) (R (2 * h - 1)) t2) at v3
  have hQ := isqQ_zero h X hX
  refine ⟨_, ⟨v3.congr (fun _ _ => rfl) (fun j hj => ?_) rfl, fun j hj => ?_, ?_⟩⟩
  · rw [show 1 - 1 = 0 from rfl, hQ, fBits_zero]
    by_cases e : j = 0
    · rw [if_pos e, decide_eq_true e, hF 0 (by omega)]; rfl
    · rw [if_neg e, decide_eq_false e]
  · rw [if_neg (by omega), if_neg (by omega)]
  · have hT : isqT h X 1 = bval 2 (fun i => s (R (2 * h - 2 + i))) := by
      unfold isqT
      rw [← hXv, show bval (2 * h) (fun i => s (R i)) = bval (2 * h - 2 + 2) (fun i => s (R i)) by
        congr 1; omega, bval_shift]
      have : (4 : Nat) ^ (h - 1) = 2 ^ (2 * h - 2) := by
        rw [show (4 : Nat) = 2 ^ 2 from rfl, ← pow_mul]; congr 1; omega
      rw [this, Nat.add_mul_div_left _ _ (by positivity), Nat.div_eq_of_lt (bval_lt _ _), zero_add]
    have hlt := isqT_lt h X 1 hX (by omega) (by omega)
    unfold isqP
    rw [show 1 - 1 = 0 from rfl, hQ, hT]
    rw [hT] at hlt
    have e1 : 2 * h - 2 + 1 = 2 * h - 1 := by omega
    have e2 : (2 * h - 1 = 2 * h - 2) = False := by apply propext; simp; omega
    have e3 : (2 * h - 2 = 2 * h - 1) = False := by apply propext; simp; omega
    have g1 : t2 (R (2 * h - 2)) = !(s (R (2 * h - 2))) := by
      rw [v2.hr _ (by omega), if_pos rfl, v1.hr _ (by omega)]
    have g2 : t2 (R (2 * h - 1)) = s (R (2 * h - 1)) := by
      rw [v2.hr _ (by omega), if_neg (by omega)]
    have g0 : t1 (R (2 * h - 2)) = s (R (2 * h - 2)) := v1.hr _ (by omega)
    simp only [bval, Nat.mul_one, g0, g1, g2, e1, e2, e3, Nat.add_zero, if_true, if_false] at hlt ⊢
    generalize s (R (2 * h - 1)) = u at hlt ⊢
    generalize s (R (2 * h - 2)) = w at hlt ⊢
    clear * - hlt
    cases u <;> cases w <;> simp [bval] at hlt ⊢

theorem isqInit_eq (n : Nat) (R F : Nat → Q) (z : Q) (s : St Q) (hn : 4 ≤ n) :
    isqInit n R F z s
      = isqBlock n R F z 1 (cxS (R (n - 2)) (R (n - 1)) (xS (R (n - 2)) s)) := by
  unfold isqInit isqBlock
  simp only [ford_empty (show 1 + 2 ≤ 3 by omega)]
  have : n - 2 * 1 - 2 = n - 4 := by omega
  rw [this]

/-- The loop of `conditional_addition_or_subtraction`. -/
theorem loop_spec (hl : Lay (2 * h) R F) (hz : ∀ i, i < 2 * h → z ≠ R i ∧ z ≠ F i) (hh : 2 ≤ h)
    (hX : X < 2 ^ (2 * h - 1)) (hXv : bval (2 * h) (fun i => s (R i)) = X) (t : St Q)
    (h0 : ∃ r, Clean h X R F z s 2 (!(isqBit h X 1)) (isqBit h X 1) r t) :
    ∃ r, Clean h X R F z s h (!(isqBit h X (h - 1))) (isqBit h X (h - 1)) r
      (fori 2 h (isqStep (2 * h) R F z) t) := by
  refine fori_inv (P := fun m t => ∃ r, Clean h X R F z s m (!(isqBit h X (m - 1)))
    (isqBit h X (m - 1)) r t) hh _ t h0 ?_
  intro i t h1 h2 ⟨r, hc⟩
  obtain ⟨j, rfl⟩ : ∃ j, i = j + 1 := ⟨i - 1, by omega⟩
  have := clear_spec hl hz j (by omega) (by omega) hc
  exact block_spec hl hz hX hXv (j + 1) (by omega) h2 this

/-- `remainder_restoration` leaves the remainder in `R`, the root above the two low bits of `F`. -/
theorem restore_spec (hl : Lay (2 * h) R F) (hz : ∀ i, i < 2 * h → z ≠ R i ∧ z ≠ F i) (hh : 2 ≤ h)
    (hX : X < 2 ^ (2 * h - 1)) (t : St Q) {r : Nat → Bool}
    (hc0 : Clean h X R F z s h (!(isqBit h X (h - 1))) (isqBit h X (h - 1)) r t) :
    ∃ r', IV (2 * h) R F z s r' (fBits (isqQ h X h) false) false (isqRestore (2 * h) R F z t)
      ∧ (bval (2 * h) r' : Int) = X - (isqQ h X h : Int) ^ 2 := by
  obtain ⟨k, rfl⟩ : ∃ k, h = k + 1 := ⟨h - 1, by omega⟩
  set h := k + 1 with hh'
  have hc := clear_spec hl hz k (by omega) (by omega) hc0
  set t0 := cxS (F 2) z (cx0S z (F 1) t) with ht0
  have hsgn := top_bit h X hX h (by omega) le_rfl hc
  set q := isqBit h X h with hq
  have v1 := hc.iv.updZ hz (t0 z ^^ !(t0 (R (2 * h - 1))))
  change IV _ _ _ _ _ _ _ _ (cx0S (R (2 * h - 1)) z t0) at v1
  rw [hc.iv.hz, hsgn, show (false ^^ !!q) = q by simp] at v1
  set t1 := cx0S (R (2 * h - 1)) z t0 with ht1
  have hR1 : t1 (R (2 * h - 1)) = !q := by rw [v1.hr _ (by omega), ← hc.iv.hr _ (by omega), hsgn]
  have v2 := v1.updF hl hz (h + 1) (by omega) (t1 (F (h + 1)) ^^ !(t1 (R (2 * h - 1))))
  change IV _ _ _ _ _ _ _ _ (cx0S (R (2 * h - 1)) (F (h + 1)) t1) at v2
  set t2 := cx0S (R (2 * h - 1)) (F (h + 1)) t1 with ht2
  have hlt := isqQ_lt h X k hX (by omega)
  have v2' : IV (2 * h) R F z s r (fun j => if j = h + 1 then q
      else fBits (isqQ h X (h - 1)) false j) q t2 := by
    refine v2.congr (fun _ _ => rfl) (fun j hj => ?_) rfl
    by_cases e : j = h + 1
    · subst e
      rw [if_pos rfl, if_pos rfl, hR1, v1.hf _ hj]
      change ((isqQ h X k).testBit k ^^ !!q) = q
      rw [testBit_zero_of_lt _ _ _ hlt le_rfl]; simp
    · rw [if_neg e, if_neg e]
  have v3 := v2'.updZ hz (!(t2 z))
  change IV _ _ _ _ _ _ _ _ (xS z t2) at v3
  rw [v2'.hz] at v3
  set t3 := xS z t2 with ht3
  obtain ⟨a1, a2⟩ := isqCtlAdd_spec hl.swap (by omega) z (fun i hi => ⟨(hz i hi).2, (hz i hi).1⟩) t3
  set t4 := isqCtlAdd (2 * h) z R F t3 with ht4
  have v4 : IV (2 * h) R F z s (fun i => t4 (R i)) (fun j => if j = h + 1 then q
      else fBits (isqQ h X (h - 1)) false j) (!q) t4 := by
    refine ⟨fun i _ => rfl, fun i hi => ?_, ?_, fun p hp hp2 => ?_⟩
    · rw [a2 _ (fun j hj e => hl.ab _ _ hj hi e.symm), v3.hf i hi]
    · rw [a2 _ (fun j hj => (hz _ hj).1), v3.hz]
    · rw [a2 _ (fun j hj => (hp2 _ hj).1), v3.ho p hp hp2]
  have v5 := v4.updZ hz (!(t4 z))
  change IV _ _ _ _ _ _ _ _ (xS z t4) at v5
  rw [v4.hz, Bool.not_not] at v5
  have v6 := v5.rotate hl hz h (by omega) (by omega)
  set t6 := ford 3 (h + 2) (fun j => swapS (F j) (F (j - 1))) (xS z t4) with ht6
  have v6' : IV (2 * h) R F z s (fun i => t4 (R i)) (fBits (isqQ h X h) false) q t6 :=
    v6.congr (fun _ _ => rfl) (fun j hj =>
      rot_fBits h X h hX (by omega) le_rfl false _ (fun j _ => rfl) j hj (by omega)) rfl
  have v7 := v6'.updZ hz (t6 z ^^ t6 (F 2))
  change IV _ _ _ _ _ _ _ _ (cxS (F 2) z t6) at v7
  have e7 : isqRestore (2 * h) R F z t = cxS (F 2) z t6 := by
    unfold isqRestore
    simp only [show 2 * h / 2 = h by omega]
    rfl
  rw [e7]
  have hQ := isqQ_succ h X k (by omega)
  rw [← hh', ← hq] at hQ
  refine ⟨fun i => t4 (R i), v7.congr (fun _ _ => rfl) (fun _ _ => rfl) ?_, ?_⟩
  · rw [v6'.hz, v6'.hf 2 (by omega)]
    simp only [fBits]
    rw [Nat.testBit_zero, hQ]
    cases q <;> simp
  · have hF : bval (2 * h) (fun i => t3 (F i))
        = 4 * isqQ h X k + 1 + 2 ^ (h + 1) * q.toNat := by
      have e : ∀ i, i < 2 * h → t3 (F i) = (if i = h + 1 then q else fBits (isqQ h X k) false i) :=
        fun i hi => v3.hf i hi
      rw [bval_congr _ e]
      rw [show (2 * h) = (h + 1) + (1 + (h - 2)) by omega, bval_shift, bval_shift 1]
      have c1 : bval (h + 1) (fun i => if i = h + 1 then q else fBits (isqQ h X k) false i)
          = 4 * isqQ h X k + 1 := by
        rw [bval_congr (h + 1) (b := fBits (isqQ h X k) false) (fun i hi => if_neg (by omega)),
          bval_fBits (h + 1) k _ _ (isqQ_lt h X k hX (by omega)) (by omega)]
        simp
      have c2 : bval (h - 2) (fun i => if h + 1 + (1 + i) = h + 1 then q
          else fBits (isqQ h X k) false (h + 1 + (1 + i))) = 0 := by
        rw [bval_congr (h - 2) (b := fun _ => false) (fun i hi => by
          rw [if_neg (by omega), show h + 1 + (1 + i) = (h + i) + 2 by omega]
          exact testBit_zero_of_lt _ _ _ (isqQ_lt h X k hX (by omega)) (by omega))]
        clear * -
        induction h - 2 with
        | zero => rfl
        | succ n ih => simp [bval, ih]
      rw [c1, c2]
      simp [bval]
    have hR : bval (2 * h) (fun i => t3 (R i)) = bval (2 * h) r :=
      bval_congr _ (fun i hi => v3.hr i hi)
    have hRv : (bval (2 * h) r : Int) = isqP h X h % 2 ^ (2 * h) := by
      have := hc.top
      rw [← this]
      congr 2
      funext j
      congr 1; omega
    rw [hR, hF, v3.hz] at a1
    rw [a1]
    have hT : isqT h X h = X := by unfold isqT; simp
    have hs1 : isqQ h X h ^ 2 ≤ X := by
      have := Nat.sqrt_le' (isqT h X h); rw [hT] at this; unfold isqQ; rw [hT]; exact this
    have hXlt : X < 2 ^ (2 * h) := lt_of_lt_of_le hX (Nat.pow_le_pow_right (by decide) (by omega))
    have hP : isqP h X h = X - (2 * (isqQ h X k : Int) + 1) ^ 2 := by
      unfold isqP; rw [hT]; rfl
    cases hqv : q
    · simp only [Bool.not_false, Bool.toNat_false, mul_zero, add_zero, if_true]
      push_cast
      rw [hRv, Int.emod_add_emod, hP]
      rw [hqv] at hQ
      simp only [Bool.toNat_false, add_zero] at hQ
      have : ((X : Int) - (2 * (isqQ h X k : Int) + 1) ^ 2 + (4 * (isqQ h X k : Int) + 1))
          = X - (isqQ h X h : Int) ^ 2 := by rw [hQ]; push_cast; ring
      rw [this]
      apply Int.emod_eq_of_lt
      · have : ((isqQ h X h ^ 2 : Nat) : Int) ≤ X := by exact_mod_cast hs1
        push_cast at this; linarith
      · have : (X : Int) < 2 ^ (2 * h) := by exact_mod_cast hXlt
        have : (0 : Int) ≤ (isqQ h X h : Int) ^ 2 := by positivity
        linarith
    · simp only [Bool.not_true, Bool.false_eq_true, if_false, add_zero]
      push_cast
      rw [hRv, Int.emod_emod, hP]
      rw [hqv] at hQ
      simp only [Bool.toNat_true] at hQ
      have : ((X : Int) - (2 * (isqQ h X k : Int) + 1) ^ 2)
          = X - (isqQ h X h : Int) ^ 2 := by rw [hQ]; push_cast; ring
      rw [this]
      apply Int.emod_eq_of_lt
      · have : ((isqQ h X h ^ 2 : Nat) : Int) ≤ X := by exact_mod_cast hs1
        push_cast at this; linarith
      · have : (X : Int) < 2 ^ (2 * h) := by exact_mod_cast hXlt
        have : (0 : Int) ≤ (isqQ h X h : Int) ^ 2 := by positivity
        linarith

/-- The square root circuit on an extended register of `2h` qubits. -/
theorem isqMain_spec (hl : Lay (2 * h) R F) (hz : ∀ i, i < 2 * h → z ≠ R i ∧ z ≠ F i) (hh : 2 ≤ h)
    (hX : X < 2 ^ (2 * h - 1)) (hXv : bval (2 * h) (fun i => s (R i)) = X)
    (hF : ∀ i, i < 2 * h → s (F i) = false) (hzs : s z = false) :
    ∃ r', IV (2 * h) R F z s r' (Nat.sqrt X).testBit false (isqMain (2 * h) R F z s)
      ∧ bval (2 * h) r' = X - Nat.sqrt X ^ 2 := by
  obtain ⟨r0, h0⟩ := start_spec hl hz hh hX hXv hF hzs
  have h1 := block_spec hl hz hX hXv 1 le_rfl (by omega) h0
  rw [← isqInit_eq _ _ _ _ _ (by omega)] at h1
  obtain ⟨r2, h2⟩ := loop_spec hl hz hh hX hXv _ h1
  obtain ⟨r3, v3, hv⟩ := restore_spec hl hz hh hX _ h2
  set t3 := isqRestore (2 * h) R F z (fori 2 h (isqStep (2 * h) R F z)
    (isqInit (2 * h) R F z (xS (F 0) s))) with ht3
  have v4 := v3.updF hl hz 0 (by omega) (!(t3 (F 0)))
  change IV _ _ _ _ _ _ _ _ (xS (F 0) t3) at v4
  have v5 := v4.shift hl hz h (by omega) (by
    rw [if_pos rfl, v3.hf 0 (by omega)]; rfl) (by rw [if_neg (by omega)]; rfl)
  have e : isqMain (2 * h) R F z s = fori 2 (h + 2) (fun i => swapS (F i) (F (i - 2))) (xS (F 0) t3) := by
    unfold isqMain
    simp only [show 2 * h / 2 = h by omega]
    rfl
  have hT : isqQ h X h = Nat.sqrt X := by unfold isqQ isqT; simp
  have hlt := isqQ_lt h X h hX le_rfl
  rw [hT] at hlt hv v5
  rw [e]
  refine ⟨r3, v5.congr (fun _ _ => rfl) (fun j hj => ?_) rfl, ?_⟩
  · by_cases c1 : j < h
    · rw [if_pos c1, if_neg (by omega)]; rfl
    · rw [if_neg c1, testBit_zero_of_lt _ _ _ hlt (by omega)]
      by_cases c2 : j < h + 2
      · rw [if_pos c2]
      · rw [if_neg c2, if_neg (by omega)]
        obtain ⟨i, rfl⟩ : ∃ i, j = i + 2 := ⟨j - 2, by omega⟩
        exact testBit_zero_of_lt _ _ _ hlt (by omega)
  · have := Nat.sqrt_le' X
    zify [this]
    exact hv

/-- `q_isqrt` for every register size. -/
theorem qIsqrt_spec (size : Nat) (hs : 1 ≤ size) (hl : Lay (isqExt size) R F)
    (hz : ∀ i, i < isqExt size → z ≠ R i ∧ z ≠ F i)
    (hF : ∀ i, i < isqExt size → s (F i) = false) (hzs : s z = false)
    (hext : ∀ i, size ≤ i → i < isqExt size → s (R i) = false)
    (hXv : bval size (fun i => s (R i)) = X) :
    ∃ r', IV (isqExt size) R F z s r' (Nat.sqrt X).testBit false (qIsqrt size R F z s)
      ∧ bval (isqExt size) r' = X - Nat.sqrt X ^ 2 := by
  have hle : size < isqExt size := by unfold isqExt; split <;> omega
  have hXlt : X < 2 ^ size := by rw [← hXv]; exact bval_lt _ _
  by_cases h1 : size = 1
  · subst h1
    have e2 : isqExt 1 = 2 := rfl
    rw [e2] at hl hz hF hext ⊢
    have v0 : IV 2 R F z s (fun i => s (R i)) (fun _ => false) false s :=
      ⟨fun _ _ => rfl, fun i hi => hF i hi, hzs, fun _ _ _ => rfl⟩
    have v1 := v0.updF hl hz 0 (by omega) (s (F 0) ^^ s (R 0))
    change IV _ _ _ _ _ _ _ _ (cxS (R 0) (F 0) s) at v1
    set t1 := cxS (R 0) (F 0) s
    have v2 := v1.updR hl hz 0 (by omega) (t1 (R 0) ^^ t1 (F 0))
    change IV _ _ _ _ _ _ _ _ (cxS (F 0) (R 0) t1) at v2
    have e : qIsqrt 1 R F z s = cxS (F 0) (R 0) t1 := rfl
    rw [e]
    have g1 : t1 (R 0) = s (R 0) := v1.hr 0 (by omega)
    have g2 : t1 (F 0) = s (R 0) := by rw [v1.hf 0 (by omega), if_pos rfl, hF 0 (by omega)]; simp
    have g3 : s (R 1) = false := hext 1 le_rfl (by omega)
    have g4 : X = (s (R 0)).toNat := by rw [← hXv]; simp [bval]
    have g5 : Nat.sqrt X = X := by rw [g4]; cases s (R 0) <;> rfl
    have g6 : X.testBit 0 = s (R 0) := by rw [g4]; cases s (R 0) <;> rfl
    refine ⟨_, v2.congr (fun _ _ => rfl) (fun j hj => ?_) rfl, ?_⟩
    · rw [g5]
      rcases (by omega : j = 0 ∨ j = 1) with e | e
      · subst e; rw [if_pos rfl, g6, hF 0 (by omega)]; simp
      · subst e; rw [if_neg (by omega), testBit_zero_of_lt X 1 1 hXlt le_rfl]
    · rw [g5]
      simp only [bval, g1, g2, g3]
      rw [g4]
      cases s (R 0) <;> rfl
  · obtain ⟨h, hh⟩ : ∃ h, isqExt size = 2 * h := by
      unfold isqExt
      split
      · exact ⟨(size + 1) / 2, by omega⟩
      · exact ⟨(size + 2) / 2, by omega⟩
    have e : qIsqrt size R F z s = isqMain (isqExt size) R F z s := by
      unfold qIsqrt; rw [if_neg h1]
    rw [e]
    rw [hh] at hl hz hF hext hle ⊢
    refine isqMain_spec hl hz (by omega) ?_ ?_ hF hzs
    · exact lt_of_lt_of_le hXlt (Nat.pow_le_pow_right (by decide) (by omega))
    · rw [show 2 * h = size + (2 * h - size) by omega, bval_shift, hXv,
        bval_congr (2 * h - size) (b := fun _ => false) (fun i hi => hext _ (by omega) (by omega))]
      have : ∀ m, bval m (fun _ => false) = 0 := by
        intro m; induction m with
        | zero => rfl
        | succ n ih => simp [bval, ih]
      rw [this, mul_zero, add_zero]

end Verif.Rev
