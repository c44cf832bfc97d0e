import Verif.Limb.Arith
import Mathlib.Data.Nat.Size

/-!
Model of the bit-level part of `BigInteger` (jasp_bigintiger.py): powers, bit access, shifts,
bitwise operators, bit length, leading zeros, and division by one limb.
-/
namespace Verif.Limb

/-- jasp_bigintiger.py:390-433 `__pow__`: square and multiply over a `uint64` exponent
(`fuel` 64 covers every uint64 exponent). -/
def pow (a : Digits) (e : Nat) : Digits :=
  (whileLoop 64 (fun st : Digits × Nat × Digits => decide (st.2.1 > 0))
    (fun st =>
      let acc := if st.2.1 % 2 = 1 then mul st.2.2 st.1 else st.2.2
      (mul st.1 st.1, st.2.1 / 2, acc)) (a, u64 e, create 1 a.length)).2.2

/-- jasp_bigintiger.py:845-862 `get_bit`. -/
def getBit (a : Digits) (i : Nat) : Nat := (dg a (i / 32) >>> (i % 32)) &&& 1

/-- jasp_bigintiger.py:864-883 `flip_bit`. -/
def flipBit (a : Digits) (i : Nat) : Digits :=
  a.set (i / 32) (u32 (dg a (i / 32) ^^^ (1 <<< (i % 32))))

/-- jasp_bigintiger.py:624-660 `__lshift__`. -/
def shl (a : Digits) (shift : Nat) : Digits :=
  let total := a.length * 32
  let zeros := List.replicate a.length 0
  if shift ≥ total then zeros
  else fori 0 (total - shift) (fun i x => if getBit a i ≠ 0 then flipBit x (i + shift) else x) zeros

/-- jasp_bigintiger.py:662-698 `__rshift__`. -/
def shr (a : Digits) (shift : Nat) : Digits :=
  let total := a.length * 32
  let zeros := List.replicate a.length 0
  if shift ≥ total then zeros
  else fori shift total (fun i x => if getBit a i ≠ 0 then flipBit x (i - shift) else x) zeros

/-- jasp_bigintiger.py:700-720 `__and__`. -/
def and (a b : Digits) : Digits := List.zipWith (· &&& ·) a b
/-- jasp_bigintiger.py:722-742 `__or__`. -/
def or (a b : Digits) : Digits := List.zipWith (· ||| ·) a b
/-- jasp_bigintiger.py:744-764 `__xor__`. -/
def xor (a b : Digits) : Digits := List.zipWith (· ^^^ ·) a b
/-- jasp_bigintiger.py:766-776 `__invert__` on uint32. -/
def inv (a : Digits) : Digits := a.map (fun d => BASE - 1 - d)
/-- jasp_bigintiger.py:324-342 `__sub_alt__`. -/
def subAlt (a b : Digits) : Digits := inv (add (inv a) b)

/-- jasp_bigintiger.py:903-909 and 1008-1014: scan for the most significant non-zero limb, shared by
`bit_size` and `_ms_length`. -/
def msScan (a : Digits) : Nat :=
  whileLoop a.length (fun i => decide (i > 0) && decide (dg a i = 0)) (fun i => i - 1) (a.length - 1)

/-- jasp_bigintiger.py:988-1017 `_ms_length`. -/
def msLength (a : Digits) : Nat :=
  if a.all (fun d => decide (d = 0)) then 0 else msScan a + 1

/-- jasp_bigintiger.py:885-915 `bit_size`. `floor(log2(float64(limb)))` is modelled by the exact
`Nat.log2`. -/
def bitSize (a : Digits) : Nat :=
  if a.all (fun d => decide (d = 0)) then 0
  else 32 * msScan a + (Nat.log2 (dg a (msScan a)) + 1)

/-- jasp_bigintiger.py:959-985 `_clz32`. -/
def clz32 (x : Nat) : Nat :=
  (whileLoop 32 (fun st : Nat × Nat => decide (st.2 < 32) && decide (st.1 &&& 0x80000000 = 0))
    (fun st => (u32 (st.1 <<< 1), st.2 + 1)) (x, 0)).2

/-- jasp_bigintiger.py:1109-1142 `_divmod_single_limb`. -/
def divmodSingle (u : Digits) (d : Nat) : Digits × Nat :=
  let r := fori 0 u.length (fun i (st : Digits × Nat) =>
    let idx := u.length - 1 - i
    let cur := u64 (u64 (st.2 * BASE) + dg u idx)
    (st.1.set idx (u32 (cur / d)), cur % d)) (List.replicate u.length 0, 0)
  (r.1, u32 r.2)

/-! ### lemmas -/

theorem testBit_val (a : Digits) (ha : WF a) (i : Nat) :
    (val a).testBit i = (dg a (i / 32)).testBit (i % 32) := by
  induction a generalizing i with
  | nil => simp [val, dg]
  | cons d ds ih =>
    have hd : d < 2 ^ 32 := ha d (by simp)
    have e : val (d :: ds) = 2 ^ 32 * val ds + d := by simp [val, BASE]; ring
    rw [e, Nat.testBit_two_pow_mul_add _ hd]
    split
    · next h =>
      have h1 : i / 32 = 0 := by omega
      have h2 : i % 32 = i := by omega
      rw [h1, h2]; simp [dg]
    · next h =>
      rw [ih (fun x hx => ha x (by simp [hx]))]
      have h1 : i / 32 = (i - 32) / 32 + 1 := by omega
      have h2 : i % 32 = (i - 32) % 32 := by omega
      rw [h1, h2]; simp [dg]

theorem getBit_spec (a : Digits) (ha : WF a) (i : Nat) : getBit a i = ((val a).testBit i).toNat := by
  rw [testBit_val a ha]
  unfold getBit
  rw [Nat.and_one_is_mod, Nat.shiftRight_eq_div_pow, ← Nat.toNat_testBit]

theorem getBit_ne_zero (a : Digits) (ha : WF a) (i : Nat) :
    getBit a i ≠ 0 ↔ (val a).testBit i = true := by
  rw [getBit_spec a ha]
  cases (val a).testBit i <;> simp

theorem flip_word_lt {x i : Nat} (hx : x < BASE) (hi : i < 32) : x ^^^ (1 <<< i) < BASE := by
  have : 1 <<< i < 2 ^ 32 := by rw [Nat.one_shiftLeft]; exact Nat.pow_lt_pow_right (by norm_num) hi
  exact Nat.xor_lt_two_pow hx this

theorem flipBit_spec (a : Digits) (ha : WF a) (i : Nat) (hi : i < 32 * a.length) :
    (flipBit a i).length = a.length ∧ WF (flipBit a i) ∧
      ∀ j, (val (flipBit a i)).testBit j = if j = i then !(val a).testBit j else (val a).testBit j := by
  have hw := flip_word_lt (dg_lt ha (i / 32)) (Nat.mod_lt i (by norm_num : 0 < 32))
  have hpos : i / 32 < a.length := by omega
  have hwf : WF (flipBit a i) := WF_set ha _ (Nat.mod_lt _ BASE_pos)
  refine ⟨by simp [flipBit], hwf, ?_⟩
  intro j
  rw [testBit_val _ hwf, testBit_val _ ha]
  unfold flipBit
  rw [dg_set _ _ _ _ hpos, u32, Nat.mod_eq_of_lt hw]
  by_cases hj : i / 32 = j / 32
  · rw [if_pos hj, Nat.testBit_xor, Nat.one_shiftLeft, Nat.testBit_two_pow, hj]
    by_cases hij : j = i
    · subst hij; simp
    · have : i % 32 ≠ j % 32 := by omega
      simp [hij, this]
  · rw [if_neg hj]
    have : j ≠ i := by rintro rfl; exact hj rfl
    rw [if_neg this]

theorem testBit_val_ge (a : Digits) (ha : WF a) {j : Nat} (hj : 32 * a.length ≤ j) :
    (val a).testBit j = false := by
  apply Nat.testBit_lt_two_pow
  calc val a < BASE ^ a.length := val_lt ha
    _ = 2 ^ (32 * a.length) := by rw [BASE, ← pow_mul]
    _ ≤ 2 ^ j := Nat.pow_le_pow_right (by norm_num) hj

theorem BASE_pow (n : Nat) : BASE ^ n = 2 ^ (32 * n) := by rw [BASE, ← pow_mul]

theorem shl_spec (a : Digits) (ha : WF a) (k : Nat) :
    (shl a k).length = a.length ∧ WF (shl a k) ∧ val (shl a k) = val a * 2 ^ k % BASE ^ a.length := by
  unfold shl
  simp only
  split
  · next h =>
    refine ⟨by simp, WF_replicate _, ?_⟩
    rw [val_replicate_zero, BASE_pow]
    symm; apply Nat.mod_eq_zero_of_dvd
    exact Dvd.dvd.mul_left (pow_dvd_pow _ (by omega)) _
  · next h =>
    have := fori_inv (fun i (x : Digits) => x.length = a.length ∧ WF x ∧
        ∀ j, (val x).testBit j = (decide (k ≤ j) && decide (j < i + k) && (val a).testBit (j - k)))
      (Nat.zero_le (a.length * 32 - k))
      (fun i x => if getBit a i ≠ 0 then flipBit x (i + k) else x) (List.replicate a.length 0)
      ⟨by simp, WF_replicate _, by
        intro j; rw [val_replicate_zero]; simp⟩
      (by
        rintro i x _ hi ⟨h1, h2, h3⟩
        split
        · next hb =>
          rw [getBit_ne_zero a ha] at hb
          obtain ⟨f1, f2, f3⟩ := flipBit_spec x h2 (i + k) (by omega)
          refine ⟨by rw [f1, h1], f2, ?_⟩
          intro j
          rw [f3, h3]
          split
          · next hj => subst hj; simp [hb]
          · next hj =>
            by_cases h4 : k ≤ j <;> simp [h4]
            have : (j < i + k) ↔ (j < i + 1 + k) := by omega
            simp [this]
        · next hb =>
          rw [getBit_ne_zero a ha] at hb
          refine ⟨h1, h2, ?_⟩
          intro j
          rw [h3]
          by_cases hj : j = i + k
          · subst hj; simp [hb]
          · by_cases h4 : k ≤ j <;> simp [h4]
            have : (j < i + k) ↔ (j < i + 1 + k) := by omega
            simp [this])
    obtain ⟨h1, h2, h3⟩ := this
    refine ⟨h1, h2, ?_⟩
    apply Nat.eq_of_testBit_eq
    intro j
    rw [h3, BASE_pow, Nat.testBit_mod_two_pow, Nat.testBit_mul_two_pow]
    have e : (j < a.length * 32 - k + k) ↔ (j < 32 * a.length) := by omega
    simp only [e]
    cases decide (k ≤ j) <;> cases decide (j < 32 * a.length) <;> simp

theorem shr_spec (a : Digits) (ha : WF a) (k : Nat) :
    (shr a k).length = a.length ∧ WF (shr a k) ∧ val (shr a k) = val a / 2 ^ k := by
  unfold shr
  simp only
  split
  · next h =>
    refine ⟨by simp, WF_replicate _, ?_⟩
    rw [val_replicate_zero]
    symm; apply Nat.div_eq_of_lt
    calc val a < BASE ^ a.length := val_lt ha
      _ = 2 ^ (32 * a.length) := BASE_pow _
      _ ≤ 2 ^ k := Nat.pow_le_pow_right (by norm_num) (by omega)
  · next h =>
    have := fori_inv (fun i (x : Digits) => x.length = a.length ∧ WF x ∧
        ∀ j, (val x).testBit j = (decide (j + k < i) && (val a).testBit (j + k)))
      (show k ≤ a.length * 32 by omega)
      (fun i x => if getBit a i ≠ 0 then flipBit x (i - k) else x) (List.replicate a.length 0)
      ⟨by simp, WF_replicate _, by intro j; rw [val_replicate_zero]; simp⟩
      (by
        rintro i x hk hi ⟨h1, h2, h3⟩
        split
        · next hb =>
          rw [getBit_ne_zero a ha] at hb
          obtain ⟨f1, f2, f3⟩ := flipBit_spec x h2 (i - k) (by omega)
          refine ⟨by rw [f1, h1], f2, ?_⟩
          intro j
          rw [f3, h3]
          split
          · next hj => subst hj; simp [hk, hb]
          · next hj =>
            have : (j + k < i) ↔ (j + k < i + 1) := by omega
            simp [this]
        · next hb =>
          rw [getBit_ne_zero a ha] at hb
          refine ⟨h1, h2, ?_⟩
          intro j
          rw [h3]
          by_cases hj : j + k = i
          · rw [hj]; simp [hb]
          · have : (j + k < i) ↔ (j + k < i + 1) := by omega
            simp [this])
    obtain ⟨h1, h2, h3⟩ := this
    refine ⟨h1, h2, ?_⟩
    apply Nat.eq_of_testBit_eq
    intro j
    rw [h3, Nat.testBit_div_two_pow]
    by_cases hj : j + k < a.length * 32
    · simp [hj]
    · rw [testBit_val_ge a ha (show 32 * a.length ≤ j + k by omega)]; simp

theorem pow_fuel (n : Nat) : ∀ (f : Nat) (b acc : Digits) (e : Nat), e < 2 ^ f → WF b → WF acc →
    b.length = n → acc.length = n →
    let r := whileLoop f (fun st : Digits × Nat × Digits => decide (st.2.1 > 0))
      (fun st =>
        let acc := if st.2.1 % 2 = 1 then mul st.2.2 st.1 else st.2.2
        (mul st.1 st.1, st.2.1 / 2, acc)) (b, e, acc)
    r.2.1 = 0 ∧ r.2.2.length = n ∧ WF r.2.2 ∧ val r.2.2 = val acc * val b ^ e % BASE ^ n := by
  intro f
  induction f with
  | zero =>
    intro b acc e he hb hacc hbl hal
    have : e = 0 := by simpa using he
    subst this
    refine ⟨rfl, hal, hacc, ?_⟩
    simp only [whileLoop, pow_zero, mul_one]
    exact (Nat.mod_eq_of_lt (hal ▸ val_lt hacc)).symm
  | succ f ih =>
    intro b acc e he hb hacc hbl hal
    simp only [whileLoop]
    split
    · next hpos =>
      obtain ⟨m1, m2, m3⟩ := mul_core b b hb hb rfl
      obtain ⟨k1, k2, k3⟩ := mul_core acc b hacc hb (by omega)
      have he2 : e / 2 < 2 ^ f := by rw [pow_succ] at he; omega
      have hacc' : WF (if e % 2 = 1 then mul acc b else acc) := by split <;> assumption
      have hal' : (if e % 2 = 1 then mul acc b else acc).length = n := by
        split
        · rw [k1, hal]
        · exact hal
      obtain ⟨r1, r2, r3, r4⟩ := ih (mul b b) (if e % 2 = 1 then mul acc b else acc) (e / 2) he2 m2
        hacc' (by rw [m1, hbl]) hal'
      refine ⟨r1, r2, r3, ?_⟩
      rw [r4, m3, hbl]
      have hv : val (if e % 2 = 1 then mul acc b else acc) ≡ val acc * val b ^ (e % 2) [MOD BASE ^ n] := by
        split
        · next h => rw [h, pow_one, k3, hal]; exact Nat.mod_modEq _ _
        · next h =>
          have : e % 2 = 0 := by omega
          rw [this, pow_zero, mul_one]
      have hp : (val b * val b % BASE ^ n) ^ (e / 2) ≡ val b ^ (2 * (e / 2)) [MOD BASE ^ n] := by
        rw [pow_mul, sq]
        exact (Nat.mod_modEq _ _).pow _
      have := hv.mul hp
      rw [mul_assoc, ← pow_add, Nat.mod_add_div] at this
      exact this
    · next hpos =>
      have : e = 0 := by simpa using hpos
      subst this
      refine ⟨rfl, hal, hacc, ?_⟩
      simp only [pow_zero, mul_one]
      exact (Nat.mod_eq_of_lt (hal ▸ val_lt hacc)).symm

theorem pow_core (a : Digits) (ha : WF a) (e : Nat) (he : e < 2 ^ 64) :
    (pow a e).length = a.length ∧ WF (pow a e) ∧ val (pow a e) = val a ^ e % BASE ^ a.length := by
  unfold pow
  obtain ⟨c1, c2, c3⟩ := create_spec 1 a.length
  have e1 : u64 e = e := Nat.mod_eq_of_lt (by simp only [BASE]; norm_num at he ⊢; exact he)
  obtain ⟨_, r2, r3, r4⟩ := pow_fuel a.length 64 a (create 1 a.length) (u64 e) (by rw [e1]; exact he) ha c2 rfl c1
  refine ⟨r2, r3, ?_⟩
  rw [r4, c3, e1]
  conv_rhs => rw [← one_mul (val a ^ e)]
  exact (Nat.mod_modEq _ _).mul_right _

/-! ### bitwise operators -/

theorem dg_zipWith (f : Nat → Nat → Nat) (a b : Digits) (hl : a.length = b.length) (i : Nat)
    (hf : f 0 0 = 0) : dg (List.zipWith f a b) i = f (dg a i) (dg b i) := by
  unfold dg
  simp only [List.getD_eq_getElem?_getD, List.getElem?_zipWith]
  rcases lt_or_ge i a.length with h | h
  · rw [List.getElem?_eq_getElem h, List.getElem?_eq_getElem (hl ▸ h)]; rfl
  · rw [List.getElem?_eq_none h, List.getElem?_eq_none (hl ▸ h)]; simp [hf]

theorem WF_zipWith (f : Nat → Nat → Nat) (a b : Digits) (ha : WF a) (hb : WF b)
    (hf : ∀ x y, x < BASE → y < BASE → f x y < BASE) : WF (List.zipWith f a b) := by
  induction a generalizing b with
  | nil => intro d hd; simp at hd
  | cons x xs ih =>
    cases b with
    | nil => intro d hd; simp at hd
    | cons y ys =>
      intro d hd
      simp only [List.zipWith_cons_cons, List.mem_cons] at hd
      rcases hd with rfl | hd
      · exact hf _ _ (ha _ (by simp)) (hb _ (by simp))
      · exact ih ys (fun z hz => ha z (by simp [hz])) (fun z hz => hb z (by simp [hz])) d hd

theorem and_spec (a b : Digits) (ha : WF a) (hb : WF b) (hl : a.length = b.length) :
    (and a b).length = a.length ∧ WF (and a b) ∧ val (and a b) = val a &&& val b := by
  have hwf : WF (and a b) := WF_zipWith _ a b ha hb
    (fun x y hx _ => lt_of_le_of_lt Nat.and_le_left hx)
  refine ⟨by simp [and, hl], hwf, ?_⟩
  apply Nat.eq_of_testBit_eq
  intro j
  rw [Nat.testBit_and, testBit_val _ hwf, testBit_val _ ha, testBit_val _ hb]
  unfold and
  rw [dg_zipWith _ a b hl _ (by rfl), Nat.testBit_and]

theorem or_spec (a b : Digits) (ha : WF a) (hb : WF b) (hl : a.length = b.length) :
    (or a b).length = a.length ∧ WF (or a b) ∧ val (or a b) = val a ||| val b := by
  have hwf : WF (or a b) := WF_zipWith _ a b ha hb
    (fun x y hx hy => Nat.or_lt_two_pow hx hy)
  refine ⟨by simp [or, hl], hwf, ?_⟩
  apply Nat.eq_of_testBit_eq
  intro j
  rw [Nat.testBit_or, testBit_val _ hwf, testBit_val _ ha, testBit_val _ hb]
  unfold or
  rw [dg_zipWith _ a b hl _ (by rfl), Nat.testBit_or]

theorem xor_spec (a b : Digits) (ha : WF a) (hb : WF b) (hl : a.length = b.length) :
    (xor a b).length = a.length ∧ WF (xor a b) ∧ val (xor a b) = val a ^^^ val b := by
  have hwf : WF (xor a b) := WF_zipWith _ a b ha hb
    (fun x y hx hy => Nat.xor_lt_two_pow hx hy)
  refine ⟨by simp [xor, hl], hwf, ?_⟩
  apply Nat.eq_of_testBit_eq
  intro j
  rw [Nat.testBit_xor, testBit_val _ hwf, testBit_val _ ha, testBit_val _ hb]
  unfold xor
  rw [dg_zipWith _ a b hl _ (by rfl), Nat.testBit_xor]

theorem inv_spec (a : Digits) (ha : WF a) :
    (inv a).length = a.length ∧ WF (inv a) ∧ val (inv a) + val a + 1 = BASE ^ a.length := by
  induction a with
  | nil => simp [inv, WF, val]
  | cons d ds ih =>
    obtain ⟨h1, h2, h3⟩ := ih (fun x hx => ha x (by simp [hx]))
    have hd : d < BASE := ha d (by simp)
    refine ⟨by simp [inv], ?_, ?_⟩
    · intro x hx
      simp only [inv, List.map_cons, List.mem_cons] at hx
      rcases hx with rfl | hx
      · omega
      · exact h2 x hx
    · simp only [inv, List.map_cons, val, List.length_cons, pow_succ] at h3 ⊢
      rw [← h3]
      have : BASE - 1 - d + d + 1 = BASE := by omega
      nlinarith [this]

/-! ### most significant limb -/

theorem msScan_spec (a : Digits) (hne : ∃ d ∈ a, d ≠ 0) :
    msScan a < a.length ∧ dg a (msScan a) ≠ 0 ∧ ∀ j, msScan a < j → dg a j = 0 := by
  have hlen : 0 < a.length := by
    obtain ⟨d, hd, _⟩ := hne
    exact List.length_pos_of_mem hd
  have hinv := whileLoop_inv (fun i => i < a.length ∧ ∀ j, i < j → dg a j = 0) a.length
    (fun i => decide (i > 0) && decide (dg a i = 0)) (fun i => i - 1) (a.length - 1)
    ⟨by omega, by
      intro j hj
      unfold dg; rw [List.getD_eq_getElem?_getD, List.getElem?_eq_none (by omega)]; rfl⟩
    (by
      rintro i ⟨h1, h2⟩ hc
      simp only [Bool.and_eq_true, decide_eq_true_eq] at hc
      refine ⟨by omega, ?_⟩
      intro j hj
      by_cases h : i = j
      · rw [← h]; exact hc.2
      · exact h2 j (by omega))
  have hdone := whileLoop_done (fun i => i) (fun i => i < a.length) a.length
    (fun i => decide (i > 0) && decide (dg a i = 0)) (fun i => i - 1) (a.length - 1)
    (by omega) (by intro s h1 h2; omega)
    (by intro s h1 h2; simp at h2; omega) (by omega)
  change msScan a < a.length ∧ ∀ j, msScan a < j → dg a j = 0 at hinv
  refine ⟨hinv.1, ?_, hinv.2⟩
  change (decide (msScan a > 0) && decide (dg a (msScan a) = 0)) = false at hdone
  intro h0
  simp only [h0, decide_true, Bool.and_true, decide_eq_false_iff_not, not_lt, gt_iff_lt,
    Nat.le_zero] at hdone
  obtain ⟨d, hd, hd0⟩ := hne
  obtain ⟨i, hi, rfl⟩ := List.getElem_of_mem hd
  have : dg a i = a[i] := by unfold dg; simp [List.getD_eq_getElem?_getD, hi]
  rcases Nat.eq_zero_or_pos i with h | h
  · subst h; rw [hdone] at h0; omega
  · have := hinv.2 i (by rw [hdone]; exact h); omega

theorem val_eq_zero_iff (a : Digits) : val a = 0 ↔ ∀ d ∈ a, d = 0 := by
  induction a with
  | nil => simp [val]
  | cons d ds ih =>
    simp only [val, Nat.add_eq_zero_iff, Nat.mul_eq_zero, ih, List.mem_cons, forall_eq_or_imp]
    have := BASE_pos
    constructor
    · rintro ⟨h1, h2 | h2⟩
      · omega
      · exact ⟨h1, h2⟩
    · rintro ⟨h1, h2⟩; exact ⟨h1, Or.inr h2⟩

theorem all_zero_iff (a : Digits) : a.all (fun d => decide (d = 0)) = true ↔ val a = 0 := by
  rw [val_eq_zero_iff]; simp

theorem val_drop_zero (a : Digits) (k : Nat) (h : ∀ j, k ≤ j → dg a j = 0) : val a = pval a k := by
  have : val (a.drop k) = 0 := by
    rw [val_eq_zero_iff]
    intro d hd
    obtain ⟨i, hi, rfl⟩ := List.getElem_of_mem hd
    simp only [List.length_drop] at hi
    have := h (k + i) (by omega)
    unfold dg at this
    rw [List.getD_eq_getElem?_getD, List.getElem?_eq_getElem (by omega)] at this
    simpa using this
  rw [val_split a k, this]; simp

theorem msLength_spec (a : Digits) :
    (val a = 0 → msLength a = 0) ∧
    (val a ≠ 0 → 0 < msLength a ∧ msLength a ≤ a.length ∧ dg a (msLength a - 1) ≠ 0) ∧
    (∀ j, msLength a ≤ j → dg a j = 0) ∧ val a = pval a (msLength a) := by
  unfold msLength
  by_cases h : val a = 0
  · have h' := (all_zero_iff a).2 h
    rw [if_pos h']
    have hz : ∀ j, 0 ≤ j → dg a j = 0 := by
      intro j _
      have := (val_eq_zero_iff a).1 h
      unfold dg
      rw [List.getD_eq_getElem?_getD]
      rcases lt_or_ge j a.length with hj | hj
      · rw [List.getElem?_eq_getElem hj]; exact this _ (List.getElem_mem hj)
      · rw [List.getElem?_eq_none hj]; rfl
    exact ⟨fun _ => rfl, fun h2 => absurd h h2, hz, val_drop_zero a 0 hz⟩
  · have h' : ¬ (a.all (fun d => decide (d = 0)) = true) := fun h2 => h ((all_zero_iff a).1 h2)
    rw [if_neg h']
    have hne : ∃ d ∈ a, d ≠ 0 := by
      by_contra hc; push Not at hc; exact h ((val_eq_zero_iff a).2 hc)
    obtain ⟨m1, m2, m3⟩ := msScan_spec a hne
    refine ⟨fun h2 => absurd h2 h, fun _ => ⟨by omega, by omega, by simpa using m2⟩, ?_, ?_⟩
    · intro j hj; exact m3 j (by omega)
    · exact val_drop_zero a _ (fun j hj => m3 j (by omega))

theorem bitSize_spec (a : Digits) (ha : WF a) : bitSize a = Nat.size (val a) := by
  unfold bitSize
  by_cases h : val a = 0
  · rw [if_pos ((all_zero_iff a).2 h), h]; simp
  · have h' : ¬ (a.all (fun d => decide (d = 0)) = true) := fun h2 => h ((all_zero_iff a).1 h2)
    rw [if_neg h']
    have hne : ∃ d ∈ a, d ≠ 0 := by
      by_contra hc; push Not at hc; exact h ((val_eq_zero_iff a).2 hc)
    obtain ⟨m1, m2, m3⟩ := msScan_spec a hne
    have hv : val a = pval a (msScan a + 1) := val_drop_zero a _ (fun j hj => m3 j (by omega))
    rw [pval_succ] at hv
    have hp := pval_lt ha (msScan a)
    generalize msScan a = k at *
    have hlo : 2 ^ Nat.log2 (dg a k) ≤ dg a k := Nat.log2_self_le m2
    have hhi : dg a k < 2 ^ (Nat.log2 (dg a k) + 1) := Nat.lt_log2_self
    generalize Nat.log2 (dg a k) = l at *
    rw [BASE_pow] at hv hp
    apply le_antisymm
    · have : 32 * k + l < Nat.size (val a) := by
        rw [Nat.lt_size, hv, pow_add]
        calc 2 ^ (32 * k) * 2 ^ l ≤ 2 ^ (32 * k) * dg a k := Nat.mul_le_mul_left _ hlo
          _ ≤ _ := by rw [Nat.mul_comm]; omega
      omega
    · rw [Nat.size_le, hv]
      calc pval a k + dg a k * 2 ^ (32 * k) < (dg a k + 1) * 2 ^ (32 * k) := by
            rw [Nat.add_mul]; omega
        _ ≤ 2 ^ (l + 1) * 2 ^ (32 * k) := Nat.mul_le_mul_right _ hhi
        _ = _ := by rw [← pow_add]; congr 1; omega

/-! ### division by one limb -/

theorem pval_add_drop (u : Digits) (k : Nat) (h : k < u.length) :
    val (u.drop k) = dg u k + BASE * val (u.drop (k + 1)) := by
  rw [List.drop_eq_getElem_cons h, val]
  simp [dg, List.getD_eq_getElem?_getD, h]

theorem divmodSingle_spec (u : Digits) (hu : WF u) (d : Nat) (hd : 0 < d) (hdB : d < BASE) :
    (divmodSingle u d).1.length = u.length ∧ WF (divmodSingle u d).1 ∧
      val (divmodSingle u d).1 = val u / d ∧ (divmodSingle u d).2 = val u % d := by
  have := fori_inv (fun i (st : Digits × Nat) => st.1.length = u.length ∧ WF st.1 ∧ st.2 < d ∧
      pval st.1 (u.length - i) = 0 ∧
      val (st.1.drop (u.length - i)) * d + st.2 = val (u.drop (u.length - i)))
    (Nat.zero_le u.length)
    (fun i (st : Digits × Nat) =>
      let idx := u.length - 1 - i
      let cur := u64 (u64 (st.2 * BASE) + dg u idx)
      (st.1.set idx (u32 (cur / d)), cur % d)) (List.replicate u.length 0, 0)
    ⟨by simp, WF_replicate _, hd, by
      simp only [Nat.sub_zero]; rw [pval_of_ge _ (by simp), val_replicate_zero], by
      simp [val]⟩
    (by
      rintro i ⟨q, r⟩ _ hi ⟨h1, h2, h3, h4, h5⟩
      simp only at h1 h2 h3 h4 h5
      have hidx : u.length - 1 - i = u.length - (i + 1) := by omega
      have hidx2 : u.length - i = u.length - (i + 1) + 1 := by omega
      have du := dg_lt hu (u.length - (i + 1))
      have e1 : u64 (u64 (r * BASE) + dg u (u.length - (i + 1))) = r * BASE + dg u (u.length - (i + 1)) := by
        have a1 : r * BASE + BASE ≤ BASE * BASE := by
          calc r * BASE + BASE = (r + 1) * BASE := by ring
            _ ≤ BASE * BASE := Nat.mul_le_mul_right _ (by omega)
        have a2 : u64 (r * BASE) = r * BASE := Nat.mod_eq_of_lt (by have := BASE_pos; omega)
        rw [a2]
        exact Nat.mod_eq_of_lt (by omega)
      simp only [hidx, e1]
      have hdig : (r * BASE + dg u (u.length - (i + 1))) / d < BASE := by
        rw [Nat.div_lt_iff_lt_mul hd]
        calc r * BASE + dg u (u.length - (i + 1)) < (r + 1) * BASE := by rw [Nat.add_mul]; omega
          _ ≤ d * BASE := Nat.mul_le_mul_right _ (by omega)
          _ = _ := Nat.mul_comm _ _
      rw [u32, Nat.mod_eq_of_lt hdig]
      rw [hidx2] at h4 h5
      generalize hk : u.length - (i + 1) = k at *
      have hk1 : k < u.length := by omega
      have hq0 : pval q k = 0 := by rw [pval_succ] at h4; omega
      refine ⟨by simpa using h1, WF_set h2 _ hdig, Nat.mod_lt _ hd, ?_, ?_⟩
      · rw [pval_set_of_le _ _ le_rfl]; exact hq0
      · rw [pval_add_drop u k hk1, pval_add_drop _ k (by simpa [h1] using hk1),
          dg_set _ _ _ _ (by omega)]
        have hdrop : (q.set k ((r * BASE + dg u k) / d)).drop (k + 1) = q.drop (k + 1) := by
          rw [List.drop_set]; simp
        rw [hdrop, ← h5]
        simp only [if_true]
        have := Nat.div_add_mod (r * BASE + dg u k) d
        nlinarith [this])
  obtain ⟨h1, h2, h3, _, h5⟩ := this
  have hres : (divmodSingle u d).1 = (fori 0 u.length (fun i (st : Digits × Nat) =>
      let idx := u.length - 1 - i
      let cur := u64 (u64 (st.2 * BASE) + dg u idx)
      (st.1.set idx (u32 (cur / d)), cur % d)) (List.replicate u.length 0, 0)).1 := rfl
  have hres2 : (divmodSingle u d).2 = u32 (fori 0 u.length (fun i (st : Digits × Nat) =>
      let idx := u.length - 1 - i
      let cur := u64 (u64 (st.2 * BASE) + dg u idx)
      (st.1.set idx (u32 (cur / d)), cur % d)) (List.replicate u.length 0, 0)).2 := rfl
  rw [hres, hres2]
  simp only [Nat.sub_self, List.drop_zero] at h5
  refine ⟨h1, h2, ?_, ?_⟩
  · rw [← h5, Nat.mul_comm, Nat.mul_add_div hd, Nat.div_eq_of_lt h3, Nat.add_zero]
  · rw [u32, Nat.mod_eq_of_lt (lt_trans h3 hdB), ← h5, Nat.mul_comm, Nat.mul_add_mod, Nat.mod_eq_of_lt h3]

end Verif.Limb
