import Verif.Limb.Bits

/-!
Model of the multi-limb division of `BigInteger` (jasp_bigintiger.py:1020-1106 and 1145-1315),
including the wrap-around of the `uint64` intermediates.
-/
namespace Verif.Limb

/-- jasp_bigintiger.py:1020-1062 `_shl_bits`: shifted limbs and carry out of the top limb. -/
def shlBits (a : Digits) (s : Nat) : Digits × Nat :=
  if s = 0 then (a, 0)
  else
    let r := fori 0 a.length (fun i (st : Nat × Digits) =>
      let ai := dg a i
      let low := u32 (u64 (ai <<< s) &&& 0xFFFFFFFF)
      (u32 (ai >>> (32 - s)), st.2.set i (u32 (low ||| st.1)))) (0, List.replicate a.length 0)
    (r.2, r.1)

/-- jasp_bigintiger.py:1065-1106 `_shr_bits`.  Line 1100 `ai & (1 << s) - 1` parses in Python as
`ai & ((1 << s) - 1)`. -/
def shrBits (a : Digits) (s : Nat) : Digits :=
  if s = 0 then a
  else
    (fori 0 a.length (fun i (st : Nat × Digits) =>
      let idx := a.length - 1 - i
      let ai := dg a idx
      let high := u32 (u64 (st.1 <<< (32 - s)) &&& 0xFFFFFFFF)
      (u32 (ai &&& (1 <<< s - 1)), st.2.set idx (u32 ((ai >>> s) ||| high))))
      (0, List.replicate a.length 0)).2

/-- `uint64` subtraction. -/
def sub64 (a b : Nat) : Nat := u64 (a + BASE * BASE - u64 b)

/-- jasp_bigintiger.py:1217-1239: estimate and refine one quotient digit. `rhat << 32` is a uint64
shift, so its high bits are lost: this is the transcription of the code, not of Knuth's test. -/
def qhatOf (u2 u1 u0 den vm2 : Nat) : Nat :=
  let num := u64 (u64 (u2 * BASE) + u1)
  let qhat := min (num / den) 0xFFFFFFFF
  let rhat := sub64 num (u64 (qhat * den))
  let cond1 := decide (qhat = 0xFFFFFFFF) && decide (u64 (qhat * vm2) > u64 (u64 (rhat * BASE) + u0))
  let qhat' := if cond1 then qhat - 1 else qhat
  let rhat' := if cond1 then u64 (rhat + den) else rhat
  let cond2 := decide (u64 (qhat' * vm2) > u64 (u64 (rhat' * BASE) + u0))
  if cond2 then sub64 qhat' 1 else qhat'

/-- jasp_bigintiger.py:1242-1259: subtract `qhat * v` from the window at `j`. -/
def subLoop (v : Digits) (m j qhat : Nat) (u : Digits) : Digits × Nat :=
  fori 0 m (fun i (st : Digits × Nat) =>
    let p := u64 (u64 (qhat * dg v i) + st.2)
    let pLow := u32 (p % BASE)
    let pHigh := p / BASE
    let udi := dg st.1 (j + i)
    let borrow := if udi < pLow then 1 else 0
    let newU := u32 (u64 (udi + BASE - pLow) % BASE)
    (st.1.set (j + i) newU, u64 (pHigh + borrow))) (u, 0)

/-- jasp_bigintiger.py:1266-1282 `fix_underflow`: add `v` back. -/
def addBack (v : Digits) (m j : Nat) (u : Digits) : Digits :=
  let r := fori 0 m (fun i (st : Digits × Nat) =>
    let ssum := u64 (dg st.1 (j + i) + dg v i + st.2)
    (st.1.set (j + i) (u32 (ssum % BASE)), ssum / BASE)) (u, 0)
  r.1.set (j + m) (u32 (dg r.1 (j + m) + 1))

/-- jasp_bigintiger.py:1212-1292 `do_step` for the quotient position `j`. -/
def knuthStep (v : Digits) (m j : Nat) (st : Digits × Digits) : Digits × Digits :=
  let u := st.1
  let qhat := qhatOf (dg u (j + m)) (dg u (j + m - 1)) (dg u (j + m - 2)) (dg v (m - 1)) (dg v (m - 2))
  let r := subLoop v m j qhat u
  let u1 := r.1
  let carry := r.2
  let topBefore := dg u1 (j + m)
  let underflow := decide (topBefore < u32 carry)
  let u2 := u1.set (j + m) (u32 (u64 (topBefore + BASE * BASE + BASE - carry) % BASE))
  if underflow then (addBack v m j u2, st.2.set j (u32 (sub64 qhat 1 % BASE)))
  else (u2, st.2.set j (u32 (qhat % BASE)))

/-- jasp_bigintiger.py:1192-1309 `multi_limb_path`. -/
def multiLimb (u v : Digits) (m nEff : Nat) : Digits × Digits :=
  let s := clz32 (dg v (m - 1))
  let vn := (shlBits v s).1
  let un := (shlBits u s).1 ++ [(shlBits u s).2]
  let jCount := nEff - m
  let st := fori 0 u.length (fun t (st : Digits × Digits) =>
    if t ≤ jCount then knuthStep vn m (jCount - t) st else st) (un, List.replicate u.length 0)
  let rFull := fori 0 u.length (fun i (r : Digits) => r.set i (if i < m then dg st.1 i else 0))
    (List.replicate u.length 0)
  (shrBits rFull s, st.2)

/-- jasp_bigintiger.py:1145-1315 `_remainder_division_knuth`: `(remainder, quotient)`. -/
def divmodKnuth (u v : Digits) : Digits × Digits :=
  let m := msLength v
  let nEff := msLength u
  if m = 0 then (List.replicate u.length 0, List.replicate u.length 0)
  else if nEff < m then (u, List.replicate u.length 0)
  else if m = 1 then
    let qr := divmodSingle u (dg v 0)
    ((List.replicate u.length 0).set 0 qr.2, qr.1)
  else multiLimb u v m nEff

/-- jasp_bigintiger.py:778-799 `__mod__`. -/
def mod (a b : Digits) : Digits := (divmodKnuth a b).1
/-- jasp_bigintiger.py:822-843 `__floordiv__`. -/
def floordiv (a b : Digits) : Digits := (divmodKnuth a b).2

/-! ### bit shifts across limbs -/

theorem or_eq_add_of_lt {x y s : Nat} (hy : y < 2 ^ s) : (x * 2 ^ s) ||| y = x * 2 ^ s + y := by
  rw [← Nat.shiftLeft_eq, Nat.shiftLeft_add_eq_or_of_lt hy]

theorem and_mask (x : Nat) : x &&& 0xFFFFFFFF = x % BASE := by
  have := Nat.and_two_pow_sub_one_eq_mod x 32
  simpa [BASE] using this

theorem split_word {s : Nat} (hs1 : s < 32) (x : Nat) :
    x * 2 ^ s % BASE = x % 2 ^ (32 - s) * 2 ^ s := by
  have : BASE = 2 ^ (32 - s) * 2 ^ s := by rw [← pow_add, BASE]; congr 1; omega
  rw [this, Nat.mul_mod_mul_right]

theorem shlBits_spec (a : Digits) (ha : WF a) (s : Nat) (hs : s < 32) :
    (shlBits a s).1.length = a.length ∧ WF (shlBits a s).1 ∧ (shlBits a s).2 < 2 ^ s ∧
      val (shlBits a s).1 + (shlBits a s).2 * BASE ^ a.length = val a * 2 ^ s := by
  unfold shlBits
  split
  · next h => subst h; exact ⟨rfl, ha, by simp, by simp⟩
  · next hs0 =>
    have hBs : BASE = 2 ^ (32 - s) * 2 ^ s := by rw [← pow_add, BASE]; congr 1; omega
    have := fori_inv (fun i (st : Nat × Digits) => st.2.length = a.length ∧ WF st.2 ∧ st.1 < 2 ^ s ∧
        pval st.2 i + st.1 * BASE ^ i = pval a i * 2 ^ s) (Nat.zero_le a.length)
      (fun i (st : Nat × Digits) =>
        let ai := dg a i
        let low := u32 (u64 (ai <<< s) &&& 0xFFFFFFFF)
        (u32 (ai >>> (32 - s)), st.2.set i (u32 (low ||| st.1)))) (0, List.replicate a.length 0)
      ⟨by simp, WF_replicate _, by simp, by simp [pval_zero]⟩
      (by
        rintro i ⟨c, r⟩ _ hi ⟨h1, h2, h3, h4⟩
        simp only at h1 h2 h3 h4
        have da := dg_lt ha i
        have h2s : 2 ^ s < BASE := by rw [BASE]; exact Nat.pow_lt_pow_right (by norm_num) hs
        have e1 : u64 (dg a i <<< s) = dg a i * 2 ^ s := by
          rw [Nat.shiftLeft_eq]
          exact Nat.mod_eq_of_lt (Nat.mul_lt_mul'' da h2s)
        have e2 : u32 (u64 (dg a i <<< s) &&& 0xFFFFFFFF) = dg a i % 2 ^ (32 - s) * 2 ^ s := by
          rw [e1, and_mask, u32, Nat.mod_mod, split_word hs]
        have e3 : dg a i % 2 ^ (32 - s) * 2 ^ s + c < BASE := by
          have := Nat.mod_lt (dg a i) (show 0 < 2 ^ (32 - s) by positivity)
          calc _ < dg a i % 2 ^ (32 - s) * 2 ^ s + 2 ^ s := by omega
            _ = (dg a i % 2 ^ (32 - s) + 1) * 2 ^ s := by ring
            _ ≤ 2 ^ (32 - s) * 2 ^ s := Nat.mul_le_mul_right _ this
            _ = BASE := hBs.symm
        have e4 : u32 (dg a i >>> (32 - s)) = dg a i / 2 ^ (32 - s) := by
          rw [Nat.shiftRight_eq_div_pow]
          exact Nat.mod_eq_of_lt (lt_of_le_of_lt (Nat.div_le_self _ _) da)
        simp only [e2, or_eq_add_of_lt h3, e4]
        rw [u32, Nat.mod_eq_of_lt e3]
        refine ⟨by simpa using h1, WF_set h2 _ e3, ?_, ?_⟩
        · rw [Nat.div_lt_iff_lt_mul (by positivity), Nat.mul_comm, ← hBs]; exact da
        · rw [pval_set_succ _ _ (h1 ▸ hi), pval_succ, pow_succ]
          have e5 := Nat.mod_add_div (dg a i) (2 ^ (32 - s))
          generalize dg a i % 2 ^ (32 - s) = lo at *
          generalize dg a i / 2 ^ (32 - s) = hi' at *
          rw [← e5]
          calc _ = (pval r i + c * BASE ^ i) + lo * 2 ^ s * BASE ^ i + hi' * BASE ^ i * BASE := by ring
            _ = _ := by rw [h4, hBs]; ring)
    obtain ⟨h1, h2, h3, h4⟩ := this
    rw [pval_of_ge _ (le_of_eq h1), pval_length] at h4
    exact ⟨h1, h2, h3, h4⟩

theorem shrBits_spec (a : Digits) (ha : WF a) (s : Nat) (hs : s < 32) :
    (shrBits a s).length = a.length ∧ WF (shrBits a s) ∧ val (shrBits a s) = val a / 2 ^ s := by
  unfold shrBits
  split
  · next h => subst h; exact ⟨rfl, ha, by simp⟩
  · next hs0 =>
    have hBs : BASE = 2 ^ (32 - s) * 2 ^ s := by rw [← pow_add, BASE]; congr 1; omega
    have := fori_inv (fun i (st : Nat × Digits) => st.2.length = a.length ∧ WF st.2 ∧ st.1 < 2 ^ s ∧
        pval st.2 (a.length - i) = 0 ∧
        val (st.2.drop (a.length - i)) * 2 ^ s + st.1 = val (a.drop (a.length - i)))
      (Nat.zero_le a.length)
      (fun i (st : Nat × Digits) =>
        let idx := a.length - 1 - i
        let ai := dg a idx
        let high := u32 (u64 (st.1 <<< (32 - s)) &&& 0xFFFFFFFF)
        (u32 (ai &&& (1 <<< s - 1)), st.2.set idx (u32 ((ai >>> s) ||| high))))
      (0, List.replicate a.length 0)
      ⟨by simp, WF_replicate _, by simp, by
        simp only [Nat.sub_zero]; rw [pval_of_ge _ (by simp), val_replicate_zero], by simp [val]⟩
      (by
        rintro i ⟨c, r⟩ _ hi ⟨h1, h2, h3, h4, h5⟩
        simp only at h1 h2 h3 h4 h5
        have hidx : a.length - 1 - i = a.length - (i + 1) := by omega
        have hidx2 : a.length - i = a.length - (i + 1) + 1 := by omega
        rw [hidx2] at h4 h5
        simp only [hidx]
        generalize hk : a.length - (i + 1) = k at *
        have hk1 : k < a.length := by omega
        have da := dg_lt ha k
        have hc : c * 2 ^ (32 - s) < BASE := by
          rw [hBs, Nat.mul_comm (2 ^ (32 - s))]
          exact Nat.mul_lt_mul_of_pos_right h3 (by positivity)
        have e1 : u32 (u64 (c <<< (32 - s)) &&& 0xFFFFFFFF) = c * 2 ^ (32 - s) := by
          rw [Nat.shiftLeft_eq, and_mask, u32, Nat.mod_mod, u64, Nat.mod_mul_left_mod,
            Nat.mod_eq_of_lt hc]
        have hlo : dg a k >>> s < 2 ^ (32 - s) := by
          rw [Nat.shiftRight_eq_div_pow, Nat.div_lt_iff_lt_mul (by positivity), ← hBs]; exact da
        have e2 : (dg a k >>> s) ||| (c * 2 ^ (32 - s)) = c * 2 ^ (32 - s) + dg a k / 2 ^ s := by
          rw [Nat.or_comm, or_eq_add_of_lt hlo, Nat.shiftRight_eq_div_pow]
        have e3 : c * 2 ^ (32 - s) + dg a k / 2 ^ s < BASE := by
          rw [Nat.shiftRight_eq_div_pow] at hlo
          calc _ < (c + 1) * 2 ^ (32 - s) := by rw [Nat.add_mul]; omega
            _ ≤ 2 ^ s * 2 ^ (32 - s) := Nat.mul_le_mul_right _ h3
            _ = BASE := by rw [hBs, Nat.mul_comm]
        have e4 : u32 (dg a k &&& (1 <<< s - 1)) = dg a k % 2 ^ s := by
          rw [Nat.one_shiftLeft, Nat.and_two_pow_sub_one_eq_mod]
          exact Nat.mod_eq_of_lt (lt_of_le_of_lt (Nat.mod_le _ _) da)
        rw [e1, e2, e4, u32, Nat.mod_eq_of_lt e3]
        have hq0 : pval r k = 0 := by rw [pval_succ] at h4; omega
        refine ⟨by simpa using h1, WF_set h2 _ e3, Nat.mod_lt _ (by positivity), ?_, ?_⟩
        · rw [pval_set_of_le _ _ le_rfl]; exact hq0
        · rw [pval_add_drop a k hk1, pval_add_drop _ k (by simpa [h1] using hk1),
            dg_set _ _ _ _ (by omega)]
          have hdrop : (r.set k (c * 2 ^ (32 - s) + dg a k / 2 ^ s)).drop (k + 1) = r.drop (k + 1) := by
            rw [List.drop_set]; simp
          rw [hdrop, ← h5]
          simp only [if_true]
          have e5 := Nat.mod_add_div (dg a k) (2 ^ s)
          generalize dg a k % 2 ^ s = lo at *
          generalize dg a k / 2 ^ s = hi' at *
          rw [← e5, hBs]; ring)
    obtain ⟨h1, h2, h3, _, h5⟩ := this
    simp only [Nat.sub_self, List.drop_zero] at h5
    refine ⟨h1, h2, ?_⟩
    rw [← h5, Nat.mul_comm, Nat.mul_add_div (by positivity), Nat.div_eq_of_lt h3, Nat.add_zero]

theorem clz32_aux : ∀ (f x s : Nat), s + f = 32 → 0 < x → x < BASE →
    let r := whileLoop f (fun st : Nat × Nat => decide (st.2 < 32) && decide (st.1 &&& 0x80000000 = 0))
      (fun st => (u32 (st.1 <<< 1), st.2 + 1)) (x, s)
    (x * 2 ^ f ≥ 2 ^ 31 * 2) → r.2 < s + f ∧ s ≤ r.2 ∧ 2 ^ 31 ≤ x * 2 ^ (r.2 - s) ∧ x * 2 ^ (r.2 - s) < BASE := by
  intro f
  induction f with
  | zero => intro x s _ _ hx r hr; simp [BASE] at hr hx; omega
  | succ f ih =>
    intro x s hs hx0 hx r hr
    have hbit : ∀ y, y < BASE → ((y &&& 0x80000000 = 0) ↔ y < 2 ^ 31) := by
      intro y hy
      have h1 : (y &&& 2 ^ 31) = (y.testBit 31).toNat * 2 ^ 31 := Nat.and_two_pow y 31
      have h2 : (0x80000000 : Nat) = 2 ^ 31 := by norm_num
      rw [h2, h1]
      have h3 : (y.testBit 31).toNat = y / 2 ^ 31 % 2 := Nat.toNat_testBit y 31
      rw [h3]
      simp only [BASE] at hy
      omega
    have hr' : r = whileLoop (f + 1) (fun st : Nat × Nat => decide (st.2 < 32) && decide (st.1 &&& 0x80000000 = 0))
      (fun st => (u32 (st.1 <<< 1), st.2 + 1)) (x, s) := rfl
    rw [whileLoop] at hr'
    by_cases hc : x < 2 ^ 31
    · have hcond : (decide (s < 32) && decide (x &&& 0x80000000 = 0)) = true := by
        simp only [Bool.and_eq_true, decide_eq_true_eq]
        exact ⟨by omega, (hbit x hx).2 hc⟩
      simp only at hr'
      rw [if_pos hcond] at hr'
      have hdouble : u32 (x <<< 1) = 2 * x := by
        rw [Nat.shiftLeft_eq, pow_one, u32, Nat.mod_eq_of_lt (by simp only [BASE]; omega), Nat.mul_comm]
      rw [hdouble] at hr'
      have := ih (2 * x) (s + 1) (by omega) (by omega) (by simp only [BASE]; omega)
        (by rw [pow_succ] at hr; nlinarith [hr])
      rw [← hr'] at this
      obtain ⟨g1, g2, g3, g4⟩ := this
      have e : 2 * x * 2 ^ (r.2 - (s + 1)) = x * 2 ^ (r.2 - s) := by
        have : r.2 - s = r.2 - (s + 1) + 1 := by omega
        rw [this, pow_succ]; ring
      rw [e] at g3 g4
      exact ⟨by omega, by omega, g3, g4⟩
    · have hcond : ¬ ((decide (s < 32) && decide (x &&& 0x80000000 = 0)) = true) := by
        simp only [Bool.and_eq_true, decide_eq_true_eq, not_and]
        intro _ h; exact hc ((hbit x hx).1 h)
      simp only at hr'
      rw [if_neg hcond] at hr'
      rw [hr']
      simp only [Nat.sub_self, pow_zero, Nat.mul_one]
      exact ⟨by omega, le_rfl, by omega, hx⟩

/-- `_clz32` returns the shift that moves the highest set bit to position 31. -/
theorem clz32_spec (x : Nat) (h0 : 0 < x) (hx : x < BASE) :
    clz32 x < 32 ∧ 2 ^ 31 ≤ x * 2 ^ clz32 x ∧ x * 2 ^ clz32 x < BASE := by
  have := clz32_aux 32 x 0 (by norm_num) h0 hx (by nlinarith [h0])
  simp only [Nat.zero_add, Nat.sub_zero] at this
  exact ⟨this.1, this.2.2.1, this.2.2.2⟩

/-! ### quotient digit estimate -/

theorem sub64_eq {a b : Nat} (h : b ≤ a) (ha : a < BASE * BASE) : sub64 a b = a - b := by
  unfold sub64
  have hb : u64 b = b := Nat.mod_eq_of_lt (by omega)
  rw [hb, u64, show a + BASE * BASE - b = (a - b) + BASE * BASE by omega, Nat.add_mod_right]
  exact Nat.mod_eq_of_lt (by omega)

/-- Knuth's bounds for the (unclipped) estimate with one refinement. -/
theorem qhat_bounds {B den vm2 low u2 u1 u0 lowu X : Nat} (hX : 0 < X) (hden : den < B)
    (hnorm : B ≤ 2 * den) (hvm : vm2 < B) (hlow : low < X) (hlowu : lowu < X)
    (hu0 : u0 < B) (hq : (u2 * B + u1) / den < B) :
    let V := den * (X * B) + vm2 * X + low
    let W := (u2 * B + u1) * (X * B) + u0 * X + lowu
    let q0 := (u2 * B + u1) / den
    let r0 := (u2 * B + u1) % den
    let qf := if q0 * vm2 > r0 * B + u0 then q0 - 1 else q0
    W / V ≤ qf ∧ qf ≤ W / V + 1 ∧ q0 ≤ W / V + 2 := by
  intro V W q0 r0 qf
  have hdpos : 0 < den := by omega
  have hVpos : 0 < V := by
    have : 0 < den * (X * B) := Nat.mul_pos hdpos (Nat.mul_pos hX (by omega))
    omega
  have hnum : den * q0 + r0 = u2 * B + u1 := Nat.div_add_mod _ _
  have hr0 : r0 < den := Nat.mod_lt _ hdpos
  have hW : W = (den * q0 + r0) * (X * B) + u0 * X + lowu := by rw [hnum]
  -- q0 - 2 lower bound
  have c2 : q0 ≤ W / V + 2 := by
    by_contra hc
    push Not at hc
    have h1 : W < (W / V + 1) * V := by
      have := Nat.lt_div_mul_add (a := W) hVpos; rw [Nat.add_mul]; omega
    obtain ⟨k, hk⟩ : ∃ k, q0 = W / V + 3 + k := ⟨q0 - (W / V) - 3, by omega⟩
    have h2 : q0 * V ≤ W + q0 * (X * B) := by
      have h3 : vm2 * X + low ≤ X * B := by
        calc vm2 * X + low ≤ vm2 * X + X := by omega
          _ = (vm2 + 1) * X := by ring
          _ ≤ B * X := Nat.mul_le_mul_right _ hvm
          _ = X * B := Nat.mul_comm _ _
      calc q0 * V = q0 * (den * (X * B)) + q0 * (vm2 * X + low) := by simp only [V]; ring
        _ ≤ q0 * (den * (X * B)) + q0 * (X * B) := by gcongr
        _ ≤ W + q0 * (X * B) := by rw [hW]; nlinarith [Nat.zero_le (r0 * (X * B)), Nat.zero_le (u0 * X)]
    have h4 : q0 * (X * B) ≤ 2 * V := by
      calc q0 * (X * B) ≤ B * (X * B) := Nat.mul_le_mul_right _ (le_of_lt hq)
        _ ≤ 2 * den * (X * B) := Nat.mul_le_mul_right _ hnorm
        _ ≤ 2 * V := by simp only [V]; nlinarith [Nat.zero_le (vm2 * X)]
    have h5 : (W / V + 3 + k) * V ≤ W + 2 * V := by rw [← hk]; omega
    nlinarith [Nat.zero_le (k * V)]
  have cup : ∀ n, W < n * V → W / V < n := fun n h => (Nat.div_lt_iff_lt_mul hVpos).2 h
  refine ⟨?_, ?_, c2⟩
  · simp only [qf]
    split
    · next h =>
      have hq0pos : 0 < q0 := by
        rcases Nat.eq_zero_or_pos q0 with h0 | h0
        · rw [h0] at h; simp at h
        · exact h0
      have : W < q0 * V := by
        have h1 : r0 * B + u0 + 1 ≤ q0 * vm2 := h
        have h2 : (r0 * B + u0 + 1) * X ≤ q0 * vm2 * X := Nat.mul_le_mul_right _ h1
        calc W < (den * q0 + r0) * (X * B) + u0 * X + X := by rw [hW]; omega
          _ = q0 * (den * (X * B)) + (r0 * B + u0 + 1) * X := by ring
          _ ≤ q0 * (den * (X * B)) + q0 * vm2 * X := by omega
          _ ≤ q0 * V := by simp only [V]; nlinarith [Nat.zero_le (q0 * low)]
      have := cup _ this
      omega
    · have : W < (q0 + 1) * V := by
        have h2 : u0 * X + lowu < B * X := by
          calc u0 * X + lowu < u0 * X + X := by omega
            _ = (u0 + 1) * X := by ring
            _ ≤ B * X := Nat.mul_le_mul_right _ hu0
        calc W = (den * q0 + r0) * (X * B) + (u0 * X + lowu) := by rw [hW]; ring
          _ < (den * q0 + r0) * (X * B) + B * X := by omega
          _ = (den * q0 + (r0 + 1)) * (X * B) := by ring
          _ ≤ (den * q0 + den) * (X * B) := Nat.mul_le_mul_right _ (by omega)
          _ = (q0 + 1) * (den * (X * B)) := by ring
          _ ≤ (q0 + 1) * V := Nat.mul_le_mul_left _ (by simp only [V]; omega)
      have := cup _ this
      omega
  · simp only [qf]
    split
    · exact Nat.sub_le_iff_le_add.2 c2
    · next h =>
      push Not at h
      by_contra hc
      push Not at hc
      obtain ⟨k, hk⟩ : ∃ k, q0 = W / V + 2 + k := ⟨q0 - (W / V) - 2, by omega⟩
      have h1 : W < (W / V + 1) * V := by
        have := Nat.lt_div_mul_add (a := W) hVpos; rw [Nat.add_mul]; omega
      have h2 : q0 * vm2 * X ≤ (r0 * B + u0) * X := Nat.mul_le_mul_right _ h
      have h3 : q0 * V ≤ W + q0 * X := by
        calc q0 * V = q0 * den * (X * B) + q0 * vm2 * X + q0 * low := by simp only [V]; ring
          _ ≤ q0 * den * (X * B) + (r0 * B + u0) * X + q0 * X := by
            have : q0 * low ≤ q0 * X := Nat.mul_le_mul_left _ (le_of_lt hlow)
            omega
          _ ≤ W + q0 * X := by rw [hW]; nlinarith [Nat.zero_le lowu]
      have h4 : q0 * X ≤ V := by
        calc q0 * X ≤ B * X := Nat.mul_le_mul_right _ (le_of_lt hq)
          _ = 1 * (X * B) := by ring
          _ ≤ den * (X * B) := Nat.mul_le_mul_right _ hdpos
          _ ≤ V := by simp only [V]; omega
      have h5 : (W / V + 2 + k) * V ≤ W + V := by rw [← hk]; omega
      nlinarith [Nat.zero_le (k * V)]

/-- When the estimate is not clipped the 64-bit transcription equals the exact refinement. -/
theorem qhatOf_eq {u2 u1 u0 den vm2 : Nat} (hu2 : u2 < BASE) (hu1 : u1 < BASE) (hu0 : u0 < BASE)
    (hden : 0 < den) (hdenB : den < BASE) (hvm : vm2 < BASE)
    (hclip : (u2 * BASE + u1) / den < BASE - 1) :
    qhatOf u2 u1 u0 den vm2 =
      if (u2 * BASE + u1) / den * vm2 > (u2 * BASE + u1) % den * BASE + u0
      then (u2 * BASE + u1) / den - 1 else (u2 * BASE + u1) / den := by
  have a1 : u2 * BASE + BASE ≤ BASE * BASE := by
    calc u2 * BASE + BASE = (u2 + 1) * BASE := by ring
      _ ≤ BASE * BASE := Nat.mul_le_mul_right _ hu2
  have hBp := BASE_pos
  have hnum : u64 (u64 (u2 * BASE) + u1) = u2 * BASE + u1 := by
    have : u64 (u2 * BASE) = u2 * BASE := Nat.mod_eq_of_lt (by omega)
    rw [this]; exact Nat.mod_eq_of_lt (by omega)
  have hMax : (0xFFFFFFFF : Nat) = BASE - 1 := by norm_num [BASE]
  unfold qhatOf
  simp only [hnum, hMax]
  have hmin : min ((u2 * BASE + u1) / den) (BASE - 1) = (u2 * BASE + u1) / den :=
    min_eq_left (le_of_lt hclip)
  rw [hmin]
  have hdm := Nat.div_add_mod (u2 * BASE + u1) den
  have hr := Nat.mod_lt (u2 * BASE + u1) hden
  have hN : u2 * BASE + u1 < BASE * BASE := by omega
  generalize (u2 * BASE + u1) / den = q at *
  generalize (u2 * BASE + u1) % den = r at *
  have hqd : u64 (q * den) = q * den := Nat.mod_eq_of_lt (by rw [Nat.mul_comm]; omega)
  have hrhat : sub64 (u2 * BASE + u1) (u64 (q * den)) = r := by
    rw [hqd, sub64_eq (by rw [Nat.mul_comm]; omega) hN, Nat.mul_comm q]; omega
  rw [hrhat]
  have hne : ¬ (q = BASE - 1) := by omega
  simp only [hne, decide_false, Bool.false_and, Bool.false_eq_true, if_false]
  have b1 : u64 (q * vm2) = q * vm2 := Nat.mod_eq_of_lt (Nat.mul_lt_mul'' (by omega) hvm)
  have b2 : u64 (u64 (r * BASE) + u0) = r * BASE + u0 := by
    have h1 : r * BASE + BASE ≤ BASE * BASE := by
      calc r * BASE + BASE = (r + 1) * BASE := by ring
        _ ≤ BASE * BASE := Nat.mul_le_mul_right _ (by omega)
    have : u64 (r * BASE) = r * BASE := Nat.mod_eq_of_lt (by omega)
    rw [this]; exact Nat.mod_eq_of_lt (by omega)
  rw [b1, b2]
  simp only [decide_eq_true_eq]
  split
  · next h =>
    have : 0 < q := by
      rcases Nat.eq_zero_or_pos q with h0 | h0
      · rw [h0] at h; simp at h
      · exact h0
    exact sub64_eq this (by nlinarith)
  · rfl

/-! ### multiply-subtract and add-back -/

theorem subLoop_spec (v u : Digits) (m j qhat : Nat) (hv : WF v) (hu : WF u) (hq : qhat < BASE)
    (hlen : j + m < u.length) :
    let r := subLoop v m j qhat u
    r.1.length = u.length ∧ WF r.1 ∧ r.2 < BASE ∧ (∀ k, j + m ≤ k → dg r.1 k = dg u k) ∧
      val r.1 + qhat * pval v m * BASE ^ j = val u + r.2 * BASE ^ (j + m) := by
  unfold subLoop
  exact fori_inv (fun i (st : Digits × Nat) => st.1.length = u.length ∧ WF st.1 ∧ st.2 < BASE ∧
      (∀ k, j + i ≤ k → dg st.1 k = dg u k) ∧
      val st.1 + qhat * pval v i * BASE ^ j = val u + st.2 * BASE ^ (j + i)) (Nat.zero_le m) _ _
    ⟨rfl, hu, BASE_pos, fun _ _ => rfl, by simp [pval_zero]⟩
    (by
      rintro i ⟨w, c⟩ _ hi ⟨h1, h2, h3, h4, h5⟩
      simp only at h1 h2 h3 h4 h5
      have dv := dg_lt hv i
      have dw := dg_lt h2 (j + i)
      have hprod : qhat * dg v i ≤ (BASE - 1) * (BASE - 1) := Nat.mul_le_mul (by omega) (by omega)
      have hB : BASE = 4294967296 := rfl
      have e1 : u64 (qhat * dg v i) = qhat * dg v i :=
        Nat.mod_eq_of_lt (by rw [hB] at hprod ⊢; omega)
      have e2 : u64 (qhat * dg v i + c) = qhat * dg v i + c :=
        Nat.mod_eq_of_lt (by rw [hB] at hprod h3 ⊢; omega)
      have hp : qhat * dg v i + c ≤ (BASE - 1) * BASE := by rw [hB] at hprod h3 ⊢; omega
      simp only [e1, e2]
      have hdm := Nat.mod_add_div (qhat * dg v i + c) BASE
      have hlo := Nat.mod_lt (qhat * dg v i + c) BASE_pos
      have hmm : u32 ((qhat * dg v i + c) % BASE) = (qhat * dg v i + c) % BASE := by
        rw [u32, Nat.mod_mod]
      rw [hmm]
      generalize hP : qhat * dg v i + c = P at *
      generalize P % BASE = lo at *
      generalize P / BASE = hi' at *
      have hhi : hi' ≤ BASE - 1 := by
        have : BASE * hi' ≤ BASE * (BASE - 1) := by rw [Nat.mul_comm BASE (BASE - 1)]; omega
        exact Nat.le_of_mul_le_mul_left this BASE_pos
      have hk : j + i < w.length := by omega
      have e3 := val_set w (j + i)
      have keep : ∀ x k, j + (i + 1) ≤ k → dg (w.set (j + i) x) k = dg u k := by
        intro x k hk'
        rw [dg_set _ _ _ _ hk, if_neg (by omega)]
        exact h4 k (by omega)
      by_cases hbor : dg w (j + i) < lo
      · have hhi2 : hi' < BASE - 1 := by
          rcases Nat.lt_or_ge hi' (BASE - 1) with h | h
          · exact h
          · have : hi' = BASE - 1 := by omega
            subst this
            rw [Nat.mul_comm] at hdm
            omega
        rw [if_pos hbor]
        have e4 : u64 (hi' + 1) = hi' + 1 := Nat.mod_eq_of_lt (by rw [hB] at hhi2 ⊢; omega)
        have e5 : u32 (u64 (dg w (j + i) + BASE - lo) % BASE) = dg w (j + i) + BASE - lo := by
          unfold u32 u64
          rw [hB] at hlo dw ⊢; omega
        rw [e4, e5]
        have hnew : dg w (j + i) + BASE - lo < BASE := by omega
        refine ⟨by simpa using h1, WF_set h2 _ hnew, by omega, keep _, ?_⟩
        have e6 := e3 (dg w (j + i) + BASE - lo) hk
        have e7 : dg w (j + i) + BASE - lo + lo = dg w (j + i) + BASE := by omega
        generalize dg w (j + i) + BASE - lo = nd at *
        rw [pval_succ, ← Nat.add_assoc, pow_succ, pow_add] at *
        generalize hX : BASE ^ j = X at *
        generalize hY : BASE ^ i = Y at *
        have e8 : (nd + lo) * (X * Y) = (dg w (j + i) + BASE) * (X * Y) := by rw [e7]
        have e9 : (lo + BASE * hi') * (X * Y) = (qhat * dg v i + c) * (X * Y) := by rw [hdm, hP]
        linarith [e6, e8, e9, h5]
      · rw [if_neg hbor]
        have e4 : u64 (hi' + 0) = hi' := Nat.mod_eq_of_lt (by rw [hB] at hhi ⊢; omega)
        have e5 : u32 (u64 (dg w (j + i) + BASE - lo) % BASE) = dg w (j + i) - lo := by
          unfold u32 u64
          rw [hB] at hlo dw ⊢; omega
        rw [e4, e5]
        have hnew : dg w (j + i) - lo < BASE := by omega
        refine ⟨by simpa using h1, WF_set h2 _ hnew, by have := BASE_pos; omega, keep _, ?_⟩
        have e6 := e3 (dg w (j + i) - lo) hk
        have e7 : dg w (j + i) - lo + lo = dg w (j + i) := by omega
        generalize dg w (j + i) - lo = nd at *
        rw [pval_succ, ← Nat.add_assoc, pow_succ, pow_add] at *
        generalize hX : BASE ^ j = X at *
        generalize hY : BASE ^ i = Y at *
        have e8 : (nd + lo) * (X * Y) = (dg w (j + i)) * (X * Y) := by rw [e7]
        have e9 : (lo + BASE * hi') * (X * Y) = (qhat * dg v i + c) * (X * Y) := by rw [hdm, hP]
        linarith [e6, e8, e9, h5])

theorem addLoop_spec (v u : Digits) (m j : Nat) (hv : WF v) (hu : WF u) (hlen : j + m < u.length) :
    let r := fori 0 m (fun i (st : Digits × Nat) =>
      let ssum := u64 (dg st.1 (j + i) + dg v i + st.2)
      (st.1.set (j + i) (u32 (ssum % BASE)), ssum / BASE)) (u, 0)
    r.1.length = u.length ∧ WF r.1 ∧ r.2 ≤ 1 ∧ (∀ k, j + m ≤ k → dg r.1 k = dg u k) ∧
      val r.1 + r.2 * BASE ^ (j + m) = val u + pval v m * BASE ^ j := by
  exact fori_inv (fun i (st : Digits × Nat) => st.1.length = u.length ∧ WF st.1 ∧ st.2 ≤ 1 ∧
      (∀ k, j + i ≤ k → dg st.1 k = dg u k) ∧
      val st.1 + st.2 * BASE ^ (j + i) = val u + pval v i * BASE ^ j) (Nat.zero_le m) _ _
    ⟨rfl, hu, by simp, fun _ _ => rfl, by simp [pval_zero]⟩
    (by
      rintro i ⟨w, c⟩ _ hi ⟨h1, h2, h3, h4, h5⟩
      simp only at h1 h2 h3 h4 h5
      have dv := dg_lt hv i
      have dw := dg_lt h2 (j + i)
      have hB : BASE = 4294967296 := rfl
      have e1 : u64 (dg w (j + i) + dg v i + c) = dg w (j + i) + dg v i + c :=
        Nat.mod_eq_of_lt (by rw [hB] at dv dw ⊢; omega)
      simp only [e1, u32, Nat.mod_mod]
      have hk : j + i < w.length := by omega
      refine ⟨by simpa using h1, WF_set h2 _ (Nat.mod_lt _ BASE_pos), ?_, ?_, ?_⟩
      · rw [hB] at dv dw ⊢; omega
      · intro k hk'
        rw [dg_set _ _ _ _ hk, if_neg (by omega)]
        exact h4 k (by omega)
      · have e3 := val_set w (j + i) ((dg w (j + i) + dg v i + c) % BASE) hk
        have hdm := Nat.mod_add_div (dg w (j + i) + dg v i + c) BASE
        generalize (dg w (j + i) + dg v i + c) % BASE = lo at *
        generalize (dg w (j + i) + dg v i + c) / BASE = hi' at *
        rw [pval_succ, ← Nat.add_assoc, pow_succ, pow_add] at *
        generalize BASE ^ j = X at *
        generalize BASE ^ i = Y at *
        have e9 : (lo + BASE * hi') * (X * Y) = (dg w (j + i) + dg v i + c) * (X * Y) := by rw [hdm]
        linarith [e3, e9, h5])

end Verif.Limb
