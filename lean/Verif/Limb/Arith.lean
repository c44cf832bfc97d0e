import Verif.Limb.Basic
import Mathlib.Data.Nat.ModEq
import Mathlib.Tactic.GCongr

/-! Proofs about construction, addition, subtraction, multiplication and comparison of the limb
model (helper lemmas; the property theorems are in `Verif/Props/Limb.lean`). -/
namespace Verif.Limb

theorem pval_set_of_le (a : Digits) {i k : Nat} (x : Nat) (h : k ≤ i) :
    pval (a.set i x) k = pval a k := by
  unfold pval
  congr 1
  rw [List.take_set_of_le h]

theorem pval_set_succ (a : Digits) {i : Nat} (x : Nat) (h : i < a.length) :
    pval (a.set i x) (i + 1) = pval a i + x * BASE ^ i := by
  rw [pval_succ, pval_set_of_le _ _ le_rfl, dg_set _ _ _ _ h]; simp

theorem call_eq_val (a : Digits) : call a = val a := by
  unfold call
  have := fori_inv (fun i r => r = pval a i) (Nat.zero_le a.length)
    (fun i r => if dg a i ≠ 0 then r + dg a i * 2 ^ (i * 32) else r) 0 (by simp [pval_zero])
    (by
      intro i s _ _ hp
      rw [pval_succ, BASE, ← pow_mul, Nat.mul_comm 32 i]
      split
      · rw [hp]
      · next h => simp at h; simp [h, hp])
  rw [this, pval_length]

theorem create_spec (n size : Nat) :
    (create n size).length = size ∧ WF (create n size) ∧ val (create n size) = n % BASE ^ size := by
  unfold create
  have := fori_inv (fun i (st : Digits × Nat) => st.1.length = size ∧ WF st.1 ∧
      pval st.1 i = n % BASE ^ i ∧ st.2 = n / BASE ^ i) (Nat.zero_le size)
    (fun i (st : Digits × Nat) => (st.1.set i (u32 (st.2 % BASE)), st.2 / BASE))
    (List.replicate size 0, n) ⟨by simp, WF_replicate _, by simp [pval_zero, Nat.mod_one], by simp⟩
    (by
      rintro i ⟨r, m⟩ _ hi ⟨h1, h2, h3, h4⟩
      refine ⟨by simpa using h1, ?_, ?_, ?_⟩
      · exact WF_set h2 _ (Nat.mod_lt _ BASE_pos)
      · simp only at h1 h3 h4 ⊢
        rw [pval_set_succ _ _ (h1 ▸ hi), h3, h4]
        simp only [u32, Nat.mod_mod]
        rw [pow_succ, Nat.mod_mul]; ring
      · simp only at h4 ⊢
        rw [h4, Nat.div_div_eq_div_mul, pow_succ])
  obtain ⟨h1, h2, h3, _⟩ := this
  refine ⟨h1, h2, ?_⟩
  rw [← h3]
  exact (pval_of_ge _ (by rw [h1])).symm

theorem createStatic_spec (n size : Nat) :
    ∃ d, createStatic (n : Int) size = .ok d ∧ d.length = size ∧ WF d ∧ val d = n % BASE ^ size := by
  unfold createStatic
  have hn : ¬ ((n : Int) < 0) := by omega
  rw [if_neg hn]
  refine ⟨_, rfl, ?_⟩
  have := fori_inv (fun i (st : Digits × Int) => st.1.length = i ∧ WF st.1 ∧
      val st.1 = n % BASE ^ i ∧ st.2 = ((n / BASE ^ i : Nat) : Int)) (Nat.zero_le size)
    (fun _ (st : Digits × Int) => (st.1 ++ [(st.2 % (BASE : Int)).toNat], st.2 / (BASE : Int)))
    ([], (n : Int)) ⟨by simp, by simp [WF], by simp [val, Nat.mod_one], by simp⟩
    (by
      rintro i ⟨r, m⟩ _ hi ⟨h1, h2, h3, h4⟩
      simp only at h1 h2 h3 h4
      have e : (m % (BASE : Int)).toNat = n / BASE ^ i % BASE := by
        rw [h4]; norm_cast
      refine ⟨by simp [h1], ?_, ?_, ?_⟩
      · intro d hd
        rcases List.mem_append.1 hd with hd | hd
        · exact h2 d hd
        · simp only [List.mem_singleton] at hd
          rw [hd, e]; exact Nat.mod_lt _ BASE_pos
      · simp only [val_append, h1, h3, e, val]
        rw [pow_succ, Nat.mod_mul]; ring
      · simp only [h4]
        rw [pow_succ, ← Nat.div_div_eq_div_mul]; norm_cast)
  exact ⟨this.1, this.2.1, this.2.2.1⟩

theorem add_core (a b : Digits) (ha : WF a) (hb : WF b) (hl : a.length = b.length) :
    (add a b).length = a.length ∧ WF (add a b) ∧
      ∃ c, c ≤ 1 ∧ val (add a b) + c * BASE ^ a.length = val a + val b := by
  unfold add
  have := fori_inv (fun i (st : Nat × Digits) => st.2.length = a.length ∧ WF st.2 ∧ st.1 ≤ 1 ∧
      pval st.2 i + st.1 * BASE ^ i = pval a i + pval b i) (Nat.zero_le a.length)
    (fun i (st : Nat × Digits) =>
    let s := u64 (dg a i + dg b i + st.1)
    let digit := u32 (s % BASE)
    let newCarry := s / BASE
    (newCarry, st.2.set i digit))
    (0, List.replicate a.length 0) ⟨by simp, WF_replicate _, by simp, by simp [pval_zero]⟩
    (by
      rintro i ⟨c, r⟩ _ hi ⟨h1, h2, h3, h4⟩
      simp only at h1 h2 h3 h4
      have da := dg_lt ha i
      have db := dg_lt hb i
      have hs : u64 (dg a i + dg b i + c) = dg a i + dg b i + c := by
        unfold u64
        apply Nat.mod_eq_of_lt
        simp only [BASE] at da db ⊢; omega
      simp only [hs, u32, Nat.mod_mod]
      refine ⟨by simpa using h1, WF_set h2 _ (Nat.mod_lt _ BASE_pos), ?_, ?_⟩
      · simp only [BASE] at da db ⊢; omega
      · rw [pval_set_succ _ _ (h1 ▸ hi), pval_succ, pval_succ, pow_succ]
        have e := Nat.mod_add_div (dg a i + dg b i + c) BASE
        calc _ = pval r i + ((dg a i + dg b i + c) % BASE + BASE * ((dg a i + dg b i + c) / BASE)) * BASE ^ i := by ring
          _ = _ := by rw [e]; nlinarith [h4])
  obtain ⟨h1, h2, h3, h4⟩ := this
  refine ⟨h1, h2, _, h3, ?_⟩
  rw [pval_of_ge _ (le_of_eq h1), pval_length, pval_of_ge b (le_of_eq hl.symm)] at h4
  exact h4

theorem sub_core (a b : Digits) (ha : WF a) (hb : WF b) (hl : a.length = b.length) :
    (sub a b).length = a.length ∧ WF (sub a b) ∧
      ∃ c, c ≤ 1 ∧ val (sub a b) + val b = val a + c * BASE ^ a.length := by
  unfold sub
  have := fori_inv (fun i (st : Nat × Digits) => st.2.length = a.length ∧ WF st.2 ∧ st.1 ≤ 1 ∧
      pval st.2 i + pval b i = pval a i + st.1 * BASE ^ i) (Nat.zero_le a.length)
    (fun i (st : Nat × Digits) =>
    let r : Nat × Nat :=
      if dg a i ≥ u64 (dg b i + st.1) then (u32 (dg a i - dg b i - st.1), 0)
      else (u32 (u64 (u64 (dg a i + BASE) + BASE * BASE - dg b i + BASE * BASE - st.1)), 1)
    (r.2, st.2.set i r.1))
    (0, List.replicate a.length 0) ⟨by simp, WF_replicate _, by simp, by simp [pval_zero]⟩
    (by
      rintro i ⟨c, r⟩ _ hi ⟨h1, h2, h3, h4⟩
      simp only at h1 h2 h3 h4
      have da := dg_lt ha i
      have db := dg_lt hb i
      have hs : u64 (dg b i + c) = dg b i + c := by
        unfold u64
        apply Nat.mod_eq_of_lt
        simp only [BASE] at da db ⊢; omega
      rw [hs]
      split
      · next hge =>
        refine ⟨by simpa using h1, WF_set h2 _ (Nat.mod_lt _ BASE_pos), by simp, ?_⟩
        simp only
        have e : u32 (dg a i - dg b i - c) = dg a i - dg b i - c :=
          Nat.mod_eq_of_lt (by omega)
        rw [pval_set_succ _ _ (h1 ▸ hi), pval_succ, pval_succ, e]
        have e2 : dg a i = (dg a i - dg b i - c) + dg b i + c := by omega
        generalize dg a i - dg b i - c = x at *
        rw [e2]; nlinarith [h4]
      · next hge =>
        refine ⟨by simpa using h1, WF_set h2 _ (Nat.mod_lt _ BASE_pos), by simp, ?_⟩
        simp only
        have e : u32 (u64 (u64 (dg a i + BASE) + BASE * BASE - dg b i + BASE * BASE - c))
            = dg a i + BASE - dg b i - c := by
          unfold u32 u64
          simp only [BASE] at da db hge ⊢; omega
        rw [pval_set_succ _ _ (h1 ▸ hi), pval_succ, pval_succ, e, pow_succ]
        have e2 : dg a i + BASE = (dg a i + BASE - dg b i - c) + dg b i + c := by omega
        generalize dg a i + BASE - dg b i - c = x at *
        have : pval r i + pval b i + (x + dg b i + c) * BASE ^ i =
          pval a i + c * BASE ^ i + (dg a i + BASE) * BASE ^ i := by rw [h4, e2]
        nlinarith [this])
  obtain ⟨h1, h2, h3, h4⟩ := this
  refine ⟨h1, h2, _, h3, ?_⟩
  rw [pval_of_ge _ (le_of_eq h1), pval_length, pval_of_ge b (le_of_eq hl.symm)] at h4
  exact h4

theorem dg_replicate (n i : Nat) : dg (List.replicate n 0) i = 0 := by
  simp [dg, List.getD_eq_getElem?_getD, List.getElem?_replicate]
  split <;> rfl

/-- One row of the schoolbook product adds `a[i] * b * BASE^i` modulo `BASE^n`. -/
theorem mulInner_core (a b r : Digits) (n i : Nat) (hb : WF b) (hr : WF r) (ha : WF a)
    (hrn : r.length = n) (hi : i < n) :
    (mulInner a b n i r).length = n ∧ WF (mulInner a b n i r) ∧
      ∃ c, val (mulInner a b n i r) + c * BASE ^ n =
        val r + dg a i * pval b (n - i) * BASE ^ i := by
  unfold mulInner
  have := fori_inv (fun j (st : Digits × Nat) => st.1.length = n ∧ WF st.1 ∧ st.2 < BASE ∧
      val st.1 + st.2 * BASE ^ (i + j) = val r + dg a i * pval b j * BASE ^ i)
    (Nat.zero_le (n - i))
    (fun j (st : Digits × Nat) =>
    let k := i + j
    let tmp := u64 (dg st.1 k + u64 (dg a i * dg b j) + st.2)
    (st.1.set k (u32 (tmp % BASE)), tmp / BASE))
    (r, 0) ⟨hrn, hr, BASE_pos, by simp [pval_zero]⟩
    (by
      rintro j ⟨s, c⟩ _ hj ⟨h1, h2, h3, h4⟩
      simp only at h1 h2 h3 h4
      have da := dg_lt ha i
      have db := dg_lt hb j
      have ds := dg_lt h2 (i + j)
      have hprod : dg a i * dg b j ≤ (BASE - 1) * (BASE - 1) :=
        Nat.mul_le_mul (by omega) (by omega)
      have hB : BASE = 4294967296 := rfl
      have e1 : u64 (dg a i * dg b j) = dg a i * dg b j := by
        unfold u64
        apply Nat.mod_eq_of_lt
        rw [hB] at hprod ⊢; omega
      have e2 : u64 (dg s (i + j) + dg a i * dg b j + c) = dg s (i + j) + dg a i * dg b j + c := by
        unfold u64
        apply Nat.mod_eq_of_lt
        rw [hB] at hprod ds h3 ⊢; omega
      simp only [e1, e2, u32, Nat.mod_mod]
      have hk : i + j < s.length := by omega
      refine ⟨by simpa using h1, WF_set h2 _ (Nat.mod_lt _ BASE_pos), ?_, ?_⟩
      · rw [Nat.div_lt_iff_lt_mul BASE_pos]
        rw [hB] at hprod ds h3 ⊢; omega
      · have e3 := val_set s (i + j) ((dg s (i + j) + dg a i * dg b j + c) % BASE) hk
        have e4 := Nat.mod_add_div (dg s (i + j) + dg a i * dg b j + c) BASE
        rw [pval_succ, ← Nat.add_assoc, pow_succ BASE (i + j)]
        have e5 : BASE ^ (i + j) = BASE ^ i * BASE ^ j := pow_add _ _ _
        generalize (dg s (i + j) + dg a i * dg b j + c) % BASE = m at *
        generalize (dg s (i + j) + dg a i * dg b j + c) / BASE = q at *
        have e6 : val (s.set (i + j) m) + dg s (i + j) * BASE ^ (i + j) + q * (BASE ^ (i + j) * BASE)
            = val s + (m + BASE * q) * BASE ^ (i + j) := by rw [e3]; ring
        rw [e4] at e6
        have e7 : val (s.set (i + j) m) + q * (BASE ^ (i + j) * BASE)
          = (val s + c * BASE ^ (i + j)) + dg a i * dg b j * BASE ^ (i + j) := by nlinarith [e6]
        rw [e7, h4, e5]; ring)
  obtain ⟨h1, h2, _, h4⟩ := this
  rw [show i + (n - i) = n by omega] at h4
  exact ⟨h1, h2, _, h4⟩

theorem mul_core (a b : Digits) (ha : WF a) (hb : WF b) (hl : a.length = b.length) :
    (mul a b).length = a.length ∧ WF (mul a b) ∧
      val (mul a b) = val a * val b % BASE ^ a.length := by
  unfold mul
  have := fori_inv (fun i (r : Digits) => r.length = a.length ∧ WF r ∧
      val r ≡ pval a i * val b [MOD BASE ^ a.length]) (Nat.zero_le a.length)
    (fun i r => mulInner a b a.length i r)
    (List.replicate a.length 0) ⟨by simp, WF_replicate _, by simp [pval_zero, val_replicate_zero]; rfl⟩
    (by
      rintro i r _ hi ⟨h1, h2, h3⟩
      obtain ⟨g1, g2, c, g3⟩ := mulInner_core a b r a.length i hb h2 ha h1 hi
      refine ⟨g1, g2, ?_⟩
      have e1 : val (mulInner a b a.length i r) ≡
          val r + dg a i * pval b (a.length - i) * BASE ^ i [MOD BASE ^ a.length] := by
        rw [← g3]
        exact (Nat.modEq_iff_dvd' (by omega)).2 ⟨c, by rw [Nat.add_sub_cancel_left]; ring⟩
      have e2 : dg a i * pval b (a.length - i) * BASE ^ i ≡ dg a i * val b * BASE ^ i
          [MOD BASE ^ a.length] := by
        have e := val_split b (a.length - i)
        have : BASE ^ a.length = BASE ^ (a.length - i) * BASE ^ i := by
          rw [← pow_add]; congr 1; omega
        rw [e]
        refine (Nat.modEq_iff_dvd' ?_).2 ⟨dg a i * val (b.drop (a.length - i)), ?_⟩
        · gcongr; omega
        · rw [this, ← Nat.sub_mul, ← Nat.mul_sub, Nat.add_sub_cancel_left]; ring
      calc _ ≡ _ [MOD _] := e1
        _ ≡ pval a i * val b + dg a i * val b * BASE ^ i [MOD _] := Nat.ModEq.add h3 e2
        _ = pval a (i + 1) * val b := by rw [pval_succ]; ring)
  obtain ⟨h1, h2, h3⟩ := this
  refine ⟨h1, h2, ?_⟩
  rw [pval_length] at h3
  have h4 := val_lt h2
  rw [h1] at h4
  rw [← h3, Nat.mod_eq_of_lt h4]

/-! ### comparison -/

theorem cmpScan_spec (a b : Digits) (ha : WF a) (hb : WF b) (hl : a.length = b.length) :
    ((cmpScan a b).2 = 1 ∧ val a < val b) ∨ ((cmpScan a b).2 = 0 ∧ val b < val a) ∨
      ((cmpScan a b).2 = -5 ∧ val a = val b) := by
  have hsplit : ∀ i, val a = pval a i + BASE ^ i * val (a.drop i) := val_split a
  have hsplitb : ∀ i, val b = pval b i + BASE ^ i * val (b.drop i) := val_split b
  let P : Nat × Int → Prop := fun st => st.1 ≤ a.length ∧
    ((st.2 = -5 ∧ val a + pval b st.1 = val b + pval a st.1) ∨ (st.2 = 1 ∧ val a < val b) ∨
      (st.2 = 0 ∧ val b < val a))
  have step : ∀ st, P st → (decide (st.2 = -5) && decide (st.1 > 0)) = true →
      P ((st.1 - 1), (let r : Int := if dg a (st.1 - 1) < dg b (st.1 - 1) then 1 else -5
        if dg a (st.1 - 1) > dg b (st.1 - 1) then 0 else r)) := by
    rintro ⟨i, r⟩ ⟨h1, h2⟩ hc
    simp only [Bool.and_eq_true, decide_eq_true_eq] at hc h1 h2
    obtain ⟨rfl, hi⟩ := hc
    have h2 : val a + pval b i = val b + pval a i := by
      rcases h2 with h | h | h
      · exact h.2
      · omega
      · omega
    obtain ⟨k, rfl⟩ : ∃ k, i = k + 1 := ⟨i - 1, by omega⟩
    simp only [Nat.add_sub_cancel]
    refine ⟨by simp; omega, ?_⟩
    rw [pval_succ, pval_succ] at h2
    have la := pval_lt ha k
    have lb := pval_lt hb k
    simp only
    rcases lt_trichotomy (dg a k) (dg b k) with h | h | h
    · right; left
      rw [if_neg (by omega), if_pos h]
      refine ⟨rfl, ?_⟩
      obtain ⟨t, ht⟩ : ∃ t, dg b k = dg a k + 1 + t := ⟨dg b k - dg a k - 1, by omega⟩
      rw [ht] at h2
      nlinarith [Nat.zero_le (t * BASE ^ k)]
    · left
      rw [if_neg (by omega), if_neg (by omega)]
      refine ⟨rfl, ?_⟩
      rw [h] at h2; omega
    · right; right
      rw [if_pos h]
      refine ⟨rfl, ?_⟩
      obtain ⟨t, ht⟩ : ∃ t, dg a k = dg b k + 1 + t := ⟨dg a k - dg b k - 1, by omega⟩
      rw [ht] at h2
      nlinarith [Nat.zero_le (t * BASE ^ k)]
  have hinit : P (a.length, -5) := by
    refine ⟨le_rfl, Or.inl ⟨rfl, ?_⟩⟩
    simp only
    rw [pval_length, pval_of_ge b (le_of_eq hl.symm)]; omega
  have hinv : P (cmpScan a b) := whileLoop_inv P _ _ _ _ hinit step
  -- run-out of fuel cannot happen before the index reaches zero
  have hstop : (cmpScan a b).2 = -5 → (cmpScan a b).1 = 0 := by
    intro h
    by_contra h0
    have key : ∀ f i (r : Int), i ≤ f → 
        let res := whileLoop f (fun st : Nat × Int => decide (st.2 = -5) && decide (st.1 > 0))
          (fun st => ((st.1 - 1), (let r : Int := if dg a (st.1 - 1) < dg b (st.1 - 1) then 1 else -5
            if dg a (st.1 - 1) > dg b (st.1 - 1) then 0 else r))) (i, r)
        res.2 = -5 → res.1 = 0 := by
      intro f
      induction f with
      | zero => intro i r hi; simp [whileLoop]; omega
      | succ f ih =>
        intro i r hi
        simp only [whileLoop]
        split
        · next h => exact ih _ _ (by omega)
        · next h => simp at h; intro h'; simp at h' ⊢; have := h h'; omega
    exact h0 (key a.length a.length (-5) le_rfl h)
  obtain ⟨h1, h2 | h2 | h2⟩ := hinv
  · right; right
    refine ⟨h2.1, ?_⟩
    have := h2.2
    rw [hstop h2.1, pval_zero, pval_zero] at this
    omega
  · left; exact h2
  · right; left; exact h2

theorem val_inj (a b : Digits) (ha : WF a) (hb : WF b) (hl : a.length = b.length)
    (h : val a = val b) : a = b := by
  induction a generalizing b with
  | nil => cases b with
    | nil => rfl
    | cons => simp at hl
  | cons d ds ih => cases b with
    | nil => simp at hl
    | cons e es =>
      have h1 : d < BASE := ha d (by simp)
      have h2 : e < BASE := hb e (by simp)
      simp only [val] at h
      have h3 : d = e := by
        have := congrArg (· % BASE) h
        simpa [Nat.add_mul_mod_self_left, Nat.mod_eq_of_lt h1, Nat.mod_eq_of_lt h2] using this
      have h4 : val ds = val es := by
        rw [h3] at h
        exact Nat.eq_of_mul_eq_mul_left BASE_pos (by omega)
      rw [h3, ih es (fun x hx => ha x (by simp [hx])) (fun x hx => hb x (by simp [hx]))
        (by simpa using hl) h4]

theorem eq_iff (a b : Digits) (hl : a.length = b.length) : eq a b = true ↔ a = b := by
  unfold eq
  simp only [List.all_eq_true, List.mem_range, decide_eq_true_eq]
  constructor
  · intro h
    apply List.ext_getElem hl
    intro i h1 h2
    have := h i h1
    simpa [dg, List.getD_eq_getElem?_getD, h1, h2] using this
  · rintro rfl; simp

end Verif.Limb
