import Verif.Limb.Knuth

/-! Correctness of the Knuth division model when no quotient digit estimate is clipped. -/
namespace Verif.Limb

theorem qhat_le {B den vm2 low u2 u1 u0 lowu X q' : Nat} (hX : 0 < X) (hden : den < B)
    (hnorm : B ≤ 2 * den) (hvm : vm2 < B) (hlow : low < X)
    (hq : q' ≤ (u2 * B + u1) / den) (hqB : q' ≤ B) :
    q' ≤ ((u2 * B + u1) * (X * B) + u0 * X + lowu) / (den * (X * B) + vm2 * X + low) + 2 := by
  have hdpos : 0 < den := by omega
  have hVpos : 0 < den * (X * B) + vm2 * X + low := by
    have : 0 < den * (X * B) := Nat.mul_pos hdpos (Nat.mul_pos hX (by omega))
    omega
  have hqd : q' * den ≤ u2 * B + u1 := (Nat.le_div_iff_mul_le hdpos).1 hq
  generalize hV : den * (X * B) + vm2 * X + low = V at *
  generalize hW : (u2 * B + u1) * (X * B) + u0 * X + lowu = W at *
  by_contra hc
  push Not at hc
  have h1 : W < (W / V + 1) * V := by
    have := Nat.lt_div_mul_add (a := W) hVpos; rw [Nat.add_mul]; omega
  obtain ⟨k, hk⟩ : ∃ k, q' = W / V + 3 + k := ⟨q' - (W / V) - 3, by omega⟩
  have h3 : vm2 * X + low ≤ X * B := by
    calc vm2 * X + low ≤ vm2 * X + X := by omega
      _ = (vm2 + 1) * X := by ring
      _ ≤ B * X := Nat.mul_le_mul_right _ hvm
      _ = X * B := Nat.mul_comm _ _
  have h2 : q' * V ≤ W + q' * (X * B) := by
    calc q' * V = q' * den * (X * B) + q' * (vm2 * X + low) := by rw [← hV]; ring
      _ ≤ (u2 * B + u1) * (X * B) + q' * (X * B) := by gcongr
      _ ≤ W + q' * (X * B) := by rw [← hW]; omega
  have h4 : q' * (X * B) ≤ 2 * V := by
    calc q' * (X * B) ≤ B * (X * B) := Nat.mul_le_mul_right _ hqB
      _ ≤ 2 * den * (X * B) := Nat.mul_le_mul_right _ hnorm
      _ ≤ 2 * V := by rw [← hV]; linarith [Nat.zero_le (vm2 * X)]
  have h5 : (W / V + 3 + k) * V ≤ W + 2 * V := by rw [← hk]; omega
  nlinarith [Nat.zero_le (k * V)]

theorem dg_mul_le_val (u : Digits) (k : Nat) : dg u k * BASE ^ k ≤ val u := by
  have h1 := pval_succ u k
  have h2 := val_split u (k + 1)
  omega

theorem dg_zero_of_val_lt {u : Digits} {k : Nat} (h : val u < BASE ^ k) : dg u k = 0 := by
  have := dg_mul_le_val u k
  rcases Nat.eq_zero_or_pos (dg u k) with h0 | h0
  · exact h0
  · nlinarith [Nat.le_mul_of_pos_left (BASE ^ k) h0]

theorem dg_zero_of_val_lt' {u : Digits} {k l : Nat} (h : val u < BASE ^ k) (hl : k ≤ l) :
    dg u l = 0 :=
  dg_zero_of_val_lt (lt_of_lt_of_le h (Nat.pow_le_pow_right BASE_pos hl))

theorem val_top (u : Digits) (k : Nat) (h : ∀ l, k < l → dg u l = 0) :
    val u = pval u k + dg u k * BASE ^ k := by
  rw [val_drop_zero u (k + 1) (fun j hj => h j (by omega)), pval_succ]

set_option maxHeartbeats 1000000 in
theorem knuthStep_spec (v u q : Digits) (m j : Nat) (hm : 2 ≤ m) (hv : WF v) (hu : WF u)
    (hlen : j + m < u.length) (hnorm : 2 ^ 31 ≤ dg v (m - 1))
    (hbound : val u < pval v m * BASE ^ (j + 1))
    (hclip : val u / (pval v m * BASE ^ j) < BASE - 3) :
    (knuthStep v m j (u, q)).1.length = u.length ∧ WF (knuthStep v m j (u, q)).1 ∧
      val (knuthStep v m j (u, q)).1 = val u % (pval v m * BASE ^ j) ∧
      (knuthStep v m j (u, q)).2 = q.set j (val u / (pval v m * BASE ^ j)) := by
  obtain ⟨n, rfl⟩ : ∃ n, m = n + 2 := ⟨m - 2, by omega⟩
  have hB3 : 3 < BASE := by norm_num [BASE]
  have hBp := BASE_pos
  have d2 := dg_lt hu (j + (n + 2))
  have d1 := dg_lt hu (j + (n + 1))
  have d0 := dg_lt hu (j + n)
  have dden := dg_lt hv (n + 1)
  have dvm := dg_lt hv n
  -- decompose divisor and window
  have hVlt : pval v (n + 2) < BASE ^ (n + 2) := pval_lt hv _
  have hW0 : val u < BASE ^ (j + (n + 2) + 1) := by
    calc val u < pval v (n + 2) * BASE ^ (j + 1) := hbound
      _ ≤ BASE ^ (n + 2) * BASE ^ (j + 1) := Nat.mul_le_mul_right _ (le_of_lt hVlt)
      _ = _ := by rw [← pow_add]; congr 1; omega
  have hz : ∀ l, j + (n + 2) < l → dg u l = 0 := fun l hl => dg_zero_of_val_lt' hW0 (by omega)
  have hXj : BASE ^ (j + n) = BASE ^ j * BASE ^ n := pow_add _ _ _
  have hV : pval v (n + 2) * BASE ^ j = dg v (n + 1) * (BASE ^ (j + n) * BASE) + dg v n * BASE ^ (j + n)
      + pval v n * BASE ^ j := by
    rw [pval_succ, pval_succ, hXj, pow_succ]; ring
  have hWd : val u = (dg u (j + (n + 2)) * BASE + dg u (j + (n + 1))) * (BASE ^ (j + n) * BASE)
      + dg u (j + n) * BASE ^ (j + n) + pval u (j + n) := by
    rw [val_top u _ hz, show j + (n + 2) = (j + n) + 1 + 1 by omega, pval_succ, pval_succ,
      show j + (n + 1) = j + n + 1 by omega, pow_succ, pow_succ]
    ring
  have hlow : pval v n * BASE ^ j < BASE ^ (j + n) := by
    rw [hXj, Nat.mul_comm (BASE ^ j)]
    exact Nat.mul_lt_mul_of_pos_right (pval_lt hv n) (Nat.pow_pos hBp)
  have hlowu : pval u (j + n) < BASE ^ (j + n) := pval_lt hu _
  have hX : 0 < BASE ^ (j + n) := Nat.pow_pos hBp
  have hnorm' : BASE ≤ 2 * dg v (n + 1) := by
    have h1 : 2 ^ 31 ≤ dg v (n + 1) := hnorm
    have h2 : BASE = 2 * 2 ^ 31 := by norm_num [BASE]
    omega
  have hdpos : 0 < dg v (n + 1) := by omega
  have hnoclip : (dg u (j + (n + 2)) * BASE + dg u (j + (n + 1))) / dg v (n + 1) < BASE - 1 := by
    by_contra hc
    push Not at hc
    have := qhat_le (u0 := dg u (j + n)) (lowu := pval u (j + n)) hX dden hnorm' dvm hlow hc (by omega)
    rw [← hWd, ← hV] at this
    omega
  have hqh := qhatOf_eq d2 d1 d0 hdpos dden dvm hnoclip
  have hb := qhat_bounds (low := pval v n * BASE ^ j) (lowu := pval u (j + n)) hX dden hnorm' dvm hlow
    hlowu d0 (lt_trans hnoclip (by omega))
  simp only at hb
  rw [← hqh, ← hWd, ← hV] at hb
  obtain ⟨hb1, hb2, _⟩ := hb
  generalize hQ : qhatOf (dg u (j + (n + 2))) (dg u (j + (n + 1))) (dg u (j + n)) (dg v (n + 1)) (dg v n)
    = qhat at *
  have hstep : knuthStep v (n + 2) j (u, q) =
      (let r := subLoop v (n + 2) j qhat u
       let u1 := r.1
       let carry := r.2
       let topBefore := dg u1 (j + (n + 2))
       let underflow := decide (topBefore < u32 carry)
       let u2 := u1.set (j + (n + 2)) (u32 (u64 (topBefore + BASE * BASE + BASE - carry) % BASE))
       if underflow then (addBack v (n + 2) j u2, q.set j (u32 (sub64 qhat 1 % BASE)))
       else (u2, q.set j (u32 (qhat % BASE)))) := by
    rw [← hQ]; rfl
  rw [hstep]
  have hqB : qhat < BASE := by omega
  obtain ⟨s1, s2, s3, s4, s5⟩ := subLoop_spec v u (n + 2) j qhat hv hu hqB hlen
  simp only
  generalize subLoop v (n + 2) j qhat u = R at *
  obtain ⟨u1, c⟩ := R
  simp only at s1 s2 s3 s4 s5 ⊢
  have hVpos : 0 < pval v (n + 2) * BASE ^ j := by
    rw [hV]
    have : 0 < dg v (n + 1) * (BASE ^ (j + n) * BASE) := Nat.mul_pos hdpos (Nat.mul_pos hX hBp)
    omega
  have hVB : pval v (n + 2) * BASE ^ j < BASE ^ (j + (n + 2)) := by
    rw [pow_add, Nat.mul_comm (BASE ^ j)]
    exact Nat.mul_lt_mul_of_pos_right hVlt (Nat.pow_pos hBp)
  have hz1 : ∀ l, j + (n + 2) < l → dg u1 l = 0 := fun l hl => by rw [s4 l (by omega)]; exact hz l hl
  have ht1 := val_top u1 _ hz1
  have hp1 := pval_lt s2 (j + (n + 2))
  have dt := dg_lt s2 (j + (n + 2))
  have hk1 : j + (n + 2) < u1.length := by omega
  have s5' : val u1 + qhat * (pval v (n + 2) * BASE ^ j) = val u + c * BASE ^ (j + (n + 2)) := by
    rw [← s5]; ring
  have hc32 : u32 c = c := Nat.mod_eq_of_lt s3
  rw [hc32]
  have hdm := Nat.div_add_mod (val u) (pval v (n + 2) * BASE ^ j)
  have hml := Nat.mod_lt (val u) hVpos
  generalize hVV : pval v (n + 2) * BASE ^ j = V at *
  generalize hTT : BASE ^ (j + (n + 2)) = T at *
  generalize hdv : val u / V = Q at *
  generalize hmd : val u % V = M at *
  have hTpos : 0 < T := by omega
  by_cases hunder : dg u1 (j + (n + 2)) < c
  · rw [if_pos (by simpa using hunder)]
    -- qhat = Q + 1
    have hlt : val u < qhat * V := by
      have : (dg u1 (j + (n + 2)) + 1) * T ≤ c * T := Nat.mul_le_mul_right _ hunder
      rw [Nat.add_mul] at this
      omega
    have hqQ : qhat = Q + 1 := by
      rcases Nat.lt_or_ge Q qhat with h | h
      · omega
      · have : qhat * V ≤ Q * V := Nat.mul_le_mul_right _ h
        rw [Nat.mul_comm Q] at this
        omega
    subst hqQ
    have htop : u32 (u64 (dg u1 (j + (n + 2)) + BASE * BASE + BASE - c) % BASE)
        = dg u1 (j + (n + 2)) + BASE - c := by
      have hB : BASE = 4294967296 := rfl
      unfold u32 u64
      rw [hB] at s3 dt ⊢; omega
    rw [htop]
    have hnew : dg u1 (j + (n + 2)) + BASE - c < BASE := by omega
    have hw2 : WF (u1.set (j + (n + 2)) (dg u1 (j + (n + 2)) + BASE - c)) := WF_set s2 _ hnew
    have hl2 : (u1.set (j + (n + 2)) (dg u1 (j + (n + 2)) + BASE - c)).length = u.length := by simpa using s1
    have hv2 := val_set u1 (j + (n + 2)) (dg u1 (j + (n + 2)) + BASE - c) hk1
    have hp2 : pval (u1.set (j + (n + 2)) (dg u1 (j + (n + 2)) + BASE - c)) (j + (n + 2))
      = pval u1 (j + (n + 2)) := pval_set_of_le _ _ le_rfl
    have hd2 : dg (u1.set (j + (n + 2)) (dg u1 (j + (n + 2)) + BASE - c)) (j + (n + 2))
        = dg u1 (j + (n + 2)) + BASE - c := by rw [dg_set _ _ _ _ hk1, if_pos rfl]
    have hz2 : ∀ l, j + (n + 2) < l →
        dg (u1.set (j + (n + 2)) (dg u1 (j + (n + 2)) + BASE - c)) l = 0 := by
      intro l hl; rw [dg_set _ _ _ _ hk1, if_neg (by omega)]; exact hz1 l hl
    obtain ⟨a1, a2, a3, a4, a5⟩ := addLoop_spec v (u1.set (j + (n + 2)) (dg u1 (j + (n + 2)) + BASE - c))
      (n + 2) j hv hw2 (by rw [hl2]; exact hlen)
    have hab : addBack v (n + 2) j (u1.set (j + (n + 2)) (dg u1 (j + (n + 2)) + BASE - c)) =
        (let r := fori 0 (n + 2) (fun i (st : Digits × Nat) =>
          let ssum := u64 (dg st.1 (j + i) + dg v i + st.2)
          (st.1.set (j + i) (u32 (ssum % BASE)), ssum / BASE))
            (u1.set (j + (n + 2)) (dg u1 (j + (n + 2)) + BASE - c), 0)
        r.1.set (j + (n + 2)) (u32 (dg r.1 (j + (n + 2)) + 1))) := rfl
    rw [hab]
    generalize fori 0 (n + 2) (fun i (st : Digits × Nat) =>
          let ssum := u64 (dg st.1 (j + i) + dg v i + st.2)
          (st.1.set (j + i) (u32 (ssum % BASE)), ssum / BASE))
            (u1.set (j + (n + 2)) (dg u1 (j + (n + 2)) + BASE - c), 0) = R at *
    obtain ⟨u3, c3⟩ := R
    simp only at a1 a2 a3 a4 a5 ⊢
    have a4t := a4 (j + (n + 2)) le_rfl
    rw [hd2] at a4t
    have hz3 : ∀ l, j + (n + 2) < l → dg u3 l = 0 := fun l hl => by
      rw [a4 l (by omega)]; exact hz2 l hl
    have ht3 := val_top u3 _ hz3
    have hp3 := pval_lt a2 (j + (n + 2))
    rw [hTT] at ht3 hp3 hv2
    rw [hTT, hVV] at a5
    -- values
    have hv2' : val (u1.set (j + (n + 2)) (dg u1 (j + (n + 2)) + BASE - c)) =
        pval u1 (j + (n + 2)) + (dg u1 (j + (n + 2)) + BASE - c) * T := by omega
    rw [hv2'] at a5
    generalize hnd : dg u1 (j + (n + 2)) + BASE - c = nd at *
    generalize dg u1 (j + (n + 2)) = t1 at *
    have hc' : nd + c = t1 + BASE := by omega
    -- pval u1 + t1*T + (Q+1)*V = V*Q + M + c*T
    have k1 : pval u1 (j + (n + 2)) + t1 * T + V = M + c * T := by
      rw [ht1] at s5'; rw [Nat.add_mul, Nat.mul_comm Q, Nat.one_mul] at s5'; omega
    -- hence t1 + 1 = c and the low part plus V is M + T
    have k2 : t1 + 1 = c := by
      by_contra hne
      obtain ⟨d, hd⟩ : ∃ d, c = t1 + 2 + d := ⟨c - t1 - 2, by omega⟩
      rw [hd] at k1
      have : (t1 + 2 + d) * T = t1 * T + 2 * T + d * T := by ring
      omega
    have k3 : pval u1 (j + (n + 2)) + V = M + T := by rw [← k2, Nat.add_mul] at k1; omega
    have k4 : nd = BASE - 1 := by omega
    have k5 : pval u3 (j + (n + 2)) + c3 * T = M + T := by
      rw [ht3, a4t] at a5; omega
    have k6 : c3 = 1 := by
      rcases Nat.eq_zero_or_pos c3 with h0 | h0
      · rw [h0] at k5; omega
      · omega
    have k7 : pval u3 (j + (n + 2)) = M := by rw [k6] at k5; omega
    have k8 : u32 (dg u3 (j + (n + 2)) + 1) = 0 := by
      rw [a4t, k4]; unfold u32; rw [Nat.sub_add_cancel hBp]; exact Nat.mod_self _
    rw [k8]
    have hk3 : j + (n + 2) < u3.length := by rw [a1, hl2]; exact hlen
    have hv3 := val_set u3 (j + (n + 2)) 0 hk3
    rw [hTT] at hv3
    refine ⟨by simpa using a1.trans hl2, WF_set a2 _ hBp, ?_, ?_⟩
    · omega
    · rw [sub64_eq (by omega) (lt_of_lt_of_le hqB (Nat.le_mul_of_pos_left _ hBp)), Nat.add_sub_cancel]
      rw [u32, Nat.mod_mod, Nat.mod_eq_of_lt (by omega)]
  · rw [if_neg (by simpa using hunder)]
    have htop : u32 (u64 (dg u1 (j + (n + 2)) + BASE * BASE + BASE - c) % BASE)
        = dg u1 (j + (n + 2)) - c := by
      have hB : BASE = 4294967296 := rfl
      unfold u32 u64
      rw [hB] at s3 dt ⊢; omega
    rw [htop]
    have hnew : dg u1 (j + (n + 2)) - c < BASE := by omega
    have hv2 := val_set u1 (j + (n + 2)) (dg u1 (j + (n + 2)) - c) hk1
    rw [hTT] at hv2
    have e1 : dg u1 (j + (n + 2)) - c + c = dg u1 (j + (n + 2)) := by omega
    generalize dg u1 (j + (n + 2)) - c = nd at *
    have e2 : val (u1.set (j + (n + 2)) nd) + qhat * V = val u := by
      have e3 : (nd + c) * T = nd * T + c * T := Nat.add_mul _ _ _
      rw [e1] at e3; omega
    have hqQ : qhat = Q := by
      have h1 : qhat * V ≤ V * Q + M := by omega
      have h2 : qhat < Q + 1 := by
        by_contra hc
        have : (Q + 1) * V ≤ qhat * V := Nat.mul_le_mul_right _ (by omega)
        rw [Nat.add_mul, Nat.mul_comm Q] at this
        omega
      omega
    subst hqQ
    refine ⟨by simpa using s1, WF_set s2 _ hnew, ?_, ?_⟩
    · rw [Nat.mul_comm qhat] at e2
      change val (u1.set (j + (n + 2)) nd) = M
      omega
    · rw [u32, Nat.mod_mod, Nat.mod_eq_of_lt hqB]

theorem fori_congr {σ : Type*} {lo hi : Nat} {f g : Nat → σ → σ} (s : σ)
    (h : ∀ i s, lo ≤ i → i < hi → f i s = g i s) : fori lo hi f s = fori lo hi g s := by
  rcases le_total lo hi with hle | hle
  · induction hi, hle using Nat.le_induction with
    | base => simp [fori_self]
    | succ k hk ih =>
      rw [fori_succ hk, fori_succ hk, ih (fun i s h1 h2 => h i s h1 (by omega)),
        h k _ hk (by omega)]
  · simp [fori, Nat.sub_eq_zero_of_le hle]

/-- The copy loop at the end keeps the low `m` limbs. -/
theorem copyLow_spec (w : Digits) (N m : Nat) (hw : WF w) (hz : ∀ l, m ≤ l → dg w l = 0)
    (hmN : m ≤ N) :
    let r := fori 0 N (fun i (r : Digits) => r.set i (if i < m then dg w i else 0)) (List.replicate N 0)
    r.length = N ∧ WF r ∧ val r = val w := by
  have := fori_inv (fun i (r : Digits) => r.length = N ∧ WF r ∧ pval r i = pval w i) (Nat.zero_le N)
    (fun i (r : Digits) => r.set i (if i < m then dg w i else 0)) (List.replicate N 0)
    ⟨by simp, WF_replicate _, by simp [pval_zero]⟩
    (by
      rintro i r _ hi ⟨h1, h2, h3⟩
      have e : (if i < m then dg w i else 0) = dg w i := by
        split
        · rfl
        · next h => exact (hz i (by omega)).symm
      rw [e]
      refine ⟨by simpa using h1, WF_set h2 _ (dg_lt hw i), ?_⟩
      rw [pval_set_succ _ _ (by omega), pval_succ, h3])
  obtain ⟨h1, h2, h3⟩ := this
  refine ⟨h1, h2, ?_⟩
  rw [pval_of_ge _ (le_of_eq h1)] at h3
  rw [h3]
  exact (val_drop_zero w N (fun j hj => hz j (by omega))).symm

set_option maxHeartbeats 1000000 in
theorem multiLimb_spec (u v : Digits) (hu : WF u) (hv : WF v) (hl : u.length = v.length)
    (hm : 2 ≤ msLength v) (hmn : msLength v ≤ msLength u)
    (hclip : ∀ i, val u / val v / BASE ^ i % BASE < BASE - 3) :
    let r := multiLimb u v (msLength v) (msLength u)
    r.1.length = u.length ∧ r.2.length = u.length ∧ WF r.1 ∧ WF r.2 ∧
      val r.1 = val u % val v ∧ val r.2 = val u / val v := by
  have hBp := BASE_pos
  have hv0 : val v ≠ 0 := by
    intro h; rw [(msLength_spec v).1 h] at hm; omega
  obtain ⟨mv1, mv2, mv3⟩ := (msLength_spec v).2.1 hv0
  have hvp := (msLength_spec v).2.2.2
  have hvz := (msLength_spec v).2.2.1
  have hu0 : val u ≠ 0 := by
    intro h; rw [(msLength_spec u).1 h] at hmn; omega
  obtain ⟨mu1, mu2, mu3⟩ := (msLength_spec u).2.1 hu0
  have hup := (msLength_spec u).2.2.2
  unfold multiLimb
  generalize hmdef : msLength v = m at *
  generalize hndef : msLength u = nE at *
  simp only
  have hdtop := dg_lt hv (m - 1)
  obtain ⟨cl1, cl2, cl3⟩ := clz32_spec (dg v (m - 1)) (by omega) hdtop
  generalize hs : clz32 (dg v (m - 1)) = s at *
  obtain ⟨sv1, sv2, sv3, sv4⟩ := shlBits_spec v hv s cl1
  obtain ⟨su1, su2, su3, su4⟩ := shlBits_spec u hu s cl1
  generalize shlBits v s = SV at *
  generalize shlBits u s = SU at *
  obtain ⟨vn, cv⟩ := SV
  obtain ⟨un, cu⟩ := SU
  simp only at sv1 sv2 sv3 sv4 su1 su2 su3 su4 ⊢
  have h2s : 2 ^ s < BASE := by rw [BASE]; exact Nat.pow_lt_pow_right (by norm_num) cl1
  have h2s' : 2 ^ s * 2 ≤ BASE := by
    rw [BASE, ← pow_succ]; exact Nat.pow_le_pow_right (by norm_num) (by omega)
  -- divisor fits into its limbs after normalisation
  have hvval : val v = pval v (m - 1) + dg v (m - 1) * BASE ^ (m - 1) := by
    rw [hvp]; conv_lhs => rw [show m = m - 1 + 1 by omega]
    rw [pval_succ]
  have hplow := pval_lt hv (m - 1)
  have hvnlt : val v * 2 ^ s < BASE ^ m := by
    have h1 : val v < (dg v (m - 1) + 1) * BASE ^ (m - 1) := by rw [hvval, Nat.add_mul]; omega
    have h2 : (dg v (m - 1) + 1) * 2 ^ s ≤ BASE := by
      have hBs : BASE = 2 ^ (32 - s) * 2 ^ s := by rw [← pow_add, BASE]; congr 1; omega
      rw [hBs] at cl3 ⊢
      have := Nat.lt_of_mul_lt_mul_right cl3
      exact Nat.mul_le_mul_right _ this
    calc val v * 2 ^ s < (dg v (m - 1) + 1) * BASE ^ (m - 1) * 2 ^ s :=
          Nat.mul_lt_mul_of_pos_right h1 (by positivity)
      _ = (dg v (m - 1) + 1) * 2 ^ s * BASE ^ (m - 1) := by ring
      _ ≤ BASE * BASE ^ (m - 1) := Nat.mul_le_mul_right _ h2
      _ = BASE ^ m := by rw [← pow_succ']; congr 1; omega
  have hBm : BASE ^ m ≤ BASE ^ v.length := Nat.pow_le_pow_right hBp mv2
  have hcv : cv = 0 := by
    rcases Nat.eq_zero_or_pos cv with h | h
    · exact h
    · have := Nat.le_mul_of_pos_left (BASE ^ v.length) h
      omega
  rw [hcv, Nat.zero_mul, Nat.add_zero] at sv4
  have hvnz : ∀ l, m ≤ l → dg vn l = 0 := fun l hl' => dg_zero_of_val_lt' (by rw [sv4]; exact hvnlt) hl'
  have hVn : pval vn m = val v * 2 ^ s := by rw [← val_drop_zero vn m hvnz, sv4]
  have hnormd : 2 ^ 31 ≤ dg vn (m - 1) := by
    have h1 : 2 ^ 31 * BASE ^ (m - 1) ≤ val vn := by
      rw [sv4, hvval]
      calc 2 ^ 31 * BASE ^ (m - 1) ≤ dg v (m - 1) * 2 ^ s * BASE ^ (m - 1) := Nat.mul_le_mul_right _ cl2
        _ ≤ _ := by rw [Nat.add_mul]; linarith [Nat.zero_le (pval v (m - 1) * 2 ^ s)]
    have h2 := val_top vn (m - 1) (fun l hl' => hvnz l (by omega))
    have h3 := pval_lt sv2 (m - 1)
    by_contra hc
    push Not at hc
    have : (dg vn (m - 1) + 1) * BASE ^ (m - 1) ≤ 2 ^ 31 * BASE ^ (m - 1) := Nat.mul_le_mul_right _ hc
    rw [Nat.add_mul] at this
    omega
  have hwfun : WF (un ++ [cu]) := by
    intro d hd
    rcases List.mem_append.1 hd with h | h
    · exact su2 d h
    · simp only [List.mem_singleton] at h; rw [h]; omega
  have hunval : val (un ++ [cu]) = val u * 2 ^ s := by
    rw [val_append, su1, ← su4]; simp [val, Nat.mul_comm]
  have hunlen : (un ++ [cu]).length = u.length + 1 := by simp [su1]
  have hVpos : 0 < val v * 2 ^ s := Nat.mul_pos (by omega) (by positivity)
  have hdivscale : val u * 2 ^ s / (val v * 2 ^ s) = val u / val v :=
    Nat.mul_div_mul_right _ _ (by positivity)
  -- initial bound
  have hinit : val u * 2 ^ s < val v * 2 ^ s * BASE ^ (nE - m + 1) := by
    have h1 : val u < BASE ^ nE := by rw [hup]; exact pval_lt hu _
    have h3 : BASE ^ m ≤ 2 * (val v * 2 ^ s) := by
      have h4 := val_top vn (m - 1) (fun l hl' => hvnz l (by omega))
      have h5 : 2 ^ 31 * BASE ^ (m - 1) ≤ val vn := by
        rw [h4]
        calc _ ≤ dg vn (m - 1) * BASE ^ (m - 1) := Nat.mul_le_mul_right _ hnormd
          _ ≤ _ := by omega
      rw [← sv4]
      calc BASE ^ m = 2 * (2 ^ 31 * BASE ^ (m - 1)) := by
            have hB2 : BASE = 2 * 2 ^ 31 := by norm_num [BASE]
            have e : BASE ^ m = BASE * BASE ^ (m - 1) := by rw [← pow_succ']; congr 1; omega
            have e2 : ∀ X, BASE * X = 2 * (2 ^ 31 * X) := fun X => by rw [← Nat.mul_assoc, ← hB2]
            rw [e, e2]
        _ ≤ 2 * val vn := Nat.mul_le_mul_left _ h5
    have h6 : BASE ^ nE * BASE = BASE ^ m * BASE ^ (nE - m + 1) := by
      rw [← pow_add, ← pow_succ]; congr 1; omega
    have h7 : BASE ^ m * BASE ^ (nE - m + 1) ≤ 2 * (val v * 2 ^ s) * BASE ^ (nE - m + 1) :=
      Nat.mul_le_mul_right _ h3
    have h8 : val u * 2 ^ s * 2 < BASE ^ nE * BASE := by
      calc val u * 2 ^ s * 2 = val u * (2 ^ s * 2) := by ring
        _ < BASE ^ nE * (2 ^ s * 2) := Nat.mul_lt_mul_of_pos_right h1 (by positivity)
        _ ≤ BASE ^ nE * BASE := Nat.mul_le_mul_left _ h2s'
    have h9 : 2 * (val v * 2 ^ s) * BASE ^ (nE - m + 1) = 2 * (val v * 2 ^ s * BASE ^ (nE - m + 1)) := by ring
    omega
  -- main loop
  have hmain := fori_inv (fun t (st : Digits × Digits) =>
      st.1.length = u.length + 1 ∧ WF st.1 ∧ st.2.length = u.length ∧ WF st.2 ∧
      val st.1 + val st.2 * (val v * 2 ^ s) = val u * 2 ^ s ∧
      (t ≤ nE - m → val st.1 < val v * 2 ^ s * BASE ^ (nE - m - t + 1) ∧
        pval st.2 (nE - m - t + 1) = 0) ∧
      (nE - m < t → val st.1 < val v * 2 ^ s)) (Nat.zero_le u.length)
    (fun t (st : Digits × Digits) => if t ≤ nE - m then knuthStep vn m (nE - m - t) st else st)
    (un ++ [cu], List.replicate u.length 0)
    ⟨hunlen, hwfun, by simp, WF_replicate _, by simp [val_replicate_zero, hunval],
      fun _ => ⟨by simpa [hunval] using hinit, by simp [pval, List.take_replicate, val_replicate_zero]⟩,
      fun h => by omega⟩
    (by
      rintro t ⟨w, q⟩ _ ht ⟨h1, h2, h3, h4, h5, h6, h7⟩
      simp only at h1 h2 h3 h4 h5 h6 h7
      split
      · next hact =>
        obtain ⟨h6a, h6b⟩ := h6 hact
        generalize hj : nE - m - t = j at *
        have hjm : j + m < w.length := by omega
        -- the digit computed in this step is digit j of the true quotient
        have hdig : val w / (val v * 2 ^ s * BASE ^ j) = val u / val v / BASE ^ j % BASE := by
          rw [← hdivscale, ← h5]
          have e1 : val q = BASE ^ (j + 1) * val (q.drop (j + 1)) := by
            rw [val_split q (j + 1), h6b]; simp
          rw [Nat.add_mul_div_right _ _ hVpos, e1, pow_succ, Nat.mul_assoc (BASE ^ j) BASE, Nat.add_mul_div_left _ _
            (Nat.pow_pos hBp), Nat.add_mul_mod_self_left, Nat.div_div_eq_div_mul]
          rw [Nat.mod_eq_of_lt]
          rw [Nat.div_lt_iff_lt_mul (Nat.mul_pos hVpos (Nat.pow_pos hBp))]
          calc val w < val v * 2 ^ s * BASE ^ (j + 1) := h6a
            _ = _ := by rw [pow_succ]; ring
        have hcl := hclip j
        rw [← hdig] at hcl
        obtain ⟨k1, k2, k3, k4⟩ := knuthStep_spec vn w q m j hm sv2 h2 hjm hnormd
          (by rw [hVn]; exact h6a) (by rw [hVn]; exact hcl)
        rw [hVn] at k3 k4
        have hdlt : val w / (val v * 2 ^ s * BASE ^ j) < BASE := by omega
        have hjq : j < q.length := by omega
        have hqj : dg q j = 0 ∧ pval q j = 0 := by
          rw [pval_succ] at h6b
          have h8 := Nat.pow_pos (n := j) hBp
          constructor
          · rcases Nat.eq_zero_or_pos (dg q j) with h | h
            · exact h
            · have := Nat.mul_pos h h8; omega
          · omega
        have hdm := Nat.div_add_mod (val w) (val v * 2 ^ s * BASE ^ j)
        have hmlt := Nat.mod_lt (val w) (show 0 < val v * 2 ^ s * BASE ^ j from
          Nat.mul_pos hVpos (Nat.pow_pos hBp))
        refine ⟨by rw [k1, h1], k2, by rw [k4]; simpa using h3, by rw [k4]; exact WF_set h4 _ hdlt, ?_, ?_, ?_⟩
        · rw [k3, k4]
          have e := val_set q j (val w / (val v * 2 ^ s * BASE ^ j)) hjq
          rw [hqj.1, Nat.zero_mul, Nat.add_zero] at e
          rw [e, ← h5]
          conv_rhs => rw [← hdm]
          ring
        · intro ht'
          have e : nE - m - (t + 1) + 1 = j := by omega
          rw [e]
          refine ⟨by rw [k3]; exact hmlt, ?_⟩
          rw [k4, pval_set_of_le _ _ le_rfl]; exact hqj.2
        · intro ht'
          have e : j = 0 := by omega
          rw [k3]
          rw [e, pow_zero, Nat.mul_one] at hmlt ⊢
          exact hmlt
      · next hact =>
        have := h7 (by omega)
        exact ⟨h1, h2, h3, h4, h5, fun h => by omega, fun _ => this⟩)
  generalize fori 0 u.length (fun t (st : Digits × Digits) =>
    if t ≤ nE - m then knuthStep vn m (nE - m - t) st else st) (un ++ [cu], List.replicate u.length 0)
      = F at *
  obtain ⟨w, q⟩ := F
  simp only at hmain ⊢
  obtain ⟨h1, h2, h3, h4, h5, _, h7⟩ := hmain
  have hfin := h7 (by omega)
  have hwz : ∀ l, m ≤ l → dg w l = 0 := fun l hl' => dg_zero_of_val_lt' (lt_trans hfin hvnlt) hl'
  obtain ⟨c1, c2, c3⟩ := copyLow_spec w u.length m h2 hwz (by omega)
  obtain ⟨r1, r2, r3⟩ := shrBits_spec _ c2 s cl1
  have hq : val q = val u / val v := by
    rw [← hdivscale, ← h5, Nat.add_mul_div_right _ _ hVpos, Nat.div_eq_of_lt hfin, Nat.zero_add]
  have hr : val w = val u % val v * 2 ^ s := by
    rw [Nat.mul_comm (val u % val v), Nat.mul_mod_mul_left .. |>.symm]
    rw [Nat.mul_comm (2 ^ s) (val u), Nat.mul_comm (2 ^ s) (val v), ← h5, Nat.add_mul_mod_self_right,
      Nat.mod_eq_of_lt hfin]
  refine ⟨by rw [r1, c1], h3, r2, h4, ?_, hq⟩
  rw [r3, c3, hr]
  exact Nat.mul_div_cancel _ (by positivity)

/-- Full statement of the guarded correctness of the modelled division. -/
theorem divmodKnuth_spec (u v : Digits) (hu : WF u) (hv : WF v) (hl : u.length = v.length)
    (hv0 : val v ≠ 0)
    (hclip : BASE ≤ val v → ∀ i, val u / val v / BASE ^ i % BASE < BASE - 3) :
    (divmodKnuth u v).1.length = u.length ∧ (divmodKnuth u v).2.length = u.length ∧
      WF (divmodKnuth u v).1 ∧ WF (divmodKnuth u v).2 ∧
      val (divmodKnuth u v).1 = val u % val v ∧ val (divmodKnuth u v).2 = val u / val v := by
  obtain ⟨mv1, mv2, mv3⟩ := (msLength_spec v).2.1 hv0
  have hvp := (msLength_spec v).2.2.2
  have hup := (msLength_spec u).2.2.2
  unfold divmodKnuth
  simp only
  rw [if_neg (by omega)]
  split
  · next hlt =>
    have h1 : val u < val v := by
      have a1 : val u < BASE ^ msLength u := by rw [hup]; exact pval_lt hu _
      have a2 : BASE ^ (msLength v - 1) ≤ val v := by
        have := dg_mul_le_val v (msLength v - 1)
        exact le_trans (Nat.le_mul_of_pos_left _ (by omega)) this
      have a3 : BASE ^ msLength u ≤ BASE ^ (msLength v - 1) := Nat.pow_le_pow_right BASE_pos (by omega)
      omega
    refine ⟨rfl, by simp, hu, WF_replicate _, (Nat.mod_eq_of_lt h1).symm, ?_⟩
    rw [val_replicate_zero, Nat.div_eq_of_lt h1]
  · next hge =>
    split
    · next h1 =>
      have hval : val v = dg v 0 := by
        rw [hvp, h1, pval_succ, pval_zero]; simp
      have hd := dg_lt hv 0
      obtain ⟨s1, s2, s3, s4⟩ := divmodSingle_spec u hu (dg v 0) (by omega) hd
      have hlen : 0 < u.length := by omega
      have hrlt : (divmodSingle u (dg v 0)).2 < BASE := by
        rw [s4]; exact lt_trans (Nat.mod_lt _ (by omega)) hd
      refine ⟨by simp, s1, WF_set (WF_replicate _) _ hrlt, s2, ?_, by rw [s3, hval]⟩
      have := val_set (List.replicate u.length 0) 0 (divmodSingle u (dg v 0)).2 (by simpa using hlen)
      rw [dg_replicate, val_replicate_zero] at this
      simp only [Nat.add_zero, pow_zero, Nat.mul_one, Nat.zero_add] at this
      rw [this, s4, hval]
    · next h1 =>
      have hm : 2 ≤ msLength v := by omega
      have hB : BASE ≤ val v := by
        have := dg_mul_le_val v (msLength v - 1)
        have a2 : BASE ^ 1 ≤ BASE ^ (msLength v - 1) := Nat.pow_le_pow_right BASE_pos (by omega)
        rw [pow_one] at a2
        exact le_trans a2 (le_trans (Nat.le_mul_of_pos_left _ (by omega)) this)
      exact multiLimb_spec u v hu hv hl hm (by omega) (hclip hB)

end Verif.Limb
