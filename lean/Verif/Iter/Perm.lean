import Verif.Iter.Shift
import Mathlib.Data.List.Perm.Basic
import Mathlib.Data.List.Perm.Subperm

/-!
# Cyclic shifts and permutations do what they say
-/

namespace Verif.Iter

variable {α : Type}

theorem ladder_bound {N : ℕ} {x : ℕ × ℕ} (hx : x ∈ ladder N) : x.1 < N ∧ x.2 < N := by
  unfold ladder at hx
  rw [List.mem_flatMap] at hx
  obtain ⟨j, _, hx⟩ := hx
  unfold ladderStage at hx
  rw [mem_flat (P := fun i => i % (2 * 2 ^ j) = 0 ∧ i + 2 ^ j < N) (g := fun i => (i, i + 2 ^ j))] at hx
  obtain ⟨i, _, h, rfl⟩ := hx
  exact ⟨lt_of_le_of_lt (Nat.le_add_right _ _) h.2, h.2⟩

theorem saeedi_bound {N : ℕ} {x : ℕ × ℕ} (hx : x ∈ saeedi N) : x.1 < N ∧ x.2 < N := by
  unfold saeedi at hx
  have key : ∀ c, x ∈ saeediLoop N c → x.1 < N ∧ x.2 < N := fun c hx => by
    unfold saeediLoop at hx
    rw [mem_flat (P := fun i => (N - i) % N ≠ i + c ∧ i + c < N) (g := fun i => ((N - i) % N, i + c))] at hx
    obtain ⟨i, _, h, rfl⟩ := hx
    exact ⟨Nat.mod_lt _ (by omega), h.2⟩
  rcases List.mem_append.1 hx with h | h
  · exact key 1 h
  · exact key 2 h

theorem getD_inj {idx : List ℕ} (hnd : idx.Nodup) {i j : ℕ} (hi : i < idx.length) (hj : j < idx.length)
    (h : idx.getD i 0 = idx.getD j 0) : i = j := by
  rw [List.getD_eq_getElem _ _ hi, List.getD_eq_getElem _ _ hj] at h
  exact (hnd.getElem_inj_iff).1 h

theorem getD_mem' {idx : List ℕ} {i : ℕ} (hi : i < idx.length) : idx.getD i 0 ∈ idx := by
  rw [List.getD_eq_getElem _ _ hi]; exact List.getElem_mem hi

theorem mem_getD {idx : List ℕ} {q : ℕ} (h : q ∈ idx) : ∃ i, i < idx.length ∧ idx.getD i 0 = q := by
  obtain ⟨i, hi, rfl⟩ := List.getElem_of_mem h
  exact ⟨i, hi, List.getD_eq_getElem _ _ hi⟩

theorem runP_congr {L : ℕ} : ∀ (ps : List (ℕ × ℕ)), (∀ x ∈ ps, x.1 < L ∧ x.2 < L) → ∀ (f g : ℕ → α),
    (∀ t, t < L → f t = g t) → ∀ t, t < L → runP ps f t = runP ps g t := by
  intro ps
  induction ps with
  | nil => intro _ f g h t ht; exact h t ht
  | cons y ps ih =>
    intro hb f g h t ht
    have hy := hb y List.mem_cons_self
    refine ih (fun z hz => hb z (List.mem_cons_of_mem _ hz)) _ _ (fun u hu => ?_) t ht
    unfold swapP
    rw [h _ hy.1, h _ hy.2, h u hu]

theorem runP_onIdx {idx : List ℕ} (hnd : idx.Nodup) : ∀ (ps : List (ℕ × ℕ)),
    (∀ x ∈ ps, x.1 < idx.length ∧ x.2 < idx.length) → ∀ (v : ℕ → α),
    (∀ t, t < idx.length → runP (onIdx idx ps) v (idx.getD t 0) = runP ps (fun t => v (idx.getD t 0)) t) ∧
    ∀ q, q ∉ idx → runP (onIdx idx ps) v q = v q := by
  intro ps
  induction ps with
  | nil => intro _ v; exact ⟨fun t _ => rfl, fun q _ => rfl⟩
  | cons x ps ih =>
    intro hb v
    have hx := hb x List.mem_cons_self
    obtain ⟨h1, h2⟩ := ih (fun y hy => hb y (List.mem_cons_of_mem _ hy)) (swapP v (idx.getD x.1 0) (idx.getD x.2 0))
    refine ⟨fun t ht => ?_, fun q hq => ?_⟩
    · show runP (onIdx idx ps) _ _ = runP ps _ t
      rw [h1 t ht]
      refine runP_congr ps (fun y hy => hb y (List.mem_cons_of_mem _ hy)) _ _ (fun u hu => ?_) t ht
      unfold swapP
      by_cases e1 : u = x.1
      · rw [if_pos (by rw [e1]), if_pos e1]
      · rw [if_neg (fun e => e1 (getD_inj hnd hu hx.1 e)), if_neg e1]
        by_cases e2 : u = x.2
        · rw [if_pos (by rw [e2]), if_pos e2]
        · rw [if_neg (fun e => e2 (getD_inj hnd hu hx.2 e)), if_neg e2]
    · show runP (onIdx idx ps) _ q = _
      rw [h2 q hq]
      unfold swapP
      rw [if_neg (fun e : q = idx.getD x.1 0 => hq (e ▸ getD_mem' hx.1)),
        if_neg (fun e : q = idx.getD x.2 0 => hq (e ▸ getD_mem' hx.2))]

/-- `cyclic_shift(·, 1)`: every element moves to the next position, cyclically. -/
theorem cyc1_spec {idx : List ℕ} (hnd : idx.Nodup) (v : ℕ → α) :
    (∀ t, t < idx.length → runP (cyc1 idx) v (idx.getD t 0) =
      v (idx.getD (if t = 0 then idx.length - 1 else t - 1) 0)) ∧
    ∀ q, q ∉ idx → runP (cyc1 idx) v q = v q := by
  unfold cyc1
  simp only
  by_cases h1 : idx.length ≤ 1
  · rw [if_pos h1]
    refine ⟨fun t ht => ?_, fun q _ => rfl⟩
    have e : t = 0 := by omega
    subst e
    rw [if_pos rfl, show idx.length - 1 = 0 by omega]
    rfl
  · rw [if_neg h1]
    set N := idx.length with hN
    set n := Nat.log 2 N with hn
    have hMN : 2 ^ n ≤ N := Nat.pow_log_le_self 2 (by omega)
    have hM1 : 2 ≤ 2 ^ n := by
      have : 1 ≤ n := Nat.log_pos (by norm_num) (by omega)
      calc 2 = 2 ^ 1 := rfl
        _ ≤ 2 ^ n := Nat.pow_le_pow_right (by norm_num) this
    generalize hM : 2 ^ n = M at hMN hM1
    have hlt : (idx.take M).length = M := by rw [List.length_take]; omega
    have hgt : ∀ t, t < M → (idx.take M).getD t 0 = idx.getD t 0 := fun t ht => by
      rw [List.getD_eq_getElem _ _ (by omega), List.getD_eq_getElem _ _ (by omega), List.getElem_take]
    have hld : (idx.getD 0 0 :: idx.drop M).length = N - M + 1 := by
      rw [List.length_cons, List.length_drop]
    have hgd0 : (idx.getD 0 0 :: idx.drop M).getD 0 0 = idx.getD 0 0 := rfl
    have hgd : ∀ t, t < N - M → (idx.getD 0 0 :: idx.drop M).getD (t + 1) 0 = idx.getD (M + t) 0 := fun t ht => by
      rw [List.getD_cons_succ, List.getD_eq_getElem _ _ (by rw [List.length_drop]; omega),
        List.getD_eq_getElem _ _ (by omega), List.getElem_drop]
    have hnd2 : (idx.getD 0 0 :: idx.drop M).Nodup := by
      rw [List.nodup_cons]
      refine ⟨fun hm => ?_, hnd.sublist (List.drop_sublist _ _)⟩
      obtain ⟨i, hi, he⟩ := List.getElem_of_mem hm
      rw [List.getElem_drop, List.getD_eq_getElem _ _ (show 0 < idx.length by omega)] at he
      have := (hnd.getElem_inj_iff).1 he
      omega
    have hnd1 : (idx.take M).Nodup := hnd.sublist (List.take_sublist _ _)
    obtain ⟨a1, a2⟩ := runP_onIdx hnd1 (ladder M) (fun x hx => by rw [hlt]; exact ladder_bound hx) v
    obtain ⟨b1, b2⟩ := runP_onIdx hnd2 (saeedi (N - M + 1)) (fun x hx => by rw [hld]; exact saeedi_bound hx)
      (runP (onIdx (idx.take M) (ladder M)) v)
    -- after the first part
    have hA : ∀ t, t < M → runP (onIdx (idx.take M) (ladder M)) v (idx.getD t 0) =
        v (idx.getD (if t = 0 then M - 1 else t - 1) 0) := by
      intro t ht
      have e := a1 t (by omega)
      rw [hgt t ht] at e
      rw [e]
      have e2 := (ladder_spec n (fun t => v ((idx.take M).getD t 0))).1 t (by omega)
      rw [hM] at e2
      rw [e2]
      show v ((idx.take M).getD _ 0) = _
      rw [hgt]
      by_cases h0 : t = 0
      · rw [if_pos h0]; omega
      · rw [if_neg h0]; omega
    have hnotin : ∀ t, M ≤ t → t < N → idx.getD t 0 ∉ idx.take M := fun t ht htN hm => by
      obtain ⟨i, hi, he⟩ := mem_getD hm
      rw [hlt] at hi
      rw [hgt i hi] at he
      have := getD_inj hnd (by omega) (by omega) he
      omega
    have hA2 : ∀ t, M ≤ t → t < N → runP (onIdx (idx.take M) (ladder M)) v (idx.getD t 0) = v (idx.getD t 0) :=
      fun t ht htN => a2 _ (hnotin t ht htN)
    obtain ⟨s1, s2⟩ := saeedi_spec (N := N - M + 1) (by omega)
      (fun t => runP (onIdx (idx.take M) (ladder M)) v ((idx.getD 0 0 :: idx.drop M).getD t 0))
    refine ⟨fun t ht => ?_, fun q hq => ?_⟩
    · rw [runP_append]
      by_cases h0 : t = 0
      · rw [if_pos h0, h0]
        have e := b1 0 (by omega)
        rw [hgd0] at e
        rw [e, s1 0 (by omega), if_pos rfl, Nat.add_sub_cancel]
        by_cases hNM : N = M
        · rw [hNM, Nat.sub_self, hgd0, hA 0 (by omega), if_pos rfl]
        · have hk := hgd (N - M - 1) (by omega)
          rw [show N - M - 1 + 1 = N - M by omega, show M + (N - M - 1) = N - 1 by omega] at hk
          rw [hk, hA2 (N - 1) (by omega) (by omega)]
      · rw [if_neg h0]
        by_cases htM : t < M
        · rw [b2, hA t htM, if_neg h0]
          intro hm
          obtain ⟨i, hi, he⟩ := mem_getD hm
          rw [hld] at hi
          rcases i with _ | i
          · rw [hgd0] at he
            have := getD_inj hnd (by omega) (by omega) he
            omega
          · rw [hgd i (by omega)] at he
            have := getD_inj hnd (by omega) (by omega) he
            omega
        · have e := b1 (t - M + 1) (by omega)
          rw [hgd (t - M) (by omega), show M + (t - M) = t by omega] at e
          rw [e, s1 _ (by omega), if_neg (by omega), Nat.add_sub_cancel]
          by_cases htM2 : t = M
          · rw [htM2, Nat.sub_self, hgd0, hA 0 (by omega), if_pos rfl]
          · have hk := hgd (t - M - 1) (by omega)
            rw [show t - M - 1 + 1 = t - M by omega, show M + (t - M - 1) = t - 1 by omega] at hk
            rw [hk, hA2 (t - 1) (by omega) (by omega)]
    · rw [runP_append, b2 q, a2 q]
      · exact fun h => hq (List.mem_of_mem_take h)
      · intro h
        rcases List.mem_cons.1 h with rfl | h
        · exact hq (getD_mem' (by omega))
        · exact hq (List.mem_of_mem_drop h)

/-! ### Cycles -/

structure CycOk (π : ℕ → ℕ) (rem : List ℕ) (r : List ℕ × List ℕ) (this e : ℕ) : Prop where
  ne : r.1 ≠ []
  head : r.1.head? = some this
  last : r.1.getLast? = some e
  chain : List.IsChain (fun a b => b = π a) r.1
  nodup : r.1.Nodup
  sub : ∀ x ∈ r.1, x ∈ rem
  rest : ∀ x, x ∈ r.2 ↔ x ∈ rem ∧ x ∉ r.1
  restnd : r.2.Nodup
  len : r.2.length < rem.length

theorem cycLoop_spec {π : ℕ → ℕ} {S : List ℕ} (hinj : ∀ x ∈ S, ∀ y ∈ S, π x = π y → x = y) (hS : ∀ x ∈ S, π x ∈ S)
    {e : ℕ} : ∀ (fuel : ℕ) (rem : List ℕ) (this : ℕ), rem.length ≤ fuel → rem.Nodup → (∀ x ∈ rem, x ∈ S) → this ∈ rem →
    e ∈ rem → (∀ y ∈ S, y ∉ rem ∨ y = this → ∃ x ∈ S, (x ∉ rem ∨ x = e) ∧ π x = y) → (π e ∉ rem ∨ π e = this) →
    CycOk π rem (cycLoop π fuel rem this (π this)) this e := by
  intro fuel
  induction fuel with
  | zero =>
    intro rem this hf _ _ ht
    have : rem = [] := List.length_eq_zero_iff.1 (by omega)
    rw [this] at ht; cases ht
  | succ fuel ih =>
    intro rem this hf hnd hsub ht he hpre hpe
    have herase : ∀ x, x ∈ rem.erase this ↔ x ≠ this ∧ x ∈ rem := fun x => hnd.mem_erase_iff
    have hlen : (rem.erase this).length = rem.length - 1 := List.length_erase_of_mem ht
    have hpos : 0 < rem.length := List.length_pos_of_mem ht
    simp only [cycLoop]
    by_cases hn : π this ∈ rem.erase this
    · rw [if_pos hn]
      have hn' := (herase _).1 hn
      have hte : this ≠ e := by
        rintro rfl
        rcases hpe with h | h
        · exact h hn'.2
        · exact hn'.1 h
      have h := ih (rem.erase this) (π this) (by omega) (hnd.erase _) (fun x hx => hsub x ((herase x).1 hx).2) hn
        ((herase e).2 ⟨fun h => hte h.symm, he⟩)
        (fun y hy hyr => by
          rcases hyr with hyr | rfl
          · rw [herase] at hyr
            have : y ∉ rem ∨ y = this := by
              by_cases hyt : y = this
              · exact Or.inr hyt
              · exact Or.inl fun hm => hyr ⟨hyt, hm⟩
            obtain ⟨x, hx, hx2, hx3⟩ := hpre y hy this
            refine ⟨x, hx, ?_, hx3⟩
            rcases hx2 with h | h
            · exact Or.inl fun hm => h ((herase x).1 hm).2
            · exact Or.inr h
          · exact ⟨this, hsub _ ht, Or.inl fun hm => ((herase _).1 hm).1 rfl, rfl⟩)
        (by
          left
          rw [herase]
          rcases hpe with h | h
          · exact fun hm => h hm.2
          · exact fun hm => hm.1 h)
      generalize hr : cycLoop π fuel (rem.erase this) (π this) (π (π this)) = r at h
      exact
        { ne := by simp
          head := rfl
          last := by
            show (this :: r.1).getLast? = _
            rw [List.getLast?_cons_of_ne_nil h.ne, h.last]
          chain := by
            show List.IsChain _ (this :: r.1)
            obtain ⟨a, l, hal⟩ := List.exists_cons_of_ne_nil h.ne
            have hh := h.head
            rw [hal] at hh ⊢
            have ha : a = π this := by simpa using hh
            rw [List.isChain_cons_cons]
            exact ⟨ha, hal ▸ h.chain⟩
          nodup := by
            show (this :: r.1).Nodup
            rw [List.nodup_cons]
            exact ⟨fun hm => ((herase _).1 (h.sub _ hm)).1 rfl, h.nodup⟩
          sub := by
            intro x hx
            rcases List.mem_cons.1 hx with rfl | hx
            · exact ht
            · exact ((herase _).1 (h.sub _ hx)).2
          rest := by
            intro x
            show x ∈ r.2 ↔ x ∈ rem ∧ x ∉ this :: r.1
            rw [h.rest, herase, List.mem_cons]
            tauto
          restnd := h.restnd
          len := by
            have := h.len
            show r.2.length < _
            omega }
    · rw [if_neg hn]
      rw [herase] at hn
      have hte : this = e := by
        have hcase : π this ∉ rem ∨ π this = this := by
          by_cases hyt : π this = this
          · exact Or.inr hyt
          · exact Or.inl fun hm => hn ⟨hyt, hm⟩
        obtain ⟨x, hx, hx2, hx3⟩ := hpre _ (hS _ (hsub _ ht)) hcase
        rw [hinj x hx this (hsub _ ht) hx3] at hx2
        rcases hx2 with h | h
        · exact absurd ht h
        · exact h
      exact
        { ne := by simp
          head := rfl
          last := by rw [hte]; rfl
          chain := List.isChain_singleton _
          nodup := List.nodup_singleton _
          sub := by
            intro x hx
            rw [List.mem_singleton.1 hx]; exact ht
          rest := by
            intro x
            show x ∈ rem.erase this ↔ x ∈ rem ∧ x ∉ [this]
            rw [herase, List.mem_singleton]
            tauto
          restnd := hnd.erase _
          len := by show (rem.erase this).length < _; omega }

/-- One cycle: elements move along `π`. -/
theorem cycle_move {π : ℕ → ℕ} {idx : List ℕ} {c : List ℕ} {e : ℕ} (hnd : (c.map fun i => idx.getD i 0).Nodup)
    (hhead : c.head? = some (π e)) (hlast : c.getLast? = some e) (hchain : List.IsChain (fun a b => b = π a) c) (v : ℕ → α) :
    ∀ x ∈ c, π x ∈ c ∧ runP (cyc1 (c.map fun i => idx.getD i 0)) v (idx.getD (π x) 0) = v (idx.getD x 0) := by
  intro x hx
  obtain ⟨t, ht, rfl⟩ := List.getElem_of_mem hx
  have hlen : (c.map fun i => idx.getD i 0).length = c.length := List.length_map _
  have hg : ∀ u (hu : u < c.length), (c.map fun i => idx.getD i 0).getD u 0 = idx.getD c[u] 0 := fun u hu => by
    rw [List.getD_eq_getElem _ _ (by omega), List.getElem_map]
  have hspec := (cyc1_spec hnd v).1
  rw [hlen] at hspec
  by_cases hl : t + 1 < c.length
  · have hc := List.isChain_iff_getElem.1 hchain t hl
    rw [← hc]
    refine ⟨List.getElem_mem _, ?_⟩
    have := hspec (t + 1) hl
    rw [hg _ hl, if_neg (by omega), Nat.add_sub_cancel, hg _ ht] at this
    exact this
  · have htl : t = c.length - 1 := by omega
    have hte : c[t] = e := by
      rw [List.getLast?_eq_getElem?, List.getElem?_eq_getElem (by omega)] at hlast
      have := Option.some.inj hlast
      rw [← this]
      congr 1
    have hc0 : c[0] = π e := by
      rw [List.head?_eq_getElem?, List.getElem?_eq_getElem (by omega)] at hhead
      exact Option.some.inj hhead
    rw [hte, ← hc0]
    refine ⟨List.getElem_mem _, ?_⟩
    have := hspec 0 (by omega)
    rw [hg _ (by omega), if_pos rfl, hg _ (by omega)] at this
    rw [this]
    congr 2
    rw [← hte]
    congr 1
    exact htl.symm

theorem toCycles_spec {π : ℕ → ℕ} {idx : List ℕ} (hnd : idx.Nodup) : ∀ (fuel : ℕ) (rem : List ℕ), rem.length ≤ fuel →
    rem.Nodup → (∀ x ∈ rem, x < idx.length) → (∀ x ∈ rem, π x ∈ rem) → (∀ x ∈ rem, ∀ y ∈ rem, π x = π y → x = y) →
    ∀ (v : ℕ → α),
    (∀ x ∈ rem, runP ((toCycles π fuel rem).flatMap fun c => cyc1 (c.map fun i => idx.getD i 0)) v (idx.getD (π x) 0) =
      v (idx.getD x 0)) ∧
    ∀ q, (∀ x ∈ rem, q ≠ idx.getD x 0) →
      runP ((toCycles π fuel rem).flatMap fun c => cyc1 (c.map fun i => idx.getD i 0)) v q = v q := by
  intro fuel
  induction fuel with
  | zero =>
    intro rem hf _ _ _ _ v
    have : rem = [] := List.length_eq_zero_iff.1 (by omega)
    subst this
    exact ⟨fun x hx => (List.not_mem_nil hx).elim, fun q _ => rfl⟩
  | succ fuel ih =>
    intro rem hf hnr hlt hcl hinj v
    rcases rem with _ | ⟨e, rem⟩
    · exact ⟨fun x hx => (List.not_mem_nil hx).elim, fun q _ => rfl⟩
    · have h := cycLoop_spec (π := π) (S := e :: rem) hinj hcl (e := e) (rem.length + 1) (e :: rem) (π e) (le_refl _) hnr
        (fun x hx => hx) (hcl e List.mem_cons_self) List.mem_cons_self
        (fun y hy hyr => by
          rcases hyr with hyr | rfl
          · exact absurd hy hyr
          · exact ⟨e, List.mem_cons_self, Or.inr rfl, rfl⟩)
        (Or.inr rfl)
      simp only [toCycles]
      generalize hr : cycLoop π (rem.length + 1) (e :: rem) (π e) (π (π e)) = r at h
      rw [List.flatMap_cons]
      have hndc : (r.1.map fun i => idx.getD i 0).Nodup := by
        refine List.Nodup.map_on (fun x hx y hy hxy => ?_) h.nodup
        exact getD_inj hnd (hlt x (h.sub x hx)) (hlt y (h.sub y hy)) hxy
      have hmove := cycle_move (α := α) hndc h.head h.last h.chain v
      have hcyc : ∀ x ∈ r.1, π x ∈ r.1 := fun x hx => (hmove x hx).1
      -- every element of the cycle has a predecessor in it
      have hpred : ∀ y ∈ r.1, ∃ x ∈ r.1, π x = y := by
        intro y hy
        obtain ⟨t, ht, rfl⟩ := List.getElem_of_mem hy
        rcases t with _ | t
        · have hc0 : r.1[0] = π e := by
            have hh := h.head
            rw [List.head?_eq_getElem?, List.getElem?_eq_getElem (by omega)] at hh
            exact Option.some.inj hh
          have he : e ∈ r.1 := List.mem_of_getLast? h.last
          exact ⟨e, he, hc0.symm⟩
        · exact ⟨r.1[t], List.getElem_mem _, (List.isChain_iff_getElem.1 h.chain t ht).symm⟩
      have hrest : ∀ x, x ∈ r.2 → x ∈ e :: rem ∧ x ∉ r.1 := fun x hx => (h.rest x).1 hx
      obtain ⟨i1, i2⟩ := ih r.2 (by have := h.len; simp only [List.length_cons] at this hf; omega) h.restnd
        (fun x hx => hlt x (hrest x hx).1)
        (fun x hx => by
          rw [h.rest]
          refine ⟨hcl x (hrest x hx).1, fun hm => ?_⟩
          obtain ⟨y, hy, hyx⟩ := hpred _ hm
          have := hinj y (h.sub y hy) x (hrest x hx).1 hyx
          exact (hrest x hx).2 (this ▸ hy))
        (fun x hx y hy => hinj x (hrest x hx).1 y (hrest y hy).1)
        (runP (cyc1 (r.1.map fun i => idx.getD i 0)) v)
      have hother := (cyc1_spec hndc v).2
      refine ⟨fun x hx => ?_, fun q hq => ?_⟩
      · rw [runP_append]
        by_cases hxc : x ∈ r.1
        · rw [i2, (hmove x hxc).2]
          intro y hy he
          have := getD_inj hnd (hlt _ (h.sub _ (hcyc x hxc))) (hlt y (hrest y hy).1) he
          exact (hrest y hy).2 (this ▸ hcyc x hxc)
        · rw [i1 x ((h.rest x).2 ⟨hx, hxc⟩)]
          refine hother _ fun hm => ?_
          obtain ⟨y, hy, hyx⟩ := List.mem_map.1 hm
          have := getD_inj hnd (hlt y (h.sub y hy)) (hlt x hx) hyx
          exact hxc (this ▸ hy)
      · rw [runP_append, i2 q (fun x hx => hq x (hrest x hx).1)]
        refine hother q fun hm => ?_
        obtain ⟨y, hy, hyx⟩ := List.mem_map.1 hm
        exact hq y (h.sub y hy) hyx.symm

/-- `permute_iterable`: afterwards, position `i` holds what was at position `perm[i]`. -/
theorem permuteIt_spec {idx perm : List ℕ} (hnd : idx.Nodup) (hlen : perm.length = idx.length)
    (hperm : perm.Perm (List.range perm.length)) (v : ℕ → α) :
    (∀ i, i < idx.length → runP (permuteIt idx perm) v (idx.getD i 0) = v (idx.getD (perm.getD i 0) 0)) ∧
    ∀ q, q ∉ idx → runP (permuteIt idx perm) v q = v q := by
  unfold permuteIt
  simp only
  have hndp : perm.Nodup := hperm.nodup_iff.2 List.nodup_range
  have hmemp : ∀ i, i ∈ perm ↔ i < perm.length := fun i => by rw [hperm.mem_iff, List.mem_range]
  set π : ℕ → ℕ := fun i => ((List.range perm.length).map fun i => perm.idxOf i).getD i 0 with hπ
  have hπv : ∀ i, i < perm.length → π i = perm.idxOf i := fun i hi => by
    simp only [hπ]
    rw [List.getD_eq_getElem _ _ (by simpa using hi), List.getElem_map, List.getElem_range]
  have hπlt : ∀ i, i < perm.length → π i < perm.length := fun i hi => by
    rw [hπv i hi]; exact List.idxOf_lt_length_of_mem ((hmemp i).2 hi)
  have hget : ∀ i (hi : i < perm.length), perm.getD (π i) 0 = i := fun i hi => by
    rw [List.getD_eq_getElem _ _ (hπlt i hi)]
    simp only [hπv i hi]
    exact List.getElem_idxOf _
  obtain ⟨h1, h2⟩ := toCycles_spec (α := α) (π := π) hnd perm.length (List.range perm.length) (by simp) List.nodup_range
    (fun x hx => by rw [List.mem_range] at hx; omega)
    (fun x hx => by rw [List.mem_range] at hx ⊢; exact hπlt x hx)
    (fun x hx y hy he => by
      rw [List.mem_range] at hx hy
      rw [← hget x hx, ← hget y hy, he]) v
  refine ⟨fun i hi => ?_, fun q hq => h2 q fun x hx he => hq ?_⟩
  · have hpi : perm.getD i 0 < perm.length := (hmemp _).1 (getD_mem' (by omega))
    have := h1 (perm.getD i 0) (List.mem_range.2 hpi)
    have hback : π (perm.getD i 0) = i :=
      getD_inj hndp (hπlt _ hpi) (by omega) (hget _ hpi)
    rw [hback] at this
    exact this
  · rw [List.mem_range] at hx
    rw [he]; exact getD_mem' (by omega)

theorem shiftList_perm {N : ℕ} (hN : 0 < N) (k : ℤ) :
    ((List.range N).map fun i : ℕ => (((i : ℤ) - k) % N).toNat).Perm (List.range N) := by
  have hNz : (0 : ℤ) < N := by exact_mod_cast hN
  have hnd : ((List.range N).map fun i : ℕ => (((i : ℤ) - k) % N).toNat).Nodup := by
    refine List.Nodup.map_on (fun x hx y hy hxy => ?_) List.nodup_range
    rw [List.mem_range] at hx hy
    have a := Int.emod_nonneg ((x : ℤ) - k) hNz.ne'
    have b := Int.emod_nonneg ((y : ℤ) - k) hNz.ne'
    have e : ((x : ℤ) - k) % N = ((y : ℤ) - k) % N := by omega
    have hd : (N : ℤ) ∣ (x : ℤ) - y := by
      have := Int.emod_emod_of_dvd
      have h := (Int.emod_emod_of_dvd ((x : ℤ) - k) (dvd_refl (N : ℤ)))
      have : ((x : ℤ) - k - (y - k)) % N = 0 := Int.emod_eq_emod_iff_emod_sub_eq_zero.1 e
      have h2 : (x : ℤ) - k - (y - k) = x - y := by ring
      rw [h2] at this
      exact Int.dvd_of_emod_eq_zero this
    have : ((x : ℤ) - y) = 0 := Int.eq_zero_of_abs_lt_dvd hd (by rw [abs_lt]; constructor <;> omega)
    omega
  refine (List.subperm_of_subset hnd ?_).perm_of_length_le (by simp)
  intro x hx
  rw [List.mem_map] at hx
  obtain ⟨i, _, rfl⟩ := hx
  rw [List.mem_range]
  have a := Int.emod_nonneg ((i : ℤ) - k) hNz.ne'
  have b := Int.emod_lt_of_pos ((i : ℤ) - k) hNz
  omega

/-- `cyclic_shift`: the element at position `t` moves to position `t + k`, cyclically. -/
theorem cyclicShift_spec {idx : List ℕ} (hnd : idx.Nodup) (hN : idx ≠ []) (k : ℤ) : ∃ ps, cyclicShift idx k = some ps ∧
    ∀ (v : ℕ → α), (∀ t, t < idx.length → runP ps v (idx.getD (((t : ℤ) + k) % idx.length).toNat 0) = v (idx.getD t 0)) ∧
      ∀ q, q ∉ idx → runP ps v q = v q := by
  have hpos : 0 < idx.length := List.length_pos_iff.2 hN
  have hNz : (0 : ℤ) < idx.length := by exact_mod_cast hpos
  -- a shift by a positive number
  have main : ∀ (l : List ℕ), l.Nodup → l.length = idx.length → ∀ k' : ℤ, 0 < k' → ∀ (v : ℕ → α),
      (∀ t, t < l.length → runP (if k' ≠ 1 then permuteIt l ((List.range l.length).map fun i : ℕ =>
        (((i : ℤ) - k') % l.length).toNat) else cyc1 l) v (l.getD (((t : ℤ) + k') % l.length).toNat 0) = v (l.getD t 0)) ∧
      ∀ q, q ∉ l → runP (if k' ≠ 1 then permuteIt l ((List.range l.length).map fun i : ℕ =>
        (((i : ℤ) - k') % l.length).toNat) else cyc1 l) v q = v q := by
    intro l hl hlen k' hk' v
    have hlz : (0 : ℤ) < l.length := by rw [hlen]; exact hNz
    by_cases h1 : k' = 1
    · subst h1
      rw [if_neg (by simp)]
      obtain ⟨c1, c2⟩ := cyc1_spec hl v
      refine ⟨fun t ht => ?_, c2⟩
      by_cases htl : t + 1 = l.length
      · have : (((t : ℤ) + 1) % l.length).toNat = 0 := by
          rw [← htl]; push_cast; rw [Int.emod_self]; rfl
        rw [this, c1 0 (by omega), if_pos rfl]
        congr 2; omega
      · have : (((t : ℤ) + 1) % l.length).toNat = t + 1 := by
          rw [Int.emod_eq_of_lt (by omega) (by omega)]; omega
        rw [this, c1 (t + 1) (by omega), if_neg (by omega), Nat.add_sub_cancel]
    · rw [if_pos h1]
      obtain ⟨c1, c2⟩ := permuteIt_spec (perm := (List.range l.length).map fun i : ℕ => (((i : ℤ) - k') % l.length).toNat)
        hl (by simp) (by simpa using shiftList_perm (by omega) k') v
      refine ⟨fun t ht => ?_, c2⟩
      have a := Int.emod_nonneg ((t : ℤ) + k') hlz.ne'
      have b := Int.emod_lt_of_pos ((t : ℤ) + k') hlz
      have hlt : (((t : ℤ) + k') % l.length).toNat < l.length := by omega
      rw [c1 _ hlt, List.getD_eq_getElem (l := List.map _ _) _ (by simpa using hlt), List.getElem_map, List.getElem_range]
      congr 2
      rw [Int.toNat_of_nonneg a, Int.emod_sub_emod]
      have : ((t : ℤ) + k' - k') = t := by ring
      rw [this, Int.emod_eq_of_lt (by omega) (by omega)]
      rfl
  unfold cyclicShift
  simp only
  rw [if_neg hpos.ne']
  by_cases hk0 : k % idx.length = 0
  · rw [if_pos hk0]
    refine ⟨[], rfl, fun v => ⟨fun t ht => ?_, fun q _ => rfl⟩⟩
    have : (((t : ℤ) + k) % idx.length).toNat = t := by
      rw [Int.add_emod, hk0, add_zero, Int.emod_emod_of_dvd _ (dvd_refl _), Int.emod_eq_of_lt (by omega) (by omega)]; rfl
    rw [this]; rfl
  · rw [if_neg hk0]
    have hkne : k ≠ 0 := fun h => hk0 (by rw [h]; simp)
    by_cases hneg : k < 0
    · rw [if_pos hneg, if_pos hneg]
      have hm := main idx.reverse (List.nodup_reverse.2 hnd) List.length_reverse (-k) (by omega)
      have hlr : idx.reverse.length = idx.length := List.length_reverse
      rw [hlr] at hm
      refine ⟨_, (apply_ite some _ _ _).symm, fun v => ?_⟩
      obtain ⟨m1, m2⟩ := hm v
      refine ⟨fun t ht => ?_, fun q hq => m2 q (by rwa [List.mem_reverse])⟩
      have hrev : ∀ i, i < idx.length → idx.reverse.getD i 0 = idx.getD (idx.length - 1 - i) 0 := fun i hi => by
        rw [List.getD_eq_getElem _ _ (by omega), List.getD_eq_getElem _ _ (by omega), List.getElem_reverse]
      have h := m1 (idx.length - 1 - t) (by omega)
      have a := Int.emod_nonneg (((idx.length - 1 - t : ℕ) : ℤ) + -k) hNz.ne'
      have b := Int.emod_lt_of_pos (((idx.length - 1 - t : ℕ) : ℤ) + -k) hNz
      rw [hrev _ (by omega), hrev _ (by omega), show idx.length - 1 - (idx.length - 1 - t) = t by omega] at h
      have e : idx.length - 1 - ((((idx.length - 1 - t : ℕ) : ℤ) + -k) % idx.length).toNat =
          (((t : ℤ) + k) % idx.length).toNat := by
        have a' := Int.emod_nonneg ((t : ℤ) + k) hNz.ne'
        have b' := Int.emod_lt_of_pos ((t : ℤ) + k) hNz
        have key : (((idx.length - 1 - t : ℕ) : ℤ) + -k) % idx.length = idx.length - 1 - ((t : ℤ) + k) % idx.length := by
          have h1 : ((idx.length - 1 - t : ℕ) : ℤ) + -k = ((idx.length : ℤ) - 1 - ((t : ℤ) + k) % idx.length) +
              idx.length * (-(((t : ℤ) + k) / idx.length)) := by
            have := Int.emod_add_mul_ediv ((t : ℤ) + k) idx.length
            have h2 : ((idx.length - 1 - t : ℕ) : ℤ) = idx.length - 1 - t := by omega
            rw [h2]
            linear_combination this
          rw [h1, Int.add_mul_emod_self_left, Int.emod_eq_of_lt (by omega) (by omega)]
        rw [key]
        omega
      rw [e] at h
      exact h
    · rw [if_neg hneg, if_neg hneg]
      refine ⟨_, (apply_ite some _ _ _).symm, fun v => ?_⟩
      exact main idx hnd rfl k (by omega) v

end Verif.Iter
