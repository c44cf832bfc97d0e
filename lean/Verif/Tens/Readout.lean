import Verif.Tens.Steps

/-!
# Initial states, new qubits, measurement of a qubit, and the state vector
-/

namespace Verif.Tens

set_option linter.unusedSectionVars false

variable {K : Type} [Field K] [StarRing K] [DecidableEq K]

/-! ### Initial states and new qubits -/

theorem init_inv (n : Nat) : Inv (initState n : State K) ∧ (initState n : State K).n = n := by
  have hn : (initState n : State K).n = n := by simp [initState, State.n]
  have hp : ∀ q < n, (initState n : State K).p q = q := by
    intro q hq
    simp [initState, State.p, hq]
  have hg : ∀ q < n, (initState n : State K).g q = zeroTF q := by
    intro q hq
    simp [initState, State.g, hq]
  refine ⟨⟨?_, ?_, ?_, ?_, ?_⟩, hn⟩ <;> intro q hq <;> rw [hn] at hq <;> rw [hp q hq]
  · simpa [initState] using hq
  · rw [hg q hq]; simp [zeroTF]
  · intro r hr
    rw [hg q hq] at hr
    have : r = q := by simpa [zeroTF] using hr
    subst this
    exact ⟨by rw [hn]; exact hq, hp r hq⟩
  · rw [hg q hq]; exact (zeroTF_ok q).1
  · rw [hg q hq]; exact (zeroTF_ok q).2.2

theorem init_psi (n : Nat) (b : Nat → Bool) : psi (initState n : State K) b = if ∀ q < n, b q = false then 1 else 0 := by
  have hn : (initState n : State K).n = n := by simp [initState, State.n]
  unfold psi part
  rw [hn]
  have himg : (Finset.range n).image (initState n : State K).p = Finset.range n := by
    conv_rhs => rw [← Finset.image_id (s := Finset.range n)]
    apply Finset.image_congr
    intro q hq
    rw [Finset.mem_coe, Finset.mem_range] at hq
    simp [initState, State.p, hq]
  rw [himg, Finset.prod_congr rfl (g := fun q => if b q then (0 : K) else 1)]
  · split
    · rename_i h
      apply Finset.prod_eq_one
      intro q hq
      rw [h q (Finset.mem_range.1 hq)]
      rfl
    · rename_i h
      push Not at h
      obtain ⟨q, hq, hb⟩ := h
      apply Finset.prod_eq_zero (Finset.mem_range.2 hq)
      rw [if_pos (by simpa using hb)]
  · intro q hq
    rw [Finset.mem_range] at hq
    rw [show (initState n : State K).g q = zeroTF q by simp [initState, State.g, hq]]
    exact (zeroTF_ok q).2.1 b

theorem add_ok {s : State K} (hi : Inv s) : Inv (addQubit s) ∧ (addQubit s).n = s.n + 1 ∧
    ∀ b, psi (addQubit s) b = if b s.n then 0 else psi s b := by
  have hn : (addQubit s).n = s.n + 1 := by simp [addQubit, State.n]
  have hp : ∀ q < s.n, (addQubit s).p q = s.p q := by
    intro q hq
    exact List.getD_append _ _ _ _ hq
  have hp' : (addQubit s).p s.n = s.heap.length := by
    simp [addQubit, State.p, State.n]
  have hg : ∀ i < s.heap.length, (addQubit s).g i = s.g i := by
    intro i hi
    exact List.getD_append _ _ _ _ hi
  have hg' : (addQubit s).g s.heap.length = zeroTF s.n := by
    simp [addQubit, State.g]
  have hlen : (addQubit s).heap.length = s.heap.length + 1 := by simp [addQubit]
  refine ⟨⟨?_, ?_, ?_, ?_, ?_⟩, hn, ?_⟩
  · intro q hq
    rw [hn] at hq
    rcases Nat.lt_succ_iff_lt_or_eq.1 hq with h | rfl
    · rw [hp q h, hlen]; have := hi.lt q h; omega
    · rw [hp', hlen]; omega
  · intro q hq
    rw [hn] at hq
    rcases Nat.lt_succ_iff_lt_or_eq.1 hq with h | rfl
    · rw [hp q h, hg _ (hi.lt q h)]; exact hi.mem q h
    · rw [hp', hg']; simp [zeroTF]
  · intro q hq r hr
    rw [hn] at hq
    rcases Nat.lt_succ_iff_lt_or_eq.1 hq with h | rfl
    · rw [hp q h, hg _ (hi.lt q h)] at hr
      obtain ⟨h1, h2⟩ := hi.back q h r hr
      exact ⟨by omega, by rw [hp r h1, hp q h, h2]⟩
    · rw [hp', hg'] at hr
      have : r = s.n := by simpa [zeroTF] using hr
      subst this
      exact ⟨by omega, rfl⟩
  · intro q hq
    rw [hn] at hq
    rcases Nat.lt_succ_iff_lt_or_eq.1 hq with h | rfl
    · rw [hp q h, hg _ (hi.lt q h)]; exact hi.ok q h
    · rw [hp', hg']; exact (zeroTF_ok _).1
  · intro q hq
    rw [hn] at hq
    rcases Nat.lt_succ_iff_lt_or_eq.1 hq with h | rfl
    · rw [hp q h, hg _ (hi.lt q h)]; exact hi.norm q h
    · rw [hp', hg']; exact (zeroTF_ok _).2.2
  · intro b
    unfold psi part
    rw [hn, Finset.range_add_one, Finset.image_insert, hp']
    have himg : (Finset.range s.n).image (addQubit s).p = (Finset.range s.n).image s.p :=
      Finset.image_congr fun q hq => hp q (Finset.mem_range.1 (Finset.mem_coe.1 hq))
    rw [himg, Finset.prod_insert, hg', (zeroTF_ok s.n).2.1]
    · rw [show (∏ i ∈ (Finset.range s.n).image s.p, amp ((addQubit s).g i) b) = ∏ i ∈ (Finset.range s.n).image s.p, amp (s.g i) b from ?_]
      · split <;> simp
      · apply Finset.prod_congr rfl
        intro i hi'
        obtain ⟨q, hq, rfl⟩ := Finset.mem_image.1 hi'
        rw [hg _ (hi.lt q (Finset.mem_range.1 hq))]
    · intro h
      obtain ⟨q, hq, e⟩ := Finset.mem_image.1 h
      have := hi.lt q (Finset.mem_range.1 hq)
      omega

/-! ### Norms of states -/

theorem objs_norm {s : State K} (hi : Inv s) {ids : List Nat} (h : Objs s ids) (b : Nat → Bool) :
    tot (ids.flatMap fun i => (s.g i).qubits) (fun b => star (part s (ids.flatMap fun i => (s.g i).qubits).toFinset b) *
      part s (ids.flatMap fun i => (s.g i).qubits).toFinset b) b = 1 := by
  have hf : (ids.map s.g).flatMap (·.qubits) = ids.flatMap fun i => (s.g i).qubits := by
    rw [List.flatMap_map]
  have hok : ∀ t ∈ ids.map s.g, t.Ok := by
    intro t ht
    obtain ⟨i, h1, rfl⟩ := List.mem_map.1 ht
    obtain ⟨q, hq, rfl⟩ := h.obj i h1
    exact hi.ok q hq
  have h1 := norm_prod (ids.map s.g) hok (by rw [hf]; exact objs_nodup hi h) b
  rw [hf] at h1
  simp only [objs_part hi h]
  simp only [List.map_map, Function.comp_def] at h1
  rw [h1]
  apply List.prod_eq_one
  intro x hx
  obtain ⟨i, hi', rfl⟩ := List.mem_map.1 hx
  obtain ⟨q, hq, rfl⟩ := h.obj i hi'
  exact hi.norm q hq

/-- the objects of the qubits that satisfy a condition on objects -/
theorem objs_filter {s : State K} (hi : Inv s) (P : Nat → Bool) : ∃ ids, Objs s ids ∧
    ∀ x, x ∈ (ids.flatMap fun i => (s.g i).qubits) ↔ x < s.n ∧ P (s.p x) = true := by
  have ho : Objs s ((((List.range s.n).map s.p).filter P).dedup) := by
    refine ⟨List.nodup_dedup _, ?_⟩
    intro i hi'
    rw [List.mem_dedup, List.mem_filter, List.mem_map] at hi'
    obtain ⟨⟨q, h1, h2⟩, -⟩ := hi'
    exact ⟨q, List.mem_range.1 h1, h2⟩
  refine ⟨_, ho, ?_⟩
  intro x
  rw [objs_qubit hi ho, List.mem_dedup, List.mem_filter, List.mem_map]
  constructor
  · rintro ⟨h1, -, h2⟩
    exact ⟨h1, h2⟩
  · rintro ⟨h1, h2⟩
    exact ⟨h1, ⟨x, List.mem_range.2 h1, rfl⟩, h2⟩

/-- the sum over the qubits of a closed set and over some other qubits -/
theorem tot_other {s : State K} (hi : Inv s) (P : Nat → Bool) {Q : Finset Nat} (hQ : ∀ x, x ∈ Q ↔ x < s.n ∧ P (s.p x) = false)
    {L L' : List Nat} (hn : L.Nodup) (hn' : L'.Nodup) (hL : ∀ x, x ∈ L ↔ x ∈ L' ∨ (x < s.n ∧ P (s.p x) = true)) (hL' : ∀ x ∈ L', x ∈ Q)
    (b : Nat → Bool) :
    tot L (fun b => star (psi s b) * psi s b) b = tot L' (fun b => star (part s Q b) * part s Q b) b := by
  obtain ⟨ids, ho, hm⟩ := objs_filter hi P
  have hc : Closed s Q := by
    refine ⟨fun q hq => ((hQ q).1 hq).1, ?_⟩
    intro q hq r hr e
    rw [hQ] at hq ⊢
    exact ⟨hr, by rw [e]; exact hq.2⟩
  have hset : Finset.range s.n \ Q = (ids.flatMap fun i => (s.g i).qubits).toFinset := by
    ext x
    rw [Finset.mem_sdiff, Finset.mem_range, List.mem_toFinset, hm, hQ]
    constructor
    · rintro ⟨h1, h2⟩
      refine ⟨h1, ?_⟩
      cases h : P (s.p x)
      · exact absurd ⟨h1, h⟩ h2
      · rfl
    · rintro ⟨h1, h2⟩
      exact ⟨h1, fun h => by rw [h2] at h; cases h.2⟩
  have hperm : L.Perm (L' ++ ids.flatMap fun i => (s.g i).qubits) := by
    rw [List.perm_ext_iff_of_nodup hn]
    · intro x
      rw [hL, List.mem_append, hm]
    · rw [List.nodup_append]
      refine ⟨hn', objs_nodup hi ho, ?_⟩
      intro x hx y hy e
      subst e
      have h1 := (hQ x).1 (hL' x hx)
      have h2 := (hm x).1 hy
      rw [h2.2] at h1
      cases h1.2
  rw [tot_perm hperm _ _ hn, tot_append]
  apply tot_congr
  intro b' _
  rw [← mul_one (star (part s Q b') * part s Q b'), ← objs_norm hi ho b', ← tot_const_mul]
  apply tot_congr
  intro b'' hb''
  rw [psi_split hc, hset]
  have e : part s Q b'' = part s Q b' := by
    unfold part
    apply Finset.prod_congr rfl
    intro i hi'
    obtain ⟨r, hr, rfl⟩ := Finset.mem_image.1 hi'
    apply amp_local
    intro q hq
    apply hb''
    intro hqm
    have h1 := (hQ r).1 hr
    have h2 := (hm q).1 hqm
    rw [(hi.back r h1.1 q hq).2, h1.2] at h2
    cases h2.2
  rw [e, star_mul]
  ring

/-- the norm of a state is one -/
theorem state_norm {s : State K} (hi : Inv s) (b : Nat → Bool) :
    tot (List.range s.n) (fun b => star (psi s b) * psi s b) b = 1 := by
  have h := tot_other hi (fun _ => true) (Q := ∅) (by simp) (L := List.range s.n) (L' := []) List.nodup_range List.nodup_nil
    (by simp) (by simp) b
  rw [h]
  simp [tot, part]

/-! ### Measurement -/

/-- the probability of the value `v` of the qubit `q` -/
def prob (s : State K) (q : Nat) (v : Bool) : K :=
  tot ((List.range s.n).erase q) (fun b => star (psi s b) * psi s b) (fun x => x == q && v)

theorem obj_image {s : State K} (hi : Inv s) {q : Nat} (hq : q < s.n) : (s.g (s.p q)).qubits.toFinset.image s.p = {s.p q} := by
  apply Finset.eq_singleton_iff_unique_mem.2
  constructor
  · exact Finset.mem_image.2 ⟨q, List.mem_toFinset.2 (hi.mem q hq), rfl⟩
  · intro i hi'
    obtain ⟨x, hx, rfl⟩ := Finset.mem_image.1 hi'
    exact (hi.back q hq x (List.mem_toFinset.1 hx)).2

theorem prob_obj {s : State K} (hi : Inv s) {q : Nat} (hq : q < s.n) (v : Bool) :
    prob s q v = tot ((s.g (s.p q)).qubits.erase q) (fun b => star (amp (s.g (s.p q)) b) * amp (s.g (s.p q)) b) (fun x => x == q && v) := by
  unfold prob
  have hnd := (hi.ok q hq).nodup
  have h := tot_other hi (fun i => i != s.p q) (Q := (s.g (s.p q)).qubits.toFinset) (by
      intro x
      rw [List.mem_toFinset, inv_same hi hq]
      simp) (L := (List.range s.n).erase q) (L' := (s.g (s.p q)).qubits.erase q) (List.nodup_range.erase q) (hnd.erase q) (by
      intro x
      rw [List.nodup_range.mem_erase_iff, hnd.mem_erase_iff, List.mem_range, inv_same hi hq]
      constructor
      · rintro ⟨h1, h2⟩
        by_cases e : s.p x = s.p q
        · exact Or.inl ⟨h1, h2, e⟩
        · exact Or.inr ⟨h2, by simpa using e⟩
      · rintro (⟨h1, h2, -⟩ | ⟨h1, h2⟩)
        · exact ⟨h1, h2⟩
        · refine ⟨?_, h1⟩
          rintro rfl
          simp at h2) (by
      intro x hx
      exact List.mem_toFinset.2 (List.mem_of_mem_erase hx)) (fun x => x == q && v)
  rw [h]
  apply tot_congr
  intro b _
  unfold part
  rw [obj_image hi hq, Finset.prod_singleton]

/-- the outcome that is chosen -/
def choose (less : K → Bool) (p0 p1 : K) : Bool := if p0 = 0 then true else if p1 = 0 then false else !less p0

/-- **a measurement** yields an outcome that is possible, chosen with its probability, and the projected and normalised state up to a
phase `c`; the measured qubit is left in the state of the outcome or is reset -/
theorem measure_ok {E : Env K} (hE : E.Ok) {s : State K} (hi : Inv s) {q : Nat} (hq : q < s.n) (less : K → Bool) (keep : Bool) :
    ∃ m s' c, measure E s q less keep = some (m, s') ∧ m = choose less (prob s q false) (prob s q true) ∧ prob s q m ≠ 0 ∧
      Inv s' ∧ s'.n = s.n ∧ star c * c = 1 ∧
      (∀ b, psi s' b = if b q = (keep && m) then 1 / E.root (prob s q m) * (c * psi s (Function.update b q m)) else 0) := by
  obtain ⟨r0, r1, m1, m2, m3⟩ := measureTF_ok hE.root (hi.ok q hq) (hi.mem q hq) (hi.norm q hq)
  have hpr : ∀ v : Bool, (if v then r1 else r0).1 = prob s q v := by
    intro v
    rw [prob_obj hi hq v]
    exact (m3 v).1 _ (by simp)
  obtain ⟨p0, o0⟩ := r0
  obtain ⟨p1, o1⟩ := r1
  have hp0 : p0 = prob s q false := hpr false
  have hp1 : p1 = prob s q true := hpr true
  -- the outcome
  have hout : ∃ m u, pickOut less (p0, o0) (p1, o1) = some (m, u) ∧ m = choose less p0 p1 ∧ After E.root (s.g (s.p q)) q m (prob s q m) u := by
    have a0 := (m3 false).2
    have a1 := (m3 true).2
    rw [hpr false] at a0
    rw [hpr true] at a1
    simp only [if_true, Bool.false_eq_true, if_false] at a0 a1
    unfold choose
    cases h0 : o0 with
    | none =>
      cases h1 : o1 with
      | none =>
        exfalso
        have e0 := (a0.1 h0).1
        have e1 := (a1.1 h1).1
        rw [← hp0] at e0
        rw [← hp1] at e1
        rw [e0, e1] at m2
        simp at m2
      | some u =>
        refine ⟨true, u, rfl, ?_, a1.2 u h1⟩
        rw [hp0, if_pos (a0.1 h0).1]
    | some u =>
      have n0 := (a0.2 u h0).pos
      cases h1 : o1 with
      | none =>
        refine ⟨false, u, rfl, ?_, a0.2 u h0⟩
        rw [hp0, if_neg n0, hp1, if_pos (a1.1 h1).1]
      | some v =>
        have n1 := (a1.2 v h1).pos
        rw [if_neg (by rw [hp0]; exact n0), if_neg (by rw [hp1]; exact n1)]
        cases hl : less p0
        · exact ⟨true, v, by simp [pickOut, hl], rfl, a1.2 v h1⟩
        · exact ⟨false, u, by simp [pickOut, hl], rfl, a0.2 u h0⟩
  obtain ⟨m, u, o1', o2, hA⟩ := hout
  set L := s.heap.length with hL
  set w : TF K := if keep && m then vecTF q [0, 1] else zeroTF q with hw
  have w1 : w.Ok ∧ w.qubits = [q] ∧ normTF w = 1 ∧ ∀ b, amp w b = if b q = (keep && m) then 1 else 0 := by
    rw [hw]
    cases keep && m
    · refine ⟨(zeroTF_ok q).1, rfl, (zeroTF_ok q).2.2, ?_⟩
      intro b
      rw [if_neg (by simp), (zeroTF_ok q).2.1]
      cases b q <;> rfl
    · refine ⟨(vecTF_ok q 0 1).1, rfl, ?_, ?_⟩
      · rw [if_pos rfl, (vecTF_ok q 0 1).2.2]; simp
      · intro b
        rw [if_pos rfl, (vecTF_ok q 0 1).2.1]
  obtain ⟨w1, w2, w3, w4⟩ := w1
  set t' := swap (s.g (s.p q)) 0 ((s.g (s.p q)).qubits.idxOf q) with ht'
  set s' : State K := ⟨(redirect s.ptr u.qubits L).set q (L + 1), s.heap.set (s.p q) t' ++ [u, w]⟩ with hs'
  have hmeas : measure E s q less keep = some (m, s') := by
    unfold measure
    dsimp only
    rw [m1]
    simp only [Option.bind_some]
    rw [o1']
    simp only [Option.map_some, hs', List.length_set]
    rfl
  have hlt := hi.lt q hq
  have hQ := closed_obj hi hq
  have hnd : (q :: u.qubits).Nodup := hA.qubits.nodup_iff.2 (hi.ok q hq).nodup
  have hqu : q ∉ u.qubits := (List.nodup_cons.1 hnd).1
  have hmemQ : ∀ x, x ∈ (s.g (s.p q)).qubits.toFinset ↔ x = q ∨ x ∈ u.qubits := by
    intro x
    rw [List.mem_toFinset, ← hA.qubits.mem_iff, List.mem_cons]
  have hp' : ∀ x < s.n, s'.p x = if x = q then L + 1 else if x ∈ u.qubits then L else s.p x := by
    intro x hx
    show ((redirect s.ptr u.qubits L).set q (L + 1)).getD x 0 = _
    rw [getD_set _ _ _ _ (by rw [redirect_length]; exact hx), redirect_get _ _ _ _ hx]
    by_cases e : x = q
    · rw [if_pos e.symm, if_pos e]
    · rw [if_neg (Ne.symm e), if_neg e]
      rfl
  have hlen' : s'.heap.length = L + 2 := by simp [hs', hL]
  have hgu : s'.g L = u := by simp [hs', State.g, hL]
  have hgw : s'.g (L + 1) = w := by simp [hs', State.g, hL]
  have hgo : ∀ i < L, s'.g i = if s.p q = i then t' else s.g i := by
    intro i hil
    have h1 : s'.g i = (s.heap.set (s.p q) t').getD i (zeroTF 0) := by
      simp only [hs', State.g, List.getD_eq_getElem?_getD]
      rw [List.getElem?_append_left (by rw [List.length_set]; exact hil)]
    rw [h1]
    exact heap_set _ _ _ _ hlt
  have hrep : Repl s s' (s.g (s.p q)).qubits.toFinset := by
    refine ⟨by simp [hs', State.n, redirect_length], ?_, ?_⟩
    · intro x hx hxQ
      have hne : s.p q ≠ s.p x := by
        intro e
        rw [List.mem_toFinset, inv_same hi hq] at hxQ
        exact hxQ ⟨hx, e.symm⟩
      rw [hmemQ, not_or] at hxQ
      refine ⟨by rw [hp' x hx, if_neg hxQ.1, if_neg hxQ.2], ?_, ?_⟩
      · rw [hgo _ (hi.lt x hx), if_neg hne]
      · have := hi.lt x hx
        omega
    · intro x hx y hy _
      have hxn := hQ.sub x hx
      have := hi.lt y hy
      rw [hmemQ] at hx
      rw [hp' x hxn]
      rcases hx with hx | hx
      · rw [if_pos hx]; omega
      · rw [if_neg (ne_of_mem_of_not_mem hx hqu), if_pos hx]; omega
  have hpart : ∃ c, star c * c = 1 ∧ ∀ b, part s' (s.g (s.p q)).qubits.toFinset b =
      if b q = (keep && m) then c * amp u b else 0 := by
    by_cases hu : u.qubits = []
    · refine ⟨star (amp u fun _ => false), ?_, ?_⟩
      · have h1 := norm_tot hA.ok (fun _ => false)
        rw [hA.norm, hu] at h1
        rw [star_star, mul_comm]
        exact h1.symm
      · intro b
        have i2 : (s.g (s.p q)).qubits.toFinset.image s'.p = {L + 1} := by
          apply Finset.eq_singleton_iff_unique_mem.2
          constructor
          · exact Finset.mem_image.2 ⟨q, (hmemQ q).2 (Or.inl rfl), by rw [hp' q hq, if_pos rfl]⟩
          · intro i hi'
            obtain ⟨x, hx, rfl⟩ := Finset.mem_image.1 hi'
            have hxn := hQ.sub x hx
            rw [hmemQ, hu] at hx
            have hxq : x = q := by simpa using hx
            rw [hp' x hxn, if_pos hxq]
        unfold part
        rw [i2, Finset.prod_singleton, hgw, w4]
        have h1 := norm_tot hA.ok b
        rw [hA.norm, hu] at h1
        have e : amp u (fun _ => false) = amp u b := amp_local (by rw [hu]; simp)
        rw [e]
        split
        · exact h1
        · rfl
    · refine ⟨1, by simp, ?_⟩
      intro b
      have i2 : (s.g (s.p q)).qubits.toFinset.image s'.p = {L, L + 1} := by
        ext i
        rw [Finset.mem_image, Finset.mem_insert, Finset.mem_singleton]
        constructor
        · rintro ⟨x, hx, rfl⟩
          have hxn := hQ.sub x hx
          rw [hmemQ] at hx
          rw [hp' x hxn]
          rcases hx with hx | hx
          · rw [if_pos hx]; exact Or.inr rfl
          · rw [if_neg (ne_of_mem_of_not_mem hx hqu), if_pos hx]; exact Or.inl rfl
        · rintro (rfl | rfl)
          · obtain ⟨x, hx⟩ := List.exists_mem_of_ne_nil _ hu
            have hxQ := (hmemQ x).2 (Or.inr hx)
            refine ⟨x, hxQ, ?_⟩
            rw [hp' x (hQ.sub x hxQ), if_neg (ne_of_mem_of_not_mem hx hqu), if_pos hx]
          · exact ⟨q, (hmemQ q).2 (Or.inl rfl), by rw [hp' q hq, if_pos rfl]⟩
      unfold part
      rw [i2, Finset.prod_pair (by omega), hgu, hgw, w4]
      split <;> simp
  obtain ⟨c, c1, c2⟩ := hpart
  refine ⟨m, s', c, hmeas, by rw [← hp0, ← hp1]; exact o2, hA.pos, repl_inv hi hQ hrep ?_, hrep.n, c1, ?_⟩
  · intro x hx
    have hxn := hQ.sub x hx
    rw [hmemQ] at hx
    rcases hx with hx | hx
    · subst hx
      rw [hp' x hxn, if_pos rfl, hgw, w2]
      refine ⟨by omega, by simp, ?_, w1, w3⟩
      intro y hy
      rw [List.mem_singleton] at hy
      subst hy
      exact ⟨(hmemQ y).2 (Or.inl rfl), by rw [hp' y hxn, if_pos rfl]⟩
    · have hxq : x ≠ q := ne_of_mem_of_not_mem hx hqu
      rw [hp' x hxn, if_neg hxq, if_pos hx, hgu]
      refine ⟨by omega, hx, ?_, hA.ok, hA.norm⟩
      intro y hy
      have hyQ := (hmemQ y).2 (Or.inr hy)
      refine ⟨hyQ, ?_⟩
      rw [hp' y (hQ.sub y hyQ), if_neg (ne_of_mem_of_not_mem hy hqu), if_pos hy]
  · intro b
    rw [repl_psi hQ hrep, c2]
    by_cases hb : b q = (keep && m)
    · rw [if_pos hb, if_pos hb, psi_split hQ (Function.update b q m)]
      have e1 : part s (s.g (s.p q)).qubits.toFinset (Function.update b q m) = E.root (prob s q m) * amp u b := by
        unfold part
        rw [obj_image hi hq, Finset.prod_singleton, hA.amp _ (by simp)]
        congr 1
        apply amp_local
        intro x hx
        rw [Function.update_of_ne (ne_of_mem_of_not_mem hx hqu)]
      have e2 : part s (Finset.range s.n \ (s.g (s.p q)).qubits.toFinset) (Function.update b q m) =
          part s (Finset.range s.n \ (s.g (s.p q)).qubits.toFinset) b := by
        apply part_other hi hQ
        intro x hx
        rw [Function.update_of_ne]
        rintro rfl
        exact hx ((hmemQ x).2 (Or.inl rfl))
      have hne : E.root (prob s q m) ≠ 0 := by
        have hpn := hA.pos
        intro e0
        -- an amplitude that is not zero
        have hz : ∀ b', b' q = m → amp (s.g (s.p q)) b' = 0 := by
          intro b' hb'
          rw [hA.amp b' hb', e0, zero_mul]
        apply hpn
        rw [prob_obj hi hq m]
        rw [tot_congr (G := fun _ => 0 * 0)]
        · rw [tot_const_mul, zero_mul]
        · intro b' hb'
          rw [hz b' (by rw [hb' q (by rw [(hi.ok q hq).nodup.mem_erase_iff]; simp)]; simp)]
          simp
      rw [e1, e2]
      field_simp
    · rw [if_neg hb, if_neg hb, zero_mul]

/-! ### The state vector -/

/-- **`eval` yields the amplitudes of the state in the order of the values of the qubits, the first qubit first** -/
theorem eval_ok {E : Env K} (hE : E.Ok) {s : State K} (hi : Inv s) (h0 : 0 < s.n) :
    eval E s = some ((allBits s.n).map fun y => psi s fun q => y.getD q false) := by
  have hpm := hE.ord s.ptr.dedup
  have hmem : ∀ i, i ∈ E.ord s.ptr.dedup ↔ ∃ q < s.n, s.p q = i := by
    intro i
    rw [hpm.mem_iff, List.mem_dedup, List.mem_iff_getElem]
    constructor
    · rintro ⟨q, hq, rfl⟩
      exact ⟨q, hq, List.getD_eq_getElem _ _ hq⟩
    · rintro ⟨q, hq, rfl⟩
      exact ⟨q, hq, (List.getD_eq_getElem _ _ hq).symm⟩
  have ho : Objs s (E.ord s.ptr.dedup) := ⟨hpm.nodup_iff.2 (List.nodup_dedup _), fun i h => (hmem i).1 h⟩
  have hne : E.ord s.ptr.dedup ≠ [] := List.ne_nil_of_mem ((hmem (s.p 0)).2 ⟨0, h0, rfl⟩)
  unfold eval
  dsimp only
  generalize E.ord s.ptr.dedup = ids at *
  have hlen : 0 < ids.length := List.length_pos_of_ne_nil hne
  have hun : ∀ i ∈ ids, (unravel (s.g i)).Ok ∧ (unravel (s.g i)).qubits.Perm (s.g i).qubits ∧ ∀ b, amp (unravel (s.g i)) b = amp (s.g i) b := by
    intro i h
    obtain ⟨q, hq, rfl⟩ := ho.obj i h
    obtain ⟨a, b, c⟩ := unravel_ok (hi.ok q hq)
    exact ⟨a, by rw [b]; exact List.perm_insertionSort _ _, c⟩
  have hfp : ((ids.map fun i => unravel (s.g i)).flatMap (·.qubits)).Perm (ids.flatMap fun i => (s.g i).qubits) := by
    rw [List.flatMap_map]
    exact List.Perm.flatMap_left _ fun i h => (hun i h).2.1
  obtain ⟨u, u1, u2, u3, u4⟩ := multiEntangle_ok E.H (ids.length - 1) (ids.map fun i => unravel (s.g i)) (by rw [List.length_map]; omega)
    (by
      intro t ht
      obtain ⟨i, h, rfl⟩ := List.mem_map.1 ht
      exact (hun i h).1) (hfp.nodup_iff.2 (objs_nodup hi ho))
  obtain ⟨v1, v2, v3⟩ := unravel_ok u2
  have hrange : (unravel u).qubits = List.range s.n := by
    rw [v2]
    apply List.Perm.eq_of_pairwise' (List.pairwise_insertionSort (· ≤ ·) _) (List.pairwise_lt_range.imp fun h => le_of_lt h)
    refine (List.perm_insertionSort _ _).trans ((u3.trans hfp).trans ?_)
    rw [List.perm_ext_iff_of_nodup (objs_nodup hi ho) List.nodup_range]
    intro x
    rw [objs_qubit hi ho, hmem, List.mem_range]
    exact ⟨fun h => h.1, fun h => ⟨h, x, h, rfl⟩⟩
  have hsh : (unravel u).arr.shape.sum = s.n := by rw [v1.shape, hrange]; simp
  rw [u1, Option.map_some, toArray_val v1.wf, hsh]
  congr 1
  apply List.map_congr_left
  intro y hy
  have hyl : y.length = s.n := mem_allBits.1 hy
  have e1 : (List.range s.n).map (fun q => y.getD q false) = y := by
    apply List.ext_getElem
    · simp [hyl]
    · intro i h1 h2
      simp [h2]
  have e2 : amp (unravel u) (fun q => y.getD q false) = val (unravel u).arr y := by
    unfold amp
    rw [hrange, e1]
  rw [← e2, v3, u4, List.map_map]
  have e3 : Finset.range s.n = (ids.flatMap fun i => (s.g i).qubits).toFinset := by
    ext x
    rw [Finset.mem_range, List.mem_toFinset, objs_qubit hi ho, hmem]
    exact ⟨fun h => ⟨h, x, h, rfl⟩, fun h => h.1⟩
  unfold psi
  rw [e3, objs_part hi ho]
  congr 1
  apply List.map_congr_left
  intro i h
  exact (hun i h).2.2 _

end Verif.Tens
