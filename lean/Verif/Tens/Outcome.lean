import Verif.Tens.Measure

/-!
# Outcomes of measurements
-/

namespace Verif.Tens

set_option linter.unusedSectionVars false

variable {K : Type} [Field K] [StarRing K] [DecidableEq K]

/-- the outcomes of measuring the first `m` of `n` qubits of the amplitudes `f`: sorted, with their probabilities and remaining
amplitudes; other outcomes have no amplitude -/
structure Outcomes (m n : Nat) (f : List Bool → K) (L : List (Nat × K × Arr K)) : Prop where
  sorted : (L.map (·.1)).Pairwise (· < ·)
  lt : ∀ x ∈ L, x.1 < 2 ^ m
  pos : ∀ x ∈ L, x.2.1 ≠ 0
  prob : ∀ x ∈ L, x.2.1 = norm2 (n - m) fun y => f (bitsOf m x.1 ++ y)
  wf : ∀ x ∈ L, WF x.2.2
  shape : ∀ x ∈ L, x.2.2.shape = [n - m]
  val : ∀ x ∈ L, ∀ y : List Bool, y.length = n - m → val x.2.2 y = f (bitsOf m x.1 ++ y)
  other : ∀ o < 2 ^ m, o ∉ L.map (·.1) → ∀ y : List Bool, y.length = n - m → f (bitsOf m o ++ y) = 0
  kind : ∀ x ∈ L, ∀ y ∈ L, isSparse x.2.2.data = isSparse y.2.2.data

/-! ### Dense arrays -/

theorem sumsq_zero {root : K → K} (hr : Root root) {l l' : List K} (h : sumsq l = 0) (hs : ∀ x ∈ l', x ∈ l) : sumsq l' = 0 := by
  apply sum_zero_of
  intro x hx
  rw [hr.definite l h x (hs x hx)]
  simp

/-- the rows of a dense array -/
def denseRow (c : Nat) (l : List K) (i : Nat) : List K := (l.drop (i * 2 ^ c)).take (2 ^ c)

theorem denseRow_mem {c : Nat} {l : List K} {i : Nat} : ∀ x ∈ denseRow c l i, x ∈ l :=
  fun _ hx => List.mem_of_mem_drop (List.mem_of_mem_take hx)

theorem denseSmart_eq {root : K → K} (hr : Root root) (c : Nat) (m : Nat) : ∀ (l : List K) (o : Nat), l.length = 2 ^ m * 2 ^ c →
    (denseSmart m l o).getD [] = (List.range (2 ^ m)).filterMap fun i =>
      if sumsq (denseRow c l i) = 0 then none else some (o + i, sumsq (denseRow c l i), denseRow c l i) := by
  induction m with
  | zero =>
    intro l o hl
    have e : denseRow c l 0 = l := by
      unfold denseRow
      rw [Nat.zero_mul, List.drop_zero, List.take_of_length_le (by omega)]
    rw [denseSmart, pow_zero, List.range_one, List.filterMap_cons, List.filterMap_nil, e]
    by_cases h : sumsq l = 0
    · simp [h]
    · simp [h]
  | succ m ih =>
    intro l o hl
    rw [denseSmart]
    by_cases h : sumsq l = 0
    · rw [if_pos h]
      symm
      apply List.filterMap_eq_nil_iff.2
      intro i _
      rw [if_pos (sumsq_zero hr h denseRow_mem)]
    · rw [if_neg h]
      have hh : l.length / 2 = 2 ^ m * 2 ^ c := by rw [hl, pow_succ]; rw [show 2 ^ m * 2 * 2 ^ c = 2 ^ m * 2 ^ c * 2 by ring]; omega
      have hl' : l.length = 2 ^ m * 2 ^ c + 2 ^ m * 2 ^ c := by rw [hl, pow_succ]; ring
      dsimp only
      rw [hh, ih _ o (by rw [List.length_take]; omega), ih _ (o + 2 ^ m) (by rw [List.length_drop]; omega)]
      have e1 : ((List.range (2 ^ m)).filterMap fun i => if sumsq (denseRow c (l.take (2 ^ m * 2 ^ c)) i) = 0 then none
            else some (o + i, sumsq (denseRow c (l.take (2 ^ m * 2 ^ c)) i), denseRow c (l.take (2 ^ m * 2 ^ c)) i))
          = (List.range (2 ^ m)).filterMap fun i => if sumsq (denseRow c l i) = 0 then none
            else some (o + i, sumsq (denseRow c l i), denseRow c l i) := by
        apply List.filterMap_congr
        intro i hi
        have hi' := List.mem_range.1 hi
        have : denseRow c (l.take (2 ^ m * 2 ^ c)) i = denseRow c l i := by
          unfold denseRow
          rw [List.drop_take, List.take_take]
          congr 1
          have : (i + 1) * 2 ^ c ≤ 2 ^ m * 2 ^ c := Nat.mul_le_mul_right _ hi'
          rw [Nat.add_mul] at this
          omega
        rw [this]
      have e2 : ((List.range (2 ^ m)).filterMap fun i => if sumsq (denseRow c (l.drop (2 ^ m * 2 ^ c)) i) = 0 then none
            else some (o + 2 ^ m + i, sumsq (denseRow c (l.drop (2 ^ m * 2 ^ c)) i), denseRow c (l.drop (2 ^ m * 2 ^ c)) i))
          = ((List.range (2 ^ m)).map (2 ^ m + ·)).filterMap fun i => if sumsq (denseRow c l i) = 0 then none
            else some (o + i, sumsq (denseRow c l i), denseRow c l i) := by
        rw [List.filterMap_map]
        apply List.filterMap_congr
        intro i hi
        simp only [Function.comp_apply]
        have : denseRow c (l.drop (2 ^ m * 2 ^ c)) i = denseRow c l (2 ^ m + i) := by
          unfold denseRow
          rw [List.drop_drop, Nat.add_mul]
        rw [this, Nat.add_assoc]
      rw [e1, e2, ← List.filterMap_append, show 2 ^ (m + 1) = 2 ^ m + 2 ^ m by rw [pow_succ]; ring, List.range_add]
      generalize (List.range (2 ^ m) ++ (List.range (2 ^ m)).map (2 ^ m + ·)).filterMap _ = r
      by_cases hr0 : r = []
      · rw [if_pos hr0, hr0]; rfl
      · rw [if_neg hr0]; rfl

theorem denseRow_map {m c : Nat} (f : List Bool → K) {i : Nat} (hi : i < 2 ^ m) :
    denseRow c ((allBits (m + c)).map f) i = (allBits c).map fun y => f (bitsOf m i ++ y) := by
  have hle : (i + 1) * 2 ^ c ≤ 2 ^ m * 2 ^ c := Nat.mul_le_mul_right _ hi
  rw [Nat.add_mul, Nat.one_mul, ← pow_add] at hle
  have hlen : (denseRow c ((allBits (m + c)).map f) i).length = 2 ^ c := by
    unfold denseRow
    rw [List.length_take, List.length_drop, List.length_map, allBits_length]
    omega
  apply List.ext_getElem
  · rw [hlen, List.length_map, allBits_length]
  · intro j h1 h2
    have hj : j < 2 ^ c := by rw [hlen] at h1; exact h1
    have hn : i * 2 ^ c + j = num (bitsOf m i ++ bitsOf c j) := by
      rw [num_append, num_bitsOf hi, num_bitsOf hj, bitsOf_length]
    have e1 := map_allBits_getD f (n := m + c) (b := bitsOf m i ++ bitsOf c j) (by simp [bitsOf_length])
    have e2 := map_allBits_getD (fun y => f (bitsOf m i ++ y)) (bitsOf_length c j)
    rw [num_bitsOf hj, List.getD_eq_getElem _ _ h2] at e2
    rw [e2, ← e1, ← hn, List.getD_eq_getElem _ _ (by rw [List.length_map, allBits_length]; omega)]
    simp only [denseRow, List.getElem_take, List.getElem_drop]

theorem dense_outcomes {root : K → K} (hr : Root root) {a : Arr K} (h : WF a) (hs : isSparse a.data = false) {m n : Nat}
    (hsh : a.shape = [n]) (hm : m ≤ n) : Outcomes m n (val a) (multiMeasure m a) := by
  obtain ⟨c, rfl⟩ := Nat.exists_eq_add_of_le hm
  have hsum : a.shape.sum = m + c := by rw [hsh]; simp
  have hc : m + c - m = c := by omega
  have key : multiMeasure m a = (List.range (2 ^ m)).filterMap fun i =>
      if sumsq ((allBits c).map fun y => val a (bitsOf m i ++ y)) = 0 then none
      else some (i, sumsq ((allBits c).map fun y => val a (bitsOf m i ++ y)),
        ofDense ((allBits c).map fun y => val a (bitsOf m i ++ y)) [c]) := by
    unfold multiMeasure
    dsimp only
    rw [if_neg (by simp [hs]), toArray_val h, hsum, hc]
    have e : (if m > 10 then denseBrute m (m + c) ((allBits (m + c)).map (val a)) else (denseSmart m ((allBits (m + c)).map (val a)) 0).getD [])
        = (List.range (2 ^ m)).filterMap fun i =>
          if sumsq (denseRow c ((allBits (m + c)).map (val a)) i) = 0 then none
          else some (i, sumsq (denseRow c ((allBits (m + c)).map (val a)) i), denseRow c ((allBits (m + c)).map (val a)) i) := by
      split
      · unfold denseBrute
        rw [hc]
        rfl
      · rw [denseSmart_eq hr c m _ 0 (by simp [allBits_length, pow_add])]
        simp only [Nat.zero_add]
    rw [e, List.map_filterMap]
    apply List.filterMap_congr
    intro i hi
    rw [denseRow_map (val a) (List.mem_range.1 hi)]
    split <;> rfl
  have hmem : ∀ x ∈ multiMeasure m a, x.1 < 2 ^ m ∧ sumsq ((allBits c).map fun y => val a (bitsOf m x.1 ++ y)) ≠ 0
      ∧ x.2.1 = sumsq ((allBits c).map fun y => val a (bitsOf m x.1 ++ y))
      ∧ x.2.2 = ofDense ((allBits c).map fun y => val a (bitsOf m x.1 ++ y)) [c] := by
    intro x hx
    rw [key] at hx
    obtain ⟨i, hi, hx⟩ := List.mem_filterMap.1 hx
    split at hx
    · cases hx
    · rename_i h0
      obtain rfl := Option.some.inj hx
      exact ⟨List.mem_range.1 hi, h0, rfl, rfl⟩
  refine ⟨?_, fun x hx => (hmem x hx).1, fun x hx => ?_, fun x hx => ?_, fun x hx => ?_, fun x hx => ?_, fun x hx y hy => ?_,
    fun o ho hno y hy => ?_, fun x hx y hy => ?_⟩
  · rw [key, List.map_filterMap]
    have : ((List.range (2 ^ m)).filterMap fun i =>
        (if sumsq ((allBits c).map fun y => val a (bitsOf m i ++ y)) = 0 then none
          else some (i, sumsq ((allBits c).map fun y => val a (bitsOf m i ++ y)),
            ofDense ((allBits c).map fun y => val a (bitsOf m i ++ y)) [c])).map (·.1))
        = (List.range (2 ^ m)).filter fun i => sumsq ((allBits c).map fun y => val a (bitsOf m i ++ y)) ≠ 0 := by
      rw [← List.filterMap_eq_filter]
      apply List.filterMap_congr
      intro i _
      split <;> simp_all [Option.guard]
    rw [this]
    exact List.Pairwise.sublist List.filter_sublist List.pairwise_lt_range
  · rw [(hmem x hx).2.2.1]; exact (hmem x hx).2.1
  · rw [(hmem x hx).2.2.1, hc, norm2_eq]
  · rw [(hmem x hx).2.2.2]
    exact ofDense_wf (by simp [allBits_length])
  · rw [(hmem x hx).2.2.2, hc]; rfl
  · rw [hc] at hy
    rw [(hmem x hx).2.2.2, ofDense_val _ (by simpa using hy), map_allBits_getD _ hy]
  · rw [hc] at hy
    have : sumsq ((allBits c).map fun y => val a (bitsOf m o ++ y)) = 0 := by
      by_contra h0
      apply hno
      rw [key]
      refine List.mem_map.2 ⟨_, List.mem_filterMap.2 ⟨o, List.mem_range.2 ho, by rw [if_neg h0]⟩, rfl⟩
    exact hr.definite _ this _ (List.mem_map.2 ⟨y, mem_allBits.2 hy, rfl⟩)
  · rw [(hmem x hx).2.2.2, (hmem y hy).2.2.2]; rfl

/-! ### Sparse arrays -/

theorem sum_key_single {α : Type} (l : List (Nat × α)) (F : Nat × α → K) {g : Nat × α} (hg : g ∈ l) (hn : (l.map (·.1)).Nodup) :
    (l.map fun x => if x.1 = g.1 then F x else 0).sum = F g := by
  induction l with
  | nil => simp at hg
  | cons x l ih =>
    rw [List.map_cons, List.nodup_cons] at hn
    rw [List.map_cons, List.sum_cons]
    rcases List.mem_cons.1 hg with rfl | hg
    · rw [if_pos rfl, sum_zero_of, add_zero]
      intro y hy
      rw [if_neg]
      intro e
      exact hn.1 (e ▸ List.mem_map_of_mem hy)
    · rw [ih hg hn.2, if_neg, zero_add]
      intro e
      exact hn.1 (e ▸ List.mem_map_of_mem hg)

theorem sparse_outcomes {root : K → K} (hr : Root root) {a : Arr K} (h : WF a) (hs : isSparse a.data = true) {m n : Nat}
    (hsh : a.shape = [n]) (hm : m ≤ n) : Outcomes m n (val a) (multiMeasure m a) := by
  obtain ⟨c, rfl⟩ := Nat.exists_eq_add_of_le hm
  have hsum : a.shape.sum = m + c := by rw [hsh]; simp
  have hc : m + c - m = c := by omega
  obtain ⟨s1, s2⟩ := sparse_wf h hs
  rw [hsum] at s2
  have hg := coords_good s1 s2
  have hv : ∀ x y : List Bool, x.length = m → y.length = c → val a (x ++ y) = entry (coords c (sp (applySwaps a).data)) (num x) (num y) := by
    intro x y hx hy
    rw [entry_coords _ _ _ _ hy, sparse_val h hs (by rw [hsum]; simp [hx, hy])]
  have key : multiMeasure m a = (groups (sortIdx c (coords c (sp (applySwaps a).data)))).filterMap fun g =>
      if sumsq (g.2.map (·.2)) = 0 then none else some (g.1, sumsq (g.2.map (·.2)), ofSparse g.2 [c]) := by
    unfold multiMeasure
    dsimp only
    rw [if_pos hs, hsum, hc]
  generalize coords c (sp (applySwaps a).data) = M at hg hv key
  have hkn := groups_sorted_nodup (m := M) hg.col
  -- the entries of a group
  have hent : ∀ r j, entry M r j = ((groups (sortIdx c M)).map fun g => if g.1 = r then (g.2.map fun x => if x.1 = j then x.2 else 0).sum else 0).sum := by
    intro r j
    rw [groups_sum, entry]
    have := ((sortIdx_perm c M).map fun x => if x.1 = r then (if x.2.1 = j then x.2.2 else 0) else 0).sum_eq
    rw [this]
    congr 1
    apply List.map_congr_left
    intro x _
    by_cases h1 : x.1 = r <;> by_cases h2 : x.2.1 = j <;> simp [h1, h2]
  have hgr : ∀ g ∈ groups (sortIdx c M), g.1 < 2 ^ m ∧ WF (ofSparse g.2 [c]) ∧
      ∀ y : List Bool, y.length = c → val (ofSparse g.2 [c]) y = val a (bitsOf m g.1 ++ y) := by
    intro g hgm
    obtain ⟨x, hx, ex⟩ := groups_key hgm
    have hlt : g.1 < 2 ^ m := ex ▸ hg.row x hx
    have hsub := (groups_mem hgm).2
    refine ⟨hlt, ofSparse_wf ?_ ?_, ?_⟩
    · have h1 : ((sortIdx c M).map fun x => (x.1, x.2.1)).Nodup := ((sortIdx_perm c M).map _).nodup_iff.2 hg.nodup
      have h2 := h1.sublist (hsub.map fun x => (x.1, x.2.1))
      rw [List.map_map] at h2
      have h3 : (g.2.map (·.1)).map (fun i => (g.1, i)) = g.2.map ((fun x : Nat × Nat × K => (x.1, x.2.1)) ∘ fun y => (g.1, y)) := by
        rw [List.map_map]; rfl
      rw [← h3] at h2
      exact List.Nodup.of_map _ h2
    · intro z hz
      have : (g.1, z) ∈ M := (sortIdx_perm c M).mem_iff.1 (hsub.subset (List.mem_map_of_mem hz))
      simpa using hg.col _ this
    · intro y hy
      rw [ofSparse_val _ (by simpa using hy), rawAt_sparse, hv _ _ (bitsOf_length _ _) hy, num_bitsOf hlt, hent]
      exact (sum_key_single _ (fun g => (g.2.map fun x => if x.1 = num y then x.2 else 0).sum) hgm hkn).symm
  have hmem : ∀ x ∈ multiMeasure m a, ∃ g ∈ groups (sortIdx c M), sumsq (g.2.map (·.2)) ≠ 0 ∧
      x = (g.1, sumsq (g.2.map (·.2)), ofSparse g.2 [c]) := by
    intro x hx
    rw [key] at hx
    obtain ⟨g, hgm, hx⟩ := List.mem_filterMap.1 hx
    split at hx
    · cases hx
    · rename_i h0
      exact ⟨g, hgm, h0, (Option.some.inj hx).symm⟩
  refine ⟨?_, fun x hx => ?_, fun x hx => ?_, fun x hx => ?_, fun x hx => ?_, fun x hx => ?_, fun x hx y hy => ?_,
    fun o ho hno y hy => ?_, fun x hx y hy => ?_⟩
  · have hsort := (groups_nodup ((sortIdx_pairwise hg.col).imp (S := fun x y : Nat × Nat × K => x.1 ≤ y.1) (by
      intro x y h; rcases h with h | h <;> omega))).1
    rw [key, List.map_filterMap]
    refine hsort.sublist ?_
    have : ((groups (sortIdx c M)).filterMap fun g =>
        (if sumsq (g.2.map (·.2)) = 0 then none else some (g.1, sumsq (g.2.map (·.2)), ofSparse g.2 [c])).map (·.1))
        = ((groups (sortIdx c M)).filter fun g => sumsq (g.2.map (·.2)) ≠ 0).map (·.1) := by
      rw [← List.filterMap_eq_filter, List.map_filterMap]
      apply List.filterMap_congr
      intro g _
      split <;> simp_all [Option.guard]
    rw [this]
    exact List.filter_sublist.map _
  · obtain ⟨g, hgm, h0, rfl⟩ := hmem x hx
    exact (hgr g hgm).1
  · obtain ⟨g, hgm, h0, rfl⟩ := hmem x hx
    exact h0
  · obtain ⟨g, hgm, h0, rfl⟩ := hmem x hx
    have e : sumsq (g.2.map (·.2)) = sqNorm (ofSparse g.2 [c]) := rfl
    dsimp only
    rw [e, sqNorm_val (hgr g hgm).2.1, hc]
    unfold norm2
    have : (ofSparse g.2 [c] : Arr K).shape.sum = c := by simp [ofSparse]
    rw [this]
    congr 1
    apply List.map_congr_left
    intro y hy
    rw [(hgr g hgm).2.2 y (mem_allBits.1 hy)]
  · obtain ⟨g, hgm, h0, rfl⟩ := hmem x hx
    exact (hgr g hgm).2.1
  · obtain ⟨g, hgm, h0, rfl⟩ := hmem x hx
    rw [hc]; rfl
  · rw [hc] at hy
    obtain ⟨g, hgm, h0, rfl⟩ := hmem x hx
    exact (hgr g hgm).2.2 y hy
  · rw [hc] at hy
    by_cases hex : ∃ g ∈ groups (sortIdx c M), g.1 = o
    · obtain ⟨g, hgm, rfl⟩ := hex
      have h0 : sumsq (g.2.map (·.2)) = 0 := by
        by_contra h0
        apply hno
        rw [key]
        exact List.mem_map.2 ⟨_, List.mem_filterMap.2 ⟨g, hgm, by rw [if_neg h0]⟩, rfl⟩
      rw [← (hgr g hgm).2.2 y hy, ofSparse_val _ (by simpa using hy), rawAt_sparse]
      apply sum_zero_of
      intro x hx
      rw [hr.definite _ h0 _ (List.mem_map_of_mem hx)]
      simp
    · rw [hv _ _ (bitsOf_length _ _) hy, num_bitsOf ho, hent]
      apply sum_zero_of
      intro g hgm
      rw [if_neg]
      exact fun e => hex ⟨g, hgm, e⟩
  · obtain ⟨g, hgm, h0, rfl⟩ := hmem x hx
    obtain ⟨g', hgm', h0', rfl⟩ := hmem y hy
    rfl

theorem outcomes_ok {root : K → K} (hr : Root root) {a : Arr K} (h : WF a) {m n : Nat} (hsh : a.shape = [n]) (hm : m ≤ n) :
    Outcomes m n (val a) (multiMeasure m a) := by
  cases hs : isSparse a.data with
  | true => exact sparse_outcomes hr h hs hsh hm
  | false => exact dense_outcomes hr h hs hsh hm

/-! ### Scalar products -/

theorem vdot_ok (own : Bool) {a b : Arr K} (ha : WF a) (hb : WF b) (hk : isSparse a.data = isSparse b.data) (hsh : a.shape.sum = b.shape.sum) :
    vdot own a b = ((allBits a.shape.sum).map fun y => star (val a y) * val b y).sum := by
  unfold vdot
  cases hs : isSparse a.data with
  | true =>
    rw [if_pos rfl]
    dsimp only
    have hs' : isSparse b.data = true := by rw [← hk, hs]
    obtain ⟨a1, a2⟩ := sparse_wf ha hs
    obtain ⟨b1, b2⟩ := sparse_wf hb hs'
    have ga : Good 0 a.shape.sum (coords a.shape.sum (sp (applySwaps a).data)) := coords_good a1 (by simpa using a2)
    have gb : Good a.shape.sum 0 (coords 0 (sp (applySwaps b).data)) := coords_good b1 (by rw [hsh]; simpa using b2)
    have ga' : Good 0 a.shape.sum ((coords a.shape.sum (sp (applySwaps a).data)).map fun x => (x.1, x.2.1, star x.2.2)) := by
      refine ⟨?_, ?_, ?_⟩
      · intro x hx
        obtain ⟨y, hy, rfl⟩ := List.mem_map.1 hx
        exact ga.row y hy
      · intro x hx
        obtain ⟨y, hy, rfl⟩ := List.mem_map.1 hx
        exact ga.col y hy
      · rw [List.map_map]
        exact ga.nodup
    rw [sparseMul_entry own ga' gb (by simp) (by simp), sum_range_bits]
    congr 1
    apply List.map_congr_left
    intro y hy
    have hy' := mem_allBits.1 hy
    have e1 : entry ((coords a.shape.sum (sp (applySwaps a).data)).map fun x => (x.1, x.2.1, star x.2.2)) 0 (num y)
        = star (entry (coords a.shape.sum (sp (applySwaps a).data)) 0 (num y)) := by
      unfold entry
      rw [List.map_map, ← starAddEquiv_apply (R := K), map_list_sum, List.map_map]
      congr 1
      apply List.map_congr_left
      intro x _
      simp only [Function.comp_apply, starAddEquiv_apply]
      split <;> simp
    have e2 := entry_coords a.shape.sum (sp (applySwaps a).data) [] y hy'
    have e3 := entry_coords 0 (sp (applySwaps b).data) y [] rfl
    rw [List.nil_append] at e2
    rw [List.append_nil] at e3
    have z : num [] = 0 := rfl
    rw [z] at e2 e3
    rw [e1, e2, e3, sparse_val ha hs hy', sparse_val hb hs' (by rw [← hsh]; exact hy')]
  | false =>
    rw [if_neg (by simp)]
    have hs' : isSparse b.data = false := by rw [← hk, hs]
    rw [dense_list ha hs, dense_list hb hs', ← hsh]
    rw [List.zipWith_map, List.zipWith_self]

end Verif.Tens
