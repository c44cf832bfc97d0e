import Verif.Tens.Array

/-!
# The logged permutations mean what numpy does at once
-/

namespace Verif.Tens

set_option linter.unusedSectionVars false

variable {K : Type} [CommRing K]

theorem merge_flat {perm : List Nat} (hn : perm.Nodup) (hb : ∀ x ∈ perm, x < perm.length) :
    ∃ L, mergeLoop perm.length perm (List.replicate perm.length 1) 1 = (L.map (·.1), L.map (·.2)) ∧ Labels L ∧ flat L = perm := by
  cases perm with
  | nil => exact ⟨[], rfl, ⟨by simp, by simp⟩, rfl⟩
  | cons p R =>
    have hl : Labels ([] ++ (p, 1) :: R.map (·, 1)) := ⟨by simpa [Function.comp_def] using hn, by simpa using hb⟩
    obtain ⟨L, e, hL, hF⟩ := mergeLoop_ok (p :: R).length [] p 1 R (by simp) hl
    refine ⟨L, by simpa [List.replicate_succ] using e, hL, ?_⟩
    rw [hF]
    simpa using flat_ones hn hb

theorem take_drop_eq (bits : List Bool) (T s : Nat) (h : T + s ≤ bits.length) :
    (bits.drop T).take s = (List.range s).map fun o => bits.getD (T + o) false := by
  apply List.ext_getElem
  · simp; omega
  · intro i h1 h2
    have : i < s := by simpa using h2
    simp only [List.getElem_take, List.getElem_drop, List.getElem_map, List.getElem_range]
    rw [List.getD_eq_getElem _ _ (by omega)]

theorem flatMap_range {α : Type} (L : List (Nat × Nat)) (f : Nat × Nat → List α) :
    ((List.range L.length).flatMap fun k => f (L.getD k (0, 0))) = L.flatMap f := by
  have : L = (List.range L.length).map fun k => L.getD k (0, 0) := by
    apply List.ext_getElem
    · simp
    · intro i h1 h2
      simp [h1]
  conv_rhs => rw [this, List.flatMap_map]

theorem moveaxis_old {ibp : List Nat} (h : ibp.Perm (List.range ibp.length)) {bits : List Bool} (hb : bits.length = ibp.length) :
    moveaxis (mergeLoop ibp.length (invertPerm ibp) (List.replicate ibp.length 1) 1).1
      (mergeLoop ibp.length (invertPerm ibp) (List.replicate ibp.length 1) 1).2 bits = old ibp bits := by
  have hl : (invertPerm ibp).length = ibp.length := by simp [invertPerm]
  obtain ⟨L, e, hL, hF⟩ := merge_flat (invertPerm_nodup h) (invertPerm_lt h)
  rw [hl] at e
  rw [e]
  have hlt : ∀ x ∈ flat L, x < bits.length := by
    intro x hx
    rw [hF] at hx
    have := invertPerm_lt h x hx
    omega
  unfold moveaxis
  simp only [List.length_map]
  have hk : ∀ k ∈ List.range L.length,
      (bits.drop ((partition ((invertPerm (L.map (·.1))).map fun i => (L.map (·.2)).getD i 0)).getD ((L.map (·.1)).getD k 0) 0)).take
        ((L.map (·.2)).getD k 0) = (fun x : Nat × Nat => (List.range x.2).map fun o => bits.getD (start L x.1 + o) false) (L.getD k (0, 0)) := by
    intro k hk
    have h' := List.mem_range.1 hk
    have hlab := hL.2 L[k] (List.getElem_mem h')
    have e3 : (L.map (·.1)).getD k 0 = L[k].1 := by
      rw [List.getD_eq_getElem _ _ (by simpa using h')]; simp
    have e4 : (L.map (·.2)).getD k 0 = L[k].2 := by
      rw [List.getD_eq_getElem _ _ (by simpa using h')]; simp
    have e5 : L.getD k (0, 0) = L[k] := List.getD_eq_getElem _ _ h'
    rw [e3, e4, e5, partition_getD (by simp [invertPerm]; omega), permuted_sum hL _ (by omega)]
    by_cases hs : L[k].2 = 0
    · simp [hs]
    · apply take_drop_eq
      have : start L L[k].1 + (L[k].2 - 1) ∈ flat L := by
        unfold flat
        rw [List.mem_flatMap]
        exact ⟨L[k], List.getElem_mem h', List.mem_map.2 ⟨L[k].2 - 1, List.mem_range.2 (by omega), rfl⟩⟩
      have := hlt _ this
      omega
  rw [List.flatMap_congr hk,
    flatMap_range L (fun x : Nat × Nat => (List.range x.2).map fun o => bits.getD (start L x.1 + o) false)]
  have : (L.flatMap fun x : Nat × Nat => (List.range x.2).map fun o => bits.getD (start L x.1 + o) false)
      = (flat L).map fun x => bits.getD x false := by
    unfold flat
    rw [List.map_flatMap]
    simp [Function.comp_def]
  rw [this, hF]
  simp [invertPerm, old]

theorem WF.length {a : Arr K} (h : WF a) : a.ibp.length = a.shape.sum := by simpa using h.perm.length_eq

theorem WF.perm' {a : Arr K} (h : WF a) : a.ibp.Perm (List.range a.ibp.length) := by rw [h.length]; exact h.perm

theorem WF.nodup {a : Arr K} (h : WF a) : a.ibp.Nodup := h.perm.nodup_iff.2 List.nodup_range

theorem applySwaps_shape (a : Arr K) : (applySwaps a).shape = a.shape := by unfold applySwaps; split <;> rfl

theorem applySwaps_ibp (a : Arr K) : (applySwaps a).ibp = List.range a.shape.sum := by
  unfold applySwaps
  split
  · assumption
  · rfl

theorem wf_applySwaps {a : Arr K} (h : WF a) : WF (applySwaps a) := by
  by_cases hi : a.ibp = List.range a.shape.sum
  · unfold applySwaps; rw [if_pos hi]; exact h
  obtain ⟨d, sh, ibp⟩ := a
  have hlen := h.length
  have hp := h.perm'
  unfold applySwaps
  rw [if_neg hi]
  cases d with
  | sparse l =>
    have hd := h.data
    refine ⟨List.Perm.refl _, ?_, ?_⟩
    · simp only [List.map_map]
      show (l.map fun x => permuteAxes ibp x.1).Nodup
      rw [show (l.map fun x => permuteAxes ibp x.1) = (l.map (·.1)).map (permuteAxes ibp) by simp]
      apply List.Nodup.map_on _ hd.1
      intro x hx y hy e
      obtain ⟨x', hx', rfl⟩ := List.mem_map.1 hx
      obtain ⟨y', hy', rfl⟩ := List.mem_map.1 hy
      exact permuteAxes_inj hp (by rw [hlen]; exact hd.2 x' hx') (by rw [hlen]; exact hd.2 y' hy') e
    · intro x hx
      obtain ⟨y, _, rfl⟩ := List.mem_map.1 hx
      have := permuteAxes_lt hp y.1
      rw [hlen] at this
      exact this
  | dense l =>
    refine ⟨List.Perm.refl _, ?_⟩
    simp only [List.length_map, allBits_length]
    rw [hlen]

theorem rawAt_map {l : List (Nat × K)} (f : Nat → Nat) {i j : Nat} (h : ∀ x ∈ l, f x.1 = j ↔ x.1 = i) :
    rawAt (.sparse (l.map fun x => (f x.1, x.2))) j = rawAt (.sparse l) i := by
  simp only [rawAt]
  induction l with
  | nil => rfl
  | cons x l ih =>
    have hx := h x (by simp)
    have ih := ih fun y hy => h y (by simp [hy])
    by_cases e : x.1 = i
    · rw [List.map_cons, List.filter_cons_of_pos (by simpa using hx.2 e), List.filter_cons_of_pos (by simpa using e)]
      simp only [List.map_cons, List.sum_cons, ih]
    · have : f x.1 ≠ j := fun h' => e (hx.1 h')
      rw [List.map_cons, List.filter_cons_of_neg (by simpa using this), List.filter_cons_of_neg (by simpa using e)]
      exact ih

theorem val_applySwaps {a : Arr K} (h : WF a) {bits : List Bool} (hb : bits.length = a.shape.sum) :
    val (applySwaps a) bits = val a bits := by
  by_cases hi : a.ibp = List.range a.shape.sum
  · unfold applySwaps; rw [if_pos hi]
  have hlen := h.length
  have hp := h.perm'
  have hr : old (applySwaps a).ibp bits = bits := by rw [applySwaps_ibp, old_range hb]
  unfold val
  rw [hr]
  obtain ⟨d, sh, ibp⟩ := a
  unfold applySwaps
  rw [if_neg hi]
  simp only at hlen hp hb ⊢
  cases d with
  | sparse l =>
    have hd := h.data
    apply rawAt_map
    intro x hx
    have e := permuteAxes_num hp (bits := bits) (by omega)
    constructor
    · intro h'
      rw [← e] at h'
      refine permuteAxes_inj hp (by rw [hlen]; exact hd.2 x hx) ?_ h'
      have := num_lt (old ibp bits)
      rwa [old_length] at this
    · rintro h'
      rw [h', e]
  | dense l =>
    simp only [rawAt]
    rw [map_allBits_getD _ (by omega), moveaxis_old hp (by omega)]

/-- the array read out is the array the permutation log describes -/
theorem toArray_val {a : Arr K} (h : WF a) : toArray a = (allBits a.shape.sum).map (val a) := by
  have hw := wf_applySwaps h
  unfold toArray
  simp only [applySwaps_shape]
  apply List.ext_getElem
  · simp [allBits_length]
  · intro i h1 h2
    have hi : i < 2 ^ a.shape.sum := by simpa using h1
    have hb := bitsOf_length a.shape.sum i
    have e := map_allBits_getD (val a) hb
    rw [num_bitsOf hi, List.getD_eq_getElem _ _ h2] at e
    rw [e, ← val_applySwaps h hb, val, applySwaps_ibp, old_range hb, num_bitsOf hi]
    simp

theorem old_congr {ibp ibp' : List Nat} {bits bits' : List Bool} (hn : ibp.Nodup) (hp : (ibp.zip bits).Perm (ibp'.zip bits'))
    (hr : ibp.Perm (List.range ibp.length)) (h1 : bits.length = ibp.length) (h2 : bits'.length = ibp'.length) :
    old ibp bits = old ibp' bits' := by
  have hk : ibp.Perm ibp' := by
    have := hp.map Prod.fst
    rwa [List.map_fst_zip (by omega), List.map_fst_zip (by omega)] at this
  have hl := hk.length_eq
  have hn' : ibp'.Nodup := hk.nodup_iff.1 hn
  unfold old
  rw [← hl]
  apply List.map_congr_left
  intro i hi
  have hm : i ∈ ibp := hr.mem_iff.2 hi
  have hm' : i ∈ ibp' := hk.mem_iff.1 hm
  have l1 := List.idxOf_lt_length_iff.2 hm
  have l2 := List.idxOf_lt_length_iff.2 hm'
  have m1 : (i, bits[ibp.idxOf i]) ∈ ibp.zip bits := by
    have : (ibp.zip bits)[ibp.idxOf i]'(by simp; omega) = (i, bits[ibp.idxOf i]) := by simp
    rw [← this]; exact List.getElem_mem _
  have m2 : (i, bits'[ibp'.idxOf i]) ∈ ibp'.zip bits' := by
    have : (ibp'.zip bits')[ibp'.idxOf i]'(by simp; omega) = (i, bits'[ibp'.idxOf i]) := by simp
    rw [← this]; exact List.getElem_mem _
  have m1' := hp.mem_iff.1 m1
  rw [List.getD_eq_getElem _ _ (by omega), List.getD_eq_getElem _ _ (by omega)]
  have hkeys : ((ibp'.zip bits').map Prod.fst).Nodup := by rw [List.map_fst_zip (by omega)]; exact hn'
  have := List.inj_on_of_nodup_map hkeys m1' m2 rfl
  simpa using this

theorem val_congr {a a' : Arr K} (h : WF a) (hd : a'.data = a.data) {bits bits' : List Bool}
    (hp : (a.ibp.zip bits).Perm (a'.ibp.zip bits')) (h1 : bits.length = a.ibp.length) (h2 : bits'.length = a'.ibp.length) :
    val a' bits' = val a bits := by
  unfold val
  rw [hd, old_congr h.nodup hp h.perm' h1 h2]

/-! ### Swapping axes -/

/-- exchanging two entries of a list -/
def swapAt {α : Type} (d : α) (l : List α) (i j : Nat) : List α := (l.set i (l.getD j d)).set j (l.getD i d)

theorem split_len {α : Type} (l : List α) {a b : Nat} (h : l.length = a + b) :
    ∃ l1 l2, l = l1 ++ l2 ∧ l1.length = a ∧ l2.length = b :=
  ⟨l.take a, l.drop a, (List.take_append_drop a l).symm, by simp; omega, by simp; omega⟩

theorem split_at {α : Type} (l : List α) {i : Nat} (h : i < l.length) : ∃ A x B, l = A ++ x :: B ∧ A.length = i :=
  ⟨l.take i, l[i], l.drop (i + 1), by simp, by simp; omega⟩

theorem split_two {α : Type} (l : List α) {i j : Nat} (hij : i < j) (h : j < l.length) :
    ∃ A x M y F, l = A ++ x :: (M ++ y :: F) ∧ A.length = i ∧ A.length + 1 + M.length = j := by
  obtain ⟨A, x, B, rfl, hA⟩ := split_at l (show i < l.length by omega)
  obtain ⟨M, y, F, rfl, hM⟩ := split_at B (i := j - i - 1) (by simp at h; omega)
  exact ⟨A, x, M, y, F, rfl, hA, by omega⟩

theorem swapAt_two {α : Type} (d : α) (A M F : List α) (x y : α) :
    swapAt d (A ++ x :: (M ++ y :: F)) A.length (A.length + 1 + M.length) = A ++ y :: (M ++ x :: F) := by
  have h1 : (A ++ x :: (M ++ y :: F)).getD A.length d = x := by simp [List.getD_eq_getElem?_getD]
  have h2 : (A ++ x :: (M ++ y :: F)).getD (A.length + 1 + M.length) d = y := by
    rw [List.getD_eq_getElem?_getD, List.getElem?_append_right (by omega)]
    rw [show A.length + 1 + M.length - A.length = M.length + 1 by omega]
    simp
  unfold swapAt
  rw [h1, h2, List.set_append_right _ _ (by omega), List.set_append_right _ _ (by omega)]
  rw [show A.length + 1 + M.length - A.length = M.length + 1 by omega]
  simp

theorem swapAt_comm {α : Type} (d : α) (l : List α) {i j : Nat} (hij : i ≠ j) : swapAt d l i j = swapAt d l j i := by
  unfold swapAt
  rw [List.set_comm _ _ hij]

theorem swapaxes_two (d : Data K) (A M F : List Nat) (x y : Nat) (pA pI pM pJ pF : List Nat) (hA : pA.length = A.sum)
    (hI : pI.length = x) (hM : pM.length = M.sum) (hJ : pJ.length = y) :
    swapaxes ⟨d, A ++ x :: (M ++ y :: F), pA ++ (pI ++ (pM ++ (pJ ++ pF)))⟩ A.length (A.length + 1 + M.length)
      = ⟨d, A ++ y :: (M ++ x :: F), pA ++ (pJ ++ (pM ++ (pI ++ pF)))⟩ := by
  unfold swapaxes
  rw [if_neg (by omega)]
  have h1 : (A ++ x :: (M ++ y :: F)).getD A.length 0 = x := by simp [List.getD_eq_getElem?_getD]
  have h2 : (A ++ x :: (M ++ y :: F)).getD (A.length + 1 + M.length) 0 = y := by
    rw [List.getD_eq_getElem?_getD, List.getElem?_append_right (by omega)]
    rw [show A.length + 1 + M.length - A.length = M.length + 1 by omega]
    simp
  have hm : min A.length (A.length + 1 + M.length) = A.length := by omega
  have hx : max A.length (A.length + 1 + M.length) = A.length + 1 + M.length := by omega
  have t1 : ((A ++ x :: (M ++ y :: F)).take A.length).sum = pA.length := by simp [hA]
  have t2 : ((A ++ x :: (M ++ y :: F)).take (A.length + 1 + M.length)).sum = pA.length + (pI.length + pM.length) := by
    rw [List.take_append, List.take_of_length_le (by omega)]
    rw [show A.length + 1 + M.length - A.length = M.length + 1 by omega]
    simp [hA, hI, hM]
  have sw := swapAt_two 0 A M F x y
  unfold swapAt at sw
  rw [h1, h2] at sw
  simp only [hm, hx, h1, h2, t1, t2, sw]
  congr 1
  rw [← hI, ← hJ]
  have e1 : (pA ++ (pI ++ (pM ++ (pJ ++ pF)))).take pA.length = pA := by simp
  have e2 : (pA ++ (pI ++ (pM ++ (pJ ++ pF)))).take (pA.length + pI.length) = pA ++ pI := by
    rw [← List.append_assoc pA, ← List.length_append, List.take_left']; rfl
  have e3 : (pA ++ (pI ++ (pM ++ (pJ ++ pF)))).take (pA.length + (pI.length + pM.length)) = pA ++ (pI ++ pM) := by
    rw [show pA ++ (pI ++ (pM ++ (pJ ++ pF))) = (pA ++ (pI ++ pM)) ++ (pJ ++ pF) by simp, List.take_left']; simp
  have e4 : (pA ++ (pI ++ (pM ++ (pJ ++ pF)))).take (pA.length + (pI.length + pM.length) + pJ.length) = pA ++ (pI ++ pM) ++ pJ := by
    rw [show pA ++ (pI ++ (pM ++ (pJ ++ pF))) = (pA ++ (pI ++ pM) ++ pJ) ++ pF by simp, List.take_left']; simp; omega
  have e5 : (pA ++ (pI ++ (pM ++ (pJ ++ pF)))).drop (pA.length + (pI.length + pM.length) + pJ.length) = pF := by
    rw [show pA ++ (pI ++ (pM ++ (pJ ++ pF))) = (pA ++ (pI ++ pM) ++ pJ) ++ pF by simp, List.drop_left']; simp; omega
  have d2 : (pA ++ pI).drop pA.length = pI := List.drop_left' rfl
  have d3 : (pA ++ (pI ++ pM)).drop (pA.length + pI.length) = pM := by
    rw [← List.append_assoc, List.drop_left']; simp
  have d4 : (pA ++ (pI ++ pM) ++ pJ).drop (pA.length + (pI.length + pM.length)) = pJ := by
    rw [List.drop_left']; simp
  rw [e1, e2, e3, e4, e5, d2, d3, d4]
  simp

theorem swapaxes_comm (a : Arr K) (i j : Nat) : swapaxes a i j = swapaxes a j i := by
  unfold swapaxes
  by_cases h : i = j
  · subst h; rfl
  · rw [if_neg h, if_neg (Ne.symm h), Nat.min_comm, Nat.max_comm]

theorem sum_map_length {α : Type} (xs : List (List α)) : (xs.map List.length).sum = xs.flatten.length := by
  simp [List.length_flatten]

/-- decomposition of an array along two axes -/
theorem arr_two {a : Arr K} (h : WF a) {i j : Nat} (hij : i < j) (hj : j < a.shape.length) :
    ∃ A x M y F pA pI pM pJ pF, a = ⟨a.data, A ++ x :: (M ++ y :: F), pA ++ (pI ++ (pM ++ (pJ ++ pF)))⟩ ∧ A.length = i
      ∧ A.length + 1 + M.length = j ∧ pA.length = A.sum ∧ pI.length = x ∧ pM.length = M.sum ∧ pJ.length = y ∧ pF.length = F.sum := by
  obtain ⟨A, x, M, y, F, hs, h1, h2⟩ := split_two a.shape hij hj
  have hl := h.length
  rw [hs] at hl
  simp only [List.sum_append, List.sum_cons] at hl
  obtain ⟨pA, r1, e1, l1, k1⟩ := split_len a.ibp hl
  obtain ⟨pI, r2, e2, l2, k2⟩ := split_len r1 k1
  obtain ⟨pM, r3, e3, l3, k3⟩ := split_len r2 k2
  obtain ⟨pJ, pF, e4, l4, k4⟩ := split_len r3 k3
  refine ⟨A, x, M, y, F, pA, pI, pM, pJ, pF, ?_, h1, h2, l1, l2, l3, l4, k4⟩
  obtain ⟨d, s, p⟩ := a
  simp only at hs e1
  rw [hs, e1, e2, e3, e4]

theorem swapaxes_lt_ok {a : Arr K} (h : WF a) {i j : Nat} (hij : i < j) (hj : j < a.shape.length) :
    WF (swapaxes a i j) ∧ (swapaxes a i j).shape = swapAt 0 a.shape i j ∧
      ∀ xs : List (List Bool), xs.map List.length = a.shape →
        val (swapaxes a i j) (swapAt [] xs i j).flatten = val a xs.flatten := by
  obtain ⟨A, x, M, y, F, pA, pI, pM, pJ, pF, e, hi, hj', l1, l2, l3, l4, l5⟩ := arr_two h hij hj
  subst hi hj'
  generalize a.data = d at e
  subst e
  rw [swapaxes_two d A M F x y pA pI pM pJ pF l1 l2 l3 l4]
  have hperm : (pA ++ (pJ ++ (pM ++ (pI ++ pF)))).Perm (pA ++ (pI ++ (pM ++ (pJ ++ pF)))) := by
    apply List.Perm.append_left
    calc (pJ ++ (pM ++ (pI ++ pF))).Perm ((pM ++ (pI ++ pF)) ++ pJ) := List.perm_append_comm
      _ |>.Perm (pM ++ (pI ++ (pF ++ pJ))) := by simp
      _ |>.Perm (pM ++ (pI ++ (pJ ++ pF))) := by
          apply List.Perm.append_left; apply List.Perm.append_left; exact List.perm_append_comm
      _ |>.Perm ((pM ++ pI) ++ (pJ ++ pF)) := by simp
      _ |>.Perm ((pI ++ pM) ++ (pJ ++ pF)) := List.Perm.append_right _ List.perm_append_comm
      _ |>.Perm (pI ++ (pM ++ (pJ ++ pF))) := by simp
  have hsum : (A ++ y :: (M ++ x :: F)).sum = (A ++ x :: (M ++ y :: F)).sum := by simp; omega
  refine ⟨⟨?_, ?_⟩, ?_, ?_⟩
  · rw [hsum]
    exact hperm.trans h.perm
  · have := h.data
    cases d
    · simp only at this ⊢; rw [hsum]; exact this
    · simp only at this ⊢; rw [hsum]; exact this
  · exact (swapAt_two 0 A M F x y).symm
  · intro xs hxs
    simp only at hxs
    have hlen : xs.length = (A ++ x :: (M ++ y :: F)).length := by rw [← hxs]; simp
    obtain ⟨XA, u, XM, v, XF, rfl, k1, k2⟩ := split_two xs (i := A.length) (j := A.length + 1 + M.length) (by omega)
      (by rw [hlen]; simp; omega)
    have kM : XM.length = M.length := by omega
    simp only [List.map_append, List.map_cons] at hxs
    obtain ⟨q1, hxs⟩ := List.append_inj hxs (by simpa using k1)
    simp only [List.cons.injEq] at hxs
    obtain ⟨q2, hxs⟩ := hxs
    obtain ⟨q3, hxs⟩ := List.append_inj hxs (by simpa using kM)
    simp only [List.cons.injEq] at hxs
    obtain ⟨q4, q5⟩ := hxs
    have s1 : XA.flatten.length = pA.length := by rw [l1, ← q1, sum_map_length]
    have s2 : u.length = pI.length := by rw [l2, q2]
    have s3 : XM.flatten.length = pM.length := by rw [l3, ← q3, sum_map_length]
    have s4 : v.length = pJ.length := by rw [l4, q4]
    have s5 : XF.flatten.length = pF.length := by rw [l5, ← q5, sum_map_length]
    rw [← k1, show XA.length + 1 + M.length = XA.length + 1 + XM.length by omega, swapAt_two]
    simp only [List.flatten_append, List.flatten_cons]
    refine val_congr h ?_ ?_ ?_ ?_
    · rfl
    · simp only
      rw [List.zip_append s1.symm, List.zip_append s2.symm, List.zip_append s3.symm, List.zip_append s4.symm,
        List.zip_append s1.symm, List.zip_append s4.symm, List.zip_append s3.symm, List.zip_append s2.symm]
      generalize pA.zip XA.flatten = zA
      generalize pI.zip u = zI
      generalize pM.zip XM.flatten = zM
      generalize pJ.zip v = zJ
      generalize pF.zip XF.flatten = zF
      apply List.Perm.append_left
      calc (zI ++ (zM ++ (zJ ++ zF))).Perm ((zI ++ zM) ++ (zJ ++ zF)) := by simp
        _ |>.Perm ((zM ++ zI) ++ (zJ ++ zF)) := List.Perm.append_right _ List.perm_append_comm
        _ |>.Perm (zM ++ (zI ++ (zJ ++ zF))) := by simp
        _ |>.Perm (zM ++ (zI ++ (zF ++ zJ))) := by
            apply List.Perm.append_left; apply List.Perm.append_left; exact List.perm_append_comm
        _ |>.Perm ((zM ++ (zI ++ zF)) ++ zJ) := by simp
        _ |>.Perm (zJ ++ (zM ++ (zI ++ zF))) := List.perm_append_comm
    · simp only [List.length_append, s1, s2, s3, s4, s5]
    · simp only [List.length_append, s1, s2, s3, s4, s5]

theorem swapAt_self {α : Type} (d : α) (l : List α) {i : Nat} (hi : i < l.length) : swapAt d l i i = l := by
  unfold swapAt
  rw [List.getD_eq_getElem _ _ hi]
  simp

theorem swapaxes_ok {a : Arr K} (h : WF a) {i j : Nat} (hi : i < a.shape.length) (hj : j < a.shape.length) :
    WF (swapaxes a i j) ∧ (swapaxes a i j).shape = swapAt 0 a.shape i j ∧
      ∀ xs : List (List Bool), xs.map List.length = a.shape →
        val (swapaxes a i j) (swapAt [] xs i j).flatten = val a xs.flatten := by
  rcases Nat.lt_trichotomy i j with hij | hij | hij
  · exact swapaxes_lt_ok h hij hj
  · subst hij
    have e : swapaxes a i i = a := by simp [swapaxes]
    rw [e, swapAt_self _ _ hi]
    refine ⟨h, rfl, fun xs hxs => ?_⟩
    rw [swapAt_self _ _ (by rw [← hxs] at hi; simpa using hi)]
  · rw [swapaxes_comm, swapAt_comm _ _ (by omega)]
    obtain ⟨h1, h2, h3⟩ := swapaxes_lt_ok h hij hi
    refine ⟨h1, h2, fun xs hxs => ?_⟩
    rw [swapAt_comm _ _ (by omega)]
    exact h3 xs hxs

/-! ### Moving an axis to the front -/

theorem moveFront_ok {a : Arr K} (h : WF a) {k : Nat} (hk : k < a.shape.length) :
    WF (moveFront a k) ∧ (moveFront a k).shape = a.shape.getD k 0 :: a.shape.eraseIdx k ∧
      ∀ xs : List (List Bool), xs.map List.length = a.shape →
        val (moveFront a k) (xs.getD k [] :: xs.eraseIdx k).flatten = val a xs.flatten := by
  obtain ⟨A, x, F, hs, hA⟩ := split_at a.shape hk
  subst hA
  by_cases h0 : A.length = 0
  · obtain rfl := List.eq_nil_of_length_eq_zero h0
    have e : moveFront a ([] : List Nat).length = a := by simp [moveFront]
    rw [e]
    refine ⟨h, by simp [hs], fun xs hxs => ?_⟩
    cases xs with
    | nil => rw [hs] at hxs; simp at hxs
    | cons u xs => simp
  have hl := h.length
  rw [hs] at hl
  simp only [List.sum_append, List.sum_cons] at hl
  obtain ⟨pA, r1, e1, l1, k1⟩ := split_len a.ibp hl
  obtain ⟨pI, pF, e2, l2, k2⟩ := split_len r1 k1
  subst e2
  obtain ⟨d, s, p⟩ := a
  simp only at hs e1
  subst hs e1
  have g1 : (A ++ x :: F).getD A.length 0 = x := by simp [List.getD_eq_getElem?_getD]
  have g2 : (A ++ x :: F).eraseIdx A.length = A ++ F := by
    rw [List.eraseIdx_append_of_length_le (by simp)]; simp
  have g3 : ((A ++ x :: F).take A.length).sum = pA.length := by simp [l1]
  have e : moveFront (⟨d, A ++ x :: F, pA ++ (pI ++ pF)⟩ : Arr K) A.length = ⟨d, x :: (A ++ F), pI ++ (pA ++ pF)⟩ := by
    unfold moveFront
    rw [if_neg h0]
    simp only [g1, g2, g3]
    congr 1
    rw [← l2]
    have t1 : (pA ++ (pI ++ pF)).take (pA.length + pI.length) = pA ++ pI := by
      rw [← List.append_assoc, List.take_left']; simp
    have t2 : (pA ++ (pI ++ pF)).drop (pA.length + pI.length) = pF := by
      rw [← List.append_assoc, List.drop_left']; simp
    rw [t1, t2]
    simp
  rw [e]
  have hperm : (pI ++ (pA ++ pF)).Perm (pA ++ (pI ++ pF)) := by
    rw [← List.append_assoc, ← List.append_assoc]
    exact List.Perm.append_right _ List.perm_append_comm
  have hsum : (x :: (A ++ F)).sum = (A ++ x :: F).sum := by simp; omega
  refine ⟨⟨?_, ?_⟩, ?_, ?_⟩
  · rw [hsum]; exact hperm.trans h.perm
  · have := h.data
    cases d
    · simp only at this ⊢; rw [hsum]; exact this
    · simp only at this ⊢; rw [hsum]; exact this
  · rw [g1, g2]
  · intro xs hxs
    simp only at hxs
    have hlen : xs.length = (A ++ x :: F).length := by rw [← hxs]; simp
    obtain ⟨XA, u, XF, rfl, k3⟩ := split_at xs (i := A.length) (by rw [hlen]; simp)
    simp only [List.map_append, List.map_cons] at hxs
    obtain ⟨q1, hxs⟩ := List.append_inj hxs (by simpa using k3)
    simp only [List.cons.injEq] at hxs
    obtain ⟨q2, q3⟩ := hxs
    have s1 : XA.flatten.length = pA.length := by rw [l1, ← q1, sum_map_length]
    have s2 : u.length = pI.length := by rw [l2, q2]
    have s3 : XF.flatten.length = pF.length := by rw [k2, ← q3, sum_map_length]
    have w1 : (XA ++ u :: XF).getD A.length [] = u := by rw [← k3]; simp [List.getD_eq_getElem?_getD]
    have w2 : (XA ++ u :: XF).eraseIdx A.length = XA ++ XF := by
      rw [← k3, List.eraseIdx_append_of_length_le (by simp)]; simp
    rw [w1, w2]
    simp only [List.flatten_append, List.flatten_cons]
    refine val_congr h ?_ ?_ ?_ ?_
    · rfl
    · simp only
      rw [List.zip_append s1.symm, List.zip_append s2.symm, List.zip_append s2.symm, List.zip_append s1.symm,
        ← List.append_assoc, ← List.append_assoc]
      exact List.Perm.append_right _ List.perm_append_comm
    · simp only [List.length_append, s1, s2, s3]
    · simp only [List.length_append, s1, s2, s3]

end Verif.Tens
