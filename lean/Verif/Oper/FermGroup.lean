import Verif.Oper.FermMatch

/-!
Singles and couples of a group of fermionic terms
(src/qrisp/operators/fermionic/trotterization.py lines 74-95, fermionic_term.py lines 157-173).
-/

namespace Verif.Oper

/-! ### Model -/

/-- The loop of `get_unipolars` (fermionic_term.py lines 164-170): equal neighbours are removed. The
entries before position `i` are not touched again. -/
def cancel : List Nat → List Nat
  | x :: y :: r => if x = y then cancel r else x :: cancel (y :: r)
  | l => l

/-- `FermionicTerm.get_unipolars` (lines 157-173). -/
def unipolars (L : List Lad) : List Nat :=
  (cancel ((L.map Prod.fst).insertionSort (· ≤ ·))).reverse

/-- The couples `(index_list[2i+1], index_list[2i])` (trotterization.py lines 90-91). -/
def pairsOf : List Nat → List (Nat × Nat)
  | a :: b :: r => (b, a) :: pairsOf r
  | _ => []

/-- `couples[f] = m`. -/
def setC : List (Nat × Nat) → Nat × Nat → List (Nat × Nat)
  | [], c => [c]
  | d :: cs, c => if d.1 = c.1 then c :: cs else d :: setC cs c

/-- One pass of the loop over the terms (lines 80-91). -/
def matchStep (st : List Nat × List (Nat × Nat)) (t : List Lad) : List Nat × List (Nat × Nat) :=
  let l := unipolars t
  if l.length % 2 = 1 then (st.1 ++ [l.getLastD 0], (pairsOf l.dropLast).foldl setC st.2)
  else (st.1, (pairsOf l).foldl setC st.2)

/-- Singles and couples of a group (lines 76-91). -/
def singlesCouples (terms : List (List Lad)) : List Nat × List (Nat × Nat) :=
  terms.foldl matchStep ([], [])

/-- The swaps and the permutation of a group (lines 76-95). -/
def groupSwaps (terms : List (List Lad)) (n : Nat) : List (Nat × Nat) × List Nat :=
  kaiPflaume (singlesCouples terms).1 (singlesCouples terms).2 n

/-! ### Unipolars -/

theorem cancel_subset (l : List Nat) : ∀ x ∈ cancel l, x ∈ l := by
  induction l using cancel.induct with
  | case1 y r ih => intro x hx; simp only [cancel, if_true] at hx; simp [ih x hx]
  | case2 x y r h ih =>
    intro z hz
    rw [cancel, if_neg h] at hz
    rcases List.mem_cons.1 hz with rfl | hz
    · simp
    · exact List.mem_cons_of_mem _ (ih z hz)
  | case3 l h =>
    intro x hx
    rw [cancel] at hx
    · exact hx
    · exact h

theorem cancel_sorted (l : List Nat) (hl : l.Pairwise (· ≤ ·)) : (cancel l).Pairwise (· < ·) := by
  induction l using cancel.induct with
  | case1 y r ih =>
    simp only [cancel, if_true]
    rw [List.pairwise_cons, List.pairwise_cons] at hl
    exact ih hl.2.2
  | case2 x y r h ih =>
    rw [cancel, if_neg h]
    rw [List.pairwise_cons] at hl
    rw [List.pairwise_cons]
    refine ⟨fun z hz => ?_, ih hl.2⟩
    have h1 := cancel_subset _ z hz
    have h2 := hl.1 y (by simp)
    rcases List.mem_cons.1 h1 with rfl | h3
    · omega
    · have := (List.pairwise_cons.1 hl.2).1 z h3
      omega
  | case3 l h =>
    match l, h with
    | [], _ => exact List.Pairwise.nil
    | [a], _ => simp [cancel]
    | a :: b :: r, h => exact absurd rfl (h a b r)

theorem cancel_count (p : Nat → Bool) (l : List Nat) :
    (cancel l).countP p % 2 = l.countP p % 2 := by
  induction l using cancel.induct with
  | case1 y r ih =>
    simp only [cancel, if_true, List.countP_cons]
    rw [ih]; split <;> omega
  | case2 x y r h ih =>
    rw [cancel, if_neg h, List.countP_cons, List.countP_cons (l := y :: r)]
    omega
  | case3 l h =>
    rw [cancel]
    exact h

theorem unipolars_desc (L : List Lad) : (unipolars L).Pairwise (· > ·) := by
  rw [unipolars, List.pairwise_reverse]
  exact cancel_sorted _ (List.pairwise_insertionSort _ _)

theorem unipolars_nodup (L : List Lad) : (unipolars L).Nodup :=
  (unipolars_desc L).imp fun h => Nat.ne_of_gt h

theorem unipolars_count (p : Nat → Bool) (L : List Lad) :
    (unipolars L).countP p % 2 = (L.map Prod.fst).countP p % 2 := by
  rw [unipolars, List.countP_reverse, cancel_count, (List.perm_insertionSort _ _).countP_eq]

theorem unipolars_mem (L : List Lad) : ∀ x ∈ unipolars L, ∃ l ∈ L, l.1 = x := by
  intro x hx
  have := cancel_subset _ x (List.mem_reverse.1 hx)
  rw [(List.perm_insertionSort _ _).mem_iff] at this
  obtain ⟨l, hl, h⟩ := List.mem_map.1 this
  exact ⟨l, hl, h⟩

/-! ### Pairs -/

theorem pairsOf_mem (l : List Nat) : ∀ c ∈ pairsOf l, c.1 ∈ l ∧ c.2 ∈ l := by
  induction l using pairsOf.induct with
  | case1 a b r ih =>
    intro c hc
    rw [pairsOf] at hc
    rcases List.mem_cons.1 hc with rfl | hc
    · simp
    · have := ih c hc; exact ⟨by simp [this.1], by simp [this.2]⟩
  | case2 l h => intro c hc; rw [pairsOf] at hc <;> simp_all

theorem pairsOf_lt (l : List Nat) (hl : l.Pairwise (· > ·)) : ∀ c ∈ pairsOf l, c.1 < c.2 := by
  induction l using pairsOf.induct with
  | case1 a b r ih =>
    intro c hc
    rw [pairsOf] at hc
    rw [List.pairwise_cons, List.pairwise_cons] at hl
    rcases List.mem_cons.1 hc with rfl | hc
    · exact hl.1 b (by simp)
    · exact ih hl.2.2 c hc
  | case2 l h => intro c hc; rw [pairsOf] at hc <;> simp_all

theorem pairsOf_apart (l : List Nat) (hl : l.Nodup) : (pairsOf l).Pairwise Apart := by
  induction l using pairsOf.induct with
  | case1 a b r ih =>
    rw [pairsOf, List.pairwise_cons]
    rw [List.nodup_cons, List.nodup_cons, List.mem_cons, not_or] at hl
    refine ⟨fun c hc => ?_, ih hl.2.2⟩
    have := pairsOf_mem r c hc
    refine ⟨?_, ?_, ?_, ?_⟩
    · rintro h; exact hl.2.1 (by rw [show b = c.1 from h]; exact this.1)
    · rintro h; exact hl.2.1 (by rw [show b = c.2 from h]; exact this.2)
    · rintro h; exact hl.1.2 (by rw [show a = c.1 from h]; exact this.1)
    · rintro h; exact hl.1.2 (by rw [show a = c.2 from h]; exact this.2)
  | case2 l h => rw [pairsOf] <;> simp_all

/-- In a list of odd length the last entry is in no pair. -/
theorem pairsOf_odd (l : List Nat) (hl : l.Nodup) (ho : l.length % 2 = 1) :
    l.getLastD 0 ∈ l ∧ pairsOf l.dropLast = pairsOf l ∧
      ∀ c ∈ pairsOf l, c.1 ≠ l.getLastD 0 ∧ c.2 ≠ l.getLastD 0 := by
  induction l using pairsOf.induct with
  | case1 a b r ih =>
    rw [List.nodup_cons, List.nodup_cons, List.mem_cons, not_or] at hl
    have ho' : r.length % 2 = 1 := by simp only [List.length_cons] at ho; omega
    obtain ⟨h1, h2, h3⟩ := ih hl.2.2 ho'
    cases r with
    | nil => simp at ho'
    | cons x r =>
      have e : (a :: b :: x :: r).getLastD 0 = (x :: r).getLastD 0 := by
        simp
      rw [e]
      refine ⟨by simp only [List.mem_cons] at h1 ⊢; tauto, ?_, ?_⟩
      · have : (a :: b :: x :: r).dropLast = a :: b :: (x :: r).dropLast := rfl
        rw [this, pairsOf, pairsOf, h2]
      · intro c hc
        rw [pairsOf] at hc
        rcases List.mem_cons.1 hc with rfl | hc
        · exact ⟨fun h => hl.2.1 (by rw [show b = _ from h]; exact h1),
            fun h => hl.1.2 (by rw [show a = _ from h]; exact h1)⟩
        · exact h3 c hc
  | case2 l h =>
    match l, h with
    | [], _ => simp at ho
    | [a], _ => simp [pairsOf]
    | a :: b :: r, h => exact absurd rfl (h a b r)

/-! ### The dictionary of couples -/

theorem setC_mem {cs : List (Nat × Nat)} {c d : Nat × Nat} (h : d ∈ setC cs c) : d = c ∨ d ∈ cs := by
  induction cs with
  | nil => left; simpa [setC] using h
  | cons e cs ih =>
    rw [setC] at h
    split at h
    · rcases List.mem_cons.1 h with h | h
      · exact Or.inl h
      · exact Or.inr (List.mem_cons_of_mem _ h)
    · rcases List.mem_cons.1 h with h | h
      · exact Or.inr (by simp [h])
      · rcases ih h with h | h
        · exact Or.inl h
        · exact Or.inr (List.mem_cons_of_mem _ h)

theorem mem_setC (cs : List (Nat × Nat)) (c : Nat × Nat) : c ∈ setC cs c := by
  induction cs with
  | nil => simp [setC]
  | cons e cs ih => rw [setC]; split <;> simp [ih]

theorem mem_setC_of_ne {cs : List (Nat × Nat)} {c d : Nat × Nat} (h : d ∈ cs) (hn : d.1 ≠ c.1) :
    d ∈ setC cs c := by
  induction cs with
  | nil => simp at h
  | cons e cs ih =>
    rw [setC]
    rcases List.mem_cons.1 h with rfl | h
    · rw [if_neg hn]; simp
    · split
      · simp [h]
      · exact List.mem_cons_of_mem _ (ih h)

theorem setC_keys (cs : List (Nat × Nat)) (c : Nat × Nat) :
    (setC cs c).map Prod.fst =
      if c.1 ∈ cs.map Prod.fst then cs.map Prod.fst else cs.map Prod.fst ++ [c.1] := by
  induction cs with
  | nil => simp [setC]
  | cons e cs ih =>
    rw [setC]
    by_cases h : e.1 = c.1
    · simp [h]
    · rw [if_neg h, List.map_cons, ih, List.map_cons]
      by_cases h' : c.1 ∈ cs.map Prod.fst
      · rw [if_pos h', if_pos (List.mem_cons_of_mem _ h')]
      · rw [if_neg h', if_neg]
        · simp
        · rw [List.mem_cons, not_or]; exact ⟨Ne.symm h, h'⟩

theorem setC_nodup {cs : List (Nat × Nat)} (h : (cs.map Prod.fst).Nodup) (c : Nat × Nat) :
    ((setC cs c).map Prod.fst).Nodup := by
  rw [setC_keys]
  split
  · exact h
  · rename_i hc
    exact List.Nodup.append h (List.nodup_singleton _) (by simpa using hc)

theorem foldl_setC (l cs : List (Nat × Nat)) (hk : (cs.map Prod.fst).Nodup)
    (hf : ∀ c ∈ cs ++ l, ∀ d ∈ cs ++ l, c.1 = d.1 → c = d) :
    ((l.foldl setC cs).map Prod.fst).Nodup ∧ ∀ c, c ∈ l.foldl setC cs ↔ c ∈ cs ++ l := by
  induction l generalizing cs with
  | nil => exact ⟨hk, by simp⟩
  | cons e l ih =>
    have hmem : ∀ c, c ∈ setC cs e ↔ c = e ∨ c ∈ cs := by
      intro c
      refine ⟨setC_mem, ?_⟩
      rintro (rfl | h)
      · exact mem_setC _ _
      · by_cases hc : c.1 = e.1
        · rw [hf c (by simp [h]) e (by simp) hc]; exact mem_setC _ _
        · exact mem_setC_of_ne h hc
    obtain ⟨h1, h2⟩ := ih (setC cs e) (setC_nodup hk e) (by
      intro c hc d hd
      have a : ∀ x, x ∈ setC cs e ++ l → x ∈ cs ++ e :: l := by
        intro x hx
        rcases List.mem_append.1 hx with h | h
        · rcases (hmem x).1 h with rfl | h
          · simp
          · simp [h]
        · simp [h]
      exact hf c (a c hc) d (a d hd))
    refine ⟨h1, fun c => ?_⟩
    rw [List.foldl_cons, h2, List.mem_append, hmem, List.mem_append, List.mem_cons]
    tauto

/-! ### A group of terms -/

/-- The single of a term. -/
def singleOf (l : List Nat) : List Nat := if l.length % 2 = 1 then [l.getLastD 0] else []

theorem singlesCouples_eq (terms : List (List Lad)) :
    singlesCouples terms = (terms.flatMap fun t => singleOf (unipolars t),
      (terms.flatMap fun t => pairsOf (unipolars t)).foldl setC []) := by
  have : ∀ st : List Nat × List (Nat × Nat), terms.foldl matchStep st =
      (st.1 ++ terms.flatMap (fun t => singleOf (unipolars t)),
        (terms.flatMap fun t => pairsOf (unipolars t)).foldl setC st.2) := by
    induction terms with
    | nil => intro st; simp
    | cons t terms ih =>
      intro st
      rw [List.foldl_cons, ih, List.flatMap_cons, List.flatMap_cons, List.foldl_append]
      rw [matchStep, singleOf]
      split
      · rename_i h
        rw [(pairsOf_odd _ (unipolars_nodup t) h).2.1]; simp
      · simp
  rw [singlesCouples, this]; simp

/-- The terms of a group of `fermionic_trotterization`: their unipolar indices agree or have none
in common, and terms with an odd number of them do not agree. -/
structure GroupOK (terms : List (List Lad)) : Prop where
  agree : ∀ s ∈ terms, ∀ t ∈ terms, unipolars s = unipolars t ∨
    ∀ x ∈ unipolars s, x ∉ unipolars t
  odd : terms.Pairwise fun s t => (unipolars s).length % 2 = 1 → unipolars s ≠ unipolars t

theorem group_kai {terms : List (List Lad)} {n : Nat} (h : GroupOK terms)
    (hn : ∀ t ∈ terms, ∀ l ∈ t, l.1 < n) :
    (groupSwaps terms n).2.Perm (List.range n) ∧
    ((singlesCouples terms).1.insertionSort (· ≤ ·)) <+: (groupSwaps terms n).2 ∧
    ∀ t ∈ terms, ∀ c ∈ pairsOf (unipolars t), [c.1, c.2] <:+: (groupSwaps terms n).2 := by
  set all := terms.flatMap fun t => pairsOf (unipolars t) with hall
  have hmem : ∀ c, c ∈ all ↔ ∃ t ∈ terms, c ∈ pairsOf (unipolars t) := by
    intro c; rw [hall, List.mem_flatMap]
  have hap : ∀ c ∈ all, ∀ d ∈ all, c ≠ d → Apart c d := by
    intro c hc d hd hne
    obtain ⟨s, hs, hc⟩ := (hmem c).1 hc
    obtain ⟨t, ht, hd⟩ := (hmem d).1 hd
    rcases h.agree s hs t ht with e | e
    · rw [← e] at hd
      haveI : Std.Symm Apart := ⟨fun _ _ h => h.symm⟩
      exact (pairsOf_apart _ (unipolars_nodup s)).forall hc hd hne
    · have a := pairsOf_mem _ c hc
      have b := pairsOf_mem _ d hd
      exact ⟨fun x => e _ a.1 (x ▸ b.1), fun x => e _ a.1 (x ▸ b.2), fun x => e _ a.2 (x ▸ b.1),
        fun x => e _ a.2 (x ▸ b.2)⟩
  have hf : ∀ c ∈ [] ++ all, ∀ d ∈ [] ++ all, c.1 = d.1 → c = d := by
    intro c hc d hd e
    by_contra hne
    exact (hap c (by simpa using hc) d (by simpa using hd) hne).1 e
  obtain ⟨k1, k2⟩ := foldl_setC all [] (by simp) hf
  have hsing : ∀ s, s ∈ (singlesCouples terms).1 → ∃ t ∈ terms, (unipolars t).length % 2 = 1 ∧
      s = (unipolars t).getLastD 0 := by
    intro s hs
    rw [singlesCouples_eq] at hs
    obtain ⟨t, ht, hs⟩ := List.mem_flatMap.1 hs
    rw [singleOf] at hs
    split at hs
    · rename_i ho; exact ⟨t, ht, ho, List.mem_singleton.1 hs⟩
    · simp at hs
  have hbound : ∀ t ∈ terms, ∀ x ∈ unipolars t, x < n := by
    intro t ht x hx
    obtain ⟨l, hl, rfl⟩ := unipolars_mem t x hx
    exact hn t ht l hl
  have hsn : (singlesCouples terms).1.Nodup := by
    rw [singlesCouples_eq]
    simp only
    rw [List.nodup_flatMap]
    refine ⟨fun t _ => by rw [singleOf]; split <;> simp, ?_⟩
    refine List.Pairwise.imp_of_mem ?_ h.odd
    intro s t hs ht hst x hx hx'
    simp only [singleOf] at hx hx'
    split at hx
    · rename_i ho
      split at hx'
      · rename_i ho'
        have e1 := List.mem_singleton.1 hx
        have e2 := List.mem_singleton.1 hx'
        have m1 := (pairsOf_odd _ (unipolars_nodup s) ho).1
        have m2 := (pairsOf_odd _ (unipolars_nodup t) ho').1
        rcases h.agree s hs t ht with e | e
        · exact hst ho e
        · exact e _ m1 (by rw [← e1, e2]; exact m2)
      · simp at hx'
    · simp at hx
  have hcs : ∀ c ∈ (singlesCouples terms).2, c.1 < c.2 ∧ c.2 < n ∧ c.1 ∉ (singlesCouples terms).1 ∧
      c.2 ∉ (singlesCouples terms).1 := by
    intro c hc
    rw [singlesCouples_eq] at hc
    have hc' := (k2 c).1 hc
    obtain ⟨s, hs, hcs⟩ := (hmem c).1 (by simpa using hc')
    have a := pairsOf_mem _ c hcs
    have key : ∀ x ∈ (singlesCouples terms).1, c.1 ≠ x ∧ c.2 ≠ x := by
      intro x hx
      obtain ⟨t, ht, ho, rfl⟩ := hsing x hx
      obtain ⟨m1, -, m3⟩ := pairsOf_odd _ (unipolars_nodup t) ho
      rcases h.agree s hs t ht with e | e
      · rw [e] at hcs; exact m3 c hcs
      · exact ⟨fun y => e _ a.1 (y ▸ m1), fun y => e _ a.2 (y ▸ m1)⟩
    exact ⟨pairsOf_lt _ (unipolars_desc s) c hcs, hbound s hs _ a.2,
      fun hx => (key _ hx).1 rfl, fun hx => (key _ hx).2 rfl⟩
  have hpw : (singlesCouples terms).2.Pairwise Apart := by
    rw [singlesCouples_eq]
    simp only
    have hnd : (all.foldl setC []).Nodup := List.Nodup.of_map _ k1
    refine List.Pairwise.imp_of_mem ?_ hnd
    intro c d hc hd hne
    exact hap c (by simpa using (k2 c).1 hc) d (by simpa using (k2 d).1 hd) hne
  obtain ⟨r1, r2, r3⟩ := kai_match (n := n) (fun s hs => by
    obtain ⟨t, ht, ho, rfl⟩ := hsing s hs
    exact hbound t ht _ (pairsOf_odd _ (unipolars_nodup t) ho).1) hsn hcs hpw
  refine ⟨r1, r2, fun t ht c hc => r3 c ?_⟩
  rw [singlesCouples_eq]
  exact (k2 c).2 (by simpa using (hmem c).2 ⟨t, ht, hc⟩)

/-! ### No parity strings -/

theorem idxOf_infix {P : List Nat} (hP : P.Nodup) {f m : Nat} (h : [f, m] <:+: P) :
    P.idxOf m = P.idxOf f + 1 := by
  obtain ⟨X, Y, rfl⟩ := h
  have e1 : X ++ [f, m] ++ Y = X ++ f :: m :: Y := by simp
  have e2 : X ++ [f, m] ++ Y = (X ++ [f]) ++ m :: Y := by simp
  have h1 : (X ++ [f, m] ++ Y).idxOf f = X.length := by rw [e1] at hP ⊢; exact idxOf_mid hP
  have h2 : (X ++ [f, m] ++ Y).idxOf m = X.length + 1 := by
    rw [e2] at hP ⊢; rw [idxOf_mid hP]; simp
  rw [h1, h2]

theorem even_pairs (pos : Nat → Nat) (k : Nat) (l : List Nat) (he : l.length % 2 = 0)
    (hp : ∀ c ∈ pairsOf l, pos c.2 = pos c.1 + 1) (hk : ∀ x ∈ l, pos x ≠ k) :
    l.countP (fun x => k < pos x) % 2 = 0 := by
  induction l using pairsOf.induct with
  | case1 a b r ih =>
    have h1 : pos a = pos b + 1 := hp (b, a) (by simp [pairsOf])
    have h2 := hk a (by simp)
    have h3 := hk b (by simp)
    have h4 := ih (by simp only [List.length_cons] at he; omega)
      (fun c hc => hp c (by rw [pairsOf]; exact List.mem_cons_of_mem _ hc))
      (fun x hx => hk x (by simp [hx]))
    rw [List.countP_cons, List.countP_cons]
    have e : (k < pos a) ↔ (k < pos b) := by omega
    simp only [e]
    split <;> omega
  | case2 l h =>
    match l, h with
    | [], _ => rfl
    | [a], _ => simp at he
    | a :: b :: r, h => exact absurd rfl (h a b r)

/-- Above every unused position there is an even number of ladder operators of the permuted term. -/
theorem group_even {terms : List (List Lad)} {n : Nat} (h : GroupOK terms)
    (hn : ∀ t ∈ terms, ∀ l ∈ t, l.1 < n) {t : List Lad} (ht : t ∈ terms)
    (he : (unipolars t).length % 2 = 0) (k : Nat)
    (hk : ∀ l ∈ fermSwap (groupSwaps terms n).2 t, l.1 ≠ k) :
    (fermSwap (groupSwaps terms n).2 t).countP (fun l => k < l.1) % 2 = 0 := by
  obtain ⟨r1, -, r3⟩ := group_kai h hn
  set P := (groupSwaps terms n).2 with hP
  have hnd : P.Nodup := r1.nodup_iff.2 List.nodup_range
  have hlen : P.length = n := by rw [r1.length_eq]; simp
  have e : fermSwap P t = t.map fun l => (P.idxOf l.1, l.2) := by
    rw [fermSwap]
    refine List.map_congr_left fun l hl => ?_
    have hl' := hn t ht l hl
    rw [List.getD_eq_getElem _ _ (by simpa [hlen] using hl')]
    simp
  rw [e] at hk ⊢
  rw [List.countP_map]
  have e2 : t.countP ((fun l : Lad => decide (k < l.1)) ∘ fun l => (P.idxOf l.1, l.2)) =
      (t.map Prod.fst).countP fun x => decide (k < P.idxOf x) := by
    rw [List.countP_map]; rfl
  rw [e2, ← unipolars_count]
  apply even_pairs (fun x => P.idxOf x) k _ he
  · intro c hc; exact idxOf_infix hnd (r3 t ht c hc)
  · intro x hx
    obtain ⟨l, hl, rfl⟩ := unipolars_mem t x hx
    exact hk (P.idxOf l.1, l.2) (List.mem_map.2 ⟨l, hl, rfl⟩)

/-! ### Factors of the qubit term -/

theorem mulG_single {ord : Term → Term → List Nat} (ho : OrdOK ord) (u t : Term) (a c : GI) :
    mulG ord [(u, a)] [(t, c)] = [] ∨ ∃ v e, mulG ord [(u, a)] [(t, c)] = [(v, e)] ∧ v.WF ∧
      ∀ k, v.get k = (table (u.get k) (t.get k)).1 ∧ (table (u.get k) (t.get k)).2 ≠ 0 := by
  have hk := ho u t
  have e0 : mulG ord [(u, a)] [(t, c)] = [((mulT (ord u t) u t).1,
      0 + (mulT (ord u t) u t).2 * a * c)].filter fun p => !isZeroG p.2 := by
    simp [mulG, mulQ, prods, accTo, dset, dget]
  rw [e0]
  by_cases h0 : ∃ k ∈ ord u t, (table (u.get k) (t.get k)).2 = 0
  · left
    rw [mulT, mulLoop_zero h0]
    simp [isZeroG]
  · simp only [not_exists, not_and] at h0
    obtain ⟨h1, h2, -, -⟩ := mulLoop_ok (a := u) (b := t) (co := 1) (res := []) hk.1
      (by simp [Term.keys]) (by simp [Term.WF, Term.keys]) h0
    by_cases hz : isZeroG (0 + (mulT (ord u t) u t).2 * a * c) = true
    · left; simp only [List.filter_cons, hz]; rfl
    · right
      refine ⟨(mulT (ord u t) u t).1, 0 + (mulT (ord u t) u t).2 * a * c, ?_, h1, ?_⟩
      · simp only [List.filter_cons, Bool.not_eq_true] at hz ⊢
        rw [hz]; rfl
      · intro k
        by_cases hkk : k ∈ ord u t
        · refine ⟨?_, h0 k hkk⟩
          rw [mulT, h2, if_pos hkk]
        · have := mt (hk.2 k).2 hkk
          rw [not_or] at this
          rw [mulT, h2, if_neg hkk, get_notin this.1, get_notin this.2]
          exact ⟨rfl, by decide⟩

/-- At most one term, with the given factors. -/
def Single (Q : Nat → Fac → Prop) (d : QOp GI) : Prop :=
  d = [] ∨ ∃ t c, d = [(t, c)] ∧ t.WF ∧ ∀ k, Q k (t.get k)

theorem Single.mul {ord : Term → Term → List Nat} (ho : OrdOK ord) {Q Q' S : Nat → Fac → Prop}
    {d e : QOp GI} (hd : Single Q d) (he : Single Q' e)
    (h : ∀ k f g, Q k f → Q' k g → (table f g).2 ≠ 0 → S k (table f g).1) :
    Single S (mulG ord d e) := by
  rcases hd with rfl | ⟨u, a, rfl, hu, hQ⟩
  · left; rfl
  rcases he with rfl | ⟨t, c, rfl, ht, hQ'⟩
  · left; simp [mulG, mulQ, prods]
  rcases mulG_single ho u t a c with h1 | ⟨v, e, h1, hw, h2⟩
  · left; exact h1
  · right
    refine ⟨v, e, h1, hw, fun k => ?_⟩
    rw [(h2 k).1]
    exact h k _ _ (hQ k) (hQ' k) (h2 k).2

theorem single_one : Single (fun _ f => f = .I) oneQ :=
  Or.inr ⟨[], 1, rfl, by simp [Term.WF, Term.keys], fun _ => rfl⟩

theorem single_fac1 (f : Fac) (j : Nat) :
    Single (fun k g => g = if k = j then f else .I) (fac1 f j) := by
  refine Or.inr ⟨[(j, f)], 1, rfl, by simp [Term.WF, Term.keys], fun k => ?_⟩
  by_cases h : k = j
  · simp [Term.get, h]
  · have hb : (k == j) = false := by simpa using h
    simp [Term.get, List.lookup_cons, h, hb]

theorem single_zString {ord : Term → Term → List Nat} (ho : OrdOK ord) (i : Nat) :
    Single (fun k g => g = if k < i then .Z else .I) (zString ord i) := by
  induction i with
  | zero =>
    rcases single_one with h | ⟨t, c, h1, h2, h3⟩
    · exact Or.inl h
    · exact Or.inr ⟨t, c, h1, h2, fun k => by rw [h3 k]; simp⟩
  | succ i ih =>
    rw [zString]
    refine Single.mul ho (single_fac1 .Z i) ih ?_
    rintro k f g rfl rfl -
    rcases lt_trichotomy k i with h | h | h
    · have h' : ¬ k = i := by omega
      have h'' : k < i + 1 := by omega
      simp [h, h', h'', table]
    · simp [h, table]
    · have h' : ¬ k = i := by omega
      have h'' : ¬ k < i + 1 := by omega
      have h3 : ¬ k < i := by omega
      simp [h', h'', h3, table]

theorem single_jwLad {ord : Term → Term → List Nat} (ho : OrdOK ord) (l : Lad) :
    Single (fun k g => g = if k < l.1 then .Z else if k = l.1 then (if l.2 then .C else .A) else .I)
      (jwLad ord l) := by
  have hIf : ∀ f : Fac, table f .I = (f, 1) := by decide +kernel
  have hfI : ∀ f : Fac, table .I f = (f, 1) := by decide +kernel
  rw [jwLad]
  by_cases h0 : l.1 = 0
  · simp only [if_pos h0]
    refine Single.mul ho (single_fac1 _ _) single_one ?_
    rintro k f g rfl rfl -
    rw [hIf]; simp [h0]
  · simp only [if_neg h0]
    refine Single.mul ho (single_zString ho _) (single_fac1 _ _) ?_
    rintro k f g rfl rfl -
    rcases lt_trichotomy k l.1 with h | h | h
    · have h' : ¬ k = l.1 := by omega
      simp [h, h', hIf]
    · simp [h, hfI]
    · have h' : ¬ k = l.1 := by omega
      have h3 : ¬ k < l.1 := by omega
      simp [h', h3, hIf]

/-- Factors of a product of ladder operators: powers of Z at unused modes, A, C, P0, P1 at the
used ones. -/
def LadFac (L : List Lad) (k : Nat) (f : Fac) : Prop :=
  if k ∈ L.map Prod.fst then f = .A ∨ f = .C ∨ f = .P0 ∨ f = .P1
  else f = if L.countP (fun l => k < l.1) % 2 = 1 then .Z else .I

theorem single_jwLoop {ord : Term → Term → List Nat} (ho : OrdOK ord) (L M : List Lad) (d : QOp GI)
    (hd : Single (LadFac M) d) : Single (LadFac (L.reverse ++ M)) (jwLoop ord L d) := by
  induction L generalizing M d with
  | nil => simpa [jwLoop] using hd
  | cons l L ih =>
    rw [jwLoop]
    have e : (l :: L).reverse ++ M = L.reverse ++ (l :: M) := by simp
    rw [e]
    apply ih
    refine Single.mul ho (single_jwLad ho l) hd ?_
    rintro k f g rfl hg h0
    have t1 : ∀ g, (g = .A ∨ g = .C ∨ g = .P0 ∨ g = .P1) → ∀ f, (f = .Z ∨ f = .I ∨ f = .A ∨ f = .C) →
        (table f g).2 ≠ 0 → ((table f g).1 = .A ∨ (table f g).1 = .C ∨ (table f g).1 = .P0 ∨
          (table f g).1 = .P1) := by decide +kernel
    have hf : (if k < l.1 then Fac.Z else if k = l.1 then (if l.2 then .C else .A) else .I) = .Z ∨
        (if k < l.1 then Fac.Z else if k = l.1 then (if l.2 then .C else .A) else .I) = .I ∨
        (if k < l.1 then Fac.Z else if k = l.1 then (if l.2 then .C else .A) else .I) = .A ∨
        (if k < l.1 then Fac.Z else if k = l.1 then (if l.2 then .C else .A) else .I) = .C := by
      split_ifs <;> simp
    rw [LadFac] at hg ⊢
    by_cases hk : k ∈ M.map Prod.fst
    · rw [if_pos hk] at hg
      rw [if_pos (by rw [List.map_cons]; exact List.mem_cons_of_mem _ hk)]
      exact t1 g hg _ hf h0
    · rw [if_neg hk] at hg
      rcases lt_trichotomy k l.1 with h | h | h
      · have h' : ¬ k = l.1 := by omega
        rw [if_neg (by rw [List.map_cons, List.mem_cons, not_or]; exact ⟨h', hk⟩), if_pos h, hg]
        have hc' : (l :: M).countP (fun l => decide (k < l.1)) =
            M.countP (fun l => decide (k < l.1)) + 1 := by
          rw [List.countP_cons, if_pos (by simpa using h)]
        rw [hc']
        generalize M.countP (fun l => decide (k < l.1)) = m
        rcases Nat.mod_two_eq_zero_or_one m with hc | hc
        · have h1 : (m + 1) % 2 = 1 := by omega
          simp [hc, h1, table]
        · have h1 : (m + 1) % 2 = 0 := by omega
          simp [hc, h1, table]
      · rw [if_pos (by rw [List.map_cons, h]; simp), if_neg (by omega), if_pos h, hg]
        split_ifs <;> simp [table]
      · have h' : ¬ k = l.1 := by omega
        have h3 : ¬ k < l.1 := by omega
        rw [if_neg (by rw [List.map_cons, List.mem_cons, not_or]; exact ⟨h', hk⟩), if_neg h3,
          if_neg h', hg]
        have hc' : (l :: M).countP (fun l => decide (k < l.1)) =
            M.countP (fun l => decide (k < l.1)) := by
          rw [List.countP_cons, if_neg (by simpa using h3), Nat.add_zero]
        rw [hc']
        split_ifs <;> simp [table]

theorem single_toQubit {ord : Term → Term → List Nat} (ho : OrdOK ord) (L : List Lad) :
    Single (LadFac L) (toQubit ord L) := by
  have h := single_jwLoop ho L [] oneQ (by
    rcases single_one with h | ⟨t, c, h1, h2, h3⟩
    · exact Or.inl h
    · exact Or.inr ⟨t, c, h1, h2, fun k => by rw [h3 k]; simp [LadFac]⟩)
  rcases h with h | ⟨t, c, h1, h2, h3⟩
  · exact Or.inl h
  · refine Or.inr ⟨t, c, h1, h2, fun k => ?_⟩
    have := h3 k
    rw [List.append_nil, LadFac, List.countP_reverse, List.map_reverse] at this
    rw [LadFac]
    simpa using this

/-- The check of lines 104-110 of trotterization.py passes: no factor Z. -/
theorem group_noZ {ord : Term → Term → List Nat} (ho : OrdOK ord) {terms : List (List Lad)} {n : Nat}
    (h : GroupOK terms) (hn : ∀ t ∈ terms, ∀ l ∈ t, l.1 < n) {t : List Lad} (ht : t ∈ terms)
    (he : (unipolars t).length % 2 = 0) :
    ∀ p ∈ toQubit ord (fermSwap (groupSwaps terms n).2 t), ∀ q ∈ p.1, q.2 ≠ .Z := by
  rcases single_toQubit ho (fermSwap (groupSwaps terms n).2 t) with h0 | ⟨u, c, h1, hw, h3⟩
  · rw [h0]; simp
  · rw [h1]
    intro p hp q hq hz
    rw [List.mem_singleton.1 hp] at hq
    have hg : u.get q.1 = .Z := by
      have := (lookup_mem hw).2 (show (q.1, Fac.Z) ∈ u by rw [← hz]; exact hq)
      rw [Term.get, this]; rfl
    have h4 := h3 q.1
    rw [hg, LadFac] at h4
    by_cases hk : q.1 ∈ (fermSwap (groupSwaps terms n).2 t).map Prod.fst
    · rw [if_pos hk] at h4; simp at h4
    · rw [if_neg hk, group_even h hn ht he q.1 (fun l hl hx => hk (by
        rw [← hx]; exact List.mem_map_of_mem hl))] at h4
      simp at h4

end Verif.Oper
