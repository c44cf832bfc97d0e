import Verif.Oper.FermSwap

/-!
The matching of `kai_pflaume` (src/qrisp/operators/fermionic/trotterization.py lines 132-176).
-/

namespace Verif.Oper

theorem foldl_swapStep (ss : List (Nat × Nat)) (st : List (Nat × Nat) × List Nat) :
    ss.foldl swapStep st = (st.1 ++ ss, ss.foldl swapL st.2) := by
  induction ss generalizing st with
  | nil => simp
  | cons s ss ih => rw [List.foldl_cons, ih]; simp [swapStep]

theorem applySwaps_snd (qb : List Nat) (ss : List (Nat × Nat)) :
    (applySwaps qb ss).2 = ss.foldl swapL qb := by
  have : ∀ st : List (Nat × Nat) × List Nat, (ss.foldl (fun st s =>
      (st.1 ++ [(st.2.getD s.1 0, st.2.getD s.2 0)], swapL st.2 s)) st).2 = ss.foldl swapL st.2 := by
    induction ss with
    | nil => intro st; rfl
    | cons s ss ih => intro st; rw [List.foldl_cons, ih, List.foldl_cons]
  exact this _

/-- The recorded swaps are swaps of neighbours and give the recorded permutation. -/
def KInv (n : Nat) (st : List (Nat × Nat) × List Nat) : Prop :=
  st.2 = st.1.foldl swapL (List.range n) ∧ st.2.length = n ∧ ∀ s ∈ st.1, AdjSwap n s

theorem foldl_swapL_length (ss : List (Nat × Nat)) (l : List Nat) :
    (ss.foldl swapL l).length = l.length := by
  induction ss generalizing l with
  | nil => rfl
  | cons s ss ih => rw [List.foldl_cons, ih, swapL_length]

theorem kInv_fold {n : Nat} {st : List (Nat × Nat) × List Nat} (h : KInv n st)
    {ss : List (Nat × Nat)} (hs : ∀ s ∈ ss, AdjSwap n s) : KInv n (ss.foldl swapStep st) := by
  rw [foldl_swapStep]
  refine ⟨?_, ?_, ?_⟩
  · simp only; rw [List.foldl_append, ← h.1]
  · simp only; rw [foldl_swapL_length, h.2.1]
  · intro s hs'
    rcases List.mem_append.1 hs' with h' | h'
    · exact h.2.2 s h'
    · exact hs s h'

theorem kInv_singles {n : Nat} {ss : List Nat} (hs : ∀ s ∈ ss, s < n) (k : Nat)
    {st : List (Nat × Nat) × List Nat} (h : KInv n st) : KInv n (singlesLoop ss k st) := by
  induction ss generalizing k st with
  | nil => exact h
  | cons s ss ih =>
    apply ih (fun t ht => hs t (List.mem_cons_of_mem _ ht))
    apply kInv_fold h
    intro p hp
    obtain ⟨i, hi, rfl⟩ := List.mem_map.1 hp
    rw [List.mem_reverse, List.mem_range'_1] at hi
    have := hs s (by simp)
    exact ⟨by simp only; omega, by simp only; omega, Or.inr rfl⟩

theorem kInv_couple {n : Nat} {st : List (Nat × Nat) × List Nat} (h : KInv n st) (c : Nat × Nat) :
    KInv n (coupleStep st c) := by
  apply kInv_fold h
  intro p hp
  obtain ⟨i, hi, rfl⟩ := List.mem_map.1 hp
  rw [List.mem_range'_1] at hi
  have : st.2.idxOf c.2 ≤ n := by rw [← h.2.1]; exact List.idxOf_le_length
  exact ⟨by simp only; omega, by simp only; omega, Or.inl rfl⟩

theorem kInv_kai {singles : List Nat} {couples : List (Nat × Nat)} {n : Nat}
    (hs : ∀ s ∈ singles, s < n) : KInv n (kaiPflaume singles couples n) := by
  have h0 : KInv n (([] : List (Nat × Nat)), List.range n) := ⟨rfl, by simp, by simp⟩
  have h1 := kInv_singles (ss := singles.insertionSort (· ≤ ·))
    (fun s h => hs s (((List.perm_insertionSort _ _).mem_iff).1 h)) 0 h0
  rw [kaiPflaume]
  generalize singlesLoop _ _ _ = st at h1
  generalize (couples.insertionSort fun a b => b.1 ≤ a.1) = cs
  induction cs generalizing st with
  | nil => exact h1
  | cons c cs ih => exact ih _ (kInv_couple h1 c)

/-! ### Moving entries -/

theorem getD_mid (X Y : List Nat) (z : Nat) : (X ++ z :: Y).getD X.length 0 = z := by
  rw [List.getD_eq_getElem _ _ (by simp)]; simp

theorem swapL_mid (X C : List Nat) (y x : Nat) :
    swapL (X ++ y :: x :: C) (X.length, X.length + 1) = X ++ x :: y :: C := by
  have e : X ++ y :: x :: C = (X ++ [y]) ++ x :: C := by simp
  have h2 : (X ++ y :: x :: C).getD (X.length + 1) 0 = x := by
    rw [e]
    have := getD_mid (X ++ [y]) C x
    simp
  rw [swapL]
  simp only
  rw [h2, getD_mid]
  simp

theorem moveDown (A B C : List Nat) (x : Nat) :
    ((List.range' A.length B.length).reverse.map fun i => (i + 1, i)).foldl swapL
      (A ++ B ++ x :: C) = A ++ x :: (B ++ C) := by
  induction B using List.reverseRecOn generalizing C with
  | nil => simp
  | append_singleton B y ih =>
    rw [List.length_append, List.length_singleton, List.range'_concat, List.reverse_append]
    simp only [List.reverse_singleton, List.singleton_append, List.map_cons, List.foldl_cons,
      one_mul]
    have e : A ++ (B ++ [y]) ++ x :: C = (A ++ B) ++ y :: x :: C := by simp
    rw [e, swapL_comm _ _ _ (by omega)]
    have h := swapL_mid (A ++ B) C y x
    rw [List.length_append] at h
    rw [h, ih]; simp

theorem moveUp (A B C : List Nat) (x : Nat) :
    ((List.range' A.length B.length).map fun i => (i, i + 1)).foldl swapL (A ++ x :: (B ++ C)) =
      A ++ B ++ x :: C := by
  induction B generalizing A with
  | nil => simp
  | cons y B ih =>
    rw [List.length_cons, List.range'_succ, List.map_cons, List.foldl_cons, List.cons_append,
      swapL_mid]
    have h := ih (A ++ [y])
    simp only [List.length_append, List.length_singleton] at h
    have e : A ++ y :: x :: (B ++ C) = A ++ [y] ++ x :: (B ++ C) := by simp
    rw [e, h]; simp

/-! ### Singles -/

theorem singlesLoop_list {n : Nat} (ss : List Nat) (hss : ss.Pairwise (· < ·))
    (hn : ∀ s ∈ ss, s < n) (D M : List Nat) (t : Nat) (ht : ∀ s ∈ ss, t ≤ s) (htn : t ≤ n)
    (hlen : D.length + M.length = t) (hM : M.Pairwise (· < ·)) (hMt : ∀ x ∈ M, x < t)
    (sw : List (Nat × Nat)) :
    ∃ E, (singlesLoop ss D.length (sw, D ++ M ++ List.range' t (n - t))).2 = D ++ ss ++ E ∧
      E.Pairwise (· < ·) := by
  induction ss generalizing D M t sw with
  | nil =>
    refine ⟨M ++ List.range' t (n - t), by simp [singlesLoop], ?_⟩
    rw [List.pairwise_append]
    refine ⟨hM, List.pairwise_lt_range', ?_⟩
    intro a ha b hb
    have := hMt a ha
    rw [List.mem_range'_1] at hb
    omega
  | cons s ss ih =>
    rw [List.pairwise_cons] at hss
    have hsn := hn s (by simp)
    have hts := ht s (by simp)
    have er : List.range' t (n - t) = List.range' t (s - t) ++ s :: List.range' (s + 1) (n - (s + 1)) := by
      have h1 : n - t = (s - t) + ((n - (s + 1)) + 1) := by omega
      have h2 : List.range' s (n - (s + 1) + 1) = s :: List.range' (s + 1) (n - (s + 1)) := List.range'_succ ..
      rw [h1, ← List.range'_append_1, ← h2]
      congr 2; omega
    rw [singlesLoop, foldl_swapStep]
    simp only
    have hB : (M ++ List.range' t (s - t)).length = s - D.length := by
      rw [List.length_append, List.length_range']; omega
    have hmv := moveDown D (M ++ List.range' t (s - t)) (List.range' (s + 1) (n - (s + 1))) s
    rw [hB] at hmv
    have e1 : D ++ M ++ List.range' t (n - t) = D ++ (M ++ List.range' t (s - t)) ++
        s :: List.range' (s + 1) (n - (s + 1)) := by rw [er]; simp
    rw [e1, hmv]
    have e2 : D ++ s :: (M ++ List.range' t (s - t) ++ List.range' (s + 1) (n - (s + 1))) =
        (D ++ [s]) ++ (M ++ List.range' t (s - t)) ++ List.range' (s + 1) (n - (s + 1)) := by simp
    rw [e2]
    obtain ⟨E, h1, h2⟩ := ih hss.2 (fun x hx => hn x (List.mem_cons_of_mem _ hx)) (D ++ [s])
      (M ++ List.range' t (s - t)) (s + 1) (fun x hx => hss.1 x hx) hsn
      (by rw [hB, List.length_append, List.length_singleton]; omega)
      (by
        rw [List.pairwise_append]
        refine ⟨hM, List.pairwise_lt_range', ?_⟩
        intro a ha b hb
        have := hMt a ha
        rw [List.mem_range'_1] at hb
        omega)
      (by
        intro x hx
        rcases List.mem_append.1 hx with h | h
        · have := hMt x h; omega
        · rw [List.mem_range'_1] at h; omega)
      (sw ++ ((List.range' D.length (s - D.length)).reverse.map fun i => (i + 1, i)))
    rw [List.length_append, List.length_singleton] at h1
    exact ⟨E, by rw [h1]; simp, h2⟩

/-! ### Couples -/

/-- Two couples without a common index. -/
def Apart (a b : Nat × Nat) : Prop := a.1 ≠ b.1 ∧ a.1 ≠ b.2 ∧ a.2 ≠ b.1 ∧ a.2 ≠ b.2

theorem Apart.symm {a b : Nat × Nat} (h : Apart a b) : Apart b a :=
  ⟨h.1.symm, h.2.2.1.symm, h.2.1.symm, h.2.2.2.symm⟩

/-- A third entry is left or right of two neighbours. -/
theorem split_pair {X Y E C : List Nat} {f m z : Nat} (h : X ++ f :: m :: Y = E ++ z :: C)
    (h1 : z ≠ f) (h2 : z ≠ m) : (∃ Z, E = X ++ f :: m :: Z) ∨ ∃ Z, X = E ++ z :: Z := by
  rcases List.append_eq_append_iff.1 h with ⟨A, hA, hA'⟩ | ⟨A, hA, hA'⟩
  · match A, hA, hA' with
    | [], hA, hA' => simp only [List.nil_append, List.cons.injEq] at hA'; exact absurd hA'.1.symm h1
    | [a], hA, hA' =>
      simp only [List.cons_append, List.nil_append, List.cons.injEq] at hA'
      exact absurd hA'.2.1.symm h2
    | a :: a' :: A, hA, hA' =>
      simp only [List.cons_append, List.cons.injEq] at hA'
      left; exact ⟨A, by rw [hA, hA'.1, hA'.2.1]⟩
  · match A, hA, hA' with
    | [], hA, hA' => simp only [List.nil_append, List.cons.injEq] at hA'; exact absurd hA'.1 h1
    | a :: A, hA, hA' =>
      simp only [List.cons_append, List.cons.injEq] at hA'
      right; exact ⟨A, by rw [hA, hA'.1]⟩

theorem idxOf_mid {A B : List Nat} {x : Nat} (h : (A ++ x :: B).Nodup) :
    (A ++ x :: B).idxOf x = A.length := by
  have hx : x ∉ A := by
    intro hx
    rw [List.nodup_append] at h
    exact h.2.2 x hx x (by simp) rfl
  rw [List.idxOf_append_of_notMem hx]; simp

theorem coupleStep_list {A B C : List Nat} {f m : Nat} (sw : List (Nat × Nat))
    (h : (A ++ f :: (B ++ m :: C)).Nodup) :
    (coupleStep (sw, A ++ f :: (B ++ m :: C)) (f, m)).2 = A ++ B ++ f :: m :: C := by
  have h1 := idxOf_mid h
  have e : A ++ f :: (B ++ m :: C) = (A ++ f :: B) ++ m :: C := by simp
  have h2 : (A ++ f :: (B ++ m :: C)).idxOf m = A.length + (B.length + 1) := by
    rw [e] at h ⊢; rw [idxOf_mid h]; simp
  rw [coupleStep, foldl_swapStep]
  simp only
  rw [h1, h2]
  have e3 : A.length + (B.length + 1) - 1 - A.length = B.length := by omega
  rw [e3]
  exact moveUp A B (m :: C) f

theorem sublist_pair {P : List Nat} {f m : Nat} (h : List.Sublist [f, m] P) :
    ∃ A B C, P = A ++ f :: (B ++ m :: C) := by
  obtain ⟨A, R, rfl, h1, h2⟩ := List.cons_sublist_iff.1 h
  obtain ⟨A1, A2, rfl⟩ := List.append_of_mem h1
  obtain ⟨B, C, rfl⟩ := List.append_of_mem (List.singleton_sublist.1 h2)
  exact ⟨A1, A2 ++ B, C, by simp⟩

theorem couples_list (todo : List (Nat × Nat)) (done : List (Nat × Nat)) (D P : List Nat)
    (sw : List (Nat × Nat)) (hp : todo.Pairwise Apart) (hdt : ∀ d ∈ done, ∀ t ∈ todo, Apart d t)
    (ht : ∀ t ∈ todo, List.Sublist [t.1, t.2] P ∧ t.1 ∉ D) (hd : ∀ d ∈ done, [d.1, d.2] <:+: P)
    (hD : D <+: P) (hP : P.Nodup) :
    let P' := (todo.foldl coupleStep (sw, P)).2
    (∀ c ∈ done ++ todo, [c.1, c.2] <:+: P') ∧ D <+: P' ∧ P'.Perm P := by
  induction todo generalizing done P sw with
  | nil => exact ⟨by simpa using hd, hD, List.Perm.refl _⟩
  | cons c todo ih =>
    obtain ⟨f, m⟩ := c
    rw [List.pairwise_cons] at hp
    obtain ⟨hfm, hfD⟩ := ht (f, m) (by simp)
    obtain ⟨A, B, C, rfl⟩ := sublist_pair hfm
    have hst := coupleStep_list sw hP
    have hperm : (A ++ B ++ f :: m :: C).Perm (A ++ f :: (B ++ m :: C)) := by
      rw [List.append_assoc]
      exact List.Perm.append_left A List.perm_middle
    have hsub : ∀ x y, x ≠ f → y ≠ f → List.Sublist [x, y] (A ++ f :: (B ++ m :: C)) →
        List.Sublist [x, y] (A ++ B ++ f :: m :: C) := by
      intro x y hx hy h
      have hfA : f ∉ A := by
        intro hf; rw [List.nodup_append] at hP; exact hP.2.2 f hf f (by simp) rfl
      have hfAB : f ∉ A ++ B := by
        intro hf
        have hnd := (hperm.nodup_iff).2 hP
        rw [List.nodup_append] at hnd
        exact hnd.2.2 f hf f (by simp) rfl
      have h' := h.erase f
      rw [List.erase_append_right _ hfA, List.erase_cons_head, List.erase_of_not_mem (by
        simp [hx.symm, hy.symm])] at h'
      refine h'.trans ?_
      have : A ++ (B ++ m :: C) = (A ++ B ++ f :: m :: C).erase f := by
        rw [List.erase_append_right _ hfAB, List.erase_cons_head]; simp
      rw [this]
      exact List.erase_sublist
    have hinf : ∀ x y, f ≠ x → f ≠ y → m ≠ x → m ≠ y → [x, y] <:+: A ++ f :: (B ++ m :: C) →
        [x, y] <:+: A ++ B ++ f :: m :: C := by
      rintro x y h1 h2 h3 h4 ⟨X, Y, h⟩
      have h' : X ++ x :: y :: Y = A ++ f :: (B ++ m :: C) := by rw [← h]; simp
      -- remove `f`
      have hrem : ∃ X' Y', X' ++ x :: y :: Y' = (A ++ B) ++ m :: C := by
        rcases split_pair h' h1 h2 with ⟨Z, rfl⟩ | ⟨Z, rfl⟩
        · exact ⟨X, Z ++ B ++ m :: C, by simp⟩
        · refine ⟨A ++ Z, Y, ?_⟩
          have : Z ++ x :: y :: Y = B ++ m :: C := by
            simpa using h'
          rw [List.append_assoc, this]; simp
      obtain ⟨X', Y', h5⟩ := hrem
      rcases split_pair h5 h3 h4 with ⟨Z, hZ⟩ | ⟨Z, hZ⟩
      · exact ⟨X', Z ++ f :: m :: C, by rw [hZ]; simp⟩
      · subst hZ
        have : Z ++ x :: y :: Y' = C := by simpa using h5
        exact ⟨A ++ B ++ f :: m :: Z, Y', by rw [← this]; simp⟩
    have hpre : D <+: A ++ B ++ f :: m :: C := by
      obtain ⟨T, hT⟩ := hD
      have hDA : D <+: A := by
        rcases List.append_eq_append_iff.1 hT with ⟨Z, hZ, _⟩ | ⟨Z, hZ, hZ'⟩
        · exact ⟨Z, hZ.symm⟩
        · cases Z with
          | nil => exact ⟨[], by rw [hZ]; simp⟩
          | cons z Z =>
            exfalso; apply hfD
            simp only [List.cons_append, List.cons.injEq] at hZ'
            rw [hZ, ← hZ'.1]; simp
      obtain ⟨Z, rfl⟩ := hDA
      exact ⟨Z ++ B ++ f :: m :: C, by simp⟩
    intro P'
    have hP' : P' = (todo.foldl coupleStep ((coupleStep (sw, A ++ f :: (B ++ m :: C)) (f, m)).1,
        A ++ B ++ f :: m :: C)).2 := by
      rw [← hst]; rfl
    obtain ⟨r1, r2, r3⟩ := ih (done ++ [(f, m)]) (A ++ B ++ f :: m :: C)
      ((coupleStep (sw, A ++ f :: (B ++ m :: C)) (f, m)).1) hp.2
      (by
        intro d hd' t ht'
        rcases List.mem_append.1 hd' with h | h
        · exact hdt d h t (List.mem_cons_of_mem _ ht')
        · rw [List.mem_singleton.1 h]; exact hp.1 t ht')
      (by
        intro t ht'
        have ha := hp.1 t ht'
        have h := ht t (List.mem_cons_of_mem _ ht')
        exact ⟨hsub _ _ ha.1.symm ha.2.1.symm h.1, h.2⟩)
      (by
        intro d hd'
        rcases List.mem_append.1 hd' with h | h
        · have ha := hdt d h (f, m) (by simp)
          exact hinf _ _ ha.1.symm ha.2.2.1.symm ha.2.1.symm ha.2.2.2.symm (hd d h)
        · rw [List.mem_singleton.1 h]
          exact ⟨A ++ B, C, by simp⟩)
      hpre ((hperm.nodup_iff).2 hP)
    rw [← hP'] at r1 r2 r3
    exact ⟨by simpa using r1, r2, r3.trans hperm⟩

theorem pair_sublist {E : List Nat} (hE : E.Pairwise (· < ·)) {f m : Nat} (hf : f ∈ E) (hm : m ∈ E)
    (h : f < m) : List.Sublist [f, m] E := by
  induction E with
  | nil => simp at hf
  | cons e E ih =>
    rw [List.pairwise_cons] at hE
    rcases List.mem_cons.1 hf with hf' | hf'
    · subst hf'
      rcases List.mem_cons.1 hm with hm' | hm'
      · omega
      · exact (List.singleton_sublist.2 hm').cons_cons _
    · rcases List.mem_cons.1 hm with hm' | hm'
      · have := hE.1 f hf'; omega
      · exact (ih hE.2 hf' hm').cons _

/-- The matching: singles come first, couples become neighbours. -/
theorem kai_match {singles : List Nat} {couples : List (Nat × Nat)} {n : Nat}
    (hs : ∀ s ∈ singles, s < n) (hnd : singles.Nodup)
    (hc : ∀ c ∈ couples, c.1 < c.2 ∧ c.2 < n ∧ c.1 ∉ singles ∧ c.2 ∉ singles)
    (hp : couples.Pairwise Apart) :
    (kaiPflaume singles couples n).2.Perm (List.range n) ∧
    (singles.insertionSort (· ≤ ·)) <+: (kaiPflaume singles couples n).2 ∧
    ∀ c ∈ couples, [c.1, c.2] <:+: (kaiPflaume singles couples n).2 := by
  set ss := singles.insertionSort (· ≤ ·) with hss
  have hperm : ss.Perm singles := List.perm_insertionSort _ _
  have hmem : ∀ x, x ∈ ss ↔ x ∈ singles := fun x => hperm.mem_iff
  have hlt : ss.Pairwise (· < ·) := by
    have h1 : ss.Pairwise (· ≤ ·) := List.pairwise_insertionSort _ _
    have h2 : ss.Nodup := hperm.nodup_iff.2 hnd
    exact (h1.and h2).imp fun h => lt_of_le_of_ne h.1 h.2
  obtain ⟨E, h1, h2⟩ := singlesLoop_list (n := n) ss hlt (fun s h => hs s ((hmem s).1 h)) [] [] 0
    (fun _ _ => Nat.zero_le _) (Nat.zero_le _) rfl List.Pairwise.nil (by simp) []
  have e0 : ([] : List Nat) ++ [] ++ List.range' 0 (n - 0) = List.range n := by
    simp [List.range_eq_range']
  rw [e0, List.nil_append] at h1
  have hk : KInv n (singlesLoop ss 0 ([], List.range n)) :=
    kInv_singles (fun s h => hs s ((hmem s).1 h)) 0 ⟨rfl, by simp, by simp⟩
  obtain ⟨σ, hσ, -⟩ := swapInv_apply hk.2.2
  rw [applySwaps_snd, ← hk.1] at hσ
  have hrange : (singlesLoop ss 0 ([], List.range n)).2.Perm (List.range n) := by
    rw [hσ]
    refine (List.perm_ext_iff_of_nodup ?_ List.nodup_range).2 ?_
    · rw [permL, List.nodup_ofFn]
      intro x y h; exact σ.injective (Fin.ext h)
    · intro x
      rw [permL, List.mem_ofFn, List.mem_range]
      constructor
      · rintro ⟨y, rfl⟩; exact (σ y).2
      · intro h; exact ⟨σ⁻¹ ⟨x, h⟩, by simp⟩
  have hl : ([] : List Nat).length = 0 := rfl
  rw [hl] at h1
  set cs := couples.insertionSort fun a b => b.1 ≤ a.1 with hcs
  have hcp : cs.Perm couples := List.perm_insertionSort _ _
  have hst : singlesLoop ss 0 ([], List.range n) =
      ((singlesLoop ss 0 ([], List.range n)).1, ss ++ E) := by rw [← h1]
  have hPnd : (ss ++ E).Nodup := by rw [← h1]; exact hrange.nodup_iff.2 List.nodup_range
  have hE : ∀ x, x < n → x ∉ singles → x ∈ E := by
    intro x hx hx'
    have : x ∈ ss ++ E := by rw [← h1]; exact hrange.mem_iff.2 (List.mem_range.2 hx)
    rcases List.mem_append.1 this with h | h
    · exact absurd ((hmem x).1 h) hx'
    · exact h
  have fin := couples_list cs [] ss (ss ++ E) (singlesLoop ss 0 ([], List.range n)).1
    ((hcp.pairwise_iff (fun h => Apart.symm h)).2 hp) (by simp)
    (by
      intro t ht
      obtain ⟨a1, a2, a3, a4⟩ := hc t (hcp.mem_iff.1 ht)
      refine ⟨?_, fun h => a3 ((hmem _).1 h)⟩
      exact (pair_sublist h2 (hE _ (by omega) a3) (hE _ a2 a4) a1).trans (List.sublist_append_right _ _))
    (by simp) (List.prefix_append _ _) hPnd
  have ek : kaiPflaume singles couples n = cs.foldl coupleStep
      ((singlesLoop ss 0 ([], List.range n)).1, ss ++ E) := by
    rw [← hst]; rfl
  rw [← ek] at fin
  refine ⟨fin.2.2.trans (by rw [← h1]; exact hrange), fin.2.1, ?_⟩
  intro c hc'
  exact fin.1 c (by simpa using hcp.mem_iff.2 hc')

end Verif.Oper
