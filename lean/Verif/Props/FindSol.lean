import Verif.Tree.FindSol

/-!
Property theorems C167: the classical part of the backtracking search.
-/

namespace Verif.Props
open Verif.Tree

theorem loop_sound (P : List Nat → Prop) (rec : Trav → List Nat → Res × Trav) (n : Nat) (path : List Nat)
    (hrec : ∀ tr q p, (rec tr q).1 = .found p → P p) :
    ∀ (os : List Outcome) (tr : Trav) (p : List Nat), (branchLoop rec n path os tr).1 = .found p → P p
  | [], tr, p, h => by simp [branchLoop] at h
  | o :: os, tr, p, h => by
    rw [branchLoop] at h
    split at h
    · exact loop_sound P rec n path hrec os tr p h
    · split at h
      · simp at h
      · split at h
        · exact loop_sound P rec n path hrec os _ p h
        · exact hrec _ _ p h

/-- **C167** Whatever the quantum subroutine returns, a path that `find_solution` returns is accepted. -/
theorem search_sound (n : Nat) (accept : List Nat → Bool) (measure : Trav → List Nat → List Outcome) (f : Nat) (tr : Trav)
    (path p : List Nat) (h : (findSol n accept measure f tr path).1 = .found p) : accept p = true := by
  induction f generalizing tr path p with
  | zero => simp [findSol] at h
  | succ f ih =>
    rw [findSol] at h
    simp only at h
    split at h
    · rename_i ha
      simp only [Res.found.injEq] at h
      exact h ▸ ha
    · split at h
      · simp at h
      · split at h
        · simp at h
        · split at h
          · simp at h
          · exact loop_sound (fun p => accept p = true) _ n path (fun tr q p hp => ih tr q p hp) _ _ _ h

/-- There is an accepted node at or below `p` in the tree of depth `n`. -/
def HasSol (n : Nat) (accept : List Nat → Bool) (p : List Nat) : Prop :=
  ∃ q, p <+: q ∧ q.length ≤ n ∧ accept q = true

/-- The path an outcome stands for: the first `n - h` labels of the reversed array. -/
def outcomePath (n : Nat) (o : Outcome) : List Nat := pathDecoder (mkTree n) o.h o.b

/-- What the quantum subroutine has to deliver at an inner node that is not accepted: weight at most 1/4 on phase 0
if there is no solution below; otherwise weight above 3/8, only nodes of the subtree among the outcomes of phase 0, and
among them one other than the root with a solution at or below it. -/
structure Faithful (n : Nat) (accept : List Nat → Bool) (measure : Trav → List Nat → List Outcome) : Prop where
  no : ∀ tr path, path.length < n → accept path = false → ¬ HasSol n accept path →
    (((measure tr path).filter (·.zero)).map (·.prob)).sum ≤ 1 / 4
  yes : ∀ tr path, path.length < n → accept path = false → HasSol n accept path →
    3 / 8 < (((measure tr path).filter (·.zero)).map (·.prob)).sum ∧
    (∀ o ∈ measure tr path, o.zero = true → path <+: outcomePath n o ∧ (outcomePath n o).length ≤ n) ∧
    ∃ o ∈ measure tr path, o.zero = true ∧ outcomePath n o ≠ path ∧ HasSol n accept (outcomePath n o)

theorem loop_complete (n : Nat) (accept : List Nat → Bool) (path : List Nat) (rec : Trav → List Nat → Res × Trav)
    (hno : ∀ tr q, path <+: q → q ≠ path → q.length ≤ n → (∀ x ∈ tr, ¬ HasSol n accept x) → ¬ HasSol n accept q → rec tr q = (.nothing, tr))
    (hyes : ∀ tr q, path <+: q → q ≠ path → q.length ≤ n → (∀ x ∈ tr, ¬ HasSol n accept x) → HasSol n accept q →
      ∃ p, (rec tr q).1 = .found p ∧ q <+: p) :
    ∀ (os : List Outcome) (tr : Trav), (∀ x ∈ tr, ¬ HasSol n accept x) →
      (∀ o ∈ os, path <+: outcomePath n o ∧ (outcomePath n o).length ≤ n) →
      (∃ o ∈ os, outcomePath n o ≠ path ∧ HasSol n accept (outcomePath n o)) →
      ∃ p, (branchLoop rec n path os tr).1 = .found p ∧ path <+: p
  | [], tr, _, _, h => by obtain ⟨o, ho, _⟩ := h; simp at ho
  | o :: os, tr, htr, hall, hex => by
    have hq := hall o List.mem_cons_self
    have hall' : ∀ o ∈ os, path <+: outcomePath n o ∧ (outcomePath n o).length ≤ n :=
      fun o ho => hall o (List.mem_cons_of_mem _ ho)
    rw [branchLoop]
    change ∃ p, (if (tr.contains (outcomePath n o) || outcomePath n o == path) = true then _ else _ : Res × Trav).1 = _ ∧ _
    split
    · rename_i hc
      apply loop_complete n accept path rec hno hyes os tr htr hall'
      obtain ⟨o', ho', h1, h2⟩ := hex
      rcases List.mem_cons.1 ho' with e | e
      · subst e
        simp only [Bool.or_eq_true, List.contains_iff_mem, beq_iff_eq] at hc
        rcases hc with hc | hc
        · exact absurd h2 (htr _ hc)
        · exact absurd hc h1
      · exact ⟨o', e, h1, h2⟩
    · rename_i hc
      simp only [Bool.or_eq_true, List.contains_iff_mem, beq_iff_eq, not_or] at hc
      have hs : subtreeOf (mkTree n) (pathDecoder (mkTree n) o.h o.b) =
          some ⟨n, n - (outcomePath n o).length, outcomePath n o⟩ := by
        rw [subtreeOf, if_neg (by have := hq.2; unfold outcomePath at this; simp only [mkTree] at this ⊢; omega)]
        rfl
      rw [hs]
      simp only
      change ∃ p, (match rec tr (outcomePath n o) with
        | (.nothing, tr') => branchLoop rec n path os (tr' ++ [outcomePath n o])
        | r => r).1 = _ ∧ _
      by_cases hsol : HasSol n accept (outcomePath n o)
      · obtain ⟨p, h1, h2⟩ := hyes tr _ hq.1 hc.2 hq.2 htr hsol
        refine ⟨p, ?_, hq.1.trans h2⟩
        split
        · rename_i e
          rw [e] at h1
          simp at h1
        · exact h1
      · rw [hno tr _ hq.1 hc.2 hq.2 htr hsol]
        simp only
        apply loop_complete n accept path rec hno hyes os _ _ hall'
        · obtain ⟨o', ho', h1, h2⟩ := hex
          rcases List.mem_cons.1 ho' with e | e
          · subst e
            exact absurd h2 hsol
          · exact ⟨o', e, h1, h2⟩
        · intro x hx
          rcases List.mem_append.1 hx with hx | hx
          · exact htr x hx
          · rw [List.mem_singleton] at hx
            exact hx ▸ hsol

/-- **C167** If the quantum subroutine is faithful at every node, the search is exact from every node, with any list
of nodes already known to hold no solution: it returns an accepted node at or below the start if there is one, and `None`
otherwise; it never raises, and the recursion is at most one level per layer of the tree. -/
theorem search_complete (n : Nat) (accept : List Nat → Bool) (measure : Trav → List Nat → List Outcome)
    (hm : Faithful n accept measure) (f : Nat) (tr : Trav) (htr : ∀ x ∈ tr, ¬ HasSol n accept x) (path : List Nat)
    (hlen : path.length ≤ n) (hf : n - path.length < f) :
    (HasSol n accept path → ∃ p, (findSol n accept measure f tr path).1 = .found p ∧ path <+: p ∧ accept p = true) ∧
    (¬ HasSol n accept path → findSol n accept measure f tr path = (.nothing, tr)) := by
  induction f generalizing tr path with
  | zero => omega
  | succ f ih =>
    constructor
    · intro hs
      suffices h : ∃ p, (findSol n accept measure (f + 1) tr path).1 = .found p ∧ path <+: p by
        obtain ⟨p, h1, h2⟩ := h
        exact ⟨p, h1, h2, search_sound _ _ _ _ _ _ _ h1⟩
      rw [findSol]
      simp only
      by_cases ha : accept path = true
      · exact ⟨path, by rw [if_pos ha], List.prefix_rfl⟩
      · have ha' : accept path = false := by simpa using ha
        have hlt : path.length < n := by
          obtain ⟨q, h1, h2, h3⟩ := hs
          have := h1.length_le
          rcases Nat.lt_or_ge path.length n with h | h
          · exact h
          · have e := h1.eq_of_length (by omega)
            rw [e] at ha
            exact absurd h3 ha
        obtain ⟨hw, hall, o, ho, hz, hne, hso⟩ := hm.yes tr path hlt ha' hs
        rw [if_neg ha, if_neg (by omega), if_neg (by linarith), if_neg (by linarith)]
        have hstep : ∀ q : List Nat, path <+: q → q ≠ path → q.length ≤ n → n - q.length < f := by
          intro q h1 h2 h3
          have h4 := h1.length_le
          have : path.length ≠ q.length := fun e => h2 (h1.eq_of_length e).symm
          omega
        apply loop_complete n accept path _ _ _ _ _ htr
        · intro o ho
          rw [(List.perm_insertionSort _ _).mem_iff, List.mem_filter] at ho
          exact hall o ho.1 ho.2
        · exact ⟨o, by rw [(List.perm_insertionSort _ _).mem_iff, List.mem_filter]; exact ⟨ho, hz⟩, hne, hso⟩
        · intro tr q h1 h2 h3 h4 h5
          exact (ih tr h4 q h3 (hstep q h1 h2 h3)).2 h5
        · intro tr q h1 h2 h3 h4 h5
          obtain ⟨p, a, b, _⟩ := (ih tr h4 q h3 (hstep q h1 h2 h3)).1 h5
          exact ⟨p, a, b⟩
    · intro hs
      have ha : ¬ accept path = true := fun h => hs ⟨path, List.prefix_rfl, hlen, h⟩
      rw [findSol]
      simp only
      rw [if_neg ha]
      split
      · rfl
      · rw [if_pos (hm.no tr path (by omega) (by simpa using ha) hs)]

/-- **C167** The whole search from the root with nothing traversed. -/
theorem search_exact (n : Nat) (accept : List Nat → Bool) (measure : Trav → List Nat → List Outcome)
    (hm : Faithful n accept measure) :
    ((∃ q : List Nat, q.length ≤ n ∧ accept q = true) →
      ∃ p, (findSol n accept measure (n + 1) [] []).1 = .found p ∧ accept p = true) ∧
    ((∀ q : List Nat, q.length ≤ n → accept q = false) → (findSol n accept measure (n + 1) [] []).1 = .nothing) := by
  have h := search_complete n accept measure hm (n + 1) [] (by simp) [] (by simp) (by simp)
  constructor
  · rintro ⟨q, h1, h2⟩
    obtain ⟨p, a, _, b⟩ := h.1 ⟨q, List.nil_prefix, h1, h2⟩
    exact ⟨p, a, b⟩
  · intro hall
    rw [h.2]
    rintro ⟨q, _, h1, h2⟩
    rw [hall q h1] at h2
    simp at h2

/-- **C167** Without faithfulness `None` is not a proof that there is no solution: weight exactly 1/4 on phase 0 ends
the search although the node `[1]` is accepted. -/
theorem search_none_unreliable : ∃ (accept : List Nat → Bool) (measure : Trav → List Nat → List Outcome),
    accept [1] = true ∧ (findSol 1 accept measure 2 [] []).1 = .nothing :=
  ⟨fun p => p == [1], fun _ _ => [⟨true, 0, [1], 1 / 4⟩], by decide +kernel, by decide +kernel⟩

/-- A search in a tree of depth 2 with the solution `[1, 0]`: the first outcome leads to a node without solution, the
second to the solution. -/
example : findSol 2 (fun p => p == [1, 0])
    (fun _ p => if p = [] then [⟨true, 1, [0, 0], 1 / 4⟩, ⟨false, 0, [0, 0], 1 / 4⟩, ⟨true, 1, [0, 1], 1 / 2⟩]
      else if p = [1] then [⟨true, 0, [0, 1], 1⟩] else []) 3 [] [] = (.found [1, 0], [[0]]) := by decide +kernel

end Verif.Props
