import Verif.Oper.FermMatch

/-!
Swaps for a given permutation (src/qrisp/operators/fermionic/trotterization.py lines 191-212; the same
functions are in fermionic_operator.py lines 870-892).
-/

namespace Verif.Oper

/-! ### Model -/

/-- One pass of the loop of `get_swaps_for_permutation` (lines 206-211): entry `i` moves down to
position `i`. For a permutation its position is not below `i`. -/
def permStep (st : List (Nat × Nat) × List Nat) (i : Nat) : List (Nat × Nat) × List Nat :=
  ((List.range' i (st.2.idxOf i - i)).reverse.map fun x => (x + 1, x)).foldl swapStep st

/-- `get_swaps_for_permutation` (lines 203-212), with the final list. -/
def swapsForPerm (p : List Nat) : List (Nat × Nat) × List Nat :=
  (List.range p.length).foldl permStep ([], p)

/-- `apply_fermionic_swap` (lines 191-200): gates and qubits. -/
def applyPerm (qb p : List Nat) : List (Nat × Nat) × List Nat :=
  applySwaps qb (swapsForPerm p).1.reverse

/-! ### Lemmas -/

theorem swapL_swapL {n : Nat} {l : List Nat} (hl : l.length = n) {s : Nat × Nat} (h1 : s.1 < n)
    (h2 : s.2 < n) : swapL (swapL l s) s = l := by
  apply List.ext_getElem
  · simp [swapL_length]
  · intro k hk hk'
    simp only [swapL, List.getElem_set, List.getD_eq_getElem?_getD, List.getElem?_set,
      List.length_set]
    split_ifs <;> simp_all

theorem foldl_swapL_reverse {n : Nat} {ss : List (Nat × Nat)} (hs : ∀ s ∈ ss, AdjSwap n s)
    {l : List Nat} (hl : l.length = n) : ss.reverse.foldl swapL (ss.foldl swapL l) = l := by
  induction ss generalizing l with
  | nil => rfl
  | cons s ss ih =>
    rw [List.foldl_cons, List.reverse_cons, List.foldl_append,
      ih (fun x hx => hs x (List.mem_cons_of_mem _ hx)) (by rw [swapL_length, hl])]
    have := hs s (by simp)
    exact swapL_swapL hl this.1 this.2.1

theorem permStep_inv {n k : Nat} {p : List Nat} {st : List (Nat × Nat) × List Nat}
    (h1 : st.2 = st.1.foldl swapL p) (h2 : ∀ s ∈ st.1, AdjSwap n s)
    (h3 : st.2.Perm (List.range n)) (h4 : List.range k <+: st.2) (hk : k < n) :
    (permStep st k).2 = (permStep st k).1.foldl swapL p ∧ (∀ s ∈ (permStep st k).1, AdjSwap n s) ∧
    (permStep st k).2.Perm (List.range n) ∧ List.range (k + 1) <+: (permStep st k).2 := by
  obtain ⟨D, hD⟩ := h4
  have hnd : st.2.Nodup := h3.nodup_iff.2 List.nodup_range
  have hlen : st.2.length = n := by rw [h3.length_eq]; simp
  have hm : k ∈ st.2 := h3.mem_iff.2 (List.mem_range.2 hk)
  have hmD : k ∈ D := by
    rw [← hD, List.mem_append] at hm
    rcases hm with hm | hm
    · simp at hm
    · exact hm
  obtain ⟨B, C, hBC⟩ := List.append_of_mem hmD
  have e0 : st.2 = (List.range k ++ B) ++ k :: C := by rw [← hD, hBC]; simp
  have hidx : st.2.idxOf k = k + B.length := by
    rw [e0] at hnd ⊢
    rw [idxOf_mid hnd]; simp
  have hbl : k + B.length < n := by rw [← hidx, ← hlen]; exact List.idxOf_lt_length_of_mem hm
  have hfin : (permStep st k).2 = List.range k ++ k :: (B ++ C) := by
    rw [permStep, foldl_swapStep]
    simp only
    rw [hidx, Nat.add_sub_cancel_left, e0]
    have := moveDown (List.range k) B C k
    rw [List.length_range] at this
    exact this
  refine ⟨?_, ?_, ?_, ?_⟩
  · rw [permStep, foldl_swapStep]
    simp only
    rw [List.foldl_append, ← h1]
  · rw [permStep, foldl_swapStep]
    intro s hs
    rcases List.mem_append.1 hs with hs | hs
    · exact h2 s hs
    · obtain ⟨i, hi, rfl⟩ := List.mem_map.1 hs
      rw [List.mem_reverse, List.mem_range'_1, hidx] at hi
      exact ⟨by simp only; omega, by simp only; omega, Or.inr rfl⟩
  · rw [hfin]
    refine List.Perm.trans ?_ h3
    rw [e0, List.append_assoc]
    exact List.Perm.append_left _ List.perm_middle.symm
  · rw [hfin, List.range_succ]
    exact ⟨B ++ C, by simp⟩

theorem swapsForPerm_ok {n : Nat} {p : List Nat} (hp : p.Perm (List.range n)) :
    (∀ s ∈ (swapsForPerm p).1, AdjSwap n s) ∧
    (swapsForPerm p).1.foldl swapL p = List.range n := by
  have hlen : p.length = n := by rw [hp.length_eq]; simp
  have key : ∀ k, k ≤ n → let st := (List.range k).foldl permStep ([], p)
      st.2 = st.1.foldl swapL p ∧ (∀ s ∈ st.1, AdjSwap n s) ∧ st.2.Perm (List.range n) ∧
      List.range k <+: st.2 := by
    intro k
    induction k with
    | zero => intro _; exact ⟨rfl, by simp, hp, by simp⟩
    | succ k ih =>
      intro hk
      obtain ⟨h1, h2, h3, h4⟩ := ih (by omega)
      rw [List.range_succ, List.foldl_append]
      have := permStep_inv h1 h2 h3 h4 (by omega)
      rw [List.range_succ] at this
      exact this
  obtain ⟨h1, h2, h3, h4⟩ := key n le_rfl
  rw [swapsForPerm, hlen]
  refine ⟨h2, ?_⟩
  rw [← h1]
  exact (h4.eq_of_length (by rw [h3.length_eq])).symm

theorem applyPerm_snd {n : Nat} {p : List Nat} (hp : p.Perm (List.range n)) :
    (applyPerm (List.range n) p).2 = p := by
  obtain ⟨h1, h2⟩ := swapsForPerm_ok hp
  rw [applyPerm, applySwaps_snd, ← h2]
  exact foldl_swapL_reverse h1 (by rw [hp.length_eq]; simp)

end Verif.Oper
