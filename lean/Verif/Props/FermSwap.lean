import Verif.Oper.FermGroup
import Verif.Oper.FermPerm
import Verif.Props.Oper

/-!
Property theorems C161: fermionic swaps and matching in the simulation of fermionic operators.
-/

namespace Verif.Props
open Verif.Oper

/-! ### Unipolars -/

/-- `get_unipolars` returns, in falling order, the modes with an odd number of ladder operators. -/
theorem ferm_unipolars (L : List Lad) :
    (unipolars L).Pairwise (· > ·) ∧
    ∀ x, x ∈ unipolars L ↔ (L.countP fun l => l.1 = x) % 2 = 1 := by
  refine ⟨unipolars_desc L, fun x => ?_⟩
  have h := unipolars_count (fun y => y == x) L
  have e : (L.map Prod.fst).countP (fun y => y == x) = L.countP fun l => l.1 = x := by
    rw [List.countP_map]; congr 1
  rw [e] at h
  rw [← h]
  change _ ↔ (unipolars L).count x % 2 = 1
  rw [(unipolars_nodup L).count]
  split <;> simp_all

example : unipolars [(3, true), (1, true), (3, false), (2, false), (0, true)] = [2, 1, 0] := by
  decide +kernel

/-! ### Swaps -/

/-- The simulation may act on the permuted terms: whatever the group, gates CZ and relabelled qubits
around the permuted term give the operator of the term. -/
theorem ferm_swap_conjugation {terms : List (List Lad)} {n : Nat}
    (hn : ∀ t ∈ terms, ∀ l ∈ t, l.1 < n) {t : List Lad} (ht : t ∈ terms) :
    let g := groupSwaps terms n
    let a := applySwaps (List.range n) g.1
    a.2 = g.2 ∧ (∀ s ∈ g.1, s.1 < n ∧ s.2 < n ∧ (s.2 = s.1 + 1 ∨ s.1 = s.2 + 1)) ∧
    conjSwaps a.1 a.2 (fop n (fermSwap g.2 t)) = fop n t := by
  intro g a
  have hk : KInv n g := kInv_kai (by
    intro s hs
    rw [singlesCouples_eq] at hs
    obtain ⟨u, hu, hs⟩ := List.mem_flatMap.1 hs
    rw [singleOf] at hs
    split at hs
    · rename_i ho
      have h1 := List.mem_singleton.1 hs
      have hne : unipolars u ≠ [] := by intro h; rw [h] at ho; simp at ho
      have h2 : s ∈ unipolars u := by
        rw [h1, List.getLastD_eq_getLast?, List.getLast?_eq_getLast_of_ne_nil hne]
        exact List.getLast_mem hne
      obtain ⟨l, hl, rfl⟩ := unipolars_mem u s h2
      exact hn u hu l hl
    · simp at hs)
  have e : a.2 = g.2 := by rw [hk.1]; exact applySwaps_snd _ _
  refine ⟨e, hk.2.2, ?_⟩
  have := conjSwaps_fop hk.2.2 (hn t ht)
  rw [← e]
  exact this

/-- Two hopping terms: one swap makes both pairs neighbours. -/
example : groupSwaps [[(3, true), (1, false)], [(2, true), (0, false)]] 4 =
    ([(1, 2)], [0, 2, 1, 3]) := by decide +kernel

/-- `apply_fermionic_swap` with a permutation of the modes: the qubits come in the order of the
permutation, and gates CZ and relabelled qubits around the permuted term give the operator of the
term. -/
theorem ferm_swap_permutation {n : Nat} {p : List Nat} (hp : p.Perm (List.range n)) {t : List Lad}
    (ht : ∀ l ∈ t, l.1 < n) :
    let a := applyPerm (List.range n) p
    a.2 = p ∧ conjSwaps a.1 a.2 (fop n (fermSwap p t)) = fop n t := by
  intro a
  have e : a.2 = p := applyPerm_snd hp
  have hs : ∀ s ∈ (swapsForPerm p).1.reverse, AdjSwap n s := fun s hs =>
    (swapsForPerm_ok hp).1 s (List.mem_reverse.1 hs)
  refine ⟨e, ?_⟩
  have := conjSwaps_fop hs ht
  change conjSwaps a.1 a.2 (fop n (fermSwap a.2 t)) = _ at this
  rw [e] at this ⊢
  exact this

example : applyPerm [0, 1, 2, 3] [2, 0, 3, 1] = ([(2, 1), (3, 1), (2, 0)], [2, 0, 3, 1]) := by
  decide +kernel

/-! ### Matching -/

/-- Missing: groups with two odd terms on the same modes, see `ferm_match_wrong`.
A group without repeated odd terms: the permutation is one of all modes, the singles come first,
and the partners of every couple are neighbours. -/
theorem ferm_match_partial {terms : List (List Lad)} {n : Nat} (h : GroupOK terms)
    (hn : ∀ t ∈ terms, ∀ l ∈ t, l.1 < n) :
    (groupSwaps terms n).2.Perm (List.range n) ∧
    ((singlesCouples terms).1.insertionSort (· ≤ ·)) <+: (groupSwaps terms n).2 ∧
    ∀ t ∈ terms, ∀ c ∈ pairsOf (unipolars t), [c.1, c.2] <:+: (groupSwaps terms n).2 :=
  group_kai h hn

/-- Missing: as above.
The error "Fermionic matching failed" is not raised in such a group: the qubit operator of a
permuted even term has at most one term, and no factor Z. -/
theorem ferm_no_strings_partial {ord : Term → Term → List Nat} (ho : OrdOK ord) {terms : List (List Lad)}
    {n : Nat} (h : GroupOK terms) (hn : ∀ t ∈ terms, ∀ l ∈ t, l.1 < n) {t : List Lad}
    (ht : t ∈ terms) (he : (unipolars t).length % 2 = 0) :
    (toQubit ord (fermSwap (groupSwaps terms n).2 t)).length ≤ 1 ∧
    ∀ p ∈ toQubit ord (fermSwap (groupSwaps terms n).2 t), ∀ q ∈ p.1, q.2 ≠ .Z := by
  refine ⟨?_, group_noZ ho h hn ht he⟩
  rcases single_toQubit ho (fermSwap (groupSwaps terms n).2 t) with h0 | ⟨u, c, h1, -, -⟩
  · rw [h0]; simp
  · rw [h1]; simp

/-- A term with a distant pair, and what is left of it. -/
def hop : List (List Lad) := [[(4, true), (1, false)], [(1, true), (4, false)]]

example : GroupOK hop where
  agree := by decide +kernel
  odd := by decide +kernel

example : (groupSwaps hop 5).2 = [0, 2, 3, 1, 4] ∧
    (∃ p ∈ toQubit someOrd [(4, true), (1, false)], (2, Fac.Z) ∈ p.1 ∧ (3, Fac.Z) ∈ p.1) ∧
    (toQubit someOrd (fermSwap (groupSwaps hop 5).2 [(4, true), (1, false)])).map
      (fun p => (p.1.get 3, p.1.get 4, p.1.get 2)) = [(.A, .C, .I)] := by decide +kernel

/-! ### Repeated odd terms -/

/-- a(5), n(0) a(5) and a hopping term between 1 and 4. -/
def oddGroup : List (List Lad) :=
  [[(5, false)], [(0, true), (0, false), (5, false)], [(4, true), (1, false)]]

/-- Two odd terms with the same unipolars are in one group, all other pairs are disjoint; still the
matching fails: the hopping term keeps a factor Z and the simulation raises the exception. -/
theorem ferm_match_wrong :
    (∀ s ∈ oddGroup, ∀ t ∈ oddGroup, unipolars s = unipolars t ∨ ∀ x ∈ unipolars s, x ∉ unipolars t) ∧
    (unipolars [(4, true), (1, false)]).length % 2 = 0 ∧
    ∃ p ∈ toQubit someOrd (fermSwap (groupSwaps oddGroup 6).2 [(4, true), (1, false)]),
      ∃ q ∈ p.1, q.2 = .Z := by decide +kernel

end Verif.Props
