import Verif.Tree.Backtrack

/-!
Property theorems C166: the node encoding of the quantum backtracking tree.
-/

namespace Verif.Props
open Verif.Tree

/-- Written independently of the model: the state of the node with path `p` in a tree of depth `n` is a
height register with its only 1 at `n - p.length`, and `p` reversed at the end of an array of zeros. -/
def IsNode (n : Nat) (p : List Nat) (s : St) : Prop :=
  s.h.length = n + 1 ∧ s.b.length = n ∧ p.length ≤ n ∧
  (∀ i, i ≤ n → (s.h.getD i false = true ↔ i + p.length = n)) ∧
  (∀ j, j < n → s.b.getD (n - 1 - j) 0 = p.getD j 0)

theorem initNode_some (t : Tree) (p : List Nat) (h : p.length ≤ t.depth) : initNode t p =
    some ⟨oneHot t.width (t.depth - p.length), List.replicate (t.width - (t.root ++ p).length) 0 ++ (t.root ++ p).reverse⟩ := by
  rw [initNode, if_neg (by omega)]

theorem isNode_raw (n : Nat) (p : List Nat) (h : p.length ≤ n) :
    IsNode n p ⟨oneHot n (n - p.length), List.replicate (n - p.length) 0 ++ p.reverse⟩ := by
  refine ⟨by simp [oneHot], by simp; omega, h, ?_, ?_⟩
  · intro i hi
    simp only
    rw [oneHot_get _ _ _ hi, beq_iff_eq]
    omega
  · intro j hj
    simp only
    rw [List.getD_eq_getElem?_getD, List.getD_eq_getElem?_getD]
    by_cases hp : j < p.length
    · rw [List.getElem?_append_right (by simp; omega), List.length_replicate, List.getElem?_reverse (by omega)]
      congr 2
      omega
    · rw [List.getElem?_append_left (by simp; omega), List.getElem?_replicate, List.getElem?_eq_none (by omega)]
      split <;> rfl

/-- **C166** In a tree of depth `n`, initialising the node with a path of at most `n` labels gives
that node's state, and decoding the state gives the path back; a longer path is an error. -/
theorem tree_node_round_trip (n : Nat) (p : List Nat) :
    (p.length ≤ n → ∃ s, initNode (mkTree n) p = some s ∧ IsNode n p s ∧
      pathDecoder (mkTree n) (ohDecode s.h) s.b = p) ∧
    (n < p.length → initNode (mkTree n) p = none) := by
  refine ⟨fun h => ?_, fun h => by rw [initNode, if_pos (by exact h)]⟩
  refine ⟨_, initNode_some _ _ h, ?_, ?_⟩
  · exact isNode_raw n p h
  · simp only [mkTree, List.nil_append]
    rw [ohDecode_oneHot _ _ (by omega), pathDecoder]
    have : ((n : Int) - ((n - p.length : Nat) : Int)) = (p.length : Int) := by omega
    simp only [this]
    rw [if_pos (by omega)]
    simp

/-- **C166** A node of a subtree is the node of the original tree with the root path in front: same
state, decoded to the whole path. -/
theorem tree_subtree_node (n : Nat) (r p : List Nat) (h : r.length + p.length ≤ n) :
    ∃ t, subtreeOf (mkTree n) r = some t ∧ initNode t p = initNode (mkTree n) (r ++ p) ∧
      ∃ s, initNode t p = some s ∧ IsNode n (r ++ p) s ∧ pathDecoder (mkTree n) (ohDecode s.h) s.b = r ++ p := by
  have hl : (r ++ p).length ≤ n := by simp; omega
  refine ⟨⟨n, n - r.length, r⟩, by rw [subtreeOf, if_neg (by simp only [mkTree]; omega)]; rfl, ?_⟩
  have e : initNode ⟨n, n - r.length, r⟩ p = initNode (mkTree n) (r ++ p) := by
    rw [initNode_some _ _ (by simp only; omega), initNode_some _ _ hl]
    simp only [mkTree, List.nil_append, List.length_append]
    congr 3
    omega
  refine ⟨e, ?_⟩
  obtain ⟨s, h1, h2, h3⟩ := (tree_node_round_trip n (r ++ p)).1 hl
  exact ⟨s, e.trans h1, h2, h3⟩

/-- The trees the constructors make. -/
inductive Made : Tree → Prop
  | tree (n : Nat) : Made (mkTree n)
  | sub (t t' : Tree) (r : List Nat) : subtreeOf t r = some t' → Made t'

theorem made_wf {t : Tree} (h : Made t) : t.WF := by
  cases h with
  | tree n => simp [Tree.WF, mkTree]
  | sub t _ r h =>
    rw [subtreeOf] at h
    split at h
    · simp at h
    · simp only [Option.some.injEq] at h
      subst h
      simp only [Tree.WF]
      omega

/-- **C166** The phases of one diffusion step, for every tree or subtree, every accept and reject
function of the node state, and every node `p`: a node whose height has the parent parity changes sign
exactly if it is not accepted; the root of the other parity keeps its sign; any other node changes sign
exactly if its parent is rejected. -/
theorem tree_diffuser_sign (t : Tree) (ht : Made t) (even : Bool) (accept reject : St → Bool) (p : List Nat) (s : St)
    (hp : initNode t p = some s) :
    ((((t.depth - p.length) % 2 == 1) ≠ even → sign t even accept reject s = !accept s) ∧
     (((t.depth - p.length) % 2 == 1) = even → p = [] → sign t even accept reject s = false) ∧
     (((t.depth - p.length) % 2 == 1) = even → ∀ q c, p = q ++ [c] →
        ∃ s', initNode t q = some s' ∧ sign t even accept reject s = reject s')) := by
  have hw := made_wf ht
  have hlen : p.length ≤ t.depth := by
    by_contra h
    rw [initNode, if_pos (by omega)] at hp
    simp at hp
  have hs := hp
  rw [initNode_some _ _ hlen, Option.some.injEq] at hs
  have hsh : s.h = oneHot t.width (t.depth - p.length) := by rw [← hs]
  have hdw : t.depth ≤ t.width := by unfold Tree.WF at hw; omega
  have ho : oddity t even s.h = (((t.depth - p.length) % 2 == 1) != even) := by
    rw [hsh, oddity_oneHot _ _ _ _ hdw (by omega)]
  have hg : s.h.getD t.depth false = (t.depth == t.depth - p.length) := by
    rw [hsh, oneHot_get _ _ _ hdw]
  refine ⟨?_, ?_, ?_⟩
  · intro hne
    have ho' : oddity t even s.h = true := by rw [ho]; simpa using hne
    have hroot : (if (t.depth % 2 == 1) == even then xor true (s.h.getD t.depth false) else true) = true := by
      split
      · rename_i h
        have : t.depth ≠ t.depth - p.length := by
          intro e; rw [← e] at hne; exact hne (by simpa using h)
        rw [hg]
        simpa using this
      · rfl
    simp only [sign, ho', hroot]
    simp
  · intro he hnil
    subst hnil
    have ho' : oddity t even s.h = false := by rw [ho, he]; simp
    have h1 : ((t.depth % 2 == 1) == even) = true := by simpa using he
    simp only [sign, ho', h1, hg]
    simp
  · intro he q c hq
    subst hq
    have ho' : oddity t even s.h = false := by rw [ho, he]; simp
    rw [List.length_append, List.length_singleton] at hlen hg
    have hg' : s.h.getD t.depth false = false := by
      rw [hg]; simp; omega
    refine ⟨lift t even s, lift_child t hw even q c s hp (by simpa using he), ?_⟩
    simp only [sign, ho', hg']
    simp

/-- **C166** `init_phi` of a tree prepares the root with squared weight `n` and, for every nonempty
prefix of the path, that node with weight 1 and alternating sign. For a subtree the claim is false (below). -/
theorem tree_phi_partial (n : Nat) (p : List Nat) (h : p.length ≤ n) :
    (phi (mkTree n) p).length = p.length + 1 ∧
    ∀ k, k ≤ p.length → ∃ s, initNode (mkTree n) (p.take k) = some s ∧
      (phi (mkTree n) p)[k]? = some ⟨k % 2 == 1, if k = 0 then n else 1, s⟩ := by
  refine ⟨by simp [phi], fun k hk => ?_⟩
  have hlen : (p.take k).length = k := by simp; omega
  refine ⟨_, initNode_some _ _ (by rw [hlen]; simp only [mkTree]; omega), ?_⟩
  rw [phi, List.getElem?_map, List.getElem?_range (by omega)]
  simp only [mkTree, List.nil_append, hlen, Option.map_some]
  congr 3
  by_cases h0 : k = 0
  · subst h0
    rw [foldl_id]
    · simp
    · intro i hi b
      rw [List.mem_range] at hi
      exact if_neg (by rw [oneHot_get _ _ _ (by omega)]; simp; omega)
  · rw [foldl_one _ _ (k - 1) _ (by omega)]
    · have : k - 1 + 1 = k := by omega
      rw [this, ← phiBlock_eq n p k hk (by omega)]
      exact if_pos (by rw [oneHot_get _ _ _ (by omega)]; simp)
    · intro i hi hne b
      exact if_neg (by rw [oneHot_get _ _ _ (by omega)]; simp; omega)

/-- **C166** `init_phi` of a subtree with a root path always fails: it assigns branch labels inside a
`with` block, where the allocation of the qubits is not visible to the freshness check. -/
theorem tree_subtree_phi_raises (n : Nat) (r p : List Nat) (t : Tree) (k : Nat) (h : subtreeOf (mkTree n) r = some t)
    (hr : r ≠ []) : phiSub true t p k = none := by
  rw [subtreeOf] at h
  split at h
  · simp at h
  · simp only [Option.some.injEq] at h
    subst h
    have : r.isEmpty = false := by simpa using hr
    simp [phiSub, checkFresh, this]

/-- **C166** Without that check the prepared nodes would still be the wrong ones: the root path is written
behind the path instead of in front of it. Root `[1]`, path `[0]` in a tree of depth 2 gives the node
`[0, 1]`, not `[1, 0]`. -/
theorem tree_subtree_phi_wrong : ∃ t s s', subtreeOf (mkTree 2) [1] = some t ∧ phiSub false t [0] 1 = some s ∧
    initNode t [0] = some s' ∧ s ≠ s' ∧ initNode (mkTree 2) [0, 1] = some s ∧ initNode (mkTree 2) [1, 0] = some s' :=
  ⟨⟨2, 1, [1]⟩, ⟨[true, false, false], [1, 0]⟩, ⟨[true, false, false], [0, 1]⟩, rfl, by decide +kernel, by decide +kernel,
    by decide +kernel, by decide +kernel, by decide +kernel⟩

/-- **C166** The copy of a tree is the same tree. For subtrees the claim is false (next theorem). -/
theorem tree_copy_partial (n : Nat) : copy (mkTree n) = some (mkTree n) := by simp [copy, subtreeOf, mkTree]

/-- **C166** The copy of a subtree with a nonempty root path is another tree: no path gives the same state in both, the
branch arrays even differ in length. -/
theorem tree_copy_wrong (n : Nat) : ∀ r t t', subtreeOf (mkTree n) r = some t → r ≠ [] → copy t = some t' →
      ∀ p s s', initNode t p = some s → initNode t' p = some s' → s.b.length ≠ s'.b.length := by
  intro r t t' h hr hc p s s' hs hs'
  have hw := made_wf (Made.sub _ _ _ h)
  have hw' := made_wf (Made.sub _ _ _ hc)
  rw [copy, subtreeOf] at hc
  split at hc
  · simp at hc
  simp only [Option.some.injEq] at hc
  have hroot : t.root = r := by
    rw [subtreeOf] at h
    split at h
    · simp at h
    · simp only [Option.some.injEq] at h
      rw [← h]
  have hb : ∀ {t : Tree} {s : St}, t.WF → initNode t p = some s → s.b.length = t.width := by
    intro t s ht hs
    rw [initNode] at hs
    split at hs
    · simp at hs
    · simp only [Option.some.injEq] at hs
      rw [← hs]
      unfold Tree.WF at ht
      simp
      omega
  rw [hb hw hs, hb hw' hs', ← hc]
  unfold Tree.WF at hw
  have : 0 < r.length := List.length_pos_iff.2 hr
  rw [hroot] at hw
  simp only
  omega

/-- The copy of the subtree below `[1]` of a tree of depth 3 exists, and its node `[0]` is not the node `[0]` of the
subtree. -/
example : ∃ t t', subtreeOf (mkTree 3) [1] = some t ∧ copy t = some t' ∧
    initNode t [0] = some ⟨[false, true, false, false], [0, 0, 1]⟩ ∧ initNode t' [0] = some ⟨[false, true, false], [0, 0]⟩ :=
  ⟨⟨3, 2, [1]⟩, ⟨2, 2, []⟩, rfl, rfl, by decide +kernel, by decide +kernel⟩

/-- A node of a tree of depth 4, its state and its lift. -/
example : initNode (mkTree 4) [1, 0, 1] = some ⟨[false, true, false, false, false], [0, 1, 0, 1]⟩ ∧
    lift (mkTree 4) true ⟨[false, true, false, false, false], [0, 1, 0, 1]⟩ = ⟨[false, false, true, false, false], [0, 0, 0, 1]⟩ ∧
    initNode (mkTree 4) [1, 0] = some ⟨[false, false, true, false, false], [0, 0, 0, 1]⟩ := by decide +kernel

/-- The state `|φ⟩` of the path `[1, 1]` in a tree of depth 3. -/
example : phi (mkTree 3) [1, 1] = [⟨false, 3, ⟨[false, false, false, true], [0, 0, 0]⟩⟩,
    ⟨true, 1, ⟨[false, false, true, false], [0, 0, 1]⟩⟩, ⟨false, 1, ⟨[false, true, false, false], [0, 1, 1]⟩⟩] := by
  decide +kernel

end Verif.Props
