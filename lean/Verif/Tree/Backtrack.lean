import Mathlib.Data.List.Basic
import Mathlib.Data.List.Nodup
import Mathlib.Data.Nat.Bitwise

/-
The node encoding of the quantum backtracking tree
(`algorithms/quantum_backtracking/backtracking_tree.py`): a one-hot height register and an array
of branch labels that holds the path from the root, reversed.

Modelled on basis states.  The rotation part `psi_prep` of the diffuser is not modelled; the phase
part in the middle is.  Labels are natural numbers (the encoder of the branch variable is the
identity), and `subspace_optimization` is off.
-/
namespace Verif.Tree

/-- The attributes of a tree that matter here (`__init__`, lines 585–600; `Subtree.__init__`,
lines 1699–1717): the length of `branch_qa`, `max_depth`, and `root_path` (empty for a
`QuantumBacktrackingTree`). -/
structure Tree where
  width : Nat
  depth : Nat
  root : List Nat

/-- A basis state: the height register and the branch array. -/
@[ext] structure St where
  h : List Bool
  b : List Nat
deriving DecidableEq, Repr

/-- `QuantumBacktrackingTree(max_depth, …)`, lines 585–600. -/
def mkTree (n : Nat) : Tree := ⟨n, n, []⟩

/-- `Subtree(parent_tree, root_path)`, lines 1699–1717: the arrays are made for the parent's
`max_depth`, which is then reduced; `none` is the exception for a path that is too long. -/
def subtreeOf (t : Tree) (r : List Nat) : Option Tree :=
  if t.depth < r.length then none else some ⟨t.depth, t.depth - r.length, r⟩

/-- `copy`, lines 1004–1014: `Subtree(self, [])`. -/
def copy (t : Tree) : Option Tree := subtreeOf t []

/-- One-hot encoding of `k` in `w + 1` qubits (`OHQInt`, lines 1491–1508). -/
def oneHot (w k : Nat) : List Bool := (List.range (w + 1)).map (· == k)

/-- `init_node`, lines 917–950 and 1719–1726: set the height, write the reversed path to the end of
the branch array.  `none`: the height is negative, so the encoder of `OHQInt` finds no label. -/
def initNode (t : Tree) (p : List Nat) : Option St :=
  if t.depth < p.length then none
  else
    let q := t.root ++ p
    some ⟨oneHot t.width (t.depth - p.length), List.replicate (t.width - q.length) 0 ++ q.reverse⟩

/-- `OHQInt.decoder`, lines 1492–1508: the position of the single 1, or -3. -/
def ohDecode (h : List Bool) : Int :=
  match (List.range h.length).filter (fun i => h.getD i false) with
  | [i] => (i : Int)
  | _ => -3

/-- `path_decoder`, lines 1123–1124: the first `max_depth - h` entries of the reversed array; a
negative bound counts from the end, as Python slices do. -/
def pathDecoder (t : Tree) (h : Int) (b : List Nat) : List Nat :=
  let l : Int := (t.depth : Int) - h
  if 0 ≤ l then b.reverse.take l.toNat else b.reverse.take (b.length - (-l).toNat)

/-- `h.reg.insert(0, h.reg.pop(-1))`, line 736. -/
def rot (h : List Bool) : List Bool := h.getLastD false :: h.dropLast

/-- One step of the loop that swaps the branch label into the temporary container, lines 727–732
(`even` as a parity bit). -/
def swapStep (even : Bool) (h : List Bool) (c : Nat × List Nat) (i : Nat) : Nat × List Nat :=
  if (i % 2 == 1) == even && h.getD i false then (c.2.getD i 0, c.2.set i c.1) else c

/-- The lifting operation of `qstep_diffuser`, lines 725–736: what `reject` is evaluated on. -/
def lift (t : Tree) (even : Bool) (s : St) : St :=
  ⟨rot s.h, ((List.range t.depth).foldl (swapStep even s.h) (0, s.b)).2⟩

/-- The qubit `oddity_qbl`, lines 681–687 (`min_height_assumption = 0`). -/
def oddity (t : Tree) (even : Bool) (h : List Bool) : Bool :=
  ((List.range (t.depth + 1)).filter fun i => (i % 2 == 1) != even).foldl
    (fun a i => xor a (h.getD i false)) false

/-- The sign (`true`: multiplied by -1) that the two `mcz` gates of `qstep_diffuser` give to a basis
state, lines 689–757. -/
def sign (t : Tree) (even : Bool) (accept reject : St → Bool) (s : St) : Bool :=
  let o := oddity t even s.h
  let f1 := o && !accept s
  let o' := if (t.depth % 2 == 1) == even then xor o (s.h.getD t.depth false) else o
  let f2 := reject (lift t even s) && !o'
  xor f1 f2

/-- `branch_qa[-j - 1].encode(v, permit_dirtyness=True)`: X gates on the set bits of `v`. -/
def encRev (b : List Nat) (j v : Nat) : List Nat :=
  b.set (b.length - 1 - j) (b.getD (b.length - 1 - j) 0 ^^^ v)

/-- The part of `init_phi` controlled on `h == max_depth - i`, lines 912–915. -/
def phiBlock (p : List Nat) (i : Nat) (b : List Nat) : List Nat :=
  (List.range i).foldl (fun b j => encRev b j (p.getD j 0)) b

/-- One term of a prepared state: sign, square of the amplitude before normalisation, basis state. -/
structure Term where
  neg : Bool
  sq : Nat
  s : St
deriving DecidableEq

/-- `QuantumBacktrackingTree.init_phi`, lines 904–915: the terms of the height state, each with the
blocks whose control it satisfies. -/
def phi (t : Tree) (p : List Nat) : List Term :=
  (List.range (p.length + 1)).map fun k =>
    ⟨k % 2 == 1, if k = 0 then t.depth else 1,
     ⟨oneHot t.width (t.depth - k),
      (List.range p.length).foldl (fun b i => if (oneHot t.width (t.depth - k)).getD (t.depth - (i + 1)) false
        then phiBlock p (i + 1) b else b) (List.replicate t.width 0)⟩⟩

/-- What `check_if_fresh` (`misc/utility.py` lines 1280–1293) sees of a qubit. -/
inductive Touch | alloc | gate
deriving DecidableEq

/-- `check_if_fresh` for one qubit: walk back through the session data; the allocation has to come
before any gate, and it has to be there. -/
def checkFresh : List Touch → Bool
  | .alloc :: _ => true
  | .gate :: _ => false
  | [] => false

/-- `Subtree.init_phi` for the term of height `max_depth - k`, lines 1728–1750.  `check` is the
freshness check made by `rev_branch_qa[k][:] = …`; inside the `with` block the session data starts
empty (`start_dumping` and `merge_sessions` move what was there to `original_data`), so the check
is made on `[]`. `none` is its exception.  With `check = false` the check is skipped. -/
def phiSub (check : Bool) (t : Tree) (p : List Nat) (k : Nat) : Option St :=
  if check && !t.root.isEmpty && !checkFresh [] then none
  else
    let b0 := List.replicate t.width 0
    let b1 := if k = 0 then
        (List.range t.root.length).foldl (fun b j => encRev b j (t.root.getD j 0)) b0
      else
        (List.range t.root.length).foldl (fun b j => encRev b (j + k) (t.root.getD j 0)) (phiBlock p k b0)
    some ⟨oneHot t.width (t.depth - k), b1⟩

/-- A tree made by the constructors: the array has room for the root path and the depth. -/
def Tree.WF (t : Tree) : Prop := t.width = t.depth + t.root.length

theorem oneHot_get (w k i : Nat) (h : i ≤ w) : (oneHot w k).getD i false = (i == k) := by
  rw [oneHot, List.getD_eq_getElem?_getD, List.getElem?_map, List.getElem?_range (by omega)]
  rfl

theorem ohDecode_oneHot (w k : Nat) (h : k ≤ w) : ohDecode (oneHot w k) = k := by
  have hl : (oneHot w k).length = w + 1 := by simp [oneHot]
  have : (List.range (oneHot w k).length).filter (fun i => (oneHot w k).getD i false) = [k] := by
    rw [hl]
    have e : (List.range (w + 1)).filter (fun i => (oneHot w k).getD i false) =
        (List.range (w + 1)).filter (fun i => i == k) := by
      apply List.filter_congr
      intro i hi
      exact oneHot_get w k i (by have := List.mem_range.1 hi; omega)
    rw [e, List.filter_beq, List.count_eq_one_of_mem List.nodup_range (by rw [List.mem_range]; omega)]
    rfl
  rw [ohDecode, this]

theorem rot_oneHot (w k : Nat) (h : k < w) : rot (oneHot w k) = oneHot w (k + 1) := by
  have h1 : oneHot w k = (List.range w).map (· == k) ++ [false] := by
    rw [oneHot, List.range_succ, List.map_append]
    have : (w == k) = false := by simp; omega
    simp [this]
  have h2 : oneHot w (k + 1) = false :: (List.range w).map (· == k) := by
    rw [oneHot, List.range_succ_eq_map, List.map_cons, List.map_map]
    congr 1
    apply List.map_congr_left
    intro i _
    simp
  rw [h2, h1, rot]
  simp

theorem foldl_id {α β : Type} (f : β → α → β) : ∀ (l : List α) (b : β), (∀ i ∈ l, ∀ b, f b i = b) → l.foldl f b = b
  | [], _, _ => rfl
  | a :: l, b, h => by
    rw [List.foldl_cons, h a (List.mem_cons_self), foldl_id f l b (fun i hi => h i (List.mem_cons_of_mem _ hi))]

/-- A loop in which only the step `k` does anything. -/
theorem foldl_one {β : Type} (f : β → Nat → β) (n k : Nat) (b : β) (hk : k < n) (h : ∀ i, i < n → i ≠ k → ∀ b, f b i = b) :
    (List.range n).foldl f b = f b k := by
  obtain ⟨l1, l2, e⟩ := List.append_of_mem (List.mem_range.2 hk)
  have hn : (l1 ++ k :: l2).Nodup := e ▸ List.nodup_range
  have hm : ∀ i ∈ l1 ++ k :: l2, i < n := by
    intro i hi
    rw [← e] at hi
    exact List.mem_range.1 hi
  rw [List.nodup_append] at hn
  rw [e, List.foldl_append, List.foldl_cons, foldl_id f l1, foldl_id f l2]
  · intro i hi
    exact h i (hm i (by simp [hi])) (fun e => by subst e; exact (List.nodup_cons.1 hn.2.1).1 hi)
  · intro i hi
    exact h i (hm i (by simp [hi])) (fun e => by subst e; exact hn.2.2 i hi i (List.mem_cons_self) rfl)

theorem foldl_xor_mem (k : Nat) : ∀ (l : List Nat) (a : Bool), l.Nodup →
    l.foldl (fun a i => xor a (i == k)) a = xor a (decide (k ∈ l))
  | [], a, _ => by simp
  | i :: l, a, h => by
    rw [List.foldl_cons, foldl_xor_mem k l _ (List.nodup_cons.1 h).2]
    by_cases hk : k = i
    · subst hk
      have := (List.nodup_cons.1 h).1
      simp [this]
    · have : (i == k) = false := by simp; omega
      simp [this, hk]

theorem foldl_congr_mem {α β : Type} (f g : β → α → β) : ∀ (l : List α) (b : β), (∀ i ∈ l, ∀ b, f b i = g b i) →
    l.foldl f b = l.foldl g b
  | [], _, _ => rfl
  | a :: l, b, h => by
    rw [List.foldl_cons, List.foldl_cons, h a (List.mem_cons_self),
      foldl_congr_mem f g l _ (fun i hi => h i (List.mem_cons_of_mem _ hi))]

theorem oddity_oneHot (t : Tree) (even : Bool) (w k : Nat) (hd : t.depth ≤ w) (hk : k ≤ t.depth) :
    oddity t even (oneHot w k) = ((k % 2 == 1) != even) := by
  rw [oddity, foldl_congr_mem _ (fun a i => xor a (i == k))]
  · rw [foldl_xor_mem _ _ _ (List.nodup_range.filter _)]
    have : k ∈ (List.range (t.depth + 1)).filter (fun i => (i % 2 == 1) != even) ↔ ((k % 2 == 1) != even) = true := by
      rw [List.mem_filter, List.mem_range]
      exact ⟨fun h => h.2, fun h => ⟨by omega, h⟩⟩
    have a : decide (k ∈ (List.range (t.depth + 1)).filter (fun i => (i % 2 == 1) != even)) =
        ((k % 2 == 1) != even) := by
      rw [Bool.eq_iff_iff, decide_eq_true_eq]
      exact this
    rw [a, Bool.false_xor]
  · intro i hi b
    rw [List.mem_filter, List.mem_range] at hi
    rw [oneHot_get _ _ _ (by omega)]

/-- The lift of a child is its parent. -/
theorem lift_child (t : Tree) (ht : t.WF) (even : Bool) (p : List Nat) (c : Nat) (s : St)
    (hp : initNode t (p ++ [c]) = some s) (hpar : ((t.depth - (p.length + 1)) % 2 == 1) = even) :
    initNode t p = some (lift t even s) := by
  unfold Tree.WF at ht
  rw [initNode] at hp ⊢
  rw [List.length_append, List.length_singleton] at hp
  split at hp
  · simp at hp
  rename_i hlen
  rw [if_neg (by omega)]
  simp only [Option.some.injEq] at hp
  subst hp
  show some _ = some _
  congr 1
  set k := t.depth - (p.length + 1) with hk
  rw [lift, rot_oneHot _ _ (by omega), foldl_one _ _ k]
  · rw [swapStep, oneHot_get _ _ _ (by omega), hpar]
    have e1 : t.width - (t.root ++ (p ++ [c])).length = k := by simp; omega
    have e2 : t.width - (t.root ++ p).length = k + 1 := by simp; omega
    have e3 : (t.root ++ (p ++ [c])).reverse = c :: (t.root ++ p).reverse := by simp
    rw [e1, e2, e3]
    ext1
    · simp only
      congr 1
      omega
    · simp only [beq_self_eq_true, Bool.and_self, if_true]
      rw [List.set_append_right _ _ (by simp), List.length_replicate, Nat.sub_self, List.set_cons_zero,
        List.replicate_succ', List.append_assoc, List.singleton_append]
  · omega
  · intro i hi hne b
    rw [swapStep, oneHot_get _ _ _ (by omega)]
    have : (i == k) = false := by simpa using hne
    simp [this]

theorem encRev_next (n i v : Nat) (r : List Nat) (h : i < n) (hr : r.length = i) :
    encRev (List.replicate (n - i) 0 ++ r.reverse) i v = List.replicate (n - (i + 1)) 0 ++ (r ++ [v]).reverse := by
  have e1 : (List.replicate (n - i) 0 ++ r.reverse).length - 1 - i = n - (i + 1) := by simp; omega
  have e2 : List.replicate (n - i) (0 : Nat) = List.replicate (n - (i + 1)) 0 ++ [0] := by
    rw [← List.replicate_succ']; congr 1; omega
  rw [encRev, e1, e2, List.append_assoc, List.set_append_right _ _ (by simp), List.length_replicate, Nat.sub_self]
  simp [List.getD_eq_getElem?_getD]

theorem phiBlock_eq (n : Nat) (p : List Nat) (i : Nat) (hi : i ≤ p.length) (hn : i ≤ n) :
    phiBlock p i (List.replicate n 0) = List.replicate (n - i) 0 ++ (p.take i).reverse := by
  induction i with
  | zero => simp [phiBlock]
  | succ i ih =>
    have := ih (by omega) (by omega)
    rw [phiBlock] at this ⊢
    rw [List.range_succ, List.foldl_append, this]
    simp only [List.foldl_cons, List.foldl_nil]
    rw [encRev_next n i _ _ (by omega) (by simp; omega), List.take_add_one]
    congr 3
    rw [List.getD_eq_getElem?_getD, List.getElem?_eq_getElem (by omega)]
    rfl

end Verif.Tree
