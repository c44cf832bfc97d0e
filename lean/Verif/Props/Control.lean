import Verif.Ctl.Switch

/-!
Properties of the quantum program control: quantum switch (C89).
-/

namespace Verif.Props

open Verif.Ctl Verif.Rev Verif.Fourier Verif.Iter

variable {V : Type}

/-! ### C89: quantum switch -/

/-- Specification: with the control set (if there is one), the operands go through the branch selected by the index; an index
without branch, or a control that is not set, leaves them alone. -/
def switchSpec (on : Prop) [Decidable on] (F : ℕ → V → V) (idx m : ℕ) (v : V) : V :=
  if on ∧ idx < m then F idx v else v

theorem eff_spec (c : Bool) (s : St SQ) (F : ℕ → V → V) (idx m : ℕ) (v : V) :
    eff (con c s) F idx m v = switchSpec (c = true → s .ctrl = true) F idx m v := by
  unfold eff switchSpec con
  cases c <;> cases s .ctrl <;> simp

/-- Method "tree", function mode: for every number of index qubits and every number of branches that fits, controlled or not. -/
theorem C89_tree {F : ℕ → V → V} {c : Bool} {n m : ℕ} (hn : 0 < n) (h1 : 1 ≤ m) (hm : m ≤ 2 ^ n) {s : St SQ} {v : V}
    (hz : ∀ d, d < n → s (.anc d) = false) :
    runSw (fun i => some (F i)) (tree c n m) (s, v) =
      some (s, switchSpec (c = true → s .ctrl = true) F (valL ((List.range n).map .ca) s) m v) := by
  rw [tree_spec (F := F) (fun i _ => rfl) hn h1 hm hz, eff_spec]
  rfl

/-- Method "sequential". -/
theorem C89_sequential {F : ℕ → V → V} {c : Bool} {n m : ℕ} (hm : m ≤ 2 ^ n) {s : St SQ} {v : V} (hz : s .cb = false) :
    runSw (fun i => some (F i)) (sequential c n m) (s, v) =
      some (s, switchSpec (c = true → s .ctrl = true) F (valL ((List.range n).map .ca) s) m v) := by
  rw [sequential_spec (F := F) (fun i _ => rfl) hm hz, eff_spec]
  rfl

/-- Method "parallel": the operand (at the place `inp`) goes through the selected branch, the arrays are returned as they were. -/
theorem C89_parallel {F : ℕ → V → V} {C : Bool} {idx : List Bool} {inp : ℕ} {qa en : List ℕ} {m : ℕ} {w : ℕ → V} {e : ℕ → Bool}
    (hqa : qa.Nodup) (hen : en.Nodup) (hlqa : qa.length = 2 ^ idx.length) (hlen : en.length = 2 ^ idx.length) (hin : inp ∉ qa)
    (hm : m ≤ 2 ^ idx.length) (he : ∀ x ∈ en, e x = false) :
    parallelSw F C idx inp qa en m w e =
      some (Function.update w inp (switchSpec (C = true) F (bitsVal idx) m (w inp)), e) := by
  rw [parallel_spec hqa hen hlqa hlen hin hm he]
  unfold eff switchSpec
  cases C <;> simp

/-- The list mode with any number of operands, method "tree". -/
theorem C89_list {c : Bool} {n k : ℕ} (fs : List (V → V)) (hn : 0 < n) (h1 : fs ≠ []) (hm : fs.length ≤ 2 ^ n) {s : St SQ} {v : V}
    (hz : ∀ d, d < n → s (.anc d) = false) :
    (listTree c n k (fs.map .user) (s, v)).1 =
      some (s, switchSpec (c = true → s .ctrl = true) (fun i => fs.getD i id) (valL ((List.range n).map .ca) s) fs.length v) := by
  unfold listTree
  simp only
  rw [if_neg (by omega), List.length_map, tree_spec (F := fun i => fs.getD i id) _ hn (List.length_pos_iff.2 h1) hm hz, eff_spec]
  · rfl
  · intro i hi
    have : (pad (fs.map Br.user))[i]? = some (.user fs[i]) := by
      unfold pad
      split_ifs
      · rw [List.getElem?_append_left (by simpa using hi)]; simp [hi]
      · simp [hi]
    rw [this, List.getD_eq_getElem _ _ hi]
    rfl

/-- Inverting the switch inverts every branch (`inv=True`): the operands are as before. -/
theorem C89_inverse {F G : ℕ → V → V} {c : Bool} {n m : ℕ} (hn : 0 < n) (h1 : 1 ≤ m) (hm : m ≤ 2 ^ n) {s : St SQ} {v : V}
    (hz : ∀ d, d < n → s (.anc d) = false) (hG : ∀ i, i < m → ∀ v, G i (F i v) = v) :
    (runSw (fun i => some (F i)) (tree c n m) (s, v)).bind (runSw (fun i => some (G i)) (tree c n m)) = some (s, v) := by
  rw [C89_tree hn h1 hm hz, Option.bind_some, C89_tree hn h1 hm hz]
  unfold switchSpec
  split_ifs with h
  · rw [hG _ h.2]
  · rfl

theorem runSw_none {U : ℕ → Option (V → V)} {cs : List SQ} {i : ℕ} (hU : U i = none) : ∀ (os : List SwOp), SwOp.branch cs i ∈ os →
    ∀ p, runSw U os p = none := by
  intro os
  induction os with
  | nil => intro h; cases h
  | cons o os ih =>
    intro h p
    rcases List.mem_cons.1 h with rfl | h
    · simp [runSw, SwOp.run, hU]
    · simp only [runSw]
      cases o.run U p with
      | none => rfl
      | some q => exact ih h q

/-- Finding: with an odd number of branches the list of the caller is extended by a placeholder of one operand. The second
switch with the same list counts the placeholder as a branch and raises unless there is exactly one operand. -/
theorem C89_second_call_raises {c : Bool} {n k : ℕ} (bs : List (Br V)) (hodd : bs.length % 2 = 1) (hk : k ≠ 1) (p p' : St SQ × V) :
    (listTree c n k (listTree c n k bs p).2 p').1 = none := by
  have hpad : (listTree c n k bs p).2 = bs ++ [.ident] := by
    simp [listTree, pad, hodd]
  rw [hpad]
  unfold listTree
  simp only
  by_cases hn : n = 0
  · rw [if_pos hn]
  · rw [if_neg hn]
    have hp2 : pad (bs ++ [Br.ident]) = bs ++ [.ident] := by
      unfold pad
      rw [if_neg]
      rw [List.length_append]
      simp
      omega
    rw [hp2, List.length_append]
    refine runSw_none (cs := [.anc (n - 1)]) (i := bs.length) ?_ _ ?_ p'
    · simp [Br.call, hk]
    · unfold tree
      simp only [List.length_singleton]
      rw [if_pos (by omega)]
      refine List.mem_append_left _ (List.mem_append_right _ ?_)
      unfold leaf
      have : bs.length + 1 - 2 + 1 = bs.length := by omega
      rw [this]
      exact List.mem_append_right _ (List.mem_singleton.2 rfl)

/-- Three branches on two index qubits: index 2 selects the third. -/
example : (runSw (fun i => some (fun v : ℕ => 10 * v + i)) (tree true 2 3)
    ((fun q => decide (q = .ctrl ∨ q = .ca 1)), 7)).map (·.2) = some 72 := by decide +kernel

/-- The same with the control off. -/
example : (runSw (fun i => some (fun v : ℕ => 10 * v + i)) (tree true 2 3)
    ((fun q => decide (q = .ca 1)), 7)).map (·.2) = some 7 := by decide +kernel

/-- Sequential and parallel. -/
example : (runSw (fun i => some (fun v : ℕ => 10 * v + i)) (sequential false 2 3)
    ((fun q => decide (q = .ca 1)), 7)).map (·.2) = some 72 := by decide +kernel
example : (parallelSw (fun i (v : ℕ) => 10 * v + i) true [false, true] 0 [1, 2, 3, 4] [0, 1, 2, 3] 3
    (fun i => if i = 0 then 7 else 0) (fun _ => false)).map (fun p => p.1 0) = some 72 := by decide +kernel

end Verif.Props
