import Verif.Qiro.Sat

/-!
# Properties of QIRO (C155–C157)
-/

namespace Verif.Props

open Verif.Qiro

/-! ## Specification -/

/-- A set of nodes without an edge inside. -/
def IndependentIn (edges : List (ℕ × ℕ)) (S : ℕ → Prop) : Prop := ∀ e ∈ edges, ¬(S e.1 ∧ S e.2)

/-- A set of nodes in which every two are joined. -/
def CliqueIn (edges : List (ℕ × ℕ)) (S : ℕ → Prop) : Prop := ∀ a b, S a → S b → a ≠ b → (a, b) ∈ edges ∨ (b, a) ∈ edges

/-- `networkx` graphs without loops. -/
def GoodGraph (nodes : List ℕ) (edges : List (ℕ × ℕ)) : Prop := ∀ e ∈ edges, e.1 ∈ nodes ∧ e.2 ∈ nodes ∧ e.1 ≠ e.2

/-- The expectation of a product of signs: minus one for a measured 1. -/
def expect (res : List (List Bool × ℚ)) (ns : List ℕ) : ℚ :=
  (res.map fun e => e.2 * (ns.map fun i => if e.1.getD i false then (-1 : ℚ) else 1).prod).sum

/-- The nodes that an item talks about. -/
def itemNodes : Item → List ℕ
  | .node v => [v]
  | .pair i j => [i, j]

/-- The items that may be chosen. -/
def Candidate (single : List ℕ) (double : List (ℕ × ℕ)) (sol : List ℕ) : Item → Prop
  | .node v => v ∈ single ∧ v ∉ sol
  | .pair i j => (i, j) ∈ double ∧ i ≠ j

/-- A set of nodes agrees with a correlation: a negative node is inside, a positive one outside; for a negative pair exactly one is inside, for a positive one
both or none. -/
def SetAgrees (S : ℕ → Prop) : Item → ℚ → Prop
  | .node v, s => (s < 0 → S v) ∧ (0 < s → ¬S v)
  | .pair i j, s => (s < 0 → (S i ↔ ¬S j)) ∧ (0 < s → (S i ↔ S j))

/-! ## The strongest correlation -/

theorem expect_one (res : List (List Bool × ℚ)) (i : ℕ) : expect res [i] = corr1 res i := by
  simp [expect, corr1, pm1]

theorem expect_two (res : List (List Bool × ℚ)) (i j : ℕ) : expect res [i, j] = corr2 res i j := by
  simp [expect, corr2, pm1, mul_assoc]

/-- **C155.**  `find_max` returns an allowed item with its expectation, no allowed item has a larger one (in absolute value); nothing is returned only if all
expectations are zero. -/
theorem qiro_find_max (single : List ℕ) (double : List (ℕ × ℕ)) (res : List (List Bool × ℚ)) (sol : List ℕ) :
    (∀ it s, findMax single double res sol = some (it, s) →
      Candidate single double sol it ∧ s = expect res (itemNodes it) ∧ s ≠ 0 ∧
        ∀ it', Candidate single double sol it' → |expect res (itemNodes it')| ≤ |s|) ∧
    (findMax single double res sol = none ↔ ∀ it, Candidate single double sol it → expect res (itemNodes it) = 0) := by
  obtain ⟨h1, h2, h3⟩ := findMax_spec single double res sol
  have hle : ∀ it', Candidate single double sol it' → |expect res (itemNodes it')| ≤ |(findMax single double res sol).val| := by
    intro it' hc
    cases it' with
    | node v => rw [itemNodes, expect_one]; exact h3 v hc.1 hc.2
    | pair i j => rw [itemNodes, expect_two]; exact h2 (i, j) hc.1 hc.2
  have hsome : ∀ it s, findMax single double res sol = some (it, s) →
      Candidate single double sol it ∧ s = expect res (itemNodes it) ∧ s ≠ 0 := by
    intro it s hf
    obtain ⟨hp, h0⟩ := h1 it s hf
    cases it with
    | node v => exact ⟨⟨hp.1, hp.2.1⟩, by rw [itemNodes, expect_one]; exact hp.2.2, h0⟩
    | pair i j => exact ⟨⟨hp.1, hp.2.1⟩, by rw [itemNodes, expect_two]; exact hp.2.2, h0⟩
  refine ⟨fun it s hf => ?_, ?_⟩
  · obtain ⟨a, b, c⟩ := hsome it s hf
    refine ⟨a, b, c, fun it' hc => ?_⟩
    have := hle it' hc
    rw [hf] at this
    exact this
  · constructor
    · intro hf it hc
      have := hle it hc
      rw [hf] at this
      exact abs_eq_zero.mp (le_antisymm (by simpa [Best.val] using this) (abs_nonneg _))
    · intro hall
      cases hf : findMax single double res sol with
      | none => rfl
      | some r =>
        obtain ⟨a, b, c⟩ := hsome r.1 r.2 hf
        exact absurd (b.trans (hall _ a)) c

example : findMax [0, 1, 2] [(0, 1), (0, 2)] [([true, false, false], 1/2), ([true, true, false], 1/4), ([false, true, false], 1/4)] [] =
    some (.node 2, 1) := by decide +kernel

/-! ## Independent sets -/

/-- **C155.**  After any rounds with any measurement results: the solutions are distinct nodes of the remaining graph, the nodes are either remaining or
excluded, and an independent set of the remaining graph together with the solutions is independent in the original graph. -/
theorem qiro_mis_feasible (nodes : List ℕ) (edges : List (ℕ × ℕ)) (hg : GoodGraph nodes edges) (rs : List (List (List Bool × ℚ))) :
    let p := rounds misStep (Prob.init nodes edges) rs
    p.sol.Nodup ∧ (∀ s ∈ p.sol, s ∈ p.nodes) ∧ (∀ v, v ∈ nodes ↔ (v ∈ p.nodes ∨ v ∈ p.exc)) ∧ (∀ v ∈ p.nodes, v ∉ p.exc) ∧
      IndependentIn edges (· ∈ p.sol) ∧
      ∀ S : ℕ → Prop, (∀ v, S v → v ∈ p.nodes) → IndependentIn p.edges S → IndependentIn edges (fun v => S v ∨ v ∈ p.sol) := by
  intro p
  have h : MisInv nodes edges p := (MisInv.init hg).rounds hg rs
  have key : ∀ S : ℕ → Prop, (∀ v, S v → v ∈ p.nodes) → IndependentIn p.edges S → IndependentIn edges (fun v => S v ∨ v ∈ p.sol) := by
    intro S hS hi e he hh
    have m1 : e.1 ∈ p.nodes := hh.1.elim (hS _) (h.sub _)
    have m2 : e.2 ∈ p.nodes := hh.2.elim (hS _) (h.sub _)
    have he' : (e.1, e.2) ∈ p.edges := (h.edges e).mpr ⟨he, m1, m2⟩
    rcases hh.1 with s1 | s1
    · rcases hh.2 with s2 | s2
      · exact hi e he' ⟨s1, s2⟩
      · exact h.alone _ s2 e.1 (mem_nbrs.mpr (Or.inr he'))
    · exact h.alone _ s1 e.2 (mem_nbrs.mpr (Or.inl he'))
  refine ⟨h.nodup, h.sub, h.nodes, h.disj, ?_, key⟩
  intro e he hh
  exact key (fun _ => False) (fun _ h => h.elim) (fun _ _ h => h.1) e he ⟨Or.inr hh.1, Or.inr hh.2⟩

/-- The sets with the numbers in `S` have no element in common. -/
def Packing (sets : List (List ℕ)) (S : ℕ → Prop) : Prop :=
  ∀ i j, S i → S j → i ≠ j → ∀ x, ¬(x ∈ sets.getD i [] ∧ x ∈ sets.getD j [])

/-- **C155.**  Set packing: the constraint graph is a graph, its independent sets are the packings, and the solutions of any rounds are a packing. -/
theorem qiro_pack (sets : List (List ℕ)) (rs : List (List (List Bool × ℚ))) :
    GoodGraph (List.range sets.length) (packEdges sets) ∧
    (∀ S : ℕ → Prop, (∀ v, S v → v < sets.length) → (IndependentIn (packEdges sets) S ↔ Packing sets S)) ∧
    Packing sets (· ∈ (rounds misStep (Prob.init (List.range sets.length) (packEdges sets)) rs).sol) := by
  have hg : GoodGraph (List.range sets.length) (packEdges sets) := fun e he => by
    obtain ⟨⟨h1, h2, h3⟩, -⟩ := mem_packEdges (a := e.1) (b := e.2) |>.mp he
    exact ⟨List.mem_range.mpr h1, List.mem_range.mpr h2, ne_of_lt h3⟩
  have hp : ∀ S : ℕ → Prop, (∀ v, S v → v < sets.length) → (IndependentIn (packEdges sets) S ↔ Packing sets S) := by
    intro S hS
    constructor
    · intro hi i j si sj hne x hx
      rcases lt_or_gt_of_ne hne with h | h
      · exact hi (i, j) (mem_packEdges.mpr ⟨⟨hS i si, hS j sj, h⟩, x, hx⟩) ⟨si, sj⟩
      · exact hi (j, i) (mem_packEdges.mpr ⟨⟨hS j sj, hS i si, h⟩, x, hx.symm⟩) ⟨sj, si⟩
    · intro hpk e he hh
      obtain ⟨⟨-, -, h3⟩, x, hx⟩ := mem_packEdges (a := e.1) (b := e.2) |>.mp he
      exact hpk e.1 e.2 hh.1 hh.2 (ne_of_lt h3) x hx
  obtain ⟨-, h2, h3, -, h5, -⟩ := qiro_mis_feasible (List.range sets.length) (packEdges sets) hg rs
  exact ⟨hg, hp, (hp _ (fun v hv => List.mem_range.mp ((h3 v).mpr (Or.inl (h2 v hv))))).mp h5⟩

example : packEdges [[1, 2], [2, 3], [4], [3, 4]] = [(0, 1), (1, 3), (2, 3)] := by decide +kernel

/-- The path 0–1–2–3. -/
def path4 : Prob := Prob.init [0, 1, 2, 3] [(0, 1), (1, 2), (2, 3)]

example : rounds misStep path4 [[([true, false, true, false], 1/4), ([false, false, false, true], 1/4), ([false, true, false, true], 1/2)],
    [([true, false, false, true], 1)]] = ⟨[0, 2], [], [0], [1, 3]⟩ := by decide +kernel

/-- **C155.**  The controlled mixer: from the initial state (the solutions) only independent sets of the original graph are reached, and the neighbours of
every qubit on which it acts are known. -/
theorem qiro_mis_mixer (n : ℕ) (edges : List (ℕ × ℕ)) (hg : GoodGraph (List.range n) edges) (rs : List (List (List Bool × ℚ))) (b : ℕ → Bool)
    (hb : MisReach (rounds misStep (Prob.init (List.range n) edges) rs) n b) :
    IndependentIn edges (fun v => b v = true) ∧
      ∀ i, i < n → i ∉ (rounds misStep (Prob.init (List.range n) edges) rs).sol ++ (rounds misStep (Prob.init (List.range n) edges) rs).exc →
        misPredicate (rounds misStep (Prob.init (List.range n) edges) rs) b i ≠ none := by
  obtain ⟨-, -, -, -, -, key⟩ := qiro_mis_feasible (List.range n) edges hg rs
  have h : MisInv (List.range n) edges (rounds misStep (Prob.init (List.range n) edges) rs) := (MisInv.init hg).rounds hg rs
  generalize rounds misStep (Prob.init (List.range n) edges) rs = p at *
  have hin : ∀ i, i < n → i ∉ p.sol ++ p.exc → i ∈ p.nodes := fun i hi hu =>
    ((h.nodes i).mp (List.mem_range.mpr hi)).resolve_right (fun hh => hu (List.mem_append_right _ hh))
  refine ⟨?_, fun i hi hu => by unfold misPredicate; rw [if_pos (hin i hi hu)]; simp⟩
  have inv : (∀ v, b v = true → v ∈ p.nodes) ∧ IndependentIn p.edges (fun v => b v = true) := by
    induction hb with
    | init =>
      refine ⟨fun v hv => h.sub v (by simpa [misInit] using hv), fun e he hh => ?_⟩
      exact h.alone e.1 (by simpa [misInit] using hh.1) e.2 (mem_nbrs.mpr (Or.inl he))
    | @step b c _ hm ih =>
      obtain ⟨ih1, ih2⟩ := ih
      cases hm with
      | stay => exact ⟨ih1, ih2⟩
      | flip i hi hu hp =>
        refine ⟨fun v hv => ?_, fun e he hh => ?_⟩
        · by_cases e : v = i
          · rw [e]; exact hin i hi hu
          · rw [Function.update_of_ne e] at hv; exact ih1 v hv
        · have hz : ∀ j ∈ nbrs p.edges i, b j = false := by
            unfold misPredicate at hp
            rw [if_pos (hin i hi hu)] at hp
            intro j hj
            have := List.all_eq_true.mp (Option.some.inj hp) j hj
            simpa using this
          have hne : e.1 ≠ e.2 := (hg e ((h.edges e).mp he).1).2.2
          obtain ⟨h1, h2⟩ := hh
          by_cases e1 : e.1 = i
          · rw [Function.update_of_ne (fun e2 => hne (e1.trans e2.symm))] at h2
            have := hz e.2 (mem_nbrs.mpr (Or.inl (by rw [← e1]; exact he)))
            rw [this] at h2; exact absurd h2 (by decide)
          · rw [Function.update_of_ne e1] at h1
            by_cases e2 : e.2 = i
            · have := hz e.1 (mem_nbrs.mpr (Or.inr (by rw [← e2]; exact he)))
              rw [this] at h1; exact absurd h1 (by decide)
            · rw [Function.update_of_ne e2] at h2
              exact ih2 e he ⟨h1, h2⟩
  exact fun e he hh => key _ inv.1 inv.2 e he ⟨Or.inl hh.1, Or.inl hh.2⟩

/-- **C155 (partial).**  A round keeps every independent set that contains the solutions and agrees with the chosen correlation: its nodes are not excluded.
Missing: a pair of negative correlation, where `qiro_mis_negative_pair_wrong` shows that it fails. -/
theorem qiro_mis_keeps_partial (nodes : List ℕ) (edges : List (ℕ × ℕ)) (hg : GoodGraph nodes edges) (rs : List (List (List Bool × ℚ)))
    (res : List (List Bool × ℚ)) (S : ℕ → Prop) :
    let p := rounds misStep (Prob.init nodes edges) rs
    (∀ v, S v → v ∈ p.nodes) → IndependentIn p.edges S →
    (∀ it s, findMax p.nodes p.edges res p.sol = some (it, s) → SetAgrees S it s) →
    (∀ i j s, findMax p.nodes p.edges res p.sol = some (.pair i j, s) → 0 < s) →
    (∀ v, S v → v ∈ (misStep res p).nodes) ∧ IndependentIn (misStep res p).edges S ∧
      ∀ v, v ∈ (misStep res p).sol → v ∈ p.sol ∨ S v := by
  intro p hS hi ha hpos
  have h : MisInv nodes edges p := (MisInv.init hg).rounds hg rs
  have hsub : ∀ e, e ∈ (misStep res p).edges → e ∈ p.edges := by
    intro e he
    have h' : MisInv nodes edges (misStep res p) := h.step hg res
    have hn : ∀ v, v ∈ (misStep res p).nodes → v ∈ p.nodes := by
      intro v
      unfold misStep
      split
      · exact id
      · split
        · exact fun hv => (mem_remove_nodes.mp hv).1
        · split
          · exact fun hv => (mem_remove_nodes.mp hv).1
          · exact id
      · split
        · exact fun hv => (mem_remove_nodes.mp hv).1
        · split
          · exact fun hv => (mem_remove_nodes.mp hv).1
          · exact id
    have := (h'.edges e).mp he
    exact (h.edges e).mpr ⟨this.1, hn _ this.2.1, hn _ this.2.2⟩
  refine ⟨?_, fun e he => hi e (hsub e he), ?_⟩
  · intro v hv
    unfold misStep
    split
    · exact hS v hv
    · rename_i w s hf
      have hag := ha _ _ hf
      split
      · rename_i hs
        refine mem_remove_nodes.mpr ⟨hS v hv, fun hh => ?_⟩
        rcases mem_nbrs.mp hh with hh | hh
        · exact hi _ hh ⟨hag.1 hs, hv⟩
        · exact hi _ hh ⟨hv, hag.1 hs⟩
      · split
        · rename_i hs
          refine mem_remove_nodes.mpr ⟨hS v hv, fun hh => hag.2 hs ?_⟩
          rw [← List.mem_singleton.mp hh]; exact hv
        · exact hS v hv
    · rename_i i j s hf
      have hag := ha _ _ hf
      have hs := hpos _ _ _ hf
      have he := (findMax_pair hf).1
      rw [if_pos hs]
      have hag2 := hag.2 hs
      refine mem_remove_nodes.mpr ⟨hS v hv, fun hh => ?_⟩
      rcases List.mem_cons.mp hh with rfl | hh
      · exact hi _ he ⟨hv, hag2.mp hv⟩
      · rw [List.mem_singleton.mp hh] at hv
        exact hi _ he ⟨hag2.mpr hv, hv⟩
  · intro v
    unfold misStep
    split
    · exact Or.inl
    · rename_i w s hf
      split
      · rename_i hs
        intro hv
        rcases List.mem_append.mp hv with hv | hv
        · exact Or.inl hv
        · rw [List.mem_singleton.mp hv]
          exact Or.inr ((ha _ _ hf).1 hs)
      · split
        · exact Or.inl
        · exact Or.inl
    · split
      · exact Or.inl
      · split
        · exact Or.inl
        · exact Or.inl

/-- The star with the centre 0. -/
def star4 : Prob := Prob.init [0, 1, 2, 3] [(0, 1), (0, 2), (0, 3)]

/-- **C155 (finding).**  Pairs of negative correlation: the neighbours of the first node are intersected with themselves.  On the star every measurement returns
the optimal set {1, 2, 3}, and yet the step excludes exactly these nodes; only one node remains. -/
theorem qiro_mis_negative_pair_wrong :
    findMax star4.nodes star4.edges [([false, true, true, true], 1)] [] = some (.pair 0 1, -1) ∧
      IndependentIn star4.edges (· ∈ [1, 2, 3]) ∧
      SetAgrees (· ∈ [1, 2, 3]) (.pair 0 1) (-1) ∧
      misStep [([false, true, true, true], 1)] star4 = ⟨[0], [], [], [1, 2, 3]⟩ := by
  refine ⟨by decide +kernel, ?_, ?_, by decide +kernel⟩
  · intro e he
    revert e
    decide +kernel
  · exact ⟨fun _ => by decide +kernel, fun h => absurd h (by decide +kernel)⟩

/-! ## Cliques -/

/-- In every round a positive pair was chosen only if the neighbours of the first node are neighbours of the second. -/
def GuardedRounds (p : Prob) : List (List (List Bool × ℚ)) → Prop
  | [] => True
  | r :: rs => PairGuard r p ∧ GuardedRounds (cliqueStep r p) rs

/-- **C156 (partial).**  After any rounds the solutions form a clique of the original graph, and every clique of the remaining graph can be added to them.
Missing: positive pairs whose first node has a neighbour that the second does not have, see `qiro_clique_positive_pair_wrong`. -/
theorem qiro_clique_feasible_partial (nodes : List ℕ) (edges : List (ℕ × ℕ)) (hg : GoodGraph nodes edges) (rs : List (List (List Bool × ℚ)))
    (hr : GuardedRounds (Prob.init nodes edges) rs) :
    let p := rounds cliqueStep (Prob.init nodes edges) rs
    (∀ s ∈ p.sol, s ∈ p.nodes) ∧ (∀ v, v ∈ nodes ↔ (v ∈ p.nodes ∨ v ∈ p.exc)) ∧ (∀ v ∈ p.nodes, v ∉ p.exc) ∧
      CliqueIn edges (· ∈ p.sol) ∧
      ∀ S : ℕ → Prop, (∀ v, S v → v ∈ p.nodes) → CliqueIn p.edges S → CliqueIn edges (fun v => S v ∨ v ∈ p.sol) := by
  intro p
  have h : CliqueInv nodes edges p := by
    have : ∀ (rs : List (List (List Bool × ℚ))) (q : Prob), CliqueInv nodes edges q → GuardedRounds q rs →
        CliqueInv nodes edges (rounds cliqueStep q rs) := by
      intro rs
      induction rs with
      | nil => exact fun q hq _ => hq
      | cons r rs ih => exact fun q hq hh => ih _ (hq.step r hh.1) hh.2
    exact this rs _ (CliqueInv.init hg) hr
  have key : ∀ S : ℕ → Prop, (∀ v, S v → v ∈ p.nodes) → CliqueIn p.edges S → CliqueIn edges (fun v => S v ∨ v ∈ p.sol) := by
    intro S hS hc a b ha hb hne
    have lift : ∀ a b, b ∈ nbrs p.edges a → (a, b) ∈ edges ∨ (b, a) ∈ edges := fun a b hh =>
      (mem_nbrs.mp hh).imp (fun x => ((h.edges _).mp x).1) (fun x => ((h.edges _).mp x).1)
    rcases ha with ha | ha
    · rcases hb with hb | hb
      · exact (hc a b ha hb hne).imp (fun x => ((h.edges _).mp x).1) (fun x => ((h.edges _).mp x).1)
      · exact (lift b a (h.all b hb a (hS a ha) hne)).symm
    · have hbn : b ∈ p.nodes := hb.elim (hS b) (h.sub b)
      exact lift a b (h.all a ha b hbn (Ne.symm hne))
  refine ⟨h.sub, h.nodes, h.disj, ?_, key⟩
  intro a b ha hb
  exact key (fun _ => False) (fun _ x => x.elim) (fun _ _ x => x.elim) a b (Or.inr ha) (Or.inr hb)

/-- A triangle 0, 1, 2 with a tail 2–3. -/
def tail4 : Prob := Prob.init [0, 1, 2, 3] [(0, 1), (0, 2), (1, 2), (2, 3)]

example : GuardedRounds tail4 [[([true, true, true, false], 1)]] ∧
    rounds cliqueStep tail4 [[([true, true, true, false], 1)]] = ⟨[0, 1, 2], [(0, 1), (0, 2), (1, 2)], [0, 1], [3]⟩ := by
  refine ⟨⟨?_, trivial⟩, by decide +kernel⟩
  intro i j s hf _ u hu
  rw [show findMax tail4.nodes tail4.edges [([true, true, true, false], 1)] tail4.sol = some (.pair 0 1, 1) by decide +kernel] at hf
  cases hf
  revert u
  decide +kernel

/-- **C156 (finding).**  The path 1–0–2: two rounds put 1 and 2, which are not joined, into the solution; 0 is in it twice. -/
theorem qiro_clique_positive_pair_wrong :
    (rounds cliqueStep (Prob.init [0, 1, 2] [(0, 1), (0, 2)])
      [[([true, true, true], 1)], [([true, false, true], 1/2), ([true, true, true], 1/2)]]).sol = [0, 1, 0, 2] ∧
    ¬CliqueIn [(0, 1), (0, 2)] (· ∈ [0, 1, 0, 2]) := by
  refine ⟨by decide +kernel, fun h => ?_⟩
  have := h 1 2 (by decide) (by decide) (by decide)
  revert this
  decide

/-- **C156 (finding).**  A pair of nodes that are both 0 in all results has a positive correlation as well and is put into the solution.  The graph is the edge
0–1 and the triangle 2, 3, 4; every measurement returns the triangle, and the step keeps the edge. -/
theorem qiro_clique_zero_pair_wrong :
    cliqueStep [([false, false, true, true, true], 1)] (Prob.init [0, 1, 2, 3, 4] [(0, 1), (2, 3), (2, 4), (3, 4)]) =
      ⟨[0, 1], [(0, 1)], [0, 1], [2, 3, 4]⟩ := by decide +kernel

/-- **C156 (finding).**  A pair in the solution is chosen again: in the triangle every result with the bits 0 and 1 set leads to the same problem, with the pair
in the solutions once more; after an even number of rounds the gates X of the initial state cancel. -/
theorem qiro_clique_repeats_wrong :
    (rounds cliqueStep (Prob.init [0, 1, 2] [(0, 1), (0, 2), (1, 2)]) [[([true, true, true], 1)], [([true, true, true], 1)]]).sol = [0, 1, 0, 1] ∧
    initState 3 [0, 1, 0, 1] [] = some [some false, some false, none] ∧
    initState 3 [0, 1] [] = some [some true, some true, none] := by decide +kernel

/-! ## Satisfiability -/

/-- The value of a literal. -/
def litVal (a : ℕ → Bool) (l : ℤ) : Bool := if 0 < l then a l.natAbs else !a l.natAbs

/-- The number of clauses with a true literal. -/
def satCount (a : ℕ → Bool) (cs : List (List ℤ)) : ℕ := (cs.filter fun c => c.any (litVal a)).length

theorem satCount_eq (a : ℕ → Bool) (cs : List (List ℤ)) : satCount a cs = numSat a cs := by
  unfold satCount numSat
  rw [List.countP_eq_length_filter]
  rfl

/-- The rounds. -/
def satRounds (p : Sat) : List (List (List Bool × ℚ)) → Sat
  | [] => p
  | r :: rs => satRounds (satStep r p) rs

/-- The assignment agrees with the correlation: variable `v + 1` belongs to qubit `v`. -/
def VarsAgree (a : ℕ → Bool) : Item → ℚ → Prop
  | .node v, s => (s < 0 → a (v + 1) = true) ∧ (0 < s → a (v + 1) = false)
  | .pair i j, s => (s < 0 → a (j + 1) = !a (i + 1)) ∧ (0 < s → a (j + 1) = a (i + 1))

/-- The assignment agrees with what was chosen in every round. -/
def AgreesAll (a : ℕ → Bool) (p : Sat) : List (List (List Bool × ℚ)) → Prop
  | [] => True
  | r :: rs => (∀ it s, findMax (satNodes p) (pairs (satNodes p)) r p.sol = some (it, s) → VarsAgree a it s) ∧ AgreesAll a (satStep r p) rs

/-- **C157.**  For the assignments that agree with the correlations of all rounds, the number of satisfied clauses of the reduced problem is that of the
original one up to a constant; so an assignment that is optimal among them for the one is optimal for the other. -/
theorem qiro_sat_count (p : Sat) (rs : List (List (List Bool × ℚ))) :
    ∃ k, ∀ a : ℕ → Bool, AgreesAll a p rs → satCount a p.clauses = satCount a (satRounds p rs).clauses + k := by
  induction rs generalizing p with
  | nil => exact ⟨0, fun a _ => rfl⟩
  | cons r rs ih =>
    obtain ⟨k, hk⟩ := ih (satStep r p)
    obtain ⟨k', hk'⟩ := satStep_sat r p
    refine ⟨k + k', fun a ha => ?_⟩
    have h1 := hk a ha.2
    have h2 := hk' a (fun it s hf => by
      have := ha.1 it s hf
      cases it <;> exact this)
    rw [satCount_eq] at h1 ⊢
    rw [satCount_eq] at h1 ⊢
    show _ = numSat a (satRounds (satStep r p) rs).clauses + _
    omega

example : (satRounds ⟨3, [[1, 2, -3], [1, 3], [-1, 2]], [], []⟩ [[([true, true, false], 1/2), ([true, false, true], 1/2)]]).clauses =
    [[1, 2, 2], [1, -2], [-1, 2]] := by decide +kernel

/-- **C157 (finding).**  A clause is removed from the list over which the loop runs, so the next clause is not looked at: variable 1 is true and excluded, and
still occurs. -/
theorem qiro_sat_skipped_wrong :
    findMax (satNodes ⟨2, [[-1], [1, 2], [2]], [], []⟩) [] [([true, false], 1/2), ([true, true], 1/2)] [] = some (.node 0, -1) ∧
    satStep [([true, false], 1/2), ([true, true], 1/2)] ⟨2, [[-1], [1, 2], [2]], [], []⟩ = ⟨2, [[1, 2], [2]], [1, 1], [1, 1]⟩ := by
  decide +kernel

/-- **C157 (finding).**  The solutions are numbered from 1, the qubits from 0, and there is one entry for each clause.  Variable 1 is true: qubit 0 is in a
superposition, qubit 1 (variable 2) is fixed to 0 or 1 as the number of clauses is even or odd, and with the last variable a qubit is used that does not exist. -/
theorem qiro_sat_init_wrong :
    satStep [([true, false], 1/2), ([true, true], 1/2)] ⟨2, [[1, 2], [1, -2]], [], []⟩ = ⟨2, [[], []], [1, 1], [1, 1]⟩ ∧
    initState 2 [1, 1] [1, 1] = some [none, some false] ∧
    satStep [([true, false], 1/2), ([true, true], 1/2)] ⟨2, [[1, 2], [1, -2], [1]], [], []⟩ = ⟨2, [[], [], []], [1, 1, 1], [1, 1, 1]⟩ ∧
    initState 2 [1, 1, 1] [1, 1, 1] = some [none, some true] ∧
    satStep [([false, true], 1/2), ([true, true], 1/2)] ⟨2, [[1, 2], [1, -2]], [], []⟩ = ⟨2, [[], [1]], [2, 2], [2, 2]⟩ ∧
    initState 2 [2, 2] [2, 2] = none := by
  decide +kernel

/-- **C157 (finding).**  `find_max` compares qubits with the solutions, which are numbered from 1: after variable 1 was found to be true, variable 2 is never
chosen, although all results agree on it. -/
theorem qiro_sat_find_wrong :
    (satStep [([true, false], 1/2), ([true, true], 1/2)] ⟨2, [[1, 2], [-1, -2]], [], []⟩) = ⟨2, [[], [-2]], [1, 1], [1, 1]⟩ ∧
    corr1 [([true, false], 1)] 1 = 1 ∧
    satStep [([true, false], 1)] ⟨2, [[], [-2]], [1, 1], [1, 1]⟩ = ⟨2, [[], [-2]], [1, 1], [1, 1]⟩ := by
  decide +kernel

/-- **C155.**  For solutions without repetition and with all numbers below the number of qubits (the independent sets), the initial state fixes exactly the
solutions to 1 and the exclusions to 0. -/
theorem qiro_init_state (n : ℕ) (sol exc : List ℕ) (hn : sol.Nodup) (hs : ∀ i ∈ sol, i < n) :
    initState n sol exc = some ((List.range n).map fun i => if i ∈ sol then some true else if i ∈ exc then some false else none) := by
  have : ∀ (l : List ℕ) (f : ℕ → Option Bool), (∀ i ∈ l, i < n) →
      l.foldlM (fun (s : List (Option Bool)) i => if i < n then some (s.modify i (Option.map not)) else none) ((List.range n).map f) =
        some ((List.range n).map fun i => if l.count i % 2 = 1 then (f i).map not else f i) := by
    intro l
    induction l with
    | nil => intro f _; simp
    | cons x l ih =>
      intro f hl
      rw [List.foldlM_cons, if_pos (hl x List.mem_cons_self)]
      have hm : ((List.range n).map f).modify x (Option.map not) = (List.range n).map fun i => if i = x then (f i).map not else f i := by
        apply List.ext_getElem
        · simp
        · intro k h1 h2
          rw [List.getElem_modify]
          simp only [List.getElem_map, List.getElem_range]
          by_cases e : x = k
          · simp [e]
          · simp [e, Ne.symm e]
      show List.foldlM _ (((List.range n).map f).modify x (Option.map not)) l = _
      rw [hm, ih _ (fun i hi => hl i (List.mem_cons_of_mem _ hi))]
      congr 1
      apply List.map_congr_left
      intro i _
      rw [List.count_cons]
      by_cases e : i = x
      · subst e
        have hnn : ∀ o : Option Bool, (o.map not).map not = o := fun o => by cases o <;> simp
        simp only [if_true, beq_self_eq_true, hnn]
        rcases Nat.mod_two_eq_zero_or_one (l.count i) with h | h
        · rw [h, if_neg (by decide), if_pos (by omega)]
        · rw [h, if_pos rfl, if_neg (by omega)]
      · simp [e, Ne.symm e]
  unfold initState
  dsimp only
  rw [this sol _ hs]
  congr 1
  apply List.map_congr_left
  intro i _
  by_cases h : i ∈ sol
  · rw [hn.count, if_pos h]
    simp [h]
  · rw [List.count_eq_zero_of_not_mem h]
    simp [h]

example : initState 4 [2, 0] [1] = some [some true, some false, some true, none] := by decide +kernel

end Verif.Props
