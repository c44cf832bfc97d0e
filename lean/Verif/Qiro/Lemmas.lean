import Verif.Qiro.Model
import Mathlib.Algebra.Order.Group.Abs
import Mathlib.Tactic.Linarith
import Mathlib.Tactic.Tauto

/-!
# Lemmas about the replacement routines
-/

namespace Verif.Qiro

/-! ### The strongest correlation -/

/-- The value of the best item so far. -/
def Best.val (b : Best) : ℚ := (b.map Prod.snd).getD 0

theorem better_le (b : Best) (it : Item) (s : ℚ) : |b.val| ≤ |(better b it s).val| ∧ |s| ≤ |(better b it s).val| := by
  unfold better
  split
  · rename_i h
    exact ⟨le_of_lt h, le_refl _⟩
  · rename_i h
    exact ⟨le_refl _, not_lt.mp h⟩

/-- What the items of the loop are. -/
def Good (P : Item → ℚ → Prop) (b : Best) : Prop := ∀ it s, b = some (it, s) → P it s ∧ s ≠ 0

theorem better_good {P : Item → ℚ → Prop} {b : Best} (hb : Good P b) {it : Item} {s : ℚ} (h : P it s) : Good P (better b it s) := by
  intro it' s' e
  unfold better at e
  split at e
  · rename_i hs
    cases e
    exact ⟨h, fun h0 => by rw [h0, abs_zero] at hs; exact absurd hs (not_lt.mpr (abs_nonneg _))⟩
  · exact hb _ _ e

/-- A loop that takes the better of two. -/
def bestLoop {α : Type} (sk : α → Bool) (it : α → Item) (f : α → ℚ) (l : List α) (b : Best) : Best :=
  l.foldl (fun b a => if sk a then b else better b (it a) (f a)) b

theorem bestLoop_spec {α : Type} (sk : α → Bool) (it : α → Item) (f : α → ℚ) (P : Item → ℚ → Prop) (l : List α) (b : Best) (hb : Good P b)
    (hl : ∀ a ∈ l, sk a = false → P (it a) (f a)) :
    Good P (bestLoop sk it f l b) ∧ |b.val| ≤ |(bestLoop sk it f l b).val| ∧
      ∀ a ∈ l, sk a = false → |f a| ≤ |(bestLoop sk it f l b).val| := by
  induction l generalizing b with
  | nil => exact ⟨hb, le_refl _, fun a h => absurd h (List.not_mem_nil)⟩
  | cons x l ih =>
    unfold bestLoop
    rw [List.foldl_cons]
    cases hx : sk x with
    | true =>
      obtain ⟨h1, h2, h3⟩ := ih b hb (fun a ha => hl a (List.mem_cons_of_mem _ ha))
      refine ⟨h1, h2, fun a ha hs => ?_⟩
      rcases List.mem_cons.mp ha with rfl | ha
      · rw [hx] at hs; exact absurd hs (by decide)
      · exact h3 a ha hs
    | false =>
      obtain ⟨h1, h2, h3⟩ := ih (better b (it x) (f x)) (better_good hb (hl x List.mem_cons_self hx)) (fun a ha => hl a (List.mem_cons_of_mem _ ha))
      refine ⟨h1, le_trans (better_le b _ _).1 h2, fun a ha hs => ?_⟩
      rcases List.mem_cons.mp ha with rfl | ha
      · exact le_trans (better_le b _ _).2 h2
      · exact h3 a ha hs

theorem findMax_eq (single : List ℕ) (double : List (ℕ × ℕ)) (res : Results) (sol : List ℕ) :
    findMax single double res sol = bestLoop (fun v => decide (v ∈ sol)) Item.node (corr1 res) single
      (bestLoop (fun p : ℕ × ℕ => decide (p.1 = p.2)) (fun p => Item.pair p.1 p.2) (fun p => corr2 res p.1 p.2) double none) := by
  unfold findMax bestLoop
  simp only [decide_eq_true_eq]

/-- What `find_max` returns. -/
def Found (single : List ℕ) (double : List (ℕ × ℕ)) (res : Results) (sol : List ℕ) : Item → ℚ → Prop
  | .node v, s => v ∈ single ∧ v ∉ sol ∧ s = corr1 res v
  | .pair i j, s => (i, j) ∈ double ∧ i ≠ j ∧ s = corr2 res i j

theorem findMax_spec (single : List ℕ) (double : List (ℕ × ℕ)) (res : Results) (sol : List ℕ) :
    Good (Found single double res sol) (findMax single double res sol) ∧
      (∀ p ∈ double, p.1 ≠ p.2 → |corr2 res p.1 p.2| ≤ |(findMax single double res sol).val|) ∧
      ∀ v ∈ single, v ∉ sol → |corr1 res v| ≤ |(findMax single double res sol).val| := by
  rw [findMax_eq]
  have h1 := bestLoop_spec (fun p : ℕ × ℕ => decide (p.1 = p.2)) (fun p => Item.pair p.1 p.2) (fun p => corr2 res p.1 p.2)
    (Found single double res sol) double none (fun _ _ e => by cases e) (fun a ha hs => ⟨ha, by simpa using hs, rfl⟩)
  have h2 := bestLoop_spec (fun v => decide (v ∈ sol)) Item.node (corr1 res) (Found single double res sol) single _ h1.1
    (fun a ha hs => ⟨ha, by simpa using hs, rfl⟩)
  exact ⟨h2.1, fun p hp hne => le_trans (h1.2.2 p hp (by simpa using hne)) h2.2.1, fun v hv hs => h2.2.2 v hv (by simpa using hs)⟩

theorem findMax_node {single : List ℕ} {double : List (ℕ × ℕ)} {res : Results} {sol : List ℕ} {v : ℕ} {s : ℚ}
    (h : findMax single double res sol = some (.node v, s)) : v ∈ single ∧ v ∉ sol :=
  let ⟨a, b, _⟩ := ((findMax_spec single double res sol).1 _ _ h).1
  ⟨a, b⟩

theorem findMax_pair {single : List ℕ} {double : List (ℕ × ℕ)} {res : Results} {sol : List ℕ} {i j : ℕ} {s : ℚ}
    (h : findMax single double res sol = some (.pair i j, s)) : (i, j) ∈ double ∧ i ≠ j :=
  let ⟨a, b, _⟩ := ((findMax_spec single double res sol).1 _ _ h).1
  ⟨a, b⟩

/-! ### Graphs -/

theorem mem_nbrs {edges : List (ℕ × ℕ)} {v u : ℕ} : u ∈ nbrs edges v ↔ (v, u) ∈ edges ∨ ((u, v) ∈ edges) := by
  unfold nbrs
  rw [List.mem_filterMap]
  constructor
  · rintro ⟨⟨a, b⟩, he, h⟩
    dsimp only at h
    split at h
    · rename_i h1; cases h; subst h1; exact Or.inl he
    · split at h
      · rename_i h2; cases h; subst h2; exact Or.inr he
      · cases h
  · rintro (h | h)
    · exact ⟨_, h, by simp⟩
    · refine ⟨_, h, ?_⟩
      by_cases e : u = v
      · subst e; simp
      · simp [e]

theorem mem_remove_nodes {p : Prob} {l : List ℕ} {v : ℕ} : v ∈ (p.remove l).nodes ↔ v ∈ p.nodes ∧ v ∉ l := by
  simp [Prob.remove]

theorem mem_remove_edges {p : Prob} {l : List ℕ} {e : ℕ × ℕ} : e ∈ (p.remove l).edges ↔ e ∈ p.edges ∧ e.1 ∉ l ∧ e.2 ∉ l := by
  simp [Prob.remove]

/-- A graph as networkx gives it: the ends of the edges are nodes, there are no loops. -/
def Simple (nodes : List ℕ) (edges : List (ℕ × ℕ)) : Prop := ∀ e ∈ edges, e.1 ∈ nodes ∧ e.2 ∈ nodes ∧ e.1 ≠ e.2

/-- The remaining graph is the part of the first one at the nodes that are not excluded. -/
structure Rest (nodes : List ℕ) (edges : List (ℕ × ℕ)) (p : Prob) : Prop where
  nodes : ∀ v, v ∈ nodes ↔ (v ∈ p.nodes ∨ v ∈ p.exc)
  disj : ∀ v ∈ p.nodes, v ∉ p.exc
  edges : ∀ e, e ∈ p.edges ↔ (e ∈ edges ∧ e.1 ∈ p.nodes ∧ e.2 ∈ p.nodes)

theorem Rest.init {nodes : List ℕ} {edges : List (ℕ × ℕ)} (h : Simple nodes edges) : Rest nodes edges (Prob.init nodes edges) :=
  ⟨fun v => by simp [Prob.init], fun v _ => by simp [Prob.init], fun e => ⟨fun he => ⟨he, (h e he).1, (h e he).2.1⟩, fun he => he.1⟩⟩

theorem Rest.remove {nodes : List ℕ} {edges : List (ℕ × ℕ)} {p : Prob} (h : Rest nodes edges p) {l : List ℕ} (hl : ∀ v ∈ l, v ∈ p.nodes) (sol : List ℕ) :
    Rest nodes edges { p.remove l with sol := sol, exc := p.exc ++ l } := by
  refine ⟨fun v => ?_, fun v hv => ?_, fun e => ?_⟩
  · rw [h.nodes]
    show _ ↔ (v ∈ (p.remove l).nodes ∨ v ∈ p.exc ++ l)
    rw [mem_remove_nodes, List.mem_append]
    by_cases hv : v ∈ l
    · simp [hv, hl v hv]
    · simp [hv]
  · have hv' := mem_remove_nodes.mp hv
    show v ∉ p.exc ++ l
    rw [List.mem_append]
    exact fun hh => hh.elim (h.disj v hv'.1) hv'.2
  · show e ∈ (p.remove l).edges ↔ e ∈ edges ∧ e.1 ∈ (p.remove l).nodes ∧ e.2 ∈ (p.remove l).nodes
    rw [mem_remove_edges, mem_remove_nodes, mem_remove_nodes, h.edges]
    tauto

theorem Rest.nbrs {nodes : List ℕ} {edges : List (ℕ × ℕ)} {p : Prob} (h : Rest nodes edges p) {v u : ℕ} (hu : u ∈ nbrs p.edges v) :
    u ∈ p.nodes ∧ v ∈ p.nodes := by
  rcases mem_nbrs.mp hu with hh | hh
  · exact ⟨((h.edges _).mp hh).2.2, ((h.edges _).mp hh).2.1⟩
  · exact ⟨((h.edges _).mp hh).2.1, ((h.edges _).mp hh).2.2⟩

theorem nbrs_symm {edges : List (ℕ × ℕ)} {v u : ℕ} : u ∈ nbrs edges v ↔ v ∈ nbrs edges u := by
  rw [mem_nbrs, mem_nbrs]
  exact Or.comm

theorem mem_remove_nbrs {p : Prob} {l : List ℕ} {v u : ℕ} : u ∈ nbrs (p.remove l).edges v ↔ u ∈ nbrs p.edges v ∧ u ∉ l ∧ v ∉ l := by
  rw [mem_nbrs, mem_nbrs, mem_remove_edges, mem_remove_edges]
  dsimp only
  tauto

/-- The invariant for independent sets. -/
structure MisInv (nodes : List ℕ) (edges : List (ℕ × ℕ)) (p : Prob) : Prop extends Rest nodes edges p where
  sub : ∀ s ∈ p.sol, s ∈ p.nodes
  nodup : p.sol.Nodup
  alone : ∀ s ∈ p.sol, ∀ u, u ∉ Qiro.nbrs p.edges s

theorem self_filter (l : List ℕ) : (l.filter fun v => decide (v ∈ l)) = l :=
  List.filter_eq_self.mpr fun v hv => by simpa using hv

theorem MisInv.step {nodes : List ℕ} {edges : List (ℕ × ℕ)} (hs : Simple nodes edges) {p : Prob} (h : MisInv nodes edges p) (res : Results) :
    MisInv nodes edges (misStep res p) := by
  unfold misStep
  split
  · exact h
  · rename_i v s hf
    obtain ⟨hv, hvs⟩ := findMax_node hf
    split
    · have hself : v ∉ Qiro.nbrs p.edges v := fun hh => by
        rcases mem_nbrs.mp hh with hh | hh <;> exact (hs _ ((h.edges _).mp hh).1).2.2 rfl
      refine ⟨h.toRest.remove (fun u hu => (h.toRest.nbrs hu).1) _, ?_, ?_, ?_⟩
      · intro u hu
        refine mem_remove_nodes.mpr ?_
        rcases List.mem_append.mp hu with hu | hu
        · exact ⟨h.sub u hu, fun hh => h.alone u hu v (nbrs_symm.mp hh)⟩
        · rw [List.mem_singleton.mp hu]
          exact ⟨hv, hself⟩
      · exact List.nodup_append.mpr ⟨h.nodup, (by simp), fun a ha b hb e => hvs (by rw [← List.mem_singleton.mp hb, ← e]; exact ha)⟩
      · intro u hu w hw
        have hw' := mem_remove_nbrs.mp hw
        rcases List.mem_append.mp hu with hu | hu
        · exact h.alone u hu w hw'.1
        · rw [List.mem_singleton.mp hu] at hw'
          exact hw'.2.1 hw'.1
    · split
      · refine ⟨h.toRest.remove (fun u hu => by rw [List.mem_singleton.mp hu]; exact hv) _, ?_, h.nodup, ?_⟩
        · exact fun u hu => mem_remove_nodes.mpr ⟨h.sub u hu, fun hh => hvs (by rw [← List.mem_singleton.mp hh]; exact hu)⟩
        · exact fun u hu w hw => h.alone u hu w (mem_remove_nbrs.mp hw).1
      · exact h
  · rename_i i j s hf
    obtain ⟨he, hij⟩ := findMax_pair hf
    have hi : j ∈ Qiro.nbrs p.edges i := mem_nbrs.mpr (Or.inl he)
    have hj : i ∈ Qiro.nbrs p.edges j := nbrs_symm.mp hi
    have hm := (h.edges _).mp he
    split
    · refine ⟨h.toRest.remove (fun u hu => ?_) _, ?_, h.nodup, ?_⟩
      · rcases List.mem_cons.mp hu with rfl | hu
        · exact hm.2.1
        · rw [List.mem_singleton.mp hu]; exact hm.2.2
      · refine fun u hu => mem_remove_nodes.mpr ⟨h.sub u hu, fun hh => ?_⟩
        rcases List.mem_cons.mp hh with rfl | hh
        · exact h.alone _ hu _ hi
        · rw [List.mem_singleton.mp hh] at hu
          exact h.alone _ hu _ hj
      · exact fun u hu w hw => h.alone u hu w (mem_remove_nbrs.mp hw).1
    · split
      · rw [self_filter]
        refine ⟨h.toRest.remove (fun u hu => (h.toRest.nbrs hu).1) _, ?_, h.nodup, ?_⟩
        · exact fun u hu => mem_remove_nodes.mpr ⟨h.sub u hu, fun hh => h.alone u hu i (nbrs_symm.mp hh)⟩
        · exact fun u hu w hw => h.alone u hu w (mem_remove_nbrs.mp hw).1
      · exact h

theorem MisInv.rounds {nodes : List ℕ} {edges : List (ℕ × ℕ)} (hs : Simple nodes edges) (rs : List Results) {p : Prob} (h : MisInv nodes edges p) :
    MisInv nodes edges (Qiro.rounds misStep p rs) := by
  induction rs generalizing p with
  | nil => exact h
  | cons r rs ih => exact ih (h.step hs r)

theorem MisInv.init {nodes : List ℕ} {edges : List (ℕ × ℕ)} (h : Simple nodes edges) : MisInv nodes edges (Prob.init nodes edges) :=
  ⟨Rest.init h, fun _ hs => absurd hs List.not_mem_nil, List.nodup_nil, fun _ hs => absurd hs List.not_mem_nil⟩

/-! ### Set packing -/

theorem mem_pairs {l : List ℕ} (hl : l.Pairwise (· < ·)) {a b : ℕ} : (a, b) ∈ pairs l ↔ a ∈ l ∧ b ∈ l ∧ a < b := by
  induction l with
  | nil => simp [pairs]
  | cons x l ih =>
    obtain ⟨h1, h2⟩ := List.pairwise_cons.mp hl
    rw [pairs, List.mem_append, List.mem_map, ih h2]
    constructor
    · rintro (⟨y, hy, e⟩ | ⟨ha, hb, hlt⟩)
      · cases e
        exact ⟨List.mem_cons_self, List.mem_cons_of_mem _ hy, h1 _ hy⟩
      · exact ⟨List.mem_cons_of_mem _ ha, List.mem_cons_of_mem _ hb, hlt⟩
    · rintro ⟨ha, hb, hlt⟩
      rcases List.mem_cons.mp ha with ha | ha
      · rcases List.mem_cons.mp hb with hb | hb
        · omega
        · exact Or.inl ⟨b, hb, by rw [ha]⟩
      · rcases List.mem_cons.mp hb with hb | hb
        · have := h1 _ ha
          omega
        · exact Or.inr ⟨ha, hb, hlt⟩

theorem mem_packEdges {sets : List (List ℕ)} {a b : ℕ} :
    (a, b) ∈ packEdges sets ↔ (a < sets.length ∧ b < sets.length ∧ a < b) ∧ ∃ x, x ∈ sets.getD a [] ∧ x ∈ sets.getD b [] := by
  unfold packEdges
  rw [List.mem_filter, mem_pairs List.pairwise_lt_range, List.any_eq_true]
  simp only [List.mem_range, decide_eq_true_eq]

/-! ### Cliques -/

/-- The invariant for cliques. -/
structure CliqueInv (nodes : List ℕ) (edges : List (ℕ × ℕ)) (p : Prob) : Prop extends Rest nodes edges p where
  sub : ∀ s ∈ p.sol, s ∈ p.nodes
  all : ∀ s ∈ p.sol, ∀ u ∈ p.nodes, u ≠ s → u ∈ Qiro.nbrs p.edges s

/-- For a positive pair all neighbours of the first node are neighbours of the second. -/
def PairGuard (res : Results) (p : Prob) : Prop := ∀ i j s, findMax p.nodes p.edges res p.sol = some (.pair i j, s) → 0 < s →
  ∀ u ∈ nbrs p.edges i, u = j ∨ u ∈ nbrs p.edges j

theorem CliqueInv.keep {nodes : List ℕ} {edges : List (ℕ × ℕ)} {p : Prob} (h : CliqueInv nodes edges p) (keep add : List ℕ)
    (hk : ∀ s ∈ p.sol, s ∈ keep) (ha : ∀ v ∈ add, v ∈ p.nodes ∧ v ∈ keep ∧ ∀ u ∈ p.nodes, u ∈ keep → u ≠ v → u ∈ Qiro.nbrs p.edges v) :
    CliqueInv nodes edges { p.remove (p.nodes.filter fun u => decide (u ∉ keep)) with
      sol := p.sol ++ add, exc := p.exc ++ p.nodes.filter fun u => decide (u ∉ keep) } := by
  have hin : ∀ u, u ∈ p.nodes → (u ∉ (p.nodes.filter fun u => decide (u ∉ keep)) ↔ u ∈ keep) := fun u hu => by simp [hu]
  refine ⟨h.toRest.remove (fun u hu => (List.mem_filter.mp hu).1) _, ?_, ?_⟩
  · intro u hu
    refine mem_remove_nodes.mpr ?_
    rcases List.mem_append.mp hu with hu | hu
    · exact ⟨h.sub u hu, (hin u (h.sub u hu)).mpr (hk u hu)⟩
    · exact ⟨(ha u hu).1, (hin u (ha u hu).1).mpr (ha u hu).2.1⟩
  · intro s hs u hu hne
    have hu' := mem_remove_nodes.mp hu
    refine mem_remove_nbrs.mpr ?_
    rcases List.mem_append.mp hs with hs | hs
    · exact ⟨h.all s hs u hu'.1 hne, hu'.2, (hin s (h.sub s hs)).mpr (hk s hs)⟩
    · exact ⟨(ha s hs).2.2 u hu'.1 ((hin u hu'.1).mp hu'.2) hne, hu'.2, (hin s (ha s hs).1).mpr (ha s hs).2.1⟩

theorem CliqueInv.step {nodes : List ℕ} {edges : List (ℕ × ℕ)} {p : Prob} (h : CliqueInv nodes edges p) (res : Results) (hg : PairGuard res p) :
    CliqueInv nodes edges (cliqueStep res p) := by
  unfold cliqueStep
  split
  · exact h
  · rename_i v s hf
    obtain ⟨hv, hvs⟩ := findMax_node hf
    split
    · refine h.keep (Qiro.nbrs p.edges v ++ [v]) [v] (fun s hs => ?_) (fun w hw => ?_)
      · exact List.mem_append_left _ (nbrs_symm.mp (h.all s hs v hv (fun e => hvs (e ▸ hs))))
      · rw [List.mem_singleton.mp hw]
        refine ⟨hv, by simp, fun u _ hk hne => ?_⟩
        rcases List.mem_append.mp hk with hk | hk
        · exact hk
        · exact absurd (List.mem_singleton.mp hk) hne
    · split
      · refine ⟨h.toRest.remove (fun u hu => by rw [List.mem_singleton.mp hu]; exact hv) _, ?_, ?_⟩
        · exact fun u hu => mem_remove_nodes.mpr ⟨h.sub u hu, fun hh => hvs (by rw [← List.mem_singleton.mp hh]; exact hu)⟩
        · intro s hs u hu hne
          have hu' := mem_remove_nodes.mp hu
          exact mem_remove_nbrs.mpr ⟨h.all s hs u hu'.1 hne, hu'.2, fun hh => hvs (by rw [← List.mem_singleton.mp hh]; exact hs)⟩
      · exact h
  · rename_i i j s hf
    obtain ⟨he, hij⟩ := findMax_pair hf
    have hm := (h.edges _).mp he
    have hi : j ∈ Qiro.nbrs p.edges i := mem_nbrs.mpr (Or.inl he)
    split
    · rename_i hpos
      rw [self_filter]
      refine h.keep (Qiro.nbrs p.edges i ++ [i, j]) [i, j] (fun s hs => ?_) (fun w hw => ?_)
      · by_cases e : i = s
        · simp [e]
        · exact List.mem_append_left _ (nbrs_symm.mp (h.all s hs i hm.2.1 e))
      · rcases List.mem_cons.mp hw with rfl | hw
        · refine ⟨hm.2.1, by simp, fun u _ hk hne => ?_⟩
          rcases List.mem_append.mp hk with hk | hk
          · exact hk
          · rcases List.mem_cons.mp hk with hk | hk
            · exact absurd hk hne
            · rw [List.mem_singleton.mp hk]; exact hi
        · rw [List.mem_singleton.mp hw]
          refine ⟨hm.2.2, by simp, fun u _ hk hne => ?_⟩
          rcases List.mem_append.mp hk with hk | hk
          · exact (hg i j s hf hpos u hk).resolve_left hne
          · rcases List.mem_cons.mp hk with hk | hk
            · rw [hk]; exact nbrs_symm.mp hi
            · exact absurd (List.mem_singleton.mp hk) hne
    · split
      · have := h.keep (Qiro.nbrs p.edges i ++ Qiro.nbrs p.edges j ++ [i, j]) [] (fun s hs => ?_) (fun w hw => absurd hw List.not_mem_nil)
        · rw [List.append_nil] at this; exact this
        · by_cases e : i = s
          · simp [e]
          · exact List.mem_append_left _ (List.mem_append_left _ (nbrs_symm.mp (h.all s hs i hm.2.1 e)))
      · exact h

theorem CliqueInv.init {nodes : List ℕ} {edges : List (ℕ × ℕ)} (h : Simple nodes edges) : CliqueInv nodes edges (Prob.init nodes edges) :=
  ⟨Rest.init h, fun _ hs => absurd hs List.not_mem_nil, fun _ hs => absurd hs List.not_mem_nil⟩

end Verif.Qiro
