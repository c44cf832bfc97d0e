import Mathlib.Data.List.Basic
import Mathlib.Data.List.Dedup
import Mathlib.Data.List.Perm.Basic
import Mathlib.Data.List.Nodup
import Mathlib.Data.List.Range
import Mathlib.Tactic.Linarith
import Mathlib.Tactic.Ring
import Mathlib.Tactic.Push
import Mathlib.Tactic.ByContra
import Mathlib.Tactic.Set

/-!
Grouping terms by graph colouring (operators/hamiltonian_tools.py:92-220) and by sorted insertion
(operators/qubit/qubit_operator.py:943-962).  A colour is `none` for the entry -1.
-/

namespace Verif.Ham

/-- `np.argmax` over the vertices `us` by `deg`: the first maximum. -/
def argmaxOn (deg : Nat → Nat) : List Nat → Option Nat
  | [] => none
  | u :: us => match argmaxOn deg us with
    | none => some u
    | some v => if deg u < deg v then some v else some u

/-- The degree of a vertex: a row sum of the adjacency matrix. -/
def degree (n : Nat) (adj : Nat → Nat → Bool) (v : Nat) : Nat := ((List.range n).filter (adj v)).length

/-- The independent set of one round (hamiltonian_tools.py:103-108). -/
def indepSet (adj : Nat → Nat → Bool) (us : List Nat) (v0 : Nat) : List Nat :=
  us.foldl (fun s v => if s.all fun w => !adj v w then s ++ [v] else s) [v0]

/-- Entries of an array set to a colour. -/
def paint (colors : Nat → Option Nat) (s : List Nat) (k : Nat) : Nat → Option Nat := fun v => if v ∈ s then some k else colors v

/-- The uncoloured vertices after a round (hamiltonian_tools.py:115, 179). -/
def without (us s : List Nat) : List Nat := us.filter fun v => decide (v ∉ s)

theorem without_lt {us s : List Nat} {v : Nat} (h : v ∈ us) (hs : v ∈ s) : (without us s).length < us.length :=
  List.length_filter_lt_length_iff_exists.mpr ⟨v, h, by simp [hs]⟩

theorem argmaxOn_mem {deg : Nat → Nat} {us : List Nat} {v : Nat} (h : argmaxOn deg us = some v) : v ∈ us := by
  induction us generalizing v with
  | nil => cases h
  | cons u us ih =>
    unfold argmaxOn at h
    rcases h' : argmaxOn deg us with _ | w
    · rw [h'] at h; cases h; exact List.mem_cons_self
    · rw [h'] at h
      dsimp only at h
      split at h
      · cases h; exact List.mem_cons_of_mem _ (ih h')
      · cases h; exact List.mem_cons_self

theorem argmaxOn_isSome {deg : Nat → Nat} {us : List Nat} (h : us ≠ []) : ∃ v, argmaxOn deg us = some v := by
  cases us with
  | nil => exact absurd rfl h
  | cons u us =>
    unfold argmaxOn
    rcases argmaxOn deg us with _ | w
    · exact ⟨u, rfl⟩
    · dsimp only
      split
      · exact ⟨w, rfl⟩
      · exact ⟨u, rfl⟩

theorem indepSet_aux {adj : Nat → Nat → Bool} (us : List Nat) (s : List Nat) :
    ∀ v ∈ s, v ∈ us.foldl (fun s v => if s.all fun w => !adj v w then s ++ [v] else s) s := by
  induction us generalizing s with
  | nil => exact fun v h => h
  | cons u us ih =>
    intro v hv
    rw [List.foldl_cons]
    apply ih
    split
    · exact List.mem_append_left _ hv
    · exact hv

theorem indepSet_self {adj : Nat → Nat → Bool} (us : List Nat) (v0 : Nat) : v0 ∈ indepSet adj us v0 := indepSet_aux us [v0] v0 List.mem_cons_self

/-- `rlf_coloring` (hamiltonian_tools.py:92-119): the loop with the uncoloured vertices and the current colour. -/
def rlfLoop (n : Nat) (adj : Nat → Nat → Bool) (colors : Nat → Option Nat) (us : List Nat) (cur : Nat) : Nat → Option Nat :=
  match h : argmaxOn (degree n adj) us with
  | none => colors
  | some v0 => rlfLoop n adj (paint colors (indepSet adj us v0) cur) (without us (indepSet adj us v0)) (cur + 1)
termination_by us.length
decreasing_by exact without_lt (argmaxOn_mem h) (indepSet_self us v0)

/-- `rlf_coloring` (hamiltonian_tools.py:92-119). -/
def rlf (n : Nat) (adj : Nat → Nat → Bool) : Nat → Option Nat := rlfLoop n adj (fun _ => none) (List.range n) 0

/-- `while available_color in used_colors` (hamiltonian_tools.py:160-162). -/
def avail (used : List Nat) (c : Nat) : Nat := if c ∈ used then avail used (c + 1) else c
termination_by (used.filter (c ≤ ·)).length
decreasing_by
  rename_i h
  have hsub : used.filter (c + 1 ≤ ·) = (used.filter (c ≤ ·)).filter (c + 1 ≤ ·) := by
    rw [List.filter_filter]
    congr 1
    funext x
    rw [Bool.eq_iff_iff]
    simp
    omega
  rw [hsub]
  apply List.length_filter_lt_length_iff_exists.mpr
  exact ⟨c, by simp [h], by simp⟩

/-- The colours of the coloured neighbours (hamiltonian_tools.py:155-158, 171-174). -/
def usedColors (n : Nat) (adj : Nat → Nat → Bool) (colors : Nat → Option Nat) (v : Nat) : List Nat :=
  (((List.range n).filter (adj v)).filterMap colors).dedup

/-- The choice of the next vertex (hamiltonian_tools.py:142-152): the state is the best vertex so far. -/
def pickStep (deg sat : Nat → Nat) (best : Option Nat) (v : Nat) : Option Nat :=
  match best with
  | none => some v
  | some b => if sat b < sat v then some v else if sat v = sat b then (if deg b < deg v then some v else some b) else some b

/-- The next vertex of `dsatur_coloring`. -/
def pick (deg sat : Nat → Nat) (us : List Nat) : Option Nat := us.foldl (pickStep deg sat) none

theorem pick_aux {deg sat : Nat → Nat} (us : List Nat) (b : Nat) : ∃ v, us.foldl (pickStep deg sat) (some b) = some v ∧ (v = b ∨ v ∈ us) := by
  induction us generalizing b with
  | nil => exact ⟨b, rfl, Or.inl rfl⟩
  | cons u us ih =>
    rw [List.foldl_cons]
    have h1 : ∃ w, pickStep deg sat (some b) u = some w ∧ (w = b ∨ w = u) := by
      unfold pickStep
      dsimp only
      split
      · exact ⟨u, rfl, Or.inr rfl⟩
      · split
        · split
          · exact ⟨u, rfl, Or.inr rfl⟩
          · exact ⟨b, rfl, Or.inl rfl⟩
        · exact ⟨b, rfl, Or.inl rfl⟩
    obtain ⟨w, hw, hw'⟩ := h1
    rw [hw]
    obtain ⟨v, hv, hv'⟩ := ih w
    refine ⟨v, hv, ?_⟩
    rcases hv' with rfl | hv'
    · rcases hw' with rfl | rfl
      · exact Or.inl rfl
      · exact Or.inr List.mem_cons_self
    · exact Or.inr (List.mem_cons_of_mem _ hv')

theorem pick_mem {deg sat : Nat → Nat} {us : List Nat} {v : Nat} (h : pick deg sat us = some v) : v ∈ us := by
  cases us with
  | nil => cases h
  | cons u us =>
    obtain ⟨w, hw, hw'⟩ := pick_aux (deg := deg) (sat := sat) us u
    have : w = v := Option.some.inj (hw.symm.trans h)
    subst this
    rcases hw' with rfl | hw'
    · exact List.mem_cons_self
    · exact List.mem_cons_of_mem _ hw'

theorem pick_isSome {deg sat : Nat → Nat} {us : List Nat} (h : us ≠ []) : ∃ v, pick deg sat us = some v := by
  cases us with
  | nil => exact absurd rfl h
  | cons u us => exact (pick_aux (deg := deg) (sat := sat) us u).imp fun _ h => h.1

/-- The main loop of `dsatur_coloring` (hamiltonian_tools.py:140-180). -/
def dsaturLoop (n : Nat) (adj : Nat → Nat → Bool) (colors : Nat → Option Nat) (sat : Nat → Nat) (us : List Nat) : Nat → Option Nat :=
  match h : pick (degree n adj) sat us with
  | none => colors
  | some v =>
    dsaturLoop n adj (paint colors [v] (avail (usedColors n adj colors v) 0))
      (fun w => if w ∈ us ∧ adj v w then (usedColors n adj (paint colors [v] (avail (usedColors n adj colors v) 0)) w).length else sat w)
      (without us [v])
termination_by us.length
decreasing_by exact without_lt (pick_mem h) List.mem_cons_self

/-- `dsatur_coloring` (hamiltonian_tools.py:122-182): the first vertex has maximal degree. -/
def dsatur (n : Nat) (adj : Nat → Nat → Bool) : Nat → Option Nat :=
  match argmaxOn (degree n adj) (List.range n) with
  | none => fun _ => none
  | some v => dsaturLoop n adj (paint (fun _ => none) [v] 0) (fun w => if adj v w then 1 else 0) (without (List.range n) [v])

/-- `np.max` of a colouring of the vertices `0..n-1`. -/
def maxColor (n : Nat) (colors : Nat → Option Nat) : Nat := ((List.range n).filterMap colors).foldl max 0

/-- `find_coloring` (hamiltonian_tools.py:185-197). -/
def findColoring (n : Nat) (adj : Nat → Nat → Bool) : Nat → Option Nat :=
  if maxColor n (rlf n adj) < maxColor n (dsatur n adj) then rlf n adj else dsatur n adj

/-- The graph of `group_up_iterable` (hamiltonian_tools.py:201-209): an undirected edge, if the relation fails in one of the two orders. -/
def conflict {α : Type} (rel : α → α → Bool) (l : List α) (i j : Nat) : Bool :=
  match l[i]?, l[j]? with
  | some a, some b => decide (i ≠ j) && (!rel a b || !rel b a)
  | _, _ => false

/-- `group_up_iterable` (hamiltonian_tools.py:200-228). -/
def groupUp {α : Type} (rel : α → α → Bool) (l : List α) : List (List α) :=
  if l.length = 0 then []
  else (List.range (maxColor l.length (findColoring l.length (conflict rel l)) + 1)).map fun k =>
    ((List.range l.length).filter fun i => findColoring l.length (conflict rel l) i = some k).filterMap fun i => l[i]?

/-- One step of the sorted insertion (qubit_operator.py:948-960): into the first group whose members are all related. -/
def insertGroup {α : Type} (rel : α → α → Bool) (t : α) : List (List α) → List (List α)
  | [] => [[t]]
  | g :: gs => if g.all fun u => rel u t then (g ++ [t]) :: gs else g :: insertGroup rel t gs

/-- The groups of `commuting_groups`, for the terms in the order of decreasing coefficients. -/
def insertAll {α : Type} (rel : α → α → Bool) (l : List α) : List (List α) := l.foldl (fun gs t => insertGroup rel t gs) []

/-! ### Colourings are proper -/

/-- A proper partial colouring in which every colour below a used colour is used. -/
structure Proper (adj : Nat → Nat → Bool) (colors : Nat → Option Nat) : Prop where
  ok : ∀ v w k, colors v = some k → colors w = some k → adj v w = false
  gap : ∀ v k j, colors v = some k → j < k → ∃ w, colors w = some j

/-- A proper colouring of all vertices. -/
structure Colouring (n : Nat) (adj : Nat → Nat → Bool) (colors : Nat → Option Nat) : Prop where
  proper : Proper adj colors
  total : ∀ v, v < n → ∃ k, colors v = some k
  dom : ∀ v k, colors v = some k → v < n

theorem indep_inv {adj : Nat → Nat → Bool} (hsym : ∀ v w, adj v w = adj w v) (hirr : ∀ v, adj v v = false) (us s : List Nat)
    (hs : ∀ v ∈ s, ∀ w ∈ s, adj v w = false) :
    ∀ v ∈ us.foldl (fun s v => if s.all fun w => !adj v w then s ++ [v] else s) s,
    ∀ w ∈ us.foldl (fun s v => if s.all fun w => !adj v w then s ++ [v] else s) s, adj v w = false := by
  induction us generalizing s with
  | nil => exact hs
  | cons u us ih =>
    rw [List.foldl_cons]
    apply ih
    split
    · rename_i h
      rw [List.all_eq_true] at h
      have h' : ∀ w ∈ s, adj u w = false := fun w hw => by simpa using h w hw
      intro v hv w hw
      rw [List.mem_append, List.mem_singleton] at hv hw
      rcases hv with hv | rfl <;> rcases hw with hw | rfl
      · exact hs v hv w hw
      · rw [hsym]; exact h' v hv
      · exact h' w hw
      · exact hirr _
    · exact hs

theorem indep_sub {adj : Nat → Nat → Bool} (us s : List Nat) :
    ∀ v ∈ us.foldl (fun s v => if s.all fun w => !adj v w then s ++ [v] else s) s, v ∈ s ∨ v ∈ us := by
  induction us generalizing s with
  | nil => exact fun v h => Or.inl h
  | cons u us ih =>
    intro v hv
    rw [List.foldl_cons] at hv
    rcases ih _ v hv with h | h
    · split at h
      · rw [List.mem_append, List.mem_singleton] at h
        rcases h with h | rfl
        · exact Or.inl h
        · exact Or.inr List.mem_cons_self
      · exact Or.inl h
    · exact Or.inr (List.mem_cons_of_mem _ h)

theorem rlfLoop_spec {n : Nat} {adj : Nat → Nat → Bool} (hsym : ∀ v w, adj v w = adj w v) (hirr : ∀ v, adj v v = false) :
    ∀ (m : Nat) (us : List Nat) (colors : Nat → Option Nat) (cur : Nat), us.length = m → Proper adj colors →
    (∀ v k, colors v = some k → k < cur) → (∀ j, j < cur → ∃ w, colors w = some j) → (∀ v, v < n → colors v = none → v ∈ us) →
    (∀ v ∈ us, colors v = none ∧ v < n) → (∀ v k, colors v = some k → v < n) →
    Colouring n adj (rlfLoop n adj colors us cur) := by
  intro m
  induction m using Nat.strong_induction_on with
  | _ m ih =>
    intro us colors cur hm hp hlt hall hunc husn hn
    rw [rlfLoop]
    split
    · rename_i h
      have hu : us = [] := by
        by_contra hne
        obtain ⟨v, hv⟩ := argmaxOn_isSome (deg := degree n adj) hne
        rw [hv] at h; cases h
      refine ⟨hp, fun v hv => ?_, hn⟩
      rcases hc : colors v with _ | k
      · have := hunc v hv hc; rw [hu] at this; simp at this
      · exact ⟨k, rfl⟩
    · rename_i v0 h
      have hv0 := argmaxOn_mem h
      set S := indepSet adj us v0 with hS
      have hSin : ∀ v ∈ S, ∀ w ∈ S, adj v w = false := by
        rw [hS]
        exact indep_inv hsym hirr us [v0] fun v hv w hw => by
          rw [List.mem_singleton] at hv hw; rw [hv, hw]; exact hirr v0
      have hSus : ∀ v ∈ S, v ∈ us := by
        intro v hv
        rcases indep_sub us [v0] v hv with h' | h'
        · rw [List.mem_singleton] at h'; subst h'; exact hv0
        · exact h'
      have hv0S : v0 ∈ S := indepSet_self us v0
      apply ih (without us S).length
      · rw [← hm]; exact without_lt hv0 hv0S
      · rfl
      · constructor
        · intro v w k hv hw
          unfold paint at hv hw
          split at hv <;> split at hw
          · rename_i a b; exact hSin v a w b
          · cases hv; exact absurd (hlt w _ hw) (lt_irrefl _)
          · cases hw; exact absurd (hlt v _ hv) (lt_irrefl _)
          · exact hp.ok v w k hv hw
        · intro v k j hv hj
          unfold paint at hv
          have hjc : j < cur := by
            split at hv
            · cases hv; exact hj
            · exact hj.trans (hlt v k hv)
          obtain ⟨w, hw⟩ := hall j hjc
          refine ⟨w, ?_⟩
          unfold paint
          rw [if_neg, hw]
          intro hwS
          have := (husn w (hSus w hwS)).1
          rw [hw] at this; cases this
      · intro v k hv
        unfold paint at hv
        split at hv
        · cases hv; exact Nat.lt_succ_self _
        · exact (hlt v k hv).trans (Nat.lt_succ_self _)
      · intro j hj
        rcases Nat.lt_succ_iff_lt_or_eq.mp hj with hj | rfl
        · obtain ⟨w, hw⟩ := hall j hj
          refine ⟨w, ?_⟩
          unfold paint
          rw [if_neg, hw]
          intro hwS
          have := (husn w (hSus w hwS)).1
          rw [hw] at this; cases this
        · exact ⟨v0, if_pos hv0S⟩
      · intro v hv hc
        unfold paint at hc
        split at hc
        · cases hc
        · rename_i hvS
          exact List.mem_filter.mpr ⟨hunc v hv hc, by simpa using hvS⟩
      · intro v hv
        obtain ⟨h1, h2⟩ := List.mem_filter.mp hv
        have h2 : v ∉ S := by simpa using h2
        exact ⟨by unfold paint; rw [if_neg h2]; exact (husn v h1).1, (husn v h1).2⟩
      · intro v k hv
        unfold paint at hv
        split at hv
        · rename_i hvS; exact (husn v (hSus v hvS)).2
        · exact hn v k hv

theorem avail_spec (used : List Nat) : ∀ (m c : Nat), (used.filter (c ≤ ·)).length = m → (∀ j, j < c → j ∈ used) →
    avail used c ∉ used ∧ ∀ j, j < avail used c → j ∈ used := by
  intro m
  induction m using Nat.strong_induction_on with
  | _ m ih =>
    intro c hm hc
    rw [avail]
    by_cases h : c ∈ used
    · rw [if_pos h]
      apply ih (used.filter (c + 1 ≤ ·)).length
      · have hsub : used.filter (c + 1 ≤ ·) = (used.filter (c ≤ ·)).filter (c + 1 ≤ ·) := by
          rw [List.filter_filter]
          congr 1
          funext x
          rw [Bool.eq_iff_iff]
          simp
          omega
        rw [hsub, ← hm]
        apply List.length_filter_lt_length_iff_exists.mpr
        exact ⟨c, by simp [h], by simp⟩
      · rfl
      · intro j hj
        rcases Nat.lt_succ_iff_lt_or_eq.mp hj with hj | rfl
        · exact hc j hj
        · exact h
    · rw [if_neg h]; exact ⟨h, hc⟩

theorem usedColors_mem {n : Nat} {adj : Nat → Nat → Bool} {colors : Nat → Option Nat} {v k : Nat} :
    k ∈ usedColors n adj colors v ↔ ∃ w, w < n ∧ adj v w = true ∧ colors w = some k := by
  unfold usedColors
  rw [List.mem_dedup, List.mem_filterMap]
  constructor
  · rintro ⟨w, hw, hc⟩
    obtain ⟨h1, h2⟩ := List.mem_filter.mp hw
    exact ⟨w, List.mem_range.mp h1, h2, hc⟩
  · rintro ⟨w, h1, h2, hc⟩
    exact ⟨w, List.mem_filter.mpr ⟨List.mem_range.mpr h1, h2⟩, hc⟩

theorem dsaturLoop_spec {n : Nat} {adj : Nat → Nat → Bool} (hsym : ∀ v w, adj v w = adj w v) (hirr : ∀ v, adj v v = false) :
    ∀ (m : Nat) (us : List Nat) (colors : Nat → Option Nat) (sat : Nat → Nat), us.length = m → Proper adj colors →
    (∀ v, v < n → colors v = none → v ∈ us) → (∀ v ∈ us, colors v = none ∧ v < n) → (∀ v k, colors v = some k → v < n) →
    Colouring n adj (dsaturLoop n adj colors sat us) := by
  intro m
  induction m using Nat.strong_induction_on with
  | _ m ih =>
    intro us colors sat hm hp hunc husn hn
    rw [dsaturLoop]
    split
    · rename_i h
      have hu : us = [] := by
        by_contra hne
        obtain ⟨v, hv⟩ := pick_isSome (deg := degree n adj) (sat := sat) hne
        rw [hv] at h; cases h
      refine ⟨hp, fun v hv => ?_, hn⟩
      rcases hc : colors v with _ | k
      · have := hunc v hv hc; rw [hu] at this; simp at this
      · exact ⟨k, rfl⟩
    · rename_i v0 h
      have hv0 := pick_mem h
      obtain ⟨a1, a2⟩ := avail_spec (usedColors n adj colors v0) _ 0 rfl (fun j hj => absurd hj (Nat.not_lt_zero j))
      set c0 := avail (usedColors n adj colors v0) 0 with hc0
      have hpaint : ∀ v, v ≠ v0 → paint colors [v0] c0 v = colors v := fun v hv => if_neg (by simpa using hv)
      have hpaint0 : paint colors [v0] c0 v0 = some c0 := if_pos (by simp)
      have hnadj : ∀ w, colors w = some c0 → adj v0 w = false := by
        intro w hw
        by_contra hadj
        exact a1 (usedColors_mem.mpr ⟨w, hn w _ hw, by simpa using hadj, hw⟩)
      apply ih (without us [v0]).length
      · rw [← hm]; exact without_lt hv0 List.mem_cons_self
      · rfl
      · constructor
        · intro v w k hv hw
          by_cases e1 : v = v0 <;> by_cases e2 : w = v0
          · rw [e1, e2]; exact hirr v0
          · rw [e1, hpaint0] at hv
            rw [hpaint w e2] at hw
            cases hv
            rw [e1]; exact hnadj w hw
          · rw [e2, hpaint0] at hw
            rw [hpaint v e1] at hv
            cases hw
            rw [e2, hsym]; exact hnadj v hv
          · rw [hpaint v e1] at hv
            rw [hpaint w e2] at hw
            exact hp.ok v w k hv hw
        · intro v k j hv hj
          have key : ∃ w, colors w = some j := by
            by_cases e1 : v = v0
            · rw [e1, hpaint0] at hv
              cases hv
              obtain ⟨w, _, _, hw⟩ := usedColors_mem.mp (a2 j hj)
              exact ⟨w, hw⟩
            · rw [hpaint v e1] at hv
              exact hp.gap v k j hv hj
          obtain ⟨w, hw⟩ := key
          refine ⟨w, ?_⟩
          rw [hpaint w, hw]
          intro e
          have := (husn v0 hv0).1
          rw [← e, hw] at this; cases this
      · intro v hv hc
        by_cases e1 : v = v0
        · rw [e1, hpaint0] at hc; cases hc
        · rw [hpaint v e1] at hc
          exact List.mem_filter.mpr ⟨hunc v hv hc, by simpa using e1⟩
      · intro v hv
        obtain ⟨h1, h2⟩ := List.mem_filter.mp hv
        have e1 : v ≠ v0 := by simpa using h2
        exact ⟨by rw [hpaint v e1]; exact (husn v h1).1, (husn v h1).2⟩
      · intro v k hv
        by_cases e1 : v = v0
        · rw [e1]; exact (husn v0 hv0).2
        · rw [hpaint v e1] at hv; exact hn v k hv

theorem rlf_spec {n : Nat} {adj : Nat → Nat → Bool} (hsym : ∀ v w, adj v w = adj w v) (hirr : ∀ v, adj v v = false) : Colouring n adj (rlf n adj) := by
  exact rlfLoop_spec (n := n) hsym hirr _ (List.range n) (fun _ => none) 0 rfl ⟨fun _ _ _ h => (by cases h), fun _ _ _ h => (by cases h)⟩
    (fun _ _ h => by cases h) (fun j hj => absurd hj (Nat.not_lt_zero j)) (fun v hv _ => List.mem_range.mpr hv)
    (fun v hv => ⟨rfl, List.mem_range.mp hv⟩) (fun _ _ h => by cases h)

theorem dsatur_spec {n : Nat} {adj : Nat → Nat → Bool} (hsym : ∀ v w, adj v w = adj w v) (hirr : ∀ v, adj v v = false) :
    Colouring n adj (dsatur n adj) := by
  unfold dsatur
  split
  · rename_i h
    have hn : n = 0 := by
      by_contra hne
      obtain ⟨v, hv⟩ := argmaxOn_isSome (deg := degree n adj) (us := List.range n) (by simpa using hne)
      rw [hv] at h; cases h
    subst hn
    exact ⟨⟨fun _ _ _ h => (by cases h), fun _ _ _ h => (by cases h)⟩, fun v hv => absurd hv (Nat.not_lt_zero v), fun _ _ h => by cases h⟩
  · rename_i v0 h
    have hv0 : v0 < n := List.mem_range.mp (argmaxOn_mem h)
    have hp : ∀ v k, paint (fun _ => none) [v0] 0 v = some k → v = v0 ∧ k = 0 := by
      intro v k hv
      unfold paint at hv
      split at hv
      · rename_i e; cases hv; exact ⟨by simpa using e, rfl⟩
      · cases hv
    exact dsaturLoop_spec (n := n) hsym hirr _ (without (List.range n) [v0]) (paint (fun _ => none) [v0] 0)
      (fun w => if adj v0 w then 1 else 0) rfl
      ⟨fun v w k hv hw => by rw [(hp v k hv).1, (hp w k hw).1]; exact hirr v0,
        fun v k j hv hj => by rw [(hp v k hv).2] at hj; exact absurd hj (Nat.not_lt_zero j)⟩
      (fun v hv hc => List.mem_filter.mpr ⟨List.mem_range.mpr hv, by
        rw [decide_eq_true_eq, List.mem_singleton]
        intro e
        rw [e] at hc
        unfold paint at hc
        rw [if_pos (by simp)] at hc
        cases hc⟩)
      (fun v hv => by
        obtain ⟨a, b⟩ := List.mem_filter.mp hv
        have b : v ≠ v0 := by simpa using b
        exact ⟨if_neg (by simpa using b), List.mem_range.mp a⟩)
      (fun v k hv => by rw [(hp v k hv).1]; exact hv0)

theorem find_spec {n : Nat} {adj : Nat → Nat → Bool} (hsym : ∀ v w, adj v w = adj w v) (hirr : ∀ v, adj v v = false) :
    Colouring n adj (findColoring n adj) := by
  unfold findColoring
  split
  · exact rlf_spec hsym hirr
  · exact dsatur_spec hsym hirr

/-! ### Groups -/

theorem foldl_max_le (l : List Nat) : ∀ (a : Nat), a ≤ l.foldl max a ∧ ∀ x ∈ l, x ≤ l.foldl max a := by
  induction l with
  | nil => exact fun a => ⟨le_refl _, fun x h => by simp at h⟩
  | cons y l ih =>
    intro a
    obtain ⟨h1, h2⟩ := ih (max a y)
    rw [List.foldl_cons]
    refine ⟨(le_max_left a y).trans h1, fun x hx => ?_⟩
    rcases List.mem_cons.mp hx with rfl | hx
    · exact (le_max_right a x).trans h1
    · exact h2 x hx

theorem foldl_max_mem (l : List Nat) : ∀ (a : Nat), l.foldl max a = a ∨ l.foldl max a ∈ l := by
  induction l with
  | nil => exact fun a => Or.inl rfl
  | cons y l ih =>
    intro a
    rw [List.foldl_cons]
    rcases ih (max a y) with h | h
    · rw [h]
      rcases max_choice a y with h' | h'
      · rw [h']; exact Or.inl rfl
      · rw [h']; exact Or.inr List.mem_cons_self
    · exact Or.inr (List.mem_cons_of_mem _ h)

theorem le_maxColor {n : Nat} {colors : Nat → Option Nat} {v k : Nat} (hv : v < n) (h : colors v = some k) : k ≤ maxColor n colors :=
  (foldl_max_le _ 0).2 k (List.mem_filterMap.mpr ⟨v, List.mem_range.mpr hv, h⟩)

/-- Sorting a list into classes permutes it. -/
theorem perm_classes {β : Type} (f : Nat → Option Nat) (g : Nat → Option β) : ∀ (l : List Nat) (m : Nat), (∀ v ∈ l, ∃ k, f v = some k ∧ k < m) →
    ((List.range m).map fun k => (l.filter fun i => f i = some k).filterMap g).flatten.Perm (l.filterMap g) := by
  intro l m
  induction l with
  | nil => intro _; simp
  | cons v l ih =>
    intro h
    obtain ⟨k, hk, hkm⟩ := h v List.mem_cons_self
    have ih := ih fun w hw => h w (List.mem_cons_of_mem _ hw)
    obtain ⟨a, b, hab⟩ : ∃ a b, List.range m = a ++ k :: b := List.append_of_mem (List.mem_range.mpr hkm)
    have hnd : (a ++ k :: b).Nodup := hab ▸ List.nodup_range
    have hka : k ∉ a := fun h' => (List.nodup_append.mp hnd).2.2 k h' k List.mem_cons_self rfl
    have hkb : k ∉ b := (List.nodup_cons.mp (List.nodup_append.mp hnd).2.1).1
    have hother : ∀ s : List Nat, k ∉ s → (s.map fun j => ((v :: l).filter fun i => f i = some j).filterMap g) =
        s.map fun j => (l.filter fun i => f i = some j).filterMap g := by
      intro s hs
      apply List.map_congr_left
      intro j hj
      rw [List.filter_cons_of_neg]
      rw [hk]
      simp only [Option.some.injEq, decide_eq_true_eq]
      exact fun e => hs (e ▸ hj)
    have hself : ((v :: l).filter fun i => f i = some k).filterMap g = ([v].filterMap g) ++ (l.filter fun i => f i = some k).filterMap g := by
      rw [List.filter_cons_of_pos (by simp [hk]), ← List.filterMap_append]
      rfl
    rw [hab] at ih ⊢
    rw [List.map_append, List.map_cons, List.flatten_append, List.flatten_cons] at ih ⊢
    rw [hother a hka, hother b hkb, hself]
    have e : (v :: l).filterMap g = [v].filterMap g ++ l.filterMap g := by rw [← List.filterMap_append]; rfl
    rw [e, List.append_assoc]
    refine List.Perm.trans ?_ (List.Perm.append_left _ ih)
    rw [← List.append_assoc, ← List.append_assoc ([v].filterMap g)]
    exact List.Perm.append_right _ List.perm_append_comm

end Verif.Ham
