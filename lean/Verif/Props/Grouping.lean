import Verif.Ham.Coloring
import Verif.Oper.Commute
import Verif.Oper.Adjoint

/-! C98: grouping the terms of an operator. -/

namespace Verif.Props

open Verif.Ham Verif.Oper

/-- C98: both colourings give every vertex a colour, adjacent vertices get different colours, and no colour below a used one is skipped. -/
theorem C98_coloring {n : Nat} {adj : Nat → Nat → Bool} (hsym : ∀ v w, adj v w = adj w v) (hirr : ∀ v, adj v v = false) :
    ∀ col ∈ [rlf n adj, dsatur n adj, findColoring n adj],
      (∀ v, v < n → ∃ k, col v = some k) ∧ (∀ v w, v < n → w < n → adj v w = true → col v ≠ col w) ∧
      ∀ v k j, col v = some k → j < k → ∃ w, w < n ∧ col w = some j := by
  have key : ∀ col, Colouring n adj col → (∀ v, v < n → ∃ k, col v = some k) ∧ (∀ v w, v < n → w < n → adj v w = true → col v ≠ col w) ∧
      ∀ v k j, col v = some k → j < k → ∃ w, w < n ∧ col w = some j := by
    intro col h
    refine ⟨h.total, fun v w hv hw ha e => ?_, fun v k j hv hj => ?_⟩
    · obtain ⟨k, hk⟩ := h.total v hv
      have := h.proper.ok v w k hk (e ▸ hk)
      rw [ha] at this; cases this
    · obtain ⟨w, hw⟩ := h.proper.gap v k j hv hj
      exact ⟨w, h.dom w j hw, hw⟩
  intro col hcol
  simp only [List.mem_cons, List.not_mem_nil, or_false] at hcol
  rcases hcol with rfl | rfl | rfl
  · exact key _ (rlf_spec hsym hirr)
  · exact key _ (dsatur_spec hsym hirr)
  · exact key _ (find_spec hsym hirr)

theorem conflict_symm {α : Type} (rel : α → α → Bool) (l : List α) (i j : Nat) : conflict rel l i j = conflict rel l j i := by
  unfold conflict
  rcases l[i]? with _ | a <;> rcases l[j]? with _ | b
  · rfl
  · rfl
  · rfl
  · dsimp only
    rw [Bool.or_comm]
    congr 1
    simp only [ne_comm]

theorem conflict_irr {α : Type} (rel : α → α → Bool) (l : List α) (i : Nat) : conflict rel l i i = false := by
  unfold conflict
  rcases l[i]? with _ | a <;> simp

theorem filterMap_get {α : Type} (l : List α) : (List.range l.length).filterMap (fun i => l[i]?) = l := by
  induction l with
  | nil => rfl
  | cons a l ih =>
    rw [List.length_cons, List.range_succ_eq_map, List.filterMap_cons]
    simp only [List.getElem?_cons_zero, List.filterMap_map]
    congr 1

/-- C98: the groups of `group_up_iterable` contain every element exactly once, no group is empty, and any two elements of a group are
related in both orders. -/
theorem C98_groups {α : Type} (rel : α → α → Bool) (l : List α) :
    (groupUp rel l).flatten.Perm l ∧ ∀ g ∈ groupUp rel l, g ≠ [] ∧ g.Pairwise fun a b => rel a b = true ∧ rel b a = true := by
  unfold groupUp
  by_cases h0 : l.length = 0
  · have : l = [] := List.eq_nil_of_length_eq_zero h0
    subst this
    simp
  rw [if_neg h0]
  have hc := find_spec (n := l.length) (adj := conflict rel l) (conflict_symm rel l) (conflict_irr rel l)
  set col := findColoring l.length (conflict rel l) with hcol
  have hget : ∀ i, i < l.length → ∃ a, l[i]? = some a := fun i hi => ⟨l[i], List.getElem?_eq_getElem hi⟩
  constructor
  · have := perm_classes col (fun i => l[i]?) (List.range l.length) (maxColor l.length col + 1) (fun v hv => by
      have hv := List.mem_range.mp hv
      obtain ⟨k, hk⟩ := hc.total v hv
      exact ⟨k, hk, Nat.lt_succ_of_le (le_maxColor hv hk)⟩)
    rw [filterMap_get] at this
    exact this
  · intro g hg
    obtain ⟨k, hk, rfl⟩ := List.mem_map.mp hg
    have hk : k ≤ maxColor l.length col := Nat.lt_succ_iff.mp (List.mem_range.mp hk)
    constructor
    · -- colour `k` is used
      have hused : ∃ v, v < l.length ∧ col v = some k := by
        obtain ⟨k0, hk0⟩ := hc.total 0 (Nat.pos_of_ne_zero h0)
        rcases foldl_max_mem ((List.range l.length).filterMap col) 0 with h | h
        · have e : maxColor l.length col = 0 := h
          have h1 := le_maxColor (Nat.pos_of_ne_zero h0) hk0
          have : k = k0 := by omega
          exact ⟨0, Nat.pos_of_ne_zero h0, this ▸ hk0⟩
        · obtain ⟨w, hw, hwk⟩ := List.mem_filterMap.mp h
          have hwk : col w = some (maxColor l.length col) := hwk
          rcases Nat.lt_or_eq_of_le hk with hlt | heq
          · obtain ⟨u, hu⟩ := hc.proper.gap w _ k hwk hlt
            exact ⟨u, hc.dom u k hu, hu⟩
          · exact ⟨w, List.mem_range.mp hw, heq ▸ hwk⟩
      obtain ⟨v, hv, hvk⟩ := hused
      obtain ⟨a, ha⟩ := hget v hv
      intro e
      have : a ∈ ((List.range l.length).filter fun i => col i = some k).filterMap fun i => l[i]? :=
        List.mem_filterMap.mpr ⟨v, List.mem_filter.mpr ⟨List.mem_range.mpr hv, by simpa using hvk⟩, ha⟩
      rw [e] at this
      simp at this
    · rw [List.pairwise_filterMap]
      have hp : ((List.range l.length).filter fun i => col i = some k).Pairwise (· ≠ ·) := List.Nodup.filter _ List.nodup_range
      refine hp.imp_of_mem ?_
      intro i j hi hj hij a ha b hb
      have hci : col i = some k := by simpa using (List.mem_filter.mp hi).2
      have hcj : col j = some k := by simpa using (List.mem_filter.mp hj).2
      have := hc.proper.ok i j k hci hcj
      unfold conflict at this
      rw [ha, hb] at this
      simp [hij] at this
      exact this

/-- C98: the sorted insertion of `commuting_groups` also partitions the terms into groups of pairwise related terms. -/
theorem C98_insertion {α : Type} (rel : α → α → Bool) (l : List α) :
    (insertAll rel l).flatten.Perm l ∧ ∀ g ∈ insertAll rel l, g ≠ [] ∧ g.Pairwise fun a b => rel a b = true := by
  have step : ∀ (t : α) (gs : List (List α)), (∀ g ∈ gs, g ≠ [] ∧ g.Pairwise fun a b => rel a b = true) →
      (insertGroup rel t gs).flatten.Perm (gs.flatten ++ [t]) ∧ ∀ g ∈ insertGroup rel t gs, g ≠ [] ∧ g.Pairwise fun a b => rel a b = true := by
    intro t gs
    induction gs with
    | nil => intro _; simp [insertGroup]
    | cons g gs ih =>
      intro h
      obtain ⟨i1, i2⟩ := ih fun x hx => h x (List.mem_cons_of_mem _ hx)
      obtain ⟨g1, g2⟩ := h g List.mem_cons_self
      unfold insertGroup
      split
      · rename_i hall
        rw [List.all_eq_true] at hall
        constructor
        · rw [List.flatten_cons, List.flatten_cons, List.append_assoc, List.append_assoc]
          exact List.Perm.append_left _ List.perm_append_comm
        · intro x hx
          rcases List.mem_cons.mp hx with rfl | hx
          · exact ⟨by simp, List.pairwise_append.mpr ⟨g2, List.pairwise_singleton _ _, fun a ha b hb => by
              rw [List.mem_singleton] at hb; subst hb; exact hall a ha⟩⟩
          · exact h x (List.mem_cons_of_mem _ hx)
      · constructor
        · rw [List.flatten_cons, List.flatten_cons, List.append_assoc]
          exact List.Perm.append_left _ i1
        · intro x hx
          rcases List.mem_cons.mp hx with rfl | hx
          · exact ⟨g1, g2⟩
          · exact i2 x hx
  have : ∀ (l : List α) (gs : List (List α)), (∀ g ∈ gs, g ≠ [] ∧ g.Pairwise fun a b => rel a b = true) →
      (l.foldl (fun gs t => insertGroup rel t gs) gs).flatten.Perm (gs.flatten ++ l) ∧
      ∀ g ∈ l.foldl (fun gs t => insertGroup rel t gs) gs, g ≠ [] ∧ g.Pairwise fun a b => rel a b = true := by
    intro l
    induction l with
    | nil => intro gs h; exact ⟨by simp, h⟩
    | cons t l ih =>
      intro gs h
      obtain ⟨s1, s2⟩ := step t gs h
      obtain ⟨r1, r2⟩ := ih _ s2
      refine ⟨r1.trans ?_, r2⟩
      have := List.Perm.append_right l s1
      simpa using this
  have h := this l [] (by simp)
  exact ⟨by simpa [insertAll] using h.1, h.2⟩

/-- `QubitOperator.group_up` (operators/qubit/qubit_operator.py:964-973). -/
def opGroups {R : Type} (rel : Term → Term → Bool) (d : QOp R) : List (QOp R) :=
  if (groupUp (fun a b : Term × R => rel a.1 b.1) d).length = 0 then [d] else groupUp (fun a b : Term × R => rel a.1 b.1) d

/-- C98: the operators returned by `group_up` add up to the operator. -/
theorem C98_sum {R : Type} (φ : R → ℂ) (n : Nat) (rel : Term → Term → Bool) (d : QOp R) :
    ((opGroups rel d).map (omat φ n)).sum = omat φ n d := by
  unfold opGroups
  split
  · simp
  · obtain ⟨h, _⟩ := C98_groups (fun a b : Term × R => rel a.1 b.1) d
    have e : ∀ gs : List (QOp R), (gs.map (omat φ n)).sum = omat φ n gs.flatten := by
      intro gs
      induction gs with
      | nil => rfl
      | cons g gs ih =>
        rw [List.map_cons, List.sum_cons, ih, List.flatten_cons]
        unfold omat
        rw [List.map_append, List.sum_append]
    rw [e]
    exact (h.map _).sum_eq

/-- One step of the sorted insertion of `commuting_qw_groups` (qubit_operator.py:1016-1031): every group has a basis term, which is tested
for qubit-wise commutativity and then updated with the factors of the new term. -/
def insertBase (t : Term) : List (Term × List Term) → List (Term × List Term)
  | [] => [(t, [t])]
  | (b, g) :: gs => if commuteQw b t (b.keys ++ t.keys) then (t ++ b, g ++ [t]) :: gs else (b, g) :: insertBase t gs

theorem comm_trans (f g h : Fac) (hg : g ≠ .I) (h1 : table f g = table g f) (h2 : table g h = table h g) : table f h = table h f := by
  revert f g h; decide +kernel

theorem qw_all {a b : Term} (h : commuteQw a b (a.keys ++ b.keys) = true) (k : Nat) : table (a.get k) (b.get k) = table (b.get k) (a.get k) := by
  rw [commuteQw_iff] at h
  by_cases hk : k ∈ a.keys ++ b.keys
  · exact h k hk
  · rw [List.mem_append, not_or] at hk
    rw [get_notin hk.1, get_notin hk.2]

theorem get_I_notin {t : Term} (h : NoI t) {k : Nat} (hk : t.get k = .I) : k ∉ t.keys := by
  intro hm
  induction t with
  | nil => simp [Term.keys] at hm
  | cons p t ih =>
    obtain ⟨j, f⟩ := p
    by_cases e : k = j
    · subst e
      have : Term.get ((k, f) :: t) k = f := by simp [Term.get]
      rw [this] at hk
      exact h (k, f) List.mem_cons_self hk
    · have hb : (k == j) = false := by simpa using e
      have : Term.get ((j, f) :: t) k = Term.get t k := by simp [Term.get, List.lookup_cons, hb]
      rw [this] at hk
      have hm' : k ∈ Term.keys t := by
        have : k ∈ j :: Term.keys t := hm
        rcases List.mem_cons.mp this with h' | h'
        · exact absurd h' e
        · exact h'
      exact ih (fun x hx => h x (List.mem_cons_of_mem _ hx)) hk hm'

/-- C98: the sorted insertion by basis terms partitions the terms, and any two terms of a group commute on every qubit. -/
theorem C98_qw_insertion (l : List Term) (hl : ∀ t ∈ l, NoI t) :
    ((l.foldl (fun gs t => insertBase t gs) []).map Prod.snd).flatten.Perm l ∧ ∀ g ∈ (l.foldl (fun gs t => insertBase t gs) []).map Prod.snd,
      g.Pairwise fun a b => ∀ k, mat (a.get k) * mat (b.get k) = mat (b.get k) * mat (a.get k) := by
  let Inv : Term × List Term → Prop := fun p => (∀ m ∈ p.2, ∀ k, table (m.get k) (p.1.get k) = table (p.1.get k) (m.get k) ∧
      (p.1.get k = .I → m.get k = .I)) ∧ p.2.Pairwise fun a b => ∀ k, table (a.get k) (b.get k) = table (b.get k) (a.get k)
  have step : ∀ (t : Term), NoI t → ∀ (gs : List (Term × List Term)), (∀ p ∈ gs, Inv p) →
      ((insertBase t gs).map Prod.snd).flatten.Perm ((gs.map Prod.snd).flatten ++ [t]) ∧ ∀ p ∈ insertBase t gs, Inv p := by
    intro t ht gs
    induction gs with
    | nil =>
      intro _
      refine ⟨by simp [insertBase], fun p hp => ?_⟩
      simp only [insertBase, List.mem_singleton] at hp
      subst hp
      refine ⟨fun m hm k => ?_, List.pairwise_singleton _ _⟩
      rw [List.mem_singleton] at hm
      subst hm
      exact ⟨rfl, id⟩
    | cons p gs ih =>
      intro h
      obtain ⟨b, g⟩ := p
      obtain ⟨i1, i2⟩ := ih fun x hx => h x (List.mem_cons_of_mem _ hx)
      obtain ⟨g1, g2⟩ := h (b, g) List.mem_cons_self
      unfold insertBase
      by_cases hc : commuteQw b t (b.keys ++ t.keys) = true
      · rw [if_pos hc]
        have hbt := qw_all hc
        have hmt : ∀ m ∈ g, ∀ k, table (m.get k) (t.get k) = table (t.get k) (m.get k) := by
          intro m hm k
          obtain ⟨q1, q2⟩ := g1 m hm k
          by_cases hI : b.get k = .I
          · rw [q2 hI]
            have : ∀ f : Fac, table .I f = table f .I := by decide +kernel
            exact this _
          · exact comm_trans _ _ _ hI q1 (hbt k)
        constructor
        · rw [List.map_cons, List.map_cons, List.flatten_cons, List.flatten_cons, List.append_assoc, List.append_assoc]
          exact List.Perm.append_left _ List.perm_append_comm
        · intro p hp
          rcases List.mem_cons.mp hp with rfl | hp
          · constructor
            · intro m hm k
              rw [show Term.get ((t ++ b, g ++ [t]) : Term × List Term).1 k = Term.get (t ++ b) k from rfl, get_append]
              by_cases hk : k ∈ t.keys
              · rw [if_pos hk]
                have hne : t.get k ≠ .I := fun e => get_I_notin ht e hk
                refine ⟨?_, fun e => absurd e hne⟩
                rcases List.mem_append.mp hm with hm | hm
                · exact hmt m hm k
                · rw [List.mem_singleton] at hm; subst hm; rfl
              · rw [if_neg hk]
                rcases List.mem_append.mp hm with hm | hm
                · exact g1 m hm k
                · rw [List.mem_singleton] at hm
                  subst hm
                  exact ⟨(hbt k).symm, fun _ => get_notin hk⟩
            · exact List.pairwise_append.mpr ⟨g2, List.pairwise_singleton _ _, fun a ha c hc' => by
                rw [List.mem_singleton] at hc'; subst hc'; exact hmt a ha⟩
          · exact h p (List.mem_cons_of_mem _ hp)
      · rw [if_neg hc]
        constructor
        · rw [List.map_cons, List.map_cons, List.flatten_cons, List.flatten_cons, List.append_assoc]
          exact List.Perm.append_left _ i1
        · intro p hp
          rcases List.mem_cons.mp hp with rfl | hp
          · exact ⟨g1, g2⟩
          · exact i2 p hp
  have all : ∀ (l : List Term), (∀ t ∈ l, NoI t) → ∀ (gs : List (Term × List Term)), (∀ p ∈ gs, Inv p) →
      ((l.foldl (fun gs t => insertBase t gs) gs).map Prod.snd).flatten.Perm ((gs.map Prod.snd).flatten ++ l) ∧
      ∀ p ∈ l.foldl (fun gs t => insertBase t gs) gs, Inv p := by
    intro l
    induction l with
    | nil => intro _ gs h; exact ⟨by simp, h⟩
    | cons t l ih =>
      intro hl gs h
      obtain ⟨s1, s2⟩ := step t (hl t List.mem_cons_self) gs h
      obtain ⟨r1, r2⟩ := ih (fun x hx => hl x (List.mem_cons_of_mem _ hx)) _ s2
      refine ⟨r1.trans ?_, r2⟩
      have := List.Perm.append_right l s1
      simpa using this
  obtain ⟨h1, h2⟩ := all l hl [] (by simp)
  refine ⟨by simpa using h1, fun g hg => ?_⟩
  obtain ⟨p, hp, rfl⟩ := List.mem_map.mp hg
  exact (h2 p hp).2.imp fun h k => table_comm.mp (h k)

example : groupUp (fun a b => decide ((a + b) % 2 = 0)) [1, 2, 3, 4, 5] = [[2, 4], [1, 3, 5]] := by decide +kernel

example : insertAll (fun a b => decide ((a + b) % 3 ≠ 0)) [1, 2, 4, 5, 3] = [[1, 4, 3], [2, 5]] := by decide +kernel

end Verif.Props
