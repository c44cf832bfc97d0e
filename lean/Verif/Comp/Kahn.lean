import Verif.Comp.Dag
import Mathlib.Algebra.BigOperators.Group.List.Basic

/-!
# Topological sorting

Model of `permeability/qc_transformations/qc_parallelization.py:153-240` (Kahn's algorithm with a cost function)
and of the same loop in `memory_management.py:243-268`. Nodes are the positions `0 .. n-1`, `adj u` is the slice
`indices[indptr[u]:indptr[u+1]]`.
-/

namespace Verif.Comp

/-- Loop variables: `in_degree`, `queue`, `top_order[:cnt]` and the data the selection depends on. -/
structure KS (σ : Type) where
  indeg : Nat → Nat
  queue : List Nat
  order : List Nat
  acc : σ

variable {σ : Type}

/-- qc_parallelization.py:163-165: the number of incoming edges. -/
def indeg0 (n : Nat) (adj : Nat → List Nat) (v : Nat) : Nat :=
  (List.range n).foldl (fun k u => k + (adj u).count v) 0

/-- qc_parallelization.py:169-173. -/
def kahnInit (n : Nat) (adj : Nat → List Nat) (a : σ) : KS σ :=
  ⟨indeg0 n adj, (List.range n).filter fun v => indeg0 n adj v == 0, [], a⟩

/-- qc_parallelization.py:234-236: one child. -/
def relax1 (s : KS σ) (c : Nat) : KS σ :=
  { s with
    indeg := upd s.indeg c (s.indeg c - 1)
    queue := if s.indeg c - 1 = 0 then s.queue ++ [c] else s.queue }

/-- qc_parallelization.py:217-238: take the node at position `pick acc queue` out of the queue. -/
def kahnStep (adj : Nat → List Nat) (pick : σ → List Nat → Nat) (f : σ → Nat → σ) (s : KS σ) : KS σ :=
  match s.queue[pick s.acc s.queue]? with
  | none => s
  | some u =>
    (adj u).foldl relax1
      { s with
        queue := s.queue.eraseIdx (pick s.acc s.queue)
        order := s.order ++ [u]
        acc := f s.acc u }

/-- qc_parallelization.py:185-238: every pass takes one of the `n` nodes out, so `n` passes empty the queue. -/
def kahnLoop (adj : Nat → List Nat) (pick : σ → List Nat → Nat) (f : σ → Nat → σ) : Nat → KS σ → KS σ
  | 0, s => s
  | k + 1, s => if s.queue = [] then s else kahnLoop adj pick f k (kahnStep adj pick f s)

def kahn (n : Nat) (adj : Nat → List Nat) (pick : σ → List Nat → Nat) (f : σ → Nat → σ) (a : σ) : KS σ :=
  kahnLoop adj pick f n (kahnInit n adj a)

/-! ### Correctness -/

/-- Weight of the edges into `v` from nodes outside `done`. -/
def pending (n : Nat) (adj : Nat → List Nat) (done : List Nat) (v : Nat) : Nat :=
  (((List.range n).filter fun u => !done.contains u).map fun u => (adj u).count v).sum

theorem indeg0_eq (n : Nat) (adj : Nat → List Nat) (v : Nat) : indeg0 n adj v = pending n adj [] v := by
  unfold indeg0 pending
  have : ∀ (l : List Nat) (k : Nat), l.foldl (fun k u => k + (adj u).count v) k
      = k + (l.map fun u => (adj u).count v).sum := by
    intro l
    induction l with
    | nil => simp
    | cons u l ih => intro k; rw [List.foldl_cons, ih, List.map_cons, List.sum_cons]; omega
  rw [this]
  simp

theorem pending_done {n : Nat} {adj : Nat → List Nat} {done : List Nat} {u v : Nat} (hu : u < n)
    (hd : u ∉ done) : pending n adj done v = (adj u).count v + pending n adj (done ++ [u]) v := by
  unfold pending
  have : ∀ l : List Nat, l.Nodup → u ∈ l →
      ((l.filter fun u => !done.contains u).map fun u => (adj u).count v).sum
      = (adj u).count v + ((l.filter fun w => !(done ++ [u]).contains w).map fun u => (adj u).count v).sum := by
    intro l
    induction l with
    | nil => simp
    | cons w l ih =>
      intro hn hm
      rw [List.nodup_cons] at hn
      by_cases e : w = u
      · subst e
        have h1 : (w :: l).filter (fun u => !done.contains u) = w :: l.filter fun u => !done.contains u := by
          rw [List.filter_cons, if_pos (by simpa using hd)]
        have h2 : (w :: l).filter (fun x => !(done ++ [w]).contains x) = l.filter fun u => !done.contains u := by
          rw [List.filter_cons, if_neg (by simp)]
          apply List.filter_congr
          intro x hx
          have : x ≠ w := fun e => hn.1 (e ▸ hx)
          simp [this]
        rw [h1, h2, List.map_cons, List.sum_cons]
      · have hm' : u ∈ l := by
          rcases List.mem_cons.1 hm with h | h
          · exact absurd h.symm e
          · exact h
        have ih := ih hn.2 hm'
        have hc : (done ++ [u]).contains w = done.contains w := by simp [e]
        rw [List.filter_cons, List.filter_cons, hc]
        by_cases hw : done.contains w = true
        · simp only [hw, Bool.not_true, Bool.false_eq_true, if_false]
          exact ih
        · simp only [hw, Bool.not_false, if_true, List.map_cons, List.sum_cons]
          omega
  exact this _ List.nodup_range (List.mem_range.2 hu)

/-- Invariant of the loop over the children of `u`: `l` is still to be done. -/
structure RInv (n : Nat) (adj : Nat → List Nat) (done : List Nat) (l : List Nat) (s : KS σ) : Prop where
  indeg : ∀ v, s.indeg v = pending n adj done v + l.count v
  nodup : (done ++ s.queue).Nodup
  mem : ∀ v, v ∈ done ++ s.queue ↔ v < n ∧ s.indeg v = 0

theorem relax_inv {n : Nat} {adj : Nat → List Nat} {done : List Nat} : ∀ (l : List Nat) {s : KS σ},
    (∀ c ∈ l, c < n) → RInv n adj done l s →
    RInv n adj done [] (l.foldl relax1 s) ∧ (l.foldl relax1 s).order = s.order ∧ (l.foldl relax1 s).acc = s.acc := by
  intro l
  induction l with
  | nil => intro s _ h; exact ⟨h, rfl, rfl⟩
  | cons c l ih =>
    intro s hc h
    rw [List.foldl_cons]
    have hpos : s.indeg c = pending n adj done c + (l.count c + 1) := by
      rw [h.indeg c, List.count_cons_self]
    have hnc : c ∉ done ++ s.queue := fun hm => by
      have := ((h.mem c).1 hm).2
      omega
    have key : RInv n adj done l (relax1 s c) := by
      refine ⟨?_, ?_, ?_⟩
      · intro v
        change upd s.indeg c (s.indeg c - 1) v = _
        by_cases e : v = c
        · subst e
          simp only [upd, if_true]
          omega
        · simp only [upd, e, if_false]
          rw [h.indeg v, List.count_cons_of_ne (fun e' => e e'.symm)]
      · unfold relax1
        by_cases h0 : s.indeg c - 1 = 0
        · simp only [h0, if_true]
          rw [← List.append_assoc]
          exact List.nodup_append.2 ⟨h.nodup, by simp, by
            intro a ha b hb
            rw [List.mem_singleton] at hb
            subst hb
            exact fun e => hnc (e ▸ ha)⟩
        · simp only [h0, if_false]
          exact h.nodup
      · intro v
        have hm := h.mem v
        by_cases h0 : s.indeg c - 1 = 0
        · have eq : (relax1 s c).queue = s.queue ++ [c] := by simp [relax1, h0]
          rw [eq, ← List.append_assoc, List.mem_append, List.mem_singleton, hm]
          change _ ↔ v < n ∧ upd s.indeg c (s.indeg c - 1) v = 0
          by_cases e : v = c
          · subst e
            simp only [upd, if_true, h0, or_true, and_true, true_iff]
            exact hc v (by simp)
          · simp [upd, e]
        · have eq : (relax1 s c).queue = s.queue := by simp [relax1, h0]
          rw [eq, hm]
          change _ ↔ v < n ∧ upd s.indeg c (s.indeg c - 1) v = 0
          by_cases e : v = c
          · subst e
            simp only [upd, if_true]
            constructor
            · rintro ⟨_, h⟩; omega
            · rintro ⟨_, h⟩; exact absurd h h0
          · simp [upd, e]
    obtain ⟨i1, i2, i3⟩ := ih (fun x hx => hc x (by simp [hx])) key
    exact ⟨i1, i2.trans rfl, i3.trans rfl⟩

/-- Loop invariant. -/
structure KInv (n : Nat) (adj : Nat → List Nat) (f : σ → Nat → σ) (a : σ) (s : KS σ) : Prop where
  r : RInv n adj s.order [] s
  topo : ∀ u v, u < n → v ∈ adj u → v ∈ s.order → [u, v].Sublist s.order
  acc : s.acc = s.order.foldl f a

theorem pending_zero {n : Nat} {adj : Nat → List Nat} {done : List Nat} {v : Nat}
    (h : pending n adj done v = 0) {u : Nat} (hu : u < n) (hv : v ∈ adj u) : u ∈ done := by
  by_contra hc
  have := pending_done (adj := adj) (v := v) hu hc
  have h1 : 0 < (adj u).count v := List.count_pos_iff.2 hv
  omega

theorem kahnStep_inv {n : Nat} {adj : Nat → List Nat} {pick : σ → List Nat → Nat} {f : σ → Nat → σ} {a : σ}
    {s : KS σ} (hadj : ∀ u v, u < n → v ∈ adj u → v < n) (h : KInv n adj f a s)
    (hp : pick s.acc s.queue < s.queue.length) :
    KInv n adj f a (kahnStep adj pick f s) ∧ (kahnStep adj pick f s).order.length = s.order.length + 1 := by
  unfold kahnStep
  rw [List.getElem?_eq_getElem hp]
  simp only
  set i := pick s.acc s.queue with hi
  set u := s.queue[i] with hu
  have huq : u ∈ s.queue := List.getElem_mem hp
  have hun : u < n := ((h.r.mem u).1 (List.mem_append_right _ huq)).1
  have hu0 : s.indeg u = 0 := ((h.r.mem u).1 (List.mem_append_right _ huq)).2
  have hud : u ∉ s.order := fun hm => by
    have := h.r.nodup
    rw [List.nodup_append] at this
    exact this.2.2 u hm u huq rfl
  have hperm : (s.order ++ [u] ++ s.queue.eraseIdx i).Perm (s.order ++ s.queue) := by
    rw [List.append_assoc]
    apply List.Perm.append_left
    exact (List.getElem_cons_eraseIdx_perm hp)
  obtain ⟨r1, r2, r3⟩ := relax_inv (n := n) (adj := adj) (done := s.order ++ [u]) (adj u)
    (s := { s with queue := s.queue.eraseIdx i, order := s.order ++ [u], acc := f s.acc u })
    (fun c hc => hadj u c hun hc) (by
      refine ⟨?_, ?_, ?_⟩
      · intro v
        change s.indeg v = _
        rw [h.r.indeg v, pending_done hun hud, List.count_nil]
        omega
      · exact hperm.nodup_iff.2 h.r.nodup
      · intro v
        rw [hperm.mem_iff]
        exact h.r.mem v)
  simp only at r2 r3
  refine ⟨⟨?_, ?_, ?_⟩, ?_⟩
  · rw [r2]; exact r1
  · rw [r2]
    intro x v hx hv hm
    rcases List.mem_append.1 hm with hm | hm
    · exact (h.topo x v hx hv hm).trans (List.sublist_append_left _ _)
    · rw [List.mem_singleton] at hm
      subst hm
      have hz : pending n adj s.order u = 0 := by
        have := h.r.indeg u
        rw [List.count_nil] at this
        omega
      have := pending_zero hz hx hv
      exact List.Sublist.append (List.singleton_sublist.2 this) (List.Sublist.refl [u])
  · rw [r2, r3, h.acc, List.foldl_append]
    rfl
  · rw [r2]
    simp

theorem kahnLoop_inv {n : Nat} {adj : Nat → List Nat} {pick : σ → List Nat → Nat} {f : σ → Nat → σ} {a : σ}
    (hadj : ∀ u v, u < n → v ∈ adj u → v < n) (hp : ∀ a q, q ≠ [] → pick a q < q.length) (k : Nat) :
    ∀ {s : KS σ}, KInv n adj f a s → KInv n adj f a (kahnLoop adj pick f k s) ∧
      ((kahnLoop adj pick f k s).queue = [] ∨ (kahnLoop adj pick f k s).order.length = s.order.length + k) := by
  induction k with
  | zero => intro s h; exact ⟨h, Or.inr rfl⟩
  | succ k ih =>
    intro s h
    rw [kahnLoop]
    by_cases hq : s.queue = []
    · rw [if_pos hq]; exact ⟨h, Or.inl hq⟩
    · rw [if_neg hq]
      obtain ⟨h1, h2⟩ := kahnStep_inv hadj h (hp _ _ hq)
      obtain ⟨i1, i2⟩ := ih h1
      refine ⟨i1, i2.imp id fun e => by omega⟩

theorem kahnInit_inv {n : Nat} {adj : Nat → List Nat} (f : σ → Nat → σ) (a : σ) :
    KInv n adj f a (kahnInit n adj a) := by
  refine ⟨⟨?_, ?_, ?_⟩, ?_, rfl⟩
  · intro v
    change indeg0 n adj v = _
    rw [indeg0_eq]
    rfl
  · exact List.nodup_range.filter _
  · intro v
    change v ∈ (List.range n).filter _ ↔ v < n ∧ indeg0 n adj v = 0
    rw [List.mem_filter, List.mem_range]
    simp
  · intro u v _ _ hm
    cases hm

/-- **Kahn's algorithm orders an acyclic graph**, whatever node of the queue it takes: every node occurs
once and every edge points forward. -/
theorem kahn_order {n : Nat} {adj : Nat → List Nat} {pick : σ → List Nat → Nat} {f : σ → Nat → σ} {a : σ}
    (hadj : ∀ u v, u < n → v ∈ adj u → v < n) (hp : ∀ a q, q ≠ [] → pick a q < q.length)
    (hac : ∃ rk : Nat → Nat, ∀ u v, u < n → v ∈ adj u → rk u < rk v) :
    (kahn n adj pick f a).order.Perm (List.range n) ∧
    (∀ u v, u < n → v ∈ adj u → [u, v].Sublist (kahn n adj pick f a).order) ∧
    (kahn n adj pick f a).acc = (kahn n adj pick f a).order.foldl f a := by
  obtain ⟨h, hend⟩ := kahnLoop_inv hadj hp n (kahnInit_inv (n := n) (adj := adj) f a)
  change KInv n adj f a (kahn n adj pick f a) at h
  change (kahn n adj pick f a).queue = [] ∨ (kahn n adj pick f a).order.length = 0 + n at hend
  set s := kahn n adj pick f a with hs
  have hsub : ∀ v ∈ s.order, v ∈ List.range n := fun v hv =>
    List.mem_range.2 ((h.r.mem v).1 (List.mem_append_left _ hv)).1
  have hnd : s.order.Nodup := (List.nodup_append.1 h.r.nodup).1
  have hperm : s.order.Perm (List.range n) := by
    rcases hend with hq | hl
    · refine (List.perm_ext_iff_of_nodup hnd List.nodup_range).2 fun v => ⟨hsub v, fun hv => ?_⟩
      rw [List.mem_range] at hv
      obtain ⟨rk, hrk⟩ := hac
      have main : ∀ m v, v < n → rk v = m → v ∈ s.order := by
        intro m
        induction m using Nat.strongRecOn with
        | ind m ih =>
          intro v hv hm
          have hz : pending n adj s.order v = 0 := by
            unfold pending
            rw [List.sum_eq_zero]
            intro x hx
            obtain ⟨u, hu, rfl⟩ := List.mem_map.1 hx
            rw [List.mem_filter, List.mem_range] at hu
            by_contra hc
            have hvu : v ∈ adj u := List.count_pos_iff.1 (by omega)
            have hlt := hrk u v hu.1 hvu
            have := ih (rk u) (by omega) u hu.1 rfl
            simp [this] at hu
          have hm0 := (h.r.mem v).2 ⟨hv, by rw [h.r.indeg v, hz]; rfl⟩
          rw [hq, List.append_nil] at hm0
          exact hm0
      exact main _ v hv rfl
    · exact (List.subperm_of_subset hnd hsub).perm_of_length_le (by simp [hl])
  refine ⟨hperm, ?_, h.acc⟩
  intro u v hu hv
  exact h.topo u v hu hv (hperm.mem_iff.2 (List.mem_range.2 (hadj u v hu hv)))

end Verif.Comp
