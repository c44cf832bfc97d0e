import Verif.Comp.Kahn

/-!
# Parallelisation and allocation order

Model of `permeability/qc_transformations/qc_parallelization.py` and
`permeability/qc_transformations/memory_management.py`.
-/

namespace Verif.Comp

variable {L : Type}

/-! ### The graph as the sorting functions see it -/

/-- `list(G.nodes())[p]` (qc_parallelization.py:109, memory_management.py:135). -/
def Dag.at (d : Dag L) (p : Nat) : Nat := d.stay.getD p 0

/-- Whether there is an edge between two positions. -/
def Dag.edgeP (d : Dag L) (p r : Nat) : Bool := d.stayEdges.any fun e => e.src == d.at p && e.dst == d.at r

/-- `indices[indptr[p]:indptr[p+1]]` of the adjacency matrix (qc_parallelization.py:107,
memory_management.py:149). -/
def Dag.adjP (d : Dag L) (p : Nat) : List Nat := (List.range d.stay.length).filter (d.edgeP p)

/-- qc_parallelization.py:97-148 `parallelize_qc`. The costs by which a node is taken from the queue (lines
187-217, floating point numbers computed from the depths `σ`) enter as `pick`, the update of the depths (lines
221-230) as `f`. -/
def parallelize {σ : Type} (pick : σ → List Nat → Nat) (f : σ → Nat → σ) (a : σ) (data : List (Instr L)) :
    Option (List (Instr L)) :=
  if data.length ≤ 1 then some data
  else (dagOf data).map fun d =>
    emit d.nodes ((kahn d.stay.length d.adjP pick f a).order.map d.at)

/-- memory_management.py:257-263: a node hands its ancestors and itself to its children. -/
def ancStep (adj : Nat → List Nat) (A : Nat → Nat → Bool) (u : Nat) : Nat → Nat → Bool :=
  (adj u).foldl (fun A c => upd A c fun x => A c x || A u x) (upd A u (upd (A u) u true))

/-- memory_management.py:243-268 `compute_all_ancestors_dense`; the queue is first in first out. -/
def ancestors (n : Nat) (adj : Nat → List Nat) : Nat → Nat → Bool :=
  (kahn n adj (fun _ _ => 0) (ancStep adj) fun _ _ => false).acc

/-- First position of the least value among `f 0 .. f n` (`np.argmin`). -/
def argmin (f : Nat → Nat) : Nat → Nat
  | 0 => 0
  | n + 1 => if f (n + 1) < f (argmin f n) then n + 1 else argmin f n

/-- Variables of the loop memory_management.py:203-234. -/
structure TS where
  dep : Nat → Nat → Nat
  rem : Nat → Bool
  res : List Nat

/-- One pass of the loop memory_management.py:203-234. -/
def topoStep (N : Nat) (anc : Nat → Nat → Bool) (delay prefer : List Nat) (s : TS) : TS :=
  let k := argmin (fun i => ((List.range delay.length).map (s.dep i)).sum) (prefer.length - 1)
  let batch := (List.range N).filter fun v => anc (prefer.getD k 0) v && s.rem v
  { dep := fun i j => if i = k then 1 else min (s.dep i j - s.dep k j) 1
    rem := fun v => s.rem v && !batch.contains v
    res := s.res ++ batch }

/-- memory_management.py:174-240 `toposort_helper_dense`. -/
def toposort (N : Nat) (anc : Nat → Nat → Bool) (delay prefer : List Nat) : List Nat :=
  let s0 : TS := ⟨fun i j => if anc (prefer.getD i 0) (delay.getD j 0) then 1 else 0, fun _ => true, []⟩
  let s := if delay.length ≠ 0 then (List.range prefer.length).foldl (fun s _ => topoStep N anc delay prefer s) s0
    else s0
  s.res ++ (List.range N).filter s.rem

/-- memory_management.py:102-159 `topological_sort`, as positions. -/
def topologicalSort (d : Dag L) (prefer delay : Instr L → Bool) : List Nat :=
  let ins := fun p => (d.nodes[d.at p]?).bind NK.ins
  let pr := (List.range d.stay.length).filter fun p => ((ins p).map prefer).getD false
  let de := (List.range d.stay.length).filter fun p => ((ins p).map fun i => !prefer i && delay i).getD false
  if pr.length = 0 then List.range d.stay.length
  else toposort d.stay.length (ancestors d.stay.length d.adjP) de pr

/-- memory_management.py:64-80: `dic` is `delayed_qubit_alloc_dic`. `srt` is the order of the hash values. -/
def delayLoop (srt : List Nat → List Nat) : List (Nat × Instr L) → List (Instr L) → List (Instr L)
  | dic, [] => dic.map Prod.snd
  | dic, i :: r =>
    if i.kind = .alloc then
      let q := i.qubits.headD 0
      delayLoop srt (if dic.any (fun e => e.1 == q) then dic.map fun e => if e.1 == q then (q, i) else e
        else dic ++ [(q, i)]) r
    else
      let qs := srt ((dic.map Prod.fst).filter fun q => i.qubits.contains q)
      qs.filterMap (fun q => dic.lookup q) ++ i :: delayLoop srt (dic.filter fun e => !i.qubits.contains e.1) r

/-- memory_management.py:24-84 `optimize_allocations`. -/
def optimizeAllocations (srt : List Nat → List Nat) (data : List (Instr L)) : Option (List (Instr L)) :=
  (dagOf data).map fun d =>
    delayLoop srt [] (emit d.nodes ((topologicalSort d (fun i => i.kind = .dealloc) fun i => i.kind = .alloc).map d.at))

/-! ### Positions -/

theorem stay_nodup (d : Dag L) : d.stay.Nodup := List.nodup_range.filter _

theorem stay_sorted (d : Dag L) : d.stay.Pairwise (· < ·) := List.Pairwise.sublist List.filter_sublist List.pairwise_lt_range

theorem at_eq {d : Dag L} {p : Nat} (h : p < d.stay.length) : d.at p = d.stay[p] := by
  unfold Dag.at
  rw [List.getD_eq_getElem?_getD, List.getElem?_eq_getElem h]
  rfl

theorem map_at_range (d : Dag L) : (List.range d.stay.length).map d.at = d.stay := by
  apply List.ext_getElem
  · simp
  · intro i h1 h2
    rw [List.getElem_map, List.getElem_range, at_eq h2]

theorem at_inj {d : Dag L} {p r : Nat} (hp : p < d.stay.length) (hr : r < d.stay.length) (h : d.at p = d.at r) :
    p = r := by
  rw [at_eq hp, at_eq hr] at h
  exact (stay_nodup d).getElem_inj_iff.1 h

theorem at_lt {d : Dag L} {p r : Nat} (hp : p < d.stay.length) (hr : r < d.stay.length) :
    d.at p < d.at r ↔ p < r := by
  have mono : ∀ {p r : Nat}, p < d.stay.length → r < d.stay.length → p < r → d.at p < d.at r := by
    intro p r hp hr h
    rw [at_eq hp, at_eq hr]
    exact List.pairwise_iff_getElem.1 (stay_sorted d) p r hp hr h
  constructor
  · intro h
    by_contra hc
    rcases Nat.lt_or_ge r p with h' | h'
    · have := mono hr hp h'
      omega
    · have : p = r := by omega
      subst this
      omega
  · exact mono hp hr

theorem edgeP_iff {d : Dag L} {p r : Nat} : d.edgeP p r = true ↔ Step d.stayEdges (d.at p) (d.at r) := by
  unfold Dag.edgeP Step
  rw [List.any_eq_true]
  simp only [Bool.and_eq_true, beq_iff_eq]

theorem mem_adjP {d : Dag L} {p r : Nat} :
    r ∈ d.adjP p ↔ r < d.stay.length ∧ Step d.stayEdges (d.at p) (d.at r) := by
  unfold Dag.adjP
  rw [List.mem_filter, List.mem_range, edgeP_iff]

/-- Paths over positions. -/
def PReach (n : Nat) (adj : Nat → List Nat) : Nat → Nat → Prop :=
  Relation.ReflTransGen fun a b => a < n ∧ b ∈ adj a

theorem preach_of_reach {d : Dag L} {v w : Nat} (hr : Reach d.stayEdges v w) {p : Nat}
    (hp : p < d.stay.length) (e : d.at p = v) :
    ∃ r, r < d.stay.length ∧ d.at r = w ∧ PReach d.stay.length d.adjP p r := by
  induction hr with
  | refl => exact ⟨p, hp, e, .refl⟩
  | @tail b c _ hs ih =>
    obtain ⟨r, h1, h2, h3⟩ := ih
    obtain ⟨x, hx, hx2⟩ := List.getElem_of_mem (step_stay.1 hs).2.2
    have hx3 : d.at x = c := by rw [at_eq hx]; exact hx2
    exact ⟨x, hx, hx3, h3.tail ⟨h1, mem_adjP.2 ⟨hx, by rw [h2, hx3]; exact hs⟩⟩⟩

theorem adjP_lt {d : Dag L} {u v : Nat} (h : v ∈ d.adjP u) : v < d.stay.length := (mem_adjP.1 h).1

theorem Made.acycP {d : Dag L} {data : List (Instr L)} (h : Made d data) :
    ∃ rk : Nat → Nat, ∀ u v, u < d.stay.length → v ∈ d.adjP u → rk u < rk v := by
  obtain ⟨rk, hrk⟩ := h.acyc
  exact ⟨fun p => rk (d.at p), fun u v _ hv => hrk _ _ (mem_adjP.1 hv).2⟩

/-- An order of the positions that keeps the order of connected positions has the effect of the circuit. -/
theorem Made.reorderP {d : Dag L} {data : List (Instr L)} (h : Made d data) {ord : List Nat}
    (hp : ord.Perm (List.range d.stay.length))
    (hf : ∀ p r, p < r → r < d.stay.length → PReach d.stay.length d.adjP p r → [p, r].Sublist ord)
    {σ : Type} (I : Interp L σ) (s : σ) :
    runI I.act (emit d.nodes (ord.map d.at)) s = runI I.act data s := by
  refine h.reorder ?_ ?_ I s
  · rw [← map_at_range d]
    exact hp.map _
  · intro v w a b i j hvw ha hb hi hj hr
    have hv : v ∈ d.stay := mem_stay.2 ⟨a, ha, by
      cases a with
      | alloc q o => simp only [NK.ins] at hi; subst hi; rfl
      | op i => rfl
      | term q => rfl⟩
    obtain ⟨p, hp1, hp2⟩ := List.getElem_of_mem hv
    have ep : d.at p = v := by rw [at_eq hp1]; exact hp2
    obtain ⟨r, hr1, er, hr2⟩ := preach_of_reach hr hp1 ep
    have hlt : p < r := (at_lt hp1 hr1).1 (by rw [ep, er]; exact hvw)
    have := (hf p r hlt hr1 hr2).map d.at
    simpa [ep, er] using this

theorem preach_sublist {n : Nat} {adj : Nat → List Nat} {ord : List Nat} (hn : ord.Nodup)
    (hf : ∀ u v, u < n → v ∈ adj u → [u, v].Sublist ord) {a b : Nat} (h : PReach n adj a b) :
    a = b ∨ [a, b].Sublist ord := by
  induction h with
  | refl => exact Or.inl rfl
  | tail _ hs ih =>
    rcases ih with rfl | ih
    · exact Or.inr (hf _ _ hs.1 hs.2)
    · exact Or.inr (pair_trans hn ih (hf _ _ hs.1 hs.2))

theorem parallelize_effect {σ τ : Type} {pick : σ → List Nat → Nat} {f : σ → Nat → σ} {a : σ}
    (hp : ∀ a q, q ≠ [] → pick a q < q.length) {data out : List (Instr L)} (ho : ∀ i ∈ data, InsOK i)
    (h : parallelize pick f a data = some out) (I : Interp L τ) (s : τ) :
    runI I.act out s = runI I.act data s := by
  unfold parallelize at h
  by_cases hl : data.length ≤ 1
  · rw [if_pos hl, Option.some.injEq] at h
    rw [h]
  · rw [if_neg hl] at h
    obtain ⟨d, hd, rfl⟩ := Option.map_eq_some_iff.1 h
    have hm : Made d data := ⟨ho, hd⟩
    obtain ⟨k1, k2, _⟩ := kahn_order (f := f) (a := a) (fun u v _ hv => adjP_lt hv) hp hm.acycP
    refine hm.reorderP k1 ?_ I s
    intro p r hlt _ hr
    rcases preach_sublist (k1.nodup_iff.2 List.nodup_range) k2 hr with e | e
    · omega
    · exact e

/-! ### Ancestors -/

theorem ancStep_get {adj : Nat → List Nat} {u : Nat} (hu : u ∉ adj u) (A : Nat → Nat → Bool) (v x : Nat) :
    ancStep adj A u v x = (A v x || (decide (v = u) && decide (x = u)) ||
      (decide (v ∈ adj u) && (A u x || decide (x = u)))) := by
  unfold ancStep
  have key : ∀ (l : List Nat) (B : Nat → Nat → Bool), u ∉ l →
      l.foldl (fun (A : Nat → Nat → Bool) c => upd A c fun x => A c x || A u x) B v x = (B v x || (decide (v ∈ l) && B u x)) := by
    intro l
    induction l with
    | nil => simp
    | cons c l ih =>
      intro B hl
      rw [List.mem_cons, not_or] at hl
      rw [List.foldl_cons, ih _ hl.2]
      have hbu : upd B c (fun x => B c x || B u x) u x = B u x := by simp [upd, hl.1]
      rw [hbu]
      by_cases hv : v = c
      · subst hv
        simp only [upd, if_true, List.mem_cons, true_or, decide_true, Bool.true_and]
        cases B v x <;> cases B u x <;> simp
      · simp [upd, hv]
  rw [key _ _ hu]
  by_cases hv : v = u
  · subst hv
    by_cases hx : x = v
    · simp [upd, hx]
    · simp [upd, hx, hu]
  · by_cases hx : x = u
    · simp [upd, hv, hx]
    · simp [upd, hv, hx]

/-- **The ancestor matrix holds the ancestors.** -/
theorem ancestors_spec {n : Nat} {adj : Nat → List Nat} (hadj : ∀ u v, u < n → v ∈ adj u → v < n)
    (hac : ∃ rk : Nat → Nat, ∀ u v, u < n → v ∈ adj u → rk u < rk v) {v : Nat} (hv : v < n) (x : Nat) :
    ancestors n adj v x = true ↔ PReach n adj x v := by
  obtain ⟨k1, k2, k3⟩ := kahn_order (f := ancStep adj) (a := fun _ _ => false) (pick := fun _ _ => 0) hadj
    (fun _ q hq => List.length_pos_iff.2 hq) hac
  unfold ancestors
  rw [k3]
  set ord := (kahn n adj (fun _ _ => 0) (ancStep adj) fun _ _ => false).order with hord
  have hnd : ord.Nodup := k1.nodup_iff.2 List.nodup_range
  clear_value ord
  obtain ⟨rk, hrk⟩ := hac
  -- processed nodes have their ancestors, others what processed parents gave them
  have main : ∀ (P Q : List Nat), ord = P ++ Q →
      ∀ w y, P.foldl (ancStep adj) (fun _ _ => false) w y = true ↔
        (w ∈ P ∧ PReach n adj y w) ∨ (w ∉ P ∧ ∃ u ∈ P, w ∈ adj u ∧ PReach n adj y u) := by
    intro P
    induction P using List.reverseRecOn with
    | nil => intro Q _ w y; simp
    | append_singleton P u ih =>
      intro Q e w y
      have e' : ord = P ++ (u :: Q) := by rw [e]; simp
      have huP : u ∉ P := fun hm => by
        rw [e', List.nodup_append] at hnd
        exact hnd.2.2 u hm u (by simp) rfl
      have hun : u < n := List.mem_range.1 (k1.mem_iff.1 (by rw [e']; simp))
      have huu : u ∉ adj u := fun hm => by have := hrk u u hun hm; omega
      -- all parents of a processed node are processed
      have par : ∀ a b, a < n → b ∈ adj a → b ∈ P ∨ b = u → a ∈ P := by
        intro a b ha hab hb
        have hs := k2 a b ha hab
        have hnd' := hnd
        rw [e'] at hs hnd'
        have hbP : b ∈ P ++ [u] := by
          rcases hb with hb | rfl
          · exact List.mem_append_left _ hb
          · simp
        have hs2 : [a, b].Sublist ((P ++ [u]) ++ Q) := by simpa using hs
        obtain ⟨l1, l2, h12, h1, h2⟩ := List.sublist_append_iff.1 hs2
        have hne : a ≠ b := fun e => by subst e; have := hrk a a ha hab; omega
        have ha1 : a ∈ P ++ [u] := by
          cases l1 with
          | nil =>
            simp only [List.nil_append] at h12
            subst h12
            have hbQ : b ∈ Q := h2.subset (by simp)
            have hnd2 : ((P ++ [u]) ++ Q).Nodup := by simpa using hnd'
            exact absurd rfl ((List.nodup_append.1 hnd2).2.2 b hbP b hbQ)
          | cons z l1 =>
            injection h12 with h3 h4
            subst h3
            exact h1.subset (by simp)
        rcases List.mem_append.1 ha1 with ha1 | ha1
        · exact ha1
        · rw [List.mem_singleton] at ha1
          subst ha1
          -- a = u: then b = u (impossible) or b ∈ P comes before
          rcases hb with hb | rfl
          · have hs3 : [b, a].Sublist (P ++ (a :: Q)) :=
              List.Sublist.append (List.singleton_sublist.2 hb) (List.singleton_sublist.2 (by simp))
            have := pair_trans hnd' hs hs3
            have hdup : ¬ [a, a].Nodup := by simp
            exact absurd (hnd'.sublist this) hdup
          · exact absurd rfl hne
      rw [List.foldl_append]
      change ancStep adj (P.foldl (ancStep adj) fun _ _ => false) u w y = true ↔ _
      rw [ancStep_get huu]
      simp only [Bool.or_eq_true, Bool.and_eq_true, decide_eq_true_eq, ih (u :: Q) e']
      -- what the new node has
      have hu : ((u ∈ P ∧ PReach n adj y u) ∨ (u ∉ P ∧ ∃ u' ∈ P, u ∈ adj u' ∧ PReach n adj y u')) ∨ y = u ↔
          PReach n adj y u := by
        constructor
        · rintro ((⟨h, _⟩ | ⟨_, a, ha, h1, h2⟩) | rfl)
          · exact absurd h huP
          · exact h2.tail ⟨List.mem_range.1 (k1.mem_iff.1 (by rw [e']; simp [ha])), h1⟩
          · exact .refl
        · intro h
          rcases Relation.ReflTransGen.cases_tail h with rfl | ⟨a, h1, h2⟩
          · exact Or.inr rfl
          · exact Or.inl (Or.inr ⟨huP, a, par a u h2.1 h2.2 (Or.inr rfl), h2.2, h1⟩)
      by_cases hw : w = u
      · subst hw
        have e1 : (((w ∈ P ∧ PReach n adj y w) ∨ (w ∉ P ∧ ∃ u' ∈ P, w ∈ adj u' ∧ PReach n adj y u')) ∨
            w = w ∧ y = w) ↔ PReach n adj y w := by
          exact Iff.trans (or_congr Iff.rfl (and_iff_right rfl)) hu
        rw [e1]
        constructor
        · rintro (h | ⟨h, _⟩)
          · exact Or.inl ⟨by simp, h⟩
          · exact absurd h huu
        · rintro (⟨_, h⟩ | ⟨h, _⟩)
          · exact Or.inl h
          · exact absurd (by simp) h
      · simp only [hw, false_and, or_false, hu]
        by_cases hwP : w ∈ P
        · have hwu : w ∉ adj u := fun hm => huP (par u w hun hm (Or.inl hwP))
          simp [hwP, hwu]
        · simp only [hwP, false_and, not_false_iff, true_and, false_or, List.mem_append, List.mem_singleton, hw,
            or_false]
          constructor
          · rintro (⟨a, ha, h1, h2⟩ | ⟨h1, h2⟩)
            · exact ⟨a, Or.inl ha, h1, h2⟩
            · exact ⟨u, Or.inr rfl, h1, h2⟩
          · rintro ⟨a, ha | rfl, h1, h2⟩
            · exact Or.inl ⟨a, ha, h1, h2⟩
            · exact Or.inr ⟨h1, h2⟩
  have := main ord [] (by simp) v x
  rw [this]
  have hm : v ∈ ord := k1.mem_iff.2 (List.mem_range.2 hv)
  simp [hm]

/-! ### Sorting by ancestor sets -/

/-- Invariant: the nodes placed so far contain all their ancestors and keep the order of connected nodes. -/
structure SortInv (N : Nat) (adj : Nat → List Nat) (s : TS) : Prop where
  nodup : s.res.Nodup
  lt : ∀ v ∈ s.res, v < N
  rem : ∀ v, v < N → (s.rem v = true ↔ v ∉ s.res)
  closed : ∀ x y, PReach N adj x y → y ∈ s.res → x ∈ s.res
  order : ∀ x y, x < y → PReach N adj x y → y ∈ s.res → [x, y].Sublist s.res

theorem preach_lt {N : Nat} {adj : Nat → List Nat} (hadj : ∀ u v, u < N → v ∈ adj u → v < N) {x y : Nat}
    (h : PReach N adj x y) (hy : y < N) : x < N := by
  induction h using Relation.ReflTransGen.head_induction_on with
  | refl => exact hy
  | head hs _ _ => exact hs.1

/-- Two members of an increasing list. -/
theorem sorted_pair {l : List Nat} (hs : l.Pairwise (· < ·)) {x y : Nat} (hx : x ∈ l) (hy : y ∈ l) (h : x < y) :
    [x, y].Sublist l := by
  induction l with
  | nil => cases hx
  | cons z l ih =>
    rw [List.pairwise_cons] at hs
    rcases List.mem_cons.1 hx with rfl | hx'
    · rcases List.mem_cons.1 hy with rfl | hy
      · omega
      · exact List.Sublist.cons_cons x (List.singleton_sublist.2 hy)
    · rcases List.mem_cons.1 hy with rfl | hy
      · have := hs.1 x hx'; omega
      · exact (ih hs.2 hx' hy).cons z

theorem batch_inv {N : Nat} {adj : Nat → List Nat} (hadj : ∀ u v, u < N → v ∈ adj u → v < N) {s : TS}
    {S : Nat → Bool} (hS : ∀ x y, y < N → PReach N adj x y → S y = true → S x = true) (h : SortInv N adj s)
    {batch : List Nat} (hb : batch = (List.range N).filter fun v => S v && s.rem v) (dep : Nat → Nat → Nat) :
    SortInv N adj ⟨dep, fun v => s.rem v && !batch.contains v, s.res ++ batch⟩ := by
  have hmem : ∀ v, v ∈ batch ↔ v < N ∧ S v = true ∧ s.rem v = true := by
    intro v
    rw [hb, List.mem_filter, List.mem_range, Bool.and_eq_true]
  have hsorted : batch.Pairwise (· < ·) := by
    rw [hb]
    exact List.Pairwise.sublist List.filter_sublist List.pairwise_lt_range
  have hclosed : ∀ x y, PReach N adj x y → y ∈ s.res ++ batch → x ∈ s.res ++ batch := by
    intro x y hr hy
    rcases List.mem_append.1 hy with hy | hy
    · exact List.mem_append_left _ (h.closed x y hr hy)
    · obtain ⟨h1, h2, _⟩ := (hmem y).1 hy
      by_cases hx : x ∈ s.res
      · exact List.mem_append_left _ hx
      · have hxn := preach_lt hadj hr h1
        exact List.mem_append_right _ ((hmem x).2 ⟨hxn, hS x y h1 hr h2, (h.rem x hxn).2 hx⟩)
  refine ⟨?_, ?_, ?_, hclosed, ?_⟩
  · refine List.nodup_append.2 ⟨h.nodup, ?_, ?_⟩
    · rw [hb]; exact List.nodup_range.filter _
    · rintro a ha b hb' rfl
      obtain ⟨h1, _, h3⟩ := (hmem a).1 hb'
      exact (h.rem a h1).1 h3 ha
  · intro v hv
    rcases List.mem_append.1 hv with hv | hv
    · exact h.lt v hv
    · exact ((hmem v).1 hv).1
  · intro v hv
    simp only [Bool.and_eq_true, h.rem v hv, Bool.not_eq_true', List.contains_eq_mem, decide_eq_false_iff_not,
      List.mem_append, not_or]
  · intro x y hlt hr hy
    rcases List.mem_append.1 hy with hy' | hy'
    · exact (h.order x y hlt hr hy').trans (List.sublist_append_left _ _)
    · rcases List.mem_append.1 (hclosed x y hr hy) with hx | hx
      · exact List.Sublist.append (List.singleton_sublist.2 hx) (List.singleton_sublist.2 hy')
      · exact (sorted_pair hsorted hx hy' hlt).trans (List.sublist_append_right _ _)

theorem argmin_le (f : Nat → Nat) (n : Nat) : argmin f n ≤ n := by
  induction n with
  | zero => exact Nat.le_refl 0
  | succ n ih =>
    rw [argmin]
    by_cases h : f (n + 1) < f (argmin f n)
    · rw [if_pos h]
      omega
    · rw [if_neg h]; omega

/-- **The sort keeps the order of connected nodes and lists every node once.** -/
theorem toposort_spec {N : Nat} {adj : Nat → List Nat} (hadj : ∀ u v, u < N → v ∈ adj u → v < N)
    {anc : Nat → Nat → Bool} (hanc : ∀ v x, v < N → (anc v x = true ↔ PReach N adj x v)) {delay prefer : List Nat}
    (hpl : prefer.length ≠ 0) (hpr : ∀ v ∈ prefer, v < N) :
    (toposort N anc delay prefer).Perm (List.range N) ∧
    ∀ x y, x < y → y < N → PReach N adj x y → [x, y].Sublist (toposort N anc delay prefer) := by
  have fin : ∀ s : TS, SortInv N adj s → (s.res ++ (List.range N).filter s.rem).Perm (List.range N) ∧
      ∀ x y, x < y → y < N → PReach N adj x y → [x, y].Sublist (s.res ++ (List.range N).filter s.rem) := by
    intro s hs
    have h := batch_inv hadj (S := fun _ => true) (fun _ _ _ _ _ => rfl) hs
      (batch := (List.range N).filter s.rem) (by simp) s.dep
    have hall : ∀ v, v < N → v ∈ s.res ++ (List.range N).filter s.rem := by
      intro v hv
      by_cases hm : v ∈ s.res
      · exact List.mem_append_left _ hm
      · exact List.mem_append_right _ (List.mem_filter.2 ⟨List.mem_range.2 hv, (hs.rem v hv).2 hm⟩)
    refine ⟨(List.perm_ext_iff_of_nodup h.nodup List.nodup_range).2 fun v =>
      ⟨fun hv => List.mem_range.2 (h.lt v hv), fun hv => hall v (List.mem_range.1 hv)⟩, ?_⟩
    intro x y hlt hy hr
    exact h.order x y hlt hr (hall y hy)
  have step : ∀ s : TS, SortInv N adj s → SortInv N adj (topoStep N anc delay prefer s) := by
    intro s hs
    have hk : prefer.getD (argmin (fun i => ((List.range delay.length).map (s.dep i)).sum) (prefer.length - 1)) 0 < N := by
      apply hpr
      have hlt : argmin (fun i => ((List.range delay.length).map (s.dep i)).sum) (prefer.length - 1)
          < prefer.length := by
        have := argmin_le (fun i => ((List.range delay.length).map (s.dep i)).sum) (prefer.length - 1)
        omega
      rw [List.getD_eq_getElem?_getD, List.getElem?_eq_getElem hlt]
      exact List.getElem_mem hlt
    refine batch_inv hadj (S := fun v => anc (prefer.getD
      (argmin (fun i => ((List.range delay.length).map (s.dep i)).sum) (prefer.length - 1)) 0) v) ?_ hs rfl _
    intro x y _ hr hy
    exact (hanc _ _ hk).2 (Relation.ReflTransGen.trans hr ((hanc _ _ hk).1 hy))
  have h0 : SortInv N adj ⟨fun i j => if anc (prefer.getD i 0) (delay.getD j 0) then 1 else 0, fun _ => true, []⟩ :=
    ⟨List.nodup_nil, by simp, by simp, by simp, by simp⟩
  unfold toposort
  simp only
  apply fin
  by_cases hd : delay.length ≠ 0
  · rw [if_pos hd]
    generalize List.range prefer.length = l
    have : ∀ (l : List Nat) (s : TS), SortInv N adj s →
        SortInv N adj (l.foldl (fun s _ => topoStep N anc delay prefer s) s) := by
      intro l
      induction l with
      | nil => intro s hs; exact hs
      | cons _ l ih => intro s hs; exact ih _ (step s hs)
    exact this l _ h0
  · rw [if_neg hd]
    exact h0

theorem topologicalSort_spec {d : Dag L} {data : List (Instr L)} (h : Made d data) (prefer delay : Instr L → Bool) :
    (topologicalSort d prefer delay).Perm (List.range d.stay.length) ∧
    ∀ x y, x < y → y < d.stay.length → PReach d.stay.length d.adjP x y →
      [x, y].Sublist (topologicalSort d prefer delay) := by
  unfold topologicalSort
  simp only
  split
  · exact ⟨List.Perm.refl _, fun x y hlt hy _ => sorted_pair List.pairwise_lt_range
      (List.mem_range.2 (by omega)) (List.mem_range.2 hy) hlt⟩
  · rename_i hl
    exact toposort_spec (fun u v _ hv => adjP_lt hv)
      (fun v x hv => ancestors_spec (fun u v _ hv => adjP_lt hv) h.acycP hv x) hl
      (fun v hv => List.mem_range.1 (List.mem_filter.1 hv).1)

/-! ### Delayed allocations -/

/-- The allocations in the dictionary: every qubit once, with its allocation. -/
structure DicOK (dic : List (Nat × Instr L)) : Prop where
  nodup : (dic.map Prod.fst).Nodup
  alloc : ∀ e ∈ dic, e.2.kind = .alloc ∧ e.2.qubits = [e.1] ∧ e.2.clbits = []

theorem alloc_indep {a b : Instr L} {q : Nat} (h2 : a.qubits = [q]) (h3 : a.clbits = []) (hb : q ∉ b.qubits) :
    Indep b a := by
  refine ⟨fun p t u x1 x2 => ?_, fun c _ x2 => by rw [h3] at x2; cases x2⟩
  have hp := typeOn_mem x2
  rw [h2, List.mem_singleton] at hp
  subst hp
  exact absurd (typeOn_mem x1) hb

theorem run_perm {σ : Type} (I : Interp L σ) {a b : List (Instr L)} (hp : a.Perm b)
    (h : a.Pairwise Indep) (s : σ) : runI I.act a s = runI I.act b s := by
  induction hp generalizing s with
  | nil => rfl
  | cons x _ ih => exact ih (List.pairwise_cons.1 h).2 _
  | swap x y l =>
    have : Indep y x := (List.pairwise_cons.1 h).1 x (by simp)
    change runI I.act l (I.act x (I.act y s)) = runI I.act l (I.act y (I.act x s))
    rw [I.comm y x this]
  | trans h1 _ ih1 ih2 =>
    rw [ih1 h, ih2]
    exact (h1.pairwise_iff fun h => Indep.symm h).1 h

theorem dic_pairwise {dic : List (Nat × Instr L)} (h : DicOK dic) : (dic.map Prod.snd).Pairwise Indep := by
  have hn := h.nodup
  have ha := h.alloc
  clear h
  induction dic with
  | nil => exact List.Pairwise.nil
  | cons e dic ih =>
    rw [List.map_cons, List.nodup_cons] at hn
    rw [List.map_cons, List.pairwise_cons]
    refine ⟨?_, ih hn.2 fun e he => ha e (by simp [he])⟩
    intro b hb
    obtain ⟨e', he', rfl⟩ := List.mem_map.1 hb
    obtain ⟨_, h2, h3⟩ := ha e (by simp)
    obtain ⟨_, h4, h5⟩ := ha e' (by simp [he'])
    refine (alloc_indep h2 h3 ?_).symm
    rw [h4, List.mem_singleton]
    intro eq
    exact hn.1 (eq ▸ List.mem_map.2 ⟨e', he', rfl⟩)

theorem lookup_dic {dic : List (Nat × Instr L)} (hn : (dic.map Prod.fst).Nodup) {e : Nat × Instr L} (he : e ∈ dic) :
    dic.lookup e.1 = some e.2 := by
  induction dic with
  | nil => cases he
  | cons x dic ih =>
    obtain ⟨k, v⟩ := x
    rw [List.map_cons, List.nodup_cons] at hn
    rw [List.lookup_cons]
    rcases List.mem_cons.1 he with rfl | he
    · simp
    · have : (e.1 == k) = false := by
        rw [beq_eq_false_iff_ne]
        intro e'
        exact hn.1 (List.mem_map.2 ⟨e, he, e'⟩)
      rw [this]
      exact ih hn.2 he

/-- What is emitted before an instruction: the delayed allocations of its qubits. -/
theorem emitted_perm {dic : List (Nat × Instr L)} (hn : (dic.map Prod.fst).Nodup) {srt : List Nat → List Nat}
    (hs : ∀ l, (srt l).Perm l) (p : Nat → Bool) :
    ((srt ((dic.map Prod.fst).filter p)).filterMap fun q => dic.lookup q).Perm
      ((dic.filter fun e => p e.1).map Prod.snd) := by
  refine ((hs _).filterMap _).trans (List.Perm.of_eq ?_)
  have : ∀ l : List (Nat × Instr L), (∀ e ∈ l, e ∈ dic) →
      ((l.map Prod.fst).filter p).filterMap (fun q => dic.lookup q) = (l.filter fun e => p e.1).map Prod.snd := by
    intro l
    induction l with
    | nil => intro _; rfl
    | cons e l ih =>
      intro hl
      have ih := ih fun e he => hl e (by simp [he])
      rw [List.map_cons, List.filter_cons, List.filter_cons]
      by_cases hp : p e.1 = true
      · rw [if_pos hp, if_pos hp, List.filterMap_cons_some (f := fun q => dic.lookup q) (lookup_dic hn (hl e (by simp))), ih, List.map_cons]
      · rw [if_neg hp, if_neg hp, ih]
  exact this dic fun _ h => h

theorem DicOK.filter {dic : List (Nat × Instr L)} (h : DicOK dic) (p : Nat × Instr L → Bool) :
    DicOK (dic.filter p) :=
  ⟨h.nodup.sublist (List.filter_sublist.map _), fun e he => h.alloc e (List.mem_filter.1 he).1⟩

theorem DicOK.replace {dic : List (Nat × Instr L)} (h : DicOK dic) {q : Nat} {i : Instr L} (h1 : i.kind = .alloc)
    (h2 : i.qubits = [q]) (h3 : i.clbits = []) : DicOK (dic.map fun e => if e.1 == q then (q, i) else e) := by
  refine ⟨?_, ?_⟩
  · have : (dic.map fun e => if e.1 == q then (q, i) else e).map Prod.fst = dic.map Prod.fst := by
      rw [List.map_map]
      apply List.map_congr_left
      intro e _
      by_cases he : e.1 = q
      · simp [he]
      · simp [he]
    rw [this]
    exact h.nodup
  · intro e he
    obtain ⟨e', he', rfl⟩ := List.mem_map.1 he
    by_cases hq : (e'.1 == q) = true
    · rw [if_pos hq]
      exact ⟨h1, h2, h3⟩
    · rw [if_neg hq]
      exact h.alloc e' he'

/-- Replacing a delayed allocation by a later one of the same qubit. -/
theorem run_replace {σ : Type} (I : Interp L σ) {q : Nat} {i : Instr L} (h1 : i.kind = .alloc)
    (h2 : i.qubits = [q]) (h3 : i.clbits = []) : ∀ {dic : List (Nat × Instr L)}, DicOK dic →
    (∃ e ∈ dic, e.1 = q) → ∀ s,
    runI I.act ((dic.map fun e => if e.1 == q then (q, i) else e).map Prod.snd) s
      = runI I.act (dic.map Prod.snd ++ [i]) s := by
  intro dic
  induction dic with
  | nil => rintro _ ⟨e, he, _⟩; cases he
  | cons x dic ih =>
    intro h hex s
    have htail : DicOK dic := by
      refine ⟨?_, fun e he => h.alloc e (by simp [he])⟩
      have := h.nodup
      rw [List.map_cons, List.nodup_cons] at this
      exact this.2
    by_cases hx : x.1 = q
    · have hno : ∀ e ∈ dic, e.1 ≠ q := by
        intro e he eq
        have := h.nodup
        rw [List.map_cons, List.nodup_cons] at this
        exact this.1 (List.mem_map.2 ⟨e, he, by rw [eq, hx]⟩)
      have e1 : (dic.map fun e => if e.1 == q then (q, i) else e) = dic := by
        conv_rhs => rw [← List.map_id dic]
        apply List.map_congr_left
        intro e he
        rw [if_neg (by simpa using hno e he)]
        rfl
      obtain ⟨k1, k2, k3⟩ := h.alloc x (by simp)
      rw [List.map_cons, e1, List.map_cons, List.map_cons, if_pos (by simp [hx])]
      change runI I.act (dic.map Prod.snd) (I.act i s) = runI I.act (dic.map Prod.snd ++ [i]) (I.act x.2 s)
      rw [runI_append]
      change _ = I.act i (runI I.act (dic.map Prod.snd) (I.act x.2 s))
      rw [run_past I i, I.idem x.2 i k1 h1 (by rw [k2, h2, hx]), I.same i x.2 h1 k1 (by rw [k2, h2, hx])]
      intro a ha
      obtain ⟨e, he, rfl⟩ := List.mem_map.1 ha
      refine alloc_indep h2 h3 ?_
      rw [(h.alloc e (by simp [he])).2.1, List.mem_singleton]
      exact fun e' => hno e he e'.symm
    · rw [List.map_cons, List.map_cons, List.map_cons, if_neg (by simpa using hx)]
      refine ih htail ?_ (I.act x.2 s)
      obtain ⟨e, he, heq⟩ := hex
      rcases List.mem_cons.1 he with rfl | he
      · exact absurd heq hx
      · exact ⟨e, he, heq⟩

/-- **Delaying the allocations keeps the effect.** -/
theorem delayLoop_effect {σ : Type} (I : Interp L σ) {srt : List Nat → List Nat} (hs : ∀ l, (srt l).Perm l) :
    ∀ (l : List (Instr L)) {dic : List (Nat × Instr L)}, DicOK dic → (∀ i ∈ l, InsOK i) → ∀ s,
    runI I.act (delayLoop srt dic l) s = runI I.act (dic.map Prod.snd ++ l) s := by
  intro l
  induction l with
  | nil => intro dic _ _ s; rw [delayLoop, List.append_nil]
  | cons i r ih =>
    intro dic h ho s
    rw [delayLoop]
    by_cases hk : i.kind = .alloc
    · rw [if_pos hk]
      obtain ⟨⟨q, hq⟩, _, hc⟩ := (ho i (by simp)).alloc hk
      have hhead : i.qubits.headD 0 = q := by rw [hq]; rfl
      simp only [hhead]
      by_cases hex : dic.any (fun e => e.1 == q) = true
      · rw [if_pos hex, ih (h.replace hk hq hc) fun i hi => ho i (by simp [hi])]
        rw [runI_append, run_replace I hk hq hc h (by
          obtain ⟨e, he, heq⟩ := List.any_eq_true.1 hex
          exact ⟨e, he, by simpa using heq⟩), ← runI_append]
        simp
      · rw [if_neg hex, ih ?_ fun i hi => ho i (by simp [hi])]
        · simp
        · refine ⟨?_, ?_⟩
          · rw [List.map_append, List.nodup_append]
            refine ⟨h.nodup, by simp, ?_⟩
            rintro a ha b hb rfl
            simp only [List.map_cons, List.map_nil, List.mem_singleton] at hb
            subst hb
            obtain ⟨e, he, heq⟩ := List.mem_map.1 ha
            exact hex (List.any_eq_true.2 ⟨e, he, by simpa using heq⟩)
          · intro e he
            rcases List.mem_append.1 he with he | he
            · exact h.alloc e he
            · rw [List.mem_singleton] at he
              subst he
              exact ⟨hk, hq, hc⟩
    · rw [if_neg hk]
      have hin : DicOK (dic.filter fun e => i.qubits.contains e.1) := h.filter _
      have hout : DicOK (dic.filter fun e => !i.qubits.contains e.1) := h.filter _
      have hperm := emitted_perm h.nodup hs (fun q => i.qubits.contains q)
      simp only
      rw [runI_append, run_perm I hperm ((hperm.pairwise_iff fun h => Indep.symm h).2 (dic_pairwise hin))]
      have hc1 : ∀ (x : Instr L) (l : List (Instr L)) s, runI I.act (x :: l) s = runI I.act l (I.act x s) :=
        fun _ _ _ => rfl
      rw [hc1, ih hout fun i hi => ho i (by simp [hi])]
      have hsplit : (dic.map Prod.snd).Perm ((dic.filter fun e => i.qubits.contains e.1).map Prod.snd ++
          (dic.filter fun e => !i.qubits.contains e.1).map Prod.snd) := by
        rw [← List.map_append]
        exact (List.filter_append_perm _ dic).symm.map _
      rw [runI_append I.act (dic.map Prod.snd), run_perm I hsplit (dic_pairwise h), runI_append, runI_append,
        hc1, run_past I i ((dic.filter fun e => !i.qubits.contains e.1).map Prod.snd)]
      intro a ha
      obtain ⟨e, he, rfl⟩ := List.mem_map.1 ha
      obtain ⟨_, k2, k3⟩ := hout.alloc e he
      refine (alloc_indep k2 k3 ?_).symm
      have := (List.mem_filter.1 he).2
      simpa using this

theorem emit_ok {data : List (Instr L)} {d : Dag L} (h : Made d data) (ord : List Nat) :
    ∀ i ∈ emit d.nodes ord, InsOK i := by
  have hk : ∀ i ∈ kept d.nodes, InsOK i := by
    have : ∀ (l : List (Instr L)) (d0 d : Dag L), (∀ i ∈ l, InsOK i) → (∀ i ∈ kept d0.nodes, InsOK i) →
        GInv d0 [] → l.foldlM dagStep d0 = some d → ∀ i ∈ kept d.nodes, InsOK i := by
      intro l
      induction l with
      | nil =>
        intro d0 d _ hk _ e
        simp only [List.foldlM_nil, Option.pure_def, Option.some.injEq] at e
        subst e
        exact hk
      | cons x l ih =>
        intro d0 d hl hk hg e
        rw [List.foldlM_cons] at e
        obtain ⟨d1, e1, e2⟩ := Option.bind_eq_some_iff.1 e
        refine ih d1 d (fun i hi => hl i (by simp [hi])) ?_ (dagStep_spec hg (hl x (by simp)) e1).1 e2
        rcases dagStep_kept hg (hl x (by simp)) e1 with ⟨h, _⟩ | h
        · rw [h]
          exact hk
        · rw [h]
          intro i hi
          rcases List.mem_append.1 hi with hi | hi
          · exact hk i hi
          · rw [List.mem_singleton] at hi
            subst hi
            exact hl i (by simp)
    exact this data Dag.empty d h.ok (by simp [Dag.empty, kept]) empty_ginv h.eq
  intro i hi
  obtain ⟨v, _, hv⟩ := List.mem_filterMap.1 hi
  obtain ⟨k, hk1, hk2⟩ := Option.bind_eq_some_iff.1 hv
  exact hk i (List.mem_filterMap.2 ⟨k, List.mem_of_getElem? hk1, hk2⟩)

theorem optimizeAllocations_effect {σ : Type} (I : Interp L σ) {srt : List Nat → List Nat}
    (hs : ∀ l, (srt l).Perm l) {data out : List (Instr L)} (ho : ∀ i ∈ data, InsOK i)
    (h : optimizeAllocations srt data = some out) (s : σ) : runI I.act out s = runI I.act data s := by
  unfold optimizeAllocations at h
  obtain ⟨d, hd, rfl⟩ := Option.map_eq_some_iff.1 h
  have hm : Made d data := ⟨ho, hd⟩
  rw [delayLoop_effect I hs _ ⟨by simp, by simp⟩ (emit_ok hm _)]
  obtain ⟨h1, h2⟩ := topologicalSort_spec hm (fun i => i.kind = .dealloc) fun i => i.kind = .alloc
  exact hm.reorderP h1 h2 I s

/-! ### Position of the allocations -/

/-- Every allocation is followed, apart from other allocations, by an instruction on its qubit, or only
allocations follow. -/
def Late (l : List (Instr L)) : Prop :=
  ∀ A a B, l = A ++ a :: B → a.kind = .alloc →
    (∀ b ∈ B, b.kind = .alloc) ∨
    ∃ C i D, B = C ++ i :: D ∧ (∀ c ∈ C, c.kind = .alloc) ∧ i.kind ≠ .alloc ∧ ∀ q ∈ a.qubits, q ∈ i.qubits

theorem late_block {E r : List (Instr L)} {i : Instr L} (hE : ∀ e ∈ E, e.kind = .alloc ∧ ∀ q ∈ e.qubits, q ∈ i.qubits)
    (hi : i.kind ≠ .alloc) (hr : Late r) : Late (E ++ i :: r) := by
  intro A a B e ha
  rcases List.append_eq_append_iff.1 e with ⟨C, h1, h2⟩ | ⟨C, h1, h2⟩
  · -- the split is at or behind `i`
    cases C with
    | nil =>
      simp only [List.nil_append, List.cons.injEq] at h2
      exact absurd (h2.1 ▸ ha) hi
    | cons c C =>
      simp only [List.cons_append, List.cons.injEq] at h2
      exact hr C a B h2.2 ha
  · cases C with
    | nil =>
      simp only [List.nil_append, List.cons.injEq] at h2
      exact absurd (h2.1 ▸ ha) hi
    | cons c C =>
      simp only [List.cons_append, List.cons.injEq] at h2
      obtain ⟨rfl, rfl⟩ := h2
      refine Or.inr ⟨C, i, r, rfl, fun c hc => (hE c (by rw [h1]; simp [hc])).1, hi, ?_⟩
      exact (hE a (by rw [h1]; simp)).2

theorem delayLoop_late {srt : List Nat → List Nat} (hs : ∀ l, (srt l).Perm l) :
    ∀ (l : List (Instr L)) {dic : List (Nat × Instr L)}, DicOK dic → (∀ i ∈ l, InsOK i) →
    Late (delayLoop srt dic l) := by
  intro l
  induction l with
  | nil =>
    intro dic h _ A a B e _
    rw [delayLoop] at e
    refine Or.inl fun b hb => ?_
    have : b ∈ dic.map Prod.snd := by rw [e]; simp [hb]
    obtain ⟨x, hx, rfl⟩ := List.mem_map.1 this
    exact (h.alloc x hx).1
  | cons i r ih =>
    intro dic h ho
    rw [delayLoop]
    by_cases hk : i.kind = .alloc
    · rw [if_pos hk]
      obtain ⟨⟨q, hq⟩, _, hc⟩ := (ho i (by simp)).alloc hk
      have hhead : i.qubits.headD 0 = q := by rw [hq]; rfl
      simp only [hhead]
      by_cases hex : dic.any (fun e => e.1 == q) = true
      · rw [if_pos hex]
        exact ih (h.replace hk hq hc) fun i hi => ho i (by simp [hi])
      · rw [if_neg hex]
        refine ih ⟨?_, ?_⟩ fun i hi => ho i (by simp [hi])
        · rw [List.map_append, List.nodup_append]
          refine ⟨h.nodup, by simp, ?_⟩
          rintro a ha b hb rfl
          simp only [List.map_cons, List.map_nil, List.mem_singleton] at hb
          subst hb
          obtain ⟨e, he, heq⟩ := List.mem_map.1 ha
          exact hex (List.any_eq_true.2 ⟨e, he, by simpa using heq⟩)
        · intro e he
          rcases List.mem_append.1 he with he | he
          · exact h.alloc e he
          · rw [List.mem_singleton] at he
            subst he
            exact ⟨hk, hq, hc⟩
    · rw [if_neg hk]
      simp only
      refine late_block ?_ hk (ih (h.filter _) fun i hi => ho i (by simp [hi]))
      intro e he
      have hm := (emitted_perm h.nodup hs (fun q => i.qubits.contains q)).mem_iff.1 he
      obtain ⟨x, hx, rfl⟩ := List.mem_map.1 hm
      obtain ⟨hx1, hx2⟩ := List.mem_filter.1 hx
      obtain ⟨k1, k2, _⟩ := h.alloc x hx1
      refine ⟨k1, fun q hq => ?_⟩
      rw [k2, List.mem_singleton] at hq
      subst hq
      simpa using hx2

theorem optimizeAllocations_late {srt : List Nat → List Nat} (hs : ∀ l, (srt l).Perm l) {data out : List (Instr L)}
    (ho : ∀ i ∈ data, InsOK i) (h : optimizeAllocations srt data = some out) : Late out := by
  unfold optimizeAllocations at h
  obtain ⟨d, hd, rfl⟩ := Option.map_eq_some_iff.1 h
  exact delayLoop_late hs _ ⟨by simp, by simp⟩ (emit_ok ⟨ho, hd⟩ _)

/-! ### Sorted circuits as lists -/

theorem pair_filterMap {α β : Type} {f : α → Option β} {l : List α} {a b : β} (h : [a, b].Sublist (l.filterMap f)) :
    ∃ v w, [v, w].Sublist l ∧ f v = some a ∧ f w = some b := by
  obtain ⟨l', h1, h2⟩ := List.sublist_filterMap_iff.1 h
  induction l' generalizing l with
  | nil => cases h2
  | cons x l' ih =>
    cases hx : f x with
    | none =>
      rw [List.filterMap_cons_none hx] at h2
      exact ih h ((List.sublist_cons_self _ _).trans h1) h2
    | some y =>
      rw [List.filterMap_cons_some hx] at h2
      injection h2 with e1 e2
      subst e1
      have : b ∈ l'.filterMap f := by rw [← e2]; simp
      obtain ⟨w, hw, hfw⟩ := List.mem_filterMap.1 this
      exact ⟨x, w, (List.Sublist.cons_cons x (List.singleton_sublist.2 hw)).trans h1, hx, hfw⟩

theorem pair_emit {α β : Type} {f : α → Option β} {l : List α} {v w : α} {a b : β} (h : [v, w].Sublist l)
    (h1 : f v = some a) (h2 : f w = some b) : [a, b].Sublist (l.filterMap f) := by
  have := h.filterMap f
  rwa [List.filterMap_cons_some h1, List.filterMap_cons_some h2] at this

/-- A sorted circuit: the same instructions, dependent ones in the same order. -/
theorem Made.sorted {d : Dag L} {data : List (Instr L)} (h : Made d data) {ord : List Nat}
    (hp : ord.Perm (List.range d.stay.length))
    (hf : ∀ p r, p < r → r < d.stay.length → PReach d.stay.length d.adjP p r → [p, r].Sublist ord) :
    (emit d.nodes (ord.map d.at)).Perm (Comp.kept d.nodes) ∧
    ∀ a b, [a, b].Sublist (Comp.kept d.nodes) → ¬ Indep a b → [a, b].Sublist (emit d.nodes (ord.map d.at)) := by
  refine ⟨?_, ?_⟩
  · rw [← emit_stay]
    unfold emit
    apply List.Perm.filterMap
    rw [← map_at_range d]
    exact hp.map _
  · intro a b hs hd
    rw [← emit_stay, ← map_at_range d] at hs
    obtain ⟨v, w, h1, h2, h3⟩ := pair_filterMap hs
    obtain ⟨l', h4, h5⟩ := List.sublist_map_iff.1 h1
    match l', h5 with
    | [p, r], h5 =>
      simp only [List.map_cons, List.map_nil, List.cons.injEq, and_true] at h5
      obtain ⟨rfl, rfl⟩ := h5
      have hlt : p < r := by
        have := List.Pairwise.sublist h4 List.pairwise_lt_range
        simpa using this
      have hr : r < d.stay.length := List.mem_range.1 (h4.subset (by simp))
      have hpl : p < d.stay.length := by omega
      obtain ⟨ka, ka1, ka2⟩ := Option.bind_eq_some_iff.1 h2
      obtain ⟨kb, kb1, kb2⟩ := Option.bind_eq_some_iff.1 h3
      obtain ⟨r', hr1, hr2, hr3⟩ := preach_of_reach (h.dep ((at_lt hpl hr).2 hlt) ka1 kb1 ka2 kb2 hd) hpl rfl
      have : r' = r := at_inj hr1 hr hr2
      subst this
      exact pair_emit ((hf p r' hlt hr hr3).map d.at) h2 h3

end Verif.Comp
