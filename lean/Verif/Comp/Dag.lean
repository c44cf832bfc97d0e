import Mathlib.Data.List.Induction
import Mathlib.Data.List.Nodup
import Mathlib.Data.List.Perm.Basic
import Mathlib.Logic.Relation

/-!
Model of the permeability graph (permeability/permeability_dag.py).
-/

namespace Verif.Comp

/-- Permeability of an instruction on a qubit (`get_perm_dic`, permeability_dag.py:34-74). -/
inductive PT where
  | z | x | neutral
deriving DecidableEq, Repr

/-- Edge types. -/
inductive ET where
  | perm (t : PT)
  | anti
deriving DecidableEq, Repr

/-- How `dag_from_qc` distinguishes operations (by name: `qb_alloc`, `qb_dealloc`, `c_if…`). -/
inductive Kind where
  | alloc | dealloc | cif | gate
deriving DecidableEq, Repr

/-- An instruction of a circuit. `perm` lists `get_perm_dic(op)` by position; qubit and clbit objects are
numbers, `label` stands for the operation. -/
structure Instr (L : Type) where
  kind : Kind
  label : L
  qubits : List Nat
  perm : List PT
  clbits : List Nat
deriving DecidableEq, Repr

variable {L : Type}

/-- permeability_dag.py:474-483: `perm_dic[j]`; `none` is a `KeyError`. -/
def Instr.permAt (i : Instr L) (j : Nat) : Option PT :=
  match i.kind with
  | .dealloc | .cif => if j = 0 then some .neutral else none
  | _ => i.perm[j]?

/-- permeability_dag.py:97-152: nodes. An allocation node without instruction is artificial. -/
inductive NK (L : Type) where
  | alloc (q : Nat) (ins : Option (Instr L))
  | op (ins : Instr L)
  | term (q : Nat)

/-- The instruction `to_qc` emits for a node (lines 200-205). -/
def NK.ins : NK L → Option (Instr L)
  | .alloc _ i => i
  | .op i => some i
  | .term _ => none

/-- An edge with its attributes. -/
structure Edge where
  src : Nat
  dst : Nat
  et : ET
  qs : List Nat
deriving DecidableEq, Repr

/-- permeability_dag.py:209-232 `add_edge`: an existing edge gets the further qubits and keeps its type. -/
def addEdge (E : List Edge) (a b : Nat) (et : ET) (qs : List Nat) : List Edge :=
  if a = b then E
  else if E.any (fun e => e.src == a && e.dst == b) then
    E.map fun e => if e.src == a && e.dst == b then { e with qs := e.qs ++ qs } else e
  else E ++ [⟨a, b, et, qs⟩]

/-- permeability_dag.py:386-388, 517-518: the successors of `r` along edges with qubit `q`. -/
def members (E : List Edge) (r q : Nat) : List Nat :=
  (E.filter fun e => e.src == r && e.qs.contains q).map Edge.dst

/-- The graph under construction: the nodes are numbered in the order of their insertion. `fresh q` stands
for `value_layer[q] == 1`, which holds exactly until the first gate on `q` (lines 465, 555); the other value
layers only serve the visualisation and are not modelled. -/
structure Dag (L : Type) where
  nodes : List (NK L)
  edges : List Edge
  recent : Nat → Option Nat
  recentC : Nat → Option Nat
  streak : Nat → PT
  fresh : Nat → Bool

/-- Dictionary assignment. -/
def upd {β : Type} (f : Nat → β) (k : Nat) (v : β) : Nat → β := fun x => if x = k then v else f x

/-- permeability_dag.py:438-466: insert an allocation node for a qubit not seen before. -/
def allocStep (ins : Instr L) (d : Dag L) (q : Nat) : Dag L :=
  if (d.recent q).isSome then d
  else
    { d with
      nodes := d.nodes ++ [.alloc q (if ins.kind = .alloc then some ins else none)]
      recent := upd d.recent q (some d.nodes.length)
      streak := upd d.streak q .neutral
      fresh := upd d.fresh q true }

/-- permeability_dag.py:514-549: end the streak on `q`, which has the members `ms`. -/
def reseat (d : Dag L) (q : Nat) : List Nat → Dag L
  | [] => d
  | [m] => { d with recent := upd d.recent q (some m) }
  | ms =>
    { d with
      nodes := d.nodes ++ [NK.term q]
      edges := ms.foldl (fun E m => addEdge E m d.nodes.length .anti [q]) d.edges
      recent := upd d.recent q (some d.nodes.length) }

/-- `recent_node_dic[q]` (the qubit is a key by the allocation step). -/
def Dag.last (d : Dag L) (q : Nat) : Nat := (d.recent q).getD 0

/-- permeability_dag.py:509-558: connect node `n` on qubit `q` with type `t`. -/
def connect (d : Dag L) (n q : Nat) (t : PT) : Dag L :=
  if d.streak q = t ∧ t ≠ .neutral then { d with edges := addEdge d.edges (d.last q) n (.perm t) [q] }
  else
    let d' := reseat d q (members d.edges (d.last q) q)
    { d' with
      edges := addEdge d'.edges (d'.last q) n (.perm t) [q]
      streak := upd d'.streak q t
      fresh := upd d'.fresh q false }

/-- permeability_dag.py:501-558: all qubits of an instruction. -/
def connectAll (d : Dag L) (n : Nat) : List (Nat × Option PT) → Option (Dag L)
  | [] => some d
  | (q, some t) :: r => connectAll (connect d n q t) n r
  | (_, none) :: _ => none

/-- permeability_dag.py:563-566: one clbit. -/
def connectC (n : Nat) (d : Dag L) (c : Nat) : Dag L :=
  { d with
    edges := match d.recentC c with
      | some r => addEdge d.edges r n .anti []
      | none => d.edges
    recentC := upd d.recentC c (some n) }

/-- The qubits of an instruction with their permeability. -/
def Instr.qperm (i : Instr L) : List (Nat × Option PT) :=
  i.qubits.zip ((List.range i.qubits.length).map i.permAt)

/-- permeability_dag.py:433-566: one instruction. Line 470 looks at the last qubit of the loop above. -/
def dagStep (d : Dag L) (ins : Instr L) : Option (Dag L) :=
  let d1 := ins.qubits.foldl (allocStep ins) d
  if ins.kind = .alloc ∧ (ins.qubits.getLast?.map d1.fresh).getD false = true then some d1
  else
    (connectAll { d1 with nodes := d1.nodes ++ [.op ins] } d1.nodes.length ins.qperm).map fun d2 =>
      ins.clbits.foldl (connectC d1.nodes.length) d2

/-- The empty graph. -/
def Dag.empty : Dag L := ⟨[], [], fun _ => none, fun _ => none, fun _ => .neutral, fun _ => false⟩

/-- permeability_dag.py:400-569 `dag_from_qc`. -/
def dagOf (data : List (Instr L)) : Option (Dag L) := data.foldlM dagStep Dag.empty

/-- Instructions emitted for nodes in the given order (`to_qc`, lines 200-205). -/
def emit (nodes : List (NK L)) (ord : List Nat) : List (Instr L) :=
  ord.filterMap fun v => (nodes[v]?).bind NK.ins

/-! ### Specification vocabulary -/

/-- The permeability on a qubit. -/
def Instr.typeOn (i : Instr L) (q : Nat) (t : PT) : Prop := (q, some t) ∈ i.qperm

/-- Independent instructions: no common clbit, and on every common qubit both are of the same kind of
permeability. -/
def Indep (a b : Instr L) : Prop :=
  (∀ q t u, a.typeOn q t → b.typeOn q u → t = u ∧ t ≠ .neutral) ∧ ∀ c ∈ a.clbits, c ∉ b.clbits

/-- Run instructions with an interpretation. -/
def runI {σ : Type} (act : Instr L → σ → σ) (l : List (Instr L)) (s : σ) : σ :=
  l.foldl (fun s i => act i s) s

/-- An interpretation in which independent instructions commute, an allocation has an effect that depends only on
its qubit, and allocating a qubit twice is allocating it once. -/
structure Interp (L : Type) (σ : Type) where
  act : Instr L → σ → σ
  comm : ∀ a b, Indep a b → ∀ s, act a (act b s) = act b (act a s)
  idem : ∀ a b, a.kind = .alloc → b.kind = .alloc → a.qubits = b.qubits → ∀ s, act b (act a s) = act a s
  same : ∀ a b, a.kind = .alloc → b.kind = .alloc → a.qubits = b.qubits → ∀ s, act a s = act b s

/-- Instructions as circuits contain them. -/
structure InsOK (i : Instr L) : Prop where
  nodup : i.qubits.Nodup
  alloc : i.kind = .alloc → (∃ q, i.qubits = [q]) ∧ i.perm = [.neutral] ∧ i.clbits = []

/-- One edge. -/
def Step (E : List Edge) (a b : Nat) : Prop := ∃ e ∈ E, e.src = a ∧ e.dst = b

/-- Paths. -/
abbrev Reach (E : List Edge) : Nat → Nat → Prop := Relation.ReflTransGen (Step E)

/-! ### Reordering -/

theorem runI_append {σ : Type} (act : Instr L → σ → σ) (a b : List (Instr L)) (s : σ) :
    runI act (a ++ b) s = runI act b (runI act a s) := by simp [runI, List.foldl_append]

theorem Indep.symm {a b : Instr L} (h : Indep a b) : Indep b a :=
  ⟨fun q t u h1 h2 => by
    obtain ⟨e, hn⟩ := h.1 q u t h2 h1
    exact ⟨e.symm, e ▸ hn⟩, fun c h1 h2 => h.2 c h2 h1⟩

theorem run_past {σ : Type} (I : Interp L σ) (x : Instr L) (A : List (Instr L))
    (h : ∀ a ∈ A, Indep a x) (s : σ) : I.act x (runI I.act A s) = runI I.act A (I.act x s) := by
  induction A generalizing s with
  | nil => rfl
  | cons a A ih =>
    have e1 : runI I.act (a :: A) s = runI I.act A (I.act a s) := rfl
    have e2 : runI I.act (a :: A) (I.act x s) = runI I.act A (I.act a (I.act x s)) := rfl
    rw [e1, e2, ih (fun b hb => h b (by simp [hb])), I.comm a x (h a (by simp))]

/-- Two arrangements of the same nodes in which dependent nodes have the same order have the same
effect. -/
theorem run_reorder {σ α : Type} (I : Interp L σ) (f : α → Option (Instr L)) :
    ∀ (l' l : List α), l'.Perm l → l.Nodup →
    (∀ a b i j, [a, b].Sublist l → f a = some i → f b = some j → ¬ Indep i j → [a, b].Sublist l') →
    ∀ s, runI I.act (l'.filterMap f) s = runI I.act (l.filterMap f) s := by
  intro l'
  induction l' with
  | nil =>
    intro l hp _ _ s
    rw [List.nil_perm.1 hp]
  | cons x r ih =>
    intro l hp hn h s
    have hx : x ∈ l := hp.subset (by simp)
    obtain ⟨A, B, rfl⟩ := List.append_of_mem hx
    have hp' : r.Perm (A ++ B) := by
      have := hp.trans List.perm_middle
      exact List.Perm.cons_inv this
    have hn' : (A ++ B).Nodup := (List.nodup_middle.1 hn).of_cons
    have hxn : x ∉ A ++ B := (List.nodup_cons.1 (List.nodup_middle.1 hn)).1
    have hrn : x ∉ r := fun hc => hxn (hp'.subset hc)
    have key := ih (A ++ B) hp' hn' (fun a b i j hs ha hb hd => by
      have h1 : [a, b].Sublist (A ++ x :: B) :=
        hs.trans (List.Sublist.append_left (List.sublist_cons_self x B) A)
      have h2 := h a b i j h1 ha hb hd
      rcases List.sublist_cons_iff.1 h2 with h3 | ⟨r', h3, h4⟩
      · exact h3
      · have : a = x := by injection h3
        subst this
        exact absurd (hs.subset (by simp)) hxn)
    cases hf : f x with
    | none =>
      rw [List.filterMap_cons_none hf, key, List.filterMap_append, List.filterMap_append,
        List.filterMap_cons_none hf]
    | some i =>
      rw [List.filterMap_cons_some hf]
      have e1 : runI I.act (i :: r.filterMap f) s = runI I.act (r.filterMap f) (I.act i s) := rfl
      rw [e1, key, List.filterMap_append, List.filterMap_append, List.filterMap_cons_some hf,
        runI_append, runI_append]
      have e2 : ∀ s, runI I.act (i :: B.filterMap f) s = runI I.act (B.filterMap f) (I.act i s) :=
        fun _ => rfl
      rw [e2, run_past]
      intro a ha
      obtain ⟨v, hv, hfv⟩ := List.mem_filterMap.1 ha
      by_contra hc
      have h1 : [v, x].Sublist (A ++ x :: B) :=
        List.Sublist.append (List.singleton_sublist.2 hv) (List.singleton_sublist.2 (by simp))
      have h2 := h v x a i h1 hfv hf hc
      rcases List.sublist_cons_iff.1 h2 with h3 | ⟨r', h3, h4⟩
      · exact hrn (h3.subset (by simp))
      · have hvx : v = x := by injection h3
        subst hvx
        exact hxn (List.mem_append_left _ hv)

/-! ### Edges -/

theorem mem_addEdge {E : List Edge} {a b : Nat} {et : ET} {qs : List Nat} {s d q : Nat} :
    (∃ e ∈ addEdge E a b et qs, e.src = s ∧ e.dst = d ∧ q ∈ e.qs) ↔
      (∃ e ∈ E, e.src = s ∧ e.dst = d ∧ q ∈ e.qs) ∨ (a ≠ b ∧ s = a ∧ d = b ∧ q ∈ qs) := by
  unfold addEdge
  by_cases hab : a = b
  · simp [hab]
  rw [if_neg hab]
  by_cases hex : E.any (fun e => e.src == a && e.dst == b) = true
  · rw [if_pos hex]
    obtain ⟨e0, he0, h0⟩ := List.any_eq_true.1 hex
    simp only [Bool.and_eq_true, beq_iff_eq] at h0
    constructor
    · rintro ⟨e, he, h1, h2, h3⟩
      obtain ⟨e', he', rfl⟩ := List.mem_map.1 he
      by_cases hm : (e'.src == a && e'.dst == b) = true
      · rw [if_pos hm] at h1 h2 h3
        simp only [Bool.and_eq_true, beq_iff_eq] at hm
        rcases List.mem_append.1 h3 with h | h
        · exact Or.inl ⟨e', he', h1, h2, h⟩
        · exact Or.inr ⟨hab, h1 ▸ hm.1, h2 ▸ hm.2, h⟩
      · rw [if_neg hm] at h1 h2 h3
        exact Or.inl ⟨e', he', h1, h2, h3⟩
    · rintro (⟨e, he, h1, h2, h3⟩ | ⟨_, rfl, rfl, h⟩)
      · refine ⟨_, List.mem_map.2 ⟨e, he, rfl⟩, ?_⟩
        by_cases hm : (e.src == a && e.dst == b) = true
        · rw [if_pos hm]; exact ⟨h1, h2, List.mem_append_left _ h3⟩
        · rw [if_neg hm]; exact ⟨h1, h2, h3⟩
      · refine ⟨_, List.mem_map.2 ⟨e0, he0, rfl⟩, ?_⟩
        rw [if_pos (by simp [h0.1, h0.2])]
        exact ⟨h0.1, h0.2, List.mem_append_right _ h⟩
  · rw [if_neg hex]
    constructor
    · rintro ⟨e, he, h1, h2, h3⟩
      rcases List.mem_append.1 he with h | h
      · exact Or.inl ⟨e, h, h1, h2, h3⟩
      · rw [List.mem_singleton] at h
        subst h
        exact Or.inr ⟨hab, h1.symm, h2.symm, h3⟩
    · rintro (⟨e, he, h1, h2, h3⟩ | ⟨_, rfl, rfl, h⟩)
      · exact ⟨e, List.mem_append_left _ he, h1, h2, h3⟩
      · exact ⟨_, List.mem_append_right _ (List.mem_singleton.2 rfl), rfl, rfl, h⟩

theorem step_addEdge {E : List Edge} {a b : Nat} {et : ET} {qs : List Nat} {s d : Nat} :
    Step (addEdge E a b et qs) s d ↔ Step E s d ∨ (a ≠ b ∧ s = a ∧ d = b) := by
  unfold addEdge Step
  by_cases hab : a = b
  · simp [hab]
  rw [if_neg hab]
  by_cases hex : E.any (fun e => e.src == a && e.dst == b) = true
  · rw [if_pos hex]
    obtain ⟨e0, he0, h0⟩ := List.any_eq_true.1 hex
    simp only [Bool.and_eq_true, beq_iff_eq] at h0
    constructor
    · rintro ⟨e, he, h1, h2⟩
      obtain ⟨e', he', rfl⟩ := List.mem_map.1 he
      by_cases hm : (e'.src == a && e'.dst == b) = true
      · rw [if_pos hm] at h1 h2
        exact Or.inl ⟨e', he', h1, h2⟩
      · rw [if_neg hm] at h1 h2
        exact Or.inl ⟨e', he', h1, h2⟩
    · rintro (⟨e, he, h1, h2⟩ | ⟨_, rfl, rfl⟩)
      · refine ⟨_, List.mem_map.2 ⟨e, he, rfl⟩, ?_⟩
        by_cases hm : (e.src == a && e.dst == b) = true
        · rw [if_pos hm]; exact ⟨h1, h2⟩
        · rw [if_neg hm]; exact ⟨h1, h2⟩
      · refine ⟨_, List.mem_map.2 ⟨e0, he0, rfl⟩, ?_⟩
        rw [if_pos (by simp [h0.1, h0.2])]
        exact ⟨h0.1, h0.2⟩
  · rw [if_neg hex]
    constructor
    · rintro ⟨e, he, h1, h2⟩
      rcases List.mem_append.1 he with h | h
      · exact Or.inl ⟨e, h, h1, h2⟩
      · rw [List.mem_singleton] at h
        subst h
        exact Or.inr ⟨hab, h1.symm, h2.symm⟩
    · rintro (⟨e, he, h1, h2⟩ | ⟨_, rfl, rfl⟩)
      · exact ⟨e, List.mem_append_left _ he, h1, h2⟩
      · exact ⟨_, List.mem_append_right _ (List.mem_singleton.2 rfl), rfl, rfl⟩

theorem reach_addEdge {E : List Edge} {a b : Nat} {et : ET} {qs : List Nat} {s d : Nat}
    (h : Reach E s d) : Reach (addEdge E a b et qs) s d :=
  Relation.ReflTransGen.mono (fun _ _ h => step_addEdge.2 (Or.inl h)) _ _ h

theorem mem_members {E : List Edge} {r q m : Nat} :
    m ∈ members E r q ↔ ∃ e ∈ E, e.src = r ∧ e.dst = m ∧ q ∈ e.qs := by
  unfold members
  rw [List.mem_map]
  constructor
  · rintro ⟨e, he, rfl⟩
    obtain ⟨h1, h2⟩ := List.mem_filter.1 he
    simp only [Bool.and_eq_true, beq_iff_eq, List.contains_iff_mem] at h2
    exact ⟨e, h1, h2.1, rfl, h2.2⟩
  · rintro ⟨e, h1, h2, h3, h4⟩
    exact ⟨e, List.mem_filter.2 ⟨h1, by simp [h2, h4]⟩, h3⟩

theorem members_step {E : List Edge} {r q m : Nat} (h : m ∈ members E r q) : Step E r m := by
  obtain ⟨e, h1, h2, h3, _⟩ := mem_members.1 h
  exact ⟨e, h1, h2, h3⟩

theorem members_mono {E : List Edge} {a b : Nat} {et : ET} {qs : List Nat} {r q m : Nat}
    (h : m ∈ members E r q) : m ∈ members (addEdge E a b et qs) r q :=
  mem_members.2 (mem_addEdge.2 (Or.inl (mem_members.1 h)))

/-- The edges of a terminator. -/
theorem step_fold {ms : List Nat} {E : List Edge} {t q s d : Nat} :
    Step (ms.foldl (fun E m => addEdge E m t .anti [q]) E) s d ↔
      Step E s d ∨ (s ∈ ms ∧ s ≠ t ∧ d = t) := by
  induction ms generalizing E with
  | nil => simp
  | cons m ms ih =>
    rw [List.foldl_cons, ih, step_addEdge]
    constructor
    · rintro ((h | ⟨h1, rfl, rfl⟩) | ⟨h1, h2, h3⟩)
      · exact Or.inl h
      · exact Or.inr ⟨by simp, h1, rfl⟩
      · exact Or.inr ⟨by simp [h1], h2, h3⟩
    · rintro (h | ⟨h1, h2, h3⟩)
      · exact Or.inl (Or.inl h)
      · rcases List.mem_cons.1 h1 with rfl | h
        · exact Or.inl (Or.inr ⟨fun e => h2 e, rfl, h3⟩)
        · exact Or.inr ⟨h, h2, h3⟩

theorem members_fold {ms : List Nat} {E : List Edge} {t q r q' m : Nat} :
    m ∈ members (ms.foldl (fun E m => addEdge E m t .anti [q]) E) r q' ↔
      m ∈ members E r q' ∨ (r ∈ ms ∧ r ≠ t ∧ m = t ∧ q' = q) := by
  induction ms generalizing E with
  | nil => simp
  | cons x ms ih =>
    rw [List.foldl_cons, ih, mem_members, mem_addEdge, ← mem_members]
    constructor
    · rintro ((h | ⟨h1, rfl, rfl, h2⟩) | ⟨h1, h2, h3⟩)
      · exact Or.inl h
      · exact Or.inr ⟨by simp, h1, rfl, by simpa using h2⟩
      · exact Or.inr ⟨by simp [h1], h2, h3⟩
    · rintro (h | ⟨h1, h2, h3, h4⟩)
      · exact Or.inl (Or.inl h)
      · rcases List.mem_cons.1 h1 with rfl | h
        · exact Or.inl (Or.inr ⟨fun e => h2 e, rfl, h3, by simp [h4]⟩)
        · exact Or.inr ⟨h, h2, h3, h4⟩

/-! ### Invariant of the construction -/

/-- `T v q t`: node `v` acts on qubit `q` with type `t`; `TC v c`: node `v` uses clbit `c`. -/
structure Inv (d : Dag L) (T : Nat → Nat → PT → Prop) (TC : Nat → Nat → Prop) : Prop where
  edges_lt : ∀ a b, Step d.edges a b → a < d.nodes.length ∧ b < d.nodes.length
  recent_lt : ∀ q r, d.recent q = some r → r < d.nodes.length
  recentC_lt : ∀ c r, d.recentC c = some r → r < d.nodes.length
  qubit : ∀ v q t, T v q t → ∃ r, d.recent q = some r ∧
    (Reach d.edges v r ∨ (v ∈ members d.edges r q ∧ (d.streak q ≠ .neutral → t = d.streak q)))
  clbit : ∀ v c, TC v c → ∃ r, d.recentC c = some r ∧ Reach d.edges v r
  acyc : ∃ rk : Nat → Nat, ∀ a b, Step d.edges a b → rk a < rk b

/-- A node that has just been inserted. -/
structure Fresh (d : Dag L) (n : Nat) : Prop where
  lt : n < d.nodes.length
  sink : ∀ b, ¬ Step d.edges n b

/-- The node is not yet connected on the qubit. -/
structure Unconn (d : Dag L) (n q : Nat) : Prop where
  mem : ∀ r, n ∉ members d.edges r q
  recent : ∃ r, d.recent q = some r ∧ r ≠ n

theorem last_eq {d : Dag L} {q r : Nat} (h : d.recent q = some r) : d.last q = r := by simp [Dag.last, h]

/-- What later steps keep. -/
structure Ext (d d' : Dag L) : Prop where
  reach : ∀ a b, Reach d.edges a b → Reach d'.edges a b
  nodes : ∃ l, d'.nodes = d.nodes ++ l ∧ ∀ x ∈ l, ∃ p, x = NK.term p

theorem Ext.refl (d : Dag L) : Ext d d := ⟨fun _ _ h => h, [], by simp, by simp⟩

theorem Ext.trans {d d' d'' : Dag L} (h : Ext d d') (h' : Ext d' d'') : Ext d d'' := by
  obtain ⟨l, h1, h2⟩ := h.nodes
  obtain ⟨l', h3, h4⟩ := h'.nodes
  refine ⟨fun a b hr => h'.reach a b (h.reach a b hr), l ++ l', by rw [h3, h1, List.append_assoc], ?_⟩
  intro x hx
  rcases List.mem_append.1 hx with hx | hx
  · exact h2 x hx
  · exact h4 x hx

theorem Ext.lt {d d' : Dag L} (h : Ext d d') {n : Nat} (hn : n < d.nodes.length) : n < d'.nodes.length := by
  obtain ⟨l, h1, _⟩ := h.nodes
  rw [h1, List.length_append]
  omega

theorem bounded (rk : Nat → Nat) (N : Nat) : ∃ M, ∀ v, v < N → rk v ≤ M := by
  induction N with
  | zero => exact ⟨0, by simp⟩
  | succ N ih =>
    obtain ⟨M, h⟩ := ih
    refine ⟨max M (rk N), fun v hv => ?_⟩
    rcases Nat.lt_succ_iff_lt_or_eq.1 hv with h' | rfl
    · have := h v h'; omega
    · omega

/-- Add one edge into the new node, and give it a rank above all. -/
theorem acyc_add {E : List Edge} {N a n : Nat} {et : ET} {qs : List Nat}
    (hlt : ∀ a b, Step E a b → a < N ∧ b < N) (ha : a < N) (hs : ∀ b, ¬ Step E n b)
    (h : ∃ rk : Nat → Nat, ∀ a b, Step E a b → rk a < rk b) :
    ∃ rk : Nat → Nat, ∀ x y, Step (addEdge E a n et qs) x y → rk x < rk y := by
  obtain ⟨rk, h⟩ := h
  obtain ⟨M, bound⟩ := bounded rk N
  refine ⟨fun v => if v = n then M + 1 else rk v, fun x y hxy => ?_⟩
  rcases step_addEdge.1 hxy with h1 | ⟨h1, rfl, rfl⟩
  · have hx : x ≠ n := fun e => hs y (e ▸ h1)
    simp only [hx, if_false]
    split
    · have := bound x (hlt x y h1).1
      omega
    · exact h x y h1
  · simp only [h1, if_false, if_true]
    have := bound x ha
    omega

theorem reseat_spec {d : Dag L} {T : Nat → Nat → PT → Prop} {TC : Nat → Nat → Prop} {n q : Nat}
    (hi : Inv d T TC) (hf : Fresh d n) (hu : Unconn d n q) :
    ∃ d', reseat d q (members d.edges (d.last q) q) = d' ∧ Ext d d' ∧ Fresh d' n ∧ Unconn d' n q ∧
      (∀ p, p ≠ q → Unconn d n p → Unconn d' n p) ∧ d'.recentC = d.recentC ∧ d'.streak = d.streak ∧
      d'.fresh = d.fresh ∧
      (∀ a b, Step d'.edges a b → a < d'.nodes.length ∧ b < d'.nodes.length) ∧
      (∀ q r, d'.recent q = some r → r < d'.nodes.length) ∧
      (∃ rk : Nat → Nat, ∀ a b, Step d'.edges a b → rk a < rk b) ∧
      (∀ v t, T v q t → Reach d'.edges v (d'.last q)) ∧
      (∀ p, p ≠ q → d'.recent p = d.recent p) ∧
      (∀ r p m, p ≠ q → (m ∈ members d'.edges r p ↔ m ∈ members d.edges r p)) := by
  obtain ⟨r, hr, hrn⟩ := hu.recent
  rw [last_eq hr]
  have hT : ∀ v t, T v q t → Reach d.edges v r ∨ v ∈ members d.edges r q := by
    intro v t hv
    obtain ⟨r', h1, h2⟩ := hi.qubit v q t hv
    rw [hr] at h1
    cases h1
    rcases h2 with h | h
    · exact Or.inl h
    · exact Or.inr h.1
  match hm : members d.edges r q with
  | [] =>
    refine ⟨d, rfl, Ext.refl d, hf, hu, fun _ _ h => h, rfl, rfl, rfl, hi.edges_lt, hi.recent_lt, hi.acyc,
      ?_, fun _ _ => rfl, fun _ _ _ _ => Iff.rfl⟩
    intro v t hv
    rw [last_eq hr]
    rcases hT v t hv with h | h
    · exact h
    · rw [hm] at h; simp at h
  | [m] =>
    have hmm : m ∈ members d.edges r q := by rw [hm]; simp
    have hst := members_step hmm
    refine ⟨{ d with recent := upd d.recent q (some m) }, rfl, ⟨fun _ _ h => h, [], by simp, by simp⟩,
      ⟨hf.lt, hf.sink⟩, ⟨hu.mem, m, by simp [upd], fun e => hu.mem r (e ▸ hmm)⟩,
      fun p hp h => ⟨h.mem, by simpa [upd, hp] using h.recent⟩, rfl, rfl, rfl, hi.edges_lt, ?_, hi.acyc, ?_,
      fun p hp => by simp [upd, hp], fun _ _ _ _ => Iff.rfl⟩
    · intro p r' h
      by_cases hp : p = q
      · simp only [upd, hp, if_true, Option.some.injEq] at h
        subst h
        exact (hi.edges_lt _ _ hst).2
      · simp only [upd, hp, if_false] at h
        exact hi.recent_lt p r' h
    · intro v t hv
      have : (Dag.last { d with recent := upd d.recent q (some m) } q) = m := by simp [Dag.last, upd]
      rw [this]
      rcases hT v t hv with h | h
      · exact h.tail hst
      · rw [hm, List.mem_singleton] at h
        rw [h]
  | m₁ :: m₂ :: ms =>
    have hlast : (Dag.last { d with
          nodes := d.nodes ++ [NK.term q]
          edges := (m₁ :: m₂ :: ms).foldl (fun E m => addEdge E m d.nodes.length .anti [q]) d.edges
          recent := upd d.recent q (some d.nodes.length) } q) = d.nodes.length := by
      simp [Dag.last, upd]
    rw [← hm] at hlast ⊢
    have hmlt : ∀ m ∈ members d.edges r q, m < d.nodes.length := fun m h =>
      (hi.edges_lt _ _ (members_step h)).2
    have hmn : ∀ m ∈ members d.edges r q, m ≠ n := fun m h e => hu.mem r (e ▸ h)
    have hmono : ∀ a b, Reach d.edges a b → Reach ((members d.edges r q).foldl
        (fun E m => addEdge E m d.nodes.length .anti [q]) d.edges) a b := fun a b h =>
      Relation.ReflTransGen.mono (fun _ _ h => step_fold.2 (Or.inl h)) _ _ h
    refine ⟨{ d with
          nodes := d.nodes ++ [NK.term q]
          edges := (members d.edges r q).foldl (fun E m => addEdge E m d.nodes.length .anti [q]) d.edges
          recent := upd d.recent q (some d.nodes.length) }, by rw [hm]; rfl,
      ⟨hmono, [NK.term q], rfl, by simp [NK.ins]⟩, ⟨?_, ?_⟩, ⟨?_, d.nodes.length, by simp [upd], ?_⟩, ?_, rfl,
      rfl, rfl, ?_, ?_, ?_, ?_, fun p hp => by simp [upd, hp], ?_⟩
    · simp only [List.length_append, List.length_singleton]
      have := hf.lt
      omega
    · intro b hb
      rcases step_fold.1 hb with h | ⟨h1, _, _⟩
      · exact hf.sink b h
      · exact hmn n h1 rfl
    · intro r' h
      rcases members_fold.1 h with h | ⟨_, _, h, _⟩
      · exact hu.mem r' h
      · have := hf.lt; omega
    · have := hf.lt; omega
    · intro p hp h
      refine ⟨fun r' h' => ?_, by simpa [upd, hp] using h.recent⟩
      rcases members_fold.1 h' with h' | ⟨_, _, _, h'⟩
      · exact h.mem r' h'
      · exact hp h'
    · intro a b hab
      simp only [List.length_append, List.length_singleton]
      rcases step_fold.1 hab with h | ⟨h1, _, h3⟩
      · have := hi.edges_lt a b h; omega
      · have := hmlt a h1; omega
    · intro p r' h
      simp only [List.length_append, List.length_singleton]
      by_cases hp : p = q
      · simp only [upd, hp, if_true, Option.some.injEq] at h
        omega
      · simp only [upd, hp, if_false] at h
        have := hi.recent_lt p r' h
        omega
    · obtain ⟨rk, h⟩ := hi.acyc
      obtain ⟨M, bound⟩ := bounded rk d.nodes.length
      refine ⟨fun v => if v = d.nodes.length then M + 1 else rk v, fun x y hxy => ?_⟩
      rcases step_fold.1 hxy with h1 | ⟨h1, h2, h3⟩
      · have := hi.edges_lt x y h1
        have e1 : x ≠ d.nodes.length := by omega
        have e2 : y ≠ d.nodes.length := by omega
        simp only [e1, e2, if_false]
        exact h x y h1
      · have := hmlt x h1
        simp only [h2, h3, if_false, if_true]
        have := bound x this
        omega
    · intro v t hv
      rw [hlast]
      have hto : ∀ m ∈ members d.edges r q, Step ((members d.edges r q).foldl
          (fun E m => addEdge E m d.nodes.length .anti [q]) d.edges) m d.nodes.length := fun m hm' =>
        step_fold.2 (Or.inr ⟨hm', by have := hmlt m hm'; omega, rfl⟩)
      rcases hT v t hv with h | h
      · have hm1 : m₁ ∈ members d.edges r q := by rw [hm]; simp
        exact ((hmono _ _ h).tail (step_fold.2 (Or.inl (members_step hm1)))).tail (hto m₁ hm1)
      · exact Relation.ReflTransGen.single (hto v h)
    · intro r' p m hp
      rw [members_fold]
      constructor
      · rintro (h | ⟨_, _, _, h⟩)
        · exact h
        · exact absurd h hp
      · exact Or.inl

theorem members_addEdge {E : List Edge} {a b : Nat} {et : ET} {q r p m : Nat} :
    m ∈ members (addEdge E a b et [q]) r p ↔ m ∈ members E r p ∨ (a ≠ b ∧ r = a ∧ m = b ∧ p = q) := by
  rw [mem_members, mem_addEdge, ← mem_members, List.mem_singleton]

theorem connect_spec {d : Dag L} {T : Nat → Nat → PT → Prop} {TC : Nat → Nat → Prop} {n q : Nat} {t : PT}
    (hi : Inv d T TC) (hf : Fresh d n) (hu : Unconn d n q) :
    Inv (connect d n q t) (fun v p u => T v p u ∨ (v = n ∧ p = q ∧ u = t)) TC ∧
    Ext d (connect d n q t) ∧ Fresh (connect d n q t) n ∧
    (∀ p, p ≠ q → Unconn d n p → Unconn (connect d n q t) n p) ∧
    (∀ v u, T v q u → Reach (connect d n q t).edges v n ∨ (u = t ∧ t ≠ .neutral)) := by
  unfold connect
  by_cases hc : d.streak q = t ∧ t ≠ .neutral
  · rw [if_pos hc]
    obtain ⟨r, hr, hrn⟩ := hu.recent
    rw [last_eq hr]
    refine ⟨⟨?_, hi.recent_lt, hi.recentC_lt, ?_, ?_,
      acyc_add hi.edges_lt (hi.recent_lt q r hr) hf.sink hi.acyc⟩,
      ⟨fun a b h => reach_addEdge h, [], by simp, by simp⟩, ⟨hf.lt, ?_⟩, ?_, ?_⟩
    · intro a b h
      rcases step_addEdge.1 h with h | ⟨_, rfl, rfl⟩
      · exact hi.edges_lt a b h
      · exact ⟨hi.recent_lt q _ hr, hf.lt⟩
    · rintro v p u (h | ⟨rfl, rfl, rfl⟩)
      · obtain ⟨r', h1, h2⟩ := hi.qubit v p u h
        refine ⟨r', h1, h2.imp (fun h => reach_addEdge h) (fun h => ⟨members_mono h.1, h.2⟩)⟩
      · exact ⟨r, hr, Or.inr ⟨members_addEdge.2 (Or.inr ⟨hrn, rfl, rfl, rfl⟩), fun _ => hc.1.symm⟩⟩
    · intro v c h
      obtain ⟨r', h1, h2⟩ := hi.clbit v c h
      exact ⟨r', h1, reach_addEdge h2⟩
    · intro b h
      rcases step_addEdge.1 h with h | ⟨_, h, _⟩
      · exact hf.sink b h
      · exact hrn h.symm
    · intro p hp h
      refine ⟨fun r' h' => ?_, h.recent⟩
      rcases members_addEdge.1 h' with h' | ⟨_, _, _, h'⟩
      · exact h.mem r' h'
      · exact hp h'
    · intro v u h
      obtain ⟨r', h1, h2⟩ := hi.qubit v q u h
      rw [hr] at h1
      cases h1
      rcases h2 with h2 | h2
      · exact Or.inl ((reach_addEdge h2).tail (step_addEdge.2 (Or.inr ⟨hrn, rfl, rfl⟩)))
      · have := h2.2 (by rw [hc.1]; exact hc.2)
        exact Or.inr ⟨by rw [this, hc.1], hc.2⟩
  · rw [if_neg hc]
    obtain ⟨d', e, x1, x2, x3, x4, x5, x6, x7, x8, x9, x10, x11, x12, x13⟩ := reseat_spec hi hf hu
    rw [e]
    simp only
    obtain ⟨r, hr, hrn⟩ := x3.recent
    have hl := last_eq hr
    rw [hl] at x11 ⊢
    have hlt : r < d'.nodes.length := x9 q r hr
    refine ⟨⟨?_, x9, ?_, ?_, ?_, acyc_add x8 hlt x2.sink x10⟩,
      ⟨fun a b h => reach_addEdge (x1.reach a b h), x1.nodes⟩, ⟨x2.lt, ?_⟩, ?_, ?_⟩
    · intro a b h
      rcases step_addEdge.1 h with h | ⟨_, rfl, rfl⟩
      · exact x8 a b h
      · exact ⟨hlt, x2.lt⟩
    · intro c r' h
      replace h : d'.recentC c = some r' := h
      rw [x5] at h
      exact x1.lt (hi.recentC_lt c r' h)
    · rintro v p u (h | ⟨rfl, rfl, rfl⟩)
      · by_cases hp : p = q
        · subst hp
          exact ⟨r, hr, Or.inl (reach_addEdge (x11 v u h))⟩
        · obtain ⟨r', h1, h2⟩ := hi.qubit v p u h
          refine ⟨r', (x12 p hp).trans h1, ?_⟩
          have e6 : upd d'.streak q t p = d.streak p := by rw [← x6]; simp [upd, hp]
          change Reach _ v r' ∨ (v ∈ members (addEdge d'.edges r n (.perm t) [q]) r' p ∧
            (upd d'.streak q t p ≠ .neutral → u = upd d'.streak q t p))
          rw [e6]
          exact h2.imp (fun h => reach_addEdge (x1.reach _ _ h))
            (fun h => ⟨members_mono ((x13 r' p v hp).2 h.1), h.2⟩)
      · exact ⟨r, hr, Or.inr ⟨members_addEdge.2 (Or.inr ⟨hrn, rfl, rfl, rfl⟩), fun _ => by simp [upd]⟩⟩
    · intro v c h
      obtain ⟨r', h1, h2⟩ := hi.clbit v c h
      exact ⟨r', by rw [← h1, ← x5], reach_addEdge (x1.reach _ _ h2)⟩
    · intro b h
      rcases step_addEdge.1 h with h | ⟨_, h, _⟩
      · exact x2.sink b h
      · exact hrn h.symm
    · intro p hp h
      have h' := x4 p hp h
      refine ⟨fun r' hm => ?_, h'.recent⟩
      rcases members_addEdge.1 hm with hm | ⟨_, _, _, hm⟩
      · exact h'.mem r' hm
      · exact hp hm
    · intro v u h
      exact Or.inl ((reach_addEdge (x11 v u h)).tail (step_addEdge.2 (Or.inr ⟨hrn, rfl, rfl⟩)))

theorem connectAll_spec {n : Nat} {TC : Nat → Nat → Prop} (l : List (Nat × Option PT)) :
    ∀ {d d' : Dag L} {T : Nat → Nat → PT → Prop}, Inv d T TC → Fresh d n → (l.map Prod.fst).Nodup →
    (∀ x ∈ l, Unconn d n x.1) → connectAll d n l = some d' →
    Inv d' (fun v q u => T v q u ∨ (v = n ∧ (q, some u) ∈ l)) TC ∧ Ext d d' ∧ Fresh d' n ∧
    ∀ q t, (q, some t) ∈ l → ∀ v u, T v q u → Reach d'.edges v n ∨ (u = t ∧ t ≠ .neutral) := by
  induction l with
  | nil =>
    intro d d' T hi hf _ _ h
    simp only [connectAll, Option.some.injEq] at h
    subst h
    refine ⟨?_, Ext.refl d, hf, by simp⟩
    simpa using hi
  | cons x l ih =>
    intro d d' T hi hf hnd hu h
    obtain ⟨q, o⟩ := x
    cases o with
    | none => simp [connectAll] at h
    | some t =>
      rw [connectAll] at h
      rw [List.map_cons, List.nodup_cons] at hnd
      obtain ⟨c1, c2, c3, c4, c5⟩ := connect_spec (t := t) hi hf (hu (q, some t) (by simp))
      obtain ⟨i1, i2, i3, i4⟩ := ih c1 c3 hnd.2 (fun x hx => c4 x.1
        (fun e => hnd.1 (List.mem_map.2 ⟨x, hx, e⟩)) (hu x (by simp [hx]))) h
      refine ⟨?_, c2.trans i2, i3, ?_⟩
      · convert i1 using 4 with v p u
        simp only [List.mem_cons, Prod.mk.injEq, Option.some.injEq]
        tauto
      · intro p u hm v w hv
        rcases List.mem_cons.1 hm with hm | hm
        · simp only [Prod.mk.injEq, Option.some.injEq] at hm
          obtain ⟨rfl, rfl⟩ := hm
          exact (c5 v w hv).imp (fun h => i2.reach _ _ h) id
        · exact i4 p u hm v w (Or.inl hv)

theorem connectC_spec {n c : Nat} {d : Dag L} {T : Nat → Nat → PT → Prop} {TC : Nat → Nat → Prop}
    (hi : Inv d T TC) (hf : Fresh d n) :
    Inv (connectC n d c) T (fun v b => TC v b ∨ (v = n ∧ b = c)) ∧ Ext d (connectC n d c) ∧
    Fresh (connectC n d c) n ∧ ∀ v, TC v c → Reach (connectC n d c).edges v n := by
  unfold connectC
  cases hr : d.recentC c with
  | none =>
    simp only
    refine ⟨⟨hi.edges_lt, hi.recent_lt, ?_, hi.qubit, ?_, hi.acyc⟩, ⟨fun _ _ h => h, [], by simp, by simp⟩,
      ⟨hf.lt, hf.sink⟩, ?_⟩
    · intro b r h
      by_cases hb : b = c
      · simp only [upd, hb, if_true, Option.some.injEq] at h; subst h; exact hf.lt
      · simp only [upd, hb, if_false] at h; exact hi.recentC_lt b r h
    · rintro v b (h | ⟨rfl, rfl⟩)
      · obtain ⟨r, h1, h2⟩ := hi.clbit v b h
        have hb : b ≠ c := fun e => by subst e; rw [hr] at h1; cases h1
        exact ⟨r, by simpa [upd, hb] using h1, h2⟩
      · exact ⟨v, by simp [upd], .refl⟩
    · intro v h
      obtain ⟨r, h1, _⟩ := hi.clbit v c h
      rw [hr] at h1; cases h1
  | some r =>
    simp only
    have hlt := hi.recentC_lt c r hr
    have hto : ∀ v, Reach d.edges v r → Reach (addEdge d.edges r n .anti []) v n := by
      intro v h
      by_cases e : r = n
      · subst e; exact reach_addEdge h
      · exact (reach_addEdge h).tail (step_addEdge.2 (Or.inr ⟨e, rfl, rfl⟩))
    refine ⟨⟨?_, hi.recent_lt, ?_, ?_, ?_, acyc_add hi.edges_lt hlt hf.sink hi.acyc⟩,
      ⟨fun _ _ h => reach_addEdge h, [], by simp, by simp⟩, ⟨hf.lt, ?_⟩, ?_⟩
    · intro a b h
      rcases step_addEdge.1 h with h | ⟨_, rfl, rfl⟩
      · exact hi.edges_lt a b h
      · exact ⟨hlt, hf.lt⟩
    · intro b r h
      by_cases hb : b = c
      · simp only [upd, hb, if_true, Option.some.injEq] at h; subst h; exact hf.lt
      · simp only [upd, hb, if_false] at h; exact hi.recentC_lt b r h
    · intro v p u h
      obtain ⟨r', h1, h2⟩ := hi.qubit v p u h
      exact ⟨r', h1, h2.imp (fun h => reach_addEdge h) (fun h => ⟨members_mono h.1, h.2⟩)⟩
    · rintro v b (h | ⟨rfl, rfl⟩)
      · obtain ⟨r', h1, h2⟩ := hi.clbit v b h
        by_cases hb : b = c
        · subst hb
          rw [hr] at h1; cases h1
          exact ⟨n, by simp [upd], hto v h2⟩
        · exact ⟨r', by simpa [upd, hb] using h1, reach_addEdge h2⟩
      · exact ⟨v, by simp [upd], .refl⟩
    · intro b h
      rcases step_addEdge.1 h with h | ⟨h1, h2, _⟩
      · exact hf.sink b h
      · exact h1 h2.symm
    · intro v h
      obtain ⟨r', h1, h2⟩ := hi.clbit v c h
      rw [hr] at h1; cases h1
      exact hto v h2

theorem connectCs_spec {n : Nat} {T : Nat → Nat → PT → Prop} (l : List Nat) :
    ∀ {d : Dag L} {TC : Nat → Nat → Prop}, Inv d T TC → Fresh d n →
    Inv (l.foldl (connectC n) d) T (fun v b => TC v b ∨ (v = n ∧ b ∈ l)) ∧
    Ext d (l.foldl (connectC n) d) ∧ ∀ c ∈ l, ∀ v, TC v c → Reach (l.foldl (connectC n) d).edges v n := by
  induction l with
  | nil =>
    intro d TC hi _
    exact ⟨by simpa using hi, Ext.refl d, by simp⟩
  | cons c l ih =>
    intro d TC hi hf
    obtain ⟨c1, c2, c3, c4⟩ := connectC_spec (c := c) hi hf
    obtain ⟨i1, i2, i3⟩ := ih c1 c3
    refine ⟨?_, c2.trans i2, ?_⟩
    · rw [List.foldl_cons]
      convert i1 using 3 with v b
      simp only [List.mem_cons]
      tauto
    · intro b hb v hv
      rw [List.foldl_cons]
      rcases List.mem_cons.1 hb with rfl | hb
      · exact i2.reach _ _ (c4 v hv)
      · exact i3 b hb v (Or.inl hv)

/-! ### Whole graph -/

/-- Qubits and clbits of a node. -/
def NK.typeOn : NK L → Nat → PT → Prop
  | .alloc p _, q, t => q = p ∧ t = .neutral
  | .op i, q, t => i.typeOn q t
  | .term _, _, _ => False

def NK.usesC : NK L → Nat → Prop
  | .op i, c => c ∈ i.clbits
  | _, _ => False

def TN (nodes : List (NK L)) (v q : Nat) (t : PT) : Prop := ∃ k, nodes[v]? = some k ∧ k.typeOn q t

def TCN (nodes : List (NK L)) (v c : Nat) : Prop := ∃ k, nodes[v]? = some k ∧ k.usesC c

/-- The instructions of the nodes in the order of insertion. -/
def kept (nodes : List (NK L)) : List (Instr L) := nodes.filterMap NK.ins

/-- An instruction on an allocation node is the allocation of its qubit. -/
def NK.OK : NK L → Prop
  | .alloc q (some i) => i.kind = .alloc ∧ i.qubits = [q] ∧ i.perm = [.neutral] ∧ i.clbits = []
  | _ => True

structure GInv (d : Dag L) (Q : List Nat) : Prop where
  inv : Inv d (TN d.nodes) (TCN d.nodes)
  ok : ∀ k ∈ d.nodes, k.OK
  dep : ∀ v w a b i j, v < w → d.nodes[v]? = some a → d.nodes[w]? = some b → a.ins = some i → b.ins = some j →
    ¬ Indep i j → Reach d.edges v w
  fs : ∀ q, d.fresh q = true → d.streak q = .neutral
  fresh : ∀ q, q ∉ Q → d.fresh q = true → ∃ A a B, kept d.nodes = A ++ a :: B ∧ a.kind = .alloc ∧
    a.qubits = [q] ∧ ∀ b ∈ B, q ∉ b.qubits

theorem typeOn_mem {i : Instr L} {q : Nat} {t : PT} (h : i.typeOn q t) : q ∈ i.qubits :=
  (List.of_mem_zip h).1

theorem alloc_typeOn {i : Instr L} {p q : Nat} {t : PT} (h1 : i.kind = .alloc) (h2 : i.qubits = [p])
    (h3 : i.perm = [.neutral]) : i.typeOn q t ↔ q = p ∧ t = .neutral := by
  unfold Instr.typeOn Instr.qperm
  rw [h2]
  simp [Instr.permAt, h1, h3]

theorem NK.typeOn_ins {k : NK L} {i : Instr L} (hk : k.OK) (h : k.ins = some i) (q : Nat) (t : PT) :
    k.typeOn q t ↔ i.typeOn q t := by
  cases k with
  | op j => simp only [NK.ins, Option.some.injEq] at h; subst h; rfl
  | term p => simp [NK.ins] at h
  | alloc p o =>
    simp only [NK.ins] at h
    subst h
    obtain ⟨h1, h2, h3, _⟩ := hk
    rw [alloc_typeOn h1 h2 h3]
    rfl

theorem TN_append {nodes l : List (NK L)} {v q : Nat} {t : PT} (h : TN nodes v q t) :
    TN (nodes ++ l) v q t := by
  obtain ⟨k, h1, h2⟩ := h
  exact ⟨k, by rw [List.getElem?_append_left (List.getElem?_eq_some_iff.1 h1).1]; exact h1, h2⟩

/-- Dependent instructions share a qubit or a clbit in a conflicting way. -/
theorem not_indep {i j : Instr L} (h : ¬ Indep i j) :
    (∃ q t u, i.typeOn q t ∧ j.typeOn q u ∧ ¬ (t = u ∧ t ≠ .neutral)) ∨ ∃ c, c ∈ i.clbits ∧ c ∈ j.clbits := by
  by_contra hc
  push Not at hc
  refine h ⟨fun q t u h1 h2 => ?_, fun c h1 h2 => hc.2 c h1 h2⟩
  by_contra hn
  exact hn (by simpa using hc.1 q t u h1 h2)

theorem TN_snoc {nodes : List (NK L)} {k : NK L} {v q : Nat} {t : PT} :
    TN (nodes ++ [k]) v q t ↔ TN nodes v q t ∨ (v = nodes.length ∧ k.typeOn q t) := by
  constructor
  · rintro ⟨k', h1, h2⟩
    rcases Nat.lt_trichotomy v nodes.length with h | h | h
    · rw [List.getElem?_append_left h] at h1
      exact Or.inl ⟨k', h1, h2⟩
    · subst h
      rw [List.getElem?_append_right (Nat.le_refl _), Nat.sub_self] at h1
      simp only [List.getElem?_cons_zero, Option.some.injEq] at h1
      exact Or.inr ⟨rfl, h1 ▸ h2⟩
    · rw [List.getElem?_eq_none (by simp; omega)] at h1
      cases h1
  · rintro (h | ⟨rfl, h⟩)
    · exact TN_append h
    · exact ⟨k, by simp, h⟩

theorem TCN_snoc {nodes : List (NK L)} {k : NK L} {v c : Nat} :
    TCN (nodes ++ [k]) v c ↔ TCN nodes v c ∨ (v = nodes.length ∧ k.usesC c) := by
  constructor
  · rintro ⟨k', h1, h2⟩
    rcases Nat.lt_trichotomy v nodes.length with h | h | h
    · rw [List.getElem?_append_left h] at h1
      exact Or.inl ⟨k', h1, h2⟩
    · subst h
      rw [List.getElem?_append_right (Nat.le_refl _), Nat.sub_self] at h1
      simp only [List.getElem?_cons_zero, Option.some.injEq] at h1
      exact Or.inr ⟨rfl, h1 ▸ h2⟩
    · rw [List.getElem?_eq_none (by simp; omega)] at h1
      cases h1
  · rintro (⟨k', h1, h2⟩ | ⟨rfl, h⟩)
    · exact ⟨k', by rw [List.getElem?_append_left (List.getElem?_eq_some_iff.1 h1).1]; exact h1, h2⟩
    · exact ⟨k, by simp, h⟩

theorem TN_terms {nodes l : List (NK L)} (hl : ∀ x ∈ l, ∃ p, x = NK.term p) {v q : Nat} {t : PT} :
    TN (nodes ++ l) v q t ↔ TN nodes v q t := by
  refine ⟨?_, TN_append⟩
  rintro ⟨k, h1, h2⟩
  by_cases h : v < nodes.length
  · rw [List.getElem?_append_left h] at h1
    exact ⟨k, h1, h2⟩
  · rw [List.getElem?_append_right (by omega)] at h1
    obtain ⟨p, rfl⟩ := hl k (List.mem_of_getElem? h1)
    exact h2.elim

theorem TCN_terms {nodes l : List (NK L)} (hl : ∀ x ∈ l, ∃ p, x = NK.term p) {v c : Nat} :
    TCN (nodes ++ l) v c ↔ TCN nodes v c := by
  constructor
  · rintro ⟨k, h1, h2⟩
    by_cases h : v < nodes.length
    · rw [List.getElem?_append_left h] at h1
      exact ⟨k, h1, h2⟩
    · rw [List.getElem?_append_right (by omega)] at h1
      obtain ⟨p, rfl⟩ := hl k (List.mem_of_getElem? h1)
      exact h2.elim
  · rintro ⟨k', h1, h2⟩
    exact ⟨k', by rw [List.getElem?_append_left (List.getElem?_eq_some_iff.1 h1).1]; exact h1, h2⟩

theorem kept_append (a b : List (NK L)) : kept (a ++ b) = kept a ++ kept b := by simp [kept]

theorem kept_terms {l : List (NK L)} (hl : ∀ x ∈ l, ∃ p, x = NK.term p) : kept l = [] := by
  unfold kept
  rw [List.filterMap_eq_nil_iff]
  intro x hx
  obtain ⟨p, rfl⟩ := hl x hx
  rfl

theorem Inv.congr {d : Dag L} {T T' : Nat → Nat → PT → Prop} {TC TC' : Nat → Nat → Prop} (h : Inv d T TC)
    (h1 : ∀ v q t, T' v q t → T v q t) (h2 : ∀ v c, TC' v c → TC v c) : Inv d T' TC' :=
  ⟨h.edges_lt, h.recent_lt, h.recentC_lt, fun v q t k => h.qubit v q t (h1 v q t k),
    fun v c k => h.clbit v c (h2 v c k), h.acyc⟩

/-- A node on an edge is older than the nodes still to come. -/
theorem Inv.new_unreached {d : Dag L} {T : Nat → Nat → PT → Prop} {TC : Nat → Nat → Prop} (h : Inv d T TC)
    {b : Nat} : ¬ Step d.edges d.nodes.length b := fun hs => by
  have := (h.edges_lt _ _ hs).1
  omega

theorem allocStep_old {d : Dag L} {ins : Instr L} {q : Nat} (h : (d.recent q).isSome) :
    allocStep ins d q = d := by
  unfold allocStep
  rw [if_pos h]

theorem allocStep_spec {d : Dag L} {ins : Instr L} {q : Nat} {Q : List Nat} (hg : GInv d Q) (ho : InsOK ins)
    (hq : q ∈ ins.qubits) (hQ : ins.kind ≠ .alloc → q ∈ Q) (hr : d.recent q = none) :
    GInv (allocStep ins d q) Q ∧ (allocStep ins d q).recent q = some d.nodes.length ∧
    (∀ p, p ≠ q → (allocStep ins d q).recent p = d.recent p) ∧ (allocStep ins d q).fresh q = true ∧
    kept (allocStep ins d q).nodes = kept d.nodes ++ (if ins.kind = .alloc then [ins] else []) := by
  unfold allocStep
  rw [if_neg (by simp [hr])]
  simp only
  have hno : ∀ v t, ¬ TN d.nodes v q t := fun v t h => by
    obtain ⟨r, h1, _⟩ := hg.inv.qubit v q t h
    rw [hr] at h1; cases h1
  have hk : kept (d.nodes ++ [NK.alloc q (if ins.kind = .alloc then some ins else none)]) =
      kept d.nodes ++ (if ins.kind = .alloc then [ins] else []) := by
    rw [kept_append]
    by_cases h : ins.kind = .alloc
    · simp [h, kept, NK.ins]
    · simp [h, kept, NK.ins]
  refine ⟨⟨⟨?_, ?_, ?_, ?_, ?_, hg.inv.acyc⟩, ?_, ?_, ?_, ?_⟩, by simp [upd], ?_, by simp [upd], hk⟩
  · intro a b h
    obtain ⟨h1, h2⟩ := hg.inv.edges_lt a b h
    exact ⟨by simp; omega, by simp; omega⟩
  · intro p r h
    by_cases hp : p = q
    · simp only [upd, hp, if_true, Option.some.injEq] at h
      simp; omega
    · simp only [upd, hp, if_false] at h
      have := hg.inv.recent_lt p r h
      simp; omega
  · intro c r h
    have := hg.inv.recentC_lt c r h
    simp; omega
  · intro v p t h
    rcases TN_snoc.1 h with h | ⟨rfl, h'⟩
    · have hp : p ≠ q := fun e => hno v t (e ▸ h)
      obtain ⟨r, h1, h2⟩ := hg.inv.qubit v p t h
      refine ⟨r, by simpa [upd, hp] using h1, ?_⟩
      simpa [upd, hp] using h2
    · obtain ⟨rfl, rfl⟩ := h'
      exact ⟨d.nodes.length, by simp [upd], Or.inl .refl⟩
  · intro v c h
    rcases TCN_snoc.1 h with h | ⟨rfl, h'⟩
    · exact hg.inv.clbit v c h
    · exact h'.elim
  · intro k hk
    rcases List.mem_append.1 hk with hk | hk
    · exact hg.ok k hk
    · rw [List.mem_singleton] at hk
      subst hk
      by_cases h : ins.kind = .alloc
      · rw [if_pos h]
        obtain ⟨⟨p, h1⟩, h2, h3⟩ := ho.alloc h
        rw [h1, List.mem_singleton] at hq
        subst hq
        exact ⟨h, h1, h2, h3⟩
      · rw [if_neg h]
        trivial
  · intro v w a b i j hlt ha hb hai hbj hd
    by_cases hw : w < d.nodes.length
    · rw [List.getElem?_append_left hw] at hb
      rw [List.getElem?_append_left (by omega)] at ha
      exact hg.dep v w a b i j hlt ha hb hai hbj hd
    · have hw' : w = d.nodes.length := by
        have := (List.getElem?_eq_some_iff.1 hb).1
        simp at this
        omega
      subst hw'
      rw [List.getElem?_append_left hlt] at ha
      rw [List.getElem?_append_right (Nat.le_refl _), Nat.sub_self] at hb
      simp only [List.getElem?_cons_zero, Option.some.injEq] at hb
      subst hb
      simp only [NK.ins] at hbj
      by_cases h : ins.kind = .alloc
      · rw [if_pos h, Option.some.injEq] at hbj
        subst hbj
        obtain ⟨⟨p, h1⟩, h2, h3⟩ := ho.alloc h
        rw [h1, List.mem_singleton] at hq
        subst hq
        rcases not_indep hd with ⟨p, t, u, k1, k2, _⟩ | ⟨c, _, k2⟩
        · obtain ⟨rfl, _⟩ := (alloc_typeOn h h1 h2).1 k2
          exact absurd ⟨a, ha, (NK.typeOn_ins (hg.ok a (List.mem_of_getElem? ha)) hai _ _).2 k1⟩ (hno v t)
        · rw [h3] at k2
          cases k2
      · rw [if_neg h] at hbj
        cases hbj
  · intro p h
    by_cases hp : p = q
    · simp [upd, hp]
    · simp only [upd, hp, if_false] at h ⊢
      exact hg.fs p h
  · intro p hpQ h
    rw [hk]
    by_cases hp : p = q
    · subst hp
      have hka : ins.kind = .alloc := by
        by_contra hc
        exact hpQ (hQ hc)
      obtain ⟨⟨p', h1⟩, _, _⟩ := ho.alloc hka
      rw [h1, List.mem_singleton] at hq
      subst hq
      exact ⟨kept d.nodes, ins, [], by rw [if_pos hka], hka, h1, by simp⟩
    · simp only [upd, hp, if_false] at h
      obtain ⟨A, a, B, e, h1, h2, h3⟩ := hg.fresh p hpQ h
      refine ⟨A, a, B ++ (if ins.kind = .alloc then [ins] else []), by rw [e]; simp, h1, h2, ?_⟩
      intro b hb
      rcases List.mem_append.1 hb with hb | hb
      · exact h3 b hb
      · by_cases hka : ins.kind = .alloc
        · rw [if_pos hka, List.mem_singleton] at hb
          subst hb
          obtain ⟨⟨p', h1⟩, _, _⟩ := ho.alloc hka
          rw [h1, List.mem_singleton] at hq
          subst hq
          rw [h1, List.mem_singleton]
          exact hp
        · rw [if_neg hka] at hb
          cases hb
  · intro p hp
    simp [upd, hp]

/-- Allocation nodes for all qubits of an instruction that is not an allocation. -/
theorem allocs_spec {ins : Instr L} (ho : InsOK ins) (hne : ins.kind ≠ .alloc) (l : List Nat) :
    ∀ {d : Dag L}, GInv d ins.qubits → (∀ q ∈ l, q ∈ ins.qubits) →
    GInv (l.foldl (allocStep ins) d) ins.qubits ∧ (∀ q ∈ l, ((l.foldl (allocStep ins) d).recent q).isSome) ∧
    (∀ q, (d.recent q).isSome → ((l.foldl (allocStep ins) d).recent q).isSome) ∧
    kept (l.foldl (allocStep ins) d).nodes = kept d.nodes := by
  induction l with
  | nil => intro d hg _; exact ⟨hg, by simp, fun _ h => h, rfl⟩
  | cons q l ih =>
    intro d hg hl
    rw [List.foldl_cons]
    by_cases hr : (d.recent q).isSome
    · rw [allocStep_old hr]
      obtain ⟨i1, i2, i3, i4⟩ := ih hg (fun p hp => hl p (by simp [hp]))
      refine ⟨i1, ?_, i3, i4⟩
      intro p hp
      rcases List.mem_cons.1 hp with rfl | hp
      · exact i3 p hr
      · exact i2 p hp
    · obtain ⟨a1, a2, a3, _, a5⟩ := allocStep_spec hg ho (hl q (by simp)) (fun _ => hl q (by simp))
        (by simpa using hr)
      obtain ⟨i1, i2, i3, i4⟩ := ih a1 (fun p hp => hl p (by simp [hp]))
      have hs : ∀ p, (d.recent p).isSome → ((allocStep ins d q).recent p).isSome := by
        intro p hp
        by_cases e : p = q
        · subst e; rw [a2]; rfl
        · rw [a3 p e]; exact hp
      refine ⟨i1, ?_, fun p hp => i3 p (hs p hp), ?_⟩
      · intro p hp
        rcases List.mem_cons.1 hp with rfl | hp
        · exact i3 p (by rw [a2]; rfl)
        · exact i2 p hp
      · rw [i4, a5, if_neg hne, List.append_nil]

theorem reseat_keep (d : Dag L) (q : Nat) (ms : List Nat) :
    (reseat d q ms).streak = d.streak ∧ (reseat d q ms).fresh = d.fresh := by
  match ms with
  | [] => exact ⟨rfl, rfl⟩
  | [_] => exact ⟨rfl, rfl⟩
  | _ :: _ :: _ => exact ⟨rfl, rfl⟩

theorem connect_fresh {d : Dag L} (n q : Nat) (t : PT) (hs : ∀ p, d.fresh p = true → d.streak p = .neutral) :
    (∀ p, (connect d n q t).fresh p = true → (connect d n q t).streak p = .neutral) ∧
    (connect d n q t).fresh q = false ∧ ∀ p, p ≠ q → (connect d n q t).fresh p = d.fresh p := by
  unfold connect
  by_cases hc : d.streak q = t ∧ t ≠ .neutral
  · rw [if_pos hc]
    refine ⟨hs, ?_, fun _ _ => rfl⟩
    by_contra h
    have := hs q (by simpa using h)
    exact hc.2 (hc.1 ▸ this)
  · rw [if_neg hc]
    obtain ⟨e1, e2⟩ := reseat_keep d q (members d.edges (d.last q) q)
    simp only [e1, e2]
    refine ⟨?_, by simp [upd], fun p hp => by simp [upd, hp]⟩
    intro p h
    by_cases hp : p = q
    · subst hp; simp [upd] at h
    · simp only [upd, hp, if_false] at h ⊢
      exact hs p h

theorem connectAll_fresh {n : Nat} (l : List (Nat × Option PT)) :
    ∀ {d d' : Dag L}, (∀ p, d.fresh p = true → d.streak p = .neutral) → connectAll d n l = some d' →
    (∀ p, d'.fresh p = true → d'.streak p = .neutral) ∧ (∀ p ∈ l.map Prod.fst, d'.fresh p = false) ∧
    ∀ p, d'.fresh p = true → d.fresh p = true := by
  induction l with
  | nil =>
    intro d d' hs h
    simp only [connectAll, Option.some.injEq] at h
    subst h
    exact ⟨hs, by simp, fun _ h => h⟩
  | cons x l ih =>
    intro d d' hs h
    obtain ⟨q, o⟩ := x
    cases o with
    | none => simp [connectAll] at h
    | some t =>
      rw [connectAll] at h
      obtain ⟨c1, c2, c3⟩ := connect_fresh n q t hs
      obtain ⟨i1, i2, i3⟩ := ih c1 h
      refine ⟨i1, ?_, ?_⟩
      · intro p hp
        rw [List.map_cons, List.mem_cons] at hp
        rcases hp with rfl | hp
        · by_contra hc
          have := i3 _ (by simpa using hc)
          rw [c2] at this; cases this
        · exact i2 p hp
      · intro p hp
        have := i3 p hp
        by_cases e : p = q
        · subst e; rw [c2] at this; cases this
        · rwa [c3 p e] at this

theorem connectC_keep (n : Nat) (l : List Nat) : ∀ d : Dag L,
    (l.foldl (connectC n) d).streak = d.streak ∧ (l.foldl (connectC n) d).fresh = d.fresh := by
  induction l with
  | nil => intro d; exact ⟨rfl, rfl⟩
  | cons c l ih =>
    intro d
    rw [List.foldl_cons]
    obtain ⟨h1, h2⟩ := ih (connectC n d c)
    exact ⟨h1.trans rfl, h2.trans rfl⟩

theorem qperm_fst (i : Instr L) : i.qperm.map Prod.fst = i.qubits := by
  unfold Instr.qperm
  rw [List.map_fst_zip]
  simp

/-- Connecting the node of an instruction whose qubits have been allocated. -/
theorem opStep_spec {d d2 : Dag L} {ins : Instr L} (hg : GInv d ins.qubits) (ho : InsOK ins)
    (hr : ∀ q ∈ ins.qubits, (d.recent q).isSome)
    (h : connectAll { d with nodes := d.nodes ++ [.op ins] } d.nodes.length ins.qperm = some d2) :
    GInv (ins.clbits.foldl (connectC d.nodes.length) d2) [] ∧
    kept (ins.clbits.foldl (connectC d.nodes.length) d2).nodes = kept d.nodes ++ [ins] := by
  have hi0 : Inv { d with nodes := d.nodes ++ [.op ins] } (TN d.nodes) (TCN d.nodes) := by
    refine ⟨?_, ?_, ?_, hg.inv.qubit, hg.inv.clbit, hg.inv.acyc⟩
    · intro a b hs
      have := hg.inv.edges_lt a b hs
      simp; omega
    · intro p r hs
      have := hg.inv.recent_lt p r hs
      simp; omega
    · intro p r hs
      have := hg.inv.recentC_lt p r hs
      simp; omega
  have hf0 : Fresh { d with nodes := d.nodes ++ [.op ins] } d.nodes.length :=
    ⟨by simp, fun b hs => hg.inv.new_unreached hs⟩
  have hu : ∀ x ∈ ins.qperm, Unconn { d with nodes := d.nodes ++ [.op ins] } d.nodes.length x.1 := by
    intro x hx
    have hq : x.1 ∈ ins.qubits := by
      rw [← qperm_fst]
      exact List.mem_map.2 ⟨x, hx, rfl⟩
    refine ⟨?_, ?_⟩
    · intro r hm
      have := (hg.inv.edges_lt _ _ (members_step hm)).2
      omega
    · obtain ⟨r, e⟩ := Option.isSome_iff_exists.1 (hr _ hq)
      exact ⟨r, e, fun e' => by have := hg.inv.recent_lt _ _ e; omega⟩
  obtain ⟨i1, i2, i3, i4⟩ := connectAll_spec ins.qperm hi0 hf0 (by rw [qperm_fst]; exact ho.nodup) hu h
  obtain ⟨j1, j2, j3⟩ := connectCs_spec ins.clbits i1 i3
  obtain ⟨f1, f2, f3⟩ := connectAll_fresh ins.qperm (d := { d with nodes := d.nodes ++ [.op ins] }) hg.fs h
  obtain ⟨k1, k2⟩ := connectC_keep d.nodes.length ins.clbits d2
  have hE := i2.trans j2
  generalize hd3 : ins.clbits.foldl (connectC d.nodes.length) d2 = d3 at *
  obtain ⟨l, hl, hlt⟩ := hE.nodes
  replace hl : d3.nodes = (d.nodes ++ [.op ins]) ++ l := hl
  have hkept : kept d3.nodes = kept d.nodes ++ [ins] := by
    rw [hl, kept_append, kept_terms hlt, List.append_nil, kept_append]
    rfl
  rw [qperm_fst] at f2
  refine ⟨⟨?_, ?_, ?_, ?_, ?_⟩, hkept⟩
  · refine j1.congr ?_ ?_
    · intro v q t hv
      rw [hl, TN_terms hlt, TN_snoc] at hv
      exact hv
    · intro v c hv
      rw [hl, TCN_terms hlt, TCN_snoc] at hv
      exact hv
  · intro k hk
    rw [hl] at hk
    rcases List.mem_append.1 hk with hk | hk
    · rcases List.mem_append.1 hk with hk | hk
      · exact hg.ok k hk
      · rw [List.mem_singleton] at hk
        subst hk
        trivial
    · obtain ⟨p, rfl⟩ := hlt k hk
      trivial
  · intro v w a b i j hvw ha hb hai hbj hd
    rw [hl] at ha hb
    by_cases hw : w < d.nodes.length
    · rw [List.getElem?_append_left (by simp; omega), List.getElem?_append_left (by omega)] at ha hb
      exact hE.reach _ _ (hg.dep v w a b i j hvw ha hb hai hbj hd)
    · by_cases hw' : w = d.nodes.length
      · subst hw'
        rw [List.getElem?_append_left (by simp; omega), List.getElem?_append_left (by omega)] at ha
        rw [List.getElem?_append_left (by simp)] at hb
        simp only [List.getElem?_concat_length, Option.some.injEq] at hb
        subst hb
        simp only [NK.ins, Option.some.injEq] at hbj
        subst hbj
        have hka := hg.ok a (List.mem_of_getElem? ha)
        rcases not_indep hd with ⟨q, t, u, x1, x2, x3⟩ | ⟨c, x1, x2⟩
        · rcases i4 q u x2 v t ⟨a, ha, (NK.typeOn_ins hka hai q t).2 x1⟩ with y | ⟨y1, y2⟩
          · exact j2.reach _ _ y
          · exact absurd ⟨y1, y1 ▸ y2⟩ x3
        · refine j3 c x2 v ⟨a, ha, ?_⟩
          cases a with
          | op i' => simp only [NK.ins, Option.some.injEq] at hai; subst hai; exact x1
          | term p => simp [NK.ins] at hai
          | alloc p o =>
            simp only [NK.ins] at hai
            subst hai
            rw [hka.2.2.2] at x1
            cases x1
      · rw [List.getElem?_append_right (by simp; omega)] at hb
        obtain ⟨p, rfl⟩ := hlt b (List.mem_of_getElem? hb)
        simp [NK.ins] at hbj
  · rw [k1, k2]
    exact f1
  · intro q _ hq
    rw [k2] at hq
    have hqi : q ∉ ins.qubits := fun hc => by rw [f2 q hc] at hq; cases hq
    obtain ⟨A, a, B, e, h1, h2, h3⟩ := hg.fresh q hqi (f3 q hq)
    refine ⟨A, a, B ++ [ins], by rw [hkept, e]; simp, h1, h2, ?_⟩
    intro b hb
    rcases List.mem_append.1 hb with hb | hb
    · exact h3 b hb
    · rw [List.mem_singleton] at hb
      subst hb
      exact hqi

/-- An allocation merges with an earlier allocation of the same qubit that nothing has used since. -/
theorem run_dropped {σ : Type} (I : Interp L σ) {K A B : List (Instr L)} {a ins : Instr L} {q : Nat}
    (e : K = A ++ a :: B) (h1 : a.kind = .alloc) (h2 : a.qubits = [q]) (h3 : ∀ b ∈ B, q ∉ b.qubits)
    (k1 : ins.kind = .alloc) (k2 : ins.qubits = [q]) (k3 : ins.clbits = []) (s : σ) :
    runI I.act (K ++ [ins]) s = runI I.act K s := by
  subst e
  rw [runI_append, runI_append]
  have e1 : ∀ s, runI I.act (a :: B) s = runI I.act B (I.act a s) := fun _ => rfl
  have e2 : ∀ s, runI I.act [ins] s = I.act ins s := fun _ => rfl
  rw [e1, e2, run_past I ins B, I.idem a ins h1 k1 (by rw [h2, k2])]
  intro b hb
  refine ⟨fun p t u x1 x2 => ?_, fun c _ x2 => by rw [k3] at x2; cases x2⟩
  have hp := typeOn_mem x2
  rw [k2, List.mem_singleton] at hp
  subst hp
  exact absurd (typeOn_mem x1) (h3 b hb)

theorem GInv.weaken {d : Dag L} {Q : List Nat} (h : GInv d []) : GInv d Q :=
  ⟨h.inv, h.ok, h.dep, h.fs, fun q _ => h.fresh q (by simp)⟩

theorem dagStep_kept {d d' : Dag L} {ins : Instr L} (hg : GInv d []) (ho : InsOK ins)
    (h : dagStep d ins = some d') : (kept d'.nodes = kept d.nodes ∧ ins.kind = .alloc ∧
      ∃ a ∈ kept d.nodes, a.kind = .alloc ∧ a.qubits = ins.qubits) ∨ kept d'.nodes = kept d.nodes ++ [ins] := by
  unfold dagStep at h
  simp only at h
  by_cases hka : ins.kind = .alloc
  · obtain ⟨⟨q, hq⟩, hp, hc⟩ := ho.alloc hka
    have hfold : ins.qubits.foldl (allocStep ins) d = allocStep ins d q := by rw [hq]; rfl
    have hlast : (ins.qubits.getLast?.map (allocStep ins d q).fresh).getD false = (allocStep ins d q).fresh q := by
      rw [hq]; rfl
    rw [hfold, hlast] at h
    cases hr : d.recent q with
    | none =>
      obtain ⟨a1, _, _, a4, a5⟩ := allocStep_spec hg ho (q := q) (by rw [hq]; simp)
        (fun hn => absurd hka hn) hr
      rw [if_pos ⟨hka, a4⟩, Option.some.injEq] at h
      subst h
      rw [if_pos hka] at a5
      exact Or.inr a5
    | some r =>
      rw [allocStep_old (by simp [hr])] at h
      by_cases hf : d.fresh q = true
      · rw [if_pos ⟨hka, hf⟩, Option.some.injEq] at h
        subst h
        obtain ⟨A, a, B, e, h1, h2, _⟩ := hg.fresh q (by simp) hf
        exact Or.inl ⟨rfl, hka, a, by rw [e]; simp, h1, by rw [h2, hq]⟩
      · rw [if_neg (fun hc => hf hc.2)] at h
        obtain ⟨d2, h2, rfl⟩ := Option.map_eq_some_iff.1 h
        exact Or.inr (opStep_spec hg.weaken ho (by
          intro p hp; rw [hq, List.mem_singleton] at hp; subst hp; simp [hr]) h2).2
  · rw [if_neg (fun hc => hka hc.1)] at h
    obtain ⟨a1, a2, _, a4⟩ := allocs_spec ho hka ins.qubits hg.weaken (fun _ h => h)
    obtain ⟨d2, h2, rfl⟩ := Option.map_eq_some_iff.1 h
    exact Or.inr (by rw [(opStep_spec a1 ho a2 h2).2, a4])

theorem dagStep_spec {d d' : Dag L} {ins : Instr L} (hg : GInv d []) (ho : InsOK ins)
    (h : dagStep d ins = some d') :
    GInv d' [] ∧ ∀ {σ : Type} (I : Interp L σ) (s : σ),
      runI I.act (kept d'.nodes) s = runI I.act (kept d.nodes ++ [ins]) s := by
  unfold dagStep at h
  simp only at h
  by_cases hka : ins.kind = .alloc
  · obtain ⟨⟨q, hq⟩, hp, hc⟩ := ho.alloc hka
    have hfold : ins.qubits.foldl (allocStep ins) d = allocStep ins d q := by rw [hq]; rfl
    have hlast : (ins.qubits.getLast?.map (allocStep ins d q).fresh).getD false = (allocStep ins d q).fresh q := by
      rw [hq]; rfl
    rw [hfold, hlast] at h
    cases hr : d.recent q with
    | none =>
      obtain ⟨a1, _, _, a4, a5⟩ := allocStep_spec hg ho (q := q) (by rw [hq]; simp)
        (fun hn => absurd hka hn) hr
      rw [if_pos ⟨hka, a4⟩, Option.some.injEq] at h
      subst h
      rw [if_pos hka] at a5
      exact ⟨a1, fun I s => by rw [a5]⟩
    | some r =>
      rw [allocStep_old (by simp [hr])] at h
      by_cases hf : d.fresh q = true
      · rw [if_pos ⟨hka, hf⟩, Option.some.injEq] at h
        subst h
        obtain ⟨A, a, B, e, h1, h2, h3⟩ := hg.fresh q (by simp) hf
        exact ⟨hg, fun I s => (run_dropped I e h1 h2 h3 hka hq hc s).symm⟩
      · rw [if_neg (fun hc => hf hc.2)] at h
        obtain ⟨d2, h2, rfl⟩ := Option.map_eq_some_iff.1 h
        obtain ⟨o1, o2⟩ := opStep_spec hg.weaken ho (by
          intro p hp; rw [hq, List.mem_singleton] at hp; subst hp; simp [hr]) h2
        exact ⟨o1, fun I s => by rw [o2]⟩
  · rw [if_neg (fun hc => hka hc.1)] at h
    obtain ⟨a1, a2, _, a4⟩ := allocs_spec ho hka ins.qubits hg.weaken (fun _ h => h)
    obtain ⟨d2, h2, rfl⟩ := Option.map_eq_some_iff.1 h
    obtain ⟨o1, o2⟩ := opStep_spec a1 ho a2 h2
    exact ⟨o1, fun I s => by rw [o2, a4]⟩

theorem empty_ginv : GInv (Dag.empty : Dag L) [] := by
  refine ⟨⟨?_, ?_, ?_, ?_, ?_, ⟨fun _ => 0, ?_⟩⟩, ?_, ?_, ?_, ?_⟩ <;>
    simp [Dag.empty, Step, TN, TCN]

theorem dagOf_spec {data : List (Instr L)} : ∀ {d0 d : Dag L}, GInv d0 [] → (∀ i ∈ data, InsOK i) →
    data.foldlM dagStep d0 = some d →
    GInv d [] ∧ ∀ {σ : Type} (I : Interp L σ) (s : σ),
      runI I.act (kept d.nodes) s = runI I.act (kept d0.nodes ++ data) s := by
  induction data with
  | nil =>
    intro d0 d hg _ h
    simp only [List.foldlM_nil, Option.pure_def, Option.some.injEq] at h
    subst h
    exact ⟨hg, fun I s => by simp⟩
  | cons ins data ih =>
    intro d0 d hg ho h
    rw [List.foldlM_cons] at h
    obtain ⟨d1, h1, h2⟩ := Option.bind_eq_some_iff.1 h
    obtain ⟨g1, r1⟩ := dagStep_spec hg (ho ins (by simp)) h1
    obtain ⟨g2, r2⟩ := ih g1 (fun i hi => ho i (by simp [hi])) h2
    refine ⟨g2, fun I s => ?_⟩
    rw [r2 I s, runI_append, r1 I s, ← runI_append]
    simp

/-- `ord` lists every node once and every edge points forward. -/
structure TopoOrder (n : Nat) (E : List Edge) (ord : List Nat) : Prop where
  perm : ord.Perm (List.range n)
  forward : ∀ a b, Step E a b → [a, b].Sublist ord

theorem pair_trans {a b c : Nat} : ∀ {l : List Nat}, l.Nodup → [a, b].Sublist l → [b, c].Sublist l →
    [a, c].Sublist l := by
  intro l
  induction l with
  | nil => intro _ h; cases h
  | cons x l ih =>
    intro hn h1 h2
    rw [List.nodup_cons] at hn
    rcases List.sublist_cons_iff.1 h2 with h3 | ⟨r, e, h3⟩
    · rcases List.sublist_cons_iff.1 h1 with h1 | ⟨r, e, h1⟩
      · exact (ih hn.2 h1 h3).cons x
      · injection e with e1 e2
        subst e1
        exact List.Sublist.cons_cons a (List.singleton_sublist.2 (h3.subset (by simp)))
    · injection e with e1 e2
      subst e1
      rcases List.sublist_cons_iff.1 h1 with h1 | ⟨r, e, h1⟩
      · exact absurd (h1.subset (by simp)) hn.1
      · injection e with e1 e3
        subst e1 e3
        exact absurd (h1.subset (by simp)) hn.1

theorem TopoOrder.reach {n : Nat} {E : List Edge} {ord : List Nat} (h : TopoOrder n E ord) {a b : Nat}
    (hr : Reach E a b) : a = b ∨ [a, b].Sublist ord := by
  have hn : ord.Nodup := h.perm.nodup_iff.2 List.nodup_range
  induction hr with
  | refl => exact Or.inl rfl
  | tail _ hs ih =>
    rcases ih with rfl | ih
    · exact Or.inr (h.forward _ _ hs)
    · exact Or.inr (pair_trans hn ih (h.forward _ _ hs))

theorem emit_range (nodes : List (NK L)) : emit nodes (List.range nodes.length) = kept nodes := by
  unfold emit kept
  induction nodes using List.reverseRecOn with
  | nil => rfl
  | append_singleton l k ih =>
    rw [List.length_append, List.length_singleton, List.range_succ, List.filterMap_append,
      List.filterMap_append, ← ih]
    congr 1
    · apply List.filterMap_congr
      intro v hv
      rw [List.getElem?_append_left (List.mem_range.1 hv)]
    · simp [List.filterMap_cons]

/-- **Every topological order of the graph has the effect of the circuit.** -/
theorem linearise {data : List (Instr L)} {d : Dag L} (ho : ∀ i ∈ data, InsOK i) (h : dagOf data = some d)
    {ord : List Nat} (ht : TopoOrder d.nodes.length d.edges ord) {σ : Type} (I : Interp L σ) (s : σ) :
    runI I.act (emit d.nodes ord) s = runI I.act data s := by
  obtain ⟨hg, hr⟩ := dagOf_spec empty_ginv ho h
  have e : runI I.act (kept d.nodes) s = runI I.act data s := by
    rw [hr I s]
    rfl
  rw [← e, ← emit_range]
  unfold emit
  refine run_reorder I _ ord (List.range d.nodes.length) ht.perm List.nodup_range ?_ s
  intro a b i j hs ha hb hd
  obtain ⟨ka, ka1, ka2⟩ := Option.bind_eq_some_iff.1 ha
  obtain ⟨kb, kb1, kb2⟩ := Option.bind_eq_some_iff.1 hb
  have hlt : a < b := by
    have := List.Pairwise.sublist hs List.pairwise_lt_range
    simpa using this
  rcases ht.reach (hg.dep a b ka kb i j hlt ka1 kb1 ka2 kb2 hd) with e | e
  · omega
  · exact e

/-! ### Allocation nodes have no incoming edges -/

/-- No edge ends in an allocation node. -/
def SInv (nodes : List (NK L)) (E : List Edge) : Prop :=
  ∀ a b, Step E a b → ∃ k, nodes[b]? = some k ∧ ∀ q o, k ≠ NK.alloc q o

theorem SInv.append {nodes : List (NK L)} {E : List Edge} (h : SInv nodes E) (l : List (NK L)) :
    SInv (nodes ++ l) E := by
  intro a b hs
  obtain ⟨k, h1, h2⟩ := h a b hs
  exact ⟨k, by rw [List.getElem?_append_left (List.getElem?_eq_some_iff.1 h1).1]; exact h1, h2⟩

theorem SInv.addEdge {nodes : List (NK L)} {E : List Edge} (h : SInv nodes E) {a b : Nat} {et : ET}
    {qs : List Nat} {k : NK L} (hb : nodes[b]? = some k) (hk : ∀ q o, k ≠ NK.alloc q o) :
    SInv nodes (addEdge E a b et qs) := by
  intro x y hs
  rcases step_addEdge.1 hs with hs | ⟨_, _, rfl⟩
  · exact h x y hs
  · exact ⟨k, hb, hk⟩

theorem SInv.fold {nodes : List (NK L)} {b : Nat} {k : NK L} (hb : nodes[b]? = some k)
    (hk : ∀ q o, k ≠ NK.alloc q o) {et : ET} {qs : List Nat} (ms : List Nat) :
    ∀ {E : List Edge}, SInv nodes E → SInv nodes (ms.foldl (fun E m => Comp.addEdge E m b et qs) E) := by
  induction ms with
  | nil => intro E h; exact h
  | cons m ms ih => intro E h; exact ih (h.addEdge hb hk)

/-- A node that is there and is no allocation. -/
def OpAt (d : Dag L) (n : Nat) : Prop := ∃ k, d.nodes[n]? = some k ∧ ∀ q o, k ≠ NK.alloc q o

theorem reseat_sinv {d : Dag L} {n q : Nat} (ms : List Nat) (h : SInv d.nodes d.edges) (hn : OpAt d n) :
    SInv (reseat d q ms).nodes (reseat d q ms).edges ∧ OpAt (reseat d q ms) n := by
  match ms with
  | [] => exact ⟨h, hn⟩
  | [_] => exact ⟨h, hn⟩
  | m :: m' :: ms =>
    obtain ⟨k, h1, h2⟩ := hn
    refine ⟨SInv.fold (nodes := d.nodes ++ [NK.term q]) (b := d.nodes.length) (k := NK.term q) (by simp) (by simp) (m :: m' :: ms) (h.append _), k, ?_, h2⟩
    change (d.nodes ++ [NK.term q])[n]? = some k
    rw [List.getElem?_append_left (List.getElem?_eq_some_iff.1 h1).1]
    exact h1

theorem connect_sinv {d : Dag L} {n q : Nat} {t : PT} (h : SInv d.nodes d.edges) (hn : OpAt d n) :
    SInv (connect d n q t).nodes (connect d n q t).edges ∧ OpAt (connect d n q t) n := by
  unfold connect
  by_cases hc : d.streak q = t ∧ t ≠ .neutral
  · rw [if_pos hc]
    obtain ⟨k, h1, h2⟩ := hn
    exact ⟨h.addEdge h1 h2, k, h1, h2⟩
  · rw [if_neg hc]
    obtain ⟨r1, k, h1, h2⟩ := reseat_sinv (q := q) (members d.edges (d.last q) q) h hn
    exact ⟨r1.addEdge h1 h2, k, h1, h2⟩

theorem connectAll_sinv {n : Nat} (l : List (Nat × Option PT)) : ∀ {d d' : Dag L},
    SInv d.nodes d.edges → OpAt d n → connectAll d n l = some d' → SInv d'.nodes d'.edges ∧ OpAt d' n := by
  induction l with
  | nil =>
    intro d d' h hn e
    simp only [connectAll, Option.some.injEq] at e
    subst e
    exact ⟨h, hn⟩
  | cons x l ih =>
    intro d d' h hn e
    obtain ⟨q, o⟩ := x
    cases o with
    | none => simp [connectAll] at e
    | some t =>
      rw [connectAll] at e
      obtain ⟨c1, c2⟩ := connect_sinv (q := q) (t := t) h hn
      exact ih c1 c2 e

theorem connectC_sinv {n : Nat} (l : List Nat) : ∀ {d : Dag L}, SInv d.nodes d.edges → OpAt d n →
    SInv (l.foldl (connectC n) d).nodes (l.foldl (connectC n) d).edges := by
  induction l with
  | nil => intro d h _; exact h
  | cons c l ih =>
    intro d h hn
    rw [List.foldl_cons]
    obtain ⟨k, h1, h2⟩ := hn
    refine ih ?_ ⟨k, h1, h2⟩
    unfold connectC
    cases d.recentC c with
    | none => exact h
    | some r => exact h.addEdge h1 h2

theorem allocs_sinv {ins : Instr L} (l : List Nat) : ∀ {d : Dag L}, SInv d.nodes d.edges →
    SInv (l.foldl (allocStep ins) d).nodes (l.foldl (allocStep ins) d).edges := by
  induction l with
  | nil => intro d h; exact h
  | cons q l ih =>
    intro d h
    rw [List.foldl_cons]
    apply ih
    unfold allocStep
    by_cases hr : (d.recent q).isSome
    · rw [if_pos hr]; exact h
    · rw [if_neg hr]; exact h.append _

theorem dagStep_sinv {d d' : Dag L} {ins : Instr L} (h : SInv d.nodes d.edges) (e : dagStep d ins = some d') :
    SInv d'.nodes d'.edges := by
  unfold dagStep at e
  simp only at e
  have h1 := allocs_sinv (ins := ins) ins.qubits h
  generalize ins.qubits.foldl (allocStep ins) d = d1 at *
  by_cases hc : ins.kind = .alloc ∧ (ins.qubits.getLast?.map d1.fresh).getD false = true
  · rw [if_pos hc, Option.some.injEq] at e
    subst e
    exact h1
  · rw [if_neg hc] at e
    obtain ⟨d2, e2, rfl⟩ := Option.map_eq_some_iff.1 e
    obtain ⟨a, b⟩ := connectAll_sinv (n := d1.nodes.length) ins.qperm
      (d := { d1 with nodes := d1.nodes ++ [.op ins] }) (h1.append _) ⟨.op ins, by simp, by simp⟩ e2
    exact connectC_sinv ins.clbits a b

theorem dagOf_sinv {data : List (Instr L)} : ∀ {d0 d : Dag L}, SInv d0.nodes d0.edges →
    data.foldlM dagStep d0 = some d → SInv d.nodes d.edges := by
  induction data with
  | nil =>
    intro d0 d h e
    simp only [List.foldlM_nil, Option.pure_def, Option.some.injEq] at e
    subst e
    exact h
  | cons ins data ih =>
    intro d0 d h e
    rw [List.foldlM_cons] at e
    obtain ⟨d1, e1, e2⟩ := Option.bind_eq_some_iff.1 e
    exact ih (dagStep_sinv h e1) e2

/-- permeability_dag.py:461-462, 571-572: nodes inserted by the construction itself. -/
def NK.artificial : NK L → Bool
  | .alloc _ none => true
  | _ => false

/-- permeability_dag.py:571-572 `remove_artificials=True`: the nodes that stay, in order. -/
def Dag.stay (d : Dag L) : List Nat :=
  (List.range d.nodes.length).filter fun v => !((d.nodes[v]?).map NK.artificial).getD false

/-- The edges between the nodes that stay. -/
def Dag.stayEdges (d : Dag L) : List Edge :=
  d.edges.filter fun e => d.stay.contains e.src && d.stay.contains e.dst

theorem mem_stay {d : Dag L} {v : Nat} :
    v ∈ d.stay ↔ ∃ k, d.nodes[v]? = some k ∧ k.artificial = false := by
  unfold Dag.stay
  rw [List.mem_filter, List.mem_range]
  constructor
  · rintro ⟨h, h2⟩
    obtain ⟨k, e⟩ : ∃ k, d.nodes[v]? = some k := ⟨_, List.getElem?_eq_getElem h⟩
    rw [e] at h2
    exact ⟨k, e, by simpa using h2⟩
  · rintro ⟨k, e, h⟩
    exact ⟨(List.getElem?_eq_some_iff.1 e).1, by rw [e]; simp [h]⟩

theorem step_stay {d : Dag L} {a b : Nat} : Step d.stayEdges a b ↔ Step d.edges a b ∧ a ∈ d.stay ∧ b ∈ d.stay := by
  unfold Dag.stayEdges Step
  constructor
  · rintro ⟨e, he, rfl, rfl⟩
    rw [List.mem_filter] at he
    simp only [Bool.and_eq_true, List.contains_iff_mem] at he
    exact ⟨⟨e, he.1, rfl, rfl⟩, he.2.1, he.2.2⟩
  · rintro ⟨⟨e, he, rfl, rfl⟩, h1, h2⟩
    exact ⟨e, List.mem_filter.2 ⟨he, by simp [List.contains_iff_mem, h1, h2]⟩, rfl, rfl⟩

/-- Removing the artificial nodes cuts no path between the others. -/
theorem reach_stay {d : Dag L} (h : SInv d.nodes d.edges) {a b : Nat} (ha : a ∈ d.stay)
    (hr : Reach d.edges a b) : Reach d.stayEdges a b ∧ b ∈ d.stay := by
  induction hr with
  | refl => exact ⟨.refl, ha⟩
  | @tail b c _ hs ih =>
    obtain ⟨k, e, hk⟩ := h _ _ hs
    have hc : c ∈ d.stay := mem_stay.2 ⟨k, e, by
      cases k with
      | alloc q o => exact absurd rfl (hk q o)
      | op i => rfl
      | term q => rfl⟩
    exact ⟨ih.1.tail (step_stay.2 ⟨hs, ih.2, hc⟩), hc⟩

/-- In a graph made from a circuit. -/
structure Made (d : Dag L) (data : List (Instr L)) : Prop where
  ok : ∀ i ∈ data, InsOK i
  eq : dagOf data = some d

theorem Made.sinv {d : Dag L} {data : List (Instr L)} (h : Made d data) : SInv d.nodes d.edges :=
  dagOf_sinv (d0 := Dag.empty) (by intro a b hs; simp [Dag.empty, Step] at hs) h.eq

/-- Dependent instructions are connected by a path, also without the artificial nodes. -/
theorem Made.dep {d : Dag L} {data : List (Instr L)} (h : Made d data) {v w : Nat} {a b : NK L} {i j : Instr L}
    (hvw : v < w) (ha : d.nodes[v]? = some a) (hb : d.nodes[w]? = some b) (hi : a.ins = some i)
    (hj : b.ins = some j) (hd : ¬ Indep i j) : Reach d.stayEdges v w :=
  (reach_stay h.sinv (mem_stay.2 ⟨a, ha, by
    cases a with
    | alloc q o => simp only [NK.ins] at hi; subst hi; rfl
    | op i => rfl
    | term q => rfl⟩) ((dagOf_spec empty_ginv h.ok h.eq).1.dep v w a b i j hvw ha hb hi hj hd)).1

theorem Made.acyc {d : Dag L} {data : List (Instr L)} (h : Made d data) :
    ∃ rk : Nat → Nat, ∀ a b, Step d.stayEdges a b → rk a < rk b := by
  obtain ⟨rk, hrk⟩ := (dagOf_spec empty_ginv h.ok h.eq).1.inv.acyc
  exact ⟨rk, fun a b hs => hrk a b (step_stay.1 hs).1⟩

theorem emit_stay (d : Dag L) : emit d.nodes d.stay = kept d.nodes := by
  rw [← emit_range]
  unfold emit Dag.stay
  generalize hl : List.range d.nodes.length = l
  clear hl
  induction l with
  | nil => rfl
  | cons v l ih =>
    rw [List.filter_cons]
    cases e : d.nodes[v]? with
    | none =>
      simp only [Option.map_none, Option.getD_none, Bool.not_false, if_true, List.filterMap_cons, e, Option.bind_none]
      exact ih
    | some k =>
      cases hk : k.artificial with
      | false =>
        simp only [Option.map_some, Option.getD_some, hk, Bool.not_false, if_true, List.filterMap_cons, e,
          Option.bind_some, ih]
      | true =>
        have : k.ins = none := by
          cases k with
          | alloc q o =>
            cases o with
            | none => rfl
            | some i => simp [NK.artificial] at hk
          | op i => simp [NK.artificial] at hk
          | term q => rfl
        simp only [Option.map_some, Option.getD_some, hk, Bool.not_true, Bool.false_eq_true, if_false,
          List.filterMap_cons, e, Option.bind_some, this]
        exact ih

/-- An order of the nodes that keeps the order of connected instructions has the effect of the circuit. -/
theorem Made.reorder {d : Dag L} {data : List (Instr L)} (h : Made d data) {ord : List Nat}
    (hp : ord.Perm d.stay)
    (hf : ∀ v w a b i j, v < w → d.nodes[v]? = some a → d.nodes[w]? = some b → a.ins = some i →
      b.ins = some j → Reach d.stayEdges v w → [v, w].Sublist ord)
    {σ : Type} (I : Interp L σ) (s : σ) : runI I.act (emit d.nodes ord) s = runI I.act data s := by
  obtain ⟨_, hr⟩ := dagOf_spec empty_ginv h.ok h.eq
  have e : runI I.act (kept d.nodes) s = runI I.act data s := by
    rw [hr I s]
    rfl
  rw [← e, ← emit_stay]
  unfold emit
  refine run_reorder I _ ord d.stay hp (List.nodup_range.filter _) ?_ s
  intro a b i j hs ha hb hd
  obtain ⟨ka, ka1, ka2⟩ := Option.bind_eq_some_iff.1 ha
  obtain ⟨kb, kb1, kb2⟩ := Option.bind_eq_some_iff.1 hb
  have hlt : a < b := by
    have := List.Pairwise.sublist (hs.trans List.filter_sublist) List.pairwise_lt_range
    simpa using this
  exact hf a b ka kb i j hlt ka1 kb1 ka2 kb2 (h.dep hlt ka1 kb1 ka2 kb2 hd)

/-- No qubit is allocated twice. -/
def NoDupAlloc (data : List (Instr L)) : Prop :=
  data.Pairwise fun a b => a.kind = .alloc → b.kind = .alloc → a.qubits ≠ b.qubits

theorem kept_foldlM {data : List (Instr L)} : ∀ {d0 d : Dag L}, GInv d0 [] → (∀ i ∈ data, InsOK i) →
    data.foldlM dagStep d0 = some d →
    (kept d.nodes).Sublist (kept d0.nodes ++ data) ∧
    (kept d.nodes).filter (fun i => i.kind ≠ .alloc) = (kept d0.nodes ++ data).filter (fun i => i.kind ≠ .alloc) ∧
    (NoDupAlloc (kept d0.nodes ++ data) → kept d.nodes = kept d0.nodes ++ data) := by
  induction data with
  | nil =>
    intro d0 d _ _ h
    simp only [List.foldlM_nil, Option.pure_def, Option.some.injEq] at h
    subst h
    simp
  | cons ins data ih =>
    intro d0 d hg ho h
    rw [List.foldlM_cons] at h
    obtain ⟨d1, h1, h2⟩ := Option.bind_eq_some_iff.1 h
    obtain ⟨i1, i2, i3⟩ := ih (dagStep_spec hg (ho ins (by simp)) h1).1 (fun i hi => ho i (by simp [hi])) h2
    rcases dagStep_kept hg (ho ins (by simp)) h1 with ⟨e, hk, a, ha, ha1, ha2⟩ | e
    · rw [e] at i1 i2 i3
      refine ⟨i1.trans (List.Sublist.append_left (List.sublist_cons_self _ _) _), ?_, ?_⟩
      · rw [i2]
        simp [List.filter_append, List.filter_cons, hk]
      · intro hn
        exfalso
        unfold NoDupAlloc at hn
        rw [List.pairwise_append] at hn
        exact hn.2.2 a ha ins (by simp) ha1 hk ha2
    · rw [e, List.append_assoc] at i1 i2 i3
      exact ⟨i1, i2, i3⟩

theorem Made.kept {d : Dag L} {data : List (Instr L)} (h : Made d data) :
    (Comp.kept d.nodes).Sublist data ∧
    (Comp.kept d.nodes).filter (fun i => i.kind ≠ .alloc) = data.filter (fun i => i.kind ≠ .alloc) ∧
    (NoDupAlloc data → Comp.kept d.nodes = data) :=
  kept_foldlM (d0 := Dag.empty) empty_ginv h.ok h.eq

/-- Every instruction has a permeability entry for each of its qubits. -/
def Typed (i : Instr L) : Prop := ∀ j, j < i.qubits.length → (i.permAt j).isSome

theorem connectAll_some {n : Nat} (l : List (Nat × Option PT)) (h : ∀ x ∈ l, x.2.isSome) (d : Dag L) :
    (connectAll d n l).isSome := by
  induction l generalizing d with
  | nil => rfl
  | cons x l ih =>
    obtain ⟨q, o⟩ := x
    cases o with
    | none => simpa using h (q, none) (by simp)
    | some t =>
      rw [connectAll]
      exact ih (fun x hx => h x (by simp [hx])) _

theorem dagStep_some {ins : Instr L} (h : Typed ins) (d : Dag L) : (dagStep d ins).isSome := by
  unfold dagStep
  simp only
  split
  · rfl
  · rw [Option.isSome_map]
    apply connectAll_some
    intro x hx
    obtain ⟨h1, h2⟩ := List.of_mem_zip hx
    obtain ⟨j, hj, e⟩ := List.mem_map.1 h2
    rw [← e]
    exact h j (List.mem_range.1 hj)

/-- The graph of a circuit can be built if every qubit of every instruction has a permeability entry. -/
theorem dagOf_some {data : List (Instr L)} (h : ∀ i ∈ data, Typed i) : (dagOf data).isSome := by
  unfold dagOf
  generalize (Dag.empty : Dag L) = d
  induction data generalizing d with
  | nil => rfl
  | cons i data ih =>
    rw [List.foldlM_cons]
    obtain ⟨d1, e⟩ := Option.isSome_iff_exists.1 (dagStep_some (h i (by simp)) d)
    rw [e]
    exact ih (fun j hj => h j (by simp [hj])) d1

end Verif.Comp
