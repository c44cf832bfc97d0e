import Verif.Comp.UnqompDag

/-!
Model of automatic uncomputation, `uncompute_qc` and `uncompute_node` of
`/repo/src/qrisp/permeability/qc_transformations/unqomp.py`, and the order of the nodes in its result.

Simplifications: no qubits are marked for recomputation (`recompute_qubits = []`), the value layers only serve
the visualisation. Sets are lists; where the code iterates over a set of nodes (unqomp.py:220-223) the order is
the parameter `aord`. The replacement of gates by phase tolerant ones (lines 239-272) is the parameter `pt`
on labels; it takes effect when the circuit is written.
-/

namespace Verif.Comp

variable {L : Type}

/-- What the model takes from outside: inverse labels, phase tolerant replacements, the label of a
deallocation, `is_qfree`, the attribute `allocated` of a qubit and the order in which `a_star_n_list` is
visited. -/
structure UPar (L : Type) where
  inv : L → L
  pt : L → L
  dl : L
  qfree : NK L → Bool
  allocated : Nat → Bool
  aord : Nat → List Nat → List Nat

/-- The graph during uncomputation; `rev v` is the attribute `uncomputed_node`. -/
structure UG (L : Type) where
  nodes : List (NK L)
  edges : List Edge
  recent : Nat → Option Nat
  rev : Nat → Option Nat

/-- permeability_dag.py:233-262 `get_target_qubits`. -/
def targetQs (nodes : List (NK L)) (E : List Edge) (v : Nat) : List Nat :=
  match nodes[v]? with
  | some (.alloc q _) => [q]
  | _ => (E.filter fun e => e.dst == v && e.et != .perm .z).flatMap Edge.qs

/-- permeability_dag.py:297-325 `get_control_nodes`. -/
def ctrlNodes (E : List Edge) (v : Nat) : List Nat :=
  (E.filter fun e => e.dst == v && e.et == .perm .z).map Edge.src

/-- permeability_dag.py:357-378 `get_edge_qubits`. -/
def edgeQs (E : List Edge) (a b : Nat) : List Nat :=
  (E.filter fun e => e.src == a && e.dst == b).flatMap Edge.qs

/-- The gate as it is uncomputed. -/
def Instr.replaced (pt : L → L) (i : Instr L) : Instr L :=
  if i.kind = .gate then { i with label := pt i.label } else i

/-- `Instruction.inverse`; allocation and deallocation are inverse to each other. -/
def Instr.inverse (inv : L → L) (i : Instr L) : Instr L :=
  match i.kind with
  | .alloc => { i with kind := .dealloc, perm := [.neutral] }
  | .dealloc => { i with kind := .alloc, perm := [.neutral] }
  | _ => { i with label := inv i.label }

/-- unqomp.py:274-278: the instruction of the reversed node. An allocation node always has an instruction
(permeability_dag.py:446). -/
def uInstr (P : UPar L) : NK L → Option (Instr L)
  | .alloc q _ => some ⟨.dealloc, P.dl, [q], [.neutral], []⟩
  | .op i => some ((i.replaced P.pt).inverse P.inv)
  | .term _ => none

/-- unqomp.py:332-352: the anti-dependencies of the reversed node `rv` for the control node `c` on `qb`. -/
def ctrlOne (rv c : Nat) (E : List Edge) (qb : Nat) : List Edge :=
  (members E c qb).foldl (fun E s => (members E s qb).foldl (fun E y => addEdge E rv y .anti [qb]) E) E

/-- unqomp.py:302-355: one control node. -/
def ctrlLink (rv v : Nat) (Ev : List Edge) (E : List Edge) (c : Nat) : List Edge :=
  addEdge ((edgeQs Ev c v).foldl (ctrlOne rv c) E) c rv (.perm .z) (edgeQs Ev c v)

/-- unqomp.py:375-401: connect the target `qb` to the node `a`. -/
def targLink (rv a : Nat) (st : List (NK L) × List Edge) (qb : Nat) : List (NK L) × List Edge :=
  match members st.2 a qb with
  | [] => (st.1, addEdge st.2 a rv (.perm .neutral) [qb])
  | [m] => (st.1, addEdge st.2 m rv (.perm .neutral) [qb])
  | ms => (st.1 ++ [.term qb],
      addEdge (ms.foldl (fun E m => addEdge E m st.1.length .anti [qb]) st.2) st.1.length rv (.perm .neutral) [qb])

/-- unqomp.py:181-403 `uncompute_node`; `none`: the instruction is not qfree. -/
def uncomputeNode (P : UPar L) (g : UG L) (v : Nat) : Option (UG L) :=
  match g.nodes[v]? with
  | none => none
  | some k =>
    match uInstr P k with
    | none => none
    | some i =>
      if P.qfree k then
        let tq := targetQs g.nodes g.edges v
        let rv := g.nodes.length
        let E := (ctrlNodes g.edges v).foldl (ctrlLink rv v g.edges) g.edges
        let st := (P.aord v (tq.filterMap g.recent)).foldl (fun st a => tq.foldl (targLink rv a) st)
          (g.nodes ++ [.op i], E)
        some ⟨st.1, st.2, fun q => if q ∈ tq then some rv else g.recent q,
          fun x => if x = v then some rv else g.rev x⟩
      else none

/-- The qubit an allocation node or instruction allocates. -/
def NK.allocQ : NK L → Option Nat
  | .alloc q _ => some q
  | .op i => if i.kind = .alloc then i.qubits.head? else none
  | .term _ => none

/-- `node.instr.qubits`. -/
def NK.qubits : NK L → List Nat
  | .alloc q _ => [q]
  | .op i => i.qubits
  | .term _ => []

/-- unqomp.py:406-417 `detect_double_alloc`. -/
def doubleAlloc (nodes : List (NK L)) (lin : List Nat) (qs : List Nat) : Bool :=
  qs.any fun q => decide (2 ≤ (lin.filter fun v => (nodes[v]?.bind NK.allocQ) == some q).length)

/-- Result of one pass: a graph, an exception, or a new attempt with further qubits. -/
inductive UOut (L : Type) where
  | ok (g : UG L)
  | raise
  | again (qs : List Nat)

/-- unqomp.py:88-160: the loop over the nodes in reversed topological order. -/
def uncomputeAll (P : UPar L) (U : List Nat) : List Nat → UG L → UOut L
  | [], g => .ok g
  | v :: rest, g =>
    match g.nodes[v]? with
    | none => .raise
    | some (.term _) => uncomputeAll P U rest g
    | some k =>
      let tq := targetQs g.nodes g.edges v
      if !(tq.any fun q => U.contains q) then uncomputeAll P U rest g
      else if doubleAlloc g.nodes (v :: rest) k.qubits then uncomputeAll P U rest g
      else if tq.all fun q => U.contains q then
        match uncomputeNode P g v with
        | none => .raise
        | some g' => uncomputeAll P U rest g'
      else
        let off := tq.filter fun q => !U.contains q
        if off.any P.allocated then .raise else .again off

/-- The graph before uncomputation. -/
def UG.start (d : Dag L) : UG L := ⟨d.nodes, d.edges, d.recent, fun _ => none⟩

/-- `to_qc` (permeability_dag.py:194-207): uncomputed gates are the replaced ones. -/
def UG.emit (P : UPar L) (g : UG L) (ord : List Nat) : List (Instr L) :=
  ord.filterMap fun v => (g.nodes[v]?.bind NK.ins).map fun i =>
    if (g.rev v).isSome then i.replaced P.pt else i

/-- No qubit to uncompute. -/
def avoids (U : List Nat) (i : Instr L) : Bool := !(i.qubits.any fun q => U.contains q)

/-- unqomp.py:55-77: instructions before, from the first to the last, and after the instructions on the
qubits to uncompute. -/
def cutFront (U : List Nat) (data : List (Instr L)) : List (Instr L) × List (Instr L) :=
  (data.takeWhile (avoids U), data.dropWhile (avoids U))

/-- The end of the list. -/
def cutBack (U : List Nat) (l : List (Instr L)) : List (Instr L) × List (Instr L) :=
  ((l.reverse.dropWhile (avoids U)).reverse, (l.reverse.takeWhile (avoids U)).reverse)

/-- Result of `uncompute_qc`. -/
inductive UQc (L : Type) where
  | ok (out : List (Instr L))
  | raise
  | again (qs : List Nat)

/-- unqomp.py:29-178 `uncompute_qc` up to a new attempt. `srt` is `networkx.topological_sort`, which raises
for a graph with a cycle. -/
def attempt (P : UPar L) (srt : Nat → List Edge → Option (List Nat)) (U : List Nat) (data : List (Instr L)) : UQc L :=
  let (pre, rest) := cutFront U data
  let (mid, post) := cutBack U rest
  match dagOf mid with
  | none => .raise
  | some d =>
    match srt d.nodes.length d.edges with
    | none => .raise
    | some lin =>
      match uncomputeAll P U lin.reverse (UG.start d) with
      | .raise => .raise
      | .again qs => .again qs
      | .ok g =>
        match srt g.nodes.length g.edges with
        | none => .raise
        | some ord => .ok (pre ++ g.emit P ord ++ post)

/-- unqomp.py:148-160: new attempts with further qubits. -/
def uncomputeQc (P : UPar L) (srt : Nat → List Edge → Option (List Nat)) : Nat → List Nat → List (Instr L) →
    Option (List (Instr L))
  | 0, _, _ => none
  | fuel + 1, U, data =>
    match attempt P srt U data with
    | .ok out => some out
    | .raise => none
    | .again qs => uncomputeQc P srt fuel (U ++ qs) data

/-! ### Growing edges -/

/-- Edges of `E` are in `E'`, possibly with further qubits. -/
structure Le (E E' : List Edge) : Prop where
  step : ∀ a b, Step E a b → Step E' a b
  mem : ∀ a b q, b ∈ members E a q → b ∈ members E' a q

theorem Le.refl (E : List Edge) : Le E E := ⟨fun _ _ h => h, fun _ _ _ h => h⟩

theorem Le.trans {E F G : List Edge} (h : Le E F) (h' : Le F G) : Le E G :=
  ⟨fun a b x => h'.step a b (h.step a b x), fun a b q x => h'.mem a b q (h.mem a b q x)⟩

theorem Le.reach {E E' : List Edge} (h : Le E E') {a b : Nat} (hr : Reach E a b) : Reach E' a b :=
  Relation.ReflTransGen.mono h.step _ _ hr

theorem le_addEdge (E : List Edge) (a b : Nat) (et : ET) (qs : List Nat) : Le E (addEdge E a b et qs) :=
  ⟨fun _ _ h => step_addEdge.2 (.inl h), fun _ _ _ h => members_mono h⟩

theorem Le.fold {α : Type} {f : List Edge → α → List Edge} (hf : ∀ E x, Le E (f E x)) (l : List α) (E : List Edge) :
    Le E (l.foldl f E) := by
  induction l generalizing E with
  | nil => exact Le.refl E
  | cons x l ih => exact (hf E x).trans (ih (f E x))

/-- A property that one step establishes and further edges keep. -/
theorem fold_hit {α : Type} {f : List Edge → α → List Edge} (hf : ∀ E x, Le E (f E x)) {Q : List Edge → Prop}
    (hQ : ∀ E E', Le E E' → Q E → Q E') {l : List α} {x : α} (hx : x ∈ l) {E : List Edge}
    (h : ∀ E', Le E E' → Q (f E' x)) : Q (l.foldl f E) := by
  induction l generalizing E with
  | nil => simp at hx
  | cons y l ih =>
    rw [List.foldl_cons]
    rcases List.mem_cons.1 hx with rfl | hx
    · exact hQ _ _ (Le.fold hf l _) (h E (Le.refl E))
    · exact ih hx fun E' hE => h E' ((hf E y).trans hE)

theorem reach_addEdge_new (E : List Edge) (a b : Nat) (et : ET) (qs : List Nat) : Reach (addEdge E a b et qs) a b := by
  by_cases h : a = b
  · subst h; exact .refl
  · exact .single (step_addEdge.2 (.inr ⟨h, rfl, rfl⟩))

theorem le_ctrlOne (rv c : Nat) (E : List Edge) (qb : Nat) : Le E (ctrlOne rv c E qb) :=
  Le.fold (fun E _ => Le.fold (fun E _ => le_addEdge E _ _ _ _) _ E) _ E

theorem le_ctrlLink (rv v : Nat) (Ev E : List Edge) (c : Nat) : Le E (ctrlLink rv v Ev E c) :=
  (Le.fold (fun E _ => le_ctrlOne rv c E _) _ E).trans (le_addEdge _ _ _ _ _)

theorem ctrlOne_hit {rv c qb s y : Nat} {E E0 : List Edge} (h : Le E0 E) (hs : s ∈ members E0 c qb)
    (hy : y ∈ members E0 s qb) : Reach (ctrlOne rv c E qb) rv y := by
  unfold ctrlOne
  refine fold_hit (Q := fun E => Reach E rv y) (fun E _ => Le.fold (fun E _ => le_addEdge E _ _ _ _) _ E)
    (fun _ _ h hr => h.reach hr) (h.mem _ _ _ hs) ?_
  intro E' hE'
  refine fold_hit (Q := fun E => Reach E rv y) (fun E _ => le_addEdge E _ _ _ _)
    (fun _ _ h hr => h.reach hr) (hE'.mem _ _ _ (h.mem _ _ _ hy)) ?_
  intro E'' _
  exact reach_addEdge_new _ _ _ _ _

/-- What the control edges establish. -/
theorem ctrl_hit {rv v c qb : Nat} {E : List Edge} (hc : c ∈ ctrlNodes E v) (hq : qb ∈ edgeQs E c v) (hne : c ≠ rv) :
    (∀ s y, s ∈ members E c qb → y ∈ members E s qb →
      Reach ((ctrlNodes E v).foldl (ctrlLink rv v E) E) rv y) ∧
    rv ∈ members ((ctrlNodes E v).foldl (ctrlLink rv v E) E) c qb := by
  constructor
  · intro s y hs hy
    refine fold_hit (Q := fun E => Reach E rv y) (fun E _ => le_ctrlLink rv v _ E _) (fun _ _ h hr => h.reach hr) hc ?_
    intro E' hE'
    unfold ctrlLink
    refine (le_addEdge _ _ _ _ _).reach ?_
    refine fold_hit (Q := fun E => Reach E rv y) (fun E _ => le_ctrlOne rv c E _) (fun _ _ h hr => h.reach hr) hq ?_
    intro E'' hE''
    exact ctrlOne_hit (hE'.trans hE'') hs hy
  · refine fold_hit (Q := fun E => rv ∈ members E c qb) (fun E _ => le_ctrlLink rv v _ E _)
      (fun _ _ h hr => h.mem _ _ _ hr) hc ?_
    intro E' _
    unfold ctrlLink
    exact mem_members.2 (mem_addEdge.2 (.inr ⟨hne, rfl, rfl, hq⟩))

theorem le_targLink (rv a : Nat) (st : List (NK L) × List Edge) (qb : Nat) : Le st.2 (targLink rv a st qb).2 := by
  unfold targLink
  split
  · exact le_addEdge _ _ _ _ _
  · exact le_addEdge _ _ _ _ _
  · exact (Le.fold (fun E _ => le_addEdge E _ _ _ _) _ _).trans (le_addEdge _ _ _ _ _)

theorem targLink_hit {rv a qb : Nat} {st : List (NK L) × List Edge} {E0 : List Edge} (h : Le E0 st.2) :
    Reach (targLink rv a st qb).2 a rv ∧ ∀ m ∈ members E0 a qb, Reach (targLink rv a st qb).2 m rv := by
  have key : (members st.2 a qb = [] → Reach (targLink rv a st qb).2 a rv) ∧
      ∀ m ∈ members st.2 a qb, Reach (targLink rv a st qb).2 m rv := by
    unfold targLink
    split
    · rename_i hm
      exact ⟨fun _ => reach_addEdge_new _ _ _ _ _, by rw [hm]; simp⟩
    · rename_i m hm
      refine ⟨fun e => (by rw [hm] at e; cases e), ?_⟩
      intro x hx
      rw [hm, List.mem_singleton] at hx
      subst hx
      exact reach_addEdge_new _ _ _ _ _
    · rename_i ms h0 h1
      refine ⟨fun e => absurd e h0, ?_⟩
      intro x hx
      dsimp only
      refine Relation.ReflTransGen.trans ?_ (reach_addEdge_new _ _ _ _ _)
      refine (le_addEdge _ _ _ _ _).reach ?_
      refine fold_hit (Q := fun E => Reach E x st.1.length) (fun E _ => le_addEdge E _ _ _ _)
        (fun _ _ h hr => h.reach hr) hx ?_
      intro E' _
      exact reach_addEdge_new _ _ _ _ _
  refine ⟨?_, fun m hm => key.2 m (h.mem _ _ _ hm)⟩
  match hms : members st.2 a qb with
  | [] => exact key.1 hms
  | m :: ms =>
    have hm : m ∈ members st.2 a qb := by rw [hms]; simp
    exact ((le_targLink rv a st qb).reach (.single (members_step hm))).trans (key.2 m hm)

/-- The state of the target loop. -/
theorem targ_fold_le (rv : Nat) (tq as : List Nat) (st : List (NK L) × List Edge) :
    Le st.2 (as.foldl (fun st a => tq.foldl (targLink rv a) st) st).2 := by
  have h1 : ∀ a (l : List Nat) (st : List (NK L) × List Edge), Le st.2 (l.foldl (targLink rv a) st).2 := by
    intro a l
    induction l with
    | nil => intro st; exact Le.refl _
    | cons q l ih => intro st; exact (le_targLink rv a st q).trans (ih _)
  induction as generalizing st with
  | nil => exact Le.refl _
  | cons a as ih => exact (h1 a tq st).trans (ih _)

theorem targ_hit {rv : Nat} {tq as : List Nat} {a qb : Nat} (ha : a ∈ as) (hq : qb ∈ tq) (st : List (NK L) × List Edge)
    {E0 : List Edge} (h : Le E0 st.2) :
    Reach (as.foldl (fun st a => tq.foldl (targLink rv a) st) st).2 a rv ∧
    ∀ m ∈ members E0 a qb, Reach (as.foldl (fun st a => tq.foldl (targLink rv a) st) st).2 m rv := by
  have h1 : ∀ (l : List Nat) (st : List (NK L) × List Edge), Le st.2 (l.foldl (targLink rv a) st).2 := by
    intro l
    induction l with
    | nil => intro st; exact Le.refl _
    | cons q l ih => intro st; exact (le_targLink rv a st q).trans (ih _)
  have inner : ∀ (l : List Nat) (st : List (NK L) × List Edge), qb ∈ l → Le E0 st.2 →
      Reach (l.foldl (targLink rv a) st).2 a rv ∧ ∀ m ∈ members E0 a qb, Reach (l.foldl (targLink rv a) st).2 m rv := by
    intro l
    induction l with
    | nil => intro st hq; simp at hq
    | cons q l ih =>
      intro st hq hle
      rw [List.foldl_cons]
      rcases List.mem_cons.1 hq with rfl | hq
      · have := targLink_hit (rv := rv) (a := a) (qb := qb) (st := st) hle
        exact ⟨(h1 l _).reach this.1, fun m hm => (h1 l _).reach (this.2 m hm)⟩
      · exact ih _ hq (hle.trans (le_targLink rv a st q))
  induction as generalizing st with
  | nil => simp at ha
  | cons b as ih =>
    rw [List.foldl_cons]
    rcases List.mem_cons.1 ha with rfl | ha
    · have := inner tq st hq h
      have hle := targ_fold_le rv tq as (tq.foldl (targLink rv a) st)
      exact ⟨hle.reach this.1, fun m hm => hle.reach (this.2 m hm)⟩
    · refine ih ha _ (h.trans ?_)
      exact targ_fold_le rv tq [b] st

/-! ### Edges between the nodes of the circuit -/

/-- Edges added by uncomputation end in a new node, or in one of the nodes `D` coming from a new node. -/
inductive Chain (N : Nat) (D : Nat → Prop) (E : List Edge) : List Edge → Prop
  | refl : Chain N D E E
  | add {E' : List Edge} {a b : Nat} {et : ET} {qs : List Nat} (h : Chain N D E E') (hb : N ≤ b ∨ (N ≤ a ∧ D b)) :
      Chain N D E (addEdge E' a b et qs)

theorem mem_addEdge_other {E : List Edge} {a b : Nat} {et : ET} {qs : List Nat} {e : Edge}
    (h : ¬ (e.src = a ∧ e.dst = b)) : e ∈ addEdge E a b et qs ↔ e ∈ E := by
  unfold addEdge
  by_cases hab : a = b
  · rw [if_pos hab]
  rw [if_neg hab]
  by_cases hex : E.any (fun e => e.src == a && e.dst == b) = true
  · rw [if_pos hex, List.mem_map]
    constructor
    · rintro ⟨e', he', rfl⟩
      by_cases hm : (e'.src == a && e'.dst == b) = true
      · rw [if_pos hm] at h
        simp only [Bool.and_eq_true, beq_iff_eq] at hm
        exact absurd hm h
      · rw [if_neg hm] at h ⊢
        exact he'
    · intro he
      refine ⟨e, he, ?_⟩
      rw [if_neg]
      simpa using h
  · rw [if_neg hex, List.mem_append, List.mem_singleton]
    constructor
    · rintro (h1 | rfl)
      · exact h1
      · exact absurd ⟨rfl, rfl⟩ h
    · exact .inl

theorem Chain.trans {N : Nat} {D : Nat → Prop} {E F G : List Edge} (h : Chain N D E F) (h' : Chain N D F G) :
    Chain N D E G := by
  induction h' with
  | refl => exact h
  | add _ hb ih => exact .add ih hb

theorem Chain.mono {N : Nat} {D D' : Nat → Prop} {E F : List Edge} (h : Chain N D E F) (hD : ∀ v, D v → D' v) :
    Chain N D' E F := by
  induction h with
  | refl => exact .refl
  | add _ hb ih => exact .add ih (hb.imp_right fun h => ⟨h.1, hD _ h.2⟩)

theorem Chain.le {N : Nat} {D : Nat → Prop} {E F : List Edge} (h : Chain N D E F) : Le E F := by
  induction h with
  | refl => exact Le.refl _
  | add _ _ ih => exact ih.trans (le_addEdge _ _ _ _ _)

theorem Chain.old {N : Nat} {D : Nat → Prop} {E F : List Edge} (h : Chain N D E F) {e : Edge} (h1 : e.src < N)
    (h2 : e.dst < N) : e ∈ F ↔ e ∈ E := by
  induction h with
  | refl => rfl
  | add _ hb ih =>
    rw [mem_addEdge_other, ih]
    rintro ⟨rfl, rfl⟩
    omega

theorem Chain.new {N : Nat} {D : Nat → Prop} {E F : List Edge} (h : Chain N D E F)
    (hE : ∀ a b, Step E a b → a < N ∧ b < N) {a b : Nat} (hs : Step F a b) (h1 : N ≤ a) (h2 : b < N) : D b := by
  induction h with
  | refl => have := hE a b hs; omega
  | add _ hb ih =>
    rcases step_addEdge.1 hs with h | ⟨_, rfl, rfl⟩
    · exact ih h
    · rcases hb with hb | hb
      · omega
      · exact hb.2

theorem Chain.members_old {N : Nat} {D : Nat → Prop} {E F : List Edge} (h : Chain N D E F) {a b q : Nat} (h1 : a < N)
    (h2 : b < N) : b ∈ members F a q ↔ b ∈ members E a q := by
  rw [mem_members, mem_members]
  constructor
  · rintro ⟨e, he, rfl, rfl, hq⟩
    exact ⟨e, (h.old h1 h2).1 he, rfl, rfl, hq⟩
  · rintro ⟨e, he, rfl, rfl, hq⟩
    exact ⟨e, (h.old h1 h2).2 he, rfl, rfl, hq⟩

theorem Chain.fold {N : Nat} {D : Nat → Prop} {E : List Edge} {α : Type} {f : List Edge → α → List Edge}
    (hf : ∀ E', Chain N D E E' → ∀ x, Chain N D E (f E' x)) (l : List α) : ∀ {E' : List Edge}, Chain N D E E' →
    Chain N D E (l.foldl f E') := by
  induction l with
  | nil => intro E' h; exact h
  | cons x l ih => intro E' h; exact ih (hf E' h x)

theorem Chain.fold_mem {N : Nat} {D : Nat → Prop} {E : List Edge} {α : Type} {f : List Edge → α → List Edge} (l : List α)
    (hf : ∀ E', Chain N D E E' → ∀ x ∈ l, Chain N D E (f E' x)) : ∀ {E' : List Edge}, Chain N D E E' →
    Chain N D E (l.foldl f E') := by
  induction l with
  | nil => intro E' h; exact h
  | cons x l ih =>
    intro E' h
    exact ih (fun E'' h'' y hy => hf E'' h'' y (by simp [hy])) (hf E' h x (by simp))

end Verif.Comp
