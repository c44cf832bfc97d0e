import Verif.Comp.Unqomp
import Verif.Comp.UnqompSem

/-!
Invariant of the loop of `uncompute_qc` (unqomp.py:88-160): how the inserted nodes are ordered with respect to the
nodes of the circuit.
-/

namespace Verif.Comp

variable {L : Type}

/-- `q` is a target of `v`: the type is not Z. -/
def Tgt (d : Dag L) (v q : Nat) : Prop := ∃ t, t ≠ PT.z ∧ TN d.nodes v q t

/-- Every edge that carries qubits has the type with which its end acts on all of them. `add_edge` keeps the type
of an existing edge (permeability_dag.py:226-232), so this can fail. -/
def NoMix (d : Dag L) : Prop :=
  ∀ e ∈ d.edges, ∀ q ∈ e.qs, (∃ t, e.et = .perm t ∧ TN d.nodes e.dst q t) ∨ ∃ p, d.nodes[e.dst]? = some (.term p)

/-- `x` precedes whatever is appended to `q`. -/
def Cov (g : UG L) (q x : Nat) : Prop :=
  ∀ r, g.recent q = some r → Reach g.edges x r ∨ ∃ m ∈ members g.edges r q, Reach g.edges x m

/-- A graph without two types on the same qubit of a node. -/
def OneType (d : Dag L) : Prop := ∀ v q t u, TN d.nodes v q t → TN d.nodes v q u → t = u

theorem zip_nodup_inj {α β : Type} {l : List α} {m : List β} (h : l.Nodup) {a : α} {b c : β}
    (h1 : (a, b) ∈ l.zip m) (h2 : (a, c) ∈ l.zip m) : b = c := by
  induction l generalizing m with
  | nil => simp at h1
  | cons x l ih =>
    cases m with
    | nil => simp at h1
    | cons y m =>
      rw [List.nodup_cons] at h
      rw [List.zip_cons_cons, List.mem_cons] at h1 h2
      rcases h1 with h1 | h1 <;> rcases h2 with h2 | h2
      · simp only [Prod.mk.injEq] at h1 h2; rw [h1.2, h2.2]
      · simp only [Prod.mk.injEq] at h1
        exact absurd (h1.1 ▸ (List.of_mem_zip h2).1) h.1
      · simp only [Prod.mk.injEq] at h2
        exact absurd (h2.1 ▸ (List.of_mem_zip h1).1) h.1
      · exact ih h.2 h1 h2

theorem Made.oneType {d : Dag L} {data : List (Instr L)} (h : Made d data) : OneType d := by
  rintro v q t u ⟨k, hk, h1⟩ ⟨k', hk', h2⟩
  rw [hk] at hk'
  obtain rfl := Option.some.inj hk'
  cases k with
  | alloc p o => rw [h1.2, h2.2]
  | term p => exact h1.elim
  | op i =>
    have hi : i ∈ Comp.kept d.nodes := List.mem_filterMap.2 ⟨_, List.mem_of_getElem? hk, rfl⟩
    have := (h.ok i (h.kept.1.subset hi)).nodup
    have := zip_nodup_inj this h1 h2
    simpa using this

/-- What the loop needs of the graph of the circuit. -/
structure Base (d : Dag L) : Prop where
  lt : ∀ a b, Step d.edges a b → a < d.nodes.length ∧ b < d.nodes.length
  inv : Inv d (TN d.nodes) (TCN d.nodes)
  linv : GL d
  one : OneType d
  mix : NoMix d
  sinv : SInv d.nodes d.edges

theorem Made.base {d : Dag L} {data : List (Instr L)} (h : Made d data) (hm : NoMix d) : Base d :=
  ⟨(dagOf_spec empty_ginv h.ok h.eq).1.inv.edges_lt, (dagOf_spec empty_ginv h.ok h.eq).1.inv, h.linv, h.oneType, hm,
    h.sinv⟩

structure UI (P : UPar L) (U : List Nat) (d : Dag L) (g : UG L) (done : List Nat) : Prop where
  nodes : ∃ l, g.nodes = d.nodes ++ l
  chain : Chain d.nodes.length (· ∈ done) d.edges g.edges
  rev_ok : ∀ v x, g.rev v = some x → v ∈ done ∧ d.nodes.length ≤ x ∧
    ∃ k i, d.nodes[v]? = some k ∧ uInstr P k = some i ∧ g.nodes[x]? = some (.op i)
  inj : ∀ v w x, g.rev v = some x → g.rev w = some x → v = w
  new : ∀ x k, d.nodes.length ≤ x → g.nodes[x]? = some k → (∃ q, k = .term q) ∨ ∃ v, g.rev v = some x
  recent : ∀ q, g.recent q = d.recent q ∨ ∃ m x, g.rev m = some x ∧ Tgt d m q ∧ g.recent q = some x
  cov : ∀ v q t, TN d.nodes v q t → Cov g q v
  covr : ∀ q r, d.recent q = some r → Cov g q r ∧ ∀ m ∈ members d.edges r q, Cov g q m
  covR : ∀ v x q t, g.rev v = some x → TN d.nodes v q t → Cov g q x
  last : ∀ v x w q t, g.rev v = some x → Tgt d v q → TN d.nodes w q t → Reach g.edges w x
  chn : ∀ v m x y q t, g.rev v = some x → g.rev m = some y → TN d.nodes v q t → Tgt d m q → [v, m].Sublist done →
    Reach g.edges x y
  ctl : ∀ v x c w, g.rev v = some x → TN d.nodes v c .z → Tgt d w c → Reach d.edges w v ∨ Reach g.edges x w
  unc : ∀ v q, v ∈ done → Tgt d v q → q ∈ U → (g.rev v).isSome
  tin : ∀ v q, (g.rev v).isSome → Tgt d v q → q ∈ U
  tex : ∀ v, (g.rev v).isSome → ∃ q, Tgt d v q

variable {P : UPar L} {U : List Nat} {d : Dag L} {g : UG L} {done : List Nat}

theorem UI.lt (h : UI P U d g done) : d.nodes.length ≤ g.nodes.length := by
  obtain ⟨l, e⟩ := h.nodes
  rw [e]; simp

theorem UI.node (h : UI P U d g done) {v : Nat} (hv : v < d.nodes.length) : g.nodes[v]? = d.nodes[v]? := by
  obtain ⟨l, e⟩ := h.nodes
  rw [e, List.getElem?_append_left hv]

/-- Edges into unprocessed nodes are those of the circuit. -/
theorem UI.edge (hb : Base d) (h : UI P U d g done) {e : Edge} {v : Nat} (hv : v < d.nodes.length) (hn : v ∉ done)
    (hd : e.dst = v) : e ∈ g.edges ↔ e ∈ d.edges := by
  by_cases hs : e.src < d.nodes.length
  · exact h.chain.old hs (by omega)
  · constructor
    · intro he
      exact absurd (h.chain.new hb.lt ⟨e, he, rfl, hd⟩ (by omega) hv) hn
    · intro he
      exact absurd (hb.lt _ _ ⟨e, he, rfl, rfl⟩).1 hs

theorem UI.target (hb : Base d) (h : UI P U d g done) {v : Nat} {k : NK L} (hk : d.nodes[v]? = some k)
    (ht : ∀ p, k ≠ .term p) (hn : v ∉ done) (q : Nat) : q ∈ targetQs g.nodes g.edges v ↔ Tgt d v q := by
  have hv : v < d.nodes.length := (List.getElem?_eq_some_iff.1 hk).1
  have hE : q ∈ (g.edges.filter fun e => e.dst == v && e.et != .perm .z).flatMap Edge.qs ↔
      ∃ e ∈ d.edges, e.dst = v ∧ e.et ≠ .perm .z ∧ q ∈ e.qs := by
    rw [List.mem_flatMap]
    constructor
    · rintro ⟨e, he, hq⟩
      rw [List.mem_filter] at he
      simp only [Bool.and_eq_true, beq_iff_eq, bne_iff_ne] at he
      exact ⟨e, (h.edge hb hv hn he.2.1).1 he.1, he.2.1, he.2.2, hq⟩
    · rintro ⟨e, he, h1, h2, hq⟩
      refine ⟨e, List.mem_filter.2 ⟨(h.edge hb hv hn h1).2 he, ?_⟩, hq⟩
      simp [h1, h2]
  unfold targetQs
  rw [h.node hv, hk]
  cases k with
  | term p => exact absurd rfl (ht p)
  | alloc p o =>
    dsimp only
    rw [List.mem_singleton]
    constructor
    · rintro rfl
      exact ⟨.neutral, by simp, _, hk, rfl, rfl⟩
    · rintro ⟨t, _, k, hk', h1⟩
      rw [hk] at hk'
      obtain rfl := Option.some.inj hk'
      exact h1.1
  | op i =>
    dsimp only
    rw [hE]
    constructor
    · rintro ⟨e, he, h1, h2, hq⟩
      rcases hb.mix e he q hq with ⟨t, h3, h4⟩ | ⟨p, hp⟩
      · rw [h1] at h4
        exact ⟨t, by rintro rfl; exact h2 h3, h4⟩
      · rw [h1, hk] at hp
        cases hp
    · rintro ⟨t, ht, h4⟩
      rcases (hb.linv q).1.source v t h4 with ⟨p, o, ha⟩ | ⟨p, hp⟩
      · rw [hk] at ha; cases ha
      · obtain ⟨e, he, h1, h2, hq⟩ := mem_members.1 hp
        refine ⟨e, he, h2, ?_, hq⟩
        rcases hb.mix e he q hq with ⟨u, h3, h5⟩ | ⟨p, hp⟩
        · rw [h2] at h5
          obtain rfl := hb.one v q t u h4 h5
          rw [h3]
          intro e'
          injection e' with e'
          exact ht e'
        · rw [h2, hk] at hp
          cases hp

/-- The control edge of a qubit. -/
theorem UI.control (hb : Base d) (h : UI P U d g done) {v c : Nat}
    (hn : v ∉ done) (hz : TN d.nodes v c .z) : ∃ p, v ∈ members d.edges p c ∧ p < d.nodes.length ∧
    p ∈ ctrlNodes g.edges v ∧ c ∈ edgeQs g.edges p v := by
  have hv : v < d.nodes.length := TN_lt hz
  rcases (hb.linv c).1.source v .z hz with ⟨p, o, ha⟩ | ⟨p, hp⟩
  · obtain ⟨k', h1, h2⟩ := hz
    rw [ha] at h1
    obtain rfl := Option.some.inj h1
    exact absurd h2.2 (by simp)
  · obtain ⟨e, he, h1, h2, hq⟩ := mem_members.1 hp
    have het : e.et = .perm .z := by
      rcases hb.mix e he c hq with ⟨t, h3, h4⟩ | ⟨p', hp'⟩
      · rw [h2] at h4
        rw [h3, hb.one v c t .z h4 hz]
      · obtain ⟨k', h3, h4⟩ := hz
        rw [h2, h3] at hp'
        obtain rfl := Option.some.inj hp'
        exact h4.elim
    have hg := (h.edge hb hv hn h2).2 he
    refine ⟨p, hp, (hb.lt _ _ (members_step hp)).1, ?_, ?_⟩
    · exact List.mem_map.2 ⟨e, List.mem_filter.2 ⟨hg, by simp [h2, het]⟩, h1⟩
    · exact List.mem_flatMap.2 ⟨e, List.mem_filter.2 ⟨hg, by simp [h1, h2]⟩, hq⟩

theorem Cov.grow {g g' : UG L} {q x : Nat} (h : Cov g q x) (hr : g'.recent q = g.recent q) (hE : Le g.edges g'.edges) :
    Cov g' q x := by
  intro r e
  rw [hr] at e
  refine (h r e).imp hE.reach ?_
  rintro ⟨m, h1, h2⟩
  exact ⟨m, hE.mem _ _ _ h1, hE.reach h2⟩

theorem Cov.pre {g : UG L} {q x y : Nat} (h : Cov g q x) (hr : Reach g.edges y x) : Cov g q y := by
  intro r e
  refine (h r e).imp hr.trans ?_
  rintro ⟨m, h1, h2⟩
  exact ⟨m, h1, hr.trans h2⟩

/-! ### The new edges -/

/-- The nodes appended by the target loop are terminators. -/
theorem targ_nodes (rv : Nat) (tq as : List Nat) (st : List (NK L) × List Edge) :
    ∃ l, (as.foldl (fun st a => tq.foldl (targLink rv a) st) st).1 = st.1 ++ l ∧ ∀ k ∈ l, ∃ q, k = NK.term q := by
  have h1 : ∀ a (l : List Nat) (st : List (NK L) × List Edge), ∃ m, (l.foldl (targLink rv a) st).1 = st.1 ++ m ∧
      ∀ k ∈ m, ∃ q, k = NK.term q := by
    intro a l
    induction l with
    | nil => intro st; exact ⟨[], by simp, by simp⟩
    | cons q l ih =>
      intro st
      obtain ⟨m, e, hm⟩ := ih (targLink rv a st q)
      rw [List.foldl_cons, e]
      have : ∃ m', (targLink rv a st q).1 = st.1 ++ m' ∧ ∀ k ∈ m', ∃ q, k = NK.term q := by
        unfold targLink
        split
        · exact ⟨[], by simp, by simp⟩
        · exact ⟨[], by simp, by simp⟩
        · exact ⟨[.term q], rfl, by simp⟩
      obtain ⟨m', e', hm'⟩ := this
      refine ⟨m' ++ m, by rw [e', List.append_assoc], ?_⟩
      intro k hk
      rcases List.mem_append.1 hk with hk | hk
      · exact hm' k hk
      · exact hm k hk
  induction as generalizing st with
  | nil => exact ⟨[], by simp, by simp⟩
  | cons a as ih =>
    obtain ⟨m, e, hm⟩ := h1 a tq st
    obtain ⟨m', e', hm'⟩ := ih (tq.foldl (targLink rv a) st)
    refine ⟨m ++ m', ?_, ?_⟩
    · rw [List.foldl_cons, e', e, List.append_assoc]
    · intro k hk
      rcases List.mem_append.1 hk with hk | hk
      · exact hm k hk
      · exact hm' k hk

theorem targ_chain {N : Nat} {D : Nat → Prop} {E : List Edge} {rv : Nat} (hrv : N ≤ rv) (tq as : List Nat)
    (st : List (NK L) × List Edge) (hN : N ≤ st.1.length) (h : Chain N D E st.2) :
    Chain N D E (as.foldl (fun st a => tq.foldl (targLink rv a) st) st).2 := by
  have h0 : ∀ a q (st : List (NK L) × List Edge), N ≤ st.1.length → Chain N D E st.2 →
      N ≤ (targLink rv a st q).1.length ∧ Chain N D E (targLink rv a st q).2 := by
    intro a q st hN h
    unfold targLink
    split
    · exact ⟨hN, .add h (.inl hrv)⟩
    · exact ⟨hN, .add h (.inl hrv)⟩
    · refine ⟨by simp; omega, .add ?_ (.inl hrv)⟩
      exact Chain.fold (fun E' h' m => .add h' (.inl hN)) _ h
  have h1 : ∀ a (l : List Nat) (st : List (NK L) × List Edge), N ≤ st.1.length → Chain N D E st.2 →
      N ≤ (l.foldl (targLink rv a) st).1.length ∧ Chain N D E (l.foldl (targLink rv a) st).2 := by
    intro a l
    induction l with
    | nil => intro st hN h; exact ⟨hN, h⟩
    | cons q l ih => intro st hN h; exact ih _ (h0 a q st hN h).1 (h0 a q st hN h).2
  induction as generalizing st with
  | nil => exact h
  | cons a as ih => exact ih _ (h1 a tq st hN h).1 (h1 a tq st hN h).2

theorem ctrl_chain (hb : Base d) {D : Nat → Prop} {E : List Edge} {rv v : Nat} (hrv : d.nodes.length ≤ rv)
    (hv : v < d.nodes.length) (hvD : ¬ D v)
    (hsucc : ∀ y, Relation.TransGen (Step d.edges) v y → D y) (h : Chain d.nodes.length D d.edges E) :
    Chain d.nodes.length D d.edges ((ctrlNodes E v).foldl (ctrlLink rv v E) E) := by
  refine Chain.fold_mem _ ?_ h
  intro E' hE' c hc
  have hcs : Step E c v := by
    obtain ⟨e, he, rfl⟩ := List.mem_map.1 hc
    rw [List.mem_filter] at he
    simp only [Bool.and_eq_true, beq_iff_eq] at he
    exact ⟨e, he.1, rfl, he.2.1⟩
  have hcN : c < d.nodes.length := by
    by_contra hcc
    exact hvD (h.new hb.lt hcs (by omega) hv)
  unfold ctrlLink
  refine .add ?_ (.inl hrv)
  refine Chain.fold_mem _ ?_ hE'
  intro E1 hE1 qb hqb
  have hm : v ∈ members d.edges c qb := by
    obtain ⟨e, he, hq⟩ := List.mem_flatMap.1 hqb
    rw [List.mem_filter] at he
    simp only [Bool.and_eq_true, beq_iff_eq] at he
    refine mem_members.2 ⟨e, (h.old (by omega) (by omega)).1 he.1, he.2.1, he.2.2, hq⟩
  unfold ctrlOne
  have key : ∀ E2, Chain d.nodes.length D d.edges E2 → ∀ s ∈ members E1 c qb, ∀ y ∈ members E2 s qb,
      d.nodes.length ≤ y ∨ (d.nodes.length ≤ rv ∧ D y) := by
    intro E2 hE2 s hs y hy
    by_cases hyN : d.nodes.length ≤ y
    · exact .inl hyN
    · refine .inr ⟨hrv, ?_⟩
      by_cases hsN : d.nodes.length ≤ s
      · exact hE2.new hb.lt (members_step hy) hsN (by omega)
      · refine hsucc y ((hb.linv qb).1.ends c v s y hm ((hE1.members_old hcN (by omega)).1 hs)
          ((hE2.members_old (by omega) (by omega)).1 hy))
  refine Chain.fold_mem _ ?_ hE1
  intro E2 hE2 s hs
  refine Chain.fold_mem _ ?_ hE2
  intro E3 hE3 y hy
  exact .add hE3 (key E2 hE2 s hs y hy)

/-- **One uncomputed node.** -/
theorem UI.step (hb : Base d) (hA : ∀ v l a, a ∈ l → a ∈ P.aord v l) (h : UI P U d g done) {v : Nat} {g' : UG L}
    {k : NK L} (hk : d.nodes[v]? = some k) (hn : v ∉ done)
    (hsucc : ∀ y, Relation.TransGen (Step d.edges) v y → y ∈ done) (hpred : ∀ m ∈ done, ¬ Reach d.edges m v)
    (hU : ∀ q, Tgt d v q → q ∈ U) (hex : ∃ q, Tgt d v q) (hg : uncomputeNode P g v = some g') :
    UI P U d g' (done ++ [v]) := by
  have hv : v < d.nodes.length := (List.getElem?_eq_some_iff.1 hk).1
  have hL := h.lt
  unfold uncomputeNode at hg
  rw [h.node hv, hk] at hg
  dsimp only at hg
  cases hi : uInstr P k with
  | none => rw [hi] at hg; cases hg
  | some i =>
  rw [hi] at hg
  dsimp only at hg
  by_cases hqf : P.qfree k = true
  case neg => rw [if_neg hqf] at hg; cases hg
  rw [if_pos hqf, Option.some.injEq] at hg
  have hterm : ∀ p, k ≠ .term p := by rintro p rfl; cases hi
  have htq := h.target hb hk hterm hn
  generalize htqe : targetQs g.nodes g.edges v = tq at *
  generalize hrve : g.nodes.length = rv at *
  generalize hE1e : (ctrlNodes g.edges v).foldl (ctrlLink rv v g.edges) g.edges = E1 at *
  have hleE1 : Le g.edges E1 := by rw [← hE1e]; exact Le.fold (fun E _ => le_ctrlLink rv v _ E _) _ _
  have hch1 : Chain d.nodes.length (· ∈ done) d.edges E1 := by
    rw [← hE1e]
    exact ctrl_chain hb hL hv hn hsucc h.chain
  obtain ⟨lt, hlt, hltm⟩ := targ_nodes rv tq (P.aord v (tq.filterMap g.recent)) (g.nodes ++ [NK.op i], E1)
  have hle2 := targ_fold_le rv tq (P.aord v (tq.filterMap g.recent)) (g.nodes ++ [NK.op i], E1)
  have hch2 := targ_chain (rv := rv) hL tq (P.aord v (tq.filterMap g.recent)) (g.nodes ++ [NK.op i], E1)
    (by simp; omega) hch1
  have hhit : ∀ q r, q ∈ tq → g.recent q = some r →
      Reach ((P.aord v (tq.filterMap g.recent)).foldl (fun st a => tq.foldl (targLink rv a) st)
        (g.nodes ++ [NK.op i], E1)).2 r rv ∧
      ∀ m ∈ members g.edges r q, Reach ((P.aord v (tq.filterMap g.recent)).foldl
        (fun st a => tq.foldl (targLink rv a) st) (g.nodes ++ [NK.op i], E1)).2 m rv := by
    intro q r hq hr
    exact targ_hit (hA v _ r (List.mem_filterMap.2 ⟨q, hq, hr⟩)) hq (g.nodes ++ [NK.op i], E1) hleE1
  generalize (P.aord v (tq.filterMap g.recent)).foldl (fun st a => tq.foldl (targLink rv a) st)
        (g.nodes ++ [NK.op i], E1) = st at *
  dsimp only at hlt hle2 hch2
  have hle : Le g.edges st.2 := hleE1.trans hle2
  have hle0 : Le d.edges st.2 := hch2.le
  subst hg
  -- what precedes the recent node on a target precedes the new node
  have hcov1 : ∀ q x, Tgt d v q → Cov g q x → Reach st.2 x rv := by
    intro q x hq hc
    have hr : ∃ r, g.recent q = some r := by
      obtain ⟨t, _, ht⟩ := hq
      rcases h.recent q with e | ⟨m, x, _, _, e⟩
      · obtain ⟨r, hr, _⟩ := hb.inv.qubit v q t ht
        exact ⟨r, e.trans hr⟩
      · exact ⟨x, e⟩
    obtain ⟨r, hr⟩ := hr
    obtain ⟨h1, h2⟩ := hhit q r ((htq q).2 hq) hr
    rcases hc r hr with h3 | ⟨m, h3, h4⟩
    · exact (hle.reach h3).trans h1
    · exact (hle.reach h4).trans (h2 m h3)
  generalize hgg : (⟨st.1, st.2, fun q => if q ∈ tq then some rv else g.recent q,
      fun x => if x = v then some rv else g.rev x⟩ : UG L) = g'
  have gE : g'.edges = st.2 := by rw [← hgg]
  have gN : g'.nodes = g.nodes ++ [NK.op i] ++ lt := by rw [← hgg]; exact hlt
  have gR1 : ∀ q, Tgt d v q → g'.recent q = some rv := by
    intro q hq
    rw [← hgg]
    exact if_pos ((htq q).2 hq)
  have gR2 : ∀ q, ¬ Tgt d v q → g'.recent q = g.recent q := by
    intro q hq
    rw [← hgg]
    exact if_neg fun hc => hq ((htq q).1 hc)
  have gV1 : g'.rev v = some rv := by rw [← hgg]; exact if_pos rfl
  have gV2 : ∀ w, w ≠ v → g'.rev w = g.rev w := by intro w hw; rw [← hgg]; exact if_neg hw
  clear hgg
  rw [← gE] at hle hle0 hcov1 hch2
  have hle2' : Le E1 g'.edges := by rw [gE]; exact hle2
  clear hhit hle2
  have hvrev : ∀ x, g.rev v ≠ some x := fun x e => hn (h.rev_ok v x e).1
  have hcovg : ∀ q x, Cov g q x → Cov g' q x := by
    intro q x hc
    by_cases hq : Tgt d v q
    · intro r e
      rw [gR1 q hq] at e
      obtain rfl := Option.some.inj e
      exact .inl (hcov1 q x hq hc)
    · exact hc.grow (gR2 q hq) hle
  have hold : ∀ w x, g'.rev w = some x → (w = v ∧ x = rv) ∨ (w ≠ v ∧ g.rev w = some x) := by
    intro w x e
    by_cases hw : w = v
    · subst hw
      rw [gV1] at e
      exact .inl ⟨rfl, (Option.some.inj e).symm⟩
    · rw [gV2 w hw] at e
      exact .inr ⟨hw, e⟩
  have hkeep : ∀ w x, g.rev w = some x → g'.rev w = some x := by
    intro w x e
    rw [gV2 w (by rintro rfl; exact hvrev x e)]
    exact e
  have hctrl : ∀ c, TN d.nodes v c .z → ∃ p, v ∈ members d.edges p c ∧ rv ∈ members g'.edges p c ∧
      ∀ s y, s ∈ members d.edges p c → y ∈ members d.edges s c → Reach g'.edges rv y := by
    intro c hc
    obtain ⟨p, h1, h2, h3, h4⟩ := h.control hb hn hc
    have := ctrl_hit (rv := rv) h3 h4 (by omega)
    rw [hE1e] at this
    refine ⟨p, h1, hle2'.mem _ _ _ this.2, ?_⟩
    intro s y hs hy
    exact hle2'.reach (this.1 s y (h.chain.le.mem _ _ _ hs) (h.chain.le.mem _ _ _ hy))
  refine ⟨?_, ?_, ?_, ?_, ?_, ?_, ?_, ?_, ?_, ?_, ?_, ?_, ?_, ?_, ?_⟩
  · obtain ⟨l, e⟩ := h.nodes
    exact ⟨l ++ [NK.op i] ++ lt, by rw [gN, e]; simp⟩
  · exact hch2.mono fun w hw => List.mem_append_left _ hw
  · intro w x e
    rcases hold w x e with ⟨rfl, rfl⟩ | ⟨_, e⟩
    · refine ⟨by simp, hL, k, i, hk, hi, ?_⟩
      rw [gN, ← hrve]
      simp
    · obtain ⟨h1, h2, k', i', h3, h4, h5⟩ := h.rev_ok w x e
      refine ⟨List.mem_append_left _ h1, h2, k', i', h3, h4, ?_⟩
      have hx := (List.getElem?_eq_some_iff.1 h5).1
      rw [gN, List.append_assoc, List.getElem?_append_left hx]
      exact h5
  · intro w u x e1 e2
    rcases hold w x e1 with ⟨rfl, rfl⟩ | ⟨_, e1⟩
    · rcases hold u x e2 with ⟨rfl, _⟩ | ⟨_, e2⟩
      · rfl
      · obtain ⟨_, _, k', i', _, _, h5⟩ := h.rev_ok u x e2
        have := (List.getElem?_eq_some_iff.1 h5).1
        omega
    · rcases hold u x e2 with ⟨rfl, rfl⟩ | ⟨_, e2⟩
      · obtain ⟨_, _, k', i', _, _, h5⟩ := h.rev_ok w x e1
        have := (List.getElem?_eq_some_iff.1 h5).1
        omega
      · exact h.inj w u x e1 e2
  · intro x k' hx e
    rw [gN, List.append_assoc] at e
    by_cases hxl : x < g.nodes.length
    · rw [List.getElem?_append_left hxl] at e
      refine (h.new x k' hx e).imp_right ?_
      rintro ⟨w, hw⟩
      exact ⟨w, hkeep w x hw⟩
    · rw [List.getElem?_append_right (by omega)] at e
      by_cases hxe : x = rv
      · exact .inr ⟨v, by rw [gV1, hxe]⟩
      · left
        obtain ⟨j, hj⟩ : ∃ j, x - g.nodes.length = j + 1 := ⟨x - g.nodes.length - 1, by omega⟩
        rw [hj] at e
        simp only [List.singleton_append, List.getElem?_cons_succ] at e
        exact hltm k' (List.mem_of_getElem? e)
  · intro q
    by_cases hq : Tgt d v q
    · exact .inr ⟨v, rv, gV1, hq, gR1 q hq⟩
    · rw [gR2 q hq]
      refine (h.recent q).imp_right ?_
      rintro ⟨m, x, h1, h2, h3⟩
      exact ⟨m, x, hkeep m x h1, h2, h3⟩
  · intro w q t hw
    exact hcovg q w (h.cov w q t hw)
  · intro q r hr
    obtain ⟨h1, h2⟩ := h.covr q r hr
    exact ⟨hcovg q r h1, fun m hm => hcovg q m (h2 m hm)⟩
  · intro w x q t e ht
    rcases hold w x e with ⟨rfl, rfl⟩ | ⟨_, e⟩
    · by_cases hq : Tgt d w q
      · intro r er
        rw [gR1 q hq] at er
        obtain rfl := Option.some.inj er
        exact .inl .refl
      · have hz : TN d.nodes w q .z := by
          by_cases htz : t = .z
          · rw [← htz]; exact ht
          · exact absurd ⟨t, htz, ht⟩ hq
        obtain ⟨p, h1, h2, h3⟩ := hctrl q hz
        obtain ⟨r0, hr0, _⟩ := hb.inv.qubit w q t ht
        obtain ⟨c1, c2⟩ := h.covr q r0 hr0
        rcases (hb.linv q).1.stat r0 hr0 w t p ht h1 with rfl | h4 | ⟨s, y, h4, h5, h6⟩
        · rcases h.recent q with e' | ⟨m, x', e1, e2, e3⟩
          · intro r er
            rw [gR2 q hq, e', hr0] at er
            obtain rfl := Option.some.inj er
            exact .inr ⟨_, h2, .refl⟩
          · exfalso
            obtain ⟨u, hu, hm⟩ := e2
            rcases (hb.linv q).1.later w p m u hz h1 hm hu with h4 | ⟨s, y, h4, h5, _⟩
            · exact hpred m (h.rev_ok m x' e1).1 h4
            · exact (hb.linv q).1.leaf p hr0 s h4 y h5
        · obtain ⟨m, hm⟩ := (hb.linv q).2 r0 hr0 p h4
          exact (hcovg q m (c2 m hm)).pre (h3 r0 m h4 hm)
        · exact (hcovg q r0 c1).pre ((h3 s y h4 h5).trans (hle0.reach h6))
    · exact hcovg q x (h.covR w x q t e ht)
  · intro w x u q t e hq hu
    rcases hold w x e with ⟨rfl, rfl⟩ | ⟨_, e⟩
    · exact hcov1 q u hq (h.cov u q t hu)
    · exact hle.reach (h.last w x u q t e hq hu)
  · intro w m x y q t e1 e2 ht hq hs
    have hmd : ∀ u x, g.rev u = some x → u ∈ done := fun u x e => (h.rev_ok u x e).1
    rcases hold m y e2 with ⟨rfl, rfl⟩ | ⟨hne, e2⟩
    · rcases hold w x e1 with ⟨rfl, rfl⟩ | ⟨_, e1⟩
      · exact .refl
      · exact hcov1 q x hq (h.covR w x q t e1 ht)
    · have hs' : [w, m].Sublist done := by
        have hr := List.reverse_sublist.2 hs
        simp only [List.reverse_append, List.reverse_cons, List.reverse_nil, List.nil_append, List.singleton_append] at hr
        rcases List.sublist_cons_iff.1 hr with h1 | ⟨r, e, _⟩
        · have := List.reverse_sublist.2 h1
          simpa using this
        · injection e with e _
          exact absurd e hne
      have hw : w ∈ done := hs'.subset (by simp)
      rcases hold w x e1 with ⟨rfl, rfl⟩ | ⟨_, e1⟩
      · exact absurd hw hn
      · exact hle.reach (h.chn w m x y q t e1 e2 ht hq hs')
  · intro w x c u e hz hu
    rcases hold w x e with ⟨rfl, rfl⟩ | ⟨_, e⟩
    · obtain ⟨p, h1, h2, h3⟩ := hctrl c hz
      obtain ⟨t, ht, hut⟩ := hu
      refine ((hb.linv c).1.later w p u t hz h1 hut ht).imp_right ?_
      rintro ⟨s, y, h4, h5, h6⟩
      exact (h3 s y h4 h5).trans (hle0.reach h6)
    · exact (h.ctl w x c u e hz hu).imp_right hle.reach
  · intro w q hw hq hqU
    by_cases hwv : w = v
    · rw [hwv, gV1]; rfl
    · have hw' : w ∈ done := by
        rcases List.mem_append.1 hw with hw | hw
        · exact hw
        · exact absurd (List.mem_singleton.1 hw) hwv
      rw [gV2 w hwv]
      exact h.unc w q hw' hq hqU
  · intro w q hw hq
    by_cases hwv : w = v
    · subst hwv; exact hU q hq
    · rw [gV2 w hwv] at hw
      exact h.tin w q hw hq
  · intro w hw
    by_cases hwv : w = v
    · subst hwv; exact hex
    · rw [gV2 w hwv] at hw
      exact h.tex w hw

/-- A node that is not uncomputed. -/
theorem UI.skip (h : UI P U d g done) {v : Nat} (hs : ∀ q, Tgt d v q → q ∉ U) : UI P U d g (done ++ [v]) := by
  obtain ⟨h1, h2, h3, h4, h5, h6, h7, h8, h9, h10, h11, h12, h13, h14, h15⟩ := h
  refine ⟨h1, h2.mono fun w hw => List.mem_append_left _ hw, ?_, h4, h5, h6, h7, h8, h9, h10, ?_, h12, ?_, h14, h15⟩
  · intro w x e
    obtain ⟨a, b⟩ := h3 w x e
    exact ⟨List.mem_append_left _ a, b⟩
  · intro w m x y q t e1 e2 ht hq hsub
    by_cases hm : m = v
    · exfalso
      subst hm
      exact hs q hq (h14 m q (by rw [e2]; rfl) hq)
    · refine h11 w m x y q t e1 e2 ht hq ?_
      have hr := List.reverse_sublist.2 hsub
      simp only [List.reverse_append, List.reverse_cons, List.reverse_nil, List.nil_append, List.singleton_append] at hr
      rcases List.sublist_cons_iff.1 hr with h1 | ⟨r, e, _⟩
      · have := List.reverse_sublist.2 h1
        simpa using this
      · injection e with e _
        exact absurd e hm
  · intro w q hw hq hqU
    rcases List.mem_append.1 hw with hw | hw
    · exact h13 w q hw hq hqU
    · rw [List.mem_singleton] at hw
      subst hw
      exact absurd hqU (hs q hq)

theorem UI.start (P : UPar L) (U : List Nat) (hb : Base d) : UI P U d (UG.start d) [] := by
  refine ⟨⟨[], by simp [UG.start]⟩, .refl, ?_, ?_, ?_, ?_, ?_, ?_, ?_, ?_, ?_, ?_, ?_, ?_, ?_⟩
  · intro v x e; cases e
  · intro v w x e; cases e
  · intro x k hx e
    have := (List.getElem?_eq_some_iff.1 e).1
    simp only [UG.start] at this
    omega
  · intro q; exact .inl rfl
  · intro v q t ht r e
    obtain ⟨r', e', h⟩ := hb.inv.qubit v q t ht
    have e : d.recent q = some r := e
    rw [e'] at e
    obtain rfl := Option.some.inj e
    refine h.imp (fun h => h) ?_
    rintro ⟨h, _⟩
    exact ⟨v, h, .refl⟩
  · intro q r hr
    refine ⟨?_, ?_⟩
    · intro r' e
      have e : d.recent q = some r' := e
      rw [hr] at e
      obtain rfl := Option.some.inj e
      exact .inl .refl
    · intro m hm r' e
      have e : d.recent q = some r' := e
      rw [hr] at e
      obtain rfl := Option.some.inj e
      exact .inr ⟨m, hm, .refl⟩
  · intro v x q t e; cases e
  · intro v x w q t e; cases e
  · intro v m x y q t e; cases e
  · intro v x c w e; cases e
  · intro v q hv; simp at hv
  · intro v q hv; simp [UG.start] at hv
  · intro v hv; simp [UG.start] at hv

/-- Each qubit is allocated by at most one node. -/
def OneAlloc (d : Dag L) : Prop :=
  ∀ (v w : Nat) (k l : NK L) (q : Nat), d.nodes[v]? = some k → d.nodes[w]? = some l → k.allocQ = some q → l.allocQ = some q → v = w

theorem UI.noDouble (ho : OneAlloc d) (h : UI P U d g done) {lin : List Nat} (hl : ∀ v ∈ lin, v < d.nodes.length)
    (hn : lin.Nodup) (qs : List Nat) : doubleAlloc g.nodes lin qs = false := by
  unfold doubleAlloc
  rw [List.any_eq_false]
  intro q _
  rw [decide_eq_true_eq]
  intro hc
  generalize hfe : (lin.filter fun v => (g.nodes[v]?.bind NK.allocQ) == some q) = f at hc
  have hf : ∀ v ∈ f, v ∈ lin ∧ (g.nodes[v]?.bind NK.allocQ) = some q := by
    intro v hv
    rw [← hfe, List.mem_filter] at hv
    exact ⟨hv.1, by simpa using hv.2⟩
  have hfn : f.Nodup := by rw [← hfe]; exact hn.filter _
  match f, hc with
  | v :: w :: f, _ =>
    obtain ⟨hv1, hv2⟩ := hf v (by simp)
    obtain ⟨hw1, hw2⟩ := hf w (by simp)
    rw [h.node (hl v hv1)] at hv2
    rw [h.node (hl w hw1)] at hw2
    obtain ⟨k, hk, hk'⟩ := Option.bind_eq_some_iff.1 hv2
    obtain ⟨l, hl', hl''⟩ := Option.bind_eq_some_iff.1 hw2
    have := ho v w k l q hk hl' hk' hl''
    subst this
    simp at hfn

/-- **The loop.** -/
theorem uncomputeAll_ui (hb : Base d) (ho : OneAlloc d) (hA : ∀ v l a, a ∈ l → a ∈ P.aord v l) {lin : List Nat}
    (ht : TopoOrder d.nodes.length d.edges lin) : ∀ (rest done : List Nat) (g g' : UG L), done ++ rest = lin.reverse →
    UI P U d g done → uncomputeAll P U rest g = .ok g' → UI P U d g' lin.reverse := by
  have hnl : lin.Nodup := ht.perm.nodup_iff.2 List.nodup_range
  have hmem : ∀ v, v ∈ lin ↔ v < d.nodes.length := fun v => by rw [ht.perm.mem_iff, List.mem_range]
  intro rest
  induction rest with
  | nil =>
    intro done g g' e h he
    simp only [List.append_nil] at e
    simp only [uncomputeAll, UOut.ok.injEq] at he
    rw [← e, ← he]
    exact h
  | cons v rest ih =>
    intro done g g' e h he
    have hnr : (done ++ v :: rest).Nodup := by rw [e]; exact List.nodup_reverse.2 hnl
    have e' : (done ++ [v]) ++ rest = lin.reverse := by rw [← e]; simp
    have hvl : v ∈ lin := by rw [← List.mem_reverse, ← e]; simp
    have hv : v < d.nodes.length := (hmem v).1 hvl
    have hnd : v ∉ done := fun hc => (List.nodup_append'.1 hnr).2.2 hc (by simp)
    have hord : ∀ a b, Reach d.edges a b → a = b ∨ [b, a].Sublist (done ++ v :: rest) := by
      intro a b hr
      rcases ht.reach hr with h1 | h1
      · exact .inl h1
      · right
        rw [e]
        have := List.reverse_sublist.2 h1
        simpa using this
    have hpred : ∀ m ∈ done, ¬ Reach d.edges m v := by
      intro m hm hr
      rcases hord m v hr with h1 | h1
      · exact hnd (h1 ▸ hm)
      · exact pair_asymm hnr h1 ((pair_split hnr).2 hm)
    have hsucc : ∀ y, Relation.TransGen (Step d.edges) v y → y ∈ done := by
      intro y hy
      rcases hord v y hy.to_reflTransGen with h1 | h1
      · exfalso
        subst h1
        obtain ⟨z, hz1, hz2⟩ := Relation.TransGen.head'_iff.1 hy
        exact no_back hb.inv.acyc hz1 hz2
      · exact (pair_split hnr).1 h1
    obtain ⟨k, hk⟩ : ∃ k, d.nodes[v]? = some k := ⟨_, List.getElem?_eq_getElem hv⟩
    have hgk : g.nodes[v]? = some k := by rw [h.node hv, hk]
    unfold uncomputeAll at he
    rw [hgk] at he
    by_cases hterm : ∃ p, k = .term p
    · obtain ⟨p, rfl⟩ := hterm
      dsimp only at he
      refine ih _ g g' e' (h.skip ?_) he
      rintro q ⟨t, _, k', hk', h2⟩
      rw [hk] at hk'
      obtain rfl := Option.some.inj hk'
      exact h2.elim
    · have hterm' : ∀ p, k ≠ .term p := fun p hp => hterm ⟨p, hp⟩
      have htq := h.target hb hk hterm' hnd
      have hD : doubleAlloc g.nodes (v :: rest) k.qubits = false := by
        refine h.noDouble ho ?_ ?_ _
        · intro w hw
          rw [← hmem, ← List.mem_reverse, ← e]
          exact List.mem_append_right _ hw
        · exact (List.nodup_append'.1 hnr).2.1
      have he' : (if (!(targetQs g.nodes g.edges v).any fun q => U.contains q) = true then uncomputeAll P U rest g
          else if doubleAlloc g.nodes (v :: rest) k.qubits = true then uncomputeAll P U rest g
          else if ((targetQs g.nodes g.edges v).all fun q => U.contains q) = true then
            match uncomputeNode P g v with
            | none => .raise
            | some g' => uncomputeAll P U rest g'
          else if (((targetQs g.nodes g.edges v).filter fun q => !U.contains q).any P.allocated) = true then .raise
          else .again ((targetQs g.nodes g.edges v).filter fun q => !U.contains q)) = UOut.ok g' := by
        cases k with
        | term p => exact absurd rfl (hterm' p)
        | alloc p o => exact he
        | op i => exact he
      rw [hD, if_neg (by simp : ¬ false = true)] at he'
      by_cases h1 : ((targetQs g.nodes g.edges v).any fun q => U.contains q) = true
      · rw [h1, if_neg (by simp)] at he'
        by_cases h2 : ((targetQs g.nodes g.edges v).all fun q => U.contains q) = true
        · rw [if_pos h2] at he'
          cases hu : uncomputeNode P g v with
          | none => rw [hu] at he'; cases he'
          | some g1 =>
            rw [hu] at he'
            dsimp only at he'
            refine ih _ g1 g' e' (h.step hb hA hk hnd hsucc hpred ?_ ?_ hu) he'
            · intro q hq
              have := List.all_eq_true.1 h2 q ((htq q).2 hq)
              simpa using this
            · obtain ⟨q, hq, _⟩ := List.any_eq_true.1 h1
              exact ⟨q, (htq q).1 hq⟩
        · rw [if_neg h2] at he'
          split at he' <;> cases he'
      · rw [Bool.not_eq_true] at h1
        rw [h1, if_pos (by simp)] at he'
        refine ih _ g g' e' (h.skip ?_) he'
        intro q hq hqU
        have := List.any_eq_false.1 h1 q ((htq q).2 hq)
        exact this (by simpa using hqU)

end Verif.Comp
