import Verif.Comp.UnqompRun

/-!
Every topological order of the graph after uncomputation satisfies `OrderOK`, and the circuit written for it
computes what `cleaned` says.
-/

namespace Verif.Comp

open Finset

variable {L : Type} {n : Nat}

/-- Nodes of gates. -/
def GateAt (d : Dag L) (v : Nat) : Prop := ∃ i, d.nodes[v]? = some (NK.op i) ∧ i.kind = .gate

open Classical in
/-- The step of a node. -/
noncomputable def tagOf (d : Dag L) (g : UG L) (x : Nat) : Option Tag :=
  if x < d.nodes.length then
    if GateAt d x then (if (g.rev x).isSome then some (.fwd x) else some (.oth x)) else none
  else if h : ∃ v, g.rev v = some x ∧ GateAt d v then some (.bwd h.choose) else none

variable {P : UPar L} {U : List Nat} {d : Dag L} {g : UG L} {done : List Nat}

theorem GateAt.lt {v : Nat} (h : GateAt d v) : v < d.nodes.length := by
  obtain ⟨i, hi, _⟩ := h
  exact (List.getElem?_eq_some_iff.1 hi).1

theorem tag_oth {x v : Nat} : tagOf d g x = some (.oth v) ↔ x = v ∧ GateAt d v ∧ g.rev v = none := by
  unfold tagOf
  constructor
  · intro h
    split_ifs at h with h1 h2 h3 h4
    · cases h
    · simp only [Option.some.injEq, Tag.oth.injEq] at h
      subst h
      exact ⟨rfl, h2, by simpa using h3⟩
    · cases h
  · rintro ⟨rfl, h1, h2⟩
    rw [if_pos h1.lt, if_pos h1, if_neg (by simp [h2])]

theorem tag_fwd {x v : Nat} : tagOf d g x = some (.fwd v) ↔ x = v ∧ GateAt d v ∧ (g.rev v).isSome := by
  unfold tagOf
  constructor
  · intro h
    split_ifs at h with h1 h2 h3 h4
    · simp only [Option.some.injEq, Tag.fwd.injEq] at h
      subst h
      exact ⟨rfl, h2, h3⟩
    · cases h
    · cases h
  · rintro ⟨rfl, h1, h2⟩
    rw [if_pos h1.lt, if_pos h1, if_pos h2]

theorem tag_bwd (h : UI P U d g done) {x v : Nat} : tagOf d g x = some (.bwd v) ↔ g.rev v = some x ∧ GateAt d v := by
  unfold tagOf
  constructor
  · intro h
    split_ifs at h with h1 h2 h3 h4
    · cases h
    · cases h
    · simp only [Option.some.injEq, Tag.bwd.injEq] at h
      subst h
      exact h4.choose_spec
  · rintro ⟨h1, h2⟩
    have hx := (h.rev_ok v x h1).2.1
    have hex : ∃ v, g.rev v = some x ∧ GateAt d v := ⟨v, h1, h2⟩
    rw [if_neg (by omega), dif_pos hex, h.inj _ v x hex.choose_spec.1 h1]

theorem tag_inj (h : UI P U d g done) (x y : Nat) (t : Tag) (h1 : tagOf d g x = some t) (h2 : tagOf d g y = some t) :
    x = y := by
  cases t with
  | oth v => rw [(tag_oth.1 h1).1, (tag_oth.1 h2).1]
  | fwd v => rw [(tag_fwd.1 h1).1, (tag_fwd.1 h2).1]
  | bwd v => exact Option.some.inj (((tag_bwd h).1 h1).1.symm.trans ((tag_bwd h).1 h2).1)

theorem pair_step {α β : Type} {f : α → Option β} {x y : α} {a b : β} {l : List α} (h : [x, y].Sublist l)
    (hx : f x = some a) (hy : f y = some b) : [a, b].Sublist (l.filterMap f) := by
  have := h.filterMap f
  rw [List.filterMap_cons_some hx, List.filterMap_cons_some hy, List.filterMap_nil] at this
  exact this

/-- **The order of the steps.** -/
theorem order_ok (hb : Base d) (h : UI P U d g done) (hnd_ : done.Nodup)
    (hdone : ∀ v, v < d.nodes.length → v ∈ done)
    (hd : ∀ v w, Reach d.edges v w → v = w ∨ [w, v].Sublist done)
    (hdep : ∀ v w q, TN d.nodes v q .neutral → Tgt d w q → GateAt d v → GateAt d w →
      Reach d.edges v w ∨ Reach d.edges w v)
    {ord : List Nat} (ht : TopoOrder g.nodes.length g.edges ord) {G : Nat → Gen n} {M : Nat → Mono n}
    (hG : ∀ v, GateAt d v → g.rev v = none → ∀ (q : Fin n) t, (G v).ty q = some t ↔ TN d.nodes v q t)
    (hM : ∀ v, GateAt d v → (g.rev v).isSome → ∀ (q : Fin n) t, (M v).ty q = some t ↔ TN d.nodes v q t) :
    OrderOK G M (fun q => q.val ∈ U) (ord.filterMap (tagOf d g)) := by
  have hno : ord.Nodup := ht.perm.nodup_iff.2 List.nodup_range
  have hmem : ∀ v, v ∈ ord ↔ v < g.nodes.length := fun v => by rw [ht.perm.mem_iff, List.mem_range]
  have hL := h.lt
  have hW : ∀ {t : Tag}, t ∈ ord.filterMap (tagOf d g) ↔ ∃ x ∈ ord, tagOf d g x = some t := List.mem_filterMap
  have hnW : (ord.filterMap (tagOf d g)).Nodup := by
    refine hno.filterMap ?_
    intro x y t h1 h2
    exact tag_inj h x y t h1 h2
  have hfwd : ∀ {v}, Tag.fwd v ∈ ord.filterMap (tagOf d g) ↔ GateAt d v ∧ (g.rev v).isSome := by
    intro v
    rw [hW]
    constructor
    · rintro ⟨x, _, hx⟩
      exact (tag_fwd.1 hx).2
    · intro hv
      exact ⟨v, (hmem v).2 (by have := hv.1.lt; omega), tag_fwd.2 ⟨rfl, hv⟩⟩
  have hbwd : ∀ {v}, Tag.bwd v ∈ ord.filterMap (tagOf d g) ↔ GateAt d v ∧ (g.rev v).isSome := by
    intro v
    rw [hW]
    constructor
    · rintro ⟨x, _, hx⟩
      have := (tag_bwd h).1 hx
      exact ⟨this.2, by rw [this.1]; rfl⟩
    · rintro ⟨h1, h2⟩
      obtain ⟨x, hx⟩ := Option.isSome_iff_exists.1 h2
      obtain ⟨_, _, k, i, _, _, h5⟩ := h.rev_ok v x hx
      exact ⟨x, (hmem x).2 (List.getElem?_eq_some_iff.1 h5).1, (tag_bwd h).2 ⟨hx, h1⟩⟩
  -- paths in the graph are orders of the steps
  have hpath : ∀ {x y a b}, Reach g.edges x y → tagOf d g x = some a → tagOf d g y = some b → x ≠ y →
      [a, b].Sublist (ord.filterMap (tagOf d g)) := by
    intro x y a b hr hx hy hne
    rcases ht.reach hr with e | e
    · exact absurd e hne
    · exact pair_step e hx hy
  have hTM : ∀ {v}, GateAt d v → (g.rev v).isSome → ∀ q : Fin n, isTarget ((M v).ty q) → Tgt d v q := by
    rintro v h1 h2 q (h3 | h3)
    · exact ⟨.x, by simp, (hM v h1 h2 q _).1 h3⟩
    · exact ⟨.neutral, by simp, (hM v h1 h2 q _).1 h3⟩
  have hTG : ∀ {v}, GateAt d v → g.rev v = none → ∀ q : Fin n, isTarget ((G v).ty q) → Tgt d v q := by
    rintro v h1 h2 q (h3 | h3)
    · exact ⟨.x, by simp, (hG v h1 h2 q _).1 h3⟩
    · exact ⟨.neutral, by simp, (hG v h1 h2 q _).1 h3⟩
  have hnew : ∀ {v x}, g.rev v = some x → d.nodes.length ≤ x := fun e => (h.rev_ok _ _ e).2.1
  -- a step of the circuit
  have horig : ∀ {x : Tag}, x ∈ ord.filterMap (tagOf d g) → (∀ w, x ≠ .bwd w) → ∃ w, tagOf d g w = some x ∧
      w < d.nodes.length ∧ (∀ q : Fin n, ∀ t, x.ty G M q = some t → TN d.nodes w q t) ∧
      ∀ q : Fin n, isTarget (x.ty G M q) → Tgt d w q := by
    intro x hx hnb
    obtain ⟨w, _, hw⟩ := hW.1 hx
    cases x with
    | bwd v => exact absurd rfl (hnb v)
    | oth v =>
      obtain ⟨rfl, h1, h2⟩ := tag_oth.1 hw
      exact ⟨w, hw, h1.lt, fun q t => (hG w h1 h2 q t).1, fun q => hTG h1 h2 q⟩
    | fwd v =>
      obtain ⟨rfl, h1, h2⟩ := tag_fwd.1 hw
      exact ⟨w, hw, h1.lt, fun q t => (hM w h1 h2 q t).1, fun q => hTM h1 h2 q⟩
  -- in the order of the circuit
  have hchain : ∀ {v m : Nat} {q : Nat} {t : PT}, GateAt d v → GateAt d m → (g.rev v).isSome → (g.rev m).isSome →
      TN d.nodes v q t → Tgt d m q → Reach d.edges m v → m ≠ v →
      [Tag.bwd v, Tag.bwd m].Sublist (ord.filterMap (tagOf d g)) := by
    intro v m q t gv gm rv rm hv hm hr hne
    obtain ⟨x, hx⟩ := Option.isSome_iff_exists.1 rv
    obtain ⟨y, hy⟩ := Option.isSome_iff_exists.1 rm
    refine hpath (h.chn v m x y q t hx hy hv hm ?_) ((tag_bwd h).2 ⟨hx, gv⟩) ((tag_bwd h).2 ⟨hy, gm⟩) ?_
    · exact (hd m v hr).resolve_left hne
    · rintro rfl
      exact hne (h.inj m v x hy hx)
  refine ⟨hnW, ?_, ?_, ?_, ?_, ?_, ?_, ?_⟩
  · intro v hv
    obtain ⟨h1, h2⟩ := hfwd.1 hv
    obtain ⟨x, hx⟩ := Option.isSome_iff_exists.1 h2
    obtain ⟨q, hq⟩ := h.tex v h2
    obtain ⟨t, _, ht'⟩ := id hq
    refine hpath (h.last v x v q t hx hq ht') (tag_fwd.2 ⟨rfl, h1, h2⟩) ((tag_bwd h).2 ⟨hx, h1⟩) ?_
    have := h1.lt
    have := hnew hx
    omega
  · intro v hv
    exact hfwd.2 (hbwd.1 hv)
  · intro v q hv hq hc
    obtain ⟨x, _, hx⟩ := hW.1 hv
    obtain ⟨rfl, h1, h2⟩ := tag_oth.1 hx
    have := h.unc x q (hdone x h1.lt) (hTG h1 h2 q hc) hq
    rw [h2] at this
    cases this
  · intro v q hv hq
    obtain ⟨h1, h2⟩ := hfwd.1 hv
    exact h.tin v q h2 (hTM h1 h2 q hq)
  · intro v q x hv hq hx hnb hxq
    obtain ⟨h1, h2⟩ := hbwd.1 hv
    obtain ⟨y, hy⟩ := Option.isSome_iff_exists.1 h2
    obtain ⟨w, hw1, hw2, hw3, _⟩ := horig hx hnb
    obtain ⟨t, ht'⟩ := Option.ne_none_iff_exists'.1 hxq
    refine hpath (h.last v y w q t hy (hTM h1 h2 q hq) (hw3 q t ht')) hw1 ((tag_bwd h).2 ⟨hy, h1⟩) ?_
    have := hnew hy
    omega
  · intro v m q hv hm hvq hmq
    obtain ⟨v1, v2⟩ := hfwd.1 hv
    obtain ⟨m1, m2⟩ := hfwd.1 hm
    have tv := (hM v v1 v2 q _).1 hvq
    have tm := hTM m1 m2 q hmq
    have tv' : Tgt d v q := ⟨.neutral, by simp, tv⟩
    obtain ⟨u, _, tm'⟩ := id tm
    have fv : tagOf d g v = some (.fwd v) := tag_fwd.2 ⟨rfl, v1, v2⟩
    have fm : tagOf d g m = some (.fwd m) := tag_fwd.2 ⟨rfl, m1, m2⟩
    have hne : ∀ {a b : Nat}, [Tag.fwd a, Tag.fwd b].Sublist (ord.filterMap (tagOf d g)) → a ≠ b := by
      rintro a b hs rfl
      exact pair_asymm hnW hs hs
    have hle := h.chain.le
    constructor
    · intro hs
      have hmv := hne hs
      refine hchain v1 m1 v2 m2 tv tm ?_ hmv
      rcases hdep v m q tv tm v1 m1 with hr | hr
      · exact absurd hs fun hs => pair_asymm hnW hs (hpath (hle.reach hr) fv fm hmv.symm)
      · exact hr
    · intro hs
      have hvm := hne hs
      refine hchain m1 v1 m2 v2 tm' tv' ?_ hvm
      rcases hdep v m q tv tm v1 m1 with hr | hr
      · exact hr
      · exact absurd hs fun hs => pair_asymm hnW hs (hpath (hle.reach hr) fm fv hvm.symm)
  · rintro v c x hv hvc hx hxc ⟨s1, s2⟩
    obtain ⟨v1, v2⟩ := hfwd.1 hv
    have tv := (hM v v1 v2 c _).1 hvc
    obtain ⟨y, hy⟩ := Option.isSome_iff_exists.1 v2
    have by_ := (tag_bwd h).2 ⟨hy, v1⟩
    have fv : tagOf d g v = some (.fwd v) := tag_fwd.2 ⟨rfl, v1, v2⟩
    have hvy := hnew hy
    have hvl := v1.lt
    by_cases hb' : ∃ m, x = .bwd m
    · obtain ⟨m, rfl⟩ := hb'
      obtain ⟨m1, m2⟩ := hbwd.1 hx
      have tm := hTM m1 m2 c hxc
      obtain ⟨z, hz⟩ := Option.isSome_iff_exists.1 m2
      have bz := (tag_bwd h).2 ⟨hz, m1⟩
      have hvm : v ≠ m := by
        rintro rfl
        exact pair_asymm hnW s2 s2
      have hyz : y ≠ z := by
        rintro rfl
        exact hvm (h.inj v m y hy hz)
      refine pair_asymm hnW s2 (hpath ?_ by_ bz hyz)
      rcases pair_or (hdone v hvl) (hdone m m1.lt) hvm with hs | hs
      · exact h.chn v m y z c .z hy hz tv tm hs
      · obtain ⟨u, _, tm'⟩ := id tm
        rcases h.ctl v y c m hy tv tm with hr | hr
        · exfalso
          refine pair_asymm hnd_ hs ((hd m v hr).resolve_left hvm.symm)
        · exact hr.trans (h.last m z m c u hz tm tm')
    · obtain ⟨w, hw1, hw2, _, hw4⟩ := horig hx (fun m e => hb' ⟨m, e⟩)
      have tw := hw4 c hxc
      rcases h.ctl v y c w hy tv tw with hr | hr
      · by_cases hwv : w = v
        · subst hwv
          obtain ⟨u, hu, tw⟩ := tw
          exact hu (hb.one w c u .z tw tv)
        · exact pair_asymm hnW s1 (hpath (h.chain.le.reach hr) hw1 fv hwv)
      · exact pair_asymm hnW s2 (hpath hr by_ hw1 (by omega))

end Verif.Comp
