import Verif.Comp.UnqompOrder

/-!
Automatic uncomputation of whole circuits.
-/

namespace Verif.Comp

open Finset

variable {L : Type} {n : Nat} {P : UPar L} {U : List Nat} {d : Dag L}

/-! ### Allocations -/

/-- An allocation is the first instruction on its qubits. -/
def AllocFirst (data : List (Instr L)) : Prop :=
  data.Pairwise fun j i => i.kind = .alloc → ∀ q ∈ i.qubits, q ∉ j.qubits

theorem connect_grow (d : Dag L) (m q : Nat) (t : PT) :
    (∃ l, (connect d m q t).nodes = d.nodes ++ l ∧ ∀ k ∈ l, ∃ p, k = NK.term p) ∧
    (∀ p, (d.recent p).isSome → ((connect d m q t).recent p).isSome) ∧
    ∀ p, ((connect d m q t).recent p).isSome → (d.recent p).isSome ∨ p = q := by
  unfold connect
  split
  · exact ⟨⟨[], by simp, by simp⟩, fun p h => h, fun p h => .inl h⟩
  · dsimp only
    generalize members d.edges (d.last q) q = ms
    have hup : ∀ (x : Nat) p, ((upd d.recent q (some x)) p).isSome → (d.recent p).isSome ∨ p = q := by
      intro x p h
      by_cases hp : p = q
      · exact .inr hp
      · left; simpa [upd, hp] using h
    have hup' : ∀ (x : Nat) p, (d.recent p).isSome → ((upd d.recent q (some x)) p).isSome := by
      intro x p h
      by_cases hp : p = q
      · simp [upd, hp]
      · simpa [upd, hp] using h
    match ms with
    | [] => exact ⟨⟨[], by simp [reseat], by simp⟩, fun p h => h, fun p h => .inl h⟩
    | [a] => exact ⟨⟨[], by simp [reseat], by simp⟩, hup' a, hup a⟩
    | a :: b :: r => exact ⟨⟨[.term q], rfl, by simp⟩, hup' _, hup _⟩

theorem connectAll_grow {m : Nat} (l : List (Nat × Option PT)) : ∀ {d d' : Dag L}, connectAll d m l = some d' →
    (∃ l', d'.nodes = d.nodes ++ l' ∧ ∀ k ∈ l', ∃ p, k = NK.term p) ∧
    (∀ p, (d.recent p).isSome → (d'.recent p).isSome) ∧
    ∀ p, (d'.recent p).isSome → (d.recent p).isSome ∨ p ∈ l.map Prod.fst := by
  induction l with
  | nil =>
    intro d d' h
    simp only [connectAll, Option.some.injEq] at h
    subst h
    exact ⟨⟨[], by simp, by simp⟩, fun p h => h, fun p h => .inl h⟩
  | cons x l ih =>
    obtain ⟨q, t⟩ := x
    cases t with
    | none => intro d d' h; simp [connectAll] at h
    | some t =>
      intro d d' h
      simp only [connectAll] at h
      obtain ⟨⟨l1, e1, h1⟩, h2, h3⟩ := connect_grow d m q t
      obtain ⟨⟨l2, e2, h4⟩, h5, h6⟩ := ih h
      refine ⟨⟨l1 ++ l2, by rw [e2, e1, List.append_assoc], ?_⟩, fun p hp => h5 p (h2 p hp), ?_⟩
      · intro k hk
        rcases List.mem_append.1 hk with hk | hk
        · exact h1 k hk
        · exact h4 k hk
      · intro p hp
        rcases h6 p hp with hp | hp
        · rcases h3 p hp with hp | hp
          · exact .inl hp
          · exact .inr (by simp [hp])
        · exact .inr (by simp [hp])

/-- Allocation nodes while the graph is built. -/
structure AInv (d : Dag L) (seen : List (Instr L)) : Prop where
  used : ∀ q, (d.recent q).isSome → ∃ j ∈ seen, q ∈ j.qubits
  op : ∀ (v : Nat) i, d.nodes[v]? = some (NK.op i) → i.kind ≠ .alloc
  has : ∀ (v : Nat) q o, d.nodes[v]? = some (NK.alloc q o) → (d.recent q).isSome
  uniq : ∀ (v w : Nat) q o o', d.nodes[v]? = some (NK.alloc q o) → d.nodes[w]? = some (NK.alloc q o') → v = w

theorem getElem?_snoc {α : Type} {l : List α} {a x : α} {v : Nat} :
    (l ++ [a])[v]? = some x ↔ l[v]? = some x ∨ (v = l.length ∧ x = a) := by
  by_cases h : v < l.length
  · rw [List.getElem?_append_left h]
    constructor
    · exact .inl
    · rintro (h1 | ⟨h1, _⟩)
      · exact h1
      · omega
  · rw [List.getElem?_append_right (by omega)]
    have e : l[v]? = none := by simp; omega
    rw [e]
    by_cases h2 : v = l.length
    · subst h2; simp [eq_comm]
    · have : v - l.length ≠ 0 := by omega
      obtain ⟨k, hk⟩ : ∃ k, v - l.length = k + 1 := ⟨v - l.length - 1, by omega⟩
      rw [hk]
      simp [h2]

theorem AInv.alloc {seen : List (Instr L)} {ins : Instr L} {q : Nat} (h : AInv d seen) (hi : ins ∈ seen)
    (hq : q ∈ ins.qubits) : AInv (allocStep ins d q) seen ∧ ((allocStep ins d q).recent q).isSome := by
  unfold allocStep
  by_cases hr : (d.recent q).isSome
  · rw [if_pos hr]; exact ⟨h, hr⟩
  · rw [if_neg hr]
    refine ⟨⟨?_, ?_, ?_, ?_⟩, by simp [upd]⟩
    · intro p hp
      by_cases e : p = q
      · subst e; exact ⟨ins, hi, hq⟩
      · exact h.used p (by simpa [upd, e] using hp)
    · intro v i e
      rcases getElem?_snoc.1 e with e | ⟨_, e⟩
      · exact h.op v i e
      · cases e
    · intro v p o e
      dsimp only
      rcases getElem?_snoc.1 e with e | ⟨_, e⟩
      · have := h.has v p o e
        by_cases e' : p = q
        · simp [upd, e']
        · simpa [upd, e'] using this
      · injection e with e
        simp [upd, e]
    · intro v w p o o' e1 e2
      rcases getElem?_snoc.1 e1 with e1 | ⟨h1, e1⟩ <;> rcases getElem?_snoc.1 e2 with e2 | ⟨h2, e2⟩
      · exact h.uniq v w p o o' e1 e2
      · injection e2 with e2
        exact absurd (e2 ▸ h.has v p o e1) hr
      · injection e1 with e1
        exact absurd (e1 ▸ h.has w p o' e2) hr
      · rw [h1, h2]

theorem AInv.allocs {seen : List (Instr L)} {ins : Instr L} (hi : ins ∈ seen) (l : List Nat) :
    ∀ {d : Dag L}, AInv d seen → (∀ q ∈ l, q ∈ ins.qubits) → AInv (l.foldl (allocStep ins) d) seen := by
  induction l with
  | nil => intro d h _; exact h
  | cons q l ih =>
    intro d h hq
    exact ih (h.alloc hi (hq q (by simp))).1 fun p hp => hq p (by simp [hp])

theorem AInv.mono {seen seen' : List (Instr L)} (h : AInv d seen) (hs : ∀ j ∈ seen, j ∈ seen') : AInv d seen' :=
  ⟨fun q hq => by
    obtain ⟨j, h1, h2⟩ := h.used q hq
    exact ⟨j, hs j h1, h2⟩, h.op, h.has, h.uniq⟩

theorem connectC_grow (m : Nat) (l : List Nat) : ∀ d : Dag L,
    (l.foldl (connectC m) d).nodes = d.nodes ∧ (l.foldl (connectC m) d).recent = d.recent := by
  induction l with
  | nil => intro d; exact ⟨rfl, rfl⟩
  | cons c l ih => intro d; exact ⟨(ih _).1, (ih _).2⟩

theorem AInv.step {seen : List (Instr L)} {ins : Instr L} {d' : Dag L} (h : AInv d seen) (ho : InsOK ins)
    (hf : ins.kind = .alloc → ∀ j ∈ seen, ∀ q ∈ ins.qubits, q ∉ j.qubits) (e : dagStep d ins = some d') :
    AInv d' (seen ++ [ins]) := by
  have h0 : AInv d (seen ++ [ins]) := h.mono fun j hj => by simp [hj]
  have hi : ins ∈ seen ++ [ins] := by simp
  unfold dagStep at e
  simp only at e
  by_cases hk : ins.kind = .alloc
  · obtain ⟨⟨q, hq⟩, _, _⟩ := ho.alloc hk
    have hr : ¬ (d.recent q).isSome := by
      intro hr
      obtain ⟨j, h1, h2⟩ := h.used q hr
      exact hf hk j h1 q (by rw [hq]; simp) h2
    have hfold : ins.qubits.foldl (allocStep ins) d = allocStep ins d q := by rw [hq]; rfl
    have hfr : (ins.qubits.getLast?.map (allocStep ins d q).fresh).getD false = true := by
      rw [hq]
      simp [allocStep, hr, upd]
    rw [hfold, if_pos ⟨hk, hfr⟩, Option.some.injEq] at e
    subst e
    exact (h0.alloc hi (by rw [hq]; simp)).1
  · rw [if_neg fun hc => hk hc.1] at e
    obtain ⟨d2, e2, rfl⟩ := Option.map_eq_some_iff.1 e
    have h1 := AInv.allocs hi ins.qubits h0 fun _ hq => hq
    generalize ins.qubits.foldl (allocStep ins) d = d1 at *
    obtain ⟨⟨l, e3, h3⟩, h4, h5⟩ := connectAll_grow _ e2
    obtain ⟨c1, c2⟩ := connectC_grow d1.nodes.length ins.clbits d2
    dsimp only at e3 h4 h5
    have hn : ∀ (v : Nat) k, d2.nodes[v]? = some k → d1.nodes[v]? = some k ∨ k = .op ins ∨ ∃ p, k = NK.term p := by
      intro v k e
      rw [e3, List.append_assoc] at e
      by_cases hv : v < d1.nodes.length
      · rw [List.getElem?_append_left hv] at e; exact .inl e
      · rw [List.getElem?_append_right (by omega)] at e
        rcases List.mem_append.1 (List.mem_of_getElem? e) with h | h
        · exact .inr (.inl (List.mem_singleton.1 h))
        · exact .inr (.inr (h3 k h))
    refine ⟨?_, ?_, ?_, ?_⟩
    · intro q hq
      rw [c2] at hq
      rcases h5 q hq with hq | hq
      · exact h1.used q hq
      · exact ⟨ins, hi, by rw [qperm_fst] at hq; exact hq⟩
    · intro v i e
      rw [c1] at e
      rcases hn v _ e with e | e | ⟨p, e⟩
      · exact h1.op v i e
      · injection e with e; rw [e]; exact hk
      · cases e
    · intro v q o e
      rw [c1] at e
      rw [c2]
      rcases hn v _ e with e | e | ⟨p, e⟩
      · exact h4 q (h1.has v q o e)
      · cases e
      · cases e
    · intro v w q o o' e e'
      rw [c1] at e e'
      rcases hn v _ e with e | e | ⟨p, e⟩
      · rcases hn w _ e' with e' | e' | ⟨p, e'⟩
        · exact h1.uniq v w q o o' e e'
        · cases e'
        · cases e'
      · cases e
      · cases e

theorem AInv.fold {data : List (Instr L)} : ∀ {d0 d : Dag L} {seen : List (Instr L)}, AInv d0 seen →
    (∀ i ∈ data, InsOK i) → AllocFirst (seen ++ data) → data.foldlM dagStep d0 = some d → AInv d (seen ++ data) := by
  induction data with
  | nil =>
    intro d0 d seen h _ _ e
    simp only [List.foldlM_nil, Option.pure_def, Option.some.injEq] at e
    subst e
    simpa using h
  | cons ins data ih =>
    intro d0 d seen h ho ha e
    rw [List.foldlM_cons] at e
    obtain ⟨d1, e1, e2⟩ := Option.bind_eq_some_iff.1 e
    have ha' : AllocFirst ((seen ++ [ins]) ++ data) := by simpa using ha
    have h1 := h.step (ho ins (by simp)) (by
      intro hk j hj
      unfold AllocFirst at ha
      rw [List.pairwise_append] at ha
      exact ha.2.2 j hj ins (by simp) hk) e1
    have := ih h1 (fun i hi => ho i (by simp [hi])) ha' e2
    simpa using this

theorem Made.oneAlloc {data : List (Instr L)} (h : Made d data) (ha : AllocFirst data) : OneAlloc d := by
  have hi := AInv.fold (d0 := Dag.empty) (seen := []) (data := data)
    ⟨by simp [Dag.empty], by simp [Dag.empty], by simp [Dag.empty], by simp [Dag.empty]⟩ h.ok (by simpa using ha) h.eq
  intro v w k l q hk hl h1 h2
  cases k with
  | term p => simp [NK.allocQ] at h1
  | op i => simp [NK.allocQ, hi.op v i hk] at h1
  | alloc p o =>
    cases l with
    | term p => simp [NK.allocQ] at h2
    | op i => simp [NK.allocQ, hi.op w i hl] at h2
    | alloc p' o' =>
      simp only [NK.allocQ, Option.some.injEq] at h1 h2
      subst h1 h2
      exact hi.uniq v w p' o o' hk hl

/-! ### The part of the circuit between the first and the last use -/

/-- The gate changes a qubit that is to be uncomputed. -/
def Hits (U : List Nat) (i : Instr L) : Prop := ∃ q ∈ U, ∃ t, t ≠ PT.z ∧ i.typeOn q t

/-- What is required of the gates of a circuit. -/
structure Gates (mat plain : L → Op n) (P : UPar L) (U : List Nat) (data : List (Instr L)) : Prop where
  lab : ∀ i ∈ data, i.kind = .gate → Labelled mat i
  labP : ∀ i ∈ data, i.kind = .gate → Labelled plain i
  unc : ∀ i ∈ data, i.kind = .gate → Hits U i → Uncomp mat plain P.inv P.pt i
  same : ∀ i ∈ data, i.kind = .gate → ¬ Hits U i → plain i.label = mat i.label

theorem pair_done {lin : List Nat} (ht : TopoOrder d.nodes.length d.edges lin) (v w : Nat) (hr : Reach d.edges v w) :
    v = w ∨ [w, v].Sublist lin.reverse := by
  rcases ht.reach hr with h | h
  · exact .inl h
  · right
    have := List.reverse_sublist.2 h
    simpa using this

theorem mid_run {mat plain : L → Op n} {data : List (Instr L)} (hm : Made d data) (hx : NoMix d) (ha : AllocFirst data)
    (hA : ∀ v l a, a ∈ l → a ∈ P.aord v l) (hg : Gates mat plain P U data) {lin : List Nat}
    (ht : TopoOrder d.nodes.length d.edges lin) {g : UG L}
    (hu : uncomputeAll P U lin.reverse (UG.start d) = .ok g) {ord : List Nat}
    (hto : TopoOrder g.nodes.length g.edges ord) (init : BS n) (ψ : BS n → ℂ)
    (hψ : ∀ s, ψ s ≠ 0 → ∀ q : Fin n, q.val ∈ U → s q = init q) :
    matRun mat (g.emit P ord) ψ = cleaned (fun q => q.val ∈ U) init (matRun plain data ψ) := by
  have hb := hm.base hx
  have hgi := (dagOf_spec empty_ginv hm.ok hm.eq).1
  have h := uncomputeAll_ui hb (hm.oneAlloc ha) hA ht lin.reverse [] _ g (by simp) (UI.start P U hb) hu
  have hnl : lin.Nodup := ht.perm.nodup_iff.2 List.nodup_range
  have hdone : ∀ v, v < d.nodes.length → v ∈ lin.reverse := by
    intro v hv
    rw [List.mem_reverse, ht.perm.mem_iff, List.mem_range]
    exact hv
  have hin : ∀ (v : Nat) i, d.nodes[v]? = some (NK.op i) → i ∈ data := by
    intro v i hv
    exact hm.kept.1.subset (List.mem_filterMap.2 ⟨_, List.mem_of_getElem? hv, rfl⟩)
  have hTN : ∀ (v : Nat) i, d.nodes[v]? = some (NK.op i) → ∀ q t, TN d.nodes v q t ↔ i.typeOn q t := by
    intro v i hv q t
    constructor
    · rintro ⟨k, hk, h1⟩
      rw [hv] at hk
      obtain rfl := Option.some.inj hk
      exact h1
    · intro h1
      exact ⟨_, hv, h1⟩
  have hU : ∀ (v : Nat) i, d.nodes[v]? = some (NK.op i) → i.kind = .gate → ((g.rev v).isSome ↔ Hits U i) := by
    intro v i hv hk
    constructor
    · intro hr
      obtain ⟨q, hq⟩ := h.tex v hr
      have := h.tin v q hr hq
      obtain ⟨t, h1, h2⟩ := hq
      exact ⟨q, this, t, h1, (hTN v i hv q t).1 h2⟩
    · rintro ⟨q, hq, t, h1, h2⟩
      exact h.unc v q (hdone v (List.getElem?_eq_some_iff.1 hv).1) ⟨t, h1, (hTN v i hv q t).2 h2⟩ hq
  -- the gates
  have eG : ∀ v : Nat, ∃ G : Gen n, ∀ i, d.nodes[v]? = some (NK.op i) → i.kind = .gate →
      G.mat = mat i.label ∧ ∀ q : Fin n, G.ty q = i.typeAt q := by
    intro v
    by_cases hv : ∃ i, d.nodes[v]? = some (NK.op i) ∧ i.kind = .gate
    · obtain ⟨i, hv, hk⟩ := hv
      obtain ⟨G, hG⟩ := exists_gen (hg.lab i (hin v i hv) hk) (hm.ok i (hin v i hv)).nodup
      refine ⟨G, ?_⟩
      intro j hj _
      rw [hv] at hj
      injection hj with hj
      injection hj with hj
      subst hj
      exact hG
    · refine ⟨⟨fun _ => none, 1, ?_, fun b c f _ => ?_⟩, fun i h1 h2 => absurd ⟨i, h1, h2⟩ hv⟩
      · intro b c q _ hne
        rw [Matrix.one_apply] at hne
        by_contra hc
        exact hne (if_neg fun e => hc (by rw [e]))
      · rw [Matrix.one_apply, Matrix.one_apply]
        congr 1
        rw [eq_iff_iff]
        constructor
        · intro e
          rw [← bx_bx b f, e, bx_bx]
        · rintro rfl; rfl
  have eM : ∀ v : Nat, ∃ M : Mono n, ∀ i, d.nodes[v]? = some (NK.op i) → i.kind = .gate → (g.rev v).isSome →
      (∀ q : Fin n, M.ty q = i.typeAt q) ∧
      (∀ c b, mat (P.pt i.label) c b = if c = M.perm b then M.phase b else 0) ∧
      (∀ c b, plain i.label c b = if c = M.perm b then 1 else 0) ∧
      ∀ c b, mat (P.inv (P.pt i.label)) c b = if c = M.perm.symm b then (M.phase (M.perm.symm b))⁻¹ else 0 := by
    intro v
    by_cases hv : ∃ i, d.nodes[v]? = some (NK.op i) ∧ i.kind = .gate ∧ (g.rev v).isSome
    · obtain ⟨i, hv, hk, hr⟩ := hv
      obtain ⟨M, hM⟩ := exists_mono (hg.unc i (hin v i hv) hk ((hU v i hv hk).1 hr)) (hm.ok i (hin v i hv)).nodup
      refine ⟨M, ?_⟩
      intro j hj _ _
      rw [hv] at hj
      injection hj with hj
      injection hj with hj
      subst hj
      exact hM
    · exact ⟨⟨fun _ => none, Equiv.refl _, fun _ => 1, by simp, by simp, by simp⟩,
        fun i h1 h2 h3 => absurd ⟨i, h1, h2, h3⟩ hv⟩
  choose G hG using eG
  choose M hM using eM
  have hW : OrderOK G M (fun q => q.val ∈ U) (ord.filterMap (tagOf d g)) := by
    refine order_ok hb h (List.nodup_reverse.2 hnl) hdone (pair_done ht) ?_ hto ?_ ?_
    · intro v w q hv hw gv gw
      obtain ⟨i, hi, _⟩ := gv
      obtain ⟨j, hj, _⟩ := gw
      obtain ⟨t, _, hwt⟩ := hw
      have h1 := (hTN v i hi q _).1 hv
      have h2 := (hTN w j hj q t).1 hwt
      rcases Nat.lt_trichotomy v w with hlt | rfl | hlt
      · exact .inl (hgi.dep v w _ _ i j hlt hi hj rfl rfl fun hc => (hc.1 q _ _ h1 h2).2 rfl)
      · exact .inl .refl
      · refine .inr (hgi.dep w v _ _ j i hlt hj hi rfl rfl fun hc => ?_)
        have := hc.1 q _ _ h2 h1
        exact this.2 this.1
    · rintro v ⟨i, hi, hk⟩ _ q t
      rw [(hG v i hi hk).2, typeAt_iff (hm.ok i (hin v i hi)).nodup, hTN v i hi]
    · rintro v ⟨i, hi, hk⟩ hr q t
      rw [(hM v i hi hk hr).1, typeAt_iff (hm.ok i (hin v i hi)).nodup, hTN v i hi]
  have hrn : ∀ x, d.nodes.length ≤ x → g.rev x = none := by
    intro x hx
    cases e : g.rev x with
    | none => rfl
    | some y =>
      obtain ⟨_, _, k, _, hk, _⟩ := h.rev_ok x y e
      have := (List.getElem?_eq_some_iff.1 hk).1
      omega
  have hng : ∀ x, ¬ GateAt d x → x < d.nodes.length → tagOf d g x = none := by
    intro x h1 h2
    unfold tagOf
    rw [if_pos h2, if_neg h1]
  -- the written circuit
  have e1 : ∀ b, matRun mat (g.emit P ord) ψ b = ∑ s, ψ s * amp G M (ord.filterMap (tagOf d g)) s b := by
    intro b
    unfold UG.emit
    refine run_amp G M _ _ ord ?_ ψ b
    intro x hx
    have hxl : x < g.nodes.length := by rw [hto.perm.mem_iff, List.mem_range] at hx; exact hx
    by_cases hxN : x < d.nodes.length
    · rw [h.node hxN]
      by_cases hga : GateAt d x
      · obtain ⟨i, hi, hk⟩ := id hga
        left
        rw [hi]
        by_cases hr : (g.rev x).isSome
        · refine ⟨i.replaced P.pt, .fwd x, by simp [NK.ins, hr], ?_, tag_fwd.2 ⟨rfl, hga, hr⟩, ?_⟩
          · simp [Instr.replaced, hk]
          · have : (i.replaced P.pt).label = P.pt i.label := by simp [Instr.replaced, hk]
            rw [this]
            funext c b
            exact (hM x i hi hk hr).2.1 c b
        · have hr' : g.rev x = none := by simpa using hr
          exact ⟨i, .oth x, by simp [NK.ins, hr'], hk, tag_oth.2 ⟨rfl, hga, hr'⟩, (hG x i hi hk).1.symm⟩
      · right
        refine ⟨hng x hga hxN, ?_⟩
        intro i hi
        obtain ⟨k, hk, hk2⟩ := Option.map_eq_some_iff.1 hi
        obtain ⟨k', hk', hk3⟩ := Option.bind_eq_some_iff.1 hk
        have hkk : k.kind ≠ .gate := by
          cases k' with
          | term p => cases hk3
          | op j =>
            simp only [NK.ins, Option.some.injEq] at hk3
            subst hk3
            exact fun hc => hga ⟨_, hk', hc⟩
          | alloc p o =>
            simp only [NK.ins] at hk3
            subst hk3
            have := hgi.ok _ (List.mem_of_getElem? hk')
            rw [this.1]
            decide
        have : i.kind = k.kind := by
          rw [← hk2]
          split
          · unfold Instr.replaced; split <;> rfl
          · rfl
        rw [this]
        exact hkk
    · rw [hrn x (by omega)]
      obtain ⟨k, hk⟩ : ∃ k, g.nodes[x]? = some k := ⟨_, List.getElem?_eq_getElem hxl⟩
      rw [hk]
      rcases h.new x k (by omega) hk with ⟨p, rfl⟩ | ⟨v, hv⟩
      · right
        refine ⟨?_, by simp [NK.ins]⟩
        unfold tagOf
        rw [if_neg hxN, dif_neg]
        rintro ⟨v, hv, _⟩
        obtain ⟨_, _, _, _, _, _, h5⟩ := h.rev_ok v x hv
        rw [hk] at h5
        cases h5
      · obtain ⟨_, _, k', i, h3, h4, h5⟩ := h.rev_ok v x hv
        rw [hk] at h5
        obtain rfl := Option.some.inj h5
        by_cases hga : GateAt d v
        · obtain ⟨j, hj, hjk⟩ := id hga
          rw [h3] at hj
          obtain rfl := Option.some.inj hj
          simp only [uInstr, Option.some.injEq] at h4
          have hi : i.label = P.inv (P.pt j.label) ∧ i.kind = .gate := by
            rw [← h4]
            simp [Instr.replaced, Instr.inverse, hjk]
          left
          refine ⟨i, .bwd v, by simp [NK.ins], hi.2, (tag_bwd h).2 ⟨hv, hga⟩, ?_⟩
          rw [hi.1]
          funext c b
          exact (hM v j h3 hjk (by rw [hv]; rfl)).2.2.2 c b
        · right
          refine ⟨?_, ?_⟩
          · unfold tagOf
            rw [if_neg hxN, dif_neg]
            rintro ⟨w, hw, hgw⟩
            exact hga (h.inj w v x hw hv ▸ hgw)
          · intro i' hi'
            simp only [NK.ins, Option.bind_some, Option.map_some, Option.isSome_none, Bool.false_eq_true, if_false,
              Option.some.injEq] at hi'
            subst hi'
            cases k' with
            | term p => cases h4
            | alloc p o =>
              simp only [uInstr, Option.some.injEq] at h4
              rw [← h4]
              simp
            | op j =>
              have hjk : j.kind ≠ .gate := fun hc => hga ⟨j, h3, hc⟩
              simp only [uInstr, Option.some.injEq] at h4
              rw [← h4]
              simp only [Instr.replaced, if_neg hjk, Instr.inverse]
              split
              · simp
              · simp
              · exact hjk
  -- the original circuit
  have e2 : ∀ b, matRun plain (emit d.nodes ord) ψ b = ∑ s, ψ s * ampO G M (ord.filterMap (tagOf d g)) s b := by
    intro b
    unfold emit
    refine run_ampO G M _ _ ord ?_ ψ b
    intro x hx
    by_cases hxN : x < d.nodes.length
    · by_cases hga : GateAt d x
      · obtain ⟨i, hi, hk⟩ := id hga
        by_cases hr : (g.rev x).isSome
        · right; left
          exact ⟨i, x, by rw [hi]; rfl, hk, tag_fwd.2 ⟨rfl, hga, hr⟩, (hM x i hi hk hr).2.2.1⟩
        · left
          refine ⟨i, x, by rw [hi]; rfl, hk, tag_oth.2 ⟨rfl, hga, by simpa using hr⟩, ?_⟩
          rw [(hG x i hi hk).1]
          exact hg.same i (hin x i hi) hk fun hc => hr ((hU x i hi hk).2 hc)
      · right; right
        refine ⟨.inl (hng x hga hxN), ?_⟩
        intro i hi
        obtain ⟨k', hk', hk3⟩ := Option.bind_eq_some_iff.1 hi
        cases k' with
        | term p => cases hk3
        | op j =>
          simp only [NK.ins, Option.some.injEq] at hk3
          subst hk3
          exact fun hc => hga ⟨_, hk', hc⟩
        | alloc p o =>
          simp only [NK.ins] at hk3
          subst hk3
          have := hgi.ok _ (List.mem_of_getElem? hk')
          rw [this.1]
          decide
    · right; right
      refine ⟨?_, ?_⟩
      · cases e : tagOf d g x with
        | none => exact .inl rfl
        | some t =>
          cases t with
          | oth v => exact absurd (tag_oth.1 e).2.1.lt (by have := (tag_oth.1 e).1; omega)
          | fwd v => exact absurd (tag_fwd.1 e).2.1.lt (by have := (tag_fwd.1 e).1; omega)
          | bwd v => exact .inr ⟨v, rfl⟩
      · intro i hi
        have : d.nodes[x]? = none := by simp; omega
        rw [this] at hi
        cases hi
  -- the order of the original nodes
  have e3 : matRun plain (emit d.nodes ord) ψ = matRun plain data ψ := by
    have ef : emit d.nodes ord = emit d.nodes (ord.filter fun v => decide (v < d.nodes.length)) := by
      unfold emit
      rw [List.filterMap_filter]
      apply List.filterMap_congr
      intro v _
      by_cases hv : v < d.nodes.length
      · simp [hv]
      · have : d.nodes[v]? = none := by simp; omega
        simp [hv, this]
    have hno : ord.Nodup := hto.perm.nodup_iff.2 List.nodup_range
    have ht' : TopoOrder d.nodes.length d.edges (ord.filter fun v => decide (v < d.nodes.length)) := by
      refine ⟨?_, ?_⟩
      · refine (List.perm_ext_iff_of_nodup (hno.filter _) List.nodup_range).2 ?_
        intro v
        rw [List.mem_filter, hto.perm.mem_iff, List.mem_range, List.mem_range]
        have := h.lt
        simp only [decide_eq_true_eq]
        omega
      · intro a b hs
        have hlt := hb.lt a b hs
        have := (hto.forward a b (h.chain.le.step a b hs)).filter fun v => decide (v < d.nodes.length)
        simpa [hlt.1, hlt.2] using this
    rw [ef]
    have hl1 : ∀ i ∈ emit d.nodes (ord.filter fun v => decide (v < d.nodes.length)), i.kind = .gate → Labelled plain i := by
      intro i hi hk
      unfold emit at hi
      obtain ⟨x, _, hx⟩ := List.mem_filterMap.1 hi
      obtain ⟨k', hk', hk3⟩ := Option.bind_eq_some_iff.1 hx
      refine hg.labP i ?_ hk
      exact hm.kept.1.subset (List.mem_filterMap.2 ⟨_, List.mem_of_getElem? hk', hk3⟩)
    rw [matRun_eq hl1, matRun_eq hg.labP]
    exact linearise hm.ok hm.eq ht' _ ψ
  funext b
  rw [e1, ← e3]
  have e4 : ∀ s, ψ s * amp G M (ord.filterMap (tagOf d g)) s b =
      ψ s * cleaned (fun q => q.val ∈ U) init (ampO G M (ord.filterMap (tagOf d g)) s) b := by
    intro s
    by_cases hs : ψ s = 0
    · rw [hs, zero_mul, zero_mul]
    · rw [amp_uncompute hW init s b (hψ s hs)]
  rw [Finset.sum_congr rfl fun s _ => e4 s, cleaned_sum]
  congr 1
  funext c
  exact (e2 c).symm

/-! ### Before and after -/

theorem avoids_iff {i : Instr L} : avoids U i = true ↔ ∀ q ∈ i.qubits, q ∉ U := by
  unfold avoids
  simp

/-- `b` with the values of `init` on `U`. -/
noncomputable def onto (U : Fin n → Prop) [DecidablePred U] (b init : BS n) : BS n := fun q => if U q then init q else b q

open Classical in
/-- A matrix that does not act on `U` commutes with cleaning `U`. -/
theorem cleaned_mulVec (V : Fin n → Prop) (init : BS n) (A : Op n)
    (hZ : ∀ q, V q → ∀ b c, A b c ≠ 0 → b q = c q)
    (hX : ∀ f : BS n, (∀ q, f q = true → V q) → ∀ b c, A (bx b f) (bx c f) = A b c) (F : BS n → ℂ) :
    A.mulVec (cleaned V init F) = cleaned V init (A.mulVec F) := by
  funext b
  by_cases hb : ∀ q, V q → b q = init q
  · have e1 : (A.mulVec (cleaned V init F)) b = ∑ t, A b (onto V t init) * F t := by
      simp only [Matrix.mulVec, dotProduct, cleaned]
      have : ∀ s, A b s * (if ∀ q, V q → s q = init q then
          ∑ c ∈ univ.filter (fun c : BS n => ∀ q, ¬ V q → c q = s q), F c else 0) =
          ∑ t, if s = onto V t init then A b s * F t else 0 := by
        intro s
        by_cases hs : ∀ q, V q → s q = init q
        · rw [if_pos hs, Finset.mul_sum, Finset.sum_filter]
          refine Finset.sum_congr rfl fun t _ => ?_
          have : (∀ q, ¬ V q → t q = s q) ↔ s = onto V t init := by
            constructor
            · intro h
              funext q
              by_cases hq : V q
              · simp [onto, hq, hs q hq]
              · simp [onto, hq, h q hq]
            · rintro h q hq
              rw [h]
              simp [onto, hq]
          simp only [this]
        · rw [if_neg hs, mul_zero, eq_comm]
          refine Finset.sum_eq_zero fun t _ => if_neg ?_
          rintro rfl
          exact hs fun q hq => by simp [onto, hq]
      rw [Finset.sum_congr rfl fun s _ => this s, Finset.sum_comm]
      refine Finset.sum_congr rfl fun t _ => ?_
      simp
    have e2 : cleaned V init (A.mulVec F) b = ∑ t, A b (onto V t init) * F t := by
      unfold cleaned
      rw [if_pos hb]
      simp only [Matrix.mulVec, dotProduct]
      rw [Finset.sum_comm]
      refine Finset.sum_congr rfl fun t _ => ?_
      rw [Finset.sum_eq_single (onto V b t)]
      · congr 1
        have := hX (fun q => if V q then (b q ^^ t q) else false) (by intro q hq; by_contra hc; simp [hc] at hq) b
          (onto V t init)
        rw [← this]
        congr 1
        · funext q
          by_cases hq : V q
          · simp [onto, bx, hq]
          · simp [onto, bx, hq]
        · funext q
          by_cases hq : V q
          · simp [onto, bx, hq, ← hb q hq]
          · simp [onto, bx, hq]
      · intro c hc hne
        rw [Finset.mem_filter] at hc
        have : A c t = 0 := by
          by_contra h0
          refine hne ?_
          funext q
          by_cases hq : V q
          · simp [onto, hq, hZ q hq c t h0]
          · simp [onto, hq, hc.2 q hq]
        rw [this, zero_mul]
      · intro hc
        refine absurd (Finset.mem_filter.2 ⟨Finset.mem_univ _, ?_⟩) hc
        intro q hq
        simp [onto, hq]
    rw [e1, e2]
  · have : cleaned V init (A.mulVec F) b = 0 := by unfold cleaned; rw [if_neg hb]
    rw [this]
    simp only [Matrix.mulVec, dotProduct, cleaned]
    refine Finset.sum_eq_zero fun s _ => ?_
    by_cases h0 : A b s = 0
    · rw [h0, zero_mul]
    · rw [if_neg, mul_zero]
      intro hs
      exact hb fun q hq => (hZ q hq b s h0).trans (hs q hq)

theorem labelled_avoids {mat : L → Op n} {i : Instr L} (hl : Labelled mat i) (ha : avoids U i = true) :
    (∀ q : Fin n, q.val ∈ U → ∀ b c, mat i.label b c ≠ 0 → b q = c q) ∧
    ∀ f : BS n, (∀ q : Fin n, f q = true → q.val ∈ U) → ∀ b c, mat i.label (bx b f) (bx c f) = mat i.label b c := by
  have hq : ∀ q : Fin n, q.val ∈ U → q.val ∉ i.qubits := fun q hq hc => avoids_iff.1 ha _ hc hq
  constructor
  · intro q hU b c h0
    by_contra hc
    exact h0 ((commute_Z_iff q _).1 (hl.outside q (hq q hU)).2 b c hc)
  · intro f hf b c
    exact flips' (fun q h1 => (hl.outside q (hq q (hf q h1))).1) b c

theorem run_post {mat : L → Op n} {post : List (Instr L)} (hl : ∀ i ∈ post, i.kind = .gate → Labelled mat i)
    (ha : ∀ i ∈ post, avoids U i = true) (init : BS n) : ∀ F : BS n → ℂ,
    matRun mat post (cleaned (fun q => q.val ∈ U) init F) = cleaned (fun q => q.val ∈ U) init (matRun mat post F) := by
  induction post with
  | nil => intro F; rfl
  | cons i post ih =>
    intro F
    have ih' := ih (fun j hj => hl j (by simp [hj])) (fun j hj => ha j (by simp [hj]))
    by_cases hk : i.kind = .gate
    · have e : ∀ ψ, matRun mat (i :: post) ψ = matRun mat post ((mat i.label).mulVec ψ) := by
        intro ψ; simp [matRun, hk]
      obtain ⟨h1, h2⟩ := labelled_avoids (hl i (by simp) hk) (ha i (by simp))
      rw [e, e, cleaned_mulVec _ init _ h1 h2, ih']
    · have e : ∀ ψ, matRun mat (i :: post) ψ = matRun mat post ψ := by
        intro ψ; simp [matRun, hk]
      rw [e, e, ih']

theorem run_pre {mat : L → Op n} {pre : List (Instr L)} (hl : ∀ i ∈ pre, i.kind = .gate → Labelled mat i)
    (ha : ∀ i ∈ pre, avoids U i = true) (init : BS n) : ∀ ψ : BS n → ℂ,
    (∀ s, ψ s ≠ 0 → ∀ q : Fin n, q.val ∈ U → s q = init q) →
    ∀ s, matRun mat pre ψ s ≠ 0 → ∀ q : Fin n, q.val ∈ U → s q = init q := by
  induction pre with
  | nil => intro ψ h; exact h
  | cons i pre ih =>
    intro ψ hψ
    have ih' := ih (fun j hj => hl j (by simp [hj])) (fun j hj => ha j (by simp [hj]))
    by_cases hk : i.kind = .gate
    · have e : matRun mat (i :: pre) ψ = matRun mat pre ((mat i.label).mulVec ψ) := by simp [matRun, hk]
      obtain ⟨h1, _⟩ := labelled_avoids (hl i (by simp) hk) (ha i (by simp))
      rw [e]
      refine ih' _ ?_
      intro s hs q hq
      simp only [Matrix.mulVec, dotProduct] at hs
      obtain ⟨c, _, hc⟩ := Finset.exists_ne_zero_of_sum_ne_zero hs
      rw [h1 q hq s c (left_ne_zero_of_mul hc)]
      exact hψ c (right_ne_zero_of_mul hc) q hq
    · have e : matRun mat (i :: pre) ψ = matRun mat pre ψ := by simp [matRun, hk]
      rw [e]
      exact ih' ψ hψ

theorem uRun_append {mat : L → Op n} (a b : List (Instr L)) (ψ : BS n → ℂ) :
    matRun mat (a ++ b) ψ = matRun mat b (matRun mat a ψ) := by simp [matRun, List.foldl_append]

theorem matRun_congr {mat mat' : L → Op n} {l : List (Instr L)} (h : ∀ i ∈ l, i.kind = .gate → mat i.label = mat' i.label)
    (ψ : BS n → ℂ) : matRun mat l ψ = matRun mat' l ψ := by
  unfold matRun
  induction l generalizing ψ with
  | nil => rfl
  | cons i l ih =>
    rw [List.foldl_cons, List.foldl_cons, ih fun j hj => h j (by simp [hj])]
    by_cases hk : i.kind = .gate
    · rw [if_pos hk, if_pos hk, h i (by simp) hk]
    · rw [if_neg hk, if_neg hk]

/-- The part of the circuit that is put into the graph. -/
def middle (U : List Nat) (data : List (Instr L)) : List (Instr L) := (cutBack U (cutFront U data).2).1

theorem cut_eq (U : List Nat) (data : List (Instr L)) :
    data = (cutFront U data).1 ++ (middle U data ++ (cutBack U (cutFront U data).2).2) := by
  unfold middle cutBack cutFront
  dsimp only
  rw [← List.reverse_append, List.takeWhile_append_dropWhile, List.reverse_reverse, List.takeWhile_append_dropWhile]

theorem takeWhile_all {α : Type} {p : α → Bool} {l : List α} {x : α} (h : x ∈ l.takeWhile p) : p x = true := by
  induction l with
  | nil => simp at h
  | cons a l ih =>
    rw [List.takeWhile_cons] at h
    split at h
    · rename_i hp
      rcases List.mem_cons.1 h with rfl | h
      · exact hp
      · exact ih h
    · simp at h

theorem not_hits {i : Instr L} (h : avoids U i = true) : ¬ Hits U i := by
  rintro ⟨q, hq, t, _, ht⟩
  exact avoids_iff.1 h q (typeOn_mem ht) hq

/-- **Automatic uncomputation.** -/
theorem attempt_run {mat plain : L → Op n} {data out : List (Instr L)} {srt : Nat → List Edge → Option (List Nat)}
    (hs : ∀ N E ord, srt N E = some ord → TopoOrder N E ord) (hA : ∀ v l a, a ∈ l → a ∈ P.aord v l)
    (ho : ∀ i ∈ data, InsOK i) (hx : ∀ d, dagOf (middle U data) = some d → NoMix d) (ha : AllocFirst data)
    (hg : Gates mat plain P U data) (h : attempt P srt U data = .ok out) (init : BS n) (ψ : BS n → ℂ)
    (hψ : ∀ s, ψ s ≠ 0 → ∀ q : Fin n, q.val ∈ U → s q = init q) :
    matRun mat out ψ = cleaned (fun q => q.val ∈ U) init (matRun plain data ψ) := by
  have hcut := cut_eq U data
  have hpre : ∀ i ∈ (cutFront U data).1, avoids U i = true := fun i hi => takeWhile_all hi
  have hpost : ∀ i ∈ (cutBack U (cutFront U data).2).2, avoids U i = true := by
    intro i hi
    unfold cutBack at hi
    dsimp only at hi
    rw [List.mem_reverse] at hi
    exact takeWhile_all hi
  unfold attempt at h
  rw [show cutFront U data = ((cutFront U data).1, (cutFront U data).2) from rfl] at h
  dsimp only at h
  rw [show cutBack U (cutFront U data).2 = (middle U data, (cutBack U (cutFront U data).2).2) from rfl] at h
  dsimp only at h
  generalize (cutFront U data).1 = pre at *
  generalize (cutBack U (cutFront U data).2).2 = post at *
  generalize middle U data = mid at *
  cases e1 : dagOf mid with
  | none => rw [e1] at h; cases h
  | some d =>
    rw [e1] at h
    dsimp only at h
    cases e2 : srt d.nodes.length d.edges with
    | none => rw [e2] at h; cases h
    | some lin =>
      rw [e2] at h
      dsimp only at h
      cases e3 : uncomputeAll P U lin.reverse (UG.start d) with
      | raise => rw [e3] at h; cases h
      | again qs => rw [e3] at h; cases h
      | ok g =>
        rw [e3] at h
        dsimp only at h
        cases e4 : srt g.nodes.length g.edges with
        | none => rw [e4] at h; cases h
        | some ord =>
          rw [e4] at h
          simp only [UQc.ok.injEq] at h
          have hd1 : ∀ i ∈ pre, i ∈ data := fun i hi => by rw [hcut]; simp [hi]
          have hd2 : ∀ i ∈ mid, i ∈ data := fun i hi => by rw [hcut]; simp [hi]
          have hd3 : ∀ i ∈ post, i ∈ data := fun i hi => by rw [hcut]; simp [hi]
          have hsame : ∀ l : List (Instr L), (∀ i ∈ l, i ∈ data) → (∀ i ∈ l, avoids U i = true) → ∀ φ,
              matRun plain l φ = matRun mat l φ := by
            intro l h1 h2 φ
            exact matRun_congr (fun i hi hk => hg.same i (h1 i hi) hk (not_hits (h2 i hi))) φ
          have ham : AllocFirst mid := by
            unfold AllocFirst at ha ⊢
            rw [hcut] at ha
            exact ha.sublist ((List.sublist_append_left mid post).trans (List.sublist_append_right pre _))
          have hgm : Gates mat plain P U mid :=
            ⟨fun i hi => hg.lab i (hd2 i hi), fun i hi => hg.labP i (hd2 i hi), fun i hi => hg.unc i (hd2 i hi),
              fun i hi => hg.same i (hd2 i hi)⟩
          rw [← h, hcut, uRun_append, uRun_append, uRun_append, uRun_append, hsame pre hd1 hpre,
            hsame post hd3 hpost,
            mid_run ⟨fun i hi => ho i (hd2 i hi), e1⟩ (hx d e1) ham hA hgm (hs _ _ _ e2) e3 (hs _ _ _ e4) init _
              (run_pre (fun i hi => hg.lab i (hd1 i hi)) hpre init ψ hψ),
            run_post (fun i hi => hg.lab i (hd3 i hi)) hpost]

/-- New attempts only add qubits that are not allocated. -/
theorem uncomputeQc_attempt {data out : List (Instr L)} {srt : Nat → List Edge → Option (List Nat)} :
    ∀ {fuel : Nat} {U : List Nat}, uncomputeQc P srt fuel U data = some out →
    ∃ V, (∀ q ∈ V, P.allocated q = false) ∧ attempt P srt (U ++ V) data = .ok out := by
  have hoff : ∀ (rest : List Nat) (U : List Nat) (g : UG L) qs, uncomputeAll P U rest g = .again qs →
      ∀ q ∈ qs, P.allocated q = false := by
    intro rest U
    induction rest with
    | nil => intro g qs h; cases h
    | cons v rest ih =>
      intro g qs h
      unfold uncomputeAll at h
      split at h
      · cases h
      · exact ih g qs h
      · dsimp only at h
        split at h
        · exact ih g qs h
        · split at h
          · exact ih g qs h
          · split at h
            · split at h
              · cases h
              · exact ih _ qs h
            · split at h
              · cases h
              · rename_i hn
                simp only [UOut.again.injEq] at h
                subst h
                intro q hq
                rw [Bool.not_eq_true, List.any_eq_false] at hn
                simpa using hn q hq
  intro fuel
  induction fuel with
  | zero => intro U h; cases h
  | succ fuel ih =>
    intro U h
    unfold uncomputeQc at h
    cases e : attempt P srt U data with
    | ok o =>
      rw [e] at h
      simp only [Option.some.injEq] at h
      subst h
      exact ⟨[], by simp, by simpa using e⟩
    | raise => rw [e] at h; cases h
    | again qs =>
      rw [e] at h
      dsimp only at h
      obtain ⟨V, h1, h2⟩ := ih h
      refine ⟨qs ++ V, ?_, by rw [← List.append_assoc]; exact h2⟩
      intro q hq
      rcases List.mem_append.1 hq with hq | hq
      · unfold attempt at e
        dsimp only at e
        split at e
        · cases e
        · split at e
          · cases e
          · split at e
            · cases e
            · rename_i hu
              simp only [UQc.again.injEq] at e
              subst e
              exact hoff _ _ _ _ hu q hq
            · split at e <;> cases e
      · exact h1 q hq

/-! ### A topological sort -/

/-- Layers of nodes without predecessor among the remaining ones (`networkx.topological_sort` up to the order
within a layer). -/
def layers (E : List Edge) : Nat → List Nat → Option (List Nat)
  | 0, rem => if rem = [] then some [] else none
  | fuel + 1, rem =>
    let ready := fun b => !(E.any fun e => e.dst == b && rem.contains e.src)
    if rem = [] then some [] else (layers E fuel (rem.filter fun b => !ready b)).map (rem.filter ready ++ ·)

/-- A sort for which the hypotheses below hold. -/
def layerSort (N : Nat) (E : List Edge) : Option (List Nat) :=
  if E.all (fun e => decide (e.src < N) && decide (e.dst < N)) then layers E N (List.range N) else none

theorem layers_spec {E : List Edge} : ∀ {fuel : Nat} {rem ord : List Nat}, layers E fuel rem = some ord →
    ord.Perm rem ∧ ∀ a b, a ∈ rem → b ∈ rem → Step E a b → [a, b].Sublist ord := by
  intro fuel
  induction fuel with
  | zero =>
    intro rem ord h
    unfold layers at h
    split at h
    · rename_i e
      simp only [Option.some.injEq] at h
      subst h e
      simp
    · cases h
  | succ fuel ih =>
    intro rem ord h
    unfold layers at h
    dsimp only at h
    split at h
    · rename_i e
      simp only [Option.some.injEq] at h
      subst h e
      simp
    · obtain ⟨o, ho, rfl⟩ := Option.map_eq_some_iff.1 h
      obtain ⟨h1, h2⟩ := ih ho
      refine ⟨((List.Perm.append_left _ h1).trans (List.filter_append_perm _ rem)), ?_⟩
      intro a b ha hb hs
      have hnr : (E.any fun e => e.dst == b && rem.contains e.src) = true := by
        obtain ⟨e, he, rfl, rfl⟩ := hs
        exact List.any_eq_true.2 ⟨e, he, by simpa using ha⟩
      have hb' : b ∈ o := h1.mem_iff.2 (List.mem_filter.2 ⟨hb, by rw [hnr]; rfl⟩)
      by_cases har : (E.any fun e => e.dst == a && rem.contains e.src) = true
      · exact (h2 a b (List.mem_filter.2 ⟨ha, by rw [har]; rfl⟩) (h1.mem_iff.1 hb') hs).trans
          (List.sublist_append_right _ _)
      · refine List.Sublist.append (l₁ := [a]) (r₁ := [b]) ?_ (List.singleton_sublist.2 hb')
        exact List.singleton_sublist.2 (List.mem_filter.2 ⟨ha, by simpa using har⟩)

theorem layerSort_topo (N : Nat) (E : List Edge) (ord : List Nat) (h : layerSort N E = some ord) : TopoOrder N E ord := by
  unfold layerSort at h
  split at h
  · rename_i hE
    obtain ⟨h1, h2⟩ := layers_spec h
    refine ⟨h1, ?_⟩
    intro a b hs
    refine h2 a b ?_ ?_ hs
    all_goals
      obtain ⟨e, he, rfl, rfl⟩ := hs
      have := List.all_eq_true.1 hE e he
      simp only [Bool.and_eq_true, decide_eq_true_eq] at this
      simp [this]
  · cases h

/-! ### Classical gates -/

open Classical in
/-- Permutation matrices on a basis state. -/
theorem matRun_basis {mat : L → Op n} (f : L → BS n → BS n) {l : List (Instr L)}
    (h : ∀ i ∈ l, i.kind = .gate → ∀ c b, mat i.label c b = if c = f i.label b then 1 else 0) (s : BS n) :
    matRun mat l (Pi.single s 1) = Pi.single (l.foldl (fun s i => if i.kind = .gate then f i.label s else s) s) 1 := by
  induction l generalizing s with
  | nil => rfl
  | cons i l ih =>
    rw [List.foldl_cons]
    rw [← ih fun j hj => h j (by simp [hj])]
    by_cases hk : i.kind = .gate
    · have e : ∀ ψ, matRun mat (i :: l) ψ = matRun mat l ((mat i.label).mulVec ψ) := by intro ψ; simp [matRun, hk]
      rw [e, if_pos hk]
      congr 1
      funext c
      rw [Matrix.mulVec_single_one, Matrix.col_apply, h i (by simp) hk, Pi.single_apply]
    · rw [if_neg hk]
      simp [matRun, hk]

end Verif.Comp
