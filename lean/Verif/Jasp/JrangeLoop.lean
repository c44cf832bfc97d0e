import Verif.Jasp.JrangeProof

/-! The compiled `jrange` loop computes what the Python loop computes. -/

namespace Verif.Jasp.Jr

set_option linter.unusedSectionVars false

/-- The names a statement mentions. -/
def Stm.names : Stm → List Nat
  | .op _ i o => i.filterMap Atom.var ++ o
  | .copy a b => [a, b]

/-- The program does not know the index of the iterator and the last index. -/
def HiddenFree (b : List Stm) : Prop := ∀ s ∈ b, nIdx ∉ s.names ∧ nStop ∉ s.names

/-- The inputs of an iteration. -/
def symIns (b : List Stm) : List Sym := envIns (symT (iteration b)).1 (.inl nQ)

/-- The names whose value before an iteration is used in it, and the quantum state. -/
def Used (b : List Stm) : Set Nat := {m | .inl m ∈ symIns b}

/-- Where the value of a name after an iteration comes from. -/
def source (b : List Stm) (m : Nat) : Sym := (symT (iteration b)).2.1 m

/-- The number of variables of an iteration. -/
def count (b : List Stm) : Nat := (symT (iteration b)).2.2

/-- The symbols of an iteration. -/
def Dom (b : List Stm) : Set Sym := {x | (∃ m ∈ Used b, x = .inl m) ∨ ∃ k, x = .inr k}

theorem assign_other (outs : List Nat) : ∀ (t : Nat → Sym) (vs : List Sym) {m : Nat}, m ∉ outs → assign t outs vs m = t m := by
  induction outs with
  | nil => intros; rfl
  | cons o outs ih =>
    intro t vs m hm
    cases vs with
    | nil => rfl
    | cons v vs =>
      simp only [assign]
      rw [ih _ _ (fun h => hm (List.mem_cons_of_mem _ h)), upd_ne _ _ (fun h => hm (List.mem_cons.mpr (Or.inl h)))]

theorem trace_other (b : List Stm) {m : Nat} : ∀ (t : Nat → Sym) (n : Nat), (∀ s ∈ b, m ∉ s.names) → (traceG Sum.inr b t n).2.1 m = t m := by
  induction b with
  | nil => intros; rfl
  | cons s b ih =>
    intro t n h
    have hs := h s (List.mem_cons_self ..)
    have hb : ∀ s ∈ b, m ∉ s.names := fun s hs => h s (List.mem_cons_of_mem _ hs)
    cases s with
    | op o i outs =>
      simp only [traceG]
      rw [ih _ _ hb, assign_other]
      exact fun h => hs (List.mem_append_right _ h)
    | copy a c =>
      simp only [traceG]
      rw [ih _ _ hb, upd_ne]
      exact fun h => hs (by simp [Stm.names, h])

/-- The last two equations of an iteration. -/
theorem iteration_shape {b : List Stm} (hb : HiddenFree b) : ∃ S0 k, (symT (iteration b)).1 =
    S0 ++ [⟨addOp, [.v (.inl nIdx), .lit 1], [.inr k]⟩, ⟨markOp, [.v (.inr k), .v (.inl nStop)], [.inr (k + 1)]⟩] ∧
    source b nIdx = .inr (k + 1) ∧ source b nStop = .inl nStop := by
  have h1 := trace_other b (upd Sum.inl nI (Sum.inl nIdx)) 0 (fun s hs => (hb s hs).1)
  have h2 := trace_other b (upd Sum.inl nI (Sum.inl nIdx)) 0 (fun s hs => (hb s hs).2)
  have he : symT (iteration b) = traceG Sum.inr (b ++ [.op addOp [.v nIdx, .lit 1] [nIdx], .op markOp [.v nIdx, .v nStop] [nIdx]])
    (upd Sum.inl nI (Sum.inl nIdx)) 0 := rfl
  unfold source
  rw [he, trace_append]
  generalize traceG Sum.inr b (upd Sum.inl nI (Sum.inl nIdx)) 0 = z at h1 h2
  obtain ⟨S0, f, k⟩ := z
  dsimp only at h1 h2
  have h1' : f nIdx = .inl nIdx := h1
  have h2' : f nStop = .inl nStop := h2
  refine ⟨S0, k, ?_, ?_, ?_⟩
  · simp only [traceG, List.map_cons, List.map_nil, Atom.map, h1', List.length_singleton, List.range'_one, assign, upd_eq]
    rw [upd_ne _ _ (by decide), h2']
  · simp only [traceG, List.map_cons, List.map_nil, List.length_singleton, List.range'_one, assign, upd_eq]
  · simp only [traceG, List.map_cons, List.map_nil, List.length_singleton, List.range'_one, assign]
    rw [upd_ne _ _ (by decide), upd_ne _ _ (by decide), h2']

theorem uses_append {X : Type} [DecidableEq X] (A B : List (Eqn X)) : uses (A ++ B) = uses A ++ uses B := by simp [uses]

theorem used_of_uses {b : List Stm} {m : Nat} (h : .inl m ∈ uses (symT (iteration b)).1) : m ∈ Used b := by
  refine mem_envIns.mpr (Or.inl ⟨h, fun hp => ?_⟩)
  obtain ⟨k, hk, _⟩ := ((sym_wf _).1 _).mp hp
  cases hk

theorem idx_uses {b : List Stm} (hb : HiddenFree b) : .inl nIdx ∈ uses (symT (iteration b)).1 := by
  obtain ⟨S0, k, hS, _⟩ := iteration_shape hb
  rw [hS, uses_append, List.mem_append]
  exact Or.inr (by simp [uses, Atom.var])

theorem stop_uses {b : List Stm} (hb : HiddenFree b) : .inl nStop ∈ uses (symT (iteration b)).1 := by
  obtain ⟨S0, k, hS, _⟩ := iteration_shape hb
  rw [hS, uses_append, List.mem_append]
  exact Or.inr (by simp [uses, Atom.var])

theorem dom_uses {b : List Stm} : ∀ z ∈ uses (symT (iteration b)).1, z ∈ Dom b := by
  intro z hz
  cases z with
  | inl m => exact Or.inl ⟨m, used_of_uses hz, rfl⟩
  | inr k => exact Or.inr ⟨k, rfl⟩

theorem dom_prods {b : List Stm} : ∀ z ∈ prods (symT (iteration b)).1, z ∈ Dom b := by
  intro z hz
  obtain ⟨k, rfl, _⟩ := ((sym_wf _).1 _).mp hz
  exact Or.inr ⟨k, rfl⟩

theorem ins_left {b : List Stm} {x : Sym} (hx : x ∈ symIns b) : ∃ m ∈ Used b, x = .inl m := by
  cases x with
  | inl m => exact ⟨m, hx, rfl⟩
  | inr k =>
    rcases mem_envIns.mp hx with ⟨h1, h2⟩ | h
    · exact absurd (((sym_wf _).1 _).mpr ⟨k, rfl, (sym_wf _).2.1 k h1⟩) h2
    · cases h

theorem dom_ins {b : List Stm} : ∀ z ∈ symIns b, z ∈ Dom b := fun _ hz => Or.inl (ins_left hz)

theorem zero_used (b : List Stm) : nQ ∈ Used b := mem_envIns.mpr (Or.inr rfl)

theorem inst_inj {t : Nat → Nat} {n : Nat} {b : List Stm} (ht : Set.InjOn t (Used b)) (hn : ∀ m ∈ Used b, t m < n) : Set.InjOn (inst t n) (Dom b) := by
  intro x hx y hy he
  rcases hx with ⟨m, hm, rfl⟩ | ⟨k, rfl⟩ <;> rcases hy with ⟨m', hm', rfl⟩ | ⟨k', rfl⟩
  · rw [ht hm hm' he]
  · have h1 := hn m hm
    have h2 : t m = n + k' := he
    omega
  · have h1 := hn m' hm'
    have h2 : n + k = t m' := he
    omega
  · have h2 : n + k = n + k' := he
    rw [Nat.add_left_cancel h2]

/-- The inputs in the order of the loop. -/
def loopIns (b : List Stm) : List Sym := toFront (toFront (symIns b) (.inl nIdx)) (.inl nStop)

theorem toFront_map {X Y : Type} [DecidableEq X] [DecidableEq Y] {φ : X → Y} {D : Set X} (hφ : Set.InjOn φ D) {x : X} (hx : x ∈ D) {l : List X}
    (hl : ∀ z ∈ l, z ∈ D) : toFront (l.map φ) (φ x) = (toFront l x).map φ := by
  unfold toFront
  rw [erase_map hφ hx l hl, List.map_cons]

theorem mem_toFront {X : Type} [DecidableEq X] {l : List X} {v x : X} (hv : v ∈ l) : x ∈ toFront l v ↔ x ∈ l := by
  unfold toFront
  rw [List.mem_cons]
  by_cases h : x = v
  · simp [h, hv]
  · rw [List.mem_erase_of_ne h]
    simp [h]

theorem mem_loopIns {b : List Stm} (hb : HiddenFree b) {x : Sym} : x ∈ loopIns b ↔ x ∈ symIns b := by
  unfold loopIns
  have h1 : Sum.inl nIdx ∈ symIns b := used_of_uses (idx_uses hb)
  have h2 : Sum.inl nStop ∈ symIns b := used_of_uses (stop_uses hb)
  rw [mem_toFront ((mem_toFront h1).mpr h2), mem_toFront h1]

theorem nodup_toFront {X : Type} [DecidableEq X] {l : List X} (v : X) (h : l.Nodup) : (toFront l v).Nodup :=
  List.nodup_cons.mpr ⟨h.not_mem_erase, h.erase _⟩

theorem loopIns_nodup (b : List Stm) : (loopIns b).Nodup := nodup_toFront _ (nodup_toFront _ (envIns_nodup _ _))

theorem toFront_two {X : Type} [DecidableEq X] (l : List X) {x y : X} (h : x ≠ y) : toFront (toFront l x) y = y :: x :: (l.erase x).erase y := by
  unfold toFront
  rw [List.erase_cons_tail (by simpa using h)]

theorem toFront_last {X : Type} [DecidableEq X] (l : List X) (s : X) {x y : X} (h : x ≠ y) (hx : x ≠ s) (hy : y ≠ s) :
    (toFront (toFront (l ++ [s]) x) y).getLast? = some s := by
  have hf : ∀ (l : List X) (x : X), x ≠ s → ∃ l', (l ++ [s]).erase x = l' ++ [s] := by
    intro l x hx
    rw [List.erase_append]
    split
    · exact ⟨_, rfl⟩
    · exact ⟨l, by rw [List.erase_of_not_mem (by simpa using hx)]⟩
  rw [toFront_two _ h]
  obtain ⟨l1, e1⟩ := hf l x hx
  rw [e1]
  obtain ⟨l2, e2⟩ := hf l1 y hy
  rw [e2, ← List.cons_append, ← List.cons_append, List.getLast?_append]
  rfl

/-- What is known about the rules. -/
def RuleOk (b : List Stm) (n : Nat) (outs : List Nat) (x : Sym) (r : Option Nat) : Prop :=
  ∃ m, x = .inl m ∧ ((r = none ∧ source b m = .inl m) ∨ ∃ j k, r = some j ∧ source b m = .inr k ∧ outs[j]? = some (n + k))

section
variable {b : List Stm} {t : Nat → Nat} {n : Nat}

theorem markerVars_ok (hb : HiddenFree b) {φ : Sym → Nat} (hφ : Set.InjOn φ (Dom b)) (outs : List Nat) :
    markerVars ⟨(symIns b).map φ, outs, (symT (iteration b)).1.map (Eqn.map φ)⟩ = some (φ (.inl nStop), φ (.inl nIdx)) ∧
    ∃ m k, findMarker ((symT (iteration b)).1.map (Eqn.map φ)) = some m ∧ m.outs = [φ (.inr k)] ∧ source b nIdx = .inr k := by
  obtain ⟨S0, k, hS, hs, _⟩ := iteration_shape hb
  have h1 : φ (.inl nIdx) ∈ (symIns b).map φ := List.mem_map_of_mem (used_of_uses (idx_uses hb))
  have h2 : φ (.inl nStop) ∈ (symIns b).map φ := List.mem_map_of_mem (used_of_uses (stop_uses hb))
  have h3 : φ (.inr (k + 1)) ≠ φ (.inr k) := fun h => by
    have := hφ (Or.inr ⟨_, rfl⟩) (Or.inr ⟨_, rfl⟩) h
    have := Sum.inr.inj this
    omega
  have hr : ((symT (iteration b)).1.map (Eqn.map φ)).reverse = ⟨markOp, [.v (φ (.inr k)), .v (φ (.inl nStop))], [φ (.inr (k + 1))]⟩ ::
      ⟨addOp, [.v (φ (.inl nIdx)), .lit 1], [φ (.inr k)]⟩ :: (S0.map (Eqn.map φ)).reverse := by
    rw [hS, List.map_append, List.reverse_append]
    rfl
  have hf : findMarker ((symT (iteration b)).1.map (Eqn.map φ)) = some ⟨markOp, [.v (φ (.inr k)), .v (φ (.inl nStop))], [φ (.inr (k + 1))]⟩ := by
    unfold findMarker
    rw [hr, List.find?_cons_of_pos (by simp)]
  refine ⟨?_, _, k + 1, hf, rfl, hs⟩
  unfold markerVars
  dsimp only
  rw [hf, Option.bind_some]
  dsimp only
  rw [hr, List.find?_cons_of_neg (by simpa using h3), List.find?_cons_of_pos (by simp)]
  simp only [Option.bind_some, List.head?_cons]
  exact if_pos ⟨h2, h1⟩

theorem checkAtoms_ok {D : Set Sym} {φ ψ : Sym → Nat} (hφ : Set.InjOn φ D) (l : List (Atom Sym)) : ∀ {d : Nat → Option (Atom Nat)},
    (∀ x, Atom.v x ∈ l → x ∈ D) → (∀ x ∈ D, ∀ z, d (φ x) = some z → z = .v (ψ x)) →
    ∃ d', checkAtoms (l.map (Atom.map φ)) (l.map (Atom.map ψ)) d = some d' ∧ ∀ x ∈ D, ∀ z, d' (φ x) = some z → z = .v (ψ x) := by
  induction l with
  | nil => intro d _ h; exact ⟨d, rfl, h⟩
  | cons a l ih =>
    intro d hl h
    have hl' : ∀ x, Atom.v x ∈ l → x ∈ D := fun x hx => hl x (List.mem_cons_of_mem _ hx)
    cases a with
    | lit i =>
      obtain ⟨d', h1, h2⟩ := ih hl' h
      exact ⟨d', by simpa [Atom.map, checkAtoms] using h1, h2⟩
    | v x =>
      have hx := hl x (List.mem_cons_self ..)
      simp only [List.map_cons, Atom.map, checkAtoms]
      cases hd : d (φ x) with
      | some z =>
        obtain rfl := h x hx z hd
        obtain ⟨d', h1, h2⟩ := ih hl' h
        exact ⟨d', by simpa using h1, h2⟩
      | none =>
        refine ih hl' ?_
        intro y hy z hz
        by_cases hyx : y = x
        · subst hyx
          rw [upd_eq] at hz
          exact (Option.some.inj hz).symm
        · rw [upd_ne _ _ (fun he => hyx (hφ hy hx he))] at hz
          exact h y hy z hz

theorem verify_ok {D : Set Sym} {φ ψ : Sym → Nat} (hφ : Set.InjOn φ D) (ins : List Nat) (E : List (Eqn Sym)) : ∀ {d : Nat → Option (Atom Nat)},
    (∀ x ∈ uses E, x ∈ D) → (∀ x ∈ D, ∀ z, d (φ x) = some z → z = .v (ψ x)) → verify ins (E.map (Eqn.map φ)) (E.map (Eqn.map ψ)) d = true := by
  induction E with
  | nil => intros; rfl
  | cons q E ih =>
    intro d hu h
    obtain ⟨d', h1, h2⟩ := checkAtoms_ok (ψ := ψ) hφ q.ins (fun x hx => hu x (by
      rw [uses, List.flatMap_cons, List.mem_append]
      exact Or.inl (List.mem_filterMap.mpr ⟨_, hx, rfl⟩))) h
    simp only [List.map_cons, verify, Eqn.map, if_true, h1]
    exact ih (fun z hz => hu z (by rw [uses, List.flatMap_cons, List.mem_append]; exact Or.inr hz)) h2

theorem idxOf_get {l : List Nat} {x : Nat} (h : x ∈ l) : l[l.idxOf x]? = some x := by
  rw [List.getElem?_eq_getElem (List.idxOf_lt_length_of_mem h), List.getElem_idxOf]

/-- The next values of the used names are outputs of the first iteration. -/
theorem mem_outs (later : List Nat) {m k : Nat} (hm : m ∈ Used b) (hk : source b m = .inr k) :
    n + k ∈ envOuts ((symT (iteration b)).1.map (Eqn.map (inst t n))) (inst t n (source b nQ))
      (uses ((symT (iteration b)).1.map (Eqn.map (inst (inst t n ∘ source b) (n + count b)))) ++ later) := by
  unfold envOuts
  rw [List.mem_append, List.mem_singleton]
  by_cases h0 : n + k = inst t n (source b nQ)
  · exact Or.inr h0
  · left
    rw [List.mem_filter]
    have hp : .inr k ∈ prods (symT (iteration b)).1 := ((sym_wf _).1 _).mpr ⟨k, rfl, (sym_wf _).2.2 m k hk⟩
    refine ⟨?_, ?_⟩
    · rw [prods_map]
      exact List.mem_map.mpr ⟨.inr k, hp, rfl⟩
    · simp only [decide_eq_true_eq]
      refine ⟨List.mem_append_left _ ?_, h0⟩
      rw [uses_map, List.mem_map]
      refine ⟨.inl m, ?_, ?_⟩
      · rcases mem_envIns.mp hm with h | h
        · exact h.1
        · have := Sum.inl.inj h
          subst this
          rw [hk] at h0
          exact absurd rfl h0
      · show inst t n (source b m) = n + k
        rw [hk]
        rfl

theorem rules_ok (cls : Nat → Bool) (hn : ∀ m ∈ Used b, t m < n) (hc : ∀ m ∈ Used b, source b m = .inl m ∨ ∃ k, source b m = .inr k) {outs : List Nat}
    (ho : ∀ m ∈ Used b, ∀ k, source b m = .inr k → n + k ∈ outs) (N : Nat) (l : List Sym) : (∀ x ∈ l, x ∈ symIns b) →
    ∃ r, rules cls outs (l.map (inst t n)) (l.map (inst (inst t n ∘ source b) N)) = some r ∧ List.Forall₂ (RuleOk b n outs) l r := by
  induction l with
  | nil => intro _; exact ⟨[], rfl, .nil⟩
  | cons x l ih =>
    intro hl
    obtain ⟨r, hr, hf⟩ := ih (fun x hx => hl x (List.mem_cons_of_mem _ hx))
    obtain ⟨m, hm, rfl⟩ := ins_left (hl x (List.mem_cons_self ..))
    have h2 : inst (inst t n ∘ source b) N (.inl m) = inst t n (source b m) := rfl
    simp only [List.map_cons, rules, h2, hr, Option.map_some]
    rcases hc m hm with h | ⟨k, h⟩
    · refine ⟨none :: r, ?_, .cons ⟨m, rfl, Or.inl ⟨rfl, h⟩⟩ hf⟩
      rw [h, rule, if_pos rfl]
      rfl
    · refine ⟨some (outs.idxOf (n + k)) :: r, ?_, .cons ⟨m, rfl, Or.inr ⟨_, k, rfl, h, idxOf_get (ho m hm k h)⟩⟩ hf⟩
      have h3 : inst t n (source b m) = n + k := by rw [h]; rfl
      have h4 : inst t n (.inl m) ≠ n + k := by
        have := hn m hm
        show t m ≠ n + k
        omega
      rw [h3, rule, if_neg h4, if_pos (ho m hm k h)]
      rfl

/-- What a program has to satisfy: different used names have different variables at the start of both iterations, and the value of a used name is either kept or
    computed in the iteration. -/
structure Carried (b : List Stm) (t : Nat → Nat) (n : Nat) : Prop where
  hidden : HiddenFree b
  old : ∀ m ∈ Used b, t m < n
  inj : Set.InjOn t (Used b)
  inj2 : Set.InjOn (inst t n ∘ source b) (Used b)
  carry : ∀ m ∈ Used b, source b m = .inl m ∨ ∃ k, source b m = .inr k

theorem Carried.inj0 (h : Carried b t n) : Set.InjOn (inst t n) (Dom b) := inst_inj h.inj h.old

theorem Carried.inj1 (h : Carried b t n) : Set.InjOn (inst (inst t n ∘ source b) (n + count b)) (Dom b) := by
  refine inst_inj h.inj2 ?_
  intro m hm
  show inst t n (source b m) < n + count b
  rcases h.carry m hm with hs | ⟨k, hs⟩
  · have := h.old m hm
    rw [hs]
    show t m < n + count b
    omega
  · have := (sym_wf _).2.2 m k hs
    rw [hs]
    exact Nat.add_lt_add_left this n

/-- The compilation succeeds. -/
theorem jrange_ok (h : Carried b t n) (cls : Nat → Bool) (later : List Nat)
    (hl : ∀ v ∈ later, v < n + count b ∨ v = inst (inst t n ∘ source b) (n + count b) (source b nQ)) :
    ∃ L, jrange cls b b t n later = some L ∧ L.ins = (loopIns b).map (inst t n) ∧ L.eqns = (symT (iteration b)).1.map (Eqn.map (inst t n)) ∧
      List.Forall₂ (RuleOk b n L.outs) (loopIns b) L.rules ∧
      ∀ v ∈ L.outs, v = inst t n (source b nQ) ∨ ∃ k, v = n + k ∧ .inr k ∈ prods (symT (iteration b)).1 := by
  have i0 := h.inj0
  have i1 := h.inj1
  have hd0 : Sum.inl nQ ∈ Dom b := Or.inl ⟨nQ, zero_used b, rfl⟩
  have hd1 : Sum.inl nIdx ∈ Dom b := Or.inl ⟨nIdx, used_of_uses (idx_uses h.hidden), rfl⟩
  have hd2 : Sum.inl nStop ∈ Dom b := Or.inl ⟨nStop, used_of_uses (stop_uses h.hidden), rfl⟩
  let φ := inst t n
  let ψ := inst (φ ∘ source b) (n + count b)
  let outs1 := envOuts ((symT (iteration b)).1.map (Eqn.map φ)) (φ (source b nQ)) (uses ((symT (iteration b)).1.map (Eqn.map ψ)) ++ later)
  let outs2 := envOuts ((symT (iteration b)).1.map (Eqn.map ψ)) (ψ (source b nQ)) later
  have he : jrangeEnvs b b t n later = (⟨(symIns b).map φ, outs1, (symT (iteration b)).1.map (Eqn.map φ)⟩,
      ⟨(symIns b).map ψ, outs2, (symT (iteration b)).1.map (Eqn.map ψ)⟩) := by
    unfold jrangeEnvs
    simp only [trace_inst]
    have e1 := envIns_map (φ := φ) (D := Dom b) i0 (E := (symT (iteration b)).1) (s := .inl nQ) dom_uses dom_prods hd0
    have e2 := envIns_map (φ := ψ) (D := Dom b) i1 (E := (symT (iteration b)).1) (s := .inl nQ) dom_uses dom_prods hd0
    have e1' : envIns (List.map (Eqn.map (inst t n)) (symT (iteration b)).1) (t nQ) = (symIns b).map φ := e1
    have e2' : envIns (List.map (Eqn.map (inst (inst t n ∘ (symT (iteration b)).2.1) (n + (symT (iteration b)).2.2))) (symT (iteration b)).1)
      ((inst t n ∘ (symT (iteration b)).2.1) nQ) = (symIns b).map ψ := e2
    rw [e1', e2']
    rfl
  have ho2 : outs2 = [ψ (source b nQ)] := by
    show (prods ((symT (iteration b)).1.map (Eqn.map ψ))).filter (fun v => v ∈ later ∧ v ≠ ψ (source b nQ)) ++ [ψ (source b nQ)] = _
    rw [List.filter_eq_nil_iff.mpr]
    · rfl
    · intro v hv hd
      simp only [decide_eq_true_eq] at hd
      rw [prods_map] at hv
      obtain ⟨x, hx, rfl⟩ := List.mem_map.mp hv
      obtain ⟨k, rfl, _⟩ := ((sym_wf _).1 _).mp hx
      rcases hl _ hd.1 with h1 | h1
      · have : ψ (.inr k) = n + count b + k := rfl
        omega
      · exact hd.2 h1
  obtain ⟨mv0, mk, k, hm, hmo, hks⟩ := markerVars_ok h.hidden (φ := φ) i0 outs1
  obtain ⟨mv1, _⟩ := markerVars_ok h.hidden (φ := ψ) i1 outs2
  have hmem : ∀ m ∈ Used b, ∀ k, source b m = .inr k → n + k ∈ outs1 := fun m hm k hk => mem_outs later hm hk
  have hidx : n + k ∈ outs1 := hmem nIdx (used_of_uses (idx_uses h.hidden)) k hks
  have hfr : ∀ z ∈ toFront (symIns b) (.inl nIdx), z ∈ Dom b := fun z hz =>
    dom_ins z ((mem_toFront (used_of_uses (idx_uses h.hidden))).mp hz)
  have hli : ∀ (χ : Sym → Nat), Set.InjOn χ (Dom b) → toFront (toFront ((symIns b).map χ) (χ (.inl nIdx))) (χ (.inl nStop)) = (loopIns b).map χ := by
    intro χ hχ
    rw [toFront_map hχ hd1 dom_ins, toFront_map hχ hd2 hfr]
    rfl
  obtain ⟨rs, hrs, hf⟩ := rules_ok cls h.old h.carry hmem (n + count b) ((loopIns b).drop 2) (fun x hx => (mem_loopIns h.hidden).mp (List.mem_of_mem_drop hx))
  have hver : verify ((symIns b).map φ) ((symT (iteration b)).1.map (Eqn.map φ)) ((symT (iteration b)).1.map (Eqn.map ψ)) (fun _ => none) = true :=
    verify_ok i0 _ _ dom_uses (by intro x _ z hz; cases hz)
  refine ⟨⟨(loopIns b).map φ, outs1, (symT (iteration b)).1.map (Eqn.map φ), none :: some (outs1.idxOf (n + k)) :: rs⟩, ?_, rfl, rfl, ?_, ?_⟩
  · unfold jrange
    rw [he]
    unfold compile
    dsimp only
    rw [if_neg (by rw [ho2]; simp), mv0, Option.bind_some, mv1, Option.bind_some, hm, Option.bind_some, hmo]
    dsimp only [List.head?_cons, Option.bind_some]
    rw [if_pos (show φ (.inr k) ∈ outs1 from hidx), if_pos hver, hli φ i0, hli ψ i1, ← List.map_drop, ← List.map_drop, hrs]
    rfl
  · have hsh : loopIns b = .inl nStop :: .inl nIdx :: (loopIns b).drop 2 := by
      unfold loopIns
      rw [toFront_two _ (by decide)]
      rfl
    obtain ⟨_, _, _, _, hst⟩ := iteration_shape h.hidden
    rw [hsh]
    exact .cons ⟨nStop, rfl, Or.inl ⟨rfl, hst⟩⟩ (.cons ⟨nIdx, rfl, Or.inr ⟨_, k, rfl, hks, idxOf_get hidx⟩⟩ hf)
  · intro v hv
    rcases List.mem_append.mp hv with hv | hv
    · right
      have hv := (List.mem_filter.mp hv).1
      rw [prods_map] at hv
      obtain ⟨x, hx, rfl⟩ := List.mem_map.mp hv
      obtain ⟨k, rfl, _⟩ := ((sym_wf _).1 _).mp hx
      exact ⟨k, rfl, hx⟩
    · exact Or.inl (List.mem_singleton.mp hv)

end

/-! ### Execution -/

section
variable {S : Type} (F : Op → List (Val S) → Option (List (Val S))) {b : List Stm} {t : Nat → Nat} {n : Nat}

/-- The values of the inputs. -/
def symVal (σ : Nat → Option (Val S)) : Sym → Option (Val S)
  | .inl m => σ m
  | .inr _ => none

theorem bind_ok {D : Set Sym} {φ : Sym → Nat} (hφ : Set.InjOn φ D) (h : Sym → Option (Val S)) (l : List Sym) : ∀ {vals : List (Val S)} {e : Nat → Option (Val S)},
    (∀ x ∈ l, x ∈ D) → l.Nodup → vals.map some = l.map h →
    ∃ ρ, setA e (l.map φ) vals = some ρ ∧ ∀ x ∈ D, (x ∈ l → ρ (φ x) = h x) ∧ (x ∉ l → ρ (φ x) = e (φ x)) := by
  induction l with
  | nil =>
    intro vals e _ _ hv
    cases vals with
    | nil => exact ⟨e, rfl, fun x _ => by simp⟩
    | cons v vals => cases hv
  | cons a l ih =>
    intro vals e hl hnd hv
    cases vals with
    | nil => cases hv
    | cons v vals =>
      have hnd' := List.nodup_cons.mp hnd
      have hv' := List.cons.inj hv
      obtain ⟨ρ, h1, h2⟩ := ih (e := upd e (φ a) (some v)) (fun x hx => hl x (List.mem_cons_of_mem _ hx)) hnd'.2 hv'.2
      refine ⟨ρ, h1, fun x hx => ?_⟩
      by_cases hxa : x = a
      · subst hxa
        refine ⟨fun _ => ?_, fun hh => absurd (List.mem_cons_self ..) hh⟩
        rw [(h2 x hx).2 hnd'.1, upd_eq]
        exact hv'.1
      · refine ⟨fun hh => (h2 x hx).1 ((List.mem_cons.mp hh).resolve_left hxa), fun hh => ?_⟩
        rw [(h2 x hx).2 (fun h3 => hh (List.mem_cons_of_mem _ h3)), upd_ne _ _ (fun he => hxa (hφ hx (hl a (List.mem_cons_self ..)) he))]

theorem getA_ok {ρ : Nat → Option (Val S)} (l : List Nat) : (∀ v ∈ l, (ρ v).isSome) →
    ∃ res, getA ρ (l.map Atom.v) = some res ∧ ∀ (j : Nat) (v : Nat), l[j]? = some v → res[j]? = ρ v := by
  induction l with
  | nil => intro _; exact ⟨[], rfl, by simp⟩
  | cons a l ih =>
    intro h
    obtain ⟨res, h1, h2⟩ := ih (fun v hv => h v (List.mem_cons_of_mem _ hv))
    obtain ⟨x, hx⟩ := Option.isSome_iff_exists.mp (h a (List.mem_cons_self ..))
    refine ⟨x :: res, by simp [getA, hx, h1], ?_⟩
    intro j v hj
    cases j with
    | zero =>
      have : a = v := by simpa using hj
      rw [← this, hx]
      rfl
    | succ j => exact h2 j v (by simpa using hj)

theorem newVals_ok {outs : List Nat} {ρ : Nat → Option (Val S)} {σ σ' : Nat → Option (Val S)} {res : List (Val S)}
    (hres : ∀ (j : Nat) (v : Nat), outs[j]? = some v → res[j]? = ρ v) (hk : ∀ m, source b m = .inl m → σ' m = σ m)
    (hc : ∀ m k, source b m = .inr k → ρ (n + k) = σ' m) (hdef : ∀ m k, source b m = .inr k → (σ' m).isSome) {l : List Sym} {r : List (Option Nat)}
    (hf : List.Forall₂ (RuleOk b n outs) l r) : ∀ {vals : List (Val S)}, vals.map some = l.map (symVal σ) →
    ∃ vals', newVals res r vals = some vals' ∧ vals'.map some = l.map (symVal σ') := by
  induction hf with
  | nil =>
    intro vals hv
    cases vals with
    | nil => exact ⟨[], rfl, rfl⟩
    | cons v vals => cases hv
  | cons hr _ ih =>
    intro vals hv
    cases vals with
    | nil => cases hv
    | cons v vals =>
      have hv' := List.cons.inj hv
      obtain ⟨vals', h1, h2⟩ := ih hv'.2
      obtain ⟨m, rfl, ⟨rfl, hs⟩ | ⟨j, k, rfl, hs, hj⟩⟩ := hr
      · refine ⟨v :: vals', by simp [newVals, h1], ?_⟩
        rw [List.map_cons, List.map_cons, h2]
        congr 1
        show some v = σ' m
        rw [hk m hs]
        exact hv'.1
      · obtain ⟨w, hw⟩ := Option.isSome_iff_exists.mp (hdef m k hs)
        refine ⟨w :: vals', ?_, ?_⟩
        · have : res[j]? = some w := by rw [hres j _ hj, hc m k hs, hw]
          simp [newVals, this, h1]
        · rw [List.map_cons, List.map_cons, h2]
          congr 1
          exact hw.symm

/-- One iteration of the compiled loop. -/
theorem body_ok (h : Carried b t n) {L : Loop} (hi : L.ins = (loopIns b).map (inst t n)) (heq : L.eqns = (symT (iteration b)).1.map (Eqn.map (inst t n)))
    (hr : List.Forall₂ (RuleOk b n L.outs) (loopIns b) L.rules)
    (ho : ∀ v ∈ L.outs, v = inst t n (source b nQ) ∨ ∃ k, v = n + k ∧ .inr k ∈ prods (symT (iteration b)).1)
    {σ σ' : Nat → Option (Val S)} {vals : List (Val S)} (hv : vals.map some = (loopIns b).map (symVal σ)) (hp : pyExec F (iteration b) σ = some σ') :
    ∃ vals', L.body F vals = some vals' ∧ vals'.map some = (loopIns b).map (symVal σ') := by
  have i0 := h.inj0
  obtain ⟨e', he', hs, hkeep⟩ := sym_sound F (iteration b) (e := symVal σ) (fun _ => rfl) hp
  obtain ⟨ρ, hρ, hρv⟩ := bind_ok i0 (symVal σ) (loopIns b) (e := fun _ => none) (fun x hx => dom_ins x ((mem_loopIns h.hidden).mp hx)) (loopIns_nodup b) hv
  have hrel : ∀ x ∈ Dom b, ρ (inst t n x) = symVal σ x := by
    intro x hx
    by_cases hx' : x ∈ loopIns b
    · exact (hρv x hx).1 hx'
    · rw [(hρv x hx).2 hx']
      rcases hx with ⟨m, hm, rfl⟩ | ⟨k, rfl⟩
      · exact absurd ((mem_loopIns h.hidden).mpr hm) hx'
      · rfl
  obtain ⟨ρ', hρ', hrel'⟩ := run_map F i0 _ dom_uses dom_prods hrel he'
  have hprod : ∀ k, .inr k ∈ prods (symT (iteration b)).1 → (ρ' (n + k)).isSome := by
    intro k hk
    have := hrel' (.inr k) (Or.inr ⟨k, rfl⟩)
    have h2 : ρ' (n + k) = e' (.inr k) := this
    rw [h2]
    exact run_some F _ he' (Or.inl hk)
  have hcarry : ∀ m k, source b m = .inr k → ρ' (n + k) = σ' m := by
    intro m k hk
    have h2 : ρ' (n + k) = e' (.inr k) := hrel' (.inr k) (Or.inr ⟨k, rfl⟩)
    rw [h2, ← hs m]
    exact congrArg e' hk.symm
  have hmem : ∀ m k, source b m = .inr k → .inr k ∈ prods (symT (iteration b)).1 := fun m k hk => ((sym_wf _).1 _).mpr ⟨k, rfl, (sym_wf _).2.2 m k hk⟩
  have hdef : ∀ m k, source b m = .inr k → (σ' m).isSome := by
    intro m k hk
    rw [← hcarry m k hk]
    exact hprod k (hmem m k hk)
  have hkept : ∀ m, source b m = .inl m → σ' m = σ m := by
    intro m hm
    rw [← hs m]
    exact (congrArg e' hm).trans (hkeep m)
  have h0 : (σ nQ).isSome := by
    have h1 : symVal σ (.inl nQ) ∈ (loopIns b).map (symVal σ) := List.mem_map_of_mem ((mem_loopIns h.hidden).mpr (zero_used b))
    rw [← hv] at h1
    obtain ⟨v, _, hv'⟩ := List.mem_map.mp h1
    have h2 : σ nQ = some v := hv'.symm
    rw [h2]
    rfl
  obtain ⟨res, hres, hrg⟩ := getA_ok (ρ := ρ') L.outs (by
    intro v hv
    rcases ho v hv with rfl | ⟨k, rfl, hk⟩
    · rcases h.carry nQ (zero_used b) with hz | ⟨k, hz⟩
      · have h2 : ρ' (inst t n (source b nQ)) = e' (.inl nQ) := by
          rw [hz]
          exact hrel' (.inl nQ) (Or.inl ⟨nQ, zero_used b, rfl⟩)
        rw [h2, hkeep nQ]
        exact h0
      · rw [hz]
        exact hprod k (hmem nQ k hz)
    · exact hprod k hk)
  obtain ⟨vals', h1, h2⟩ := newVals_ok (b := b) (n := n) hrg hkept hcarry hdef hr hv
  refine ⟨vals', ?_, h2⟩
  unfold Loop.body
  rw [hi, hρ, Option.bind_some, heq, hρ', Option.bind_some, hres, Option.bind_some, h1]

/-! ### The Python loop -/

/-- `for i in l: body`. -/
def pyFor (b : List Stm) : List Int → (Nat → Option (Val S)) → Option (Nat → Option (Val S))
  | [], σ => some σ
  | i :: l, σ => (pyExec F b (upd σ nI (some (.int i)))).bind (pyFor b l)

/-- `range(start, stop)`. -/
def pyRange (start stop : Int) : List Int := (List.range (stop - start).toNat).map fun (k : Nat) => start + (k : Int)

theorem pyExec_append (A B : List Stm) : ∀ σ : Nat → Option (Val S), pyExec F (A ++ B) σ = (pyExec F A σ).bind (pyExec F B) := by
  induction A with
  | nil => intro σ; rfl
  | cons s A ih =>
    intro σ
    cases s with
    | op o i outs =>
      show (getA σ i).bind (fun xs => (F o xs).bind fun ys => (setA σ outs ys).bind (pyExec F (A ++ B))) =
        ((getA σ i).bind (fun xs => (F o xs).bind fun ys => (setA σ outs ys).bind (pyExec F A))).bind (pyExec F B)
      simp only [Option.bind_assoc]
      congr 1; funext xs; congr 1; funext ys; congr 1; funext σ1
      exact ih σ1
    | copy a c => exact ih _

/-- Equal except for the hidden names. -/
def Agree (σ τ : Nat → Option (Val S)) : Prop := ∀ m, m ≠ nIdx → m ≠ nStop → σ m = τ m

theorem setA_frame (outs : List Nat) : ∀ {σ τ τ' : Nat → Option (Val S)} {ys : List (Val S)}, Agree σ τ → setA τ outs ys = some τ' →
    nIdx ∉ outs → nStop ∉ outs → ∃ σ', setA σ outs ys = some σ' ∧ Agree σ' τ' ∧ σ' nIdx = σ nIdx ∧ σ' nStop = σ nStop := by
  induction outs with
  | nil =>
    intro σ τ τ' ys ha h _ _
    cases ys with
    | nil => cases h; exact ⟨σ, rfl, ha, rfl, rfl⟩
    | cons y ys => cases h
  | cons o outs ih =>
    intro σ τ τ' ys ha h h1 h2
    cases ys with
    | nil => cases h
    | cons y ys =>
      obtain ⟨σ', g1, g2, g3, g4⟩ := ih (σ := upd σ o (some y)) (τ := upd τ o (some y)) (by
        intro m hm1 hm2
        unfold upd
        split
        · rfl
        · exact ha m hm1 hm2) h (fun hh => h1 (List.mem_cons_of_mem _ hh)) (fun hh => h2 (List.mem_cons_of_mem _ hh))
      refine ⟨σ', g1, g2, ?_, ?_⟩
      · rw [g3, upd_ne _ _ (fun hh => h1 (List.mem_cons.mpr (Or.inl hh)))]
      · rw [g4, upd_ne _ _ (fun hh => h2 (List.mem_cons.mpr (Or.inl hh)))]

theorem pyExec_frame (b : List Stm) : ∀ {σ τ τ' : Nat → Option (Val S)}, HiddenFree b → Agree σ τ → pyExec F b τ = some τ' →
    ∃ σ', pyExec F b σ = some σ' ∧ Agree σ' τ' ∧ σ' nIdx = σ nIdx ∧ σ' nStop = σ nStop := by
  induction b with
  | nil => intro σ τ τ' _ ha h; cases h; exact ⟨σ, rfl, ha, rfl, rfl⟩
  | cons s b ih =>
    intro σ τ τ' hb ha h
    have hs := hb s (List.mem_cons_self ..)
    have hb' : HiddenFree b := fun s hs => hb s (List.mem_cons_of_mem _ hs)
    cases s with
    | op o i outs =>
      obtain ⟨xs, hxs, h⟩ := Option.bind_eq_some_iff.mp h
      obtain ⟨ys, hys, h⟩ := Option.bind_eq_some_iff.mp h
      obtain ⟨τ1, hτ1, h⟩ := Option.bind_eq_some_iff.mp h
      simp only [Stm.names, List.mem_append, not_or] at hs
      obtain ⟨σ1, g1, g2, g3, g4⟩ := setA_frame outs ha hτ1 hs.1.2 hs.2.2
      obtain ⟨σ', k1, k2, k3, k4⟩ := ih hb' g2 h
      refine ⟨σ', ?_, k2, by rw [k3, g3], by rw [k4, g4]⟩
      have hg : getA σ i = some xs := by
        rw [← hxs]
        have := getA_map (φ := id) (ρ := σ) (e := τ) i (by
          intro x hx
          have hm : x ∈ i.filterMap Atom.var := List.mem_filterMap.mpr ⟨_, hx, rfl⟩
          exact ha x (fun he => hs.1.1 (he ▸ hm)) (fun he => hs.2.1 (he ▸ hm)))
        have hid : i.map (Atom.map id) = i := by
          rw [List.map_congr_left (g := id) (by intro a _; cases a <;> rfl), List.map_id]
        rwa [hid] at this
      show (getA σ i).bind (fun xs => (F o xs).bind fun ys => (setA σ outs ys).bind (pyExec F b)) = some σ'
      rw [hg, Option.bind_some, hys, Option.bind_some, g1, Option.bind_some, k1]
    | copy a c =>
      simp only [Stm.names, List.mem_cons, List.not_mem_nil, or_false, not_or] at hs
      obtain ⟨σ', k1, k2, k3, k4⟩ := ih (σ := upd σ a (σ c)) (τ := upd τ a (τ c)) hb' (by
        intro m hm1 hm2
        unfold upd
        split
        · exact ha c (fun he => hs.1.2 he.symm) (fun he => hs.2.2 he.symm)
        · exact ha m hm1 hm2) h
      exact ⟨σ', k1, k2, by rw [k3, upd_ne _ _ hs.1.1], by rw [k4, upd_ne _ _ hs.2.1]⟩

/-- The primitives of the iterator. -/
structure Std : Prop where
  add : ∀ a, F addOp [.int a, .int 1] = some [.int (a + 1)]
  mark : ∀ x y, F markOp [x, y] = some [x]

variable {F}

theorem iteration_exec (hF : Std F) (hb : HiddenFree b) {σ τ τ' : Nat → Option (Val S)} {i th : Int} (ha : Agree σ τ) (h1 : σ nIdx = some (.int i))
    (h2 : σ nStop = some (.int th)) (h : pyExec F b (upd τ nI (some (.int i))) = some τ') :
    ∃ σ', pyExec F (iteration b) σ = some σ' ∧ Agree σ' τ' ∧ σ' nIdx = some (.int (i + 1)) ∧ σ' nStop = some (.int th) := by
  obtain ⟨σ1, g1, g2, g3, g4⟩ := pyExec_frame F b (σ := upd σ nI (σ nIdx)) hb (by
    intro m hm1 hm2
    unfold upd
    split
    · rw [h1]
    · exact ha m hm1 hm2) h
  rw [upd_ne _ _ (by decide), h1] at g3
  rw [upd_ne _ _ (by decide), h2] at g4
  refine ⟨upd (upd σ1 nIdx (some (.int (i + 1)))) nIdx (some (.int (i + 1))), ?_, ?_, upd_eq .., ?_⟩
  · show pyExec F (b ++ _) (upd σ nI (σ nIdx)) = _
    rw [pyExec_append, g1, Option.bind_some]
    have e1 : (upd σ1 nIdx (some (Val.int (i + 1)))) nStop = some (.int th) := by rw [upd_ne _ _ (by decide), g4]
    have e2 : (upd σ1 nIdx (some (Val.int (i + 1)))) nIdx = some (.int (i + 1)) := upd_eq ..
    simp only [pyExec, getA, g3, Option.bind_some, Option.map_some, hF.add, setA, e1, e2, hF.mark]
  · intro m hm1 hm2
    rw [upd_ne _ _ hm1, upd_ne _ _ hm1]
    exact g2 m hm1 hm2
  · rw [upd_ne _ _ (by decide), upd_ne _ _ (by decide), g4]

theorem iter_ok (hF : Std F) (h : Carried b t n) {L : Loop} (hi : L.ins = (loopIns b).map (inst t n))
    (heq : L.eqns = (symT (iteration b)).1.map (Eqn.map (inst t n))) (hr : List.Forall₂ (RuleOk b n L.outs) (loopIns b) L.rules)
    (ho : ∀ v ∈ L.outs, v = inst t n (source b nQ) ∨ ∃ k, v = n + k ∧ .inr k ∈ prods (symT (iteration b)).1) (th : Int) (c : Nat) :
    ∀ {σ τ τ' : Nat → Option (Val S)} {i : Int} {vals : List (Val S)} {fuel : Nat}, Agree σ τ → σ nIdx = some (.int i) → σ nStop = some (.int th) →
    vals.map some = (loopIns b).map (symVal σ) → c = (th + 1 - i).toNat → c < fuel →
    pyFor F b ((List.range c).map fun (k : Nat) => i + (k : Int)) τ = some τ' →
    ∃ σ' vals', L.iter F fuel vals = some vals' ∧ Agree σ' τ' ∧ vals'.map some = (loopIns b).map (symVal σ') := by
  have hsh : ∃ l, loopIns b = .inl nStop :: .inl nIdx :: l := by
    exact ⟨_, toFront_two _ (by decide)⟩
  have hcond : ∀ {σ : Nat → Option (Val S)} {i : Int} {vals : List (Val S)}, σ nIdx = some (.int i) → σ nStop = some (.int th) →
      vals.map some = (loopIns b).map (symVal σ) → loopCond vals = some (decide (i ≤ th)) := by
    intro σ i vals h1 h2 hv
    obtain ⟨l, hl⟩ := hsh
    rw [hl] at hv
    match vals, hv with
    | [_], hv => cases (List.cons.inj hv).2
    | x :: y :: r, hv =>
      have e1 := (List.cons.inj hv).1
      have e2 := (List.cons.inj (List.cons.inj hv).2).1
      have e1' : some x = some (.int th) := by rw [e1]; exact h2
      have e2' : some y = some (.int i) := by rw [e2]; exact h1
      cases e1'
      cases e2'
      rfl
  induction c with
  | zero =>
    intro σ τ τ' i vals fuel ha h1 h2 hv hc hfu hp
    obtain ⟨fuel, rfl⟩ : ∃ f, fuel = f + 1 := ⟨fuel - 1, by omega⟩
    cases hp
    refine ⟨σ, vals, ?_, ha, hv⟩
    rw [Loop.iter, hcond h1 h2 hv, Option.bind_some, if_neg]
    simp only [decide_eq_true_eq]
    omega
  | succ c ih =>
    intro σ τ τ' i vals fuel ha h1 h2 hv hc hfu hp
    obtain ⟨fuel, rfl⟩ : ∃ f, fuel = f + 1 := ⟨fuel - 1, by omega⟩
    have hl : (List.range (c + 1)).map (fun (k : Nat) => i + (k : Int)) = i :: (List.range c).map (fun (k : Nat) => (i + 1) + (k : Int)) := by
      rw [List.range_succ_eq_map, List.map_cons, List.map_map]
      congr 1
      · simp
      · apply List.map_congr_left
        intro k _
        simp only [Function.comp]
        omega
    rw [hl] at hp
    obtain ⟨τ1, hτ1, hp⟩ := Option.bind_eq_some_iff.mp hp
    obtain ⟨σ1, g1, g2, g3, g4⟩ := iteration_exec hF h.hidden ha h1 h2 hτ1
    obtain ⟨vals1, b1, b2⟩ := body_ok F h hi heq hr ho hv g1
    obtain ⟨σ', vals', r1, r2, r3⟩ := ih (fuel := fuel) g2 g3 g4 b2 (by omega) (by omega) hp
    refine ⟨σ', vals', ?_, r2, r3⟩
    rw [Loop.iter, hcond h1 h2 hv, Option.bind_some, if_pos (by simp only [decide_eq_true_eq]; omega), b1, Option.bind_some, r1]

theorem loopIns_last (b : List Stm) : (loopIns b).getLast? = some (.inl nQ) := by
  exact toFront_last _ _ (by decide) (by decide) (by decide)

theorem exec_ok (hF : Std F) (h : Carried b t n) {L : Loop} (hi : L.ins = (loopIns b).map (inst t n))
    (heq : L.eqns = (symT (iteration b)).1.map (Eqn.map (inst t n))) (hr : List.Forall₂ (RuleOk b n L.outs) (loopIns b) L.rules)
    (ho : ∀ v ∈ L.outs, v = inst t n (source b nQ) ∨ ∃ k, v = n + k ∧ .inr k ∈ prods (symT (iteration b)).1) {start stop : Int}
    {ρ : Nat → Option (Val S)} (hdef : ∀ m ∈ Used b, (ρ (t m)).isSome) (h1 : ρ (t nIdx) = some (.int start)) (h2 : ρ (t nStop) = some (.int (stop - 1)))
    {τ' : Nat → Option (Val S)} (hp : pyFor F b (pyRange start stop) (ρ ∘ t) = some τ') {fuel : Nat} (hfu : (stop - start).toNat < fuel) :
    L.exec F fuel ρ = τ' nQ := by
  obtain ⟨vals, hg, hgv⟩ : ∃ vals, getA ρ (L.ins.map .v) = some vals ∧ vals.map some = (loopIns b).map (symVal (ρ ∘ t)) := by
    rw [hi]
    have hall : ∀ x ∈ loopIns b, ∃ m ∈ Used b, x = .inl m := fun x hx => ins_left ((mem_loopIns h.hidden).mp hx)
    generalize loopIns b = l at hall
    induction l with
    | nil => exact ⟨[], rfl, rfl⟩
    | cons x l ih =>
      obtain ⟨vals, g1, g2⟩ := ih (fun x hx => hall x (List.mem_cons_of_mem _ hx))
      obtain ⟨m, hm, rfl⟩ := hall x (List.mem_cons_self ..)
      obtain ⟨v, hv⟩ := Option.isSome_iff_exists.mp (hdef m hm)
      refine ⟨v :: vals, ?_, ?_⟩
      · show (ρ (t m)).bind (fun a => (getA ρ ((l.map (inst t n)).map .v)).map (a :: ·)) = _
        rw [hv, g1]
        rfl
      · rw [List.map_cons, List.map_cons, g2]
        congr 1
        exact hv.symm
  obtain ⟨σ', vals', r1, r2, r3⟩ := iter_ok hF h hi heq hr ho (stop - 1) ((stop - start).toNat) (σ := ρ ∘ t) (τ := ρ ∘ t) (fuel := fuel)
    (fun _ _ _ => rfl) h1 h2 hgv (by omega) hfu (by unfold pyRange at hp; exact hp)
  unfold Loop.exec
  rw [hg, Option.bind_some, r1, Option.bind_some]
  have hl := congrArg List.getLast? r3
  rw [List.getLast?_map, List.getLast?_map, loopIns_last] at hl
  have h0 : σ' nQ = τ' nQ := r2 nQ (by decide) (by decide)
  cases hv : vals'.getLast? with
  | none => rw [hv] at hl; cases hl
  | some v =>
    rw [hv] at hl
    rw [← h0]
    exact Option.some.inj hl

end

end Verif.Jasp.Jr
