import Verif.Jasp.Jrange

/-! Lemmas about the compilation of `jrange` loops. -/

namespace Verif.Jasp.Jr

set_option linter.unusedSectionVars false

/-! ### Lists -/

section
variable {X Y : Type} [DecidableEq X] [DecidableEq Y]

omit [DecidableEq Y] in
theorem upd_eq (f : X → Y) (x : X) (y : Y) : upd f x y x = y := if_pos rfl
omit [DecidableEq Y] in
theorem upd_ne (f : X → Y) {x z : X} (y : Y) (h : z ≠ x) : upd f x y z = f z := if_neg h

theorem mem_map_inj {φ : X → Y} {D : Set X} (hφ : Set.InjOn φ D) {x : X} (hx : x ∈ D) {l : List X} (hl : ∀ z ∈ l, z ∈ D) :
    φ x ∈ l.map φ ↔ x ∈ l := by
  constructor
  · intro h
    obtain ⟨z, hz, he⟩ := List.mem_map.mp h
    rwa [← hφ (hl z hz) hx he]
  · exact List.mem_map_of_mem

theorem firsts_map {φ : X → Y} {D : Set X} (hφ : Set.InjOn φ D) (l : List X) : ∀ (seen : List X), (∀ z ∈ l, z ∈ D) → (∀ z ∈ seen, z ∈ D) →
    firsts (seen.map φ) (l.map φ) = (firsts seen l).map φ := by
  induction l with
  | nil => intros; rfl
  | cons x l ih =>
    intro seen hl hs
    have hx := hl x (List.mem_cons_self ..)
    have hl' : ∀ z ∈ l, z ∈ D := fun z hz => hl z (List.mem_cons_of_mem _ hz)
    simp only [List.map_cons, firsts, mem_map_inj hφ hx hs]
    split
    · exact ih seen hl' hs
    · rw [List.map_cons, ← ih (x :: seen) hl' (by
        intro z hz
        rcases List.mem_cons.mp hz with rfl | h
        · exact hx
        · exact hs z h)]
      rfl

theorem erase_map {φ : X → Y} {D : Set X} (hφ : Set.InjOn φ D) {x : X} (hx : x ∈ D) (l : List X) (hl : ∀ z ∈ l, z ∈ D) :
    (l.map φ).erase (φ x) = (l.erase x).map φ := by
  induction l with
  | nil => rfl
  | cons a l ih =>
    have ha := hl a (List.mem_cons_self ..)
    have hl' : ∀ z ∈ l, z ∈ D := fun z hz => hl z (List.mem_cons_of_mem _ hz)
    by_cases h : a = x
    · subst h; simp
    · have h' : φ a ≠ φ x := fun he => h (hφ ha hx he)
      rw [List.map_cons, List.erase_cons_tail (by simpa using h'), List.erase_cons_tail (by simpa using h), List.map_cons, ih hl']

theorem mem_firsts {l : List X} : ∀ {seen : List X} {x : X}, x ∈ firsts seen l ↔ x ∈ l ∧ x ∉ seen := by
  induction l with
  | nil => simp [firsts]
  | cons a l ih =>
    intro seen x
    simp only [firsts]
    split
    · rename_i h
      rw [ih]
      constructor
      · rintro ⟨h1, h2⟩; exact ⟨List.mem_cons_of_mem _ h1, h2⟩
      · rintro ⟨h1, h2⟩
        rcases List.mem_cons.mp h1 with rfl | h1
        · exact absurd h h2
        · exact ⟨h1, h2⟩
    · rename_i h
      rw [List.mem_cons, ih]
      constructor
      · rintro (rfl | ⟨h1, h2⟩)
        · exact ⟨List.mem_cons_self .., h⟩
        · exact ⟨List.mem_cons_of_mem _ h1, fun h3 => h2 (List.mem_cons_of_mem _ h3)⟩
      · rintro ⟨h1, h2⟩
        by_cases hx : x = a
        · exact Or.inl hx
        · rcases List.mem_cons.mp h1 with h1 | h1
          · exact absurd h1 hx
          · exact Or.inr ⟨h1, fun h3 => (List.mem_cons.mp h3).elim hx h2⟩

theorem firsts_nodup (l : List X) : ∀ (seen : List X), (firsts seen l).Nodup := by
  induction l with
  | nil => intro; exact List.nodup_nil
  | cons a l ih =>
    intro seen
    simp only [firsts]
    split
    · exact ih seen
    · exact List.nodup_cons.mpr ⟨fun h => (mem_firsts.mp h).2 (List.mem_cons_self ..), ih _⟩

theorem uses_map (φ : X → Y) (E : List (Eqn X)) : uses (E.map (Eqn.map φ)) = (uses E).map φ := by
  induction E with
  | nil => rfl
  | cons q E ih =>
    have h : ∀ l : List (Atom X), (l.map (Atom.map φ)).filterMap Atom.var = (l.filterMap Atom.var).map φ := by
      intro l
      induction l with
      | nil => rfl
      | cons a l ih => cases a <;> simp [List.filterMap_cons, Atom.map, Atom.var, ih]
    simp only [uses, List.map_cons, List.flatMap_cons, List.map_append] at ih ⊢
    rw [ih]
    exact congrArg (· ++ _) (h q.ins)

theorem prods_map (φ : X → Y) (E : List (Eqn X)) : prods (E.map (Eqn.map φ)) = (prods E).map φ := by
  induction E with
  | nil => rfl
  | cons q E ih =>
    simp only [prods, List.map_cons, List.flatMap_cons, List.map_append] at ih ⊢
    rw [ih]
    rfl

theorem mem_envIns {E : List (Eqn X)} {s x : X} : x ∈ envIns E s ↔ (x ∈ uses E ∧ x ∉ prods E) ∨ x = s := by
  unfold envIns
  rw [List.mem_append, List.mem_singleton, ← mem_firsts]
  by_cases h : x = s
  · simp [h]
  · rw [List.mem_erase_of_ne h]

theorem envIns_nodup (E : List (Eqn X)) (s : X) : (envIns E s).Nodup := by
  unfold envIns
  rw [List.nodup_append]
  refine ⟨(firsts_nodup _ _).erase _, (by simp), ?_⟩
  intro a ha b hb h
  rw [List.mem_singleton] at hb
  subst hb
  subst h
  exact (List.Nodup.not_mem_erase (firsts_nodup _ _)) ha

theorem envIns_map {φ : X → Y} {D : Set X} (hφ : Set.InjOn φ D) {E : List (Eqn X)} {s : X} (hu : ∀ z ∈ uses E, z ∈ D) (hp : ∀ z ∈ prods E, z ∈ D) (hs : s ∈ D) :
    envIns (E.map (Eqn.map φ)) (φ s) = (envIns E s).map φ := by
  unfold envIns
  rw [uses_map, prods_map, firsts_map hφ _ _ hu hp, erase_map hφ hs _ (fun z hz => hu z (mem_firsts.mp hz).1), List.map_append]
  rfl

end

/-! ### Execution and renaming -/

section
variable {S : Type} {X Y : Type} [DecidableEq X] [DecidableEq Y]

theorem getA_map {φ : X → Y} {ρ : Y → Option (Val S)} {e : X → Option (Val S)} (l : List (Atom X)) (h : ∀ x, Atom.v x ∈ l → ρ (φ x) = e x) :
    getA ρ (l.map (Atom.map φ)) = getA e l := by
  induction l with
  | nil => rfl
  | cons a l ih =>
    have h' : ∀ x, Atom.v x ∈ l → ρ (φ x) = e x := fun x hx => h x (List.mem_cons_of_mem _ hx)
    cases a with
    | v x => simp only [List.map_cons, Atom.map, getA, h x (List.mem_cons_self ..), ih h']
    | lit i => simp only [List.map_cons, Atom.map, getA, ih h']

theorem setA_map {φ : X → Y} {D : Set X} (hφ : Set.InjOn φ D) (outs : List X) : ∀ {ys : List (Val S)} {ρ : Y → Option (Val S)}
    {e e' : X → Option (Val S)}, (∀ z ∈ outs, z ∈ D) → (∀ x ∈ D, ρ (φ x) = e x) → setA e outs ys = some e' →
    ∃ ρ', setA ρ (outs.map φ) ys = some ρ' ∧ ∀ x ∈ D, ρ' (φ x) = e' x := by
  induction outs with
  | nil =>
    intro ys ρ e e' _ he h
    cases ys with
    | nil => cases h; exact ⟨ρ, rfl, he⟩
    | cons y ys => cases h
  | cons o outs ih =>
    intro ys ρ e e' ho he h
    cases ys with
    | nil => cases h
    | cons y ys =>
      refine ih (ρ := upd ρ (φ o) (some y)) (fun z hz => ho z (List.mem_cons_of_mem _ hz)) ?_ h
      intro x hx
      by_cases hxo : x = o
      · subst hxo; rw [upd_eq, upd_eq]
      · rw [upd_ne _ _ hxo, upd_ne _ _ (fun hh => hxo (hφ hx (ho o (List.mem_cons_self ..)) hh)), he x hx]

variable (F : Op → List (Val S) → Option (List (Val S)))

theorem run_map {φ : X → Y} {D : Set X} (hφ : Set.InjOn φ D) (E : List (Eqn X)) : ∀ {ρ : Y → Option (Val S)} {e e' : X → Option (Val S)},
    (∀ z ∈ uses E, z ∈ D) → (∀ z ∈ prods E, z ∈ D) → (∀ x ∈ D, ρ (φ x) = e x) → run F E e = some e' →
    ∃ ρ', run F (E.map (Eqn.map φ)) ρ = some ρ' ∧ ∀ x ∈ D, ρ' (φ x) = e' x := by
  induction E with
  | nil =>
    intro ρ e e' _ _ he h
    cases h
    exact ⟨ρ, rfl, he⟩
  | cons q E ih =>
    intro ρ e e' hu hp he h
    obtain ⟨xs, hxs, h⟩ := Option.bind_eq_some_iff.mp h
    obtain ⟨ys, hys, h⟩ := Option.bind_eq_some_iff.mp h
    obtain ⟨e1, he1, h⟩ := Option.bind_eq_some_iff.mp h
    have hq : getA ρ (q.ins.map (Atom.map φ)) = some xs := by
      rw [getA_map (e := e) q.ins, hxs]
      intro x hx
      refine he x (hu x ?_)
      rw [uses, List.flatMap_cons, List.mem_append]
      exact Or.inl (List.mem_filterMap.mpr ⟨_, hx, rfl⟩)
    obtain ⟨ρ1, hρ1, hr1⟩ := setA_map hφ q.outs (ρ := ρ) (fun z hz => hp z (by
      rw [prods, List.flatMap_cons, List.mem_append]; exact Or.inl hz)) he he1
    obtain ⟨ρ', hρ', hr⟩ := ih (fun z hz => hu z (by
      rw [uses, List.flatMap_cons, List.mem_append]; exact Or.inr hz)) (fun z hz => hp z (by
      rw [prods, List.flatMap_cons, List.mem_append]; exact Or.inr hz)) hr1 h
    refine ⟨ρ', ?_, hr⟩
    show (getA ρ (q.ins.map (Atom.map φ))).bind (fun xs => (F q.op xs).bind fun ys => (setA ρ (q.outs.map φ) ys).bind
      (run F (E.map (Eqn.map φ)))) = some ρ'
    rw [hq, Option.bind_some, hys, Option.bind_some, hρ1, Option.bind_some, hρ']

theorem setA_other (outs : List X) : ∀ {ys : List (Val S)} {e e' : X → Option (Val S)} {x : X}, setA e outs ys = some e' → x ∉ outs → e' x = e x := by
  induction outs with
  | nil =>
    intro ys e e' x h _
    cases ys with
    | nil => cases h; rfl
    | cons y ys => cases h
  | cons o outs ih =>
    intro ys e e' x h hx
    cases ys with
    | nil => cases h
    | cons y ys =>
      rw [ih h (fun hh => hx (List.mem_cons_of_mem _ hh)), upd_ne _ _ (fun hh => hx (List.mem_cons.mpr (Or.inl hh)))]

theorem setA_some (outs : List X) : ∀ {ys : List (Val S)} {e e' : X → Option (Val S)} {x : X}, setA e outs ys = some e' →
    (x ∈ outs ∨ (e x).isSome) → (e' x).isSome := by
  induction outs with
  | nil =>
    intro ys e e' x h hx
    cases ys with
    | nil => cases h; exact hx.resolve_left (by simp)
    | cons y ys => cases h
  | cons o outs ih =>
    intro ys e e' x h hx
    cases ys with
    | nil => cases h
    | cons y ys =>
      refine ih h ?_
      by_cases hxo : x = o
      · exact Or.inr (by rw [hxo, upd_eq]; rfl)
      · rw [upd_ne _ _ hxo]
        exact hx.imp (fun hh => (List.mem_cons.mp hh).resolve_left hxo) id

theorem run_other (E : List (Eqn X)) : ∀ {e e' : X → Option (Val S)} {x : X}, run F E e = some e' → x ∉ prods E → e' x = e x := by
  induction E with
  | nil => intro e e' x h _; cases h; rfl
  | cons q E ih =>
    intro e e' x h hx
    rw [prods, List.flatMap_cons, List.mem_append, not_or] at hx
    obtain ⟨xs, hxs, h⟩ := Option.bind_eq_some_iff.mp h
    obtain ⟨ys, hys, h⟩ := Option.bind_eq_some_iff.mp h
    obtain ⟨e1, he1, h⟩ := Option.bind_eq_some_iff.mp h
    rw [ih h hx.2, setA_other _ he1 hx.1]

theorem run_some (E : List (Eqn X)) : ∀ {e e' : X → Option (Val S)} {x : X}, run F E e = some e' → (x ∈ prods E ∨ (e x).isSome) → (e' x).isSome := by
  induction E with
  | nil => intro e e' x h hx; cases h; exact hx.resolve_left (by simp [prods])
  | cons q E ih =>
    intro e e' x h hx
    rw [prods, List.flatMap_cons, List.mem_append] at hx
    obtain ⟨xs, hxs, h⟩ := Option.bind_eq_some_iff.mp h
    obtain ⟨ys, hys, h⟩ := Option.bind_eq_some_iff.mp h
    obtain ⟨e1, he1, h⟩ := Option.bind_eq_some_iff.mp h
    rcases hx with (hx | hx) | hx
    · exact ih h (Or.inr (setA_some _ he1 (Or.inl hx)))
    · exact ih h (Or.inl hx)
    · exact ih h (Or.inr (setA_some _ he1 (Or.inr hx)))

end

/-! ### Tracing -/

section
variable {X Y : Type} [DecidableEq X] [DecidableEq Y]

theorem assign_map (φ : X → Y) (outs : List Nat) : ∀ (t : Nat → X) (vs : List X), assign (φ ∘ t) outs (vs.map φ) = φ ∘ assign t outs vs := by
  induction outs with
  | nil => intros; rfl
  | cons o outs ih =>
    intro t vs
    cases vs with
    | nil => rfl
    | cons v vs =>
      have h : upd (φ ∘ t) o (φ v) = φ ∘ upd t o v := by
        funext z
        simp only [upd, Function.comp]
        split <;> rfl
      simp only [List.map_cons, assign, h, ih]

/-- Tracing with other variables. -/
theorem trace_map (φ : X → Y) (mk : Nat → X) (B : List Stm) : ∀ (t : Nat → X) (n : Nat),
    traceG (φ ∘ mk) B (φ ∘ t) n = ((traceG mk B t n).1.map (Eqn.map φ), φ ∘ (traceG mk B t n).2.1, (traceG mk B t n).2.2) := by
  induction B with
  | nil => intros; rfl
  | cons s B ih =>
    intro t n
    cases s with
    | op o i outs =>
      have h1 : (List.range' n outs.length).map (φ ∘ mk) = ((List.range' n outs.length).map mk).map φ := by rw [List.map_map]
      have h2 : i.map (Atom.map (φ ∘ t)) = (i.map (Atom.map t)).map (Atom.map φ) := by
        rw [List.map_map]
        apply List.map_congr_left
        intro a _
        cases a <;> rfl
      simp only [traceG, h1, assign_map, ih, List.map_cons, Eqn.map, h2]
    | copy a b =>
      have h : upd (φ ∘ t) a ((φ ∘ t) b) = φ ∘ upd t a (t b) := by
        funext z
        simp only [upd, Function.comp]
        split <;> rfl
      simp only [traceG, h, ih]

/-- Tracing with shifted numbers of the variables. -/
theorem trace_shift (mk : Nat → X) (c : Nat) (B : List Stm) : ∀ (t : Nat → X) (n : Nat),
    traceG mk B t (c + n) = ((traceG (fun k => mk (c + k)) B t n).1, (traceG (fun k => mk (c + k)) B t n).2.1, c + (traceG (fun k => mk (c + k)) B t n).2.2) := by
  induction B with
  | nil => intros; rfl
  | cons s B ih =>
    intro t n
    cases s with
    | op o i outs =>
      have h1 : (List.range' (c + n) outs.length).map mk = (List.range' n outs.length).map (fun k => mk (c + k)) := by
        rw [List.range'_eq_map_range, List.range'_eq_map_range, List.map_map, List.map_map]
        apply List.map_congr_left
        intro a _
        simp only [Function.comp]
        congr 1
        omega
      simp only [traceG, h1]
      rw [Nat.add_assoc, ih]
    | copy a b => simp only [traceG, ih]

theorem trace_append (mk : Nat → X) (A B : List Stm) : ∀ (t : Nat → X) (n : Nat), traceG mk (A ++ B) t n =
    ((traceG mk A t n).1 ++ (traceG mk B (traceG mk A t n).2.1 (traceG mk A t n).2.2).1, (traceG mk B (traceG mk A t n).2.1 (traceG mk A t n).2.2).2) := by
  induction A with
  | nil => intros; rfl
  | cons s A ih =>
    intro t n
    cases s with
    | op o i outs => simp only [List.cons_append, traceG, ih]
    | copy a b => simp only [List.cons_append, traceG, ih]

end

/-- Variables of an abstract iteration: the value of a name before it, or the result of an equation. -/
abbrev Sym := Nat ⊕ Nat

/-- The abstract trace. -/
def symT (B : List Stm) : List (Eqn Sym) × (Nat → Sym) × Nat := traceG Sum.inr B Sum.inl 0

/-- The variables of a trace that starts with the meaning `t` of the names and the number `n`. -/
def inst (t : Nat → Nat) (n : Nat) : Sym → Nat := Sum.elim t (fun k => n + k)

theorem trace_inst (B : List Stm) (t : Nat → Nat) (n : Nat) :
    traceG id B t n = ((symT B).1.map (Eqn.map (inst t n)), inst t n ∘ (symT B).2.1, n + (symT B).2.2) := by
  have h1 := trace_shift (X := Nat) id n B t 0
  rw [Nat.add_zero] at h1
  have h2 := trace_map (inst t n) Sum.inr B Sum.inl 0
  have h3 : inst t n ∘ Sum.inr = fun k => id (n + k) := rfl
  have h4 : inst t n ∘ Sum.inl = t := rfl
  rw [h3, h4] at h2
  rw [h1, h2]
  rfl

theorem assign_inr (outs : List Nat) : ∀ (t : Nat → Sym) (n : Nat), (∀ m k, t m = .inr k → k < n) →
    ∀ m k, assign t outs ((List.range' n outs.length).map Sum.inr) m = .inr k → k < n + outs.length := by
  induction outs with
  | nil => intro t n h m k hk; exact h m k hk
  | cons o outs ih =>
    intro t n h m k hk
    have := ih (upd t o (.inr n)) (n + 1) (by
      intro m k hk
      unfold upd at hk
      split at hk
      · cases hk; omega
      · have := h m k hk; omega) m k (by simpa [List.range'_succ, assign] using hk)
    simp only [List.length_cons]
    omega

/-- Results are numbered in the order of the equations, and only earlier results are used. -/
theorem trace_wf (B : List Stm) : ∀ (t : Nat → Sym) (n : Nat), (∀ m k, t m = .inr k → k < n) →
    n ≤ (traceG Sum.inr B t n).2.2 ∧ (∀ x, x ∈ prods (traceG Sum.inr B t n).1 ↔ ∃ k, x = .inr k ∧ n ≤ k ∧ k < (traceG Sum.inr B t n).2.2) ∧
    (∀ k, .inr k ∈ uses (traceG Sum.inr B t n).1 → k < (traceG Sum.inr B t n).2.2) ∧
    (∀ m k, (traceG Sum.inr B t n).2.1 m = .inr k → k < (traceG Sum.inr B t n).2.2) := by
  induction B with
  | nil =>
    intro t n h
    refine ⟨le_refl _, ?_, ?_, h⟩
    · intro x
      simp only [traceG, prods, List.flatMap_nil, List.not_mem_nil, false_iff]
      rintro ⟨k, _, h1, h2⟩
      omega
    · intro k hk
      simp [traceG, uses] at hk
  | cons s B ih =>
    intro t n h
    cases s with
    | op o i outs =>
      obtain ⟨h1, h2, h3, h4⟩ := ih (assign t outs ((List.range' n outs.length).map Sum.inr)) (n + outs.length) (assign_inr outs t n h)
      refine ⟨by simp only [traceG]; omega, ?_, ?_, h4⟩
      · intro x
        have he : x ∈ prods (traceG Sum.inr (.op o i outs :: B) t n).1 ↔ x ∈ (List.range' n outs.length).map Sum.inr ∨
            x ∈ prods (traceG Sum.inr B (assign t outs ((List.range' n outs.length).map Sum.inr)) (n + outs.length)).1 := by
          simp only [traceG, prods, List.flatMap_cons, List.mem_append]
        rw [he, h2, List.mem_map]
        simp only [traceG, List.mem_range'_1]
        constructor
        · rintro (⟨k, hk, rfl⟩ | ⟨k, rfl, hk⟩)
          · exact ⟨k, rfl, by omega, by omega⟩
          · exact ⟨k, rfl, by omega, by omega⟩
        · rintro ⟨k, rfl, hk1, hk2⟩
          by_cases hc : k < n + outs.length
          · exact Or.inl ⟨k, ⟨hk1, hc⟩, rfl⟩
          · exact Or.inr ⟨k, rfl, by omega, hk2⟩
      · intro k hk
        simp only [traceG, uses, List.flatMap_cons, List.mem_append] at hk ⊢
        rcases hk with hk | hk
        · obtain ⟨a, ha, hv⟩ := List.mem_filterMap.mp hk
          obtain ⟨b, hb, rfl⟩ := List.mem_map.mp ha
          cases b with
          | v x =>
            have := h x k (Option.some.inj hv)
            omega
          | lit i => cases hv
        · exact h3 k hk
    | copy a b =>
      exact ih (upd t a (t b)) n (by
        intro m k hk
        unfold upd at hk
        split at hk
        · exact h b k hk
        · exact h m k hk)

theorem sym_wf (B : List Stm) : (∀ x, x ∈ prods (symT B).1 ↔ ∃ k, x = .inr k ∧ k < (symT B).2.2) ∧
    (∀ k, .inr k ∈ uses (symT B).1 → k < (symT B).2.2) ∧ (∀ m k, (symT B).2.1 m = .inr k → k < (symT B).2.2) := by
  obtain ⟨_, h2, h3, h4⟩ := trace_wf B Sum.inl 0 (by intro m k h; cases h)
  exact ⟨fun x => by simpa [symT] using h2 x, h3, h4⟩

section
variable {S : Type} (F : Op → List (Val S) → Option (List (Val S)))

theorem setA_trace (outs : List Nat) : ∀ {t : Nat → Sym} {n : Nat} {ys : List (Val S)} {σ σ' : Nat → Option (Val S)} {e : Sym → Option (Val S)},
    (∀ m k, t m = .inr k → k < n) → (∀ m, e (t m) = σ m) → setA σ outs ys = some σ' →
    ∃ e', setA e ((List.range' n outs.length).map Sum.inr) ys = some e' ∧ ∀ m, e' (assign t outs ((List.range' n outs.length).map Sum.inr) m) = σ' m := by
  induction outs with
  | nil =>
    intro t n ys σ σ' e _ he h
    cases ys with
    | nil => cases h; exact ⟨e, rfl, he⟩
    | cons y ys => cases h
  | cons o outs ih =>
    intro t n ys σ σ' e ht he h
    cases ys with
    | nil => cases h
    | cons y ys =>
      have := ih (t := upd t o (.inr n)) (n := n + 1) (e := upd e (.inr n) (some y)) (by
        intro m k hk
        unfold upd at hk
        split at hk
        · cases hk; omega
        · have := ht m k hk; omega) (by
        intro m
        by_cases hm : m = o
        · subst hm; rw [upd_eq, upd_eq, upd_eq]
        · rw [upd_ne _ _ hm, upd_ne _ _ hm, upd_ne _ _ (fun hh => by have := ht m n hh; omega), he]) h
      simpa [List.range'_succ, setA, assign] using this

/-- The equations of a trace compute what the program computes. -/
theorem trace_sound (B : List Stm) : ∀ {t : Nat → Sym} {n : Nat} {σ σ' : Nat → Option (Val S)} {e : Sym → Option (Val S)},
    (∀ m k, t m = .inr k → k < n) → (∀ m, e (t m) = σ m) → pyExec F B σ = some σ' →
    ∃ e', run F (traceG Sum.inr B t n).1 e = some e' ∧ ∀ m, e' ((traceG Sum.inr B t n).2.1 m) = σ' m := by
  induction B with
  | nil => intro t n σ σ' e _ he h; cases h; exact ⟨e, rfl, he⟩
  | cons s B ih =>
    intro t n σ σ' e ht he h
    cases s with
    | op o i outs =>
      obtain ⟨xs, hxs, h⟩ := Option.bind_eq_some_iff.mp h
      obtain ⟨ys, hys, h⟩ := Option.bind_eq_some_iff.mp h
      obtain ⟨σ1, hσ1, h⟩ := Option.bind_eq_some_iff.mp h
      obtain ⟨e1, he1, hr1⟩ := setA_trace outs ht he hσ1
      obtain ⟨e', he', hr⟩ := ih (assign_inr outs t n ht) hr1 h
      refine ⟨e', ?_, hr⟩
      have hq : getA e (i.map (Atom.map t)) = some xs := by rw [getA_map (e := σ) i (fun x _ => he x), hxs]
      show (getA e (i.map (Atom.map t))).bind (fun xs => (F o xs).bind fun ys => (setA e ((List.range' n outs.length).map Sum.inr) ys).bind
        (run F (traceG Sum.inr B (assign t outs ((List.range' n outs.length).map Sum.inr)) (n + outs.length)).1)) = some e'
      rw [hq, Option.bind_some, hys, Option.bind_some, he1, Option.bind_some, he']
    | copy a b =>
      exact ih (t := upd t a (t b)) (by
        intro m k hk
        unfold upd at hk
        split at hk
        · exact ht b k hk
        · exact ht m k hk) (by
        intro m
        by_cases hm : m = a
        · subst hm; rw [upd_eq, upd_eq, he]
        · rw [upd_ne _ _ hm, upd_ne _ _ hm, he]) h

theorem sym_sound (B : List Stm) {σ σ' : Nat → Option (Val S)} {e : Sym → Option (Val S)} (he : ∀ m, e (.inl m) = σ m) (h : pyExec F B σ = some σ') :
    ∃ e', run F (symT B).1 e = some e' ∧ (∀ m, e' ((symT B).2.1 m) = σ' m) ∧ ∀ m, e' (.inl m) = σ m := by
  obtain ⟨e', h1, h2⟩ := trace_sound F B (t := Sum.inl) (n := 0) (e := e) (by intro m k h; cases h) he h
  refine ⟨e', h1, h2, fun m => ?_⟩
  rw [run_other F _ h1 (fun hp => by
    obtain ⟨k, hk, _⟩ := ((sym_wf B).1 _).mp hp
    cases hk), he]

end

end Verif.Jasp.Jr
