import Verif.Comp.Dag

/-!
The structure of the permeability graph on one qubit, as automatic uncomputation uses it: the children of
a node along a qubit form a streak, and the children of the streak end it.
-/

namespace Verif.Comp

variable {L : Type}

/-- What holds for the edges labelled `q`. `T v t`: node `v` acts on `q` with type `t`; `A v`: `v` is an
allocation. -/
structure QI (E : List Edge) (q : Nat) (rec : Option Nat) (T : Nat → PT → Prop) (A : Nat → Prop) : Prop where
  none_ : rec = none → ∀ a b, b ∉ members E a q
  leaf : ∀ r, rec = some r → ∀ s ∈ members E r q, ∀ y, y ∉ members E s q
  only : ∀ r, rec = some r → ∀ p, r ∈ members E p q → ∀ v ∈ members E p q, v = r
  src : ∀ r, rec = some r → ∀ s ∈ members E r q, ∀ p, s ∈ members E p q → p = r
  /-- A member of a streak precedes whatever ends the streak. -/
  ends : ∀ p v s y, v ∈ members E p q → s ∈ members E p q → y ∈ members E s q → Relation.TransGen (Step E) v y
  source : ∀ v t, T v t → A v ∨ ∃ p, v ∈ members E p q
  /-- How the most recent node continues the streak of `v`. -/
  stat : ∀ r, rec = some r → ∀ v t p, T v t → v ∈ members E p q →
    p = r ∨ r ∈ members E p q ∨ ∃ s y, s ∈ members E p q ∧ y ∈ members E s q ∧ Reach E y r
  /-- Whatever changes the value after a control ends its streak. -/
  later : ∀ v p w u, T v .z → v ∈ members E p q → T w u → u ≠ .z →
    Reach E w v ∨ ∃ s y, s ∈ members E p q ∧ y ∈ members E s q ∧ Reach E y w

/-- The most recent node has children if it is no allocation. -/
def Full (E : List Edge) (q : Nat) (rec : Option Nat) : Prop :=
  ∀ r, rec = some r → ∀ p, r ∈ members E p q → ∃ m, m ∈ members E r q

theorem QI.frame {E E' : List Edge} {q : Nat} {rec : Option Nat} {T T' : Nat → PT → Prop} {A A' : Nat → Prop}
    (h : QI E q rec T A) (hm : ∀ a b, b ∈ members E' a q ↔ b ∈ members E a q)
    (hs : ∀ a b, Step E a b → Step E' a b) (hT : ∀ v t, T' v t → T v t) (hA : ∀ v, A v → A' v) :
    QI E' q rec T' A' := by
  have hr : ∀ {a b}, Reach E a b → Reach E' a b := fun h => Relation.ReflTransGen.mono hs _ _ h
  refine ⟨?_, ?_, ?_, ?_, ?_, ?_, ?_, ?_⟩
  · intro e a b; rw [hm]; exact h.none_ e a b
  · intro r e s hs' y; rw [hm] at hs' ⊢; exact h.leaf r e s hs' y
  · intro r e p h1 v h2; rw [hm] at h1 h2; exact h.only r e p h1 v h2
  · intro r e s h1 p h2; rw [hm] at h1 h2; exact h.src r e s h1 p h2
  · intro p v s y h1 h2 h3
    rw [hm] at h1 h2 h3
    exact Relation.TransGen.mono hs _ _ (h.ends p v s y h1 h2 h3)
  · intro v t ht
    refine (h.source v t (hT v t ht)).imp (hA v) ?_
    rintro ⟨p, hp⟩
    exact ⟨p, (hm p v).2 hp⟩
  · intro r e v t p ht hv
    rw [hm] at hv
    refine (h.stat r e v t p (hT v t ht) hv).imp_right (Or.imp (hm p r).2 ?_)
    rintro ⟨s, y, h1, h2, h3⟩
    exact ⟨s, y, (hm _ _).2 h1, (hm _ _).2 h2, hr h3⟩
  · intro v p w u ht hv hw hu
    rw [hm] at hv
    refine (h.later v p w u (hT _ _ ht) hv (hT _ _ hw) hu).imp hr ?_
    rintro ⟨s, y, h1, h2, h3⟩
    exact ⟨s, y, (hm _ _).2 h1, (hm _ _).2 h2, hr h3⟩

theorem Full.frame {E E' : List Edge} {q : Nat} {rec : Option Nat} (h : Full E q rec)
    (hm : ∀ a b, b ∈ members E' a q ↔ b ∈ members E a q) : Full E' q rec := by
  intro r e p hp
  rw [hm] at hp
  obtain ⟨m, hm'⟩ := h r e p hp
  exact ⟨m, (hm _ _).2 hm'⟩

/-- Adding a member to the streak. -/
theorem QI.add {E : List Edge} {q r n : Nat} {T : Nat → PT → Prop} {A : Nat → Prop} {t : PT} {et : ET}
    (h : QI E q (some r) T A) (hrn : r ≠ n) (hself : r ∉ members E r q) (hsink : ∀ b, b ∉ members E n q)
    (hun : ∀ p, n ∉ members E p q) (hTn : ∀ u, ¬ T n u) (H1 : ∀ v u, T v u → v ∈ members E r q → u = t)
    (H2 : ∀ w u, T w u → Reach E w r ∨ u = t) :
    QI (addEdge E r n et [q]) q (some r) (fun v u => T v u ∨ (v = n ∧ u = t)) A ∧
    Full (addEdge E r n et [q]) q (some r) := by
  have hm : ∀ a b, b ∈ members (addEdge E r n et [q]) a q ↔ b ∈ members E a q ∨ (a = r ∧ b = n) := by
    intro a b
    rw [members_addEdge]
    simp [hrn]
  have hst : Step (addEdge E r n et [q]) r n := step_addEdge.2 (Or.inr ⟨hrn, rfl, rfl⟩)
  refine ⟨⟨by simp, ?_, ?_, ?_, ?_, ?_, ?_, ?_⟩, ?_⟩
  · intro r' e s hs y hy
    obtain rfl : r = r' := by simpa using e
    rw [hm] at hs hy
    rcases hs with hs | ⟨_, rfl⟩
    · rcases hy with hy | ⟨rfl, _⟩
      · exact h.leaf r rfl s hs y hy
      · exact hself hs
    · rcases hy with hy | ⟨e, _⟩
      · exact hsink y hy
      · exact hrn e.symm
  · intro r' e p h1 v h2
    obtain rfl : r = r' := by simpa using e
    rw [hm] at h1 h2
    rcases h1 with h1 | ⟨_, e⟩
    · rcases h2 with h2 | ⟨rfl, _⟩
      · exact h.only r rfl p h1 v h2
      · exact absurd h1 hself
    · exact absurd e hrn
  · intro r' e s h1 p h2
    obtain rfl : r = r' := by simpa using e
    rw [hm] at h1 h2
    rcases h2 with h2 | ⟨e, _⟩
    · rcases h1 with h1 | ⟨_, rfl⟩
      · exact h.src r rfl s h1 p h2
      · exact absurd h2 (hun p)
    · exact e
  · intro p v s y h1 h2 h3
    rw [hm] at h1 h2 h3
    rcases h3 with h3 | ⟨rfl, rfl⟩
    · rcases h2 with h2 | ⟨_, rfl⟩
      · rcases h1 with h1 | ⟨rfl, _⟩
        · exact Relation.TransGen.mono (fun _ _ h => step_addEdge.2 (Or.inl h)) _ _ (h.ends p v s y h1 h2 h3)
        · exact absurd h3 (h.leaf p rfl s h2 y)
      · exact absurd h3 (hsink y)
    · rcases h2 with h2 | ⟨_, e⟩
      · rcases h1 with h1 | ⟨rfl, _⟩
        · rw [h.only s rfl p h2 v h1]
          exact Relation.TransGen.single hst
        · exact absurd h2 hself
      · exact absurd e hrn
  · rintro v u (hv | ⟨rfl, _⟩)
    · refine (h.source v u hv).imp_right ?_
      rintro ⟨p, hp⟩
      exact ⟨p, (hm _ _).2 (Or.inl hp)⟩
    · exact Or.inr ⟨r, (hm _ _).2 (Or.inr ⟨rfl, rfl⟩)⟩
  · intro r' e v u p hv hp
    obtain rfl : r = r' := by simpa using e
    rw [hm] at hp
    rcases hp with hp | ⟨e, _⟩
    · rcases hv with hv | ⟨rfl, _⟩
      · refine (h.stat r rfl v u p hv hp).imp_right (Or.imp (fun x => (hm _ _).2 (Or.inl x)) ?_)
        rintro ⟨s, y, h1, h2, h3⟩
        exact ⟨s, y, (hm _ _).2 (Or.inl h1), (hm _ _).2 (Or.inl h2), reach_addEdge h3⟩
      · exact absurd hp (hun p)
    · exact Or.inl e
  · rintro v p w u hv hp hw hu
    rw [hm] at hp
    rcases hv with hv | ⟨rfl, ez⟩
    · rcases hp with hp | ⟨rfl, rfl⟩
      · rcases hw with hw | ⟨rfl, rfl⟩
        · refine (h.later v p w u hv hp hw hu).imp reach_addEdge ?_
          rintro ⟨s, y, h1, h2, h3⟩
          exact ⟨s, y, (hm _ _).2 (Or.inl h1), (hm _ _).2 (Or.inl h2), reach_addEdge h3⟩
        · refine Or.inr ?_
          rcases h.stat r rfl v .z p hv hp with rfl | h1 | ⟨s, y, h1, h2, h3⟩
          · exact absurd (H1 v .z hv hp).symm hu
          · exact ⟨r, w, (hm _ _).2 (Or.inl h1), (hm _ _).2 (Or.inr ⟨rfl, rfl⟩), .refl⟩
          · exact ⟨s, y, (hm _ _).2 (Or.inl h1), (hm _ _).2 (Or.inl h2), (reach_addEdge h3).tail hst⟩
      · exact absurd hv (hTn .z)
    · have hpr : p = r := by
        rcases hp with hp | ⟨e, _⟩
        · exact absurd hp (hun p)
        · exact e
      subst hpr
      rcases hw with hw | ⟨rfl, rfl⟩
      · rcases H2 w u hw with h1 | h1
        · exact Or.inl ((reach_addEdge h1).tail hst)
        · exact absurd (h1.trans ez.symm) hu
      · exact Or.inl .refl
  · intro r' e p _
    obtain rfl : r = r' := by simpa using e
    exact ⟨n, (hm _ _).2 (Or.inr ⟨rfl, rfl⟩)⟩

/-- The most recent node after the end of a streak with a single member. -/
theorem QI.single {E : List Edge} {q r m : Nat} {T : Nat → PT → Prop} {A : Nat → Prop}
    (h : QI E q (some r) T A) (hm : members E r q = [m]) :
    QI E q (some m) T A ∧ ∀ b, b ∉ members E m q := by
  have hmm : m ∈ members E r q := by rw [hm]; simp
  have hno := h.leaf r rfl m hmm
  refine ⟨⟨by simp, ?_, ?_, ?_, h.ends, h.source, ?_, h.later⟩, hno⟩
  · intro r' e s hs
    obtain rfl : m = r' := by simpa using e
    exact absurd hs (hno s)
  · intro r' e p h1 v h2
    obtain rfl : m = r' := by simpa using e
    have := h.src r rfl m hmm p h1
    subst this
    rw [hm] at h2
    simpa using h2
  · intro r' e s hs
    obtain rfl : m = r' := by simpa using e
    exact absurd hs (hno s)
  · intro r' e v t p hv hp
    obtain rfl : m = r' := by simpa using e
    rcases h.stat r rfl v t p hv hp with rfl | h1 | ⟨s, y, h1, h2, h3⟩
    · exact Or.inr (Or.inl hmm)
    · exact Or.inr (Or.inr ⟨r, m, h1, hmm, .refl⟩)
    · exact Or.inr (Or.inr ⟨s, y, h1, h2, h3.tail (members_step hmm)⟩)

/-- The most recent node after the end of a streak with several members. -/
theorem QI.several {E : List Edge} {q r N : Nat} {T : Nat → PT → Prop} {A : Nat → Prop}
    (h : QI E q (some r) T A) (hne : ∃ m, m ∈ members E r q) (hlt : ∀ a b, Step E a b → a < N ∧ b < N)
    (hself : r ∉ members E r q) (hT : ∀ v t, T v t → v < N) :
    QI ((members E r q).foldl (fun E m => addEdge E m N .anti [q]) E) q (some N) T A ∧
    ∀ b, b ∉ members ((members E r q).foldl (fun E m => addEdge E m N .anti [q]) E) N q := by
  generalize hE : (members E r q).foldl (fun E m => addEdge E m N .anti [q]) E = E'
  have hst : ∀ a b, Step E' a b ↔ Step E a b ∨ (a ∈ members E r q ∧ b = N) := by
    intro a b
    rw [← hE, step_fold]
    constructor
    · rintro (h | ⟨h1, _, h2⟩)
      · exact .inl h
      · exact .inr ⟨h1, h2⟩
    · rintro (h | ⟨h1, h2⟩)
      · exact .inl h
      · exact .inr ⟨h1, by have := (hlt _ _ (members_step h1)).2; omega, h2⟩
  have hm : ∀ a b, b ∈ members E' a q ↔ b ∈ members E a q ∨ (a ∈ members E r q ∧ b = N) := by
    intro a b
    rw [← hE, members_fold]
    constructor
    · rintro (h | ⟨h1, _, h2, _⟩)
      · exact .inl h
      · exact .inr ⟨h1, h2⟩
    · rintro (h | ⟨h1, h2⟩)
      · exact .inl h
      · exact .inr ⟨h1, by have := (hlt _ _ (members_step h1)).2; omega, h2, rfl⟩
  have hr : ∀ {a b}, Reach E a b → Reach E' a b := fun h =>
    Relation.ReflTransGen.mono (fun a b h => (hst a b).2 (.inl h)) _ _ h
  have hN : ∀ b, b ∉ members E' N q := by
    intro b hb
    rcases (hm N b).1 hb with h1 | ⟨h1, _⟩
    · have := (hlt _ _ (members_step h1)).1; omega
    · have := (hlt _ _ (members_step h1)).2; omega
  have hNd : ∀ p, N ∉ members E p q := by
    intro p hp
    have := (hlt _ _ (members_step hp)).2; omega
  obtain ⟨m1, hm1⟩ := hne
  refine ⟨⟨by simp, ?_, ?_, ?_, ?_, ?_, ?_, ?_⟩, hN⟩
  · intro r' e s hs
    obtain rfl : N = r' := by simpa using e
    exact absurd hs (hN s)
  · intro r' e p h1 v h2
    obtain rfl : N = r' := by simpa using e
    rcases (hm _ _).1 h1 with h1 | ⟨h1, _⟩
    · exact absurd h1 (hNd p)
    · rcases (hm _ _).1 h2 with h2 | ⟨_, h2⟩
      · exact absurd h2 (h.leaf r rfl p h1 v)
      · exact h2
  · intro r' e s hs
    obtain rfl : N = r' := by simpa using e
    exact absurd hs (hN s)
  · intro p v s y h1 h2 h3
    rcases (hm _ _).1 h2 with h2' | ⟨_, rfl⟩
    · rcases (hm _ _).1 h3 with h3' | ⟨h3', rfl⟩
      · rcases (hm _ _).1 h1 with h1' | ⟨h1', rfl⟩
        · exact Relation.TransGen.mono (fun a b h => (hst a b).2 (.inl h)) _ _ (h.ends p v s y h1' h2' h3')
        · exact absurd h2' (h.leaf r rfl p h1' s)
      · have := h.src r rfl s h3' p h2'
        subst this
        rcases (hm _ _).1 h1 with h1' | ⟨h1', _⟩
        · exact Relation.TransGen.single ((hst _ _).2 (.inr ⟨h1', rfl⟩))
        · exact absurd h1' hself
    · exact absurd h3 (hN y)
  · intro v t hv
    refine (h.source v t hv).imp_right ?_
    rintro ⟨p, hp⟩
    exact ⟨p, (hm _ _).2 (.inl hp)⟩
  · intro r' e v t p hv hp
    obtain rfl : N = r' := by simpa using e
    refine Or.inr (Or.inr ?_)
    have hvN := hT v t hv
    have hp' : v ∈ members E p q := by
      rcases (hm _ _).1 hp with h | ⟨_, h⟩
      · exact h
      · omega
    have hmN : Step E' m1 N := (hst _ _).2 (.inr ⟨hm1, rfl⟩)
    rcases h.stat r rfl v t p hv hp' with rfl | h1 | ⟨s, y, h1, h2, h3⟩
    · exact ⟨v, N, hp, (hm _ _).2 (.inr ⟨hp', rfl⟩), .refl⟩
    · exact ⟨r, m1, (hm _ _).2 (.inl h1), (hm _ _).2 (.inl hm1), .single hmN⟩
    · exact ⟨s, y, (hm _ _).2 (.inl h1), (hm _ _).2 (.inl h2),
        ((hr h3).tail ((hst _ _).2 (.inl (members_step hm1)))).tail hmN⟩
  · intro v p w u hv hp hw hu
    have hvN := hT v _ hv
    have hp' : v ∈ members E p q := by
      rcases (hm _ _).1 hp with h | ⟨_, h⟩
      · exact h
      · omega
    refine (h.later v p w u hv hp' hw hu).imp hr ?_
    rintro ⟨s, y, h1, h2, h3⟩
    exact ⟨s, y, (hm _ _).2 (.inl h1), (hm _ _).2 (.inl h2), hr h3⟩

/-! ### Construction -/

/-- All qubits. -/
def LInv (d : Dag L) (T : Nat → Nat → PT → Prop) (A : Nat → Prop) : Prop :=
  ∀ q, QI d.edges q (d.recent q) (fun v t => T v q t) A ∧ Full d.edges q (d.recent q)

theorem no_back {E : List Edge} (h : ∃ rk : Nat → Nat, ∀ a b, Step E a b → rk a < rk b) {a b : Nat}
    (h1 : Step E a b) (h2 : Reach E b a) : False := by
  obtain ⟨rk, hrk⟩ := h
  have : ∀ x y, Reach E x y → rk x ≤ rk y := by
    intro x y hxy
    induction hxy with
    | refl => exact Nat.le_refl _
    | tail _ hs ih => exact Nat.le_trans ih (Nat.le_of_lt (hrk _ _ hs))
  have h3 := this b a h2
  have h4 := hrk a b h1
  omega

theorem connect_linv {d : Dag L} {T : Nat → Nat → PT → Prop} {TC : Nat → Nat → Prop} {A : Nat → Prop} {n q : Nat}
    {t : PT} (hi : Inv d T TC) (hl : LInv d T A) (hf : Fresh d n) (hu : Unconn d n q) (hTn : ∀ u, ¬ T n q u)
    (hT : ∀ v p u, T v p u → v < d.nodes.length) :
    LInv (connect d n q t) (fun v p u => T v p u ∨ (v = n ∧ p = q ∧ u = t)) A := by
  obtain ⟨r, hr, hrn⟩ := hu.recent
  have hself : ∀ a, a ∉ members d.edges a q := fun a h => no_back hi.acyc (members_step h) .refl
  have hsink : ∀ b, b ∉ members d.edges n q := fun b h => hf.sink b (members_step h)
  obtain ⟨hq, hqf⟩ := hl q
  rw [hr] at hq hqf
  have hother : ∀ p, p ≠ q → ∀ v u, (T v p u ∨ (v = n ∧ p = q ∧ u = t)) → T v p u := by
    rintro p hp v u (h | ⟨_, h, _⟩)
    · exact h
    · exact absurd h hp
  have hsame : ∀ v u, (T v q u ∨ (v = n ∧ q = q ∧ u = t)) → (T v q u ∨ (v = n ∧ u = t)) := by
    rintro v u (h | ⟨h1, _, h2⟩)
    · exact .inl h
    · exact .inr ⟨h1, h2⟩
  unfold connect
  by_cases hc : d.streak q = t ∧ t ≠ .neutral
  · rw [if_pos hc, last_eq hr]
    have H : ∀ v u, T v q u → Reach d.edges v r ∨ (v ∈ members d.edges r q ∧ u = t) := by
      intro v u hv
      obtain ⟨r', h1, h2⟩ := hi.qubit v q u hv
      rw [hr] at h1
      cases h1
      refine h2.imp_right fun h => ⟨h.1, ?_⟩
      rw [h.2 (by rw [hc.1]; exact hc.2), hc.1]
    intro p
    by_cases hp : p = q
    · subst hp
      have := hq.add (t := t) (et := .perm t) hrn (hself r) hsink hu.mem hTn (fun v u hv hm => by
        rcases H v u hv with h | h
        · exact absurd h (fun h => no_back hi.acyc (members_step hm) h)
        · exact h.2) (fun w u hw => (H w u hw).imp_right And.right)
      refine ⟨?_, ?_⟩
      · have h2 := this.1
        rw [← hr] at h2
        exact h2.frame (fun _ _ => Iff.rfl) (fun _ _ h => h) hsame (fun _ h => h)
      · have h2 := this.2
        rw [← hr] at h2
        exact h2
    · have hm : ∀ a b, b ∈ members (addEdge d.edges r n (.perm t) [q]) a p ↔ b ∈ members d.edges a p := by
        intro a b
        rw [members_addEdge]
        simp [hp]
      exact ⟨(hl p).1.frame hm (fun _ _ h => step_addEdge.2 (.inl h)) (hother p hp) (fun _ h => h), (hl p).2.frame hm⟩
  · rw [if_neg hc]
    obtain ⟨d', hd', _, hf', hu', _, _, _, _, _, _, hac, hT', hrec, hmem⟩ := reseat_spec hi hf hu
    -- the structure on `q` after the streak has been ended
    have key : ∃ r', d'.recent q = some r' ∧ QI d'.edges q (some r') (fun v u => T v q u) A ∧
        (∀ b, b ∉ members d'.edges r' q) ∧ ∀ a b, Step d.edges a b → Step d'.edges a b := by
      rw [last_eq hr] at hd'
      match hms : members d.edges r q with
      | [] =>
        rw [hms] at hd'
        subst hd'
        exact ⟨r, hr, hq, by intro b; change b ∉ members d.edges r q; rw [hms]; simp, fun _ _ h => h⟩
      | [m] =>
        rw [hms] at hd'
        subst hd'
        have := hq.single hms
        exact ⟨m, by simp [reseat, upd], this.1, this.2, fun _ _ h => h⟩
      | m1 :: m2 :: ms =>
        have e : reseat d q (members d.edges r q) = { d with
          nodes := d.nodes ++ [NK.term q]
          edges := (members d.edges r q).foldl (fun E m => addEdge E m d.nodes.length .anti [q]) d.edges
          recent := upd d.recent q (some d.nodes.length) } := by
          rw [hms]; rfl
        rw [e] at hd'
        subst hd'
        have := hq.several (N := d.nodes.length) ⟨m1, by rw [hms]; simp⟩ hi.edges_lt (hself r)
          (fun v t h => hT v q t h)
        exact ⟨d.nodes.length, by simp [upd], this.1, this.2, fun _ _ h => step_fold.2 (.inl h)⟩
    obtain ⟨r', hr', hq', hno, hmono⟩ := key
    dsimp only
    rw [hd', last_eq hr']
    have hrn' : r' ≠ n := by
      obtain ⟨x, h1, h2⟩ := hu'.recent
      rw [hr'] at h1
      cases h1
      exact h2
    intro p
    by_cases hp : p = q
    · subst hp
      have := hq'.add (t := t) (et := .perm t) hrn' (hno r') (fun b h => hf'.sink b (members_step h)) hu'.mem hTn
        (fun v u _ hm => absurd hm (hno v)) (fun w u hw => .inl (by
          have := hT' w u hw
          rwa [last_eq hr'] at this))
      refine ⟨?_, ?_⟩
      · have h2 := this.1
        rw [← hr'] at h2
        exact h2.frame (fun _ _ => Iff.rfl) (fun _ _ h => h) hsame (fun _ h => h)
      · have h2 := this.2
        rw [← hr'] at h2
        exact h2
    · have hm : ∀ a b, b ∈ members (addEdge d'.edges r' n (.perm t) [q]) a p ↔ b ∈ members d.edges a p := by
        intro a b
        rw [members_addEdge, hmem a p b hp]
        simp [hp]
      change QI _ _ (d'.recent p) _ _ ∧ Full _ _ (d'.recent p)
      rw [hrec p hp]
      exact ⟨(hl p).1.frame hm (fun a b h => step_addEdge.2 (.inl (hmono a b h))) (hother p hp) (fun _ h => h),
        (hl p).2.frame hm⟩

theorem connectAll_linv {n : Nat} {TC : Nat → Nat → Prop} {A : Nat → Prop} (l : List (Nat × Option PT)) :
    ∀ {d d' : Dag L} {T : Nat → Nat → PT → Prop}, Inv d T TC → LInv d T A → Fresh d n → (l.map Prod.fst).Nodup →
    (∀ x ∈ l, Unconn d n x.1) → (∀ x ∈ l, ∀ u, ¬ T n x.1 u) → (∀ v p u, T v p u → v < d.nodes.length) →
    connectAll d n l = some d' → LInv d' (fun v q u => T v q u ∨ (v = n ∧ (q, some u) ∈ l)) A := by
  induction l with
  | nil =>
    intro d d' T hi hl hf _ _ _ _ h
    simp only [connectAll, Option.some.injEq] at h
    subst h
    simpa using hl
  | cons x l ih =>
    intro d d' T hi hl hf hnd hu hTn hT h
    obtain ⟨q, o⟩ := x
    cases o with
    | none => simp [connectAll] at h
    | some t =>
      rw [connectAll] at h
      rw [List.map_cons, List.nodup_cons] at hnd
      obtain ⟨c1, c2, c3, c4, c5⟩ := connect_spec (t := t) hi hf (hu (q, some t) (by simp))
      have c6 := connect_linv (t := t) hi hl hf (hu (q, some t) (by simp)) (hTn (q, some t) (by simp)) hT
      have hne : ∀ x ∈ l, x.1 ≠ q := fun x hx e => hnd.1 (List.mem_map.2 ⟨x, hx, e⟩)
      have i1 := ih c1 c6 c3 hnd.2 (fun x hx => c4 x.1 (hne x hx) (hu x (by simp [hx])))
        (fun x hx u hc => by
          rcases hc with hc | ⟨_, hc, _⟩
          · exact hTn x (by simp [hx]) u hc
          · exact hne x hx hc)
        (fun v p u hv => by
          rcases hv with hv | ⟨rfl, _⟩
          · exact c2.lt (hT v p u hv)
          · exact c3.lt) h
      convert i1 using 4 with v p u
      simp only [List.mem_cons, Prod.mk.injEq, Option.some.injEq]
      tauto

theorem connectC_linv {n : Nat} {T : Nat → Nat → PT → Prop} {A : Nat → Prop} (l : List Nat) :
    ∀ {d : Dag L}, LInv d T A → LInv (l.foldl (connectC n) d) T A := by
  induction l with
  | nil => intro d h; exact h
  | cons c l ih =>
    intro d h
    apply ih
    intro q
    unfold connectC
    cases hr : d.recentC c with
    | none => exact h q
    | some r =>
      have hm : ∀ a b, b ∈ members (addEdge d.edges r n .anti []) a q ↔ b ∈ members d.edges a q := by
        intro a b
        rw [mem_members, mem_addEdge, ← mem_members]
        simp
      exact ⟨(h q).1.frame hm (fun _ _ h => step_addEdge.2 (.inl h)) (fun _ _ h => h) (fun _ h => h),
        (h q).2.frame hm⟩

/-- Allocation nodes. -/
def isAlloc (nodes : List (NK L)) (v : Nat) : Prop := ∃ p o, nodes[v]? = some (NK.alloc p o)

theorem isAlloc_append {nodes l : List (NK L)} {v : Nat} (h : isAlloc nodes v) : isAlloc (nodes ++ l) v := by
  obtain ⟨p, o, h⟩ := h
  refine ⟨p, o, ?_⟩
  rw [List.getElem?_append_left]
  · exact h
  · exact (List.getElem?_eq_some_iff.1 h).1

/-- The whole graph. -/
def GL (d : Dag L) : Prop := LInv d (TN d.nodes) (isAlloc d.nodes)

theorem allocStep_linv {d : Dag L} {ins : Instr L} {q : Nat} (hl : GL d)
    (hr : d.recent q = none) : GL (allocStep ins d q) := by
  unfold allocStep
  rw [if_neg (by simp [hr])]
  intro p
  dsimp only
  by_cases hp : p = q
  · subst hp
    have h0 := (hl p).1
    rw [hr] at h0
    have hno := h0.none_ rfl
    have hrec : upd d.recent p (some d.nodes.length) p = some d.nodes.length := by simp [upd]
    rw [hrec]
    refine ⟨⟨by simp, ?_, ?_, ?_, ?_, ?_, ?_, ?_⟩, ?_⟩
    · intro r _ s hs; exact absurd hs (hno _ _)
    · intro r _ s hs; exact absurd hs (hno _ _)
    · intro r _ s hs; exact absurd hs (hno _ _)
    · intro a v s y hs; exact absurd hs (hno _ _)
    · intro v t ht
      rcases TN_snoc.1 ht with ht | ⟨rfl, _⟩
      · refine (h0.source v t ht).imp isAlloc_append ?_
        rintro ⟨a, ha⟩
        exact absurd ha (hno _ _)
      · exact .inl ⟨p, _, by simp; rfl⟩
    · intro r _ v t a _ ha; exact absurd ha (hno _ _)
    · intro v a w u _ ha; exact absurd ha (hno _ _)
    · intro r _ a ha; exact absurd ha (hno _ _)
  · have hrec : upd d.recent q (some d.nodes.length) p = d.recent p := by simp [upd, hp]
    rw [hrec]
    refine ⟨(hl p).1.frame (fun _ _ => Iff.rfl) (fun _ _ h => h) ?_ (fun _ h => isAlloc_append h), (hl p).2⟩
    intro v t ht
    rcases TN_snoc.1 ht with ht | ⟨_, h2⟩
    · exact ht
    · exact absurd h2.1 hp

theorem TN_lt {nodes : List (NK L)} {v q : Nat} {t : PT} (h : TN nodes v q t) : v < nodes.length := by
  obtain ⟨k, hk, _⟩ := h
  exact (List.getElem?_eq_some_iff.1 hk).1

theorem opStep_linv {d d2 : Dag L} {ins : Instr L} (hg : GInv d ins.qubits) (hl : GL d) (ho : InsOK ins)
    (hr : ∀ q ∈ ins.qubits, (d.recent q).isSome)
    (h : connectAll { d with nodes := d.nodes ++ [.op ins] } d.nodes.length ins.qperm = some d2) :
    GL (ins.clbits.foldl (connectC d.nodes.length) d2) := by
  have hi0 : Inv { d with nodes := d.nodes ++ [.op ins] } (TN d.nodes) (TCN d.nodes) := by
    refine ⟨?_, ?_, ?_, hg.inv.qubit, hg.inv.clbit, hg.inv.acyc⟩
    · intro a b hs
      have := hg.inv.edges_lt a b hs
      simp; omega
    · intro p r hs
      have := hg.inv.recent_lt p r hs
      simp; omega
    · intro p r hs
      have := hg.inv.recentC_lt p r hs
      simp; omega
  have hf0 : Fresh { d with nodes := d.nodes ++ [.op ins] } d.nodes.length :=
    ⟨by simp, fun b hs => hg.inv.new_unreached hs⟩
  have hu : ∀ x ∈ ins.qperm, Unconn { d with nodes := d.nodes ++ [.op ins] } d.nodes.length x.1 := by
    intro x hx
    have hq : x.1 ∈ ins.qubits := by
      rw [← qperm_fst]
      exact List.mem_map.2 ⟨x, hx, rfl⟩
    refine ⟨?_, ?_⟩
    · intro r hm
      have := (hg.inv.edges_lt _ _ (members_step hm)).2
      omega
    · obtain ⟨r, e⟩ := Option.isSome_iff_exists.1 (hr _ hq)
      exact ⟨r, e, fun e' => by have := hg.inv.recent_lt _ _ e; omega⟩
  have hl0 : LInv { d with nodes := d.nodes ++ [.op ins] } (TN d.nodes) (isAlloc d.nodes) := hl
  have i0 := connectAll_linv ins.qperm hi0 hl0 hf0 (by rw [qperm_fst]; exact ho.nodup) hu
    (fun x _ u hc => by have := TN_lt hc; omega) (fun v p u hc => by have := TN_lt hc; simp; omega) h
  obtain ⟨i1, i2, i3, i4⟩ := connectAll_spec ins.qperm hi0 hf0 (by rw [qperm_fst]; exact ho.nodup) hu h
  obtain ⟨j1, j2, j3⟩ := connectCs_spec ins.clbits i1 i3
  have k := connectC_linv (n := d.nodes.length) ins.clbits i0
  have hE := i2.trans j2
  generalize hd3 : ins.clbits.foldl (connectC d.nodes.length) d2 = d3 at *
  obtain ⟨l, hl', hlt⟩ := hE.nodes
  replace hl' : d3.nodes = (d.nodes ++ [.op ins]) ++ l := hl'
  intro q
  refine ⟨(k q).1.frame (fun _ _ => Iff.rfl) (fun _ _ h => h) ?_ ?_, (k q).2⟩
  · intro v t ht
    rw [hl', TN_terms hlt, TN_snoc] at ht
    exact ht
  · intro v hv
    rw [hl', List.append_assoc]
    exact isAlloc_append hv

theorem allocs_linv {ins : Instr L} (ho : InsOK ins) (l : List Nat) :
    ∀ {d : Dag L}, GInv d ins.qubits → GL d → (∀ q ∈ l, q ∈ ins.qubits) → GL (l.foldl (allocStep ins) d) := by
  induction l with
  | nil => intro d _ h _; exact h
  | cons q l ih =>
    intro d hg hl hq
    rw [List.foldl_cons]
    by_cases hr : (d.recent q).isSome
    · rw [allocStep_old hr]
      exact ih hg hl fun p hp => hq p (by simp [hp])
    · have hr' : d.recent q = none := by simpa using hr
      exact ih (allocStep_spec hg ho (hq q (by simp)) (fun _ => hq q (by simp)) hr').1 (allocStep_linv hl hr')
        fun p hp => hq p (by simp [hp])

theorem dagStep_linv {d d' : Dag L} {ins : Instr L} (hg : GInv d []) (hl : GL d) (ho : InsOK ins)
    (h : dagStep d ins = some d') : GL d' := by
  unfold dagStep at h
  simp only at h
  by_cases hka : ins.kind = .alloc
  · obtain ⟨⟨q, hq⟩, hp, hc⟩ := ho.alloc hka
    have hfold : ins.qubits.foldl (allocStep ins) d = allocStep ins d q := by rw [hq]; rfl
    have hlast : (ins.qubits.getLast?.map (allocStep ins d q).fresh).getD false = (allocStep ins d q).fresh q := by
      rw [hq]; rfl
    rw [hfold, hlast] at h
    cases hr : d.recent q with
    | none =>
      obtain ⟨_, _, _, a4, _⟩ := allocStep_spec hg ho (q := q) (by rw [hq]; simp)
        (fun hn => absurd hka hn) hr
      rw [if_pos ⟨hka, a4⟩, Option.some.injEq] at h
      subst h
      exact allocStep_linv hl hr
    | some r =>
      rw [allocStep_old (by simp [hr])] at h
      by_cases hf : d.fresh q = true
      · rw [if_pos ⟨hka, hf⟩, Option.some.injEq] at h
        subst h
        exact hl
      · rw [if_neg (fun hc => hf hc.2)] at h
        obtain ⟨d2, h2, rfl⟩ := Option.map_eq_some_iff.1 h
        exact opStep_linv hg.weaken hl ho (by
          intro p hp; rw [hq, List.mem_singleton] at hp; subst hp; simp [hr]) h2
  · rw [if_neg (fun hc => hka hc.1)] at h
    obtain ⟨a1, a2, _, _⟩ := allocs_spec ho hka ins.qubits hg.weaken (fun _ h => h)
    obtain ⟨d2, h2, rfl⟩ := Option.map_eq_some_iff.1 h
    exact opStep_linv a1 (allocs_linv ho ins.qubits hg.weaken hl fun _ h => h) ho a2 h2

theorem dagOf_linv {data : List (Instr L)} : ∀ {d0 d : Dag L}, GInv d0 [] → GL d0 → (∀ i ∈ data, InsOK i) →
    data.foldlM dagStep d0 = some d → GL d := by
  induction data with
  | nil =>
    intro d0 d _ hl _ h
    simp only [List.foldlM_nil, Option.pure_def, Option.some.injEq] at h
    subst h
    exact hl
  | cons ins data ih =>
    intro d0 d hg hl ho h
    rw [List.foldlM_cons] at h
    obtain ⟨d1, h1, h2⟩ := Option.bind_eq_some_iff.1 h
    exact ih (dagStep_spec hg (ho ins (by simp)) h1).1 (dagStep_linv hg hl (ho ins (by simp)) h1)
      (fun i hi => ho i (by simp [hi])) h2

theorem empty_linv : GL (Dag.empty : Dag L) := by
  intro q
  refine ⟨⟨?_, ?_, ?_, ?_, ?_, ?_, ?_, ?_⟩, ?_⟩ <;> simp [Dag.empty, members, TN, Full]

theorem Made.linv {d : Dag L} {data : List (Instr L)} (h : Made d data) : GL d :=
  dagOf_linv empty_ginv empty_linv h.ok h.eq

end Verif.Comp
