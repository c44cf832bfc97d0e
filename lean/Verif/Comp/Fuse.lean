import Verif.Comp.Dag
import Mathlib.Algebra.BigOperators.Group.List.Basic
import Mathlib.Data.List.Dedup
import Mathlib.Data.Real.Basic
import Mathlib.Tactic.Linarith

/-!
Model of the graph part of `circuit/pass_management/passes/fuse_adjacents.py`: the instructions are visited in
order; an instruction all of whose qubits were last used by one node is fused with that node or cancels it; the
remaining nodes are emitted in a topological order. The rule that fuses two instructions is a parameter here.
-/

namespace Verif.Fuse

variable {J : Type}

/-- What the pass looks at: qubits and classical bits of an instruction, and the angle of a `gphase` gate. -/
structure Sig (J : Type) where
  qs : J → List Nat
  cs : J → List Nat
  gph : J → Option ℝ

/-- Function update. -/
def put {β : Type} (f : Nat → β) (k : Nat) (v : β) : Nat → β := fun x => if x = k then v else f x

/-- The local variables of `fuse_adjacents`: `data` the visited part of `data_list`, `alive` the instruction nodes of
`G` in the order of their insertion, `edges` the edges of `G`, `qdic`/`cdic`/`edic` the dictionaries `qubit_dic`,
`clbit_dic`, `edge_dic`, `g` the accumulated global phase. Negative nodes stand for the start of a bit. -/
structure DSt (J : Type) where
  data : Nat → Option J
  alive : List Nat
  edges : List (Int × Nat)
  qdic : Nat → Int
  cdic : Nat → Int
  edic : Int → Nat → Option (List Nat)
  g : ℝ

/-- fuse_adjacents.py:613-657 `_init_dag`: bit `i` starts at node `-i-1` (line 650: the numbers are used for qubits and
for classical bits alike). -/
def init : DSt J := ⟨fun _ => none, [], [], fun q => -(q : Int) - 1, fun c => -(c : Int) - 1, fun _ _ => none, 0⟩

/-- Dictionary update of `edge_dic`. -/
def putE (f : Int → Nat → Option (List Nat)) (u : Int) (v : Nat) (l : Option (List Nat)) : Int → Nat → Option (List Nat) :=
  fun u' v' => if u' = u ∧ v' = v then l else f u' v'

/-- fuse_adjacents.py:858-870: one qubit of the visited instruction `i`. -/
def linkQ (i : Nat) (s : DSt J) (q : Nat) : DSt J :=
  let p := s.qdic q
  let s1 := if (p, i) ∈ s.edges then s else { s with edges := s.edges ++ [(p, i)], edic := putE s.edic p i (some []) }
  { s1 with edic := putE s1.edic p i ((s1.edic p i).map (· ++ [q])), qdic := put s1.qdic q i }

/-- fuse_adjacents.py:874-876: one classical bit. -/
def linkC (i : Nat) (s : DSt J) (c : Nat) : DSt J :=
  { s with edges := if (s.cdic c, i) ∈ s.edges then s.edges else s.edges ++ [(s.cdic c, i)], cdic := put s.cdic c i }

/-- fuse_adjacents.py:853-876: the node and its edges. -/
def link (S : Sig J) (s : DSt J) (i : Nat) (x : J) : DSt J :=
  (S.cs x).foldl (linkC i) ((S.qs x).foldl (linkQ i) { s with data := put s.data i (some x), alive := s.alive ++ [i] })

/-- fuse_adjacents.py:660-682 `_rewire_past_node`; `none` is a `KeyError`. -/
def rewire (s : DSt J) (v : Nat) : Option (DSt J) :=
  (s.edges.filter fun e => e.2 = v).foldlM (fun s e =>
    (s.edic e.1 v).map fun l => { s with qdic := l.foldl (fun d q => put d q e.1) s.qdic, edic := putE s.edic e.1 v none }) s

/-- `G.remove_node`. -/
def remove (s : DSt J) (v : Nat) : DSt J :=
  { s with alive := s.alive.filter (· ≠ v), edges := s.edges.filter fun e => e.1 ≠ v ∧ e.2 ≠ v }

/-- The fusion rule: `none` for no fusion, `some (none, g)` for cancellation, `some (some r, g)` for the instruction `r`;
`g` is added to the global phase. -/
abbrev Rule (J : Type) := J → J → Option (Option J × ℝ)

/-- fuse_adjacents.py:852-912: one instruction. The set `predecessors` is the list of the dictionary values without
repetition. -/
def fuseStep (S : Sig J) (F : Rule J) (s : DSt J) (i : Nat) (x : J) : Option (DSt J) :=
  let s1 := link S s i x
  match ((S.qs x).map s.qdic).dedup with
  | [p] =>
    if p < 0 then some s1
    else match s1.data p.toNat with
      | none => none
      | some a => match F a x with
        | none => some s1
        | some (none, g) =>
          (rewire s1 p.toNat).map fun s2 => remove (remove { s2 with g := s2.g + g } p.toNat) i
        | some (some r, g) =>
          (rewire { s1 with data := put s1.data p.toNat (some r), g := s1.g + g } i).map fun s2 => remove s2 i
  | _ => some s1

/-- The loop, from instruction number `i` on. -/
def fuseLoop (S : Sig J) (F : Rule J) : Nat → List J → DSt J → Option (DSt J)
  | _, [], s => some s
  | i, x :: r, s => (fuseStep S F s i x).bind (fuseLoop S F (i + 1) r)

/-- What `nx.topological_sort` may return, without the nodes of the bits, which have no incoming edges. -/
structure Topo (s : DSt J) (ord : List Nat) : Prop where
  perm : ord.Perm s.alive
  forward : ∀ a b : Nat, ((a : Int), b) ∈ s.edges → [a, b].Sublist ord

/-- The sum of the angles of the `gphase` gates. -/
noncomputable def gsum (S : Sig J) (l : List J) : ℝ := (l.filterMap S.gph).sum

/-- fuse_adjacents.py:685-729 `_emit_surviving_circuit`; `mk` builds a `gphase` gate on the first qubit. -/
noncomputable def emitG (S : Sig J) (mk : ℝ → J) (s : DSt J) (ord : List Nat) : List J :=
  let l := ord.filterMap s.data
  let t := s.g + gsum S l
  (l.filter fun j => (S.gph j).isNone) ++ (if t ≠ 0 then [mk t] else [])

/-! ### Specification -/

/-- An interpretation of the instructions and of global phases. -/
structure Sem (S : Sig J) (σ : Type) where
  act : J → σ → σ
  ph : ℝ → σ → σ
  comm : ∀ a b, (∀ q ∈ S.qs a, q ∉ S.qs b) → (∀ c ∈ S.cs a, c ∉ S.cs b) → ∀ x, act b (act a x) = act a (act b x)
  ph_zero : ∀ x, ph 0 x = x
  ph_add : ∀ g h x, ph (g + h) x = ph g (ph h x)
  ph_act : ∀ g a x, act a (ph g x) = ph g (act a x)

/-- The instructions in order. -/
def runS {σ : Type} (act : J → σ → σ) (l : List J) (x : σ) : σ := l.foldl (fun x j => act j x) x

/-- A sound fusion rule for two instructions on the same qubits, in this order. -/
structure Sound (S : Sig J) {σ : Type} (M : Sem S σ) (ok : J → Prop) (F : Rule J) : Prop where
  cs : ∀ a b r, ok a → ok b → F a b = some r → S.cs a = [] ∧ S.cs b = []
  qs : ∀ a b r, ok a → ok b → F a b = some r → (∀ q ∈ S.qs b, q ∈ S.qs a) → ∀ q ∈ S.qs a, q ∈ S.qs b
  fused : ∀ a b r g, ok a → ok b → F a b = some (some r, g) → (∀ q ∈ S.qs b, q ∈ S.qs a) →
    ok r ∧ (S.qs r).Nodup ∧ S.cs r = [] ∧ (∀ q, q ∈ S.qs r ↔ q ∈ S.qs a) ∧ ∀ x, M.act b (M.act a x) = M.ph g (M.act r x)
  cancel : ∀ a b g, ok a → ok b → F a b = some (none, g) → (∀ q ∈ S.qs b, q ∈ S.qs a) →
    ∀ x, M.act b (M.act a x) = M.ph g x
  gph : ∀ a g, ok a → S.gph a = some g → ∀ x, M.act a x = M.ph g x

/-! ### Running -/

variable {S : Sig J} {σ : Type}

theorem runS_append (act : J → σ → σ) (a b : List J) (x : σ) : runS act (a ++ b) x = runS act b (runS act a x) := by
  simp [runS]

theorem runS_past (M : Sem S σ) (b : J) (A : List J) (h : ∀ a ∈ A, (∀ q ∈ S.qs a, q ∉ S.qs b) ∧ ∀ c ∈ S.cs a, c ∉ S.cs b)
    (x : σ) : M.act b (runS M.act A x) = runS M.act A (M.act b x) := by
  induction A generalizing x with
  | nil => rfl
  | cons a A ih =>
    have e1 : ∀ y, runS M.act (a :: A) y = runS M.act A (M.act a y) := fun _ => rfl
    rw [e1, e1, ih (fun c hc => h c (by simp [hc])), M.comm a b (h a (by simp)).1 (h a (by simp)).2]

theorem runS_ph (M : Sem S σ) (g : ℝ) (A : List J) (x : σ) : runS M.act A (M.ph g x) = M.ph g (runS M.act A x) := by
  induction A generalizing x with
  | nil => rfl
  | cons a A ih =>
    have e1 : ∀ y, runS M.act (a :: A) y = runS M.act A (M.act a y) := fun _ => rfl
    rw [e1, e1, M.ph_act, ih]

theorem runS_gsum (M : Sem S σ) (l : List J) (hg : ∀ a ∈ l, ∀ g, S.gph a = some g → ∀ x, M.act a x = M.ph g x) (x : σ) :
    runS M.act l x = M.ph (gsum S l) (runS M.act (l.filter fun j => (S.gph j).isNone) x) := by
  induction l generalizing x with
  | nil => simp [gsum, runS, M.ph_zero]
  | cons a l ih =>
    have e1 : ∀ (l : List J) y, runS M.act (a :: l) y = runS M.act l (M.act a y) := fun _ _ => rfl
    have ih := ih fun b hb => hg b (by simp [hb])
    rw [e1]
    cases h : S.gph a with
    | none =>
      rw [List.filter_cons_of_pos (by simp [h]), e1, ih]
      congr 1
      simp [gsum, h]
    | some g =>
      rw [List.filter_cons_of_neg (by simp [h]), hg a (by simp) g h x, runS_ph, ih, ← M.ph_add]
      congr 1
      simp [gsum, h]

theorem runS_reorder (M : Sem S σ) (f : Nat → Option J) :
    ∀ (l' l : List Nat), l'.Perm l → l.Nodup →
    (∀ a b i j, [a, b].Sublist l → f a = some i → f b = some j →
      (∃ q, q ∈ S.qs i ∧ q ∈ S.qs j) ∨ (∃ c, c ∈ S.cs i ∧ c ∈ S.cs j) → [a, b].Sublist l') →
    ∀ x, runS M.act (l'.filterMap f) x = runS M.act (l.filterMap f) x := by
  intro l'
  induction l' with
  | nil =>
    intro l hp _ _ s
    rw [List.nil_perm.1 hp]
  | cons x r ih =>
    intro l hp hn h s
    have hx : x ∈ l := hp.subset (by simp)
    obtain ⟨A, B, rfl⟩ := List.append_of_mem hx
    have hp' : r.Perm (A ++ B) := by
      have := hp.trans List.perm_middle
      exact List.Perm.cons_inv this
    have hn' : (A ++ B).Nodup := (List.nodup_middle.1 hn).of_cons
    have hxn : x ∉ A ++ B := (List.nodup_cons.1 (List.nodup_middle.1 hn)).1
    have hrn : x ∉ r := fun hc => hxn (hp'.subset hc)
    have key := ih (A ++ B) hp' hn' (fun a b i j hs ha hb hd => by
      have h1 : [a, b].Sublist (A ++ x :: B) :=
        hs.trans (List.Sublist.append_left (List.sublist_cons_self x B) A)
      have h2 := h a b i j h1 ha hb hd
      rcases List.sublist_cons_iff.1 h2 with h3 | ⟨r', h3, h4⟩
      · exact h3
      · have : a = x := by injection h3
        subst this
        exact absurd (hs.subset (by simp)) hxn)
    cases hf : f x with
    | none =>
      rw [List.filterMap_cons_none hf, key, List.filterMap_append, List.filterMap_append,
        List.filterMap_cons_none hf]
    | some i =>
      rw [List.filterMap_cons_some hf]
      have e2 : ∀ (B : List J) s, runS M.act (i :: B) s = runS M.act B (M.act i s) := fun _ _ => rfl
      rw [e2, key, List.filterMap_append, List.filterMap_append, List.filterMap_cons_some hf,
        runS_append, runS_append, e2, runS_past]
      intro a ha
      obtain ⟨v, hv, hfv⟩ := List.mem_filterMap.1 ha
      have bad : ((∃ q, q ∈ S.qs a ∧ q ∈ S.qs i) ∨ ∃ c, c ∈ S.cs a ∧ c ∈ S.cs i) → False := by
        intro hc
        have h1 : [v, x].Sublist (A ++ x :: B) :=
          List.Sublist.append (List.singleton_sublist.2 hv) (List.singleton_sublist.2 (by simp))
        have h2 := h v x a i h1 hfv hf hc
        rcases List.sublist_cons_iff.1 h2 with h3 | ⟨r', h3, h4⟩
        · exact hrn (h3.subset (by simp))
        · have hvx : v = x := by injection h3
          subst hvx
          exact hxn (List.mem_append_left _ hv)
      exact ⟨fun q h1 h2 => bad (Or.inl ⟨q, h1, h2⟩), fun c h1 h2 => bad (Or.inr ⟨c, h1, h2⟩)⟩

/-! ### The invariant -/

/-- Node `v` uses qubit `q`. -/
def UQ (S : Sig J) (d : Nat → Option J) (q : Nat) (v : Nat) : Prop := ∃ j, d v = some j ∧ q ∈ S.qs j

/-- Node `v` uses classical bit `c`. -/
def UC (S : Sig J) (d : Nat → Option J) (c : Nat) (v : Nat) : Prop := ∃ j, d v = some j ∧ c ∈ S.cs j

/-- `x` is the last node of the list below `b` with the property, or a virtual node if there is none. -/
def Last (alive : List Nat) (P : Nat → Prop) (b : Nat) (x : Int) : Prop :=
  (x < 0 ∧ ∀ v ∈ alive, v < b → ¬P v) ∨
    ∃ v ∈ alive, x = v ∧ v < b ∧ P v ∧ ∀ w ∈ alive, v < w → w < b → ¬P w

/-- The dictionaries and edges describe the order of the living nodes on every bit. -/
structure Inv (S : Sig J) (ok : J → Prop) (n : Nat) (s : DSt J) : Prop where
  sorted : s.alive.Pairwise (· < ·)
  lt : ∀ v ∈ s.alive, v < n
  data : ∀ v ∈ s.alive, ∃ j, s.data v = some j ∧ (S.qs j).Nodup ∧ ok j
  qlast : ∀ q, Last s.alive (UQ S s.data q) n (s.qdic q)
  clast : ∀ c, Last s.alive (UC S s.data c) n (s.cdic c)
  eord : ∀ u v, (u, v) ∈ s.edges → u < v ∧ v ∈ s.alive ∧ (u < 0 ∨ ∃ w ∈ s.alive, u = (w : Nat))
  eq1 : ∀ v ∈ s.alive, ∀ q, UQ S s.data q v → ∃ u l, (u, v) ∈ s.edges ∧ s.edic u v = some l ∧ q ∈ l
  eq2 : ∀ u v l q, (u, v) ∈ s.edges → s.edic u v = some l → q ∈ l → UQ S s.data q v ∧ Last s.alive (UQ S s.data q) v u
  eq3 : ∀ u v j, (u, v) ∈ s.edges → s.data v = some j → S.cs j = [] → (s.edic u v).isSome
  efresh : ∀ u v, n ≤ v → s.edic u v = none
  nd : s.edges.Nodup
  ec : ∀ v ∈ s.alive, ∀ c, UC S s.data c v → ∃ u, (u, v) ∈ s.edges ∧ Last s.alive (UC S s.data c) v u

theorem init_inv (ok : J → Prop) : Inv S ok 0 (init : DSt J) where
  sorted := List.Pairwise.nil
  lt := by simp [init]
  data := by simp [init]
  qlast := fun q => Or.inl ⟨by simp only [init]; omega, by simp [init]⟩
  clast := fun q => Or.inl ⟨by simp only [init]; omega, by simp [init]⟩
  eord := by simp [init]
  eq1 := by simp [init]
  eq2 := by simp [init]
  eq3 := by simp [init]
  efresh := by simp [init]
  nd := by simp [init]
  ec := by simp [init]

/-! ### Linking -/

/-- The effect of the qubit loop. -/
structure LQ (i : Nat) (s s' : DSt J) (l : List Nat) : Prop where
  data : s'.data = s.data
  alive : s'.alive = s.alive
  g : s'.g = s.g
  cdic : s'.cdic = s.cdic
  qdic : ∀ q, s'.qdic q = if q ∈ l then (i : Int) else s.qdic q
  edges : ∀ u v, (u, v) ∈ s'.edges ↔ (u, v) ∈ s.edges ∨ (v = i ∧ ∃ q ∈ l, s.qdic q = u)
  old : ∀ u v, v ≠ i → s'.edic u v = s.edic u v
  nd : s.edges.Nodup → s'.edges.Nodup
  new : ∀ u, s'.edic u i = if (∃ q ∈ l, s.qdic q = u) then some (l.filter fun q => s.qdic q = u) else s.edic u i

theorem linkQ_all (i : Nat) (s : DSt J) (l : List Nat) (hl : l.Nodup) (he : ∀ u, (u, i) ∉ s.edges) :
    LQ i s (l.foldl (linkQ i) s) l := by
  induction l using List.reverseRecOn with
  | nil => exact ⟨rfl, rfl, rfl, rfl, by simp, by simp, by simp, id, by simp⟩
  | append_singleton l q ih =>
    have hq : q ∉ l := by
      intro hq
      rw [List.nodup_append] at hl
      exact hl.2.2 q hq q (by simp) rfl
    have ih := ih (hl.sublist (List.sublist_append_left _ _))
    rw [List.foldl_append, List.foldl_cons, List.foldl_nil]
    generalize l.foldl (linkQ i) s = t at ih
    have hp : t.qdic q = s.qdic q := by rw [ih.qdic, if_neg hq]
    have hin : (t.qdic q, i) ∈ t.edges ↔ ∃ q' ∈ l, s.qdic q' = s.qdic q := by
      rw [hp, ih.edges]
      constructor
      · rintro (h | ⟨_, h⟩)
        · exact absurd h (he _)
        · exact h
      · exact fun h => Or.inr ⟨rfl, h⟩
    unfold linkQ
    by_cases h : (t.qdic q, i) ∈ t.edges
    · dsimp only
      rw [if_pos h]
      refine ⟨ih.data, ih.alive, ih.g, ih.cdic, ?_, ?_, ?_, ih.nd, ?_⟩
      · intro q'
        simp only [put, ih.qdic, List.mem_append, List.mem_singleton]
        by_cases h1 : q' = q <;> simp [h1]
      · intro u v
        rw [ih.edges]
        constructor
        · rintro (h | ⟨h1, q', h2, h3⟩)
          · exact Or.inl h
          · exact Or.inr ⟨h1, q', by simp [h2], h3⟩
        · rintro (h' | ⟨h1, q', h2, h3⟩)
          · exact Or.inl h'
          · refine Or.inr ⟨h1, ?_⟩
            rcases List.mem_append.1 h2 with h2 | h2
            · exact ⟨q', h2, h3⟩
            · rw [List.mem_singleton] at h2
              subst h2
              obtain ⟨q'', h4, h5⟩ := hin.1 h
              exact ⟨q'', h4, h5.trans h3⟩
      · intro u v hv
        simp only [putE, hv, and_false, if_false]
        exact ih.old u v hv
      · intro u
        simp only [putE, and_true]
        by_cases hu : u = t.qdic q
        · subst hu
          rw [if_pos rfl, ih.new, hp, if_pos (hin.1 h), if_pos ⟨q, by simp, rfl⟩]
          simp [List.filter_append]
        · rw [if_neg hu, ih.new]
          have hne : ¬ s.qdic q = u := fun e => hu (by rw [hp, e])
          have : (∃ q' ∈ l ++ [q], s.qdic q' = u) ↔ ∃ q' ∈ l, s.qdic q' = u := by
            simp [or_and_right, exists_or, hne]
          simp only [this]
          simp [List.filter_append, hne]
    · dsimp only
      rw [if_neg h]
      have hno : ¬ ∃ q' ∈ l, s.qdic q' = s.qdic q := fun hh => h (hin.2 hh)
      refine ⟨ih.data, ih.alive, ih.g, ih.cdic, ?_, ?_, ?_, fun hh => (ih.nd hh).append (List.nodup_singleton _) (by simpa using h), ?_⟩
      · intro q'
        simp only [put, ih.qdic, List.mem_append, List.mem_singleton]
        by_cases h1 : q' = q <;> simp [h1]
      · intro u v
        simp only [List.mem_append, List.mem_singleton, Prod.mk.injEq]
        rw [ih.edges]
        constructor
        · rintro ((h | ⟨h1, q', h2, h3⟩) | ⟨h1, h2⟩)
          · exact Or.inl h
          · exact Or.inr ⟨h1, q', Or.inl h2, h3⟩
          · exact Or.inr ⟨h2, q, Or.inr rfl, by rw [h1, hp]⟩
        · rintro (h' | ⟨h1, q', h2 | h2, h3⟩)
          · exact Or.inl (Or.inl h')
          · exact Or.inl (Or.inr ⟨h1, q', h2, h3⟩)
          · subst h2; exact Or.inr ⟨by rw [hp, h3], h1⟩
      · intro u v hv
        simp only [putE, hv, and_false, if_false]
        exact ih.old u v hv
      · intro u
        simp only [putE, and_true]
        by_cases hu : u = t.qdic q
        · subst hu
          rw [if_pos rfl, if_pos trivial, hp, if_pos ⟨q, by simp, rfl⟩, List.filter_append]
          have : l.filter (fun q' => decide (s.qdic q' = s.qdic q)) = [] := by
            rw [List.filter_eq_nil_iff]
            intro a ha
            simp only [decide_eq_true_eq]
            exact fun hh => hno ⟨a, ha, hh⟩
          simp [this]
        · rw [if_neg hu, if_neg hu, ih.new]
          have hne : ¬ s.qdic q = u := fun e => hu (by rw [hp, e])
          have : (∃ q' ∈ l ++ [q], s.qdic q' = u) ↔ ∃ q' ∈ l, s.qdic q' = u := by
            simp [or_and_right, exists_or, hne]
          simp only [this]
          simp [List.filter_append, hne]

/-- The effect of the loop over the classical bits. -/
structure LC (i : Nat) (s s' : DSt J) (l : List Nat) : Prop where
  data : s'.data = s.data
  alive : s'.alive = s.alive
  g : s'.g = s.g
  qdic : s'.qdic = s.qdic
  edic : s'.edic = s.edic
  cdic : ∀ q, s'.cdic q = if q ∈ l then (i : Int) else s.cdic q
  edges : ∀ u v, (u, v) ∈ s'.edges ↔ (u, v) ∈ s.edges ∨ (v = i ∧ ∃ q ∈ l, s.cdic q = u)
  nd : s.edges.Nodup → s'.edges.Nodup

theorem linkC_all (i : Nat) (s : DSt J) (l : List Nat) (hl : l.Nodup) : LC i s (l.foldl (linkC i) s) l := by
  induction l using List.reverseRecOn with
  | nil => exact ⟨rfl, rfl, rfl, rfl, rfl, by simp, by simp, id⟩
  | append_singleton l q ih =>
    have hq : q ∉ l := by
      intro hq
      rw [List.nodup_append] at hl
      exact hl.2.2 q hq q (by simp) rfl
    have ih := ih (hl.sublist (List.sublist_append_left _ _))
    rw [List.foldl_append, List.foldl_cons, List.foldl_nil]
    generalize l.foldl (linkC i) s = t at ih
    have hp : t.cdic q = s.cdic q := by rw [ih.cdic, if_neg hq]
    refine ⟨ih.data, ih.alive, ih.g, ih.qdic, ih.edic, ?_, ?_, fun hh => ?_⟩
    · intro q'
      simp only [linkC, put, ih.cdic, List.mem_append, List.mem_singleton]
      by_cases h1 : q' = q <;> simp [h1]
    · intro u v
      have e1 : (u, v) ∈ (linkC i t q).edges ↔ (u, v) ∈ t.edges ∨ (u = t.cdic q ∧ v = i) := by
        unfold linkC
        dsimp only
        by_cases h : (t.cdic q, i) ∈ t.edges
        · rw [if_pos h]
          constructor
          · exact Or.inl
          · rintro (h' | ⟨rfl, rfl⟩)
            · exact h'
            · exact h
        · rw [if_neg h]
          simp
      rw [e1, ih.edges, hp]
      constructor
      · rintro ((h | ⟨h1, q', h2, h3⟩) | ⟨h1, h2⟩)
        · exact Or.inl h
        · exact Or.inr ⟨h1, q', by simp [h2], h3⟩
        · exact Or.inr ⟨h2, q, by simp, h1.symm⟩
      · rintro (h | ⟨h1, q', h2, h3⟩)
        · exact Or.inl (Or.inl h)
        · rcases List.mem_append.1 h2 with h2 | h2
          · exact Or.inl (Or.inr ⟨h1, q', h2, h3⟩)
          · rw [List.mem_singleton] at h2
            subst h2
            exact Or.inr ⟨h3.symm, h1⟩
    · unfold linkC
      dsimp only
      split
      · exact ih.nd hh
      · rename_i h
        exact (ih.nd hh).append (List.nodup_singleton _) (by simpa using h)

/-- The effect of visiting a node. -/
structure LK (S : Sig J) (n : Nat) (x : J) (s s' : DSt J) : Prop where
  data : s'.data = put s.data n (some x)
  alive : s'.alive = s.alive ++ [n]
  g : s'.g = s.g
  qdic : ∀ q, s'.qdic q = if q ∈ S.qs x then (n : Int) else s.qdic q
  cdic : ∀ q, s'.cdic q = if q ∈ S.cs x then (n : Int) else s.cdic q
  edges : ∀ u v, (u, v) ∈ s'.edges ↔
    (u, v) ∈ s.edges ∨ (v = n ∧ ((∃ q ∈ S.qs x, s.qdic q = u) ∨ ∃ c ∈ S.cs x, s.cdic c = u))
  old : ∀ u v, v ≠ n → s'.edic u v = s.edic u v
  nd : s.edges.Nodup → s'.edges.Nodup
  new : ∀ u, s'.edic u n = if (∃ q ∈ S.qs x, s.qdic q = u) then some ((S.qs x).filter fun q => s.qdic q = u) else s.edic u n

theorem link_lk (s : DSt J) (n : Nat) (x : J) (hq : (S.qs x).Nodup) (hc : (S.cs x).Nodup) (he : ∀ u, (u, n) ∉ s.edges) :
    LK S n x s (link S s n x) := by
  have h1 := linkQ_all n { s with data := put s.data n (some x), alive := s.alive ++ [n] } (S.qs x) hq he
  have h2 := linkC_all n ((S.qs x).foldl (linkQ n) { s with data := put s.data n (some x), alive := s.alive ++ [n] }) (S.cs x) hc
  unfold link
  refine ⟨h2.data.trans h1.data, h2.alive.trans h1.alive, h2.g.trans h1.g, ?_, ?_, ?_, ?_, fun h => h2.nd (h1.nd h), ?_⟩
  · intro q; rw [h2.qdic]; exact h1.qdic q
  · intro q; rw [h2.cdic, h1.cdic]
  · intro u v
    rw [h2.edges, h1.edges, h1.cdic]
    constructor
    · rintro ((h | ⟨h, h'⟩) | ⟨h, h'⟩)
      · exact Or.inl h
      · exact Or.inr ⟨h, Or.inl h'⟩
      · exact Or.inr ⟨h, Or.inr h'⟩
    · rintro (h | ⟨h, h' | h'⟩)
      · exact Or.inl (Or.inl h)
      · exact Or.inl (Or.inr ⟨h, h'⟩)
      · exact Or.inr ⟨h, h'⟩
  · intro u v hv; rw [h2.edic]; exact h1.old u v hv
  · intro u; rw [h2.edic]; exact h1.new u

theorem Last.snoc {A : List Nat} {P P' : Nat → Prop} {b n : Nat} {x : Int} (h : Last A P b x) (hb : b ≤ n)
    (hP : ∀ w ∈ A, P' w ↔ P w) : Last (A ++ [n]) P' b x := by
  rcases h with ⟨h1, h2⟩ | ⟨v, h1, h2, h3, h4, h5⟩
  · refine Or.inl ⟨h1, fun v hv hvb => ?_⟩
    rcases List.mem_append.1 hv with hv | hv
    · rw [hP v hv]; exact h2 v hv hvb
    · rw [List.mem_singleton] at hv; omega
  · refine Or.inr ⟨v, by simp [h1], h2, h3, (hP v h1).2 h4, fun w hw h6 h7 => ?_⟩
    rcases List.mem_append.1 hw with hw | hw
    · rw [hP w hw]; exact h5 w hw h6 h7
    · rw [List.mem_singleton] at hw; omega

theorem Last.grow {A : List Nat} {P : Nat → Prop} {b b' : Nat} {x : Int} (h : Last A P b x) (hb : b ≤ b')
    (hP : ∀ w ∈ A, b ≤ w → w < b' → ¬P w) : Last A P b' x := by
  rcases h with ⟨h1, h2⟩ | ⟨v, h1, h2, h3, h4, h5⟩
  · refine Or.inl ⟨h1, fun v hv hvb => ?_⟩
    by_cases h : v < b
    · exact h2 v hv h
    · exact hP v hv (by omega) hvb
  · refine Or.inr ⟨v, h1, h2, by omega, h4, fun w hw h6 h7 => ?_⟩
    by_cases h : w < b
    · exact h5 w hw h6 h
    · exact hP w hw (by omega) h7

theorem Last.drop {A B : List Nat} {P P' : Nat → Prop} {b : Nat} {x : Int} (h : Last A P b x) (hB : ∀ w ∈ B, w ∈ A)
    (hx : ∀ v ∈ A, x = (v : Nat) → v < b → P v → v ∈ B) (hP : ∀ w ∈ B, P' w ↔ P w) : Last B P' b x := by
  rcases h with ⟨h1, h2⟩ | ⟨v, h1, h2, h3, h4, h5⟩
  · exact Or.inl ⟨h1, fun v hv hvb => by rw [hP v hv]; exact h2 v (hB v hv) hvb⟩
  · have hv := hx v h1 h2 h3 h4
    exact Or.inr ⟨v, hv, h2, h3, (hP v hv).2 h4, fun w hw h6 h7 => by rw [hP w hw]; exact h5 w (hB w hw) h6 h7⟩

theorem Last.lt {A : List Nat} {P : Nat → Prop} {b : Nat} {x : Int} (h : Last A P b x) : x < b := by
  rcases h with ⟨h1, _⟩ | ⟨v, h1, h2, h3, _⟩ <;> omega

theorem Last.mem {A : List Nat} {P : Nat → Prop} {b : Nat} {x : Int} (h : Last A P b x) : x < 0 ∨ ∃ w ∈ A, x = (w : Nat) := by
  rcases h with ⟨h1, _⟩ | ⟨v, h1, h2, h3, _⟩
  · exact Or.inl h1
  · exact Or.inr ⟨v, h1, h2⟩

theorem link_inv {ok : J → Prop} {n : Nat} {s : DSt J} (h : Inv S ok n s) (x : J) (hq : (S.qs x).Nodup)
    (hc : (S.cs x).Nodup) (hok : ok x) : Inv S ok (n + 1) (link S s n x) := by
  have he : ∀ u, (u, n) ∉ s.edges := fun u hu => absurd (h.lt n (h.eord u n hu).2.1) (by omega)
  have k := link_lk (S := S) s n x hq hc he
  generalize link S s n x = t at k
  have hne : ∀ w ∈ s.alive, w ≠ n := fun w hw => by have := h.lt w hw; omega
  have uq : ∀ q, ∀ w ∈ s.alive, UQ S t.data q w ↔ UQ S s.data q w := by
    intro q w hw
    unfold UQ
    rw [k.data]
    simp only [put, if_neg (hne w hw)]
  have uc : ∀ q, ∀ w ∈ s.alive, UC S t.data q w ↔ UC S s.data q w := by
    intro q w hw
    unfold UC
    rw [k.data]
    simp only [put, if_neg (hne w hw)]
  have uqn : ∀ q, UQ S t.data q n ↔ q ∈ S.qs x := by
    intro q; unfold UQ; rw [k.data]; simp [put]
  have ucn : ∀ q, UC S t.data q n ↔ q ∈ S.cs x := by
    intro q; unfold UC; rw [k.data]; simp [put]
  refine ⟨?_, ?_, ?_, ?_, ?_, ?_, ?_, ?_, ?_, ?_, k.nd h.nd, ?_⟩
  · rw [k.alive, List.pairwise_append]
    exact ⟨h.sorted, List.pairwise_singleton _ _, fun a ha b hb => by
      rw [List.mem_singleton] at hb; subst hb; exact h.lt a ha⟩
  · intro v hv
    rw [k.alive, List.mem_append, List.mem_singleton] at hv
    rcases hv with hv | hv
    · have := h.lt v hv; omega
    · omega
  · intro v hv
    rw [k.alive, List.mem_append, List.mem_singleton] at hv
    rw [k.data]
    rcases hv with hv | hv
    · simp only [put, if_neg (hne v hv)]; exact h.data v hv
    · subst hv; exact ⟨x, by simp [put], hq, hok⟩
  · intro q
    rw [k.qdic, k.alive]
    by_cases hqx : q ∈ S.qs x
    · rw [if_pos hqx]
      exact Or.inr ⟨n, by simp, rfl, by omega, (uqn q).2 hqx, fun w _ h1 h2 => by omega⟩
    · rw [if_neg hqx]
      refine ((h.qlast q).snoc (le_refl n) (uq q)).grow (by omega) fun w hw h1 h2 => ?_
      have : w = n := by omega
      subst this
      rw [uqn]; exact hqx
  · intro q
    rw [k.cdic, k.alive]
    by_cases hqx : q ∈ S.cs x
    · rw [if_pos hqx]
      exact Or.inr ⟨n, by simp, rfl, by omega, (ucn q).2 hqx, fun w _ h1 h2 => by omega⟩
    · rw [if_neg hqx]
      refine ((h.clast q).snoc (le_refl n) (uc q)).grow (by omega) fun w hw h1 h2 => ?_
      have : w = n := by omega
      subst this
      rw [ucn]; exact hqx
  · intro u v hv
    rw [k.edges] at hv
    rw [k.alive]
    have up : (u < 0 ∨ ∃ w ∈ s.alive, u = (w : Nat)) → (u < 0 ∨ ∃ w ∈ s.alive ++ [n], u = (w : Nat)) := by
      rintro (h | ⟨w, h1, h2⟩)
      · exact Or.inl h
      · exact Or.inr ⟨w, by simp [h1], h2⟩
    rcases hv with hv | ⟨rfl, ⟨q, hq', rfl⟩ | ⟨c, hc', rfl⟩⟩
    · obtain ⟨a, b, c⟩ := h.eord u v hv
      exact ⟨a, by simp [b], up c⟩
    · exact ⟨(h.qlast q).lt, by simp, up (h.qlast q).mem⟩
    · exact ⟨(h.clast c).lt, by simp, up (h.clast c).mem⟩
  · intro v hv q hu
    rw [k.alive, List.mem_append, List.mem_singleton] at hv
    rcases hv with hv | rfl
    · obtain ⟨u, l, h1, h2, h3⟩ := h.eq1 v hv q ((uq q v hv).1 hu)
      exact ⟨u, l, (k.edges u v).2 (Or.inl h1), (k.old u v (hne v hv)).trans h2, h3⟩
    · have hqx := (uqn q).1 hu
      refine ⟨s.qdic q, (S.qs x).filter fun q' => s.qdic q' = s.qdic q, (k.edges _ _).2 (Or.inr ⟨rfl, Or.inl ⟨q, hqx, rfl⟩⟩), ?_, ?_⟩
      · rw [k.new, if_pos ⟨q, hqx, rfl⟩]
      · simp [hqx]
  · intro u v l q h1 h2 h3
    rw [k.alive]
    by_cases hvn : v = n
    · subst hvn
      rw [k.new] at h2
      split at h2
      · injection h2 with h2
        subst h2
        rw [List.mem_filter, decide_eq_true_eq] at h3
        refine ⟨(uqn q).2 h3.1, ?_⟩
        rw [← h3.2]
        exact (h.qlast q).snoc (le_refl _) (uq q)
      · rw [h.efresh u v (le_refl _)] at h2; cases h2
    · rw [k.old u v hvn] at h2
      have h1' : (u, v) ∈ s.edges := by
        rcases (k.edges u v).1 h1 with h1 | h1
        · exact h1
        · exact absurd h1.1 hvn
      obtain ⟨a, b⟩ := h.eq2 u v l q h1' h2 h3
      have hv := (h.eord u v h1').2.1
      exact ⟨(uq q v hv).2 a, b.snoc (by have := h.lt v hv; omega) (uq q)⟩
  · intro u v j h1 h2 h3
    by_cases hvn : v = n
    · subst hvn
      rw [k.data] at h2
      simp only [put, if_true, Option.some.injEq] at h2
      subst h2
      rw [k.new]
      rcases (k.edges u v).1 h1 with h1 | ⟨_, h1 | ⟨c, hc', _⟩⟩
      · exact absurd h1 (he u)
      · rw [if_pos h1]; rfl
      · rw [h3] at hc'; cases hc'
    · rw [k.old u v hvn]
      have h1' : (u, v) ∈ s.edges := by
        rcases (k.edges u v).1 h1 with h1 | h1
        · exact h1
        · exact absurd h1.1 hvn
      refine h.eq3 u v j h1' ?_ h3
      rw [k.data] at h2
      simpa only [put, if_neg hvn] using h2
  · intro u v hv
    rw [k.old u v (by omega)]
    exact h.efresh u v (by omega)
  · intro v hv c hu
    rw [k.alive, List.mem_append, List.mem_singleton] at hv
    rw [k.alive]
    rcases hv with hv | rfl
    · obtain ⟨u, h1, h2⟩ := h.ec v hv c ((uc c v hv).1 hu)
      exact ⟨u, (k.edges u v).2 (Or.inl h1), h2.snoc (by have := h.lt v hv; omega) (uc c)⟩
    · have hqx := (ucn c).1 hu
      exact ⟨s.cdic c, (k.edges _ _).2 (Or.inr ⟨rfl, Or.inr ⟨c, hqx, rfl⟩⟩), (h.clast c).snoc (le_refl _) (uc c)⟩

/-! ### Rewiring -/

theorem foldl_put (l : List Nat) (u : Int) (d : Nat → Int) (q : Nat) :
    l.foldl (fun d q => put d q u) d q = if q ∈ l then u else d q := by
  induction l generalizing d with
  | nil => simp
  | cons a l ih =>
    rw [List.foldl_cons, ih]
    by_cases h1 : q ∈ l
    · simp [h1]
    · by_cases h2 : q = a
      · subst h2; simp [put, h1]
      · simp [put, h1, h2]

/-- The effect of `_rewire_past_node`. -/
structure RW (v : Nat) (E : List (Int × Nat)) (s s' : DSt J) : Prop where
  data : s'.data = s.data
  alive : s'.alive = s.alive
  edges : s'.edges = s.edges
  g : s'.g = s.g
  cdic : s'.cdic = s.cdic
  old : ∀ u w, (w ≠ v ∨ (u, w) ∉ E) → s'.edic u w = s.edic u w
  keep : ∀ q, (∀ u l, (u, v) ∈ E → s.edic u v = some l → q ∉ l) → s'.qdic q = s.qdic q
  moved : ∀ q u l, (u, v) ∈ E → s.edic u v = some l → q ∈ l →
    ∃ u' l', (u', v) ∈ E ∧ s.edic u' v = some l' ∧ q ∈ l' ∧ s'.qdic q = u'

theorem rewire_list (v : Nat) (E : List (Int × Nat)) (hE : ∀ e ∈ E, e.2 = v) (hn : E.Nodup) (s : DSt J)
    (hs : ∀ e ∈ E, (s.edic e.1 v).isSome) :
    ∃ s', E.foldlM (fun s e =>
      (s.edic e.1 v).map fun l => { s with qdic := l.foldl (fun d q => put d q e.1) s.qdic, edic := putE s.edic e.1 v none }) s
        = some s' ∧ RW v E s s' := by
  induction E using List.reverseRecOn with
  | nil => exact ⟨s, rfl, rfl, rfl, rfl, rfl, rfl, fun _ _ _ => rfl, fun _ _ => rfl, fun _ _ _ h => by simp at h⟩
  | append_singleton E e ih =>
    obtain ⟨u0, w0⟩ := e
    have hw : w0 = v := hE (u0, w0) (by simp)
    subst hw
    have hen : (u0, w0) ∉ E := by
      intro hq
      rw [List.nodup_append] at hn
      exact hn.2.2 _ hq _ (by simp) rfl
    obtain ⟨t, ht, R⟩ := ih (fun e he => hE e (by simp [he])) (hn.sublist (List.sublist_append_left _ _))
      (fun e he => hs e (by simp [he]))
    obtain ⟨l0, hl0⟩ := Option.isSome_iff_exists.1 (hs (u0, w0) (by simp))
    have hl1 : t.edic u0 w0 = some l0 := (R.old u0 w0 (Or.inr hen)).trans hl0
    refine ⟨{ t with qdic := l0.foldl (fun d q => put d q u0) t.qdic, edic := putE t.edic u0 w0 none }, by
      rw [List.foldlM_append, ht]; simp [hl1],
      R.data, R.alive, R.edges, R.g, R.cdic, ?_, ?_, ?_⟩
    · intro u w hw
      simp only [putE]
      rw [if_neg, R.old u w]
      · rcases hw with h | h
        · exact Or.inl h
        · exact Or.inr fun h' => h (by simp [h'])
      · rintro ⟨rfl, rfl⟩
        rcases hw with h | h
        · exact h rfl
        · exact h (by simp)
    · intro q hq
      dsimp only
      rw [foldl_put, if_neg (hq u0 l0 (by simp) hl0), R.keep q fun u l h1 h2 => hq u l (by simp [h1]) h2]
    · intro q u l h1 h2 h3
      dsimp only
      rw [foldl_put]
      by_cases h : q ∈ l0
      · exact ⟨u0, l0, by simp, hl0, h, if_pos h⟩
      · rw [if_neg h]
        have h1' : (u, w0) ∈ E := by
          rcases List.mem_append.1 h1 with h1 | h1
          · exact h1
          · simp only [List.mem_singleton, Prod.mk.injEq, and_true] at h1
            subst h1
            rw [h2] at hl0
            injection hl0 with e
            subst e
            exact absurd h3 h
        obtain ⟨u', l', a, b, c, d⟩ := R.moved q u l h1' h2 h3
        exact ⟨u', l', by simp [a], b, c, d⟩

theorem rewire_spec (s : DSt J) (v : Nat) (hn : s.edges.Nodup) (hs : ∀ u, (u, v) ∈ s.edges → (s.edic u v).isSome) :
    ∃ s', rewire s v = some s' ∧ RW v (s.edges.filter fun e => e.2 = v) s s' := by
  refine rewire_list v _ (fun e he => ?_) (hn.filter _) s fun e he => ?_
  · simpa using (List.mem_filter.1 he).2
  · have h1 := List.mem_filter.1 he
    have h2 : e.2 = v := by simpa using h1.2
    obtain ⟨a, b⟩ := e
    subst h2
    exact hs a h1.1

/-! ### One step -/

theorem link_run {s t : DSt J} {n : Nat} {x : J} (k : LK S n x s t) (hne : ∀ w ∈ s.alive, w ≠ n) :
    t.alive.filterMap t.data = s.alive.filterMap s.data ++ [x] := by
  rw [k.alive, List.filterMap_append, k.data]
  congr 1
  · refine List.filterMap_congr fun v hv => ?_
    simp only [put, if_neg (hne v hv)]
  · simp [put]

theorem dedup_single {l : List Int} {p : Int} (h : l.dedup = [p]) : ∀ x ∈ l, x = p := by
  intro x hx
  have : x ∈ l.dedup := List.mem_dedup.2 hx
  rw [h] at this
  simpa using this

theorem sem_tail (M : Sem S σ) {a x : J} {A B : List J} {g g' : ℝ} {f : σ → σ} (hf : ∀ y, M.act x (M.act a y) = M.ph g' (f y))
    (hB : ∀ b ∈ B, (∀ q ∈ S.qs b, q ∉ S.qs x) ∧ ∀ c ∈ S.cs b, c ∉ S.cs x) (y : σ) :
    M.ph (g + g') (runS M.act B (f (runS M.act A y))) = M.act x (M.ph g (runS M.act (A ++ a :: B) y)) := by
  rw [M.ph_act, runS_append]
  have e1 : ∀ z, runS M.act (a :: B) z = runS M.act B (M.act a z) := fun _ => rfl
  rw [e1, runS_past M x B hB, hf, runS_ph, M.ph_add]

theorem step_ok {ok : J → Prop} (M : Sem S σ) {F : Rule J} (hF : Sound S M ok F) {n : Nat} {s : DSt J} (h : Inv S ok n s)
    (x : J) (hq : (S.qs x).Nodup) (hc : (S.cs x).Nodup) (hok : ok x) :
    ∃ s', fuseStep S F s n x = some s' ∧ Inv S ok (n + 1) s' ∧
      ∀ y, M.ph s'.g (runS M.act (s'.alive.filterMap s'.data) y) = M.act x (M.ph s.g (runS M.act (s.alive.filterMap s.data) y)) := by
  have he : ∀ u, (u, n) ∉ s.edges := fun u hu => absurd (h.lt n (h.eord u n hu).2.1) (by omega)
  have k := link_lk (S := S) s n x hq hc he
  have ht := link_inv h x hq hc hok
  have hne : ∀ w ∈ s.alive, w ≠ n := fun w hw => by have := h.lt w hw; omega
  unfold fuseStep
  dsimp only
  generalize link S s n x = t at k ht
  have plain : ∃ s', some t = some s' ∧ Inv S ok (n + 1) s' ∧
      ∀ y, M.ph s'.g (runS M.act (s'.alive.filterMap s'.data) y) = M.act x (M.ph s.g (runS M.act (s.alive.filterMap s.data) y)) := by
    refine ⟨t, rfl, ht, fun y => ?_⟩
    rw [link_run k hne, runS_append, k.g, M.ph_act]
    rfl
  split
  · rename_i p hd
    have hall : ∀ q ∈ S.qs x, s.qdic q = p := fun q hq' => dedup_single hd _ (List.mem_map.2 ⟨q, hq', rfl⟩)
    have hsome : ∃ q, q ∈ S.qs x := by
      cases hqs : S.qs x with
      | nil => rw [hqs] at hd; simp at hd
      | cons a l => exact ⟨a, by simp⟩
    by_cases hp : p < 0
    · rw [if_pos hp]; exact plain
    rw [if_neg hp]
    obtain ⟨q0, hq0⟩ := hsome
    have hl0 := h.qlast q0
    rw [hall q0 hq0] at hl0
    obtain ⟨P, hPa, hpP⟩ := hl0.mem.resolve_left hp
    subst hpP
    rw [Int.toNat_natCast]
    obtain ⟨a, ha, hand, haok⟩ := h.data P hPa
    have hPn : P < n := h.lt P hPa
    have hta : t.data P = some a := by
      rw [k.data]; simp only [put, if_neg (hne P hPa)]; exact ha
    have hPt : P ∈ t.alive := by rw [k.alive]; simp [hPa]
    simp only [hta]
    -- the qubits of `x` are qubits of `a`
    have hsub : ∀ q ∈ S.qs x, q ∈ S.qs a := by
      intro q hq'
      have := h.qlast q
      rw [hall q hq'] at this
      rcases this with ⟨h1, _⟩ | ⟨v, h1, h2, _, ⟨j, h3, h4⟩, _⟩
      · omega
      · have : v = P := by exact_mod_cast h2.symm
        subst this
        rw [ha] at h3
        injection h3 with h3
        subst h3
        exact h4
    have hlastx : ∀ w ∈ s.alive, P < w → ∀ q ∈ S.qs x, ¬UQ S s.data q w := by
      intro w hw hPw q hq'
      have := h.qlast q
      rw [hall q hq'] at this
      rcases this with ⟨h1, _⟩ | ⟨v, h1, h2, _, _, h5⟩
      · omega
      · have : v = P := by exact_mod_cast h2.symm
        subst this
        exact h5 w hw hPw (h.lt w hw)
    cases hFa : F a x with
    | none => exact plain
    | some res =>
      obtain ⟨r, g⟩ := res
      obtain ⟨hca, hcx⟩ := hF.cs a x _ haok hok hFa
      have hsup := hF.qs a x _ haok hok hFa hsub
      obtain ⟨A, B, hAB⟩ := List.append_of_mem hPa
      have hsorted := h.sorted
      rw [hAB, List.pairwise_append, List.pairwise_cons] at hsorted
      obtain ⟨_, ⟨hPB, _⟩, hAP⟩ := hsorted
      have hAP' : ∀ w ∈ A, w < P := fun w hw => hAP w hw P (by simp)
      have hBdis : ∀ b ∈ B.filterMap s.data, (∀ q ∈ S.qs b, q ∉ S.qs x) ∧ ∀ c ∈ S.cs b, c ∉ S.cs x := by
        intro b hb
        obtain ⟨w, hw, hwb⟩ := List.mem_filterMap.1 hb
        refine ⟨fun q h1 h2 => hlastx w (by rw [hAB]; simp [hw]) (hPB w hw) q h2 ⟨b, hwb, h1⟩, fun c _ => ?_⟩
        rw [hcx]; simp
      have hrun : s.alive.filterMap s.data = A.filterMap s.data ++ a :: B.filterMap s.data := by
        rw [hAB, List.filterMap_append, List.filterMap_cons_some ha]
      cases r with
      | none =>
        have hsem := hF.cancel a x g haok hok hFa hsub
        have hs1 : ∀ u, (u, P) ∈ t.edges → (t.edic u P).isSome := fun u hu => ht.eq3 u P a hu hta hca
        obtain ⟨t2, ht2, R⟩ := rewire_spec t P ht.nd hs1
        dsimp only
        rw [ht2]
        refine ⟨_, rfl, ?_, ?_⟩
        · have mB : ∀ w, w ∈ ((t2.alive.filter (· ≠ P)).filter (· ≠ n)) ↔ w ∈ s.alive ∧ w ≠ P := by
            intro w
            rw [R.alive, k.alive]
            simp only [List.mem_filter, List.mem_append, List.mem_singleton, decide_eq_true_eq]
            constructor
            · rintro ⟨⟨h1 | h1, h2⟩, h3⟩
              · exact ⟨h1, h2⟩
              · exact absurd h1 h3
            · rintro ⟨h1, h2⟩
              exact ⟨⟨Or.inl h1, h2⟩, hne w h1⟩
          have mE : ∀ u v, (u, v) ∈ ((t2.edges.filter fun e => e.1 ≠ (P : Int) ∧ e.2 ≠ P).filter fun e => e.1 ≠ (n : Int) ∧ e.2 ≠ n) ↔
              (u, v) ∈ t.edges ∧ u ≠ P ∧ v ≠ P ∧ u ≠ n ∧ v ≠ n := by
            intro u v
            rw [R.edges]
            simp only [List.mem_filter, decide_eq_true_eq]
            tauto
          have toT : ∀ w, w ∈ s.alive ∧ w ≠ P → w ∈ t.alive := fun w hw => by rw [k.alive]; simp [hw.1]
          have ofT : ∀ w, w ∈ t.alive → w ≠ P → w ≠ n → w ∈ s.alive ∧ w ≠ P := fun w hw h1 h2 => by
            rw [k.alive, List.mem_append, List.mem_singleton] at hw
            exact ⟨hw.resolve_right h2, h1⟩
          have uqs : ∀ q, ∀ w ∈ s.alive, UQ S t.data q w ↔ UQ S s.data q w := by
            intro q w hw
            unfold UQ
            rw [k.data]
            simp only [put, if_neg (hne w hw)]
          have uqP : ∀ q, UQ S t.data q P ↔ q ∈ S.qs a := by
            intro q; unfold UQ; rw [hta]; simp
          have uqn : ∀ q, UQ S t.data q n ↔ q ∈ S.qs x := by
            intro q; unfold UQ; rw [k.data]; simp [put]
          have ucP : ∀ q, ¬UC S t.data q P := by
            intro q; unfold UC; rw [hta]; simp [hca]
          have ucn : ∀ q, ¬UC S t.data q n := by
            intro q; unfold UC; rw [k.data]; simp [put, hcx]
          have tlt : ∀ w ∈ t.alive, w ≠ n → w < n := fun w hw h1 => by
            have := ht.lt w hw; omega
          have hRold : ∀ u v, v ≠ P → t2.edic u v = t.edic u v := fun u v hv => R.old u v (Or.inl hv)
          have hlast : ∀ w, w ∈ s.alive ∧ w ≠ P → P < w → ∀ q ∈ S.qs a, ¬UQ S t.data q w := by
            intro w hw h1 q hq'
            rw [uqs q w hw.1]
            exact hlastx w hw.1 h1 q (hsup q hq')
          dsimp only
          refine ⟨?_, ?_, ?_, ?_, ?_, ?_, ?_, ?_, ?_, ?_, ?_, ?_⟩
          · simp only [remove]
            rw [R.alive]
            exact (ht.sorted.filter _).filter _
          · intro v hv
            simp only [remove] at hv
            rw [mB] at hv
            have := h.lt v hv.1; omega
          · intro v hv
            simp only [remove] at hv ⊢
            rw [mB] at hv
            rw [R.data]
            exact ht.data v (toT v hv)
          · intro q
            simp only [remove]
            rw [R.data]
            by_cases hqa : q ∈ S.qs a
            · obtain ⟨u, l, h1, h2, h3⟩ := ht.eq1 P hPt q ((uqP q).2 hqa)
              obtain ⟨u', l', h4, h5, h6, h7⟩ := R.moved q u l (List.mem_filter.2 ⟨h1, by simp⟩) h2 h3
              rw [h7]
              have h8 := (ht.eq2 u' P l' q (List.mem_filter.1 h4).1 h5 h6).2
              refine Last.grow (h8.drop (fun w hw => toT w ((mB w).1 hw)) ?_ fun _ _ => Iff.rfl) (by omega) ?_
              · intro v hv _ hvP _
                exact (mB v).2 (ofT v hv (by omega) (by omega))
              · intro w hw h9 _
                have hw' := (mB w).1 hw
                exact hlast w hw' (by have := hw'.2; omega) q hqa
            · have hqx : q ∉ S.qs x := fun hh => hqa (hsub q hh)
              rw [R.keep q fun u l h1 h2 h3 => hqa ((uqP q).1 (ht.eq2 u P l q (List.mem_filter.1 h1).1 h2 h3).1)]
              refine (ht.qlast q).drop (fun w hw => toT w ((mB w).1 hw)) ?_ fun _ _ => Iff.rfl
              intro v hv _ _ hu
              refine (mB v).2 (ofT v hv ?_ ?_)
              · rintro rfl; exact hqa ((uqP q).1 hu)
              · rintro rfl; exact hqx ((uqn q).1 hu)
          · intro c
            simp only [remove]
            rw [R.data, R.cdic]
            refine (ht.clast c).drop (fun w hw => toT w ((mB w).1 hw)) ?_ fun _ _ => Iff.rfl
            intro v hv _ _ hu
            refine (mB v).2 (ofT v hv ?_ ?_)
            · rintro rfl; exact ucP c hu
            · rintro rfl; exact ucn c hu
          · intro u v hv
            simp only [remove] at hv ⊢
            obtain ⟨h1, h2, h3, h4, h5⟩ := (mE u v).1 hv
            obtain ⟨a1, a2, a3⟩ := ht.eord u v h1
            refine ⟨a1, (mB v).2 (ofT v a2 h3 h5), ?_⟩
            rcases a3 with a3 | ⟨w, a3, rfl⟩
            · exact Or.inl a3
            · exact Or.inr ⟨w, (mB w).2 (ofT w a3 (by exact_mod_cast h2) (by exact_mod_cast h4)), rfl⟩
          · intro v hv q hu
            simp only [remove] at hv hu ⊢
            rw [R.data] at hu
            have hv' := (mB v).1 hv
            obtain ⟨u, l, h1, h2, h3⟩ := ht.eq1 v (toT v hv') q hu
            have h4 := (ht.eq2 u v l q h1 h2 h3).2
            have hvn := h.lt v hv'.1
            refine ⟨u, l, (mE u v).2 ⟨h1, ?_, hv'.2, ?_, by omega⟩, (hRold u v hv'.2).trans h2, h3⟩
            · rintro rfl
              rcases h4 with ⟨h5, _⟩ | ⟨w, _, h6, h7, h8, _⟩
              · omega
              · have : w = P := by exact_mod_cast h6.symm
                subst this
                exact hlast v hv' h7 q ((uqP q).1 h8) hu
            · have := h4.lt
              omega
          · intro u v l q h1 h2 h3
            simp only [remove] at h1 h2 ⊢
            rw [R.data]
            obtain ⟨b1, b2, b3, b4, b5⟩ := (mE u v).1 h1
            rw [hRold u v b3] at h2
            obtain ⟨c1, c2⟩ := ht.eq2 u v l q b1 h2 h3
            refine ⟨c1, c2.drop (fun w hw => toT w ((mB w).1 hw)) ?_ fun _ _ => Iff.rfl⟩
            intro w hw e _ _
            subst e
            exact (mB w).2 (ofT w hw (by exact_mod_cast b2) (by exact_mod_cast b4))
          · intro u v j h1 h2 h3
            simp only [remove] at h1 h2 ⊢
            rw [R.data] at h2
            obtain ⟨b1, b2, b3, b4, b5⟩ := (mE u v).1 h1
            rw [hRold u v b3]
            exact ht.eq3 u v j b1 h2 h3
          · intro u v hv
            simp only [remove]
            rw [hRold u v (by omega)]
            exact ht.efresh u v hv
          · simp only [remove]
            rw [R.edges]
            exact (ht.nd.filter _).filter _
          · intro v hv c hu
            simp only [remove] at hv hu ⊢
            rw [R.data] at hu ⊢
            have hv' := (mB v).1 hv
            obtain ⟨u, h1, h2⟩ := ht.ec v (toT v hv') c hu
            have hvn := h.lt v hv'.1
            have hlt := h2.lt
            refine ⟨u, (mE u v).2 ⟨h1, ?_, hv'.2, by omega, by omega⟩, h2.drop (fun w hw => toT w ((mB w).1 hw)) ?_ fun _ _ => Iff.rfl⟩
            · rintro rfl
              rcases h2 with ⟨h5, _⟩ | ⟨w, _, h6, h7, h8, _⟩
              · omega
              · have : w = P := by exact_mod_cast h6.symm
                subst this
                exact ucP c h8
            · intro w hw e hwv hu'
              refine (mB w).2 (ofT w hw ?_ (by omega))
              rintro rfl
              exact ucP c hu'
        · intro y
          have e1 : (remove (remove { t2 with g := t2.g + g } P) n).alive.filterMap t2.data = A.filterMap s.data ++ B.filterMap s.data := by
            simp only [remove]
            rw [R.alive, R.data, k.alive, hAB, ← List.filterMap_append]
            have e2 : ((A ++ P :: B ++ [n]).filter (· ≠ P)).filter (· ≠ n) = A ++ B := by
              have f1 : ∀ w ∈ A, w ≠ P ∧ w ≠ n := fun w hw => by have := hAP' w hw; omega
              have f2 : ∀ w ∈ B, w ≠ P ∧ w ≠ n := fun w hw => by
                have := hPB w hw
                have := h.lt w (by rw [hAB]; simp [hw])
                omega
              rw [List.filter_filter]
              simp only [List.filter_append, List.filter_cons, List.filter_nil]
              rw [List.filter_eq_self.2 (fun w hw => by simp [f1 w hw]), List.filter_eq_self.2 (fun w hw => by simp [f2 w hw])]
              simp
            rw [e2]
            refine List.filterMap_congr fun v hv => ?_
            rw [k.data]
            simp only [put]
            rw [if_neg (hne v (by rw [hAB]; rcases List.mem_append.1 hv with hv | hv <;> simp [hv]))]
          have e3 : (remove (remove { t2 with g := t2.g + g } P) n).data = t2.data := rfl
          have e4 : (remove (remove { t2 with g := t2.g + g } P) n).g = s.g + g := by
            simp only [remove]; rw [R.g, k.g]
          dsimp only [Option.map_some]
          rw [e3, e1, e4, hrun, runS_append]
          exact sem_tail M (f := id) hsem hBdis y
      | some r =>
        obtain ⟨hrok, hrn, hcr, hqr, hsem⟩ := hF.fused a x r g haok hok hFa hsub
        dsimp only
        have hxn : t.data n = some x := by rw [k.data]; simp [put]
        have hs1 : ∀ u, (u, n) ∈ t.edges → (t.edic u n).isSome := fun u hu => ht.eq3 u n x hu hxn hcx
        obtain ⟨t2, ht2, R⟩ := rewire_spec { t with data := put t.data P (some r), g := t.g + g } n ht.nd hs1
        rw [ht2]
        have mB : (t2.alive.filter (· ≠ n)) = s.alive := by
          rw [R.alive, k.alive, List.filter_append, List.filter_eq_self.2 (fun w hw => by simpa using hne w hw)]
          simp
        have slt : ∀ u v, (u, v) ∈ s.edges → u ≠ n ∧ v ≠ n := by
          intro u v huv
          obtain ⟨b1, b2, b3⟩ := h.eord u v huv
          have := h.lt v b2
          constructor <;> omega
        have mE : ∀ u v, (u, v) ∈ (t2.edges.filter fun e => e.1 ≠ (n : Int) ∧ e.2 ≠ n) ↔ (u, v) ∈ s.edges := by
          intro u v
          rw [R.edges]
          simp only [List.mem_filter, decide_eq_true_eq]
          rw [k.edges]
          constructor
          · rintro ⟨b1 | b1, b2, b3⟩
            · exact b1
            · exact absurd b1.1 b3
          · intro b1
            exact ⟨Or.inl b1, slt u v b1⟩
        have hdat : t2.data = put (put s.data n (some x)) P (some r) := by rw [R.data, k.data]
        have hdat' : ∀ w ∈ s.alive, w ≠ P → t2.data w = s.data w := by
          intro w hw h1
          rw [hdat]; simp only [put, if_neg h1, if_neg (hne w hw)]
        have hdatP : t2.data P = some r := by rw [hdat]; simp [put]
        have uq : ∀ q, ∀ w ∈ s.alive, UQ S t2.data q w ↔ UQ S s.data q w := by
          intro q w hw
          unfold UQ
          by_cases h1 : w = P
          · subst h1; rw [hdatP, ha]; simp [hqr]
          · rw [hdat' w hw h1]
        have uc : ∀ q, ∀ w ∈ s.alive, UC S t2.data q w ↔ UC S s.data q w := by
          intro q w hw
          unfold UC
          by_cases h1 : w = P
          · subst h1; rw [hdatP, ha]; simp [hca, hcr]
          · rw [hdat' w hw h1]
        have hold : ∀ u v, v ≠ n → t2.edic u v = s.edic u v := by
          intro u v hv
          rw [R.old u v (Or.inl hv)]
          exact k.old u v hv
        have hqd : ∀ q, t2.qdic q = s.qdic q := by
          intro q
          by_cases hqx : q ∈ S.qs x
          · have hn1 : (s.qdic q, n) ∈ t.edges := (k.edges _ _).2 (Or.inr ⟨rfl, Or.inl ⟨q, hqx, rfl⟩⟩)
            have hn2 : t.edic (s.qdic q) n = some ((S.qs x).filter fun q' => s.qdic q' = s.qdic q) := by
              rw [k.new, if_pos ⟨q, hqx, rfl⟩]
            obtain ⟨u', l', c1, c2, c3, c4⟩ := R.moved q _ _ (List.mem_filter.2 ⟨hn1, by simp⟩) hn2 (by simp [hqx])
            have c2 : t.edic u' n = some l' := c2
            rw [k.new] at c2
            split at c2
            · injection c2 with c2
              subst c2
              rw [List.mem_filter, decide_eq_true_eq] at c3
              rw [c4, c3.2]
            · rw [h.efresh _ _ (le_refl _)] at c2; cases c2
          · rw [R.keep q fun u l c1 c2 c3 => ?_]
            · show t.qdic q = _
              rw [k.qdic, if_neg hqx]
            · have c2 : t.edic u n = some l := c2
              rw [k.new] at c2
              split at c2
              · injection c2 with c2
                subst c2
                exact hqx (List.mem_filter.1 c3).1
              · rw [h.efresh _ _ (le_refl _)] at c2; cases c2
        have hcd : ∀ c, t2.cdic c = s.cdic c := by
          intro c
          rw [R.cdic]
          show t.cdic c = _
          rw [k.cdic, if_neg (by rw [hcx]; simp)]
        refine ⟨_, rfl, ?_, ?_⟩
        · dsimp only
          refine ⟨?_, ?_, ?_, ?_, ?_, ?_, ?_, ?_, ?_, ?_, ?_, ?_⟩ <;> simp only [remove, mB]
          · exact h.sorted
          · intro v hv
            have := h.lt v hv; omega
          · intro v hv
            by_cases h1 : v = P
            · subst h1
              exact ⟨r, hdatP, hrn, hrok⟩
            · rw [hdat' v hv h1]; exact h.data v hv
          · intro q
            rw [hqd]
            exact ((h.qlast q).drop (fun _ hw => hw) (fun _ hw _ _ _ => hw) (uq q)).grow (by omega) fun w hw h1 _ => by
              have := h.lt w hw; omega
          · intro q
            rw [hcd]
            exact ((h.clast q).drop (fun _ hw => hw) (fun _ hw _ _ _ => hw) (uc q)).grow (by omega) fun w hw h1 _ => by
              have := h.lt w hw; omega
          · intro u v hv
            exact h.eord u v ((mE u v).1 hv)
          · intro v hv q hu
            obtain ⟨u, l, h1, h2, h3⟩ := h.eq1 v hv q ((uq q v hv).1 hu)
            exact ⟨u, l, (mE u v).2 h1, (hold u v (hne v hv)).trans h2, h3⟩
          · intro u v l q h1 h2 h3
            have h1 := (mE u v).1 h1
            rw [hold u v (slt u v h1).2] at h2
            obtain ⟨c1, c2⟩ := h.eq2 u v l q h1 h2 h3
            exact ⟨(uq q v (h.eord u v h1).2.1).2 c1, c2.drop (fun _ hw => hw) (fun _ hw _ _ _ => hw) (uq q)⟩
          · intro u v j h1 h2 h3
            have h1 := (mE u v).1 h1
            rw [hold u v (slt u v h1).2]
            have hv := (h.eord u v h1).2.1
            by_cases h4 : v = P
            · subst h4; exact h.eq3 u v a h1 ha hca
            · exact h.eq3 u v j h1 ((hdat' v hv h4).symm.trans h2) h3
          · intro u v hv
            rw [hold u v (by omega)]
            exact h.efresh u v (by omega)
          · rw [R.edges]
            exact ht.nd.filter _
          · intro v hv c hu
            obtain ⟨u, h1, h2⟩ := h.ec v hv c ((uc c v hv).1 hu)
            exact ⟨u, (mE u v).2 h1, h2.drop (fun _ hw => hw) (fun _ hw _ _ _ => hw) (uc c)⟩
        · intro y
          dsimp only [Option.map_some, remove]
          rw [mB, R.g, hrun, hAB, List.filterMap_append, List.filterMap_cons_some hdatP]
          have e1 : A.filterMap t2.data = A.filterMap s.data := List.filterMap_congr fun v hv =>
            hdat' v (by rw [hAB]; simp [hv]) (by have := hAP' v hv; omega)
          have e2 : B.filterMap t2.data = B.filterMap s.data := List.filterMap_congr fun v hv =>
            hdat' v (by rw [hAB]; simp [hv]) (by have := hPB v hv; omega)
          rw [e1, e2, runS_append]
          have e4 : ∀ z, runS M.act (r :: B.filterMap s.data) z = runS M.act (B.filterMap s.data) (M.act r z) := fun _ => rfl
          rw [e4]
          show M.ph (t.g + g) _ = _
          rw [k.g]
          exact sem_tail M hsem hBdis y
  · exact plain

/-! ### The pass -/

/-- Instructions as `QuantumCircuit.append` accepts them: no bit occurs twice. -/
def Fit (S : Sig J) (ok : J → Prop) (x : J) : Prop := (S.qs x).Nodup ∧ (S.cs x).Nodup ∧ ok x

theorem loop_ok {ok : J → Prop} (M : Sem S σ) {F : Rule J} (hF : Sound S M ok F) (l : List J) (hl : ∀ x ∈ l, Fit S ok x) :
    ∀ (n : Nat) (s : DSt J), Inv S ok n s → ∃ s', fuseLoop S F n l s = some s' ∧ Inv S ok (n + l.length) s' ∧
      ∀ y, M.ph s'.g (runS M.act (s'.alive.filterMap s'.data) y) = runS M.act l (M.ph s.g (runS M.act (s.alive.filterMap s.data) y)) := by
  induction l with
  | nil => intro n s h; exact ⟨s, rfl, h, fun _ => rfl⟩
  | cons x l ih =>
    intro n s h
    obtain ⟨h1, h2, h3⟩ := hl x (by simp)
    obtain ⟨s1, e1, i1, m1⟩ := step_ok M hF h x h1 h2 h3
    obtain ⟨s2, e2, i2, m2⟩ := ih (fun z hz => hl z (by simp [hz])) (n + 1) s1 i1
    refine ⟨s2, by simp only [fuseLoop, e1, Option.bind_some, e2], ?_, fun y => ?_⟩
    · rw [List.length_cons, show n + (l.length + 1) = n + 1 + l.length by omega]; exact i2
    · rw [m2, m1]; rfl

/-- The order of two living nodes with a common bit is enforced by the edges. -/
theorem chain {s : DSt J} {ord : List Nat} (ho : Topo s ord) (hn : ord.Nodup) (P : Nat → Prop)
    (hP : ∀ v ∈ s.alive, P v → ∃ u, (u, v) ∈ s.edges ∧ Last s.alive P v u) :
    ∀ (w : Nat), w ∈ s.alive → P w → ∀ v ∈ s.alive, v < w → P v → [v, w].Sublist ord := by
  intro w
  induction w using Nat.strong_induction_on with
  | _ w ih =>
    intro hw hPw v hv hvw hPv
    obtain ⟨u, hu, hlast⟩ := hP w hw hPw
    rcases hlast with ⟨_, h2⟩ | ⟨z, hz, rfl, hzw, hPz, hbetween⟩
    · exact absurd hPv (h2 v hv hvw)
    · have h1 := ho.forward z w hu
      rcases Nat.lt_trichotomy v z with h | h | h
      · exact Comp.pair_trans hn (ih z hzw hz hPz v hv h hPv) h1
      · subst h; exact h1
      · exact absurd hPv (hbetween v hv h hvw)

theorem pair_lt {l : List Nat} (h : l.Pairwise (· < ·)) {a b : Nat} (hs : [a, b].Sublist l) : a < b := by
  have := h.sublist hs
  simpa using this

theorem emit_ok {ok : J → Prop} (M : Sem S σ) {n : Nat} {s : DSt J} (h : Inv S ok n s) {ord : List Nat} (ho : Topo s ord)
    (hg : ∀ a g, ok a → S.gph a = some g → ∀ x, M.act a x = M.ph g x)
    (mk : ℝ → J) (hmk : ∀ t y, M.act (mk t) y = M.ph t y) (y : σ) :
    runS M.act (emitG S mk s ord) y = M.ph s.g (runS M.act (s.alive.filterMap s.data) y) := by
  have hnd : s.alive.Nodup := h.sorted.imp (fun h => ne_of_lt h)
  have hn : ord.Nodup := ho.perm.nodup_iff.2 hnd
  have key : ∀ z, runS M.act (ord.filterMap s.data) z = runS M.act (s.alive.filterMap s.data) z := by
    refine runS_reorder M s.data ord s.alive ho.perm hnd ?_
    intro a b i j hs ha hb hd
    have hlt := pair_lt h.sorted hs
    have hA : a ∈ s.alive := hs.subset (by simp)
    have hB : b ∈ s.alive := hs.subset (by simp)
    rcases hd with ⟨q, h1, h2⟩ | ⟨c, h1, h2⟩
    · refine chain ho hn (UQ S s.data q) ?_ b hB ⟨j, hb, h2⟩ a hA hlt ⟨i, ha, h1⟩
      intro v hv hu
      obtain ⟨u, l, e1, e2, e3⟩ := h.eq1 v hv q hu
      exact ⟨u, e1, (h.eq2 u v l q e1 e2 e3).2⟩
    · exact chain ho hn (UC S s.data c) (fun v hv hu => h.ec v hv c hu) b hB ⟨j, hb, h2⟩ a hA hlt ⟨i, ha, h1⟩
  unfold emitG
  dsimp only
  have hd : ∀ a ∈ ord.filterMap s.data, ∀ g, S.gph a = some g → ∀ x, M.act a x = M.ph g x := by
    intro a ha
    obtain ⟨v, hv, e⟩ := List.mem_filterMap.1 ha
    obtain ⟨j, e1, _, e3⟩ := h.data v (ho.perm.subset hv)
    rw [e] at e1
    injection e1 with e1
    subst e1
    exact fun g => hg a g e3
  rw [← key, runS_gsum M (ord.filterMap s.data) hd, ← M.ph_add, runS_append]
  split
  · show M.act (mk _) _ = _
    rw [hmk]
  · rename_i hz
    push Not at hz
    rw [hz, M.ph_zero]
    rfl

/-- The pass with any topological order: no `KeyError`, and the same action. -/
theorem fuse_sound {ok : J → Prop} (M : Sem S σ) {F : Rule J} (hF : Sound S M ok F) (mk : ℝ → J)
    (hmk : ∀ t y, M.act (mk t) y = M.ph t y) (l : List J) (hl : ∀ x ∈ l, Fit S ok x) :
    ∃ s, fuseLoop S F 0 l init = some s ∧ Inv S ok l.length s ∧
      ∀ ord, Topo s ord → ∀ y, runS M.act (emitG S mk s ord) y = runS M.act l y := by
  obtain ⟨s, e, i, m⟩ := loop_ok M hF l hl 0 init (init_inv ok)
  rw [Nat.zero_add] at i
  refine ⟨s, e, i, fun ord ho y => ?_⟩
  rw [emit_ok M i ho hF.gph mk hmk, m]
  show runS M.act l (M.ph 0 y) = _
  rw [M.ph_zero]

/-- The order of insertion is a topological order. -/
theorem topo_alive {ok : J → Prop} {n : Nat} {s : DSt J} (h : Inv S ok n s) : Topo s s.alive where
  perm := List.Perm.refl _
  forward := by
    intro a b hab
    obtain ⟨h1, h2, h3⟩ := h.eord a b hab
    have ha : a ∈ s.alive := by
      rcases h3 with h3 | ⟨w, h3, h4⟩
      · omega
      · have : a = w := by exact_mod_cast h4
        subst this; exact h3
    have hlt : a < b := by exact_mod_cast h1
    obtain ⟨A, B, hAB⟩ := List.append_of_mem ha
    have hs := h.sorted
    rw [hAB, List.pairwise_append, List.pairwise_cons] at hs
    have hb : b ∈ B := by
      rw [hAB, List.mem_append, List.mem_cons] at h2
      rcases h2 with h2 | h2 | h2
      · have := hs.2.2 b h2 a (by simp); omega
      · omega
      · exact h2
    rw [hAB]
    exact List.Sublist.trans (List.Sublist.cons_cons a (List.singleton_sublist.2 hb)) (List.sublist_append_right _ _)

/-- The instructions of the result come from the input, from the rule, or are the global phase. -/
theorem emit_fit {ok : J → Prop} {n : Nat} {s : DSt J} (h : Inv S ok n s) {ord : List Nat} (ho : Topo s ord) (mk : ℝ → J) :
    ∀ x ∈ emitG S mk s ord, ((S.qs x).Nodup ∧ ok x) ∨ ∃ t, x = mk t := by
  intro x hx
  unfold emitG at hx
  dsimp only at hx
  rcases List.mem_append.1 hx with hx | hx
  · obtain ⟨v, hv, e⟩ := List.mem_filterMap.1 (List.mem_filter.1 hx).1
    obtain ⟨j, e1, e2, e3⟩ := h.data v (ho.perm.subset hv)
    rw [e] at e1
    injection e1 with e1
    subst e1
    exact Or.inl ⟨e2, e3⟩
  · split at hx
    · rw [List.mem_singleton] at hx; exact Or.inr ⟨_, hx⟩
    · cases hx

end Verif.Fuse
