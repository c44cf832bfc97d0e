import Verif.Comp.Quantum
import Mathlib.Data.Finset.Fold

/-!
Semantics of automatic uncomputation: what an order of the nodes of the graph built by `uncompute_qc`
(permeability/qc_transformations/unqomp.py) must satisfy so that the inserted inverses return the
uncomputed qubits to their initial values. The order is shown to satisfy this in `Comp/Unqomp.lean`.
-/

namespace Verif.Comp

open Finset

variable {n : Nat}

/-- Basis states. -/
abbrev BS (n : Nat) := Fin n → Bool

/-- Bitwise xor. -/
def bx (b f : BS n) : BS n := fun q => b q ^^ f q

theorem bx_bx (b f : BS n) : bx (bx b f) f = b := by funext q; simp [bx]

/-- A qfree gate: a permutation of the basis states with phases. `ty` is the permeability on a qubit
(`none`: the gate does not act on it). -/
structure Mono (n : Nat) where
  ty : Fin n → Option PT
  perm : Equiv.Perm (BS n)
  phase : BS n → ℂ
  ne : ∀ b, phase b ≠ 0
  keepZ : ∀ b q, ty q = none ∨ ty q = some .z → perm b q = b q
  keepX : ∀ b f, (∀ q, f q = true → ty q = none ∨ ty q = some .x) →
    perm (bx b f) = bx (perm b) f ∧ phase (bx b f) = phase b

/-- A gate that is not uncomputed: a matrix, trivial outside its qubits, diagonal where it is
Z-permeable. -/
structure Gen (n : Nat) where
  ty : Fin n → Option PT
  mat : Op n
  keepZ : ∀ b c q, ty q = none ∨ ty q = some .z → mat b c ≠ 0 → b q = c q
  outside : ∀ b c f, (∀ q, f q = true → ty q = none) → mat (bx b f) (bx c f) = mat b c

/-- The steps of the uncomputed circuit: other gates, uncomputed gates and their inverses. -/
inductive Tag where
  | oth (v : Nat)
  | fwd (v : Nat)
  | bwd (v : Nat)
deriving DecidableEq

/-- The permeability of a step. Targets of an inverse are neutral. -/
def Tag.ty (G : Nat → Gen n) (M : Nat → Mono n) : Tag → Fin n → Option PT
  | .oth v, q => (G v).ty q
  | .fwd v, q => (M v).ty q
  | .bwd v, q => (M v).ty q

/-- Amplitude of ending in `b` when starting in `s`. -/
noncomputable def amp (G : Nat → Gen n) (M : Nat → Mono n) : List Tag → BS n → BS n → ℂ
  | [], s, b => if b = s then 1 else 0
  | .oth v :: R, s, b => ∑ s1, (G v).mat s1 s * amp G M R s1 b
  | .fwd v :: R, s, b => (M v).phase s * amp G M R ((M v).perm s) b
  | .bwd v :: R, s, b => ((M v).phase ((M v).perm.symm s))⁻¹ * amp G M R ((M v).perm.symm s) b

/-- The same without the inverses and without the phases of the uncomputed gates. -/
noncomputable def ampO (G : Nat → Gen n) (M : Nat → Mono n) : List Tag → BS n → BS n → ℂ
  | [], s, b => if b = s then 1 else 0
  | .oth v :: R, s, b => ∑ s1, (G v).mat s1 s * ampO G M R s1 b
  | .fwd v :: R, s, b => ampO G M R ((M v).perm s) b
  | .bwd _ :: R, s, b => ampO G M R s b

/-- Targets: the qubits with a type other than Z. -/
def isTarget (t : Option PT) : Prop := t = some .x ∨ t = some .neutral

theorem not_target {t : Option PT} (h : ¬ isTarget t) : t = none ∨ t = some .z := by
  rcases t with _ | t
  · exact .inl rfl
  · cases t with
    | z => exact .inr rfl
    | x => exact absurd (.inl rfl) h
    | neutral => exact absurd (.inr rfl) h

/-- What the order of the steps must satisfy. `before x y`: `[x, y]` is a sublist of `W`. -/
structure OrderOK (G : Nat → Gen n) (M : Nat → Mono n) (U : Fin n → Prop) (W : List Tag) : Prop where
  nodup : W.Nodup
  pair : ∀ v, Tag.fwd v ∈ W → [Tag.fwd v, Tag.bwd v].Sublist W
  pair' : ∀ v, Tag.bwd v ∈ W → Tag.fwd v ∈ W
  /-- Only gates with targets in `U` are uncomputed, all targets are in `U`. -/
  other : ∀ v q, Tag.oth v ∈ W → U q → ¬ isTarget ((G v).ty q)
  targets : ∀ v q, Tag.fwd v ∈ W → isTarget ((M v).ty q) → U q
  /-- All gates on a target come before the inverse. -/
  last : ∀ v q x, Tag.bwd v ∈ W → isTarget ((M v).ty q) → x ∈ W → (∀ w, x ≠ .bwd w) → x.ty G M q ≠ none →
    [x, Tag.bwd v].Sublist W
  /-- Inverses come in the opposite order, where the order matters. -/
  chain : ∀ v m q, Tag.fwd v ∈ W → Tag.fwd m ∈ W → (M v).ty q = some .neutral → isTarget ((M m).ty q) →
    ([Tag.fwd m, Tag.fwd v].Sublist W → [Tag.bwd v, Tag.bwd m].Sublist W) ∧
    ([Tag.fwd v, Tag.fwd m].Sublist W → [Tag.bwd m, Tag.bwd v].Sublist W)
  /-- The controls keep their value between a gate and its inverse. -/
  control : ∀ v c x, Tag.fwd v ∈ W → (M v).ty c = some .z → x ∈ W → isTarget (x.ty G M c) →
    ¬ ([Tag.fwd v, x].Sublist W ∧ [x, Tag.bwd v].Sublist W)

/-! ### Lists -/

theorem pair_split {α : Type} {P R : List α} {x y : α} (hn : (P ++ x :: R).Nodup) :
    [y, x].Sublist (P ++ x :: R) ↔ y ∈ P := by
  constructor
  · intro h
    by_contra hc
    rw [List.sublist_append_iff] at h
    obtain ⟨l1, l2, e, h1, h2⟩ := h
    have hx : x ∉ P ∧ x ∉ R := by
      have := List.nodup_middle.1 hn
      have := (List.nodup_cons.1 this).1
      simpa using this
    match l1, e with
    | [], e =>
      simp only [List.nil_append] at e
      rw [← e] at h2
      rcases List.sublist_cons_iff.1 h2 with h | ⟨r, e', h⟩
      · exact hx.2 (h.subset (by simp))
      · have : r = [x] := by injection e' with _ e2; exact e2.symm
        rw [this] at h
        exact hx.2 (h.subset (by simp))
    | a :: l, e =>
      injection e with e1 e2
      exact hc (h1.subset (by simp [e1]))
  · intro h
    exact List.Sublist.append (List.singleton_sublist.2 h) (List.singleton_sublist.2 (by simp))

theorem pair_asymm {α : Type} {l : List α} {x y : α} (hn : l.Nodup) (h1 : [x, y].Sublist l) (h2 : [y, x].Sublist l) :
    False := by
  obtain ⟨P, R, rfl⟩ := List.append_of_mem (h1.subset (by simp : x ∈ [x, y]))
  have h3 := (pair_split hn).1 h2
  obtain ⟨P1, P2, rfl⟩ := List.append_of_mem h3
  have hn' : (P1 ++ y :: (P2 ++ x :: R)).Nodup := by simpa using hn
  have h1' : [x, y].Sublist (P1 ++ y :: (P2 ++ x :: R)) := by simpa using h1
  have := (pair_split hn').1 h1'
  have hd := List.nodup_append'.1 hn
  exact hd.2.2 (List.mem_append_left _ this) (by simp)

theorem pair_or {α : Type} {l : List α} {x y : α} (hx : x ∈ l) (hy : y ∈ l) (hne : x ≠ y) :
    [x, y].Sublist l ∨ [y, x].Sublist l := by
  obtain ⟨P, R, rfl⟩ := List.append_of_mem hx
  rcases List.mem_append.1 hy with h | h
  · exact .inr (List.Sublist.append (List.singleton_sublist.2 h) (List.singleton_sublist.2 (by simp)))
  · rcases List.mem_cons.1 h with h | h
    · exact absurd h.symm hne
    · refine .inl ?_
      have : [x, y].Sublist (x :: R) := List.Sublist.cons_cons x (List.singleton_sublist.2 h)
      exact this.trans (List.sublist_append_right _ _)

/-! ### Sums -/

instance : Std.Commutative xor := ⟨Bool.xor_comm⟩
instance : Std.Associative xor := ⟨Bool.xor_assoc⟩

/-- Parity of the `f v`. -/
def xsum (A : Finset Nat) (f : Nat → Bool) : Bool := A.fold xor false f

theorem xsum_insert {A : Finset Nat} {v : Nat} (h : v ∉ A) (f : Nat → Bool) :
    xsum (insert v A) f = (f v ^^ xsum A f) := by unfold xsum; exact Finset.fold_insert h

theorem xsum_congr {A : Finset Nat} {f g : Nat → Bool} (h : ∀ v ∈ A, f v = g v) : xsum A f = xsum A g := by
  unfold xsum
  exact Finset.fold_congr h

/-- Elements that do not contribute can be left out. -/
theorem xsum_filter {A : Finset Nat} {f : Nat → Bool} {P : Nat → Prop} [DecidablePred P]
    (h : ∀ v ∈ A, f v = true → P v) : xsum A f = xsum (A.filter P) f := by
  induction A using Finset.induction_on with
  | empty => rfl
  | insert v A hv ih =>
    rw [xsum_insert hv, ih fun w hw => h w (by simp [hw]), Finset.filter_insert]
    by_cases hp : P v
    · rw [if_pos hp, xsum_insert (by simp [hv])]
    · rw [if_neg hp]
      have : f v = false := by
        by_contra hc
        exact hp (h v (by simp) (by simpa using hc))
      rw [this, Bool.false_xor]

theorem xsum_same {A B : Finset Nat} {f : Nat → Bool} (h : ∀ v, f v = true → (v ∈ A ↔ v ∈ B)) :
    xsum A f = xsum B f := by
  rw [xsum_filter (P := fun v => f v = true) (fun _ _ h => h),
    xsum_filter (A := B) (P := fun v => f v = true) (fun _ _ h => h)]
  congr 1
  ext v
  simp only [Finset.mem_filter]
  constructor
  · rintro ⟨h1, h2⟩; exact ⟨(h v h2).1 h1, h2⟩
  · rintro ⟨h1, h2⟩; exact ⟨(h v h2).2 h1, h2⟩

/-! ### The main induction -/

open Classical in
/-- The result: the uncomputed qubits have their initial values, and the other qubits end as in the
original circuit, summed over its values of the uncomputed qubits. -/
noncomputable def cleaned (U : Fin n → Prop) (init : BS n) (F : BS n → ℂ) (b : BS n) : ℂ :=
  if ∀ q, U q → b q = init q then ∑ c ∈ univ.filter (fun c : BS n => ∀ q, ¬ U q → c q = b q), F c else 0

theorem cleaned_sum (U : Fin n → Prop) (init : BS n) {ι : Type} (A : Finset ι) (w : ι → ℂ) (F : ι → BS n → ℂ)
    (b : BS n) : ∑ i ∈ A, w i * cleaned U init (F i) b = cleaned U init (fun c => ∑ i ∈ A, w i * F i c) b := by
  unfold cleaned
  split_ifs with h
  · simp_rw [Finset.mul_sum]
    exact Finset.sum_comm
  · simp

/-- The change of a qubit by the gate `k` on the recorded input. -/
def delta (M : Nat → Mono n) (H : Nat → BS n) (k : Nat) (q : Fin n) : Bool := H k q ^^ (M k).perm (H k) q

theorem delta_false {M : Nat → Mono n} {H : Nat → BS n} {k : Nat} {q : Fin n} (h : ¬ isTarget ((M k).ty q)) :
    delta M H k q = false := by
  unfold delta
  rw [(M k).keepZ _ _ (not_target h), Bool.xor_self]

theorem delta_target {M : Nat → Mono n} {H : Nat → BS n} {k : Nat} {q : Fin n} (h : delta M H k q = true) :
    isTarget ((M k).ty q) := by
  by_contra hc
  rw [delta_false hc] at h
  exact absurd h (by decide)

theorem Mono.symm_keepZ (m : Mono n) (b : BS n) (q : Fin n) (h : ¬ isTarget (m.ty q)) : m.perm.symm b q = b q := by
  have := m.keepZ (m.perm.symm b) q (not_target h)
  rw [Equiv.apply_symm_apply] at this
  exact this.symm

/-- The invariant between the executed prefix `P` and the rest. -/
structure GoodAt (G : Nat → Gen n) (M : Nat → Mono n) (U : Fin n → Prop) (W : List Tag) (init : BS n)
    (P : List Tag) (s f : BS n) (H : Nat → BS n) (pend : Finset Nat) : Prop where
  mem : ∀ k, k ∈ pend ↔ Tag.fwd k ∈ P ∧ Tag.bwd k ∉ P
  done : ∀ q, f q = true → ∃ k, Tag.bwd k ∈ P ∧ isTarget ((M k).ty q)
  val : ∀ q, U q → s q = (init q ^^ xsum pend fun k => delta M H k q)
  ctl : ∀ k ∈ pend, ∀ c, (M k).ty c = some .z → s c = H k c
  inp : ∀ k ∈ pend, ∀ q, (M k).ty q = some .neutral →
    ∃ A : Finset Nat, (∀ m, m ∈ A ↔ m ∈ pend ∧ [Tag.fwd m, Tag.fwd k].Sublist W) ∧
      H k q = (init q ^^ xsum A fun m => delta M H m q)

theorem mem_append_one {α : Type} {P : List α} {x y : α} : y ∈ P ++ [x] ↔ y ∈ P ∨ y = x := by simp

open Classical in
theorem amp_cleaned {G : Nat → Gen n} {M : Nat → Mono n} {U : Fin n → Prop} {W : List Tag}
    (hW : OrderOK G M U W) (init : BS n) (b : BS n) : ∀ (R P : List Tag), W = P ++ R →
    ∀ (s f : BS n) (H : Nat → BS n) (pend : Finset Nat), GoodAt G M U W init P s f H pend →
    amp G M R s b * ∏ k ∈ pend, (M k).phase (H k) = cleaned U init (ampO G M R (bx s f)) b := by
  intro R
  induction R with
  | nil =>
    intro P hP s f H pend g
    rw [List.append_nil] at hP
    have hp : pend = ∅ := by
      rw [Finset.eq_empty_iff_forall_notMem]
      intro k hk
      obtain ⟨h1, h2⟩ := (g.mem k).1 hk
      exact h2 (hP ▸ (hW.pair k (hP ▸ h1)).subset (by simp))
    have hs : ∀ q, U q → s q = init q := by
      intro q hq
      rw [g.val q hq, hp]
      simp [xsum]
    have hf : ∀ q, ¬ U q → f q = false := by
      intro q hq
      by_contra hc
      obtain ⟨k, h1, h2⟩ := g.done q (by simpa using hc)
      exact hq (hW.targets k q (hW.pair' k (hP ▸ h1)) h2)
    rw [hp, Finset.prod_empty, mul_one]
    unfold cleaned
    simp only [amp, ampO]
    by_cases hb : b = s
    · subst hb
      rw [if_pos rfl, if_pos hs, Finset.sum_eq_single (bx b f)]
      · simp
      · intro c _ hc
        rw [if_neg hc]
      · intro hc
        exfalso
        apply hc
        simp only [Finset.mem_filter, Finset.mem_univ, true_and]
        intro q hq
        simp [bx, hf q hq]
    · rw [if_neg hb]
      split_ifs with h
      · symm
        apply Finset.sum_eq_zero
        intro c hc
        rw [if_neg]
        rintro rfl
        apply hb
        funext q
        by_cases hq : U q
        · rw [h q hq, hs q hq]
        · have := (Finset.mem_filter.1 hc).2 q hq
          simp only [bx, hf q hq, Bool.xor_false] at this
          exact this.symm
      · rfl
  | cons x R ih =>
    intro P hP s f H pend g
    have hP' : W = (P ++ [x]) ++ R := by rw [hP, List.append_assoc]; rfl
    have hxW : x ∈ W := by rw [hP]; simp
    have hnd := hW.nodup
    rw [hP] at hnd
    have hxP : x ∉ P := by
      have := List.nodup_middle.1 hnd
      have := (List.nodup_cons.1 this).1
      simp only [List.mem_append, not_or] at this
      exact this.1
    have before : ∀ y, y ∈ P → [y, x].Sublist W := by
      intro y hy
      rw [hP]
      exact (pair_split hnd).2 hy
    have notAfter : ∀ y, [y, x].Sublist W → y ∈ P := by
      intro y hy
      rw [hP] at hy
      exact (pair_split hnd).1 hy
    have inW : ∀ y, y ∈ P → y ∈ W := by
      intro y hy; rw [hP]; simp [hy]
    have after : ∀ y, y ∈ W → y ∉ P → y ≠ x → [x, y].Sublist W := by
      intro y h1 h2 h3
      rcases pair_or h1 hxW h3 with h | h
      · exact absurd (notAfter y h) h2
      · exact h
    -- gates that are still to come do not act on finished qubits
    have fresh : (∀ w, x ≠ .bwd w) → ∀ q, f q = true → x.ty G M q = none := by
      intro hx q hq
      by_contra hc
      obtain ⟨k, h1, h2⟩ := g.done q hq
      have h3 := hW.last k q x (inW _ h1) h2 hxW hx hc
      exact pair_asymm hW.nodup h3 (before _ h1)
    -- controls of pending gates are kept
    have keep : ∀ k ∈ pend, x ≠ .bwd k → ∀ c, (M k).ty c = some .z → ¬ isTarget (x.ty G M c) := by
      intro k hk hx c hc ht
      obtain ⟨h1, h2⟩ := (g.mem k).1 hk
      have hb : Tag.bwd k ∈ W := (hW.pair k (inW _ h1)).subset (by simp)
      exact hW.control k c x (inW _ h1) hc hxW ht ⟨before _ h1, after _ hb h2 hx.symm⟩
    cases x with
    | oth v =>
      have key : ∀ s1, (G v).mat s1 s ≠ 0 → GoodAt G M U W init (P ++ [.oth v]) s1 f H pend := by
        intro s1 hs1
        refine ⟨?_, ?_, ?_, ?_, g.inp⟩
        · intro k; rw [g.mem k]; simp
        · intro q hq
          obtain ⟨k, h1, h2⟩ := g.done q hq
          exact ⟨k, by simp [h1], h2⟩
        · intro q hq
          rw [(G v).keepZ s1 s q (not_target (hW.other v q hxW hq)) hs1]
          exact g.val q hq
        · intro k hk c hc
          rw [(G v).keepZ s1 s c (not_target (keep k hk (by simp) c hc)) hs1]
          exact g.ctl k hk c hc
      simp only [amp, ampO]
      rw [Finset.sum_mul]
      have e1 : ∀ s1 ∈ (univ : Finset (BS n)), (G v).mat s1 s * amp G M R s1 b * ∏ k ∈ pend, (M k).phase (H k) =
          (G v).mat s1 s * cleaned U init (ampO G M R (bx s1 f)) b := by
        intro s1 _
        by_cases h : (G v).mat s1 s = 0
        · rw [h]; simp
        · rw [mul_assoc, ih (P ++ [.oth v]) hP' s1 f H pend (key s1 h)]
      rw [Finset.sum_congr rfl e1, cleaned_sum]
      congr 1
      funext c
      refine Finset.sum_bij' (fun s1 _ => bx s1 f) (fun s1 _ => bx s1 f) (by simp) (by simp)
        (fun a _ => bx_bx a f) (fun a _ => bx_bx a f) ?_
      intro s1 _
      rw [(G v).outside s1 s f (fresh (by simp))]
    | fwd v =>
      have hv : v ∉ pend := by
        intro h
        exact hxP ((g.mem v).1 h).1
      have hbv : Tag.bwd v ∉ P := by
        intro h
        exact pair_asymm hW.nodup (hW.pair v hxW) (before _ h)
      have hH : ∀ k ∈ pend, Function.update H v s k = H k := by
        intro k hk
        rw [Function.update_of_ne]
        rintro rfl
        exact hv hk
      have hd : ∀ k ∈ pend, ∀ q, delta M (Function.update H v s) k q = delta M H k q := by
        intro k hk q
        unfold delta
        rw [hH k hk]
      have hdv : ∀ q, delta M (Function.update H v s) v q = (s q ^^ (M v).perm s q) := by
        intro q; unfold delta; rw [Function.update_self]
      have hbx := (M v).keepX s f (fun q hq => .inl (fresh (by simp) q hq))
      have key : GoodAt G M U W init (P ++ [.fwd v]) ((M v).perm s) f (Function.update H v s) (insert v pend) := by
        refine ⟨?_, ?_, ?_, ?_, ?_⟩
        · intro k
          rw [Finset.mem_insert, g.mem k]
          simp only [mem_append_one, Tag.fwd.injEq, reduceCtorEq, or_false]
          constructor
          · rintro (rfl | ⟨h1, h2⟩)
            · exact ⟨.inr rfl, hbv⟩
            · exact ⟨.inl h1, h2⟩
          · rintro ⟨h1 | h1, h2⟩
            · exact .inr ⟨h1, h2⟩
            · exact .inl h1
        · intro q hq
          obtain ⟨k, h1, h2⟩ := g.done q hq
          exact ⟨k, by simp [h1], h2⟩
        · intro q hq
          rw [xsum_insert hv, hdv, xsum_congr fun k hk => hd k hk q]
          have := g.val q hq
          rw [this]
          cases init q <;> cases (xsum pend fun k => delta M H k q) <;> simp
        · intro k hk c hc
          rcases Finset.mem_insert.1 hk with rfl | hk
          · rw [Function.update_self]
            exact (M k).keepZ s c (.inr hc)
          · rw [hH k hk, (M v).keepZ s c (not_target (keep k hk (by simp) c hc))]
            exact g.ctl k hk c hc
        · intro k hk q hq
          rcases Finset.mem_insert.1 hk with rfl | hk
          · refine ⟨pend, ?_, ?_⟩
            · intro m
              constructor
              · intro hm
                exact ⟨Finset.mem_insert_of_mem hm, before _ ((g.mem m).1 hm).1⟩
              · rintro ⟨h1, h2⟩
                rcases Finset.mem_insert.1 h1 with rfl | h1
                · exact absurd (notAfter _ h2) hxP
                · exact h1
            · rw [Function.update_self, xsum_congr fun m hm => hd m hm q]
              exact g.val q (hW.targets k q hxW (.inr hq))
          · rename_i hk'
            obtain ⟨A, hA, e⟩ := g.inp k hk q hq
            refine ⟨A, ?_, ?_⟩
            · intro m
              rw [hA]
              constructor
              · rintro ⟨h1, h2⟩; exact ⟨Finset.mem_insert_of_mem h1, h2⟩
              · rintro ⟨h1, h2⟩
                rcases Finset.mem_insert.1 h1 with h1 | h1
                · subst h1
                  exact absurd h2 (fun h => pair_asymm hW.nodup h (before _ ((g.mem k).1 hk).1))
                · exact ⟨h1, h2⟩
            · rw [hH k hk, xsum_congr fun m hm => hd m ((hA m).1 hm).1 q]
              exact e
      have := ih (P ++ [.fwd v]) hP' _ _ _ _ key
      rw [Finset.prod_insert hv, Function.update_self, Finset.prod_congr rfl fun k hk => by rw [hH k hk]] at this
      simp only [amp, ampO]
      rw [hbx.1, ← this]
      ring
    | bwd v =>
      have hfv : Tag.fwd v ∈ P := notAfter _ (hW.pair v (hW.pair' v hxW))
      have hv : v ∈ pend := (g.mem v).2 ⟨hfv, hxP⟩
      have hvW := inW _ hfv
      -- the state differs from the recorded output on X-permeable and foreign qubits only
      let h := H v
      let t := (M v).perm h
      let gd : BS n := fun q => s q ^^ t q
      have hs : s = bx t gd := by
        funext q; simp only [bx, gd]; cases s q <;> cases t q <;> rfl
      have hgd : ∀ q, gd q = true → (M v).ty q = none ∨ (M v).ty q = some .x := by
        intro q hq
        rcases hty : (M v).ty q with _ | ty
        · exact .inl rfl
        cases ty with
        | x => exact .inr rfl
        | z =>
          exfalso
          have e1 : s q = h q := g.ctl v hv q hty
          have e2 : t q = h q := (M v).keepZ h q (.inr hty)
          simp only [gd, e1, e2, Bool.xor_self] at hq
          exact absurd hq (by decide)
        | neutral =>
          exfalso
          obtain ⟨A, hA, e⟩ := g.inp v hv q hty
          have hvA : v ∉ A := by
            intro hc
            have h2 := ((hA v).1 hc).2
            exact pair_asymm hW.nodup h2 h2
          have e1 := g.val q (hW.targets v q hvW (.inr hty))
          have e2 : xsum pend (fun k => delta M H k q) = xsum (insert v A) (fun k => delta M H k q) := by
            apply xsum_same
            intro m hm
            rw [Finset.mem_insert, hA]
            constructor
            · intro hmp
              by_cases hmv : m = v
              · exact .inl hmv
              · refine .inr ⟨hmp, ?_⟩
                obtain ⟨hm1, hm2⟩ := (g.mem m).1 hmp
                rcases pair_or (inW _ hm1) hvW (by simpa using hmv) with h | h
                · exact h
                · exact absurd (notAfter _ ((hW.chain v m q hvW (inW _ hm1) hty (delta_target hm)).2 h)) hm2
            · rintro (rfl | h)
              · exact hv
              · exact h.1
          rw [xsum_insert hvA] at e2
          have e3 : delta M H v q = (h q ^^ t q) := rfl
          have e4 : h q = (init q ^^ xsum A fun m => delta M H m q) := e
          have : gd q = false := by
            simp only [gd]
            rw [e1, e2, e3, e4]
            generalize (xsum A fun m => delta M H m q) = y
            cases init q <;> cases y <;> cases t q <;> rfl
          rw [this] at hq
          exact absurd hq (by decide)
      have hk := (M v).keepX h gd hgd
      have hsym : (M v).perm.symm s = bx h gd := by
        rw [Equiv.symm_apply_eq, hk.1]
        exact hs
      have hph : (M v).phase ((M v).perm.symm s) = (M v).phase (H v) := by rw [hsym]; exact hk.2
      let s' := (M v).perm.symm s
      have hs' : ∀ q, s' q = (s q ^^ delta M H v q) := by
        intro q
        simp only [s', hsym, bx, gd, delta]
        simp only [t, h]
        cases H v q <;> cases s q <;> cases (M v).perm (H v) q <;> rfl
      let f' : BS n := fun q => f q ^^ (s q ^^ s' q)
      have hbf : bx s f = bx s' f' := by
        funext q
        simp only [bx, f']
        cases s q <;> cases f q <;> cases s' q <;> rfl
      have key : GoodAt G M U W init (P ++ [.bwd v]) s' f' H (pend.erase v) := by
        refine ⟨?_, ?_, ?_, ?_, ?_⟩
        · intro k
          rw [Finset.mem_erase, g.mem k]
          simp only [mem_append_one, Tag.bwd.injEq, reduceCtorEq, or_false]
          tauto
        · intro q hq
          by_cases ht : isTarget ((M v).ty q)
          · exact ⟨v, by simp, ht⟩
          · have : s' q = s q := (M v).symm_keepZ s q ht
            simp only [f', this, Bool.xor_self, Bool.xor_false] at hq
            obtain ⟨k, h1, h2⟩ := g.done q hq
            exact ⟨k, by simp [h1], h2⟩
        · intro q hq
          rw [hs' q, g.val q hq, ← Finset.insert_erase hv, xsum_insert (by simp), Finset.erase_insert (by simp)]
          generalize (xsum (pend.erase v) fun m => delta M H m q) = y
          cases init q <;> cases y <;> cases delta M H v q <;> rfl
        · intro k hk c hc
          obtain ⟨hk1, hk2⟩ := Finset.mem_erase.1 hk
          have := keep k hk2 (by simpa using fun h => hk1 h.symm) c hc
          have e : s' c = s c := (M v).symm_keepZ s c this
          rw [e]
          exact g.ctl k hk2 c hc
        · intro k hk q hq
          obtain ⟨hk1, hk2⟩ := Finset.mem_erase.1 hk
          obtain ⟨A, hA, e⟩ := g.inp k hk2 q hq
          refine ⟨A.erase v, ?_, ?_⟩
          · intro m
            simp only [Finset.mem_erase, hA]
            tauto
          · rw [e]
            congr 1
            apply xsum_same
            intro m hm
            rw [Finset.mem_erase]
            constructor
            · intro h1
              refine ⟨?_, h1⟩
              rintro rfl
              obtain ⟨hk3, hk4⟩ := (g.mem k).1 hk2
              exact hk4 (notAfter _ ((hW.chain k m q (inW _ hk3) hvW hq (delta_target hm)).1 ((hA m).1 h1).2))
            · exact fun h => h.2
      have := ih (P ++ [.bwd v]) hP' _ _ _ _ key
      simp only [amp, ampO]
      rw [hbf, ← this, hph, ← Finset.mul_prod_erase pend _ hv]
      have hne := (M v).ne (H v)
      have e : ∀ a x y : ℂ, a ≠ 0 → a⁻¹ * x * (a * y) = x * y := by
        intro a x y ha
        rw [show a⁻¹ * x * (a * y) = (a⁻¹ * a) * (x * y) by ring, inv_mul_cancel₀ ha, one_mul]
      exact e _ _ _ hne

/-- An order that satisfies `OrderOK` returns the uncomputed qubits to their initial values. -/
theorem amp_uncompute {G : Nat → Gen n} {M : Nat → Mono n} {U : Fin n → Prop} {W : List Tag}
    (hW : OrderOK G M U W) (init s b : BS n) (hs : ∀ q, U q → s q = init q) :
    amp G M W s b = cleaned U init (ampO G M W s) b := by
  have := amp_cleaned hW init b W [] rfl s (fun _ => false) (fun _ => s) ∅
    ⟨by simp, by simp, by intro q hq; simp [xsum, hs q hq], by simp, by simp⟩
  have e : bx s (fun _ => false) = s := by funext q; simp [bx]
  rw [e] at this
  simpa using this

end Verif.Comp
