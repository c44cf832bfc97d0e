import Mathlib.Algebra.BigOperators.Group.List.Basic
import Mathlib.Algebra.Ring.Defs
import Mathlib.Data.List.Nodup
import Mathlib.Data.List.Basic
import Mathlib.Algebra.Order.Ring.Int

/-!
# Assignment of physical qubits

Model of the qubit assignment of the compiler (`core/compilation.py:229-395`), without the recompilation of
multi controlled X gates and of mid circuit measurement gates.
-/

namespace Verif.Comp

/-- Instructions after `optimize_allocations`. A gate is any linear map on its qubits: entry of the matrix for row
and column given as bit lists. Measurements and resets are gates for a fixed outcome. -/
inductive LI (R : Type) where
  | alloc (q : Nat)
  | dealloc (q : Nat)
  | barrier (qs : List Nat)
  | gate (U : List Bool → List Bool → R) (qs : List Nat)

variable {R : Type}

def LI.qubits : LI R → List Nat
  | .alloc q => [q]
  | .dealloc q => [q]
  | .barrier qs => qs
  | .gate _ qs => qs

def LI.mapQ (f : Nat → Nat) : LI R → LI R
  | .alloc q => .alloc (f q)
  | .dealloc q => .dealloc (f q)
  | .barrier qs => .barrier (qs.map f)
  | .gate U qs => .gate U (qs.map f)

/-- compilation.py:229-237: number of qubits needed. -/
def reqStep (st : Int × Int) (i : LI R) : Int × Int :=
  let r := match i with
    | .alloc _ => st.1 + 1
    | .dealloc _ => st.1 - 1
    | _ => st.1
  (r, if st.2 < r then st.2 + 1 else st.2)

def maxRequired (prog : List (LI R)) : Int := (prog.foldl reqStep (0, 0)).2

/-- State of the loop: `translation_dic`, `free_qb_list` and the circuit. -/
structure CS (R : Type) where
  dic : List (Nat × Nat)
  free : List Nat
  out : List (LI R)

/-- compilation.py:273-287: assignment of the first free qubit; `srt` is the order by depth and identifier.
`none` is the IndexError of `pop(0)`. -/
def assign (srt : List (LI R) → List Nat → List Nat) (st : CS R) (q : Nat) : Option (CS R) :=
  match st.dic.lookup q with
  | some _ => some st
  | none =>
    match srt st.out st.free with
    | [] => none
    | p :: f => some { st with dic := (q, p) :: st.dic, free := f }

/-- `translation_dic[q]` after the assignment. -/
def CS.tr (st : CS R) (q : Nat) : Nat := (st.dic.lookup q).getD 0

/-- compilation.py:265-395: one pass of the loop. -/
def compStep (srt : List (LI R) → List Nat → List Nat) (st : CS R) (i : LI R) : Option (CS R) :=
  match i with
  | .barrier _ => some st
  | i => do
    let st ← i.qubits.foldlM (assign srt) st
    match i with
    | .dealloc q =>
      some ⟨st.dic.filter fun e => e.1 != q, st.free ++ [st.tr q], st.out ++ [.dealloc (st.tr q)]⟩
    | i => some { st with out := st.out ++ [i.mapQ st.tr] }

/-- compilation.py:229-395 with `N` physical qubits. -/
def compile (srt : List (LI R) → List Nat → List Nat) (N : Nat) (prog : List (LI R)) : Option (CS R) :=
  prog.foldlM (compStep srt) ⟨[], List.range N, []⟩

/-! ### Meaning of circuits -/

/-- All bit lists of a length. -/
def bitLists : Nat → List (List Bool)
  | 0 => [[]]
  | n + 1 => (bitLists n).flatMap fun l => [false :: l, true :: l]

/-- Overwrite the bits `qs` of `x`. -/
def setBits (x : Nat → Bool) : List Nat → List Bool → Nat → Bool
  | q :: qs, b :: bs, k => if k = q then b else setBits x qs bs k
  | _, _, k => x k

/-- Application of a gate to a state. -/
def applyGate [Semiring R] (U : List Bool → List Bool → R) (qs : List Nat) (ψ : (Nat → Bool) → R) (x : Nat → Bool) :
    R :=
  ((bitLists qs.length).map fun y => U (qs.map x) y * ψ (setBits x qs y)).sum

/-- Effect of an instruction; allocations, deallocations and barriers have none. -/
def LI.act [Semiring R] : LI R → ((Nat → Bool) → R) → (Nat → Bool) → R
  | .gate U qs, ψ => applyGate U qs ψ
  | _, ψ => ψ

def runL [Semiring R] (prog : List (LI R)) (ψ : (Nat → Bool) → R) : (Nat → Bool) → R :=
  prog.foldl (fun ψ i => i.act ψ) ψ

/-- Every deallocated qubit is in state 0, and gates act on different qubits. -/
def Legal [Semiring R] : List (LI R) → ((Nat → Bool) → R) → Prop
  | [], _ => True
  | i :: prog, ψ =>
    (match i with
      | .dealloc q => ∀ x, x q = true → ψ x = 0
      | .gate _ qs => qs.Nodup
      | _ => True) ∧ Legal prog (i.act ψ)

/-- The logical state that belongs to a physical basis state. -/
def pull (dic : List (Nat × Nat)) (y : Nat → Bool) (q : Nat) : Bool :=
  match dic.lookup q with
  | some p => y p
  | none => false

/-- The physical state is the logical state on the assigned qubits, all other qubits are 0 (on both sides). -/
structure Rel [Semiring R] (dic : List (Nat × Nat)) (ψ φ : (Nat → Bool) → R) : Prop where
  logical : ∀ x q, dic.lookup q = none → x q = true → ψ x = 0
  used : ∀ y, (∀ p, (∀ q, dic.lookup q ≠ some p) → y p = false) → φ y = ψ (pull dic y)
  unused : ∀ y p, (∀ q, dic.lookup q ≠ some p) → y p = true → φ y = 0

/-- Different logical qubits have different physical qubits, none of them free. -/
structure Good (st : CS R) : Prop where
  inj : ∀ q q' p, st.dic.lookup q = some p → st.dic.lookup q' = some p → q = q'
  free : ∀ q p, st.dic.lookup q = some p → p ∉ st.free
  nodup : st.free.Nodup

/-! ### Correctness -/

variable [Semiring R]

theorem lookup_cons (q p k : Nat) (l : List (Nat × Nat)) :
    List.lookup k ((q, p) :: l) = if k = q then some p else l.lookup k := by
  rw [List.lookup_cons]
  by_cases h : k = q
  · subst h; simp
  · have : (k == q) = false := by simpa using h
    rw [this, if_neg h]

theorem lookup_filter (q k : Nat) (l : List (Nat × Nat)) :
    List.lookup k (l.filter fun e => e.1 != q) = if k = q then none else l.lookup k := by
  induction l with
  | nil => simp
  | cons e l ih =>
    obtain ⟨a, b⟩ := e
    rw [List.filter_cons]
    by_cases ha : a = q
    · subst ha
      simp only [bne_self_eq_false, Bool.false_eq_true, if_false]
      rw [ih, lookup_cons]
      by_cases hk : k = a <;> simp [hk]
    · have : (a != q) = true := by simpa using ha
      simp only [this, if_true]
      rw [lookup_cons, lookup_cons, ih]
      by_cases hk : k = a
      · subst hk; simp [ha]
      · simp [hk]

theorem assign_spec {srt : List (LI R) → List Nat → List Nat} (hs : ∀ o l, (srt o l).Perm l) {st st' : CS R} {q : Nat}
    (hg : Good st) (h : assign srt st q = some st') {ψ φ : (Nat → Bool) → R} (hr : Rel st.dic ψ φ) :
    Good st' ∧ Rel st'.dic ψ φ ∧ st'.out = st.out ∧ (st'.dic.lookup q).isSome ∧
      ∀ k p, st.dic.lookup k = some p → st'.dic.lookup k = some p := by
  unfold assign at h
  split at h
  · rename_i v e
    cases h
    exact ⟨hg, hr, rfl, by rw [e]; rfl, fun _ _ h => h⟩
  · rename_i e
    split at h
    · cases h
    · rename_i p f e2
      simp only [Option.some.injEq] at h
      subst h
      have hp := hs st.out st.free
      rw [e2] at hp
      have hnd := hp.nodup_iff.2 hg.nodup
      rw [List.nodup_cons] at hnd
      have hpf : p ∈ st.free := hp.mem_iff.1 (by simp)
      have hnew : ∀ k, st.dic.lookup k ≠ some p := fun k hk => hg.free k p hk hpf
      refine ⟨⟨?_, ?_, hnd.2⟩, ⟨?_, ?_, ?_⟩, rfl, ?_, ?_⟩
      · intro k k' r h1 h2
        rw [lookup_cons] at h1 h2
        split at h1 <;> split at h2
        · rename_i a b; rw [a, b]
        · cases h1; exact absurd h2 (hnew _)
        · cases h2; exact absurd h1 (hnew _)
        · exact hg.inj _ _ _ h1 h2
      · intro k r h1 hf
        rw [lookup_cons] at h1
        split at h1
        · cases h1; exact hnd.1 hf
        · exact hg.free k r h1 (hp.mem_iff.1 (by simp [hf]))
      · intro x k h1 hx
        rw [lookup_cons] at h1
        split at h1
        · cases h1
        · exact hr.logical x k h1 hx
      · intro y hy
        have hy' : ∀ r, (∀ k, st.dic.lookup k ≠ some r) → r ≠ p → y r = false := by
          intro r h1 hne
          apply hy
          intro k hk
          rw [lookup_cons] at hk
          split at hk
          · cases hk; exact hne rfl
          · exact h1 k hk
        cases hyp : y p
        · rw [hr.used y fun r h1 => by
            by_cases hrp : r = p
            · rw [hrp, hyp]
            · exact hy' r h1 hrp]
          congr 1
          funext k
          unfold pull
          rw [lookup_cons]
          by_cases hk : k = q
          · subst hk
            rw [e, if_pos rfl]
            exact hyp.symm
          · rw [if_neg hk]
        · rw [hr.unused y p hnew hyp, hr.logical _ q e]
          unfold pull
          rw [lookup_cons, if_pos rfl]
          exact hyp
      · intro y r h1 hy
        refine hr.unused y r (fun k hk => h1 k ?_) hy
        rw [lookup_cons, if_neg]
        · exact hk
        · rintro rfl
          rw [e] at hk
          cases hk
      · rw [lookup_cons, if_pos rfl]
        rfl
      · intro k r hk
        rw [lookup_cons, if_neg]
        · exact hk
        · rintro rfl
          rw [e] at hk
          cases hk

theorem assigns_spec {srt : List (LI R) → List Nat → List Nat} (hs : ∀ o l, (srt o l).Perm l) (qs : List Nat) :
    ∀ {st st' : CS R}, Good st → qs.foldlM (assign srt) st = some st' → ∀ {ψ φ : (Nat → Bool) → R}, Rel st.dic ψ φ →
    Good st' ∧ Rel st'.dic ψ φ ∧ st'.out = st.out ∧ (∀ q ∈ qs, (st'.dic.lookup q).isSome) ∧
      ∀ k p, st.dic.lookup k = some p → st'.dic.lookup k = some p := by
  induction qs with
  | nil =>
    intro st st' hg h ψ φ hr
    simp only [List.foldlM_nil, Option.pure_def, Option.some.injEq] at h
    subst h
    exact ⟨hg, hr, rfl, by simp, fun _ _ h => h⟩
  | cons q qs ih =>
    intro st st' hg h ψ φ hr
    rw [List.foldlM_cons] at h
    obtain ⟨s1, h1, h2⟩ := Option.bind_eq_some_iff.1 h
    obtain ⟨g1, r1, o1, l1, k1⟩ := assign_spec hs hg h1 hr
    obtain ⟨g2, r2, o2, l2, k2⟩ := ih g1 h2 r1
    refine ⟨g2, r2, o2.trans o1, ?_, fun k p hk => k2 k p (k1 k p hk)⟩
    intro k hk
    rcases List.mem_cons.1 hk with rfl | hk
    · obtain ⟨p, hp⟩ := Option.isSome_iff_exists.1 l1
      rw [k2 _ p hp]
      rfl
    · exact l2 k hk

theorem setBits_other {x : Nat → Bool} {k : Nat} : ∀ {qs : List Nat} {bs : List Bool}, k ∉ qs → setBits x qs bs k = x k := by
  intro qs
  induction qs with
  | nil => intro bs _; cases bs <;> rfl
  | cons q qs ih =>
    intro bs h
    cases bs with
    | nil => rfl
    | cons b bs =>
      rw [List.mem_cons, not_or] at h
      rw [setBits, if_neg h.1, ih h.2]

/-- Overwriting physical bits is overwriting logical bits. -/
theorem pull_set {dic : List (Nat × Nat)} (hinj : ∀ q q' p, dic.lookup q = some p → dic.lookup q' = some p → q = q')
    (y : Nat → Bool) : ∀ {qs : List Nat} (bs : List Bool), (∀ q ∈ qs, (dic.lookup q).isSome) →
    pull dic (setBits y (qs.map fun q => (dic.lookup q).getD 0) bs) = setBits (pull dic y) qs bs := by
  intro qs
  induction qs with
  | nil => intro bs _; cases bs <;> rfl
  | cons q qs ih =>
    intro bs h
    cases bs with
    | nil => rfl
    | cons b bs =>
      have ih' := ih bs fun k hk => h k (by simp [hk])
      obtain ⟨p, hp⟩ := Option.isSome_iff_exists.1 (h q (by simp))
      funext k
      have e := congrFun ih' k
      have hset : setBits (pull dic y) (q :: qs) (b :: bs) k = if k = q then b else setBits (pull dic y) qs bs k := rfl
      rw [hset, ← e, List.map_cons, hp]
      unfold pull
      cases hk : dic.lookup k with
      | none =>
        rw [if_neg]
        rintro rfl
        rw [hk] at hp
        cases hp
      | some r =>
        change (if r = p then b else setBits y _ bs r) = if k = q then b else setBits y _ bs r
        by_cases hkq : k = q
        · subst hkq
          rw [hp] at hk
          cases hk
          simp
        · rw [if_neg hkq, if_neg]
          rintro rfl
          exact hkq (hinj _ _ _ hk hp)

theorem sum_zero {l : List R} (h : ∀ x ∈ l, x = 0) : l.sum = 0 := List.sum_eq_zero h

theorem gate_rel {st : CS R} (hg : Good st) {ψ φ : (Nat → Bool) → R} (hr : Rel st.dic ψ φ)
    (U : List Bool → List Bool → R) {qs : List Nat} (hq : ∀ q ∈ qs, (st.dic.lookup q).isSome) :
    Rel st.dic (applyGate U qs ψ) (applyGate U (qs.map st.tr) φ) where
  logical x q h hx := by
    have : q ∉ qs := fun hm => by
      have := hq q hm
      rw [h] at this
      cases this
    refine sum_zero ?_
    intro z hz
    obtain ⟨b, _, rfl⟩ := List.mem_map.1 hz
    rw [hr.logical _ q h (by rw [setBits_other this]; exact hx), mul_zero]
  used y hy := by
    unfold applyGate
    rw [List.length_map, List.map_map]
    congr 1
    apply List.map_congr_left
    intro b _
    have hfix : ∀ p, (∀ q, st.dic.lookup q ≠ some p) → p ∉ qs.map st.tr := by
      intro p hp hm
      obtain ⟨q, hq1, rfl⟩ := List.mem_map.1 hm
      obtain ⟨r, hr⟩ := Option.isSome_iff_exists.1 (hq q hq1)
      exact hp q (by unfold CS.tr; rw [hr]; rfl)
    congr 1
    · congr 1
      apply List.map_congr_left
      intro q hq1
      obtain ⟨r, hr⟩ := Option.isSome_iff_exists.1 (hq q hq1)
      simp [pull, hr, CS.tr]
    · rw [hr.used _ fun p hp => by rw [setBits_other (hfix p hp)]; exact hy p hp]
      exact congrArg ψ (pull_set hg.inj y b hq)
  unused y p h hy := by
    have : p ∉ qs.map st.tr := by
      intro hm
      obtain ⟨q, hq1, rfl⟩ := List.mem_map.1 hm
      obtain ⟨r, hr⟩ := Option.isSome_iff_exists.1 (hq q hq1)
      exact h q (by unfold CS.tr; rw [hr]; rfl)
    refine sum_zero ?_
    intro z hz
    obtain ⟨b, _, rfl⟩ := List.mem_map.1 hz
    rw [hr.unused _ p h (by rw [setBits_other this]; exact hy), mul_zero]

theorem dealloc_rel {st : CS R} (hg : Good st) {ψ φ : (Nat → Bool) → R} (hr : Rel st.dic ψ φ) {q : Nat}
    (hq : (st.dic.lookup q).isSome) (hz : ∀ x, x q = true → ψ x = 0) :
    Rel (st.dic.filter fun e => e.1 != q) ψ φ := by
  obtain ⟨p, hp⟩ := Option.isSome_iff_exists.1 hq
  refine ⟨?_, ?_, ?_⟩
  · intro x k h hx
    rw [lookup_filter] at h
    split at h
    · rename_i e; subst e; exact hz x hx
    · exact hr.logical x k h hx
  · intro y hy
    have hyp : y p = false := by
      apply hy
      intro k hk
      rw [lookup_filter] at hk
      split at hk
      · cases hk
      · rename_i hne
        exact hne (hg.inj _ _ _ hk hp)
    rw [hr.used y fun r h => hy r fun k hk => by
      rw [lookup_filter] at hk
      split at hk
      · cases hk
      · exact h k hk]
    congr 1
    funext k
    unfold pull
    rw [lookup_filter]
    by_cases hk : k = q
    · subst hk
      rw [if_pos rfl, hp]
      exact hyp
    · rw [if_neg hk]
  · intro y r h hy
    by_cases hrp : r = p
    · subst hrp
      by_cases hall : ∀ r, (∀ k, st.dic.lookup k ≠ some r) → y r = false
      · rw [hr.used y hall]
        apply hz
        unfold pull
        rw [hp]
        exact hy
      · push Not at hall
        obtain ⟨s, h1, h2⟩ := hall
        exact hr.unused y s h1 (by simpa using h2)
    · refine hr.unused y r (fun k hk => h k ?_) hy
      rw [lookup_filter, if_neg]
      · exact hk
      · rintro rfl
        rw [hp] at hk
        cases hk
        exact hrp rfl

theorem compStep_spec {srt : List (LI R) → List Nat → List Nat} (hs : ∀ o l, (srt o l).Perm l) {st st' : CS R}
    {i : LI R} {prog : List (LI R)} (hg : Good st) (h : compStep srt st i = some st') {ψ φ : (Nat → Bool) → R}
    (hr : Rel st.dic ψ φ) (hl : Legal (i :: prog) ψ) :
    ∃ o, st'.out = st.out ++ o ∧ Good st' ∧ Rel st'.dic (i.act ψ) (runL o φ) := by
  unfold compStep at h
  cases i with
  | barrier qs =>
    simp only [Option.some.injEq] at h
    subst h
    exact ⟨[], by simp, hg, hr⟩
  | alloc q =>
    simp only [Option.bind_eq_bind] at h
    obtain ⟨s1, h1, h2⟩ := Option.bind_eq_some_iff.1 h
    obtain ⟨g1, r1, o1, l1, _⟩ := assigns_spec hs _ hg h1 hr
    simp only [Option.some.injEq] at h2
    subst h2
    exact ⟨[.alloc (s1.tr q)], by rw [← o1]; rfl, ⟨g1.inj, g1.free, g1.nodup⟩, r1⟩
  | dealloc q =>
    simp only [Option.bind_eq_bind] at h
    obtain ⟨s1, h1, h2⟩ := Option.bind_eq_some_iff.1 h
    obtain ⟨g1, r1, o1, l1, _⟩ := assigns_spec hs _ hg h1 hr
    simp only [Option.some.injEq] at h2
    subst h2
    have hq : (s1.dic.lookup q).isSome := l1 q (by simp [LI.qubits])
    obtain ⟨p, hp⟩ := Option.isSome_iff_exists.1 hq
    have htr : s1.tr q = p := by unfold CS.tr; rw [hp]; rfl
    refine ⟨[.dealloc (s1.tr q)], by rw [← o1], ⟨?_, ?_, ?_⟩, dealloc_rel g1 r1 hq hl.1⟩
    · intro k k' r h1 h2
      simp only [lookup_filter] at h1 h2
      split at h1
      · cases h1
      · split at h2
        · cases h2
        · exact g1.inj _ _ _ h1 h2
    · intro k r h1 hm
      simp only [lookup_filter] at h1
      split at h1
      · cases h1
      · rename_i hne
        rcases List.mem_append.1 hm with hm | hm
        · exact g1.free k r h1 hm
        · rw [htr, List.mem_singleton] at hm
          subst hm
          exact hne (g1.inj _ _ _ h1 hp)
    · refine List.nodup_append.2 ⟨g1.nodup, by simp, ?_⟩
      rintro a ha b hb rfl
      rw [htr, List.mem_singleton] at hb
      subst hb
      exact g1.free q a hp ha
  | gate U qs =>
    simp only [Option.bind_eq_bind] at h
    obtain ⟨s1, h1, h2⟩ := Option.bind_eq_some_iff.1 h
    obtain ⟨g1, r1, o1, l1, _⟩ := assigns_spec hs _ hg h1 hr
    simp only [Option.some.injEq] at h2
    subst h2
    exact ⟨[.gate U (qs.map s1.tr)], by rw [← o1]; rfl, ⟨g1.inj, g1.free, g1.nodup⟩, gate_rel g1 r1 U l1⟩

theorem compLoop_spec {srt : List (LI R) → List Nat → List Nat} (hs : ∀ o l, (srt o l).Perm l) :
    ∀ (prog : List (LI R)) {st st' : CS R}, Good st → prog.foldlM (compStep srt) st = some st' →
    ∀ {ψ φ : (Nat → Bool) → R}, Rel st.dic ψ φ → Legal prog ψ →
    ∃ o, st'.out = st.out ++ o ∧ Good st' ∧ Rel st'.dic (runL prog ψ) (runL o φ) := by
  intro prog
  induction prog with
  | nil =>
    intro st st' hg h ψ φ hr _
    simp only [List.foldlM_nil, Option.pure_def, Option.some.injEq] at h
    subst h
    exact ⟨[], by simp, hg, hr⟩
  | cons i prog ih =>
    intro st st' hg h ψ φ hr hl
    rw [List.foldlM_cons] at h
    obtain ⟨s1, h1, h2⟩ := Option.bind_eq_some_iff.1 h
    obtain ⟨o1, e1, g1, r1⟩ := compStep_spec hs hg h1 hr hl
    obtain ⟨o2, e2, g2, r2⟩ := ih g1 h2 r1 hl.2
    refine ⟨o1 ++ o2, by rw [e2, e1, List.append_assoc], g2, ?_⟩
    unfold runL at r2 ⊢
    rw [List.foldl_append, List.foldl_cons]
    exact r2

/-- A state in which all qubits are 0. -/
def AllZero (ψ : (Nat → Bool) → R) : Prop := ∀ x q, x q = true → ψ x = 0

theorem compile_spec {srt : List (LI R) → List Nat → List Nat} (hs : ∀ o l, (srt o l).Perm l) {N : Nat}
    {prog : List (LI R)} {st : CS R} (h : compile srt N prog = some st) {ψ : (Nat → Bool) → R} (hz : AllZero ψ)
    (hl : Legal prog ψ) : Good st ∧ Rel st.dic (runL prog ψ) (runL st.out ψ) := by
  obtain ⟨o, e, g, r⟩ := compLoop_spec hs prog (st := ⟨[], List.range N, []⟩)
    ⟨fun _ _ _ h => (by cases h), fun _ _ h => (by cases h), List.nodup_range⟩ h
    (ψ := ψ) (φ := ψ) ⟨fun x q _ hx => hz x q hx, fun y hy => by
      congr 1
      funext k
      exact hy k (fun _ h => (by cases h)), fun y p _ hy => hz y p hy⟩ hl
  simp only [List.nil_append] at e
  rw [e]
  exact ⟨g, r⟩

/-! ### Enough qubits -/

/-- Every qubit is allocated before its uses and not allocated twice without a deallocation in between; `live` are
the allocated qubits. -/
def Alive : List Nat → List (LI R) → Prop
  | _, [] => True
  | live, .alloc q :: prog => q ∉ live ∧ Alive (q :: live) prog
  | live, .dealloc q :: prog => q ∈ live ∧ Alive (live.filter fun k => k != q) prog
  | live, .barrier _ :: prog => Alive live prog
  | live, .gate _ qs :: prog => (∀ q ∈ qs, q ∈ live) ∧ Alive live prog

structure Cap (N : Nat) (live : List Nat) (st : CS R) : Prop where
  keys : st.dic.map Prod.fst = live
  nodup : live.Nodup
  free : st.free.length + live.length = N

omit [Semiring R] in
theorem lookup_isSome {l : List (Nat × Nat)} {q : Nat} : (l.lookup q).isSome ↔ q ∈ l.map Prod.fst := by
  induction l with
  | nil => simp
  | cons e l ih =>
    obtain ⟨a, b⟩ := e
    rw [lookup_cons, List.map_cons, List.mem_cons, ← ih]
    by_cases h : q = a <;> simp [h]

omit [Semiring R] in
theorem assign_live {srt : List (LI R) → List Nat → List Nat} {st : CS R} {q : Nat}
    (h : q ∈ st.dic.map Prod.fst) : assign srt st q = some st := by
  unfold assign
  obtain ⟨p, hp⟩ := Option.isSome_iff_exists.1 (lookup_isSome.2 h)
  rw [hp]

omit [Semiring R] in
theorem assigns_live {srt : List (LI R) → List Nat → List Nat} {st : CS R} {qs : List Nat}
    (h : ∀ q ∈ qs, q ∈ st.dic.map Prod.fst) : qs.foldlM (assign srt) st = some st := by
  induction qs with
  | nil => rfl
  | cons q qs ih =>
    rw [List.foldlM_cons, assign_live (h q (by simp))]
    exact ih fun k hk => h k (by simp [hk])

theorem reqStep_le (prog : List (LI R)) (st : Int × Int) : st.2 ≤ (prog.foldl reqStep st).2 := by
  induction prog generalizing st with
  | nil => exact le_refl _
  | cons i prog ih =>
    rw [List.foldl_cons]
    refine le_trans ?_ (ih _)
    unfold reqStep
    simp only
    split <;> omega

theorem compLoop_total {srt : List (LI R) → List Nat → List Nat} (hs : ∀ o l, (srt o l).Perm l) (N : Nat) :
    ∀ (prog : List (LI R)) (live : List Nat) (st : CS R) (m : Int), Cap N live st → Alive live prog →
    (live.length : Int) ≤ m → (prog.foldl reqStep ((live.length : Int), m)).2 ≤ N →
    (prog.foldlM (compStep srt) st).isSome := by
  intro prog
  induction prog with
  | nil => intros; rfl
  | cons i prog ih =>
    intro live st m hc ha hm hN
    rw [List.foldl_cons] at hN
    rw [List.foldlM_cons]
    cases i with
    | barrier qs =>
      have : reqStep ((live.length : Int), m) (LI.barrier qs : LI R) = ((live.length : Int), m) := by
        unfold reqStep
        simp only
        rw [if_neg (by omega)]
      rw [this] at hN
      exact ih live st m hc ha hm hN
    | gate U qs =>
      have : reqStep ((live.length : Int), m) (LI.gate U qs : LI R) = ((live.length : Int), m) := by
        unfold reqStep
        simp only
        rw [if_neg (by omega)]
      rw [this] at hN
      have e : compStep srt st (LI.gate U qs) = some { st with out := st.out ++ [(LI.gate U qs).mapQ st.tr] } := by
        unfold compStep
        simp only [LI.qubits]
        rw [assigns_live fun q hq => by rw [hc.keys]; exact ha.1 q hq]
        rfl
      rw [e]
      exact ih live _ m ⟨hc.keys, hc.nodup, hc.free⟩ ha.2 hm hN
    | dealloc q =>
      have e : compStep srt st (LI.dealloc q) = some ⟨st.dic.filter fun e => e.1 != q, st.free ++ [st.tr q],
          st.out ++ [.dealloc (st.tr q)]⟩ := by
        unfold compStep
        simp only [LI.qubits]
        rw [assigns_live fun k hk => by
          rw [hc.keys]
          rw [List.mem_singleton] at hk
          subst hk
          exact ha.1]
        rfl
      rw [e]
      have hlen : (live.filter fun k => k != q).length + 1 = live.length := by
        have : (live.filter fun k => k != q) = live.erase q := by
          rw [hc.nodup.erase_eq_filter]
        rw [this, List.length_erase_of_mem ha.1]
        have := List.length_pos_of_mem ha.1
        omega
      have : reqStep ((live.length : Int), m) (LI.dealloc q : LI R) =
          (((live.filter fun k => k != q).length : Int), m) := by
        unfold reqStep
        simp only
        rw [if_neg (by omega)]
        congr 1
        omega
      rw [this] at hN
      refine ih _ _ m ⟨?_, hc.nodup.filter _, ?_⟩ ha.2 (by omega) hN
      · rw [← hc.keys, List.filter_map]
        rfl
      · have := hc.free
        simp only [List.length_append, List.length_singleton]
        omega
    | alloc q =>
      have hle := reqStep_le prog (reqStep ((live.length : Int), m) (LI.alloc q : LI R))
      have h2 : reqStep ((live.length : Int), m) (LI.alloc q : LI R) =
          (((q :: live).length : Int), if m < live.length + 1 then m + 1 else m) := by
        unfold reqStep
        simp
      rw [h2] at hN hle
      have hlt : live.length + 1 ≤ N := by
        have h3 : (live.length : Int) + 1 ≤ if m < live.length + 1 then m + 1 else m := by
          split <;> omega
        have := le_trans h3 hle
        omega
      have hq : st.dic.lookup q = none := by
        cases h : st.dic.lookup q with
        | none => rfl
        | some p => exact absurd (by rw [← hc.keys]; exact lookup_isSome.1 (by rw [h]; rfl)) ha.1
      have hfree := (hs st.out st.free).length_eq
      have := hc.free
      match e : srt st.out st.free, hfree with
      | [], hf => simp only [List.length_nil] at hf; omega
      | p :: f, hf =>
        have e : compStep srt st (LI.alloc q) = some ⟨(q, p) :: st.dic, f,
            st.out ++ [LI.alloc (CS.tr ⟨(q, p) :: st.dic, f, st.out⟩ q)]⟩ := by
          unfold compStep
          simp only [LI.qubits, List.foldlM_cons, List.foldlM_nil]
          unfold assign
          rw [hq]
          simp only [e]
          rfl
        rw [e]
        refine ih (q :: live) _ _ ⟨?_, List.nodup_cons.2 ⟨ha.1, hc.nodup⟩, ?_⟩ ha.2 ?_ hN
        · rw [List.map_cons, hc.keys]
        · simp only [List.length_cons] at hf ⊢
          omega
        · simp only [List.length_cons]
          split <;> omega

/-! ### Range of the physical qubits -/

structure Bnd (N : Nat) (st : CS R) : Prop where
  free : ∀ p ∈ st.free, p < N
  dic : ∀ e ∈ st.dic, e.2 < N
  out : ∀ i ∈ st.out, ∀ p ∈ i.qubits, p < N

omit [Semiring R] in
theorem lookup_mem {l : List (Nat × Nat)} {q p : Nat} (h : l.lookup q = some p) : (q, p) ∈ l := by
  induction l with
  | nil => cases h
  | cons e l ih =>
    obtain ⟨a, b⟩ := e
    rw [lookup_cons] at h
    split at h
    · rename_i e; cases h; subst e; simp
    · exact List.mem_cons_of_mem _ (ih h)

omit [Semiring R] in
theorem assign_bnd {srt : List (LI R) → List Nat → List Nat} (hs : ∀ o l, (srt o l).Perm l) {N : Nat} {st st' : CS R}
    {q : Nat} (hb : Bnd N st) (h : assign srt st q = some st') : Bnd N st' ∧ (st'.dic.lookup q).isSome ∧
      ∀ k, (st.dic.lookup k).isSome → (st'.dic.lookup k).isSome := by
  unfold assign at h
  split at h
  · rename_i v e
    cases h
    exact ⟨hb, by rw [e]; rfl, fun _ h => h⟩
  · split at h
    · cases h
    · rename_i p f e2
      simp only [Option.some.injEq] at h
      subst h
      have hp := hs st.out st.free
      rw [e2] at hp
      refine ⟨⟨fun r hr => hb.free r (hp.mem_iff.1 (by simp [hr])), ?_, hb.out⟩, ?_, ?_⟩
      · intro e he
        rcases List.mem_cons.1 he with rfl | he
        · exact hb.free p (hp.mem_iff.1 (by simp))
        · exact hb.dic e he
      · rw [lookup_cons, if_pos rfl]; rfl
      · intro k hk
        rw [lookup_cons]
        split
        · rfl
        · exact hk

omit [Semiring R] in
theorem assigns_bnd {srt : List (LI R) → List Nat → List Nat} (hs : ∀ o l, (srt o l).Perm l) {N : Nat}
    (qs : List Nat) : ∀ {st st' : CS R}, Bnd N st → qs.foldlM (assign srt) st = some st' → Bnd N st' ∧
      (∀ q ∈ qs, (st'.dic.lookup q).isSome) ∧ ∀ k, (st.dic.lookup k).isSome → (st'.dic.lookup k).isSome := by
  induction qs with
  | nil =>
    intro st st' hb h
    simp only [List.foldlM_nil, Option.pure_def, Option.some.injEq] at h
    subst h
    exact ⟨hb, by simp, fun _ h => h⟩
  | cons q qs ih =>
    intro st st' hb h
    rw [List.foldlM_cons] at h
    obtain ⟨s1, h1, h2⟩ := Option.bind_eq_some_iff.1 h
    obtain ⟨b1, l1, k1⟩ := assign_bnd hs hb h1
    obtain ⟨b2, l2, k2⟩ := ih b1 h2
    refine ⟨b2, ?_, fun k hk => k2 k (k1 k hk)⟩
    intro k hk
    rcases List.mem_cons.1 hk with rfl | hk
    · exact k2 _ l1
    · exact l2 k hk

omit [Semiring R] in
theorem compStep_bnd {srt : List (LI R) → List Nat → List Nat} (hs : ∀ o l, (srt o l).Perm l) {N : Nat}
    {st st' : CS R} {i : LI R} (hb : Bnd N st) (h : compStep srt st i = some st') : Bnd N st' := by
  have htr : ∀ {s1 : CS R} {q : Nat}, Bnd N s1 → (s1.dic.lookup q).isSome → s1.tr q < N := by
    intro s1 q hb hq
    obtain ⟨p, hp⟩ := Option.isSome_iff_exists.1 hq
    unfold CS.tr
    rw [hp]
    exact hb.dic _ (lookup_mem hp)
  unfold compStep at h
  cases i with
  | barrier qs => cases h; exact hb
  | alloc q =>
    simp only [Option.bind_eq_bind] at h
    obtain ⟨s1, h1, h2⟩ := Option.bind_eq_some_iff.1 h
    obtain ⟨b1, l1, _⟩ := assigns_bnd hs _ hb h1
    cases h2
    refine ⟨b1.free, b1.dic, ?_⟩
    intro i hi p hp
    rcases List.mem_append.1 hi with hi | hi
    · exact b1.out i hi p hp
    · rw [List.mem_singleton] at hi
      subst hi
      simp only [LI.mapQ, LI.qubits, List.mem_singleton] at hp
      rw [hp]
      exact htr b1 (l1 q (by simp [LI.qubits]))
  | dealloc q =>
    simp only [Option.bind_eq_bind] at h
    obtain ⟨s1, h1, h2⟩ := Option.bind_eq_some_iff.1 h
    obtain ⟨b1, l1, _⟩ := assigns_bnd hs _ hb h1
    cases h2
    have hq := htr b1 (l1 q (by simp [LI.qubits]))
    refine ⟨?_, fun e he => b1.dic e (List.mem_filter.1 he).1, ?_⟩
    · intro p hp
      rcases List.mem_append.1 hp with hp | hp
      · exact b1.free p hp
      · rw [List.mem_singleton] at hp
        rw [hp]
        exact hq
    · intro i hi p hp
      rcases List.mem_append.1 hi with hi | hi
      · exact b1.out i hi p hp
      · rw [List.mem_singleton] at hi
        subst hi
        simp only [LI.qubits, List.mem_singleton] at hp
        rw [hp]
        exact hq
  | gate U qs =>
    simp only [Option.bind_eq_bind] at h
    obtain ⟨s1, h1, h2⟩ := Option.bind_eq_some_iff.1 h
    obtain ⟨b1, l1, _⟩ := assigns_bnd hs _ hb h1
    cases h2
    refine ⟨b1.free, b1.dic, ?_⟩
    intro i hi p hp
    rcases List.mem_append.1 hi with hi | hi
    · exact b1.out i hi p hp
    · rw [List.mem_singleton] at hi
      subst hi
      simp only [LI.mapQ, LI.qubits] at hp
      obtain ⟨q, hq, rfl⟩ := List.mem_map.1 hp
      exact htr b1 (l1 q hq)

omit [Semiring R] in
theorem compile_bnd {srt : List (LI R) → List Nat → List Nat} (hs : ∀ o l, (srt o l).Perm l) {N : Nat}
    {prog : List (LI R)} {st : CS R} (h : compile srt N prog = some st) : Bnd N st := by
  unfold compile at h
  have : Bnd N (⟨[], List.range N, []⟩ : CS R) :=
    ⟨fun p hp => List.mem_range.1 hp, fun e he => (by cases he), fun i hi => (by cases hi)⟩
  generalize (⟨[], List.range N, []⟩ : CS R) = s0 at h this
  induction prog generalizing s0 with
  | nil =>
    simp only [List.foldlM_nil, Option.pure_def, Option.some.injEq] at h
    subst h
    exact this
  | cons i prog ih =>
    rw [List.foldlM_cons] at h
    obtain ⟨s1, h1, h2⟩ := Option.bind_eq_some_iff.1 h
    exact ih s1 h2 (compStep_bnd hs this h1)

end Verif.Comp
