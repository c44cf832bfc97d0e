import Verif.Comp.UnqompInv

/-!
The circuit written by `uncompute_qc` as a list of steps in the sense of `Comp/UnqompSem.lean`.
-/

namespace Verif.Comp

open Finset

variable {L : Type} {n : Nat}

/-! ### Types of a gate -/

/-- The permeability on a qubit as a value. -/
def Instr.typeAt (i : Instr L) (q : Nat) : Option PT := (i.qperm.find? fun x => x.1 == q).bind Prod.snd

theorem typeAt_iff {i : Instr L} (hn : i.qubits.Nodup) (q : Nat) (t : PT) : i.typeAt q = some t ↔ i.typeOn q t := by
  unfold Instr.typeAt Instr.typeOn
  constructor
  · intro h
    obtain ⟨x, h1, h2⟩ := Option.bind_eq_some_iff.1 h
    have h3 := List.find?_some h1
    have h4 := List.mem_of_find?_eq_some h1
    obtain ⟨a, b⟩ := x
    simp only [beq_iff_eq] at h3
    dsimp only at h2
    rw [← h3, ← h2]
    exact h4
  · intro h
    cases hf : i.qperm.find? fun x => x.1 == q with
    | none =>
      have := List.find?_eq_none.1 hf _ h
      simp at this
    | some x =>
      obtain ⟨a, b⟩ := x
      have h3 := List.find?_some hf
      simp only [beq_iff_eq] at h3
      subst h3
      exact zip_nodup_inj hn (List.mem_of_find?_eq_some hf) h

theorem typeAt_none {mat : L → Op n} {i : Instr L} (hl : Labelled mat i) (hn : i.qubits.Nodup) {q : Nat}
    (h : i.typeAt q = none) : q ∉ i.qubits := by
  intro hq
  obtain ⟨t, ht⟩ := hl.typed hq
  rw [(typeAt_iff hn q t).2 ht] at h
  cases h

theorem flips {M : Op n} {S : Finset (Fin n)} (h : ∀ q ∈ S, Commute M (pX q)) : ∀ (f : BS n),
    (∀ q, f q = true ↔ q ∈ S) → ∀ b c, M (bx b f) (bx c f) = M b c := by
  induction S using Finset.induction_on with
  | empty =>
    intro f hf b c
    have e : ∀ b, bx b f = b := by
      intro b
      funext q
      have : f q = false := by
        by_contra hc
        have := (hf q).1 (by simpa using hc)
        simp at this
      simp [bx, this]
    rw [e, e]
  | insert a S ha ih =>
    intro f hf b c
    have ih' := ih (fun q hq => h q (Finset.mem_insert_of_mem hq)) (Function.update f a false) (by
      intro q
      by_cases hq : q = a
      · subst hq; simp [ha]
      · rw [Function.update_of_ne hq, hf, Finset.mem_insert]
        simp [hq])
    have hfa : f a = true := (hf a).2 (by simp)
    have e : ∀ b, bx b f = flipAt a (bx b (Function.update f a false)) := by
      intro b
      funext q
      by_cases hq : q = a
      · subst hq; simp [bx, flipAt, hfa]
      · simp [bx, flipAt, hq]
    have hc := (h a (by simp)).eq
    have := congrFun (congrFun hc (bx b (Function.update f a false))) (flipAt a (bx c (Function.update f a false)))
    rw [mul_pX, pX_mul, flip_flip] at this
    rw [e, e, ← this, ih']

theorem flips' {M : Op n} {f : BS n} (h : ∀ q, f q = true → Commute M (pX q)) (b c : BS n) :
    M (bx b f) (bx c f) = M b c :=
  flips (S := Finset.univ.filter fun q => f q = true) (fun q hq => h q (by simpa using hq)) f (by simp) b c

/-- A gate that is not uncomputed. -/
theorem exists_gen {mat : L → Op n} {i : Instr L} (hl : Labelled mat i) (hn : i.qubits.Nodup) :
    ∃ G : Gen n, G.mat = mat i.label ∧ ∀ q : Fin n, G.ty q = i.typeAt q := by
  refine ⟨⟨fun q => i.typeAt q, mat i.label, ?_, ?_⟩, rfl, fun _ => rfl⟩
  · intro b c q hq hne
    by_contra hc
    refine hne ((commute_Z_iff q (mat i.label)).1 ?_ b c hc)
    rcases hq with hq | hq
    · exact (hl.outside q (typeAt_none hl hn hq)).2
    · exact hl.typeZ q ((typeAt_iff hn q .z).1 hq)
  · intro b c f hf
    exact flips' (fun q hq => (hl.outside q (typeAt_none hl hn (hf q hq))).1) b c

/-- What is required of a gate that is uncomputed: the (phase tolerant) replacement `pt` permutes the basis
states with phases, `inv` is its inverse, `plain` is the permutation. -/
structure Uncomp (mat plain : L → Op n) (inv pt : L → L) (i : Instr L) : Prop where
  lab : Labelled mat { i with label := pt i.label }
  perm : ∃ (π : Equiv.Perm (BS n)) (φ : BS n → ℂ), (∀ b, φ b ≠ 0) ∧
    (∀ c b, mat (pt i.label) c b = if c = π b then φ b else 0) ∧
    ∀ c b, plain i.label c b = if c = π b then 1 else 0
  inv : mat (inv (pt i.label)) * mat (pt i.label) = 1

theorem exists_mono {mat plain : L → Op n} {inv pt : L → L} {i : Instr L} (h : Uncomp mat plain inv pt i)
    (hn : i.qubits.Nodup) : ∃ M : Mono n, (∀ q : Fin n, M.ty q = i.typeAt q) ∧
    (∀ c b, mat (pt i.label) c b = if c = M.perm b then M.phase b else 0) ∧
    (∀ c b, plain i.label c b = if c = M.perm b then 1 else 0) ∧
    ∀ c b, mat (inv (pt i.label)) c b = if c = M.perm.symm b then (M.phase (M.perm.symm b))⁻¹ else 0 := by
  obtain ⟨π, φ, h1, h2, h3⟩ := h.perm
  have hl := h.lab
  have hout : ∀ q : Fin n, i.typeAt q = none → Commute (mat (pt i.label)) (pX q) ∧ Commute (mat (pt i.label)) (pZ q) := by
    intro q hq
    refine hl.outside q ?_
    intro hm
    obtain ⟨t, ht⟩ := hl.typed hm
    have ht : i.typeOn q t := ht
    rw [(typeAt_iff hn q t).2 ht] at hq
    cases hq
  refine ⟨⟨fun q => i.typeAt q, π, φ, h1, ?_, ?_⟩, fun _ => rfl, h2, h3, ?_⟩
  · intro b q hq
    by_contra hc
    have hz : Commute (mat (pt i.label)) (pZ q) := by
      rcases hq with hq | hq
      · exact (hout q hq).2
      · exact hl.typeZ q ((typeAt_iff hn q .z).1 hq)
    have := (commute_Z_iff q _).1 hz (π b) b hc
    rw [h2, if_pos rfl] at this
    exact h1 b this
  · intro b f hf
    have := flips' (M := mat (pt i.label)) (f := f) (by
      intro q hq
      rcases hf q hq with hq | hq
      · exact (hout q hq).1
      · exact hl.typeX q ((typeAt_iff hn q .x).1 hq)) (π b) b
    rw [h2, h2, if_pos rfl] at this
    by_cases he : bx (π b) f = π (bx b f)
    · rw [if_pos he] at this
      exact ⟨he.symm, this⟩
    · rw [if_neg he] at this
      exact absurd this.symm (h1 b)
  · intro c b
    have e := congrFun (congrFun h.inv c) (π.symm b)
    rw [Matrix.mul_apply] at e
    simp only [h2, Equiv.apply_symm_apply, mul_ite, mul_zero, Finset.sum_ite_eq', Finset.mem_univ, if_true] at e
    rw [Matrix.one_apply] at e
    dsimp only
    by_cases hc : c = π.symm b
    · rw [if_pos hc] at e ⊢
      exact eq_inv_of_mul_eq_one_left e
    · rw [if_neg hc] at e ⊢
      exact (mul_eq_zero.1 e).resolve_right (h1 _)

/-! ### Runs as sums -/

/-- The matrix of a step. -/
noncomputable def tagMat (G : Nat → Gen n) (M : Nat → Mono n) : Tag → Op n
  | .oth v => (G v).mat
  | .fwd v => fun c b => if c = (M v).perm b then (M v).phase b else 0
  | .bwd v => fun c b => if c = (M v).perm.symm b then ((M v).phase ((M v).perm.symm b))⁻¹ else 0

theorem amp_cons (G : Nat → Gen n) (M : Nat → Mono n) (t : Tag) (R : List Tag) (s b : BS n) :
    amp G M (t :: R) s b = ∑ s1, tagMat G M t s1 s * amp G M R s1 b := by
  cases t <;> simp [amp, tagMat]

theorem run_amp {mat : L → Op n} (G : Nat → Gen n) (M : Nat → Mono n) (f : Nat → Option (Instr L))
    (tg : Nat → Option Tag) (ord : List Nat)
    (h : ∀ x ∈ ord, (∃ i t, f x = some i ∧ i.kind = .gate ∧ tg x = some t ∧ mat i.label = tagMat G M t) ∨
      (tg x = none ∧ ∀ i, f x = some i → i.kind ≠ .gate)) (ψ : BS n → ℂ) (b : BS n) :
    matRun mat (ord.filterMap f) ψ b = ∑ s, ψ s * amp G M (ord.filterMap tg) s b := by
  induction ord generalizing ψ with
  | nil => simp [matRun, amp]
  | cons x ord ih =>
    have ih' := ih fun y hy => h y (by simp [hy])
    rcases h x (by simp) with ⟨i, t, h1, h2, h3, h4⟩ | ⟨h1, h2⟩
    · rw [List.filterMap_cons_some h1, List.filterMap_cons_some h3]
      have e : matRun mat (i :: ord.filterMap f) ψ = matRun mat (ord.filterMap f) ((mat i.label).mulVec ψ) := by
        simp [matRun, h2]
      rw [e, ih', h4]
      simp only [amp_cons, Matrix.mulVec, dotProduct, Finset.sum_mul, Finset.mul_sum]
      rw [Finset.sum_comm]
      refine Finset.sum_congr rfl fun s _ => Finset.sum_congr rfl fun s1 _ => ?_
      ring
    · rw [List.filterMap_cons_none h1]
      cases hf : f x with
      | none => rw [List.filterMap_cons_none hf, ih']
      | some i =>
        rw [List.filterMap_cons_some hf, ← ih']
        simp [matRun, h2 i hf]

theorem run_ampO {plain : L → Op n} (G : Nat → Gen n) (M : Nat → Mono n) (f : Nat → Option (Instr L))
    (tg : Nat → Option Tag) (ord : List Nat)
    (h : ∀ x ∈ ord, (∃ i v, f x = some i ∧ i.kind = .gate ∧ tg x = some (.oth v) ∧ plain i.label = (G v).mat) ∨
      (∃ i v, f x = some i ∧ i.kind = .gate ∧ tg x = some (.fwd v) ∧
        ∀ c b, plain i.label c b = if c = (M v).perm b then 1 else 0) ∨
      ((tg x = none ∨ ∃ v, tg x = some (.bwd v)) ∧ ∀ i, f x = some i → i.kind ≠ .gate)) (ψ : BS n → ℂ) (b : BS n) :
    matRun plain (ord.filterMap f) ψ b = ∑ s, ψ s * ampO G M (ord.filterMap tg) s b := by
  induction ord generalizing ψ with
  | nil => simp [matRun, ampO]
  | cons x ord ih =>
    have ih' := ih fun y hy => h y (by simp [hy])
    rcases h x (by simp) with ⟨i, v, h1, h2, h3, h4⟩ | ⟨i, v, h1, h2, h3, h4⟩ | ⟨h1, h2⟩
    · rw [List.filterMap_cons_some h1, List.filterMap_cons_some h3]
      have e : matRun plain (i :: ord.filterMap f) ψ = matRun plain (ord.filterMap f) ((plain i.label).mulVec ψ) := by
        simp [matRun, h2]
      rw [e, ih', h4]
      simp only [ampO, Matrix.mulVec, dotProduct, Finset.sum_mul, Finset.mul_sum]
      rw [Finset.sum_comm]
      refine Finset.sum_congr rfl fun s _ => Finset.sum_congr rfl fun s1 _ => ?_
      ring
    · rw [List.filterMap_cons_some h1, List.filterMap_cons_some h3]
      have e : matRun plain (i :: ord.filterMap f) ψ = matRun plain (ord.filterMap f) ((plain i.label).mulVec ψ) := by
        simp [matRun, h2]
      rw [e, ih']
      simp only [ampO, Matrix.mulVec, dotProduct, Finset.sum_mul, h4]
      rw [Finset.sum_comm]
      refine Finset.sum_congr rfl fun s _ => ?_
      simp
    · have e : matRun plain ((x :: ord).filterMap f) ψ b = matRun plain (ord.filterMap f) ψ b := by
        cases hf : f x with
        | none => rw [List.filterMap_cons_none hf]
        | some i =>
          rw [List.filterMap_cons_some hf]
          simp [matRun, h2 i hf]
      rw [e, ih']
      rcases h1 with h1 | ⟨v, h1⟩
      · rw [List.filterMap_cons_none h1]
      · rw [List.filterMap_cons_some h1]
        simp only [ampO]

end Verif.Comp
