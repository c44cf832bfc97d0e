import Verif.Comp.Light
import Verif.Comp.Quantum
import Mathlib.LinearAlgebra.Matrix.ConjTranspose
import Mathlib.Data.Complex.BigOperators

/-!
# Measurement probabilities after light cone reduction
-/

namespace Verif.Comp

open Matrix

variable {n : Nat}

/-- Probability that the qubits `qs` of the state `ψ` are measured with the values `v`. -/
noncomputable def prob (qs : List (Fin n)) (v : Fin n → Bool) (ψ : (Fin n → Bool) → ℂ) : ℝ :=
  ∑ x, if ∀ q ∈ qs, x q = v q then Complex.normSq (ψ x) else 0

/-- Squared length of a state. -/
noncomputable def normSq (ψ : (Fin n → Bool) → ℂ) : ℝ := ∑ x, Complex.normSq (ψ x)

/-- Projection on the states in which qubit `q` has value `b`. -/
def proj (q : Fin n) (b : Bool) : Op n := Matrix.diagonal fun x => if x q = b then 1 else 0

theorem proj_mulVec (q : Fin n) (b : Bool) (ψ : (Fin n → Bool) → ℂ) (x : Fin n → Bool) :
    (proj q b).mulVec ψ x = if x q = b then ψ x else 0 := by
  unfold proj
  rw [Matrix.mulVec_diagonal]
  split <;> simp

theorem proj_pZ (q p : Fin n) (b : Bool) : Commute (proj q b) (pZ p) := by
  rw [commute_Z_iff]
  intro x y hne
  unfold proj
  rw [Matrix.diagonal_apply_ne]
  rintro rfl
  exact hne rfl

theorem proj_pX {q p : Fin n} (h : p ≠ q) (b : Bool) : Commute (proj q b) (pX p) := by
  change proj q b * pX p = pX p * proj q b
  ext x y
  rw [mul_pX, pX_mul]
  unfold proj
  rw [Matrix.diagonal_apply, Matrix.diagonal_apply]
  by_cases hy : x = flipAt p y
  · subst hy
    rw [flip_flip, if_pos rfl, if_pos rfl, flip_other h.symm]
  · rw [if_neg hy, if_neg]
    intro e
    exact hy (by rw [← e, flip_flip])

theorem normSq_unitary {U : Op n} (hU : Uᴴ * U = 1) (ψ : (Fin n → Bool) → ℂ) : normSq (U.mulVec ψ) = normSq ψ := by
  have key : ∀ φ : (Fin n → Bool) → ℂ, ((normSq φ : ℝ) : ℂ) = star φ ⬝ᵥ φ := by
    intro φ
    unfold normSq dotProduct
    rw [Complex.ofReal_sum]
    refine Finset.sum_congr rfl fun x _ => ?_
    rw [Complex.normSq_eq_conj_mul_self]
    rfl
  have : ((normSq (U.mulVec ψ) : ℝ) : ℂ) = ((normSq ψ : ℝ) : ℂ) := by
    rw [key, key, Matrix.star_mulVec, Matrix.dotProduct_mulVec, Matrix.vecMul_vecMul, hU, Matrix.vecMul_one]
  exact_mod_cast this

/-- Label of an instruction: a matrix with the identity of the instruction, or a measurement. -/
abbrev QL (n : Nat) := (Op n × Nat) ⊕ Fin n

/-- The matrix of an instruction if the measurements give `v`. -/
def outcome (v : Fin n → Bool) : QL n → Op n
  | .inl (U, _) => U
  | .inr q => proj q (v q)

/-- The measurement of qubit `q` into classical bit `c` (standard_operations.py:35-46). -/
def measI (q : Fin n) (c : Nat) : Instr (QL n) := ⟨.gate, .inr q, [q.val], [.z], [c]⟩

/-- light_cone_reduction.py:50 `measure_identifier`. -/
def isMeasI (qs : List (Fin n)) (i : Instr (QL n)) : Bool :=
  match i.label with
  | .inl _ => false
  | .inr q => qs.contains q

/-- A unitary gate of a circuit without measurements; the matrix is trivial outside its qubits and commutes
with the Pauli matrices its permeability claims. -/
structure UGate (i : Instr (QL n)) : Prop where
  gate : i.kind = .gate → ∃ U k, i.label = .inl (U, k) ∧ Uᴴ * U = 1
  lab : i.kind = .gate → Labelled (outcome fun _ => false) i
  noMeas : ∀ q, i.label ≠ .inr q

theorem measI_labelled (q : Fin n) (c : Nat) (v : Fin n → Bool) : Labelled (outcome v) (measI q c) where
  kind := rfl
  len := rfl
  outside p hp := by
    have : p ≠ q := by
      rintro rfl
      exact hp (by simp [measI])
    exact ⟨proj_pX this _, proj_pZ _ _ _⟩
  typeZ p _ := proj_pZ _ _ _
  typeX p hp := by
    simp [measI, Instr.typeOn, Instr.qperm, Instr.permAt] at hp

theorem UGate.labelled {i : Instr (QL n)} (h : UGate i) (hk : i.kind = .gate) (v : Fin n → Bool) :
    Labelled (outcome v) i := by
  obtain ⟨U, k, e, _⟩ := h.gate hk
  have := h.lab hk
  have e1 : ∀ w, outcome w i.label = U := fun w => by rw [e]; rfl
  exact ⟨this.kind, this.len, fun q hq => by simpa only [e1] using this.outside q hq,
    fun q hq => by simpa only [e1] using this.typeZ q hq, fun q hq => by simpa only [e1] using this.typeX q hq⟩

theorem matRun_append {L : Type} (mat : L → Op n) (a b : List (Instr L)) (ψ : (Fin n → Bool) → ℂ) :
    matRun mat (a ++ b) ψ = matRun mat b (matRun mat a ψ) := by
  unfold matRun
  rw [List.foldl_append]

theorem matRun_meas (v : Fin n → Bool) (qs : List (Fin n)) (c : Fin n → Nat) (ψ : (Fin n → Bool) → ℂ) (x) :
    matRun (outcome v) (qs.map fun q => measI q (c q)) ψ x = if ∀ q ∈ qs, x q = v q then ψ x else 0 := by
  induction qs generalizing ψ with
  | nil => simp [matRun]
  | cons q qs ih =>
    have : matRun (outcome v) ((q :: qs).map fun q => measI q (c q)) ψ
        = matRun (outcome v) (qs.map fun q => measI q (c q)) ((proj q (v q)).mulVec ψ) := rfl
    rw [this, ih, proj_mulVec]
    by_cases h1 : x q = v q <;> by_cases h2 : ∀ q ∈ qs, x q = v q <;> simp [h1, h2]

theorem matRun_unitary (v : Fin n → Bool) {R : List (Instr (QL n))} (h : ∀ i ∈ R, UGate i)
    (ψ : (Fin n → Bool) → ℂ) : normSq (matRun (outcome v) R ψ) = normSq ψ := by
  induction R generalizing ψ with
  | nil => rfl
  | cons i R ih =>
    unfold matRun at ih ⊢
    rw [List.foldl_cons, ih fun j hj => h j (by simp [hj])]
    by_cases hk : i.kind = .gate
    · rw [if_pos hk]
      obtain ⟨U, k, e, hU⟩ := (h i (by simp)).gate hk
      rw [e]
      exact normSq_unitary hU ψ
    · rw [if_neg hk]

theorem matRun_outcome {l : List (Instr (QL n))} (h : ∀ i ∈ l, UGate i) (v w : Fin n → Bool)
    (ψ : (Fin n → Bool) → ℂ) : matRun (outcome v) l ψ = matRun (outcome w) l ψ := by
  induction l generalizing ψ with
  | nil => rfl
  | cons i l ih =>
    unfold matRun at ih ⊢
    rw [List.foldl_cons, List.foldl_cons, ih fun j hj => h j (by simp [hj])]
    by_cases hk : i.kind = .gate
    · obtain ⟨U, k, e, _⟩ := (h i (by simp)).gate hk
      rw [if_pos hk, if_pos hk, e]
      rfl
    · rw [if_neg hk, if_neg hk]

theorem prob_eq (qs : List (Fin n)) (v : Fin n → Bool) (c : Fin n → Nat) (ψ : (Fin n → Bool) → ℂ) :
    prob qs v ψ = normSq (matRun (outcome v) (qs.map fun q => measI q (c q)) ψ) := by
  unfold prob normSq
  refine Finset.sum_congr rfl fun x _ => ?_
  rw [matRun_meas]
  split <;> simp

/-- The probabilities of all outcomes are those of the circuit before the reduction. -/
theorem lightcone_prob {data out : List (Instr (QL n))} {qs : List (Fin n)} {c : Fin n → Nat}
    (hq : qs.Nodup) (hne : qs ≠ []) (ho : ∀ i ∈ data, InsOK i) (hn : data.Nodup) (hna : NoDupAlloc data)
    (hu : ∀ i ∈ data, UGate i)
    (h : lightcone (isMeasI qs) data (qs.map fun q => measI q (c q)) = some out)
    (v : Fin n → Bool) (ψ : (Fin n → Bool) → ℂ) :
    prob qs v (matRun (outcome v) out ψ) = prob qs v (matRun (outcome v) data ψ) := by
  have hlab : ∀ i ∈ data ++ (qs.map fun q => measI q (c q)), i.kind = .gate → Labelled (outcome v) i := by
    intro i hi hk
    rcases List.mem_append.1 hi with hi | hi
    · exact (hu i hi).labelled hk v
    · obtain ⟨q, _, rfl⟩ := List.mem_map.1 hi
      exact measI_labelled q _ v
  obtain ⟨R, hp, _, hr⟩ := lightcone_split (isMeas := isMeasI qs) (meas := qs.map fun q => measI q (c q))
    (by
      intro i hi
      rcases List.mem_append.1 hi with hi | hi
      · exact ho i hi
      · obtain ⟨q, _, rfl⟩ := List.mem_map.1 hi
        exact ⟨by simp [measI], fun hk => by cases hk⟩)
    (by
      refine List.nodup_append.2 ⟨hn, hq.map fun a b e => ?_, ?_⟩
      · have := congrArg Instr.label e
        simpa [measI] using this
      · rintro a ha b hb rfl
        obtain ⟨q, _, rfl⟩ := List.mem_map.1 hb
        exact (hu _ ha).noMeas q rfl)
    (by
      unfold NoDupAlloc at hna ⊢
      refine List.pairwise_append.2 ⟨hna, ?_, ?_⟩
      · refine List.pairwise_map.2 (List.pairwise_of_forall fun a b hk => by cases hk)
      · intro a _ b hb _ hk
        obtain ⟨q, _, rfl⟩ := List.mem_map.1 hb
        cases hk)
    (by
      intro i hi
      unfold isMeasI
      cases e : i.label with
      | inl _ => rfl
      | inr q => exact absurd e ((hu i hi).noMeas q))
    (by
      intro i hi
      obtain ⟨q, hq, rfl⟩ := List.mem_map.1 hi
      simpa [isMeasI, measI] using hq)
    (by simpa using hne) h
  have hmem : ∀ i ∈ out ++ R, i ∈ data := fun i hi => hp.mem_iff.1 hi
  have e := hr (matInterp (outcome v)) ψ
  rw [← matRun_eq hlab, ← matRun_eq (by
    intro i hi hk
    apply hlab i _ hk
    simp only [List.mem_append] at hi hmem ⊢
    rcases hi with (hi | hi) | hi
    · exact Or.inl (hmem i (Or.inl hi))
    · exact Or.inr hi
    · exact Or.inl (hmem i (Or.inr hi)))] at e
  rw [matRun_append, matRun_append, matRun_append] at e
  rw [prob_eq qs v c, prob_eq qs v c, e, matRun_unitary v fun i hi => hu i (hmem i (List.mem_append_right _ hi))]

end Verif.Comp
