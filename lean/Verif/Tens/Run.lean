import Verif.Tens.Many
import Mathlib.Data.Complex.BigOperators
import Mathlib.Analysis.Real.Sqrt

/-!
# Sequences of operations on quantum states; square roots of complex numbers
-/

namespace Verif.Tens

set_option linter.unusedSectionVars false

variable {K : Type} [Field K] [StarRing K] [DecidableEq K]

/-- operations of `QuantumState`; `less` compares the random number with the probability -/
inductive SOp (K : Type)
  | apply (M : List K) (qs : List Nat)
  | disentangle (q : Nat)
  | add
  | measure (q : Nat) (less : K → Bool) (keep : Bool)
  | many (mes : List Nat)

/-- one operation: the outcomes and the state -/
def stepS (E : Env K) (s : State K) : SOp K → Option (List Bool × State K)
  | .apply M qs => (applyOp E s M qs).map fun s => ([], s)
  | .disentangle q => some ([], disentangle E s q)
  | .add => some ([], addQubit s)
  | .measure q less keep => (measure E s q less keep).map fun (m, s) => ([m], s)
  | .many mes => some ([], afterMany E s mes)

/-- a sequence of operations -/
def runS (E : Env K) : List (SOp K) → State K → Option (List Bool × State K)
  | [], s => some ([], s)
  | o :: os, s => (stepS E s o).bind fun (l, s) => (runS E os s).map fun (l', s) => (l ++ l', s)

/-! ### Specification: vectors of amplitudes -/

/-- `n` qubits with the amplitudes of all their values -/
structure Ideal (K : Type) where
  n : Nat
  amp : (Nat → Bool) → K

/-- Born's rule for the qubits `mes` with the values of `b` -/
def Ideal.born (v : Ideal K) (mes : List Nat) (b : Nat → Bool) : K :=
  tot ((List.range v.n).filter fun q => !mes.contains q) (fun b => star (v.amp b) * v.amp b) b

/-- Born's rule for one qubit -/
def Ideal.born1 (v : Ideal K) (q : Nat) (x : Bool) : K := v.born [q] fun y => y == q && x

/-- the outcome that is possible, or that the random number selects -/
def Ideal.outcome (v : Ideal K) (q : Nat) (less : K → Bool) : Bool :=
  if v.born1 q false = 0 then true else if v.born1 q true = 0 then false else !less (v.born1 q false)

/-- the effect of an operation on amplitudes -/
def stepI (root : K → K) (v : Ideal K) : SOp K → List Bool × Ideal K
  | .apply M qs => ([], ⟨v.n, fun b =>
      ((allBits qs.length).map fun k => M.getD (num (qs.map b ++ k)) 0 * v.amp (setBits b qs k)).sum⟩)
  | .disentangle _ => ([], v)
  | .add => ([], ⟨v.n + 1, fun b => if b v.n then 0 else v.amp b⟩)
  | .measure q less keep =>
    let m := v.outcome q less
    ([m], ⟨v.n, fun b => if b q = (keep && m) then 1 / root (v.born1 q m) * v.amp (Function.update b q m) else 0⟩)
  | .many _ => ([], v)

/-- a sequence of operations on amplitudes -/
def runI (root : K → K) : List (SOp K) → Ideal K → List Bool × Ideal K
  | [], v => ([], v)
  | o :: os, v => ((stepI root v o).1 ++ (runI root os (stepI root v o).2).1, (runI root os (stepI root v o).2).2)

/-- all qubits in the state 0 -/
def zeroI (n : Nat) : Ideal K := ⟨n, fun b => if ∀ q < n, b q = false then 1 else 0⟩

/-- operations that are applied to existing, different qubits, with matrices of the right size and orthonormal columns -/
def okS (n : Nat) : SOp K → Prop
  | .apply M qs => qs.Nodup ∧ qs ≠ [] ∧ (∀ q ∈ qs, q < n) ∧ M.length = 2 ^ (qs.length + qs.length) ∧ Isometry qs.length M
  | .disentangle q => q < n
  | .add => True
  | .measure q _ _ => q < n
  | .many mes => mes.Nodup ∧ ∀ q ∈ mes, q < n

/-- the number of qubits after an operation -/
def nextN (n : Nat) : SOp K → Nat
  | .add => n + 1
  | _ => n

def okRun : Nat → List (SOp K) → Prop
  | _, [] => True
  | n, o :: os => okS n o ∧ okRun (nextN n o) os

/-- a measurement of a qubit -/
def isMeasure : SOp K → Bool
  | .measure .. => true
  | _ => false

/-! ### Refinement -/

/-- the state has the amplitudes `v` up to the phase `c` -/
structure Rel (s : State K) (v : Ideal K) (c : K) : Prop where
  inv : Inv s
  n : s.n = v.n
  unit : star c * c = 1
  amp : ∀ b, psi s b = c * v.amp b

theorem rel_sq {s : State K} {v : Ideal K} {c : K} (h : Rel s v c) (b : Nat → Bool) :
    star (psi s b) * psi s b = star (v.amp b) * v.amp b := by
  rw [h.amp, star_mul]
  have := h.unit
  linear_combination (star (v.amp b) * v.amp b) * this

theorem rel_born {s : State K} {v : Ideal K} {c : K} (h : Rel s v c) (mes : List Nat) (b : Nat → Bool) : probMany s mes b = v.born mes b := by
  unfold probMany Ideal.born
  simp only [rel_sq h]
  rw [h.n]

theorem prob_born {s : State K} {v : Ideal K} {c : K} (h : Rel s v c) (q : Nat) (x : Bool) : prob s q x = v.born1 q x := by
  unfold prob Ideal.born1 Ideal.born
  simp only [rel_sq h]
  rw [h.n]
  congr 1
  rw [List.nodup_range.erase_eq_filter]
  apply List.filter_congr
  intro y _
  by_cases e : y = q <;> simp [e]

theorem step_rel {E : Env K} (hE : E.Ok) {s : State K} {v : Ideal K} {c : K} (h : Rel s v c) {o : SOp K} (ho : okS s.n o) :
    ∃ s' c', stepS E s o = some ((stepI E.root v o).1, s') ∧ Rel s' (stepI E.root v o).2 c' ∧ s'.n = nextN s.n o ∧
      (isMeasure o = false → c' = c) := by
  cases o with
  | apply M qs =>
    obtain ⟨h1, h2, h3, h4, h5⟩ := ho
    obtain ⟨s', a1, a2, a3, a4⟩ := applyOp_ok hE h.inv h1 h2 h3 h4 h5
    refine ⟨s', c, by simp [stepS, stepI, a1], ⟨a2, a3.trans h.n, h.unit, ?_⟩, a3, fun _ => rfl⟩
    intro b
    rw [a4]
    simp only [matAct, stepI, h.amp]
    rw [← List.sum_map_mul_left]
    congr 1
    apply List.map_congr_left
    intro k _
    ring
  | disentangle q =>
    have k := disentangle_ok hE.root h.inv (show q < s.n from ho) (E := E)
    exact ⟨_, c, rfl, ⟨k.inv, k.n.trans h.n, h.unit, fun b => (k.psi b).trans (h.amp b)⟩, k.n, fun _ => rfl⟩
  | add =>
    obtain ⟨a1, a2, a3⟩ := add_ok h.inv
    refine ⟨_, c, rfl, ⟨a1, by simp [stepI, a2, h.n], h.unit, ?_⟩, a2, fun _ => rfl⟩
    intro b
    rw [a3]
    simp only [stepI, ← h.n]
    split
    · simp
    · exact h.amp b
  | measure q less keep =>
    obtain ⟨m, s', c', m1, m2, m3, m4, m5, m6, m7⟩ := measure_ok hE h.inv (show q < s.n from ho) less keep
    have hm : m = v.outcome q less := by
      rw [m2, choose, Ideal.outcome, prob_born h, prob_born h]
    refine ⟨s', c' * c, by simp [stepS, stepI, m1, hm], ⟨m4, m5.trans h.n, ?_, ?_⟩, m5, fun e => by simp [isMeasure] at e⟩
    · rw [star_mul]
      have := h.unit
      linear_combination star c * c * m6 + this
    · intro b
      rw [m7, prob_born h]
      simp only [stepI, ← hm]
      split
      · rw [h.amp]; ring
      · simp
  | many mes =>
    have k := afterMany_ok hE h.inv ho.1 (fun q hq => ho.2 q hq) (E := E)
    exact ⟨_, c, rfl, ⟨k.inv, k.n.trans h.n, h.unit, fun b => (k.psi b).trans (h.amp b)⟩, k.n, fun _ => rfl⟩

theorem run_rel {E : Env K} (hE : E.Ok) (os : List (SOp K)) {s : State K} {v : Ideal K} {c : K} (h : Rel s v c) (ho : okRun s.n os) :
    ∃ s' c', runS E os s = some ((runI E.root os v).1, s') ∧ Rel s' (runI E.root os v).2 c' ∧
      ((∀ o ∈ os, isMeasure o = false) → c' = c) := by
  induction os generalizing s v c with
  | nil => exact ⟨s, c, rfl, h, fun _ => rfl⟩
  | cons o os ih =>
    obtain ⟨s1, c1, a1, a2, a3, a4⟩ := step_rel hE h ho.1
    obtain ⟨s2, c2, b1, b2, b3⟩ := ih a2 (by rw [a3]; exact ho.2)
    refine ⟨s2, c2, ?_, b2, ?_⟩
    · simp only [runS, runI, a1, Option.bind_some, b1, Option.map_some]
    · intro hm
      rw [b3 fun o ho => hm o (by simp [ho]), a4 (hm o (by simp))]

theorem zero_rel (n : Nat) : Rel (initState n : State K) (zeroI n) 1 := by
  obtain ⟨h1, h2⟩ := init_inv (K := K) n
  exact ⟨h1, h2, by simp, fun b => by rw [init_psi, one_mul]; rfl⟩

/-! ### Complex numbers -/

/-- the square root of the real part -/
noncomputable def complexRoot (z : ℂ) : ℂ := (Real.sqrt z.re : ℝ)

theorem sumsq_real (l : List ℂ) : ∃ r : ℝ, 0 ≤ r ∧ sumsq l = (r : ℂ) ∧ (r = 0 → ∀ x ∈ l, x = 0) := by
  induction l with
  | nil => exact ⟨0, le_refl _, by simp [sumsq], by simp⟩
  | cons x l ih =>
    obtain ⟨r, h1, h2, h3⟩ := ih
    refine ⟨Complex.normSq x + r, add_nonneg (Complex.normSq_nonneg x) h1, ?_, ?_⟩
    · unfold sumsq at h2 ⊢
      rw [List.map_cons, List.sum_cons, h2]
      push_cast
      rw [Complex.normSq_eq_conj_mul_self]
      rfl
    · intro e
      have hx := Complex.normSq_nonneg x
      have e1 : Complex.normSq x = 0 := by linarith
      have e2 : r = 0 := by linarith
      intro y hy
      rcases List.mem_cons.1 hy with rfl | hy
      · exact Complex.normSq_eq_zero.1 e1
      · exact h3 e2 y hy

theorem complexRoot_ok : Root complexRoot where
  definite l h := by
    obtain ⟨r, h1, h2, h3⟩ := sumsq_real l
    rw [h2] at h
    exact h3 (Complex.ofReal_eq_zero.1 h)
  sq l := by
    obtain ⟨r, h1, h2, -⟩ := sumsq_real l
    rw [h2, complexRoot, Complex.ofReal_re, ← Complex.ofReal_mul, Real.mul_self_sqrt h1]
  real l := by
    rw [complexRoot]
    exact Complex.conj_ofReal _
  one := by simp [complexRoot]
  mul l l' := by
    obtain ⟨r, h1, h2, -⟩ := sumsq_real l
    obtain ⟨r', h1', h2', -⟩ := sumsq_real l'
    rw [h2, h2', ← Complex.ofReal_mul]
    simp only [complexRoot, Complex.ofReal_re]
    rw [Real.sqrt_mul h1, Complex.ofReal_mul]

end Verif.Tens
