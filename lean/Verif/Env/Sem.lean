import Mathlib.Algebra.Module.LinearMap.End
import Mathlib.Data.Complex.Basic
import Mathlib.Algebra.Module.Pi
import Mathlib.Algebra.GroupWithZero.Units.Basic
import Mathlib.Tactic.Ring
import Mathlib.Tactic.NoncommRing

/-!
Operators for the quantum environments. Qubits are numbers, a basis state gives every qubit a value, a state is a
function from basis states to amplitudes and an operator is a linear map of states. Circuits of any number of qubits
are operators that leave the other qubits alone.
-/

namespace Verif.Env

/-- Basis states. -/
abbrev B := Nat → Bool

/-- States. -/
abbrev St := B → ℂ

/-- Operators. -/
abbrev E := Module.End ℂ St

/-- The diagonal operator. -/
def dg (f : B → ℂ) : E where
  toFun ψ := fun b => f b * ψ b
  map_add' ψ φ := by funext b; simp [mul_add]
  map_smul' c ψ := by funext b; simp; ring

/-- The projector onto the basis states that satisfy a predicate. -/
def D (T : B → Bool) : E := dg fun b => if T b then 1 else 0

/-- A basis state with one qubit flipped. -/
def flip (a : Nat) (b : B) : B := fun q => if q = a then !b q else b q

/-- The X gate. -/
def X (a : Nat) : E where
  toFun ψ := fun b => ψ (flip a b)
  map_add' ψ φ := rfl
  map_smul' c ψ := rfl

/-- `M` where the predicate holds, nothing elsewhere. -/
def when (T : B → Bool) (M : E) : E := D T * M + D fun b => !T b

theorem flip_flip (a : Nat) (b : B) : flip a (flip a b) = b := by
  funext q
  unfold flip
  by_cases h : q = a <;> simp [h]

theorem flip_at (a : Nat) (b : B) : flip a b a = !b a := by simp [flip]

theorem flip_other {a q : Nat} (h : q ≠ a) (b : B) : flip a b q = b q := by simp [flip, h]

theorem X_sq (a : Nat) : X a * X a = 1 := by
  apply LinearMap.ext
  intro ψ
  funext b
  show ψ (flip a (flip a b)) = ψ b
  rw [flip_flip]

theorem dg_mul (f g : B → ℂ) : dg f * dg g = dg fun b => f b * g b := by
  apply LinearMap.ext
  intro ψ
  funext b
  show f b * (g b * ψ b) = f b * g b * ψ b
  ring

theorem dg_one : dg (fun _ => 1) = 1 := by
  apply LinearMap.ext
  intro ψ
  funext b
  show 1 * ψ b = ψ b
  ring

theorem dg_add (f g : B → ℂ) : dg f + dg g = dg fun b => f b + g b := by
  apply LinearMap.ext
  intro ψ
  funext b
  show f b * ψ b + g b * ψ b = (f b + g b) * ψ b
  ring

theorem dg_zero : dg (fun _ => 0) = 0 := by
  apply LinearMap.ext
  intro ψ
  funext b
  show 0 * ψ b = 0
  ring

theorem dg_smul (c : ℂ) : dg (fun _ => c) = c • 1 := by
  apply LinearMap.ext
  intro ψ
  rfl

theorem dg_comm (f g : B → ℂ) : Commute (dg f) (dg g) := by
  show _ * _ = _ * _
  rw [dg_mul, dg_mul]
  congr 1
  funext b
  ring

theorem D_comm (T S : B → Bool) : Commute (D T) (D S) := dg_comm _ _

theorem D_mul (T S : B → Bool) : D T * D S = D fun b => T b && S b := by
  unfold D
  rw [dg_mul]
  congr 1
  funext b
  cases h1 : T b <;> cases h2 : S b <;> simp [h1, h2]

theorem D_add_not (T : B → Bool) : D T + D (fun b => !T b) = 1 := by
  unfold D
  rw [dg_add, ← dg_one]
  congr 1
  funext b
  cases h1 : T b <;> simp [h1]

theorem D_not (T : B → Bool) : D (fun b => !T b) = 1 - D T := by
  rw [← D_add_not T]; simp

theorem D_true : D (fun _ => true) = 1 := by
  unfold D
  simp [dg_one]

theorem D_false : D (fun _ => false) = 0 := by
  unfold D
  simp [dg_zero]

theorem D_sq (T : B → Bool) : D T * D T = D T := by
  rw [D_mul]
  simp

theorem D_mul_not (T : B → Bool) : D T * D (fun b => !T b) = 0 := by
  rw [D_mul]
  simp [D_false]

theorem D_not_mul (T : B → Bool) : D (fun b => !T b) * D T = 0 := by
  rw [D_mul]
  simp [D_false]

theorem X_dg (a : Nat) (f : B → ℂ) : X a * dg f = dg (fun b => f (flip a b)) * X a := by
  apply LinearMap.ext
  intro ψ
  rfl

theorem X_D (a : Nat) (T : B → Bool) : X a * D T = D (fun b => T (flip a b)) * X a := X_dg a _

/-- A function that ignores a qubit. -/
theorem X_dg_comm {a : Nat} {f : B → ℂ} (h : ∀ b, f (flip a b) = f b) : Commute (X a) (dg f) := by
  show _ * _ = _ * _
  rw [X_dg]
  congr 2
  funext b
  exact h b

theorem X_D_comm {a : Nat} {T : B → Bool} (h : ∀ b, T (flip a b) = T b) : Commute (X a) (D T) :=
  X_dg_comm fun b => by rw [h]

theorem X_comm (a c : Nat) : Commute (X a) (X c) := by
  apply LinearMap.ext
  intro ψ
  funext b
  show ψ (flip c (flip a b)) = ψ (flip a (flip c b))
  congr 1
  funext q
  unfold flip
  split_ifs <;> first | rfl | simp_all

/-! ### Conditional operators -/

theorem when_one (T : B → Bool) : when T 1 = 1 := by
  unfold when
  rw [mul_one, D_add_not]

theorem when_true (M : E) : when (fun _ => true) M = M := by
  unfold when
  simp [D_true, D_false]

theorem when_false (M : E) : when (fun _ => false) M = 1 := by
  unfold when
  simp [D_true, D_false]

theorem when_mul {T : B → Bool} {M N : E} (h : Commute (D T) M) : when T (M * N) = when T M * when T N := by
  unfold when
  rw [D_not]
  have h1 : D T * M * (D T * N) = D T * M * N := by
    rw [show D T * M * (D T * N) = D T * (M * D T) * N by noncomm_ring, ← h.eq, ← mul_assoc, D_sq]
  have h2 : D T * M * (1 - D T) = 0 := by
    rw [mul_assoc, mul_sub, mul_one, mul_sub, ← h.eq, ← mul_assoc, D_sq, sub_self]
  have h3 : (1 - D T) * (D T * N) = 0 := by
    rw [← mul_assoc, sub_mul, one_mul, D_sq, sub_self, zero_mul]
  have h4 : (1 - D T) * (1 - D T) = 1 - D T := by
    rw [mul_sub, mul_one, sub_mul, one_mul, D_sq]; abel
  rw [add_mul, mul_add, mul_add, h1, h2, h3, h4, mul_assoc]
  abel

theorem when_when (T S : B → Bool) (M : E) : when T (when S M) = when (fun b => T b && S b) M := by
  unfold when
  rw [mul_add, ← mul_assoc, D_mul, D_mul, add_assoc]
  congr 1
  unfold D
  rw [dg_add]
  congr 1
  funext b
  cases h1 : T b <;> cases h2 : S b <;> simp [h1, h2]

theorem Commute.when {A M : E} {T : B → Bool} (h : Commute A (D T)) (h' : Commute A M) : Commute A (Env.when T M) := by
  unfold Env.when
  rw [D_not]
  exact (h.mul_right h').add_right ((Commute.one_right A).sub_right h)

/-- Moving an operator past a conditional one. -/
theorem when_nat {A M : E} {T T' : B → Bool} (h : D T * A = A * D T') (h' : Commute A M) :
    when T M * A = A * when T' M := by
  unfold when
  rw [D_not, D_not, add_mul, mul_add, mul_assoc, ← h'.eq, ← mul_assoc, h, sub_mul, mul_sub, one_mul, mul_one, h]
  rw [mul_assoc]

theorem not_nat {A : E} {T T' : B → Bool} (h : D T * A = A * D T') :
    D (fun b => !T b) * A = A * D (fun b => !T' b) := by
  rw [D_not, D_not, sub_mul, mul_sub, one_mul, mul_one, h]

theorem ringInverse_commute {A M : E} (h : Commute A M) : Commute A (Ring.inverse M) := by
  by_cases hu : IsUnit M
  · obtain ⟨u, rfl⟩ := hu
    rw [Ring.inverse_unit]
    exact Commute.units_inv_right h
  · rw [Ring.inverse_non_unit _ hu]
    exact Commute.zero_right A

theorem when_unit {T : B → Bool} {M : E} (h : Commute (D T) M) (hu : IsUnit M) :
    when T M * when T (Ring.inverse M) = 1 ∧ when T (Ring.inverse M) * when T M = 1 := by
  constructor
  · rw [← when_mul h, Ring.mul_inverse_cancel _ hu, when_one]
  · rw [← when_mul (ringInverse_commute h), Ring.inverse_mul_cancel _ hu, when_one]

/-! ### Diagonal functions of a few qubits -/

/-- The function depends only on the listed qubits. -/
def Dep {α : Type} (L : List Nat) (f : B → α) : Prop := ∀ b c : B, (∀ q ∈ L, b q = c q) → f b = f c

theorem Dep.mono {α : Type} {L L' : List Nat} {f : B → α} (h : Dep L f) (hs : ∀ q ∈ L, q ∈ L') : Dep L' f :=
  fun b c hbc => h b c fun q hq => hbc q (hs q hq)

theorem Dep.flip {α : Type} {L : List Nat} {f : B → α} (h : Dep L f) {a : Nat} (ha : a ∉ L) (b : B) :
    f (flip a b) = f b :=
  h _ _ fun q hq => flip_other (by rintro rfl; exact ha hq) b

/-- An operator that commutes with Z on each of the qubits commutes with all diagonal functions of them. -/
theorem dep_comm {M : E} {L : List Nat} (h : ∀ q ∈ L, Commute M (D fun b => b q)) {f : B → ℂ} (hf : Dep L f) :
    Commute M (dg f) := by
  induction L generalizing f with
  | nil =>
    have : dg f = f (fun _ => false) • (1 : E) := by
      rw [← dg_smul]
      congr 1
      funext b
      exact hf _ _ (by simp)
    rw [this]
    exact (Commute.one_right M).smul_right _
  | cons q L ih =>
    have hp : ∀ v : Bool, Dep L fun b : B => f (fun p => if p = q then v else b p) := by
      intro v b c hbc
      refine hf _ _ ?_
      intro p hp
      by_cases h1 : p = q
      · simp [h1]
      · rcases List.mem_cons.1 hp with h2 | h2
        · exact absurd h2 h1
        · simp [h1, hbc p h2]
    have e : dg f = D (fun b => b q) * dg (fun b : B => f (fun p => if p = q then true else b p)) +
        (1 - D (fun b => b q)) * dg (fun b : B => f (fun p => if p = q then false else b p)) := by
      rw [← D_not]
      unfold D
      rw [dg_mul, dg_mul, dg_add]
      congr 1
      funext b
      have hb : ∀ v, b q = v → (fun p => if p = q then v else b p) = b := by
        intro v hv
        funext p
        by_cases h1 : p = q
        · simp [h1, hv]
        · simp [h1]
      cases h1 : b q
      · rw [hb false h1]
        simp [h1]
      · rw [hb true h1]
        simp [h1]
    rw [e]
    have h0 := h q List.mem_cons_self
    have hL := fun p hp => h p (List.mem_cons_of_mem _ hp)
    exact (h0.mul_right (ih hL (hp true))).add_right
      (((Commute.one_right M).sub_right h0).mul_right (ih hL (hp false)))

theorem dep_D_comm {M : E} {L : List Nat} (h : ∀ q ∈ L, Commute M (D fun b => b q)) {T : B → Bool} (hf : Dep L T) :
    Commute M (D T) :=
  dep_comm h fun b c hbc => by rw [hf b c hbc]

/-! ### Clean qubits -/

/-- The qubits from `m` on (below `N`) are zero. -/
def isClean (N m : Nat) (b : B) : Bool := (List.range N).all fun q => decide (q < m) || !b q

/-- The projector onto the states in which all qubits from `m` on (below `N`) are zero. -/
def Clean (N m : Nat) : E := D (isClean N m)

theorem isClean_iff {N m : Nat} {b : B} : isClean N m b = true ↔ ∀ q, q < N → m ≤ q → b q = false := by
  unfold isClean
  rw [List.all_eq_true]
  constructor
  · intro h q h1 h2
    have := h q (List.mem_range.2 h1)
    simpa [Nat.not_lt.2 h2] using this
  · intro h q hq
    by_cases h2 : q < m
    · simp [h2]
    · simp [h q (List.mem_range.1 hq) (Nat.not_lt.1 h2)]

theorem clean_clean {N m k : Nat} (h : m ≤ k) : Clean N k * Clean N m = Clean N m := by
  unfold Clean
  rw [D_mul]
  congr 1
  funext b
  cases h1 : isClean N m b
  · simp
  · rw [isClean_iff] at h1
    simp only [Bool.and_true]
    exact isClean_iff.2 fun q h2 h3 => h1 q h2 (h.trans h3)

theorem clean_D (N m : Nat) (T : B → Bool) : Commute (Clean N m) (D T) := D_comm _ _

theorem clean_dg (N m : Nat) (f : B → ℂ) : Commute (Clean N m) (dg f) := dg_comm _ _

theorem clean_dep (N m : Nat) : Dep ((List.range N).filter fun q => m ≤ q) (isClean N m) := by
  intro b c h
  have : isClean N m b = true ↔ isClean N m c = true := by
    rw [isClean_iff, isClean_iff]
    have e : ∀ q, q < N → m ≤ q → b q = c q := fun q h1 h2 => h q (by simp [h1, h2])
    exact ⟨fun h q h1 h2 => (e q h1 h2).symm.trans (h q h1 h2), fun h q h1 h2 => (e q h1 h2).trans (h q h1 h2)⟩
  cases h1 : isClean N m b <;> cases h2 : isClean N m c <;> simp_all

theorem clean_X {N m a : Nat} (h : a < m) : Commute (Clean N m) (X a) := by
  refine (X_D_comm fun b => (clean_dep N m).flip ?_ b).symm
  simp [h]

/-- A predicate that fails for clean qubits. -/
theorem clean_kill {N m a : Nat} (h : m ≤ a) (h' : a < N) : D (fun b => b a) * Clean N m = 0 := by
  unfold Clean
  rw [D_mul, ← D_false]
  congr 1
  funext b
  cases h1 : isClean N m b
  · simp
  · rw [isClean_iff.1 h1 a h' h]
    rfl

/-- An operator on the qubits below `m`. -/
theorem clean_local {M : E} {N m : Nat} (hZ : ∀ q, m ≤ q → Commute M (D fun b => b q)) : Commute M (Clean N m) := by
  refine dep_D_comm ?_ (clean_dep N m)
  intro q hq
  refine hZ q ?_
  simpa using (List.mem_filter.1 hq).2

end Verif.Env
