import Verif.Circ.Control

/-!
Two qubit operators as 4×4 matrices indexed by pairs of bits.
-/

namespace Verif.Circ

open Verif.Rev (upd)

variable {Q : Type} [DecidableEq Q]

/-- 4×4 matrices indexed by the values of the two qubits. -/
abbrev M4 := Matrix (Bool × Bool) (Bool × Bool) ℂ

/-- A two qubit operator on the qubits `a`, `b`. -/
def app2 (M : M4) (a b : Q) (ψ : Amp Q) : Amp Q := fun c =>
  ∑ p : Bool × Bool, M (c a, c b) p * ψ (upd (upd c a p.1) b p.2)

/-- A single qubit matrix on the first of two qubits. -/
def fst2 (U : M2) : M4 := fun p q => if p.2 = q.2 then U p.1 q.1 else 0
/-- A single qubit matrix on the second of two qubits. -/
def snd2 (U : M2) : M4 := fun p q => if p.1 = q.1 then U p.2 q.2 else 0
/-- A matrix on the second qubit controlled by the first one having value `v`. -/
def ctl2 (v : Bool) (U : M2) : M4 := fun p q =>
  if p.1 = q.1 then (if p.1 = v then U p.2 q.2 else if p.2 = q.2 then 1 else 0) else 0
/-- A matrix on the first qubit controlled by the second one having value `v`. -/
def ctl2' (v : Bool) (U : M2) : M4 := fun p q =>
  if p.2 = q.2 then (if p.2 = v then U p.1 q.1 else if p.1 = q.1 then 1 else 0) else 0
/-- The swap matrix. -/
def swap2 : M4 := fun p q => if p.1 = q.2 ∧ p.2 = q.1 then 1 else 0
/-- A diagonal matrix. -/
def diag2 (d : Bool → Bool → ℂ) : M4 := fun p q => if p = q then d p.1 p.2 else 0

/-- The matrix with the two qubits exchanged. -/
def flip2 (M : M4) : M4 := fun p q => M (p.2, p.1) (q.2, q.1)
/-- `U` on the second qubit, and `X` instead if the first one is `v`. -/
def sel2 (v : Bool) (X U : M2) : M4 := fun p q =>
  if p.1 = q.1 then (if p.1 = v then X p.2 q.2 else U p.2 q.2) else 0

theorem app2_eq (M : M4) (a b : Q) (ψ : Amp Q) (c : Q → Bool) : app2 M a b ψ c
    = M (c a, c b) (true, true) * ψ (upd (upd c a true) b true)
      + M (c a, c b) (true, false) * ψ (upd (upd c a true) b false)
      + (M (c a, c b) (false, true) * ψ (upd (upd c a false) b true)
      + M (c a, c b) (false, false) * ψ (upd (upd c a false) b false)) := by
  simp only [app2, Fintype.sum_prod_type, Fintype.sum_bool]

theorem upd_comm {a b : Q} (h : a ≠ b) (c : Q → Bool) (x y : Bool) :
    upd (upd c a x) b y = upd (upd c b y) a x := by
  funext z
  simp only [upd]
  by_cases h1 : z = b
  · subst h1; simp [Ne.symm h]
  · simp [h1]

theorem app2_app2 {a b : Q} (h : a ≠ b) (M N : M4) (ψ : Amp Q) :
    app2 M a b (app2 N a b ψ) = app2 (M * N) a b ψ := by
  funext c
  have hv : ∀ p : Bool × Bool, app2 N a b ψ (upd (upd c a p.1) b p.2)
      = ∑ r : Bool × Bool, N p r * ψ (upd (upd c a r.1) b r.2) := by
    intro p
    unfold app2
    refine Finset.sum_congr rfl fun r _ => ?_
    have e1 : upd (upd c a p.1) b p.2 a = p.1 := by
      rw [upd_comm h]; simp [upd]
    have e2 : upd (upd c a p.1) b p.2 b = p.2 := by simp [upd]
    have e3 : upd (upd (upd (upd c a p.1) b p.2) a r.1) b r.2 = upd (upd c a r.1) b r.2 := by
      funext z
      simp only [upd]
      by_cases h1 : z = b
      · simp [h1]
      · by_cases h2 : z = a <;> simp [h1, h2]
    rw [e1, e2, e3]
  have e0 : app2 M a b (app2 N a b ψ) c
      = ∑ p : Bool × Bool, M (c a, c b) p * app2 N a b ψ (upd (upd c a p.1) b p.2) := rfl
  rw [e0]
  simp only [hv, Finset.mul_sum]
  rw [Finset.sum_comm]
  unfold app2
  refine Finset.sum_congr rfl fun r _ => ?_
  rw [Matrix.mul_apply, Finset.sum_mul]
  refine Finset.sum_congr rfl fun p _ => ?_
  ring

theorem app1_snd {a b : Q} (U : M2) (ψ : Amp Q) : app1 U b ψ = app2 (snd2 U) a b ψ := by
  funext c
  rw [app2_eq]
  simp only [app1, mux, snd2]
  cases h : c a
  · have : upd c a false = c := by rw [← h]; exact upd_self c a
    simp [this, add_comm]
  · have : upd c a true = c := by rw [← h]; exact upd_self c a
    simp [this, add_comm]

theorem app1_fst {a b : Q} (hab : a ≠ b) (U : M2) (ψ : Amp Q) :
    app1 U a ψ = app2 (fst2 U) a b ψ := by
  funext c
  rw [app2_eq]
  simp only [app1, mux, fst2, upd_comm hab]
  cases h : c b
  · have : upd c b false = c := by rw [← h]; exact upd_self c b
    simp [this, add_comm]
  · have : upd c b true = c := by rw [← h]; exact upd_self c b
    simp [this, add_comm]

theorem ctl_snd {a b : Q} (v : Bool) (U : M2) (ψ : Amp Q) :
    ctl (ctlMatch [a] [v]) (app1 U b) ψ = app2 (ctl2 v U) a b ψ := by
  funext c
  rw [app2_eq]
  simp only [ctl, ctlMatch, app1, mux, ctl2, Bool.and_true, beq_iff_eq]
  cases h : c a
  · have e : upd c a false = c := by rw [← h]; exact upd_self c a
    cases v
    · simp [e, add_comm]
    · cases h2 : c b
      · have : upd c b false = c := by rw [← h2]; exact upd_self c b
        simp [e, this]
      · have : upd c b true = c := by rw [← h2]; exact upd_self c b
        simp [e, this]
  · have e : upd c a true = c := by rw [← h]; exact upd_self c a
    cases v
    · cases h2 : c b
      · have : upd c b false = c := by rw [← h2]; exact upd_self c b
        simp [e, this]
      · have : upd c b true = c := by rw [← h2]; exact upd_self c b
        simp [e, this]
    · simp [e, add_comm]

theorem app2_flip {a b : Q} (hab : a ≠ b) (M : M4) (ψ : Amp Q) :
    app2 M b a ψ = app2 (flip2 M) a b ψ := by
  funext c
  rw [app2_eq, app2_eq]
  simp only [upd_comm hab, flip2]
  ring

theorem ctl_fst {a b : Q} (hab : a ≠ b) (v : Bool) (U : M2) (ψ : Amp Q) :
    ctl (ctlMatch [b] [v]) (app1 U a) ψ = app2 (ctl2' v U) a b ψ := by
  rw [ctl_snd, app2_flip hab]
  rfl

theorem swap_app2 {a b : Q} (hab : a ≠ b) (ψ : Amp Q) : swapAmp [a, b] ψ = app2 swap2 a b ψ := by
  funext c
  rw [app2_eq]
  simp only [swapAmp, swap2]
  cases h : c a <;> cases h2 : c b <;> simp

theorem app2_one (a b : Q) (ψ : Amp Q) : app2 1 a b ψ = ψ := by
  funext c
  rw [app2_eq]
  have key : ∀ x y : Bool, c a = x → c b = y → upd (upd c a x) b y = c := by
    intro x y hx hy
    rw [← hx, upd_self, ← hy, upd_self]
  cases h : c a <;> cases h2 : c b <;> simp [key _ _ h h2]

theorem app2_congr {M N : M4} (h : M = N) (a b : Q) (ψ : Amp Q) : app2 M a b ψ = app2 N a b ψ := by
  rw [h]

/-- Prove an identity of 4×4 matrices entry by entry. -/
theorem m4_ext {M N : M4} (h : ∀ i j k l, M (i, j) (k, l) = N (i, j) (k, l)) : M = N := by
  ext ⟨i, j⟩ ⟨k, l⟩; exact h i j k l

theorem m4_mul (M N : M4) (p q : Bool × Bool) : (M * N) p q
    = M p (true, true) * N (true, true) q + M p (true, false) * N (true, false) q
      + (M p (false, true) * N (false, true) q + M p (false, false) * N (false, false) q) := by
  simp only [Matrix.mul_apply, Fintype.sum_prod_type, Fintype.sum_bool]

/-! ### Products of the building blocks -/

theorem snd2_mul (U V : M2) : snd2 U * snd2 V = snd2 (U * V) := by
  refine m4_ext fun i j k l => ?_
  rw [m4_mul]
  simp only [snd2, Matrix.mul_apply, Fintype.sum_bool]
  cases i <;> cases k <;> simp

theorem snd2_ctl2 (v : Bool) (U V : M2) : snd2 U * ctl2 v V
    = sel2 v (U * V) U := by
  refine m4_ext fun i j k l => ?_
  rw [m4_mul]
  simp only [snd2, ctl2, sel2, Matrix.mul_apply, Fintype.sum_bool]
  cases i <;> cases k <;> cases v <;> cases l <;> simp

/-- `U` before and `V` after a controlled gate, with `V U = 1`. -/
theorem conj_ctl2 (v : Bool) (U V W : M2) (h : V * W = 1) :
    snd2 V * (ctl2 v U * snd2 W) = ctl2 v (V * (U * W)) := by
  have h' : ∀ i j, V i true * W true j + V i false * W false j = if i = j then 1 else 0 := by
    intro i j
    have := congrFun (congrFun h i) j
    rw [Matrix.mul_apply, Fintype.sum_bool] at this
    rw [this]
    simp [Matrix.one_apply]
  rw [← mul_assoc, snd2_ctl2]
  refine m4_ext fun i j k l => ?_
  rw [m4_mul, ← mul_assoc]
  generalize V * U = X
  simp only [snd2, ctl2, sel2, Matrix.mul_apply, Fintype.sum_bool]
  have := h' j l
  cases i <;> cases k <;> cases v <;> simp [this]

theorem swap_conj_ctl : ctl2 true (mk 0 1 1 0) * (ctl2' true (mk 0 1 1 0) * ctl2 true (mk 0 1 1 0)) = swap2 := by
  refine m4_ext fun i j k l => ?_
  rw [m4_mul]
  simp only [m4_mul, ctl2, ctl2', swap2]
  cases i <;> cases j <;> cases k <;> cases l <;> simp [mk]

end Verif.Circ
