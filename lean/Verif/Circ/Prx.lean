import Verif.Circ.FuseMat

/-!
Model of the pass `convert_to_prx` (/repo/src/qrisp/circuit/pass_management/passes/convert_to_prx.py).

Simplified: angles are exact reals, "closer than 1e-5 (1e-10)" is "equal".  Measurements and other operations without
a unitary are not part of the model; the values of the classical bits are given.
-/

namespace Verif.Circ

open Verif.Rev (upd)

/-- An instruction: a unitary operation, or one that is controlled by the classical bits `cs` being `st`
(operation.py:869-914 `ClControlledOperation`). -/
inductive PI where
  | op (o : Op) (qs : List Nat)
  | cl (o : Op) (st : List Bool) (qs cs : List Nat)

/-- convert_to_prx.py:13-44 `PRXGate(alpha, beta)`. -/
noncomputable def prxG (α β : ℝ) : Op := .u3 "prx" α (β - Real.pi / 2) (Real.pi / 2 - β) 0

/-- convert_to_prx.py:61-67 `_get_phase_diff`. -/
noncomputable def phaseDiff (A B : M2) : ℝ := Complex.arg ((A * B.conjTranspose).trace / 2)

/-- `theta`, `phi`, `lam` and `get_unitary()` of an operation that is a `U3Gate` (convert_to_prx.py:113-114;
operation.py:574-603: a `PauliGate` is a `U3Gate`). -/
noncomputable def u3Of : Op → Option ((ℝ × ℝ × ℝ) × M2)
  | .u3 _ θ φ lam g => some ((θ, φ, lam), u3m θ φ lam g)
  | .pauli .x => some ((Real.pi, 0, Real.pi), Pauli.x.mat)
  | .pauli .y => some ((Real.pi, Real.pi / 2, Real.pi / 2), Pauli.y.mat)
  | .pauli .z => some ((0, 0, Real.pi), Pauli.z.mat)
  | _ => none

open Classical in
/-- convert_to_prx.py:117-118, 132-133: the PRX gates (alpha, beta) in the order of their application. -/
noncomputable def prxParts (a : ℝ × ℝ × ℝ) : List (ℝ × ℝ) :=
  if a.2.2 + a.2.1 = 0 then [(a.1, a.2.1 + Real.pi / 2)]
  else [(a.1 + Real.pi, -a.2.2 + Real.pi / 2), (Real.pi, (a.2.1 - a.2.2) / 2 + Real.pi / 2)]

/-- The matrix of a PRX gate. -/
noncomputable def prxM (p : ℝ × ℝ) : M2 := u3m p.1 (p.2 - Real.pi / 2) (Real.pi / 2 - p.2) 0

/-- The matrix of gates applied one after the other (convert_to_prx.py:136 `prx_1 @ prx_0`). -/
noncomputable def prxProd : List (ℝ × ℝ) → M2
  | [] => 1
  | p :: r => prxProd r * prxM p

open Classical in
/-- convert_to_prx.py:124, 139, 149: gates whose first angle is a multiple of 2π are not appended. -/
noncomputable def prxKept (l : List (ℝ × ℝ)) : List (ℝ × ℝ) := l.filter fun p => decide (mod2pi p.1 ≠ 0)

open Classical in
/-- convert_to_prx.py:105-159, one instruction: the appended instructions and the phase.  `none`: an exception.
Line 126 appends the classically controlled gate without its classical bits; `QuantumCircuit.append` raises a ValueError
if their number is wrong (quantum_circuit.py:1686-1690). -/
noncomputable def prxStep : PI → Option (List PI × ℝ)
  | .op o qs => match u3Of o with
    | none => some ([.op o qs], 0)
    | some (a, M) => some ((prxKept (prxParts a)).map (fun p => .op (prxG p.1 p.2) qs), phaseDiff M (prxProd (prxParts a)))
  | .cl o st qs cs => match u3Of o with
    | none => some ([.cl o st qs cs], 0)
    | some (a, M) =>
      let cs' := if a.2.2 + a.2.1 = 0 then [] else cs
      let new := (prxKept (prxParts a)).map (fun p => PI.cl (prxG p.1 p.2) st qs cs')
      if new ≠ [] ∧ cs'.length ≠ st.length then none
      else some (new, phaseDiff M (prxProd (prxParts a)))

/-- The loop of lines 105-159. -/
noncomputable def prxLoop : List PI → Option (List PI × ℝ)
  | [] => some ([], 0)
  | x :: r => (prxStep x).bind fun a => (prxLoop r).map fun b => (a.1 ++ b.1, a.2 + b.2)

open Classical in
/-- convert_to_prx.py:71-166 for a circuit with `n` qubits. -/
noncomputable def convPrx (n : Nat) (c : List PI) : Option (List PI) := (prxLoop c).map fun a =>
  a.1 ++ if mod2pi a.2 ≠ 0 ∧ 0 < n then [.op (gphaseG (mod2pi a.2)) [0]] else []

/-! ### Meaning -/

variable {Q : Type} [DecidableEq Q]

/-- The operator of a circuit on the qubits `qs` if the classical bits have the values `v`. -/
noncomputable def denI (v : Nat → Bool) (qs : List Q) : List PI → Amp Q → Amp Q
  | [], ψ => ψ
  | .op o is :: r, ψ => denI v qs r (den o (pick qs is) ψ)
  | .cl o st is cs :: r, ψ => denI v qs r (if cs.map v = st then den o (pick qs is) ψ else ψ)

/-- A circuit on `n` qubits: the numbers of the qubits are smaller than `n`, a single qubit gate has one qubit, there are
as many controlling bits as values. -/
def PI.WF (n : Nat) : PI → Prop
  | .op o is => is.length = o.arity ∧ ∀ i ∈ is, i < n
  | .cl o st is cs => is.length = o.arity ∧ (∀ i ∈ is, i < n) ∧ cs.length = st.length

/-! ### Lemmas -/

theorem denI_append (v : Nat → Bool) (qs : List Q) (a b : List PI) (ψ : Amp Q) :
    denI v qs (a ++ b) ψ = denI v qs b (denI v qs a ψ) := by
  induction a generalizing ψ with
  | nil => rfl
  | cons x r ih => cases x <;> simp only [List.cons_append, denI, ih]

theorem denI_smul (v : Nat → Bool) (qs : List Q) (a : List PI) (c : ℂ) (ψ : Amp Q) :
    denI v qs a (c • ψ) = c • denI v qs a ψ := by
  induction a generalizing ψ with
  | nil => rfl
  | cons x r ih =>
    cases x with
    | op o is => simp only [denI, den_smul, ih]
    | cl o st is cs =>
      simp only [denI]
      split
      · rw [den_smul, ih]
      · rw [ih]

/-- The first angle of the first PRX gate. -/
noncomputable def prxAlpha (a : ℝ × ℝ × ℝ) : ℝ := by
  classical exact if a.2.2 + a.2.1 = 0 then a.1 else a.1 + Real.pi

open Classical in
/-- The factor -1 is lost. -/
noncomputable def prxSgn (a : ℝ × ℝ × ℝ) : ℂ := if ∃ k : ℤ, prxAlpha a = 2 * Real.pi + 4 * Real.pi * k then -1 else 1

theorem prxM_mk (α β : ℝ) : prxM (α, β + Real.pi / 2) = mk (Complex.cos (α / 2)) (-(ph (-β)) * Complex.sin (α / 2))
    (ph β * Complex.sin (α / 2)) (Complex.cos (α / 2)) := by
  unfold prxM
  rw [u3m_mk, mk_smul]
  simp only [ph_zero, one_mul, add_sub_cancel_right]
  refine mk_congr rfl ?_ rfl ?_
  · congr 3; ring
  · rw [show β + (Real.pi / 2 - (β + Real.pi / 2)) = 0 by ring, ph_zero, one_mul]

theorem isU_prxM (p : ℝ × ℝ) : IsU (prxM p) := isU_u3 _ _ _ _

theorem isU_prxProd (l : List (ℝ × ℝ)) : IsU (prxProd l) := by
  induction l with
  | nil => exact isU_one
  | cons p r ih => exact isU_mul ih (isU_prxM p)

theorem phaseDiff_smul {w : ℂ} (hw : ‖w‖ = 1) {N : M2} (hN : IsU N) : ph (phaseDiff (w • N) N) = w := by
  have h : N * N.conjTranspose = 1 := mul_eq_one_comm.mp hN
  unfold phaseDiff
  rw [Matrix.smul_mul, h]
  have : ((w • (1 : M2)).trace / 2) = w := by
    rw [Matrix.trace_smul, Matrix.trace_one]; simp
  rw [this]
  have := ph_arg w
  rw [hw] at this
  simpa using this

theorem prx_two (θ φ lam : ℝ) : u3m θ φ lam 0 =
    (-(ph ((φ + lam) / 2))) • (prxM (Real.pi, (φ - lam) / 2 + Real.pi / 2) * prxM (θ + Real.pi, -lam + Real.pi / 2)) := by
  rw [prxM_mk, prxM_mk, mk_mul, mk_smul, u3m_mk, mk_smul]
  have c0 : Complex.cos (((θ + Real.pi : ℝ) : ℂ) / 2) = -Complex.sin (θ / 2) := by
    rw [← Complex.cos_add_pi_div_two]; congr 1; push_cast; ring
  have s0 : Complex.sin (((θ + Real.pi : ℝ) : ℂ) / 2) = Complex.cos (θ / 2) := by
    rw [← Complex.sin_add_pi_div_two]; congr 1; push_cast; ring
  rw [c0, s0, Complex.cos_pi_div_two, Complex.sin_pi_div_two]
  have e1 : ph ((φ + lam) / 2) * ph (-((φ - lam) / 2)) = ph lam := by rw [← ph_add]; congr 1; ring
  have e2 : ph ((φ + lam) / 2) * ph ((φ - lam) / 2) = ph φ := by rw [← ph_add]; congr 1; ring
  have e3 : ph lam * ph (-lam) = 1 := by rw [mul_comm]; exact ph_neg lam
  simp only [ph_zero, one_mul, neg_neg]
  refine mk_congr ?_ ?_ ?_ ?_
  · linear_combination (-(ph (-lam) * Complex.cos (θ / 2))) * e1 - Complex.cos (θ / 2) * e3
  · linear_combination (Complex.sin (θ / 2)) * e1
  · linear_combination (-Complex.sin (θ / 2)) * e2
  · rw [ph_add]
    linear_combination (-(ph lam * Complex.cos (θ / 2))) * e2

/-- The matrix is a phase times the product of the PRX gates. -/
theorem prxParts_mat {o : Op} {a : ℝ × ℝ × ℝ} {M : M2} (h : u3Of o = some (a, M)) :
    ∃ w : ℂ, ‖w‖ = 1 ∧ M = w • prxProd (prxParts a) := by
  have two : ∀ θ φ lam : ℝ, prxM (Real.pi, (φ - lam) / 2 + Real.pi / 2) * prxM (θ + Real.pi, -lam + Real.pi / 2) =
      (-(ph (-((φ + lam) / 2)))) • u3m θ φ lam 0 := by
    intro θ φ lam
    rw [prx_two, smul_smul]
    have : -(ph (-((φ + lam) / 2))) * -(ph ((φ + lam) / 2)) = 1 := by
      rw [neg_mul_neg]; exact ph_neg _
    rw [this, one_smul]
  have gen : ∀ θ φ lam g : ℝ, ∃ w : ℂ, ‖w‖ = 1 ∧ u3m θ φ lam g = w • prxProd (prxParts (θ, φ, lam)) := by
    intro θ φ lam g
    have eg : u3m θ φ lam g = ph g • u3m θ φ lam 0 := by
      rw [u3m_mk, u3m_mk, ph_zero, one_smul]
    unfold prxParts
    by_cases hz : lam + φ = 0
    · rw [if_pos hz]
      refine ⟨ph g, norm_ph g, ?_⟩
      rw [eg]
      simp only [prxProd, one_mul, prxM]
      congr 2
      · ring
      · linarith
    · rw [if_neg hz]
      refine ⟨ph g * (-(ph ((φ + lam) / 2))), by rw [norm_mul, norm_neg, norm_ph, norm_ph, one_mul], ?_⟩
      rw [eg]
      simp only [prxProd, one_mul]
      rw [← smul_smul, ← prx_two]
  unfold u3Of at h
  split at h
  · cases h; exact gen _ _ _ _
  · cases h
    obtain ⟨w, hw, e⟩ := gen Real.pi 0 Real.pi 0
    refine ⟨w, hw, ?_⟩
    rw [← e, pauli_x_mk, u3m_mk, mk_smul]
    refine mk_congr ?_ ?_ ?_ ?_ <;> simp [ph_zero, ph_pi]
  · cases h
    obtain ⟨w, hw, e⟩ := gen Real.pi (Real.pi / 2) (Real.pi / 2) 0
    refine ⟨w, hw, ?_⟩
    rw [← e, pauli_y_mk, u3m_mk, mk_smul]
    refine mk_congr ?_ ?_ ?_ ?_ <;> simp [ph_zero, ph_half_pi]
  · cases h
    obtain ⟨w, hw, e⟩ := gen 0 0 Real.pi 0
    refine ⟨w, hw, ?_⟩
    rw [← e, pauli_z_mk, u3m_mk, mk_smul]
    refine mk_congr ?_ ?_ ?_ ?_ <;> simp [ph_zero, ph_pi]
  · exact absurd h (by simp)

theorem mod2pi_zero {x : ℝ} (h : mod2pi x = 0) : ∃ k : ℤ, x = 2 * Real.pi * k := ⟨_, by unfold mod2pi at h; linarith⟩

theorem mod2pi_int (k : ℤ) : mod2pi (2 * Real.pi * k) = 0 := by
  have hp := Real.pi_pos
  unfold mod2pi
  rw [mul_div_cancel_left₀ _ (by positivity), Int.floor_intCast, sub_self]

open Classical in
/-- A dropped gate is the identity or its negative. -/
theorem prxM_dropped {α : ℝ} (β : ℝ) (h : mod2pi α = 0) :
    prxM (α, β) = if ∃ k : ℤ, α = 2 * Real.pi + 4 * Real.pi * k then (-1 : M2) else 1 := by
  have hp := Real.pi_pos
  obtain ⟨k, rfl⟩ := mod2pi_zero h
  have hc : Complex.cos (((2 * Real.pi * k : ℝ) : ℂ) / 2) = (-1) ^ k := by
    rw [show (((2 * Real.pi * k : ℝ) : ℂ) / 2) = ((k * Real.pi : ℝ) : ℂ) by push_cast; ring, ← Complex.ofReal_cos,
      Real.cos_int_mul_pi]
    push_cast; rfl
  have hs : Complex.sin (((2 * Real.pi * k : ℝ) : ℂ) / 2) = 0 := by
    rw [← Complex.sin_int_mul_pi k]; congr 1; push_cast; ring
  rw [show β = (β - Real.pi / 2) + Real.pi / 2 by ring, prxM_mk, hc, hs]
  rcases Int.even_or_odd' k with ⟨j, rfl | rfl⟩
  · rw [if_neg]
    · have e : (-1 : ℂ) ^ (2 * j) = 1 := Even.neg_one_zpow ⟨j, by ring⟩
      rw [e, mk_one]
      refine mk_congr rfl ?_ ?_ rfl <;> rw [mul_zero]
    · rintro ⟨i, e⟩
      have : (2 * j : ℝ) = 1 + 2 * i := by
        have e' : 2 * Real.pi * (2 * j : ℝ) = 2 * Real.pi * (1 + 2 * i) := by push_cast at e; linarith
        exact mul_left_cancel₀ (by positivity) e'
      have : 2 * j = 1 + 2 * i := by exact_mod_cast this
      omega
  · rw [if_pos ⟨j, by push_cast; ring⟩]
    have e : (-1 : ℂ) ^ (2 * j + 1) = -1 := Odd.neg_one_zpow ⟨j, rfl⟩
    rw [e, mk_one]
    ext a b; cases a <;> cases b <;> simp [mk]

theorem not_mod2pi_pi : mod2pi Real.pi ≠ 0 := by
  intro h
  obtain ⟨k, e⟩ := mod2pi_zero h
  have hp := Real.pi_pos
  have : (1 : ℝ) = 2 * k := mul_left_cancel₀ hp.ne' (by linarith)
  have : (1 : ℤ) = 2 * k := by exact_mod_cast this
  omega

/-- Dropping gates loses the sign. -/
theorem prxKept_mat (a : ℝ × ℝ × ℝ) : prxProd (prxKept (prxParts a)) = prxSgn a • prxProd (prxParts a) := by
  classical
  have key : ∀ α β : ℝ, mod2pi α = 0 →
      (if ∃ k : ℤ, α = 2 * Real.pi + 4 * Real.pi * k then (-1 : ℂ) else 1) • prxM (α, β) = 1 := by
    intro α β h
    rw [prxM_dropped β h]
    split <;> simp
  have hne : ∀ α : ℝ, mod2pi α ≠ 0 → ¬ ∃ k : ℤ, α = 2 * Real.pi + 4 * Real.pi * k := by
    rintro α h ⟨k, rfl⟩
    apply h
    have := mod2pi_int (1 + 2 * k)
    rw [← this]; congr 1; push_cast; ring
  unfold prxParts prxSgn prxAlpha
  by_cases hz : a.2.2 + a.2.1 = 0
  · simp only [if_pos hz]
    by_cases hm : mod2pi a.1 = 0
    · simp only [prxKept, List.filter_cons, List.filter_nil, hm, ne_eq, not_true, decide_false, prxProd, one_mul]
      simp only [Bool.false_eq_true, if_false, prxProd]
      exact (key _ _ hm).symm
    · rw [if_neg (hne _ hm), one_smul]
      simp [prxKept, hm]
  · simp only [if_neg hz]
    by_cases hm : mod2pi (a.1 + Real.pi) = 0
    · simp only [prxKept, List.filter_cons, List.filter_nil, hm, ne_eq, not_true, decide_false, not_mod2pi_pi, not_false_eq_true,
        decide_true, if_true, prxProd, one_mul]
      simp only [Bool.false_eq_true, if_false, prxProd, one_mul]
      rw [← Matrix.mul_smul, key _ _ hm, mul_one]
    · rw [if_neg (hne _ hm), one_smul]
      simp [prxKept, hm, not_mod2pi_pi]

theorem den_prxs (v : Nat → Bool) (qs : List Q) (is : List Nat) (h : (pick qs is).length = 1) (l : List (ℝ × ℝ)) (ψ : Amp Q) :
    denI v qs (l.map fun p => .op (prxG p.1 p.2) is) ψ = on1 (prxProd l) (pick qs is) ψ := by
  induction l generalizing ψ with
  | nil => simp [denI, prxProd, on1_one]
  | cons p r ih =>
    simp only [List.map_cons, denI, ih, prxProd]
    rw [← on1_mul _ _ (by omega)]
    rfl

theorem den_prxs_cl (v : Nat → Bool) (qs : List Q) (is cs : List Nat) (st : List Bool) (h : (pick qs is).length = 1)
    (l : List (ℝ × ℝ)) (ψ : Amp Q) :
    denI v qs (l.map fun p => .cl (prxG p.1 p.2) st is cs) ψ = if cs.map v = st then on1 (prxProd l) (pick qs is) ψ else ψ := by
  induction l generalizing ψ with
  | nil => simp [denI, prxProd, on1_one]
  | cons p r ih =>
    simp only [List.map_cons, denI, ih, prxProd]
    rw [← on1_mul _ _ (by omega)]
    split <;> rfl

theorem on1_smul (w : ℂ) (M : M2) {qs : List Q} (h : qs.length = 1) (ψ : Amp Q) : on1 (w • M) qs ψ = w • on1 M qs ψ := by
  match qs, h with
  | [q], _ =>
    funext c
    simp only [on1, app1, mux, Pi.smul_apply, smul_eq_mul, Matrix.smul_apply]
    ring

theorem den_u3Of {o : Op} {a : ℝ × ℝ × ℝ} {M : M2} (h : u3Of o = some (a, M)) (qs : List Q) (ψ : Amp Q) :
    den o qs ψ = on1 M qs ψ := by
  unfold u3Of at h
  split at h <;> first | (cases h; simp only [den]) | exact absurd h (by simp)

theorem arity_u3Of {o : Op} {a : (ℝ × ℝ × ℝ) × M2} (h : u3Of o = some a) : o.arity = 1 := by
  unfold u3Of at h
  split at h <;> first | rfl | exact absurd h (by simp)

omit [DecidableEq Q] in
theorem pick_single {n : Nat} {qs : List Q} (hn : qs.length = n) {is : List Nat} (h1 : is.length = 1) (h2 : ∀ i ∈ is, i < n) :
    (pick qs is).length = 1 := by
  match is, h1 with
  | [i], _ =>
    have : i < qs.length := by rw [hn]; exact h2 i (by simp)
    simp [pick, List.getElem?_eq_getElem this]

/-- The product of the lost signs of a circuit. -/
noncomputable def prxLost : List PI → ℂ
  | [] => 1
  | .op o _ :: r => (match u3Of o with | some (a, _) => prxSgn a | none => 1) * prxLost r
  | .cl _ _ _ _ :: r => prxLost r

/-- One gate: the phase times the kept gates is the gate times the lost sign. -/
theorem prx_gate {o : Op} {a : ℝ × ℝ × ℝ} {M : M2} (h : u3Of o = some (a, M)) :
    ph (phaseDiff M (prxProd (prxParts a))) • prxProd (prxKept (prxParts a)) = prxSgn a • M := by
  obtain ⟨w, hw, e⟩ := prxParts_mat h
  rw [e, phaseDiff_smul hw (isU_prxProd _), prxKept_mat, smul_comm]

theorem norm_prxSgn (a : ℝ × ℝ × ℝ) : ‖prxSgn a‖ = 1 := by unfold prxSgn; split <;> simp

theorem denI_smul_comm {v : Nat → Bool} {qs : List Q} {a x r : List PI} {p u w : ℂ}
    (h : ∀ ψ : Amp Q, p • denI v qs a ψ = u • denI v qs x ψ) (ψ : Amp Q) :
    p • w • denI v qs r (denI v qs a ψ) = u • w • denI v qs r (denI v qs x ψ) := by
  rw [smul_comm, ← denI_smul, h, denI_smul, smul_comm]

open Classical in
/-- The whole loop. -/
theorem prxLoop_sound (v : Nat → Bool) {n : Nat} {qs : List Q} (hn : qs.length = n) (c : List PI) (hc : ∀ x ∈ c, x.WF n) :
    ∀ out, prxLoop c = some out → ∃ w : ℂ, ‖w‖ = 1 ∧ ((∀ o st is cs, PI.cl o st is cs ∉ c) → w = prxLost c) ∧
      ∀ ψ : Amp Q, ph out.2 • denI v qs out.1 ψ = w • denI v qs c ψ := by
  induction c with
  | nil =>
    intro out h
    simp only [prxLoop, Option.some.injEq] at h
    subst h
    exact ⟨1, by simp, fun _ => rfl, fun ψ => by simp [denI, ph_zero]⟩
  | cons x r ih =>
    intro out h
    simp only [prxLoop, Option.bind_eq_some_iff, Option.map_eq_some_iff] at h
    obtain ⟨a, ha, b, hb, rfl⟩ := h
    obtain ⟨w, hw, hl, hd⟩ := ih (fun y hy => hc y (by simp [hy])) b hb
    have hx := hc x (by simp)
    have step : ∃ u : ℂ, ‖u‖ = 1 ∧ ((∀ o st is cs, x ≠ PI.cl o st is cs) → u = prxLost [x]) ∧
        ∀ ψ : Amp Q, ph a.2 • denI v qs a.1 ψ = u • denI v qs [x] ψ := by
      cases x with
      | op o is =>
        simp only [prxStep] at ha
        split at ha
        · rename_i hu
          cases ha
          exact ⟨1, by simp, fun _ => by simp [prxLost, hu], fun ψ => by simp [ph_zero]⟩
        · rename_i a' M hu
          cases ha
          have hp : (pick qs is).length = 1 := pick_single hn (by rw [hx.1, arity_u3Of hu]) hx.2
          refine ⟨prxSgn a', norm_prxSgn a', fun _ => by simp [prxLost, hu], fun ψ => ?_⟩
          simp only []
          rw [den_prxs v qs is hp, ← on1_smul _ _ hp, prx_gate hu, on1_smul _ _ hp]
          simp only [denI, den_u3Of hu]
      | cl o st is cs =>
        simp only [prxStep] at ha
        split at ha
        · cases ha
          exact ⟨1, by simp, fun h => absurd rfl (h o st is cs), fun ψ => by simp [ph_zero]⟩
        · rename_i a' M hu
          by_cases hne : ((prxKept (prxParts a')).map fun p => PI.cl (prxG p.1 p.2) st is
              (if a'.2.2 + a'.2.1 = 0 then [] else cs)) ≠ [] ∧ (if a'.2.2 + a'.2.1 = 0 then [] else cs).length ≠ st.length
          · rw [if_pos hne] at ha; exact absurd ha (by simp)
          · rw [if_neg hne] at ha
            cases ha
            have hp : (pick qs is).length = 1 := pick_single hn (by rw [hx.1, arity_u3Of hu]) hx.2.1
            by_cases hm : cs.map v = st
            · refine ⟨prxSgn a', norm_prxSgn a', fun h => absurd rfl (h o st is cs), fun ψ => ?_⟩
              have hcs : ∀ ψ : Amp Q, denI v qs ((prxKept (prxParts a')).map fun p => .cl (prxG p.1 p.2) st is
                  (if a'.2.2 + a'.2.1 = 0 then [] else cs)) ψ = on1 (prxProd (prxKept (prxParts a'))) (pick qs is) ψ := by
                intro ψ
                rw [den_prxs_cl v qs is _ st hp]
                by_cases hz : a'.2.2 + a'.2.1 = 0
                · rw [if_pos hz] at hne ⊢
                  by_cases hk : prxKept (prxParts a') = []
                  · simp [hk, prxProd, on1_one]
                  · have : st = [] := by
                      have h2 : ¬ (([] : List Nat).length ≠ st.length) := fun hh => hne ⟨by simpa using hk, hh⟩
                      simpa using (not_not.mp h2).symm
                    simp [this]
                · rw [if_neg hz, if_pos hm]
              simp only [hcs]
              rw [← on1_smul _ _ hp, prx_gate hu, on1_smul _ _ hp]
              simp only [denI, den_u3Of hu, if_pos hm]
            · refine ⟨ph (phaseDiff M (prxProd (prxParts a'))), norm_ph _, fun h => absurd rfl (h o st is cs), fun ψ => ?_⟩
              congr 1
              rw [den_prxs_cl v qs is _ st hp]
              simp only [denI, if_neg hm]
              by_cases hz : a'.2.2 + a'.2.1 = 0
              · rw [if_pos hz] at hne ⊢
                by_cases hk : prxKept (prxParts a') = []
                · simp [hk, prxProd, on1_one]
                · exfalso
                  have h2 : ¬ (([] : List Nat).length ≠ st.length) := fun hh => hne ⟨by simpa using hk, hh⟩
                  have e0 : st = [] := by simpa using (not_not.mp h2).symm
                  have := hx.2.2
                  rw [e0] at this hm
                  exact hm (by simpa using this)
              · rw [if_neg hz, if_neg hm]
    obtain ⟨u, hu, hul, hud⟩ := step
    refine ⟨u * w, by rw [norm_mul, hu, hw, one_mul], ?_, fun ψ => ?_⟩
    · intro hno
      rw [hul (fun o st is cs e => hno o st is cs (by simp [e])), hl (fun o st is cs e => hno o st is cs (by simp [e]))]
      cases x <;> simp [prxLost]
    · have e1 : denI v qs (x :: r) ψ = denI v qs r (denI v qs [x] ψ) := by
        rw [← denI_append]; rfl
      rw [denI_append, ph_add, e1, mul_smul, mul_smul, hd, denI_smul_comm hud]

end Verif.Circ
