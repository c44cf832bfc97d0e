import Verif.Circ.Control
import Mathlib.Analysis.SpecialFunctions.Complex.Arg
import Mathlib.Analysis.SpecialFunctions.Pow.Complex
import Mathlib.LinearAlgebra.Matrix.Hermitian

/-!
`QuantumCircuit.unitary`: a gate from a 2×2 matrix.
-/

namespace Verif.Circ

/-- numpy `x % (2 * np.pi)`. -/
noncomputable def mod2pi (x : ℝ) : ℝ := x - 2 * Real.pi * ⌊x / (2 * Real.pi)⌋

/-- numpy `np.sqrt` of a complex number (principal branch). -/
noncomputable def csqrt (z : ℂ) : ℂ := z ^ ((2 : ℕ) : ℂ)⁻¹

/-- The determinant of a 2×2 matrix. -/
def det2 (m : M2) : ℂ := m false false * m true true - m false true * m true false

open Classical in
/-- quantum_circuit.py:2852 `np.argmax(np.abs(mat).flatten())`: the first entry of largest modulus. -/
noncomputable def argmax2 (m : M2) : Bool × Bool :=
  let le (p q : Bool × Bool) : Prop := ‖m p.1 p.2‖ ≤ ‖m q.1 q.2‖
  if le (false, true) (false, false) ∧ le (true, false) (false, false) ∧ le (true, true) (false, false)
    then (false, false)
  else if le (true, false) (false, true) ∧ le (true, true) (false, true) then (false, true)
  else if le (true, true) (true, false) then (true, false)
  else (true, true)

/-- quantum_circuit.py:2844-2850: the angles θ, φ, λ. `np.arctan2(y, x)` is the argument of `x + iy`. -/
noncomputable def unitaryAngles (m : M2) : ℝ × ℝ × ℝ :=
  let coeff := 1 / csqrt (det2 m)
  let theta := 2 * Complex.arg ((‖coeff * m false false‖ : ℂ) + (‖coeff * m true false‖ : ℂ) * Complex.I)
  let pp := mod2pi (Complex.arg (coeff * m true true))
  let pm := mod2pi (Complex.arg (coeff * m true false))
  (theta, pp + pm, pp - pm)

/-- quantum_circuit.py:2852-2854: the global phase. -/
noncomputable def unitaryPhase (m : M2) : ℝ :=
  let a := unitaryAngles m
  let k := argmax2 m
  mod2pi (-Complex.arg (u3m a.1 a.2.1 a.2.2 0 k.1 k.2 / m k.1 k.2))

/-- quantum_circuit.py:2831-2856 `unitary` for matrices of complex dtype, exact arithmetic. -/
noncomputable def unitaryG (m : M2) : Op :=
  let a := unitaryAngles m
  .u3 "u3" a.1 a.2.1 a.2.2 (unitaryPhase m)

/-! ### Correctness -/

theorem ph_mod2pi (x : ℝ) : ph (mod2pi x) = ph x := by
  unfold mod2pi ph
  have : Complex.I * ((x - 2 * Real.pi * ⌊x / (2 * Real.pi)⌋ : ℝ) : ℂ)
      = Complex.I * x - (⌊x / (2 * Real.pi)⌋ : ℤ) * (2 * Real.pi * Complex.I) := by
    push_cast; ring
  rw [this, Complex.exp_sub, Complex.exp_int_mul_two_pi_mul_I, div_one]

theorem csqrt_sq (z : ℂ) : csqrt z * csqrt z = z := by
  have := Complex.cpow_nat_inv_pow z (n := 2) two_ne_zero
  unfold csqrt
  rw [← sq]; exact this

theorem ph_arg (z : ℂ) : (‖z‖ : ℂ) * ph (Complex.arg z) = z := by
  unfold ph
  rw [mul_comm Complex.I]
  exact Complex.norm_mul_exp_arg_mul_I z

theorem norm_ph (x : ℝ) : ‖ph x‖ = 1 := by
  unfold ph
  rw [mul_comm]; exact Complex.norm_exp_ofReal_mul_I x

theorem conj_ph (x : ℝ) : (starRingEnd ℂ) (ph x) = ph (-x) := by
  unfold ph
  rw [← Complex.exp_conj]
  simp

/-- A 2×2 matrix is unitary. -/
def IsU (m : M2) : Prop := m.conjTranspose * m = 1

theorem conj_mul_self (z : ℂ) : (starRingEnd ℂ) z * z = ((‖z‖ ^ 2 : ℝ) : ℂ) := by
  rw [mul_comm, Complex.mul_conj, Complex.normSq_eq_norm_sq]

theorem isU_entries {m : M2} (h : IsU m) :
    (starRingEnd ℂ) (m true true) * det2 m = m false false ∧
    (starRingEnd ℂ) (m true false) * det2 m = -m false true ∧
    ‖m false false‖ ^ 2 + ‖m true false‖ ^ 2 = 1 ∧ ‖det2 m‖ = 1 ∧
    (starRingEnd ℂ) (m false false) * det2 m = m true true := by
  have e : ∀ i j, (starRingEnd ℂ) (m true i) * m true j + (starRingEnd ℂ) (m false i) * m false j
      = if i = j then 1 else 0 := by
    intro i j
    have := congrFun (congrFun h i) j
    rw [Matrix.mul_apply, Fintype.sum_bool] at this
    simp only [Matrix.conjTranspose_apply, Matrix.one_apply] at this
    exact this
  have e00 := e false false
  have e01 := e false true
  have e10 := e true false
  have e11 := e true true
  simp only [if_true, Bool.false_eq_true, Bool.true_eq_false, if_false] at e00 e01 e10 e11
  have h1 : (starRingEnd ℂ) (m true true) * det2 m = m false false := by
    unfold det2
    linear_combination m false false * e11 - m false true * e10
  have h2 : (starRingEnd ℂ) (m true false) * det2 m = -m false true := by
    unfold det2
    linear_combination m false false * e01 - m false true * e00
  have h5 : (starRingEnd ℂ) (m false false) * det2 m = m true true := by
    unfold det2
    linear_combination m true true * e00 - m true false * e01
  have h3 : ‖m false false‖ ^ 2 + ‖m true false‖ ^ 2 = 1 := by
    rw [conj_mul_self, conj_mul_self] at e00
    have : ((‖m true false‖ ^ 2 + ‖m false false‖ ^ 2 : ℝ) : ℂ) = ((1 : ℝ) : ℂ) := by
      push_cast; push_cast at e00; exact e00
    have := Complex.ofReal_injective this
    linarith
  refine ⟨h1, h2, h3, ?_, h5⟩
  have hd : (starRingEnd ℂ) (det2 m) * det2 m = 1 := by
    unfold det2
    simp only [map_sub, map_mul]
    linear_combination ((starRingEnd ℂ) (m true true) * m true true
      + (starRingEnd ℂ) (m false true) * m false true) * e00
      - ((starRingEnd ℂ) (m true false) * m true true + (starRingEnd ℂ) (m false false) * m false true) * e10
      + e11
  rw [conj_mul_self] at hd
  have h' : ‖det2 m‖ ^ 2 = 1 := by
    have : ((‖det2 m‖ ^ 2 : ℝ) : ℂ) = ((1 : ℝ) : ℂ) := by rw [hd]; simp
    exact Complex.ofReal_injective this
  have := norm_nonneg (det2 m)
  nlinarith [sq_nonneg (‖det2 m‖ - 1)]

theorem cos_sin_arg {a b : ℝ} (h : a ^ 2 + b ^ 2 = 1) (z : ℂ) (hz : z = (a : ℂ) + (b : ℂ) * Complex.I) :
    Complex.cos (Complex.arg z) = a ∧ Complex.sin (Complex.arg z) = b := by
  have hn : ‖z‖ = 1 := by
    have : ‖z‖ ^ 2 = 1 := by
      rw [← Complex.normSq_eq_norm_sq, hz]
      simp [Complex.normSq_apply]
      nlinarith
    have h0 := norm_nonneg z
    nlinarith [sq_nonneg (‖z‖ - 1)]
  have hz0 : z ≠ 0 := by
    intro e; rw [e, norm_zero] at hn; exact zero_ne_one hn
  constructor
  · rw [← Complex.ofReal_cos, Complex.cos_arg hz0, hn, hz]; simp
  · rw [← Complex.ofReal_sin, Complex.sin_arg, hn, hz]; simp

theorem u3_angles {m : M2} (h : IsU m) : ∃ w : ℂ, ‖w‖ = 1 ∧
    u3m (unitaryAngles m).1 (unitaryAngles m).2.1 (unitaryAngles m).2.2 0 = w • m := by
  obtain ⟨h1, h2, h3, h4, h5⟩ := isU_entries h
  set s := csqrt (det2 m) with hs
  have hss : s * s = det2 m := csqrt_sq _
  have hsn : ‖s‖ = 1 := by
    have : ‖s‖ * ‖s‖ = 1 := by rw [← norm_mul, hss, h4]
    nlinarith [norm_nonneg s]
  have hs0 : s ≠ 0 := by intro e; rw [e, norm_zero] at hsn; exact zero_ne_one hsn
  have hcs : (starRingEnd ℂ) s * s = 1 := by rw [conj_mul_self, hsn]; simp
  have hcn : ‖1 / s‖ = 1 := by rw [norm_div, hsn]; simp
  have n00 : ‖1 / s * m false false‖ = ‖m false false‖ := by rw [norm_mul, hcn, one_mul]
  have n10 : ‖1 / s * m true false‖ = ‖m true false‖ := by rw [norm_mul, hcn, one_mul]
  have n11 : ‖1 / s * m true true‖ = ‖m false false‖ := by
    rw [norm_mul, hcn, one_mul, ← h5, norm_mul, h4, mul_one, Complex.norm_conj]
  obtain ⟨hc, hsi⟩ := cos_sin_arg (z := (‖1 / s * m false false‖ : ℂ) + (‖1 / s * m true false‖ : ℂ) * Complex.I)
    (a := ‖m false false‖) (b := ‖m true false‖) h3 (by rw [n00, n10])
  set A := mod2pi (Complex.arg (1 / s * m true true)) with hA
  set B := mod2pi (Complex.arg (1 / s * m true false)) with hB
  set t := Complex.arg ((‖1 / s * m false false‖ : ℂ) + (‖1 / s * m true false‖ : ℂ) * Complex.I) with ht
  have ha : (‖m false false‖ : ℂ) * ph A = 1 / s * m true true := by
    rw [hA, ph_mod2pi, ← n11]; exact ph_arg _
  have hb : (‖m true false‖ : ℂ) * ph B = 1 / s * m true false := by
    rw [hB, ph_mod2pi, ← n10]; exact ph_arg _
  have ha' : (‖m false false‖ : ℂ) * ph (-A) = 1 / s * m false false := by
    have := congrArg (starRingEnd ℂ) ha
    simp only [map_mul, Complex.conj_ofReal, conj_ph, map_div₀, map_one] at this
    rw [this]
    have e : 1 / (starRingEnd ℂ) s = s := by
      have : (starRingEnd ℂ) s ≠ 0 := left_ne_zero_of_mul_eq_one hcs
      field_simp; rw [← hcs]
    rw [e, ← h1, ← hss]
    field_simp
  have hb' : (‖m true false‖ : ℂ) * ph (-B) = -(1 / s * m false true) := by
    have := congrArg (starRingEnd ℂ) hb
    simp only [map_mul, Complex.conj_ofReal, conj_ph, map_div₀, map_one] at this
    rw [this]
    have e : 1 / (starRingEnd ℂ) s = s := by
      have : (starRingEnd ℂ) s ≠ 0 := left_ne_zero_of_mul_eq_one hcs
      field_simp; rw [← hcs]
    have h2' : m false true = -((starRingEnd ℂ) (m true false) * det2 m) := by rw [h2]; ring
    rw [e, h2', ← hss]
    field_simp
  have hang : unitaryAngles m = (2 * t, A + B, A - B) := rfl
  refine ⟨ph A * (1 / s), by rw [norm_mul, norm_ph, hcn, one_mul], ?_⟩
  rw [hang]
  have ht2 : (((2 * t : ℝ) : ℂ) / 2) = (t : ℂ) := by push_cast; ring
  have hpm : ph (-A) * ph A = 1 := ph_neg A
  rw [u3m_mk, ph_zero, one_smul]
  simp only [ht2, hc, hsi]
  ext i j
  have hsub : ph (A - B) = ph A * ph (-B) := by rw [← ph_add]; congr 1
  have hadd : ph (A + B) = ph A * ph B := ph_add A B
  have hdbl : ph (A + B + (A - B)) = ph A * ph A := by rw [← ph_add]; congr 1; ring
  cases i <;> cases j <;> simp only [mk, Matrix.smul_apply, smul_eq_mul]
  · linear_combination -(‖m false false‖ : ℂ) * hpm + ph A * ha'
  · rw [hsub]; linear_combination -ph A * hb'
  · rw [hadd]; linear_combination ph A * hb
  · rw [hdbl]; linear_combination ph A * ha

theorem argmax2_ne {m : M2} (h : ∃ i j, m i j ≠ 0) : m (argmax2 m).1 (argmax2 m).2 ≠ 0 := by
  intro e
  have hn : ‖m (argmax2 m).1 (argmax2 m).2‖ = 0 := by rw [e, norm_zero]
  have hle : ∀ i j, ‖m i j‖ ≤ ‖m (argmax2 m).1 (argmax2 m).2‖ := by
    intro i j
    unfold argmax2
    simp only
    split
    · rename_i hh
      obtain ⟨p, q, r⟩ := hh
      cases i <;> cases j <;> simp_all
    · rename_i h0
      split
      · rename_i hh
        obtain ⟨p, q⟩ := hh
        by_cases h00 : ‖m false false‖ ≤ ‖m false true‖
        · cases i <;> cases j <;> simp_all
        · exfalso
          exact h0 ⟨le_of_lt (not_le.1 h00), le_trans p (le_of_lt (not_le.1 h00)),
            le_trans q (le_of_lt (not_le.1 h00))⟩
      · rename_i h1
        split
        · rename_i p
          have h01 : ‖m false true‖ ≤ ‖m true false‖ := by
            by_contra hc
            exact h1 ⟨le_of_lt (not_le.1 hc), le_trans p (le_of_lt (not_le.1 hc))⟩
          have h00 : ‖m false false‖ ≤ ‖m true false‖ := by
            by_contra hc
            have := le_of_lt (not_le.1 hc)
            exact h0 ⟨le_trans h01 this, this, le_trans p this⟩
          cases i <;> cases j <;> simp_all
        · rename_i p
          have p := le_of_lt (not_le.1 p)
          have h01 : ‖m false true‖ ≤ ‖m true true‖ := by
            by_contra hc
            have := le_of_lt (not_le.1 hc)
            exact h1 ⟨le_trans p this, this⟩
          have h00 : ‖m false false‖ ≤ ‖m true true‖ := by
            by_contra hc
            have := le_of_lt (not_le.1 hc)
            exact h0 ⟨le_trans h01 this, le_trans p this, this⟩
          cases i <;> cases j <;> simp_all
  obtain ⟨i, j, hij⟩ := h
  have := hle i j
  rw [hn] at this
  exact hij (norm_le_zero_iff.1 this)

/-- `unitary` reproduces every unitary matrix. -/
theorem unitary_mat {m : M2} (h : IsU m) :
    u3m (unitaryAngles m).1 (unitaryAngles m).2.1 (unitaryAngles m).2.2 (unitaryPhase m) = m := by
  obtain ⟨w, hw, hm⟩ := u3_angles h
  have hw0 : w ≠ 0 := by intro e; rw [e, norm_zero] at hw; exact zero_ne_one hw
  have hne : m (argmax2 m).1 (argmax2 m).2 ≠ 0 := by
    refine argmax2_ne ?_
    obtain ⟨_, _, h3, _, _⟩ := isU_entries h
    by_contra hc
    push Not at hc
    rw [hc, hc] at h3
    simp at h3
  have hp : ph (unitaryPhase m) * w = 1 := by
    unfold unitaryPhase
    simp only
    rw [ph_mod2pi, hm, Matrix.smul_apply, smul_eq_mul, mul_div_assoc, div_self hne, mul_one]
    have := ph_arg w
    rw [hw] at this
    simp only [Complex.ofReal_one, one_mul] at this
    conv_lhs => rw [← this]
    rw [this]
    have h2 := ph_neg (Complex.arg w)
    rw [this] at h2
    exact h2
  have hfac : ∀ θ φ lam g : ℝ, u3m θ φ lam g = ph g • u3m θ φ lam 0 := by
    intro θ φ lam g
    rw [u3m_mk, u3m_mk, ph_zero, one_smul]
  rw [hfac, hm, smul_smul, hp, one_smul]

theorem isU_mul {m n : M2} (hm : IsU m) (hn : IsU n) : IsU (m * n) := by
  unfold IsU at *
  rw [Matrix.conjTranspose_mul, mul_assoc, ← mul_assoc m.conjTranspose, hm, one_mul, hn]

theorem isU_one : IsU 1 := by unfold IsU; simp

theorem isU_u3 (θ φ lam g : ℝ) : IsU (u3m θ φ lam g) := by
  unfold IsU
  have h := u3m_inv θ φ lam g
  rw [← h]
  congr 1
  ext i j
  rw [Matrix.conjTranspose_apply]
  have e : ∀ x : ℝ, star (Complex.exp (Complex.I * x)) = Complex.exp (Complex.I * ((-x : ℝ) : ℂ)) :=
    fun x => conj_ph x
  have e2 : ∀ x y : ℝ, star (Complex.exp (Complex.I * ((x : ℂ) + y)))
      = Complex.exp (Complex.I * (((-y : ℝ) : ℂ) + ((-x : ℝ) : ℂ))) := by
    intro x y
    have := e (x + y)
    push_cast at this ⊢
    rw [this]; congr 1; ring
  have ec : star (Complex.cos ((θ : ℂ) / 2)) = Complex.cos (((-θ : ℝ) : ℂ) / 2) := by
    have : ((θ : ℂ) / 2) = ((θ / 2 : ℝ) : ℂ) := by push_cast; rfl
    rw [this, ← Complex.ofReal_cos]
    have h2 : ((((-θ : ℝ) : ℂ)) / 2) = ((-(θ / 2) : ℝ) : ℂ) := by push_cast; ring
    rw [h2, ← Complex.ofReal_cos, Real.cos_neg]
    exact Complex.conj_ofReal _
  have es : star (Complex.sin ((θ : ℂ) / 2)) = -Complex.sin (((-θ : ℝ) : ℂ) / 2) := by
    have : ((θ : ℂ) / 2) = ((θ / 2 : ℝ) : ℂ) := by push_cast; rfl
    rw [this, ← Complex.ofReal_sin]
    have h2 : ((((-θ : ℝ) : ℂ)) / 2) = ((-(θ / 2) : ℝ) : ℂ) := by push_cast; ring
    rw [h2, ← Complex.ofReal_sin, Real.sin_neg]
    rw [Complex.ofReal_neg, neg_neg]
    exact Complex.conj_ofReal _
  cases i <;> cases j <;> simp only [u3m, star_mul', star_neg, e, e2, ec, es] <;> ring

theorem isU_pauli (p : Pauli) : IsU p.mat := by
  unfold IsU
  rw [← pauli_inv p]
  congr 1
  ext i j
  rw [Matrix.conjTranspose_apply]
  cases p <;> cases i <;> cases j <;> simp [Pauli.mat]

end Verif.Circ
