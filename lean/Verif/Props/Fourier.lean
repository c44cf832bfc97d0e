import Verif.Fourier.IQPE
import Verif.Fourier.Grover

/-!
# Properties of the Fourier transform, Fourier adders, phase estimation and amplitude amplification

Registers are lists of qubits, least significant qubit first. `valL reg s` is the value of a register in the basis state
`s`. A state is its function of amplitudes. `E θ` is the phase of `θ` turns.
-/

namespace Verif.Props

open Verif.Rev Verif.Fourier

/-! ### Specification -/

section
variable {Q : Type} [DecidableEq Q]

/-- The basis state with the value of `reg` replaced by `X`. -/
def setReg (reg : List Q) (X : ℕ) (s : St Q) : St Q := setM reg.reverse X s

/-- The value of the register with the order of the bits reversed. -/
def valRev (reg : List Q) (s : St Q) : ℕ := valL reg.reverse s

/-- The discrete Fourier transform, followed by a multiplication: the amplitude of the value `Y` is
`2^{-n/2} Σ_X e^{2πi m X Y / 2^n} ψ_X`. -/
noncomputable def dft (m : ℤ) (reg : List Q) (Y : St Q → ℕ) (ψ : St Q → ℂ) : St Q → ℂ := fun s =>
  rt ^ reg.length * ∑ X ∈ Finset.range (2 ^ reg.length), E (m * (X * Y s) / 2 ^ reg.length) * ψ (setReg reg X s)

/-- The new amplitude of a basis state is the old amplitude of the state whose register value is smaller by `a`. -/
def addReg (reg : List Q) (a : St Q → ℤ) (ψ : St Q → ℂ) : St Q → ℂ := fun s =>
  ψ (setReg reg (((valL reg s : ℤ) - a s) % 2 ^ reg.length).toNat s)

/-- `valL` and `setReg` belong together. -/
theorem setReg_spec {reg : List Q} (hn : reg.Nodup) (X : ℕ) (s : St Q) :
    valL reg (setReg reg X s) = X % 2 ^ reg.length ∧ (∀ x, x ∉ reg → setReg reg X s x = s x) ∧
      setReg reg (valL reg s) s = s := by
  have hr : reg.reverse.Nodup := List.nodup_reverse.2 hn
  have hv : ∀ s, valM reg.reverse s = valL reg s := fun s => by rw [← valL_reverse, List.reverse_reverse]
  refine ⟨?_, fun x hx => setM_out _ _ _ fun h => hx (List.mem_reverse.1 h), ?_⟩
  · unfold setReg; rw [← hv, valM_setM hr, List.length_reverse]
  · unfold setReg; rw [← hv, setM_val hr]

/-! ### C69: the quantum Fourier transform -/

/-- `QFT` (with the default bit order) is the Fourier transform with an extra multiplication, on every state. -/
theorem C69_qft {m : ℤ} (hm : m % 2 = 1) (execSwap : Bool) (d : Q) {reg : List Q} (hn : reg.Nodup) :
    ∃ c, qft m execSwap true false d reg = some c ∧
      ∀ ψ : St Q → ℂ, run c ψ = dft m reg (if execSwap then valL reg else valRev reg) ψ := by
  have hr : reg.reverse.Nodup := List.nodup_reverse.2 hn
  rw [qft, if_pos hm]
  refine ⟨_, rfl, fun ψ => funext fun s => ?_⟩
  simp only [Bool.false_eq_true, if_false, if_true]
  rw [run_qftInner hm hr, List.length_reverse]
  have hv : valM reg.reverse s = valL reg s := by rw [← valL_reverse, List.reverse_reverse]
  rw [hv]
  cases execSwap <;> rfl

/-- With `qiskit_endian=False` the qubits are taken in the opposite order. -/
theorem C69_qft_endian (m : ℤ) (execSwap inverse : Bool) (d : Q) (reg : List Q) :
    qft m execSwap false inverse d reg = qft m execSwap true inverse d reg.reverse := by
  unfold qft
  simp

/-- `inv=True` gives the two-sided inverse, for every choice of the other arguments. -/
theorem C69_qft_inverse (m : ℤ) (execSwap endian : Bool) (d : Q) {reg : List Q} (hn : reg.Nodup) {c c' : List (FGate Q)}
    (h : qft m execSwap endian false d reg = some c) (h' : qft m execSwap endian true d reg = some c') (ψ : St Q → ℂ) :
    run c' (run c ψ) = ψ ∧ run c (run c' ψ) = ψ := by
  unfold qft at h h'
  by_cases hm : m % 2 = 1
  · rw [if_pos hm, Option.some.injEq] at h h'
    subst h; subst h'
    simp only [Bool.false_eq_true, if_false, if_true]
    refine run_inv _ (qftInner_wf m execSwap d ?_) ψ
    cases endian
    · exact hn
    · exact List.nodup_reverse.2 hn
  · rw [if_neg hm] at h
    cases h

/-- Even factors are rejected. -/
theorem C69_qft_even {m : ℤ} (hm : m % 2 = 0) (execSwap endian inverse : Bool) (d : Q) (reg : List Q) :
    qft m execSwap endian inverse d reg = none := by
  rw [qft, if_neg (by omega)]

/-- In tracing mode `QFT` is the Fourier transform, whatever `inplace_mult` and `qiskit_endian` are. -/
theorem C69_qft_tracing (m : ℤ) (execSwap endian : Bool) (d : Q) {reg : List Q} (hn : reg.Nodup) (ψ : St Q → ℂ) :
    run (qftTracing m execSwap endian false d reg) ψ = dft 1 reg (if execSwap then valL reg else valRev reg) ψ := by
  funext s
  simp only [qftTracing, Bool.false_eq_true, if_false]
  rw [run_jaspQft hn]
  cases execSwap
  · simp only [Bool.false_eq_true, if_false]
    rw [← valL_reverse]
    rfl
  · rfl

theorem C69_qft_tracing_inverse (m : ℤ) (execSwap endian : Bool) (d : Q) (reg : List Q) (ψ : St Q → ℂ) :
    run (qftTracing m execSwap endian true d reg) (run (qftTracing m execSwap endian false d reg) ψ) = ψ ∧
    run (qftTracing m execSwap endian false d reg) (run (qftTracing m execSwap endian true d reg) ψ) = ψ := by
  simp only [qftTracing, Bool.false_eq_true, if_false, if_true]
  exact run_inv _ (jaspQft_wf execSwap d reg) ψ

end

/-- Finding: in tracing mode `inplace_mult` is ignored, so both modes differ. -/
theorem C69_qft_tracing_mult_negation : ¬ ∀ (m : ℤ), m % 2 = 1 → ∀ (reg : List Nat), reg.Nodup → ∀ ψ : St Nat → ℂ,
    run (qftTracing m true true false 0 reg) ψ = dft m reg (valL reg) ψ := by
  intro h
  have h3 := h 3 (by decide) [0, 1] (by decide) (fun s => if s 0 && !s 1 then 1 else 0)
  rw [C69_qft_tracing 3 true true 0 (by decide)] at h3
  have h4 := congrFun h3 (fun x => x == 0)
  simp only [if_true, dft] at h4
  have hs : ∀ X, X < 4 → (setReg [0, 1] X (fun x => x == 0)) 0 = X.testBit 0 ∧
      (setReg [0, 1] X (fun x => x == 0)) 1 = X.testBit 1 := by decide
  have h5 : ∀ m : ℤ, ∑ X ∈ Finset.range (2 ^ [0, 1].length), E ((m : ℝ) * (X * (valL [0, 1] (fun x => x == 0) : ℕ)) /
      2 ^ [0, 1].length) * (if (setReg [0, 1] X (fun x => x == 0)) 0 && !(setReg [0, 1] X (fun x => x == 0)) 1
        then (1 : ℂ) else 0) = E (m / 4) := by
    intro m
    have hv : valL [0, 1] (fun x => x == 0) = 1 := by decide
    rw [hv]
    show ∑ X ∈ Finset.range 4, _ = _
    rw [Finset.sum_eq_single_of_mem 1 (by decide)]
    · rw [(hs 1 (by decide)).1, (hs 1 (by decide)).2]
      have : ((Nat.testBit 1 0 && !Nat.testBit 1 1) = true) := by decide
      rw [if_pos this, mul_one]
      congr 1
      norm_num
    · intro X hX hne
      rw [Finset.mem_range] at hX
      rw [(hs X hX).1, (hs X hX).2]
      have : ¬ ((X.testBit 0 && !X.testBit 1) = true) := by
        have : X = 0 ∨ X = 2 ∨ X = 3 := by omega
        rcases this with rfl | rfl | rfl <;> decide
      rw [if_neg this, mul_zero]
  rw [h5, h5] at h4
  have h6 := mul_left_cancel₀ (pow_ne_zero _ rt_ne) h4
  have h7 : E (1 / 2) = 1 := by
    have e1 : ((3 : ℤ) : ℝ) / 4 = 1 / 2 + ((1 : ℤ) : ℝ) / 4 := by norm_num
    rw [e1, E_add] at h6
    exact mul_right_cancel₀ (E_ne (((1 : ℤ) : ℝ) / 4)) (by rw [one_mul]; exact h6.symm)
  rw [E_half] at h7
  norm_num at h7

section
variable {Q : Type} [DecidableEq Q]

theorem addBack_addReg (reg : List Q) (a : St Q → ℤ) (ψ : St Q → ℂ) :
    (fun s => ψ (addBack reg.reverse a s)) = addReg reg a ψ := by
  funext s
  unfold addBack addReg setReg
  rw [← valL_reverse, List.reverse_reverse, List.length_reverse]
  push_cast
  rfl

/-! ### C70: `fourier_adder` -/

/-- Adding a classical number (of any sign and size), on every state. -/
theorem C70_fourier_adder_classical (d : Q) (a : ℤ) {b : List Q} (hn : b.Nodup) (ψ : St Q → ℂ) :
    run (fourierAdderC d a b) ψ = addReg b (fun _ => a) ψ := by
  rw [run_fourierAdderC d a hn, addBack_addReg]

/-- Adding a register: no relative phases are left, `a` is unchanged. -/
theorem C70_fourier_adder (d : Q) {a b : List Q} (hn : (a ++ b).Nodup) (hl : a.length ≤ b.length) :
    ∃ c, fourierAdderQ d a b = some c ∧ ∀ ψ : St Q → ℂ, run c ψ = addReg b (fun s => valL a s) ψ := by
  obtain ⟨c, hc, h⟩ := run_fourierAdderQ d hn hl
  exact ⟨c, hc, fun ψ => by rw [h, addBack_addReg]⟩

theorem C70_fourier_adder_size (d : Q) {a b : List Q} (hl : b.length < a.length) : fourierAdderQ d a b = none := by
  rw [fourierAdderQ, if_pos hl]

/-! ### C71: `jasp_fourier_adder` -/

theorem C71_jasp_fourier_adder_classical (d : Q) (a : ℤ) {b : List Q} (hn : b.Nodup) (ψ : St Q → ℂ) :
    run (jaspFourierAdderC d a b) ψ = addReg b (fun _ => a) ψ := by
  rw [run_jaspFourierAdderC d a hn, addBack_addReg]

/-- Registers of any two sizes. -/
theorem C71_jasp_fourier_adder (d : Q) {a b : List Q} (hn : (a ++ b).Nodup) (ψ : St Q → ℂ) :
    run (jaspFourierAdderQ d a b) ψ = addReg b (fun s => valL a s) ψ := by
  rw [run_jaspFourierAdderQ d hn, addBack_addReg]

/-! ### C72: `QPE` -/

/-- The state `φ` with the register in 0. -/
noncomputable def withZero (reg : List Q) (φ : St Q → ℂ) : St Q → ℂ :=
  fun s => (if reg.all fun q => !s q then 1 else 0) * φ s

theorem iterate_acts {reg : List Q} {U : (St Q → ℂ) → St Q → ℂ} (hU : ActsOutside reg U) (k : ℕ) :
    ActsOutside reg U^[k] := by
  induction k with
  | zero => intro f _ ψ; rfl
  | succ k ih =>
    intro f hf ψ
    rw [Function.iterate_succ_apply, Function.iterate_succ_apply, hU f hf, ih f hf]

theorem iterate_eigen {reg : List Q} {U : (St Q → ℂ) → St Q → ℂ} (hU : ActsOutside reg U) {φ : St Q → ℂ} {θ : ℝ}
    (hφ : U φ = fun s => E θ * φ s) (k : ℕ) : U^[k] φ = fun s => E (k * θ) * φ s := by
  induction k with
  | zero => funext s; simp [E_zero]
  | succ k ih =>
    rw [Function.iterate_succ_apply', ih, hU (fun _ => E (k * θ)) (fun _ _ _ => rfl), hφ]
    funext s
    rw [← mul_assoc, ← E_add]
    congr 2
    push_cast
    ring

theorem qftTrue_dft (d : Q) {reg : List Q} (hn : reg.Nodup) (ψ : St Q → ℂ) (s : St Q) :
    run (qftInner 1 true d reg.reverse) ψ s = rt ^ reg.length * ∑ X ∈ Finset.range (2 ^ reg.length),
      E ((1 : ℤ) * (X * (valL reg s : ℕ)) / 2 ^ reg.length) * ψ (setM reg.reverse X s) := by
  obtain ⟨c, hc, h⟩ := C69_qft (m := 1) (by decide) true d hn
  have : c = qftInner 1 true d reg.reverse := by
    simp [qft] at hc
    exact hc.symm
  rw [← this, h]
  rfl

/-- `QPE` on an eigenstate of phase `θ`: the amplitude of the register value `Y` is
`2^{-n} Σ_X e^{2πi X (θ - Y/2^n)}`, and the eigenstate is unchanged. -/
theorem C72_qpe (d : Q) {U : (St Q → ℂ) → St Q → ℂ} {reg : List Q} (hn : reg.Nodup) (hU : ActsOutside reg U)
    {φ : St Q → ℂ} (hout : ∀ q ∈ reg, ∀ s v, φ (upd s q v) = φ s) {θ : ℝ} (hφ : U φ = fun s => E θ * φ s) (s : St Q) :
    qpe d (fun k => U^[k]) reg (withZero reg φ) s =
      (1 / 2 ^ reg.length * ∑ X ∈ Finset.range (2 ^ reg.length), E (X * (θ - valL reg s / 2 ^ reg.length))) * φ s := by
  unfold qpe
  refine qpe_general _ hn (fun k => iterate_acts hU k) hout (fun i => ?_)
    (qftInner_wf 1 true d (List.nodup_reverse.2 hn)) (qftTrue_dft d hn) s
  rw [iterate_eigen hU hφ]
  push_cast
  rfl

/-- The same with `iter_spec`. -/
theorem C72_qpe_iter_spec (d : Q) {Uit : ℕ → (St Q → ℂ) → St Q → ℂ} {reg : List Q} (hn : reg.Nodup)
    (hU : ∀ k, ActsOutside reg (Uit k)) {φ : St Q → ℂ} (hout : ∀ q ∈ reg, ∀ s v, φ (upd s q v) = φ s) {θ : ℝ}
    (hφ : ∀ k : ℕ, Uit k φ = fun s => E (k * θ) * φ s) (s : St Q) :
    qpe d Uit reg (withZero reg φ) s =
      (1 / 2 ^ reg.length * ∑ X ∈ Finset.range (2 ^ reg.length), E (X * (θ - valL reg s / 2 ^ reg.length))) * φ s := by
  unfold qpe
  refine qpe_general _ hn hU hout (fun i => ?_) (qftInner_wf 1 true d (List.nodup_reverse.2 hn)) (qftTrue_dft d hn) s
  rw [hφ]
  push_cast
  rfl

/-- The same in tracing mode. -/
theorem C72_qpe_tracing (d : Q) {U : (St Q → ℂ) → St Q → ℂ} {reg : List Q} (hn : reg.Nodup) (hU : ActsOutside reg U)
    {φ : St Q → ℂ} (hout : ∀ q ∈ reg, ∀ s v, φ (upd s q v) = φ s) {θ : ℝ} (hφ : U φ = fun s => E θ * φ s) (s : St Q) :
    jaspQpe d (fun k => U^[k]) reg (withZero reg φ) s =
      (1 / 2 ^ reg.length * ∑ X ∈ Finset.range (2 ^ reg.length), E (X * (θ - valL reg s / 2 ^ reg.length))) * φ s := by
  unfold jaspQpe
  refine qpe_general _ hn (fun k => iterate_acts hU k) hout (fun i => ?_) (jaspQft_wf true d reg)
    (fun ψ s => by rw [run_jaspQft hn]; rfl) s
  rw [iterate_eigen hU hφ]
  push_cast
  rfl

/-- If the phase has `n` binary digits, it is measured with certainty. -/
theorem C72_qpe_exact (d : Q) {U : (St Q → ℂ) → St Q → ℂ} {reg : List Q} (hn : reg.Nodup) (hU : ActsOutside reg U)
    {φ : St Q → ℂ} (hout : ∀ q ∈ reg, ∀ s v, φ (upd s q v) = φ s) {k : ℕ} (hk : k < 2 ^ reg.length)
    (hφ : U φ = fun s => E (k / 2 ^ reg.length) * φ s) (s : St Q) :
    qpe d (fun k => U^[k]) reg (withZero reg φ) s = (if valL reg s = k then 1 else 0) * φ s := by
  rw [C72_qpe d hn hU hout hφ, ← qpeAmp_exact reg.length k (valL reg s) hk (valL_lt reg s)]
  rfl

/-- The best approximation is measured with probability at least `4 / π²`. -/
theorem C72_qpe_probability (d : Q) {U : (St Q → ℂ) → St Q → ℂ} {reg : List Q} (hn : reg.Nodup)
    (hU : ActsOutside reg U) {φ : St Q → ℂ} (hout : ∀ q ∈ reg, ∀ s v, φ (upd s q v) = φ s) {θ : ℝ}
    (hφ : U φ = fun s => E θ * φ s) (s : St Q) (h : |θ - valL reg s / 2 ^ reg.length| ≤ 1 / (2 * 2 ^ reg.length)) :
    4 / Real.pi ^ 2 * ‖φ s‖ ^ 2 ≤ ‖qpe d (fun k => U^[k]) reg (withZero reg φ) s‖ ^ 2 := by
  rw [C72_qpe d hn hU hout hφ, norm_mul, mul_pow]
  exact mul_le_mul_of_nonneg_right (qpeAmp_bound reg.length (valL reg s) θ h) (by positivity)

/-! ### C73: `IQPE` -/

/-- What holds of `IQPE` for a phase `θ` with `n` binary digits: the result is the fractional part of `2 θ`, not of `θ`.
Every sequence of outcomes of non-zero probability gives it. -/
theorem C73_iqpe_partial (q : Q) {U : (St Q → ℂ) → St Q → ℂ} (hU : ActsOutside [q] U) {φ : St Q → ℂ}
    (hout : ∀ s v, φ (upd s q v) = φ s) (n k : ℕ) (hφ : U φ = fun s => E (k / 2 ^ n) * φ s) :
    (∃ rs, rs.length = n ∧ ∀ s, ‖(iqpe q (fun k => U^[k]) n rs φ).2 s‖ = ‖φ s‖) ∧
    ∀ rs, rs.length = n → (iqpe q (fun k => U^[k]) n rs φ).2 ≠ (fun _ => 0) →
      (iqpe q (fun k => U^[k]) n rs φ).1 = Int.fract (2 * ((k : ℝ) / 2 ^ n)) := by
  have h := iqpeLoop_spec q (fun k => iterate_acts hU k) n (θ := k / 2 ^ n) n 0 φ rfl hout (fun j => by
    rw [iterate_eigen hU hφ]; push_cast; rfl)
  have h0 : Int.fract ((2 : ℝ) ^ (n - 0 + 1) * (k / 2 ^ n)) = 0 := by
    have : (2 : ℝ) ^ (n - 0 + 1) * (k / 2 ^ n) = ((2 * k : ℕ) : ℝ) := by
      rw [Nat.sub_zero, pow_succ]
      push_cast
      field_simp
    rw [this, Int.fract_natCast]
  rw [h0] at h
  exact ⟨h.1, fun rs hl hne => (h.2 rs hl).resolve_right hne⟩

end

/-- Finding: `IQPE` does not return the phase. For the phase 1/2 (e.g. `z` on `|1>`) it returns 0. -/
theorem C73_iqpe_negation : ¬ ∀ (n : ℕ) (U : (St Nat → ℂ) → St Nat → ℂ) (φ : St Nat → ℂ) (θ : ℝ), ActsOutside [0] U →
    (∀ s v, φ (upd s 0 v) = φ s) → (U φ = fun s => E θ * φ s) → 0 ≤ θ → θ < 1 → (∃ k : ℕ, θ = k / 2 ^ n) →
    ∀ rs : List Bool, rs.length = n → (iqpe 0 (fun k => U^[k]) n rs φ).2 ≠ (fun _ => 0) →
      (iqpe 0 (fun k => U^[k]) n rs φ).1 = θ := by
  intro h
  have hU : ActsOutside [0] fun (ψ : St Nat → ℂ) => fun s => (if s 1 then -1 else 1) * ψ s := by
    intro f _ ψ
    funext s
    ring
  have hφ : (fun (s : St Nat) => (if s 1 then (-1 : ℂ) else 1) * (if s 1 then 1 else 0)) =
      fun s => E (1 / 2 ^ 3 * 4) * (if s 1 then 1 else 0) := by
    funext s
    have : (1 / 2 ^ 3 * 4 : ℝ) = 1 / 2 := by norm_num
    rw [this, E_half]
    cases s 1 <;> simp
  have hout : ∀ (s : St Nat) v, (if upd s 0 v 1 then (1 : ℂ) else 0) = if s 1 then 1 else 0 := fun s v => by
    rw [upd_ne (by decide)]
  have hφ' : (fun (s : St Nat) => (if s 1 then (-1 : ℂ) else 1) * (if s 1 then 1 else 0)) =
      fun s => E ((4 : ℕ) / 2 ^ 3) * (if s 1 then 1 else 0) := by
    rw [hφ]
    have : (1 / 2 ^ 3 * 4 : ℝ) = ((4 : ℕ) : ℝ) / 2 ^ 3 := by norm_num
    rw [this]
  obtain ⟨⟨rs, hl, hn⟩, hres⟩ := C73_iqpe_partial 0 hU hout 3 4 hφ'
  have hne : (iqpe 0 (fun k => (fun (ψ : St Nat → ℂ) => fun s => (if s 1 then -1 else 1) * ψ s)^[k]) 3 rs
      (fun s => if s 1 then 1 else 0)).2 ≠ (fun _ => 0) := fun e => by
    have := hn fun x => x == 1
    rw [e] at this
    simp at this
  have h1 := h 3 _ _ (1 / 2 ^ 3 * 4) hU hout hφ (by norm_num) (by norm_num) ⟨4, by norm_num⟩ rs hl hne
  rw [hres rs hl hne] at h1
  have : (2 * (((4 : ℕ) : ℝ) / 2 ^ 3)) = ((1 : ℕ) : ℝ) := by norm_num
  rw [this, Int.fract_natCast] at h1
  norm_num at h1

section
variable {Q : Type} [DecidableEq Q]

/-! ### C74: `reflection` -/

/-- The prepared state `A|0...0>`. -/
noncomputable def prepared (A : List (FGate Q)) (reg : List Q) : St Q → ℂ := run A (zeroOn reg)

/-- `reflection` is `(1 - e^{iφ})|ψ><ψ| - I` for every angle and every register size (at least one qubit). -/
theorem C74_reflection {A : List (FGate Q)} (hw : ∀ g ∈ A, g.wf) (θ : ℝ) {qs : List Q} {q : Q}
    (hn : (qs ++ [q]).Nodup) (hA : ∀ g ∈ A, ∀ x ∈ g.qubits, x ∈ qs ++ [q]) (ψ : St Q → ℂ) (s : St Q) :
    reflection A θ qs q ψ s = (1 - E θ) * ip (qs ++ [q]) (prepared A (qs ++ [q])) ψ s * prepared A (qs ++ [q]) s - ψ s :=
  reflection_eq hw θ hn hA ψ s

/-- With `reflection_indices`: the prepared states of inputs which are 0 on the chosen qubits get the phase, all others
the factor -1; `A` may use more qubits. -/
theorem C74_reflection_indices {A : List (FGate Q)} (hw : ∀ g ∈ A, g.wf) (θ : ℝ) {qs : List Q} {q : Q} (hq : q ∉ qs)
    (χ : St Q → ℂ) : reflection A θ qs q (run A χ) =
      fun s => -run A (fun s => (if (qs ++ [q]).all fun c => !s c then E θ else 1) * χ s) s :=
  reflection_run hw θ hq χ

/-! ### C75: `amplitude_amplification` -/

/-- The projection on the good states. -/
noncomputable def goodPart (g : St Q → Bool) (ψ : St Q → ℂ) : St Q → ℂ := fun s => if g s then ψ s else 0

/-- If the good states have the probability `sin² t`, they have the probability `sin² ((2k+1) t)` after `k` iterations:
each good amplitude is multiplied by `sin ((2k+1) t) / sin t`, each other one by `cos ((2k+1) t) / cos t`. -/
theorem C75_amplitude_amplification {A : List (FGate Q)} (hw : ∀ g ∈ A, g.wf) {qs : List Q} {q : Q}
    (hn : (qs ++ [q]).Nodup) (hA : ∀ g ∈ A, ∀ x ∈ g.qubits, x ∈ qs ++ [q]) (g : St Q → Bool) {t : ℝ}
    (hs0 : Real.sin t ≠ 0) (hc0 : Real.cos t ≠ 0)
    (hg : ∀ s, ip (qs ++ [q]) (goodPart g (prepared A (qs ++ [q]))) (goodPart g (prepared A (qs ++ [q]))) s =
      ((Real.sin t ^ 2 : ℝ) : ℂ)) (k : ℕ) (s : St Q) :
    amplify A (fun s => if g s then -1 else 1) qs q k (prepared A (qs ++ [q])) s =
      (if g s then ((Real.sin ((2 * k + 1) * t) / Real.sin t : ℝ) : ℂ)
        else ((Real.cos ((2 * k + 1) * t) / Real.cos t : ℝ) : ℂ)) * prepared A (qs ++ [q]) s := by
  have hgp : ∀ ψ : St Q → ℂ, goodPart g ψ = scaled g 1 0 ψ := fun ψ => by
    funext s
    unfold goodPart scaled
    cases g s <;> simp
  rw [hgp] at hg
  have h := amplify_spec hw hn hA g hs0 hc0 hg k 0
  have h1 : scaled g ((Real.sin ((2 * ((0 : ℕ) : ℝ) + 1) * t) / Real.sin t : ℝ))
      ((Real.cos ((2 * ((0 : ℕ) : ℝ) + 1) * t) / Real.cos t : ℝ)) (run A (zeroOn (qs ++ [q]))) = run A (zeroOn (qs ++ [q])) := by
    funext s
    unfold scaled
    rw [Nat.cast_zero, mul_zero, zero_add, one_mul, div_self hs0, div_self hc0]
    simp
  rw [h1] at h
  unfold prepared
  rw [h]
  unfold scaled
  rw [Nat.cast_zero, zero_add]

/-- All circuits of this area are unitary: they keep inner products. -/
theorem C75_unitary {qs : List Q} (hn : qs.Nodup) {A : List (FGate Q)} (hw : ∀ g ∈ A, g.wf)
    (hA : ∀ g ∈ A, ∀ x ∈ g.qubits, x ∈ qs) (φ ψ : St Q → ℂ) : ip qs (run A φ) (run A ψ) = ip qs φ ψ :=
  ip_run hn A hw hA φ ψ

end

/-! ### Examples -/

/-- Phase estimation of a phase gate of 5/8 turns on `|1>` with three qubits gives 5. -/
example (s : St Nat) (h3 : s 3 = true) :
    qpe 0 (fun k => (FGate.ph (5 / 8) [3]).app^[k]) [0, 1, 2] (withZero [0, 1, 2] fun s => if s 3 then 1 else 0) s =
      if valL [0, 1, 2] s = 5 then 1 else 0 := by
  have hU : ActsOutside [0, 1, 2] (FGate.ph (5 / 8) [3]).app := fun f _ ψ => by
    funext s
    simp only [app_ph]
    ring
  have hout : ∀ q ∈ [0, 1, 2], ∀ (s : St Nat) v, (if upd s q v 3 then (1 : ℂ) else 0) = if s 3 then 1 else 0 :=
    fun q hq s v => by
      have hne : (3 : Nat) ≠ q := by
        rintro rfl
        revert hq
        decide
      rw [upd_ne hne]
  have hφ : (FGate.ph (5 / 8) [3]).app (fun s => if s 3 then 1 else 0) =
      fun s => E ((5 : ℕ) / 2 ^ [0, 1, 2].length) * (if s 3 then 1 else 0) := by
    funext s
    rw [app_ph]
    have : ((5 / 8 : ℚ) : ℝ) = ((5 : ℕ) : ℝ) / 2 ^ [0, 1, 2].length := by norm_num
    rw [this]
    cases h : s 3 <;> simp [h]
  rw [C72_qpe_exact (k := 5) 0 (by decide) hU hout (by decide) hφ, h3]
  simp

/-- The reflection around `|+>` maps `|0>` to `|1>`. -/
example (s : St Nat) : reflection [FGate.h 0] (1 / 2) [] 0 (zeroOn [0]) s = if s 0 then 1 else 0 := by
  have hrt : rt * rt = 1 / 2 := by rw [← pow_two, rt_sq]
  have hE : E (1 / 2) = -1 := E_half
  have hp : ∀ s, prepared [FGate.h 0] [0] s = rt := fun s => by
    simp [prepared, Fourier.run, FGate.app, zeroOn, upd_same]
  rw [C74_reflection (by simp [FGate.wf]) _ (by simp) (by simp [FGate.qubits]), hE]
  have hi : ip ([] ++ [0]) (prepared [FGate.h 0] ([] ++ [0])) (zeroOn [0]) s = rt := by
    show ip [0] (prepared [FGate.h 0] [0]) (zeroOn [0]) s = rt
    simp only [ip, sumOver, hp, conj_rt, zeroOn, List.all_cons, List.all_nil, upd_same]
    simp
  rw [hi]
  show (1 - -1) * rt * prepared [FGate.h 0] [0] s - zeroOn [0] s = _
  rw [hp]
  have h2 : (1 - -1) * rt * rt = 1 := by linear_combination 2 * hrt
  rw [h2]
  cases h : s 0 <;> simp [zeroOn, h]

/-- Adding 5 to a register holding 6 of three qubits gives 3. -/
example (ψ : St Nat → ℂ) (s : St Nat) (h0 : s 0 = true) (h1 : s 1 = true) (h2 : s 2 = false) :
    run (fourierAdderC 0 5 [0, 1, 2]) ψ s = ψ (upd (upd (upd s 0 false) 1 true) 2 true) := by
  rw [C70_fourier_adder_classical 0 5 (by decide)]
  have hv : valL [0, 1, 2] s = 3 := by simp [valL, h0, h1, h2]
  unfold addReg
  rw [hv]
  have : ((((3 : ℕ) : ℤ) - 5) % 2 ^ [0, 1, 2].length).toNat = 6 := by decide
  rw [this]
  rfl

end Verif.Props
