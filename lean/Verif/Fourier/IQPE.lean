import Verif.Fourier.QPE
import Mathlib.Algebra.Order.Floor.Ring

/-!
# Iterative quantum phase estimation

Model of `alg_primitives/iterative_qpe.py`.
-/

set_option linter.unusedSectionVars false

namespace Verif.Fourier

open Verif.Rev

variable {Q : Type} [DecidableEq Q]

/-! ### Model -/

/-- `rz(φ)` with `φ` in turns: `diag(e^{-iφ/2}, e^{iφ/2})`. -/
noncomputable def rzOp (q : Q) (φ : ℝ) (ψ : St Q → ℂ) : St Q → ℂ :=
  fun s => (if s q then E (φ / 2) else E (-φ / 2)) * ψ s

/-- The gates of one iteration (iterative_qpe.py:89-99) on the auxiliary qubit `q`, starting from `|0>`;
`-π * theta` is `-theta / 2` turns. -/
noncomputable def iqpeGates (q : Q) (U : (St Q → ℂ) → St Q → ℂ) (theta : ℝ) (φ : St Q → ℂ) : St Q → ℂ :=
  (FGate.h q).app (rzOp q (-theta / 2) (ctrlU q U ((FGate.h q).app fun s => (if s q then 0 else 1) * φ s)))

/-- `iqpe_iteration` (iterative_qpe.py:87-102): state and estimate after the outcome `r`; the auxiliary qubit is deleted. -/
noncomputable def iqpeIter (q : Q) (U : (St Q → ℂ) → St Q → ℂ) (r : Bool) (p : ℝ × (St Q → ℂ)) : ℝ × (St Q → ℂ) :=
  ((p.1 + r.toNat) / 2, fun s => iqpeGates q U p.1 p.2 (upd s q r))

/-- The loop iterative_qpe.py:104 from iteration `i` on for the outcomes `rs`: unnormalised state and estimate. -/
noncomputable def iqpeLoop (q : Q) (Uit : ℕ → (St Q → ℂ) → St Q → ℂ) (precision : ℕ) :
    ℕ → List Bool → ℝ × (St Q → ℂ) → ℝ × (St Q → ℂ)
  | _, [], p => p
  | i, r :: rs, p => iqpeLoop q Uit precision (i + 1) rs (iqpeIter q (Uit (2 ^ (precision - i))) r p)

/-- `IQPE` (iterative_qpe.py:24-104) on the state `φ` if the measurements give `rs` (one outcome per iteration). -/
noncomputable def iqpe (q : Q) (Uit : ℕ → (St Q → ℂ) → St Q → ℂ) (precision : ℕ) (rs : List Bool) (φ : St Q → ℂ) :
    ℝ × (St Q → ℂ) :=
  iqpeLoop q Uit precision 0 rs (0, φ)

/-! ### Proofs -/

theorem iqpeGates_eq {q : Q} {U : (St Q → ℂ) → St Q → ℂ} (hU : ActsOutside [q] U) {φ : St Q → ℂ}
    (hout : ∀ s v, φ (upd s q v) = φ s) {κ : ℝ} (hφ : U φ = fun s => E κ * φ s) (theta : ℝ) (s : St Q) (r : Bool) :
    iqpeGates q U theta φ (upd s q r) =
      1 / 2 * (E (theta / 4) * (1 + (if r then -1 else 1) * E (κ - theta / 2))) * φ s := by
  have h1 : (FGate.h q).app (fun s => (if s q then 0 else 1) * φ s) = fun s => rt * φ s := by
    funext s
    simp [FGate.app, upd_same, hout]
  have h2 : ctrlU q U (fun s => rt * φ s) = fun s => (if s q then E κ else 1) * (rt * φ s) := by
    funext s
    unfold ctrlU
    dsimp only
    rw [hU (fun _ => rt) (fun _ _ _ => rfl), hφ]
    cases s q <;> simp
    ring
  unfold iqpeGates
  rw [h1, h2]
  simp only [FGate.app, rzOp, upd_same, upd_upd, hout]
  have hrt : rt * rt = 1 / 2 := by rw [← pow_two, rt_sq]
  have e1 : E (-(-theta / 2) / 2) = E (theta / 4) := by congr 1; ring
  have e2 : E (-theta / 2 / 2) * E κ = E (theta / 4) * E (κ - theta / 2) := by
    rw [← E_add, ← E_add]; congr 1; ring
  simp only [Bool.false_eq_true, if_false, if_true]
  rw [e1, ← hrt]
  linear_combination (rt * rt * (if r = true then (-1 : ℂ) else 1) * φ s) * e2

theorem E_half_int (k : ℤ) : E (k / 2) = if k % 2 = 0 then 1 else -1 := by
  have hk := Int.emod_add_mul_ediv k 2
  split
  · next h =>
    rw [← E_int (k / 2)]
    congr 1
    rw [h] at hk
    have : (k : ℝ) = 2 * ((k / 2 : ℤ) : ℝ) := by
      have h2 : (k : ℝ) = ((0 + 2 * (k / 2) : ℤ) : ℝ) := by rw [hk]
      rw [h2]; push_cast; ring
    linarith
  · next h =>
    have h1 : k % 2 = 1 := by omega
    rw [h1] at hk
    rw [← E_half]
    refine E_congr (k / 2) ?_
    have : (k : ℝ) = 1 + 2 * ((k / 2 : ℤ) : ℝ) := by
      have h2 : (k : ℝ) = ((1 + 2 * (k / 2) : ℤ) : ℝ) := by rw [hk]
      rw [h2]; push_cast; ring
    linarith

/-- The bit measured with certainty. -/
noncomputable def iqpeBit (x : ℝ) : Bool := ⌊x⌋ % 2 ≠ 0

theorem fract_half (x : ℝ) : (Int.fract x + ((iqpeBit x).toNat : ℝ)) / 2 = Int.fract (x / 2) := by
  have hk := Int.emod_add_mul_ediv ⌊x⌋ 2
  have hb : ((iqpeBit x).toNat : ℝ) = ((⌊x⌋ % 2 : ℤ) : ℝ) := by
    unfold iqpeBit
    rcases Int.emod_two_eq ⌊x⌋ with h | h <;> simp [h]
  have h0 : (0 : ℝ) ≤ ((⌊x⌋ % 2 : ℤ) : ℝ) := by exact_mod_cast Int.emod_nonneg _ (by norm_num)
  have h1 : ((⌊x⌋ % 2 : ℤ) : ℝ) ≤ 1 := by
    have : ⌊x⌋ % 2 ≤ 1 := by omega
    exact_mod_cast this
  rw [hb]
  symm
  rw [Int.fract_eq_iff]
  refine ⟨by linarith [Int.fract_nonneg x], by linarith [Int.fract_lt_one x], ⌊x⌋ / 2, ?_⟩
  have h2 : ((⌊x⌋ : ℤ) : ℝ) = ((⌊x⌋ % 2 + 2 * (⌊x⌋ / 2) : ℤ) : ℝ) := by rw [hk]
  have h3 := Int.floor_add_fract x
  push_cast at h2 ⊢
  linarith

theorem iqpeIter_eq {q : Q} {U : (St Q → ℂ) → St Q → ℂ} (hU : ActsOutside [q] U) {φ : St Q → ℂ}
    (hout : ∀ s v, φ (upd s q v) = φ s) {κ : ℝ} (hφ : U φ = fun s => E κ * φ s) (r : Bool) :
    iqpeIter q U r (Int.fract (2 * κ), φ) =
      if r = iqpeBit (2 * κ) then (Int.fract κ, fun s => E (Int.fract (2 * κ) / 4) * φ s)
      else ((Int.fract (2 * κ) + r.toNat) / 2, fun _ => 0) := by
  have hE : E (κ - Int.fract (2 * κ) / 2) = if iqpeBit (2 * κ) then -1 else 1 := by
    have h3 := Int.floor_add_fract (2 * κ)
    have : κ - Int.fract (2 * κ) / 2 = (⌊2 * κ⌋ : ℝ) / 2 := by linarith
    rw [this, E_half_int]
    unfold iqpeBit
    by_cases h : ⌊2 * κ⌋ % 2 = 0 <;> simp [h]
  have hg : iqpeIter q U r (Int.fract (2 * κ), φ) =
      ((Int.fract (2 * κ) + r.toNat) / 2, fun s => 1 / 2 * (E (Int.fract (2 * κ) / 4) *
        (1 + (if r then -1 else 1) * E (κ - Int.fract (2 * κ) / 2))) * φ s) := by
    unfold iqpeIter
    refine Prod.ext rfl (funext fun s => iqpeGates_eq hU hout hφ _ s r)
  rw [hg, hE]
  by_cases h : r = iqpeBit (2 * κ)
  · rw [if_pos h]
    subst h
    rw [fract_half, mul_div_cancel_left₀ _ (two_ne_zero)]
    refine Prod.ext rfl (funext fun s => ?_)
    cases iqpeBit (2 * κ) <;> simp only [Bool.false_eq_true, if_false, if_true] <;> ring
  · rw [if_neg h]
    refine Prod.ext rfl (funext fun s => ?_)
    revert h
    cases r <;> cases iqpeBit (2 * κ) <;> simp

theorem ActsOutside.smul {reg : List Q} {U : (St Q → ℂ) → St Q → ℂ} (hU : ActsOutside reg U) (c : ℂ) {φ : St Q → ℂ}
    {κ : ℝ} (hφ : U φ = fun s => E κ * φ s) : U (fun s => c * φ s) = fun s => E κ * (c * φ s) := by
  rw [hU (fun _ => c) (fun _ _ _ => rfl), hφ]
  funext s
  ring

theorem iqpeLoop_zero (q : Q) {Uit : ℕ → (St Q → ℂ) → St Q → ℂ} (hU : ∀ k, ActsOutside [q] (Uit k)) (n : ℕ) :
    ∀ (rs : List Bool) (i : ℕ) (t : ℝ), (iqpeLoop q Uit n i rs (t, fun _ => 0)).2 = fun _ => 0 := by
  intro rs
  induction rs with
  | nil => intro i t; rfl
  | cons r rs ih =>
    intro i t
    have h0 : Uit (2 ^ (n - i)) (fun _ => 0) = fun s => E 0 * 0 := by
      have := hU (2 ^ (n - i)) (fun _ => 0) (fun _ _ _ => rfl) (fun _ => 0)
      simp only [zero_mul] at this
      rw [this]
      simp
    rw [iqpeLoop]
    have : iqpeIter q (Uit (2 ^ (n - i))) r (t, fun _ => 0) = ((t + r.toNat) / 2, fun _ => 0) := by
      unfold iqpeIter
      refine Prod.ext rfl (funext fun s => ?_)
      show iqpeGates q _ t (fun _ => 0) (upd s q r) = 0
      rw [iqpeGates_eq (hU _) (fun _ _ => rfl) h0, mul_zero]
    rw [this, ih]

theorem iqpeLoop_spec (q : Q) {Uit : ℕ → (St Q → ℂ) → St Q → ℂ} (hU : ∀ k, ActsOutside [q] (Uit k)) (n : ℕ) {θ : ℝ} :
    ∀ (m i : ℕ) (φ : St Q → ℂ), m + i = n → (∀ s v, φ (upd s q v) = φ s) →
    (∀ j, Uit (2 ^ j) φ = fun s => E (2 ^ j * θ) * φ s) →
    (∃ rs, rs.length = m ∧ ∀ s, ‖(iqpeLoop q Uit n i rs (Int.fract (2 ^ (n - i + 1) * θ), φ)).2 s‖ = ‖φ s‖) ∧
    ∀ rs, rs.length = m →
      (iqpeLoop q Uit n i rs (Int.fract (2 ^ (n - i + 1) * θ), φ)).1 = Int.fract (2 * θ) ∨
      (iqpeLoop q Uit n i rs (Int.fract (2 ^ (n - i + 1) * θ), φ)).2 = fun _ => 0 := by
  intro m
  induction m with
  | zero =>
    intro i φ hm hout hφ
    have hi : n - i + 1 = 1 := by omega
    refine ⟨⟨[], rfl, fun s => rfl⟩, fun rs hrs => ?_⟩
    rw [List.length_eq_zero_iff] at hrs
    subst hrs
    left
    show Int.fract (2 ^ (n - i + 1) * θ) = _
    rw [hi, pow_one]
  | succ m ih =>
    intro i φ hm hout hφ
    have h2 : (2 : ℝ) ^ (n - i + 1) * θ = 2 * (2 ^ (n - i) * θ) := by rw [pow_succ]; ring
    have hni : n - (i + 1) + 1 = n - i := by omega
    obtain ⟨c, hc⟩ : ∃ c, c = E (Int.fract (2 * (2 ^ (n - i) * θ)) / 4) := ⟨_, rfl⟩
    have hcn : ‖c‖ = 1 := by
      rw [hc]
      unfold E
      have : (2 * Real.pi * Complex.I * ((Int.fract (2 * (2 ^ (n - i) * θ)) / 4 : ℝ) : ℂ)) =
          ((2 * Real.pi * (Int.fract (2 * (2 ^ (n - i) * θ)) / 4) : ℝ) : ℂ) * Complex.I := by push_cast; ring
      first
        | rw [this, Complex.norm_exp_ofReal_mul_I]
        | (rw [← Complex.norm_exp_ofReal_mul_I (2 * Real.pi * (Int.fract (2 * (2 ^ (n - i) * θ)) / 4))]
           congr 2
           push_cast
           ring)
    obtain ⟨⟨rs0, hl0, hn0⟩, hall⟩ := ih (i + 1) (fun s => c * φ s) (by omega) (fun s v => by rw [hout])
      (fun j => (hU _).smul c (hφ j))
    rw [hni] at hn0 hall
    have hstep := fun r => iqpeIter_eq (hU (2 ^ (n - i))) hout (hφ (n - i)) r
    rw [h2]
    refine ⟨⟨iqpeBit (2 * (2 ^ (n - i) * θ)) :: rs0, by rw [List.length_cons, hl0], fun s => ?_⟩, fun rs hrs => ?_⟩
    · rw [iqpeLoop, hstep, if_pos rfl, ← hc, hn0, norm_mul, hcn, one_mul]
    · obtain ⟨r, rs', rfl⟩ : ∃ r rs', rs = r :: rs' := by
        cases rs with
        | nil => cases hrs
        | cons r rs' => exact ⟨r, rs', rfl⟩
      rw [iqpeLoop, hstep]
      by_cases hr : r = iqpeBit (2 * (2 ^ (n - i) * θ))
      · rw [if_pos hr, ← hc]
        exact hall rs' (by simpa using hrs)
      · rw [if_neg hr]
        right
        exact iqpeLoop_zero q hU n _ _ _

end Verif.Fourier
