import Verif.Sbp.Divide

/-!
# Properties of the division of quantum floats

`ok gs s`: the circuit maps the basis state `s` to `Rev.run gs s` without any phase (`Rev.exec_of_ok`). `qval x s`: the number a
float holds in basis state `s`.
-/

set_option linter.unusedSectionVars false

namespace Verif.Props

open Verif.Rev Verif.Fourier Verif.Sbp

section
variable {Q : Type} [DecidableEq Q]

/-! ### C88: `q_int_div` and `q_divmod` -/

/-- Integer division: quotient and remainder `0 ≤ r < |D|` for every nonzero divisor, signed or not; the operands and all helper
qubits are as before. The numerator has to reach the lowest digit of the divisor (`D.exp ≤ N.top`). -/
theorem C88_int_div_partial (d : Q) {f : DivFresh Q} {N D : QF Q} (hN0 : 0 ≤ N.exp) (hD0 : 0 ≤ D.exp) (hmN : 1 ≤ N.msize)
    (hmD : 1 ≤ D.msize) (hnn : D.exp ≤ N.top) (hf : FreshOk f N D) :
    ∃ res, qIntDiv d f N D = some res ∧ (∀ q ∈ res.quot.reg ++ res.rem.reg, q ∈ f.all) ∧
      (res.quot.reg ++ res.rem.reg).Nodup ∧
      ∀ s, (∀ q ∈ f.all, s q = false) → qval D s ≠ 0 →
        Rev.exec res.gates (s, 0) = some (Rev.run res.gates s, 0) ∧
        (∀ q, q ∉ res.quot.reg ++ res.rem.reg → Rev.run res.gates s q = s q) ∧
        qval N s = qval res.quot (Rev.run res.gates s) * qval D s + qval res.rem (Rev.run res.gates s) ∧
        0 ≤ qval res.rem (Rev.run res.gates s) ∧ qval res.rem (Rev.run res.gates s) < |qval D s| ∧
        ∃ z : ℤ, qval res.quot (Rev.run res.gates s) = z := by
  obtain ⟨res, h1, h2, h3, h4⟩ := qIntDiv_spec d hN0 hD0 hmN hmD hnn hf
  refine ⟨res, h1, h2, h3, fun s hz hD => ?_⟩
  obtain ⟨k1, k2⟩ := h4 s hz (by rintro h; exact hD (by simp [qval, h]))
  exact ⟨exec_of_ok _ _ _ k1, k2⟩

/-- For unsigned operands the quotient is the integer part of the fraction. -/
theorem C88_int_div_floor_partial (d : Q) {f : DivFresh Q} {N D : QF Q} (hN0 : 0 ≤ N.exp) (hD0 : 0 ≤ D.exp) (hmN : 1 ≤ N.msize)
    (hmD : 1 ≤ D.msize) (hnn : D.exp ≤ N.top) (hf : FreshOk f N D) (hu : D.signed = false) :
    ∃ res, qIntDiv d f N D = some res ∧ ∀ s, (∀ q ∈ f.all, s q = false) → qval D s ≠ 0 →
        qval res.quot (Rev.run res.gates s) = ⌊qval N s / qval D s⌋ := by
  obtain ⟨res, h1, -, -, h4⟩ := C88_int_div_partial d hN0 hD0 hmN hmD hnn hf
  refine ⟨res, h1, fun s hz hD => ?_⟩
  obtain ⟨-, -, k1, k2, k3, z, k4⟩ := h4 s hz hD
  have hpos : 0 < qval D s := by
    refine lt_of_le_of_ne ?_ (Ne.symm hD)
    have := (ival_range D s fun h => by rw [hu] at h; exact absurd h (by decide)).1
    rw [hu] at this
    have h' : (0 : ℚ) ≤ ival D s := by exact_mod_cast this
    exact mul_nonneg h' (by positivity)
  rw [abs_of_pos hpos] at k3
  rw [k4] at k1 ⊢
  have : ⌊qval N s / qval D s⌋ = z := by
    rw [Int.floor_eq_iff]
    constructor
    · rw [le_div_iff₀ hpos]; linarith
    · rw [div_lt_iff₀ hpos]; linarith
  rw [this]

/-- `q_divmod`: `N = q D + r` with `0 ≤ r < |D| 2^(-prec)`, hence the quotient is within `2^(-prec)` of the fraction. -/
theorem C88_divmod_partial (d : Q) {f : DivFresh Q} {N D : QF Q} {prec : ℤ} (hp : 0 ≤ N.exp - min N.exp D.exp + prec)
    (hmN : 1 ≤ N.msize) (hmD : 1 ≤ D.msize) (hnn : D.exp ≤ N.top + prec)
    (hf : FreshOk f { N with exp := N.exp + (-min N.exp D.exp + prec) } { D with exp := D.exp + -min N.exp D.exp }) :
    ∃ res, qDivmod d f prec N D = some res ∧ (∀ q ∈ res.quot.reg ++ res.rem.reg, q ∈ f.all) ∧
      (res.quot.reg ++ res.rem.reg).Nodup ∧
      ∀ s, (∀ q ∈ f.all, s q = false) → qval D s ≠ 0 →
        Rev.exec res.gates (s, 0) = some (Rev.run res.gates s, 0) ∧
        (∀ q, q ∉ res.quot.reg ++ res.rem.reg → Rev.run res.gates s q = s q) ∧
        qval N s = qval res.quot (Rev.run res.gates s) * qval D s + qval res.rem (Rev.run res.gates s) ∧
        0 ≤ qval res.rem (Rev.run res.gates s) ∧ qval res.rem (Rev.run res.gates s) < |qval D s| * 2 ^ (-prec) ∧
        |qval res.quot (Rev.run res.gates s) - qval N s / qval D s| < 2 ^ (-prec) := by
  obtain ⟨r, h1, h2, h3, h4⟩ := qIntDiv_spec d (N := { N with exp := N.exp + (-min N.exp D.exp + prec) })
    (D := { D with exp := D.exp + -min N.exp D.exp }) (f := f) (by simp only; omega) (by simp only; omega) hmN hmD
    (by unfold QF.top at hnn ⊢; simp only [msize_exp]; omega) hf
  refine ⟨⟨r.gates, ⟨r.quot.reg, r.quot.exp - prec, r.quot.signed⟩, ⟨r.rem.reg, r.rem.exp - (-min N.exp D.exp + prec), r.rem.signed⟩⟩,
    by unfold qDivmod; simp only; rw [h1]; rfl, h2, h3, fun s hz hD => ?_⟩
  obtain ⟨k1, k2, k3, k4, k5, -⟩ := h4 s hz (by rintro h; exact hD (by
    have h' : ival D s = 0 := h
    simp [qval, h']))
  set s' := Rev.run r.gates s with hs'
  have e1 : ∀ (x : QF Q) (u : St Q) (k : ℤ), qval (⟨x.reg, x.exp + k, x.signed⟩ : QF Q) u = qval x u * 2 ^ k := by
    intro x u k
    unfold qval
    rw [zpow_add₀ two_ne_zero, mul_assoc]
    rfl
  have e2 : ∀ (x : QF Q) (u : St Q) (k : ℤ), qval (⟨x.reg, x.exp - k, x.signed⟩ : QF Q) u = qval x u * 2 ^ (-k) := by
    intro x u k
    rw [sub_eq_add_neg, e1]
  rw [e1, e1] at k3
  rw [e1] at k5
  set a := -min N.exp D.exp with ha
  have pa : (0 : ℚ) < 2 ^ a := by positivity
  have pp : (0 : ℚ) < 2 ^ prec := by positivity
  have m1 : (2 : ℚ) ^ (-(a + prec)) * 2 ^ (a + prec) = 1 := by rw [← zpow_add₀ two_ne_zero]; simp
  have m2 : (2 : ℚ) ^ (-prec) * 2 ^ a = 2 ^ a * 2 ^ (-prec) := mul_comm _ _
  have m3 : (2 : ℚ) ^ (-(a + prec)) * 2 ^ a = 2 ^ (-prec) := by rw [← zpow_add₀ two_ne_zero]; congr 1; ring
  have pn : (0 : ℚ) < 2 ^ (-(a + prec)) := by positivity
  have pq : (0 : ℚ) < 2 ^ (-prec) := by positivity
  show Rev.exec r.gates (s, 0) = some (s', 0) ∧ (∀ q, q ∉ r.quot.reg ++ r.rem.reg → s' q = s q) ∧
    qval N s = qval ⟨r.quot.reg, r.quot.exp - prec, r.quot.signed⟩ s' * qval D s + qval ⟨r.rem.reg, r.rem.exp - (a + prec), r.rem.signed⟩ s' ∧
    0 ≤ qval ⟨r.rem.reg, r.rem.exp - (a + prec), r.rem.signed⟩ s' ∧
    qval ⟨r.rem.reg, r.rem.exp - (a + prec), r.rem.signed⟩ s' < |qval D s| * 2 ^ (-prec) ∧
    |qval ⟨r.quot.reg, r.quot.exp - prec, r.quot.signed⟩ s' - qval N s / qval D s| < 2 ^ (-prec)
  rw [e2, e2]
  have hN : qval N s = qval r.quot s' * 2 ^ (-prec) * qval D s + qval r.rem s' * 2 ^ (-(a + prec)) := by
    have := congrArg (· * (2 : ℚ) ^ (-(a + prec))) k3
    simp only [mul_assoc, add_mul] at this
    rw [mul_comm ((2 : ℚ) ^ (a + prec)), m1, mul_one, mul_comm ((2 : ℚ) ^ a), m3] at this
    rw [this]
    ring
  have hR : qval r.rem s' * 2 ^ (-(a + prec)) < |qval D s| * 2 ^ (-prec) := by
    rw [abs_mul, abs_of_pos pa] at k5
    have := mul_lt_mul_of_pos_right k5 pn
    rw [mul_assoc, mul_comm ((2 : ℚ) ^ a), m3] at this
    exact this
  have hR0 : 0 ≤ qval r.rem s' * 2 ^ (-(a + prec)) := mul_nonneg k4 pn.le
  refine ⟨exec_of_ok _ _ _ k1, k2, hN, hR0, hR, ?_⟩
  have hab : 0 < |qval D s| := abs_pos.2 hD
  have : qval r.quot s' * 2 ^ (-prec) - qval N s / qval D s = -(qval r.rem s' * 2 ^ (-(a + prec)) / qval D s) := by
    rw [hN]; field_simp; ring
  rw [this, abs_neg, abs_div, abs_of_nonneg hR0, div_lt_iff₀ hab, mul_comm ((2 : ℚ) ^ (-prec))]
  exact hR

/-- Operands with digits after the point raise in `q_int_div`. -/
theorem C88_int_div_raises (d : Q) (f : DivFresh Q) (N D : QF Q) (h : N.exp < 0 ∨ D.exp < 0) : qIntDiv d f N D = none := by
  unfold qIntDiv
  rw [if_pos h]

end

/-- Fresh qubits for the examples. -/
private def fr : DivFresh ℕ :=
  ⟨100, 101, (List.range 16).map (· + 200), 102, (List.range 16).map (· + 300), 103, (List.range 16).map (· + 400), 104⟩

/-- The numerator `QuantumFloat(1)` ends below the lowest digit of the divisor `QuantumFloat(1, 2)`: 1 divided by 4 gives quotient 1
and remainder 3. -/
theorem C88_short_numerator_wrong : ∃ res, qDivmod 0 fr 0 (⟨[0], 0, false⟩ : QF ℕ) ⟨[1], 2, false⟩ = some res ∧
    let s : St ℕ := fun q => decide (q ∈ [0, 1])
    qval (⟨[0], 0, false⟩ : QF ℕ) s = 1 ∧ qval (⟨[1], 2, false⟩ : QF ℕ) s = 4 ∧
      qval res.quot (Rev.run res.gates s) = 1 ∧ qval res.rem (Rev.run res.gates s) = 3 :=
  ⟨_, rfl, by decide +kernel⟩

/-- The hypotheses of the theorem hold for the formats of 10 / 8. -/
example : FreshOk fr (⟨[0, 1, 2, 3], 1, false⟩ : QF ℕ) ⟨[4, 5, 6, 7], 0, false⟩ :=
  ⟨by decide, by decide, by decide, by decide⟩

/-- 10 / 8 with precision 1: quotient 1, remainder 2. -/
example : ∃ res, qDivmod 0 fr 1 (⟨[0, 1, 2, 3], 0, false⟩ : QF ℕ) ⟨[4, 5, 6, 7], 0, false⟩ = some res ∧
    let s : St ℕ := fun q => decide (q ∈ [1, 3, 7])
    qval (⟨[0, 1, 2, 3], 0, false⟩ : QF ℕ) s = 10 ∧ qval (⟨[4, 5, 6, 7], 0, false⟩ : QF ℕ) s = 8 ∧
      qval res.quot (Rev.run res.gates s) = 1 ∧ qval res.rem (Rev.run res.gates s) = 2 :=
  ⟨_, rfl, by decide +kernel⟩

/-- -7 / 2 = -4 remainder 1. -/
example : ∃ res, qDivmod 0 fr 0 (⟨[0, 1, 2, 3], 0, true⟩ : QF ℕ) ⟨[4, 5], 0, false⟩ = some res ∧
    let s : St ℕ := fun q => decide (q ∈ [0, 3, 5])
    qval (⟨[0, 1, 2, 3], 0, true⟩ : QF ℕ) s = -7 ∧ qval (⟨[4, 5], 0, false⟩ : QF ℕ) s = 2 ∧
      qval res.quot (Rev.run res.gates s) = -4 ∧ qval res.rem (Rev.run res.gates s) = 1 :=
  ⟨_, rfl, by decide +kernel⟩

/-- 7 / (-2) = -3 remainder 1. -/
example : ∃ res, qDivmod 0 fr 0 (⟨[0, 1, 2], 0, false⟩ : QF ℕ) ⟨[4, 5, 6], 0, true⟩ = some res ∧
    let s : St ℕ := fun q => decide (q ∈ [0, 1, 2, 5, 6])
    qval (⟨[0, 1, 2], 0, false⟩ : QF ℕ) s = 7 ∧ qval (⟨[4, 5, 6], 0, true⟩ : QF ℕ) s = -2 ∧
      qval res.quot (Rev.run res.gates s) = -3 ∧ qval res.rem (Rev.run res.gates s) = 1 :=
  ⟨_, rfl, by decide +kernel⟩

end Verif.Props
