import Verif.Sbp.InplAdd

/-!
# Properties of the ripple-carry adders

`Steps gs step`: the gates map every basis state `s` to `step s`, coherently. `valL l s`: the number of a list of qubits, least
significant first.
-/

namespace Verif.Props

open Verif.Rev Verif.Fourier Verif.Sbp

section
variable {Q : Type} [DecidableEq Q]

/-! ### C86: the Thapliyal adder -/

/-- Two lists of at least two qubits: the second list becomes the sum, `out` is flipped by the carry, nothing else changes and
there are no phases; the gates are those of `TR_gate`, CNOT and Toffoli. -/
theorem C86_thapliyal_partial {l1 l2 : List Q} {out : Q} (hl : l1.length = l2.length) (h2 : 2 ≤ l1.length)
    (hn : (out :: (l1 ++ l2)).Nodup) :
    ∃ os, thapliyal l1 l2 out = some os ∧ ∃ step, Steps (os.flatMap TOp.four) step ∧ ∀ s,
      valL l2 (step s) = (valL l1 s + valL l2 s) % 2 ^ l1.length ∧
      step s out = (s out ^^ decide (2 ^ l1.length ≤ valL l1 s + valL l2 s)) ∧
      ∀ q, q ∉ l2 → q ≠ out → step s q = s q := by
  obtain ⟨os, h1, hwf, hs⟩ := thapliyal_spec hl h2 hn
  refine ⟨os, h1, _, steps_tops hwf, fun s => ?_⟩
  obtain ⟨hf, hv⟩ := hs s
  have hb := valL_lt l2 (Rev.run (os.flatMap TOp.rev) s)
  rw [← hl] at hb
  refine ⟨?_, ?_, hf⟩
  · rw [← hv, Nat.add_mul_mod_self_left, Nat.mod_eq_of_lt hb]
  · rw [← hv]
    cases h : Rev.run (os.flatMap TOp.rev) s out <;> cases h' : s out <;> rw [h, h'] at hv <;> simp [hb]

/-- One qubit each: the carry is wrong. The output is flipped by `a ∧ ¬ b` instead of `a ∧ b`. -/
theorem C86_one_qubit_wrong {a b out : Q} (h1 : a ≠ b) (h2 : a ≠ out) (h3 : b ≠ out) :
    ∃ os, thapliyal [a] [b] out = some os ∧ ∃ step, Steps (os.flatMap TOp.four) step ∧ ∀ s,
      step s out = (s out ^^ (s a && !s b)) ∧ step s b = (s a ^^ s b) ∧ ∀ q, q ≠ b → q ≠ out → step s q = s q := by
  refine ⟨_, rfl, _, steps_tops ?_, fun s => ?_⟩
  · simp [thapOps, TOp.wf, h1, h2, h3]
  · have e : Rev.run ((thapOps (fun i => [a].getD i out) (fun i => [b].getD i out) 1 out).flatMap TOp.rev) s =
        upd (upd (upd s out (s out ^^ s a)) out (s out ^^ s a ^^ (s a && s b))) b (s b ^^ s a) := by
      simp [thapOps, TOp.rev, Rev.run, Gate.app, Rev.cx, Rev.ccx, fire, upd_ne h1, upd_ne h2, upd_ne h3]
    have e' : Rev.run ((thapOps (fun i => [a].getD i out) (fun i => [b].getD i out) [a].length out).flatMap TOp.rev) s = _ := e
    rw [e']
    refine ⟨?_, ?_, fun q hq1 hq2 => ?_⟩
    · rw [upd_ne (Ne.symm h3), upd_same]
      cases s a <;> cases s b <;> simp
    · rw [upd_same]; cases s a <;> cases s b <;> rfl
    · rw [upd_ne hq1, upd_ne hq2, upd_ne hq2]

/-- Lists of unequal length and empty lists raise. -/
theorem C86_raises {l1 l2 : List Q} {out : Q} : thapliyal l1 l2 out = none ↔ l1.length ≠ l2.length ∨ l1 = [] := by
  unfold thapliyal
  by_cases h : l1.length ≠ l2.length
  · simp [h]
  · rw [if_neg h, or_iff_right h, ← List.length_eq_zero_iff]
    by_cases h' : l1.length = 0 <;> simp [h']

end

/-- 3 + 2 = 5 on two qubits with carry. -/
example : ∃ os, thapliyal [(0 : Fin 5), 1] [2, 3] 4 = some os ∧
    let s := Rev.run (os.flatMap TOp.rev) fun q => decide (q = 0 ∨ q = 1 ∨ q = 3)
    valL [(2 : Fin 5), 3, 4] s = 5 := ⟨_, rfl, by decide +kernel⟩

/-! ### C87: `inpl_add` -/

section
variable {Q : Type} [DecidableEq Q]

/-- `inpl_add(x, y)` adds to `x` the number in `y`, rounded down to the resolution of `x`, modulo the range of `x`; everything
else, the ancillas included, is unchanged. `AddFits`: rounding and overflow are excluded or ignored (overflow only for
unsigned `x`), `y` is signed only if `x` is, and at least three qubits of `x` (the sign included) take part. -/
theorem C87_inpl_add_partial (d : Q) {igR igO : Bool} {anc : List Q} {anc2 : Q} {x y : QF Q} (h : AddFits igR igO x y)
    (hanc : (x.top - y.top).toNat ≤ anc.length) (hn : (x.reg ++ (y.reg ++ anc ++ [anc2])).Nodup) :
    ∃ os, inplAdd igR igO d anc anc2 x y = some os ∧ ∃ step, Steps (os.flatMap TOp.four) step ∧
      ∀ s, (∀ q ∈ anc ++ [anc2], s q = false) →
        (∀ q, q ∉ x.reg → step s q = s q) ∧
        ∃ j : ℤ, qval x (step s) = qval x s + ⌊qval y s / 2 ^ x.exp⌋ * 2 ^ x.exp + 2 ^ x.reg.length * 2 ^ x.exp * j := by
  obtain ⟨os, h1, hwf, hs⟩ := inplAdd_spec d h hanc hn
  refine ⟨os, h1, _, steps_tops hwf, fun s hz => ?_⟩
  obtain ⟨hf, j, hj⟩ := hs s hz
  refine ⟨hf, ?_⟩
  obtain ⟨j1, h1⟩ := ival_mod x s
  obtain ⟨j2, h2⟩ := ival_mod x (Rev.run (os.flatMap TOp.rev) s)
  have hfl : ⌊qval y s / 2 ^ x.exp⌋ = ival y s / 2 ^ (x.exp - y.exp).toNat * 2 ^ (y.exp - x.exp).toNat := by
    unfold qval
    rw [mul_div_assoc, ← zpow_sub₀ two_ne_zero]
    rcases le_total x.exp y.exp with hxy | hxy
    · rw [show (x.exp - y.exp).toNat = 0 by omega, pow_zero, Int.ediv_one,
        show (ival y s : ℚ) * 2 ^ (y.exp - x.exp) = ((ival y s * 2 ^ (y.exp - x.exp).toNat : ℤ) : ℚ) by
          push_cast
          rw [← zpow_natCast, Int.toNat_of_nonneg (by omega)]]
      exact Int.floor_intCast _
    · rw [show (y.exp - x.exp).toNat = 0 by omega, pow_zero, mul_one,
        show (ival y s : ℚ) * 2 ^ (y.exp - x.exp) = (ival y s : ℚ) / ((2 ^ (x.exp - y.exp).toNat : ℕ) : ℚ) by
          push_cast
          rw [← zpow_natCast, Int.toNat_of_nonneg (by omega), show y.exp - x.exp = -(x.exp - y.exp) by ring, zpow_neg,
            div_eq_mul_inv]]
      rw [Rat.floor_intCast_div_natCast]
      push_cast
      rfl
  refine ⟨j + j2 - j1, ?_⟩
  rw [hfl]
  unfold qval
  rw [h2, h1, hj]
  push_cast
  ring

/-- If the sum is a number of the range of `x` with a fine enough resolution, it is computed exactly. -/
theorem C87_inpl_add_exact_partial (d : Q) {igR igO : Bool} {anc : List Q} {anc2 : Q} {x y : QF Q} (h : AddFits igR igO x y)
    (hanc : (x.top - y.top).toNat ≤ anc.length) (hn : (x.reg ++ (y.reg ++ anc ++ [anc2])).Nodup) (he : x.exp ≤ y.exp) :
    ∃ os, inplAdd igR igO d anc anc2 x y = some os ∧ ∃ step, Steps (os.flatMap TOp.four) step ∧
      ∀ s, (∀ q ∈ anc ++ [anc2], s q = false) →
        (if x.signed then -(2 ^ x.top : ℚ) else 0) ≤ qval x s + qval y s → qval x s + qval y s < 2 ^ x.top →
        qval x (step s) = qval x s + qval y s := by
  obtain ⟨os, h1, step, h2, h3⟩ := C87_inpl_add_partial d h hanc hn
  refine ⟨os, h1, step, h2, fun s hz hlo hhi => ?_⟩
  obtain ⟨-, j, hj⟩ := h3 s hz
  have hfl : (⌊qval y s / 2 ^ x.exp⌋ : ℚ) * 2 ^ x.exp = qval y s := by
    have : qval y s / 2 ^ x.exp = ((ival y s * 2 ^ (y.exp - x.exp).toNat : ℤ) : ℚ) := by
      unfold qval
      rw [mul_div_assoc, ← zpow_sub₀ two_ne_zero]
      push_cast
      rw [← zpow_natCast, Int.toNat_of_nonneg (by omega)]
    rw [this, Int.floor_intCast, ← this]
    field_simp
  rw [hfl] at hj
  obtain ⟨r1, r2⟩ := ival_range x (step s) h.xne
  have hp : (0 : ℚ) < 2 ^ x.exp := by positivity
  have htop : (2 : ℚ) ^ x.top = 2 ^ x.msize * 2 ^ x.exp := by
    unfold QF.top
    rw [zpow_add₀ two_ne_zero, zpow_natCast, mul_comm]
  have hr2 : qval x (step s) < 2 ^ x.top := by
    rw [htop]
    have : (ival x (step s) : ℚ) < 2 ^ x.msize := by exact_mod_cast r2
    exact mul_lt_mul_of_pos_right this hp
  have hr1 : (if x.signed then -(2 ^ x.top : ℚ) else 0) ≤ qval x (step s) := by
    cases hs : x.signed
    · rw [hs] at r1
      simp only [Bool.false_eq_true, if_false] at r1 ⊢
      have : (0 : ℚ) ≤ ival x (step s) := by exact_mod_cast r1
      exact mul_nonneg this hp.le
    · rw [hs] at r1
      simp only [if_true] at r1 ⊢
      have : -(2 ^ x.msize : ℚ) ≤ ival x (step s) := by exact_mod_cast r1
      rw [htop, ← neg_mul]
      exact mul_le_mul_of_nonneg_right this hp.le
  have hwid : (2 : ℚ) ^ x.reg.length * 2 ^ x.exp = 2 ^ x.top - (if x.signed then -(2 ^ x.top : ℚ) else 0) := by
    cases hs : x.signed
    · rw [htop, msize_unsigned hs]; simp
    · rw [htop, (reg_split d hs (h.xne hs)).2.2, pow_succ]; simp; ring
  rw [hwid] at hj
  generalize (if x.signed then -(2 ^ x.top : ℚ) else 0) = lo at *
  generalize (2 : ℚ) ^ x.top = hi at *
  have hj0 : j = 0 := by
    by_contra hne
    rcases lt_or_gt_of_ne hne with hlt | hgt
    · have : (j : ℚ) ≤ -1 := by exact_mod_cast (show j ≤ -1 by omega)
      nlinarith
    · have : (1 : ℚ) ≤ j := by exact_mod_cast hgt
      nlinarith
  rw [hj, hj0]
  simp

end

section
/-- 0 + 1 = 3 for `QuantumFloat(2)`: with two qubits the carry bug of the Thapliyal adder shows. -/
theorem C87_two_qubits_wrong : ∃ os, inplAdd false false 0 [] 9 (⟨[0, 1], 0, false⟩ : QF ℕ) ⟨[2, 3], 0, false⟩ = some os ∧
    ∃ step, Steps (os.flatMap TOp.four) step ∧ ∃ s, s 9 = false ∧ qval (⟨[0, 1], 0, false⟩ : QF ℕ) s = 0 ∧
      qval (⟨[2, 3], 0, false⟩ : QF ℕ) s = 1 ∧ qval (⟨[0, 1], 0, false⟩ : QF ℕ) (step s) = 3 := by
  refine ⟨[.cx 2 1, .tr 2 0 1, .cx 3 1], by decide +kernel, _, steps_tops (by decide +kernel), fun q => decide (q = 2), by decide,
    ?_, ?_, ?_⟩ <;> decide +kernel

/-- One qubit each: an exception. -/
theorem C87_one_qubit_raises : inplAdd false false 0 [] 9 (⟨[0], 0, false⟩ : QF ℕ) ⟨[1], 0, false⟩ = none := by decide +kernel

/-- Formats without a common digit: an exception. -/
theorem C87_disjoint_raises {Q : Type} [DecidableEq Q] (igR igO : Bool) (d : Q) (anc : List Q) (anc2 : Q) (x y : QF Q)
    (h : min x.top y.top < max x.exp y.exp) : inplAdd igR igO d anc anc2 x y = none := by
  unfold inplAdd
  split_ifs <;> rfl

/-- A signed summand into an unsigned target: an exception. -/
theorem C87_signed_into_unsigned_raises {Q : Type} [DecidableEq Q] (igR igO : Bool) (d : Q) (anc : List Q) (anc2 : Q)
    (x y : QF Q) (hx : x.signed = false) (hy : y.signed = true) : inplAdd igR igO d anc anc2 x y = none := by
  unfold inplAdd
  split_ifs with _ _ _ h
  · rfl
  · rfl
  · rfl
  · rfl
  · exact absurd ⟨hy, hx⟩ h

/-- With `ignore_overflow_error` a signed target is not computed modulo its range: in the range -4 … 3 the sum 0 + 4 becomes
0 instead of -4. -/
theorem C87_signed_overflow_wrong :
    ∃ os, inplAdd false true 0 [] 9 (⟨[0, 1, 2], 0, true⟩ : QF ℕ) ⟨[3, 4, 5, 6], 0, true⟩ = some os ∧
    ∃ step, Steps (os.flatMap TOp.four) step ∧ ∃ s, s 9 = false ∧ qval (⟨[0, 1, 2], 0, true⟩ : QF ℕ) s = 0 ∧
      qval (⟨[3, 4, 5, 6], 0, true⟩ : QF ℕ) s = 4 ∧ qval (⟨[0, 1, 2], 0, true⟩ : QF ℕ) (step s) = 0 := by
  refine ⟨_, rfl, _, steps_tops (by decide +kernel), fun q => decide (q = 5), by decide, ?_, ?_, ?_⟩ <;> decide +kernel

/-- The format with 4 + 1 qubits accepts summands with 2 + 1 qubits of the same resolution. -/
example : AddFits false false (⟨[0, 1, 2, 3, 4], -1, true⟩ : QF ℕ) ⟨[5, 6, 7], -1, true⟩ :=
  ⟨by decide, by decide, by decide, by decide, by decide, by decide, by decide⟩

/-- 3 + (-1/2) = 5/2. -/
example : ∃ os, inplAdd false false 0 [8, 9] 10 (⟨[0, 1, 2, 3, 4], -1, true⟩ : QF ℕ) ⟨[5, 6, 7], -1, true⟩ = some os ∧
    let s : St ℕ := fun q => decide (q ∈ [1, 2, 5, 6, 7])
    qval (⟨[0, 1, 2, 3, 4], -1, true⟩ : QF ℕ) s = 3 ∧ qval (⟨[5, 6, 7], -1, true⟩ : QF ℕ) s = -1 / 2 ∧
    qval (⟨[0, 1, 2, 3, 4], -1, true⟩ : QF ℕ) (Rev.run (os.flatMap TOp.rev) s) = 5 / 2 :=
  ⟨_, rfl, by decide +kernel⟩
end

end Verif.Props
