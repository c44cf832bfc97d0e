import Verif.Sbp.Equal
import Verif.Props.Types

/-!
# Properties of the comparisons of quantum floats
-/

namespace Verif.Props

open Verif.Rev Verif.Fourier Verif.Sbp

variable {Q : Type} [DecidableEq Q]

/-! ### C84: order comparisons -/

/-- `<`, `>`, `<=`, `>=` of quantum floats of any sizes, exponents and signs, and of a quantum float and a number, in either
order: the new quantum bool gets the truth value of the comparison, nothing else changes, and the helper qubits are
returned to 0. -/
theorem C84_compare {f : List Q → St Q → ℂ} (hf : ∀ cs s, f cs s ≠ 0) {d anc res : Q} {a b : Operand Q} (op : Cmp)
    (hq : ∀ c e, ¬ (a = .num c ∧ b = .num e))
    (hs : ∀ y, a = .qf y ∨ b = .qf y → y.signed = true → y.reg ≠ []) :
    ∃ N, ∀ fresh, N ≤ fresh.length → (anc :: res :: (a.qubits ++ b.qubits) ++ fresh).Nodup →
      ∃ os, op.gates f d anc res fresh a b = some os ∧ ∃ step, MapsTo anc os step ∧
        ∀ s, (∀ q ∈ fresh, s q = false) → s res = false →
          step s = upd s res (decide (op.holds (a.val s) (b.val s))) := by
  have hswap : ∀ fresh, (anc :: res :: (a.qubits ++ b.qubits) ++ fresh).Nodup →
      (anc :: res :: (b.qubits ++ a.qubits) ++ fresh).Nodup := fun fresh h =>
    (List.Perm.nodup_iff (by
      refine List.Perm.append_right _ (List.Perm.cons _ (List.Perm.cons _ ?_))
      exact List.perm_append_comm)).1 h
  have har : ∀ fresh, (anc :: res :: (a.qubits ++ b.qubits) ++ fresh).Nodup → anc ≠ res := fun fresh h e =>
    (List.nodup_cons.1 h).1 (by rw [e]; simp)
  obtain ⟨N1, H1⟩ := lessThan_spec hf (d := d) (anc := anc) (res := res) hq hs
  obtain ⟨N2, H2⟩ := lessThan_spec hf (d := d) (anc := anc) (res := res) (a := b) (b := a) (fun c e h => hq e c h.symm)
    (fun y h => hs y h.symm)
  refine ⟨N1 + N2, fun fresh hN hn => ?_⟩
  obtain ⟨o1, e1, t1, M1, P1⟩ := H1 fresh (by omega) hn
  obtain ⟨o2, e2, t2, M2, P2⟩ := H2 fresh (by omega) (hswap fresh hn)
  have X := mapsTo_x (anc := anc) (t := res) (har fresh hn)
  cases op
  · exact ⟨o1, e1, t1, M1, P1⟩
  · exact ⟨o2, e2, t2, M2, P2⟩
  · refine ⟨o1 ++ [xGate res], by rw [Cmp.gates, e1]; rfl, _, MapsTo.append M1 X, fun s hz hr => ?_⟩
    show upd (t1 s) res (!(t1 s) res) = _
    rw [P1 s hz hr]
    refine upd_not ?_
    rw [← decide_not, decide_eq_decide]
    exact not_lt.symm
  · refine ⟨o2 ++ [xGate res], by rw [Cmp.gates, e2]; rfl, _, MapsTo.append M2 X, fun s hz hr => ?_⟩
    show upd (t2 s) res (!(t2 s) res) = _
    rw [P2 s hz hr]
    refine upd_not ?_
    rw [← decide_not, decide_eq_decide]
    exact not_lt.symm

/-- `QuantumFloat(2, -1, signed=True)` holding −1/2 compared with `QuantumFloat(3)` holding 5, and with the number 1/3,
which is not a value of the float. -/
example :
    let a : QF ℕ := { reg := [2, 3, 4], exp := -1, signed := true }
    let b : QF ℕ := { reg := [5, 6, 7], exp := 0, signed := false }
    let s : St ℕ := fun q => q ∈ [2, 3, 4, 5, 7]
    qval a s = -1 / 2 ∧ qval b s = 5 ∧ Cmp.lt.holds ((Operand.qf a).val s) ((Operand.qf b).val s) ∧
      nextLabel (1 / 3) (labels a) = some (1 / 2) := by
  refine ⟨by norm_num [qval, ival, valL], by norm_num [qval, ival, valL], ?_, ?_⟩
  · show qval _ _ < qval _ _
    norm_num [qval, ival, valL]
  · have : labels ({ reg := [2, 3, 4], exp := -1, signed := true } : QF ℕ) =
        [-2, -3 / 2, -1, -1 / 2, 0, 1 / 2, 1, 3 / 2] := by decide +kernel
    rw [this]
    norm_num [nextLabel]

/-! ### C85: equality -/

/-- The pairs of floats for which `==` is right: one of them is unsigned and the other does not end below it (or so far
below that the wrapped slice is complete), or both are signed and have their sign at the same significance. -/
inductive EqOk : QF Q → QF Q → Prop
  | unsigned {a b : QF Q} (h : b.signed = false)
      (g : b.exp ≤ a.exp + a.msize ∨ a.exp + a.msize - b.exp + b.reg.length ≤ 0) : EqOk a b
  | swapped {a b : QF Q} (ha : a.signed = false) (hb : b.signed = true)
      (g : a.exp ≤ b.exp + b.msize ∨ b.exp + b.msize - a.exp + a.reg.length ≤ 0) : EqOk a b
  | signed {a b : QF Q} (ha : a.signed = true) (hb : b.signed = true) (h : a.exp + a.msize = b.exp + b.msize) : EqOk a b

theorem eq_unsigned {d : Q} {x y : QF Q} (hx : x.signed = true → x.reg ≠ []) (h : y.signed = false) (s : St Q) :
    (sgn d x s = sgn d y s ∧ (mant x s : ℚ) * 2 ^ x.exp = mant y s * 2 ^ y.exp) ↔ qval x s = qval y s := by
  have hy : sgn d y s = false := by unfold sgn; rw [h]; rfl
  rw [qval_mant d hx, qval_mant d (fun h' => by rw [h] at h'; cases h'), hy]
  have h1 := mant_top x s
  have h2 := mant_nonneg y s
  cases hs : sgn d x s
  · simp
  · simp only [if_true, Bool.false_eq_true, if_false, false_and, false_iff, sub_zero, Bool.true_eq_false]
    intro h
    linarith

theorem eq_signed {d : Q} {x y : QF Q} (hx : x.signed = true → x.reg ≠ []) (hy : y.signed = true → y.reg ≠ [])
    (h : x.exp + x.msize = y.exp + y.msize) (s : St Q) :
    (sgn d x s = sgn d y s ∧ (mant x s : ℚ) * 2 ^ x.exp = mant y s * 2 ^ y.exp) ↔ qval x s = qval y s := by
  rw [qval_mant d hx, qval_mant d hy, h]
  have h1 := mant_top x s
  have h2 := mant_nonneg y s
  have h3 := mant_top y s
  have h4 := mant_nonneg x s
  rw [h] at h1
  cases hs : sgn d x s <;> cases hs' : sgn d y s
  · simp
  · simp only [if_true, Bool.false_eq_true, if_false, false_and, false_iff, sub_zero]
    intro h
    linarith
  · simp only [if_true, Bool.false_eq_true, if_false, false_and, false_iff, sub_zero, Bool.true_eq_false]
    intro h
    linarith
  · simp

/-- Full statement (false, see `C85_equal_wrong`): the circuit of `==` computes the equality for all pairs of quantum
floats. Proved for the pairs `EqOk`. -/
theorem C85_equal_partial {d res : Q} {a b : QF Q} (hn : (res :: a.reg ++ b.reg).Nodup)
    (ha : a.signed = true → a.reg ≠ []) (hb : b.signed = true → b.reg ≠ []) (h : EqOk a b) (s : St Q) :
    run (equalQ d res a b) s = upd s res (s res ^^ decide (qval a s = qval b s)) := by
  unfold equalQ
  cases h with
  | unsigned h g =>
    rw [if_neg (by rw [h]; simp), eqOrdered_spec hn (fun h' => by rw [h] at h'; cases h') ha hb
      ⟨g, fun h' => by rw [h] at h'; cases h'⟩]
    rw [decide_eq_decide.2 (eq_unsigned ha h s)]
  | swapped h1 h2 g =>
    have hn' : (res :: b.reg ++ a.reg).Nodup := (List.Perm.nodup_iff (List.Perm.cons _ List.perm_append_comm)).1 hn
    rw [if_pos (by rw [h1, h2]; rfl), eqOrdered_spec hn' (fun _ => h2) hb ha
      ⟨g, fun h' => by rw [h1] at h'; cases h'⟩]
    rw [decide_eq_decide.2 ((eq_unsigned hb h1 s).trans eq_comm)]
  | signed h1 h2 h =>
    rw [if_neg (by rw [h1]; simp), eqOrdered_spec hn (fun _ => h1) ha hb ⟨Or.inl (by omega), fun _ => by omega⟩]
    rw [decide_eq_decide.2 (eq_signed ha hb h s)]

/-- Two signed floats whose signs have different significance: the circuit compares signs and mantissas. If both values
are nonnegative, or exactly one is negative, this is the equality; if both are negative, the circuit never says that
equal values are equal. -/
theorem C85_equal_signed {d res : Q} {a b : QF Q} (hn : (res :: a.reg ++ b.reg).Nodup) (ha : a.signed = true)
    (hb : b.signed = true) (ha' : a.reg ≠ []) (hb' : b.reg ≠ []) (h1 : b.exp ≤ a.exp + a.msize)
    (h2 : a.exp ≤ b.exp + b.msize) (ht : a.exp + a.msize ≠ b.exp + b.msize) (s : St Q) :
    ∃ w, run (equalQ d res a b) s = upd s res (s res ^^ w) ∧
      (0 ≤ qval a s ∨ 0 ≤ qval b s → w = decide (qval a s = qval b s)) ∧
      (qval a s < 0 → qval b s < 0 → qval a s = qval b s → w = false) := by
  unfold equalQ
  rw [if_neg (by rw [ha]; simp), eqOrdered_spec hn (fun _ => ha) (fun _ => ha') (fun _ => hb')
    ⟨Or.inl h1, fun _ => h2⟩]
  refine ⟨_, rfl, ?_, ?_⟩
  all_goals rw [qval_mant d (fun _ => ha'), qval_mant d (fun _ => hb')]
  all_goals have g1 := mant_top a s
  all_goals have g2 := mant_top b s
  all_goals have g3 := mant_nonneg a s
  all_goals have g4 := mant_nonneg b s
  · intro h
    rw [decide_eq_decide]
    cases hs : sgn d a s <;> cases hs' : sgn d b s
    · simp
    · simp only [if_true, Bool.false_eq_true, if_false, false_and, false_iff, sub_zero]
      intro h
      linarith
    · simp only [if_true, Bool.false_eq_true, if_false, false_and, false_iff, sub_zero, Bool.true_eq_false]
      intro h
      linarith
    · rw [hs, hs'] at h
      simp only [if_true] at h
      rcases h with h | h <;> linarith
  · intro k1 k2 k3
    rw [decide_eq_false_iff_not]
    rintro ⟨h3, h4⟩
    cases hs : sgn d a s <;> rw [hs] at k1 k3 h3
    · simp at k1; linarith
    · rw [← h3, h4] at k3
      simp only [if_true] at k3
      have : (2 : ℚ) ^ (a.exp + a.msize) = 2 ^ (b.exp + b.msize) := by linarith
      exact ht (zpow_right_injective₀ (by norm_num) (by norm_num) this)

/-- The equality fails: −1 in `QuantumFloat(2, signed=True)` is not equal to −1 in `QuantumFloat(3, signed=True)`; −1 in
`QuantumFloat(1, signed=True)` is equal to −3 in `QuantumFloat(2, signed=True)`; 0 in `QuantumFloat(2, -5)` is equal to 1
in `QuantumFloat(4)`. -/
theorem C85_equal_wrong :
    (let a : QF ℕ := { reg := [1, 2, 3], exp := 0, signed := true }
     let b : QF ℕ := { reg := [4, 5, 6, 7], exp := 0, signed := true }
     let s : St ℕ := fun q => decide (q ≠ 0)
     qval a s = -1 ∧ qval b s = -1 ∧ run (equalQ 9 0 a b) s 0 = false) ∧
    (let a : QF ℕ := { reg := [1, 2], exp := 0, signed := true }
     let b : QF ℕ := { reg := [3, 4, 5], exp := 0, signed := true }
     let s : St ℕ := fun q => decide (q ≠ 0 ∧ q ≠ 4)
     qval a s = -1 ∧ qval b s = -3 ∧ run (equalQ 9 0 a b) s 0 = true) ∧
    (let a : QF ℕ := { reg := [1, 2], exp := -5, signed := false }
     let b : QF ℕ := { reg := [3, 4, 5, 6], exp := 0, signed := false }
     let s : St ℕ := fun q => decide (q = 3)
     qval a s = 0 ∧ qval b s = 1 ∧ run (equalQ 9 0 a b) s 0 = true) := by
  decide +kernel

/-- `QuantumFloat(2, -1)` holding 3/2 against `QuantumFloat(3, -2, signed=True)` holding 3/2 and 7/4. -/
example :
    let a : QF ℕ := { reg := [1, 2], exp := -1, signed := false }
    let b : QF ℕ := { reg := [3, 4, 5, 6], exp := -2, signed := true }
    EqOk a b ∧ run (equalQ 9 0 a b) (fun q => decide (q ∈ [1, 2, 4, 5])) 0 = true ∧
      run (equalQ 9 0 a b) (fun q => decide (q ∈ [1, 2, 3, 4, 5])) 0 = false :=
  ⟨.swapped rfl rfl (Or.inl (by decide +kernel)), by decide +kernel, by decide +kernel⟩

theorem qval_decode {a : QF Q} (hm : a.msize ≤ 53) (ha : a.signed = true → a.reg ≠ []) (s : St Q) :
    Types.qfDecode a.msize a.exp a.signed (valL a.reg s) = qval a s := by
  have hlt := valL_lt a.reg s
  unfold Types.qfDecode qval ival
  cases h : a.signed
  · have hl : a.reg.length = a.msize := by unfold QF.msize; simp [h]
    have hlt' : (valL a.reg s : ℤ) < 2 ^ a.msize := by rw [← hl]; exact_mod_cast hlt
    have := (rep_abs hm (s := false) (k := valL a.reg s) ⟨by simp, hlt'⟩)
    simp only [Bool.false_eq_true, if_false, Bool.false_and]
    rw [Types.fl_int _ this]
  · obtain ⟨n, hn⟩ : ∃ n, a.reg.length = n + 1 := Nat.exists_eq_succ_of_ne_zero fun h0 =>
      ha h (List.length_eq_zero_iff.1 h0)
    have hl : a.msize = n := by unfold QF.msize; simp [h, hn]
    rw [hl] at hm ⊢
    rw [hn] at hlt ⊢
    generalize valL a.reg s = v at hlt ⊢
    have hv : (v : ℤ) < 2 ^ (n + 1) := by exact_mod_cast hlt
    have hi : Types.isoInv v n = if 2 ^ (n + 1) ≤ 2 * v then (v : ℤ) - 2 ^ (n + 1) else v := by
      unfold Types.isoInv
      rw [Int.emod_eq_of_lt (Int.natCast_nonneg _) hv]
      simp only [Int.toNat_natCast]
      have : v.testBit n = decide (2 ^ (n + 1) ≤ 2 * v) := by
        rw [Nat.testBit_eq_decide_div_mod_eq, decide_eq_decide]
        have hp : 0 < 2 ^ n := by positivity
        rw [pow_succ] at hlt ⊢
        have h1 : v / 2 ^ n < 2 := by rw [Nat.div_lt_iff_lt_mul hp]; omega
        have h2 : 1 ≤ v / 2 ^ n ↔ 2 ^ n ≤ v := by rw [Nat.le_div_iff_mul_le hp, one_mul]
        generalize v / 2 ^ n = w at h1 h2 ⊢
        generalize 2 ^ n = N at h2 ⊢
        omega
      by_cases hb : 2 ^ (n + 1) ≤ 2 * v
      · rw [if_pos hb, if_pos (by rw [this]; exact decide_eq_true hb)]
      · rw [if_neg hb, if_neg (by rw [this]; simpa using hb)]
    simp only [if_true, Bool.true_and, decide_eq_true_eq]
    rw [hi, Types.fl_int]
    have h53 : (2 : ℤ) ^ n ≤ 2 ^ 53 := pow_le_pow_right₀ (by norm_num) hm
    rw [pow_succ] at *
    by_cases h3 : 2 ^ n * 2 ≤ 2 * v
    · rw [if_pos h3]
      have h4 : (2 : ℤ) ^ n * 2 ≤ 2 * v := by exact_mod_cast h3
      rw [abs_le]; constructor <;> omega
    · rw [if_neg h3]
      have h4 : (2 * v : ℤ) < 2 ^ n * 2 := by exact_mod_cast not_le.1 h3
      rw [abs_le]; constructor <;> omega

omit [DecidableEq Q] in
theorem fire_code (i : ℕ) : ∀ (reg : List Q) (k : ℕ) (s : St Q),
    fire ((reg.zipIdx k).map fun q => (q.1, i.testBit q.2)) s = decide (valL reg s = i / 2 ^ k % 2 ^ reg.length)
  | [], k, s => by simp [fire, valL, Nat.mod_one]
  | q :: reg, k, s => by
    have ih := fire_code i reg (k + 1) s
    rw [List.zipIdx_cons, List.map_cons]
    have e : fire ((q, i.testBit k) :: (reg.zipIdx (k + 1)).map fun q => (q.1, i.testBit q.2)) s =
      ((s q == i.testBit k) && fire ((reg.zipIdx (k + 1)).map fun q => (q.1, i.testBit q.2)) s) := rfl
    rw [e, ih, valL, List.length_cons]
    have h1 : i.testBit k = decide (i / 2 ^ k % 2 = 1) := Nat.testBit_eq_decide_div_mod_eq
    have h2 : i / 2 ^ (k + 1) = i / 2 ^ k / 2 := by rw [pow_succ, Nat.div_div_eq_div_mul]
    rw [h1, h2]
    generalize i / 2 ^ k = j
    have h3 : j % 2 ^ (reg.length + 1) = j % 2 + 2 * (j / 2 % 2 ^ reg.length) := by
      rw [pow_succ', Nat.mod_mul]
    rw [h3]
    have h4 := Nat.mod_two_eq_zero_or_one j
    cases hq : s q <;> rcases h4 with h | h <;> rw [h] <;> simp <;> omega

/-- Equality with a number: right for every number (a float64) and every float with at most 53 mantissa qubits, and never an
exception. -/
theorem C85_equal_number {res : Q} {a : QF Q} (hm : a.msize ≤ 53) (ha : a.signed = true → a.reg ≠ [])
    {c : ℚ} (hc : Types.fl c = c) :
    ∃ gs, equalNum res a c = some gs ∧ ∀ s, run gs s = upd s res (s res ^^ decide (qval a s = c)) := by
  have hsz : Types.qfSize a.msize a.signed = a.reg.length := by
    unfold Types.qfSize QF.msize
    cases h : a.signed
    · simp
    · have := List.length_pos_iff.2 (ha h)
      simp; omega
  have hcode : ∀ s, (0 : ℤ) ≤ valL a.reg s ∧ (valL a.reg s : ℤ) < 2 ^ Types.qfSize a.msize a.signed := fun s => by
    rw [hsz]
    exact ⟨Int.natCast_nonneg _, by exact_mod_cast valL_lt a.reg s⟩
  unfold equalNum
  by_cases h : Types.qfTruncate a.msize a.exp a.signed c = c
  · rw [if_pos h]
    obtain ⟨r, hr, hrc, -⟩ := C52_truncate hm a.exp a.signed hc
    obtain ⟨i, i0, i1, he, hd⟩ := (C39_round_trip_partial hm a.exp a.signed).2 r hr
    rw [← hrc, h] at he hd
    rw [he]
    refine ⟨_, rfl, fun s => ?_⟩
    show upd s res (s res ^^ fire _ s) = _
    congr 2
    rw [fire_code i.toNat a.reg 0 s, decide_eq_decide]
    have hlt : i.toNat < 2 ^ a.reg.length := by
      rw [hsz] at i1
      have : ((i.toNat : ℕ) : ℤ) < 2 ^ a.reg.length := by rw [Int.toNat_of_nonneg i0]; exact i1
      exact_mod_cast this
    rw [pow_zero, Nat.div_one, Nat.mod_eq_of_lt hlt, ← qval_decode hm ha s, ← hd]
    constructor
    · intro h
      rw [h, Int.toNat_of_nonneg i0]
    · intro h
      have := C39_injective_partial hm a.exp a.signed (hcode s).1 (hcode s).2 i0 i1 h
      omega
  · rw [if_neg h]
    refine ⟨_, rfl, fun s => ?_⟩
    have : qval a s ≠ c := by
      intro hq
      obtain ⟨k, hk, hkd⟩ := ((C39_round_trip_partial hm a.exp a.signed).1 _ (hcode s).1 (hcode s).2).1
      rw [qval_decode hm ha s, hq] at hkd
      obtain ⟨-, -, -, hle⟩ := C52_truncate hm a.exp a.signed hc
      have := hle k hk
      rw [← hkd, sub_self, abs_zero] at this
      have := abs_nonpos_iff.1 this
      exact h (by linarith)
    rw [decide_eq_false this, Bool.xor_false]
    funext q
    by_cases hq : q = res
    · subst hq; rw [upd_same]; rfl
    · rw [upd_ne hq]; rfl

end Verif.Props
