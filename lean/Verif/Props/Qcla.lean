import Verif.Rev.QclaMain

/-! # C123: the higher-radix carry-lookahead adder

For every radix and every register size the adder computes `b += a` modulo `2 ^ len(b)`, keeps all other qubits and returns
its carries and ancillas to zero. -/

namespace Verif.Props

open Verif.Rev Verif.Rev.Qcla

/-- The register `b`. -/
def qclaB (nb : Nat) : List W := (List.range nb).map W.b

/-- The register `a`. -/
def qclaA (na : Nat) : List W := (List.range na).map W.a

/-- The requirement: `b` receives `v + b` modulo `2 ^ nb`, every other qubit keeps its value and every logical AND and its
measurement-based inverse acts on a qubit in the state it requires. -/
def AddsTo (nb v : Nat) (k : List (Gate W)) (s : St W) : Prop :=
  regVal (qclaB nb) (run k s) = (v + regVal (qclaB nb) s) % 2 ^ nb ∧ (∀ q, q ∉ qclaB nb → run k s q = s q) ∧ ok k s

theorem AddsTo_of {nb v : Nat} {k : List (Gate W)} {s : St W} (h : Adds nb v k s) : AddsTo nb v k s := by
  refine ⟨?_, fun q hq => h.rest q fun i hi e => hq ?_, h.ok⟩
  · rw [qclaB, regVal_nv, regVal_nv]; exact h.val
  · rw [qclaB, List.mem_map]; exact ⟨i, List.mem_range.2 hi, e.symm⟩

/-- Quantum addend, `t_depth_reduction = True` (the default): correct for all sizes and every radix base ≥ 2 with exponent
≥ 1. -/
theorem C123_quantum (na nb r e : Nat) (hr : 2 ≤ r) (_he : 0 < e) (hna : 0 < na) (hab : na ≤ nb) (s : St W)
    (hz : ∀ q, zero q = true → s q = false) :
    ∃ k, qqQcla na nb r e true = some k ∧ AddsTo nb (regVal (qclaA na) s) k s := by
  obtain ⟨k, hk, h⟩ := qqQcla_adds na nb r e hr hna hab s hz
  refine ⟨k, hk, ?_⟩
  rw [qclaA, regVal_nv]
  exact AddsTo_of h

/-- Quantum addend, `t_depth_reduction = False`: correct whenever the addend reaches into the last block of `b`. -/
theorem C123_quantum_reversed (na nb r e : Nat) (hr : 2 ≤ r) (_he : 0 < e) (hna : 0 < na) (hab : na ≤ nb)
    (hlast : r ^ e < nb → nc nb (r ^ e) * r ^ e < na) (s : St W) (hz : ∀ q, zero q = true → s q = false) :
    ∃ k, qqQcla na nb r e false = some k ∧ AddsTo nb (regVal (qclaA na) s) k s := by
  obtain ⟨k, hk, h⟩ := qqQcla_false_adds na nb r e hr hna hab (fun hl => by
    have := hlast hl
    have hR : 0 < r ^ e := Nat.pow_pos (by omega)
    rw [blen, Nat.mul_add, Nat.mul_comm]; omega) s hz
  refine ⟨k, hk, ?_⟩
  rw [qclaA, regVal_nv]
  exact AddsTo_of h

/-- Otherwise `c[j]` is out of range: the adder raises an exception. -/
theorem C123_index_error (na nb r e : Nat) (h1 : nb ≠ 1) (hl : r ^ e < nb) (hshort : na ≤ nc nb (r ^ e) * r ^ e) :
    qqQcla na nb r e false = none := by
  rw [qqQcla]
  simp only [h1, show ¬ nb ≤ r ^ e by omega, if_false]
  split
  · rfl
  have : qqSum na nb (r ^ e) = none := by
    rw [qqSum, if_pos]
    rw [blen, Nat.mul_add, Nat.mul_comm]; omega
  cases qqCarry na nb r e <;> simp [this]

/-- Classical bit string, with or without control, `t_depth_reduction = True`. -/
theorem C123_classical (ctrl : Bool) (x : Nat → Bool) (na nb r e : Nat) (hr : 2 ≤ r) (hb : 0 < nb) (hab : na ≤ nb)
    (hx : ∀ i, na ≤ i → x i = false) (s : St W) (hz : ∀ q, zero q = true → s q = false) :
    ∃ k, cqQcla ctrl x na nb r e = some k ∧
      AddsTo nb (if ctrl = true ∧ s .ctl = false then 0 else bv ((List.range na).map x)) k s := by
  obtain ⟨k, hk, h⟩ := cqQcla_adds ctrl x na nb r e hr hb hab hx s hz
  refine ⟨k, hk, ?_⟩
  have e : (if ctrl = true ∧ s .ctl = false then 0 else bv ((List.range na).map x)) = if onBit ctrl s then nv x na else 0 := by
    rw [bv_nv, onBit]; cases ctrl <;> cases s .ctl <;> simp
  rw [e]
  exact AddsTo_of h

theorem nv_testBit (v n : Nat) : nv (fun i => v.testBit i) n = v % 2 ^ n := by
  induction n with
  | zero => simp [nv, Nat.mod_one]
  | succ n ih => rw [nv, ih, pow_succ, Nat.mod_mul, Nat.testBit_eq_decide_div_mod_eq]; rcases Nat.mod_two_eq_zero_or_one (v / 2 ^ n) with h | h <;> simp [h]

/-- The bits that cq_qcla_adder.py:43-44 makes of an integer. -/
def intBits (a : Int) (nb : Nat) (i : Nat) : Bool := (a % (2 ^ nb : Int)).toNat.testBit i

/-- The integer addend of `cq_qcla`, of any size and sign. -/
theorem C123_integer (a : Int) (nb r e : Nat) (hr : 2 ≤ r) (hb : 0 < nb) (s : St W) (hz : ∀ q, zero q = true → s q = false) :
    ∃ k, cqQcla false (intBits a nb) nb nb r e = some k ∧
      (regVal (qclaB nb) (run k s) : Int) = (a + regVal (qclaB nb) s) % 2 ^ nb ∧
      (∀ q, q ∉ qclaB nb → run k s q = s q) ∧ ok k s := by
  have hp : (0 : Int) < 2 ^ nb := by positivity
  have h1 := Int.emod_nonneg a hp.ne'
  have h2 := Int.emod_lt_of_pos a hp
  have hlt : (a % (2 ^ nb : Int)).toNat < 2 ^ nb := by
    zify; rw [Int.toNat_of_nonneg h1]; exact h2
  obtain ⟨k, hk, h3, h4, h5⟩ := C123_classical false (intBits a nb) nb nb r e hr hb le_rfl (fun i hi =>
    Nat.testBit_lt_two_pow (lt_of_lt_of_le hlt (Nat.pow_le_pow_right (by omega) hi))) s hz
  refine ⟨k, hk, ?_, h4, h5⟩
  rw [h3, if_neg (by simp), bv_nv, show intBits a nb = fun i => (a % (2 ^ nb : Int)).toNat.testBit i from rfl, nv_testBit,
    Nat.mod_eq_of_lt hlt]
  push_cast
  rw [Int.toNat_of_nonneg h1, Int.emod_add_emod]

/-- Classical addend, `t_depth_reduction = False`: correct if the first block of the addend is not zero. -/
theorem C123_classical_reversed_partial (ctrl : Bool) (x : Nat → Bool) (na nb r e : Nat) (hr : 2 ≤ r) (_he : 0 < e)
    (_hl : r ^ e < nb) (hab : na ≤ nb) (hx : ∀ i, na ≤ i → x i = false) (h0 : ∃ i < r ^ e, x i = true) (s : St W)
    (hz : ∀ q, zero q = true → s q = false) :
    ∃ k, cqQclaF ctrl x na nb r e = some k ∧
      AddsTo nb (if ctrl = true ∧ s .ctl = false then 0 else bv ((List.range na).map x)) k s := by
  obtain ⟨k, hk, h⟩ := cqQclaF_adds ctrl x na nb r e hr (by omega) hab hx (by
    obtain ⟨i, hi, hxi⟩ := h0
    rw [xblk_nv]
    intro h
    have := nv_inj (g := fun _ => false) (h.trans (nv_zero fun _ _ => rfl).symm) i (by rw [blen]; omega)
    simp [hxi] at this) s hz
  refine ⟨k, hk, ?_⟩
  have e : (if ctrl = true ∧ s .ctl = false then 0 else bv ((List.range na).map x)) = if onBit ctrl s then nv x na else 0 := by
    rw [bv_nv, onBit]; cases ctrl <;> cases s .ctl <;> simp
  rw [e]
  exact AddsTo_of h

/-- A state with given operands. -/
def qclaSt (a b : Nat) (c : Bool) : St W
  | .a i => a.testBit i
  | .b i => b.testBit i
  | .ctl => c
  | _ => false

/-- If the first block is zero, the incrementor of the first block takes `c[-1]`, the last carry, as its carry-in:
`4 + 12 = 17` for six qubits and radix 2. -/
theorem C123_zero_block :
    (cqQclaF false (fun i => Nat.testBit 4 i) 6 6 2 1).map (fun k => regVal (qclaB 6) (run k (qclaSt 0 12 false))) = some 17 := by
  decide +kernel

/-- Draper's case `R = 1` with `t_depth_reduction = False`: every one of the addend flips the whole register (cq_sum_path.py:45-47);
`1 + 0` on two qubits gives 3 although no carry occurs. -/
theorem C123_radix_one : regVal (qclaB 2) (run (cqSumOne (fun i => Nat.testBit 1 i) 2 2) (qclaSt 0 0 false)) = 3 := by
  decide +kernel

/-- With mid-circuit measurements the Toffoli gates of the method jones leave CZ phases; the default adder on four qubits changes the
sign of the basis state `a = 1, b = 3`, but not that of `a = 0, b = 0`. -/
theorem C123_jones_sign : (qqCarry 4 4 2 1).map (fun k => (jonesSign k (qclaSt 1 3 false), jonesSign k (qclaSt 0 0 false))) =
    some (true, false) := by decide +kernel

/-- Non-trivial cases. -/
example : (qqQcla 3 7 2 1 true).map (fun k => regVal (qclaB 7) (run k (qclaSt 5 123 false))) = some 0 := by decide +kernel

example : (cqQcla true (fun i => Nat.testBit 37 i) 6 7 2 1).map
    (fun k => (regVal (qclaB 7) (run k (qclaSt 0 100 true)), regVal (qclaB 7) (run k (qclaSt 0 100 false)))) = some (9, 100) := by
  decide +kernel

example : (qqQcla 7 7 2 1 false).map (fun k => regVal (qclaB 7) (run k (qclaSt 61 100 false))) = some 33 := by decide +kernel

end Verif.Props
