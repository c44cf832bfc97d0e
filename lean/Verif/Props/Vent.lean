import Verif.Rev.VentDirty
import Mathlib.Algebra.BigOperators.Intervals
import Mathlib.Tactic.LinearCombination

/-!
# C121: the carry-venting adder
-/

namespace Verif.Props

open Verif.Rev (St upd)
open Verif.Vent

variable {Q : Type} [DecidableEq Q]

/-! ### Specification -/

/-- Value of the register `T 0, …, T (n - 1)`, lowest bit first. -/
def ventVal (n : ℕ) (T : ℕ → Q) (s : St Q) : ℕ := ∑ i ∈ Finset.range n, if s (T i) then 2 ^ i else 0

/-- The addend under a control: 0 if the control qubit is 0. -/
def ventAdd (d : ℕ) (ctrl : Option Q) (s : St Q) : ℕ := if ctrl.elim true s then d else 0

/-- The carry in, 0 if there is none. -/
def ventIn (cin : Option Q) (s : St Q) : ℕ := if cin.elim false s then 1 else 0

/-! ### Lemmas -/

theorem vent_sum (n : ℕ) (c : Bool) (e x : ℕ → Bool) :
    (∑ i ∈ Finset.range n, if (x i ^^ e i ^^ car c e x i) then 2 ^ i else 0) + 2 ^ n * (car c e x n).toNat =
      (∑ i ∈ Finset.range n, if x i then 2 ^ i else 0) + (∑ i ∈ Finset.range n, if e i then 2 ^ i else 0) + c.toNat := by
  induction n with
  | zero => simp [car]
  | succ n ih =>
    rw [Finset.sum_range_succ, Finset.sum_range_succ, Finset.sum_range_succ]
    have : (if (x n ^^ e n ^^ car c e x n) = true then 2 ^ n else 0) + 2 ^ (n + 1) * (car c e x (n + 1)).toNat =
        (if x n = true then 2 ^ n else 0) + (if e n = true then 2 ^ n else 0) + 2 ^ n * (car c e x n).toNat := by
      rw [car]
      cases x n <;> cases e n <;> cases car c e x n <;> simp [maj, pow_succ] <;> ring
    linear_combination ih + this

theorem vent_bits (n d : ℕ) : (∑ i ∈ Finset.range n, if d.testBit i then 2 ^ i else 0) = d % 2 ^ n := by
  induction n with
  | zero => simp [Nat.mod_one]
  | succ n ih =>
    rw [Finset.sum_range_succ, ih, Nat.mod_pow_succ, Nat.testBit_eq_decide_div_mod_eq]
    rcases Nat.mod_two_eq_zero_or_one (d / 2 ^ n) with h | h <;> simp [h]

theorem ventVal_lt (n : ℕ) (T : ℕ → Q) (s : St Q) : ventVal n T s < 2 ^ n := by
  unfold ventVal
  induction n with
  | zero => simp
  | succ n ih =>
    rw [Finset.sum_range_succ, pow_succ]
    split <;> omega

theorem vent_value {n d : ℕ} {T : ℕ → Q} {cin cout ctrl : Option Q} {w : ℕ} {s₀ s : St Q}
    (h : Vent.Add n T (addend d ctrl s₀) (car (inval cin s₀) (addend d ctrl s₀) fun k => s₀ (T k)) cout w s₀ s) :
    ventVal n T s = (ventVal n T s₀ + ventAdd d ctrl s₀ + ventIn cin s₀) % 2 ^ n := by
  have h1 := vent_sum n (inval cin s₀) (addend d ctrl s₀) fun k => s₀ (T k)
  have h2 : ventVal n T s = ∑ i ∈ Finset.range n, if (s₀ (T i) ^^ addend d ctrl s₀ i ^^ car (inval cin s₀) (addend d ctrl s₀) (fun k => s₀ (T k)) i) then 2 ^ i else 0 :=
    Finset.sum_congr rfl fun i hi => by rw [h.hT i (Finset.mem_range.mp hi)]
  have h3 : (∑ i ∈ Finset.range n, if addend d ctrl s₀ i then 2 ^ i else 0) = ventAdd d ctrl s₀ % 2 ^ n := by
    have hc : cval ctrl s₀ = ctrl.elim true s₀ := by cases ctrl <;> rfl
    unfold addend ventAdd
    rw [hc]
    cases ctrl.elim true s₀
    · simp
    · simpa using vent_bits n d
  have h4 : (inval cin s₀).toNat = ventIn cin s₀ := by
    unfold ventIn inval
    cases cin with
    | none => rfl
    | some c => cases hc : s₀ c <;> simp [hc]
  rw [← h2, h3, h4] at h1
  change ventVal n T s + _ = ventVal n T s₀ + _ + _ at h1
  rw [← Nat.mod_eq_of_lt (ventVal_lt n T s), ← Nat.add_mul_mod_self_left (ventVal n T s) (2 ^ n), h1]
  exact ((Nat.ModEq.refl _).add (Nat.mod_modEq _ _)).add_right _

/-! ### Theorems -/

/-- C121. `gidney_cq_venting_adder` on `n ≥ 6` qubits adds the classical number and the carry in modulo `2^n`, for every
outcome of every vent; ancillas and all other qubits come back, and no basis state gets a sign, so superpositions are added
coherently. Condition: no control, or a control that is 1, or a carry in. -/
theorem C121_venting_adder_partial (n d : ℕ) (T A : ℕ → Q) (cin ctrl : Option Q) (mlo mhi : ℕ → Bool) (mc : Bool) (s : St Q) (p : Bool)
    (hn : 6 ≤ n) (hs : SSep n T A cin none ctrl) (hA : ∀ i < 3, s (A i) = false) (hok : cin ≠ none ∨ ctrl.elim true s = true) :
    ∃ s', run (split n d T A cin none ctrl mlo mhi mc) (s, p) = (s', p) ∧
      ventVal n T s' = (ventVal n T s + ventAdd d ctrl s + ventIn cin s) % 2 ^ n ∧ ∀ q, (∀ k < n, q ≠ T k) → s' q = s q := by
  obtain ⟨s', p', h1, h2, h3⟩ := run_split (d := d) mlo mhi mc s p hn hs hA
  have hc : cval ctrl s = ctrl.elim true s := by cases ctrl <;> rfl
  rw [h2 (by rw [hc]; exact hok)] at h1
  exact ⟨s', h1, vent_value h3, fun q hq => h3.hF q hq (by simp)⟩

/-- C121, without the condition: the bits are right in every case. -/
theorem C121_venting_adder_bits (n d : ℕ) (T A : ℕ → Q) (cin cout ctrl : Option Q) (mlo mhi : ℕ → Bool) (mc : Bool) (s : St Q) (p : Bool)
    (hn : 6 ≤ n) (hs : SSep n T A cin cout ctrl) (hA : ∀ i < 3, s (A i) = false) :
    ∃ s' p', run (split n d T A cin cout ctrl mlo mhi mc) (s, p) = (s', p') ∧
      ventVal n T s' = (ventVal n T s + ventAdd d ctrl s + ventIn cin s) % 2 ^ n ∧ ∀ q, (∀ k < n, q ≠ T k) → cout ≠ some q → s' q = s q := by
  obtain ⟨s', p', h1, -, h3⟩ := run_split (d := d) mlo mhi mc s p hn hs hA
  exact ⟨s', p', h1, vent_value h3, h3.hF⟩

/-- A register of six qubits 0-5, ancillas 6-8, control 9, carry out 10. -/
def ventSt (x : ℕ) (ctrl : Bool) : St ℕ := fun q => if q < 6 then x.testBit q else q == 9 && ctrl

/-- C121, the full claim is false: with a control that is 0 and without carry in, `carry_xor_block` adds a wrong carry
(`x(target[0]); cx(target[0], dirty[0]); x(target[0])` is not controlled). Adding 1 to 43 under a control at 0 leaves the
register but gives the sign -1 for these outcomes. -/
theorem C121_control_fails : ∃ (x : ℕ) (mlo mhi : ℕ → Bool) (mc : Bool),
    SSep 6 (fun k : ℕ => k) (fun k => 6 + k) none none (some 9) ∧ ventSt x false 9 = false ∧
      (run (split 6 1 (fun k : ℕ => k) (fun k => 6 + k) none none (some 9) mlo mhi mc) (ventSt x false, false)).2 = true :=
  ⟨43, fun k => k == 0, fun _ => false, false,
    ⟨fun _ _ _ _ h => h, fun i hi j hj => by omega, fun i hi j hj h => by omega, fun i hi h => by simp at h; omega, fun i hi h => by simp at h; omega, by simp, by simp, by simp, by simp, by simp,
      by simp, by simp⟩, rfl, by decide +kernel⟩

/-- C121, `c_out` for `n ≥ 6`: it receives the carry into bit `n - 2`, not the carry out of the addition. -/
theorem C121_carry_out_value (n d : ℕ) (T A : ℕ → Q) (cin ctrl : Option Q) (c : Q) (mlo mhi : ℕ → Bool) (mc : Bool) (s : St Q) (p : Bool)
    (hn : 6 ≤ n) (hs : SSep n T A cin (some c) ctrl) (hA : ∀ i < 3, s (A i) = false) :
    (run (split n d T A cin (some c) ctrl mlo mhi mc) (s, p)).1 c =
      (s c ^^ decide (2 ^ (n - 2) ≤ ventVal (n - 2) T s + ventAdd d ctrl s % 2 ^ (n - 2) + ventIn cin s)) := by
  obtain ⟨s', p', h1, -, h3⟩ := run_split (d := d) mlo mhi mc s p hn hs hA
  rw [h1]
  dsimp only
  rw [h3.hout c rfl]
  congr 1
  have h := vent_sum (n - 2) (inval cin s) (addend d ctrl s) fun k => s (T k)
  have e3 : (∑ i ∈ Finset.range (n - 2), if addend d ctrl s i then 2 ^ i else 0) = ventAdd d ctrl s % 2 ^ (n - 2) := by
    have hc : cval ctrl s = ctrl.elim true s := by cases ctrl <;> rfl
    unfold addend ventAdd
    rw [hc]
    cases ctrl.elim true s
    · simp
    · simpa using vent_bits (n - 2) d
  have e4 : (inval cin s).toNat = ventIn cin s := by
    unfold ventIn inval
    cases cin with
    | none => rfl
    | some c => cases hc : s c <;> simp [hc]
  rw [e3, e4] at h
  have hlt : (∑ i ∈ Finset.range (n - 2), if (s (T i) ^^ addend d ctrl s i ^^ car (inval cin s) (addend d ctrl s) (fun k => s (T k)) i) then 2 ^ i else 0) < 2 ^ (n - 2) := by
    have := ventVal_lt (n - 2) (fun i => i) (fun i : ℕ => s (T i) ^^ addend d ctrl s i ^^ car (inval cin s) (addend d ctrl s) (fun k => s (T k)) i)
    exact this
  change _ = ventVal (n - 2) T s + _ + _ at h
  cases hC : car (inval cin s) (addend d ctrl s) (fun k => s (T k)) (n - 2) with
  | false =>
    rw [hC] at h
    simp only [Bool.toNat_false, mul_zero, add_zero] at h
    rw [← h]
    exact (decide_eq_false (by omega)).symm
  | true =>
    rw [hC] at h
    simp only [Bool.toNat_true, mul_one] at h
    rw [← h]
    exact (decide_eq_true (by omega)).symm

/-- C121, the carry out is wrong: 15 + 1 = 16 < 64 has no carry out on six qubits, but `c_out` is set. -/
theorem C121_carry_out_fails : ∃ (d x : ℕ) (mlo mhi : ℕ → Bool) (mc : Bool), d + x < 2 ^ 6 ∧
    SSep 6 (fun k : ℕ => k) (fun k => 6 + k) none (some 10) none ∧
      (run (split 6 d (fun k : ℕ => k) (fun k => 6 + k) none (some 10) none mlo mhi mc) (ventSt x false, false)).1 10 = true :=
  ⟨1, 15, fun _ => false, fun _ => false, false, by decide,
    ⟨fun _ _ _ _ h => h, fun i hi j hj => by omega, fun i hi j hj h => by omega, by simp, by simp, by simp, by simp, fun i hi h => by simp at h; omega, fun i hi h => by simp at h; omega, by simp,
      by simp, by simp⟩, by decide +kernel⟩

/-- 43 + 30 on six qubits is 9, for one set of outcomes. -/
example : (List.range 6).map (run (split 6 30 (fun k : ℕ => k) (fun k => 6 + k) none none none (fun k => k == 1) (fun _ => true) true) (ventSt 43 false, false)).1 =
    [true, false, false, true, false, false] := by decide +kernel

end Verif.Props
