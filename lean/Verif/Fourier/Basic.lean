import Verif.Rev.Basic
import Mathlib.Analysis.SpecialFunctions.Complex.Circle
import Mathlib.Analysis.Real.Sqrt
import Mathlib.Algebra.BigOperators.Intervals

/-!
# Circuits of H, CX, SWAP and phase gates on amplitude functions

Angles are in full turns: `p(2πθ)` is `ph θ [t]`.
-/

set_option linter.unusedSectionVars false

namespace Verif.Fourier

open Verif.Rev

variable {Q : Type} [DecidableEq Q]

/-- `e^{2πiθ}`. -/
noncomputable def E (θ : ℝ) : ℂ := Complex.exp (2 * Real.pi * θ * Complex.I)

theorem E_zero : E 0 = 1 := by simp [E]

theorem E_add (a b : ℝ) : E (a + b) = E a * E b := by
  unfold E; rw [← Complex.exp_add]; congr 1; push_cast; ring

theorem E_int (k : ℤ) : E k = 1 := by
  unfold E
  rw [Complex.exp_eq_one_iff]
  exact ⟨k, by push_cast; ring⟩

theorem E_nat (k : ℕ) : E k = 1 := by have := E_int k; rwa [Int.cast_natCast] at this

theorem E_neg (a : ℝ) : E (-a) * E a = 1 := by rw [← E_add, neg_add_cancel, E_zero]

theorem E_half : E (1 / 2) = -1 := by
  unfold E
  have : (2 * Real.pi * ((1 / 2 : ℝ) : ℂ) * Complex.I : ℂ) = Real.pi * Complex.I := by push_cast; ring
  rw [this, Complex.exp_pi_mul_I]

theorem E_ne (a : ℝ) : E a ≠ 0 := Complex.exp_ne_zero _

theorem E_congr {a b : ℝ} (k : ℤ) (h : a = b + k) : E a = E b := by rw [h, E_add, E_int, mul_one]

/-- `1/√2`. -/
noncomputable def rt : ℂ := (((Real.sqrt 2)⁻¹ : ℝ) : ℂ)

theorem rt_sq : rt ^ 2 = 1 / 2 := by
  unfold rt
  rw [← Complex.ofReal_pow, inv_pow, Real.sq_sqrt (by norm_num)]; norm_num

theorem rt_ne : rt ≠ 0 := fun h => by have := rt_sq; rw [h] at this; norm_num at this

/-- Gates: H, CX, SWAP and the phase `e^{2πiθ}` where all of `cs` are 1. -/
inductive FGate (Q : Type) where
  | h (t : Q)
  | cx (c t : Q)
  | swap (a b : Q)
  | ph (θ : ℚ) (cs : List Q)
deriving DecidableEq, Repr

def swapSt (s : St Q) (a b : Q) : St Q := upd (upd s a (s b)) b (s a)

/-- Action on amplitudes: the new amplitude of `s` from the old ones. -/
noncomputable def FGate.app : FGate Q → (St Q → ℂ) → (St Q → ℂ)
  | .h t, ψ => fun s => rt * (ψ (upd s t false) + (if s t then -1 else 1) * ψ (upd s t true))
  | .cx c t, ψ => fun s => ψ (upd s t (s t ^^ s c))
  | .swap a b, ψ => fun s => ψ (swapSt s a b)
  | .ph θ cs, ψ => fun s => (if cs.all s then E θ else 1) * ψ s

noncomputable def run : List (FGate Q) → (St Q → ℂ) → (St Q → ℂ)
  | [], ψ => ψ
  | g :: gs, ψ => run gs (g.app ψ)

/-- Inverse gate. -/
def FGate.inv : FGate Q → FGate Q
  | .h t => .h t
  | .cx c t => .cx c t
  | .swap a b => .swap a b
  | .ph θ cs => .ph (-θ) cs

def inv (gs : List (FGate Q)) : List (FGate Q) := (gs.map FGate.inv).reverse

def FGate.wf : FGate Q → Prop
  | .cx c t => c ≠ t
  | _ => True

/-- `with conjugate(A): B`. -/
def conj (A B : List (FGate Q)) : List (FGate Q) := A ++ B ++ inv A

theorem run_append (A B : List (FGate Q)) (ψ : St Q → ℂ) : run (A ++ B) ψ = run B (run A ψ) := by
  induction A generalizing ψ with
  | nil => rfl
  | cons g A ih => exact ih _

theorem run_cons (g : FGate Q) (B : List (FGate Q)) (ψ : St Q → ℂ) : run (g :: B) ψ = run B (g.app ψ) := rfl

theorem upd_upd (s : St Q) (a : Q) (v w : Bool) : upd (upd s a v) a w = upd s a w := by
  funext x
  simp only [upd]
  by_cases h1 : x = a <;> simp [h1]

theorem upd_self (s : St Q) (a : Q) : upd s a (s a) = s := by
  funext x
  simp only [upd]
  by_cases h1 : x = a <;> simp [h1]

theorem upd_comm {s : St Q} {a b : Q} (h : a ≠ b) (v w : Bool) : upd (upd s a v) b w = upd (upd s b w) a v := by
  funext x
  simp only [upd]
  by_cases h1 : x = a
  · subst h1; simp [h]
  · simp [h1]

theorem swapSt_self (s : St Q) (a b : Q) : swapSt (swapSt s a b) a b = s := by
  unfold swapSt
  funext x
  simp only [upd]
  by_cases h1 : x = b
  · subst h1
    by_cases h2 : a = x <;> simp [h2]
  · by_cases h2 : x = a
    · subst h2; simp [h1]
    · simp [h1, h2]

theorem app_inv (g : FGate Q) (hg : g.wf) (ψ : St Q → ℂ) : g.inv.app (g.app ψ) = ψ ∧ g.app (g.inv.app ψ) = ψ := by
  cases g with
  | h t =>
    have : (FGate.h t).app ((FGate.h t).app ψ) = ψ := by
      funext s
      simp only [FGate.app, upd_upd, upd_same]
      have h2 := rt_sq
      have hs := upd_self s t
      cases ht : s t
      · rw [ht] at hs
        simp only [hs, Bool.false_eq_true, if_false, if_true]
        linear_combination 2 * ψ s * h2
      · rw [ht] at hs
        simp only [hs, Bool.false_eq_true, if_false, if_true]
        linear_combination 2 * ψ s * h2
    exact ⟨this, this⟩
  | cx c t =>
    have : (FGate.cx c t).app ((FGate.cx c t).app ψ) = ψ := by
      funext s
      simp only [FGate.app, upd_same, upd_upd]
      rw [upd_ne (show c ≠ t from hg), Bool.xor_assoc, Bool.xor_self, Bool.xor_false, upd_self]
    exact ⟨this, this⟩
  | swap a b =>
    have : (FGate.swap a b).app ((FGate.swap a b).app ψ) = ψ := by
      funext s
      simp only [FGate.app, swapSt_self]
    exact ⟨this, this⟩
  | ph θ cs =>
    have e1 : E ((-θ : ℚ) : ℝ) * E θ = 1 := by rw [Rat.cast_neg]; exact E_neg θ
    constructor
    · funext s
      simp only [FGate.inv, FGate.app]
      cases cs.all s
      · simp
      · simp only [if_true]; rw [← mul_assoc, e1, one_mul]
    · funext s
      simp only [FGate.inv, FGate.app]
      cases cs.all s
      · simp
      · simp only [if_true]; rw [← mul_assoc, mul_comm (E θ), e1, one_mul]

theorem run_inv : ∀ (gs : List (FGate Q)), (∀ g ∈ gs, g.wf) → ∀ ψ : St Q → ℂ,
    run (inv gs) (run gs ψ) = ψ ∧ run gs (run (inv gs) ψ) = ψ := by
  intro gs
  induction gs with
  | nil => intro _ ψ; exact ⟨rfl, rfl⟩
  | cons g gs ih =>
    intro hw ψ
    have hg := hw g List.mem_cons_self
    have ht := ih fun x hx => hw x (List.mem_cons_of_mem _ hx)
    have hi : inv (g :: gs) = inv gs ++ [g.inv] := by simp [inv]
    rw [hi, run_append, run_append, run_cons, run_cons]
    refine ⟨?_, ?_⟩
    · rw [(ht _).1]; exact (app_inv g hg ψ).1
    · show run gs (g.app (g.inv.app (run (inv gs) ψ))) = ψ
      rw [(app_inv g hg _).2, (ht ψ).2]

/-- If `B` after `A` is `A` after `T`, then `B` conjugated by `A` is `T`. -/
theorem run_conj {A B : List (FGate Q)} (hA : ∀ g ∈ A, g.wf) {ψ χ : St Q → ℂ} (h : run B (run A ψ) = run A χ) :
    run (conj A B) ψ = χ := by
  unfold conj
  rw [run_append, run_append, h, (run_inv A hA χ).1]

/-! ### Registers -/

/-- Value of a register, most significant qubit first. -/
def valM : List Q → St Q → ℕ
  | [], _ => 0
  | q :: qs, s => (s q).toNat * 2 ^ qs.length + valM qs s

/-- Value of a register, least significant qubit first. -/
def valL : List Q → St Q → ℕ
  | [], _ => 0
  | q :: qs, s => (s q).toNat + 2 * valL qs s

/-- Write the value `X` into a register, most significant qubit first. -/
def setM : List Q → ℕ → St Q → St Q
  | [], _, s => s
  | q :: qs, X, s => upd (setM qs X s) q (X.testBit qs.length)

theorem valM_lt (qs : List Q) (s : St Q) : valM qs s < 2 ^ qs.length := by
  induction qs with
  | nil => simp [valM]
  | cons q qs ih =>
    rw [valM, List.length_cons, pow_succ]
    cases s q <;> simp <;> omega

theorem valL_append (A B : List Q) (s : St Q) : valL (A ++ B) s = valL A s + 2 ^ A.length * valL B s := by
  induction A with
  | nil => simp [valL]
  | cons q A ih => rw [List.cons_append, valL, ih, valL, List.length_cons, pow_succ]; ring

theorem valL_reverse (qs : List Q) (s : St Q) : valL qs.reverse s = valM qs s := by
  induction qs with
  | nil => rfl
  | cons q qs ih =>
    rw [List.reverse_cons, valL_append, ih, valM, List.length_reverse]
    simp [valL]
    ring

theorem valL_lt (qs : List Q) (s : St Q) : valL qs s < 2 ^ qs.length := by
  have := valM_lt qs.reverse s
  rw [← valL_reverse, List.reverse_reverse, List.length_reverse] at this
  exact this

theorem setM_out (qs : List Q) (X : ℕ) (s : St Q) {x : Q} (h : x ∉ qs) : setM qs X s x = s x := by
  induction qs with
  | nil => rfl
  | cons q qs ih =>
    rw [List.mem_cons, not_or] at h
    rw [setM, upd_ne h.1, ih h.2]

theorem setM_mod (qs : List Q) (X : ℕ) (s : St Q) {n : ℕ} (h : qs.length ≤ n) : setM qs (X % 2 ^ n) s = setM qs X s := by
  induction qs with
  | nil => rfl
  | cons q qs ih =>
    rw [List.length_cons] at h
    rw [setM, setM, ih (by omega), Nat.testBit_mod_two_pow]
    have : qs.length < n := by omega
    simp [this]

theorem valM_congr {qs : List Q} {s s' : St Q} (h : ∀ q ∈ qs, s q = s' q) : valM qs s = valM qs s' := by
  induction qs with
  | nil => rfl
  | cons q qs ih =>
    rw [valM, valM, h q List.mem_cons_self, ih fun q hq => h q (List.mem_cons_of_mem _ hq)]

theorem valL_congr {qs : List Q} {s s' : St Q} (h : ∀ q ∈ qs, s q = s' q) : valL qs s = valL qs s' := by
  induction qs with
  | nil => rfl
  | cons q qs ih =>
    rw [valL, valL, h q List.mem_cons_self, ih fun q hq => h q (List.mem_cons_of_mem _ hq)]

theorem mod_succ (X i : ℕ) : X % 2 ^ (i + 1) = (X.testBit i).toNat * 2 ^ i + X % 2 ^ i := by
  rw [pow_succ, Nat.mod_mul, Nat.testBit_eq_decide_div_mod_eq, add_comm, mul_comm]
  rcases Nat.mod_two_eq_zero_or_one (X / 2 ^ i) with h | h <;> simp [h]

theorem valM_setM {qs : List Q} (hn : qs.Nodup) (X : ℕ) (s : St Q) : valM qs (setM qs X s) = X % 2 ^ qs.length := by
  induction qs with
  | nil => simp [valM, Nat.mod_one]
  | cons q qs ih =>
    rw [List.nodup_cons] at hn
    rw [valM, setM, upd_same]
    have hc : valM qs (upd (setM qs X s) q (X.testBit qs.length)) = valM qs (setM qs X s) := valM_congr fun x hx => by
      have hne : x ≠ q := fun e => hn.1 (e ▸ hx)
      exact upd_ne hne
    rw [hc]
    rw [ih hn.2, List.length_cons]
    rw [mod_succ]

theorem setM_upd {qs : List Q} {x : Q} (h : x ∉ qs) (X : ℕ) (s : St Q) (v : Bool) :
    setM qs X (upd s x v) = upd (setM qs X s) x v := by
  induction qs with
  | nil => rfl
  | cons q qs ih =>
    rw [List.mem_cons, not_or] at h
    rw [setM, setM, ih h.2, upd_comm h.1]

theorem setM_setM (qs : List Q) (X Y : ℕ) (s : St Q) (hn : qs.Nodup) : setM qs X (setM qs Y s) = setM qs X s := by
  induction qs with
  | nil => rfl
  | cons q qs ih =>
    rw [List.nodup_cons] at hn
    rw [setM, setM, setM, setM_upd hn.1, ih hn.2, upd_upd]

theorem setM_val {qs : List Q} (hn : qs.Nodup) (s : St Q) : setM qs (valM qs s) s = s := by
  induction qs with
  | nil => rfl
  | cons q qs ih =>
    rw [List.nodup_cons] at hn
    have hlt := valM_lt qs s
    have hb : ((s q).toNat * 2 ^ qs.length + valM qs s).testBit qs.length = s q := by
      cases s q
      · simp [Nat.testBit_lt_two_pow hlt]
      · simp only [Bool.toNat_true, one_mul]
        rw [Nat.testBit_two_pow_add_eq, Nat.testBit_lt_two_pow hlt]; rfl
    rw [setM, valM, hb, ← setM_mod qs _ s (le_refl _), mul_comm, Nat.mul_add_mod, Nat.mod_eq_of_lt hlt, ih hn.2, upd_self]

end Verif.Fourier
