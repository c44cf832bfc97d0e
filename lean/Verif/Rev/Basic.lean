import Mathlib.Data.Bool.Basic
import Mathlib.Data.List.Nodup
import Mathlib.Data.ZMod.Defs
import Mathlib.Tactic.Ring
import Mathlib.Tactic.Linarith

/-!
Reversible circuits on basis states.

A circuit is a list of gates; a basis state is a map from qubits to booleans. Gates:

* `mcx cs t`  – (multi) controlled X with a list of (control qubit, control value) pairs
  (`x`, `cx`, `mcx(..., ctrl_state=...)` in `core/gate_application_functions.py` 332-620);
* `land a b t` – `mcx([a, b], t, method="gidney")`, the Gidney logical AND
  (`alg_primitives/mcx_algs/gidney.py` 85-99);
* `landInv a b t` – `mcx([a, b], t, method="gidney_inv")`, its measurement based inverse
  (`alg_primitives/mcx_algs/gidney.py` 102-109).

On a basis state the gate sequence of `land` is exactly a Toffoli gate if the target is 0,
otherwise it is a Toffoli gate times a power of `i` (`landPhase`). The gate sequence of `landInv`
has a deterministic outcome only if the target holds the AND of the controls. Both facts
are theorems about the amplitude semantics in `Verif/Circ`.
-/

set_option linter.unusedSectionVars false

namespace Verif.Rev

variable {Q : Type} [DecidableEq Q]

/-- A basis state. -/
abbrev St (Q : Type) := Q → Bool

/-- Change the value of one qubit. -/
def upd (s : St Q) (q : Q) (v : Bool) : St Q := fun x => if x = q then v else s x

@[simp] theorem upd_same (s : St Q) (q : Q) (v : Bool) : upd s q v q = v := by simp [upd]
@[simp] theorem upd_ne {s : St Q} {q x : Q} {v : Bool} (h : x ≠ q) : upd s q v x = s x := by
  simp [upd, h]
theorem upd_apply (s : St Q) (q x : Q) (v : Bool) :
    upd s q v x = if x = q then v else s x := rfl

inductive Gate (Q : Type) where
  | mcx (cs : List (Q × Bool)) (t : Q)
  | land (a b t : Q)
  | landInv (a b t : Q)

/-- `x(t)` -/
abbrev gx (t : Q) : Gate Q := .mcx [] t
/-- `cx(c, t)` -/
abbrev cx (c t : Q) : Gate Q := .mcx [(c, true)] t
/-- `mcx([c, d], t)` -/
abbrev ccx (c d t : Q) : Gate Q := .mcx [(c, true), (d, true)] t

/-- All controls are in their control state. -/
def fire (cs : List (Q × Bool)) (s : St Q) : Bool := cs.all fun c => s c.1 == c.2

/-- Bit action of a gate (logical ANDs act like Toffoli gates on bits). -/
def Gate.app : Gate Q → St Q → St Q
  | .mcx cs t, s => upd s t (s t ^^ fire cs s)
  | .land a b t, s => upd s t (s t ^^ (s a && s b))
  | .landInv a b t, s => upd s t (s t ^^ (s a && s b))

/-- The condition under which the gate is exactly its bit action (no phase, no
random outcome). -/
def Gate.ok : Gate Q → St Q → Prop
  | .mcx _ _, _ => True
  | .land _ _ t, s => s t = false
  | .landInv a b t, s => s t = (s a && s b)

/-- Target qubit. -/
def Gate.tgt : Gate Q → Q
  | .mcx _ t => t
  | .land _ _ t => t
  | .landInv _ _ t => t

/-- Run a circuit, bits only. -/
def run (gs : List (Gate Q)) (s : St Q) : St Q := gs.foldl (fun s g => g.app s) s

/-- Every gate in the circuit is applied under its side condition. -/
def ok : List (Gate Q) → St Q → Prop
  | [], _ => True
  | g :: gs, s => g.ok s ∧ ok gs (g.app s)

@[simp] theorem run_nil (s : St Q) : run [] s = s := rfl
@[simp] theorem run_cons (g : Gate Q) (gs : List (Gate Q)) (s : St Q) :
    run (g :: gs) s = run gs (g.app s) := rfl
@[simp] theorem run_append (g₁ g₂ : List (Gate Q)) (s : St Q) :
    run (g₁ ++ g₂) s = run g₂ (run g₁ s) := by simp [run, List.foldl_append]
@[simp] theorem ok_nil (s : St Q) : ok [] s := trivial
@[simp] theorem ok_cons (g : Gate Q) (gs : List (Gate Q)) (s : St Q) :
    ok (g :: gs) s ↔ g.ok s ∧ ok gs (g.app s) := Iff.rfl
@[simp] theorem ok_append (g₁ g₂ : List (Gate Q)) (s : St Q) :
    ok (g₁ ++ g₂) s ↔ ok g₁ s ∧ ok g₂ (run g₁ s) := by
  induction g₁ generalizing s with
  | nil => simp
  | cons g gs ih => simp [ih, and_assoc]

/-- Circuits without logical ANDs have no side condition. -/
theorem ok_of_mcx (gs : List (Gate Q)) (h : ∀ g ∈ gs, ∃ cs t, g = .mcx cs t) (s : St Q) :
    ok gs s := by
  induction gs generalizing s with
  | nil => trivial
  | cons g gs ih =>
    obtain ⟨cs, t, rfl⟩ := h g (by simp)
    exact ⟨trivial, ih (fun g hg => h g (by simp [hg])) _⟩

/-- A qubit that is never a target keeps its value. -/
theorem app_frame (g : Gate Q) (s : St Q) (q : Q) (h : q ≠ g.tgt) : g.app s q = s q := by
  cases g <;> simp_all [Gate.app, Gate.tgt]

theorem run_frame (gs : List (Gate Q)) (s : St Q) (q : Q) (h : ∀ g ∈ gs, q ≠ g.tgt) :
    run gs s q = s q := by
  induction gs generalizing s with
  | nil => rfl
  | cons g gs ih =>
    rw [run_cons, ih _ (fun g hg => h g (by simp [hg])), app_frame _ _ _ (h g (by simp))]

/-! ### Semantics with phases

`exec` returns `none` where the outcome is random, and otherwise the bits together with a
phase, counted in powers of `i`. -/

/-- Phase of the logical AND on a basis state, as exponent of `i`. -/
def landPhase (a b t : Bool) : ZMod 4 := if t then (if a || b then 3 else 1) else 0

def Gate.exec : Gate Q → St Q × ZMod 4 → Option (St Q × ZMod 4)
  | .mcx cs t, (s, p) => some ((Gate.mcx cs t).app s, p)
  | .land a b t, (s, p) => some ((Gate.land a b t).app s, p + landPhase (s a) (s b) (s t))
  | .landInv a b t, (s, p) =>
      if s t = (s a && s b) then some ((Gate.landInv a b t).app s, p) else none

def exec : List (Gate Q) → St Q × ZMod 4 → Option (St Q × ZMod 4)
  | [], x => some x
  | g :: gs, x => (g.exec x).bind (exec gs)

/-- Under the side conditions the circuit is exactly the bit action, with no phase. -/
theorem exec_of_ok (gs : List (Gate Q)) (s : St Q) (p : ZMod 4) (h : ok gs s) :
    exec gs (s, p) = some (run gs s, p) := by
  induction gs generalizing s with
  | nil => rfl
  | cons g gs ih =>
    obtain ⟨h1, h2⟩ := h
    cases g with
    | mcx cs t => simpa [exec, Gate.exec] using ih _ h2
    | land a b t =>
      have h1' : s t = false := h1
      simpa [exec, Gate.exec, landPhase, h1'] using ih _ h2
    | landInv a b t =>
      have h1' : s t = (s a && s b) := h1
      simpa [exec, Gate.exec, h1'] using ih _ h2

/-- An optional control is absent or in state 1. -/
def ctrlOn : Option Q → St Q → Bool
  | none, _ => true
  | some k, s => s k

@[simp] theorem ctrlOn_none (s : St Q) : ctrlOn none s = true := rfl
@[simp] theorem ctrlOn_some (k : Q) (s : St Q) : ctrlOn (some k) s = s k := rfl

/-- Value of an optional carry-in. -/
def optBit : Option Q → St Q → Bool
  | none, _ => false
  | some k, s => s k

@[simp] theorem optBit_none (s : St Q) : optBit none s = false := rfl
@[simp] theorem optBit_some (k : Q) (s : St Q) : optBit (some k) s = s k := rfl

/-! ### Registers -/

/-- Little-endian value of a register. -/
def regVal : List Q → St Q → Nat
  | [], _ => 0
  | q :: l, s => (s q).toNat + 2 * regVal l s

@[simp] theorem regVal_nil (s : St Q) : regVal [] s = 0 := rfl
@[simp] theorem regVal_cons (q : Q) (l : List Q) (s : St Q) :
    regVal (q :: l) s = (s q).toNat + 2 * regVal l s := rfl

theorem regVal_congr {l : List Q} {s t : St Q} (h : ∀ q ∈ l, s q = t q) :
    regVal l s = regVal l t := by
  induction l with
  | nil => rfl
  | cons q l ih =>
    rw [regVal_cons, regVal_cons, h q (by simp), ih (fun q hq => h q (by simp [hq]))]

theorem regVal_lt (l : List Q) (s : St Q) : regVal l s < 2 ^ l.length := by
  induction l with
  | nil => simp
  | cons q l ih =>
    have := Bool.toNat_le (s q)
    rw [regVal_cons, List.length_cons, pow_succ]; omega

theorem regVal_append (l m : List Q) (s : St Q) :
    regVal (l ++ m) s = regVal l s + 2 ^ l.length * regVal m s := by
  induction l with
  | nil => simp
  | cons q l ih => simp only [List.cons_append, regVal_cons, ih, List.length_cons, pow_succ]; ring

theorem regVal_zero {l : List Q} {s : St Q} (h : ∀ q ∈ l, s q = false) : regVal l s = 0 := by
  induction l with
  | nil => rfl
  | cons q l ih =>
    rw [regVal_cons, h q (by simp), ih (fun q hq => h q (by simp [hq]))]; rfl

/-- Two states with the same register value agree on the register. -/
theorem regVal_inj {l : List Q} {s t : St Q} (h : regVal l s = regVal l t) :
    ∀ q ∈ l, s q = t q := by
  induction l with
  | nil => simp
  | cons q l ih =>
    simp only [regVal_cons] at h
    have h1 : (s q).toNat = (t q).toNat ∧ regVal l s = regVal l t := by
      have := Bool.toNat_le (s q); have := Bool.toNat_le (t q); omega
    intro x hx
    rcases List.mem_cons.1 hx with rfl | hx
    · revert h1; cases s x <;> cases t x <;> simp
    · exact ih h1.2 x hx

theorem regVal_take (l : List Q) (s : St Q) (n : Nat) :
    regVal (l.take n) s = regVal l s % 2 ^ n := by
  rcases Nat.lt_or_ge n l.length with h | h
  · have h1 : regVal l s = regVal (l.take n) s + 2 ^ n * regVal (l.drop n) s := by
      conv_lhs => rw [← List.take_append_drop n l, regVal_append, List.length_take,
        Nat.min_eq_left h.le]
    have h2 := regVal_lt (l.take n) s
    rw [List.length_take, Nat.min_eq_left h.le] at h2
    rw [h1, Nat.add_mul_mod_self_left, Nat.mod_eq_of_lt h2]
  · rw [List.take_of_length_le h, Nat.mod_eq_of_lt]
    exact lt_of_lt_of_le (regVal_lt l s) (Nat.pow_le_pow_right (by norm_num) h)

/-- One step of modular reduction on a little-endian value. -/
theorem mod_step {x Z P : Nat} (hx : x ≤ 1) (hp : 0 < P) :
    (x + 2 * Z) % (2 * P) = x + 2 * (Z % P) := by
  rw [Nat.add_mod, Nat.mul_mod_mul_left]
  have h1 : x % (2 * P) = x := Nat.mod_eq_of_lt (by omega)
  have h2 := Nat.mod_lt Z hp
  rw [h1, Nat.mod_eq_of_lt (by omega)]

theorem add_mod_mid (x y z P : Nat) : (x + y % P + z) % P = (x + y + z) % P := by
  rw [Nat.add_mod (x + y % P), Nat.add_mod x, Nat.mod_mod, ← Nat.add_mod x, ← Nat.add_mod]

/-- `a` cut to `n` bits and padded with zero qubits has the value of `a` modulo `2^n`. -/
theorem regVal_take_pad (a ext : List Q) (s : St Q) (n : Nat) (h : ∀ q ∈ ext, s q = false) :
    regVal (a.take n ++ ext) s = regVal a s % 2 ^ n := by
  rw [regVal_append, regVal_zero h, regVal_take]; simp

end Verif.Rev
