import Verif.Rev.Basic
import Mathlib.Algebra.Group.Basic

/-!
# Multi controlled X gates: gates with relative phases

Basis states with a phase. Phase tolerant gates (`method="gray_pt"`) act like a multi controlled X gate times an
unspecified phase that depends on the values of their qubits; theorems hold for every choice of the phases.
-/

set_option linter.unusedSectionVars false

namespace Verif.Mcx

open Verif.Rev

variable {Q : Type} [DecidableEq Q] {G : Type} [CommGroup G]

/-- Gates used by the mcx algorithms: X with any number of controls, its phase tolerant variant and the inverse of
that, the logical AND (`method="gidney"`) and its inverse, the phase gate `p` and the multi controlled phase gate. -/
inductive PGate (Q G : Type) where
  | mcx (cs : List Q) (t : Q)
  | pt (cs : List Q) (t : Q)
  | ptInv (cs : List Q) (t : Q)
  | land (a b t : Q)
  | landInv (a b t : Q)
  | ph (z : G) (t : Q)
  | cph (z : G) (cs : List Q)

/-- All controls are 1. -/
def allOn (cs : List Q) (s : St Q) : Bool := cs.all s

/-- One gate on a basis state with phase. The logical AND needs a target in state 0, its inverse a target that
holds the AND; otherwise the action is not a basis state with phase, or not deterministic (`none`). -/
def PGate.exec (φ : List Bool → Bool → G) : PGate Q G → St Q × G → Option (St Q × G)
  | .mcx cs t, (s, g) => some (upd s t (s t ^^ allOn cs s), g)
  | .pt cs t, (s, g) => some (upd s t (s t ^^ allOn cs s), g * φ (cs.map s) (s t))
  | .ptInv cs t, (s, g) => some (upd s t (s t ^^ allOn cs s), g * (φ (cs.map s) (s t ^^ allOn cs s))⁻¹)
  | .land a b t, (s, g) => if s t then none else some (upd s t (s a && s b), g)
  | .landInv a b t, (s, g) => if s t = (s a && s b) then some (upd s t false, g) else none
  | .ph z t, (s, g) => some (s, if s t then g * z else g)
  | .cph z cs, (s, g) => some (s, if allOn cs s then g * z else g)

def exec (φ : List Bool → Bool → G) : List (PGate Q G) → St Q × G → Option (St Q × G)
  | [], x => some x
  | g :: gs, x => (g.exec φ x).bind (exec φ gs)

/-- Inverse of a gate. -/
def PGate.inv : PGate Q G → PGate Q G
  | .mcx cs t => .mcx cs t
  | .pt cs t => .ptInv cs t
  | .ptInv cs t => .pt cs t
  | .land a b t => .landInv a b t
  | .landInv a b t => .land a b t
  | .ph z t => .ph z⁻¹ t
  | .cph z cs => .cph z⁻¹ cs

/-- `with invert()`. -/
def inv (gs : List (PGate Q G)) : List (PGate Q G) := (gs.map PGate.inv).reverse

/-- `with conjugate(A)(...): B`. -/
def conj (A B : List (PGate Q G)) : List (PGate Q G) := A ++ B ++ inv A

/-- All qubits of a gate. -/
def PGate.qubits : PGate Q G → List Q
  | .mcx cs t | .pt cs t | .ptInv cs t => t :: cs
  | .land a b t | .landInv a b t => [t, a, b]
  | .ph _ t => [t]
  | .cph _ cs => cs

/-- Controls and target differ. -/
def PGate.wf : PGate Q G → Prop
  | .mcx cs t | .pt cs t | .ptInv cs t => t ∉ cs
  | .land a b t | .landInv a b t => a ≠ t ∧ b ≠ t
  | .ph _ _ => True
  | .cph _ _ => True

theorem exec_append (φ : List Bool → Bool → G) (A B : List (PGate Q G)) (x : St Q × G) :
    exec φ (A ++ B) x = (exec φ A x).bind (exec φ B) := by
  induction A generalizing x with
  | nil => rfl
  | cons g A ih =>
    rw [List.cons_append, exec, exec]
    cases h : g.exec φ x with
    | none => rfl
    | some y => exact ih y

theorem upd_comm {s : St Q} {a b : Q} (h : a ≠ b) (v w : Bool) : upd (upd s a v) b w = upd (upd s b w) a v := by
  funext x
  simp only [upd]
  by_cases h1 : x = a
  · subst h1; simp [h]
  · simp [h1]

theorem upd_upd (s : St Q) (a : Q) (v w : Bool) : upd (upd s a v) a w = upd s a w := by
  funext x
  simp only [upd]
  by_cases h1 : x = a <;> simp [h1]

theorem upd_self (s : St Q) (a : Q) : upd s a (s a) = s := by
  funext x
  simp only [upd]
  by_cases h1 : x = a <;> simp [h1]

theorem map_upd {s : St Q} {t : Q} {v : Bool} {cs : List Q} (h : t ∉ cs) : cs.map (upd s t v) = cs.map s := by
  apply List.map_congr_left
  intro c hc
  rw [upd_ne]
  rintro rfl
  exact h hc

theorem allOn_upd {s : St Q} {t : Q} {v : Bool} {cs : List Q} (h : t ∉ cs) : allOn cs (upd s t v) = allOn cs s := by
  unfold allOn
  rw [Bool.eq_iff_iff, List.all_eq_true, List.all_eq_true]
  refine forall₂_congr fun c hc => ?_
  rw [upd_ne]
  rintro rfl
  exact h hc

/-- Phases multiply. -/
theorem gate_phase (φ : List Bool → Bool → G) (p : PGate Q G) (s : St Q) (g h : G) :
    p.exec φ (s, g * h) = (p.exec φ (s, h)).map fun x => (x.1, g * x.2) := by
  cases p with
  | mcx cs t => rfl
  | pt cs t => simp [PGate.exec, mul_assoc]
  | ptInv cs t => simp [PGate.exec, mul_assoc]
  | land a b t => simp only [PGate.exec]; split <;> rfl
  | landInv a b t => simp only [PGate.exec]; split <;> rfl
  | ph z t => simp only [PGate.exec, Option.map_some]; split <;> simp [mul_assoc]
  | cph z cs => simp only [PGate.exec, Option.map_some]; split <;> simp [mul_assoc]

/-- The inverse gate undoes a gate, also if another qubit has changed in between. -/
theorem gate_inv (φ : List Bool → Bool → G) (p : PGate Q G) (hw : p.wf) {s s' : St Q} {g g' : G}
    (h : p.exec φ (s, g) = some (s', g')) (k : G) :
    p.inv.exec φ (s', k) = some (s, k * (g'⁻¹ * g)) := by
  cases p with
  | mcx cs t =>
    simp only [PGate.exec, Option.some.injEq, Prod.mk.injEq] at h
    obtain ⟨rfl, rfl⟩ := h
    simp only [PGate.inv, PGate.exec, allOn_upd hw, upd_same, upd_upd]
    simp [upd_self]
  | pt cs t =>
    simp only [PGate.exec, Option.some.injEq, Prod.mk.injEq] at h
    obtain ⟨rfl, rfl⟩ := h
    simp only [PGate.inv, PGate.exec, allOn_upd hw, map_upd hw, upd_same, upd_upd]
    simp [upd_self]
  | ptInv cs t =>
    simp only [PGate.exec, Option.some.injEq, Prod.mk.injEq] at h
    obtain ⟨rfl, rfl⟩ := h
    simp only [PGate.inv, PGate.exec, allOn_upd hw, map_upd hw, upd_same, upd_upd]
    simp [upd_self]
  | land a b t =>
    simp only [PGate.exec] at h
    split at h
    · cases h
    · rename_i ht
      simp only [Option.some.injEq, Prod.mk.injEq] at h
      obtain ⟨rfl, rfl⟩ := h
      simp only [PGate.inv, PGate.exec, upd_same, upd_ne hw.1, upd_ne hw.2, upd_upd, if_true]
      have : upd s t false = s := by
        have h1 : s t = false := by simpa using ht
        rw [← h1, upd_self]
      simp [this]
  | landInv a b t =>
    simp only [PGate.exec] at h
    split at h
    · rename_i ht
      simp only [Option.some.injEq, Prod.mk.injEq] at h
      obtain ⟨rfl, rfl⟩ := h
      simp only [PGate.inv, PGate.exec, upd_same, upd_ne hw.1, upd_ne hw.2, upd_upd, Bool.false_eq_true, if_false]
      rw [← ht, upd_self]
      simp
    · cases h
  | ph z t =>
    simp only [PGate.exec, Option.some.injEq, Prod.mk.injEq] at h
    obtain ⟨rfl, rfl⟩ := h
    simp only [PGate.inv, PGate.exec]
    split <;> simp
  | cph z cs =>
    simp only [PGate.exec, Option.some.injEq, Prod.mk.injEq] at h
    obtain ⟨rfl, rfl⟩ := h
    simp only [PGate.inv, PGate.exec]
    split <;> simp

/-- A gate does not see a qubit it does not use. -/
theorem gate_frame (φ : List Bool → Bool → G) (p : PGate Q G) {q : Q} (hq : q ∉ p.qubits) (v : Bool) (s : St Q) (g : G) :
    p.exec φ (upd s q v, g) = (p.exec φ (s, g)).map fun x => (upd x.1 q v, x.2) := by
  cases p with
  | mcx cs t =>
    simp only [PGate.qubits, List.mem_cons, not_or] at hq
    simp only [PGate.exec, Option.map_some, allOn_upd hq.2, upd_ne (Ne.symm hq.1), upd_comm hq.1]
  | pt cs t =>
    simp only [PGate.qubits, List.mem_cons, not_or] at hq
    simp only [PGate.exec, Option.map_some, allOn_upd hq.2, map_upd hq.2, upd_ne (Ne.symm hq.1), upd_comm hq.1]
  | ptInv cs t =>
    simp only [PGate.qubits, List.mem_cons, not_or] at hq
    simp only [PGate.exec, Option.map_some, allOn_upd hq.2, map_upd hq.2, upd_ne (Ne.symm hq.1), upd_comm hq.1]
  | land a b t =>
    simp only [PGate.qubits, List.mem_cons, List.not_mem_nil, or_false, not_or] at hq
    simp only [PGate.exec, upd_ne (Ne.symm hq.1), upd_ne (Ne.symm hq.2.1), upd_ne (Ne.symm hq.2.2)]
    split
    · rfl
    · simp only [Option.map_some, upd_comm hq.1]
  | landInv a b t =>
    simp only [PGate.qubits, List.mem_cons, List.not_mem_nil, or_false, not_or] at hq
    simp only [PGate.exec, upd_ne (Ne.symm hq.1), upd_ne (Ne.symm hq.2.1), upd_ne (Ne.symm hq.2.2)]
    split
    · simp only [Option.map_some, upd_comm hq.1]
    · rfl
  | ph z t =>
    simp only [PGate.qubits, List.mem_cons, List.not_mem_nil, or_false] at hq
    simp only [PGate.exec, upd_ne (Ne.symm hq), Option.map_some]
  | cph z cs =>
    replace hq : q ∉ cs := hq
    simp only [PGate.exec, allOn_upd hq, Option.map_some]

theorem inv_qubits (p : PGate Q G) : p.inv.qubits = p.qubits := by cases p <;> rfl

theorem inv_wf (p : PGate Q G) : p.inv.wf ↔ p.wf := by cases p <;> exact Iff.rfl

theorem inv_cons (p : PGate Q G) (A : List (PGate Q G)) : inv (p :: A) = inv A ++ [p.inv] := by
  simp [inv]

/-- The inverse circuit undoes a circuit up to the phase collected in between. -/
theorem exec_inv (φ : List Bool → Bool → G) : ∀ (A : List (PGate Q G)), (∀ p ∈ A, p.wf) → ∀ {s s' : St Q} {g g' : G},
    exec φ A (s, g) = some (s', g') → ∀ k, exec φ (inv A) (s', k) = some (s, k * (g'⁻¹ * g)) := by
  intro A
  induction A with
  | nil =>
    intro _ s s' g g' h k
    simp only [exec, Option.some.injEq, Prod.mk.injEq] at h
    obtain ⟨rfl, rfl⟩ := h
    simp [inv, exec]
  | cons p A ih =>
    intro hw s s' g g' h k
    rw [exec] at h
    obtain ⟨⟨s1, g1⟩, h1, h2⟩ := Option.bind_eq_some_iff.1 h
    rw [inv_cons, exec_append, ih (fun p hp => hw p (by simp [hp])) h2 k]
    simp only [Option.bind_some, exec]
    rw [gate_inv φ p (hw p (by simp)) h1]
    simp only [Option.bind_some, Option.some.injEq, Prod.mk.injEq, true_and]
    rw [mul_assoc, mul_assoc, mul_inv_cancel_left]

theorem exec_frame (φ : List Bool → Bool → G) : ∀ (A : List (PGate Q G)) {q : Q}, (∀ p ∈ A, q ∉ p.qubits) →
    ∀ (v : Bool) (s : St Q) (g : G), exec φ A (upd s q v, g) = (exec φ A (s, g)).map fun x => (upd x.1 q v, x.2) := by
  intro A
  induction A with
  | nil => intros; rfl
  | cons p A ih =>
    intro q hq v s g
    rw [exec, exec, gate_frame φ p (hq p (by simp))]
    cases h : p.exec φ (s, g) with
    | none => rfl
    | some x =>
      obtain ⟨s1, g1⟩ := x
      exact ih (fun p hp => hq p (by simp [hp])) v s1 g1

/-- Conjugation: if `A` leads to `s₁`, and `B` only changes a qubit outside `A` and the phase, the conjugation does
just this. -/
theorem exec_conj (φ : List Bool → Bool → G) {A B : List (PGate Q G)} (hw : ∀ p ∈ A, p.wf) {q : Q}
    (hq : ∀ p ∈ A, q ∉ p.qubits) {s s1 : St Q} {g g1 z : G} {v : Bool} (hA : exec φ A (s, g) = some (s1, g1))
    (hB : exec φ B (s1, g1) = some (upd s1 q v, g1 * z)) :
    exec φ (conj A B) (s, g) = some (upd s q v, g * z) := by
  unfold conj
  rw [exec_append, exec_append, hA, Option.bind_some, hB, Option.bind_some, exec_frame]
  · rw [exec_inv φ A hw hA]
    simp only [Option.map_some, Option.some.injEq, Prod.mk.injEq, true_and]
    rw [mul_comm g1 z, mul_assoc, mul_inv_cancel_left, mul_comm]
  · intro p hp
    unfold inv at hp
    rw [List.mem_reverse] at hp
    obtain ⟨r, hr, rfl⟩ := List.mem_map.1 hp
    rw [inv_qubits]
    exact hq r hr

end Verif.Mcx
