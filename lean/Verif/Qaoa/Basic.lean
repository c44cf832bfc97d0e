import Verif.Sbp.Value
import Mathlib.Analysis.SpecialFunctions.Trigonometric.Basic

/-!
# Gates of QAOA circuits

Amplitudes over the basis states of a register (`St Q = Q → Bool`), gates with real angles, and circuits that only
multiply each amplitude by a phase.
-/

set_option linter.unusedSectionVars false

namespace Verif.Qaoa

open Verif.Rev Verif.Fourier Verif.Sbp

variable {Q : Type} [DecidableEq Q]

/-- `e^{it}`. -/
noncomputable def ei (t : ℝ) : ℂ := Complex.exp (t * Complex.I)

/-- `RXGate` (standard_operations.py:203-218). -/
noncomputable def rxG (t : ℝ) : Bool → Bool → ℂ := fun x y => if x = y then (Real.cos (t / 2) : ℂ) else -Complex.I * (Real.sin (t / 2) : ℂ)

/-- `RYGate` (standard_operations.py:221-236). -/
noncomputable def ryG (t : ℝ) : Bool → Bool → ℂ := fun x y =>
  if x = y then (Real.cos (t / 2) : ℂ) else if x then (Real.sin (t / 2) : ℂ) else -(Real.sin (t / 2) : ℂ)

/-- `RZGate` (standard_operations.py:239-254). -/
noncomputable def rzG (t : ℝ) : Bool → Bool → ℂ := fun x y => if x = y then (if x then ei (t / 2) else ei (-t / 2)) else 0

/-- `XGate`. -/
def xG : Bool → Bool → ℂ := fun x y => if x = y then 0 else 1

/-- `HGate`. -/
noncomputable def hG : Bool → Bool → ℂ := fun x y => if x && y then -rt else rt

/-- Gates: global phase, a one-qubit matrix, a one-qubit matrix under a condition on other qubits (a control on a
`QuantumBool` which is computed before and uncomputed after), CX, and a phase where the listed qubits have the listed
values (`mcp` with its control state). -/
inductive QG (Q : Type) where
  | gph (t : ℝ)
  | g1 (M : Bool → Bool → ℂ) (q : Q)
  | cg1 (c : (Q → Bool) → Bool) (M : Bool → Bool → ℂ) (q : Q)
  | cx (c t : Q)
  | mcp (t : ℝ) (cs : List (Q × Bool))

/-- Action of a one-qubit matrix. -/
noncomputable def app1 (M : Bool → Bool → ℂ) (q : Q) (ψ : St Q → ℂ) : St Q → ℂ :=
  fun s => M (s q) false * ψ (upd s q false) + M (s q) true * ψ (upd s q true)

noncomputable def QG.app : QG Q → (St Q → ℂ) → (St Q → ℂ)
  | .gph t, ψ => fun s => ei t * ψ s
  | .g1 M q, ψ => app1 M q ψ
  | .cg1 c M q, ψ => fun s => if c s then app1 M q ψ s else ψ s
  | .cx c t, ψ => fun s => ψ (upd s t (s t ^^ s c))
  | .mcp t cs, ψ => fun s => (if cs.all fun c => s c.1 == c.2 then ei t else 1) * ψ s

noncomputable def run : List (QG Q) → (St Q → ℂ) → (St Q → ℂ)
  | [], ψ => ψ
  | g :: gs, ψ => run gs (g.app ψ)

/-- `p(phi, q)`. -/
def pG (t : ℝ) (q : Q) : QG Q := .mcp t [(q, true)]

/-- `RZZGate` (standard_operations.py:394-421), by its definition. -/
noncomputable def rzz (phi : ℝ) (a b : Q) : List (QG Q) := [.cx a b, .gph (-phi / 2), pG phi b, .cx a b]

/-- `rz(phi, q)`. -/
noncomputable def rz (phi : ℝ) (q : Q) : QG Q := .g1 (rzG phi) q

/-- `rx(phi, q)`. -/
noncomputable def rx (phi : ℝ) (q : Q) : QG Q := .g1 (rxG phi) q

/-! ### Specification: circuits that multiply amplitudes by a phase -/

/-- The circuit multiplies the amplitude of `s` by `e^{i f(s)}`. -/
def Diag (gs : List (QG Q)) (f : St Q → ℝ) : Prop := ∀ ψ s, run gs ψ s = ei (f s) * ψ s

/-- `+1` for 0 and `-1` for 1: the eigenvalue of Pauli Z. -/
def zv (b : Bool) : ℝ := if b then -1 else 1

/-! ### Lemmas -/

theorem ei_zero : ei 0 = 1 := by simp [ei]

theorem ei_add (a b : ℝ) : ei (a + b) = ei a * ei b := by unfold ei; rw [← Complex.exp_add]; congr 1; push_cast; ring

theorem ei_ne (a : ℝ) : ei a ≠ 0 := Complex.exp_ne_zero _

theorem run_append (A B : List (QG Q)) (ψ : St Q → ℂ) : run (A ++ B) ψ = run B (run A ψ) := by
  induction A generalizing ψ with
  | nil => rfl
  | cons g A ih => exact ih _

theorem Diag.nil : Diag ([] : List (QG Q)) fun _ => 0 := fun ψ s => by rw [ei_zero, one_mul]; rfl

theorem Diag.append {A B : List (QG Q)} {f g : St Q → ℝ} (hA : Diag A f) (hB : Diag B g) : Diag (A ++ B) fun s => f s + g s := fun ψ s => by
  rw [run_append, hB, hA, ei_add]; ring

theorem Diag.cons {a : QG Q} {B : List (QG Q)} {f g : St Q → ℝ} (hA : Diag [a] f) (hB : Diag B g) : Diag (a :: B) fun s => f s + g s :=
  Diag.append hA hB

theorem Diag.congr {A : List (QG Q)} {f g : St Q → ℝ} (hA : Diag A f) (h : ∀ s, g s = f s) : Diag A g := fun ψ s => by rw [hA, h]

theorem Diag.flatMap {α : Type} (l : List α) (F : α → List (QG Q)) (f : α → St Q → ℝ) (h : ∀ a ∈ l, Diag (F a) (f a)) :
    Diag (l.flatMap F) fun s => (l.map fun a => f a s).sum := by
  induction l with
  | nil => exact Diag.nil
  | cons a l ih =>
    rw [List.flatMap_cons]
    exact (Diag.append (h a List.mem_cons_self) (ih fun b hb => h b (List.mem_cons_of_mem _ hb))).congr fun s => by
      rw [List.map_cons, List.sum_cons]

theorem Diag.map {α : Type} (l : List α) (F : α → QG Q) (f : α → St Q → ℝ) (h : ∀ a ∈ l, Diag [F a] (f a)) :
    Diag (l.map F) fun s => (l.map fun a => f a s).sum := by
  have := Diag.flatMap l (fun a => [F a]) f h
  rwa [← List.map_eq_flatMap] at this

theorem diag_gph (t : ℝ) : Diag [(QG.gph t : QG Q)] fun _ => t := fun _ _ => rfl

theorem diag_rz (t : ℝ) (q : Q) : Diag [rz t q] fun s => -t / 2 * zv (s q) := fun ψ s => by
  show app1 (rzG t) q ψ s = _
  have hu : ψ (upd s q (s q)) = ψ s := by rw [upd_self]
  unfold app1 rzG zv
  cases h : s q
  · rw [h] at hu
    simp [hu, h]
  · rw [h] at hu
    simp [hu, h, neg_div]

theorem diag_mcp (t : ℝ) (cs : List (Q × Bool)) : Diag [QG.mcp t cs] fun s => if cs.all fun c => s c.1 == c.2 then t else 0 := fun ψ s => by
  show (if _ then _ else _) * _ = _
  by_cases h : (cs.all fun c => s c.1 == c.2) = true
  · rw [if_pos h]; beta_reduce; rw [if_pos h]
  · rw [if_neg h]; beta_reduce; rw [if_neg h, ei_zero]

theorem cx_cx {a b : Q} (h : a ≠ b) (s : St Q) : upd (upd s b (s b ^^ s a)) b ((upd s b (s b ^^ s a)) b ^^ (upd s b (s b ^^ s a)) a) = s := by
  rw [upd_upd, Rev.upd_same, Rev.upd_ne h, Bool.xor_assoc, Bool.xor_self, Bool.xor_false, upd_self]

/-- A diagonal circuit between two equal CX gates. -/
theorem diag_cx {a b : Q} (hab : a ≠ b) {A : List (QG Q)} {f : St Q → ℝ} (hA : Diag A f) :
    Diag ([.cx a b] ++ A ++ [.cx a b]) fun s => f (upd s b (s b ^^ s a)) := fun ψ s => by
  rw [run_append, run_append]
  show run A (run [.cx a b] ψ) (upd s b (s b ^^ s a)) = _
  rw [hA]
  show _ * ψ (upd _ _ _) = _
  rw [cx_cx hab]

theorem diag_rzz (phi : ℝ) {a b : Q} (hab : a ≠ b) : Diag (rzz phi a b) fun s => -phi / 2 * (zv (s a) * zv (s b)) := by
  have h := diag_cx hab ((diag_gph (Q := Q) (-phi / 2)).append (diag_mcp phi [(b, true)]))
  refine Diag.congr h fun s => ?_
  simp only [List.all_cons, List.all_nil, Rev.upd_same, zv]
  cases s a <;> cases s b <;> simp <;> ring

end Verif.Qaoa
