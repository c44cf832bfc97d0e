import Verif.Circ.Sem
import Mathlib.Analysis.SpecialFunctions.Trigonometric.Basic
import Mathlib.Analysis.SpecialFunctions.Exp

/-!
Model of the unitary operations of `/repo/src/qrisp/circuit/operation.py` and
`/repo/src/qrisp/circuit/standard_operations.py`, their inverses, and the circuits made of them.
-/

namespace Verif.Circ

open Verif.Rev (upd)

/-- simulator/unitary_management.py:38-64 `u3matrix(theta, phi, lam, global_phase)`, exact reals. -/
noncomputable def u3m (θ φ lam g : ℝ) : M2 := fun i j =>
  Complex.exp (Complex.I * g) * match i, j with
    | false, false => Complex.cos (θ / 2)
    | false, true => -Complex.exp (Complex.I * lam) * Complex.sin (θ / 2)
    | true, false => Complex.exp (Complex.I * φ) * Complex.sin (θ / 2)
    | true, true => Complex.exp (Complex.I * (φ + lam)) * Complex.cos (θ / 2)

/-- The names of `PauliGate`. -/
inductive Pauli where
  | x | y | z
  deriving DecidableEq

/-- simulator/unitary_management.py:30-32. -/
def Pauli.mat : Pauli → M2
  | .x => fun i j => if i = j then 0 else 1
  | .y => fun i j => match i, j with
    | false, true => -Complex.I
    | true, false => Complex.I
    | _, _ => 0
  | .z => fun i j => match i, j with
    | false, false => 1
    | true, true => -1
    | _, _ => 0

/-- Unitary operations. Qubits of a definition circuit are numbered `0 … n-1`; an instruction is an
operation with the list of its qubits. Classical bits are not part of this model.
* `u3`: operation.py:432-456 `U3Gate`; all named single qubit gates are instances of it.
* `pauli`: operation.py:574-603 `PauliGate`.
* `alloc`, `dealloc`, `barrier`: standard_operations.py:609-638, 462-481 (unitary: identity).
* `swap`: standard_operations.py:583-606.
* `gate`: operation.py:84-149 `Operation` with a definition.
* `ctrl`: operation.py:826-840 `ControlledOperation`, determined by base operation and control state
  (lines 856-866: its unitary is the controlled unitary of the base operation).
* `pt`: operation.py:630-783 `PTControlledOperation`; its unitary is the one of its definition. -/
inductive Op where
  | u3 (name : String) (θ φ lam g : ℝ)
  | pauli (p : Pauli)
  | alloc
  | dealloc
  | barrier (n : Nat)
  | swap
  | gate (name : String) (n : Nat) (body : List (Op × List Nat))
  | ctrl (base : Op) (st : List Bool)
  | pt (base : Op) (st : List Bool) (body : List (Op × List Nat))

/-- `num_qubits`. -/
def Op.arity : Op → Nat
  | .u3 .. => 1
  | .pauli _ => 1
  | .alloc => 1
  | .dealloc => 1
  | .barrier n => n
  | .swap => 2
  | .gate _ n _ => n
  | .ctrl b st => st.length + b.arity
  | .pt b st _ => st.length + b.arity

/-- operation.py:493-498, 511-512: name of an inverted `U3Gate`. -/
def u3InvName (name : String) : String :=
  if name ∈ ["p", "rz", "rx", "ry", "gphase", "h", "u3"] then name
  else if name.endsWith "_dg" then (name.dropEnd 3).toString else name ++ "_dg"

/-- operation.py:269-272: name of an inverted composite operation. -/
def gateInvName (name : String) : String :=
  if name.endsWith "_dg" then (name.dropEnd 3).toString else name ++ "_dg"

/-- quantum_circuit.py:405: the instructions kept by `to_op`. -/
def dropAlloc : List (Op × List Nat) → List (Op × List Nat)
  | [] => []
  | (.alloc, _) :: r => dropAlloc r
  | (.dealloc, _) :: r => dropAlloc r
  | x :: r => x :: dropAlloc r

mutual
/-- operation.py:489-520 (`U3Gate`), 605-606 (`PauliGate`), 277-286 (alloc, dealloc, barrier),
standard_operations.py:601 (swap), 266-275 (definition), 842-848 (`ControlledOperation`), 785-808
(`PTControlledOperation`). -/
noncomputable def Op.inv : Op → Op
  | .u3 nm θ φ lam g => .u3 (u3InvName nm) (-θ) (-lam) (-φ) (-g)
  | .pauli p => .pauli p
  | .alloc => .dealloc
  | .dealloc => .alloc
  | .barrier n => .barrier n
  | .swap => .swap
  | .gate nm n body => .gate (gateInvName nm) n (dropAlloc (invBody body))
  | .ctrl b st => .ctrl b.inv st
  | .pt b st body => .pt b.inv st (invBody body)
/-- quantum_circuit.py:669-704 `QuantumCircuit.inverse`: inverted instructions in reversed order. -/
noncomputable def invBody : List (Op × List Nat) → List (Op × List Nat)
  | [] => []
  | (o, qs) :: r => invBody r ++ [(o.inv, qs)]
end

/-! ### Semantics -/

variable {Q : Type} [DecidableEq Q]

/-- Apply a single qubit gate to a one element qubit list. -/
noncomputable def on1 (U : M2) : List Q → Amp Q → Amp Q
  | [q], ψ => app1 U q ψ
  | _, ψ => ψ

/-- Exchange two qubits. -/
def swapAmp : List Q → Amp Q → Amp Q
  | [p, q], ψ => fun b => ψ (upd (upd b p (b q)) q (b p))
  | _, ψ => ψ

/-- The qubits with the given numbers. -/
def pick (qs : List Q) (is : List Nat) : List Q := is.filterMap fun i => qs[i]?

mutual
/-- The operator of an operation on the qubits `qs`. -/
noncomputable def den : Op → List Q → Amp Q → Amp Q
  | .u3 _ θ φ lam g, qs, ψ => on1 (u3m θ φ lam g) qs ψ
  | .pauli p, qs, ψ => on1 p.mat qs ψ
  | .alloc, _, ψ => ψ
  | .dealloc, _, ψ => ψ
  | .barrier _, _, ψ => ψ
  | .swap, qs, ψ => swapAmp qs ψ
  | .gate _ _ body, qs, ψ => denBody body qs ψ
  | .ctrl b st, qs, ψ => ctl (ctlMatch (qs.take st.length) st) (den b (qs.drop st.length)) ψ
  | .pt _ _ body, qs, ψ => denBody body qs ψ
/-- The operator of a circuit whose qubits are `qs`: the instructions in order. -/
noncomputable def denBody : List (Op × List Nat) → List Q → Amp Q → Amp Q
  | [], _, ψ => ψ
  | (o, is) :: r, qs, ψ => denBody r qs (den o (pick qs is) ψ)
end

mutual
/-- Every instruction uses as many distinct registered qubits as its operation needs. -/
def Op.WF : Op → Prop
  | .gate _ n body => WFBody n body
  | .ctrl b _ => b.WF
  | .pt b st body => b.WF ∧ WFBody (st.length + b.arity) body
  | _ => True
/-- Well-formedness of the instructions of a circuit with `n` qubits. -/
def WFBody (n : Nat) : List (Op × List Nat) → Prop
  | [] => True
  | (o, is) :: r => o.WF ∧ is.Nodup ∧ (∀ i ∈ is, i < n) ∧ is.length = o.arity ∧ WFBody n r
end

/-! ### Locality -/

/-- The set of the qubits of a list. -/
def supp (qs : List Q) : Set Q := {q | q ∈ qs}

theorem on1_loc (U : M2) (qs : List Q) : Loc (supp qs) (on1 U qs) := by
  match qs with
  | [] => exact Loc.id _
  | [q] => exact (Loc.app1 U q).mono (by simp [supp])
  | _ :: _ :: _ => exact Loc.id _

theorem swap_loc (qs : List Q) : Loc (supp qs) (swapAmp qs) := by
  match qs with
  | [] => exact Loc.id _
  | [_] => exact Loc.id _
  | [p, q] =>
    refine ⟨[⟨fun _ => 1, fun b => upd (upd b p (b q)) q (b p), fun _ _ _ => rfl, ?_, ?_⟩],
      fun ψ b => by simp [Term.sum, swapAmp]⟩
    · intro b c h r hr
      have hp := h p (by simp [supp])
      have hq := h q (by simp [supp])
      have := h r hr
      simp only [upd]
      rw [hp, hq, this]
    · intro b r hr
      have h1 : r ≠ p := fun e => hr (by simp [supp, e])
      have h2 : r ≠ q := fun e => hr (by simp [supp, e])
      simp [upd, h1, h2]
  | _ :: _ :: _ :: _ => exact Loc.id _

theorem pick_subset (qs : List Q) (is : List Nat) : supp (pick qs is) ⊆ supp qs := by
  intro q hq
  simp only [supp, pick, Set.mem_setOf_eq, List.mem_filterMap] at hq ⊢
  obtain ⟨i, _, hi⟩ := hq
  exact List.mem_of_getElem? hi

mutual
/-- Every operation acts on its qubits only. -/
theorem den_loc : ∀ (o : Op) (qs : List Q), Loc (supp qs) (den o qs)
  | .u3 .., qs => by simp only [den]; exact on1_loc _ _
  | .pauli _, qs => by simp only [den]; exact on1_loc _ _
  | .alloc, qs => by simp only [den]; exact Loc.id _
  | .dealloc, qs => by simp only [den]; exact Loc.id _
  | .barrier _, qs => by simp only [den]; exact Loc.id _
  | .swap, qs => by simp only [den]; exact swap_loc _
  | .gate _ _ body, qs => by
    have := denBody_loc body qs
    simpa only [den] using this
  | .ctrl b st, qs => by
    have h := den_loc b (qs.drop st.length)
    simp only [den]
    refine Loc.ctl (h.mono ?_) ?_
    · intro q hq; exact List.mem_of_mem_drop hq
    · intro b c hbc
      exact ctlMatch_agree _ _ fun q hq => hbc q (List.mem_of_mem_take hq)
  | .pt _ _ body, qs => by
    have := denBody_loc body qs
    simpa only [den] using this
theorem denBody_loc : ∀ (body : List (Op × List Nat)) (qs : List Q), Loc (supp qs) (denBody body qs)
  | [], qs => by simp only [denBody]; exact Loc.id _
  | (o, is) :: r, qs => by
    have h1 := den_loc o (pick qs is)
    have h2 := denBody_loc r qs
    simp only [denBody]
    exact h2.comp (h1.mono (pick_subset qs is))
end

/-! ### Inverses -/

theorem u3m_inv (θ φ lam g : ℝ) : u3m (-θ) (-lam) (-φ) (-g) * u3m θ φ lam g = 1 := by
  have hE : ∀ a : ℝ, Complex.exp (Complex.I * ((-a : ℝ) : ℂ)) * Complex.exp (Complex.I * a) = 1 := by
    intro a
    rw [← Complex.exp_add]
    push_cast
    rw [show Complex.I * -(a : ℂ) + Complex.I * a = 0 by ring, Complex.exp_zero]
  have hs : Complex.cos (θ / 2) ^ 2 + Complex.sin (θ / 2) ^ 2 = 1 := by
    rw [add_comm]; exact Complex.sin_sq_add_cos_sq _
  have hn : (((-θ : ℝ) : ℂ) / 2) = -((θ : ℂ) / 2) := by push_cast; ring
  have hadd : ∀ a b : ℝ, Complex.exp (Complex.I * ((a : ℂ) + b))
      = Complex.exp (Complex.I * a) * Complex.exp (Complex.I * b) := by
    intro a b; rw [← Complex.exp_add]; congr 1; ring
  have hg := hE g
  have hl := hE lam
  have hp := hE φ
  ext i j
  rw [Matrix.mul_apply, Fintype.sum_bool]
  cases i <;> cases j <;>
    simp only [u3m, hn, Complex.cos_neg, Complex.sin_neg, hadd, Matrix.one_apply_eq, ne_eq,
      reduceCtorEq, not_false_eq_true, Matrix.one_apply_ne] <;>
    generalize Complex.exp (Complex.I * ((-g : ℝ) : ℂ)) = G' at * <;>
    generalize Complex.exp (Complex.I * (g : ℂ)) = G at * <;>
    generalize Complex.exp (Complex.I * ((-lam : ℝ) : ℂ)) = L' at * <;>
    generalize Complex.exp (Complex.I * (lam : ℂ)) = L at * <;>
    generalize Complex.exp (Complex.I * ((-φ : ℝ) : ℂ)) = P' at * <;>
    generalize Complex.exp (Complex.I * (φ : ℂ)) = P at * <;>
    generalize Complex.cos ((θ : ℂ) / 2) = C at * <;>
    generalize Complex.sin ((θ : ℂ) / 2) = S at *
  · linear_combination (G' * G * S ^ 2) * hp + (C ^ 2 + S ^ 2) * hg + hs
  · linear_combination (G' * G * S * L * C) * hp
  · linear_combination (G' * G * P * S * C) * hl * 0 + (G' * G * L' * C * S) * hp
  · linear_combination (G' * G * (S ^ 2 + C ^ 2 * P' * P)) * hl + (G' * G * C ^ 2) * hp
      + (S ^ 2 + C ^ 2) * hg + hs

theorem u3m_inv' (θ φ lam g : ℝ) : u3m θ φ lam g * u3m (-θ) (-lam) (-φ) (-g) = 1 := by
  have := u3m_inv (-θ) (-lam) (-φ) (-g)
  simpa only [neg_neg] using this

theorem pauli_inv (p : Pauli) : p.mat * p.mat = 1 := by
  ext i j
  rw [Matrix.mul_apply, Fintype.sum_bool]
  cases p <;> cases i <;> cases j <;> simp [Pauli.mat]

theorem on1_inv {U V : M2} (h : U * V = 1) (qs : List Q) (ψ : Amp Q) : on1 U qs (on1 V qs ψ) = ψ := by
  match qs with
  | [] => rfl
  | [q] => simp only [on1]; rw [app1_app1, h, app1_one]
  | _ :: _ :: _ => rfl

theorem swap_inv (qs : List Q) (hnd : qs.Nodup) (ψ : Amp Q) : swapAmp qs (swapAmp qs ψ) = ψ := by
  match qs with
  | [] => rfl
  | [_] => rfl
  | [p, q] =>
    have hpq : p ≠ q := by simpa using hnd
    funext b
    simp only [swapAmp]
    congr 1
    funext r
    simp only [upd]
    by_cases h1 : r = q
    · subst h1; simp [hpq]
    · by_cases h2 : r = p
      · subst h2; simp [h1]
      · simp [h1, h2]
  | _ :: _ :: _ :: _ => rfl

theorem pick_nodup {qs : List Q} (hnd : qs.Nodup) {is : List Nat} (hi : is.Nodup) :
    (pick qs is).Nodup := by
  unfold pick
  refine List.Nodup.filterMap ?_ hi
  intro i j q h1 h2
  have h1 : qs[i]? = some q := h1
  have h2 : qs[j]? = some q := h2
  obtain ⟨a, ha⟩ := List.getElem?_eq_some_iff.1 h1
  obtain ⟨b, hb⟩ := List.getElem?_eq_some_iff.1 h2
  exact (List.Nodup.getElem_inj_iff hnd).1 (ha.trans hb.symm)

theorem denBody_append (a b : List (Op × List Nat)) (qs : List Q) (ψ : Amp Q) :
    denBody (a ++ b) qs ψ = denBody b qs (denBody a qs ψ) := by
  induction a generalizing ψ with
  | nil => simp [denBody]
  | cons x r ih => obtain ⟨o, is⟩ := x; simp only [List.cons_append, denBody]; exact ih _

theorem denBody_dropAlloc : ∀ (a : List (Op × List Nat)) (qs : List Q) (ψ : Amp Q),
    denBody (dropAlloc a) qs ψ = denBody a qs ψ
  | [], _, _ => rfl
  | (.alloc, _) :: r, qs, ψ => by
    simp only [dropAlloc, denBody, den]; exact denBody_dropAlloc r qs ψ
  | (.dealloc, _) :: r, qs, ψ => by
    simp only [dropAlloc, denBody, den]; exact denBody_dropAlloc r qs ψ
  | (.u3 .., _) :: r, qs, ψ => by simp only [dropAlloc, denBody]; exact denBody_dropAlloc r qs _
  | (.pauli _, _) :: r, qs, ψ => by simp only [dropAlloc, denBody]; exact denBody_dropAlloc r qs _
  | (.barrier _, _) :: r, qs, ψ => by simp only [dropAlloc, denBody]; exact denBody_dropAlloc r qs _
  | (.swap, _) :: r, qs, ψ => by simp only [dropAlloc, denBody]; exact denBody_dropAlloc r qs _
  | (.gate .., _) :: r, qs, ψ => by simp only [dropAlloc, denBody]; exact denBody_dropAlloc r qs _
  | (.ctrl .., _) :: r, qs, ψ => by simp only [dropAlloc, denBody]; exact denBody_dropAlloc r qs _
  | (.pt .., _) :: r, qs, ψ => by simp only [dropAlloc, denBody]; exact denBody_dropAlloc r qs _

theorem ctl_inv {cs ts : List Q} (h : (cs ++ ts).Nodup) (st : List Bool) {T U : Amp Q → Amp Q}
    (hT : Loc (supp ts) T) (hTU : ∀ ψ, T (U ψ) = ψ) (ψ : Amp Q) :
    ctl (ctlMatch cs st) T (ctl (ctlMatch cs st) U ψ) = ψ := by
  rw [ctl_comp hT]
  · simp only [hTU]; exact ctl_id _ _
  · intro b c hbc
    refine ctlMatch_agree _ _ fun q hq => hbc q fun hq' => ?_
    exact (List.nodup_append.1 h).2.2 q hq q hq' rfl

theorem wf_nodup {n : Nat} {o : Op} {is : List Nat} {r : List (Op × List Nat)}
    (h : WFBody n ((o, is) :: r)) : o.WF ∧ is.Nodup ∧ WFBody n r := by
  simp only [WFBody] at h
  exact ⟨h.1, h.2.1, h.2.2.2.2⟩

mutual
theorem den_inv_left : ∀ (o : Op) (qs : List Q) (ψ : Amp Q), o.WF → qs.Nodup →
    den o.inv qs (den o qs ψ) = ψ
  | .u3 .., qs, ψ, _, _ => by simp only [Op.inv, den]; exact on1_inv (u3m_inv _ _ _ _) _ _
  | .pauli p, qs, ψ, _, _ => by simp only [Op.inv, den]; exact on1_inv (pauli_inv p) _ _
  | .alloc, qs, ψ, _, _ => by simp only [Op.inv, den]
  | .dealloc, qs, ψ, _, _ => by simp only [Op.inv, den]
  | .barrier _, qs, ψ, _, _ => by simp only [Op.inv, den]
  | .swap, qs, ψ, _, h => by simp only [Op.inv, den]; exact swap_inv _ h _
  | .gate _ n body, qs, ψ, hw, h => by
    simp only [Op.inv, den, denBody_dropAlloc]
    simp only [Op.WF] at hw
    exact denBody_inv_left body n qs ψ hw h
  | .ctrl b st, qs, ψ, hw, h => by
    simp only [Op.inv, den]
    simp only [Op.WF] at hw
    refine ctl_inv (by rw [List.take_append_drop]; exact h) st (den_loc _ _) (fun φ => ?_) ψ
    exact den_inv_left b _ φ hw (h.sublist (List.drop_sublist _ _))
  | .pt b st body, qs, ψ, hw, h => by
    simp only [Op.inv, den]
    simp only [Op.WF] at hw
    exact denBody_inv_left body _ qs ψ hw.2 h
theorem denBody_inv_left : ∀ (body : List (Op × List Nat)) (n : Nat) (qs : List Q) (ψ : Amp Q),
    WFBody n body → qs.Nodup → denBody (invBody body) qs (denBody body qs ψ) = ψ
  | [], _, qs, ψ, _, _ => by simp only [invBody, denBody]
  | (o, is) :: r, n, qs, ψ, hw, h => by
    obtain ⟨h1, h2, h3⟩ := wf_nodup hw
    simp only [invBody, denBody, denBody_append]
    rw [denBody_inv_left r n qs _ h3 h]
    exact den_inv_left o _ ψ h1 (pick_nodup h h2)
end

mutual
theorem den_inv_right : ∀ (o : Op) (qs : List Q) (ψ : Amp Q), o.WF → qs.Nodup →
    den o qs (den o.inv qs ψ) = ψ
  | .u3 .., qs, ψ, _, _ => by simp only [Op.inv, den]; exact on1_inv (u3m_inv' _ _ _ _) _ _
  | .pauli p, qs, ψ, _, _ => by simp only [Op.inv, den]; exact on1_inv (pauli_inv p) _ _
  | .alloc, qs, ψ, _, _ => by simp only [Op.inv, den]
  | .dealloc, qs, ψ, _, _ => by simp only [Op.inv, den]
  | .barrier _, qs, ψ, _, _ => by simp only [Op.inv, den]
  | .swap, qs, ψ, _, h => by simp only [Op.inv, den]; exact swap_inv _ h _
  | .gate _ n body, qs, ψ, hw, h => by
    simp only [Op.inv, den, denBody_dropAlloc]
    simp only [Op.WF] at hw
    exact denBody_inv_right body n qs ψ hw h
  | .ctrl b st, qs, ψ, hw, h => by
    simp only [Op.inv, den]
    simp only [Op.WF] at hw
    refine ctl_inv (by rw [List.take_append_drop]; exact h) st (den_loc _ _) (fun φ => ?_) ψ
    exact den_inv_right b _ φ hw (h.sublist (List.drop_sublist _ _))
  | .pt b st body, qs, ψ, hw, h => by
    simp only [Op.inv, den]
    simp only [Op.WF] at hw
    exact denBody_inv_right body _ qs ψ hw.2 h
theorem denBody_inv_right : ∀ (body : List (Op × List Nat)) (n : Nat) (qs : List Q) (ψ : Amp Q),
    WFBody n body → qs.Nodup → denBody body qs (denBody (invBody body) qs ψ) = ψ
  | [], _, qs, ψ, _, _ => by simp only [invBody, denBody]
  | (o, is) :: r, n, qs, ψ, hw, h => by
    obtain ⟨h1, h2, h3⟩ := wf_nodup hw
    simp only [invBody, denBody, denBody_append]
    rw [den_inv_right o _ _ h1 (pick_nodup h h2)]
    exact denBody_inv_right r n qs ψ h3 h
end

mutual
theorem arity_inv : ∀ o : Op, o.inv.arity = o.arity
  | .u3 .. => rfl
  | .pauli _ => rfl
  | .alloc => rfl
  | .dealloc => rfl
  | .barrier _ => rfl
  | .swap => rfl
  | .gate .. => by simp only [Op.inv, Op.arity]
  | .ctrl b st => by simp only [Op.inv, Op.arity, arity_inv b]
  | .pt b st _ => by simp only [Op.inv, Op.arity, arity_inv b]
end

theorem WFBody_append (n : Nat) (a b : List (Op × List Nat)) :
    WFBody n (a ++ b) ↔ WFBody n a ∧ WFBody n b := by
  induction a with
  | nil => simp [WFBody]
  | cons x r ih => obtain ⟨o, is⟩ := x; simp only [List.cons_append, WFBody, ih]; tauto

theorem WFBody_dropAlloc (n : Nat) (a : List (Op × List Nat)) (h : WFBody n a) :
    WFBody n (dropAlloc a) := by
  induction a with
  | nil => exact h
  | cons x r ih =>
    obtain ⟨o, is⟩ := x
    have hr := ih (wf_nodup h).2.2
    simp only [WFBody] at h
    cases o <;> simp only [dropAlloc, WFBody] <;> first | exact hr | exact ⟨h.1, h.2.1, h.2.2.1, h.2.2.2.1, hr⟩

mutual
theorem WF_inv : ∀ o : Op, o.WF → o.inv.WF
  | .u3 .., h => h
  | .pauli _, h => h
  | .alloc, h => h
  | .dealloc, h => h
  | .barrier _, h => h
  | .swap, h => h
  | .gate _ n body, h => by
    simp only [Op.inv, Op.WF] at h ⊢
    exact WFBody_dropAlloc n _ (WFBody_inv body n h)
  | .ctrl b st, h => by simp only [Op.inv, Op.WF] at h ⊢; exact WF_inv b h
  | .pt b st body, h => by
    simp only [Op.inv, Op.WF, arity_inv] at h ⊢
    exact ⟨WF_inv b h.1, WFBody_inv body _ h.2⟩
theorem WFBody_inv : ∀ (body : List (Op × List Nat)) (n : Nat), WFBody n body → WFBody n (invBody body)
  | [], _, h => h
  | (o, is) :: r, n, h => by
    have hr := WFBody_inv r n (wf_nodup h).2.2
    simp only [WFBody] at h
    simp only [invBody, WFBody_append, WFBody, arity_inv]
    exact ⟨hr, WF_inv o h.1, h.2.1, h.2.2.1, h.2.2.2.1, trivial⟩
end

end Verif.Circ
