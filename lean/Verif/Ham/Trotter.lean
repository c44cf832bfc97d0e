import Verif.Ham.Basis
import Verif.Ham.Coloring
import Verif.Oper.Commute
import Verif.Props.Grouping

/-!
`QubitOperator.trotterization` (operators/qubit/qubit_operator.py:1718-1858), method `commuting_qw`.
-/

namespace Verif.Ham

open Verif.Oper Verif.Circ
open Verif.Props (opGroups)

/-- `QubitTerm.intersect` (operators/qubit/qubit_term.py:717-719). -/
def intersectT (a b : Term) : Bool := a.keys.any fun k => decide (k ∈ b.keys)

/-- The qubits with ladder operators. -/
def ladIdx (t : Term) : List Nat := (t.filter fun p => isLad p.2).map Prod.fst

/-- `QubitTerm.ladders_agree` (qubit_term.py:721-736). -/
def laddersAgree (a b : Term) : Bool :=
  ((ladIdx a).all fun k => decide (k ∈ ladIdx b)) && (ladIdx b).all fun k => decide (k ∈ ladIdx a)

/-- The relation of the inner grouping; the loop of `commute_qw` runs over the set of keys, whose order does not matter. -/
def qwRel (a b : Term) : Bool := commuteQw a b (a.keys ++ b.keys) && laddersAgree a b

/-- The gates of a Trotter step: those of the basis change, their inverses and those of the simulated terms. -/
inductive TOp where
  | b (g : BG)
  | bi (g : BG)
  | h (o : HOp)

/-- A gate on a state. -/
noncomputable def TOp.den (χ : HQ × Bool → HQ × Bool → HQ → (HQ → Bool) → ℂ) : TOp → Amp HQ → Amp HQ
  | .b g, ψ => Circ.den g.op.1 g.op.2 ψ
  | .bi g, ψ => Circ.den g.op.1.inv g.op.2 ψ
  | .h o, ψ => o.den χ ψ

/-- The inverse gate. -/
noncomputable def TOp.inv : TOp → TOp
  | .b g => .bi g
  | .bi g => .b g
  | .h o => .h o.inv

/-- Gates one after the other. -/
noncomputable def runT (χ : HQ × Bool → HQ × Bool → HQ → (HQ → Bool) → ℂ) : List TOp → Amp HQ → Amp HQ
  | [], ψ => ψ
  | o :: os, ψ => runT χ os (o.den χ ψ)

/-- `with invert():` — the inverse gates in the opposite order. -/
noncomputable def invT (l : List TOp) : List TOp := (l.map TOp.inv).reverse

/-- The argument of `term.simulate` (qubit_operator.py:1815-1819). -/
noncomputable def coeffT (fwd : Bool) (t : ℝ) (steps : Nat) (c : ℂ) : ℝ := -c.re * t / steps * (-1) ^ (if fwd then 1 else 0)

/-- The loop over the terms of the diagonal operator. -/
noncomputable def simAll (x : ℂ → ℝ) : QOp ℂ → Option (List HOp)
  | [] => some []
  | (t, c) :: d => match simulate false false (x c) t, simAll x d with
    | some l, some r => some (l ++ r)
    | _, _ => none

/-- `with conjugate(qw_group.change_of_basis)(qarg) as diagonal_operator:` (qubit_operator.py:1809-1819). -/
noncomputable def groupStep (fwd : Bool) (t : ℝ) (steps : Nat) (g : QOp ℂ) : Option (List TOp) :=
  match changeBasis g with
  | none => none
  | some (C, d) => match simAll (coeffT fwd t steps) (opGroups (fun a b => !intersectT a b) d).flatten with
    | none => none
    | some l => some (C.map .b ++ l.map .h ++ (C.map .bi).reverse)

/-- Groups one after the other. -/
noncomputable def stepAll (fwd : Bool) (t : ℝ) (steps : Nat) : List (QOp ℂ) → Option (List TOp)
  | [] => some []
  | g :: gs => match groupStep fwd t steps g, stepAll fwd t steps gs with
    | some l, some r => some (l ++ r)
    | _, _ => none

/-- The groups of the two loops (qubit_operator.py:1801-1808); `o` is the order in which `commute_pauli` runs over the set of keys. -/
def qwGroups {R : Type} (o : Term → Term → List Nat) (d : QOp R) : List (QOp R) := (opGroups (fun a b => commutePauli (o a b) a b) d).flatMap (opGroups qwRel)

/-- `trotter_step` (qubit_operator.py:1805-1819). -/
noncomputable def trotterStep (o : Term → Term → List Nat) (fwd : Bool) (d : QOp ℂ) (t : ℝ) (steps : Nat) : Option (List TOp) :=
  stepAll fwd t steps (qwGroups o d)

/-- The function `U` (qubit_operator.py:1838-1856); `d` is the operator after `hermitize().eliminate_ladder_conjugates()`. -/
noncomputable def trotterU (o : Term → Term → List Nat) (fwd second : Bool) (d : QOp ℂ) (t : ℝ) (steps iter : Nat) : Option (List TOp) :=
  if second then
    match trotterStep o fwd d t (steps * 2), trotterStep o fwd d (-t) (steps * 2) with
    | some a, some b => some (List.replicate (iter * steps) (a ++ invT b)).flatten
    | _, _ => none
  else match trotterStep o fwd d t steps with
    | some a => some (List.replicate (iter * steps) a).flatten
    | none => none

end Verif.Ham
