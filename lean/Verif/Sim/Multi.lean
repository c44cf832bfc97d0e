import Verif.Sim.Reorder

/-!
Model of the deferred measurements of the simulator (simulator/circuit_preprocessing.py:729-836,
`insert_multiverse_measurements`): measurements and resets in the middle of a circuit are replaced by CX gates on new
qubits, classically controlled operations by controlled operations.
-/

namespace Verif.Sim

open Verif.Env (B E D X dg Dep)

/-! ### Code -/

/-- `is_permeable` for an instruction (permeability/type_checker.py:39-130). `pm` is the answer for gates (it is computed
from matrices); a classically controlled operation takes it from its gates (circuit/operation.py:914), measurements are
permeable, resets and disentanglers are not (circuit/standard_operations.py, circuit_preprocessing.py:358, 365). -/
def Ins.perm (pm : List Gate → Nat → Bool) (q : Nat) : Ins → Bool
  | .gate _ gs => pm gs q
  | .cif _ gs _ _ => pm gs q
  | .measure _ _ => true
  | .reset _ => false
  | .dis _ => false

def Ins.isReset : Ins → Bool
  | .reset _ => true
  | _ => false

def Ins.measures (q : Nat) : Ins → Bool
  | .measure q' _ => q' == q
  | _ => false

/-- simulator/circuit_preprocessing.py:746-765: `none` if the loop runs through, `some none` if it breaks,
`some (some rest)` if a reset is found and removed. -/
def look (pm : List Gate → Nat → Bool) (q c : Nat) : List Ins → Option (Option (List Ins))
  | [] => none
  | x :: t =>
    if q ∈ x.qubits ∧ x.isReset = true then some (some t)
    else if q ∈ x.qubits ∧ x.perm pm q = false then some none
    else if c ∈ x.clbits then some none
    else if x.measures q = true then some none
    else match look pm q c t with
      | none => none
      | some none => some none
      | some (some r) => some (some (x :: r))

/-- The CX gate. -/
noncomputable def cxG (a b : Nat) : Gate where
  qs := [a, b]
  op := Env.when (fun x => x a) (X b)
  loc := loc_when ((loc_X b).mono (by simp)) fun x y h => h a (by simp)

/-- The basis states that satisfy the control state. -/
def ctlT (qbs : List Nat) (st : List Bool) (b : B) : Bool := (qbs.zip st).all fun x => b x.1 == x.2

theorem ctlT_dep (qbs : List Nat) (st : List Bool) : Dep qbs (ctlT qbs st) := by
  intro b c h
  unfold ctlT
  rw [Bool.eq_iff_iff, List.all_eq_true, List.all_eq_true]
  refine forall_congr' fun x => forall_congr' fun hx => ?_
  rw [h x.1 (List.of_mem_zip hx).1]

/-- The controlled version of gates (`Operation.control`). -/
noncomputable def ctlG (qbs : List Nat) (st : List Bool) (gs : List Gate) : Gate where
  qs := qbs ++ gs.flatMap (·.qs)
  op := Env.when (ctlT qbs st) (prodG gs)
  loc := loc_when ((loc_prodG (qs := gs.flatMap (·.qs)) fun g hg q hq => List.mem_flatMap.2 ⟨g, hg, hq⟩).mono (by simp +contextual))
    ((ctlT_dep qbs st).mono (by simp +contextual))

/-- The new circuit, `new_measurements` (qubit, classical bit), `cb_to_qb_dic` (classical bit, qubit) and the number of
qubits. -/
structure Mv where
  out : List Ins
  meas : List (Nat × Nat)
  dic : List (Nat × Nat)
  nq : Nat

def dicSet (c qb : Nat) (dic : List (Nat × Nat)) : List (Nat × Nat) := (c, qb) :: dic.filter fun x => x.1 ≠ c

/-- simulator/circuit_preprocessing.py:800-812: the control qubits, the number of qubits and whether the loop ran through.
`l` are the classical bits with their control state. -/
def ctrls (dic : List (Nat × Nat)) : List (Nat × Bool) → Nat → List Nat × Nat × Bool
  | [], nq => ([], nq, true)
  | (c, v) :: l, nq => match dic.lookup c with
    | some qb =>
      let r := ctrls dic l nq
      (qb :: r.1, r.2)
    | none =>
      if v then ([], nq, false)
      else
        let r := ctrls dic l (nq + 1)
        (nq :: r.1, r.2)

/-- simulator/circuit_preprocessing.py:737-824, the loop. -/
noncomputable def mv (pm : List Gate → Nat → Bool) : Nat → List Ins → Mv → Mv
  | 0, _, s => s
  | _ + 1, [], s => s
  | fuel + 1, i :: t, s => match i with
    | .measure q c => match look pm q c t with
      | none => mv pm fuel t { s with out := s.out ++ [.dis q], meas := s.meas ++ [(q, c)] }
      | some none =>
        mv pm fuel t { s with out := s.out ++ [.gate [q, s.nq] [cxG q s.nq]], dic := dicSet c s.nq s.dic, nq := s.nq + 1 }
      | some (some t') =>
        mv pm fuel t' { s with
          out := s.out ++ [.gate [q, s.nq] [cxG q s.nq], .gate [s.nq, q] [cxG s.nq q], .dis q],
          dic := dicSet c s.nq s.dic, nq := s.nq + 1 }
    | .reset q =>
      if t.any (fun x => decide (q ∈ x.qubits) && !x.perm pm q) then
        mv pm fuel t { s with
          out := s.out ++ [.dis q, .gate [q, s.nq] [cxG q s.nq], .gate [s.nq, q] [cxG s.nq q], .dis s.nq], nq := s.nq + 1 }
      else mv pm fuel t { s with out := s.out ++ [.dis q] }
    | .cif qs gs cs st =>
      let r := ctrls s.dic (cs.zip st) s.nq
      mv pm fuel t { s with
        out := s.out ++ (if r.2.2 then [.gate (r.1 ++ qs) [ctlG r.1 st gs]] else []) ++ r.1.map .dis, nq := r.2.1 }
    | .gate qs gs => mv pm fuel t { s with out := s.out ++ [.gate qs gs] }
    | .dis q => mv pm fuel t { s with out := s.out ++ [.dis q] }

/-- simulator/circuit_preprocessing.py:729-836 for a circuit with `n` qubits; the measurements at the end are
`new_measurements` followed by the entries of the dictionary (a set in the code). -/
noncomputable def multiverse (pm : List Gate → Nat → Bool) (n : Nat) (data : List Ins) : List Ins × List (Nat × Nat) × Nat :=
  let s := mv pm data.length data ⟨[], [], [], n⟩
  (s.out, s.meas ++ s.dic.map (fun x => (x.2, x.1)), s.nq)

/-- simulator/simulator.py:121-149: the state is multiplied by the matrices of the operations, disentanglers change
nothing. -/
noncomputable def app : Ins → E
  | .gate _ gs => prodG gs
  | _ => 1

noncomputable def appAll (l : List Ins) (ψ : B → ℂ) : B → ℂ := l.foldl (fun ψ i => app i ψ) ψ

/-- simulator/quantum_state.py:174-226 (`multi_measure`): the probability that the measurements `meas` (qubit, classical
bit) give the values `v`. -/
noncomputable def simProb (r : List Ins × List (Nat × Nat) × Nat) (v : Cl) : ℝ :=
  ((basis r.2.2).map fun b => if r.2.1.all (fun x => b x.1 == v x.2) then Complex.normSq (appAll r.1 init b) else 0).sum

/-! ### Conditions -/

/-- `pm` answers `true` only for gates that are permeable. -/
def PermSound (pm : List Gate → Nat → Bool) : Prop := ∀ gs q, pm gs q = true → Commute (prodG gs) (D fun b => b q)

/-- Conditions for an instruction with the rest of the circuit. -/
def Cond (pm : List Gate → Nat → Bool) (t : List Ins) : Ins → Prop
  | .measure q c => (∀ q', .measure q' c ∉ t) ∧
      (.reset q ∈ t → ∀ x, t.find? (fun x => decide (q ∈ x.qubits)) = some x →
        x = .reset q ∨ x.perm pm q = false ∨ (∃ c', x = .measure q c') ∨ c ∈ x.clbits)
  | .reset q => (∃ x ∈ t, q ∈ x.qubits ∧ x.perm pm q = false) ∨ ∀ x ∈ t, q ∉ x.qubits
  | _ => True

/-- Conditions for a circuit of `n` qubits. -/
def MOk (pm : List Gate → Nat → Bool) (n : Nat) : List Ins → Prop
  | [] => True
  | i :: t => (i.WF ∧ ∀ q ∈ i.qubits, q < n) ∧ Cond pm t i ∧ MOk pm n t

end Verif.Sim
