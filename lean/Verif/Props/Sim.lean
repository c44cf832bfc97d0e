import Verif.Sim.Classical

/-!
# The simulator: from the circuit to the distribution of the measurement outcomes

The meaning of a circuit is `Verif.Sim.exec` (Sim/Sem.lean): the multiset of branches (values of the classical bits and
unnormalised state) after all instructions, and `Verif.Sim.prob`: the probability that the measured classical bits have
given values. The gates are arbitrary operators on their qubits.

* C127 grouping of gates (`group_qc`)
* C128 reordering (`reorder_circuit`)
* C129 deferred measurements (`insert_multiverse_measurements`)
* C130 all steps for a circuit of at most 45 qubits
-/

namespace Verif.Props

open Verif.Sim
open Verif.Env (B D)

/-! ## C127 -/

/-- Grouping the gates of a circuit changes nothing: the grouped circuit has the same branches for every initial state,
and the measurements, resets and conditional instructions stay in their order.

Partial: only for circuits whose conditional instructions act on a single qubit. For other circuits the claim is false,
see `sim_group_condition_lost`. -/
theorem sim_group_partial (n : Nat) (data : List Ins) (hw : ∀ i ∈ data, i.WF) (hq : ∀ i ∈ data, ∀ q ∈ i.qubits, q < n)
    (hs : ∀ i ∈ data, (∀ qs gs, i ≠ .gate qs gs) → ∃ k, i.qubits = [k]) :
    (∀ s, exec (groupQc n data) s = exec data s) ∧
      (groupQc n data).filter (fun i => match i with | .gate _ _ => false | _ => true) =
        data.filter (fun i => match i with | .gate _ _ => false | _ => true) ∧
      ∀ x ∈ groupQc n data, x.WF ∧ ∀ q ∈ x.qubits, q < n := by
  have hg : GOk n data := fun i hi => ⟨hw i hi, hq i hi, fun hn => hs i hi fun qs gs e => by rw [e] at hn; cases hn⟩
  obtain ⟨h1, h2, h3⟩ := groupLoop_ok (jit := decide (n < 63)) (depth := recursionParameter n + 12) data.length data (Nat.le_refl _) hg
  have e : Ins.neg = fun i => match i with | .gate _ _ => false | _ => true := by
    funext i
    cases i <;> rfl
  refine ⟨h1, by rw [← e]; exact h2, fun x hx => ⟨(h3 x hx).1, fun q hq' => ?_⟩⟩
  obtain ⟨y, hy, h⟩ := (h3 x hx).2 q hq'
  exact hq y hy q h

/-- Gates are moved across a measurement of another qubit and merged. -/
example : groupQc 3 ([.gate [0] [.x 0], .measure 2 0, .gate [0, 1] [.cx 0 1], .gate [1] [.x 1]].map CI.ins) =
    [.gate [0, 1] [.x 0, .cx 0 1, .x 1], .measure 2 0].map CI.ins := rfl

example (s : Multiset Br) : exec ([.gate [0, 1] [.x 0, .cx 0 1, .x 1], .measure 2 0].map CI.ins) s =
    exec ([.gate [0] [.x 0], .measure 2 0, .gate [0, 1] [.cx 0 1], .gate [1] [.x 1]].map CI.ins) s := by
  refine (sim_group_partial 3 ([.gate [0] [.x 0], .measure 2 0, .gate [0, 1] [.cx 0 1], .gate [1] [.x 1]].map CI.ins) ?_ ?_ ?_).1 s
  · simp [CI.ins, Ins.WF, CG.gate, xG, cxG]
  · simp [CI.ins, Ins.qubits]
  · simp [CI.ins, Ins.qubits]

/-- X on qubit 2; CX(2, 1) if classical bit 0 is 0; X on qubit 2; measurement of qubit 1. -/
def condCircuit : List CI := [.gate [2] [.x 2], .cif [1, 2] [.cx 2 1] [0] [false], .gate [2] [.x 2], .measure 1 1]

/-- A conditional CX is skipped when groups are formed: both X gates are executed before it, and the outcome 1, which has
probability 1, gets probability 0. -/
theorem sim_group_condition_lost :
    groupQc 3 (condCircuit.map CI.ins) =
      [.gate [2] [.x 2, .x 2], .cif [1, 2] [.cx 2 1] [0] [false], .measure 1 1].map CI.ins ∧
    prob 3 (condCircuit.map CI.ins) (fun _ => true) = 1 ∧
    prob 3 (groupQc 3 (condCircuit.map CI.ins)) (fun _ => true) = 0 := by
  have e : groupQc 3 (condCircuit.map CI.ins) =
      [.gate [2] [.x 2, .x 2], .cif [1, 2] [.cx 2 1] [0] [false], .measure 1 1].map CI.ins := rfl
  refine ⟨e, ?_, ?_⟩
  · rw [prob_ket 3 condCircuit (by simp [condCircuit, CI.Ok, CG.Ok]) (by
      intro q hq
      have h1 : q ≠ 1 := by omega
      have h2 : q ≠ 2 := by omega
      simp [condCircuit, crun, CI.run, actAll, CG.act, Env.flip, cmatch, h1, h2])]
    simp [condCircuit, measured, CI.ins, crun, CI.run, setc, actAll, CG.act, Env.flip, cmatch]
  · rw [e, prob_ket 3 _ (by simp [CI.Ok, CG.Ok]) (by
      intro q hq
      have h1 : q ≠ 1 := by omega
      have h2 : q ≠ 2 := by omega
      simp [crun, CI.run, actAll, CG.act, Env.flip, cmatch, h1, h2])]
    simp [measured, CI.ins, crun, CI.run, setc, actAll, CG.act, Env.flip, cmatch]

/-! ## C128 -/

/-- The reordering raises no error, returns the same instructions in another order, and the reordered circuit has the same
branches for every initial state. `tp` are the positions in the topological order of networkx. -/
theorem sim_reorder (n : Nat) (tp : Nat → Nat) (data : List Ins) (ht : TopOk n tp data)
    (hd : ∀ i ∈ data, i.qubits ≠ [] ∧ ∀ q ∈ i.qubits, q < n) (hw : ∀ i ∈ data, i.WF) :
    ∃ out, reorder n tp data = some out ∧ out.Perm data ∧ ∀ s, exec out s = exec data s :=
  reorder_ok ht hd hw

/-- There is always a topological order. -/
theorem sim_topological (n : Nat) (data : List Ins) : TopOk n (fun v => data.length + n - v) data := by
  intro v hv u hu
  have := adj_lt hu
  rw [nodes_length] at hv
  show data.length + n - v < data.length + n - u
  omega

/-- X(0); CX(0, 1); X(2); measurement of qubit 2. -/
def reorderCircuit : List CI := [.gate [0] [.x 0], .gate [0, 1] [.cx 0 1], .gate [2] [.x 2], .measure 2 0]

example (s : Multiset Br) : ∃ out, reorder 3 (fun v => 4 + 3 - v) (reorderCircuit.map CI.ins) = some out ∧
    exec out s = exec (reorderCircuit.map CI.ins) s := by
  obtain ⟨out, h1, _, h3⟩ := sim_reorder 3 (fun v => 4 + 3 - v) (reorderCircuit.map CI.ins)
    (sim_topological 3 (reorderCircuit.map CI.ins)) (by simp [reorderCircuit, CI.ins, Ins.qubits])
    (by simp [reorderCircuit, CI.ins, Ins.WF, CG.gate, xG, cxG])
  exact ⟨out, h1, h3 s⟩

/-- The measurement of qubit 2 comes first, with the gate it needs. -/
example : reorder 3 (fun v => 4 + 3 - v) (reorderCircuit.map CI.ins) =
    some ([.gate [2] [.x 2], .measure 2 0, .gate [0] [.x 0], .gate [0, 1] [.cx 0 1]].map CI.ins) := by
  simp [reorder, reorderCircuit, nodes, nodeCosts, prefNodes, CI.ins, Ins.preferred, cost, Sim.traverse, Ins.qubits, Ins.clbits, descs,
    isDesc, adj, curQ, curC, nodeAt, List.mergeSort, List.range_succ]

/-! ## C129 -/

/-- The distribution after the replacement of measurements, resets and conditional instructions is the distribution of the
circuit.

Partial: the conditions `MOk` are needed. A classical bit is measured once; after a measurement of a qubit that is reset
later, the next instruction on the qubit must not be permeable; and after a reset there is a non-permeable instruction on
the qubit or none at all. Without them the claim is false, see `sim_reset_lost`, `sim_reset_early`, `sim_clbit_twice`. -/
theorem sim_measure_partial (pm : List Gate → Nat → Bool)
    (hpm : ∀ gs q, pm gs q = true → Commute (prodG gs) (D fun b => b q)) (n : Nat) (data : List Ins) (h : MOk pm n data) (v : Cl) :
    simProb (multiverse pm n data) v = prob n data v :=
  multiverse_ok hpm n data h v

/-- Measurement, conditional X on the other qubit, measurement: a new qubit (number 2) takes the first outcome. -/
example (pm : List Gate → Nat → Bool) :
    multiverse pm 2 ([.gate [0] [.x 0], .measure 0 0, .cif [1] [.x 1] [0] [true], .measure 1 1].map CI.ins) =
      ([.gate [0] [xG 0], .gate [0, 2] [cxG 0 2], .gate [2, 1] [ctlG [2] [true] [xG 1]], .dis 2, .dis 1],
        [(1, 1), (2, 0)], 3) := rfl

example (pm : List Gate → Nat → Bool) (hpm : ∀ gs q, pm gs q = true → Commute (prodG gs) (D fun b => b q)) :
    simProb (multiverse pm 2 ([.gate [0] [.x 0], .measure 0 0, .cif [1] [.x 1] [0] [true], .measure 1 1].map CI.ins)) (fun _ => true) = 1 := by
  rw [sim_measure_partial pm hpm 2 _ (by simp [MOk, CI.ins, Ins.WF, Ins.qubits, Cond, CG.gate, xG]),
    prob_ket 2 _ (by simp [CI.Ok, CG.Ok]) (by
      intro q hq
      have h1 : q ≠ 0 := by omega
      have h2 : q ≠ 1 := by omega
      simp [crun, CI.run, actAll, CG.act, Env.flip, cmatch, setc, h1, h2])]
  simp [measured, CI.ins, crun, CI.run, setc, actAll, CG.act, Env.flip, cmatch]

/-- A reset that is followed by permeable instructions only, for example by a measurement, is not executed: X; reset;
measurement gives 1. -/
theorem sim_reset_lost (pm : List Gate → Nat → Bool) :
    prob 1 ([.gate [0] [.x 0], .reset 0, .measure 0 0].map CI.ins) (fun _ => false) = 1 ∧
    simProb (multiverse pm 1 ([.gate [0] [.x 0], .reset 0, .measure 0 0].map CI.ins)) (fun _ => false) = 0 ∧
    simProb (multiverse pm 1 ([.gate [0] [.x 0], .reset 0, .measure 0 0].map CI.ins)) (fun _ => true) = 1 := by
  have e : multiverse pm 1 ([.gate [0] [.x 0], .reset 0, .measure 0 0].map CI.ins) =
      ([.gate [0] [.x 0], .dis 0, .dis 0].map CI.ins, [(0, 0)], 1) := rfl
  have hb : ∀ q, 1 ≤ q → (crun [.gate [0] [.x 0], .dis 0, .dis 0] (fun _ => false, fun _ => false)).2 q = false := by
    intro q hq
    have h1 : q ≠ 0 := by omega
    simp [crun, CI.run, actAll, CG.act, Env.flip, h1]
  refine ⟨?_, ?_, ?_⟩
  · rw [prob_ket 1 _ (by simp [CI.Ok, CG.Ok]) (by
      intro q hq
      have h1 : q ≠ 0 := by omega
      simp [crun, CI.run, actAll, CG.act, Env.flip, h1])]
    simp [measured, CI.ins, crun, CI.run, setc]
  · rw [e, simProb_ket _ (by simp [CI.Ok, CG.Ok]) (by simp [CI.unitary]) _ _ hb]
    simp [crun, CI.run, actAll, CG.act, Env.flip]
  · rw [e, simProb_ket _ (by simp [CI.Ok, CG.Ok]) (by simp [CI.unitary]) _ _ hb]
    simp [crun, CI.run, actAll, CG.act, Env.flip]

/-- Two resets in a row are covered by the theorem. -/
example (pm : List Gate → Nat → Bool) : MOk pm 1 [.measure 0 0, .reset 0, .reset 0] := by
  simp [MOk, Ins.WF, Ins.qubits, Cond, Ins.perm]

/-- X(0); measurement of qubit 0; CX(0, 1); reset of qubit 0; measurement of qubit 1. -/
def earlyReset : List CI := [.gate [0] [.x 0], .measure 0 0, .gate [0, 1] [.cx 0 1], .reset 0, .measure 1 1]

/-- A reset after a measurement is executed together with the measurement, before the permeable instructions between
them. -/
theorem sim_reset_early (pm : List Gate → Nat → Bool) (h : pm [cxG 0 1] 0 = true) :
    prob 2 (earlyReset.map CI.ins) (fun _ => true) = 1 ∧
    simProb (multiverse pm 2 (earlyReset.map CI.ins)) (fun _ => true) = 0 ∧
    simProb (multiverse pm 2 (earlyReset.map CI.ins)) (fun c => c == 0) = 1 := by
  have e : multiverse pm 2 (earlyReset.map CI.ins) =
      ([.gate [0] [.x 0], .gate [0, 2] [.cx 0 2], .gate [2, 0] [.cx 2 0], .dis 0, .gate [0, 1] [.cx 0 1], .dis 1].map CI.ins,
        [(1, 1), (2, 0)], 3) := by
    simp [multiverse, mv, earlyReset, CI.ins, look, Ins.qubits, Ins.isReset, Ins.perm, Ins.clbits, Ins.measures, CG.gate, h, dicSet]
  have hb : ∀ q, 3 ≤ q → (crun [.gate [0] [.x 0], .gate [0, 2] [.cx 0 2], .gate [2, 0] [.cx 2 0], .dis 0, .gate [0, 1] [.cx 0 1], .dis 1]
      (fun _ => false, fun _ => false)).2 q = false := by
    intro q hq
    have h0 : q ≠ 0 := by omega
    have h1 : q ≠ 1 := by omega
    have h2 : q ≠ 2 := by omega
    simp [crun, CI.run, actAll, CG.act, Env.flip, h0, h2]
  refine ⟨?_, ?_, ?_⟩
  · rw [prob_ket 2 _ (by simp [earlyReset, CI.Ok, CG.Ok]) (by
      intro q hq
      have h0 : q ≠ 0 := by omega
      have h1 : q ≠ 1 := by omega
      simp [earlyReset, crun, CI.run, actAll, CG.act, Env.flip, h0, h1])]
    simp [earlyReset, measured, CI.ins, crun, CI.run, setc, actAll, CG.act, Env.flip]
  · rw [e, simProb_ket _ (by simp [CI.Ok, CG.Ok]) (by simp [CI.unitary]) _ _ hb]
    simp [crun, CI.run, actAll, CG.act, Env.flip]
  · rw [e, simProb_ket _ (by simp [CI.Ok, CG.Ok]) (by simp [CI.unitary]) _ _ hb]
    simp [crun, CI.run, actAll, CG.act, Env.flip]

/-- Two measurements into the same classical bit: both are in the list of measurements (the bit string has a digit too
many), and no value of the classical bit fits. -/
theorem sim_clbit_twice (pm : List Gate → Nat → Bool) :
    prob 2 ([.gate [0] [.x 0], .measure 0 0, .measure 1 0].map CI.ins) (fun _ => false) = 1 ∧
    (multiverse pm 2 ([.gate [0] [.x 0], .measure 0 0, .measure 1 0].map CI.ins)).2.1 = [(1, 0), (2, 0)] ∧
    ∀ v, simProb (multiverse pm 2 ([.gate [0] [.x 0], .measure 0 0, .measure 1 0].map CI.ins)) v = 0 := by
  have e : multiverse pm 2 ([.gate [0] [.x 0], .measure 0 0, .measure 1 0].map CI.ins) =
      ([.gate [0] [.x 0], .gate [0, 2] [.cx 0 2], .dis 1].map CI.ins, [(1, 0), (2, 0)], 3) := rfl
  refine ⟨?_, by rw [e], fun v => ?_⟩
  · rw [prob_ket 2 _ (by simp [CI.Ok, CG.Ok]) (by
      intro q hq
      have h0 : q ≠ 0 := by omega
      simp [crun, CI.run, actAll, CG.act, Env.flip, h0])]
    simp [measured, CI.ins, crun, CI.run, setc, actAll, CG.act, Env.flip]
  · rw [e, simProb_ket _ (by simp [CI.Ok, CG.Ok]) (by simp [CI.unitary]) _ _ (by
      intro q hq
      have h0 : q ≠ 0 := by omega
      have h2 : q ≠ 2 := by omega
      simp [crun, CI.run, actAll, CG.act, Env.flip, h0, h2])]
    cases hv : v 0 <;> simp [crun, CI.run, actAll, CG.act, Env.flip, hv]

/-! ## C130 -/

/-- All steps of the simulator for a circuit with at least one measurement (at most 45 qubits): no error, and the
distribution of the outcomes is the one of the circuit.

Partial: with the conditions `POk` (nothing happens with a qubit after its reset, a measured qubit is not reset, a classical
bit is measured once, conditional instructions have one qubit; gates keep the norm), for exact numbers, and for any correct
answers of the permeability check and of the topological sorting. -/
theorem sim_run_partial (pm : List Gate → Nat → Bool) (hpm : ∀ gs q, pm gs q = true → Commute (prodG gs) (D fun b => b q))
    (tp : List Ins → Nat → Nat) (n : Nat) (ht : ∀ l, TopOk n (tp l) l) (data : List Ins) (h : POk n data)
    (hm : ∃ q c, .measure q c ∈ data) :
    ∃ r, preprocess pm tp n data = some r ∧ ∀ v, simProb r v = prob n data v := by
  refine preprocess_ok hpm ht h ?_
  obtain ⟨q, c, hm⟩ := hm
  unfold countMeasure
  intro h0
  rw [List.countP_eq_zero] at h0
  exact h0 _ hm rfl

/-- X(0); measurement; conditional X(1); CX(1, 0); measurement of qubit 1; X(1). -/
def runCircuit : List CI :=
  [.gate [0] [.x 0], .measure 0 0, .cif [1] [.x 1] [0] [true], .gate [1, 0] [.cx 1 0], .measure 1 1, .gate [1] [.x 1]]

example (pm : List Gate → Nat → Bool) (hpm : ∀ gs q, pm gs q = true → Commute (prodG gs) (D fun b => b q)) :
    ∃ r, preprocess pm (fun l v => l.length + 2 - v) 2 (runCircuit.map CI.ins) = some r ∧ simProb r (fun _ => true) = 1 := by
  obtain ⟨r, h1, h2⟩ := sim_run_partial pm hpm (fun l v => l.length + 2 - v) 2 (sim_topological 2) (runCircuit.map CI.ins)
    { ins := by simp [runCircuit, CI.ins, Ins.WF, Ins.qubits, CG.gate, xG, cxG, Ins.neg]
      iso := by
        simp [runCircuit, CI.ins, Ins.allGates, CG.gate]
        exact ⟨iso_x (by omega), iso_x (by omega), iso_cx (by omega) (by omega), iso_x (by omega)⟩
      seq := by simp [runCircuit, CI.ins, Sim.Seq] }
    ⟨0, 0, by simp [runCircuit, CI.ins]⟩
  refine ⟨r, h1, ?_⟩
  rw [h2, prob_ket 2 _ (by simp [runCircuit, CI.Ok, CG.Ok]) (by
    intro q hq
    have h0 : q ≠ 0 := by omega
    have h1 : q ≠ 1 := by omega
    simp [runCircuit, crun, CI.run, actAll, CG.act, Env.flip, cmatch, setc, h0, h1])]
  simp [runCircuit, measured, CI.ins, crun, CI.run, setc, actAll, CG.act, Env.flip, cmatch]

end Verif.Props
