import Verif.Iface.Stim

/-!
Property theorems C168: conversion of circuits to Stim.
-/

namespace Verif.Props
open Verif.Iface.Stim

/-- **C168** For every circuit that can be converted and has no classical control on 0, every quantum state and every
behaviour of gates and measurements: the Stim circuit ends in the same quantum state with as many measurements; each
classical bit has the value at its place in the record (0 if it was never measured); each observable is the parity of
the bits at the time of its instruction. Control on 0 is excluded (see `stim_control_zero_wrong`). -/
theorem stim_convert_partial {Q : Type} (S : Sem Q) (s : Q) (is : List Ins) (v : Conv) (h : convert is Conv.init = some v)
    (hc : ∀ x c p q, Ins.cif x c p q ∈ is → x = true) :
    (sRun S s v.ops).q = (qRun S s is).q ∧ (sRun S s v.ops).rcd.length = (qRun S s is).n ∧
    (∀ c, (qRun S s is).bit c = match v.map c with
      | some i => (sRun S s v.ops).rcd.getD i false
      | none => false) ∧
    (∀ i, (sRun S s v.ops).obs i = (qRun S s is).obs.getD i false) := by
  have hc' : ∀ i ∈ is, ctrlOne i := by
    intro i hi
    cases i <;> simp only [ctrlOne]
    exact hc _ _ _ _ hi
  have H := inv_convert (D := False) is Conv.init v _ (inv_init S s False) h hc' (fun h => h.elim)
  refine ⟨H.q, H.len.trans H.n.symm, fun c => ?_, H.obs⟩
  split
  · rename_i i hi
    exact (H.bit c i hi).symm
  · rename_i hi
    exact H.zero c hi

/-- **C168** The counts: the bit string of a shot lists the values of the `n` classical bits, last bit first. -/
theorem stim_counts_partial {Q : Type} (S : Sem Q) (s : Q) (is : List Ins) (v : Conv) (h : convert is Conv.init = some v)
    (hc : ∀ x c p q, Ins.cif x c p q ∈ is → x = true) (n : Nat) :
    bitstring n v.map (sRun S s v.ops).rcd = ((List.range n).map (qRun S s is).bit).reverse := by
  rw [bitstring]
  congr 1
  apply List.map_congr_left
  intro c _
  exact ((stim_convert_partial S s is v h hc).2.2.1 c).symm

/-- **C168** If moreover every detector has at least one bit and none twice, the detectors of the Stim circuit are the
parities of the detector instructions, and the `k`-th detector instruction is mapped to the index `k`. -/
theorem stim_detectors_partial {Q : Type} (S : Sem Q) (s : Q) (is : List Ins) (v : Conv) (h : convert is Conv.init = some v)
    (hc : ∀ x c p q, Ins.cif x c p q ∈ is → x = true)
    (hd : ∀ cs e, Ins.parity cs e false ∈ is → cs ≠ [] ∧ cs.Nodup) :
    (sRun S s v.ops).dets = (qRun S s is).dets ∧ v.det.map (·.2) = List.range (qRun S s is).dets.length := by
  have hc' : ∀ i ∈ is, ctrlOne i := by
    intro i hi
    cases i <;> simp only [ctrlOne]
    exact hc _ _ _ _ hi
  have hd' : ∀ i ∈ is, detProper i := by
    intro i hi
    match i, hi with
    | .parity cs e true, _ => exact Or.inl rfl
    | .parity cs e false, hi => exact Or.inr (hd cs e hi)
    | .skip, _ => trivial
    | .g1 _ _, _ => trivial
    | .g2 _ _ _, _ => trivial
    | .meas _ _, _ => trivial
    | .reset _, _ => trivial
    | .barrier, _ => trivial
    | .cif _ _ _ _, _ => trivial
    | .bad, _ => trivial
  have H := inv_convert (D := True) is Conv.init v _ (inv_init S s True) h hc' (fun _ => hd')
  exact ⟨(H.det trivial).1, (H.det trivial).2.2⟩

/-- Two qubits in a basis state, X gates only (gate 0), measurement of the value. -/
def basisSem : Sem (Bool × Bool) where
  g1 := fun _ q s => if q = 0 then (!s.1, s.2) else (s.1, !s.2)
  g2 := fun _ _ _ s => s
  pauli := fun p q s => if p = 2 then s else if q = 0 then (!s.1, s.2) else (s.1, !s.2)
  reset := fun q s => if q = 0 then (false, s.2) else (s.1, false)
  out := fun _ q s => if q = 0 then s.1 else s.2
  collapse := fun _ _ s => s

/-- **C168** Classical control on 0 is converted to control on 1: measure qubit 0 in state 0, then X on qubit 1 if the
bit is 0. The circuit ends with qubit 1 in state 1, the Stim circuit with 0. -/
theorem stim_control_zero_wrong : ∃ v, convert [.meas 0 0, .cif false 0 (some 0) 1] Conv.init = some v ∧
    (qRun basisSem (false, false) [.meas 0 0, .cif false 0 (some 0) 1]).q = (false, true) ∧
    (sRun basisSem (false, false) v.ops).q = (false, false) := by
  refine ⟨_, rfl, ?_, ?_⟩ <;> decide +kernel

/-- **C168** A detector whose bits cancel is not written but counted: the next one is mapped to an index that the Stim
circuit does not have. -/
theorem stim_empty_detector_wrong : ∃ v, convert [.meas 0 0, .parity [0, 0] false false, .parity [0] false false] Conv.init = some v ∧
    detLookup v.det [0] false = some 1 ∧ (sRun basisSem (true, false) v.ops).dets = [true] ∧
    (qRun basisSem (true, false) [.meas 0 0, .parity [0, 0] false false, .parity [0] false false]).dets = [false, true] := by
  refine ⟨_, rfl, ?_, ?_, ?_⟩ <;> decide +kernel

/-- **C168** Handles are compared by their set of bits only. Two detectors on the same bit before and after a second
measurement share one entry, so the handle of the first gives the index of the second, with another value. -/
theorem stim_handle_wrong : ∃ v, convert [.meas 0 0, .parity [0] false false, .g1 0 0, .meas 0 0, .parity [0] false false] Conv.init = some v ∧
    detLookup v.det [0] false = some 1 ∧ (sRun basisSem (true, false) v.ops).dets = [true, false] := by
  refine ⟨_, rfl, ?_, ?_⟩ <;> decide +kernel

/-- A circuit with feedback, a detector and an observable. -/
example : ∃ v, convert [.g1 0 0, .meas 0 1, .cif true 1 (some 0) 1, .meas 1 0, .parity [0, 1] false false, .parity [1] false true] Conv.init = some v ∧
    v.ops = [.g1 0 0, .m 0, .fb 0 (-1) 1, .m 1, .detector [-2, -1], .observable 0 [-2]] ∧
    bitstring 3 v.map (sRun basisSem (false, false) v.ops).rcd = [false, true, true] ∧
    (sRun basisSem (false, false) v.ops).dets = [false] ∧ (sRun basisSem (false, false) v.ops).obs 0 = true := by
  refine ⟨_, rfl, ?_, ?_, ?_, ?_⟩ <;> decide +kernel

end Verif.Props
