import Verif.Comp.Alloc

/-!
Property theorems C60: assignment of physical qubits.
-/

namespace Verif.Props

open Verif.Comp

/-! ### C60 -/

/-- The compiled circuit, started with all qubits in state 0, ends in the state of the logical circuit: the
amplitude of a basis state is the amplitude of the logical basis state read off through `translation_dic`, and
qubits without a logical partner are in state 0. Different logical qubits have different partners. Gates are
arbitrary matrices; deallocated qubits have to be in state 0. `srt` is any order of the free qubits. -/
theorem C60_state {R : Type} [Semiring R] {srt : List (LI R) → List Nat → List Nat} (hs : ∀ o l, (srt o l).Perm l)
    {N : Nat} {prog : List (LI R)} {st : CS R} (h : compile srt N prog = some st) {ψ : (Nat → Bool) → R}
    (hz : AllZero ψ) (hl : Legal prog ψ) :
    (∀ q q' p, st.dic.lookup q = some p → st.dic.lookup q' = some p → q = q') ∧
    (∀ y, (∀ p, (∀ q, st.dic.lookup q ≠ some p) → y p = false) →
      runL st.out ψ y = runL prog ψ (pull st.dic y)) ∧
    (∀ y p, (∀ q, st.dic.lookup q ≠ some p) → y p = true → runL st.out ψ y = 0) ∧
    (∀ x q, st.dic.lookup q = none → x q = true → runL prog ψ x = 0) := by
  obtain ⟨g, r⟩ := compile_spec hs h hz hl
  exact ⟨g.inj, r.used, r.unused, r.logical⟩

/-- The number of qubits computed beforehand suffices: if every qubit is allocated before its uses and not twice,
there is a free qubit whenever one is needed, and the circuit only uses that many qubits. -/
theorem C60_width {R : Type} [Semiring R] {srt : List (LI R) → List Nat → List Nat} (hs : ∀ o l, (srt o l).Perm l)
    {prog : List (LI R)} (ha : Alive [] prog) (workspace : Nat) {N : Nat} (hN : (N : Int) = workspace + maxRequired prog) :
    ∃ st, compile srt N prog = some st ∧ ∀ i ∈ st.out, ∀ p ∈ i.qubits, p < N := by
  have h := compLoop_total hs N prog [] ⟨[], List.range N, []⟩ 0 ⟨rfl, List.nodup_nil, by simp⟩ ha (by simp) (by
    unfold maxRequired at hN
    simp only [List.length_nil, Nat.cast_zero]
    omega)
  obtain ⟨st, e⟩ := Option.isSome_iff_exists.1 h
  exact ⟨st, e, (compile_bnd hs e).out⟩

/-! ### Example: three logical qubits on two physical ones -/

/-- X as a matrix. -/
def exX : List Bool → List Bool → Int := fun a b => if a = b.map (!·) then 1 else 0
/-- Controlled X. -/
def exCX : List Bool → List Bool → Int := fun a b =>
  if a = (match b with | [c, t] => [c, xor c t] | l => l) then 1 else 0

def exProg : List (LI Int) :=
  [.alloc 5, .gate exX [5], .alloc 6, .gate exCX [5, 6], .gate exCX [6, 5], .dealloc 5, .alloc 7, .gate exCX [6, 7]]

example : maxRequired exProg = 2 := by decide +kernel

example : ((compile (fun _ l => l) 2 exProg).map fun st => (st.dic, st.free, st.out.map LI.qubits)) =
    some ([(7, 0), (6, 1)], [], [[0], [0], [1], [0, 1], [1, 0], [0], [0], [1, 0]]) := by decide +kernel

example : Alive [] exProg := by simp [exProg, Alive]

/-- One qubit less and the loop fails. -/
example : (compile (fun _ l => l) 1 exProg).isSome = false := by decide +kernel

/-- The final state of the logical circuit is 011 on the qubits 5, 6, 7. -/
example : runL exProg (fun x => if x 5 || x 6 || x 7 then 0 else 1)
    (fun q => q == 6 || q == 7) = 1 := by decide +kernel

end Verif.Props
