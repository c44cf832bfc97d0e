import Verif.Comp.Prob

/-!
Property theorems C57-C59: reordering and reduction of compiled circuits.
-/

namespace Verif.Props

open Verif.Comp Matrix

variable {L : Type} [DecidableEq L]

/-! ### C57 -/

/-- Every order of the nodes of the permeability graph that respects its edges gives a circuit with the effect of
the original one, for every meaning of the instructions in which instructions that share only qubits of equal
type commute. -/
theorem C57_order {data : List (Instr L)} {d : Dag L} (ho : ∀ i ∈ data, InsOK i) (h : dagOf data = some d)
    {ord : List Nat} (ht : TopoOrder d.nodes.length d.edges ord) {σ : Type} (I : Interp L σ) (s : σ) :
    runI I.act (emit d.nodes ord) s = runI I.act data s := linearise ho h ht I s

/-- Matrices commute if on every qubit one of them is trivial, or both commute with `Z`, or both commute with `X`. -/
theorem C57_commute {n : Nat} (A B : Op n)
    (h : ∀ q, (Commute A (pX q) ∧ Commute A (pZ q)) ∨ (Commute B (pX q) ∧ Commute B (pZ q)) ∨
      (Commute A (pZ q) ∧ Commute B (pZ q)) ∨ (Commute A (pX q) ∧ Commute B (pX q))) : Commute A B := by
  classical
  refine commute_of_types A ((List.finRange n).filter fun q => ¬ (Commute B (pX q) ∧ Commute B (pZ q))) B ?_ ?_
  · intro q hq
    by_contra hc
    exact hq (List.mem_filter.2 ⟨List.mem_finRange q, decide_eq_true hc⟩)
  · intro q hq
    have hb : ¬ (Commute B (pX q) ∧ Commute B (pZ q)) := of_decide_eq_true (List.mem_filter.1 hq).2
    rcases h q with h | h | h | h
    · exact Or.inl h
    · exact absurd h hb
    · exact Or.inr (Or.inl h)
    · exact Or.inr (Or.inr h)

/-- The same for circuits of matrices: if the matrix of each gate is trivial outside its qubits and commutes with
the Pauli matrices its permeability claims, the sorted circuit maps every state to the same state. -/
theorem C57_matrix {n : Nat} {mat : L → Op n} {data : List (Instr L)} {d : Dag L} (ho : ∀ i ∈ data, InsOK i)
    (hl : ∀ i ∈ data, i.kind = .gate → Labelled mat i) (h : dagOf data = some d)
    {ord : List Nat} (ht : TopoOrder d.nodes.length d.edges ord) (ψ : (Fin n → Bool) → ℂ) :
    matRun mat (emit d.nodes ord) ψ = matRun mat data ψ := by
  have hm : Made d data := ⟨ho, h⟩
  rw [matRun_eq hl, matRun_eq]
  · exact linearise ho h ht _ ψ
  · intro i hi
    have hp : (emit d.nodes ord).Perm (kept d.nodes) := by
      rw [← emit_range]
      exact ht.perm.filterMap _
    exact hl i (hm.kept.1.subset (hp.mem_iff.1 hi))

/-- Every gate appears exactly once in the sorted circuit; without repeated allocations every instruction does. -/
theorem C57_once {data : List (Instr L)} {d : Dag L} (ho : ∀ i ∈ data, InsOK i) (h : dagOf data = some d)
    {ord : List Nat} (ht : TopoOrder d.nodes.length d.edges ord) :
    ((emit d.nodes ord).filter fun i => i.kind ≠ .alloc).Perm (data.filter fun i => i.kind ≠ .alloc) ∧
    (NoDupAlloc data → (emit d.nodes ord).Perm data) := by
  have hm : Made d data := ⟨ho, h⟩
  have hp : (emit d.nodes ord).Perm (kept d.nodes) := by
    rw [← emit_range]
    exact ht.perm.filterMap _
  refine ⟨?_, fun hn => ?_⟩
  · rw [← hm.kept.2.1]
    exact hp.filter _
  · rw [hm.kept.2.2 hn] at hp
    exact hp

/-- Such an order always exists: the graph has no cycle. -/
theorem C57_acyclic {data : List (Instr L)} {d : Dag L} (ho : ∀ i ∈ data, InsOK i) (h : dagOf data = some d) :
    ∃ rk : Nat → Nat, ∀ a b, Step d.edges a b → rk a < rk b := (dagOf_spec empty_ginv ho h).1.inv.acyc

/-- The graph is built whenever every qubit of every instruction has a permeability entry. -/
theorem C57_total {data : List (Instr L)} (h : ∀ i ∈ data, Typed i) : (dagOf data).isSome := dagOf_some h

/-- It is not built for classically conditioned instructions on two or more qubits (KeyError). -/
theorem C57_cif (i : Instr L) (hk : i.kind = .cif) (hq : 2 ≤ i.qubits.length) (hn : i.qubits.Nodup)
    (pre post : List (Instr L)) : dagOf (pre ++ i :: post) = none := by
  unfold dagOf
  rw [List.foldlM_append]
  cases h : List.foldlM dagStep Dag.empty pre with
  | none => rfl
  | some d =>
    have : dagStep d i = none := by
      unfold dagStep
      have h1 : ¬ (i.kind = .alloc) := by rw [hk]; decide
      simp only [h1, false_and, if_false]
      match e : i.qubits, hq with
      | q :: r :: l, _ =>
        have : i.qperm = (q, some .neutral) :: (r, none) ::
            (l.zip ((List.range l.length).map fun j => i.permAt (j + 2))) := by
          unfold Instr.qperm
          rw [e]
          simp [List.range_succ_eq_map, Instr.permAt, hk, Function.comp_def]
        rw [this, connectAll, connectAll]
        rfl
    simp [List.foldlM_cons, this]

/-! ### C58 -/

/-- `parallelize_qc` keeps the effect of a circuit, whatever the depth estimates are: `pick` is any choice among
the ready instructions. -/
theorem C58_parallelize {σ τ : Type} {pick : σ → List Nat → Nat} {f : σ → Nat → σ} {a : σ}
    (hp : ∀ a q, q ≠ [] → pick a q < q.length) {data out : List (Instr L)} (ho : ∀ i ∈ data, InsOK i)
    (h : parallelize pick f a data = some out) (I : Interp L τ) (s : τ) :
    runI I.act out s = runI I.act data s := parallelize_effect hp ho h I s

/-- `optimize_allocations` keeps the effect of a circuit. -/
theorem C58_allocations {σ : Type} (I : Interp L σ) {srt : List Nat → List Nat}
    (hs : ∀ l, (srt l).Perm l) {data out : List (Instr L)} (ho : ∀ i ∈ data, InsOK i)
    (h : optimizeAllocations srt data = some out) (s : σ) : runI I.act out s = runI I.act data s :=
  optimizeAllocations_effect I hs ho h s

/-- It puts every allocation directly in front of the first instruction that needs the qubit. -/
theorem C58_late {srt : List Nat → List Nat} (hs : ∀ l, (srt l).Perm l) {data out : List (Instr L)}
    (ho : ∀ i ∈ data, InsOK i) (h : optimizeAllocations srt data = some out) : Late out :=
  optimizeAllocations_late hs ho h

/-- Both succeed on circuits with a permeability entry for each qubit. -/
theorem C58_total {σ : Type} (pick : σ → List Nat → Nat) (f : σ → Nat → σ) (a : σ) (srt : List Nat → List Nat)
    {data : List (Instr L)} (h : ∀ i ∈ data, Typed i) :
    (parallelize pick f a data).isSome ∧ (optimizeAllocations srt data).isSome := by
  obtain ⟨d, e⟩ := Option.isSome_iff_exists.1 (dagOf_some h)
  unfold parallelize optimizeAllocations
  rw [e]
  constructor
  · split <;> rfl
  · rfl

/-! ### C59 -/

/-- Light cone reduction only removes instructions, never a deallocation, and running the remaining instructions,
the intended measurements and then the removed instructions is running the whole circuit. -/
theorem C59_split {isMeas : Instr L → Bool} {data meas out : List (Instr L)}
    (ho : ∀ i ∈ data ++ meas, InsOK i) (hn : (data ++ meas).Nodup) (hna : NoDupAlloc (data ++ meas))
    (hdm : ∀ i ∈ data, isMeas i = false) (hmm : ∀ i ∈ meas, isMeas i = true) (hne : meas ≠ [])
    (h : lightcone isMeas data meas = some out) :
    ∃ R, (out ++ R).Perm data ∧ (∀ i ∈ R, i.kind ≠ .dealloc) ∧
      ∀ {σ : Type} (I : Interp L σ) (s : σ),
        runI I.act (data ++ meas) s = runI I.act (out ++ meas ++ R) s :=
  lightcone_split ho hn hna hdm hmm hne h

/-- Light cone reduction of a unitary circuit does not change the probability of any outcome of the intended
measurements. -/
theorem C59_prob {n : Nat} {data out : List (Instr (QL n))} {qs : List (Fin n)} {c : Fin n → Nat}
    (hq : qs.Nodup) (hne : qs ≠ []) (ho : ∀ i ∈ data, InsOK i) (hn : data.Nodup) (hna : NoDupAlloc data)
    (hu : ∀ i ∈ data, UGate i)
    (h : lightcone (isMeasI qs) data (qs.map fun q => measI q (c q)) = some out)
    (v : Fin n → Bool) (ψ : (Fin n → Bool) → ℂ) :
    prob qs v (matRun (outcome v) out ψ) = prob qs v (matRun (outcome v) data ψ) :=
  lightcone_prob hq hne ho hn hna hu h v ψ

/-! ### Examples -/

/-- Controlled X with label `k`. -/
def exCx (k a b : Nat) : Instr Nat := ⟨.gate, k, [a, b], [.z, .x], []⟩
def exH (k a : Nat) : Instr Nat := ⟨.gate, k, [a], [.neutral], []⟩
def exAlloc (k a : Nat) : Instr Nat := ⟨.alloc, k, [a], [.neutral], []⟩
def exDealloc (k a : Nat) : Instr Nat := ⟨.dealloc, k, [a], [.neutral], []⟩
def exMeas (k a : Nat) : Instr Nat := ⟨.gate, k, [a], [.z], [a]⟩

/-- Two controlled gates with a common control and different targets may change places, a third one with the
target as control may not. -/
def exData : List (Instr Nat) := [exCx 0 0 1, exCx 1 0 2, exCx 2 1 2]

example : ((dagOf exData).map fun d => (d.nodes.length, d.edges.map fun e => (e.src, e.dst))) =
    some (6, [(0, 2), (1, 2), (0, 4), (3, 4), (2, 5), (3, 5)]) := by decide +kernel

example : ((dagOf exData).map fun d => (emit d.nodes [0, 1, 3, 4, 2, 5]).map Instr.label) =
    some [1, 0, 2] := by decide +kernel

example (d : Dag Nat) (h : dagOf exData = some d) : TopoOrder d.nodes.length d.edges [0, 1, 3, 4, 2, 5] := by
  have e : (dagOf exData).map (fun d => decide (([0, 1, 3, 4, 2, 5] : List Nat).Perm (List.range d.nodes.length) ∧
      ∀ e ∈ d.edges, [e.src, e.dst].Sublist [0, 1, 3, 4, 2, 5])) = some true := by decide +kernel
  rw [h, Option.map_some, Option.some.injEq, decide_eq_true_eq] at e
  exact ⟨e.1, fun a b ⟨x, hx, h1, h2⟩ => by rw [← h1, ← h2]; exact e.2 x hx⟩

example : ∀ i ∈ exData, InsOK i := by
  intro i hi
  simp only [exData, List.mem_cons, List.not_mem_nil, or_false] at hi
  rcases hi with rfl | rfl | rfl <;> exact ⟨by decide, fun h => by cases h⟩

example : ((dagOf [(⟨.cif, 0, [0, 1], [.z, .x], [0]⟩ : Instr Nat)]).isSome) = false := by decide +kernel

example : (parallelize (fun (_ : Unit) q => q.length - 1) (fun a _ => a) () exData).map
    (List.map Instr.label) = some [1, 0, 2] := by decide +kernel

/-- The second allocation is delayed behind the deallocation. -/
example : (optimizeAllocations id [exAlloc 0 0, exAlloc 1 1, exH 2 0, exDealloc 3 0, exH 4 1, exDealloc 5 1]).map
    (List.map Instr.label) = some [0, 2, 3, 1, 4, 5] := by decide +kernel

/-- Measuring qubit 0 only: the gate on qubit 2 and the controlled gate on it go. -/
example : (lightcone (fun i => i.label ≥ 100) [exH 0 0, exCx 1 0 1, exCx 2 1 2, exH 3 2, exH 4 1] [exMeas 100 0]).map
    (List.map Instr.label) = some [0] := by decide +kernel

/-- A deallocation keeps the gates it depends on. -/
example : (lightcone (fun i => i.label ≥ 100) [exH 0 0, exCx 1 0 1, exCx 2 1 2, exH 3 2, exDealloc 4 1]
    [exMeas 100 0]).map (List.map Instr.label) = some [0, 1, 2, 4] := by decide +kernel

end Verif.Props
