import Verif.Circ.Combine
import Verif.Circ.Meas
import Verif.Circ.PassManager

/-!
Property theorems C26–C30, C47, C48: circuit passes, the pass manager, single qubit synthesis.

Specification vocabulary: `crun I data Ψ` executes the instructions of a circuit on the state `Ψ`, a
density operator for every value of the classical bits; unitary operations act by conjugation,
everything else by an arbitrary interpretation `I` as linear operators on the bits of the instruction.
`permW` moves qubit contents, `Zero q` says that qubit `q` is in the state zero.
-/

namespace Verif.Props

open Verif.Circ

variable {Q C K : Type} [DecidableEq Q] [DecidableEq C]

/-! ### C26 -/

/-- convert_to_cx preserves the effect of every circuit in which instructions named cz, cy, swap are
these gates. Missing: circuits with other gates of these names, where it is false (below). -/
theorem C26_convert_cx_partial (I : Interp Q C K) (strict : Bool) (data out : List (CI Q C K))
    (hnd : ∀ i ∈ data, i.qs.Nodup)
    (hn : ∀ i ∈ data, NameMeans I i "cz" czG ∧ NameMeans I i "cy" cyG ∧ NameMeans I i "swap" .swap)
    (h : convertToCx strict data = some out) (Ψ : Amp (Wire Q C)) : crun I out Ψ = crun I data Ψ :=
  mapM_sound I (toCx strict) data (fun i hi o ho Ψ =>
    toCx_sound I strict i (hnd i hi) (hn i hi).1 (hn i hi).2.1 (hn i hi).2.2 o ho Ψ) out h Ψ

/-- convert_to_cz preserves the effect of every circuit in which instructions named cx, cy, swap are
these gates. Missing: circuits with other gates of these names, where it is false (below). -/
theorem C26_convert_cz_partial (I : Interp Q C K) (strict : Bool) (data out : List (CI Q C K))
    (hnd : ∀ i ∈ data, i.qs.Nodup)
    (hn : ∀ i ∈ data, NameMeans I i "cx" cxG ∧ NameMeans I i "cy" cyG ∧ NameMeans I i "swap" .swap)
    (h : convertToCz strict data = some out) (Ψ : Amp (Wire Q C)) : crun I out Ψ = crun I data Ψ :=
  mapM_sound I (toCz strict) data (fun i hi o ho Ψ =>
    toCz_sound I strict i (hnd i hi) (hn i hi).1 (hn i hi).2.1 (hn i hi).2.2 o ho Ψ) out h Ψ

theorem mapM_total {α β : Type} (f : α → Option β) (l : List α) (h : ∀ x ∈ l, (f x).isSome = true) :
    (l.mapM f).isSome = true := by
  induction l with
  | nil => simp
  | cons a r ih =>
    obtain ⟨y, hy⟩ := Option.isSome_iff_exists.1 (h a (by simp))
    obtain ⟨z, hz⟩ := Option.isSome_iff_exists.1 (ih fun x hx => h x (by simp [hx]))
    simp [List.mapM_cons, hy, hz]

theorem mapM_mem {α β : Type} (f : α → Option β) (l : List α) (out : List β) (h : l.mapM f = some out) :
    ∀ y ∈ out, ∃ x ∈ l, f x = some y := by
  induction l generalizing out with
  | nil => simp at h; subst h; simp
  | cons a r ih =>
    cases ha : f a with
    | none => simp [List.mapM_cons, ha] at h
    | some b =>
      cases hr : r.mapM f with
      | none => simp [List.mapM_cons, ha, hr] at h
      | some rs =>
        simp [List.mapM_cons, ha, hr] at h
        subst h
        intro y hy
        rcases List.mem_cons.1 hy with rfl | hy
        · exact ⟨a, by simp, ha⟩
        · obtain ⟨x, hx, hxy⟩ := ih rs hr y hy
          exact ⟨x, by simp [hx], hxy⟩

/-- Without strict mode the passes never fail. -/
theorem C26_total (data : List (CI Q C K)) :
    (convertToCx false data).isSome = true ∧ (convertToCz false data).isSome = true := by
  have h1 : ∀ i : CI Q C K, (toCx false i).isSome = true := by
    intro i; unfold toCx; split
    · split <;> [rfl; split <;> [rfl; split <;> [rfl; split <;> rfl]]]
    · rfl
  have h2 : ∀ i : CI Q C K, (toCz false i).isSome = true := by
    intro i; unfold toCz; split
    · split <;> [rfl; split <;> [rfl; split <;> [rfl; split <;> rfl]]]
    · rfl
  constructor
  · obtain ⟨x, hx⟩ := Option.isSome_iff_exists.1 (mapM_total (toCx false) data fun i _ => h1 i)
    unfold convertToCx; rw [hx]; rfl
  · obtain ⟨x, hx⟩ := Option.isSome_iff_exists.1 (mapM_total (toCz false) data fun i _ => h2 i)
    unfold convertToCz; rw [hx]; rfl

theorem name_cxG : (COp.uni cxG : COp K).name = "cx" := by
  simp [COp.name, cxG, Op.name, ctlPrefix]
theorem name_czG : (COp.uni czG : COp K).name = "cz" := by
  simp [COp.name, czG, Op.name, ctlPrefix]

/-- In strict mode the only two qubit instructions of the result are cx (cz) and barriers. -/
theorem C26_strict_basis (data out : List (CI Q C K)) :
    (convertToCx true data = some out → ∀ i ∈ out, i.qs.length = 2 →
      i.op.name = "cx" ∨ i.op.name = "barrier") ∧
    (convertToCz true data = some out → ∀ i ∈ out, i.qs.length = 2 →
      i.op.name = "cz" ∨ i.op.name = "barrier") := by
  have one : ∀ i : CI Q C K, (∀ a b, i.qs = [a, b] → False) → i.qs.length = 2 → False := by
    intro i hne hl
    obtain ⟨a, b, hab⟩ := List.length_eq_two.1 hl
    exact hne a b hab
  have h1 : ∀ (i : CI Q C K) o, toCx true i = some o → ∀ j ∈ o, j.qs.length = 2 →
      j.op.name = "cx" ∨ j.op.name = "barrier" := by
    intro i o h j hj hl
    unfold toCx at h
    split at h
    · split at h
      · rename_i hn; cases h; simp only [List.mem_singleton] at hj; subst hj; exact hn
      all_goals (try split at h)
      · cases h
        simp only [uIns, List.map_cons, List.map_nil, List.mem_cons, List.not_mem_nil, or_false] at hj
        rcases hj with rfl | rfl | rfl <;> first | exact .inl name_cxG | simp at hl
      all_goals (try split at h)
      · cases h
        simp only [uIns, List.map_cons, List.map_nil, List.mem_cons, List.not_mem_nil, or_false] at hj
        rcases hj with rfl | rfl | rfl <;> first | exact .inl name_cxG | simp at hl
      all_goals (try split at h)
      · cases h
        simp only [uIns, List.map_cons, List.map_nil, List.mem_cons, List.not_mem_nil, or_false] at hj
        rcases hj with rfl | rfl | rfl <;> first | exact .inl name_cxG | simp at hl
      · simp at h
    · rename_i hne
      cases h
      simp only [List.mem_singleton] at hj
      subst hj
      exact absurd hl fun hl => one j hne hl
  have h2 : ∀ (i : CI Q C K) o, toCz true i = some o → ∀ j ∈ o, j.qs.length = 2 →
      j.op.name = "cz" ∨ j.op.name = "barrier" := by
    intro i o h j hj hl
    unfold toCz at h
    split at h
    · split at h
      · rename_i hn; cases h; simp only [List.mem_singleton] at hj; subst hj; exact hn
      all_goals (try split at h)
      · cases h
        simp only [uIns, List.map_cons, List.map_nil, List.mem_cons, List.not_mem_nil, or_false] at hj
        rcases hj with rfl | rfl | rfl <;> first | exact .inl name_czG | simp at hl
      all_goals (try split at h)
      · cases h
        simp only [uIns, List.map_cons, List.map_nil, List.mem_cons, List.not_mem_nil, or_false] at hj
        rcases hj with rfl | rfl | rfl | rfl | rfl <;> first | exact .inl name_czG | simp at hl
      all_goals (try split at h)
      · cases h
        simp only [uIns, List.map_cons, List.map_nil, List.mem_cons, List.not_mem_nil, or_false] at hj
        rcases hj with rfl | rfl | rfl | rfl | rfl | rfl | rfl | rfl | rfl <;>
          first | exact .inl name_czG | simp at hl
      · simp at h
    · rename_i hne
      cases h
      simp only [List.mem_singleton] at hj
      subst hj
      exact absurd hl fun hl => one j hne hl
  constructor
  · intro h i hi hl
    unfold convertToCx at h
    obtain ⟨l, hl', rfl⟩ := Option.map_eq_some_iff.1 h
    obtain ⟨o, ho, hio⟩ := List.mem_flatten.1 hi
    obtain ⟨x, _, hx⟩ := mapM_mem _ _ _ hl' o ho
    exact h1 x o hx i hio hl
  · intro h i hi hl
    unfold convertToCz at h
    obtain ⟨l, hl', rfl⟩ := Option.map_eq_some_iff.1 h
    obtain ⟨o, ho, hio⟩ := List.mem_flatten.1 hi
    obtain ⟨x, _, hx⟩ := mapM_mem _ _ _ hl' o ho
    exact h2 x o hx i hio hl

/-- The state |0⟩⟨0| ⊗ |+⟩⟨+| (unnormalised) of two qubits. -/
def zeroPlus : Amp (Wire Bool Empty) := fun b =>
  if b (.inl false) = false ∧ b (.inr (.inl false)) = false then 1 else 0

/-- A Z gate controlled on the state 0 carries the name cz and is converted to the ordinary one. -/
theorem C26_ctrl_state_wrong : ∃ (data out : List (CI Bool Empty Prim)) (Ψ : Amp (Wire Bool Empty)),
    (∀ i ∈ data, i.qs.Nodup) ∧ convertToCx true data = some out ∧
    crun (stdI Bool Empty) out Ψ ≠ crun (stdI Bool Empty) data Ψ := by
  let i : CI Bool Empty Prim := ⟨.uni (.ctrl (.pauli .z) [false]), [false, true], []⟩
  have hnm : i.op.name = "cz" := by simp [i, COp.name, Op.name, ctlPrefix]
  refine ⟨[i], uIns [(hG, [true]), (cxG, [false, true]), (hG, [true])], zeroPlus, ?_, ?_, ?_⟩
  · simp [i]
  · simp [convertToCx, toCx, i, COp.name, Op.name, ctlPrefix]
  · rw [crun_uIns, lift_congr (cz_id (by decide : (false : Bool) ≠ true))]
    intro h
    have := congrFun h (fun w => match w with | .inl true => true | _ => false)
    simp [crun, i, cden, lift, rowLift, colLift, den, czG, ctl, ctlMatch, on1, app1, mux, Pauli.mat,
      zeroPlus, rowOf, colOf, setRow, setCol, mk, Verif.Rev.upd] at this
    norm_num at this

/-! ### C27 -/

/-- combine_single_qubit_gates preserves the effect of every well-formed circuit, whatever the runs of
single qubit gates, the non-unitary operations between them and the nesting of definitions. `isId` is
the test by which the pass recognises an identity; it is idealised to recognise the identity only. -/
theorem C27_combine (I : Interp Q C K) (isId : M2 → Bool) (hid : ∀ m, isId m = true → m = 1) (n : Nat)
    (data : List (COp K × List Nat × List Nat)) (hw : CWFBody n data) (qs : List Q) (cs : List C)
    (hnd : qs.Nodup) (hl : qs.length = n) (Ψ : Amp (Wire Q C)) :
    cdenBody I (combineCircuit isId n data) qs cs Ψ = cdenBody I data qs cs Ψ :=
  combineCircuit_sound I hid n data hw qs cs hnd hl Ψ

/-- Two gates before a measurement become one. -/
example : combineCircuit (K := Prim) (fun _ => false) 1
    [(.uni (.pauli .x), [0], []), (.uni (.pauli .z), [0], []), (.prim "measure" .measure, [0], [0])]
      = [(.uni (unitaryG (Pauli.z.mat * Pauli.x.mat)), [0], []), (.prim "measure" .measure, [0], [0])] := by
  simp [combineCircuit, combineCMap, combineCOp, combineOp, fuse, fuseGo, copSig, flushL, flushOne, Op.mat1, clear,
    stackMat]

/-! ### C28 -/

/-- commute_swaps preserves the effect of every circuit in which instructions named swap (id) are swaps
(identities) and a classical bit of a single qubit instruction is used by no other instruction.
Missing: circuits where such a bit is used again, where it is false (below). -/
theorem C28_commute_swaps_partial (I : Interp Q C K) (data : List (CI Q C K))
    (hok : ∀ i ∈ data, CSOK I i) (hp : Private data) (Ψ : Amp (Wire Q C)) :
    crun I (commuteSwaps data) Ψ = crun I data Ψ := commuteSwaps_sound I data hok hp Ψ

/-- resolve_swaps: the circuit without swaps followed by a permutation of the qubits has the effect of
the given circuit. -/
theorem C28_resolve_swaps (I : Interp Q C K) (qubits : List Q) (hnd : qubits.Nodup)
    (data : List (CI Q C K)) (hnq : ∀ i ∈ data, i.qs.Nodup) (hs : ∀ i ∈ data, SwapOK I i)
    (out : List (CI Q C K)) (perm : List Nat) (h : resolveSwaps qubits data = some (out, perm)) :
    (∀ i ∈ out, i.op.name ≠ "swap") ∧ ∃ σ : Equiv.Perm Q, (∀ q, q ∉ qubits → σ q = q) ∧
      ∀ Ψ, crun I data Ψ = permW σ (crun I out Ψ) := by
  refine ⟨resolveGo_names qubits data _ _ _ h, ?_⟩
  obtain ⟨τ, ht, hr⟩ := resolveGo_sound I qubits hnd data hnq hs _ 1 (Tab.range qubits) out perm h
  refine ⟨τ⁻¹, fun q hq => ?_, fun Ψ => ?_⟩
  · have := ht.2.2 q hq
    exact (Equiv.Perm.inv_eq_iff_eq.2 this.symm)
  · rw [← hr Ψ, inv_one, permW_one]

/-- resolve_swaps does not change the statistics of the classical bits. -/
theorem C28_resolve_swaps_statistics [Fintype Q] (I : Interp Q C K) (qubits : List Q)
    (hnd : qubits.Nodup) (data : List (CI Q C K)) (hnq : ∀ i ∈ data, i.qs.Nodup)
    (hs : ∀ i ∈ data, SwapOK I i) (out : List (CI Q C K)) (perm : List Nat)
    (h : resolveSwaps qubits data = some (out, perm)) (Ψ : Amp (Wire Q C)) (c : C → Bool) :
    clProb (crun I out Ψ) c = clProb (crun I data Ψ) c := by
  obtain ⟨_, σ, _, hr⟩ := C28_resolve_swaps I qubits hnd data hnq hs out perm h
  rw [hr, clProb_perm]

/-- resolve_swaps succeeds on circuits whose instructions use registered qubits. -/
theorem C28_resolve_swaps_total (qubits : List Q) (data : List (CI Q C K))
    (hq : ∀ i ∈ data, ∀ q ∈ i.qs, q ∈ qubits) (h2 : ∀ i ∈ data, i.op.name = "swap" → i.qs.length = 2) :
    (resolveSwaps qubits data).isSome = true :=
  resolveGo_total qubits data hq h2 _ (by simp) (fun p hp => by simpa using hp)

/-- arrange_swaps preserves the effect on the zero state of every circuit in which instructions named
swap are swaps and instructions with "alloc" in their name have no effect. Missing: gates with "alloc"
in the name, where it is false (below). -/
theorem C28_arrange_swaps_partial (I : Interp Q C K) (data : List (CI Q C K))
    (hal : ∀ i ∈ data, isAllocName i.op.name = true → ∀ Ψ, cden I i.op i.qs i.cs Ψ = Ψ)
    (hnd : ∀ i ∈ data, i.qs.Nodup) (hsw : ∀ i ∈ data, SwapOK I i)
    (out : List (CI Q C K)) (ho : arrangeSwaps data = some out) (Ψ : Amp (Wire Q C))
    (hz : ∀ q, Zero q Ψ) : crun I out Ψ = crun I data Ψ :=
  arrangeGo_sound I data hal hnd hsw [] out ho Ψ fun q _ => hz q

theorem swapG_ok (I : Interp Q C K) (a b : Q) : SwapOK I ⟨.uni .swap, [a, b], []⟩ := by
  intro _
  refine ⟨a, b, rfl, fun p q cs Ψ _ => ?_⟩
  simp only [cden]
  exact lift_swap p q Ψ

/-- A measurement of the first qubit, an X gate on the second one and a swap of the first and third. -/
def msCirc (l : List (CI (Fin 3) Unit Prim)) : List (CI (Fin 3) Unit Prim) :=
  [⟨.prim "measure" .measure, [0], [()]⟩] ++ l ++ [⟨.uni .swap, [0, 2], []⟩]

/-- The measurement is moved behind the swap. -/
example : commuteSwaps (msCirc [⟨.uni (.pauli .x), [1], []⟩])
    = [⟨.uni (.pauli .x), [1], []⟩, ⟨.uni .swap, [0, 2], []⟩, ⟨.prim "measure" .measure, [2], [()]⟩] := by
  simp [msCirc, commuteSwaps, csStep, moveLoop, COp.name, Op.name, idCI, List.filter]

theorem msCirc_pass : commuteSwaps (msCirc [⟨.prim "c_if_x" .condX, [1], [()]⟩])
    = [⟨.prim "c_if_x" .condX, [1], [()]⟩, ⟨.uni .swap, [0, 2], []⟩,
       ⟨.prim "measure" .measure, [2], [()]⟩] := by
  simp [msCirc, commuteSwaps, csStep, moveLoop, COp.name, Op.name, idCI, List.filter]

/-- The basis state with the first qubit one. -/
def oneState : Amp (Wire (Fin 3) Unit) := fun b =>
  if b (.inl 0) = true ∧ b (.inr (.inl 0)) = true ∧ b (.inl 1) = false ∧ b (.inr (.inl 1)) = false ∧
    b (.inl 2) = false ∧ b (.inr (.inl 2)) = false ∧ b (.inr (.inr ())) = false then 1 else 0

/-- The final state of the circuit: second and third qubit and the classical bit are one. -/
def msEnd : Wire (Fin 3) Unit → Bool
  | .inl q => decide (q ≠ 0)
  | .inr (.inl q) => decide (q ≠ 0)
  | .inr (.inr _) => true

/-- commute_swaps moves a measurement behind an operation that depends on its result. -/
theorem C28_commute_swaps_wrong : ∃ (data : List (CI (Fin 3) Unit Prim)) (Ψ : Amp (Wire (Fin 3) Unit)),
    (∀ i ∈ data, CSOK (stdI (Fin 3) Unit) i) ∧
    crun (stdI (Fin 3) Unit) (commuteSwaps data) Ψ ≠ crun (stdI (Fin 3) Unit) data Ψ := by
  refine ⟨msCirc [⟨.prim "c_if_x" .condX, [1], [()]⟩], oneState, ?_, ?_⟩
  · intro i hi
    simp only [msCirc, List.cons_append, List.nil_append, List.mem_cons, List.not_mem_nil, or_false] at hi
    rcases hi with rfl | rfl | rfl
    · exact ⟨fun h => by simp [COp.name] at h, fun h => by simp [COp.name] at h⟩
    · exact ⟨fun h => by simp [COp.name] at h, fun h => by simp [COp.name] at h⟩
    · refine ⟨fun _ => ⟨0, 2, rfl, by decide, fun Ψ => ?_⟩, fun h => by simp [COp.name, Op.name] at h⟩
      simp only [cden]
      exact lift_swap 0 2 Ψ
  · rw [msCirc_pass]
    intro h
    have := congrFun h msEnd
    simp only [msCirc, List.cons_append, List.nil_append, crun, cden, lift_swap, permW, stdI, primA, measA,
      condXA] at this
    simp [oneState, msEnd, wmap, Verif.Rev.upd, setQ, Equiv.swap_apply_def] at this

/-- arrange_swaps drops every gate with "alloc" in its name. -/
theorem C28_arrange_swaps_wrong : ∃ (data out : List (CI Unit Empty Prim)) (Ψ : Amp (Wire Unit Empty)),
    (∀ q, Zero q Ψ) ∧ arrangeSwaps data = some out ∧
    crun (stdI Unit Empty) out Ψ ≠ crun (stdI Unit Empty) data Ψ := by
  refine ⟨[⟨.uni (.gate "reallocate" 1 [(.pauli .x, [0])]), [()], []⟩], [],
    fun b => if b (.inl ()) = true ∨ b (.inr (.inl ())) = true then 0 else 1, ?_, ?_, ?_⟩
  · intro q b hb
    exact if_pos hb
  · have : isAllocName "reallocate" = true := by decide
    simp [arrangeSwaps, arrangeGo, COp.name, Op.name, this]
  · intro h
    have := congrFun h fun _ => false
    simp [crun, cden, lift, rowLift, colLift, den, denBody, pick, on1, app1, mux, Pauli.mat, rowOf, colOf,
      setRow, setCol, mk, Verif.Rev.upd] at this

/-- Dropped and reversed swaps. -/
example : arrangeSwaps (Q := Nat) (C := Empty) (K := Prim)
    [⟨.uni .swap, [0, 1], []⟩, ⟨.uni (.pauli .x), [0], []⟩, ⟨.uni .swap, [0, 1], []⟩]
      = some [⟨.uni (.pauli .x), [0], []⟩, ⟨.uni .swap, [1, 0], []⟩] := by
  have h1 : isAllocName "swap" = false := by decide
  have h2 : isAllocName "x" = false := by decide
  simp [arrangeSwaps, arrangeGo, COp.name, Op.name, h1, h2]

/-! ### C29 -/

theorem r2_ne : r2 ≠ 0 := by
  intro h
  have := r2_sq
  rw [h] at this
  norm_num at this

/-- cancel_zero_controls preserves the effect on states in which all qubits are zero, for circuits whose
operations do what their names say, whose phase tolerant operations do nothing for unsatisfied controls
and whose allocated qubits are zero. Missing: gates named cp or cz controlled on zero, where it is false
(below). -/
theorem C29_cancel_zero_partial (I : Interp Q C K) (qubits : List Q) (data : List (CI Q C K))
    (hok : ∀ i ∈ data, CZOK I i) (Ψ : Amp (Wire Q C)) (hz : ∀ q ∈ qubits, Zero q Ψ)
    (ha : AllocZero I data Ψ) : crun I (cancelZero qubits data) Ψ = crun I data Ψ :=
  cancelGo_sound I data hok _ Ψ (fun q hq => hz q (by simpa using hq)) ha

/-- The standard cz gate satisfies the assumptions. -/
theorem czok_cz (I : Interp Q C K) {a b : Q} (hab : a ≠ b) : CZOK I ⟨.uni czG, [a, b], []⟩ where
  nodup := by simpa using hab
  phase := by
    intro _ q hq Ψ hz
    simp only [List.mem_cons, List.not_mem_nil, or_false] at hq
    simp only [cden]
    rcases hq with rfl | rfl
    · exact ctrl_zero (.pauli .z) [true] [q, b] (by simpa using hab) q (by simp) Ψ hz
    · refine lift_zero (q := q) (fun ψ hψ => ?_) hz
      funext x
      simp only [czG, den, ctl, on1, app1, mux, List.length_singleton, List.drop_succ_cons, List.drop_zero]
      have h1 := hψ (Verif.Rev.upd x q true) (by simp [Verif.Rev.upd])
      rw [h1]
      cases hx : x q
      · have : Verif.Rev.upd x q false = x := by
          funext y; unfold Verif.Rev.upd; split
          · rename_i e; rw [e, hx]
          · rfl
        simp [Pauli.mat, mk, this]
      · simp [Pauli.mat, mk, hψ x hx]
  pt := by intro _ _ _ h; cases h
  diag := by intro q h; simp at h
  barrier := by intro h; simp [COp.name, czG, Op.name, ctlPrefix] at h
  one := by intro h; simp [COp.name, czG, Op.name, ctlPrefix] at h

/-- Phase gates satisfy the assumptions. -/
theorem czok_p (I : Interp Q C K) (φ : ℝ) (q : Q) : CZOK I ⟨.uni (pG φ), [q], []⟩ where
  nodup := by simp
  phase := by intro h; simp [COp.name, pG, Op.name] at h
  pt := by intro _ _ _ h; cases h
  diag := by
    intro p hp _ Ψ hz
    cases hp
    simp only [cden]
    refine lift_keeps (den_loc (pG φ) [q]).zero (fun ψ hψ b hb => ?_) hz
    have e : den (pG φ) [q] ψ b = app1 (pm φ) q ψ b := by
      simp only [pG, den, on1, u3m_p]
    rw [e]
    have h1 := hψ (Verif.Rev.upd b q true) (by simp [Verif.Rev.upd])
    simp [app1, mux, hb, h1, pm, mk]
  barrier := by intro h; simp [COp.name, pG, Op.name] at h
  one := by intro h; simp [COp.name, pG, Op.name] at h

/-- A cz gate with a fresh qubit goes, one with used qubits stays. -/
example : cancelZero (C := Empty) (K := Prim) [0, 1]
    [⟨.uni (.pauli .x), [0], []⟩, ⟨.uni (pG 1), [1], []⟩, ⟨.uni czG, [0, 1], []⟩, ⟨.uni cxG, [0, 1], []⟩,
      ⟨.uni czG, [0, 1], []⟩]
    = [⟨.uni (.pauli .x), [0], []⟩, ⟨.uni (pG 1), [1], []⟩, ⟨.uni cxG, [0, 1], []⟩, ⟨.uni czG, [0, 1], []⟩] := by
  simp [cancelZero, cancelGo, COp.name, Op.name, ctlPrefix, czG, cxG, pG, isCancelled, diagonal1q, setFresh,
    ctrlFresh]

/-- The result is a part of the given circuit. -/
theorem C29_sublist (qubits : List Q) (data : List (CI Q C K)) : (cancelZero qubits data).Sublist data :=
  cancelGo_sublist _ data

/-- Two qubits in the state zero. -/
def zz : Amp (Wire Bool Empty) := fun b =>
  if ∃ q, b (.inl q) = true ∨ b (.inr (.inl q)) = true then 0 else 1

/-- A phase controlled on the state 0 is removed because of its name. -/
theorem C29_ctrl_state_wrong : ∃ (data : List (CI Bool Empty Prim)) (Ψ : Amp (Wire Bool Empty)),
    (∀ q, Zero q Ψ) ∧ (∀ i ∈ data, i.qs.Nodup) ∧
    crun (stdI Bool Empty) (cancelZero [false, true] data) Ψ ≠ crun (stdI Bool Empty) data Ψ := by
  let i0 : CI Bool Empty Prim := ⟨.uni hG, [true], []⟩
  let i : CI Bool Empty Prim := ⟨.uni (.ctrl (.pauli .z) [false]), [false, true], []⟩
  refine ⟨[i0, i], zz, ?_, ?_, ?_⟩
  · intro q b hb
    exact if_pos ⟨q, hb⟩
  · simp [i0, i]
  · have e : cancelZero [false, true] [i0, i] = [i0] := by
      simp [cancelZero, cancelGo, i0, i, COp.name, Op.name, ctlPrefix, hG, isCancelled, diagonal1q, setFresh]
    rw [e]
    intro h
    have := congrFun h (fun w => match w with | .inl true => true | _ => false)
    simp only [crun, i0, i, cden, lift, rowLift, colLift, den_h] at this
    simp [den, ctl, ctlMatch, on1, app1, mux, Pauli.mat, zz, rowOf, colOf, setRow, setCol, mk, hm,
      Verif.Rev.upd] at this
    have h0 := self_eq_neg.1 this
    rw [mul_eq_zero, map_eq_zero, or_self] at h0
    exact r2_ne h0

/-! ### C30 -/

open Verif.PassManager in
/-- The constructor accepts exactly the lists of passes and keeps them in order. -/
theorem C30_init {α ε : Type} (l : List (Obj α ε)) :
    (∀ ps : List (Pass α ε), init l = .ok ps ↔ l = ps.map Obj.pass) ∧
    ((∃ o ∈ l, ∀ p, o ≠ Obj.pass p) → init l = .error .type) := by
  induction l with
  | nil =>
    refine ⟨fun ps => ?_, by simp⟩
    cases ps <;> simp [init]
  | cons o r ih =>
    obtain ⟨i1, i2⟩ := ih
    match o with
    | .pass p =>
      constructor
      · intro ps
        cases hr : init r with
        | error e =>
          simp only [init, hr, Except.map]
          constructor
          · intro h; cases h
          · intro h
            cases ps with
            | nil => simp at h
            | cons q ps =>
              rw [List.map_cons, List.cons.injEq] at h
              rw [(i1 ps).2 h.2] at hr
              cases hr
        | ok qs =>
          have := (i1 qs).1 hr
          simp only [init, hr, Except.map, Except.ok.injEq]
          cases ps with
          | nil => simp
          | cons q ps =>
            rw [List.map_cons, List.cons.injEq, List.cons.injEq, this]
            constructor
            · rintro ⟨rfl, rfl⟩; exact ⟨rfl, rfl⟩
            · rintro ⟨h1, h2⟩
              exact ⟨by cases h1; rfl, (List.map_injective_iff.2 (fun _ _ h => by cases h; rfl)) h2⟩
      · rintro ⟨o, ho, hn⟩
        rcases List.mem_cons.1 ho with e | e
        · exact absurd e (hn p)
        · simp only [init, i2 ⟨o, e, hn⟩]; rfl
    | .manager m =>
      refine ⟨fun ps => ⟨fun h => (by cases h), fun h => ?_⟩, fun _ => rfl⟩
      cases ps with
      | nil => simp at h
      | cons q ps => rw [List.map_cons, List.cons.injEq] at h; cases h.1
    | .other =>
      refine ⟨fun ps => ⟨fun h => (by cases h), fun h => ?_⟩, fun _ => rfl⟩
      cases ps with
      | nil => simp at h
      | cons q ps => rw [List.map_cons, List.cons.injEq] at h; cases h.1

open Verif.PassManager in
/-- Running the manager runs its passes in list order, each on the result of the one before; the first
exception ends the run. -/
theorem C30_run {α ε : Type} (ps : List (Pass α ε)) (qc : α) : run ps qc =
    match ps with
    | [] => .ok qc
    | p :: r => match p qc with
      | .ok qc' => run r qc'
      | .error e => .error e := by
  match ps with
  | [] => rfl
  | p :: r =>
    rw [run_cons]
    simp only
    cases p qc <;> rfl

open Verif.PassManager in
/-- What the methods do to the effect of running the manager. A call raising an exception changes
nothing (by the type of `call`). -/
theorem C30_calls {α ε : Type} (ps : List (Pass α ε)) (qc : α) :
    (∀ p ps', call ps (.add (.pass p)) = .ok ps' → run ps' qc = run ps qc >>= p) ∧
    (∀ p ps', call ps (.iadd (.pass p)) = .ok ps' → run ps' qc = run ps qc >>= p) ∧
    (∀ qs ps', call ps (.iadd (.manager qs)) = .ok ps' → run ps' qc = run ps qc >>= run qs) ∧
    (∀ ps', call ps .iaddSelf = .ok ps' → run ps' qc = run ps qc >>= run ps) ∧
    (∀ ps', call ps .clear = .ok ps' → run ps' qc = .ok qc) ∧
    (∀ i p ps', call ps (.insert i (.pass p)) = .ok ps' → ∃ a b, ps = a ++ b ∧
      ps' = a ++ p :: b ∧ run ps' qc = run a qc >>= p >>= run b ∧
      (0 ≤ i → i ≤ ps.length → (a.length : Int) = i) ∧ (i < 0 → -i ≤ ps.length → (b.length : Int) = -i) ∧
      ((ps.length : Int) < i → b = []) ∧ (i < -ps.length → a = [])) ∧
    (∀ i, (call ps (.remove i)).isOk = true ↔ (-ps.length ≤ i ∧ i < (ps.length : Int))) ∧
    (∀ i ps', call ps (.remove i) = .ok ps' → ∃ a p b, ps = a ++ p :: b ∧ ps' = a ++ b ∧
      run ps' qc = run a qc >>= run b ∧
      (0 ≤ i → (a.length : Int) = i) ∧ (i < 0 → (b.length : Int) + 1 = -i)) ∧
    (∀ o, (∀ p, o ≠ .pass p) → call ps (.add o) = .error .type ∧ ∀ i, call ps (.insert i o) = .error .type) ∧
    call ps (.iadd .other) = .error .type := by
  refine ⟨?_, ?_, ?_, ?_, ?_, ?_, ?_, ?_, ?_, rfl⟩
  · intro p ps' h
    cases h
    rw [run_append]; congr 1; funext x; exact run_single p x
  · intro p ps' h
    cases h
    rw [run_append]; congr 1; funext x; exact run_single p x
  · intro qs ps' h
    cases h
    exact run_append _ _ _
  · intro ps' h
    cases h
    exact run_append _ _ _
  · intro ps' h
    cases h; rfl
  · intro i p ps' h
    cases h
    simp only [pyInsert]
    generalize hj : (if i < 0 then max (i + (ps.length : Int)) 0 else min i ps.length) = j
    refine ⟨ps.take j.toNat, ps.drop j.toNat, (List.take_append_drop _ _).symm, rfl, ?_, ?_, ?_, ?_, ?_⟩
    · rw [run_append]
      cases run (ps.take j.toNat) qc with
      | error e => rfl
      | ok x => exact run_cons p _ x
    · intro h1 h2
      rw [List.length_take]
      split at hj <;> omega
    · intro h1 h2
      rw [List.length_drop]
      split at hj <;> omega
    · intro h1
      apply List.drop_eq_nil_of_le
      split at hj <;> omega
    · intro h1
      have : j.toNat = 0 := by split at hj <;> omega
      rw [this]; rfl
  · intro i
    simp only [call, pyDel]
    generalize hj : (if i < 0 then i + (ps.length : Int) else i) = j
    by_cases h : 0 ≤ j ∧ j < (ps.length : Int)
    · simp only [h, and_self, if_true]
      constructor
      · intro _; split at hj <;> omega
      · intro _; rfl
    · simp only [h, if_false]
      constructor
      · intro h'; cases h'
      · intro h'; exfalso; apply h; split at hj <;> omega
  · intro i ps' h
    simp only [call, pyDel] at h
    generalize hj : (if i < 0 then i + (ps.length : Int) else i) = j at h
    by_cases hc : 0 ≤ j ∧ j < (ps.length : Int)
    · simp only [hc, and_self, if_true, Except.ok.injEq] at h
      have hlt : j.toNat < ps.length := by omega
      refine ⟨ps.take j.toNat, ps[j.toNat], ps.drop (j.toNat + 1), ?_, ?_, ?_, ?_, ?_⟩
      · rw [← List.drop_eq_getElem_cons hlt, List.take_append_drop]
      · rw [← h, List.eraseIdx_eq_take_drop_succ]
      · rw [← h, List.eraseIdx_eq_take_drop_succ, run_append]
      · intro h1
        rw [List.length_take]
        split at hj <;> omega
      · intro h1
        rw [List.length_drop]
        split at hj <;> omega
    · simp only [hc, if_false] at h
      cases h
  · intro o ho
    match o, ho with
    | .pass p, ho => exact absurd rfl (ho p)
    | .manager _, _ => exact ⟨rfl, fun _ => rfl⟩
    | .other, _ => exact ⟨rfl, fun _ => rfl⟩

open Verif.PassManager in
/-- The result for a pass is the one of comparing on the circuit the passes before it produced. -/
theorem C30_verify {α ε : Type} (check : Pass α ε → α → Except ε Bool) (ps : List (Pass α ε)) (qc : α)
    (l : List Bool) (h : verify check ps qc = .ok l) : l.length = ps.length ∧
    ∀ (k : Nat) p, ps[k]? = some p → ∃ c b, run (ps.take k) qc = .ok c ∧ check p c = .ok b ∧ l[k]? = some b := by
  induction ps generalizing qc l with
  | nil =>
    cases h
    exact ⟨rfl, by simp⟩
  | cons p r ih =>
    rw [verify] at h
    cases hb : check p qc with
    | error e => rw [hb] at h; cases h
    | ok b =>
      rw [hb] at h
      cases hp : p qc with
      | error e => rw [hp] at h; cases h
      | ok qc' =>
        rw [hp] at h
        cases hl : verify check r qc' with
        | error e => simp only [bind, Except.bind] at h; rw [hl] at h; cases h
        | ok l' =>
          simp only [bind, Except.bind] at h
          rw [hl] at h
          cases h
          obtain ⟨h1, h2⟩ := ih qc' l' hl
          refine ⟨by simp [h1], fun k q hk => ?_⟩
          match k with
          | 0 =>
            simp only [List.getElem?_cons_zero, Option.some.injEq] at hk
            subst hk
            exact ⟨qc, b, rfl, hb, rfl⟩
          | k + 1 =>
            simp only [List.getElem?_cons_succ] at hk
            obtain ⟨c, b', e1, e2, e3⟩ := h2 k q hk
            refine ⟨c, b', ?_, e2, by simpa using e3⟩
            rw [List.take_succ_cons, run_cons, hp]
            exact e1

open Verif.PassManager in
/-- Insert in front of the last pass, delete the first one. -/
example : run (calls [fun n : Nat => Except.ok (ε := String) (n + 1), fun n => .ok (n * 2)]
    [.insert (-1) (.pass fun n => .ok (n + 10)), .remove 7, .remove 0, .iaddSelf]) 3 = .ok 72 := by rfl

/-! ### C47 -/

/-- The gate built from a unitary matrix has exactly this matrix, on any qubit. -/
theorem C47_unitary (m : M2) (h : m.conjTranspose * m = 1) (q : Q) (ψ : Amp Q) :
    den (unitaryG m) [q] ψ = app1 m q ψ := by
  have := unitary_mat h
  simp only [unitaryG, den, on1]
  rw [this]

/-- Every product of gates is such a matrix. -/
example : (Pauli.y.mat * hm).conjTranspose * (Pauli.y.mat * hm) = 1 := by
  have h1 := isU_pauli .y
  have h2 : IsU hm := by rw [← u3m_h]; exact isU_u3 _ _ _ _
  exact isU_mul h1 h2

/-! ### C48 -/

open Verif.PassManager in
/-- manual_layout puts logical qubit i at position mapping[i]; all other positions are filled with new,
different qubits. Missing: circuits with qubits that already carry the names of the new ones (below). -/
theorem C48_layout_partial {ID : Type} [DecidableEq ID] (nm : Nat → ID) (hinj : Function.Injective nm)
    (mapping : List Int) (qubits : List ID) (hq : qubits.Nodup) (hlen : mapping.length = qubits.length)
    (hpos : ∀ x ∈ mapping, 0 ≤ x) (hnd : mapping.Nodup) (hfresh : ∀ j, nm j ∉ qubits) :
    ∃ res, manualLayout nm mapping qubits = .ok res ∧ res.Nodup ∧
      (∀ (i : Nat) m q, mapping[i]? = some m → qubits[i]? = some q → res[m.toNat]? = some q) ∧
      (∀ q ∈ res, q ∈ qubits ∨ ∃ j, q = nm j) ∧
      (∀ n : Nat, n < res.length → ∃ x ∈ mapping, (n : Int) ≤ x) := by
  obtain ⟨res, h1, h2, h3, h4⟩ := manualLayout_ok nm hinj mapping qubits hq hlen hpos hnd fun j _ => hfresh j
  refine ⟨res, h1, ?_, h3, fun q hqr => ?_, fun n hn => ?_⟩
  · rw [h4.nodup_iff, List.nodup_append]
    refine ⟨hq, ?_, fun a ha b hb e => ?_⟩
    · exact (List.nodup_map_iff hinj).2 List.nodup_range
    · obtain ⟨j, _, rfl⟩ := List.mem_map.1 hb
      exact hfresh j (e ▸ ha)
  · rcases List.mem_append.1 (h4.mem_iff.1 hqr) with h | h
    · exact .inl h
    · obtain ⟨j, _, rfl⟩ := List.mem_map.1 h
      exact .inr ⟨j, rfl⟩
  · rw [h2] at hn
    obtain ⟨x, hx, h | h⟩ := numPhys_max mapping n hn
    · exact ⟨x, hx, h⟩
    · have := hpos x hx
      omega

open Verif.PassManager in
/-- The mapping is rejected exactly if it has the wrong length, a negative or a repeated index. -/
theorem C48_rejects_partial {ID : Type} [DecidableEq ID] (nm : Nat → ID) (hinj : Function.Injective nm)
    (mapping : List Int) (qubits : List ID) (hq : qubits.Nodup) (hfresh : ∀ j, nm j ∉ qubits) :
    (manualLayout nm mapping qubits).isOk = true ↔
      mapping.length = qubits.length ∧ (∀ x ∈ mapping, 0 ≤ x) ∧ mapping.Nodup := by
  constructor
  · intro h
    unfold manualLayout at h
    split at h
    · cases h
    · rename_i h1
      split at h
      · cases h
      · rename_i h2
        split at h
        · cases h
        · rename_i h3
          refine ⟨by simpa using h1, fun x hx => ?_, by simpa using h3⟩
          by_contra hn
          exact h2 (List.any_eq_true.2 ⟨x, hx, by simpa using hn⟩)
  · rintro ⟨h1, h2, h3⟩
    obtain ⟨res, hr, _⟩ := manualLayout_ok nm hinj mapping qubits hq h1 h2 h3 fun j _ => hfresh j
    rw [hr]; rfl

open Verif.PassManager in
/-- The result of one layout cannot be laid out again with room for another qubit. -/
theorem C48_second_layout_fails : ∃ (res : List Nat),
    manualLayout (fun k => 100 + k) [1] [7] = .ok res ∧ res.Nodup ∧
    manualLayout (fun k => 100 + k) [0, 2] res = .error .name := ⟨[100, 7], by decide, by decide, by decide⟩

open Verif.PassManager in
example : manualLayout (fun k => 100 + k) [4, 0, 2] [7, 8, 9] = .ok [8, 100, 9, 101, 7] := by decide

end Verif.Props
