import Verif.Circ.Append
import Verif.Circ.Depth

/-!
Property theorems C22, C23, C24: transpilation, well-formedness of circuits, depth.

Specification vocabulary: `TOp.den`/`denData` run operations for an arbitrary interpretation of the
elementary operations on an arbitrary state space, composite operations running their definition on
the bits (objects) they are applied to; `DepChain` are the dependency chains.
-/

namespace Verif.Props

open Verif.Circ

/-! ### C22 -/

/-- Transpilation to any level with any predicate succeeds and preserves the effect, for every
interpretation of the elementary operations. Missing: circuits or definitions in which a qubit and a
clbit share the identifier, and circuits with clbits but without qubits, where it is false (below). -/
theorem C22_transpile_partial {E : Type} (level : Option Nat) (p : TOp E → Bool) (qubits clbits : List Bit)
    (data : List (TInstr E)) (hq : qubits ≠ [] ∨ clbits = [])
    (hnd : ((qubits ++ clbits).map Bit.name).Nodup) (hw : WFData (qubits ++ clbits) data) :
    ∃ out, transpile level p qubits clbits data = some out ∧
      ∀ (σ : Type) (I : E → List Bit → List Bit → σ → σ) (s : σ),
        denData I out id s = denData I data id s :=
  transpile_sound level p qubits clbits data hq hnd hw

/-- Full transpilation leaves elementary operations only. -/
theorem C22_transpile_full {E : Type} (qubits clbits : List Bit) (data out : List (TInstr E))
    (h : transpile none (fun _ => true) qubits clbits data = some out) : ∀ x ∈ out, x.1.isElem = true := by
  unfold transpile at h
  split at h
  · simp at h
  · exact transpileData_elem _ (fun _ _ => by simp) data 0 _ out h

mutual
/-- Specification of the level: an operation is replaced by its definition while the budget is not used
up (`none`: unlimited) and the predicate holds; each replacement costs one for what is inside. -/
def unfoldOp {E : Type} (p : TOp E → Bool) : TOp E → Option Nat → List Bit → List Bit → List (TInstr E)
  | .elem e, _, qs, cs => [(.elem e, qs, cs)]
  | .comp e dq dc data, b, qs, cs =>
    if b ≠ some 0 ∧ p (.comp e dq dc data) = true then
      unfoldData p data (b.map (· - 1)) (bindEnv (dq ++ dc) (qs ++ cs))
    else [(.comp e dq dc data, qs, cs)]
def unfoldData {E : Type} (p : TOp E → Bool) : List (TInstr E) → Option Nat → (Bit → Bit) → List (TInstr E)
  | [], _, _ => []
  | (o, qs, cs) :: r, b, ρ => unfoldOp p o b (qs.map ρ) (cs.map ρ) ++ unfoldData p r b ρ
end

theorem budget_test (level : Option Nat) (lvl : Nat) :
    (level.elim true fun l => decide (lvl < l)) = true ↔ level.map (· - lvl) ≠ some 0 := by
  cases level with
  | none => simp
  | some l =>
    simp only [Option.elim, decide_eq_true_eq, Option.map_some, ne_eq, Option.some.injEq]
    omega

mutual
theorem transpileOp_unfold {E : Type} (level : Option Nat) (p : TOp E → Bool) : ∀ (o : TOp E) (lvl : Nat)
    (qs cs : List Bit) (D : String → Option Bit) (ρ : Bit → Bit), o.WF qs cs →
    (∀ b ∈ qs, D b.name = some (ρ b)) → (∀ b ∈ cs, D b.name = some (ρ b)) →
    transpileOp (fun i op => (level.elim true fun l => decide (i < l)) && p op) o lvl qs cs D
      = some (unfoldOp p o (level.map (· - lvl)) (qs.map ρ) (cs.map ρ))
  | .elem e, lvl, qs, cs, D, ρ, _, hq, hc => by
    simp only [transpileOp, unfoldOp]; exact keep_sound _ hq hc
  | .comp e dq dc data, lvl, qs, cs, D, ρ, hw, hq, hc => by
    simp only [transpileOp, unfoldOp]
    by_cases h : level.map (· - lvl) ≠ some 0 ∧ p (.comp e dq dc data) = true
    · rw [if_pos h, if_pos (Bool.and_eq_true_iff.2 ⟨(budget_test level lvl).2 h.1, h.2⟩)]
      simp only [TOp.WF] at hw
      obtain ⟨h1, h2, h3, h4⟩ := hw
      have n1 : newPairs D dq qs = some ((dq.map Bit.name).zip (qs.map ρ)) := by
        unfold newPairs
        rw [if_neg (by omega), lookAll_eq hq]
        rfl
      have n2 : newPairs D dc cs = some ((dc.map Bit.name).zip (cs.map ρ)) := by
        unfold newPairs
        rw [if_neg (by omega), lookAll_eq hc]
        rfl
      rw [n1, n2]
      simp only [Option.bind_some]
      have hz : (dq.map Bit.name).zip (qs.map ρ) ++ (dc.map Bit.name).zip (cs.map ρ)
          = ((dq ++ dc).map Bit.name).zip (qs.map ρ ++ cs.map ρ) := by
        rw [List.map_append, List.zip_append (by simp [h1])]
      rw [hz, transpileData_unfold level p data (lvl + 1) (dq ++ dc) _
        (bindEnv (dq ++ dc) (qs.map ρ ++ cs.map ρ)) h4 (fun b hb => dict_bind (by simp [h1, h2]) h3 hb)]
      congr 2
      cases level <;> simp; omega
    · rw [if_neg h, if_neg (fun h' => h ⟨(budget_test level lvl).1 (Bool.and_eq_true_iff.1 h').1,
        (Bool.and_eq_true_iff.1 h').2⟩)]
      exact keep_sound _ hq hc
theorem transpileData_unfold {E : Type} (level : Option Nat) (p : TOp E → Bool) :
    ∀ (data : List (TInstr E)) (lvl : Nat) (reg : List Bit) (D : String → Option Bit) (ρ : Bit → Bit),
    WFData reg data → (∀ b ∈ reg, D b.name = some (ρ b)) →
    transpileData (fun i op => (level.elim true fun l => decide (i < l)) && p op) data lvl D
      = some (unfoldData p data (level.map (· - lvl)) ρ)
  | [], lvl, reg, D, ρ, _, _ => by simp only [transpileData, unfoldData]
  | (o, qs, cs) :: r, lvl, reg, D, ρ, hw, hD => by
    simp only [WFData] at hw
    obtain ⟨h1, h2, h3, h4⟩ := hw
    simp only [transpileData, unfoldData]
    rw [transpileOp_unfold level p o lvl qs cs D ρ h1 (fun b hb => hD b (h2 b hb))
      (fun b hb => hD b (h3 b hb)), transpileData_unfold level p r lvl reg D ρ h4 hD]
    rfl
end

/-- Transpilation to level `l` replaces operations by their definitions exactly `l` levels deep (where
the predicate holds), on the same restrictions. -/
theorem C22_transpile_level_partial {E : Type} (level : Option Nat) (p : TOp E → Bool)
    (qubits clbits : List Bit) (data : List (TInstr E)) (hq : qubits ≠ [] ∨ clbits = [])
    (hnd : ((qubits ++ clbits).map Bit.name).Nodup) (hw : WFData (qubits ++ clbits) data) :
    transpile level p qubits clbits data = some (unfoldData p data level id) := by
  unfold transpile
  rw [if_neg (by rcases hq with h | h <;> simp [h])]
  simp only
  rw [transpileData_unfold level p data 0 (qubits ++ clbits) _ id hw]
  · congr 2; cases level <;> simp
  · exact fun b hb => top_dict hnd hb

def qa : Bit := ⟨1, true, "a"⟩
def qb : Bit := ⟨2, true, "b"⟩
def qx : Bit := ⟨3, true, "x"⟩
def qy : Bit := ⟨4, true, "y"⟩

/-- A gate with the qubits crossed inside. -/
example : transpile (E := String) none (fun _ => true) [qx, qy] []
    [(.comp "g" [qa, qb] [] [(.elem "h", [qb], []), (.elem "cx", [qb, qa], [])], [qy, qx], [])] =
    some [(.elem "h", [qx], []), (.elem "cx", [qx, qy], [])] := by rfl

/-- Level 1 of a gate containing a gate: the inner one stays. -/
example : transpile (E := String) (some 1) (fun _ => true) [qx, qy] []
    [(.comp "f" [qa] [] [(.comp "g" [qb] [] [(.elem "h", [qb], [])], [qa], [])], [qy], [])] =
    some [(.comp "g" [qb] [] [(.elem "h", [qb], [])], [qy], [])] := by rfl

/-- A definition whose qubit and clbit have the same identifier: the measured qubit is lost. -/
theorem C22_name_collision_wrong : ∃ (qubits clbits : List Bit) (data out : List (TInstr String)),
    (qubits.map Bit.name).Nodup ∧ (clbits.map Bit.name).Nodup ∧
    transpile none (fun _ => true) qubits clbits data = some out ∧
    ∃ (I : String → List Bit → List Bit → List Bit → List Bit) (s : List Bit),
      denData I out id s ≠ denData I data id s := by
  let q : Bit := ⟨10, true, "q"⟩
  let c : Bit := ⟨11, false, "c"⟩
  let dq : Bit := ⟨12, true, "m"⟩
  let dc : Bit := ⟨13, false, "m"⟩
  refine ⟨[q], [c], [(.comp "meas" [dq] [dc] [(.elem "measure", [dq], [dc])], [q], [c])],
    [(.elem "measure", [c], [c])], by simp [q], by simp, by rfl, fun _ qs _ _ => qs, [], ?_⟩
  simp only [denData, TOp.den]
  decide

/-- A circuit with clbits only cannot be transpiled. -/
theorem C22_no_qubits_fails (c : Bit) (data : List (TInstr String)) :
    transpile none (fun _ => true) [] [c] data = none := by simp [transpile]

/-! ### C23 -/

/-- A new circuit. -/
def emptyQC : QC := ⟨[], [], []⟩

theorem emptyQC_good (U : Bit → Prop) (nd : Prop) : QCGood U nd emptyQC :=
  ⟨⟨by simp [emptyQC], by simp [emptyQC], by simp [emptyQC], by simp [emptyQC], by simp [emptyQC]⟩,
    fun _ => by simp [emptyQC]⟩

/-- After any calls (accepted or not): identifiers of qubits (clbits) are distinct, and every
instruction has as many qubits and clbits as its operation needs, its qubits are registered, its clbits
have distinct identifiers registered in the circuit. -/
theorem C23_wellformed (reject : OpInfo → List Bit → Bool) (f : Nat) (l : List Call) :
    let c := runCalls reject f emptyQC l
    (c.qubits.map Bit.name).Nodup ∧ (c.clbits.map Bit.name).Nodup ∧
    ∀ op qs cs, (op, qs, cs) ∈ c.data → qs.length = op.nq ∧ cs.length = op.nc ∧
      (∀ q ∈ qs, q ∈ c.qubits) ∧ (cs.map Bit.name).Nodup ∧
      ∀ b ∈ cs, b.name ∈ c.clbits.map Bit.name := by
  have hall : ∀ a : Arg, a.All fun _ => True := fun a =>
    Arg.rec (motive_1 := fun a => a.All fun _ => True) (motive_2 := fun l => AllL (fun _ => True) l)
      (fun _ => by simp [Arg.All]) (fun _ => by simp [Arg.All]) (fun l h => by simpa [Arg.All] using h)
      (by simp [AllL]) (fun a r ha hr => by simp [AllL, ha, hr]) a
  have h := runCalls_good (U := fun _ => True) (nd := False) (fun h => h.elim) reject f l (by
    intro x _
    cases x with
    | addQubit b => trivial
    | addClbit b => trivial
    | append op qa ca => exact ⟨hall _, hall _⟩) emptyQC (emptyQC_good _ _)
  refine ⟨h.1.qnd, h.1.cnd, fun op qs cs hx => ?_⟩
  have i := h.1.data _ hx
  refine ⟨i.nq, i.nc, i.reg, i.cnd, fun b hb => ?_⟩
  obtain ⟨b', h1, h2⟩ := i.creg b hb
  exact List.mem_map.2 ⟨b', h1, h2⟩

/-- If the bit objects used are determined by their identifiers, the qubits of every instruction are
distinct and its clbits are registered. Missing: calls with two different objects of the same
identifier, where it is false (below). -/
theorem C23_distinct_partial (reject : OpInfo → List Bit → Bool) (f : Nat) (l : List Call)
    (U : Bit → Prop)
    (hU : ∀ b b', U b → U b' → b.name = b'.name → b.isQ = b'.isQ → b = b') (hl : ∀ x ∈ l, x.All U) :
    ∀ op qs cs, (op, qs, cs) ∈ (runCalls reject f emptyQC l).data →
      qs.Nodup ∧ cs.Nodup ∧ ∀ b ∈ cs, b ∈ (runCalls reject f emptyQC l).clbits := by
  have h := runCalls_good (nd := True) (fun _ => hU) reject f l hl emptyQC (emptyQC_good _ _)
  intro op qs cs hx
  have i := h.1.data _ hx
  refine ⟨h.2 trivial _ hx, i.cnd.of_map _, fun b hb => ?_⟩
  obtain ⟨b', h1, h2⟩ := i.creg b hb
  have h3 := h.1.cU b' h1
  have h4 := i.cU b hb
  rw [← hU b' b h3.1 h4.1 h2 (by rw [h3.2, h4.2])]
  exact h1

/-- A bit or an index. -/
def Arg.scalar : Arg → Bool
  | .list _ => false
  | _ => true

/-- A bit, an index or a list of them: no broadcasting. -/
def Arg.plain : Arg → Bool
  | .list l => l.all Arg.scalar
  | _ => true

theorem conv_scalar {reg : List Bit} {isQ : Bool} {a a' : Arg} (h : Arg.scalar a = true)
    (e : conv reg isQ a = some a') : a'.asList = none := by
  cases a with
  | bit b =>
    simp only [conv] at e
    split at e
    · simp only [Option.some.injEq] at e; subst e; rfl
    · simp at e
  | idx i =>
    simp only [conv] at e
    generalize (if i < 0 then i + (reg.length : Int) else i) = j at e
    split at e
    · simp at e
    · obtain ⟨b, _, rfl⟩ := Option.map_eq_some_iff.1 e
      rfl
  | list l => simp [Arg.scalar] at h

theorem convL_scalar {reg : List Bit} {isQ : Bool} {l l' : List Arg} (h : l.all Arg.scalar = true)
    (e : convL reg isQ l = some l') : l'.filterMap Arg.asList = [] := by
  induction l generalizing l' with
  | nil => simp only [convL, Option.some.injEq] at e; subst e; rfl
  | cons a r ih =>
    simp only [convL] at e
    obtain ⟨a', ha, e⟩ := Option.bind_eq_some_iff.1 e
    obtain ⟨r', hr, e⟩ := Option.bind_eq_some_iff.1 e
    simp only [Option.some.injEq] at e
    subst e
    rw [List.all_cons, Bool.and_eq_true] at h
    rw [List.filterMap_cons_none (conv_scalar h.1 ha)]
    exact ih h.2 hr

theorem convTop_plain {reg : List Bit} {isQ : Bool} {a : Arg} {l : List Arg} (h : Arg.plain a = true)
    (e : convTop reg isQ a = some l) : l.filterMap Arg.asList = [] := by
  unfold convTop at e
  obtain ⟨a', ha, rfl⟩ := Option.map_eq_some_iff.1 e
  cases a with
  | list k =>
    simp only [conv] at ha
    obtain ⟨k', hk, rfl⟩ := Option.map_eq_some_iff.1 ha
    exact convL_scalar h hk
  | bit b =>
    have := conv_scalar (a := .bit b) rfl ha
    cases a' <;> simp_all [Arg.asList]
  | idx i =>
    have := conv_scalar (a := .idx i) rfl ha
    cases a' <;> simp_all [Arg.asList]

/-- A rejected call without list arguments inside (no broadcasting) leaves the circuit as it was. -/
theorem C23_rejected_unchanged (reject : OpInfo → List Bit → Bool) (f : Nat) (c : QC) (x : Call)
    (hx : match x with
      | .append _ qa ca => Arg.plain qa = true ∧ Arg.plain ca = true
      | _ => True)
    (h : (step reject f c x).2 = false) : (step reject f c x).1 = c := by
  cases x with
  | addQubit b =>
    simp only [step] at h ⊢
    split at h
    · simp_all
    · split at h <;> simp_all
  | addClbit b =>
    simp only [step] at h ⊢
    split at h
    · simp_all
    · split at h <;> simp_all
  | append op qa ca =>
    simp only [step] at h ⊢
    cases f with
    | zero => rfl
    | succ f =>
      simp only [append] at h ⊢
      cases e1 : convTop c.qubits true qa with
      | none => rfl
      | some qs =>
        cases e2 : convTop c.clbits false ca with
        | none => rfl
        | some cs =>
          simp only [e1, e2, convTop_plain hx.1 e1, convTop_plain hx.2 e2, List.append_nil] at h ⊢
          rcases appendFlat_cases reject c op (qs.filterMap Arg.asBit) (cs.filterMap Arg.asBit) with
            ⟨_, e⟩ | ⟨_, _, _, _, _, e⟩
          · exact e
          · rw [e] at h; simp at h

/-- A call never removes or changes anything, accepted or not. -/
theorem C23_append_only_extends (reject : OpInfo → List Bit → Bool) (f : Nat) (c : QC) (x : Call) :
    (∃ l, (step reject f c x).1.qubits = c.qubits ++ l) ∧
    (∃ l, (step reject f c x).1.clbits = c.clbits ++ l) ∧
    ∃ l, (step reject f c x).1.data = c.data ++ l := by
  cases x with
  | addQubit b =>
    simp only [step]
    split
    · exact ⟨⟨[], by simp⟩, ⟨[], by simp⟩, ⟨[], by simp⟩⟩
    · split
      · exact ⟨⟨[], by simp⟩, ⟨[], by simp⟩, ⟨[], by simp⟩⟩
      · exact ⟨⟨[b], rfl⟩, ⟨[], by simp⟩, ⟨[], by simp⟩⟩
  | addClbit b =>
    simp only [step]
    split
    · exact ⟨⟨[], by simp⟩, ⟨[], by simp⟩, ⟨[], by simp⟩⟩
    · split
      · exact ⟨⟨[], by simp⟩, ⟨[], by simp⟩, ⟨[], by simp⟩⟩
      · exact ⟨⟨[], by simp⟩, ⟨[b], rfl⟩, ⟨[], by simp⟩⟩
  | append op qa ca =>
    simp only [step]
    obtain ⟨h1, h2, h3⟩ := append_extends reject f op c (qa, ca)
    exact ⟨⟨[], by simp [h1]⟩, ⟨[], by simp [h2]⟩, h3⟩

theorem convL_length {reg : List Bit} {isQ : Bool} {l l' : List Arg} (h : convL reg isQ l = some l') :
    l'.length = l.length := by
  induction l generalizing l' with
  | nil => cases h; rfl
  | cons x r ih =>
    simp only [convL] at h
    obtain ⟨x', hx, h⟩ := Option.bind_eq_some_iff.1 h
    obtain ⟨r', hr, h⟩ := Option.bind_eq_some_iff.1 h
    cases h
    simp [ih hr]

theorem convL_mem {reg : List Bit} {isQ : Bool} {l l' : List Arg} (h : convL reg isQ l = some l')
    {a : List Arg} (ha : Arg.list a ∈ l) : ∃ a', Arg.list a' ∈ l' ∧ a'.length = a.length := by
  induction l generalizing l' with
  | nil => simp at ha
  | cons x r ih =>
    simp only [convL] at h
    obtain ⟨x', hx, h⟩ := Option.bind_eq_some_iff.1 h
    obtain ⟨r', hr, h⟩ := Option.bind_eq_some_iff.1 h
    cases h
    rcases List.mem_cons.1 ha with e | e
    · subst e
      simp only [conv] at hx
      obtain ⟨y, hy, rfl⟩ := Option.map_eq_some_iff.1 hx
      exact ⟨y, by simp, convL_length hy⟩
    · obtain ⟨a', h1, h2⟩ := ih hr e
      exact ⟨a', by simp [h1], h2⟩

/-- A broadcast call with lists of different lengths is rejected before anything is appended. -/
theorem C23_broadcast_lengths (reject : OpInfo → List Bit → Bool) (f : Nat) (op : OpInfo) (c : QC)
    (qa ca a b : List Arg) (ha : Arg.list a ∈ qa ++ ca) (hb : Arg.list b ∈ qa ++ ca)
    (hne : a.length ≠ b.length) : append reject f op c (.list qa, .list ca) = (c, false) := by
  cases f with
  | zero => rfl
  | succ f =>
    rw [append]
    cases e1 : convTop c.qubits true (.list qa) with
    | none => rfl
    | some qs =>
      cases e2 : convTop c.clbits false (.list ca) with
      | none => rfl
      | some cs =>
        have e1' : convL c.qubits true qa = some qs := by
          simpa [convTop, conv, Option.map_map, Function.comp_def] using e1
        have e2' : convL c.clbits false ca = some cs := by
          simpa [convTop, conv, Option.map_map, Function.comp_def] using e2
        have key : ∀ a, Arg.list a ∈ qa ++ ca → ∃ a', a'.length = a.length ∧
            a' ∈ qs.filterMap Arg.asList ++ cs.filterMap Arg.asList := by
          intro a ha
          rcases List.mem_append.1 ha with h | h
          · obtain ⟨a', h1, h2⟩ := convL_mem e1' h
            exact ⟨a', h2, List.mem_append_left _ (List.mem_filterMap.2 ⟨_, h1, rfl⟩)⟩
          · obtain ⟨a', h1, h2⟩ := convL_mem e2' h
            exact ⟨a', h2, List.mem_append_right _ (List.mem_filterMap.2 ⟨_, h1, rfl⟩)⟩
        obtain ⟨a', ha1, ha2⟩ := key a ha
        obtain ⟨b', hb1, hb2⟩ := key b hb
        simp only
        generalize hL : qs.filterMap Arg.asList ++ cs.filterMap Arg.asList = L at ha2 hb2
        cases L with
        | nil => simp at ha2
        | cons l ls =>
          simp only
          rw [if_neg]
          intro hall
          have hk : ∀ x ∈ l :: ls, x.length = l.length := by
            intro x hx
            rcases List.mem_cons.1 hx with h | h
            · rw [h]
            · simpa using List.all_eq_true.1 hall x h
          have := hk a' ha2
          have := hk b' hb2
          omega

/-- Lists of lengths 2 and 1. -/
example : append (fun _ _ => false) 5 ⟨"cx", 2, 0⟩ ⟨[qa, qb, qx], [], []⟩
    (.list [.list [.idx 0, .idx 1], .list [.idx 2]], .list []) = (⟨[qa, qb, qx], [], []⟩, false) :=
  C23_broadcast_lengths _ _ _ _ _ _ [.idx 0, .idx 1] [.idx 2] (by simp) (by simp) (by simp)

/-- A controlled X. -/
def cxInfo : OpInfo := ⟨"cx", 2, 0⟩

/-- A rejected broadcast leaves the instructions appended before the failing one. -/
theorem C23_broadcast_partial_effect : ∃ (c : QC) (qs : Arg),
    (append (fun _ _ => false) 5 cxInfo c (qs, .list [])).2 = false ∧
    (append (fun _ _ => false) 5 cxInfo c (qs, .list [])).1.data ≠ c.data := by
  refine ⟨⟨[qa, qb], [], []⟩, .list [.list [.idx 0, .idx 1], .list [.idx 1, .idx 1]], by decide, by decide⟩

/-- Two objects with one identifier: an instruction with the same qubit twice is stored. -/
theorem C23_duplicate_qubit : ∃ (l : List Call) (op : OpInfo) (q : Bit),
    (op, [q, q], []) ∈ (runCalls (fun _ _ => false) 5 emptyQC l).data :=
  ⟨[.addQubit qa, .append cxInfo (.list [.bit qa, .bit { qa with key := 99 }]) (.list [])], cxInfo, qa,
    by decide⟩

/-- A clbit object that is not registered is stored when a registered one has its identifier. -/
theorem C23_foreign_clbit : ∃ (l : List Call) (op : OpInfo) (qs : List Bit) (b : Bit),
    (op, qs, [b]) ∈ (runCalls (fun _ _ => false) 5 emptyQC l).data ∧
    b ∉ (runCalls (fun _ _ => false) 5 emptyQC l).clbits :=
  ⟨[.addQubit qa, .addClbit ⟨5, false, "c"⟩,
    .append ⟨"measure", 1, 1⟩ (.bit qa) (.bit ⟨6, false, "c"⟩)], ⟨"measure", 1, 1⟩, [qa], ⟨6, false, "c"⟩,
    by decide, by decide⟩

/-- A broadcast call with indices. -/
example : ((append (fun _ _ => false) 5 cxInfo ⟨[qa, qb, qx], [], []⟩
    (.list [.idx 0, .list [.idx 1, .idx (-1)]], .list [])).1.data)
    = [(cxInfo, [qa, qb], []), (cxInfo, [qa, qx], [])] := by decide

/-! ### C24 -/

/-- The depth is the maximal total weight of a dependency chain (for circuits in which every counted
instruction acts on a qubit of the circuit). -/
theorem C24_depth {B : Type} [DecidableEq B] (qubits : List B) (data : List (DInstr B)) (hq : qubits ≠ [])
    (h : ∀ i ∈ data, i.skipped = false → ∃ q ∈ qubits, q ∈ i.bits) :
    ∃ d, depth qubits data = some d ∧ (∀ c, DepChain data c → chainW c ≤ d) ∧
      ∃ c, DepChain data c ∧ chainW c = d := depth_spec qubits data hq h

/-- Two chains through a measured bit. -/
example : depth [0, 1, 2] [⟨"h", [0], 1⟩, ⟨"cx", [0, 1], 1⟩, ⟨"t", [2], 5⟩, ⟨"gphase", [2], 7⟩,
    ⟨"measure", [1, 10], 1⟩, ⟨"x", [0], 1⟩, ⟨"c_if", [2, 10], 1⟩] = some 6 := by decide

end Verif.Props
