import Mathlib.Data.List.Nodup

/-!
Model of `circuit/transpiler.py`: dissolving composite operations by translating identifiers.
-/

namespace Verif.Circ

/-- A `Qubit` or `Clbit` object (circuit/qubit.py:59-80, clbit.py): equality is equality of objects;
`name` is the identifier. -/
structure Bit where
  key : Nat
  isQ : Bool
  name : String
deriving DecidableEq, Repr

/-- An operation: elementary, or with a definition circuit given by its qubits, clbits and
instructions (operation.py:103-170, instruction.py). `E` are the labels (name, parameters). -/
inductive TOp (E : Type) where
  | elem (e : E)
  | comp (e : E) (dq dc : List Bit) (data : List (TOp E × List Bit × List Bit))

/-- An instruction. -/
abbrev TInstr (E : Type) := TOp E × List Bit × List Bit

/-! ### Semantics (specification) -/

/-- The objects `ds` stand for `vs`, position by position. -/
def bindEnv (ds vs : List Bit) (b : Bit) : Bit := ((ds.zip vs).lookup b).getD b

variable {E σ : Type}

mutual
/-- The effect of an operation on the given bits, for an interpretation `I` of the elementary ones: a
composite operation runs its definition on the bits it is applied to. -/
def TOp.den (I : E → List Bit → List Bit → σ → σ) : TOp E → List Bit → List Bit → σ → σ
  | .elem e, qs, cs, s => I e qs cs s
  | .comp _ dq dc data, qs, cs, s => denData I data (bindEnv (dq ++ dc) (qs ++ cs)) s
/-- The effect of instructions, the bits standing for `ρ`. -/
def denData (I : E → List Bit → List Bit → σ → σ) : List (TInstr E) → (Bit → Bit) → σ → σ
  | [], _, s => s
  | (o, qs, cs) :: r, ρ, s => denData I r ρ (o.den I (qs.map ρ) (cs.map ρ) s)
end

mutual
/-- Composite operations get as many bits as their definition has; the bits of a definition have
distinct identifiers; its instructions use its bits. -/
def TOp.WF : TOp E → List Bit → List Bit → Prop
  | .elem _, _, _ => True
  | .comp _ dq dc data, qs, cs => qs.length = dq.length ∧ cs.length = dc.length ∧
      ((dq ++ dc).map Bit.name).Nodup ∧ WFData (dq ++ dc) data
/-- The instructions only use the bits `reg`. -/
def WFData (reg : List Bit) : List (TInstr E) → Prop
  | [] => True
  | (o, qs, cs) :: r => o.WF qs cs ∧ (∀ b ∈ qs, b ∈ reg) ∧ (∀ b ∈ cs, b ∈ reg) ∧ WFData reg r
end

/-! ### Model -/

/-- A dictionary built from pairs in order: later entries replace earlier ones. -/
def dictOf (l : List (String × Bit)) (k : String) : Option Bit := l.reverse.lookup k

/-- Look up the identifiers of bits; a missing key is an exception. -/
def lookAll (D : String → Option Bit) (bs : List Bit) : Option (List Bit) := bs.mapM fun b => D b.name

/-- transpiler.py:91-101: the pairs of the new dictionary for qubits (or clbits); `IndexError` when the
definition has fewer bits. -/
def newPairs (D : String → Option Bit) (ds bs : List Bit) : Option (List (String × Bit)) :=
  if ds.length < bs.length then none
  else (lookAll D bs).map fun vs => (ds.map Bit.name).zip vs

/-- transpiler.py:117-123: the instruction is copied with translated bits. -/
def keep (D : String → Option Bit) (o : TOp E) (qs cs : List Bit) : Option (List (TInstr E)) :=
  (lookAll D qs).bind fun qs' => (lookAll D cs).bind fun cs' => some [(o, qs', cs')]

mutual
/-- transpiler.py:86-123: one instruction. -/
def transpileOp (pred : Nat → TOp E → Bool) :
    TOp E → Nat → List Bit → List Bit → (String → Option Bit) → Option (List (TInstr E))
  | .elem e, _, qs, cs, D => keep D (.elem e) qs cs
  | .comp e dq dc data, lvl, qs, cs, D =>
    if pred lvl (.comp e dq dc data) then
      (newPairs D dq qs).bind fun pq => (newPairs D dc cs).bind fun pc =>
        transpileData pred data (lvl + 1) (dictOf (pq ++ pc))
    else keep D (.comp e dq dc data) qs cs
/-- transpiler.py:78-123 `transpile_inner`. -/
def transpileData (pred : Nat → TOp E → Bool) :
    List (TInstr E) → Nat → (String → Option Bit) → Option (List (TInstr E))
  | [], _, _ => some []
  | (o, qs, cs) :: r, lvl, D =>
    (transpileOp pred o lvl qs cs D).bind fun a =>
      (transpileData pred r lvl D).bind fun b => some (a ++ b)
end

/-- transpiler.py:29-63 `transpile` on a circuit with the given qubits and clbits. `level = none` is
`np.inf`. Line 45 uses the variable of the loop over the qubits: `NameError` for a circuit with clbits
only. -/
def transpile (level : Option Nat) (p : TOp E → Bool) (qubits clbits : List Bit)
    (data : List (TInstr E)) : Option (List (TInstr E)) :=
  if qubits = [] ∧ clbits ≠ [] then none else
  let D := dictOf (((qubits.map Bit.name).zip qubits) ++ ((clbits.map Bit.name).zip clbits))
  transpileData (fun i op => (level.elim true fun l => decide (i < l)) && p op) data 0 D

/-! ### Proofs -/

theorem lookup_of_mem {α β : Type} [DecidableEq α] {l : List (α × β)} {k : α} {v : β}
    (h : (k, v) ∈ l) (hnd : (l.map Prod.fst).Nodup) : l.lookup k = some v := by
  induction l with
  | nil => simp at h
  | cons x l ih =>
    obtain ⟨k', v'⟩ := x
    rw [List.map_cons, List.nodup_cons] at hnd
    rw [List.mem_cons] at h
    by_cases e : k = k'
    · subst e
      rcases h with h | h
      · simp only [Prod.mk.injEq, true_and] at h
        simp [List.lookup, h]
      · exact absurd (List.mem_map.2 ⟨_, h, rfl⟩) hnd.1
    · rcases h with h | h
      · simp only [Prod.mk.injEq] at h
        exact absurd h.1 e
      · rw [List.lookup_cons, show (k == k') = false from by simpa using e]
        exact ih h hnd.2

/-- Positional binding by objects and by identifiers agree when the identifiers are distinct. -/
theorem dict_bind {ds vs : List Bit} (hl : vs.length = ds.length) (hnd : (ds.map Bit.name).Nodup) {b : Bit}
    (hb : b ∈ ds) : dictOf ((ds.map Bit.name).zip vs) b.name = some (bindEnv ds vs b) := by
  obtain ⟨i, hi, rfl⟩ := List.getElem_of_mem hb
  have hv : i < vs.length := by omega
  have m1 : (ds[i].name, vs[i]) ∈ (ds.map Bit.name).zip vs := by
    rw [List.mem_iff_getElem]
    exact ⟨i, by simp; omega, by simp⟩
  have m2 : (ds[i], vs[i]) ∈ ds.zip vs := by
    rw [List.mem_iff_getElem]
    exact ⟨i, by simp; omega, by simp⟩
  have f1 : ((ds.map Bit.name).zip vs).map Prod.fst = ds.map Bit.name := by
    rw [List.map_fst_zip]; simp; omega
  have f2 : (ds.zip vs).map Prod.fst = ds := by rw [List.map_fst_zip]; omega
  have e1 : dictOf ((ds.map Bit.name).zip vs) ds[i].name = some vs[i] := by
    unfold dictOf
    refine lookup_of_mem (List.mem_reverse.2 m1) ?_
    rw [List.map_reverse, List.nodup_reverse, f1]
    exact hnd
  have e2 : (ds.zip vs).lookup ds[i] = some vs[i] := lookup_of_mem m2 (by rw [f2]; exact hnd.of_map _)
  rw [e1, bindEnv, e2, Option.getD_some]

theorem lookAll_eq {D : String → Option Bit} {ρ : Bit → Bit} {bs : List Bit}
    (h : ∀ b ∈ bs, D b.name = some (ρ b)) : lookAll D bs = some (bs.map ρ) := by
  unfold lookAll
  induction bs with
  | nil => rfl
  | cons b bs ih =>
    rw [List.mapM_cons, h b (by simp), ih fun b hb => h b (by simp [hb])]
    rfl

theorem keep_sound {D : String → Option Bit} {ρ : Bit → Bit} (o : TOp E) {qs cs : List Bit}
    (hq : ∀ b ∈ qs, D b.name = some (ρ b)) (hc : ∀ b ∈ cs, D b.name = some (ρ b)) :
    keep D o qs cs = some [(o, qs.map ρ, cs.map ρ)] := by
  unfold keep
  rw [lookAll_eq hq, lookAll_eq hc]
  rfl

theorem denData_append (I : E → List Bit → List Bit → σ → σ) (a b : List (TInstr E)) (ρ : Bit → Bit)
    (s : σ) : denData I (a ++ b) ρ s = denData I b ρ (denData I a ρ s) := by
  induction a generalizing s with
  | nil => rfl
  | cons x a ih => obtain ⟨o, qs, cs⟩ := x; simp only [List.cons_append, denData]; exact ih _

mutual
theorem transpileOp_sound (pred : Nat → TOp E → Bool) : ∀ (o : TOp E) (lvl : Nat) (qs cs : List Bit)
    (D : String → Option Bit) (ρ : Bit → Bit), o.WF qs cs → (∀ b ∈ qs, D b.name = some (ρ b)) →
    (∀ b ∈ cs, D b.name = some (ρ b)) →
    ∃ out, transpileOp pred o lvl qs cs D = some out ∧
      ∀ (σ : Type) (I : E → List Bit → List Bit → σ → σ) (s : σ),
        denData I out id s = o.den I (qs.map ρ) (cs.map ρ) s
  | .elem e, lvl, qs, cs, D, ρ, _, hq, hc => by
    refine ⟨_, by simp only [transpileOp]; exact keep_sound _ hq hc, fun σ I s => ?_⟩
    simp only [denData, List.map_id]
  | .comp e dq dc data, lvl, qs, cs, D, ρ, hw, hq, hc => by
    simp only [transpileOp]
    split
    · simp only [TOp.WF] at hw
      obtain ⟨h1, h2, h3, h4⟩ := hw
      have n1 : newPairs D dq qs = some ((dq.map Bit.name).zip (qs.map ρ)) := by
        unfold newPairs
        rw [if_neg (by omega), lookAll_eq hq]
        rfl
      have n2 : newPairs D dc cs = some ((dc.map Bit.name).zip (cs.map ρ)) := by
        unfold newPairs
        rw [if_neg (by omega), lookAll_eq hc]
        rfl
      rw [n1, n2]
      simp only [Option.bind_some]
      have hz : (dq.map Bit.name).zip (qs.map ρ) ++ (dc.map Bit.name).zip (cs.map ρ)
          = ((dq ++ dc).map Bit.name).zip (qs.map ρ ++ cs.map ρ) := by
        rw [List.map_append, List.zip_append (by simp [h1])]
      rw [hz]
      obtain ⟨out, ho, hs⟩ := transpileData_sound pred data (lvl + 1) (dq ++ dc)
        (dictOf (((dq ++ dc).map Bit.name).zip (qs.map ρ ++ cs.map ρ)))
        (bindEnv (dq ++ dc) (qs.map ρ ++ cs.map ρ)) h4
        (fun b hb => dict_bind (by simp [h1, h2]) h3 hb)
      refine ⟨out, ho, fun σ I s => ?_⟩
      rw [hs]
      simp only [TOp.den]
    · refine ⟨_, keep_sound _ hq hc, fun σ I s => ?_⟩
      simp only [denData, List.map_id]
theorem transpileData_sound (pred : Nat → TOp E → Bool) : ∀ (data : List (TInstr E)) (lvl : Nat)
    (reg : List Bit) (D : String → Option Bit) (ρ : Bit → Bit), WFData reg data →
    (∀ b ∈ reg, D b.name = some (ρ b)) →
    ∃ out, transpileData pred data lvl D = some out ∧
      ∀ (σ : Type) (I : E → List Bit → List Bit → σ → σ) (s : σ),
        denData I out id s = denData I data ρ s
  | [], lvl, reg, D, ρ, _, _ => ⟨[], by simp only [transpileData], fun σ I s => by simp only [denData]⟩
  | (o, qs, cs) :: r, lvl, reg, D, ρ, hw, hD => by
    simp only [WFData] at hw
    obtain ⟨h1, h2, h3, h4⟩ := hw
    obtain ⟨a, ha, sa⟩ := transpileOp_sound pred o lvl qs cs D ρ h1 (fun b hb => hD b (h2 b hb))
      (fun b hb => hD b (h3 b hb))
    obtain ⟨b, hb, sb⟩ := transpileData_sound pred r lvl reg D ρ h4 hD
    refine ⟨a ++ b, by simp only [transpileData, ha, hb, Option.bind_some], fun σ I s => ?_⟩
    rw [denData_append, sa, sb]
    simp only [denData]
end

/-- Is the operation elementary? -/
def TOp.isElem : TOp E → Bool
  | .elem _ => true
  | .comp .. => false

theorem keep_ops {D : String → Option Bit} {o : TOp E} {qs cs : List Bit} {out : List (TInstr E)}
    (h : keep D o qs cs = some out) : ∀ x ∈ out, x.1 = o := by
  unfold keep at h
  cases h1 : lookAll D qs with
  | none => rw [h1] at h; simp at h
  | some a =>
    cases h2 : lookAll D cs with
    | none => rw [h1, h2] at h; simp at h
    | some b =>
      rw [h1, h2] at h
      simp only [Option.bind_some, Option.some.injEq] at h
      subst h
      intro x hx
      rw [List.mem_singleton] at hx
      rw [hx]

mutual
theorem transpileOp_elem (pred : Nat → TOp E → Bool) (hp : ∀ i o, pred i o = true) : ∀ (o : TOp E)
    (lvl : Nat) (qs cs : List Bit) (D : String → Option Bit) (out : List (TInstr E)),
    transpileOp pred o lvl qs cs D = some out → ∀ x ∈ out, x.1.isElem = true
  | .elem e, lvl, qs, cs, D, out, h => by
    simp only [transpileOp] at h
    intro x hx
    rw [keep_ops h x hx]
    rfl
  | .comp e dq dc data, lvl, qs, cs, D, out, h => by
    simp only [transpileOp, hp, if_true] at h
    obtain ⟨pq, _, h⟩ := Option.bind_eq_some_iff.1 h
    obtain ⟨pc, _, h⟩ := Option.bind_eq_some_iff.1 h
    exact transpileData_elem pred hp data (lvl + 1) _ out h
theorem transpileData_elem (pred : Nat → TOp E → Bool) (hp : ∀ i o, pred i o = true) :
    ∀ (data : List (TInstr E)) (lvl : Nat) (D : String → Option Bit) (out : List (TInstr E)),
    transpileData pred data lvl D = some out → ∀ x ∈ out, x.1.isElem = true
  | [], lvl, D, out, h => by
    simp only [transpileData, Option.some.injEq] at h
    subst h
    simp
  | (o, qs, cs) :: r, lvl, D, out, h => by
    simp only [transpileData] at h
    obtain ⟨a, ha, h⟩ := Option.bind_eq_some_iff.1 h
    obtain ⟨b, hb, h⟩ := Option.bind_eq_some_iff.1 h
    simp only [Option.some.injEq] at h
    subst h
    intro x hx
    rcases List.mem_append.1 hx with hx | hx
    · exact transpileOp_elem pred hp o lvl qs cs D a ha x hx
    · exact transpileData_elem pred hp r lvl D b hb x hx
end

theorem top_dict {qubits clbits : List Bit} (hnd : ((qubits ++ clbits).map Bit.name).Nodup) {b : Bit}
    (hb : b ∈ qubits ++ clbits) :
    dictOf (((qubits.map Bit.name).zip qubits) ++ ((clbits.map Bit.name).zip clbits)) b.name
      = some (id b) := by
  have hz : (qubits.map Bit.name).zip qubits ++ (clbits.map Bit.name).zip clbits
      = ((qubits ++ clbits).map Bit.name).zip (qubits ++ clbits) := by
    rw [List.map_append, List.zip_append (by simp)]
  rw [hz, dict_bind rfl hnd hb]
  congr 1
  obtain ⟨i, hi, rfl⟩ := List.getElem_of_mem hb
  unfold bindEnv
  have m : ((qubits ++ clbits)[i], (qubits ++ clbits)[i]) ∈ (qubits ++ clbits).zip (qubits ++ clbits) := by
    rw [List.mem_iff_getElem]
    exact ⟨i, by simp at hi ⊢; omega, by simp⟩
  rw [lookup_of_mem m (by rw [List.map_fst_zip (by omega)]; exact hnd.of_map _)]
  rfl

theorem transpile_sound (level : Option Nat) (p : TOp E → Bool) (qubits clbits : List Bit)
    (data : List (TInstr E)) (hq : qubits ≠ [] ∨ clbits = [])
    (hnd : ((qubits ++ clbits).map Bit.name).Nodup) (hw : WFData (qubits ++ clbits) data) :
    ∃ out, transpile level p qubits clbits data = some out ∧
      ∀ (σ : Type) (I : E → List Bit → List Bit → σ → σ) (s : σ),
        denData I out id s = denData I data id s := by
  unfold transpile
  rw [if_neg (by tauto)]
  exact transpileData_sound _ data 0 (qubits ++ clbits) _ id hw fun b hb => top_dict hnd hb

end Verif.Circ
