import Verif.Circ.Transpile

/-!
Model of `QuantumCircuit.append`, `add_qubit`, `add_clbit` (circuit/quantum_circuit.py).
-/

namespace Verif.Circ

/-- An operation as far as `append` looks at it. -/
structure OpInfo where
  name : String
  nq : Nat
  nc : Nat
deriving DecidableEq, Repr

/-- A circuit: registered bits and instructions. -/
structure QC where
  qubits : List Bit
  clbits : List Bit
  data : List (OpInfo × List Bit × List Bit)

/-- An argument of `append`: a bit, an index, or an iterable of arguments. Quantum variables and arrays
are iterables of qubits. -/
inductive Arg where
  | bit (b : Bit)
  | idx (i : Int)
  | list (l : List Arg)

mutual
/-- quantum_circuit.py:2886-2916 `_convert_qb_item`, 2967-2983 `_convert_cb_item`: indices become
registered bits (negative ones count from the end, as in Python); anything out of range or of the wrong
type raises (`none`). -/
def conv (reg : List Bit) (isQ : Bool) : Arg → Option Arg
  | .bit b => if b.isQ = isQ then some (.bit b) else none
  | .idx i =>
    let j := if i < 0 then i + reg.length else i
    if j < 0 then none else (reg[j.toNat]?).map Arg.bit
  | .list l => (convL reg isQ l).map Arg.list
def convL (reg : List Bit) (isQ : Bool) : List Arg → Option (List Arg)
  | [] => some []
  | a :: r => (conv reg isQ a).bind fun a => (convL reg isQ r).bind fun r => some (a :: r)
end

/-- quantum_circuit.py:2963-2964, 3024-3025: a scalar is wrapped in a list. -/
def convTop (reg : List Bit) (isQ : Bool) (a : Arg) : Option (List Arg) :=
  (conv reg isQ a).map fun a => match a with
    | .list l => l
    | a => [a]

def Arg.asList : Arg → Option (List Arg)
  | .list l => some l
  | _ => none

def Arg.asBit : Arg → Option Bit
  | .bit b => some b
  | _ => none

/-- quantum_circuit.py:1554-1555: the arguments of the `i`-th application. -/
def pickArg (i : Nat) (a : Arg) : Arg :=
  match a.asList with
  | some l => l.getD i (.list [])
  | none => a

/-- Run steps until one fails (an exception leaves the loop, keeping what was done). -/
def seqUntil {X : Type} (step : QC → X → QC × Bool) : QC → List X → QC × Bool
  | c, [] => (c, true)
  | c, x :: r => if (step c x).2 then seqUntil step (step c x).1 r else ((step c x).1, false)

/-- quantum_circuit.py:1558-1580 `_resolve_qubits`. -/
def resolveQ (reg : List Bit) (op : OpInfo) (qs : List Bit) : Option (List Bit) :=
  if qs.length ≠ op.nq then none
  else if ¬ qs.Nodup then none
  else if qs.all (reg.contains ·) then some qs
  else if qs.all (fun q => (reg.map Bit.name).contains q.name) then
    qs.mapM fun q => reg.find? fun r => r.name == q.name
  else none

/-- quantum_circuit.py:1683-1706: the call without list arguments. `reject` is the outcome of
`_check_qubit_locks`. -/
def appendFlat (reject : OpInfo → List Bit → Bool) (c : QC) (op : OpInfo) (qs cs : List Bit) : QC × Bool :=
  match resolveQ c.qubits op qs with
  | none => (c, false)
  | some qs =>
    if cs.length ≠ op.nc then (c, false)
    else if ¬ (cs.map Bit.name).Nodup then (c, false)
    else if ¬ cs.all (fun b => (c.clbits.map Bit.name).contains b.name) then (c, false)
    else if reject op qs then (c, false)
    else ({ c with data := c.data ++ [(op, qs, cs)] }, true)

/-- quantum_circuit.py:1582-1706 `append` (accelerated mode off) and 1531-1556 `_apply_broadcast`. The
result is the circuit and whether the call returned normally. `f` bounds the nesting depth (the
recursion limit of the interpreter). -/
def append (reject : OpInfo → List Bit → Bool) : Nat → OpInfo → QC → Arg × Arg → QC × Bool
  | 0, _, c, _ => (c, false)
  | f + 1, op, c, (qa, ca) =>
    match convTop c.qubits true qa, convTop c.clbits false ca with
    | some qs, some cs =>
      match (qs.filterMap Arg.asList) ++ (cs.filterMap Arg.asList) with
      | [] => appendFlat reject c op (qs.filterMap Arg.asBit) (cs.filterMap Arg.asBit)
      | l :: ls =>
        if ls.all (fun l' => l'.length == l.length) then
          seqUntil (append reject f op) c ((List.range l.length).map fun i =>
            (.list (qs.map (pickArg i)), .list (cs.map (pickArg i))))
        else (c, false)
    | _, _ => (c, false)

/-- The calls that change a circuit. `add_qubit()` without argument is `addQubit` with a new object. -/
inductive Call where
  | addQubit (b : Bit)
  | addClbit (b : Bit)
  | append (op : OpInfo) (qa ca : Arg)

/-- quantum_circuit.py:275-353 `add_qubit`, `add_clbit`, and `append`. -/
def step (reject : OpInfo → List Bit → Bool) (f : Nat) (c : QC) : Call → QC × Bool
  | .addQubit b =>
    if b.isQ = false then (c, false)
    else if (c.qubits.map Bit.name).contains b.name then (c, false)
    else ({ c with qubits := c.qubits ++ [b] }, true)
  | .addClbit b =>
    if b.isQ = true then (c, false)
    else if (c.clbits.map Bit.name).contains b.name then (c, false)
    else ({ c with clbits := c.clbits ++ [b] }, true)
  | .append op qa ca => append reject f op c (qa, ca)

/-- A history of calls; failed calls raise and are caught by the caller. -/
def runCalls (reject : OpInfo → List Bit → Bool) (f : Nat) (c : QC) (l : List Call) : QC :=
  l.foldl (fun c x => (step reject f c x).1) c

/-! ### Invariants -/

mutual
/-- All bit objects of an argument satisfy `U`. -/
def Arg.All (U : Bit → Prop) : Arg → Prop
  | .bit b => U b
  | .idx _ => True
  | .list l => AllL U l
def AllL (U : Bit → Prop) : List Arg → Prop
  | [] => True
  | a :: r => a.All U ∧ AllL U r
end

theorem AllL_iff {U : Bit → Prop} {l : List Arg} : AllL U l ↔ ∀ a ∈ l, a.All U := by
  induction l with
  | nil => simp [AllL]
  | cons a l ih => simp [AllL, ih]

/-- One instruction fits its circuit. -/
structure InstrOK (U : Bit → Prop) (c : QC) (x : OpInfo × List Bit × List Bit) : Prop where
  nq : x.2.1.length = x.1.nq
  nc : x.2.2.length = x.1.nc
  reg : ∀ q ∈ x.2.1, q ∈ c.qubits
  creg : ∀ b ∈ x.2.2, ∃ b' ∈ c.clbits, b'.name = b.name
  cnd : (x.2.2.map Bit.name).Nodup
  cU : ∀ b ∈ x.2.2, U b ∧ b.isQ = false

structure QCInv (U : Bit → Prop) (c : QC) : Prop where
  qnd : (c.qubits.map Bit.name).Nodup
  cnd : (c.clbits.map Bit.name).Nodup
  qU : ∀ q ∈ c.qubits, U q ∧ q.isQ = true
  cU : ∀ b ∈ c.clbits, U b ∧ b.isQ = false
  data : ∀ x ∈ c.data, InstrOK U c x

/-- A set of bit objects in which the identifier determines the object. -/
def Uniq (U : Bit → Prop) : Prop := ∀ b b', U b → U b' → b.name = b'.name → b.isQ = b'.isQ → b = b'

/-- Objects of one kind. -/
def typed (U : Bit → Prop) (isQ : Bool) (b : Bit) : Prop := U b ∧ b.isQ = isQ

mutual
theorem conv_all {U : Bit → Prop} {reg : List Bit} {isQ : Bool} (hreg : ∀ b ∈ reg, typed U isQ b) :
    ∀ (a : Arg) (a' : Arg), a.All U → conv reg isQ a = some a' → a'.All (typed U isQ)
  | .bit b, a', h, e => by
    simp only [conv] at e
    split at e
    · next hb =>
      simp only [Option.some.injEq] at e
      subst e
      simp only [Arg.All] at h ⊢
      exact ⟨h, hb⟩
    · simp at e
  | .idx i, a', _, e => by
    simp only [conv] at e
    generalize (if i < 0 then i + (reg.length : Int) else i) = j at e
    split at e
    · simp at e
    · next hi =>
      obtain ⟨b, hb, rfl⟩ := Option.map_eq_some_iff.1 e
      simp only [Arg.All]
      exact hreg b (List.mem_of_getElem? hb)
  | .list l, a', h, e => by
    simp only [conv] at e
    obtain ⟨l', hl, rfl⟩ := Option.map_eq_some_iff.1 e
    simp only [Arg.All] at h ⊢
    exact convL_all hreg l l' h hl
theorem convL_all {U : Bit → Prop} {reg : List Bit} {isQ : Bool} (hreg : ∀ b ∈ reg, typed U isQ b) :
    ∀ (l l' : List Arg), AllL U l → convL reg isQ l = some l' → AllL (typed U isQ) l'
  | [], l', _, e => by
    simp only [convL, Option.some.injEq] at e
    subst e
    simp [AllL]
  | a :: r, l', h, e => by
    simp only [convL] at e
    obtain ⟨a', ha, e⟩ := Option.bind_eq_some_iff.1 e
    obtain ⟨r', hr, e⟩ := Option.bind_eq_some_iff.1 e
    simp only [Option.some.injEq] at e
    subst e
    simp only [AllL] at h ⊢
    exact ⟨conv_all hreg a a' h.1 ha, convL_all hreg r r' h.2 hr⟩
end

theorem convTop_all {U : Bit → Prop} {reg : List Bit} {isQ : Bool} (hreg : ∀ b ∈ reg, typed U isQ b)
    {a : Arg} {l : List Arg} (h : a.All U) (e : convTop reg isQ a = some l) :
    ∀ x ∈ l, x.All (typed U isQ) := by
  unfold convTop at e
  obtain ⟨a', ha, rfl⟩ := Option.map_eq_some_iff.1 e
  have := conv_all hreg a a' h ha
  cases a' with
  | bit b => simpa using this
  | idx i => simpa using this
  | list l => simp only [Arg.All] at this; exact AllL_iff.1 this

mutual
theorem all_mono {U V : Bit → Prop} (h : ∀ b, U b → V b) : ∀ a : Arg, a.All U → a.All V
  | .bit b, ha => by simp only [Arg.All] at ha ⊢; exact h b ha
  | .idx _, _ => by simp only [Arg.All]
  | .list l, ha => by simp only [Arg.All] at ha ⊢; exact allL_mono h l ha
theorem allL_mono {U V : Bit → Prop} (h : ∀ b, U b → V b) : ∀ l : List Arg, AllL U l → AllL V l
  | [], _ => by simp [AllL]
  | a :: r, ha => by simp only [AllL] at ha ⊢; exact ⟨all_mono h a ha.1, allL_mono h r ha.2⟩
end

theorem asBit_all {U : Bit → Prop} {l : List Arg} (h : ∀ a ∈ l, a.All U) :
    ∀ b ∈ l.filterMap Arg.asBit, U b := by
  intro b hb
  obtain ⟨a, ha, e⟩ := List.mem_filterMap.1 hb
  have := h a ha
  cases a with
  | bit b' => simp only [Arg.asBit, Option.some.injEq] at e; subst e; simpa only [Arg.All] using this
  | idx i => simp [Arg.asBit] at e
  | list l => simp [Arg.asBit] at e

theorem pickArg_all {U : Bit → Prop} (i : Nat) {a : Arg} (h : a.All U) : (pickArg i a).All U := by
  cases a with
  | bit b => exact h
  | idx j => exact h
  | list l =>
    simp only [pickArg, Arg.asList, List.getD_eq_getElem?_getD]
    simp only [Arg.All] at h
    cases e : l[i]? with
    | none => simp [Arg.All, AllL]
    | some x => exact AllL_iff.1 h x (List.mem_of_getElem? e)

theorem mapM_some {α β : Type} {f : α → Option β} {l : List α} {r : List β} (h : l.mapM f = some r) :
    r.length = l.length ∧ ∀ y ∈ r, ∃ x ∈ l, f x = some y := by
  induction l generalizing r with
  | nil => simp at h; subst h; simp
  | cons a l ih =>
    rw [List.mapM_cons] at h
    cases ha : f a with
    | none => rw [ha] at h; simp at h
    | some b =>
      cases hl : l.mapM f with
      | none => rw [ha, hl] at h; simp at h
      | some r' =>
        rw [ha, hl] at h
        simp at h
        subst h
        obtain ⟨h1, h2⟩ := ih hl
        refine ⟨by simp [h1], fun y hy => ?_⟩
        rw [List.mem_cons] at hy
        rcases hy with rfl | hy
        · exact ⟨a, by simp, ha⟩
        · obtain ⟨x, hx, e⟩ := h2 y hy
          exact ⟨x, by simp [hx], e⟩

theorem resolveQ_ok {reg : List Bit} {op : OpInfo} {qs qs' : List Bit} (h : resolveQ reg op qs = some qs') :
    qs'.length = op.nq ∧ ∀ q ∈ qs', q ∈ reg := by
  unfold resolveQ at h
  split at h
  · simp at h
  · next hl =>
    split at h
    · simp at h
    · split at h
      · next ha =>
        simp only [Option.some.injEq] at h
        subst h
        exact ⟨by simpa using hl, by simpa using ha⟩
      · split at h
        · obtain ⟨h1, h2⟩ := mapM_some h
          refine ⟨by rw [h1]; simpa using hl, fun q hq => ?_⟩
          obtain ⟨x, _, e⟩ := h2 q hq
          exact List.mem_of_find?_eq_some e
        · simp at h

/-- With identifiers determining the objects, the qubits are taken as they are. -/
theorem resolveQ_uniq {U : Bit → Prop} (hU : Uniq U) {reg : List Bit} (hreg : ∀ b ∈ reg, typed U true b)
    {op : OpInfo} {qs qs' : List Bit} (hqs : ∀ b ∈ qs, typed U true b)
    (h : resolveQ reg op qs = some qs') : qs'.Nodup := by
  unfold resolveQ at h
  split at h
  · simp at h
  · split at h
    · simp at h
    · next hnd =>
      have hnd : qs.Nodup := by simpa using hnd
      split at h
      · simp only [Option.some.injEq] at h
        subst h
        exact hnd
      · next hnall =>
        split at h
        · next hall =>
          exfalso
          apply hnall
          rw [List.all_eq_true] at hall ⊢
          intro q hq
          have := hall q hq
          simp only [List.contains_eq_mem, List.mem_map, decide_eq_true_eq] at this ⊢
          obtain ⟨r, hr, e⟩ := this
          have h1 := hreg r hr
          have h2 := hqs q hq
          rw [← hU r q h1.1 h2.1 e (by rw [h1.2, h2.2])]
          exact hr
        · simp at h

theorem appendFlat_cases (reject : OpInfo → List Bit → Bool) (c : QC) (op : OpInfo) (qs cs : List Bit) :
    ((appendFlat reject c op qs cs).2 = false ∧ (appendFlat reject c op qs cs).1 = c) ∨
    ∃ qs', resolveQ c.qubits op qs = some qs' ∧ cs.length = op.nc ∧ (cs.map Bit.name).Nodup ∧
      (∀ b ∈ cs, ∃ b' ∈ c.clbits, b'.name = b.name) ∧
      appendFlat reject c op qs cs = ({ c with data := c.data ++ [(op, qs', cs)] }, true) := by
  unfold appendFlat
  split
  · exact Or.inl ⟨rfl, rfl⟩
  · next qs' hq =>
    split
    · exact Or.inl ⟨rfl, rfl⟩
    · next h1 =>
      split
      · exact Or.inl ⟨rfl, rfl⟩
      · next h2 =>
        split
        · exact Or.inl ⟨rfl, rfl⟩
        · next h3 =>
          split
          · exact Or.inl ⟨rfl, rfl⟩
          · refine Or.inr ⟨qs', hq, by simpa using h1, by simpa using h2, ?_, rfl⟩
            have h3 : (cs.all fun b => (c.clbits.map Bit.name).contains b.name) = true := by simpa using h3
            rw [List.all_eq_true] at h3
            intro b hb
            have := h3 b hb
            simpa using this

/-- The circuit `c'` extends `c` by instructions. -/
def Extends (c c' : QC) : Prop :=
  c'.qubits = c.qubits ∧ c'.clbits = c.clbits ∧ ∃ l, c'.data = c.data ++ l

theorem Extends.refl (c : QC) : Extends c c := ⟨rfl, rfl, [], by simp⟩

theorem Extends.trans {a b c : QC} (h : Extends a b) (h' : Extends b c) : Extends a c := by
  obtain ⟨h1, h2, l, h3⟩ := h
  obtain ⟨h1', h2', l', h3'⟩ := h'
  exact ⟨by rw [h1', h1], by rw [h2', h2], l ++ l', by rw [h3', h3, List.append_assoc]⟩

theorem seqUntil_inv {X : Type} {step : QC → X → QC × Bool} {P : QC → Prop} {l : List X} {c : QC}
    (hc : P c) (hs : ∀ c, P c → ∀ x ∈ l, P (step c x).1) : P (seqUntil step c l).1 := by
  induction l generalizing c with
  | nil => exact hc
  | cons x l ih =>
    simp only [seqUntil]
    split
    · exact ih (hs c hc x (by simp)) fun c hc x hx => hs c hc x (by simp [hx])
    · exact hs c hc x (by simp)

/-- The invariant, with distinct qubit objects when `nd` is set. -/
def QCGood (U : Bit → Prop) (nd : Prop) (c : QC) : Prop :=
  QCInv U c ∧ (nd → ∀ x ∈ c.data, x.2.1.Nodup)

theorem appendFlat_good {U : Bit → Prop} {nd : Prop} (hU : nd → Uniq U) (reject : OpInfo → List Bit → Bool)
    {c : QC} (h : QCGood U nd c) (op : OpInfo) {qs cs : List Bit} (hq : ∀ b ∈ qs, typed U true b)
    (hc : ∀ b ∈ cs, typed U false b) : QCGood U nd (appendFlat reject c op qs cs).1 := by
  rcases appendFlat_cases reject c op qs cs with ⟨_, e⟩ | ⟨qs', r, l, n, g, e⟩
  · rw [e]; exact h
  · rw [e]
    obtain ⟨hi, hn⟩ := h
    have hr := resolveQ_ok r
    refine ⟨⟨hi.qnd, hi.cnd, hi.qU, hi.cU, fun x hx => ?_⟩, fun hnd x hx => ?_⟩
    · rcases List.mem_append.1 hx with hx | hx
      · have := hi.data x hx
        exact ⟨this.nq, this.nc, this.reg, this.creg, this.cnd, this.cU⟩
      · rw [List.mem_singleton] at hx
        subst hx
        exact ⟨hr.1, l, hr.2, g, n, hc⟩
    · rcases List.mem_append.1 hx with hx | hx
      · exact hn hnd x hx
      · rw [List.mem_singleton] at hx
        subst hx
        exact resolveQ_uniq (hU hnd) hi.qU hq r

theorem append_good {U : Bit → Prop} {nd : Prop} (hU : nd → Uniq U) (reject : OpInfo → List Bit → Bool)
    (f : Nat) (op : OpInfo) (c : QC) (h : QCGood U nd c) (x : Arg × Arg) (hq : x.1.All U) (hc : x.2.All U) :
    QCGood U nd (append reject f op c x).1 := by
  induction f generalizing c x with
  | zero => exact h
  | succ f ih =>
    obtain ⟨qa, ca⟩ := x
    simp only [append]
    split
    · next qs cs e1 e2 =>
      have a1 := convTop_all (U := U) h.1.qU hq e1
      have a2 := convTop_all (U := U) h.1.cU hc e2
      split
      · exact appendFlat_good hU reject h op (asBit_all a1) (asBit_all a2)
      · split
        · refine seqUntil_inv h fun c hc x hx => ?_
          obtain ⟨i, _, rfl⟩ := List.mem_map.1 hx
          refine ih c hc _ ?_ ?_
          · simp only [Arg.All]
            refine AllL_iff.2 fun a ha => ?_
            obtain ⟨a', ha', rfl⟩ := List.mem_map.1 ha
            exact pickArg_all i (all_mono (fun b hb => hb.1) _ (a1 a' ha'))
          · simp only [Arg.All]
            refine AllL_iff.2 fun a ha => ?_
            obtain ⟨a', ha', rfl⟩ := List.mem_map.1 ha
            exact pickArg_all i (all_mono (fun b hb => hb.1) _ (a2 a' ha'))
        · exact h
    · exact h

theorem append_extends (reject : OpInfo → List Bit → Bool) (f : Nat) (op : OpInfo) (c : QC) (x : Arg × Arg) :
    Extends c (append reject f op c x).1 := by
  induction f generalizing c x with
  | zero => exact Extends.refl c
  | succ f ih =>
    obtain ⟨qa, ca⟩ := x
    simp only [append]
    split
    · next qs cs e1 e2 =>
      split
      · rcases appendFlat_cases reject c op (qs.filterMap Arg.asBit) (cs.filterMap Arg.asBit) with
          ⟨_, e⟩ | ⟨qs', _, _, _, _, e⟩
        · rw [e]; exact Extends.refl c
        · rw [e]; exact ⟨rfl, rfl, _, rfl⟩
      · split
        · exact seqUntil_inv (P := Extends c) (Extends.refl c) fun c' hc' x hx => hc'.trans (ih c' x)
        · exact Extends.refl c
    · exact Extends.refl c

/-- All objects of a call satisfy `U`. -/
def Call.All (U : Bit → Prop) : Call → Prop
  | .addQubit b => U b
  | .addClbit b => U b
  | .append _ qa ca => qa.All U ∧ ca.All U

theorem step_good {U : Bit → Prop} {nd : Prop} (hU : nd → Uniq U) (reject : OpInfo → List Bit → Bool)
    (f : Nat) (c : QC) (h : QCGood U nd c) (x : Call) (hx : x.All U) :
    QCGood U nd (step reject f c x).1 := by
  cases x with
  | addQubit b =>
    simp only [step]
    split
    · exact h
    · next hb =>
      split
      · exact h
      · next hn =>
        have hn : b.name ∉ c.qubits.map Bit.name := by simpa [List.contains_eq_mem] using hn
        obtain ⟨hi, hnd⟩ := h
        refine ⟨⟨?_, hi.cnd, ?_, hi.cU, ?_⟩, hnd⟩
        · simp only [List.map_append, List.map_cons, List.map_nil]
          refine List.nodup_append.2 ⟨hi.qnd, by simp, ?_⟩
          intro a ha b' hb' e
          simp only [List.mem_singleton] at hb'
          subst e hb'
          exact hn ha
        · intro q hq
          rcases List.mem_append.1 hq with hq | hq
          · exact hi.qU q hq
          · rw [List.mem_singleton] at hq
            subst hq
            exact ⟨hx, by simpa using hb⟩
        · intro x hx
          have := hi.data x hx
          exact ⟨this.nq, this.nc, fun q hq => List.mem_append_left _ (this.reg q hq), this.creg, this.cnd,
            this.cU⟩
  | addClbit b =>
    simp only [step]
    split
    · exact h
    · next hb =>
      split
      · exact h
      · next hn =>
        have hn : b.name ∉ c.clbits.map Bit.name := by simpa [List.contains_eq_mem] using hn
        obtain ⟨hi, hnd⟩ := h
        refine ⟨⟨hi.qnd, ?_, hi.qU, ?_, ?_⟩, hnd⟩
        · simp only [List.map_append, List.map_cons, List.map_nil]
          refine List.nodup_append.2 ⟨hi.cnd, by simp, ?_⟩
          intro a ha b' hb' e
          simp only [List.mem_singleton] at hb'
          subst e hb'
          exact hn ha
        · intro q hq
          rcases List.mem_append.1 hq with hq | hq
          · exact hi.cU q hq
          · rw [List.mem_singleton] at hq
            subst hq
            exact ⟨hx, by simpa using hb⟩
        · intro x hx
          have := hi.data x hx
          exact ⟨this.nq, this.nc, this.reg, fun b hb => by
            obtain ⟨b', h1, h2⟩ := this.creg b hb
            exact ⟨b', List.mem_append_left _ h1, h2⟩, this.cnd, this.cU⟩
  | append op qa ca =>
    simp only [step]
    exact append_good hU reject f op c h (qa, ca) hx.1 hx.2

theorem runCalls_good {U : Bit → Prop} {nd : Prop} (hU : nd → Uniq U) (reject : OpInfo → List Bit → Bool)
    (f : Nat) (l : List Call) (hl : ∀ x ∈ l, x.All U) (c : QC) (h : QCGood U nd c) :
    QCGood U nd (runCalls reject f c l) := by
  induction l generalizing c with
  | nil => exact h
  | cons x l ih =>
    exact ih (fun x hx => hl x (by simp [hx])) _ (step_good hU reject f c h x (hl x (by simp)))

end Verif.Circ
