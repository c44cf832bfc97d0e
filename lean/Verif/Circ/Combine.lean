import Verif.Circ.Chan
import Verif.Circ.Unitary
import Verif.Circ.Convert

/-!
The pass combine_single_qubit_gates.
-/

namespace Verif.Circ

open Verif.Rev (upd)

/-! ### The fusion loop, for any type of instructions -/

/-- What the loop looks at: `single j = some (q, m)` if `j` is a single qubit gate with matrix `m` on
qubit `q`; the qubits of `j`; and the instruction emitted for a combined matrix. -/
structure FuseSig (J : Type) where
  single : J → Option (Nat × M2)
  qubits : J → List Nat
  emit : Nat → M2 → J

variable {J E : Type}

/-- The stacks of waiting gates, the last one first. -/
abbrev Stacks (J : Type) := Nat → List (J × M2)

/-- combine_single_qubit_gates.py:52-57: the product of the waiting gates, the last gate leftmost. -/
def stackMat (l : List (J × M2)) : M2 := (l.map Prod.snd).foldl (fun m g => m * g) 1

/-- combine_single_qubit_gates.py:27-70 `_apply_combined_gates`; `isId` is the test
`np.linalg.norm(m - np.eye(2)) < 1e-10`. -/
def flushOne (F : FuseSig J) (isId : M2 → Bool) (l : List (J × M2)) (q : Nat) : List J :=
  match l with
  | [] => []
  | [x] => if isId (stackMat [x]) then [] else [x.1]
  | x :: y :: r => if isId (stackMat (x :: y :: r)) then [] else [F.emit q (stackMat (x :: y :: r))]

/-- Empty the stack of a qubit. -/
def clear (st : Stacks J) (q : Nat) : Stacks J := fun p => if p = q then [] else st p

/-- combine_single_qubit_gates.py:141-142, 171-172: flush the given qubits one after the other. -/
def flushL (F : FuseSig J) (isId : M2 → Bool) : List Nat → Stacks J → List J × Stacks J
  | [], st => ([], st)
  | q :: r, st =>
    let rest := flushL F isId r (clear st q)
    (flushOne F isId (st q) q ++ rest.1, rest.2)

/-- combine_single_qubit_gates.py:127-174: the loop, for a circuit with qubits `0 … n-1`. The recursion
into composite gates (lines 144-163) is done beforehand, see `combineOp`. -/
def fuseGo (F : FuseSig J) (isId : M2 → Bool) (n : Nat) : List J → Stacks J → List J
  | [], st => (flushL F isId (List.range n) st).1
  | j :: r, st =>
    match F.single j with
    | some (q, m) => fuseGo F isId n r (fun p => if p = q then (j, m) :: st p else st p)
    | none =>
      let fl := flushL F isId (F.qubits j) st
      fl.1 ++ j :: fuseGo F isId n r fl.2

/-- combine_single_qubit_gates.py:73-174. -/
def fuse (F : FuseSig J) (isId : M2 → Bool) (n : Nat) (data : List J) : List J :=
  fuseGo F isId n data (fun _ => [])

/-- What is needed about the meaning of instructions. -/
structure FuseSem (F : FuseSig J) (n : Nat) (d : J → E → E) (G : M2 → Nat → E → E) : Prop where
  single : ∀ j q m, F.single j = some (q, m) → q < n → IsU m ∧ ∀ x, d j x = G m q x
  emit : ∀ q m, IsU m → ∀ x, d (F.emit q m) x = G m q x
  mul : ∀ m m' q x, G m q (G m' q x) = G (m * m') q x
  one : ∀ q x, G 1 q x = x
  comm : ∀ m m' q q', q ≠ q' → ∀ x, G m q (G m' q' x) = G m' q' (G m q x)
  far : ∀ j m q, q ∉ F.qubits j → ∀ x, d j (G m q x) = G m q (d j x)

/-- Run a list of instructions. -/
def runJ (d : J → E → E) : List J → E → E
  | [], x => x
  | j :: r, x => runJ d r (d j x)

theorem runJ_append (d : J → E → E) (a b : List J) (x : E) :
    runJ d (a ++ b) x = runJ d b (runJ d a x) := by
  induction a generalizing x with
  | nil => rfl
  | cons j r ih => exact ih _

/-- The waiting gates applied. -/
def pend (G : M2 → Nat → E → E) : List Nat → Stacks J → E → E
  | [], _, x => x
  | q :: r, st, x => pend G r st (G (stackMat (st q)) q x)

theorem foldl_mul (l : List M2) (m : M2) : l.foldl (fun m g => m * g) m
    = m * l.foldl (fun m g => m * g) 1 := by
  induction l generalizing m with
  | nil => simp
  | cons a l ih => simp only [List.foldl_cons, one_mul]; rw [ih, ih a, mul_assoc]

theorem stackMat_cons (x : J × M2) (l : List (J × M2)) : stackMat (x :: l) = x.2 * stackMat l := by
  unfold stackMat
  simp only [List.map_cons, List.foldl_cons, one_mul]
  exact foldl_mul _ _

theorem stackMat_nil : stackMat ([] : List (J × M2)) = 1 := rfl

variable {F : FuseSig J} {n : Nat} {d : J → E → E} {G : M2 → Nat → E → E}

theorem pend_comm (S : FuseSem F n d G) (l : List Nat) (st : Stacks J) (m : M2) (q : Nat) (hq : q ∉ l)
    (x : E) : pend G l st (G m q x) = G m q (pend G l st x) := by
  induction l generalizing x with
  | nil => rfl
  | cons p r ih =>
    simp only [pend]
    rw [S.comm _ _ _ _ (fun e => hq (by simp [e])), ih (fun h => hq (by simp [h]))]

theorem pend_congr (l : List Nat) (st st' : Stacks J) (h : ∀ q ∈ l, stackMat (st q) = stackMat (st' q))
    (x : E) : pend G l st x = pend G l st' x := by
  induction l generalizing x with
  | nil => rfl
  | cons p r ih =>
    simp only [pend]
    rw [h p (by simp), ih fun q hq => h q (by simp [hq])]

/-- Take the gates of one qubit out. -/
theorem pend_out (S : FuseSem F n d G) (l : List Nat) (hl : l.Nodup) (st : Stacks J) (q : Nat)
    (hq : q ∈ l) (x : E) : pend G l st x = pend G l (clear st q) (G (stackMat (st q)) q x) := by
  induction l generalizing x with
  | nil => simp at hq
  | cons p r ih =>
    obtain ⟨hp, hr⟩ := List.nodup_cons.1 hl
    simp only [pend]
    by_cases e : p = q
    · subst e
      have : stackMat (clear st p p) = 1 := by simp [clear, stackMat_nil]
      rw [this, S.one]
      refine pend_congr _ _ _ (fun q hq => ?_) _
      have : q ≠ p := fun e => hp (e ▸ hq)
      simp [clear, this]
    · have hqr : q ∈ r := by
        rcases List.mem_cons.1 hq with h | h
        · exact absurd h.symm e
        · exact h
      have : clear st q p = st p := by simp [clear, e]
      rw [this, ih hr hqr, S.comm _ _ _ _ e]

/-- The gate `m` pushed on the stack of `q` is applied last. -/
theorem pend_push (S : FuseSem F n d G) (l : List Nat) (hl : l.Nodup) (st : Stacks J) (q : Nat)
    (hq : q ∈ l) (j : J) (m : M2) (x : E) :
    pend G l (fun p => if p = q then (j, m) :: st p else st p) x = G m q (pend G l st x) := by
  rw [pend_out S l hl _ q hq, pend_out S l hl st q hq x]
  have e1 : clear (fun p => if p = q then (j, m) :: st p else st p) q = clear st q := by
    funext p
    unfold clear
    split <;> simp_all
  simp only [if_true, e1, stackMat_cons]
  rw [← S.mul]
  generalize G (stackMat (st q)) q x = y
  clear e1
  induction l generalizing y with
  | nil => rfl
  | cons p r ih =>
    obtain ⟨hp, hr⟩ := List.nodup_cons.1 hl
    simp only [pend]
    by_cases e : p = q
    · subst e
      have : stackMat (clear st p p) = 1 := by simp [clear, stackMat_nil]
      rw [this, S.one, S.one]
      exact pend_comm S r _ m p hp y
    · have hqr : q ∈ r := by
        rcases List.mem_cons.1 hq with h | h
        · exact absurd h.symm e
        · exact h
      rw [S.comm _ _ _ _ e, ih hr hqr]

/-- All waiting gates are unitary and recorded with their matrix. -/
def StOK (d : J → E → E) (G : M2 → Nat → E → E) (st : Stacks J) : Prop :=
  ∀ q, ∀ x ∈ st q, IsU x.2 ∧ ∀ y, d x.1 y = G x.2 q y

theorem stackMat_isU {l : List (J × M2)} (h : ∀ x ∈ l, IsU x.2) : IsU (stackMat l) := by
  induction l with
  | nil => exact isU_one
  | cons x l ih =>
    rw [stackMat_cons]
    exact isU_mul (h x (by simp)) (ih fun y hy => h y (by simp [hy]))

theorem flushOne_sound (S : FuseSem F n d G) {isId : M2 → Bool} (hid : ∀ m, isId m = true → m = 1)
    {st : Stacks J} (hst : StOK d G st) (q : Nat) (x : E) :
    runJ d (flushOne F isId (st q) q) x = G (stackMat (st q)) q x := by
  have hU : IsU (stackMat (st q)) := stackMat_isU fun y hy => (hst q y hy).1
  have hs := hst q
  revert hU hs
  generalize st q = l
  intro hU hs
  match l with
  | [] => simp only [flushOne, runJ, stackMat_nil, S.one]
  | [y] =>
    simp only [flushOne]
    split
    · rename_i h; rw [hid _ h, S.one]; rfl
    · simp only [runJ]
      rw [(hs y (by simp)).2, stackMat_cons, stackMat_nil, mul_one]
  | y :: z :: r =>
    simp only [flushOne]
    split
    · rename_i h; rw [hid _ h, S.one]; rfl
    · simp only [runJ]
      exact S.emit q _ hU x

theorem clear_ok {st : Stacks J} (hst : StOK d G st) (q : Nat) : StOK d G (clear st q) := by
  intro p x hx
  unfold clear at hx
  split at hx
  · simp at hx
  · exact hst p x hx

theorem flushL_ok (isId : M2 → Bool) (l : List Nat) {st : Stacks J} (hst : StOK d G st) :
    StOK d G (flushL F isId l st).2 := by
  induction l generalizing st with
  | nil => exact hst
  | cons q r ih => exact ih (clear_ok hst q)

theorem flushL_empty (isId : M2 → Bool) (l : List Nat) (st : Stacks J) (q : Nat)
    (h : q ∈ l ∨ st q = []) : (flushL F isId l st).2 q = [] := by
  induction l generalizing st with
  | nil => simpa [flushL] using h
  | cons p r ih =>
    simp only [flushL]
    refine ih _ ?_
    by_cases e : q = p
    · right; simp [clear, e]
    · rcases h with h | h
      · rcases List.mem_cons.1 h with h | h
        · exact absurd h e
        · exact .inl h
      · right; simp [clear, e, h]

theorem flushL_sound (S : FuseSem F n d G) {isId : M2 → Bool} (hid : ∀ m, isId m = true → m = 1)
    (l : List Nat) (hl : ∀ q ∈ l, q < n) {st : Stacks J} (hst : StOK d G st) (x : E) :
    pend G (List.range n) (flushL F isId l st).2 (runJ d (flushL F isId l st).1 x)
      = pend G (List.range n) st x := by
  induction l generalizing st x with
  | nil => rfl
  | cons q r ih =>
    simp only [flushL]
    rw [runJ_append, ih (fun p hp => hl p (by simp [hp])) (clear_ok hst q),
      flushOne_sound S hid hst q x]
    exact (pend_out S _ List.nodup_range st q (by simpa using hl q (by simp)) x).symm

theorem pend_empty (S : FuseSem F n d G) (l : List Nat) (st : Stacks J) (h : ∀ q ∈ l, st q = [])
    (x : E) : pend G l st x = x := by
  induction l generalizing x with
  | nil => rfl
  | cons q r ih =>
    simp only [pend]
    rw [h q (by simp), stackMat_nil, S.one]
    exact ih (fun p hp => h p (by simp [hp])) x

theorem pend_far (S : FuseSem F n d G) (l : List Nat) (st : Stacks J) (j : J)
    (h : ∀ q ∈ F.qubits j, st q = []) (x : E) : pend G l st (d j x) = d j (pend G l st x) := by
  induction l generalizing x with
  | nil => rfl
  | cons q r ih =>
    simp only [pend]
    by_cases hq : q ∈ F.qubits j
    · rw [h q hq, stackMat_nil, S.one, S.one]; exact ih x
    · rw [← S.far j _ q hq]; exact ih _

theorem fuseGo_sound (S : FuseSem F n d G) {isId : M2 → Bool} (hid : ∀ m, isId m = true → m = 1)
    (data : List J) (hw : ∀ j ∈ data, ∀ q ∈ F.qubits j, q < n)
    (hs : ∀ j ∈ data, ∀ q m, F.single j = some (q, m) → q < n) {st : Stacks J} (hst : StOK d G st)
    (x : E) : runJ d (fuseGo F isId n data st) x = runJ d data (pend G (List.range n) st x) := by
  induction data generalizing st x with
  | nil =>
    simp only [fuseGo, runJ]
    rw [← flushL_sound S hid (List.range n) (by simp) hst x]
    refine (pend_empty S _ _ (fun q hq => ?_) _).symm
    exact flushL_empty isId _ st q (.inl hq)
  | cons j r ih =>
    have ih := fun {st : Stacks J} (hst : StOK d G st) (x : E) =>
      ih (fun i hi => hw i (by simp [hi])) (fun i hi => hs i (by simp [hi])) (st := st) hst x
    simp only [fuseGo]
    cases hj : F.single j with
    | some qm =>
      obtain ⟨q, m⟩ := qm
      have hqn := hs j (by simp) q m hj
      obtain ⟨hU, hd⟩ := S.single j q m hj hqn
      simp only
      rw [ih]
      · rw [pend_push S _ List.nodup_range st q (by simpa using hqn), ← hd]; rfl
      · intro p y hy
        by_cases e : p = q
        · subst e
          simp only [if_true, List.mem_cons] at hy
          rcases hy with hy | hy
          · subst hy; exact ⟨hU, hd⟩
          · exact hst p y hy
        · simp only [e, if_false] at hy
          exact hst p y hy
    | none =>
      simp only
      rw [runJ_append]
      simp only [runJ]
      rw [ih (flushL_ok isId _ hst), pend_far S, flushL_sound S hid _ (hw j (by simp)) hst]
      intro q hq
      exact flushL_empty isId _ st q (.inl hq)

theorem fuse_sound (S : FuseSem F n d G) {isId : M2 → Bool} (hid : ∀ m, isId m = true → m = 1)
    (data : List J) (hw : ∀ j ∈ data, ∀ q ∈ F.qubits j, q < n)
    (hs : ∀ j ∈ data, ∀ q m, F.single j = some (q, m) → q < n) (x : E) :
    runJ d (fuse F isId n data) x = runJ d data x := by
  unfold fuse
  rw [fuseGo_sound S hid data hw hs (fun q x hx => by simp at hx)]
  rw [pend_empty S _ _ (fun _ _ => rfl)]

/-! ### The pass on operations and circuits -/

variable {Q C K : Type} [DecidableEq Q] [DecidableEq C]

/-- The matrix of a `U3Gate` (operation.py:432, 574: `PauliGate` is one, too). -/
noncomputable def Op.mat1 : Op → Option M2
  | .u3 _ θ φ lam g => some (u3m θ φ lam g)
  | .pauli p => some p.mat
  | _ => none

/-- combine_single_qubit_gates.py:137, 168, 70 on instructions of a unitary circuit. -/
noncomputable def opSig : FuseSig (Op × List Nat) where
  single j := match j.1.mat1, j.2 with
    | some m, [q] => some (q, m)
    | _, _ => none
  qubits j := j.2
  emit q m := (unitaryG m, [q])

/-- standard_operations.py:583-606: the definition of the swap gate. -/
def swapDef : List (Op × List Nat) := [(cxG, [0, 1]), (cxG, [1, 0]), (cxG, [0, 1])]

/-- combine_single_qubit_gates.py:149-153: the new base operation of a controlled operation: the
optimised definition turned into a gate (quantum_circuit.py:405 drops allocations), or the old one if
it has no definition. A controlled operation never is the base of a controlled operation
(operation.py:654-664). -/
def asBase : Op → Op → Op
  | .gate nm n body, _ => .gate nm n (dropAlloc body)
  | .swap, _ => .gate "swap" 2 swapDef
  | _, b => b

mutual
/-- combine_single_qubit_gates.py:144-163: recursion into composite operations. -/
noncomputable def combineOp (isId : M2 → Bool) : Op → Op
  | .gate nm n body => .gate nm n (fuse opSig isId n (combineMap isId body))
  | .pt b st body => .pt b st (fuse opSig isId (st.length + b.arity) (combineMap isId body))
  | .ctrl b st => .ctrl (asBase (combineOp isId b) b) st
  | .u3 nm θ φ lam g => .u3 nm θ φ lam g
  | .pauli p => .pauli p
  | .alloc => .alloc
  | .dealloc => .dealloc
  | .barrier n => .barrier n
  | .swap => .swap
/-- The recursion on all instructions of a circuit. -/
noncomputable def combineMap (isId : M2 → Bool) : List (Op × List Nat) → List (Op × List Nat)
  | [] => []
  | (o, is) :: r => (combineOp isId o, is) :: combineMap isId r
end

/-- The same for instructions with classical bits. -/
noncomputable def copSig (K : Type) : FuseSig (COp K × List Nat × List Nat) where
  single j := match j.1, j.2.1 with
    | .uni o, [q] => o.mat1.map fun m => (q, m)
    | _, _ => none
  qubits j := j.2.1
  emit q m := (.uni (unitaryG m), [q], [])

mutual
/-- combine_single_qubit_gates.py:144-163 for operations with classical bits. -/
noncomputable def combineCOp (isId : M2 → Bool) : COp K → COp K
  | .uni o => .uni (combineOp isId o)
  | .prim nm k => .prim nm k
  | .comp nm n body => .comp nm n (fuse (copSig K) isId n (combineCMap isId body))
/-- The recursion on all instructions of a circuit. -/
noncomputable def combineCMap (isId : M2 → Bool) :
    List (COp K × List Nat × List Nat) → List (COp K × List Nat × List Nat)
  | [] => []
  | (o, is, js) :: r => (combineCOp isId o, is, js) :: combineCMap isId r
end

/-- combine_single_qubit_gates.py:73-174 on a circuit with `n` qubits. -/
noncomputable def combineCircuit (isId : M2 → Bool) (n : Nat)
    (data : List (COp K × List Nat × List Nat)) : List (COp K × List Nat × List Nat) :=
  fuse (copSig K) isId n (combineCMap isId data)

/-- The operation fits to `k` qubits. -/
def COp.fits : COp K → Nat → Prop
  | .uni o, k => k = o.arity
  | .prim _ _, _ => True
  | .comp _ n _, k => k = n

mutual
/-- Well-formed operations. -/
def COp.WF : COp K → Prop
  | .uni o => o.WF
  | .prim _ _ => True
  | .comp _ n body => CWFBody n body
/-- Every instruction uses as many distinct qubits below `n` as its operation needs. -/
def CWFBody (n : Nat) : List (COp K × List Nat × List Nat) → Prop
  | [] => True
  | (o, is, _) :: r => o.WF ∧ is.Nodup ∧ (∀ i ∈ is, i < n) ∧ o.fits is.length ∧ CWFBody n r
end

theorem denBody_runJ (body : List (Op × List Nat)) (qs : List Q) (ψ : Amp Q) :
    denBody body qs ψ = runJ (fun j => den j.1 (pick qs j.2)) body ψ := by
  induction body generalizing ψ with
  | nil => simp only [denBody, runJ]
  | cons j r ih => obtain ⟨o, is⟩ := j; simp only [denBody, runJ]; exact ih _

theorem cdenBody_runJ (I : Interp Q C K) (body : List (COp K × List Nat × List Nat)) (qs : List Q)
    (cs : List C) (Ψ : Amp (Wire Q C)) : cdenBody I body qs cs Ψ
      = runJ (fun j => cden I j.1 (pick qs j.2.1) (pick cs j.2.2)) body Ψ := by
  induction body generalizing Ψ with
  | nil => simp only [cdenBody, runJ]
  | cons j r ih => obtain ⟨o, is, js⟩ := j; simp only [cdenBody, runJ]; exact ih _

theorem mat1_isU {o : Op} {m : M2} (h : o.mat1 = some m) : IsU m := by
  cases o <;> simp only [Op.mat1, Option.some.injEq, reduceCtorEq] at h
  · subst h; exact isU_u3 _ _ _ _
  · subst h; exact isU_pauli _

theorem mat1_den {o : Op} {m : M2} (h : o.mat1 = some m) (qs : List Q) (ψ : Amp Q) :
    den o qs ψ = on1 m qs ψ := by
  cases o <;> simp only [Op.mat1, Option.some.injEq, reduceCtorEq] at h
  · subst h; simp only [den]
  · subst h; simp only [den]

theorem den_unitary {m : M2} (h : IsU m) (qs : List Q) (ψ : Amp Q) :
    den (unitaryG m) qs ψ = on1 m qs ψ := by
  simp only [unitaryG, den, unitary_mat h]

theorem on1_mul (m m' : M2) {qs : List Q} (h : qs.length ≤ 1) (ψ : Amp Q) :
    on1 m qs (on1 m' qs ψ) = on1 (m * m') qs ψ := by
  match qs with
  | [] => rfl
  | [q] => simp only [on1]; exact app1_app1 m m' q ψ
  | _ :: _ :: _ => simp at h

theorem on1_one (qs : List Q) (ψ : Amp Q) : on1 1 qs ψ = ψ := by
  match qs with
  | [] => rfl
  | [q] => simp only [on1]; exact app1_one q ψ
  | _ :: _ :: _ => rfl

theorem pick1_len (qs : List Q) (q : Nat) : (pick qs [q]).length ≤ 1 := by
  simp only [pick, List.filterMap_cons, List.filterMap_nil]
  cases qs[q]? <;> simp

theorem pick_far {qs : List Q} (hnd : qs.Nodup) {is is' : List Nat} (h : ∀ i ∈ is, i ∉ is') :
    ∀ q ∈ pick qs is, q ∉ pick qs is' := by
  intro q hq hq'
  simp only [pick, List.mem_filterMap] at hq hq'
  obtain ⟨i, hi, e⟩ := hq
  obtain ⟨j, hj, e'⟩ := hq'
  obtain ⟨a, ha⟩ := List.getElem?_eq_some_iff.1 e
  obtain ⟨b, hb⟩ := List.getElem?_eq_some_iff.1 e'
  have := (List.Nodup.getElem_inj_iff hnd).1 (ha.trans hb.symm)
  subst this
  exact h i hi hj

theorem supp_disjoint {a b : List Q} (h : ∀ q ∈ a, q ∉ b) : Disjoint (supp a) (supp b) := by
  rw [Set.disjoint_left]; exact fun q h1 h2 => h q h1 h2

theorem opSig_sem (n : Nat) {qs : List Q} (hnd : qs.Nodup) :
    FuseSem (E := Amp Q) opSig n (fun j => den j.1 (pick qs j.2)) (fun m q => on1 m (pick qs [q])) where
  single := by
    rintro ⟨o, is⟩ q m h _
    simp only [opSig] at h
    cases hm : o.mat1 with
    | none => simp [hm] at h
    | some m' =>
      match is with
      | [] => simp [hm] at h
      | [p] =>
        simp [hm] at h
        obtain ⟨rfl, rfl⟩ := h
        exact ⟨mat1_isU hm, fun ψ => mat1_den hm _ ψ⟩
      | _ :: _ :: _ => simp [hm] at h
  emit := fun q m h x => den_unitary h _ x
  mul := fun m m' q x => on1_mul m m' (pick1_len qs q) x
  one := fun q x => on1_one _ x
  comm := fun m m' q q' h x =>
    Loc.comm (supp_disjoint (pick_far hnd (by simpa using h))) (on1_loc m _) (on1_loc m' _) x
  far := fun j m q h x =>
    Loc.comm (supp_disjoint (pick_far hnd (fun i hi => by
      intro hc; rw [List.mem_singleton] at hc; subst hc; exact h hi))) (den_loc j.1 _) (on1_loc m _) x

theorem copSig_sem (I : Interp Q C K) (n : Nat) {qs : List Q} (cs : List C) (hnd : qs.Nodup) :
    FuseSem (E := Amp (Wire Q C)) (copSig K) n (fun j => cden I j.1 (pick qs j.2.1) (pick cs j.2.2))
      (fun m q => lift (on1 m (pick qs [q]))) where
  single := by
    rintro ⟨o, is, js⟩ q m h _
    simp only [copSig] at h
    match o, is with
    | .uni o, [p] =>
      simp only [Option.map_eq_some_iff] at h
      obtain ⟨m', hm, he⟩ := h
      cases he
      refine ⟨mat1_isU hm, fun Ψ => ?_⟩
      simp only [cden]
      exact lift_congr (fun ψ => mat1_den hm _ ψ) Ψ
    | .uni _, [] => simp at h
    | .uni _, _ :: _ :: _ => simp at h
    | .prim .., _ => simp at h
    | .comp .., _ => simp at h
  emit := fun q m h x => by
    simp only [copSig, cden]
    exact lift_congr (fun ψ => den_unitary h _ ψ) x
  mul := fun m m' q x => by
    rw [lift_comp (on1_loc m _) (on1_loc m' _)]
    exact lift_congr (fun ψ => on1_mul m m' (pick1_len qs q) ψ) x
  one := fun q x => by
    exact (lift_congr (fun ψ => on1_one _ ψ) x).trans (lift_id x)
  comm := fun m m' q q' h x => by
    have := pick_far (is := [q]) (is' := [q']) hnd (by simpa using h)
    exact Loc.comm (wsupp_disjoint (cs := ([] : List C)) (cs' := []) this (by simp))
      ((on1_loc m _).lift []) ((on1_loc m' _).lift []) x
  far := fun j m q h x => by
    have := pick_far (is := j.2.1) (is' := [q]) hnd (fun i hi => by
      intro hc; rw [List.mem_singleton] at hc; subst hc; exact h hi)
    exact Loc.comm (wsupp_disjoint (cs' := ([] : List C)) this (by simp)) (cden_loc I j.1 _ _)
      ((on1_loc m _).lift []) x

theorem combineMap_lt {isId : M2 → Bool} {n : Nat} : ∀ (body : List (Op × List Nat)),
    WFBody n body → ∀ j ∈ combineMap isId body, ∀ q ∈ j.2, q < n
  | [], _ => by simp [combineMap]
  | (o, is) :: r, h => by
    simp only [combineMap, List.mem_cons, forall_eq_or_imp]
    simp only [WFBody] at h
    exact ⟨h.2.2.1, combineMap_lt r h.2.2.2.2⟩

theorem opSig_single_mem (j : Op × List Nat) (q : Nat) (m : M2) (h : opSig.single j = some (q, m)) :
    q ∈ j.2 := by
  obtain ⟨o, is⟩ := j
  simp only [opSig] at h
  split at h
  · rename_i h1 h2
    simp only [Option.some.injEq, Prod.mk.injEq] at h
    simp [h.1]
  · simp at h

theorem copSig_single_mem (j : COp K × List Nat × List Nat) (q : Nat) (m : M2)
    (h : (copSig K).single j = some (q, m)) : q ∈ j.2.1 := by
  obtain ⟨o, is, js⟩ := j
  simp only [copSig] at h
  match o, is with
  | .uni o, [p] =>
    simp only [Option.map_eq_some_iff] at h
    obtain ⟨m', hm, he⟩ := h
    cases he; simp
  | .uni _, [] => simp at h
  | .uni _, _ :: _ :: _ => simp at h
  | .prim .., _ => simp at h
  | .comp .., _ => simp at h

theorem pick_len {qs : List Q} {is : List Nat} (h : ∀ i ∈ is, i < qs.length) :
    (pick qs is).length = is.length := by
  induction is with
  | nil => rfl
  | cons i r ih =>
    have := ih fun j hj => h j (by simp [hj])
    simp only [pick, List.filterMap_cons] at this ⊢
    rw [List.getElem?_eq_getElem (h i (by simp))]
    simp only [List.length_cons, this]

theorem asBase_den (o b : Op) (h : ∀ (qs : List Q) ψ, qs.Nodup → qs.length = b.arity →
    den o qs ψ = den b qs ψ) (hs : o = .swap → b.arity = 2) (qs : List Q) (hnd : qs.Nodup)
    (hl : qs.length = b.arity) (ψ : Amp Q) : den (asBase o b) qs ψ = den b qs ψ := by
  cases o with
  | gate nm n body =>
    rw [← h qs ψ hnd hl]
    simp only [asBase, den, denBody_dropAlloc]
  | swap =>
    rw [← h qs ψ hnd hl]
    have h2 := hs rfl
    rw [h2] at hl
    match qs, hl with
    | [a, c], _ =>
      have hab : a ≠ c := by simpa using hnd
      have := swap_id hab ψ
      simp only [asBase]
      rw [← this]
      simp only [den, swapDef, denBody, runU]
      rfl
  | u3 => rfl
  | pauli => rfl
  | alloc => rfl
  | dealloc => rfl
  | barrier => rfl
  | ctrl => rfl
  | pt => rfl

theorem combineOp_swap {isId : M2 → Bool} {o : Op} (h : combineOp isId o = .swap) : o.arity = 2 := by
  cases o <;> simp only [combineOp, reduceCtorEq] at h
  rfl

mutual
theorem combineOp_sound {isId : M2 → Bool} (hid : ∀ m, isId m = true → m = 1) :
    ∀ (o : Op), o.WF → ∀ (qs : List Q) (ψ : Amp Q), qs.Nodup → qs.length = o.arity →
      den (combineOp isId o) qs ψ = den o qs ψ
  | .gate nm n body, hw, qs, ψ, hnd, hl => by
    simp only [Op.WF] at hw
    simp only [combineOp, den]
    have := fuse_sound (opSig_sem n hnd) hid (combineMap isId body) (combineMap_lt body hw)
      (fun j hj q m h => combineMap_lt body hw j hj q (opSig_single_mem j q m h)) ψ
    rw [← denBody_runJ, ← denBody_runJ] at this
    rw [this]
    exact combineMap_sound hid n body hw qs ψ hnd hl
  | .pt b st body, hw, qs, ψ, hnd, hl => by
    simp only [Op.WF] at hw
    simp only [combineOp, den]
    have := fuse_sound (opSig_sem (st.length + b.arity) hnd) hid (combineMap isId body)
      (combineMap_lt body hw.2)
      (fun j hj q m h => combineMap_lt body hw.2 j hj q (opSig_single_mem j q m h)) ψ
    rw [← denBody_runJ, ← denBody_runJ] at this
    rw [this]
    exact combineMap_sound hid _ body hw.2 qs ψ hnd hl
  | .ctrl b st, hw, qs, ψ, hnd, hl => by
    simp only [Op.WF] at hw
    simp only [Op.arity] at hl
    simp only [combineOp, den]
    have : den (asBase (combineOp isId b) b) (qs.drop st.length) = den b (qs.drop st.length) := by
      funext φ
      refine asBase_den _ _ (fun qs' ψ' h1 h2 => combineOp_sound hid b hw qs' ψ' h1 h2)
        combineOp_swap _ (hnd.sublist (List.drop_sublist _ _)) (by simp; omega) φ
    rw [this]
  | .u3 .., _, _, _, _, _ => by simp only [combineOp]
  | .pauli _, _, _, _, _, _ => by simp only [combineOp]
  | .alloc, _, _, _, _, _ => by simp only [combineOp]
  | .dealloc, _, _, _, _, _ => by simp only [combineOp]
  | .barrier _, _, _, _, _, _ => by simp only [combineOp]
  | .swap, _, _, _, _, _ => by simp only [combineOp]
theorem combineMap_sound {isId : M2 → Bool} (hid : ∀ m, isId m = true → m = 1) (n : Nat) :
    ∀ (body : List (Op × List Nat)), WFBody n body → ∀ (qs : List Q) (ψ : Amp Q), qs.Nodup →
      qs.length = n → denBody (combineMap isId body) qs ψ = denBody body qs ψ
  | [], _, _, _, _, _ => by simp only [combineMap]
  | (o, is) :: r, hw, qs, ψ, hnd, hl => by
    simp only [WFBody] at hw
    obtain ⟨h1, h2, h3, h4, h5⟩ := hw
    simp only [combineMap, denBody]
    rw [combineOp_sound hid o h1 (pick qs is) ψ (pick_nodup hnd h2)
      ((pick_len (by rw [hl]; exact h3)).trans h4)]
    exact combineMap_sound hid n r h5 qs _ hnd hl
end

theorem combineCMap_lt {isId : M2 → Bool} {n : Nat} : ∀ (body : List (COp K × List Nat × List Nat)),
    CWFBody n body → ∀ j ∈ combineCMap isId body, ∀ q ∈ j.2.1, q < n
  | [], _ => by simp [combineCMap]
  | (o, is, js) :: r, h => by
    simp only [combineCMap, List.mem_cons, forall_eq_or_imp]
    simp only [CWFBody] at h
    exact ⟨h.2.2.1, combineCMap_lt r h.2.2.2.2⟩

mutual
theorem combineCOp_sound (I : Interp Q C K) {isId : M2 → Bool} (hid : ∀ m, isId m = true → m = 1) :
    ∀ (o : COp K), o.WF → ∀ (qs : List Q) (cs : List C) (Ψ : Amp (Wire Q C)), qs.Nodup →
      o.fits qs.length → cden I (combineCOp isId o) qs cs Ψ = cden I o qs cs Ψ
  | .uni o, hw, qs, cs, Ψ, hnd, hf => by
    simp only [COp.WF] at hw
    simp only [COp.fits] at hf
    simp only [combineCOp, cden]
    exact lift_congr (fun ψ => combineOp_sound hid o hw qs ψ hnd hf) Ψ
  | .prim .., _, _, _, _, _, _ => by simp only [combineCOp]
  | .comp nm n body, hw, qs, cs, Ψ, hnd, hf => by
    simp only [COp.WF] at hw
    simp only [COp.fits] at hf
    simp only [combineCOp, cden]
    have := fuse_sound (copSig_sem I n cs hnd) hid (combineCMap isId body) (combineCMap_lt body hw)
      (fun j hj q m h => combineCMap_lt body hw j hj q (copSig_single_mem j q m h)) Ψ
    rw [← cdenBody_runJ, ← cdenBody_runJ] at this
    rw [this]
    exact combineCMap_sound I hid n body hw qs cs Ψ hnd hf
theorem combineCMap_sound (I : Interp Q C K) {isId : M2 → Bool} (hid : ∀ m, isId m = true → m = 1)
    (n : Nat) : ∀ (body : List (COp K × List Nat × List Nat)), CWFBody n body → ∀ (qs : List Q)
      (cs : List C) (Ψ : Amp (Wire Q C)), qs.Nodup → qs.length = n →
      cdenBody I (combineCMap isId body) qs cs Ψ = cdenBody I body qs cs Ψ
  | [], _, _, _, _, _, _ => by simp only [combineCMap]
  | (o, is, js) :: r, hw, qs, cs, Ψ, hnd, hl => by
    simp only [CWFBody] at hw
    obtain ⟨h1, h2, h3, h4, h5⟩ := hw
    simp only [combineCMap, cdenBody]
    rw [combineCOp_sound I hid o h1 (pick qs is) (pick cs js) Ψ (pick_nodup hnd h2)
      (by rw [pick_len (by rw [hl]; exact h3)]; exact h4)]
    exact combineCMap_sound I hid n r h5 qs cs _ hnd hl
end

/-- The pass preserves the action of the circuit. -/
theorem combineCircuit_sound (I : Interp Q C K) {isId : M2 → Bool} (hid : ∀ m, isId m = true → m = 1)
    (n : Nat) (data : List (COp K × List Nat × List Nat)) (hw : CWFBody n data) (qs : List Q)
    (cs : List C) (hnd : qs.Nodup) (hl : qs.length = n) (Ψ : Amp (Wire Q C)) :
    cdenBody I (combineCircuit isId n data) qs cs Ψ = cdenBody I data qs cs Ψ := by
  have := fuse_sound (copSig_sem I n cs hnd) hid (combineCMap isId data) (combineCMap_lt data hw)
    (fun j hj q m h => combineCMap_lt data hw j hj q (copSig_single_mem j q m h)) Ψ
  rw [← cdenBody_runJ, ← cdenBody_runJ] at this
  unfold combineCircuit
  rw [this]
  exact combineCMap_sound I hid n data hw qs cs Ψ hnd hl

end Verif.Circ
