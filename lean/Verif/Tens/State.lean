import Verif.Tens.Disent
import Mathlib.Algebra.BigOperators.Group.Finset.Basic
import Mathlib.Data.Finset.Image
import Mathlib.Data.List.Dedup

/-!
# Quantum states of the simulator (`simulator/quantum_state.py`)
-/

namespace Verif.Tens

set_option linter.unusedSectionVars false

variable {K : Type} [Field K] [StarRing K] [DecidableEq K]

/-- `QuantumState`: `ptr[q]` is the factor object of qubit `q`, `heap` are the factor objects, `simulator/quantum_state.py` 34-39 -/
structure State (K : Type) where
  ptr : List Nat
  heap : List (TF K)

/-- the number of qubits -/
def State.n (s : State K) : Nat := s.ptr.length

/-- the object of a qubit -/
def State.p (s : State K) (q : Nat) : Nat := s.ptr.getD q 0

/-- the contents of an object -/
def State.g (s : State K) (i : Nat) : TF K := s.heap.getD i (zeroTF 0)

/-- what is not determined by the code: the estimates, the order of the elements of a Python set; and the square root -/
structure Env (K : Type) where
  root : K → K
  H : Heur K
  own : TF K → Nat → Bool
  ord : List Nat → List Nat

/-- `__init__`, `simulator/quantum_state.py` 35-38 -/
def initState (n : Nat) : State K := ⟨List.range n, (List.range n).map zeroTF⟩

/-- `add_qubit`, `simulator/quantum_state.py` 228-230 -/
def addQubit (s : State K) : State K := ⟨s.ptr ++ [s.heap.length], s.heap ++ [zeroTF s.n]⟩

/-- pointing the given qubits to an object -/
def redirect (ptr : List Nat) (qs : List Nat) (e : Nat) : List Nat := qs.foldl (fun p q => p.set q e) ptr

/-- `disentangle`, `simulator/quantum_state.py` 232-241 -/
def disentangle (E : Env K) (s : State K) (q : Nat) : State K :=
  let i := s.p q
  match disentangleTF E.root (E.own (s.g i) q) (s.g i) q with
  | .same t => ⟨(redirect s.ptr t.qubits i).set (t.qubits.getD 0 0) i, s.heap.set i t⟩
  | .parts t d r =>
    ⟨(redirect s.ptr t.qubits (s.heap.length + 1)).set (t.qubits.getD 0 0) s.heap.length, s.heap.set i t ++ [d, r]⟩

/-- the objects of the given qubits, `simulator/quantum_state.py` 43 -/
def involved (E : Env K) (s : State K) (qs : List Nat) : List Nat := E.ord (qs.map s.p).dedup

/-- disentangling the qubits of an object one by one; the list of its qubits is permuted while it is read,
`simulator/quantum_state.py` 51-53 -/
def disAll (E : Env K) (s : State K) (i : Nat) : State K :=
  (List.range (s.g i).qubits.length).foldl (fun s k => disentangle E s ((s.g i).qubits.getD k 0)) s

/-- joining the objects of the qubits and applying the matrix, `simulator/quantum_state.py` 66-79 -/
def applyCore (E : Env K) (s : State K) (M : List K) (qs : List Nat) : Option (State K × Nat) :=
  let ids := involved E s qs
  (multiEntangle E.H (ids.length - 1) (ids.map s.g)).bind fun u =>
    let e := if ids.length = 1 then ids.getD 0 0 else s.heap.length
    let heap := if ids.length = 1 then s.heap else s.heap ++ [u]
    (applyMatrix E.H M qs u).map fun t =>
      (⟨redirect s.ptr (ids.flatMap fun i => (s.g i).qubits) e, heap.set e t⟩, e)

/-- disentangling the qubits whose value is certain, `simulator/quantum_state.py` 84-102 -/
def cleanUp (E : Env K) (s : State K) (e : Nat) (qs : List Nat) : State K :=
  let t := toFront qs.reverse 0 (s.g e)
  let out := (multiMeasure qs.length t.arr).map (·.1)
  let s : State K := ⟨s.ptr, s.heap.set e t⟩
  let dq := (List.range qs.length).reverse.filter fun i => out.all (·.testBit i) || out.all fun o => !o.testBit i
  (dq.map fun i => qs.getD i 0).foldl (disentangle E) s

/-- `apply_operation`, `simulator/quantum_state.py` 41-102, for the matrix `M` of the operation -/
def applyOp (E : Env K) (s : State K) (M : List K) (qs : List Nat) : Option (State K) :=
  let ids := involved E s qs
  let s := if (ids.map fun i => (s.g i).qubits.length).sum > 63 then ids.foldl (disAll E) s else s
  (applyCore E s M qs).map fun (s, e) => if (s.g e).qubits.length < 25 then s else cleanUp E s e qs

/-- the choice of the outcome, `simulator/quantum_state.py` 140-153; `less` is the comparison of the random number with `p_0` -/
def pickOut (less : K → Bool) (r0 r1 : K × Option (TF K)) : Option (Bool × TF K) :=
  match r0.2, r1.2 with
  | none, some u => some (true, u)
  | some u, none => some (false, u)
  | some u, some v => some (if less r0.1 then (false, u) else (true, v))
  | none, none => none

/-- `measure`, `simulator/quantum_state.py` 128-172 -/
def measure (E : Env K) (s : State K) (q : Nat) (less : K → Bool) (keep : Bool) : Option (Bool × State K) :=
  let i := s.p q
  (measureTF E.root (s.g i) q).bind fun (r0, r1) =>
    let heap := s.heap.set i (swap (s.g i) 0 ((s.g i).qubits.idxOf q))
    (pickOut less r0 r1).map fun (m, u) =>
      (m, ⟨(redirect s.ptr u.qubits heap.length).set q (heap.length + 1), heap ++ [u, if keep && m then vecTF q [0, 1] else zeroTF q]⟩)

/-- `eval`, `simulator/quantum_state.py` 105-111: the entries of the state vector -/
def eval (E : Env K) (s : State K) : Option (List K) :=
  let ids := E.ord s.ptr.dedup
  (multiEntangle E.H (ids.length - 1) (ids.map fun i => unravel (s.g i))).map fun u => toArray (unravel u).arr

/-! ### Meaning -/

/-- the product of the amplitudes of the objects of the qubits `Q` -/
def part (s : State K) (Q : Finset Nat) (b : Nat → Bool) : K := ∏ i ∈ Q.image s.p, amp (s.g i) b

/-- the amplitude of the state for the values `b` of the qubits -/
def psi (s : State K) (b : Nat → Bool) : K := part s (Finset.range s.n) b

/-- every qubit points to an object that lists it; all qubits of an object point to it; objects are normalised -/
structure Inv (s : State K) : Prop where
  lt : ∀ q < s.n, s.p q < s.heap.length
  mem : ∀ q < s.n, q ∈ (s.g (s.p q)).qubits
  back : ∀ q < s.n, ∀ r ∈ (s.g (s.p q)).qubits, r < s.n ∧ s.p r = s.p q
  ok : ∀ q < s.n, (s.g (s.p q)).Ok
  norm : ∀ q < s.n, normTF (s.g (s.p q)) = 1

/-- sets of qubits that consist of whole objects -/
structure Closed (s : State K) (Q : Finset Nat) : Prop where
  sub : ∀ q ∈ Q, q < s.n
  cl : ∀ q ∈ Q, ∀ r < s.n, s.p r = s.p q → r ∈ Q

/-- a change that concerns the qubits `Q` only -/
structure Repl (s s' : State K) (Q : Finset Nat) : Prop where
  n : s'.n = s.n
  keep : ∀ r < s.n, r ∉ Q → s'.p r = s.p r ∧ s'.g (s.p r) = s.g (s.p r) ∧ s.p r < s'.heap.length
  sep : ∀ q ∈ Q, ∀ r < s.n, r ∉ Q → s'.p q ≠ s.p r

theorem amp_local {t : TF K} {b b' : Nat → Bool} (h : ∀ q ∈ t.qubits, b q = b' q) : amp t b = amp t b' := by
  unfold amp
  rw [List.map_congr_left h]

theorem psi_split {s : State K} {Q : Finset Nat} (hQ : Closed s Q) (b : Nat → Bool) :
    psi s b = part s Q b * part s (Finset.range s.n \ Q) b := by
  unfold psi part
  have hsub : Q ⊆ Finset.range s.n := fun q hq => Finset.mem_range.2 (hQ.sub q hq)
  conv_lhs => rw [← Finset.union_sdiff_of_subset hsub, Finset.image_union]
  apply Finset.prod_union
  rw [Finset.disjoint_left]
  intro i h1 h2
  obtain ⟨q, hq, rfl⟩ := Finset.mem_image.1 h1
  obtain ⟨r, hr, e⟩ := Finset.mem_image.1 h2
  rw [Finset.mem_sdiff, Finset.mem_range] at hr
  exact hr.2 (hQ.cl q hq r hr.1 e)

theorem repl_psi {s s' : State K} {Q : Finset Nat} (hQ : Closed s Q) (h : Repl s s' Q) (b : Nat → Bool) :
    psi s' b = part s' Q b * part s (Finset.range s.n \ Q) b := by
  have hc : Closed s' Q := by
    refine ⟨fun q hq => by rw [h.n]; exact hQ.sub q hq, ?_⟩
    intro q hq r hr e
    rw [h.n] at hr
    by_contra hrQ
    rw [(h.keep r hr hrQ).1] at e
    exact h.sep q hq r hr hrQ e.symm
  rw [psi_split hc]
  congr 1
  unfold part
  rw [h.n]
  have himg : (Finset.range s.n \ Q).image s'.p = (Finset.range s.n \ Q).image s.p := by
    apply Finset.image_congr
    intro r hr
    rw [Finset.mem_coe, Finset.mem_sdiff, Finset.mem_range] at hr
    exact (h.keep r hr.1 hr.2).1
  rw [himg]
  apply Finset.prod_congr rfl
  intro i hi
  obtain ⟨r, hr, rfl⟩ := Finset.mem_image.1 hi
  rw [Finset.mem_sdiff, Finset.mem_range] at hr
  rw [(h.keep r hr.1 hr.2).2.1]

theorem repl_inv {s s' : State K} {Q : Finset Nat} (hi : Inv s) (hQ : Closed s Q) (h : Repl s s' Q)
    (hq : ∀ q ∈ Q, s'.p q < s'.heap.length ∧ q ∈ (s'.g (s'.p q)).qubits ∧ (∀ r ∈ (s'.g (s'.p q)).qubits, r ∈ Q ∧ s'.p r = s'.p q) ∧
      (s'.g (s'.p q)).Ok ∧ normTF (s'.g (s'.p q)) = 1) : Inv s' := by
  have hk : ∀ r < s.n, r ∉ Q → s'.g (s'.p r) = s.g (s.p r) := by
    intro r hr hrQ
    rw [(h.keep r hr hrQ).1, (h.keep r hr hrQ).2.1]
  refine ⟨?_, ?_, ?_, ?_, ?_⟩ <;> intro q hqn <;> rw [h.n] at hqn <;> by_cases hqQ : q ∈ Q
  · exact (hq q hqQ).1
  · rw [(h.keep q hqn hqQ).1]; exact (h.keep q hqn hqQ).2.2
  · exact (hq q hqQ).2.1
  · rw [hk q hqn hqQ]; exact hi.mem q hqn
  · intro r hr
    obtain ⟨h1, h2⟩ := (hq q hqQ).2.2.1 r hr
    exact ⟨by rw [h.n]; exact hQ.sub r h1, h2⟩
  · intro r hr
    rw [hk q hqn hqQ] at hr
    obtain ⟨h1, h2⟩ := hi.back q hqn r hr
    have hrQ : r ∉ Q := fun hrQ => hqQ (hQ.cl r hrQ q hqn h2.symm)
    rw [h.n]
    exact ⟨h1, by rw [(h.keep r h1 hrQ).1, (h.keep q hqn hqQ).1, h2]⟩
  · exact (hq q hqQ).2.2.2.1
  · rw [hk q hqn hqQ]; exact hi.ok q hqn
  · exact (hq q hqQ).2.2.2.2
  · rw [hk q hqn hqQ]; exact hi.norm q hqn

/-- the other objects do not depend on the qubits `Q` -/
theorem part_other {s : State K} {Q : Finset Nat} (hi : Inv s) (hQ : Closed s Q) {b b' : Nat → Bool} (h : ∀ q, q ∉ Q → b q = b' q) :
    part s (Finset.range s.n \ Q) b = part s (Finset.range s.n \ Q) b' := by
  unfold part
  apply Finset.prod_congr rfl
  intro i hi'
  obtain ⟨r, hr, rfl⟩ := Finset.mem_image.1 hi'
  rw [Finset.mem_sdiff, Finset.mem_range] at hr
  apply amp_local
  intro q hq
  apply h
  intro hqQ
  exact hr.2 (hQ.cl q hqQ r hr.1 (hi.back r hr.1 q hq).2.symm)

/-! ### Pointers -/

theorem redirect_length (ptr qs : List Nat) (e : Nat) : (redirect ptr qs e).length = ptr.length := by
  unfold redirect
  induction qs generalizing ptr with
  | nil => rfl
  | cons q qs ih => rw [List.foldl_cons, ih, List.length_set]

theorem getD_set (l : List Nat) (i j e : Nat) (hj : j < l.length) : (l.set i e).getD j 0 = if i = j then e else l.getD j 0 := by
  rw [List.getD_eq_getElem _ _ (by rw [List.length_set]; exact hj), List.getElem_set, List.getD_eq_getElem _ _ hj]

theorem redirect_get (ptr qs : List Nat) (e r : Nat) (hr : r < ptr.length) :
    (redirect ptr qs e).getD r 0 = if r ∈ qs then e else ptr.getD r 0 := by
  unfold redirect
  induction qs generalizing ptr with
  | nil => simp
  | cons q qs ih =>
    rw [List.foldl_cons, ih _ (by rw [List.length_set]; exact hr), getD_set _ _ _ _ hr]
    by_cases h1 : r ∈ qs
    · simp [h1]
    · by_cases h2 : q = r
      · simp [h2]
      · simp [h1, h2, Ne.symm h2]

theorem heap_set (l : List (TF K)) (i j : Nat) (t : TF K) (hi : i < l.length) :
    (l.set i t).getD j (zeroTF 0) = if i = j then t else l.getD j (zeroTF 0) := by
  simp only [List.getD_eq_getElem?_getD, List.getElem?_set]
  by_cases h : i = j
  · subst h
    simp [hi]
  · simp [h]

/-! ### The qubits of an object -/

theorem inv_same {s : State K} (hi : Inv s) {q r : Nat} (hq : q < s.n) : r ∈ (s.g (s.p q)).qubits ↔ r < s.n ∧ s.p r = s.p q := by
  constructor
  · exact hi.back q hq r
  · rintro ⟨h1, h2⟩
    rw [← h2]
    exact hi.mem r h1

theorem closed_obj {s : State K} (hi : Inv s) {q : Nat} (hq : q < s.n) : Closed s (s.g (s.p q)).qubits.toFinset := by
  refine ⟨?_, ?_⟩
  · intro r hr
    exact (hi.back q hq r (List.mem_toFinset.1 hr)).1
  · intro r hr r' hr' e
    rw [List.mem_toFinset, inv_same hi hq] at hr ⊢
    exact ⟨hr', e.trans hr.2⟩

/-- a state changed by a list of disentangling steps -/
structure Kept (s s' : State K) : Prop where
  inv : Inv s'
  n : s'.n = s.n
  psi : ∀ b, psi s' b = Tens.psi s b
  len : s.heap.length ≤ s'.heap.length
  qubits : ∀ i < s.heap.length, (s'.g i).qubits.Perm (s.g i).qubits

theorem Kept.trans {s s' s'' : State K} (h : Kept s s') (h' : Kept s' s'') : Kept s s'' :=
  ⟨h'.inv, h'.n.trans h.n, fun b => (h'.psi b).trans (h.psi b), h.len.trans h'.len,
    fun i hi => (h'.qubits i (lt_of_lt_of_le hi h.len)).trans (h.qubits i hi)⟩

theorem Kept.refl {s : State K} (h : Inv s) : Kept s s := ⟨h, rfl, fun _ => rfl, le_refl _, fun _ _ => List.Perm.refl _⟩

theorem parts_length {root : K → K} {own : Bool} {t : TF K} {q : Nat} {t' d r : TF K} (h : disentangleTF root own t q = .parts t' d r) :
    t.qubits.length ≠ 1 := by
  intro e
  unfold disentangleTF at h
  rw [if_pos e] at h
  cases h

/-- replacing the contents of an object by other contents with the same qubits and amplitudes -/
theorem kept_set {s : State K} (hi : Inv s) {q : Nat} (hq : q < s.n) {t : TF K} (hok : t.Ok) (hp : t.qubits.Perm (s.g (s.p q)).qubits)
    (ha : ∀ b, amp t b = amp (s.g (s.p q)) b) : Kept s ⟨s.ptr, s.heap.set (s.p q) t⟩ := by
  have hQ := closed_obj hi hq
  have hlt := hi.lt q hq
  have hg : ∀ i, State.g (⟨s.ptr, s.heap.set (s.p q) t⟩ : State K) i = if s.p q = i then t else s.g i :=
    fun i => heap_set _ _ _ _ hlt
  have hpp : ∀ r, State.p (⟨s.ptr, s.heap.set (s.p q) t⟩ : State K) r = s.p r := fun r => rfl
  have hne : ∀ r < s.n, r ∉ (s.g (s.p q)).qubits.toFinset → s.p q ≠ s.p r := by
    intro r hr hrQ e
    rw [List.mem_toFinset, inv_same hi hq] at hrQ
    exact hrQ ⟨hr, e.symm⟩
  have hr : Repl s ⟨s.ptr, s.heap.set (s.p q) t⟩ (s.g (s.p q)).qubits.toFinset := by
    refine ⟨rfl, ?_, ?_⟩
    · intro r hr hrQ
      refine ⟨rfl, ?_, ?_⟩
      · rw [hg, if_neg (hne r hr hrQ)]
      · dsimp only
        rw [List.length_set]
        exact hi.lt r hr
    · intro q' hq' r hr hrQ
      rw [hpp]
      rw [List.mem_toFinset, inv_same hi hq] at hq'
      rw [hq'.2]
      exact hne r hr hrQ
  refine ⟨repl_inv hi hQ hr ?_, rfl, ?_, by simp, ?_⟩
  · intro q' hq'
    rw [List.mem_toFinset, inv_same hi hq] at hq'
    rw [hpp, hq'.2, hg, if_pos rfl]
    refine ⟨by dsimp only; rw [List.length_set]; exact hlt, ?_, ?_, hok, ?_⟩
    · rw [hp.mem_iff, inv_same hi hq]
      exact hq'
    · intro r hr
      rw [hp.mem_iff] at hr
      refine ⟨List.mem_toFinset.2 hr, ?_⟩
      rw [hpp]
      exact (hi.back q hq r hr).2
    · rw [norm_congr (hi.ok q hq) hok hp ha]
      exact hi.norm q hq
  · intro b
    unfold psi part
    apply Finset.prod_congr rfl
    intro i _
    rw [hg]
    split
    · rename_i e
      rw [ha, e]
    · rfl
  · intro i _
    rw [hg]
    split
    · rename_i e
      rw [← e]
      exact hp
    · exact List.Perm.refl _

/-- **disentangling a qubit does not change the state** -/
theorem disentangle_ok {E : Env K} (hr : Root E.root) {s : State K} (hi : Inv s) {q : Nat} (hq : q < s.n) : Kept s (disentangle E s q) := by
  have hd := disentangleTF_ok hr (E.own (s.g (s.p q)) q) (hi.ok q hq) (hi.mem q hq) (hi.norm q hq)
  unfold disentangle
  dsimp only
  cases hc : disentangleTF E.root (E.own (s.g (s.p q)) q) (s.g (s.p q)) q with
  | same t =>
    rw [hc] at hd
    obtain ⟨d1, ⟨R, d2⟩, d3, d4, d5⟩ := hd
    dsimp only
    have e : (redirect s.ptr t.qubits (s.p q)).set (t.qubits.getD 0 0) (s.p q) = s.ptr := by
      apply List.ext_getElem
      · rw [List.length_set, redirect_length]
      · intro r h1 h2
        have g1 : ((redirect s.ptr t.qubits (s.p q)).set (t.qubits.getD 0 0) (s.p q)).getD r 0 = s.ptr.getD r 0 := by
          rw [getD_set _ _ _ _ (by rw [redirect_length]; exact h2), redirect_get _ _ _ _ h2]
          have hmem : r ∈ t.qubits → s.p q = s.ptr.getD r 0 := by
            intro hm
            exact (hi.back q hq r (d3.mem_iff.1 hm)).2.symm
          by_cases h3 : t.qubits.getD 0 0 = r
          · rw [if_pos h3]
            apply hmem
            rw [← h3, d2]
            simp
          · rw [if_neg h3]
            split
            · exact hmem ‹_›
            · rfl
        rw [List.getD_eq_getElem _ _ h1, List.getD_eq_getElem _ _ h2] at g1
        exact g1
    rw [e]
    exact kept_set hi hq d1 d3 d5
  | parts t d r =>
    have hlen := parts_length hc
    rw [hc] at hd
    obtain ⟨-, d3, d4, d5, d6, d7, d8, d9, d10⟩ := hd
    dsimp only
    have hlt := hi.lt q hq
    have hQ := closed_obj hi hq
    set s' : State K := ⟨(redirect s.ptr t.qubits (s.heap.length + 1)).set (t.qubits.getD 0 0) s.heap.length, s.heap.set (s.p q) t ++ [d, r]⟩ with hs'
    have hqr : q ∉ r.qubits := by
      have := d3.nodup_iff.2 (hi.ok q hq).nodup
      rw [d7] at this
      exact (List.nodup_cons.1 this).1
    have h0 : t.qubits.getD 0 0 = q := by rw [d7]; rfl
    have hp' : ∀ x < s.n, s'.p x = if x = q then s.heap.length else if x ∈ r.qubits then s.heap.length + 1 else s.p x := by
      intro x hx
      show ((redirect s.ptr t.qubits (s.heap.length + 1)).set (t.qubits.getD 0 0) s.heap.length).getD x 0 = _
      rw [getD_set _ _ _ _ (by rw [redirect_length]; exact hx), redirect_get _ _ _ _ hx, h0, d7]
      by_cases e : x = q
      · rw [if_pos e.symm, if_pos e]
      · rw [if_neg (Ne.symm e), if_neg e]
        simp only [List.mem_cons, e, false_or]
        rfl
    have hlen' : s'.heap.length = s.heap.length + 2 := by simp [hs']
    have hgd : s'.g s.heap.length = d := by simp [hs', State.g]
    have hgr : s'.g (s.heap.length + 1) = r := by simp [hs', State.g]
    have hgo : ∀ i < s.heap.length, s'.g i = if s.p q = i then t else s.g i := by
      intro i hil
      have h1 : s'.g i = (s.heap.set (s.p q) t).getD i (zeroTF 0) := by
        simp only [hs', State.g, List.getD_eq_getElem?_getD]
        rw [List.getElem?_append_left (by rw [List.length_set]; exact hil)]
      rw [h1]
      exact heap_set _ _ _ _ hlt
    have hmemQ : ∀ x, x ∈ (s.g (s.p q)).qubits.toFinset ↔ x = q ∨ x ∈ r.qubits := by
      intro x
      rw [List.mem_toFinset, ← d3.mem_iff, d7, List.mem_cons]
    have hrep : Repl s s' (s.g (s.p q)).qubits.toFinset := by
      refine ⟨?_, ?_, ?_⟩
      · simp [hs', State.n, redirect_length]
      · intro x hx hxQ
        have hne : s.p q ≠ s.p x := by
          intro e
          rw [List.mem_toFinset, inv_same hi hq] at hxQ
          exact hxQ ⟨hx, e.symm⟩
        rw [hmemQ, not_or] at hxQ
        refine ⟨by rw [hp' x hx, if_neg hxQ.1, if_neg hxQ.2], ?_, ?_⟩
        · rw [hgo _ (hi.lt x hx), if_neg hne]
        · have := hi.lt x hx
          omega
      · intro x hx y hy _
        have hxn := hQ.sub x hx
        have := hi.lt y hy
        rw [hmemQ] at hx
        rw [hp' x hxn]
        rcases hx with hx | hx
        · rw [if_pos hx]; omega
        · rw [if_neg (ne_of_mem_of_not_mem hx hqr), if_pos hx]; omega
    refine ⟨repl_inv hi hQ hrep ?_, hrep.n, ?_, by omega, ?_⟩
    · intro x hx
      have hxn := hQ.sub x hx
      rw [hmemQ] at hx
      rcases hx with hx | hx
      · subst hx
        rw [hp' x hxn, if_pos rfl, hgd, d6]
        refine ⟨by omega, by simp, ?_, d4, d8⟩
        intro y hy
        rw [List.mem_singleton] at hy
        subst hy
        exact ⟨(hmemQ y).2 (Or.inl rfl), by rw [hp' y hxn, if_pos rfl]⟩
      · have hxq : x ≠ q := ne_of_mem_of_not_mem hx hqr
        rw [hp' x hxn, if_neg hxq, if_pos hx, hgr]
        refine ⟨by omega, hx, ?_, d5, d9⟩
        intro y hy
        have hyQ := (hmemQ y).2 (Or.inr hy)
        refine ⟨hyQ, ?_⟩
        rw [hp' y (hQ.sub y hyQ), if_neg (ne_of_mem_of_not_mem hy hqr), if_pos hy]
    · intro b
      rw [repl_psi hQ hrep, psi_split hQ]
      congr 1
      have i1 : (s.g (s.p q)).qubits.toFinset.image s.p = {s.p q} := by
        apply Finset.eq_singleton_iff_unique_mem.2
        constructor
        · exact Finset.mem_image.2 ⟨q, (hmemQ q).2 (Or.inl rfl), rfl⟩
        · intro i hi'
          obtain ⟨x, hx, rfl⟩ := Finset.mem_image.1 hi'
          exact (hi.back q hq x (List.mem_toFinset.1 hx)).2
      have i2 : (s.g (s.p q)).qubits.toFinset.image s'.p = {s.heap.length, s.heap.length + 1} := by
        ext i
        rw [Finset.mem_image, Finset.mem_insert, Finset.mem_singleton]
        constructor
        · rintro ⟨x, hx, rfl⟩
          have hxn := hQ.sub x hx
          rw [hmemQ] at hx
          rw [hp' x hxn]
          rcases hx with hx | hx
          · rw [if_pos hx]; exact Or.inl rfl
          · rw [if_neg (ne_of_mem_of_not_mem hx hqr), if_pos hx]; exact Or.inr rfl
        · rintro (rfl | rfl)
          · exact ⟨q, (hmemQ q).2 (Or.inl rfl), by rw [hp' q hq, if_pos rfl]⟩
          · have hne : r.qubits ≠ [] := by
              intro e
              have := d3.length_eq
              rw [d7, e] at this
              exact hlen this.symm
            obtain ⟨x, hx⟩ := List.exists_mem_of_ne_nil _ hne
            have hxQ := (hmemQ x).2 (Or.inr hx)
            refine ⟨x, hxQ, ?_⟩
            rw [hp' x (hQ.sub x hxQ), if_neg (ne_of_mem_of_not_mem hx hqr), if_pos hx]
      unfold part
      rw [i1, i2, Finset.prod_singleton, Finset.prod_pair (by omega), hgd, hgr, d10]
    · intro i hil
      rw [hgo i hil]
      split
      · rename_i e
        rw [← e]
        exact d3
      · exact List.Perm.refl _

theorem disentangle_list {E : Env K} (hr : Root E.root) (l : List Nat) {s : State K} (hi : Inv s) (hl : ∀ q ∈ l, q < s.n) :
    Kept s (l.foldl (disentangle E) s) := by
  induction l generalizing s with
  | nil => exact Kept.refl hi
  | cons q l ih =>
    have h1 := disentangle_ok hr hi (hl q (by simp))
    exact h1.trans (ih h1.inv fun r hr' => by rw [h1.n]; exact hl r (by simp [hr']))

theorem disAll_ok {E : Env K} (hr : Root E.root) {s : State K} (hi : Inv s) {i : Nat} (hil : i < s.heap.length)
    (hq : ∀ q ∈ (s.g i).qubits, q < s.n) : Kept s (disAll E s i) := by
  unfold disAll
  have aux : ∀ (l : List Nat) (s' : State K), (∀ k ∈ l, k < (s.g i).qubits.length) → Kept s s' →
      Kept s (l.foldl (fun s k => disentangle E s ((s.g i).qubits.getD k 0)) s') := by
    intro l
    induction l with
    | nil => intro s' _ h; exact h
    | cons k l ih =>
      intro s' hk h
      apply ih _ (fun k' hk' => hk k' (by simp [hk']))
      refine h.trans (disentangle_ok hr h.inv ?_)
      have hp := h.qubits i hil
      have hkl : k < (s'.g i).qubits.length := by rw [hp.length_eq]; exact hk k (by simp)
      rw [h.n, List.getD_eq_getElem _ _ hkl]
      exact hq _ (hp.mem_iff.1 (List.getElem_mem hkl))
  exact aux _ s (fun k hk => List.mem_range.1 hk) (Kept.refl hi)

theorem disAll_list {E : Env K} (hr : Root E.root) (l : List Nat) {s0 s : State K} (h : Kept s0 s) (hi0 : Inv s0)
    (hl : ∀ i ∈ l, ∃ q < s0.n, s0.p q = i) : Kept s0 (l.foldl (disAll E) s) := by
  induction l generalizing s with
  | nil => exact h
  | cons i l ih =>
    obtain ⟨q, hq, rfl⟩ := hl i (by simp)
    have hlt := hi0.lt q hq
    refine ih (h.trans (disAll_ok hr h.inv (lt_of_lt_of_le hlt h.len) ?_)) (fun i hi => hl i (by simp [hi]))
    intro r hr'
    rw [h.n]
    exact (hi0.back q hq r ((h.qubits _ hlt).mem_iff.1 hr')).1

end Verif.Tens
