import Mathlib.Data.List.Sort
import Mathlib.Data.List.Nodup
import Mathlib.Logic.Function.Basic

/-
Conversion of circuits to Stim (`interface/converter/stim_converter.py`) and the counts of the Stim backend
(`interface/simulators/stim_backend.py`).

The circuit is already transpiled.  Gates are named by numbers that stand for an entry of the two name tables
(lines 141–166); that each entry names the same gate on both sides is taken for granted.  Measurement, reset and
classically controlled operations act on one qubit.  Noise gates are not modelled.  The quantum state and the effect
of gates, resets and measurements on it are arbitrary.
-/
namespace Verif.Iface.Stim

/-- Instructions of a circuit. `cif s c p q`: operation on `q` if the bit `c` is `s`; `p = none` is a base operation
other than X, Y, Z. `parity cs e o`: parity of the bits `cs` with expectation `e`, an observable if `o`. `bad` is a gate
that is in no table. -/
inductive Ins
  | skip
  | g1 (g q : Nat)
  | g2 (g q r : Nat)
  | meas (q c : Nat)
  | reset (q : Nat)
  | barrier
  | cif (s : Bool) (c : Nat) (p : Option (Fin 3)) (q : Nat)
  | parity (cs : List Nat) (e : Bool) (o : Bool)
  | bad

/-- Instructions of Stim: `fb` is `CX`/`CY`/`CZ` with a record target. -/
inductive Op
  | g1 (g q : Nat)
  | g2 (g q r : Nat)
  | m (q : Nat)
  | r (q : Nat)
  | tick
  | fb (p : Fin 3) (rec : Int) (q : Nat)
  | detector (t : List Int)
  | observable (i : Nat) (t : List Int)
deriving DecidableEq

/-- The dictionaries and counters of `qrisp_to_stim` (lines 119–137). `det` holds the entries of `detector_map` in the
order in which they are set; the key of an entry is the list of bits with the expectation. -/
structure Conv where
  ops : List Op
  map : Nat → Option Nat
  cnt : Nat
  obsN : Nat
  detN : Nat
  det : List ((List Nat × Bool) × Nat)

/-- The state before the first instruction. -/
def Conv.init : Conv := ⟨[], fun _ => none, 0, 0, 0, []⟩

/-- `symmetric_difference_update` with one element (line 252), on a list without repetitions. -/
def toggle (s : List Nat) (i : Nat) : List Nat := if i ∈ s then s.erase i else s ++ [i]

/-- The set of measurements of a parity (lines 247–262); `none` is the exception for an unknown bit. The second branch
of the loop looks up a `Clbit` among keys that are tuples and never applies. -/
def components (map : Nat → Option Nat) : List Nat → List Nat → Option (List Nat)
  | [], s => some s
  | c :: cs, s => match map c with
    | none => none
    | some i => components map cs (toggle s i)

/-- One pass of the loop over the instructions (lines 169–367). `none` is an exception. -/
def step (v : Conv) : Ins → Option Conv
  | .skip => some v
  | .g1 g q => some { v with ops := v.ops ++ [.g1 g q] }
  | .g2 g q r => some { v with ops := v.ops ++ [.g2 g q r] }
  | .meas q c => some { v with ops := v.ops ++ [.m q], map := Function.update v.map c (some v.cnt), cnt := v.cnt + 1 }
  | .reset q => some { v with ops := v.ops ++ [.r q] }
  | .barrier => some { v with ops := v.ops ++ [.tick] }
  | .cif _ c p q =>
    match v.map c, p with
    | some i, some p => some { v with ops := v.ops ++ [.fb p ((i : Int) - v.cnt) q] }
    | _, _ => none
  | .parity cs e o =>
    match components v.map cs [] with
    | none => none
    | some s =>
      let t := (s.insertionSort (· ≤ ·)).map fun i : Nat => (i : Int) - v.cnt
      if o then
        some { v with obsN := v.obsN + 1, ops := if t.isEmpty then v.ops else v.ops ++ [.observable v.obsN t] }
      else
        some { v with
          det := v.det ++ [((cs, e), v.detN)]
          ops := if t.isEmpty then v.ops else v.ops ++ [.detector t]
          detN := v.detN + 1 }
  | .bad => none

/-- `qrisp_to_stim`. -/
def convert : List Ins → Conv → Option Conv
  | [], v => some v
  | i :: is, v => match step v i with
    | none => none
    | some v' => convert is v'

/-- `detector_map[handle]`: the last entry whose key is equal, which means the same set of bits and the same
expectation (`qc_extraction_interpreter.py`, `ParityHandle.__eq__`). -/
def detLookup (d : List ((List Nat × Bool) × Nat)) (cs : List Nat) (e : Bool) : Option Nat :=
  (d.reverse.find? fun x => x.1.2 == e && x.1.1.all (cs.contains ·) && cs.all (x.1.1.contains ·)).map (·.2)

/-- The counts of one shot (`stim_backend.py` lines 29–52): bits that were never measured get a column of zeros; the bit
string has the last bit first. -/
def bitstring (n : Nat) (map : Nat → Option Nat) (rec : List Bool) : List Bool :=
  ((List.range n).map fun c => match map c with
    | some i => rec.getD i false
    | none => false).reverse

/-! ### Meaning of both kinds of circuits -/

/-- What gates, resets and measurements do to the quantum state. `out n q s`: result of the `n`-th measurement, of qubit
`q` in state `s`. -/
structure Sem (Q : Type) where
  g1 : Nat → Nat → Q → Q
  g2 : Nat → Nat → Nat → Q → Q
  pauli : Fin 3 → Nat → Q → Q
  reset : Nat → Q → Q
  out : Nat → Nat → Q → Bool
  collapse : Nat → Bool → Q → Q

/-- State of a circuit: quantum state, bits, number of measurements, parities so far. -/
structure QSt (Q : Type) where
  q : Q
  bit : Nat → Bool
  n : Nat
  dets : List Bool
  obs : List Bool

/-- Parity of a list of Booleans. -/
def par (l : List Bool) : Bool := l.foldr xor false

/-- One instruction of a circuit. -/
def qStep {Q : Type} (S : Sem Q) (a : QSt Q) : Ins → QSt Q
  | .skip => a
  | .g1 g q => { a with q := S.g1 g q a.q }
  | .g2 g q r => { a with q := S.g2 g q r a.q }
  | .meas q c =>
    let b := S.out a.n q a.q
    { a with q := S.collapse q b a.q, bit := Function.update a.bit c b, n := a.n + 1 }
  | .reset q => { a with q := S.reset q a.q }
  | .barrier => a
  | .cif s c p q => match p with
    | some p => if a.bit c == s then { a with q := S.pauli p q a.q } else a
    | none => a
  | .parity cs _ o =>
    if o then { a with obs := a.obs ++ [par (cs.map a.bit)] } else { a with dets := a.dets ++ [par (cs.map a.bit)] }
  | .bad => a

/-- State of a Stim circuit: quantum state, measurement record, detectors, observables. -/
structure SSt (Q : Type) where
  q : Q
  rcd : List Bool
  dets : List Bool
  obs : Nat → Bool

/-- The entry `rec[k]` for `k < 0`. -/
def recGet (rec : List Bool) (k : Int) : Bool := rec.getD ((rec.length : Int) + k).toNat false

/-- One instruction of Stim. -/
def sStep {Q : Type} (S : Sem Q) (a : SSt Q) : Op → SSt Q
  | .g1 g q => { a with q := S.g1 g q a.q }
  | .g2 g q r => { a with q := S.g2 g q r a.q }
  | .m q =>
    let b := S.out a.rcd.length q a.q
    { a with q := S.collapse q b a.q, rcd := a.rcd ++ [b] }
  | .r q => { a with q := S.reset q a.q }
  | .tick => a
  | .fb p k q => if recGet a.rcd k then { a with q := S.pauli p q a.q } else a
  | .detector t => { a with dets := a.dets ++ [par (t.map (recGet a.rcd))] }
  | .observable i t => { a with obs := Function.update a.obs i (xor (a.obs i) (par (t.map (recGet a.rcd)))) }

/-- A circuit on the state `s`, all bits 0. -/
def qRun {Q : Type} (S : Sem Q) (s : Q) (is : List Ins) : QSt Q := is.foldl (qStep S) ⟨s, fun _ => false, 0, [], []⟩

/-- A Stim circuit on the state `s`. -/
def sRun {Q : Type} (S : Sem Q) (s : Q) (ops : List Op) : SSt Q := ops.foldl (sStep S) ⟨s, [], [], fun _ => false⟩

/-! ### Lemmas -/

theorem par_cons (b : Bool) (l : List Bool) : par (b :: l) = xor b (par l) := rfl

theorem par_append (l r : List Bool) : par (l ++ r) = xor (par l) (par r) := by
  induction l with
  | nil => simp [par]
  | cons b l ih => rw [List.cons_append, par_cons, par_cons, ih, Bool.xor_assoc]

theorem par_perm {l r : List Bool} (h : l.Perm r) : par l = par r := by
  induction h with
  | nil => rfl
  | cons b _ ih => rw [par_cons, par_cons, ih]
  | swap a b l => simp only [par_cons]; cases a <;> cases b <;> simp
  | trans _ _ h1 h2 => exact h1.trans h2

theorem par_toggle (f : Nat → Bool) (s : List Nat) (i : Nat) :
    par ((toggle s i).map f) = xor (par (s.map f)) (f i) := by
  rw [toggle]
  split
  · rename_i h
    have := par_perm ((List.perm_cons_erase h).map f)
    rw [List.map_cons, par_cons] at this
    rw [this]
    cases f i <;> cases par ((s.erase i).map f) <;> rfl
  · rw [List.map_append, par_append]
    simp [par]

theorem components_par (map : Nat → Option Nat) (f : Nat → Bool) (bit : Nat → Bool) :
    ∀ (cs s r : List Nat), components map cs s = some r → (∀ c i, map c = some i → f i = bit c) →
      par (r.map f) = xor (par (s.map f)) (par (cs.map bit))
  | [], s, r, h, _ => by
    simp only [components, Option.some.injEq] at h
    subst h
    simp [par]
  | c :: cs, s, r, h, hf => by
    rw [components] at h
    split at h
    · simp at h
    · rename_i i hi
      rw [components_par map f bit cs _ r h hf, par_toggle, hf c i hi, List.map_cons, par_cons, Bool.xor_assoc]

theorem components_lt (map : Nat → Option Nat) (n : Nat) (hm : ∀ c i, map c = some i → i < n) :
    ∀ (cs s r : List Nat), components map cs s = some r → (∀ i ∈ s, i < n) → ∀ i ∈ r, i < n
  | [], s, r, h, hs => by
    simp only [components, Option.some.injEq] at h
    exact h ▸ hs
  | c :: cs, s, r, h, hs => by
    rw [components] at h
    split at h
    · simp at h
    · rename_i i hi
      apply components_lt map n hm cs _ r h
      intro j hj
      rw [toggle] at hj
      split at hj
      · exact hs j (List.mem_of_mem_erase hj)
      · rcases List.mem_append.1 hj with h | h
        · exact hs j h
        · rw [List.mem_singleton] at h
          exact h ▸ hm c i hi

theorem components_nodup (map : Nat → Option Nat) (hinj : ∀ c c' i, map c = some i → map c' = some i → c = c') :
    ∀ (cs s r : List Nat), components map cs s = some r → cs.Nodup → (∀ c ∈ cs, ∀ i ∈ s, map c ≠ some i) →
      r.length = s.length + cs.length
  | [], s, r, h, _, _ => by
    simp only [components, Option.some.injEq] at h
    simp [h]
  | c :: cs, s, r, h, hn, hs => by
    rw [components] at h
    split at h
    · simp at h
    · rename_i i hi
      have hi' : i ∉ s := fun hm => hs c (List.mem_cons_self) i hm hi
      rw [toggle, if_neg hi'] at h
      rw [components_nodup map hinj cs _ r h (List.nodup_cons.1 hn).2]
      · simp; omega
      · intro c' hc' j hj e
        rcases List.mem_append.1 hj with h | h
        · exact hs c' (List.mem_cons_of_mem _ hc') j h e
        · rw [List.mem_singleton] at h
          subst h
          exact (List.nodup_cons.1 hn).1 (hinj c c' j hi e ▸ hc')

/-- A conversion that has gone this far: the Stim circuit and the original are in corresponding states. `D`: detectors
so far had distinct bits. -/
structure Inv {Q : Type} (S : Sem Q) (s : Q) (D : Prop) (v : Conv) (a : QSt Q) : Prop where
  q : (sRun S s v.ops).q = a.q
  len : (sRun S s v.ops).rcd.length = v.cnt
  n : a.n = v.cnt
  lt : ∀ c i, v.map c = some i → i < v.cnt
  bit : ∀ c i, v.map c = some i → (sRun S s v.ops).rcd.getD i false = a.bit c
  zero : ∀ c, v.map c = none → a.bit c = false
  inj : ∀ c c' i, v.map c = some i → v.map c' = some i → c = c'
  obsN : v.obsN = a.obs.length
  obs : ∀ i, (sRun S s v.ops).obs i = a.obs.getD i false
  det : D → (sRun S s v.ops).dets = a.dets ∧ v.detN = a.dets.length ∧
    v.det.map (·.2) = List.range a.dets.length

/-- The restriction on classical control: only control on 1. -/
def ctrlOne : Ins → Prop
  | .cif s _ _ _ => s = true
  | _ => True

/-- The restriction on detectors: at least one bit, no repetition. -/
def detProper : Ins → Prop
  | .parity cs _ o => o = true ∨ (cs ≠ [] ∧ cs.Nodup)
  | _ => True

theorem sRun_snoc {Q : Type} (S : Sem Q) (s : Q) (ops : List Op) (o : Op) :
    sRun S s (ops ++ [o]) = sStep S (sRun S s ops) o := by
  rw [sRun, List.foldl_append]; rfl

theorem recGet_eq (rec : List Bool) (i n : Nat) (h : rec.length = n) :
    recGet rec ((i : Int) - n) = rec.getD i false := by
  rw [recGet, h]; congr 1; omega

theorem targets_par (rec : List Bool) (n : Nat) (h : rec.length = n) (r : List Nat) :
    par (((r.insertionSort (· ≤ ·)).map fun i : Nat => (i : Int) - n).map (recGet rec)) =
      par (r.map fun i => rec.getD i false) := by
  rw [List.map_map]
  have : (recGet rec ∘ fun i : Nat => (i : Int) - n) = fun i => rec.getD i false := by
    funext i; exact recGet_eq rec i n h
  rw [this]
  exact par_perm ((List.perm_insertionSort _ r).map _)

theorem inv_init {Q : Type} (S : Sem Q) (s : Q) (D : Prop) : Inv S s D Conv.init ⟨s, fun _ => false, 0, [], []⟩ where
  q := rfl
  len := rfl
  n := rfl
  lt := by simp [Conv.init]
  bit := by simp [Conv.init]
  zero := by simp
  inj := by simp [Conv.init]
  obsN := rfl
  obs := by simp [Conv.init, sRun]
  det := fun _ => ⟨rfl, rfl, rfl⟩

/-- An instruction that only changes the quantum state, in the same way on both sides. -/
theorem inv_quantum {Q : Type} {S : Sem Q} {s : Q} {D : Prop} {v : Conv} {a : QSt Q} (h : Inv S s D v a) (o : Op) (f : Q → Q)
    (ho : sStep S (sRun S s v.ops) o = { sRun S s v.ops with q := f (sRun S s v.ops).q }) :
    Inv S s D { v with ops := v.ops ++ [o] } { a with q := f a.q } where
  q := by simp only; rw [sRun_snoc, ho, h.q]
  len := by simp only; rw [sRun_snoc, ho]; exact h.len
  n := h.n
  lt := h.lt
  bit := by simp only; rw [sRun_snoc, ho]; exact h.bit
  zero := h.zero
  inj := h.inj
  obsN := h.obsN
  obs := by simp only; rw [sRun_snoc, ho]; exact h.obs
  det := by simp only; rw [sRun_snoc, ho]; exact h.det

theorem inv_step {Q : Type} {S : Sem Q} {s : Q} {D : Prop} {v v' : Conv} {a : QSt Q} (h : Inv S s D v a) (i : Ins)
    (hs : step v i = some v') (hc : ctrlOne i) (hd : D → detProper i) : Inv S s D v' (qStep S a i) := by
  cases i with
  | skip => simp only [step, Option.some.injEq] at hs; subst hs; exact h
  | bad => simp [step] at hs
  | g1 g q => simp only [step, Option.some.injEq] at hs; subst hs; exact inv_quantum h _ (S.g1 g q) rfl
  | g2 g q r => simp only [step, Option.some.injEq] at hs; subst hs; exact inv_quantum h _ (S.g2 g q r) rfl
  | reset q => simp only [step, Option.some.injEq] at hs; subst hs; exact inv_quantum h _ (S.reset q) rfl
  | barrier => simp only [step, Option.some.injEq] at hs; subst hs; exact inv_quantum h _ id rfl
  | meas q c =>
    simp only [step, Option.some.injEq] at hs
    subst hs
    have e : sStep S (sRun S s v.ops) (.m q) = { sRun S s v.ops with
        q := S.collapse q (S.out v.cnt q a.q) a.q, rcd := (sRun S s v.ops).rcd ++ [S.out v.cnt q a.q] } := by
      simp only [sStep, h.len, h.q]
    refine ⟨?_, ?_, ?_, ?_, ?_, ?_, ?_, ?_, ?_, ?_⟩
    · simp only [qStep]; rw [sRun_snoc, e, h.n]
    · simp only; rw [sRun_snoc, e]; simp [h.len]
    · simp only [qStep, h.n]
    · intro d i hi
      simp only at hi ⊢
      by_cases hdc : d = c
      · subst hdc; rw [Function.update_self] at hi; simp at hi; omega
      · rw [Function.update_of_ne hdc] at hi
        have := h.lt d i hi
        omega
    · intro d i hi
      simp only [qStep] at hi ⊢
      rw [sRun_snoc, e]
      by_cases hdc : d = c
      · subst hdc
        rw [Function.update_self] at hi ⊢
        simp only [Option.some.injEq] at hi
        subst hi
        have := h.len
        rw [List.getD_eq_getElem?_getD, List.getElem?_append_right (by omega), this, h.n]
        simp
      · rw [Function.update_of_ne hdc] at hi ⊢
        have h1 := h.lt d i hi
        have h2 := h.len
        rw [← h.bit d i hi, List.getD_eq_getElem?_getD, List.getElem?_append_left (by omega), List.getD_eq_getElem?_getD]
    · intro d hi
      simp only [qStep] at hi ⊢
      by_cases hdc : d = c
      · subst hdc; rw [Function.update_self] at hi; simp at hi
      · rw [Function.update_of_ne hdc] at hi ⊢
        exact h.zero d hi
    · intro d d' i h1 h2
      simp only at h1 h2
      by_cases hdc : d = c
      · by_cases hdc' : d' = c
        · rw [hdc, hdc']
        · subst hdc
          rw [Function.update_self] at h1
          rw [Function.update_of_ne hdc'] at h2
          have := h.lt d' i h2
          simp at h1
          omega
      · by_cases hdc' : d' = c
        · subst hdc'
          rw [Function.update_self] at h2
          rw [Function.update_of_ne hdc] at h1
          have := h.lt d i h1
          simp at h2
          omega
        · rw [Function.update_of_ne hdc] at h1
          rw [Function.update_of_ne hdc'] at h2
          exact h.inj d d' i h1 h2
    · exact h.obsN
    · simp only; rw [sRun_snoc, e]; exact h.obs
    · simp only; rw [sRun_snoc, e]; exact h.det
  | cif t c p q =>
    simp only [ctrlOne] at hc
    subst hc
    simp only [step] at hs
    split at hs
    · rename_i i p' hi
      simp only [Option.some.injEq] at hs
      subst hs
      have e : recGet (sRun S s v.ops).rcd ((i : Int) - v.cnt) = a.bit c := by
        rw [recGet_eq _ _ _ h.len, h.bit c i hi]
      cases hb : a.bit c with
      | true =>
        have := inv_quantum h (.fb p' ((i : Int) - v.cnt) q) (S.pauli p' q) (by simp [sStep, e, hb])
        simpa [qStep, hb] using this
      | false =>
        have := inv_quantum h (.fb p' ((i : Int) - v.cnt) q) id (by simp [sStep, e, hb])
        simpa [qStep, hb] using this
    · simp at hs
  | parity cs e o =>
    simp only [step] at hs
    split at hs
    · simp at hs
    · rename_i r hr
      have hpar : par (((r.insertionSort (· ≤ ·)).map fun i : Nat => (i : Int) - v.cnt).map (recGet (sRun S s v.ops).rcd)) =
          par (cs.map a.bit) := by
        rw [targets_par _ _ h.len, components_par v.map _ a.bit cs [] r hr h.bit]
        simp [par]
      cases o with
      | true =>
        simp only [if_true, Option.some.injEq] at hs
        subst hs
        simp only [qStep, if_true]
        have hobs : ∀ i, (a.obs ++ [par (cs.map a.bit)]).getD i false =
            if i = v.obsN then par (cs.map a.bit) else a.obs.getD i false := by
          intro i
          rw [h.obsN, List.getD_eq_getElem?_getD, List.getD_eq_getElem?_getD]
          split
          · rename_i hi
            subst hi
            rw [List.getElem?_append_right (by omega)]
            simp
          · by_cases hlt : i < a.obs.length
            · rw [List.getElem?_append_left hlt]
            · rw [List.getElem?_eq_none (by simp; omega), List.getElem?_eq_none (by omega)]
        have hnew : (sRun S s v.ops).obs v.obsN = false := by
          rw [h.obs, h.obsN, List.getD_eq_getElem?_getD, List.getElem?_eq_none (by omega)]; rfl
        by_cases ht : ((r.insertionSort (· ≤ ·)).map fun i : Nat => (i : Int) - v.cnt).isEmpty = true
        · rw [if_pos ht]
          have hp : par (cs.map a.bit) = false := by
            rw [← hpar, List.isEmpty_iff.1 ht]; rfl
          refine ⟨h.q, h.len, h.n, h.lt, h.bit, h.zero, h.inj, ?_, ?_, h.det⟩
          · simp [h.obsN]
          · intro i
            simp only
            rw [hobs, h.obs]
            split
            · rename_i hi; rw [hi, ← h.obs, hnew, hp]
            · rfl
        · rw [if_neg ht]
          refine ⟨?_, ?_, h.n, h.lt, ?_, h.zero, h.inj, ?_, ?_, ?_⟩
          · simp only; rw [sRun_snoc]; exact h.q
          · simp only; rw [sRun_snoc]; exact h.len
          · simp only; rw [sRun_snoc]; exact h.bit
          · simp [h.obsN]
          · intro i
            simp only
            rw [sRun_snoc, hobs]
            simp only [sStep]
            rw [hpar, hnew]
            by_cases hi : i = v.obsN
            · subst hi; simp
            · rw [Function.update_of_ne hi, if_neg hi, h.obs]
          · simp only; rw [sRun_snoc]; exact h.det
      | false =>
        simp only [Bool.false_eq_true, if_false, Option.some.injEq] at hs
        subst hs
        simp only [qStep, Bool.false_eq_true, if_false]
        by_cases ht : ((r.insertionSort (· ≤ ·)).map fun i : Nat => (i : Int) - v.cnt).isEmpty = true
        · rw [if_pos ht]
          refine ⟨h.q, h.len, h.n, h.lt, h.bit, h.zero, h.inj, h.obsN, h.obs, ?_⟩
          intro hD
          exfalso
          have hp := hd hD
          simp only [detProper, Bool.false_eq_true, false_or] at hp
          have hl := components_nodup v.map h.inj cs [] r hr hp.2 (by simp)
          have h0 : 0 < cs.length := List.length_pos_iff.2 hp.1
          rw [List.isEmpty_iff, List.map_eq_nil_iff] at ht
          have := (List.perm_insertionSort (· ≤ ·) r).length_eq
          rw [ht] at this
          simp at this hl
          omega
        · rw [if_neg ht]
          refine ⟨?_, ?_, h.n, h.lt, ?_, h.zero, h.inj, h.obsN, ?_, ?_⟩
          · simp only; rw [sRun_snoc]; exact h.q
          · simp only; rw [sRun_snoc]; exact h.len
          · simp only; rw [sRun_snoc]; exact h.bit
          · simp only; rw [sRun_snoc]; exact h.obs
          · intro hD
            obtain ⟨d1, d2, d3⟩ := h.det hD
            simp only
            rw [sRun_snoc]
            simp only [sStep]
            rw [hpar, d1]
            refine ⟨rfl, by simp [d2], ?_⟩
            rw [List.map_append, d3, List.length_append, List.length_singleton, List.range_succ, d2]
            rfl

theorem inv_convert {Q : Type} {S : Sem Q} {s : Q} {D : Prop} : ∀ (is : List Ins) (v v' : Conv) (a : QSt Q), Inv S s D v a →
    convert is v = some v' → (∀ i ∈ is, ctrlOne i) → (D → ∀ i ∈ is, detProper i) → Inv S s D v' (is.foldl (qStep S) a)
  | [], v, v', a, h, hc, _, _ => by
    simp only [convert, Option.some.injEq] at hc
    exact hc ▸ h
  | i :: is, v, v', a, h, hc, h1, h2 => by
    rw [convert] at hc
    split at hc
    · simp at hc
    · rename_i w hw
      exact inv_convert is w v' _ (inv_step h i hw (h1 i List.mem_cons_self) (fun hD => h2 hD i List.mem_cons_self)) hc
        (fun i hi => h1 i (List.mem_cons_of_mem _ hi)) (fun hD i hi => h2 hD i (List.mem_cons_of_mem _ hi))

end Verif.Iface.Stim
