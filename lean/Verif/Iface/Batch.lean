import Mathlib.Data.List.Basic
import Mathlib.Data.List.Nodup
import Mathlib.Tactic.Linarith

/-!
Batched backend (src/qrisp/interface/batched_backend.py) and result placeholders
(src/qrisp/interface/measurement_result.py).

`C` circuits, `K` count dictionaries, `E` exceptions. Placeholder objects are positions of a heap
`cells` in creation order. The wrapped backend is an arbitrary function of the job number, the
circuits and the shots argument.
-/

namespace Verif.Iface

/-- `MeasurementResult` (measurement_result.py lines 65-67, 204-206): `_populated` is `data ≠ none`. -/
structure Cell (K E : Type) where
  data : Option K
  err : Option E

/-- `MeasurementResult()` (lines 204-206). -/
def Cell.new {K E : Type} : Cell K E := ⟨none, none⟩

/-- `_inject` (lines 233-234). -/
def Cell.inject {K E : Type} (k : K) (c : Cell K E) : Cell K E := ⟨some k, c.err⟩

/-- `_inject_error` guarded by `not r._populated` (measurement_result.py line 250,
batched_backend.py lines 284-285). -/
def Cell.fail {K E : Type} (e : E) (c : Cell K E) : Cell K E :=
  if c.data.isNone then ⟨none, some e⟩ else c

/-- Outcome of reading a placeholder. -/
inductive Read (K E : Type) where
  | value (k : K)
  | raises (e : E)
  | notPopulated

/-- Access to a placeholder (`_ensure_populated`, `_populate`, lines 69-78, 208-218). -/
def Cell.read {K E : Type} (c : Cell K E) : Read K E :=
  match c.data with
  | some k => .value k
  | none => match c.err with
    | some e => .raises e
    | none => .notPopulated

/-- The `shots` argument of `run_async`. -/
inductive Shots where
  | one (s : Option Nat)
  | many (l : List (Option Nat))

/-- The shots meant for the circuit at position `i`. -/
def Shots.at : Shots → Nat → Option Nat
  | .one s, _ => s
  | .many l, i => l.getD i none

/-- One queue entry `(circuit, shots, placeholder)`. -/
structure Query (C : Type) where
  circ : C
  shots : Option Nat
  ref : Nat

/-- State: placeholder heap, `_queries`, the `shots` option of the wrapped backend and the log of
the jobs submitted so far. -/
structure BState (C K E : Type) where
  cells : List (Cell K E)
  queue : List (Query C)
  defShots : Option Nat
  jobs : List (List C × Shots)

/-- The wrapped backend: `run_async(circuits, shots).result(timeout).all_counts`. -/
abbrev Exec (C K E : Type) := Nat → List C → Shots → Except E (List K)

variable {C K E : Type}

/-- Queueing loop of `run` (lines 194-198). -/
def enqueue (n : Option Nat) : List C → BState C K E → BState C K E
  | [], st => st
  | c :: cs, st => enqueue n cs
      { st with cells := st.cells ++ [Cell.new], queue := st.queue ++ [⟨c, n, st.cells.length⟩] }

/-- `run` (lines 187-200) with `_validate_shots` (backend.py lines 452-457); `none` = raises. A
single circuit is the one element list. -/
def runB (cs : List C) (shots : Option Int) (st : BState C K E) : Option (BState C K E) :=
  match shots with
  | some s => if s ≤ 0 then none else some (enqueue (some s.toNat) cs st)
  | none => some (enqueue st.defShots cs st)

/-- `effective_shots` (lines 296-297). -/
def effShots : List (Option Nat) → Shots
  | [] => .many []
  | s :: l => if l.all (· == s) then .one s else .many (s :: l)

/-- Injection loop of `_submit_chunk` (lines 299-300); `zip` stops at the shorter list. -/
def injectAll : List (Query C) → List K → List (Cell K E) → List (Cell K E)
  | q :: qs, k :: ks, cells => injectAll qs ks (cells.modify q.ref (Cell.inject k))
  | _, _, cells => cells

/-- The loop over the chunks (lines 275-281); returns the exception if a job raised. -/
def chunkLoop (ex : Exec C K E) : List (List (Query C)) → BState C K E → BState C K E × Option E
  | [], st => (st, none)
  | ch :: chs, st =>
    let cs := ch.map (·.circ)
    let sh := effShots (ch.map (·.shots))
    let st' := { st with jobs := st.jobs ++ [(cs, sh)] }
    match ex st.jobs.length cs sh with
    | .error e => (st', some e)
    | .ok ks => chunkLoop ex chs { st' with cells := injectAll ch ks st.cells }

/-- The slices `[start : start + size] for start in range(0, n, size)` (lines 275-279). -/
def slices (size : Nat) (qs : List (Query C)) : List (List (Query C)) :=
  (List.range ((qs.length + size - 1) / size)).map fun i => (qs.drop (i * size)).take size

/-- Error injection (lines 283-285). -/
def failAll (e : E) (qs : List (Query C)) (cells : List (Cell K E)) : List (Cell K E) :=
  qs.foldl (fun cl q => cl.modify q.ref (Cell.fail e)) cells

/-- `dispatch` (lines 253-286); `limit` is `max_circuits`. With limit 0 `range` raises `zeroStep`
inside the `try`. Negative limits are not modelled. -/
def dispatch (ex : Exec C K E) (zeroStep : E) (limit : Option Nat) (st : BState C K E) :
    BState C K E × Option E :=
  let qs := st.queue
  let st0 := { st with queue := [] }
  if qs.isEmpty then (st0, none)
  else
    let size := limit.getD qs.length
    let r := if size = 0 then (st0, some zeroStep) else chunkLoop ex (slices size qs) st0
    match r with
    | (st1, none) => (st1, none)
    | (st1, some e) => ({ st1 with cells := failAll e qs st1.cells }, some e)

/-- `clear` (line 309). -/
def clearB (st : BState C K E) : BState C K E := { st with queue := [] }

/-- `update_options(shots=...)` of the wrapped backend. -/
def setShots (n : Option Nat) (st : BState C K E) : BState C K E := { st with defShots := n }

/-- Calls of the user. -/
inductive Call (C : Type) where
  | run (cs : List C) (shots : Option Int)
  | dispatch (limit : Option Nat)
  | clear
  | setShots (n : Option Nat)

/-- One call; a rejected `run` leaves the state unchanged. -/
def stepB (ex : Exec C K E) (zeroStep : E) (st : BState C K E) : Call C → BState C K E
  | .run cs s => (runB cs s st).getD st
  | .dispatch l => (dispatch ex zeroStep l st).1
  | .clear => clearB st
  | .setShots n => setShots n st

/-- The initial state. -/
def initB (n : Option Nat) : BState C K E := ⟨[], [], n, []⟩

/-! ### Lemmas -/

theorem modify_same {α : Type} (f : α → α) (l : List α) (i : Nat) :
    (l.modify i f)[i]? = (l[i]?).map f := by
  rw [List.getElem?_modify]; simp

theorem modify_other {α : Type} (f : α → α) (l : List α) {i j : Nat} (h : i ≠ j) :
    (l.modify i f)[j]? = l[j]? := by
  rw [List.getElem?_modify]; simp [h]

theorem effShots_at (l : List (Option Nat)) (i : Nat) (h : i < l.length) :
    (effShots l).at i = l[i] := by
  cases l with
  | nil => simp at h
  | cons s l =>
    rw [effShots]
    split
    · next ha =>
      rw [List.all_eq_true] at ha
      cases i with
      | zero => rfl
      | succ i =>
        have hi : i < l.length := by simpa using h
        have := ha l[i] (List.getElem_mem hi)
        simp only [Shots.at, List.getElem_cons_succ]
        exact (by simpa using this : l[i] = s).symm
    · rw [Shots.at, List.getD_eq_getElem?_getD, List.getElem?_eq_getElem h]; rfl

theorem slices_flatten {size : Nat} (hs : 0 < size) (qs : List (Query C)) :
    (slices size qs).flatten = qs := by
  have key : ∀ m, ((List.range m).map fun i => (qs.drop (i * size)).take size).flatten =
      qs.take (m * size) := by
    intro m
    induction m with
    | zero => simp
    | succ m ih =>
      rw [List.range_succ, List.map_append, List.flatten_append, ih]
      simp only [List.map_cons, List.map_nil, List.flatten_cons, List.flatten_nil, List.append_nil]
      rw [Nat.succ_mul, List.take_add]
  rw [slices, key, List.take_of_length_le]
  have := Nat.div_add_mod (qs.length + size - 1) size
  have h2 := Nat.mod_lt (qs.length + size - 1) hs
  rw [Nat.mul_comm]
  omega

theorem slices_length_le {size : Nat} {qs : List (Query C)} {ch : List (Query C)}
    (h : ch ∈ slices size qs) : ch.length ≤ size := by
  rw [slices, List.mem_map] at h
  obtain ⟨i, _, rfl⟩ := h
  simp

/-- Contract of the wrapped backend: a successful job returns one result per circuit, in order,
each a result (`Res`) of its circuit with its shots. -/
def Conform (Res : C → Option Nat → K → Prop) (ex : Exec C K E) : Prop :=
  ∀ j cs sh ks, ex j cs sh = .ok ks → ks.length = cs.length ∧
    ∀ i (h : i < cs.length) (h' : i < ks.length), Res cs[i] (sh.at i) ks[i]

theorem injectAll_length (qs : List (Query C)) (ks : List K) (cells : List (Cell K E)) :
    (injectAll qs ks cells).length = cells.length := by
  induction qs generalizing ks cells with
  | nil => rfl
  | cons q qs ih => cases ks with
    | nil => rfl
    | cons k ks => rw [injectAll, ih, List.length_modify]

theorem injectAll_other (qs : List (Query C)) (ks : List K) (cells : List (Cell K E)) (r : Nat)
    (h : ∀ q ∈ qs, q.ref ≠ r) : (injectAll qs ks cells)[r]? = cells[r]? := by
  induction qs generalizing ks cells with
  | nil => rfl
  | cons q qs ih => cases ks with
    | nil => rfl
    | cons k ks =>
      rw [injectAll, ih _ _ fun p hp => h p (List.mem_cons_of_mem _ hp),
        modify_other _ _ (h q List.mem_cons_self)]

/-- A cell which holds a result of its query. -/
def Good (Res : C → Option Nat → K → Prop) (cells : List (Cell K E)) (q : Query C) : Prop :=
  ∃ k c, cells[q.ref]? = some c ∧ c.data = some k ∧ Res q.circ q.shots k

theorem injectAll_good {Res : C → Option Nat → K → Prop} (qs : List (Query C)) (ks : List K)
    (cells : List (Cell K E)) (hl : ks.length = qs.length)
    (hr : ∀ i (h : i < qs.length) (h' : i < ks.length), Res qs[i].circ qs[i].shots ks[i])
    (hb : ∀ q ∈ qs, q.ref < cells.length) (hn : (qs.map (·.ref)).Nodup) :
    ∀ q ∈ qs, Good Res (injectAll qs ks cells) q := by
  induction qs generalizing ks cells with
  | nil => intro q hq; cases hq
  | cons p qs ih =>
    cases ks with
    | nil => simp at hl
    | cons k ks =>
      rw [List.map_cons, List.nodup_cons] at hn
      intro q hq
      rw [injectAll]
      rcases List.mem_cons.1 hq with rfl | hq
      · have hlt := hb q List.mem_cons_self
        refine ⟨k, Cell.inject k cells[q.ref], ?_, rfl, hr 0 (by simp) (by simp)⟩
        rw [injectAll_other qs ks _ q.ref fun p hp e => hn.1 (List.mem_map.2 ⟨p, hp, e⟩),
          modify_same, List.getElem?_eq_getElem hlt]
        rfl
      · refine ih ks _ (by simpa using hl) (fun i h h' => ?_) (fun q hq => ?_) hn.2 q hq
        · exact hr (i + 1) (by simpa using h) (by simpa using h')
        · rw [List.length_modify]; exact hb q (List.mem_cons_of_mem _ hq)

theorem conform_chunk {Res : C → Option Nat → K → Prop} {ex : Exec C K E} (hc : Conform Res ex)
    {j : Nat} {ch : List (Query C)} {ks : List K}
    (h : ex j (ch.map (·.circ)) (effShots (ch.map (·.shots))) = .ok ks) :
    ks.length = ch.length ∧
      ∀ i (h : i < ch.length) (h' : i < ks.length), Res ch[i].circ ch[i].shots ks[i] := by
  obtain ⟨h1, h2⟩ := hc _ _ _ _ h
  refine ⟨by simpa using h1, fun i hi hi' => ?_⟩
  have := h2 i (by simpa using hi) hi'
  rw [effShots_at _ _ (by simpa using hi)] at this
  simpa using this

/-- What the chunk loop does: the first `m` chunks succeed and their placeholders are filled; all
other cells are untouched; an exception is returned iff not all chunks succeeded. -/
theorem chunkLoop_spec {Res : C → Option Nat → K → Prop} {ex : Exec C K E} (hc : Conform Res ex)
    (chs : List (List (Query C))) (st : BState C K E)
    (hb : ∀ q ∈ chs.flatten, q.ref < st.cells.length) (hn : (chs.flatten.map (·.ref)).Nodup) :
    ∃ m ≤ chs.length,
      (∀ q ∈ (chs.take m).flatten, Good Res (chunkLoop ex chs st).1.cells q) ∧
      (∀ r, (∀ q ∈ (chs.take m).flatten, q.ref ≠ r) →
        (chunkLoop ex chs st).1.cells[r]? = st.cells[r]?) ∧
      (chunkLoop ex chs st).1.cells.length = st.cells.length ∧
      (chunkLoop ex chs st).1.queue = st.queue ∧
      (chunkLoop ex chs st).1.defShots = st.defShots ∧
      ((chunkLoop ex chs st).2 = none ↔ m = chs.length) ∧
      (chunkLoop ex chs st).1.jobs = st.jobs ++ (chs.take (m + 1)).map
        (fun ch => (ch.map (·.circ), effShots (ch.map (·.shots)))) := by
  induction chs generalizing st with
  | nil => exact ⟨0, le_rfl, by simp, by simp [chunkLoop], rfl, rfl, rfl, by simp [chunkLoop],
      by simp [chunkLoop]⟩
  | cons ch chs ih =>
    rw [List.flatten_cons] at hb hn
    rw [chunkLoop]
    simp only
    cases he : ex st.jobs.length (ch.map (·.circ)) (effShots (ch.map (·.shots))) with
    | error e =>
      refine ⟨0, Nat.zero_le _, by simp, fun _ _ => rfl, rfl, rfl, rfl, by simp, by simp⟩
    | ok ks =>
      obtain ⟨hl, hr⟩ := conform_chunk hc he
      rw [List.map_append, List.nodup_append] at hn
      obtain ⟨hn1, hn2, hd⟩ := hn
      simp only
      obtain ⟨m, hm, i1, i2, i3, i4, i5, i6, i7⟩ := ih
        { st with jobs := st.jobs ++ [(ch.map (·.circ), effShots (ch.map (·.shots)))],
                  cells := injectAll ch ks st.cells }
        (fun q hq => by
          show q.ref < (injectAll ch ks st.cells).length
          rw [injectAll_length]; exact hb q (List.mem_append_right _ hq)) hn2
      have hsub : ∀ q ∈ (chs.take m).flatten, q ∈ chs.flatten := by
        intro q hq
        rw [List.mem_flatten] at hq ⊢
        obtain ⟨l, h1, h2⟩ := hq
        exact ⟨l, List.mem_of_mem_take h1, h2⟩
      refine ⟨m + 1, Nat.succ_le_succ hm, ?_, ?_, ?_, i4, i5, ?_, ?_⟩
      · intro q hq
        rw [List.take_succ_cons, List.flatten_cons, List.mem_append] at hq
        rcases hq with hq | hq
        · obtain ⟨k, c, h1, h2, h3⟩ := injectAll_good ch ks st.cells hl hr
            (fun q hq => hb q (List.mem_append_left _ hq)) hn1 q hq
          refine ⟨k, c, ?_, h2, h3⟩
          rw [i2 q.ref fun p hp e => ?_]
          · exact h1
          · exact hd _ (List.mem_map_of_mem hq) _ (List.mem_map_of_mem (hsub p hp)) e.symm
        · exact i1 q hq
      · intro r hr'
        rw [List.take_succ_cons, List.flatten_cons] at hr'
        rw [i2 r fun q hq => hr' q (List.mem_append_right _ hq)]
        exact injectAll_other _ _ _ _ fun q hq => hr' q (List.mem_append_left _ hq)
      · rw [i3]; exact injectAll_length _ _ _
      · rw [i6, List.length_cons]; omega
      · rw [i7, List.take_succ_cons, List.map_cons, List.append_assoc]; rfl

theorem failAll_length (e : E) (qs : List (Query C)) (cells : List (Cell K E)) :
    (failAll e qs cells).length = cells.length := by
  induction qs generalizing cells with
  | nil => rfl
  | cons q qs ih => rw [failAll, List.foldl_cons, ← failAll, ih, List.length_modify]

theorem failAll_other (e : E) (qs : List (Query C)) (cells : List (Cell K E)) (r : Nat)
    (h : ∀ q ∈ qs, q.ref ≠ r) : (failAll e qs cells)[r]? = cells[r]? := by
  induction qs generalizing cells with
  | nil => rfl
  | cons q qs ih =>
    rw [failAll, List.foldl_cons, ← failAll, ih _ fun p hp => h p (List.mem_cons_of_mem _ hp),
      modify_other _ _ (h q List.mem_cons_self)]

theorem Cell.fail_fail (e : E) (c : Cell K E) : (c.fail e).fail e = c.fail e := by
  unfold Cell.fail; split <;> simp_all

theorem failAll_at (e : E) (qs : List (Query C)) (cells : List (Cell K E)) (r : Nat)
    (h : ∃ q ∈ qs, q.ref = r) : (failAll e qs cells)[r]? = (cells[r]?).map (Cell.fail e) := by
  induction qs generalizing cells with
  | nil => obtain ⟨q, hq, _⟩ := h; cases hq
  | cons q qs ih =>
    rw [failAll, List.foldl_cons, ← failAll]
    by_cases h2 : ∃ q ∈ qs, q.ref = r
    · rw [ih _ h2]
      by_cases hq : q.ref = r
      · rw [hq, modify_same]
        cases cells[r]? <;> simp [Cell.fail_fail]
      · rw [modify_other _ _ hq]
    · have hq : q.ref = r := by
        obtain ⟨p, hp, e⟩ := h
        rcases List.mem_cons.1 hp with rfl | hp
        · exact e
        · exact absurd ⟨p, hp, e⟩ h2
      rw [failAll_other _ _ _ _ fun p hp e => h2 ⟨p, hp, e⟩, hq, modify_same]

/-! ### Histories -/

/-- Specification of the requests: the option value and the list of all accepted requests (circuit
and shots) in order. -/
def reqStep (r : Option Nat × List (C × Option Nat)) : Call C → Option Nat × List (C × Option Nat)
  | .run cs (some s) => if s ≤ 0 then r else (r.1, r.2 ++ cs.map fun c => (c, some s.toNat))
  | .run cs none => (r.1, r.2 ++ cs.map fun c => (c, r.1))
  | .setShots n => (n, r.2)
  | .dispatch _ => r
  | .clear => r

/-- Invariant relating a state to the accepted requests. -/
structure BInv (Res : C → Option Nat → K → Prop) (st : BState C K E)
    (r : Option Nat × List (C × Option Nat)) : Prop where
  defs : st.defShots = r.1
  len : st.cells.length = r.2.length
  nodup : (st.queue.map (·.ref)).Nodup
  pend : ∀ q ∈ st.queue, r.2[q.ref]? = some (q.circ, q.shots) ∧ st.cells[q.ref]? = some Cell.new
  good : ∀ (i : Nat) (c : Cell K E) (k : K), st.cells[i]? = some c → c.data = some k →
    ∃ x, r.2[i]? = some x ∧ Res x.1 x.2 k

theorem BInv.lt {Res : C → Option Nat → K → Prop} {st : BState C K E}
    {r : Option Nat × List (C × Option Nat)} (h : BInv Res st r) :
    ∀ q ∈ st.queue, q.ref < st.cells.length := by
  intro q hq
  by_contra hlt
  have := (h.pend q hq).2
  rw [List.getElem?_eq_none (Nat.le_of_not_lt hlt)] at this
  cases this

theorem BInv.enqueue {Res : C → Option Nat → K → Prop} (n : Option Nat) (cs : List C)
    (st : BState C K E) (r : Option Nat × List (C × Option Nat)) (h : BInv Res st r) :
    BInv Res (enqueue n cs st) (r.1, r.2 ++ cs.map fun c => (c, n)) := by
  induction cs generalizing st r with
  | nil => simpa [Iface.enqueue] using h
  | cons c cs ih =>
    have h' : BInv Res (Iface.enqueue n (c :: cs) st)
        (r.1, (r.2 ++ [(c, n)]) ++ cs.map fun c => (c, n)) := by
      rw [Iface.enqueue]
      refine ih _ (r.1, r.2 ++ [(c, n)]) ⟨h.defs, by simp [h.len], ?_, ?_, ?_⟩
      · rw [List.map_append, List.nodup_append]
        refine ⟨h.nodup, by simp, ?_⟩
        intro a ha b hb e
        rw [List.mem_map] at ha
        obtain ⟨q, hq, rfl⟩ := ha
        have hb' : b = st.cells.length := by simpa using hb
        have := h.lt q hq
        omega
      · intro q hq
        rw [List.mem_append] at hq
        rcases hq with hq | hq
        · have hp := h.pend q hq
          have hlt := h.lt q hq
          refine ⟨?_, ?_⟩
          · show (r.2 ++ [(c, n)])[q.ref]? = _
            rw [List.getElem?_append_left (h.len ▸ hlt)]; exact hp.1
          · show (st.cells ++ [Cell.new])[q.ref]? = _
            rw [List.getElem?_append_left hlt]; exact hp.2
        · rw [List.mem_singleton] at hq
          subst hq
          refine ⟨?_, ?_⟩
          · show (r.2 ++ [(c, n)])[st.cells.length]? = _
            rw [h.len]; simp
          · show (st.cells ++ [Cell.new])[st.cells.length]? = _
            simp
      · intro i ce k hi hk
        replace hi : (st.cells ++ [Cell.new])[i]? = some ce := hi
        by_cases hlt : i < st.cells.length
        · rw [List.getElem?_append_left hlt] at hi
          obtain ⟨x, hx, hr⟩ := h.good i ce k hi hk
          refine ⟨x, ?_, hr⟩
          show (r.2 ++ [(c, n)])[i]? = _
          rw [List.getElem?_append_left (h.len ▸ hlt)]; exact hx
        · rw [List.getElem?_append_right (Nat.le_of_not_lt hlt), List.getElem?_singleton] at hi
          split at hi
          · cases hi; cases hk
          · cases hi
    simpa using h'

/-- Full description of `dispatch` in a state satisfying the invariant. -/
theorem dispatch_spec {Res : C → Option Nat → K → Prop} {ex : Exec C K E} (hc : Conform Res ex)
    (z : E) (limit : Option Nat) {st : BState C K E} {r : Option Nat × List (C × Option Nat)}
    (h : BInv Res st r) :
    ∃ d f, st.queue = d ++ f ∧
      (∀ q ∈ d, Good Res (dispatch ex z limit st).1.cells q) ∧
      (∀ q ∈ f, ∃ e, (dispatch ex z limit st).2 = some e ∧
        (dispatch ex z limit st).1.cells[q.ref]? = some ⟨none, some e⟩) ∧
      (∀ i, (∀ q ∈ st.queue, q.ref ≠ i) →
        (dispatch ex z limit st).1.cells[i]? = st.cells[i]?) ∧
      (dispatch ex z limit st).1.queue = [] ∧
      (dispatch ex z limit st).1.cells.length = st.cells.length ∧
      (dispatch ex z limit st).1.defShots = st.defShots ∧
      ((dispatch ex z limit st).2 = none ↔ f = []) ∧
      (∀ l, limit = some l → f ≠ [] → l ∣ d.length) ∧
      (∃ js, (dispatch ex z limit st).1.jobs = st.jobs ++ js ∧
        ∀ l, limit = some l → ∀ j ∈ js, j.1.length ≤ l) := by
  by_cases hq : st.queue = []
  · have e : dispatch ex z limit st = ({ st with queue := [] }, none) := by
      rw [dispatch]; simp [hq]
    rw [e]
    exact ⟨[], [], by simp [hq], by simp, by simp, fun _ _ => rfl, rfl, rfl, rfl, by simp,
      by simp, [], by simp, by simp⟩
  have hne : st.queue.isEmpty = false := by simpa using hq
  by_cases hs : limit.getD st.queue.length = 0
  · have e : dispatch ex z limit st =
        ({ st with queue := [], cells := failAll z st.queue st.cells }, some z) := by
      rw [dispatch]; simp [hne, hs]
    rw [e]
    refine ⟨[], st.queue, rfl, by simp, ?_, ?_, rfl, failAll_length _ _ _, rfl, by simp [hq],
      by simp, [], by simp, by simp⟩
    · intro q hqm
      refine ⟨z, rfl, ?_⟩
      show (failAll z st.queue st.cells)[q.ref]? = _
      rw [failAll_at _ _ _ _ ⟨q, hqm, rfl⟩, (h.pend q hqm).2]
      rfl
    · intro i hi
      exact failAll_other _ _ _ _ hi
  · have hpos := Nat.pos_of_ne_zero hs
    have hfl := slices_flatten hpos st.queue
    have hlen := fun ch => slices_length_le (size := limit.getD st.queue.length)
      (qs := st.queue) (ch := ch)
    have hdvd : ∀ m, m < (slices (limit.getD st.queue.length) st.queue).length →
        ((slices (limit.getD st.queue.length) st.queue).take m).flatten.length =
          m * limit.getD st.queue.length := by
      generalize limit.getD st.queue.length = size at hpos
      intro m hm
      have hm' : m < (st.queue.length + size - 1) / size := by simpa [slices] using hm
      have key : ∀ m, ((List.range m).map fun i =>
          (st.queue.drop (i * size)).take size).flatten = st.queue.take (m * size) := by
        intro m
        induction m with
        | zero => simp
        | succ m ih =>
          rw [List.range_succ, List.map_append, List.flatten_append, ih]
          simp only [List.map_cons, List.map_nil, List.flatten_cons, List.flatten_nil,
            List.append_nil]
          rw [Nat.succ_mul, List.take_add]
      rw [slices, ← List.map_take, List.take_range, Nat.min_eq_left hm'.le, key,
        List.length_take, Nat.min_eq_left]
      have h1 := Nat.div_mul_le_self (st.queue.length + size - 1) size
      have h2 : (m + 1) * size ≤ (st.queue.length + size - 1) / size * size :=
        Nat.mul_le_mul_right _ hm'
      rw [Nat.succ_mul] at h2
      omega
    obtain ⟨m, hm, c1, c2, c3, c4, c5, c6, c7⟩ := chunkLoop_spec hc
      (slices (limit.getD st.queue.length) st.queue) { st with queue := [] }
      (by rw [hfl]; exact h.lt) (by rw [hfl]; exact h.nodup)
    generalize hch : slices (limit.getD st.queue.length) st.queue = chs at *
    have hsplit : st.queue = (chs.take m).flatten ++ (chs.drop m).flatten := by
      rw [← List.flatten_append, List.take_append_drop, hfl]
    have hnd := h.nodup
    rw [hsplit, List.map_append, List.nodup_append] at hnd
    have hjobs : ∀ l, limit = some l → ∀ j ∈ (chs.take (m + 1)).map
        (fun ch => (ch.map (·.circ), effShots (ch.map (·.shots)))), j.1.length ≤ l := by
      intro l hl j hj
      rw [List.mem_map] at hj
      obtain ⟨ch, hch', rfl⟩ := hj
      have := hlen ch (List.mem_of_mem_take hch')
      rw [hl] at this
      simpa using this
    cases hr : (chunkLoop ex chs { st with queue := [] }).2 with
    | none =>
      have hme := c6.1 hr
      have e : dispatch ex z limit st = ((chunkLoop ex chs { st with queue := [] }).1, none) := by
        rw [dispatch]; simp only [hne, Bool.false_eq_true, if_false, hs, hch]
        rw [← hr]
        rcases hx : chunkLoop ex chs { st with queue := [] } with ⟨s1, o⟩
        rw [hx] at hr
        cases hr; rfl
      have hf : (chs.drop m).flatten = [] := by rw [hme]; simp
      rw [e]
      refine ⟨(chs.take m).flatten, (chs.drop m).flatten, hsplit, c1, by simp [hf], ?_, c4, c3, c5,
        by simp [hf], fun _ _ hn => absurd hf hn, _, c7, hjobs⟩
      intro i hi
      exact c2 i fun q hq => hi q (hsplit ▸ List.mem_append_left _ hq)
    | some x =>
      have hme : m < chs.length := by
        rcases Nat.lt_or_ge m chs.length with h1 | h1
        · exact h1
        · have := c6.2 (Nat.le_antisymm hm h1)
          rw [hr] at this; cases this
      have e : dispatch ex z limit st =
          ({ (chunkLoop ex chs { st with queue := [] }).1 with
            cells := failAll x st.queue (chunkLoop ex chs { st with queue := [] }).1.cells },
            some x) := by
        rw [dispatch]; simp only [hne, Bool.false_eq_true, if_false, hs, hch]
        rcases hx : chunkLoop ex chs { st with queue := [] } with ⟨s1, o⟩
        rw [hx] at hr
        replace hr : o = some x := hr
        subst hr; rfl
      rw [e]
      refine ⟨(chs.take m).flatten, (chs.drop m).flatten, hsplit, ?_, ?_, ?_, c4, ?_, c5, ?_, ?_, _,
        c7, hjobs⟩
      · intro q hq
        obtain ⟨k, c, h1, h2, h3⟩ := c1 q hq
        refine ⟨k, c, ?_, h2, h3⟩
        show (failAll x st.queue _)[q.ref]? = _
        rw [failAll_at _ _ _ _ ⟨q, hsplit ▸ List.mem_append_left _ hq, rfl⟩, h1]
        simp [Cell.fail, h2]
      · intro q hq
        refine ⟨x, rfl, ?_⟩
        have hqm : q ∈ st.queue := hsplit ▸ List.mem_append_right _ hq
        show (failAll x st.queue _)[q.ref]? = _
        rw [failAll_at _ _ _ _ ⟨q, hqm, rfl⟩, c2 q.ref fun p hp e => hnd.2.2 _
          (List.mem_map_of_mem hp) _ (List.mem_map_of_mem hq) e]
        show Option.map _ st.cells[q.ref]? = _
        rw [(h.pend q hqm).2]
        rfl
      · intro i hi
        show (failAll x st.queue _)[i]? = _
        rw [failAll_other _ _ _ _ hi]
        exact c2 i fun q hq => hi q (hsplit ▸ List.mem_append_left _ hq)
      · show (failAll x st.queue _).length = _
        rw [failAll_length]; exact c3
      · simp only [reduceCtorEq, false_iff]
        intro hf
        have h1 := hdvd m hme
        have h2 : (chs.take m).flatten.length = st.queue.length := by
          rw [hsplit, hf, List.append_nil]
        have h3 : chs.length = (st.queue.length + limit.getD st.queue.length - 1) /
            limit.getD st.queue.length := by rw [← hch]; simp [slices]
        have h4 : m < (st.queue.length + limit.getD st.queue.length - 1) /
            limit.getD st.queue.length := h3 ▸ hme
        have h5 : (m + 1) * limit.getD st.queue.length ≤ _ :=
          (Nat.le_div_iff_mul_le hpos).1 h4
        rw [Nat.succ_mul, ← h1, h2] at h5
        omega
      · intro l hl _
        rw [hdvd m hme, hl]
        exact Dvd.intro_left m rfl

theorem BInv.dispatch {Res : C → Option Nat → K → Prop} {ex : Exec C K E} (hc : Conform Res ex)
    (z : E) (limit : Option Nat) {st : BState C K E} {r : Option Nat × List (C × Option Nat)}
    (h : BInv Res st r) : BInv Res (dispatch ex z limit st).1 r := by
  obtain ⟨d, f, h1, h2, h3, h4, h5, h6, h7, h8, h9⟩ := dispatch_spec hc z limit h
  refine ⟨h7.trans h.defs, h6.trans h.len, by rw [h5]; simp, by rw [h5]; simp, ?_⟩
  intro i c k hi hk
  by_cases hq : ∃ q ∈ st.queue, q.ref = i
  · obtain ⟨q, hq, rfl⟩ := hq
    rw [h1, List.mem_append] at hq
    rcases hq with hq | hq
    · obtain ⟨k', c', a1, a2, a3⟩ := h2 q hq
      rw [hi] at a1
      cases a1
      rw [hk] at a2
      cases a2
      exact ⟨_, (h.pend q (h1 ▸ List.mem_append_left _ hq)).1, a3⟩
    · obtain ⟨e, _, a2⟩ := h3 q hq
      rw [hi] at a2
      cases a2
      cases hk
  · rw [h4 i fun q hq' e => hq ⟨q, hq', e⟩] at hi
    exact h.good i c k hi hk

theorem BInv.step {Res : C → Option Nat → K → Prop} {ex : Exec C K E} (hc : Conform Res ex)
    (z : E) {st : BState C K E} {r : Option Nat × List (C × Option Nat)}
    (h : BInv Res st r) (c : Call C) : BInv Res (stepB ex z st c) (reqStep r c) := by
  cases c with
  | run cs s =>
    cases s with
    | none =>
      have := h.enqueue r.1 cs
      show BInv Res (Iface.enqueue st.defShots cs st) _
      rw [h.defs]; exact this
    | some s =>
      rw [stepB, runB, reqStep]
      by_cases hs : s ≤ 0
      · simp only [hs, if_true]; exact h
      · simp only [hs, if_false]; exact h.enqueue _ cs
  | dispatch l => exact h.dispatch hc z l
  | clear => exact ⟨h.defs, h.len, by simp [stepB, clearB], by simp [stepB, clearB], h.good⟩
  | setShots n => exact ⟨rfl, h.len, h.nodup, h.pend, h.good⟩

theorem BInv.history {Res : C → Option Nat → K → Prop} {ex : Exec C K E} (hc : Conform Res ex)
    (z : E) (n : Option Nat) (calls : List (Call C)) :
    BInv Res (calls.foldl (stepB ex z) (initB n)) (calls.foldl reqStep (n, [])) := by
  have gen : ∀ (st : BState C K E) r, BInv Res st r →
      BInv Res (calls.foldl (stepB ex z) st) (calls.foldl reqStep r) := by
    induction calls with
    | nil => intro st r h; exact h
    | cons c cs ih => intro st r h; exact ih _ _ (h.step hc z c)
  exact gen _ _ ⟨rfl, rfl, by simp [initB], by simp [initB], by simp [initB]⟩

end Verif.Iface
