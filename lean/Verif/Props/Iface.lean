import Verif.Iface.Batch
import Verif.Iface.Results
import Verif.Iface.Options

/-!
Property theorems C36–C38: batched dispatch, decoding of results, backend options.
-/

namespace Verif.Props

open Verif.Iface

/-! ### C36

Specification: `reqStep` lists the accepted requests (circuit, shots) of a history; `Res c s k` is an
arbitrary relation "`k` is a possible result of running `c` with `s` shots". A conforming backend
returns, for a successful job, one result per circuit in order. -/

section
variable {C K E : Type}

/-- After any history of calls there is one placeholder per accepted request, and a placeholder with
a value holds a result of its own circuit with its own shots. -/
theorem C36_own_result {Res : C → Option Nat → K → Prop} {ex : Exec C K E} (hc : Conform Res ex)
    (z : E) (n : Option Nat) (calls : List (Call C)) :
    (calls.foldl (stepB ex z) (initB n)).cells.length = (calls.foldl reqStep (n, [])).2.length ∧
    ∀ (i : Nat) (c : Cell K E) (k : K), (calls.foldl (stepB ex z) (initB n)).cells[i]? = some c →
      c.read = .value k → ∃ x, (calls.foldl reqStep (n, [])).2[i]? = some x ∧ Res x.1 x.2 k := by
  have h := BInv.history hc z n calls
  refine ⟨h.len, fun i c k hi hr => h.good i c k hi ?_⟩
  unfold Cell.read at hr
  cases hd : c.data with
  | none => rw [hd] at hr; cases he : c.err <;> rw [he] at hr <;> cases hr
  | some k' => rw [hd] at hr; cases hr; rfl

/-- `dispatch` after any history: the queue is empty afterwards; the queue splits into a first part
whose placeholders hold their own results and a rest whose placeholders raise exactly the exception
raised by `dispatch`; there is no rest iff `dispatch` does not raise; the first part consists of
whole jobs; placeholders not queued are untouched; no job exceeds the limit. -/
theorem C36_dispatch {Res : C → Option Nat → K → Prop} {ex : Exec C K E} (hc : Conform Res ex)
    (z : E) (n limit : Option Nat) (calls : List (Call C)) :
    let st := calls.foldl (stepB ex z) (initB n)
    let r := dispatch ex z limit st
    r.1.queue = [] ∧
    ∃ d f, st.queue = d ++ f ∧
      (∀ q ∈ d, ∃ k c, r.1.cells[q.ref]? = some c ∧ c.read = .value k ∧ Res q.circ q.shots k) ∧
      (∀ q ∈ f, ∃ e c, r.2 = some e ∧ r.1.cells[q.ref]? = some c ∧ c.read = .raises e) ∧
      (r.2 = none ↔ f = []) ∧
      (∀ l, limit = some l → f ≠ [] → l ∣ d.length) ∧
      (∀ i, (∀ q ∈ st.queue, q.ref ≠ i) → r.1.cells[i]? = st.cells[i]?) ∧
      (∃ js, r.1.jobs = st.jobs ++ js ∧ ∀ l, limit = some l → ∀ j ∈ js, j.1.length ≤ l) := by
  intro st r
  have h := BInv.history hc z n calls
  obtain ⟨d, f, h1, h2, h3, h4, h5, _, _, h8, h9, h10⟩ := dispatch_spec hc z limit h
  refine ⟨h5, d, f, h1, ?_, ?_, h8, h9, h4, h10⟩
  · intro q hq
    obtain ⟨k, c, a, b, e⟩ := h2 q hq
    exact ⟨k, c, a, by unfold Cell.read; rw [b], e⟩
  · intro q hq
    obtain ⟨e, a, b⟩ := h3 q hq
    exact ⟨e, _, a, b, rfl⟩

/-- Entries in the queue are exactly their requests: the placeholder with number `q.ref` belongs to
the request `(q.circ, q.shots)`. -/
theorem C36_queue {Res : C → Option Nat → K → Prop} {ex : Exec C K E} (hc : Conform Res ex)
    (z : E) (n : Option Nat) (calls : List (Call C)) :
    ∀ q ∈ (calls.foldl (stepB ex z) (initB n)).queue,
      (calls.foldl reqStep (n, [])).2[q.ref]? = some (q.circ, q.shots) :=
  fun q hq => ((BInv.history hc z n calls).pend q hq).1

/-- A rejected `run` changes nothing, an accepted one adds one queue entry per circuit. -/
theorem C36_run (cs : List C) (s : Option Int) (st : BState C K E) :
    (runB cs s st = none ↔ ∃ z, s = some z ∧ z ≤ 0) ∧
    ∀ st', runB cs s st = some st' → st'.queue.length = st.queue.length + cs.length := by
  have hlen : ∀ (n : Option Nat) (cs : List C) (st : BState C K E),
      (enqueue n cs st).queue.length = st.queue.length + cs.length := by
    intro n cs
    induction cs with
    | nil => intro st; rfl
    | cons c cs ih => intro st; rw [enqueue, ih]; simp; omega
  cases s with
  | none => exact ⟨by simp [runB], fun st' h => by rw [runB] at h; cases h; exact hlen _ _ _⟩
  | some s =>
    rw [runB]
    by_cases hs : s ≤ 0
    · simp [hs]
    · simp only [hs, if_false]
      exact ⟨by simp [hs], fun st' h => by cases h; exact hlen _ _ _⟩

end

/-- A backend that echoes circuit and shots and fails on its third job. -/
def echo : Exec Nat (Nat × Option Nat) String := fun j cs sh =>
  if j = 2 then .error "down" else .ok (cs.mapIdx fun i c => (c, sh.at i))

theorem echo_conform : Conform (fun c s k => k = (c, s)) echo := by
  intro j cs sh ks h
  rw [echo] at h
  split at h
  · cases h
  · cases h
    exact ⟨by simp, fun i h h' => by simp⟩

/-- Five circuits with a limit of two circuits per job; the third job fails. -/
example : ((dispatch echo "zero" (some 2) ([Call.run [10, 11] (some 5), .run [12, 13, 14] none].foldl
    (stepB echo "zero") (initB (some 7)))).1.cells.map fun c => (c.data, c.err)) =
    [(some (10, some 5), none), (some (11, some 5), none), (some (12, some 7), none),
     (some (13, some 7), none), (none, some "down")] := by decide +kernel

/-- A backend violating the contract by returning fewer results than circuits. -/
def short : Exec Nat Nat String := fun _ _ _ => .ok [1]

/-- If the backend returns too few results, `dispatch` succeeds and the remaining placeholder raises
"call dispatch() first" for ever: the mismatch is not reported. -/
theorem C36_short_result_lost :
    (dispatch short "zero" none ([Call.run [10, 11] none].foldl (stepB short "zero")
      (initB none))).2 = none ∧
    ((dispatch short "zero" none ([Call.run [10, 11] none].foldl (stepB short "zero")
      (initB none))).1.cells.map fun c => (c.data, c.err)) = [(some 1, none), (none, none)] ∧
    (dispatch short "zero" none ([Call.run [10, 11] none].foldl (stepB short "zero")
      (initB none))).1.queue.length = 0 := by decide +kernel

/-! ### C37 -/

section
variable {κ ℓ : Type} [DecidableEq κ] [DecidableEq ℓ]

/-- Decoding: the weight of a label is the sum of the weights of its preimage, the total is
preserved, labels are distinct and weights descend. `srt` is any enumeration of the items. -/
theorem C37_decoded {srt : Dict κ → Dict κ} (hs : ∀ d, (srt d).Perm d) (dec : κ → ℓ) (raw : Dict κ) :
    (∀ l, wget (decoded srt dec raw) l = weight (fun k => dec k = l) raw) ∧
    total (decoded srt dec raw) = total raw ∧
    ((decoded srt dec raw).map Prod.fst).Nodup ∧
    (decoded srt dec raw).Pairwise fun a b => b.2 ≤ a.2 := by
  have hp := sortDesc_perm ((srt raw).foldl (fun d p => wadd d (dec p.1) p.2) [])
  have hn := nodup_fold dec (srt raw) [] (by simp)
  have hn' := (hp.map Prod.fst).nodup_iff.2 hn
  refine ⟨fun l => ?_, ?_, hn', sortDesc_sorted _⟩
  · rw [decoded, wget_perm hp hn', wget_fold, wget_nil, zero_add]
    exact weight_perm _ (hs raw)
  · rw [decoded, total_perm hp, total_fold, total_perm (hs raw)]
    simp [total]

/-- Integer keys: if the conversion succeeds, the weight of an integer is the sum over the
bitstrings with this value, divided by the total if that is positive and differs from one by more
than 1e-3. In the normalised case the weights sum to one. -/
theorem C37_int_keyed (n : Nat) (raw : Dict (List Char)) (d : Dict Nat)
    (h : intKeyed n raw = some d) :
    (d.map Prod.fst).Nodup ∧
    (if 0 < total raw ∧ 1 / 1000 < |1 - total raw| then
      (∀ k, wget d k = weight (fun b => intKey n b = some k) raw / total raw) ∧ total d = 1
    else (∀ k, wget d k = weight (fun b => intKey n b = some k) raw) ∧ total d = total raw) := by
  rw [intKeyed] at h
  cases hl : intLoop n raw ([], 0) with
  | none => rw [hl] at h; cases h
  | some r =>
    obtain ⟨e, u⟩ := r
    rw [hl] at h
    simp only at h
    obtain ⟨h1, h2, h3, h4⟩ := intLoop_spec n raw [] 0 e u hl
    rw [zero_add] at h1
    have h2' : total e = total raw := by rw [h2]; simp [total]
    have h3' : ∀ k, wget e k = weight (fun b => intKey n b = some k) raw := by
      intro k; rw [h3, wget_nil, zero_add]
    subst h1
    split at h
    · next hc =>
      cases h
      rw [if_pos hc, abs_of_pos hc.1]
      refine ⟨by simpa [List.map_map, Function.comp_def] using h4 (by simp), fun k => ?_, ?_⟩
      · rw [wget_scale, h3']
      · rw [total_scale, h2', div_self hc.1.ne']
    · next hc =>
      cases h
      rw [if_neg hc]
      exact ⟨h4 (by simp), h3', h2'⟩

/-- What `multi_measurement` should return: every label tuple has its probability and the
probabilities sum to one. -/
def MultiOK (regs : List Nat) (decs : List (Nat → ℓ)) (raw : Dict (List Char))
    (d : Dict (List ℓ)) : Prop :=
  (∀ k, wget d k = weight (fun b => multiKey regs decs b = some k) raw / total raw) ∧ total d = 1

/-- Several variables: right if the decoders are injective and the bitstrings consist of exactly the
measured bits. Missing: circuits with further classical bits and decoders with equal labels, where
an assignment overwrites a probability (below). -/
theorem C37_multi_partial {srt : Dict (List Char) → Dict (List Char)} (hs : ∀ d, (srt d).Perm d)
    (regs : List Nat) (decs : List (Nat → ℓ)) (hl : decs.length = regs.length)
    (hd : ∀ f ∈ decs, Function.Injective f) (raw : Dict (List Char))
    (hb : ∀ p ∈ raw, Bits p.1 ∧ p.1.length = regs.sum) (hn : (raw.map Prod.fst).Nodup)
    (ht : total raw ≠ 0) (d : Dict (List ℓ)) (h : multi srt regs decs raw = some d) :
    MultiOK regs decs raw d := by
  rw [multi, Option.map_eq_some_iff] at h
  obtain ⟨e, h1, rfl⟩ := h
  have hp := hs raw
  have hdef : ∀ (l : Dict (List Char)) (d0 : Dict (List ℓ)) e0,
      multiLoop regs decs (total raw) l d0 = some e0 → ∀ p ∈ l, multiKey regs decs p.1 ≠ none := by
    intro l
    induction l with
    | nil => intro _ _ _ p hp; cases hp
    | cons q l ih =>
      intro d0 e0 h p hp
      obtain ⟨b, c⟩ := q
      rw [multiLoop] at h
      cases hk : multiKey regs decs b with
      | none => rw [hk] at h; cases h
      | some k =>
        rw [hk] at h
        simp only at h
        split at h
        · cases h
        rcases List.mem_cons.1 hp with rfl | hp
        · rw [hk]; simp
        · exact ih _ _ h p hp
  have hdf := hdef _ _ _ h1
  have hpw : (srt raw).Pairwise fun p q => multiKey regs decs p.1 ≠ multiKey regs decs q.1 := by
    have hnd : ((srt raw).map Prod.fst).Nodup := (hp.map Prod.fst).nodup_iff.2 hn
    have hpn : (srt raw).Pairwise fun p q => p.1 ≠ q.1 := List.pairwise_map.1 hnd
    refine hpn.imp_of_mem ?_
    intro p q hpm hqm hne he
    cases hk : multiKey regs decs p.1 with
    | none => exact hdf p hpm hk
    | some k =>
      have h2 := hb p (hp.mem_iff.1 hpm)
      have h3 := hb q (hp.mem_iff.1 hqm)
      exact hne (multiKey_inj hl hd h2.1 h3.1 h2.2 h3.2 hk (he ▸ hk))
  obtain ⟨a1, a2, a3⟩ := multiLoop_spec regs decs (total raw) (srt raw) [] e h1 (by simp) hpw
    (by simp)
  have hsp := sortDesc_perm e
  refine ⟨fun k => ?_, ?_⟩
  · rw [wget_perm hsp ((hsp.map Prod.fst).nodup_iff.2 a3), a1, wget_nil, zero_add,
      weight_perm _ hp]
  · rw [total_perm hsp, a2, total_perm hp, div_self ht]
    simp [total]

end

/-- A one bit variable measured in a circuit which already has a classical bit (last character). -/
def extraBit : Dict (List Char) := [(['0', '0'], 1 / 2), (['0', '1'], 1 / 2)]

/-- With a further classical bit in the circuit a probability is overwritten: the outcome 0, which
is certain, is reported with probability 1/2. -/
theorem C37_extra_bit_wrong : multi id [1] [fun k => k] extraBit = some [([0], 1 / 2)] ∧
    ¬ MultiOK [1] [fun k => k] extraBit [([0], 1 / 2)] := by
  have ht : total extraBit = 1 := by norm_num [total, extraBit]
  have k0 : multiKey [1] [fun k : Nat => k] ['0', '0'] = some [0] := by decide +kernel
  have k1 : multiKey [1] [fun k : Nat => k] ['0', '1'] = some [0] := by decide +kernel
  refine ⟨?_, fun h => ?_⟩
  · rw [multi, ht]
    simp only [id, extraBit, multiLoop, k0, k1]
    norm_num [wset, sortDesc]
  · have := h.2
    norm_num [total] at this

/-- Two raw outcomes with the same label are summed. -/
example : wget (decoded id (fun k : Nat => k % 2) [(0, 1 / 4), (1, 1 / 4), (2, 1 / 2)]) 0 = 3 / 4 := by
  rw [(C37_decoded (srt := id) (fun _ => List.Perm.refl _) _ _).1]
  norm_num [weight]

/-- Counts are normalised and the register separator is dropped. -/
example : intKeyed 2 [("1 0".toList, 30), ("01".toList, 10)] = some [(2, 3 / 4), (1, 1 / 4)] := by
  decide +kernel

/-! ### C38 -/

/-- `update_options` either raises and changes nothing, or sets exactly the given options, leaves all
others alone and introduces no key. -/
theorem C38_atomic (kw o : Opts) (hn : (kw.map Prod.fst).Nodup) :
    let r := updateOptions kw o
    (r.2 ≠ none → r.1 = o) ∧
    (r.2 = none → (∀ k, r.1.lookup k = (kw.lookup k).or (o.lookup k)) ∧
      r.1.map Prod.fst = o.map Prod.fst) ∧
    (r.2 = none ↔ (∀ p ∈ kw, p.1 ∈ o.map Prod.fst) ∧
      ∀ v, kw.lookup "shots" = some v → v = .none ∨ ∃ z, v = .int z ∧ 0 < z) := by
  intro r
  have hhas : ∀ k, ohas o k = true ↔ k ∈ o.map Prod.fst := by
    intro k; simp [ohas]
  have hval : ∀ v, validateShots v = none ↔ (v = .none ∨ ∃ z, v = .int z ∧ 0 < z) := by
    intro v
    cases v with
    | none => simp [validateShots]
    | int z => by_cases hz : z ≤ 0 <;> simp [validateShots, hz] <;> omega
    | bool b => simp [validateShots]
    | other t => simp [validateShots]
  cases hf : kw.find? fun p => !ohas o p.1 with
  | some p =>
    have hr : r = (o, some (.attribute p.1)) := by
      show updateOptions kw o = _
      rw [updateOptions, hf]
    have hm := List.mem_of_find?_eq_some hf
    have hp := List.find?_some hf
    rw [hr]
    refine ⟨fun _ => rfl, by simp, ?_⟩
    simp only [reduceCtorEq, false_iff]
    intro h
    have := (hhas p.1).2 (h.1 p hm)
    simp [this] at hp
  | none =>
    have hall : ∀ p ∈ kw, ohas o p.1 = true := by
      intro p hp
      have := List.find?_eq_none.1 hf p hp
      simpa using this
    have hall' : ∀ p ∈ kw, p.1 ∈ o.map Prod.fst := fun p hp => (hhas _).1 (hall p hp)
    cases hs : kw.lookup "shots" with
    | none =>
      have hr : r = (kw.foldl (fun o p => oset o p.1 p.2) o, none) := by
        show updateOptions kw o = _
        rw [updateOptions, hf]; simp only [hs]
      rw [hr]
      exact ⟨fun h => absurd rfl h, fun _ => ⟨fold_lookup kw o hn, fold_keys kw o hall⟩,
        fun _ => ⟨hall', fun v hv => by cases hv⟩, fun _ => rfl⟩
    | some v =>
      cases hv : validateShots v with
      | some e =>
        have hr : r = (o, some e) := by
          show updateOptions kw o = _
          rw [updateOptions, hf]; simp only [hs, hv]
        rw [hr]
        refine ⟨fun _ => rfl, by simp, ?_⟩
        simp only [reduceCtorEq, false_iff]
        intro h
        have := (hval v).2 (h.2 v rfl)
        rw [hv] at this
        cases this
      | none =>
        have hr : r = (kw.foldl (fun o p => oset o p.1 p.2) o, none) := by
          show updateOptions kw o = _
          rw [updateOptions, hf]; simp only [hs, hv]
        rw [hr]
        exact ⟨fun h => absurd rfl h, fun _ => ⟨fold_lookup kw o hn, fold_keys kw o hall⟩,
          fun _ => ⟨hall', fun w hw => by cases hw; exact (hval v).1 hv⟩, fun _ => rfl⟩

/-- After any sequence of updates (accepted or not) the keys are the initial ones. -/
theorem C38_history (o : Opts) (h : List Opts) (hn : ∀ kw ∈ h, (kw.map Prod.fst).Nodup) :
    (h.foldl (fun o kw => (updateOptions kw o).1) o).map Prod.fst = o.map Prod.fst := by
  induction h generalizing o with
  | nil => rfl
  | cons kw h ih =>
    rw [List.foldl_cons, ih _ fun k hk => hn k (List.mem_cons_of_mem _ hk)]
    obtain ⟨h1, h2, _⟩ := C38_atomic kw o (hn kw List.mem_cons_self)
    by_cases he : (updateOptions kw o).2 = none
    · exact (h2 he).2
    · rw [h1 he]

/-- A valid token together with invalid shots changes nothing. -/
example : updateOptions [("token", .other 5), ("shots", .int 0)]
    [("shots", .int 10), ("token", .other 1)] = ([("shots", .int 10), ("token", .other 1)],
      some .value) := by decide +kernel

end Verif.Props
