import Verif.Iface.Jobs

/-!
Property theorems C169: jobs of the provider backends.
-/

namespace Verif.Props
open Verif.Iface.Jobs

/-- The remote side has only one result to give. -/
def OneResult {R : Type} (r : R) (cs : List (Call R)) : Prop := ∀ r', Call.result (.ok r') ∈ cs → r' = r

/-- The contract of `Job.result`: it returns the result of the job or raises, it never returns `None`. -/
def Contract {R : Type} (r : R) (os : List (Out R)) : Prop := ∀ x, Out.value x ∈ os → x = some r

theorem run_append {R : Type} (f : Job R → Call R → Out R × Job R) : ∀ (j : Job R) (cs ds : List (Call R)),
    run f j (cs ++ ds) = ((run f j cs).1 ++ (run f (run f j cs).2 ds).1, (run f (run f j cs).2 ds).2)
  | j, [], ds => by simp [run]
  | j, c :: cs, ds => by
    simp only [List.cons_append, run, run_append f _ cs ds]

/-- An invariant of the job with a condition on the calls and on the outputs. -/
theorem run_inv {R : Type} (f : Job R → Call R → Out R × Job R) (I : Job R → Prop) (P : Call R → Prop) (O : Out R → Prop)
    (h : ∀ j c, I j → P c → O (f j c).1 ∧ I (f j c).2) : ∀ (cs : List (Call R)) (j : Job R), I j → (∀ c ∈ cs, P c) →
      (∀ o ∈ (run f j cs).1, O o) ∧ I (run f j cs).2
  | [], j, hj, _ => by simp [run, hj]
  | c :: cs, j, hj, hP => by
    have h1 := h j c hj (hP c List.mem_cons_self)
    have h2 := run_inv f I P O h cs _ h1.2 (fun c hc => hP c (List.mem_cons_of_mem _ hc))
    simp only [run, List.mem_cons, forall_eq_or_imp]
    exact ⟨⟨h1.1, h2.1⟩, h2.2⟩

/-- **C169** Jobs of the IQM backend keep the contract for every sequence of calls and answers. -/
theorem job_iqm {R : Type} (r : R) (cs : List (Call R)) (hr : OneResult r cs) : Contract r (run iqm Job.start cs).1 := by
  have := run_inv iqm (fun j => ∀ x, j.cache = some x → x = r) (fun c => ∀ r', c = .result (.ok r') → r' = r)
    (fun o => ∀ x, o = .value x → x = some r) ?_ cs Job.start (by simp [Job.start]) (fun c hc r' e => hr r' (e ▸ hc))
  · intro x hx
    exact this.1 _ hx x rfl
  · intro j c hj hP
    cases c with
    | status st => exact ⟨by simp [iqm], hj⟩
    | cancel st ok =>
      simp only [iqm]
      split
      · exact ⟨by simp, hj⟩
      · split <;> exact ⟨by simp, hj⟩
    | result a =>
      simp only [iqm]
      cases hc : j.cache with
      | some x =>
        have := hj x hc
        subst this
        refine ⟨by intro y hy; simpa using hy.symm, hj⟩
      | none =>
        simp only
        split
        · rename_i r'
          have := hP r' rfl
          subst this
          exact ⟨by intro y hy; simpa using hy.symm, by simp⟩
        · exact ⟨by simp, by simp⟩
        · exact ⟨by simp, by simp⟩
        · exact ⟨by simp, by simp⟩

/-- **C169** So do jobs of the AQT backend. -/
theorem job_aqt {R : Type} (r : R) (cs : List (Call R)) (hr : OneResult r cs) : Contract r (run aqt Job.start cs).1 := by
  have := run_inv aqt (fun _ => True) (fun c => ∀ r', c = .result (.ok r') → r' = r)
    (fun o => ∀ x, o = .value x → x = some r) ?_ cs Job.start trivial (fun c hc r' e => hr r' (e ▸ hc))
  · intro x hx
    exact this.1 _ hx x rfl
  · intro j c _ hP
    refine ⟨?_, trivial⟩
    intro x hx
    match c, hP, hx with
    | .status _, _, hx => simp [aqt] at hx
    | .cancel _ _, _, hx => simp [aqt] at hx
    | .result (.ok r'), hP, hx =>
      have := hP r' rfl
      subst this
      simpa [aqt] using hx.symm
    | .result (.timeout _), _, hx => simp [aqt] at hx
    | .result .broken, _, hx => simp [aqt] at hx
    | .result (.exc st), _, hx =>
      simp only [aqt, excOut] at hx
      split at hx <;> simp at hx

/-- The status that a call of a Qiskit job sets without a result, if any. -/
def observed {R : Type} : Call R → Option Status
  | .status st => some st
  | .cancel st _ => some st
  | .result (.timeout st) => some st
  | .result (.exc st) => some st
  | .result .broken => some .done
  | .result (.ok _) => none

/-- The cached result of a Qiskit job stays. -/
theorem qiskit_cached {R : Type} (r : R) (cs : List (Call R)) (j : Job R) (hj : j.cache = some r) (hr : OneResult r cs) :
    Contract r (run qiskit j cs).1 ∧ (run qiskit j cs).2.cache = some r := by
  have := run_inv qiskit (fun j => j.cache = some r) (fun c => ∀ r', c = .result (.ok r') → r' = r)
    (fun o => ∀ x, o = .value x → x = some r) ?_ cs j hj (fun c hc r' e => hr r' (e ▸ hc))
  · exact ⟨fun x hx => this.1 _ hx x rfl, this.2⟩
  · intro j c hj hP
    match c, hP with
    | .status _, _ => exact ⟨by simp [qiskit], hj⟩
    | .cancel _ _, _ => exact ⟨by simp [qiskit], hj⟩
    | .result a, hP =>
      simp only [qiskit]
      split
      · refine ⟨?_, hj⟩
        intro x hx
        simp only at hx
        split at hx
        · simp at hx
        · simp at hx
        · rw [hj] at hx
          simpa using hx.symm
      · match a, hP with
        | .ok r', hP =>
          have := hP r' rfl
          subst this
          exact ⟨by intro x hx; simpa using hx.symm, rfl⟩
        | .timeout _, _ => exact ⟨by simp, hj⟩
        | .broken, _ => exact ⟨by simp, hj⟩
        | .exc st, _ =>
          refine ⟨?_, hj⟩
          intro x hx
          simp only [excOut] at hx
          split at hx <;> simp at hx

/-- **C169** Jobs of the Qiskit backend keep the contract if nobody sees the status DONE before the first result: for
every sequence of calls without DONE as observed status, and every continuation after a successful `result()`. -/
theorem job_qiskit_partial {R : Type} (r : R) (cs : List (Call R)) (hr : OneResult r cs)
    (hd : ∀ c ∈ cs, observed c ≠ some .done) : Contract r (run qiskit Job.start cs).1 ∧
    ∀ ds, OneResult r ds → (run qiskit Job.start cs).2.cache = some r → Contract r (run qiskit Job.start (cs ++ ds)).1 := by
  have := run_inv qiskit (fun j => (j.last = .done → j.cache = some r) ∧ (∀ x, j.cache = some x → x = r))
    (fun c => observed c ≠ some .done ∧ ∀ r', c = .result (.ok r') → r' = r)
    (fun o => ∀ x, o = .value x → x = some r) ?_ cs Job.start (by simp [Job.start])
    (fun c hc => ⟨hd c hc, fun r' e => hr r' (e ▸ hc)⟩)
  · have h1 : Contract r (run qiskit Job.start cs).1 := fun x hx => this.1 _ hx x rfl
    refine ⟨h1, fun ds hds hc => ?_⟩
    intro x hx
    rw [run_append] at hx
    rcases List.mem_append.1 hx with h | h
    · exact h1 x h
    · exact (qiskit_cached r ds _ hc hds).1 x h
  · intro j c hj hP
    match c, hP with
    | .status st, hP =>
      have : st ≠ .done := by simpa [observed] using hP.1
      exact ⟨by simp [qiskit], by simp [qiskit, this]; exact hj.2⟩
    | .cancel st _, hP =>
      have : st ≠ .done := by simpa [observed] using hP.1
      exact ⟨by simp [qiskit], by simp [qiskit, this]; exact hj.2⟩
    | .result a, hP =>
      simp only [qiskit]
      split
      · rename_i hf
        refine ⟨?_, hj⟩
        intro x hx
        cases hl : j.last with
        | done =>
          rw [hl] at hx
          have := hj.1 hl
          simp only [this] at hx
          simpa using hx.symm
        | error => rw [hl] at hx; simp at hx
        | cancelled => rw [hl] at hx; simp at hx
        | initializing => rw [hl] at hf; simp [Status.final] at hf
        | queued => rw [hl] at hf; simp [Status.final] at hf
        | running => rw [hl] at hf; simp [Status.final] at hf
      · match a, hP with
        | .ok r', hP =>
          have := hP.2 r' rfl
          subst this
          exact ⟨by intro x hx; simpa using hx.symm, by simp⟩
        | .broken, hP => exact absurd rfl hP.1
        | .timeout st, hP =>
          have : st ≠ .done := by simpa [observed] using hP.1
          exact ⟨by simp, by simp [this]; exact hj.2⟩
        | .exc st, hP =>
          have : st ≠ .done := by simpa [observed] using hP.1
          refine ⟨?_, by simp [this]; exact hj.2⟩
          intro x hx
          simp only [excOut] at hx
          split at hx <;> simp at hx

/-- **C169** When the remote side gives the result, the user gets it: for IQM and AQT after any sequence of calls, for
Qiskit after any sequence that has shown no final status without a result. Missing for the full claim on Qiskit: sequences
that have seen DONE (see `job_qiskit_none_wrong`). -/
theorem job_returns_partial {R : Type} (r : R) (cs : List (Call R)) (hr : OneResult r cs) :
    (run iqm Job.start (cs ++ [.result (.ok r)])).1 = (run iqm Job.start cs).1 ++ [.value (some r)] ∧
    (run aqt Job.start (cs ++ [.result (.ok r)])).1 = (run aqt Job.start cs).1 ++ [.value (some r)] ∧
    ((∀ c ∈ cs, ∀ st, observed c = some st → st.final = false) →
      (run qiskit Job.start (cs ++ [.result (.ok r)])).1 = (run qiskit Job.start cs).1 ++ [.value (some r)]) := by
  refine ⟨?_, ?_, fun hf => ?_⟩
  · have hc := job_iqm r (cs ++ [.result (.ok r)]) (by
      intro r' h
      rcases List.mem_append.1 h with h | h
      · exact hr r' h
      · simpa using h)
    rw [run_append] at hc ⊢
    generalize (run iqm Job.start cs).2 = j at hc ⊢
    simp only [run, iqm] at hc ⊢
    cases hj : j.cache with
    | none => simp
    | some x =>
      have := hc (some x) (by simp [hj])
      rw [this]
  · rw [run_append]
    simp [run, aqt]
  · have h := run_inv qiskit (fun j => j.last.final = false ∨ (j.last = .done ∧ j.cache = some r))
      (fun c => (∀ st, observed c = some st → st.final = false) ∧ ∀ r', c = .result (.ok r') → r' = r)
      (fun _ => True) ?_ cs Job.start (Or.inl rfl) (fun c hc => ⟨hf c hc, fun r' e => hr r' (e ▸ hc)⟩)
    · rw [run_append]
      rcases h.2 with h | ⟨h, h'⟩
      · simp [run, qiskit, h]
      · simp [run, qiskit, h, h', Status.final]
    · intro j c hj hP
      refine ⟨trivial, ?_⟩
      match c, hP with
      | .status st, hP => exact Or.inl (hP.1 st rfl)
      | .cancel st _, hP => exact Or.inl (hP.1 st rfl)
      | .result a, hP =>
        simp only [qiskit]
        split
        · exact hj
        · match a, hP with
          | .ok r', hP => exact Or.inr ⟨rfl, by rw [hP.2 r' rfl]⟩
          | .timeout st, hP => exact Or.inl (hP.1 st rfl)
          | .exc st, hP => exact Or.inl (hP.1 st rfl)
          | .broken, hP => exact absurd (hP.1 .done rfl) (by decide)

/-- **C169** The claim is false for jobs of the Qiskit backend: after any sequence of calls in which no `result()` has
succeeded, if a status query (such as `done()`) shows DONE, `result()` returns `None`, whatever the remote side would
answer, and so does every later `result()`. -/
theorem job_qiskit_none_wrong {R : Type} (cs : List (Call R)) (h : ∀ x, Out.value (some x) ∉ (run qiskit Job.start cs).1)
    (a b : Answer R) :
    (run qiskit Job.start (cs ++ [.status .done, .result a, .result b])).1 =
      (run qiskit Job.start cs).1 ++ [.status .done, .value none, .value none] := by
  have key : ∀ (cs : List (Call R)) (j : Job R), j.cache = none → (∀ x, Out.value (some x) ∉ (run qiskit j cs).1) →
      (run qiskit j cs).2.cache = none := by
    intro cs
    induction cs with
    | nil => intro j hj _; exact hj
    | cons c cs ih =>
      intro j hj hx
      simp only [run] at hx ⊢
      apply ih
      · match c with
        | .status _ => exact hj
        | .cancel _ _ => exact hj
        | .result a =>
          simp only [qiskit] at hx ⊢
          split
          · exact hj
          · rename_i hf
            match a with
            | .timeout _ => exact hj
            | .exc _ => exact hj
            | .broken => exact hj
            | .ok r' =>
              exfalso
              apply hx r'
              rw [if_neg hf]
              exact List.mem_cons_self
      · intro x hm
        exact hx x (List.mem_cons_of_mem _ hm)
  have hc := key cs Job.start rfl h
  rw [run_append]
  simp [run, qiskit, Status.final, hc]

/-- **C169** A final status is not final for jobs of the IQM backend: after an accepted `cancel()` the last known status is
CANCELLED, and a later `status()` can show RUNNING again or `result()` can return counts. -/
theorem job_iqm_final_wrong : ∃ j : Job Nat, (run iqm Job.start [.cancel .running true]) = ([.bool true], j) ∧ j.last = .cancelled ∧
    (iqm j (.status .running)).2.last = .running ∧ iqm j (.result (.ok 7)) = (.value (some 7), ⟨.done, some 7⟩) :=
  ⟨⟨.cancelled, none⟩, rfl, rfl, rfl, rfl⟩

/-- The usual polling loop: queued, running, done, then the result. IQM and AQT give it, Qiskit gives `None`. -/
example : (run iqm Job.start [.status .queued, .status .running, .status .done, .result (.ok 7)]).1.getLast? = some (.value (some 7)) ∧
    (run aqt Job.start [.status .queued, .status .running, .status .done, .result (.ok 7)]).1.getLast? = some (.value (some 7)) ∧
    (run qiskit Job.start [.status .queued, .status .running, .status .done, .result (.ok 7)]).1.getLast? = some (.value none) ∧
    (run qiskit Job.start [.status .queued, .result (.ok 7), .status .done, .result (.ok 7)]).1.getLast? = some (.value (some 7)) := by
  decide +kernel

end Verif.Props
