/-
Jobs of the provider backends (`interface/job.py`, `interface/provider_backends/qiskit_backend.py`, `iqm_backend.py`,
`aqt_backend.py`): what a sequence of calls of the user returns, whatever the remote side answers.

The counts of a job are one value of an arbitrary type: the conversion of the keys is not modelled here.
-/
namespace Verif.Iface.Jobs

/-- `JobStatus`, `job.py` lines 32–60. -/
inductive Status | initializing | queued | running | done | cancelled | error
deriving DecidableEq

/-- `JobStatus.final_states`, `job.py` lines 62–65. -/
def Status.final : Status → Bool
  | .done | .cancelled | .error => true
  | _ => false

/-- Attributes of a job: `_last_known_status` and `_cached_result` (`None` at the start). -/
structure Job (R : Type) where
  last : Status
  cache : Option R

/-- After `submit` (qiskit_backend.py lines 106–108, iqm_backend.py lines 113–115, aqt_backend.py lines 88–90). -/
def Job.start {R : Type} : Job R := ⟨.queued, none⟩

/-- How the remote `result()` ends: with the counts, with a `TimeoutError`, or with another exception; in these two
cases the status is asked for afterwards. `broken`: the job is finished, but fetching or converting the counts raises
(qiskit_backend.py lines 162–170, iqm_backend.py lines 165–172, aqt_backend.py lines 128–131). -/
inductive Answer (R : Type)
  | ok (r : R)
  | timeout (st : Status)
  | exc (st : Status)
  | broken

/-- A call of the user with what the remote side answers to it. `status` stands for `status()`, `refresh()`, `done()`,
`running()`, `queued()`, `cancelled()` and `in_final_state()`, which all call `status()` (job.py lines 383–421).
`cancel st ok`: the status at the time, and whether the remote `cancel()` returns without an exception. -/
inductive Call (R : Type)
  | status (st : Status)
  | result (a : Answer R)
  | cancel (st : Status) (ok : Bool)

/-- What the user gets: a status, a truth value, a result (`none` is Python's `None`), or an exception. -/
inductive Out (R : Type)
  | status (st : Status)
  | bool (b : Bool)
  | value (r : Option R)
  | failure
  | cancelledError
  | timeoutError
  | otherError
deriving DecidableEq

/-- The exception part of a failed remote `result()` (qiskit_backend.py lines 151–159, aqt_backend.py lines 117–125). -/
def excOut {R : Type} (st : Status) : Out R := if st = .cancelled then .cancelledError else .failure

/-- `QiskitJob`: `result` (lines 140–173), `cancel` (lines 186–192), `status` (lines 194–197). -/
def qiskit {R : Type} (j : Job R) : Call R → Out R × Job R
  | .status st => (.status st, { j with last := st })
  | .result a =>
    if j.last.final then
      -- `_raise_for_status`, then the cached result
      (match j.last with
        | .error => .failure
        | .cancelled => .cancelledError
        | _ => .value j.cache, j)
    else match a with
      | .ok r => (.value (some r), ⟨.done, some r⟩)
      | .timeout st => (.timeoutError, { j with last := st })
      | .exc st => (excOut st, { j with last := st })
      | .broken => (.otherError, { j with last := .done })
  | .cancel st ok => (.bool (!st.final && ok), { j with last := st })

/-- `IQMJob`: `result` (lines 142–175), `cancel` (lines 188–195), `status` (lines 197–204). `wait_for_completion`
ends with a status or an exception; `timeout` is one of the exceptions. -/
def iqm {R : Type} (j : Job R) : Call R → Out R × Job R
  | .status st => (.status st, { j with last := st })
  | .result a => match j.cache with
    | some r => (.value (some r), j)
    | none => match a with
      | .ok r => (.value (some r), ⟨.done, some r⟩)
      | .exc .cancelled => (.cancelledError, { j with last := .cancelled })
      | .broken => (.otherError, { j with last := .done })
      | _ => (.failure, { j with last := .error })
  | .cancel _ ok => if j.last.final then (.bool false, j) else if ok then (.bool true, { j with last := .cancelled }) else (.bool false, j)

/-- `AQTJob`: `result` (lines 115–132, nothing is cached), `cancel` (lines 134–143), `status` (lines 145–148). -/
def aqt {R : Type} (j : Job R) : Call R → Out R × Job R
  | .status st => (.status st, { j with last := st })
  | .result a => match a with
    | .ok r => (.value (some r), { j with last := .done })
    | .timeout st => (.timeoutError, { j with last := st })
    | .exc st => (excOut st, { j with last := st })
    | .broken => (.otherError, { j with last := .done })
  | .cancel _ _ => (.bool false, j)

/-- A sequence of calls: all outputs and the job at the end. -/
def run {R : Type} (f : Job R → Call R → Out R × Job R) : Job R → List (Call R) → List (Out R) × Job R
  | j, [] => ([], j)
  | j, c :: cs =>
    let (o, j') := f j c
    let (os, j'') := run f j' cs
    (o :: os, j'')

end Verif.Iface.Jobs
