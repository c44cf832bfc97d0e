import Mathlib.Data.Rat.Defs
import Mathlib.Algebra.Order.Ring.Rat
import Mathlib.Data.List.Sort
import Mathlib.Data.Nat.Cast.Basic
import Mathlib.Algebra.Ring.Pi

/-!
# Sampling from Jasp programs

`sample`, `expectation_value` and `terminal_sampling`: the loop over the shots (program_control/sampling.py, ev.py) and its replacement in the
simulator, which runs the program once and draws all shots from the final state (terminal_sampling_interpreter.py).
-/

namespace Verif.Samp

/-! ### The loop -/

/-- One shot of `sampling_helper_1` (sampling.py:221-226): the measured integers of the returned variables. -/
abbrev Shot := List ℕ

/-- The loop of `sample` (sampling.py:203-269): `acc[i]` is the decoded and processed result of shot `i`. -/
def loopArray {V : Type} (dec : Shot → V) (shots : List Shot) : List V := shots.map dec

/-- The loop of `expectation_value` (ev.py:180-248). -/
def loopEv {m : ℕ} (dec : Shot → Fin m → ℚ) (shots : List Shot) : Fin m → ℚ :=
  (shots.foldl (fun acc s => acc + dec s) 0) / (shots.length : Fin m → ℚ)

/-! ### Dictionaries -/

/-- `d[k] = v`. -/
def put {K C : Type} [DecidableEq K] (d : List (K × C)) (k : K) (v : C) : List (K × C) :=
  if k ∈ d.map Prod.fst then d.map fun e => if e.1 = k then (k, v) else e else d ++ [(k, v)]

/-- `for e in l: d[e.1] = e.2`, starting with an empty dictionary. -/
def fromList {K C : Type} [DecidableEq K] (l : List (K × C)) : List (K × C) := l.foldl (fun d e => put d e.1 e.2) []

/-! ### Drawing the shots -/

/-- `gen_res_dict` (simulator.py:207-217). -/
def genResDict (samples : List ℕ) : List (ℕ × ℕ) :=
  ((List.range (samples.foldl max 0 + 1)).filter fun i => decide (samples.count i ≠ 0)).map fun i => (i, samples.count i)

/-- `BufferedQuantumState.multi_measure` with shots (buffered_quantum_state.py:141-148): `mes` are the integers of the outcomes, `samples` the indices that
were drawn. -/
def countDict (mes : List ℕ) (samples : List ℕ) : List (ℕ × ℕ) :=
  fromList ((genResDict samples).map fun e => (mes.getD e.1 0, e.2))

/-- Without shots (lines 149-153): the probabilities. -/
def probDict {C : Type} (mes : List ℕ) (probs : List C) : List (ℕ × C) := fromList (mes.zip probs)

/-! ### Decoding -/

/-- The parts of a measured integer (terminal_sampling_interpreter.py:261-268); `sizes` is `return_signature`. -/
def splitFrom : ℕ → List ℕ → ℕ → Shot
  | _, [], _ => []
  | j, s :: sizes, k => ((k &&& ((2 ^ s - 1) <<< j)) >>> j) :: splitFrom (j + s) sizes k

def split (sizes : List ℕ) (k : ℕ) : Shot := splitFrom 0 sizes k

/-- `sampling_res_dict` or `sampling_res` (lines 252-313): the value of each key is set. -/
def decoded {V C : Type} [DecidableEq V] (dec : Shot → V) (sizes : List ℕ) (d : List (ℕ × C)) : List (V × C) :=
  fromList (d.map fun e => (dec (split sizes e.1), e.2))

/-- Type `"array"` (lines 315-318), before it is shuffled: `np.repeat(keys, counts)`. -/
def termArray {V : Type} [DecidableEq V] (dec : Shot → V) (sizes : List ℕ) (d : List (ℕ × ℕ)) : List V :=
  (decoded dec sizes d).flatMap fun e => List.replicate e.2 e.1

/-- Type `"ev"` (lines 241, 283, 302, 322). -/
def termEv {m : ℕ} (dec : Shot → Fin m → ℚ) (sizes : List ℕ) (d : List (ℕ × ℕ)) (shots : ℕ) : Fin m → ℚ :=
  (d.foldl (fun acc e => acc + dec (split sizes e.1) * (e.2 : Fin m → ℚ)) 0) / (shots : Fin m → ℚ)

/-- Type `"dict"` (lines 325-328): sorted by the keys, then (`sorted` is stable) by decreasing values. -/
def termDict {V C : Type} [LinearOrder V] [LinearOrder C] (dec : Shot → V) (sizes : List ℕ) (d : List (ℕ × C)) : List (V × C) :=
  ((decoded dec sizes d).insertionSort fun a b => a.1 ≤ b.1).insertionSort fun a b => b.2 ≤ a.2

/-- What the program gets. -/
inductive Res (V : Type) where
  | array (l : List V)
  | dict (d : List (V × ℕ))
  deriving DecidableEq

/-- `sample(state_prep, shots, post_processor)` (sampling.py:281-286), called in a traced program that is simulated with terminal sampling, or from Python. -/
def sampleCall {U : Type} [LinearOrder U] (tracing : Bool) (dec : Shot → U) (post : U → U) (sizes : List ℕ)
    (mes samples : List ℕ) : Res U :=
  if tracing then .array (termArray (fun s => post (dec s)) sizes (countDict mes samples))
  else .dict (termDict dec sizes (countDict mes samples))

/-- `terminal_sampling_evaluator` of type `"dict"` or others with a number of shots (lines 159-166, 181-187): the body is evaluated once if the number
of shots is not 0; for type `"dict"` the loop runs once then, too.  `none`: there is no result. -/
def evaluated {R : Type} (isDict : Bool) (shots : ℕ) (res : R) : Option R :=
  let shots' := if isDict && shots == 0 then 1 else shots
  if 0 < shots' then some res else none

end Verif.Samp
