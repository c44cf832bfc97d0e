import Mathlib.Algebra.Order.Field.Rat
import Mathlib.Tactic.Linarith
import Mathlib.Tactic.FieldSimp
import Mathlib.Algebra.Order.Field.Basic
import Mathlib.Algebra.BigOperators.Group.List.Basic
import Mathlib.Tactic.Ring

/-
The library of example problems that ships with the counterdiabatic optimisation code:
eight matrices `Q3` … `Q10` and, next to each, a dictionary with its solution bit strings and
their costs (`algorithms/cold/problems/qubo_problems.py`).

The entries are multiples of 1/100 (0.25 and 0.35 occur), so the tables below hold one hundred
times the numbers in the source; bit strings are lists of Booleans, first character first.
-/
namespace Verif.Qubo

/-- One problem: the matrix and the dictionary of solutions beside it. -/
structure Problem where
  Q : List (List Int)
  sol : List (List Bool × Int)

/-- `Q3` and `solution3`, `qubo_problems.py` lines 4–5. -/
def problem3 : Problem :=
  { Q := [[-90, 50, 30],
           [50, -70, -40],
           [30, -40, 20]],
    sol := [([false, true, true], -130)] }

/-- `Q4` and `solution4`, `qubo_problems.py` lines 8–16. -/
def problem4 : Problem :=
  { Q := [[-100, 50, 40, 0],
           [50, -90, 60, 0],
           [40, 60, -80, -50],
           [0, 0, -50, 20]],
    sol := [([true, false, true, true], -180)] }

/-- `Q5` and `solution5`, `qubo_problems.py` lines 19–28. -/
def problem5 : Problem :=
  { Q := [[-120, 60, 60, 0, 0],
           [60, -80, 60, 0, 0],
           [60, 60, -90, -70, 0],
           [0, 0, -70, -40, 50],
           [0, 0, 0, 50, 30]],
    sol := [([false, false, true, true, false], -270), ([true, false, true, true, false], -270)] }

/-- `Q6` and `solution6`, `qubo_problems.py` lines 32–42. -/
def problem6 : Problem :=
  { Q := [[-110, 60, 40, 0, 0, 0],
           [60, -90, 50, 0, 0, 0],
           [40, 50, -100, -60, 0, 0],
           [0, 0, -60, -50, 60, 0],
           [0, 0, 0, 60, -30, 50],
           [0, 0, 0, 0, 50, -40]],
    sol := [([true, false, true, true, false, true], -340)] }

/-- `Q7` and `solution7`, `qubo_problems.py` lines 45–56. -/
def problem7 : Problem :=
  { Q := [[-120, 50, 40, 0, 0, 0, 0],
           [50, -100, 50, 0, 0, 0, 0],
           [40, 50, -90, -60, 0, 0, 0],
           [0, 0, -60, -70, 60, 0, 0],
           [0, 0, 0, 60, -40, 50, 0],
           [0, 0, 0, 0, 50, -30, 40],
           [0, 0, 0, 0, 0, 40, -20]],
    sol := [([true, false, true, true, false, true, false], -350)] }

/-- `Q8` and `solution8`, `qubo_problems.py` lines 59–71. -/
def problem8 : Problem :=
  { Q := [[-130, 60, 40, 0, 0, 0, 0, 0],
           [60, -100, 50, 0, 0, 0, 0, 0],
           [40, 50, -110, -60, 0, 0, 0, 0],
           [0, 0, -60, -60, 60, 0, 0, 0],
           [0, 0, 0, 60, -40, 50, 0, 0],
           [0, 0, 0, 0, 50, -30, 40, 0],
           [0, 0, 0, 0, 0, 40, -25, 30],
           [0, 0, 0, 0, 0, 0, 30, -20]],
    sol := [([true, false, true, true, false, true, false, true], -390)] }

/-- `Q9` and `solution9`, `qubo_problems.py` lines 74–87. -/
def problem9 : Problem :=
  { Q := [[-100, 40, 30, 0, 0, 0, 0, 0, 20],
           [40, -90, 60, 0, 0, 0, 0, 0, 0],
           [30, 60, -120, -50, 0, 0, 0, 0, 0],
           [0, 0, -50, -80, 70, 0, 0, 0, 0],
           [0, 0, 0, 70, -30, 60, 0, 0, 0],
           [0, 0, 0, 0, 60, -40, 50, 0, 0],
           [0, 0, 0, 0, 0, 50, -25, 40, 0],
           [0, 0, 0, 0, 0, 0, 40, -20, 35],
           [20, 0, 0, 0, 0, 0, 0, 35, -15]],
    sol := [([true, false, true, true, false, true, false, true, false], -400)] }

/-- `Q10` and `solution10`, `qubo_problems.py` lines 89–103. -/
def problem10 : Problem :=
  { Q := [[-150, 50, 30, 20, 0, 0, 10, 0, 0, 0],
           [50, -140, 40, 0, 20, 0, 0, 0, 0, 10],
           [30, 40, -130, -50, 0, 20, 0, 0, 10, 0],
           [20, 0, -50, -110, 50, 0, 0, 0, 0, 0],
           [0, 20, 0, 50, -100, 40, 10, 0, 0, 0],
           [0, 0, 20, 0, 40, -90, 30, 0, 0, 10],
           [10, 0, 0, 0, 10, 30, -80, 20, 0, 0],
           [0, 0, 0, 0, 0, 0, 20, -70, 25, 0],
           [0, 0, 10, 0, 0, 0, 0, 25, -60, 20],
           [0, 10, 0, 0, 0, 10, 0, 0, 20, -50]],
    sol := [([true, false, true, true, false, true, false, false, true, false], -400)] }

/-- `res @ Q`, entry by entry: the sum of the rows whose bit is set (first product of
`DCQOProblem.QUBO_cost`, `dcqo_problem.py` line 554), evaluated as a sum of row sums. -/
def rowSum : List Int → List Bool → Int
  | q :: r, b :: x => (if b then q else 0) + rowSum r x
  | _, _ => 0

/-- `DCQOProblem.QUBO_cost` (`dcqo_problem.py` lines 540–555): `res @ Q @ res`. -/
def costAux (y : List Bool) : List (List Int) → List Bool → Int
  | r :: Q, b :: x => (if b then rowSum r y else 0) + costAux y Q x
  | _, _ => 0

/-- `DCQOProblem.QUBO_cost` (`dcqo_problem.py` lines 540–555). -/
def quboCost (Q : List (List Int)) (x : List Bool) : Int := costAux x Q x

/-- The dictionary returned by `DCQOProblem.run` (lines 672–683): for each measured bit string
its probability and its cost. -/
def annotate (Q : List (List Int)) (m : List (List Bool × ℚ)) : List (List Bool × ℚ × ℚ) :=
  m.map fun e => (e.1, e.2, (quboCost Q e.1 : ℚ))

/-- `avg_qubo_cost`, `cold_benchmark.py` lines 1–7. -/
def avgCost (res : List (List Bool × ℚ × ℚ)) : ℚ := (res.map fun e => e.2.1 * e.2.2).sum

/-- `success_prob`, `cold_benchmark.py` lines 10–19: look up every solution, a missing key is
skipped. -/
def successProb (res : List (List Bool × ℚ × ℚ)) (sol : List (List Bool × Int)) : ℚ :=
  (sol.map fun s => match res.find? (fun e => e.1 == s.1) with
    | some e => e.2.1
    | none => 0).sum

/-- `approx_ratio`, `cold_benchmark.py` lines 22–27: the average cost over the cost of the first
solution; `none` is the `IndexError` of an empty dictionary. -/
def approxRatio (res : List (List Bool × ℚ × ℚ)) (sol : List (List Bool × Int)) : Option ℚ :=
  match sol with
  | [] => none
  | s :: _ => some (avgCost res / (s.2 : ℚ))

/-- All bit strings of length `n`. -/
def allBits : Nat → List (List Bool)
  | 0 => [[]]
  | n + 1 => (allBits n).flatMap fun x => [false :: x, true :: x]

theorem mem_allBits : ∀ (x : List Bool), x ∈ allBits x.length
  | [] => by simp [allBits]
  | b :: x => by
    have := mem_allBits x
    simp only [List.length_cons, allBits, List.mem_flatMap]
    exact ⟨x, this, by cases b <;> simp⟩

/-- The check run over a whole table: the listed costs are the costs, no string is cheaper, and
every string with the lowest cost is listed. -/
def good (n : Nat) (p : Problem) : Bool :=
  p.sol.all (fun s => s.1.length == n && quboCost p.Q s.1 == s.2 && decide (s.2 < 0)) &&
  (allBits n).all fun x =>
    p.sol.all (fun s => decide (s.2 ≤ quboCost p.Q x) &&
      (decide (s.2 < quboCost p.Q x) || p.sol.any fun t => t.1 == x))

end Verif.Qubo
