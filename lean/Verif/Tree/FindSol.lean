import Verif.Tree.Backtrack
import Mathlib.Algebra.Order.Field.Rat
import Mathlib.Tactic.Linarith
import Mathlib.Data.List.Sort

/-
`find_solution` of the quantum backtracking tree (`backtracking_tree.py` lines 1756–1865): a classical
recursion around a quantum subroutine.  The subroutine (`init_node`, `estimate_phase`,
`multi_measurement`) is a parameter that returns a list of measured outcomes; nothing is assumed about
it here.
-/
namespace Verif.Tree

/-- One entry of the measurement dictionary (line 1797): whether the phase estimate is 0, the decoded
height, the branch array, and the probability. -/
structure Outcome where
  zero : Bool
  h : Int
  b : List Nat
  prob : ℚ

/-- What the call ends with. `raised` is either of the two "insufficient precision" exceptions or the
one of `Subtree`; `fuel` means the recursion was cut off by the model. -/
inductive Res
  | found (p : List Nat)
  | nothing
  | raised
  | fuel
deriving DecidableEq

/-- The list of nodes already checked; one mutable list shared by all calls (lines 1786–1788). -/
abbrev Trav := List (List Nat)

/-- The loop over the branches, lines 1833–1863. `rec` is the recursive call. -/
def branchLoop (rec : Trav → List Nat → Res × Trav) (n : Nat) (path : List Nat) : List Outcome → Trav → Res × Trav
  | [], tr => (.raised, tr)
  | o :: os, tr =>
    let q := pathDecoder (mkTree n) o.h o.b
    if tr.contains q || q == path then branchLoop rec n path os tr
    else
      match subtreeOf (mkTree n) q with
      | none => (.raised, tr)
      | some _ =>
        match rec tr q with
        | (.nothing, tr') => branchLoop rec n path os (tr' ++ [q])
        | r => r

/-- `find_solution`, lines 1756–1865, for the (sub)tree rooted at `path` in a tree of depth `n`. -/
def findSol (n : Nat) (accept : List Nat → Bool) (measure : Trav → List Nat → List Outcome) :
    Nat → Trav → List Nat → Res × Trav
  | 0, tr, _ => (.fuel, tr)
  | f + 1, tr, path =>
    if accept path then (.found path, tr)
    else if n - path.length = 0 then (.nothing, tr)
    else
      let zs := (measure tr path).filter (·.zero)
      let s : ℚ := (zs.map (·.prob)).sum
      if s ≤ (1 / 4 : ℚ) then (.nothing, tr)
      else if s ≤ (3 / 8 : ℚ) then (.raised, tr)
      else branchLoop (findSol n accept measure f) n path (zs.insertionSort (fun a b => a.h ≤ b.h)) tr

end Verif.Tree
