import Mathlib.Data.Rat.Defs
import Mathlib.Algebra.Order.Ring.Rat
import Mathlib.Algebra.Order.Group.Unbundled.Abs
import Mathlib.Data.List.Basic

/-!
# Quantum informed recursive optimisation (QIRO)

Model of /repo/src/qrisp/algorithms/qiro: the choice of the strongest correlation (qiroproblems/qiro_utils.py), the replacement routines of the independent
set, clique and satisfiability problems, the initial states and mixers as operations on bit strings.

Simplified: probabilities are rational numbers; a networkx graph without loops is the list of its nodes and the list of its edges, as
`graph.nodes()` and `graph.edges()` return them; removing nodes keeps the order.  `list(set(a) & set(a))` has the order of `a`.
-/

namespace Verif.Qiro

/-- The measured bit strings with their probabilities. -/
abbrev Results := List (List Bool × ℚ)

/-- `pow(-1, int(key[i]))`. -/
def pm1 (key : List Bool) (i : ℕ) : ℚ := if key.getD i false then -1 else 1

/-- qiro_utils.py:48-52. -/
def corr2 (res : Results) (i j : ℕ) : ℚ := (res.map fun e => e.2 * pm1 e.1 i * pm1 e.1 j).sum

/-- qiro_utils.py:62-65. -/
def corr1 (res : Results) (i : ℕ) : ℚ := (res.map fun e => e.2 * pm1 e.1 i).sum

/-- A node or a pair of nodes. -/
inductive Item where
  | node (i : ℕ)
  | pair (i j : ℕ)
  deriving DecidableEq

/-- `max_item` and `max`; `none` before something was found. -/
abbrev Best := Option (Item × ℚ)

/-- qiro_utils.py:55-57, 67-69. -/
def better (b : Best) (it : Item) (s : ℚ) : Best :=
  if |s| > |(b.map Prod.snd).getD 0| then some (it, s) else b

/-- qiro_utils.py:21-71 `find_max`. -/
def findMax (single : List ℕ) (double : List (ℕ × ℕ)) (res : Results) (sol : List ℕ) : Best :=
  let b := double.foldl (fun b p => if p.1 = p.2 then b else better b (.pair p.1 p.2) (corr2 res p.1 p.2)) none
  single.foldl (fun b v => if v ∈ sol then b else better b (.node v) (corr1 res v)) b

/-- The graph, the solutions and the exclusions (`problem_updated`). -/
structure Prob where
  nodes : List ℕ
  edges : List (ℕ × ℕ)
  sol : List ℕ
  exc : List ℕ
  deriving DecidableEq

/-- `list(graph.adj[v])`. -/
def nbrs (edges : List (ℕ × ℕ)) (v : ℕ) : List ℕ :=
  edges.filterMap fun e => if e.1 = v then some e.2 else if e.2 = v then some e.1 else none

/-- `remove_nodes_from`. -/
def Prob.remove (p : Prob) (l : List ℕ) : Prob := { p with
  nodes := p.nodes.filter fun v => decide (v ∉ l)
  edges := p.edges.filter fun e => decide (e.1 ∉ l ∧ e.2 ∉ l) }

/-- qiroMaxIndepSet.py:25-93 `create_max_indep_replacement_routine`.  Line 89 intersects the neighbours of the first node with themselves. -/
def misStep (res : Results) (p : Prob) : Prob := match findMax p.nodes p.edges res p.sol with
  | none => p
  | some (.node v, s) =>
    if s < 0 then
      let rem := nbrs p.edges v
      { p.remove rem with sol := p.sol ++ [v], exc := p.exc ++ rem }
    else if 0 < s then { p.remove [v] with exc := p.exc ++ [v] }
    else p
  | some (.pair i j, s) =>
    if 0 < s then { p.remove [i, j] with exc := p.exc ++ [i, j] }
    else if s < 0 then
      let rem := (nbrs p.edges i).filter fun v => decide (v ∈ nbrs p.edges i)
      { p.remove rem with exc := p.exc ++ rem }
    else p

/-- qiroMaxClique.py:26-103 `create_max_clique_replacement_routine`.  Line 83 intersects the neighbours of the first node with themselves. -/
def cliqueStep (res : Results) (p : Prob) : Prob := match findMax p.nodes p.edges res p.sol with
  | none => p
  | some (.node v, s) =>
    if s < 0 then
      let rem := p.nodes.filter fun u => decide (u ∉ nbrs p.edges v ++ [v])
      { p.remove rem with sol := p.sol ++ [v], exc := p.exc ++ rem }
    else if 0 < s then { p.remove [v] with exc := p.exc ++ [v] }
    else p
  | some (.pair i j, s) =>
    if 0 < s then
      let keep := ((nbrs p.edges i).filter fun v => decide (v ∈ nbrs p.edges i)) ++ [i, j]
      let rem := p.nodes.filter fun u => decide (u ∉ keep)
      { p.remove rem with sol := p.sol ++ [i, j], exc := p.exc ++ rem }
    else if s < 0 then
      let keep := nbrs p.edges i ++ nbrs p.edges j ++ [i, j]
      let rem := p.nodes.filter fun u => decide (u ∉ keep)
      { p.remove rem with exc := p.exc ++ rem }
    else p

/-- qiro_problem.py:175-184: the rounds; each has its own results. -/
def rounds (step : Results → Prob → Prob) (p : Prob) : List Results → Prob
  | [] => p
  | r :: rs => rounds step (step r p) rs

/-- The first problem. -/
def Prob.init (nodes : List ℕ) (edges : List (ℕ × ℕ)) : Prob := ⟨nodes, edges, [], []⟩

/-! ### Initial states and mixers on bit strings -/

/-- qiroMaxIndepSet.py:168-185 `qiro_max_indep_set_init_function`: the bit string of the initial state. -/
def misInit (sol : List ℕ) : ℕ → Bool := fun i => decide (i ∈ sol)

/-- qiroMaxIndepSet.py:151-161 `qiro_predicate`; `none`: the node is not in the graph (KeyError). -/
def misPredicate (p : Prob) (b : ℕ → Bool) (i : ℕ) : Option Bool :=
  if i ∈ p.nodes then some ((nbrs p.edges i).all fun j => !b j) else none

/-- qiro_mixers.py:125-131: the bit strings that the controlled mixer reaches from `b` at qubit `i`. -/
inductive MisMove (p : Prob) (n : ℕ) : (ℕ → Bool) → (ℕ → Bool) → Prop
  | stay (b) : MisMove p n b b
  | flip (b i) : i < n → i ∉ p.sol ++ p.exc → misPredicate p b i = some true → MisMove p n b (Function.update b i (!b i))

/-- The bit strings that have an amplitude after any number of layers (the cost operator is diagonal). -/
inductive MisReach (p : Prob) (n : ℕ) : (ℕ → Bool) → Prop
  | init : MisReach p n (misInit p.sol)
  | step {b c} : MisReach p n b → MisMove p n b c → MisReach p n c

/-! ### Satisfiability -/

/-- A clause: variables are numbered from 1, negative numbers are negated variables. -/
abbrev Clause := List ℤ

/-- The clauses, solutions and exclusions. -/
structure Sat where
  vars : ℕ
  clauses : List Clause
  sol : List ℕ
  exc : List ℕ
  deriving DecidableEq

/-- qiroMaxSat.py:71-97, one clause, for the literal `l` that becomes true: the new clause, or `none` if it is removed. -/
def fixClause (l : ℤ) (c : Clause) : Option Clause :=
  if l ∈ c then some []
  else if -l ∈ c then (if c.length = 1 then none else some (c.erase (-l)))
  else some c

/-- qiroMaxSat.py:71-97: `for sgl_clause in clauses`, with `clauses.remove(sgl_clause)` in the loop; `i` is the position of the iterator.  The result is
the list and the number of visited clauses. -/
def fixLoop (l : ℤ) : ℕ → ℕ → List Clause → List Clause × ℕ
  | 0, _, cs => (cs, 0)
  | fuel + 1, i, cs => match cs[i]? with
    | none => (cs, 0)
    | some c =>
      let r := fixLoop l fuel (i + 1) (match fixClause l c with
        | some c' => cs.set i c'
        | none => cs.erase c)
      (r.1, r.2 + 1)

/-- qiroMaxSat.py:105-110 (sign 1), 116-121 (sign -1), one clause: `j` is replaced by `sg * i`. -/
def substClause (i j sg : ℤ) (c : Clause) : Clause :=
  let c := if j ∈ c then c.set (c.idxOf j) (sg * i) else c
  if -j ∈ c then c.set (c.idxOf (-j)) (-(sg * i)) else c

/-- `combinations(l, 2)`. -/
def pairs : List ℕ → List (ℕ × ℕ)
  | [] => []
  | a :: l => l.map (fun b => (a, b)) ++ pairs l

/-- qiroMaxSetPack.py:39-40 `non_empty_intersection`: the edges of the constraint graph of a list of sets. -/
def packEdges (sets : List (List ℕ)) : List (ℕ × ℕ) :=
  (pairs (List.range sets.length)).filter fun e => (sets.getD e.1 []).any fun x => decide (x ∈ sets.getD e.2 [])

/-- qiroMaxSat.py:60: the variables from 0 that are not excluded. -/
def satNodes (p : Sat) : List ℕ := ((List.range p.vars).filter fun i => decide (i + 1 ∉ p.exc))

/-- qiroMaxSat.py:27-125 `create_maxsat_replacement_routine`. -/
def satStep (res : Results) (p : Sat) : Sat := match findMax (satNodes p) (pairs (satNodes p)) res p.sol with
  | none => p
  | some (.node v, s) =>
    let x : ℤ := v + 1
    if s < 0 then
      let r := fixLoop x p.clauses.length 0 p.clauses
      { p with clauses := r.1, sol := p.sol ++ List.replicate r.2 (v + 1), exc := p.exc ++ List.replicate r.2 (v + 1) }
    else if 0 < s then
      let r := fixLoop (-x) p.clauses.length 0 p.clauses
      { p with clauses := r.1, exc := p.exc ++ List.replicate r.2 (v + 1) }
    else p
  | some (.pair i j, s) =>
    if 0 < s then
      { p with clauses := p.clauses.map (substClause (i + 1) (j + 1) 1), exc := p.exc ++ List.replicate p.clauses.length (j + 1) }
    else if s < 0 then
      { p with clauses := p.clauses.map (substClause (i + 1) (j + 1) (-1)), exc := p.exc ++ List.replicate p.clauses.length (j + 1) }
    else p

/-- qiro_mixers.py:136-164 `qiro_init_function` for `n` qubits: each qubit is in the state |+⟩ (`none`) or has a value; the gates X of line 161-162 act one
after the other.  No result: a qubit does not exist (IndexError). -/
def initState (n : ℕ) (sol exc : List ℕ) : Option (List (Option Bool)) :=
  let s := (List.range n).map fun i => if i ∈ sol ++ exc then some false else none
  sol.foldlM (fun s i => if i < n then some (s.modify i (Option.map not)) else none) s

end Verif.Qiro
