import Verif.Jasp.JrangeLoop

/-!
# C138: loops over `jrange`

The theorem compares the compiled loop with the Python loop `for i in range(start, stop)` (`pyFor`, `pyRange`) on the same statements, for any meaning `F` of the
primitives.  The names whose value before an iteration is used in it are `Used`, and `source` says where the value of a name after an iteration comes from: from a
name before it (`inl`) or from an equation of it (`inr`).
-/

namespace Verif.Props
open Verif.Jasp.Jr

variable {S : Type}

/-- If different used names have different variables at the start of the first and of the second iteration, and every used name is either unchanged or
    computed in the iteration, then the loop compiles, and it computes the quantum state of the Python loop, for all bounds.
    Missing: names that get the value of another name (`jrange_swap`), names with the same value at the beginning (`jrange_start`) or after an iteration
    (`jrange_merge`). -/
theorem jrange_loop_partial {F : Op → List (Val S) → Option (List (Val S))} (hF : Std F) {b : List Stm} {t : Nat → Nat} {n : Nat} (h : Carried b t n)
    (cls : Nat → Bool) {later : List Nat} (hl : ∀ v ∈ later, v < (traceG id (iteration b) t n).2.2 ∨
      v = (traceG id (iteration b) (traceG id (iteration b) t n).2.1 (traceG id (iteration b) t n).2.2).2.1 nQ) :
    ∃ L, jrange cls b b t n later = some L ∧ ∀ (ρ : Nat → Option (Val S)) (start stop : Int) (fuel : Nat) (τ : Nat → Option (Val S)),
      (∀ m ∈ Used b, (ρ (t m)).isSome) → ρ (t nIdx) = some (.int start) → ρ (t nStop) = some (.int (stop - 1)) → (stop - start).toNat < fuel →
      pyFor F b (pyRange start stop) (ρ ∘ t) = some τ → L.exec F fuel ρ = τ nQ := by
  obtain ⟨L, h1, h2, h3, h4, h5⟩ := jrange_ok h cls later (by simp only [trace_inst] at hl; exact hl)
  exact ⟨L, h1, fun ρ start stop fuel τ hd e1 e2 hf hp => exec_ok hF h h2 h3 h4 h5 hd e1 e2 hp hf⟩

/-! ### Programs -/

/-- Gates on a qubit with a number, and addition. -/
def jF : Op → List (Val (List (String × Int))) → Option (List (Val (List (String × Int)))) := fun o xs => match xs with
  | [.int a, .q s] => if o.name = "jasp.quantum_gate" then some [.q (s ++ [(o.param, a)])] else if o = markOp then some [.int a] else none
  | [.int a, .int c] => if o = addOp then some [.int (a + c)] else if o = markOp then some [.int a] else none
  | [x, _] => if o = markOp then some [x] else none
  | _ => none

theorem jF_std : Std jF where
  add _ := rfl
  mark x y := by
    cases x with
    | int a => cases y with
      | int c => rfl
      | q s => rfl
    | q s => cases y with
      | int c => rfl
      | q s' => rfl

def jGate (g : String) (a : Nat) : Stm := .op ⟨"jasp.quantum_gate", g⟩ [.v a, .v nQ] [nQ]
def jAdd (c a b : Nat) : Stm := .op addOp [.v a, .v b] [c]

/-- `x(qv[a]); a = a + i`. -/
def jSum : List Stm := [jGate "x" 4, jAdd 4 4 nI]

/-- The executed gates of the compiled loop and of the Python loop, with `a = 1`, `b = 2`. -/
def jOut (t : Nat → Nat) (b1 b2 : List Stm) (start stop : Int) : Option (Option (Val (List (String × Int)))) :=
  (jrange (fun v => v ≠ 0 ∧ v ≠ 30) b1 b2 t 10 []).map fun L => L.exec jF 9 (fun v => if v = 0 then some (.q []) else if v = 1 then some (.int start)
    else if v = 2 then some (.int (stop - 1)) else some (.int ((v : Int) - 3)))

def jPy (b : List Stm) (start stop : Int) : Option (Option (Val (List (String × Int)))) :=
  (pyFor jF b (pyRange start stop) (fun v => if v = 0 then some (.q []) else some (.int ((v : Int) - 3)))).map fun σ => σ nQ

example : jOut id jSum jSum 0 4 = some (some (.q [("x", 1), ("x", 1), ("x", 2), ("x", 4)])) := by decide +kernel
example : jPy jSum 0 4 = some (some (.q [("x", 1), ("x", 1), ("x", 2), ("x", 4)])) := by decide +kernel
example : jOut id jSum jSum 3 1 = some (some (.q [])) := by decide +kernel

/-- The conditions of the theorem hold for this program. -/
theorem jSum_carried : Carried jSum id 10 := by
  have hu : ∀ m, m ∈ Used jSum ↔ m = 4 ∨ m = 1 ∨ m = 2 ∨ m = 0 := by
    intro m
    have hs : symIns jSum = [.inl 4, .inl 1, .inl 2, .inl 0] := by decide +kernel
    show Sum.inl m ∈ symIns jSum ↔ _
    rw [hs]
    simp
  refine ⟨?_, ?_, Function.injective_id.injOn, ?_, ?_⟩
  · intro s hs
    rcases List.mem_cons.mp hs with rfl | hs
    · decide
    · obtain rfl := List.mem_singleton.mp hs
      decide
  · intro m hm
    rcases (hu m).mp hm with rfl | rfl | rfl | rfl <;> decide
  · intro a ha c hc he
    rcases (hu a).mp ha with rfl | rfl | rfl | rfl <;> rcases (hu c).mp hc with rfl | rfl | rfl | rfl <;> revert he <;> decide +kernel
  · intro m hm
    rcases (hu m).mp hm with rfl | rfl | rfl | rfl
    · exact Or.inr ⟨1, by decide +kernel⟩
    · exact Or.inr ⟨3, by decide +kernel⟩
    · exact Or.inl (by decide +kernel)
    · exact Or.inr ⟨0, by decide +kernel⟩

example : ∃ L, jrange (fun _ => true) jSum jSum id 10 [] = some L := by
  obtain ⟨L, h, _⟩ := jrange_loop_partial jF_std jSum_carried (fun _ => true) (later := []) (by simp)
  exact ⟨L, h⟩

/-- `x(qv[a]); a, b = b, a + b`. -/
def jFib : List Stm := [jGate "x" 4, jAdd 6 4 5, .copy 4 5, .copy 5 6]

/-- A number that gets the value another number had before the iteration is never updated: the program of the Fibonacci numbers compiles, and `a` keeps
    its first value. -/
theorem jrange_swap : jOut id jFib jFib 0 4 = some (some (.q [("x", 1), ("x", 1), ("x", 1), ("x", 1)])) ∧
    jPy jFib 0 4 = some (some (.q [("x", 1), ("x", 2), ("x", 3), ("x", 5)])) := by decide +kernel

/-- The rule that does this, for all variables: nothing is an error if the next value of a number is not computed in the iteration. -/
theorem jrange_rule_none {cls : Nat → Bool} {outs : List Nat} {v1 v2 : Nat} (h : v2 ∉ outs) (hc : cls v2 = true) : rule cls outs v1 v2 = some none := by
  simp [rule, h, hc]

/-- A body that applies another gate in the second iteration is not rejected: all gates are one primitive, and the loop repeats the first gate. -/
theorem jrange_gate (g1 g2 : String) : jrange (fun _ => true) [jGate g1 nI] [jGate g2 nI] id 10 [] = jrange (fun _ => true) [jGate g1 nI] [jGate g1 nI] id 10 [] :=
  rfl

example : jOut id [jGate "x" nI] [jGate "y" nI] 0 3 = some (some (.q [("x", 0), ("x", 1), ("x", 2)])) := by decide +kernel

/-- Parameters of primitives and outputs are not compared, whatever the equations are. -/
theorem jrange_verify_params (ins : List Nat) (E : List (Eqn Nat)) (p : Eqn Nat → String) (o : Eqn Nat → List Nat) : ∀ (E' : List (Eqn Nat)) (d : Nat → Option (Atom Nat)),
    verify ins E (E'.map fun q => ⟨⟨q.op.name, p q⟩, q.ins, o q⟩) d = verify ins E E' d := by
  induction E with
  | nil => intros; rfl
  | cons a E ih =>
    intro E'
    induction E' with
    | nil => intro d; rfl
    | cons q E' _ =>
      intro d
      simp only [List.map_cons, verify]
      split
      · cases checkAtoms a.ins q.ins d with
        | none => rfl
        | some d' => exact ih E' d'
      · split
        · have := ih (q :: E') d
          simpa only [List.map_cons] using this
        · rfl

/-- A body that uses the start of the range is rejected if the iterator takes the variable itself as its index:
    the two have the same variable in the first iteration and different ones in the second. -/
theorem jrange_start : jOut (fun m => if m = 4 then 1 else m) [jAdd 5 nI 4, jGate "x" 5] [jAdd 5 nI 4, jGate "x" 5] 0 3 = none ∧
    jOut id [jAdd 5 nI 4, jGate "x" 5] [jAdd 5 nI 4, jGate "x" 5] 0 3 = some (some (.q [("x", 1), ("x", 2), ("x", 3)])) := by decide +kernel

/-- Two names that get the same value in an iteration are one input of the second one, which then has too few: `a = b = a + b`. -/
theorem jrange_merge : jOut id [jGate "x" 4, jAdd 6 4 5, .copy 4 6, .copy 5 6] [jGate "x" 4, jAdd 6 4 5, .copy 4 6, .copy 5 6] 0 3 = none ∧
    jPy [jGate "x" 4, jAdd 6 4 5, .copy 4 6, .copy 5 6] 0 3 = some (some (.q [("x", 1), ("x", 3), ("x", 6)])) := by decide +kernel

/-- A value computed in the loop and used after it is rejected. -/
theorem jrange_external {cls : Nat → Bool} {e1 e2 : EnvE Nat} (h : 1 < e2.outs.length) : compile cls e1 e2 = none := if_pos h

end Verif.Props
