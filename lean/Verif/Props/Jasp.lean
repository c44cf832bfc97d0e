import Mathlib.Algebra.BigOperators.Group.List.Basic
import Verif.Jasp.InvertProof
import Verif.Jasp.ControlProof

/-!
# Properties of the transformations of Jasp programs (C131-C133)
-/

namespace Verif.Props

open Verif.Jasp

/-! ## Specifications -/

/-- The operator of a trace in a group, first operation first: only gates count. -/
def jaspOp {U G : Type} [Group G] (I : Ev U → G) (l : List (Ev U)) : G := ((gates l).map I).prod

/-- A measurement somewhere in the program, also in the programs that it contains. -/
def jHasMeas {U : Type} : P U → Bool
  | .done => false
  | .cls _ _ _ r => jHasMeas r
  | .add _ _ _ _ r => jHasMeas r
  | .mark _ _ _ r => jHasMeas r
  | .gate _ _ _ _ r => jHasMeas r
  | .meas _ _ _ => true
  | .reset _ r => jHasMeas r
  | .create _ _ r => jHasMeas r
  | .delete _ r => jHasMeas r
  | .call _ _ _ b _ _ r => jHasMeas b || jHasMeas r
  | .whl _ _ _ _ _ _ _ b _ _ _ r => jHasMeas b || jHasMeas r
  | .cond _ _ _ _ t _ _ f _ _ r => jHasMeas t || jHasMeas f || jHasMeas r

/-! ## C131: inversion -/

/-- C131.  The inverse of a Jasp program executes the inverse gates in reverse order on the same
    qubits, inside calls, loops and branches too; the allocations and deletions are
    the same; its result variables have the same values.  Under every interpretation of the gates
    in a group, it is the inverse of the program.  Partial: only for programs without resets, whose
    quantum calls have no results that are used, and whose loops carry nothing but the index
    (`WF`, `Unused`); see `jasp_invert_carry`, `jasp_invert_reset`, `jasp_invert_result`. -/
theorem jasp_invert_partial {U : Type} [InvolutiveInv U] {orc : List Int → Var → Int} {fuel : Nat}
    {p p' : P U} {live : List Var} {path : List Int} {Γ Δ : Ctx} {tr : List (Ev U)}
    (hw : WF p) (hu : Unused live p) (hi : inverse p = some p')
    (he : eval orc fuel p path Γ = some (Δ, tr)) :
    ∃ Δ' tr', eval orc fuel p' path Γ = some (Δ', tr') ∧ (∀ v ∈ live, Δ' v = Δ v) ∧
      gates tr' = ((gates tr).map Ev.inv).reverse ∧ (others tr').Perm (others tr) ∧
      ∀ (G : Type) [Group G] (I : Ev U → G), (∀ e, I e.inv = (I e)⁻¹) →
        jaspOp I tr' = (jaspOp I tr)⁻¹ := by
  obtain ⟨Δ', tr', h1, h2, h3, h4⟩ := inverse_undoes hw hu hi he
  refine ⟨Δ', tr', h1, h2, h3, h4, fun G _ I hI => ?_⟩
  unfold jaspOp
  rw [h3, List.map_reverse, List.map_map, List.prod_inv_reverse, List.map_map]
  congr 3
  funext e; exact hI e

/-- C131.  A program with a measurement anywhere is rejected. -/
theorem jasp_invert_measure {U : Type} [InvolutiveInv U] (p : P U) (h : jHasMeas p = true) :
    inverse p = none := by
  suffices inv p = none by simp [inverse, this]
  induction p with
  | done => simp [jHasMeas] at h
  | cls f i o r ih => simp [inv, ih h]
  | add s o a k r ih => simp [inv, ih h]
  | mark o u t r ih => simp [inv, ih h]
  | gate c u ps qs r ih => simp [inv, ih h]
  | meas o q r ih => rfl
  | reset q r ih => simp [inv, ih h]
  | create o s r ih => simp [inv, ih h]
  | delete a r ih => simp [inv, ih h]
  | call id ji jo b i o r ihb ih =>
    simp only [jHasMeas, Bool.or_eq_true] at h
    rcases h with h | h
    · simp [inv, ihb h]
    · cases hb : inv b <;> simp [inv, hb, ih h]
  | whl id ix le pa pb bi bo b k c o r ihb ih =>
    simp only [jHasMeas, Bool.or_eq_true] at h
    rcases h with h | h
    · simp [inv, ihb h]
    · simp only [inv, ih h, Option.map_none]
      rw [Option.bind_eq_none_iff]; intro _ _
      rw [Option.bind_eq_none_iff]; intro _ _
      rw [Option.bind_eq_none_iff]; intro _ _
      rw [Option.bind_eq_none_iff]; intro _ _
      rfl
  | cond id p ti tt t fi ft f i o r iht ihf ih =>
    simp only [jHasMeas, Bool.or_eq_true] at h
    rcases h with (h | h) | h
    · simp [inv, iht h]
    · cases ht : inv t <;> simp [inv, ht, ihf h]
    · cases ht : inv t <;> cases hf : inv f <;> simp [inv, ht, hf, ih h]

/-- Names of gates with their inverses, for the examples. -/
structure JG where
  name : String
  dg : Bool
deriving DecidableEq

instance : InvolutiveInv JG where
  inv g := ⟨g.name, !g.dg⟩
  inv_inv g := by cases g; simp

/-- Reading the qubit `x + k` of an array (classical equations). -/
def jGet (k : Int) : List Val → Option (List Val)
  | [.arr l, .int i] => ((l[(i + k).toNat]?).map Val.qb).map fun v => [v]
  | _ => none

/-- `h(qv[0])`, `with invert()`-ready GHZ ladder: `for i in jrange(2): cx(qv[i], qv[i+1])`; the array
    is variable 0, the threshold 1 variable 1, the start 0 variable 2. -/
def jGhz : P JG :=
  .cls (fun _ => some [.int 1]) [] [1] (.cls (fun _ => some [.int 0]) [] [2] (.cls (jGet 0) [0, 2] [3]
    (.gate [] (fun _ => ⟨"h", false⟩) [] [3]
    (.whl 7 1 true 1 0 [10, 11, 12] [11, 17]
      (.cls (jGet 0) [10, 12] [13] (.cls (jGet 1) [10, 12] [14]
        (.gate [] (fun _ => ⟨"cx", false⟩) [] [13, 14]
        (.add false 16 12 1 (.mark 17 16 11 .done)))))
      [0] [1, 2] [4, 5] .done))))

def jArr : Ctx := fun v => if v = 0 then some (.arr [.arg 0, .arg 1, .arg 2]) else none

def jTrace (p : P JG) (Γ : Ctx) : Option (List (Ev JG)) := (eval (fun _ _ => 0) 10 p [] Γ).map (·.2)

example : WF jGhz ∧ Unused [] jGhz ∧
    jTrace jGhz jArr = some [.gate ⟨"h", false⟩ [] [.arg 0], .gate ⟨"cx", false⟩ [] [.arg 0, .arg 1],
      .gate ⟨"cx", false⟩ [] [.arg 1, .arg 2]] ∧
    (inverse jGhz).bind (jTrace · jArr) = some [.gate ⟨"cx", true⟩ [] [.arg 1, .arg 2],
      .gate ⟨"cx", true⟩ [] [.arg 0, .arg 1], .gate ⟨"h", true⟩ [] [.arg 0]] := by
  refine ⟨?_, ?_, by decide +kernel, by decide +kernel⟩
  · simp only [jGhz, WF, Unused, P.opOuts, P.reads, P.writes, JBody]
    refine ⟨by decide, ⟨by decide, by simp⟩, by simp, by simp, trivial, trivial, trivial, ?_⟩
    refine Or.inl ⟨trivial, trivial, [10], [], 11, 12, 16, 17, .cls (jGet 0) [10, 12] [13] (.cls (jGet 1) [10, 12] [14]
        (.gate [] (fun _ => ⟨"cx", false⟩) [] [13, 14] .done)), .done, rfl, rfl, rfl, rfl, by decide, by decide, rfl, by decide, ?_, ?_⟩
    · simp [P.reads]
    · simp [P.writes]
  · simp [jGhz, Unused, P.opOuts, P.reads]

/-- The ladder written with a loop-carried qubit: `prev = qv[0]`, `for i in jrange(2):
    cx(prev, qv[i+1]); prev = qv[i+1]`. -/
def jLadder : P JG :=
  .cls (fun _ => some [.int 1]) [] [1] (.cls (fun _ => some [.int 0]) [] [2] (.cls (jGet 0) [0, 2] [3]
    (.whl 7 1 true 1 0 [10, 11, 12, 13] [11, 17, 14]
      (.cls (jGet 1) [10, 12] [14]
        (.gate [] (fun _ => ⟨"cx", false⟩) [] [13, 14]
        (.add false 16 12 1 (.mark 17 16 11 .done))))
      [0] [1, 2, 3] [4, 5, 6] .done)))

/-- C131, finding.  A loop in which a qubit is carried from one iteration to the next is inverted without an error, but the
    carried value still runs forward: the inverse of cx(0,1) cx(1,2) is computed as cx(0,2) cx(2,1). -/
theorem jasp_invert_carry :
    jTrace jLadder jArr = some [.gate ⟨"cx", false⟩ [] [.arg 0, .arg 1], .gate ⟨"cx", false⟩ [] [.arg 1, .arg 2]] ∧
    (inverse jLadder).bind (jTrace · jArr) = some [.gate ⟨"cx", true⟩ [] [.arg 0, .arg 2],
      .gate ⟨"cx", true⟩ [] [.arg 2, .arg 1]] := by
  decide +kernel

/-- C131, finding.  A reset is not rejected (as a measurement is) but executed at the
    beginning of the inverse, whatever the program. -/
theorem jasp_invert_reset {U : Type} [InvolutiveInv U] (u : List Int → U) :
    inverse (.gate [] u [] [0] (.reset 0 (.gate [] u [] [0] .done)) : P U) =
      some (.reset 0 (.gate [] (fun x => (u x)⁻¹) [] [0] (.gate [] (fun x => (u x)⁻¹) [] [0] .done))) := rfl

/-- A call that applies a gate and returns a number, which selects the next qubit. -/
def jUseResult : P JG :=
  .cls (fun _ => some [.int 0]) [] [1] (.cls (jGet 0) [0, 1] [2]
    (.call 3 [20] [21] (.gate [] (fun _ => ⟨"h", false⟩) [] [20] (.cls (fun _ => some [.int 1]) [] [21] .done))
      [2] [4]
    (.cls (jGet 0) [0, 4] [5] (.gate [] (fun _ => ⟨"t", false⟩) [] [5] .done))))

/-- C131, finding.  If the classical result of a quantum call is used, the inverse is built without an error but reads the
    result before the call: it cannot be executed. -/
theorem jasp_invert_result :
    jTrace jUseResult jArr = some [.gate ⟨"h", false⟩ [] [.arg 0], .gate ⟨"t", false⟩ [] [.arg 1]] ∧
    (inverse jUseResult).isSome = true ∧ (inverse jUseResult).bind (jTrace · jArr) = none := by
  decide +kernel

/-! ## C132: control -/

/-- C132.  Every gate of the controlled program has the new control in addition to its own;
    everything else is unchanged, inside calls, loops and branches too. -/
theorem jasp_control {U : Type} {orc : List Int → Var → Int} {fuel : Nat} {p : P U} {path : List Int}
    {Γ Δ : Ctx} {tr : List (Ev U)} {c : Var} {q : Qubit} (hf : Fresh c p) (hc : Γ c = some (.qb q))
    (he : eval orc fuel p path Γ = some (Δ, tr)) :
    eval orc fuel (ctl c p) path Γ = some (Δ, tr.map fun
      | .gate u cs qs => .gate u ((q, true) :: cs) qs
      | e => e) := by
  obtain ⟨d, h1, h2⟩ := eval_ctl hf (⟨fun _ _ => rfl, hc⟩ : Ext c q Γ Γ) he
  rw [h1]
  have : d = Δ := by
    funext v
    by_cases hv : v = c
    · subst hv; rw [h2.2, ← hc]; exact (eval_frame he v hf.not_mem.2).symm
    · exact (h2.1 v hv).symm
  rw [this]
  have hf : (addCtrl q : Ev U → Ev U) = fun
      | .gate u cs qs => .gate u ((q, true) :: cs) qs
      | e => e := by
    funext e; cases e <;> rfl
  rw [hf]

/-- C132.  A program with any number of controls and any control states: it executes its operations
    if all controls are in their states, else only measurements, resets, allocations and deletions; the controls
    are unchanged and the auxiliary qubit is 0 when it is deleted. -/
theorem jasp_multi_control_partial {U : Type} [DecidableEq U] {orc : List Int → Var → Int} {fuel : Nat} {x : U}
    {cs : List Bool} {cv : List Var} {s a g : Var} {p : P U}
    {path : List Int} {Γ Δ : Ctx} {tr : List (Ev U)} {Q : List Qubit}
    (he : eval orc fuel p path Γ = some (Δ, tr)) (hQ : gets Γ cv = some (Q.map Val.qb))
    (hl : Q.length = cs.length) (hcv : ∀ c ∈ cv, Fresh c p ∧ c ≠ s ∧ c ≠ a ∧ c ≠ g)
    (hs : Fresh s p) (ha : Fresh a p) (hg : Fresh g p) (hsa : s ≠ a) (hsg : s ≠ g) (hag : a ≠ g)
    (hanc : Qubit.fresh path a 0 ∉ Q) (ho : Outside (Qubit.fresh path a 0 :: Q) tr) :
    ∃ Δ' tr', eval orc fuel (multiCtl x cs cv s a g p) path Γ = some (Δ', tr') ∧
      (∀ v, v ≠ s → v ≠ a → v ≠ g → Δ' v = Δ v) ∧
      ∀ σ : Qubit → Bool,
        (runC x (Qubit.fresh path a 0 :: Q) σ tr').2 =
          (if ∀ c ∈ Q.zip cs, σ c.1 = c.2 then tr else others tr) ∧
        (∀ q ∈ Q, (runC x (Qubit.fresh path a 0 :: Q) σ tr').1 q = σ q) ∧
        (cv.length ≠ 1 → (runC x (Qubit.fresh path a 0 :: Q) σ tr').1 (Qubit.fresh path a 0) = false) := by
  obtain ⟨d, tr', h1, h2, h3⟩ := eval_multiCtl (x := x) he hQ hl hcv hs ha hg hsa hsg hag hanc
  refine ⟨d, tr', h1, fun v e1 e2 e3 => h2 v (by simp [auxOf, e1, e2, e3]), fun σ => ?_⟩
  obtain ⟨g1, g2, g3⟩ := h3 σ ho
  refine ⟨?_, g2, g3⟩
  rw [g1]
  congr 1
  simp

example : (jTrace (multiCtl ⟨"x", false⟩ [true, false] [50, 51] 60 61 62 jGhz)
    (fun v => if v = 50 then some (.qb (.arg 8)) else if v = 51 then some (.qb (.arg 9)) else jArr v)) =
    some [.create [.fresh [] 61 0], .gate ⟨"x", false⟩ [(.arg 8, true), (.arg 9, false)] [.fresh [] 61 0],
      .gate ⟨"h", false⟩ [(.fresh [] 61 0, true)] [.arg 0],
      .gate ⟨"cx", false⟩ [(.fresh [] 61 0, true)] [.arg 0, .arg 1],
      .gate ⟨"cx", false⟩ [(.fresh [] 61 0, true)] [.arg 1, .arg 2],
      .gate ⟨"x", false⟩ [(.arg 8, true), (.arg 9, false)] [.fresh [] 61 0], .delete [.fresh [] 61 0]] := by
  decide +kernel

/-- C132, finding.  Controlling a program with a measurement or a reset is not rejected: they are
    executed even if the control is inactive. -/
theorem jasp_control_reset {U : Type} [DecidableEq U] (x : U) (q : Qubit)
    (orc : List Int → Var → Int) (fuel : Nat) :
    ∃ Δ tr, eval orc fuel (ctl 1 (.reset 0 (.meas 2 0 .done)) : P U) []
        (fun v => if v = 0 then some (.qb q) else if v = 1 then some (.qb (.arg 9)) else none) = some (Δ, tr) ∧
      (runC x [.arg 9] (fun _ => false) tr).2 = [.reset [q], .meas [q]] :=
  ⟨_, [.reset [q], .meas [q]], rfl, rfl⟩

/-! ## C133: control states given as numbers -/

/-- C133, finding.  The control states for a number are in the opposite order in Jasp and everywhere else: control
    `j` of a Jasp program is active for the bit `n - 1 - j` of the number. -/
theorem jasp_ctrl_state (n k : Nat) : jaspCtrlState n k = (envCtrlState n k).reverse := by
  unfold jaspCtrlState envCtrlState
  apply List.ext_getElem
  · simp
  · intro j h1 h2
    simp

/-- C133.  They agree exactly for numbers whose bits are a palindrome; for 2 controls and 1 they
    differ. -/
theorem jasp_ctrl_state_agree (n k : Nat) :
    jaspCtrlState n k = envCtrlState n k ↔ ∀ j < n, k.testBit j = k.testBit (n - 1 - j) := by
  unfold jaspCtrlState envCtrlState
  rw [List.map_inj_left]
  simp only [List.mem_range]
  exact ⟨fun h j hj => (h j hj).symm, fun h j hj => (h j hj).symm⟩

theorem jasp_ctrl_state_differ : jaspCtrlState 2 1 = [false, true] ∧ envCtrlState 2 1 = [true, false] := by
  decide

end Verif.Props
