import Verif.Tens.Run
import Mathlib.Algebra.Star.Rat

/-!
# C142 – C144: the quantum states of the simulator
-/

namespace Verif.Props

open Verif.Tens

set_option linter.unusedSectionVars false

variable {K : Type} [Field K] [StarRing K] [DecidableEq K]

/-! ### C142: states -/

/-- Any sequence of operations on a fresh state — matrices on any qubits, disentangling, new qubits, measurements — raises no exception,
gives the outcomes that the rules of quantum mechanics give for the random numbers, and the state vector has the amplitudes that these
rules give, up to one phase `c`; without measurements `c` is 1.  This does not depend on the order of Python's sets and on the estimates that
choose between sparse and dense arrays. -/
theorem state_history {E : Env K} (hE : E.Ok) (os : List (SOp K)) (n : Nat) (h : okRun n os) :
    ∃ s c, runS E os (initState n) = some ((runI E.root os (zeroI n)).1, s) ∧ star c * c = 1 ∧
      ((∀ o ∈ os, isMeasure o = false) → c = 1) ∧
      (0 < (runI E.root os (zeroI n)).2.n →
        eval E s = some ((allBits (runI E.root os (zeroI n)).2.n).map fun y => c * (runI E.root os (zeroI n)).2.amp fun q => y.getD q false)) := by
  obtain ⟨s, c, h1, h2, h3⟩ := run_rel hE os (zero_rel n) (by rw [(init_inv (K := K) n).2]; exact h)
  refine ⟨s, c, h1, h2.unit, h3, ?_⟩
  intro h0
  rw [eval_ok hE h2.inv (by rw [h2.n]; exact h0), h2.n]
  simp only [h2.amp]

/-- The assumptions on the square root hold for complex numbers. -/
theorem state_complex : Root complexRoot := complexRoot_ok

/-! ### C143: measurement of all qubits at the end -/

/-- After any such sequence, `multi_measure` of any different qubits lists every outcome of non-zero probability exactly once, with the
probability of Born's rule; bit `k` of the outcome is the value of the `k`-th qubit given. -/
theorem state_multi {E : Env K} (hE : E.Ok) (os : List (SOp K)) (n : Nat) (h : okRun n os) {s : State K} {l : List Bool}
    (hs : runS E os (initState n) = some (l, s)) {mes : List Nat} (hn : mes.Nodup) (hm : ∀ q ∈ mes, q < (runI E.root os (zeroI n)).2.n) :
    ((measureMany E s mes).map (·.1)).Nodup ∧
    (∀ x p, (x, p) ∈ measureMany E s mes ↔ x < 2 ^ mes.length ∧ p ≠ 0 ∧
      p = (runI E.root os (zeroI n)).2.born mes fun q => x.testBit (mes.idxOf q)) ∧
    ((measureMany E s mes).map (·.2)).sum = 1 := by
  obtain ⟨s', c, h1, h2, -⟩ := run_rel hE os (zero_rel n) (by rw [(init_inv (K := K) n).2]; exact h)
  rw [hs, Option.some.injEq, Prod.mk.injEq] at h1
  rw [← h1.2] at h2
  obtain ⟨a1, a2, a3, a4⟩ := measureMany_ok hE h2.inv hn (by rw [h2.n]; exact hm)
  refine ⟨a1, ?_, a4⟩
  intro x p
  have key : x < 2 ^ mes.length → num (mes.reverse.map fun q => x.testBit (mes.idxOf q)) = x := by
    intro hx
    refine Eq.trans ?_ (num_bitsOf hx)
    congr 1
    unfold bitsOf
    apply List.ext_getElem
    · simp
    · intro i h1 h2
      have hi : i < mes.length := by simpa using h2
      simp only [List.getElem_map, List.getElem_reverse, List.getElem_range]
      congr 1
      rw [List.Nodup.idxOf_getElem (xs := mes) hn]
  constructor
  · intro hxp
    have hx := a2 _ hxp
    have h3 := (a3 (fun q => x.testBit (mes.idxOf q)) p).1 (by rw [key hx]; exact hxp)
    rw [rel_born h2] at h3
    exact ⟨hx, h3.1, h3.2.symm⟩
  · rintro ⟨hx, hp, e⟩
    have h3 := (a3 (fun q => x.testBit (mes.idxOf q)) p).2 ⟨hp, by rw [rel_born h2]; exact e.symm⟩
    rwa [key hx] at h3

/-! ### C144: measurement of a qubit -/

/-- The two probabilities of a qubit sum up to one after any sequence of operations. -/
theorem state_born {E : Env K} (hE : E.Ok) (os : List (SOp K)) (n : Nat) (h : okRun n os) {q : Nat} (hq : q < (runI E.root os (zeroI n)).2.n) :
    (runI E.root os (zeroI n)).2.born1 q false + (runI E.root os (zeroI n)).2.born1 q true = 1 := by
  obtain ⟨s, c, -, h2, -⟩ := run_rel hE os (zero_rel n) (by rw [(init_inv (K := K) n).2]; exact h)
  have hq' : q < s.n := by rw [h2.n]; exact hq
  obtain ⟨r0, r1, m1, m2, m3⟩ := measureTF_ok hE.root (h2.inv.ok q hq') (h2.inv.mem q hq') (h2.inv.norm q hq')
  have e0 := (m3 false).1 (fun x => x == q && false) (by simp)
  have e1 := (m3 true).1 (fun x => x == q && true) (by simp)
  rw [← prob_obj h2.inv hq', prob_born h2] at e0 e1
  rw [← e0, ← e1]
  exact m2

/-- After any sequence of operations, a measurement returns an outcome of non-zero probability: the only possible one, or 0 if and only if
the random number is less than the probability of 0. -/
theorem state_measure {E : Env K} (hE : E.Ok) (os : List (SOp K)) (n : Nat) (h : okRun n os) {s : State K} {l : List Bool}
    (hs : runS E os (initState n) = some (l, s)) {q : Nat} (hq : q < (runI E.root os (zeroI n)).2.n) (less : K → Bool) (keep : Bool) :
    ∃ m s', measure E s q less keep = some (m, s') ∧ (runI E.root os (zeroI n)).2.born1 q m ≠ 0 ∧
      ((runI E.root os (zeroI n)).2.born1 q (!m) ≠ 0 → m = !less ((runI E.root os (zeroI n)).2.born1 q false)) := by
  obtain ⟨s1, c, h1, h2, -⟩ := run_rel hE os (zero_rel n) (by rw [(init_inv (K := K) n).2]; exact h)
  rw [hs, Option.some.injEq, Prod.mk.injEq] at h1
  rw [← h1.2] at h2
  obtain ⟨m, s', c', m1, m2, m3, -⟩ := measure_ok hE h2.inv (by rw [h2.n]; exact hq) less keep
  rw [prob_born h2, prob_born h2] at m2
  rw [prob_born h2] at m3
  refine ⟨m, s', m1, m3, ?_⟩
  intro h3
  unfold choose at m2
  by_cases e0 : (runI E.root os (zeroI n)).2.born1 q false = 0
  · rw [if_pos e0] at m2
    rw [m2] at h3
    exact absurd e0 h3
  · rw [if_neg e0] at m2
    by_cases e1 : (runI E.root os (zeroI n)).2.born1 q true = 0
    · rw [if_pos e1] at m2
      rw [m2] at h3
      exact absurd e1 h3
    · rw [if_neg e1] at m2
      exact m2

/-- Measuring the same qubit again, after any operations on other qubits, gives the same outcome; a qubit that is reset gives 0. -/
theorem state_repeat {E : Env K} (hE : E.Ok) (os : List (SOp K)) (n : Nat) (h : okRun n os) {q : Nat}
    (hq : q < (runI E.root os (zeroI n)).2.n) (less less' : K → Bool) (keep : Bool) :
    let v := (runI E.root os (zeroI n)).2
    let w := (stepI E.root v (.measure q less keep)).2
    w.outcome q less' = (keep && v.outcome q less) := by
  intro v w
  have hz : w.born1 q (!(keep && v.outcome q less)) = 0 := by
    unfold Ideal.born1 Ideal.born
    rw [tot_congr (G := fun _ => 0 * 0)]
    · rw [tot_const_mul, zero_mul]
    · intro b hb
      have hbq : b q = !(keep && v.outcome q less) := by
        rw [hb q (by simp)]
        simp
      have : w.amp b = 0 := by
        show (if b q = (keep && v.outcome q less) then _ else 0) = 0
        rw [if_neg (by rw [hbq]; cases keep && v.outcome q less <;> simp)]
      rw [this]
      simp
  have hsum : w.born1 q false + w.born1 q true = 1 := by
    obtain ⟨s, c, -, h2, -⟩ := run_rel hE os (zero_rel n) (by rw [(init_inv (K := K) n).2]; exact h)
    obtain ⟨s', c', -, h3, h4, -⟩ := step_rel hE h2 (o := .measure q less keep) (show q < s.n by rw [h2.n]; exact hq)
    have hq' : q < s'.n := by rw [h4]; show q < s.n; rw [h2.n]; exact hq
    obtain ⟨r0, r1, m1, m2, m3⟩ := measureTF_ok hE.root (h3.inv.ok q hq') (h3.inv.mem q hq') (h3.inv.norm q hq')
    have e0 := (m3 false).1 (fun x => x == q && false) (by simp)
    have e1 := (m3 true).1 (fun x => x == q && true) (by simp)
    rw [← prob_obj h3.inv hq', prob_born h3] at e0 e1
    refine Eq.trans ?_ m2
    rw [show r0.1 = w.born1 q false from e0, show r1.1 = w.born1 q true from e1]
  unfold Ideal.outcome
  generalize hx : (keep && v.outcome q less) = x at hz
  unfold Ideal.outcome at hx
  rw [hx]
  cases x with
  | false =>
    have h1 : w.born1 q true = 0 := hz
    rw [h1, add_zero] at hsum
    rw [if_neg (by rw [hsum]; exact one_ne_zero), if_pos h1]
  | true =>
    have h1 : w.born1 q false = 0 := hz
    rw [if_pos h1]

/-! ### Examples -/

/-- some square roots -/
def ratRoot (x : ℚ) : ℚ := if x = 9/25 then 3/5 else if x = 16/25 then 4/5 else if x = 144/625 then 12/25 else x

def stEnv : Env ℚ := ⟨ratRoot, fun _ b => ⟨b.shape.sum < 3, true⟩, fun _ _ => true, List.reverse⟩

/-- a rotation, and a controlled not -/
def stRot : List ℚ := [3/5, -4/5, 4/5, 3/5]
def stCx : List ℚ := [1, 0, 0, 0, 0, 1, 0, 0, 0, 0, 0, 1, 0, 0, 1, 0]

example : (runS stEnv [.apply stRot [2], .apply stCx [2, 0]] (initState 3)).bind (fun x => eval stEnv x.2) =
    some [3/5, 0, 0, 0, 0, 4/5, 0, 0] := by decide +kernel

example : ((runS stEnv [.apply stRot [2], .apply stCx [2, 0], .apply stRot [1]] (initState 3)).map fun x => measureMany stEnv x.2 [1, 2]) =
    some [(0, 81/625), (1, 144/625), (2, 144/625), (3, 256/625)] := by decide +kernel

example : (runS stEnv [.apply stRot [2], .apply stCx [2, 0], .measure 0 (fun p => decide (1/2 < p)) false] (initState 3)).bind
    (fun x => (eval stEnv x.2).map fun l => (x.1, l)) = some ([true], [0, 1, 0, 0, 0, 0, 0, 0]) := by decide +kernel

example : ((runS stEnv [.apply stRot [2], .apply stCx [2, 0], .apply stCx [2, 0], .disentangle 0] (initState 3)).map fun x =>
    (x.2.ptr.map fun i => (x.2.g i).qubits)) = some [[0], [1], [2]] := by decide +kernel

/-- the assumptions of the theorems are met -/
example : Env.Ok (⟨complexRoot, fun _ _ => ⟨true, true⟩, fun _ _ => true, List.reverse⟩ : Env ℂ) := ⟨state_complex, List.reverse_perm⟩

example : okRun 3 [.apply stRot [2], .apply stCx [2, 0], .measure 0 (fun _ => true) false, .add, .many [3, 0]] := by
  refine ⟨⟨by decide, by decide, by decide, by decide, ?_⟩, ⟨by decide, by decide, by decide, by decide, ?_⟩,
    (by decide : 0 < 3), trivial, ⟨by decide, by decide⟩, trivial⟩
  · unfold Isometry; decide +kernel
  · unfold Isometry; decide +kernel

end Verif.Props
