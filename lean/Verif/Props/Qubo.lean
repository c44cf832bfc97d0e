import Verif.Opt.Qubo

/-!
Property theorems C165: the example problems of the counterdiabatic optimiser and the benchmark
numbers computed from their solution tables.
-/

namespace Verif.Props
open Verif.Qubo

/-- Written independently of the model: the sum of all entries whose row and column bit is set. -/
def quboObjective (Q : List (List Int)) (x : List Bool) : Int :=
  ((List.range x.length).map fun i => ((List.range x.length).map fun j =>
    if x.getD i false && x.getD j false then (Q.getD i []).getD j 0 else 0).sum).sum

/-- `p` is a correct entry of the library for `n` variables: there is a solution, every listed
string has length `n` and the listed (negative) cost, no string of length `n` is cheaper, and no
optimal string is missing. -/
def CorrectEntry (n : Nat) (p : Problem) : Prop :=
  p.sol ≠ [] ∧
  (∀ s ∈ p.sol, s.1.length = n ∧ quboObjective p.Q s.1 = s.2 ∧ s.2 < 0) ∧
  (∀ s ∈ p.sol, ∀ x : List Bool, x.length = n → s.2 ≤ quboObjective p.Q x) ∧
  (∀ s ∈ p.sol, ∀ x : List Bool, x.length = n → quboObjective p.Q x = s.2 → ∃ t ∈ p.sol, t.1 = x)

theorem rowSum_eq : ∀ (r : List Int) (y : List Bool),
    rowSum r y = ((List.range y.length).map fun j => if y.getD j false then r.getD j 0 else 0).sum
  | [], y => by
    have : rowSum [] y = 0 := by simp [rowSum]
    rw [this]; symm
    apply List.sum_eq_zero
    intro a ha
    simp only [List.mem_map] at ha
    obtain ⟨j, _, rfl⟩ := ha
    simp
  | q :: r, [] => by simp [rowSum]
  | q :: r, b :: y => by
    rw [rowSum, rowSum_eq r y, List.length_cons, List.range_succ_eq_map, List.map_cons, List.sum_cons,
      List.map_map]
    simp [Function.comp_def]

theorem costAux_eq (y : List Bool) : ∀ (Q : List (List Int)) (x : List Bool),
    costAux y Q x = ((List.range x.length).map fun i => if x.getD i false then rowSum (Q.getD i []) y else 0).sum
  | [], x => by
    have h : costAux y [] x = 0 := by simp [costAux]
    rw [h]; symm
    apply List.sum_eq_zero
    intro a ha
    simp only [List.mem_map] at ha
    obtain ⟨j, _, rfl⟩ := ha
    have : rowSum [] y = 0 := by simp [rowSum]
    simp [this]
  | r :: Q, [] => by simp [costAux]
  | r :: Q, b :: x => by
    rw [costAux, costAux_eq y Q x, List.length_cons, List.range_succ_eq_map, List.map_cons, List.sum_cons,
      List.map_map]
    simp [Function.comp_def]

/-- **C165** The cost function is the quadratic form, for every matrix and every bit string. -/
theorem qubo_cost (Q : List (List Int)) (x : List Bool) : quboCost Q x = quboObjective Q x := by
  rw [quboCost, costAux_eq, quboObjective]
  congr 1
  apply List.map_congr_left
  intro i _
  rw [rowSum_eq]
  cases x.getD i false
  · simp
  · simp

theorem correct_of_good {n : Nat} {p : Problem} (h0 : p.sol ≠ []) (h : good n p = true) : CorrectEntry n p := by
  simp only [good, Bool.and_eq_true, List.all_eq_true, decide_eq_true_eq, beq_iff_eq, Bool.or_eq_true,
    List.any_eq_true] at h
  obtain ⟨h1, h2⟩ := h
  refine ⟨h0, ?_, ?_, ?_⟩
  · intro s hs
    have := h1 s hs
    exact ⟨this.1.1, (qubo_cost _ _) ▸ this.1.2, this.2⟩
  · intro s hs x hx
    have := (h2 x (hx ▸ mem_allBits x) s hs).1
    rwa [qubo_cost] at this
  · intro s hs x hx he
    have := (h2 x (hx ▸ mem_allBits x) s hs).2
    rw [qubo_cost] at this
    rcases this with h | ⟨t, ht, e⟩
    · omega
    · exact ⟨t, ht, e⟩

/-- **C165** The entries for three to nine variables are correct; the entry for ten is not (next
theorem), so the claim about the whole library is only partly true. -/
theorem qubo_library_partial : CorrectEntry 3 problem3 ∧ CorrectEntry 4 problem4 ∧ CorrectEntry 5 problem5 ∧
    CorrectEntry 6 problem6 ∧ CorrectEntry 7 problem7 ∧ CorrectEntry 8 problem8 ∧ CorrectEntry 9 problem9 :=
  ⟨correct_of_good (by decide +kernel) (by decide +kernel), correct_of_good (by decide +kernel) (by decide +kernel),
   correct_of_good (by decide +kernel) (by decide +kernel), correct_of_good (by decide +kernel) (by decide +kernel),
   correct_of_good (by decide +kernel) (by decide +kernel), correct_of_good (by decide +kernel) (by decide +kernel),
   correct_of_good (by decide +kernel) (by decide +kernel)⟩

/-- **C165** The entry for ten variables is wrong three times over: the listed string does not
have the listed cost (it costs -4.8, not -4.0), it is not optimal, and the optimal cost is -5.4. -/
theorem qubo_ten_wrong : ¬ CorrectEntry 10 problem10 ∧
    (∃ s ∈ problem10.sol, s.2 = -400 ∧ quboObjective problem10.Q s.1 = -480) ∧
    (∃ x : List Bool, x.length = 10 ∧ quboObjective problem10.Q x = -540) ∧
    (∀ x : List Bool, x.length = 10 → -540 ≤ quboObjective problem10.Q x) := by
  have hall : ((allBits 10).all fun x => decide (-540 ≤ quboCost problem10.Q x)) = true := by decide +kernel
  refine ⟨?_, ⟨_, List.mem_singleton.2 rfl, rfl, by decide +kernel⟩,
    ⟨[true, false, true, true, false, true, false, true, false, true], rfl, by decide +kernel⟩, ?_⟩
  · rintro ⟨_, h, _⟩
    have := (h _ (List.mem_singleton.2 rfl)).2.1
    revert this
    decide +kernel
  · intro x hx
    rw [List.all_eq_true] at hall
    have := hall x (hx ▸ mem_allBits x)
    rw [← qubo_cost]
    simpa using this

/-- A measurement: bit strings of length `n` with probabilities that add up to 1. -/
def Measured (n : Nat) (m : List (List Bool × ℚ)) : Prop :=
  (∀ e ∈ m, e.1.length = n ∧ 0 ≤ e.2) ∧ (m.map (·.2)).sum = 1

theorem avg_ge {n : Nat} {p : Problem} {c : Int} (hc : ∀ x : List Bool, x.length = n → c ≤ quboObjective p.Q x) :
    ∀ m : List (List Bool × ℚ), (∀ e ∈ m, e.1.length = n ∧ 0 ≤ e.2) →
      (c : ℚ) * (m.map (·.2)).sum ≤ avgCost (annotate p.Q m)
  | [], _ => by simp [avgCost, annotate]
  | e :: m, h => by
    have ih := avg_ge hc m (fun e he => h e (List.mem_cons_of_mem _ he))
    have he := h e (List.mem_cons_self)
    have h1 : (c : ℚ) ≤ (quboCost p.Q e.1 : ℚ) := by
      rw [qubo_cost]; exact_mod_cast hc e.1 he.1
    simp only [avgCost, annotate, List.map_cons, List.sum_cons] at ih ⊢
    nlinarith [mul_le_mul_of_nonneg_left h1 he.2]

/-- **C165** With a correct library entry the approximation ratio of every measurement is at
most 1. -/
theorem qubo_ratio_le_one {n : Nat} {p : Problem} (hp : CorrectEntry n p) (m : List (List Bool × ℚ))
    (hm : Measured n m) : ∃ r, approxRatio (annotate p.Q m) p.sol = some r ∧ r ≤ 1 := by
  obtain ⟨h0, h1, h2, _⟩ := hp
  match hs : p.sol, h0 with
  | s :: t, _ =>
    have hmem : s ∈ p.sol := by rw [hs]; exact List.mem_cons_self
    have := avg_ge (p := p) (h2 s hmem) m hm.1
    rw [hm.2, mul_one] at this
    have hneg : (s.2 : ℚ) < 0 := by exact_mod_cast (h1 s hmem).2.2
    refine ⟨_, rfl, ?_⟩
    exact (div_le_iff_of_neg hneg).2 (by linarith)

theorem sum_pick (a : List Bool) (w : ℚ) : ∀ sol : List (List Bool × Int), (sol.map (·.1)).Nodup →
    (sol.map fun s => if a = s.1 then w else 0).sum = if a ∈ sol.map (·.1) then w else 0
  | [], _ => by simp
  | s :: sol, h => by
    rw [List.map_cons, List.nodup_cons] at h
    have ih := sum_pick a w sol h.2
    rw [List.map_cons, List.sum_cons, ih]
    by_cases e : a = s.1
    · subst e
      rw [if_pos rfl, if_neg h.1, if_pos (by simp), add_zero]
    · rw [if_neg e, zero_add, List.map_cons]
      simp only [List.mem_cons, e, false_or]

theorem success_eq (Q : List (List Int)) (sol : List (List Bool × Int)) (hs : (sol.map (·.1)).Nodup) :
    ∀ m : List (List Bool × ℚ), (m.map (·.1)).Nodup →
      successProb (annotate Q m) sol = ((m.filter fun e => decide (e.1 ∈ sol.map (·.1))).map (·.2)).sum
  | [], _ => by simp [successProb, annotate]
  | e :: m, h => by
    rw [List.map_cons, List.nodup_cons] at h
    have ih := success_eq Q sol hs m h.2
    have split1 : successProb (annotate Q (e :: m)) sol =
        (sol.map fun s => if e.1 = s.1 then e.2 else 0).sum + successProb (annotate Q m) sol := by
      rw [successProb, successProb, ← List.sum_map_add]
      congr 1
      apply List.map_congr_left
      intro s _
      simp only [annotate, List.map_cons, List.find?_cons]
      by_cases hk : e.1 = s.1
      · have : (m.map fun e => (e.1, e.2, (quboCost Q e.1 : ℚ))).find? (fun x => x.1 == s.1) = none := by
          rw [List.find?_eq_none]
          intro x hx
          obtain ⟨y, hy, rfl⟩ := List.mem_map.1 hx
          have : y.1 ≠ s.1 := fun h' => h.1 (List.mem_map.2 ⟨y, hy, h'.trans hk.symm⟩)
          simpa using this
        rw [this]
        simp [hk]
      · have : (e.1 == s.1) = false := by simpa using hk
        simp [this, hk]
    rw [split1, sum_pick _ _ _ hs, ih, List.filter_cons]
    by_cases hk : e.1 ∈ sol.map (·.1)
    · rw [if_pos hk, if_pos (by exact decide_eq_true hk), List.map_cons, List.sum_cons]
    · rw [if_neg hk, if_neg (by rw [decide_eq_false hk]; simp), zero_add]

/-- **C165** With a correct library entry that lists no string twice, the success probability of a measurement is the
total probability of the strings that no other string beats. -/
theorem qubo_success {n : Nat} {p : Problem} (hp : CorrectEntry n p) (hs : (p.sol.map (·.1)).Nodup)
    (m : List (List Bool × ℚ)) (hm : Measured n m) (hk : (m.map (·.1)).Nodup) :
    ∃ best : List Bool → Bool,
      (∀ e ∈ m, best e.1 = true ↔ ∀ x : List Bool, x.length = n → quboObjective p.Q e.1 ≤ quboObjective p.Q x) ∧
      successProb (annotate p.Q m) p.sol = ((m.filter fun e => best e.1).map (·.2)).sum := by
  refine ⟨fun k => decide (k ∈ p.sol.map (·.1)), ?_, success_eq _ _ hs m hk⟩
  obtain ⟨h0, h1, h2, h3⟩ := hp
  intro e he
  rw [decide_eq_true_iff]
  constructor
  · intro hmem x hx
    obtain ⟨s, hs', e'⟩ := List.mem_map.1 hmem
    rw [← e', (h1 s hs').2.1]
    exact h2 s hs' x hx
  · intro hopt
    obtain ⟨s, hs'⟩ := List.exists_mem_of_ne_nil _ h0
    have l1 := hopt s.1 (h1 s hs').1
    rw [(h1 s hs').2.1] at l1
    have l2 := h2 s hs' e.1 (hm.1 e he).1
    obtain ⟨t, ht, e'⟩ := h3 s hs' e.1 (hm.1 e he).1 (le_antisymm l1 l2)
    exact List.mem_map.2 ⟨t, ht, e'⟩

/-- The entries for three to nine variables list no string twice. -/
example : (problem3.sol.map (·.1)).Nodup ∧ (problem4.sol.map (·.1)).Nodup ∧ (problem5.sol.map (·.1)).Nodup ∧
    (problem6.sol.map (·.1)).Nodup ∧ (problem7.sol.map (·.1)).Nodup ∧ (problem8.sol.map (·.1)).Nodup ∧
    (problem9.sol.map (·.1)).Nodup := by decide +kernel

/-- **C165** With the entry for ten variables a measurement that always returns an optimal string
gets the approximation ratio 1.35 and success probability 0. -/
theorem qubo_ten_ratio_wrong : ∃ m : List (List Bool × ℚ), Measured 10 m ∧
    (∀ e ∈ m, ∀ x : List Bool, x.length = 10 → quboObjective problem10.Q e.1 ≤ quboObjective problem10.Q x) ∧
    approxRatio (annotate problem10.Q m) problem10.sol = some (135 / 100) ∧
    successProb (annotate problem10.Q m) problem10.sol = 0 := by
  have hq : quboObjective problem10.Q [true, false, true, true, false, true, false, true, false, true] = -540 := by
    decide +kernel
  refine ⟨[([true, false, true, true, false, true, false, true, false, true], 1)], ⟨?_, by simp⟩, ?_, ?_, ?_⟩
  · intro e he
    rw [List.mem_singleton] at he
    subst he
    exact ⟨rfl, by norm_num⟩
  · intro e he x hx
    rw [List.mem_singleton] at he
    subst he
    exact hq ▸ qubo_ten_wrong.2.2.2 x hx
  · have hs : problem10.sol = [([true, false, true, true, false, true, false, false, true, false], -400)] := rfl
    rw [hs]
    simp only [approxRatio, annotate, avgCost, List.map_cons, List.map_nil, List.sum_cons, List.sum_nil, qubo_cost, hq]
    norm_num
  · decide +kernel

/-- The three-variable entry in use: a measurement split over the optimum and the zero string. -/
example : approxRatio (annotate problem3.Q [([false, true, true], 1 / 2), ([false, false, false], 1 / 2)]) problem3.sol
    = some (1 / 2) ∧
    successProb (annotate problem3.Q [([false, true, true], 1 / 2), ([false, false, false], 1 / 2)]) problem3.sol
    = 1 / 2 := by decide +kernel

end Verif.Props
