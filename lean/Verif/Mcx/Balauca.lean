import Verif.Mcx.Basic
import Mathlib.Tactic.IntervalCases

/-!
# Traced Balauca mcx and mcp

Model of `alg_primitives/mcx_algs/balauca.py:455-568`. Registers are maps from indices to qubits.
-/

set_option linter.unusedSectionVars false

namespace Verif.Mcx

open Verif.Rev

variable {Q : Type} [DecidableEq Q] {G : Type} [CommGroup G]

/-- balauca.py:464-475 `ctrl_state_conjugator`; `cst i` is bit `i` of the control state. -/
def ctrlConj (c : Nat → Q) (N : Nat) (cst : Nat → Bool) : List (PGate Q G) :=
  (List.range N).flatMap fun i => if cst i then [] else [.mcx [] (c i)]

/-- balauca.py:546-568 `jasp_balauca_helper`; `size` is `balauca_anc.size`. -/
def balHelper (c a : Nat → Q) (N size : Nat) : List (PGate Q G) :=
  ((List.range (N / 2)).map fun i => .land (c (2 * i)) (c (2 * i + 1)) (a i)) ++
  (if N % 2 ≠ 0 then [.mcx [c (N - 1)] (a (N / 2 - 1 + N % 2))] else []) ++
  ((List.range (size - (N / 2 + N % 2))).map fun i =>
    .land (a (2 * i)) (a (2 * i + 1)) (a (N / 2 + N % 2 + i)))

/-- Size of the ancilla register, balauca.py:498. -/
def balSize (N : Nat) : Nat := N - 2 + N % 2

/-- balauca.py:478-507 `jasp_balauca_mcx`. -/
def jaspBalaucaMcx (c a : Nat → Q) (t : Q) (N : Nat) (cst : Nat → Bool) : List (PGate Q G) :=
  conj (ctrlConj c N cst)
    ((if N = 1 then [.mcx [c 0] t] else []) ++
     (if N = 2 then [.mcx [c 0, c 1] t] else []) ++
     (if N > 2 then
        conj (balHelper c a N (balSize N)) [.mcx [a (balSize N - 1), a (balSize N - 2)] t]
      else []))

/-- Size of the ancilla register, balauca.py:530. -/
def balSizeP (N : Nat) : Nat := N + N % 2 - 1

/-- balauca.py:510-543 `jasp_balauca_mcp`; `t` is the allocated target. -/
def jaspBalaucaMcp (z : G) (c a : Nat → Q) (t : Q) (N : Nat) (cst : Nat → Bool) : List (PGate Q G) :=
  conj (ctrlConj c N cst)
    ((if N = 1 then [.ph z (c 0)] else []) ++
     (if N = 2 then conj [.pt [c 0, c 1] t] [.ph z t] else []) ++
     (if N > 2 then
        conj (balHelper c a N (balSizeP N))
          (conj [.pt [a (balSizeP N - 1), a (balSizeP N - 2)] t] [.ph z t])
      else []))

/-! ### Layout -/

/-- Controls, ancillas and target are different qubits. -/
structure Layout (c a : Nat → Q) (t : Q) (N size : Nat) : Prop where
  c_inj : ∀ i j, i < N → j < N → c i = c j → i = j
  a_inj : ∀ i j, i < size → j < size → a i = a j → i = j
  ca : ∀ i j, i < N → j < size → c i ≠ a j
  ct : ∀ i, i < N → c i ≠ t
  at' : ∀ j, j < size → a j ≠ t

/-! ### Control state -/

theorem ctrlConj_exec (φ : List Bool → Bool → G) (c : Nat → Q) (cst : Nat → Bool) : ∀ (N : Nat)
    (_ : ∀ i j, i < N → j < N → c i = c j → i = j) (s : St Q) (g : G),
    ∃ s', exec φ (ctrlConj c N cst) (s, g) = some (s', g) ∧ (∀ i, i < N → s' (c i) = (s (c i) ^^ !cst i)) ∧
      ∀ x, (∀ i, i < N → x ≠ c i) → s' x = s x := by
  intro N
  induction N with
  | zero => intro _ s g; exact ⟨s, rfl, fun i hi => absurd hi (by omega), fun _ _ => rfl⟩
  | succ N ih =>
    intro hc s g
    obtain ⟨s1, e1, h1, h2⟩ := ih (fun i j hi hj => hc i j (by omega) (by omega)) s g
    unfold ctrlConj at e1 ⊢
    rw [List.range_succ, List.flatMap_append, exec_append, e1, Option.bind_some]
    have hN : s1 (c N) = s (c N) := h2 _ fun i hi e => by
      have := hc N i (by omega) (by omega) e
      omega
    cases hcst : cst N
    · refine ⟨upd s1 (c N) (!s1 (c N)), ?_, ?_, ?_⟩
      · simp [hcst, exec, PGate.exec, allOn]
      · intro i hi
        by_cases hiN : i = N
        · subst hiN
          rw [upd_same, hN, hcst]
          simp
        · rw [upd_ne fun e => hiN (hc i N hi (by omega) e)]
          exact h1 i (by omega)
      · intro x hx
        rw [upd_ne (hx N (by omega))]
        exact h2 x fun i hi => hx i (by omega)
    · refine ⟨s1, ?_, ?_, ?_⟩
      · simp [hcst, exec]
      · intro i hi
        by_cases hiN : i = N
        · subst hiN
          rw [hN, hcst]
          simp
        · exact h1 i (by omega)
      · intro x hx
        exact h2 x fun i hi => hx i (by omega)

theorem ctrlConj_wf (c : Nat → Q) (cst : Nat → Bool) (N : Nat) : ∀ p ∈ (ctrlConj c N cst : List (PGate Q G)), p.wf := by
  intro p hp
  unfold ctrlConj at hp
  obtain ⟨i, _, h⟩ := List.mem_flatMap.1 hp
  split at h
  · cases h
  · rw [List.mem_singleton] at h
    subst h
    simp [PGate.wf]

theorem ctrlConj_qubits {c : Nat → Q} {cst : Nat → Bool} {N : Nat} {q : Q} (hq : ∀ i, i < N → c i ≠ q) :
    ∀ p ∈ (ctrlConj c N cst : List (PGate Q G)), q ∉ p.qubits := by
  intro p hp
  unfold ctrlConj at hp
  obtain ⟨i, hi, h⟩ := List.mem_flatMap.1 hp
  rw [List.mem_range] at hi
  split at h
  · cases h
  · rw [List.mem_singleton] at h
    subst h
    simpa [PGate.qubits] using (hq i hi).symm

/-! ### A row of logical ANDs -/

theorem land_row (φ : List Bool → Bool → G) (p q r : Nat → Q) : ∀ (m : Nat) (s : St Q) (g : G),
    (∀ i j, i < m → j < m → r i = r j → i = j) → (∀ i j, i ≤ j → j < m → p i ≠ r j ∧ q i ≠ r j) →
    (∀ j, j < m → s (r j) = false) →
    ∃ s', exec φ ((List.range m).map fun i => PGate.land (p i) (q i) (r i)) (s, g) = some (s', g) ∧
      (∀ x, (∀ j, j < m → x ≠ r j) → s' x = s x) ∧ ∀ j, j < m → s' (r j) = (s' (p j) && s' (q j)) := by
  intro m
  induction m with
  | zero => intro s g _ _ _; exact ⟨s, rfl, fun _ _ => rfl, fun j hj => absurd hj (by omega)⟩
  | succ m ih =>
    intro s g hr hp hz
    obtain ⟨s1, e1, h1, h2⟩ := ih s g (fun i j hi hj => hr i j (by omega) (by omega))
      (fun i j hi hj => hp i j hi (by omega)) fun j hj => hz j (by omega)
    have hm : s1 (r m) = false := by
      rw [h1 _ fun j hj e => by
        have := hr m j (by omega) (by omega) e
        omega]
      exact hz m (by omega)
    refine ⟨upd s1 (r m) (s1 (p m) && s1 (q m)), ?_, ?_, ?_⟩
    · rw [List.range_succ, List.map_append, exec_append, e1]
      simp [exec, PGate.exec, hm]
    · intro x hx
      rw [upd_ne (hx m (by omega))]
      exact h1 x fun j hj => hx j (by omega)
    · intro j hj
      by_cases hjm : j = m
      · subst hjm
        rw [upd_same, upd_ne (hp j j (by omega) (by omega)).1, upd_ne (hp j j (by omega) (by omega)).2]
      · have hlt : j < m := by omega
        rw [upd_ne fun e => hjm (hr j m (by omega) (by omega) e), upd_ne (hp j m (by omega) (by omega)).1,
          upd_ne (hp j m (by omega) (by omega)).2]
        exact h2 j hlt

/-! ### The tree -/

theorem balHelper_exec (φ : List Bool → Bool → G) {c a : Nat → Q} {t : Q} {N size : Nat} (hl : Layout c a t N size)
    (hN : 2 < N) (hsize : N / 2 + N % 2 ≤ size) (hsize' : size ≤ 2 * (N / 2 + N % 2) - 1) (s : St Q) (g : G)
    (hz : ∀ j, j < size → s (a j) = false) :
    ∃ s', exec φ (balHelper c a N size) (s, g) = some (s', g) ∧ (∀ i, i < N → s' (c i) = s (c i)) ∧
      s' t = s t ∧
      (∀ j, j < N / 2 → s' (a j) = (s (c (2 * j)) && s (c (2 * j + 1)))) ∧
      (N % 2 = 1 → s' (a (N / 2)) = s (c (N - 1))) ∧
      ∀ j, j < size - (N / 2 + N % 2) → s' (a (N / 2 + N % 2 + j)) = (s' (a (2 * j)) && s' (a (2 * j + 1))) := by
  unfold balHelper
  obtain ⟨s1, e1, f1, v1⟩ := land_row φ (fun i => c (2 * i)) (fun i => c (2 * i + 1)) a (N / 2) s g
    (fun i j hi hj => hl.a_inj i j (by omega) (by omega))
    (fun i j hi hj => ⟨hl.ca _ _ (by omega) (by omega), hl.ca _ _ (by omega) (by omega)⟩)
    fun j hj => hz j (by omega)
  have c1 : ∀ i, i < N → s1 (c i) = s (c i) := fun i hi => f1 _ fun j hj => hl.ca i j hi (by omega)
  have t1 : s1 t = s t := f1 _ fun j hj => (hl.at' j (by omega)).symm
  have a1 : ∀ j, N / 2 ≤ j → j < size → s1 (a j) = false := by
    intro j hj hj2
    rw [f1 _ fun k hk e => by
      have := hl.a_inj j k hj2 (by omega) e
      omega]
    exact hz j hj2
  have hstep : ∃ s2, exec φ (if N % 2 ≠ 0 then [PGate.mcx [c (N - 1)] (a (N / 2 - 1 + N % 2))] else []) (s1, g) =
      some (s2, g) ∧ (∀ i, i < N → s2 (c i) = s (c i)) ∧ s2 t = s t ∧
      (∀ j, j < N / 2 → s2 (a j) = s1 (a j)) ∧ (N % 2 = 1 → s2 (a (N / 2)) = s (c (N - 1))) ∧
      ∀ j, N / 2 + N % 2 ≤ j → j < size → s2 (a j) = false := by
    by_cases hodd : N % 2 = 1
    · have e : N / 2 - 1 + N % 2 = N / 2 := by omega
      rw [if_pos (by omega), e]
      refine ⟨upd s1 (a (N / 2)) (s1 (a (N / 2)) ^^ s1 (c (N - 1))), by simp [exec, PGate.exec, allOn], ?_, ?_, ?_, ?_,
        ?_⟩
      · intro i hi
        rw [upd_ne (hl.ca i _ hi (by omega)), c1 i hi]
      · rw [upd_ne (hl.at' _ (by omega)).symm, t1]
      · intro j hj
        rw [upd_ne fun e => by
          have := hl.a_inj _ _ (by omega) (by omega) e
          omega]
      · intro _
        rw [upd_same, a1 _ (le_refl _) (by omega), c1 _ (by omega)]
        simp
      · intro j hj hj2
        rw [upd_ne fun e => by
          have := hl.a_inj _ _ hj2 (by omega) e
          omega]
        exact a1 j (by omega) hj2
    · rw [if_neg (by omega)]
      exact ⟨s1, rfl, c1, t1, fun _ _ => rfl, fun h => absurd h hodd, fun j hj hj2 => a1 j (by omega) hj2⟩
  obtain ⟨s2, e2, c2, t2, b2, o2, z2⟩ := hstep
  obtain ⟨s3, e3, f3, v3⟩ := land_row φ (fun i => a (2 * i)) (fun i => a (2 * i + 1))
    (fun i => a (N / 2 + N % 2 + i)) (size - (N / 2 + N % 2)) s2 g
    (fun i j hi hj e => by
      have := hl.a_inj _ _ (by omega) (by omega) e
      omega)
    (fun i j hi hj => ⟨fun e => by
        have := hl.a_inj _ _ (by omega) (by omega) e
        omega, fun e => by
        have := hl.a_inj _ _ (by omega) (by omega) e
        omega⟩)
    fun j hj => z2 _ (by omega) (by omega)
  have keep : ∀ j, j < N / 2 + N % 2 → s3 (a j) = s2 (a j) := by
    intro j hj
    refine f3 _ fun k hk e => ?_
    have := hl.a_inj _ _ (by omega) (by omega) e
    omega
  refine ⟨s3, ?_, ?_, ?_, ?_, ?_, v3⟩
  · rw [exec_append, exec_append, e1, Option.bind_some, e2, Option.bind_some, e3]
  · intro i hi
    rw [f3 _ fun k hk => hl.ca i _ hi (by omega)]
    exact c2 i hi
  · rw [f3 _ fun k hk => (hl.at' _ (by omega)).symm]
    exact t2
  · intro j hj
    rw [keep j (by omega), b2 j hj, v1 j hj, c1 _ (by omega), c1 _ (by omega)]
  · intro hodd
    rw [keep _ (by omega)]
    exact o2 hodd

/-- The last ancillas of the tree hold the AND of all controls. -/
theorem tree_all {v : Nat → Bool} {l m : Nat} (h : ∀ j, j < m → v (l + j) = (v (2 * j) && v (2 * j + 1)))
    (hm : m < l) : ∀ k, k ≤ m → ((∀ j, j < l → v j = true) ↔ ∀ j, 2 * k ≤ j → j < l + k → v j = true) := by
  intro k
  induction k with
  | zero => intro _; simp
  | succ k ih =>
    intro hk
    rw [ih (by omega)]
    have hk' := h k (by omega)
    constructor
    · intro H j h1 h2
      by_cases hj : j = l + k
      · subst hj
        rw [hk', H _ (by omega) (by omega), H _ (by omega) (by omega)]
        rfl
      · exact H j (by omega) (by omega)
    · intro H j h1 h2
      have htop : v (l + k) = true := H _ (by omega) (by omega)
      rw [hk', Bool.and_eq_true] at htop
      by_cases hj : j = 2 * k
      · rw [hj]; exact htop.1
      · by_cases hj' : j = 2 * k + 1
        · rw [hj']; exact htop.2
        · exact H j (by omega) (by omega)

theorem balHelper_wf {c a : Nat → Q} {t : Q} {N size : Nat} (hl : Layout c a t N size) (hN : 2 < N)
    (hsize : N / 2 + N % 2 ≤ size) (hsize' : size ≤ 2 * (N / 2 + N % 2) - 1) :
    (∀ p ∈ (balHelper c a N size : List (PGate Q G)), p.wf) ∧
    ∀ p ∈ (balHelper c a N size : List (PGate Q G)), t ∉ p.qubits := by
  unfold balHelper
  constructor
  · intro p hp
    rw [List.mem_append, List.mem_append] at hp
    rcases hp with (hp | hp) | hp
    · obtain ⟨i, hi, rfl⟩ := List.mem_map.1 hp
      rw [List.mem_range] at hi
      exact ⟨hl.ca _ _ (by omega) (by omega), hl.ca _ _ (by omega) (by omega)⟩
    · split at hp
      · rw [List.mem_singleton] at hp
        subst hp
        simp only [PGate.wf, List.mem_singleton]
        exact (hl.ca _ _ (by omega) (by omega)).symm
      · cases hp
    · obtain ⟨i, hi, rfl⟩ := List.mem_map.1 hp
      rw [List.mem_range] at hi
      constructor <;> intro e <;> have := hl.a_inj _ _ (by omega) (by omega) e <;> omega
  · intro p hp
    rw [List.mem_append, List.mem_append] at hp
    rcases hp with (hp | hp) | hp
    · obtain ⟨i, hi, rfl⟩ := List.mem_map.1 hp
      rw [List.mem_range] at hi
      simp only [PGate.qubits, List.mem_cons, List.not_mem_nil, or_false, not_or]
      exact ⟨(hl.at' _ (by omega)).symm, (hl.ct _ (by omega)).symm, (hl.ct _ (by omega)).symm⟩
    · split at hp
      · rw [List.mem_singleton] at hp
        subst hp
        simp only [PGate.qubits, List.mem_cons, List.not_mem_nil, or_false, not_or]
        exact ⟨(hl.at' _ (by omega)).symm, (hl.ct _ (by omega)).symm⟩
      · cases hp
    · obtain ⟨i, hi, rfl⟩ := List.mem_map.1 hp
      rw [List.mem_range] at hi
      simp only [PGate.qubits, List.mem_cons, List.not_mem_nil, or_false, not_or]
      exact ⟨(hl.at' _ (by omega)).symm, (hl.at' _ (by omega)).symm, (hl.at' _ (by omega)).symm⟩

/-- The two ancillas at the end of the register. -/
theorem balHelper_and {c a : Nat → Q} {s s' : St Q} {N size : Nat} (hN : 2 < N)
    (hsize : size = 2 * (N / 2 + N % 2) - 2 ∨ size = 2 * (N / 2 + N % 2) - 1)
    (h1 : ∀ j, j < N / 2 → s' (a j) = (s (c (2 * j)) && s (c (2 * j + 1))))
    (h2 : N % 2 = 1 → s' (a (N / 2)) = s (c (N - 1)))
    (h3 : ∀ j, j < size - (N / 2 + N % 2) → s' (a (N / 2 + N % 2 + j)) = (s' (a (2 * j)) && s' (a (2 * j + 1)))) :
    (s' (a (size - 1)) && s' (a (size - 2))) = decide (∀ i, i < N → s (c i) = true) := by
  have hl : 2 ≤ N / 2 + N % 2 := by omega
  have A : (∀ j, j < N / 2 + N % 2 → s' (a j) = true) ↔ ∀ i, i < N → s (c i) = true := by
    constructor
    · intro H i hi
      by_cases hj : i / 2 < N / 2
      · have := H (i / 2) (by omega)
        rw [h1 _ hj, Bool.and_eq_true] at this
        rcases Nat.mod_two_eq_zero_or_one i with h | h
        · rw [show i = 2 * (i / 2) by omega]; exact this.1
        · rw [show i = 2 * (i / 2) + 1 by omega]; exact this.2
      · have hodd : N % 2 = 1 := by omega
        have := H (N / 2) (by omega)
        rw [h2 hodd] at this
        rw [show i = N - 1 by omega]
        exact this
    · intro H j hj
      by_cases hj2 : j < N / 2
      · rw [h1 j hj2, H _ (by omega), H _ (by omega)]; rfl
      · have hodd : N % 2 = 1 := by omega
        rw [show j = N / 2 by omega, h2 hodd]
        exact H _ (by omega)
  have B := tree_all (v := fun j => s' (a j)) h3 (by omega) (N / 2 + N % 2 - 2) (by omega)
  have C : (∀ j, 2 * (N / 2 + N % 2 - 2) ≤ j → j < N / 2 + N % 2 + (N / 2 + N % 2 - 2) → s' (a j) = true) ↔
      s' (a (2 * (N / 2 + N % 2) - 4)) = true ∧ s' (a (2 * (N / 2 + N % 2) - 3)) = true := by
    constructor
    · intro H
      exact ⟨H _ (by omega) (by omega), H _ (by omega) (by omega)⟩
    · rintro ⟨H1, H2⟩ j hj1 hj2
      by_cases hj : j = 2 * (N / 2 + N % 2) - 4
      · rw [hj]; exact H1
      · rw [show j = 2 * (N / 2 + N % 2) - 3 by omega]; exact H2
  have D := A.symm.trans (B.trans C)
  rw [Bool.eq_iff_iff, decide_eq_true_iff, D, Bool.and_eq_true]
  rcases hsize with hs | hs
  · rw [show size - 1 = 2 * (N / 2 + N % 2) - 3 by omega, show size - 2 = 2 * (N / 2 + N % 2) - 4 by omega, and_comm]
  · have e := h3 (N / 2 + N % 2 - 2) (by omega)
    rw [show size - 1 = N / 2 + N % 2 + (N / 2 + N % 2 - 2) by omega, e, Bool.and_eq_true,
      show 2 * (N / 2 + N % 2 - 2) = 2 * (N / 2 + N % 2) - 4 by omega,
      show 2 * (N / 2 + N % 2) - 4 + 1 = 2 * (N / 2 + N % 2) - 3 by omega,
      show size - 2 = 2 * (N / 2 + N % 2) - 3 by omega]
    tauto

/-! ### The whole circuits -/

/-- All controls are in their control state. -/
def matches' (c : Nat → Q) (N : Nat) (cst : Nat → Bool) (s : St Q) : Bool :=
  (List.range N).all fun i => s (c i) == cst i

theorem matches_eq {c : Nat → Q} {N : Nat} {cst : Nat → Bool} {s s1 : St Q}
    (h : ∀ i, i < N → s1 (c i) = (s (c i) ^^ !cst i)) :
    decide (∀ i, i < N → s1 (c i) = true) = matches' c N cst s := by
  rw [Bool.eq_iff_iff, decide_eq_true_iff]
  unfold matches'
  rw [List.all_eq_true]
  simp only [List.mem_range]
  refine forall₂_congr fun i hi => ?_
  rw [h i hi]
  cases s (c i) <;> cases cst i <;> simp

theorem jaspBalaucaMcx_exec (φ : List Bool → Bool → G) {c a : Nat → Q} {t : Q} {N : Nat} (hN : 1 ≤ N)
    (hl : Layout c a t N (balSize N)) (cst : Nat → Bool) (s : St Q) (g : G)
    (hz : ∀ j, j < balSize N → s (a j) = false) :
    exec φ (jaspBalaucaMcx c a t N cst) (s, g) = some (upd s t (s t ^^ matches' c N cst s), g) := by
  unfold jaspBalaucaMcx
  obtain ⟨s1, e1, h1, h2⟩ := ctrlConj_exec φ c cst N hl.c_inj s g
  have ht : s1 t = s t := h2 t fun i hi => (hl.ct i hi).symm
  have key := exec_conj φ (ctrlConj_wf c cst N) (q := t) (z := 1) (v := s t ^^ matches' c N cst s)
    (ctrlConj_qubits (fun i hi => hl.ct i hi)) e1 (B :=
    ((if N = 1 then [.mcx [c 0] t] else []) ++
     (if N = 2 then [.mcx [c 0, c 1] t] else []) ++
     (if N > 2 then
        conj (balHelper c a N (balSize N)) [.mcx [a (balSize N - 1), a (balSize N - 2)] t]
      else []))) (by
    rw [← matches_eq h1, mul_one]
    rcases show N = 1 ∨ N = 2 ∨ 2 < N by omega with rfl | rfl | h
    · simp only [if_true, exec, PGate.exec, Option.bind_some, allOn, ht, if_neg (show ¬ 1 = 2 by omega),
        if_neg (show ¬ 1 > 2 by omega), List.append_nil, Option.some.injEq, Prod.mk.injEq, and_true]
      congr 2
      rw [Bool.eq_iff_iff, decide_eq_true_iff]
      simp
    · simp only [if_true, exec, PGate.exec, Option.bind_some, allOn, ht, if_neg (show ¬ 2 = 1 by omega),
        if_neg (show ¬ 2 > 2 by omega), List.append_nil, List.nil_append, Option.some.injEq, Prod.mk.injEq, and_true]
      congr 2
      rw [Bool.eq_iff_iff, decide_eq_true_iff]
      constructor
      · intro H i hi
        simp only [List.all_cons, List.all_nil, Bool.and_true, Bool.and_eq_true] at H
        interval_cases i
        · exact H.1
        · exact H.2
      · intro H
        simp [H 0 (by omega), H 1 (by omega)]
    · rw [if_neg (by omega), if_neg (by omega), if_pos h, List.nil_append, List.nil_append]
      have b1 : balSize N = 2 * (N / 2 + N % 2) - 2 := by unfold balSize; omega
      obtain ⟨s2, e2, c2, t2, v2, o2, w2⟩ := balHelper_exec φ hl h (by omega) (by omega) s1 g (by
        intro j hj
        rw [h2 _ fun i hi => (hl.ca i j hi hj).symm]
        exact hz j hj)
      obtain ⟨w, q⟩ := balHelper_wf (G := G) hl h (by omega) (by omega)
      have := exec_conj φ w q e2 (B := [.mcx [a (balSize N - 1), a (balSize N - 2)] t]) (z := 1)
        (v := s t ^^ decide (∀ i, i < N → s1 (c i) = true)) (by
          rw [← balHelper_and h (Or.inl b1) v2 o2 w2]
          simp [exec, PGate.exec, allOn, t2, ht])
      rw [mul_one] at this
      exact this)
  rw [mul_one] at key
  exact key

/-- Phase conjugated by a phase tolerant mcx on a target in state 0. -/
theorem ptPhase_exec (φ : List Bool → Bool → G) {x y t : Q} (hx : x ≠ t) (hy : y ≠ t) (z : G) (s : St Q) (g : G)
    (ht : s t = false) :
    exec φ (conj [.pt [x, y] t] [.ph z t]) (s, g) = some (s, if s x && s y then g * z else g) := by
  have ux : ∀ b, upd s t b x = s x := fun b => upd_ne hx
  have uy : ∀ b, upd s t b y = s y := fun b => upd_ne hy
  have hs : upd s t false = s := by rw [← ht, upd_self]
  simp only [conj, inv, List.map_cons, List.map_nil, List.reverse_cons, List.reverse_nil, List.nil_append,
    List.cons_append, exec, PGate.exec, PGate.inv, Option.bind_some, ht, upd_same, upd_upd, allOn, List.all_cons,
    List.all_nil, Bool.and_true, ux, uy]
  cases s x <;> cases s y <;> simp [hs, mul_right_comm]

theorem upd_false {s : St Q} {t : Q} (h : s t = false) : upd s t false = s := by rw [← h, upd_self]

theorem jaspBalaucaMcp_exec (φ : List Bool → Bool → G) (z : G) {c a : Nat → Q} {t : Q} {N : Nat} (hN : 1 ≤ N)
    (hl : Layout c a t N (balSizeP N)) (cst : Nat → Bool) (s : St Q) (g : G)
    (hz : ∀ j, j < balSizeP N → s (a j) = false) (ht0 : s t = false) :
    exec φ (jaspBalaucaMcp z c a t N cst) (s, g) = some (s, if matches' c N cst s then g * z else g) := by
  unfold jaspBalaucaMcp
  obtain ⟨s1, e1, h1, h2⟩ := ctrlConj_exec φ c cst N hl.c_inj s g
  have ht : s1 t = false := by rw [h2 t fun i hi => (hl.ct i hi).symm]; exact ht0
  have hite : ∀ b : Bool, (if b then g * z else g) = g * (if b then z else 1) := by
    intro b; cases b <;> simp
  have key := exec_conj φ (ctrlConj_wf c cst N) (q := t) (z := if matches' c N cst s then z else 1) (v := false)
    (ctrlConj_qubits (fun i hi => hl.ct i hi)) e1 (B :=
    ((if N = 1 then [.ph z (c 0)] else []) ++
     (if N = 2 then conj [.pt [c 0, c 1] t] [.ph z t] else []) ++
     (if N > 2 then
        conj (balHelper c a N (balSizeP N))
          (conj [.pt [a (balSizeP N - 1), a (balSizeP N - 2)] t] [.ph z t])
      else []))) (by
    rw [← matches_eq h1, upd_false ht, ← hite]
    rcases show N = 1 ∨ N = 2 ∨ 2 < N by omega with rfl | rfl | h
    · simp only [if_true, exec, PGate.exec, Option.bind_some, if_neg (show ¬ 1 = 2 by omega),
        if_neg (show ¬ 1 > 2 by omega), List.append_nil, Option.some.injEq, Prod.mk.injEq, true_and]
      congr 1
      simp
    · rw [if_neg (by omega), if_pos rfl, if_neg (by omega), List.nil_append, List.append_nil,
        ptPhase_exec φ (hl.ct 0 (by omega)) (hl.ct 1 (by omega)) z s1 g ht]
      congr 3
      rw [decide_eq_true_iff, Bool.and_eq_true]
      refine propext ⟨fun H i hi => ?_, fun H => ⟨H 0 (by omega), H 1 (by omega)⟩⟩
      interval_cases i
      · exact H.1
      · exact H.2
    · rw [if_neg (by omega), if_neg (by omega), if_pos h, List.nil_append, List.nil_append]
      have b1 : balSizeP N = 2 * (N / 2 + N % 2) - 1 := by unfold balSizeP; omega
      obtain ⟨s2, e2, c2, t2, v2, o2, w2⟩ := balHelper_exec φ hl h (by omega) (by omega) s1 g (by
        intro j hj
        rw [h2 _ fun i hi => (hl.ca i j hi hj).symm]
        exact hz j hj)
      obtain ⟨w, q⟩ := balHelper_wf (G := G) hl h (by omega) (by omega)
      have ht2 : s2 t = false := t2.trans ht
      have := exec_conj φ w q e2 (B := conj [.pt [a (balSizeP N - 1), a (balSizeP N - 2)] t] [.ph z t])
        (z := if decide (∀ i, i < N → s1 (c i) = true) then z else 1) (v := false) (by
          rw [← balHelper_and h (Or.inr b1) v2 o2 w2, upd_false ht2, ← hite,
            ptPhase_exec φ (hl.at' _ (by omega)) (hl.at' _ (by omega)) z s2 g ht2])
      rw [upd_false ht, ← hite] at this
      exact this)
  rw [upd_false ht0, ← hite] at key
  exact key

end Verif.Mcx
