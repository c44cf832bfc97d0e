import Verif.Qaoa.Cost
import Mathlib.Data.Int.Bitwise

/-!
# Mixers of QAOA and the QAOA circuit

Model of `algorithms/qaoa/mixers.py`, of the mixers in `algorithms/qaoa/problems/*.py`, and of the circuit in
`algorithms/qaoa/qaoa_problem.py`.
-/

set_option linter.unusedSectionVars false

namespace Verif.Qaoa

open Verif.Rev Verif.Fourier Verif.Sbp

variable {Q : Type} [DecidableEq Q]

/-! ### Model -/

/-- `XXYYGate` (standard_operations.py:424-459), by its definition. -/
noncomputable def xxyy (phi beta : ℝ) (a b : Q) : List (QG Q) :=
  [rz beta a, rz (-Real.pi / 2) b, rx (Real.pi / 2) b, rz (Real.pi / 2) b, pG (Real.pi / 2) a, .cx b a, .g1 (ryG (-phi / 2)) b,
   .g1 (ryG (-phi / 2)) a, .cx b a, pG (-(Real.pi / 2)) a, rz (-Real.pi / 2) b, rx (-(Real.pi / 2)) b, rz (Real.pi / 2) b, rz (-beta) a]

/-- `RX_mixer` (mixers.py:34-47). -/
noncomputable def rxMixer (n : ℕ) (beta : ℝ) : List (QG ℕ) := (List.range n).map fun i => rx (2 * beta) i

/-- `RZ_mixer` (mixers.py:102-113), the cost operator of several problems. -/
noncomputable def rzMixer (n : ℕ) (beta : ℝ) : List (QG ℕ) := (List.range n).map fun i => rz (-beta) i

/-- `XY_mixer` (mixers.py:66-93) on a register; `none`: fewer than two qubits, where the last gate is applied to a qubit
twice. -/
noncomputable def xyMixer (q : ℕ → Q) (n : ℕ) (beta : ℝ) : Option (List (QG Q)) :=
  if n ≤ 1 then none
  else some (((List.range (n / 2)).flatMap fun i => xxyy (4 * beta) 0 (q (2 * i)) (q (2 * i + 1))) ++
    ((List.range ((n - 2 + n % 2) / 2)).flatMap fun i => xxyy (4 * beta) 0 (q (2 * i + 1)) (q (2 * i + 2))) ++
    xxyy (4 * beta) 0 (q (n - 1)) (q 0))

/-- `apply_XY_mixer` (mixers.py:96-99) on the colours of `N` nodes. -/
noncomputable def applyXY (N k : ℕ) (beta : ℝ) : List (QG (ℕ × ℕ)) :=
  (List.range N).flatMap fun v => (xyMixer (fun i => (v, i)) k beta).getD []

/-- `controlled_RX_mixer_gen` (mixers.py:248-303). The `QuantumBool` of the predicate is computed, used as a control
and uncomputed. -/
noncomputable def crxMixer (pred : ℕ → St ℕ → Bool) (n : ℕ) (beta : ℝ) : List (QG ℕ) := (List.range n).map fun i => .cg1 (pred i) (rxG beta) i

/-- `list(G.adj[node])`. -/
def adj (E : List (ℕ × ℕ)) (i : ℕ) : List ℕ := E.filterMap fun e => if e.1 = i then some e.2 else if e.2 = i then some e.1 else none

/-- `predicate` in `create_max_indep_set_mixer` (maxIndepSet.py:43-53). -/
def misPred (E : List (ℕ × ℕ)) (i : ℕ) (s : St ℕ) : Bool := if (adj E i).length = 0 then true else (adj E i).all fun j => !s j

/-- `create_max_indep_set_mixer` (maxIndepSet.py:24-57). -/
noncomputable def misMixer (E : List (ℕ × ℕ)) (n : ℕ) (beta : ℝ) : List (QG ℕ) := crxMixer (misPred E) n beta

/-- `[index for index, value in enumerate(state) if value == "1"]`. -/
def indices (l : List Bool) : List ℕ := (List.range l.length).filter fun i => l.getD i false

/-- `(i, j) in G.edges()`, for an undirected graph. -/
def isEdge (E : List (ℕ × ℕ)) (i j : ℕ) : Bool := E.any fun e => (e.1 == i && e.2 == j) || (e.1 == j && e.2 == i)

/-- `create_max_indep_set_cl_cost_function` (maxIndepSet.py:60-90). -/
noncomputable def misCost (E : List (ℕ × ℕ)) (res : List (List Bool × ℝ)) : ℝ :=
  res.foldl (fun cost r =>
    let ind := indices r.1
    if ind.any fun i => ind.any fun j => decide (i < j) && isEdge E i j then cost else cost + -(ind.length : ℝ) * r.2) 0

/-- `nx.complement` (maxClique.py:79). -/
def complement (n : ℕ) (E : List (ℕ × ℕ)) : List (ℕ × ℕ) :=
  ((List.range n) ×ˢ (List.range n)).filter fun e => decide (e.1 < e.2) && !isEdge E e.1 e.2

/-- The constraint graph of `max_set_packing_problem` (maxSetPacking.py:46-52). -/
def packEdges (sets : List (List ℕ)) : List (ℕ × ℕ) :=
  ((List.range sets.length) ×ˢ (List.range sets.length)).filter fun e =>
    decide (e.1 < e.2) && (sets.getD e.1 []).any fun x => (sets.getD e.2 []).contains x

/-- `mcx` with control state 0…0 onto a qubit: whether the target is flipped. Without controls nothing happens
(gate_application_functions.py:509-510). -/
def mcx0Fires (cs : List ℕ) (s : St ℕ) : Bool := if cs.length = 0 then false else cs.all fun j => !s j

/-- `predicate` in `create_min_set_cover_mixer` (minSetCover.py:41-55). -/
def coverPred (sets : List (List ℕ)) (i : ℕ) (s : St ℕ) : Bool :=
  let anc := (sets.getD i []).map fun e =>
    let others := (List.range sets.length).filter fun k => (sets.getD k []).contains e && k != i
    true ^^ mcx0Fires others s
  if anc.length = 0 then false else anc.all id

/-- `create_min_set_cover_mixer` (minSetCover.py:22-59). -/
noncomputable def coverMixer (sets : List (List ℕ)) (n : ℕ) (beta : ℝ) : List (QG ℕ) := crxMixer (coverPred sets) n beta

/-- `create_min_set_cover_cl_cost_function` (minSetCover.py:62-91). -/
noncomputable def coverCost (sets : List (List ℕ)) (univ : List ℕ) (res : List (List Bool × ℝ)) : ℝ :=
  res.foldl (fun cost r =>
    let ind := indices r.1
    let union := ind.flatMap fun i => sets.getD i []
    if ind.length > 0 ∧ union.toFinset = univ.toFinset then cost + (ind.length : ℝ) * r.2 else cost + sets.length) 0

/-- The circuit of `QAOAProblem.run` (qaoa_problem.py:611-629): layer `i` uses `theta[i]` and `theta[i + depth]`. -/
noncomputable def qaoa (init : List (QG Q)) (cost mixer : ℝ → List (QG Q)) (depth : ℕ) (theta : ℕ → ℝ) : List (QG Q) :=
  init ++ (List.range depth).flatMap fun i => cost (theta i) ++ mixer (theta (i + depth))

/-- The state with all qubits 0. -/
noncomputable def zeroSt : St Q → ℂ := fun s => by classical exact if s = fun _ => false then 1 else 0

/-- `min_set_cover_init_function` (minSetCover.py:94-103). -/
noncomputable def xAll (n : ℕ) : List (QG ℕ) := (List.range n).map fun i => .g1 xG i

/-- `portfolio_cost_op` (portfolio_rebalancing.py:47-81) for `n` assets; qubit `(1, i)` is `l[i]`, qubit `(0, i)` is
`s[i]`. In Python `^` is the bitwise exclusive or, with a lower precedence than `+` and `-`. -/
noncomputable def portfolioOp (n : ℕ) (old : ℕ → ℤ) (rr : ℝ) (cov : ℕ → ℕ → ℝ) (ret : ℕ → ℝ) (tc : ℝ) (gamma : ℝ) : List (QG (ℕ × ℕ)) :=
  ((List.range n).flatMap fun i =>
    ((List.range n).flatMap fun j =>
      let pre := gamma * cov i j / 4 * rr
      rzz (-pre) (1, i) (0, j) ++ rzz (-pre) (0, i) (1, j) ++
        if i = j then [rz (2 * pre) (1, i), rz (2 * pre) (0, i)] else rzz pre (1, i) (1, j) ++ rzz pre (0, i) (0, j)) ++
    [rz (gamma * ret i * (1 - rr) / 2) (1, i), rz (-(gamma * ret i * (1 - rr) / 2)) (0, i)]) ++
  (List.range n).flatMap fun i =>
    [rz (gamma * (tc / 4) * (Int.xor (1 - old i) (2 - old i) : ℤ)) (1, i), rz (gamma * (tc / 4) * (Int.xor (1 - old i) (2 - old i) : ℤ)) (0, i)] ++
      rzz (gamma * (tc / 4) * (Int.xor (2 * old i) (2 - 1) : ℤ)) (1, i) (0, i)

/-- `new_key[i]` (portfolio_rebalancing.py:118). -/
def portfolioKey (s : St (ℕ × ℕ)) (i : ℕ) : ℤ := ((s (0, i)).toNat : ℤ) - ((s (1, i)).toNat : ℤ)

/-- The cost of one outcome in `portfolio_cl_cost_function` (portfolio_rebalancing.py:114-125). -/
noncomputable def portfolioObj (n : ℕ) (old : ℕ → ℤ) (rr : ℝ) (cov : ℕ → ℕ → ℝ) (ret : ℕ → ℝ) (tc : ℝ) (s : St (ℕ × ℕ)) : ℝ :=
  -((∑ i ∈ Finset.range n, ∑ j ∈ Finset.range n, rr * cov i j * portfolioKey s i * portfolioKey s j) +
    (∑ j ∈ Finset.range n, (1 - rr) * ret j * portfolioKey s j) + ∑ i ∈ Finset.range n, (if portfolioKey s i ≠ old i then tc else 0))

/-! ### Specification -/

/-- Every basis state with a nonzero amplitude, i.e. every possible outcome, satisfies `P`. -/
def Supp (P : St Q → Prop) (ψ : St Q → ℂ) : Prop := ∀ s, ψ s ≠ 0 → P s

/-- The circuit keeps the outcomes inside `P`. -/
def Keeps (P : St Q → Prop) (gs : List (QG Q)) : Prop := ∀ ψ, Supp P ψ → Supp P (run gs ψ)

/-- No edge inside the set. -/
def Indep (E : List (ℕ × ℕ)) (s : St ℕ) : Prop := ∀ e ∈ E, ¬(s e.1 = true ∧ s e.2 = true)

/-- The chosen nodes are pairwise adjacent. -/
def Clique (n : ℕ) (E : List (ℕ × ℕ)) (s : St ℕ) : Prop :=
  ∀ i < n, ∀ j < n, i ≠ j → s i = true → s j = true → (i, j) ∈ E ∨ (j, i) ∈ E

/-- The chosen sets are pairwise disjoint. -/
def Packing (sets : List (List ℕ)) (s : St ℕ) : Prop :=
  ∀ i < sets.length, ∀ j < sets.length, i ≠ j → s i = true → s j = true → ∀ x, x ∈ sets.getD i [] → x ∉ sets.getD j []

/-- The chosen sets cover the universe. -/
def Covers (sets : List (List ℕ)) (univ : List ℕ) (s : St ℕ) : Prop :=
  ∀ x ∈ univ, ∃ i < sets.length, s i = true ∧ x ∈ sets.getD i []

/-- Every node has exactly one colour. -/
def OneHot (N k : ℕ) (s : St (ℕ × ℕ)) : Prop := ∀ v < N, ∃! i, i < k ∧ s (v, i) = true

/-! ### Lemmas -/

theorem Keeps.nil (P : St Q → Prop) : Keeps P [] := fun _ h => h

theorem Keeps.append {P : St Q → Prop} {A B : List (QG Q)} (hA : Keeps P A) (hB : Keeps P B) : Keeps P (A ++ B) := fun ψ h => by
  rw [run_append]; exact hB _ (hA _ h)

theorem Keeps.flatMap {α : Type} {P : St Q → Prop} (l : List α) (F : α → List (QG Q)) (h : ∀ a ∈ l, Keeps P (F a)) : Keeps P (l.flatMap F) := by
  induction l with
  | nil => exact Keeps.nil P
  | cons a l ih => exact (h a List.mem_cons_self).append (ih fun b hb => h b (List.mem_cons_of_mem _ hb))

theorem Keeps.map {α : Type} {P : St Q → Prop} (l : List α) (F : α → QG Q) (h : ∀ a ∈ l, Keeps P [F a]) : Keeps P (l.map F) := by
  rw [List.map_eq_flatMap]; exact Keeps.flatMap l _ h

theorem Diag.keeps {P : St Q → Prop} {A : List (QG Q)} {f : St Q → ℝ} (h : Diag A f) : Keeps P A := fun ψ hψ s hs => by
  rw [h] at hs
  exact hψ s (right_ne_zero_of_mul hs)

theorem keeps_qaoa {P : St Q → Prop} {cost mixer : ℝ → List (QG Q)} (hc : ∀ g, Keeps P (cost g)) (hm : ∀ b, Keeps P (mixer b)) (depth : ℕ) (theta : ℕ → ℝ)
    {init : List (QG Q)} {ψ : St Q → ℂ} (hi : Supp P (run init ψ)) : Supp P (run (qaoa init cost mixer depth theta) ψ) := by
  unfold qaoa
  rw [run_append]
  exact Keeps.flatMap (List.range depth) _ (fun i _ => (hc _).append (hm _)) _ hi

theorem diag_rzMixer (n : ℕ) (beta : ℝ) : Diag (rzMixer n beta) fun s => beta / 2 * ∑ i ∈ Finset.range n, zv (s i) := by
  refine (Diag.map (List.range n) _ (fun i s => beta / 2 * zv (s i)) fun i _ => (diag_rz _ i).congr fun s => by ring).congr fun s => ?_
  rw [sum_map_range, Finset.mul_sum]

theorem sum_zv (n : ℕ) (s : St ℕ) : ∑ i ∈ Finset.range n, zv (s i) = n - 2 * (((Finset.range n).filter fun i => s i = true).card : ℝ) := by
  have h : ∀ i, zv (s i) = 1 - 2 * (if s i = true then 1 else 0) := fun i => by cases h : s i <;> simp [zv]; norm_num
  rw [Finset.sum_congr rfl fun i _ => h i, Finset.sum_sub_distrib, ← Finset.mul_sum, ← Finset.sum_filter, Finset.sum_const, Finset.sum_const, Finset.card_range]
  simp

/-- A controlled rotation keeps the outcomes inside `P` if flipping the target under the control stays inside. -/
theorem keeps_cg1 {P : St Q → Prop} {c : St Q → Bool} {M : Bool → Bool → ℂ} {q : Q}
    (h : ∀ s, c s = true → P (upd s q (!s q)) → P s) : Keeps P [.cg1 c M q] := fun ψ hψ s hs => by
  change (if c s = true then app1 M q ψ s else ψ s) ≠ 0 at hs
  by_cases hc : c s = true
  · rw [if_pos hc] at hs
    have hs' : ψ (upd s q (s q)) ≠ 0 ∨ ψ (upd s q (!s q)) ≠ 0 := by
      by_contra hcon
      rw [not_or, not_not, not_not] at hcon
      apply hs
      unfold app1
      cases hq : s q
      · rw [hq] at hcon; simp [hcon.1, (show ψ (upd s q true) = 0 from hcon.2)]
      · rw [hq] at hcon; simp [hcon.1, (show ψ (upd s q false) = 0 from hcon.2)]
    rcases hs' with h1 | h1
    · rw [upd_self] at h1; exact hψ s h1
    · exact h s hc (hψ _ h1)
  · rw [if_neg hc] at hs; exact hψ s hs

theorem mem_adj {E : List (ℕ × ℕ)} {e : ℕ × ℕ} (he : e ∈ E) : e.2 ∈ adj E e.1 ∧ (e.1 ≠ e.2 → e.1 ∈ adj E e.2) := by
  unfold adj
  constructor
  · rw [List.mem_filterMap]; exact ⟨e, he, by simp⟩
  · intro hne
    rw [List.mem_filterMap]; exact ⟨e, he, by simp [hne]⟩

theorem misPred_spec {E : List (ℕ × ℕ)} {i : ℕ} {s : St ℕ} (h : misPred E i s = true) : ∀ j ∈ adj E i, s j = false := by
  unfold misPred at h
  intro j hj
  rw [if_neg (by intro h0; rw [List.length_eq_zero_iff] at h0; rw [h0] at hj; simp at hj), List.all_eq_true] at h
  simpa using h j hj

theorem keeps_mis {E : List (ℕ × ℕ)} (hE : ∀ e ∈ E, e.1 ≠ e.2) (n : ℕ) (beta : ℝ) : Keeps (Indep E) (misMixer E n beta) := by
  refine Keeps.map _ _ fun i _ => keeps_cg1 fun s hc hP e he hs => ?_
  have hz := misPred_spec hc
  obtain ⟨m1, m2⟩ := mem_adj he
  by_cases h1 : e.1 = i
  · rw [h1] at m1; rw [hz _ m1] at hs; simp at hs
  · by_cases h2 : e.2 = i
    · have := m2 (hE e he); rw [h2] at this; rw [hz _ this] at hs; simp at hs
    · refine hP e he ?_
      rw [Rev.upd_ne h1, Rev.upd_ne h2]; exact hs

theorem isEdge_iff (E : List (ℕ × ℕ)) (i j : ℕ) : isEdge E i j = true ↔ (i, j) ∈ E ∨ (j, i) ∈ E := by
  unfold isEdge
  rw [List.any_eq_true]
  constructor
  · rintro ⟨e, he, h⟩
    rcases (Bool.or_eq_true _ _).mp h with h | h <;> simp only [Bool.and_eq_true, beq_iff_eq] at h
    · left; rw [← h.1, ← h.2]; exact he
    · right; rw [← h.1, ← h.2]; exact he
  · rintro (h | h)
    · exact ⟨_, h, by simp⟩
    · exact ⟨_, h, by simp⟩

theorem mem_complement {n : ℕ} {E : List (ℕ × ℕ)} {e : ℕ × ℕ} :
    e ∈ complement n E ↔ e.1 < n ∧ e.2 < n ∧ e.1 < e.2 ∧ ¬((e.1, e.2) ∈ E ∨ (e.2, e.1) ∈ E) := by
  unfold complement
  rw [List.mem_filter, List.mem_product, List.mem_range, List.mem_range, Bool.and_eq_true, decide_eq_true_iff, Bool.not_eq_true', ← Bool.not_eq_true,
    isEdge_iff, and_assoc]

theorem indep_complement {n : ℕ} {E : List (ℕ × ℕ)} {s : St ℕ} : Indep (complement n E) s ↔ Clique n E s := by
  constructor
  · intro h i hi j hj hne hsi hsj
    by_contra hcon
    rcases Nat.lt_or_gt_of_ne hne with hlt | hlt
    · exact h (i, j) (mem_complement.mpr ⟨hi, hj, hlt, hcon⟩) ⟨hsi, hsj⟩
    · exact h (j, i) (mem_complement.mpr ⟨hj, hi, hlt, fun h' => hcon h'.symm⟩) ⟨hsj, hsi⟩
  · rintro h e he ⟨h1, h2⟩
    obtain ⟨a, b, c, d⟩ := mem_complement.mp he
    exact d (h _ a _ b (Nat.ne_of_lt c) h1 h2)

theorem mem_packEdges {sets : List (List ℕ)} {e : ℕ × ℕ} :
    e ∈ packEdges sets ↔ e.1 < sets.length ∧ e.2 < sets.length ∧ e.1 < e.2 ∧ ∃ x ∈ sets.getD e.1 [], x ∈ sets.getD e.2 [] := by
  unfold packEdges
  rw [List.mem_filter, List.mem_product, List.mem_range, List.mem_range, Bool.and_eq_true, decide_eq_true_iff, List.any_eq_true, and_assoc]
  simp only [List.contains_iff_mem]

theorem indep_pack {sets : List (List ℕ)} {s : St ℕ} : Indep (packEdges sets) s ↔ Packing sets s := by
  constructor
  · intro h i hi j hj hne hsi hsj x hx hx'
    rcases Nat.lt_or_gt_of_ne hne with hlt | hlt
    · exact h (i, j) (mem_packEdges.mpr ⟨hi, hj, hlt, x, hx, hx'⟩) ⟨hsi, hsj⟩
    · exact h (j, i) (mem_packEdges.mpr ⟨hj, hi, hlt, x, hx', hx⟩) ⟨hsj, hsi⟩
  · rintro h e he ⟨h1, h2⟩
    obtain ⟨a, b, c, x, hx, hx'⟩ := mem_packEdges.mp he
    exact h _ a _ b (Nat.ne_of_lt c) h1 h2 x hx hx'

theorem keeps_cover {sets : List (List ℕ)} {univ : List ℕ}
    (h2 : ∀ x ∈ univ, ∀ i < sets.length, ∃ k < sets.length, k ≠ i ∧ x ∈ sets.getD k []) (n : ℕ) (beta : ℝ) :
    Keeps (Covers sets univ) (coverMixer sets n beta) := by
  refine Keeps.map _ _ fun i _ => keeps_cg1 fun s hc hP x hx => ?_
  by_cases hxi : x ∈ sets.getD i []
  · have hi : i < sets.length := by
      by_contra hcon
      rw [List.getD_eq_getElem?_getD, List.getElem?_eq_none (not_lt.mp hcon)] at hxi
      simp at hxi
    unfold coverPred at hc
    simp only [List.length_map] at hc
    rw [if_neg (by intro h0; rw [List.length_eq_zero_iff] at h0; rw [h0] at hxi; simp at hxi), List.all_eq_true] at hc
    have := hc _ (List.mem_map.mpr ⟨x, hxi, rfl⟩)
    obtain ⟨k, hk, hki, hkx⟩ := h2 x hx i hi
    have hmem : k ∈ (List.range sets.length).filter fun k => (sets.getD k []).contains x && k != i := by
      rw [List.mem_filter]; exact ⟨List.mem_range.mpr hk, by simp [hki]; simpa using hkx⟩
    simp only [id, Bool.true_xor, Bool.not_eq_true', mcx0Fires] at this
    rw [if_neg (by intro h0; rw [List.length_eq_zero_iff] at h0; rw [h0] at hmem; simp at hmem), ← Bool.not_eq_true, List.all_eq_true] at this
    push Not at this
    obtain ⟨j, hj, hsj⟩ := this
    rw [List.mem_filter, List.mem_range] at hj
    refine ⟨j, hj.1, by simpa using hsj, ?_⟩
    have := hj.2
    rw [Bool.and_eq_true] at this
    simpa using this.1
  · obtain ⟨j, hj, hsj, hjx⟩ := hP x hx
    refine ⟨j, hj, ?_, hjx⟩
    by_cases hji : j = i
    · subst hji; exact absurd hjx hxi
    · rwa [Rev.upd_ne hji] at hsj

theorem run_xAll (n : ℕ) : run (xAll n) zeroSt = fun s => by classical exact if s = fun i => decide (i < n) then 1 else 0 := by
  classical
  induction n with
  | zero =>
    funext s
    show zeroSt s = _
    unfold zeroSt
    congr 1
  | succ n ih =>
    unfold xAll at *
    rw [List.range_succ, List.map_append, run_append, ih]
    funext s
    simp only [List.map_cons, List.map_nil, run, QG.app]
    have key : ∀ s : St ℕ, (upd s n (!s n) = fun i => decide (i < n)) ↔ s = fun i => decide (i < n + 1) := by
      intro s
      constructor
      · intro h
        funext i
        have := congrFun h i
        by_cases hi : i = n
        · subst hi
          rw [Rev.upd_same] at this
          simp at this
          simp [this]
        · rw [Rev.upd_ne hi] at this
          rw [this]
          have : i < n ↔ i < n + 1 := by omega
          simp [this]
      · intro h
        funext i
        by_cases hi : i = n
        · subst hi; rw [Rev.upd_same, h]; simp
        · rw [Rev.upd_ne hi, h]
          have : i < n ↔ i < n + 1 := by omega
          simp [this]
    have := key s
    unfold app1 xG
    cases hs : s n
    · rw [hs] at this
      simp only [Bool.false_eq_true, if_true, if_false, reduceCtorEq, zero_mul, one_mul, zero_add]
      exact if_congr this rfl rfl
    · rw [hs] at this
      simp only [Bool.false_eq_true, if_true, if_false, reduceCtorEq, zero_mul, one_mul, add_zero]
      exact if_congr this rfl rfl

/-! #### The XXYY gate -/

/-- Amplitudes as a function of two qubits. -/
def loc (a b : Q) (ψ : St Q → ℂ) (s : St Q) : Bool → Bool → ℂ := fun x y => ψ (upd (upd s a x) b y)

theorem loc_self {a b : Q} (ψ : St Q → ℂ) (s : St Q) : loc a b ψ s (s a) (s b) = ψ s := by
  unfold loc; rw [upd_self, upd_self]

variable {a b : Q}

theorem loc_a (hab : a ≠ b) (M : Bool → Bool → ℂ) (ψ : St Q → ℂ) (s : St Q) (x y : Bool) :
    loc a b (QG.app (.g1 M a) ψ) s x y = M x false * loc a b ψ s false y + M x true * loc a b ψ s true y := by
  show app1 M a ψ _ = _
  unfold app1 loc
  have h : upd (upd s a x) b y a = x := by rw [Rev.upd_ne hab, Rev.upd_same]
  rw [h, upd_comm hab, upd_upd, upd_upd, upd_comm hab.symm, upd_comm hab.symm]

theorem loc_b (M : Bool → Bool → ℂ) (ψ : St Q → ℂ) (s : St Q) (x y : Bool) :
    loc a b (QG.app (.g1 M b) ψ) s x y = M y false * loc a b ψ s x false + M y true * loc a b ψ s x true := by
  show app1 M b ψ _ = _
  unfold app1 loc
  rw [Rev.upd_same, upd_upd, upd_upd]

theorem loc_p (hab : a ≠ b) (t : ℝ) (ψ : St Q → ℂ) (s : St Q) (x y : Bool) :
    loc a b (QG.app (pG t a) ψ) s x y = (if x then ei t else 1) * loc a b ψ s x y := by
  show (if _ then _ else _) * _ = _
  have h : upd (upd s a x) b y a = x := by rw [Rev.upd_ne hab, Rev.upd_same]
  simp only [List.all_cons, List.all_nil, h]
  cases x <;> simp [loc]

theorem loc_cx (hab : a ≠ b) (ψ : St Q → ℂ) (s : St Q) (x y : Bool) : loc a b (QG.app (.cx b a) ψ) s x y = loc a b ψ s (x ^^ y) y := by
  show ψ _ = ψ _
  have h : upd (upd s a x) b y a = x := by rw [Rev.upd_ne hab, Rev.upd_same]
  rw [h, Rev.upd_same, upd_comm hab, upd_upd, upd_comm hab.symm]

/-- Product of one-qubit matrices. -/
noncomputable def mul1 (M N : Bool → Bool → ℂ) : Bool → Bool → ℂ := fun x y => M x false * N false y + M x true * N true y

theorem app1_app1 (M N : Bool → Bool → ℂ) (q : Q) (ψ : St Q → ℂ) : app1 M q (app1 N q ψ) = app1 (mul1 M N) q ψ := by
  funext s
  unfold app1 mul1
  rw [Rev.upd_same, Rev.upd_same, upd_upd, upd_upd, upd_upd, upd_upd]
  ring

theorem ei_eq (t : ℝ) : ei t = (Real.cos t : ℂ) + Real.sin t * Complex.I := by
  unfold ei; rw [Complex.exp_mul_I, Complex.ofReal_cos, Complex.ofReal_sin]

theorem ei_mul_neg (t : ℝ) : ei t * ei (-t) = 1 := by rw [← ei_add, add_neg_cancel, ei_zero]

theorem ry_of_rx (t : ℝ) : mul1 (rzG (Real.pi / 2)) (mul1 (rxG t) (rzG (-Real.pi / 2))) = ryG t := by
  have h1 : ei (Real.pi / 2 / 2) * ei (-(Real.pi / 2 / 2)) = 1 := ei_mul_neg _
  have hh : ei (Real.pi / 2 / 2) * ei (Real.pi / 2 / 2) = Complex.I := by
    rw [← ei_add, ei_eq, show Real.pi / 2 / 2 + Real.pi / 2 / 2 = Real.pi / 2 by ring, Real.cos_pi_div_two, Real.sin_pi_div_two]; simp
  have hh' : ei (-(Real.pi / 2 / 2)) * ei (-(Real.pi / 2 / 2)) = -Complex.I := by
    rw [← ei_add, ei_eq, show -(Real.pi / 2 / 2) + -(Real.pi / 2 / 2) = -(Real.pi / 2) by ring, Real.cos_neg, Real.sin_neg, Real.cos_pi_div_two,
      Real.sin_pi_div_two]; simp
  have e1 : -(Real.pi / 2) / 2 = -(Real.pi / 2 / 2) := by ring
  have e2 : -Real.pi / 2 / 2 = -(Real.pi / 2 / 2) := by ring
  have e3 : -(-Real.pi / 2) / 2 = Real.pi / 2 / 2 := by ring
  have hI := Complex.I_mul_I
  funext x y
  cases x <;> cases y <;>
    simp only [mul1, rzG, rxG, ryG, e1, e2, e3, if_true, if_false, reduceCtorEq, Bool.false_eq_true, zero_mul, mul_zero, add_zero, zero_add]
  · linear_combination ((Real.cos (t / 2) : ℂ)) * h1
  · linear_combination (-Complex.I * (Real.sin (t / 2) : ℂ)) * hh' + (Real.sin (t / 2) : ℂ) * hI
  · linear_combination (-Complex.I * (Real.sin (t / 2) : ℂ)) * hh - (Real.sin (t / 2) : ℂ) * hI
  · linear_combination ((Real.cos (t / 2) : ℂ)) * h1

theorem rzG_zero (q : Q) (ψ : St Q → ℂ) : QG.app (rz 0 q) ψ = ψ := by
  funext s
  have := diag_rz 0 q ψ s
  beta_reduce at this
  rw [show -(0 : ℝ) / 2 * zv (s q) = 0 by ring, ei_zero, one_mul] at this
  exact this

theorem rot3 (t : ℝ) (q : Q) (ψ : St Q → ℂ) :
    QG.app (rz (Real.pi / 2) q) (QG.app (rx t q) (QG.app (rz (-Real.pi / 2) q) ψ)) = QG.app (.g1 (ryG t) q) ψ := by
  show app1 _ q (app1 _ q (app1 _ q ψ)) = app1 _ q ψ
  rw [app1_app1 (rxG t), app1_app1, ry_of_rx]

theorem run_xxyy (hab : a ≠ b) (phi : ℝ) (ψ : St Q → ℂ) (s : St Q) :
    run (xxyy phi 0 a b) ψ s = if s a = s b then ψ s
      else (Real.cos (phi / 2) : ℂ) * ψ s - Complex.I * Real.sin (phi / 2) * ψ (upd (upd s a (s b)) b (s a)) := by
  unfold xxyy run run run run run run run run run run run run run run run
  rw [neg_zero, rzG_zero, rzG_zero, rot3, rot3]
  rw [← loc_self (a := a) (b := b) (ψ := QG.app _ _)]
  have hsw : ψ (upd (upd s a (s b)) b (s a)) = loc a b ψ s (s b) (s a) := rfl
  have hself : ψ s = loc a b ψ s (s a) (s b) := (loc_self ψ s).symm
  rw [hsw, hself]
  simp only [loc_b, loc_p hab, loc_cx hab, loc_a hab]
  generalize loc a b ψ s = f
  generalize s a = x
  generalize s b = y
  have hr : (Real.cos (Real.pi / 2 / 2) : ℂ) * Real.cos (Real.pi / 2 / 2) = 1 / 2 := by
    rw [← Complex.ofReal_mul, show Real.pi / 2 / 2 = Real.pi / 4 by ring, Real.cos_pi_div_four, div_mul_div_comm, Real.mul_self_sqrt (by norm_num)]; norm_num
  have hsr : (Real.sin (Real.pi / 2 / 2) : ℂ) = Real.cos (Real.pi / 2 / 2) := by
    rw [show Real.pi / 2 / 2 = Real.pi / 4 by ring, Real.cos_pi_div_four, Real.sin_pi_div_four]
  have e1 : -(Real.pi / 2) / 2 = -(Real.pi / 2 / 2) := by ring
  have e2 : -phi / 2 / 2 = -(phi / 4) := by ring
  have hc : (Real.cos (phi / 2) : ℂ) = Real.cos (phi / 4) ^ 2 - Real.sin (phi / 4) ^ 2 := by
    rw [show phi / 2 = 2 * (phi / 4) by ring, Real.cos_two_mul']; push_cast; ring
  have hs2 : (Real.sin (phi / 2) : ℂ) = 2 * Real.sin (phi / 4) * Real.cos (phi / 4) := by
    rw [show phi / 2 = 2 * (phi / 4) by ring, Real.sin_two_mul]; push_cast; ring
  have hcs : (Real.cos (phi / 4) : ℂ) ^ 2 + Real.sin (phi / 4) ^ 2 = 1 := by
    rw [← Complex.ofReal_pow, ← Complex.ofReal_pow, ← Complex.ofReal_add, Real.cos_sq_add_sin_sq, Complex.ofReal_one]
  have hi1 : ei (Real.pi / 2) = Complex.I := by rw [ei_eq, Real.cos_pi_div_two, Real.sin_pi_div_two]; simp
  have hi2 : ei (-(Real.pi / 2)) = -Complex.I := by rw [ei_eq, Real.cos_neg, Real.sin_neg, Real.cos_pi_div_two, Real.sin_pi_div_two]; simp
  have hI := Complex.I_mul_I
  rw [hc, hs2]
  simp only [ryG, e1, e2, Real.cos_neg, Real.sin_neg, Complex.ofReal_neg, neg_neg, hsr, hi1, hi2]
  generalize (Real.cos (Real.pi / 2 / 2) : ℂ) = r at hr
  generalize (Real.cos (phi / 4) : ℂ) = c at hcs
  generalize (Real.sin (phi / 4) : ℂ) = d at hcs
  generalize Complex.I = I at hI
  cases x <;> cases y <;>
    simp only [if_true, if_false, reduceCtorEq, Bool.false_eq_true, Bool.xor_true, Bool.xor_false, Bool.not_true, Bool.not_false, one_mul]
  · linear_combination (2 * (c ^ 2 + d ^ 2) * f false false) * hr + f false false * hcs
  · linear_combination (2 * (c ^ 2 - d ^ 2) * f false true - 4 * c * d * I * f true false) * hr
  · linear_combination (-2 * r ^ 2 * (c ^ 2 - d ^ 2) * f true false) * hI + (2 * (c ^ 2 - d ^ 2) * f true false - 4 * I * c * d * f false true) * hr
  · linear_combination (-2 * r ^ 2 * (c ^ 2 + d ^ 2) * f true true) * hI + (2 * (c ^ 2 + d ^ 2) * f true true) * hr + f true true * hcs

theorem keeps_xxyy {P : St Q → Prop} (hab : a ≠ b) (h : ∀ s, s a ≠ s b → P (upd (upd s a (s b)) b (s a)) → P s) (phi : ℝ) :
    Keeps P (xxyy phi 0 a b) := fun ψ hψ s hs => by
  rw [run_xxyy hab] at hs
  by_cases hc : s a = s b
  · rw [if_pos hc] at hs; exact hψ s hs
  · rw [if_neg hc] at hs
    by_cases h1 : ψ s = 0
    · rw [h1, mul_zero, zero_sub, neg_ne_zero] at hs
      exact h s hc (hψ _ (right_ne_zero_of_mul hs))
    · exact hψ s h1

/-- The number of ones of a register of `k` qubits. -/
def wt (q : ℕ → Q) (k : ℕ) (s : St Q) : ℕ := ((Finset.range k).filter fun i => s (q i) = true).card

theorem wt_swap {q : ℕ → Q} (hq : Function.Injective q) {k i j : ℕ} (hi : i < k) (hj : j < k) (hij : i ≠ j) (s : St Q) (hs : s (q i) ≠ s (q j)) :
    wt q k (upd (upd s (q i) (s (q j))) (q j) (s (q i))) = wt q k s := by
  unfold wt
  refine Finset.card_bij (fun x _ => Equiv.swap i j x) ?_ (fun x _ y _ h => (Equiv.swap i j).injective h) ?_
  · intro x hx
    rw [Finset.mem_filter, Finset.mem_range] at hx ⊢
    by_cases h1 : x = i
    · subst h1
      rw [Rev.upd_ne (fun h => hij (hq h)), Rev.upd_same] at hx
      rw [Equiv.swap_apply_left]; exact ⟨hj, hx.2⟩
    · by_cases h2 : x = j
      · subst h2
        rw [Rev.upd_same] at hx
        rw [Equiv.swap_apply_right]; exact ⟨hi, hx.2⟩
      · rw [Rev.upd_ne (fun h => h2 (hq h)), Rev.upd_ne (fun h => h1 (hq h))] at hx
        rw [Equiv.swap_apply_of_ne_of_ne h1 h2]; exact hx
  · intro x hx
    rw [Finset.mem_filter, Finset.mem_range] at hx
    refine ⟨Equiv.swap i j x, ?_, Equiv.swap_apply_self i j x⟩
    rw [Finset.mem_filter, Finset.mem_range]
    by_cases h1 : x = i
    · subst h1
      rw [Equiv.swap_apply_left, Rev.upd_same]; exact ⟨hj, hx.2⟩
    · by_cases h2 : x = j
      · subst h2
        rw [Equiv.swap_apply_right, Rev.upd_ne (fun h => hij (hq h)), Rev.upd_same]; exact ⟨hi, hx.2⟩
      · rw [Equiv.swap_apply_of_ne_of_ne h1 h2, Rev.upd_ne (fun h => h2 (hq h)), Rev.upd_ne (fun h => h1 (hq h))]; exact hx

/-- The XY mixer keeps every property that does not change when two bits of the register are exchanged. -/
theorem keeps_xyMixer {P : St Q → Prop} {q : ℕ → Q} (hq : Function.Injective q) {k : ℕ} {beta : ℝ} {c : List (QG Q)} (hc : xyMixer q k beta = some c)
    (h : ∀ i < k, ∀ j < k, i ≠ j → ∀ s, s (q i) ≠ s (q j) → P (upd (upd s (q i) (s (q j))) (q j) (s (q i))) → P s) : Keeps P c := by
  unfold xyMixer at hc
  split at hc
  · cases hc
  · rename_i hk
    injection hc with hc
    subst hc
    have key : ∀ i < k, ∀ j < k, i ≠ j → Keeps P (xxyy (4 * beta) 0 (q i) (q j)) := fun i hi j hj hij => keeps_xxyy (fun h' => hij (hq h')) (h i hi j hj hij) _
    refine Keeps.append (Keeps.append (Keeps.flatMap _ _ fun i hi => ?_) (Keeps.flatMap _ _ fun i hi => ?_)) (key _ (by omega) _ (by omega) (by omega))
    · rw [List.mem_range] at hi; exact key _ (by omega) _ (by omega) (by omega)
    · rw [List.mem_range] at hi; exact key _ (by omega) _ (by omega) (by omega)

theorem oneHot_iff (N k : ℕ) (s : St (ℕ × ℕ)) : OneHot N k s ↔ ∀ v < N, wt (fun i => (v, i)) k s = 1 := by
  unfold OneHot wt
  refine forall_congr' fun v => imp_congr_right fun _ => ?_
  rw [Finset.card_eq_one]
  constructor
  · rintro ⟨i, hi, hu⟩
    refine ⟨i, Finset.ext fun j => ?_⟩
    rw [Finset.mem_filter, Finset.mem_range, Finset.mem_singleton]
    exact ⟨fun h => hu j h, fun h => h ▸ hi⟩
  · rintro ⟨i, hi⟩
    have hm : ∀ j, j ∈ (Finset.range k).filter (fun i => s (v, i) = true) ↔ j = i := fun j => by rw [hi, Finset.mem_singleton]
    refine ⟨i, ?_, fun j hj => ?_⟩
    · have := (hm i).mpr rfl
      rwa [Finset.mem_filter, Finset.mem_range] at this
    · exact (hm j).mp (by rwa [Finset.mem_filter, Finset.mem_range])

theorem keeps_applyXY (N k : ℕ) (beta : ℝ) : Keeps (OneHot N k) (applyXY N k beta) := by
  refine Keeps.flatMap _ _ fun v _ => ?_
  cases hx : xyMixer (fun i => (v, i)) k beta with
  | none => exact Keeps.nil _
  | some c =>
    have hinj : Function.Injective (fun i : ℕ => (v, i)) := fun i j h => (Prod.mk.inj h).2
    refine keeps_xyMixer hinj hx fun i hi j hj hij s hs hP => ?_
    rw [oneHot_iff] at hP ⊢
    intro u hu
    rw [← hP u hu]
    by_cases huv : u = v
    · subst huv
      exact (wt_swap hinj hi hj hij s hs).symm
    · unfold wt
      congr 1
      refine Finset.filter_congr fun l _ => ?_
      rw [Rev.upd_ne (fun h => huv (Prod.mk.inj h).1), Rev.upd_ne (fun h => huv (Prod.mk.inj h).1)]

/-! #### Classical costs -/

theorem mem_indices (l : List Bool) (i : ℕ) : i ∈ indices l ↔ l.getD i false = true := by
  unfold indices
  rw [List.mem_filter, List.mem_range]
  constructor
  · exact fun h => h.2
  · intro h
    refine ⟨?_, h⟩
    by_contra hcon
    rw [List.getD_eq_getElem?_getD, List.getElem?_eq_none (not_lt.mp hcon)] at h
    simp at h

theorem misCost_eq {E : List (ℕ × ℕ)} (hE : ∀ e ∈ E, e.1 ≠ e.2) (res : List (List Bool × ℝ)) :
    misCost E res = (res.map fun r => r.2 * (by classical exact if Indep E (fun i => r.1.getD i false) then -((indices r.1).length : ℝ) else 0)).sum := by
  classical
  unfold misCost
  have key : ∀ (l : List (List Bool × ℝ)) (acc : ℝ), l.foldl (fun cost r =>
      let ind := indices r.1
      if ind.any fun i => ind.any fun j => decide (i < j) && isEdge E i j then cost else cost + -(ind.length : ℝ) * r.2) acc =
      acc + (l.map fun r => r.2 * (if Indep E (fun i => r.1.getD i false) then -((indices r.1).length : ℝ) else 0)).sum := by
    intro l
    induction l with
    | nil => intro acc; simp
    | cons r l ih =>
      intro acc
      rw [List.foldl_cons, ih, List.map_cons, List.sum_cons]
      have hiff : ((indices r.1).any fun i => (indices r.1).any fun j => decide (i < j) && isEdge E i j) = true ↔ ¬Indep E (fun i => r.1.getD i false) := by
        unfold Indep
        push Not
        simp only [List.any_eq_true, Bool.and_eq_true, decide_eq_true_iff, isEdge_iff, mem_indices]
        constructor
        · rintro ⟨i, hi, j, hj, _, h | h⟩
          · exact ⟨_, h, hi, hj⟩
          · exact ⟨_, h, hj, hi⟩
        · rintro ⟨e, he, h1, h2⟩
          rcases Nat.lt_or_gt_of_ne (hE e he) with hlt | hlt
          · exact ⟨_, h1, _, h2, hlt, Or.inl he⟩
          · exact ⟨_, h2, _, h1, hlt, Or.inr he⟩
      by_cases hI : Indep E (fun i => r.1.getD i false)
      · rw [if_neg (fun h => hiff.mp h hI), if_pos hI]; ring
      · rw [if_pos (hiff.mpr hI), if_neg hI]; ring
  rw [key, zero_add]

theorem coverCost_eq (sets : List (List ℕ)) (univ : List ℕ) (res : List (List Bool × ℝ)) :
    coverCost sets univ res = (res.map fun r => if 0 < (indices r.1).length ∧ ((indices r.1).flatMap fun i => sets.getD i []).toFinset = univ.toFinset
      then r.2 * ((indices r.1).length : ℝ) else (sets.length : ℝ)).sum := by
  unfold coverCost
  have key : ∀ (l : List (List Bool × ℝ)) (acc : ℝ), l.foldl (fun cost r =>
      let ind := indices r.1
      let union := ind.flatMap fun i => sets.getD i []
      if ind.length > 0 ∧ union.toFinset = univ.toFinset then cost + (ind.length : ℝ) * r.2 else cost + sets.length) acc =
      acc + (l.map fun r => if 0 < (indices r.1).length ∧ ((indices r.1).flatMap fun i => sets.getD i []).toFinset = univ.toFinset
      then r.2 * ((indices r.1).length : ℝ) else (sets.length : ℝ)).sum := by
    intro l
    induction l with
    | nil => intro acc; simp
    | cons r l ih =>
      intro acc
      rw [List.foldl_cons, ih, List.map_cons, List.sum_cons]
      by_cases hI : 0 < (indices r.1).length ∧ ((indices r.1).flatMap fun i => sets.getD i []).toFinset = univ.toFinset
      · rw [if_pos hI]
        rw [if_pos hI]; ring
      · rw [if_neg hI]
        rw [if_neg hI]; ring
  rw [key, zero_add]

end Verif.Qaoa
