import Verif.Circ.WState
import Mathlib.Data.Nat.Choose.Basic
import Mathlib.Tactic.IntervalCases

/-!
`dicke_state` (alg_primitives/dicke_state_prep.py:27-95).
The qubit `qv[i]` is the number `i`; numbers from `len(qv)` on are other qubits.
-/

namespace Verif.Circ

open Verif.Rev (upd upd_same upd_ne)

/-- dicke_state_prep.py:82-86 and 91-95: one controlled rotation between two `cx`.  `cs` are the further controls. -/
noncomputable def dickeBlock (θ : ℝ) (cs : List Nat) (t last : Nat) : List (Op × List Nat) :=
  [(cxG, [t, last]), (.ctrl (ryG θ) (true :: cs.map fun _ => true), last :: (cs ++ [t])), (cxG, [t, last])]

/-- dicke_state_prep.py:80-95 `split_cycle_shift(qv, m, l)`: the first block, then those of the loop `for i in range(1, l)`. -/
noncomputable def scs (m : Nat) : Nat → List (Op × List Nat)
  | 0 => dickeBlock (2 * Real.arccos (Real.sqrt (1 / m))) [] (m - 2) (m - 1)
  | 1 => dickeBlock (2 * Real.arccos (Real.sqrt (1 / m))) [] (m - 2) (m - 1)
  | l + 2 => scs m (l + 1) ++
      dickeBlock (2 * Real.arccos (Real.sqrt (((l + 1 : Nat) + 1) / m))) [m - (l + 1) - 1] (m - (l + 1) - 2) (m - 1)

/-- dicke_state_prep.py:57-59: `for offset in range(d)` with the sizes `n, n-1, …`. -/
noncomputable def dickeDown (k : Nat) (n : Nat) : Nat → List (Op × List Nat)
  | 0 => []
  | d + 1 => dickeDown k n d ++ scs (n - d) k

/-- dicke_state_prep.py:61-63: `for offset in range(d)` with the sizes `k, k-1, …`. -/
noncomputable def dickeRest (k : Nat) : Nat → List (Op × List Nat)
  | 0 => []
  | d + 1 => dickeRest k d ++ scs (k - d) (k - d - 1)

/-- dicke_state_prep.py:27-63 `dicke_state(qv, k)` for a variable of `n` qubits with `1 ≤ k ≤ n`. -/
noncomputable def dicke (n k : Nat) : List (Op × List Nat) := dickeDown k n (n - k) ++ dickeRest k (k - 1)

/-! ### One block -/

/-- The configuration with the values of two qubits exchanged. -/
def exch (c : Nat → Bool) (t u : Nat) : Nat → Bool := upd (upd c t (c u)) u (c t)

theorem cx_apply {t u : Nat} (ψ : Amp Nat) (c : Nat → Bool) : den cxG [t, u] ψ c = if c t then ψ (upd c u (!c u)) else ψ c := by
  show (if ((c t == true) && true) = true then app1 Pauli.x.mat u ψ c else ψ c) = _
  rw [pauli_x_mk]
  cases h : c t
  · simp
  · simp only [beq_self_eq_true, Bool.and_true, if_true]
    unfold app1 mux
    cases h2 : c u <;> simp [mk]

theorem ry_apply (θ : ℝ) (t : Nat) (ψ : Amp Nat) (c : Nat → Bool) : app1 (rym θ) t ψ c =
    if c t then Complex.sin (θ / 2) * ψ (upd c t false) + Complex.cos (θ / 2) * ψ c
    else Complex.cos (θ / 2) * ψ c - Complex.sin (θ / 2) * ψ (upd c t true) := by
  have hself : ∀ x, c t = x → upd c t x = c := by
    intro x hx
    funext z
    by_cases e2 : z = t
    · subst e2; rw [upd_same, hx]
    · rw [upd_ne e2]
  unfold app1 mux rym
  cases h : c t <;> simp [mk, hself _ h] <;> ring

/-- All the further controls are set. -/
def onAll (cs : List Nat) (c : Nat → Bool) : Bool := cs.all c

theorem ctlMatch_true (cs : List Nat) (c : Nat → Bool) : ctlMatch cs (cs.map fun _ => true) c = onAll cs c := by
  induction cs with
  | nil => rfl
  | cons x r ih =>
    simp only [List.map_cons, ctlMatch, ih, onAll, List.all_cons]
    cases c x <;> rfl

theorem block_apply {θ : ℝ} {cs : List Nat} {t u : Nat} (htu : t ≠ u) (hcs : ∀ z ∈ cs, z ≠ t ∧ z ≠ u) (ψ : Amp Nat) (c : Nat → Bool) :
    runOps (dickeBlock θ cs t u) ψ c = if onAll cs c = true ∧ c t ≠ c u then
      Complex.cos (θ / 2) * ψ c + (if c t then Complex.sin (θ / 2) else -Complex.sin (θ / 2)) * ψ (exch c t u) else ψ c := by
  have hon : ∀ b, onAll cs (upd c u b) = onAll cs c := by
    intro b
    unfold onAll
    rw [Bool.eq_iff_iff, List.all_eq_true, List.all_eq_true]
    refine forall_congr' fun z => forall_congr' fun hz => ?_
    rw [upd_ne (hcs z hz).2]
  have hry : ∀ (φ : Amp Nat) (d : Nat → Bool), den (.ctrl (ryG θ) (true :: cs.map fun _ => true)) (u :: (cs ++ [t])) φ d =
      if d u = true ∧ onAll cs d = true then app1 (rym θ) t φ d else φ d := by
    intro φ d
    have e : den (.ctrl (ryG θ) (true :: cs.map fun _ => true)) (u :: (cs ++ [t])) φ d =
        ctl (ctlMatch ((u :: (cs ++ [t])).take (cs.length + 1)) (true :: cs.map fun _ => true))
          (on1 (u3m θ 0 0 0) ((u :: (cs ++ [t])).drop (cs.length + 1))) φ d := by
      simp only [den, List.length_cons, List.length_map, ryG]
    rw [e]
    have e1 : (u :: (cs ++ [t])).take (cs.length + 1) = u :: cs := by simp
    have e2 : (u :: (cs ++ [t])).drop (cs.length + 1) = [t] := by simp
    rw [e1, e2]
    unfold ctl
    simp only [ctlMatch, ctlMatch_true, on1, u3m_ry]
    cases d u <;> cases onAll cs d <;> simp
  unfold dickeBlock
  simp only [runOps]
  rw [cx_apply]
  simp only [hry, cx_apply, ry_apply, hon]
  have hut : u ≠ t := Ne.symm htu
  have k2 : ∀ b, upd c u b t = c t := fun b => upd_ne htu
  have k4 : ∀ (d : Nat → Bool) b, upd d t b u = d u := fun d b => upd_ne hut
  have k5 : ∀ b1 b2, upd (upd c u b1) u b2 = upd c u b2 := by
    intro b1 b2; funext z
    by_cases e : z = u
    · subst e; rw [upd_same, upd_same]
    · rw [upd_ne e, upd_ne e, upd_ne e]
  have k6 : ∀ b, c u = b → upd c u b = c := by
    intro b hb; funext z
    by_cases e : z = u
    · subst e; rw [upd_same, hb]
    · rw [upd_ne e]
  have k7 : ∀ b1 b2, upd (upd c u b1) t b2 = upd (upd c t b2) u b1 := fun b1 b2 => upd_comm hut c b1 b2
  have k8 : ∀ b, c t = b → upd c t b = c := by
    intro b hb; funext z
    by_cases e : z = t
    · subst e; rw [upd_same, hb]
    · rw [upd_ne e]
  cases h1 : c t <;> cases h2 : c u <;> cases h3 : onAll cs c <;>
    simp [h1, h2, k2, k4, k5, k6 _ h2, k7, exch] <;> ring

/-! ### Basis patterns -/

/-- The first `m` qubits are in the basis state `z`; the amplitude of the others is `χ`. -/
noncomputable def pat (m : Nat) (z : Nat → Bool) (χ : Amp Nat) : Amp Nat := fun c => if ∀ k < m, c k = z k then χ (clr m c) else 0

/-- A combination of two states. -/
noncomputable def comb (α β : ℂ) (ψ φ : Amp Nat) : Amp Nat := fun c => α * ψ c + β * φ c

theorem block_comb {θ : ℝ} {cs : List Nat} {t u : Nat} (htu : t ≠ u) (hcs : ∀ z ∈ cs, z ≠ t ∧ z ≠ u) (α β : ℂ) (ψ φ : Amp Nat) :
    runOps (dickeBlock θ cs t u) (comb α β ψ φ) = comb α β (runOps (dickeBlock θ cs t u) ψ) (runOps (dickeBlock θ cs t u) φ) := by
  funext c
  unfold comb
  rw [block_apply htu hcs, block_apply htu hcs, block_apply htu hcs]
  by_cases h : onAll cs c = true ∧ c t ≠ c u
  · rw [if_pos h, if_pos h, if_pos h]; ring
  · rw [if_neg h, if_neg h, if_neg h]

theorem exch_t {c : Nat → Bool} {t u : Nat} (htu : t ≠ u) : exch c t u t = c u := by
  unfold exch; rw [upd_ne htu, upd_same]
theorem exch_u {c : Nat → Bool} {t u : Nat} : exch c t u u = c t := by
  unfold exch; rw [upd_same]
theorem exch_ne {c : Nat → Bool} {t u z : Nat} (h1 : z ≠ t) (h2 : z ≠ u) : exch c t u z = c z := by
  unfold exch; rw [upd_ne h2, upd_ne h1]

theorem onAll_congr {cs : List Nat} {c d : Nat → Bool} (h : ∀ z ∈ cs, c z = d z) : onAll cs c = onAll cs d := by
  unfold onAll
  rw [Bool.eq_iff_iff, List.all_eq_true, List.all_eq_true]
  exact forall_congr' fun z => forall_congr' fun hz => by rw [h z hz]

theorem clr_exch {m t u : Nat} (ht : t < m) (hu : u < m) (c : Nat → Bool) : clr m (exch c t u) = clr m c := by
  unfold exch; rw [clr_upd hu, clr_upd ht]

/-- A pattern on which the block does not act. -/
theorem block_fix {θ : ℝ} {cs : List Nat} {t u m : Nat} (htu : t ≠ u) (hcs : ∀ z ∈ cs, z ≠ t ∧ z ≠ u) (ht : t < m) (hu : u < m)
    (hm : ∀ z ∈ cs, z < m) {z : Nat → Bool} (hz : ¬ (onAll cs z = true ∧ z t ≠ z u)) (χ : Amp Nat) :
    runOps (dickeBlock θ cs t u) (pat m z χ) = pat m z χ := by
  funext c
  rw [block_apply htu hcs]
  by_cases h : onAll cs c = true ∧ c t ≠ c u
  · rw [if_pos h]
    have e1 : pat m z χ c = 0 := by
      refine if_neg fun hc => hz ?_
      rw [← hc t ht, ← hc u hu, ← onAll_congr (fun y hy => hc y (hm y hy))]
      exact h
    have e2 : pat m z χ (exch c t u) = 0 := by
      refine if_neg fun hc => hz ?_
      rw [← hc t ht, ← hc u hu, exch_t htu, exch_u, ← onAll_congr (c := c) (fun y hy => by
        rw [← hc y (hm y hy), exch_ne (hcs y hy).1 (hcs y hy).2])]
      exact ⟨h.1, Ne.symm h.2⟩
    rw [e1, e2]; simp
  · rw [if_neg h]

/-- A pattern which the block rotates. -/
theorem block_rot {θ : ℝ} {cs : List Nat} {t u m : Nat} (htu : t ≠ u) (hcs : ∀ z ∈ cs, z ≠ t ∧ z ≠ u) (ht : t < m) (hu : u < m)
    (hm : ∀ z ∈ cs, z < m) {z : Nat → Bool} (hz : onAll cs z = true) (hzt : z t = false) (hzu : z u = true) (χ : Amp Nat) :
    runOps (dickeBlock θ cs t u) (pat m z χ) = comb (Complex.cos (θ / 2)) (Complex.sin (θ / 2)) (pat m z χ) (pat m (exch z t u) χ) := by
  funext c
  rw [block_apply htu hcs]
  unfold comb
  have hswap : (∀ k < m, exch c t u k = z k) ↔ ∀ k < m, c k = exch z t u k := by
    have gen : ∀ a b : Nat → Bool, (∀ k < m, exch a t u k = b k) → ∀ k < m, a k = exch b t u k := by
      intro a b h k hk
      by_cases e1 : k = t
      · subst e1; rw [exch_t htu, ← h u hu, exch_u]
      · by_cases e2 : k = u
        · subst e2; rw [exch_u, ← h t ht, exch_t htu]
        · rw [exch_ne e1 e2, ← h k hk, exch_ne e1 e2]
    refine ⟨gen c z, fun h k hk => ((gen z c fun j hj => (h j hj).symm) k hk).symm⟩
  have hpat : pat m z χ (exch c t u) = pat m (exch z t u) χ c := by
    unfold pat
    by_cases h : ∀ k < m, c k = exch z t u k
    · rw [if_pos h, if_pos (hswap.mpr h), clr_exch ht hu]
    · rw [if_neg h, if_neg fun h' => h (hswap.mp h')]
  by_cases h1 : ∀ k < m, c k = z k
  · have hc : onAll cs c = true ∧ c t ≠ c u := by
      refine ⟨by rw [onAll_congr (fun y hy => h1 y (hm y hy))]; exact hz, ?_⟩
      rw [h1 t ht, h1 u hu, hzt, hzu]; decide
    have h0 : pat m (exch z t u) χ c = 0 := by
      refine if_neg fun h => ?_
      have := h t ht
      rw [h1 t ht, exch_t htu, hzt, hzu] at this
      cases this
    rw [if_pos hc, hpat, h0]; ring
  · have h0 : pat m z χ c = 0 := if_neg h1
    by_cases h2 : ∀ k < m, c k = exch z t u k
    · have ct : c t = true := by rw [h2 t ht, exch_t htu, hzu]
      have cu : c u = false := by rw [h2 u hu, exch_u, hzt]
      have hc : onAll cs c = true ∧ c t ≠ c u := by
        refine ⟨?_, by rw [ct, cu]; decide⟩
        rw [onAll_congr (d := z) (fun y hy => by rw [h2 y (hm y hy), exch_ne (hcs y hy).1 (hcs y hy).2])]
        exact hz
      rw [if_pos hc, if_pos ct, h0, hpat]
    · have h3 : pat m (exch z t u) χ c = 0 := if_neg h2
      by_cases hc : onAll cs c = true ∧ c t ≠ c u
      · rw [if_pos hc, hpat, h0, h3]; simp
      · rw [if_neg hc, h0, h3]; simp

/-! ### A split and cycle shift -/

/-- `|0^{m-j} 1^j⟩`. -/
def std (m j : Nat) : Nat → Bool := fun k => decide (m - j ≤ k)
/-- `|0^{m-j-1} 1^j 0⟩`. -/
def shf (m j : Nat) : Nat → Bool := fun k => decide (m - j - 1 ≤ k ∧ k ≠ m - 1)

theorem pat_congr {m : Nat} {z z' : Nat → Bool} (h : ∀ k < m, z k = z' k) (χ : Amp Nat) : pat m z χ = pat m z' χ := by
  funext c
  unfold pat
  have : (∀ k < m, c k = z k) ↔ ∀ k < m, c k = z' k :=
    forall_congr' fun k => forall_congr' fun hk => by rw [h k hk]
  by_cases hc : ∀ k < m, c k = z k
  · rw [if_pos hc, if_pos (this.mp hc)]
  · rw [if_neg hc, if_neg fun h => hc (this.mpr h)]

theorem exch_std {m j : Nat} (hj : 1 ≤ j) (hjm : j < m) (k : Nat) (hk : k < m) : exch (std m j) (m - j - 1) (m - 1) k = shf m j k := by
  by_cases e1 : k = m - 1
  · subst e1; rw [exch_u]; unfold std shf
    rw [decide_eq_decide]; omega
  · by_cases e2 : k = m - j - 1
    · subst e2
      rw [exch_t (by omega)]; unfold std shf
      rw [decide_eq_decide]; omega
    · rw [exch_ne e2 e1]; unfold std shf
      rw [decide_eq_decide]; omega

theorem angle_cs {x : ℝ} (h0 : 0 ≤ x) (h1 : x ≤ 1) : Complex.cos (((2 * Real.arccos (Real.sqrt x) : ℝ) : ℂ) / 2) = ((Real.sqrt x : ℝ) : ℂ) ∧
    Complex.sin (((2 * Real.arccos (Real.sqrt x) : ℝ) : ℂ) / 2) = ((Real.sqrt (1 - x) : ℝ) : ℂ) := by
  have e : (((2 * Real.arccos (Real.sqrt x) : ℝ) : ℂ) / 2) = ((Real.arccos (Real.sqrt x) : ℝ) : ℂ) := by push_cast; ring
  have hs := Real.sqrt_nonneg x
  rw [e, ← Complex.ofReal_cos, ← Complex.ofReal_sin, Real.cos_arccos (by linarith) (Real.sqrt_le_one.mpr h1), Real.sin_arccos,
    Real.sq_sqrt h0]
  exact ⟨rfl, rfl⟩

/-- The result of the first blocks up to `l` on `|0^{m-j} 1^j⟩`. -/
noncomputable def scsOut (m l j : Nat) (χ : Amp Nat) : Amp Nat :=
  if 1 ≤ j ∧ j ≤ l then comb (Real.sqrt (j / m) : ℝ) (Real.sqrt (1 - j / m) : ℝ) (pat m (std m j) χ) (pat m (shf m j) χ)
  else pat m (std m j) χ

theorem scs_out {m j : Nat} (hj : j ≤ m) (χ : Amp Nat) : ∀ l, 1 ≤ l → l < m → runOps (scs m l) (pat m (std m j) χ) = scsOut m l j χ
  | 0, h, _ => absurd h (by decide)
  | 1, _, hm => by
    have hx1 : (1 : ℝ) / m ≤ 1 := by
      rw [div_le_one (by exact_mod_cast (by omega : 0 < m))]; exact_mod_cast (by omega : 1 ≤ m)
    have hcs := angle_cs (x := 1 / m) (by positivity) hx1
    unfold scs scsOut
    by_cases h1 : j = 1
    · subst h1
      rw [if_pos ⟨le_refl 1, le_refl 1⟩, block_rot (by omega) (by simp) (by omega) (by omega) (by simp) rfl
        (by unfold std; rw [decide_eq_false_iff_not]; omega) (by unfold std; rw [decide_eq_true_eq]), hcs.1, hcs.2, Nat.cast_one]
      congr 1
      exact pat_congr (fun k hk => exch_std (le_refl 1) hm k hk) χ
    · rw [if_neg (by omega)]
      refine block_fix (by omega) (by simp) (by omega) (by omega) (by simp) ?_ χ
      rintro ⟨_, h⟩
      refine h ?_
      unfold std
      rw [decide_eq_decide]; omega
  | l + 2, _, hm => by
    have ih := scs_out hj χ (l + 1) (by omega) (by omega)
    have hx1 : (((l + 1 : Nat) : ℝ) + 1) / m ≤ 1 := by
      rw [div_le_one (by exact_mod_cast (by omega : 0 < m))]; exact_mod_cast (by omega : l + 1 + 1 ≤ m)
    have hcs := angle_cs (x := (((l + 1 : Nat) : ℝ) + 1) / m) (by positivity) hx1
    have q1 : m - (l + 1) - 2 ≠ m - 1 := by omega
    have q2 : ∀ z ∈ [m - (l + 1) - 1], z ≠ m - (l + 1) - 2 ∧ z ≠ m - 1 := by
      intro z hz; rw [List.mem_singleton] at hz; subst hz; omega
    have q3 : ∀ z ∈ [m - (l + 1) - 1], z < m := by
      intro z hz; rw [List.mem_singleton] at hz; subst hz; omega
    have hone : ∀ z : Nat → Bool, onAll [m - (l + 1) - 1] z = z (m - (l + 1) - 1) := by
      intro z; simp [onAll]
    unfold scs
    rw [runOps_append, ih]
    unfold scsOut
    by_cases h1 : 1 ≤ j ∧ j ≤ l + 1
    · rw [if_pos h1, if_pos (by omega), block_comb q1 q2, block_fix q1 q2 (by omega) (by omega) q3, block_fix q1 q2 (by omega) (by omega) q3]
      · rw [hone]
        rintro ⟨ha, hb⟩
        unfold shf at ha hb
        rw [decide_eq_true_eq] at ha
        refine hb ?_
        rw [decide_eq_decide]; omega
      · rw [hone]
        rintro ⟨ha, hb⟩
        unfold std at ha
        rw [decide_eq_true_eq] at ha
        omega
    · rw [if_neg h1]
      by_cases h2 : j = l + 2
      · subst h2
        rw [if_pos (by omega), block_rot q1 q2 (by omega) (by omega) q3 (by rw [hone]; unfold std; rw [decide_eq_true_eq]; omega)
          (by unfold std; rw [decide_eq_false_iff_not]; omega) (by unfold std; rw [decide_eq_true_eq]; omega), hcs.1, hcs.2]
        have e : (((l + 1 : Nat) : ℝ) + 1) = ((l + 2 : Nat) : ℝ) := by push_cast; ring
        rw [e]
        congr 1
        rw [show m - (l + 1) - 2 = m - (l + 2) - 1 by omega]
        exact pat_congr (fun k hk => exch_std (by omega) hm k hk) χ
      · rw [if_neg (by omega)]
        refine block_fix q1 q2 (by omega) (by omega) q3 ?_ χ
        rw [hone]
        rintro ⟨ha, hb⟩
        unfold std at ha hb
        rw [decide_eq_true_eq] at ha
        refine hb ?_
        rw [decide_eq_decide]; omega

theorem scs_comb {m : Nat} (α β : ℂ) (ψ φ : Amp Nat) : ∀ l, l < m → 2 ≤ m →
    runOps (scs m l) (comb α β ψ φ) = comb α β (runOps (scs m l) ψ) (runOps (scs m l) φ)
  | 0, _, h => by unfold scs; exact block_comb (by omega) (by simp) α β ψ φ
  | 1, _, h => by unfold scs; exact block_comb (by omega) (by simp) α β ψ φ
  | l + 2, hl, h => by
    have ih := scs_comb α β ψ φ (l + 1) (by omega) h
    unfold scs
    rw [runOps_append, ih, runOps_append, runOps_append]
    refine block_comb (by omega) ?_ α β _ _
    intro z hz; rw [List.mem_singleton] at hz; subst hz; omega

/-! ### The whole circuit -/

/-- The shifts for the sizes from `m` down to `2`. -/
noncomputable def chain (k : Nat) : Nat → List (Op × List Nat)
  | 0 => []
  | 1 => []
  | m + 2 => scs (m + 2) (min k (m + 1)) ++ chain k (m + 1)

theorem chain_step {k m : Nat} (hm : 2 ≤ m) : chain k m = scs m (min k (m - 1)) ++ chain k (m - 1) := by
  obtain ⟨r, rfl⟩ : ∃ r, m = r + 2 := ⟨m - 2, by omega⟩
  rfl

theorem chain_down {k n : Nat} (hk : 1 ≤ k) : ∀ d, d ≤ n - k → chain k n = dickeDown k n d ++ chain k (n - d)
  | 0, _ => rfl
  | d + 1, h => by
    rw [chain_down hk d (by omega), dickeDown, List.append_assoc, chain_step (m := n - d) (by omega), Nat.min_eq_left (by omega)]
    rfl

theorem chain_rest {k : Nat} : ∀ d, d ≤ k - 1 → chain k k = dickeRest k d ++ chain k (k - d)
  | 0, _ => rfl
  | d + 1, h => by
    rw [chain_rest d (by omega), dickeRest, List.append_assoc, chain_step (m := k - d) (by omega), Nat.min_eq_right (by omega)]
    rfl

theorem dicke_chain {n k : Nat} (hk : 1 ≤ k) (hkn : k ≤ n) : dicke n k = chain k n := by
  unfold dicke
  rw [chain_down hk (n - k) (le_refl _), show n - (n - k) = k by omega, chain_rest (k - 1) (le_refl _), show k - (k - 1) = 1 by omega]
  simp [chain]

theorem chain_comb (k : Nat) (α β : ℂ) : ∀ (m : Nat) (ψ φ : Amp Nat),
    runOps (chain k m) (comb α β ψ φ) = comb α β (runOps (chain k m) ψ) (runOps (chain k m) φ)
  | 0, _, _ => rfl
  | 1, _, _ => rfl
  | m + 2, ψ, φ => by
    unfold chain
    rw [runOps_append, runOps_append, runOps_append, scs_comb α β ψ φ _ (by omega) (by omega)]
    exact chain_comb k α β (m + 1) _ _

/-- The number of set bits among the first `m`. -/
def wt : Nat → (Nat → Bool) → Nat
  | 0, _ => 0
  | m + 1, c => wt m c + (if c m then 1 else 0)

/-- The Dicke state of weight `j` on the first `m` qubits. -/
noncomputable def dk (m j : Nat) (χ : Amp Nat) : Amp Nat := fun c =>
  if wt m c = j then ((Real.sqrt (1 / (m.choose j : ℕ)) : ℝ) : ℂ) * χ (clr m c) else 0

/-- The qubit `m` fixed to `b`. -/
noncomputable def fixQ (m : Nat) (b : Bool) (χ : Amp Nat) : Amp Nat := fun c => if c m = b then χ (clr (m + 1) c) else 0

theorem clr_clr (m : Nat) (c : Nat → Bool) : clr (m + 1) (clr m c) = clr (m + 1) c := by
  funext k
  unfold clr
  by_cases h : k < m + 1
  · rw [if_pos h, if_pos h]
  · rw [if_neg h, if_neg h, if_neg (by omega)]

theorem clr_self (m : Nat) (c : Nat → Bool) : clr m c m = c m := by
  unfold clr; rw [if_neg (lt_irrefl m)]

theorem pat_succ {m : Nat} {z z' : Nat → Bool} (h : ∀ k < m, z k = z' k) (χ : Amp Nat) :
    pat (m + 1) z χ = pat m z' (fixQ m (z m) χ) := by
  funext c
  unfold pat fixQ
  rw [clr_self, clr_clr]
  by_cases h1 : ∀ k < m, c k = z' k
  · rw [if_pos h1]
    by_cases h2 : c m = z m
    · rw [if_pos h2, if_pos]
      intro k hk
      by_cases e : k = m
      · subst e; exact h2
      · rw [h k (by omega)]; exact h1 k (by omega)
    · rw [if_neg h2, if_neg fun h' => h2 (h' m (by omega))]
  · rw [if_neg h1, if_neg fun h' => h1 fun k hk => by rw [h' k (by omega), h k hk]]

theorem chain_dk {k : Nat} (hk : 1 ≤ k) : ∀ (m j : Nat) (χ : Amp Nat), 1 ≤ m → j ≤ k → j ≤ m → runOps (chain k m) (pat m (std m j) χ) = dk m j χ
  | 0, _, _, h, _, _ => absurd h (by decide)
  | 1, j, χ, _, _, hj => by
    funext c
    show pat 1 (std 1 j) χ c = dk 1 j χ c
    unfold pat dk
    have hch : Nat.choose 1 j = 1 := by
      interval_cases j <;> rfl
    have hiff : (∀ k < 1, c k = std 1 j k) ↔ wt 1 c = j := by
      have : (∀ k < 1, c k = std 1 j k) ↔ c 0 = std 1 j 0 := by
        refine ⟨fun h => h 0 (by omega), fun h k hk => ?_⟩
        have : k = 0 := by omega
        subst this; exact h
      rw [this]
      unfold std wt wt
      interval_cases j <;> cases c 0 <;> simp
    by_cases h : wt 1 c = j
    · rw [if_pos h, if_pos (hiff.mpr h), hch]; simp
    · rw [if_neg h, if_neg fun h' => h (hiff.mp h')]
  | m + 2, j, χ, _, hjk, hj => by
    have ih := chain_dk hk (m + 1)
    unfold chain
    rw [runOps_append, scs_out hj χ _ (by omega) (by omega)]
    have hwt : ∀ c, wt (m + 2) c = wt (m + 1) c + (if c (m + 1) then 1 else 0) := fun c => rfl
    unfold scsOut
    by_cases h1 : 1 ≤ j ∧ j ≤ min k (m + 1)
    · rw [if_pos h1, chain_comb]
      have e1 : pat (m + 2) (std (m + 2) j) χ = pat (m + 1) (std (m + 1) (j - 1)) (fixQ (m + 1) true χ) := by
        have := pat_succ (m := m + 1) (z := std (m + 2) j) (z' := std (m + 1) (j - 1)) (fun k hk => by
          unfold std; rw [decide_eq_decide]; omega) χ
        rw [show std (m + 2) j (m + 1) = true by unfold std; rw [decide_eq_true_eq]; omega] at this
        exact this
      have e2 : pat (m + 2) (shf (m + 2) j) χ = pat (m + 1) (std (m + 1) j) (fixQ (m + 1) false χ) := by
        have := pat_succ (m := m + 1) (z := shf (m + 2) j) (z' := std (m + 1) j) (fun k hk => by
          unfold std shf; rw [decide_eq_decide]; omega) χ
        rw [show shf (m + 2) j (m + 1) = false by unfold shf; rw [decide_eq_false_iff_not]; omega] at this
        exact this
      rw [e1, e2, ih _ _ (by omega) (by omega) (by omega), ih _ _ (by omega) (by omega) (by omega)]
      funext c
      unfold comb dk fixQ
      rw [clr_self, clr_clr, hwt]
      obtain ⟨i, rfl⟩ : ∃ i, j = i + 1 := ⟨j - 1, by omega⟩
      rw [Nat.add_sub_cancel]
      have hC0 : (0 : ℝ) < ((m + 2).choose (i + 1) : ℕ) := by exact_mod_cast Nat.choose_pos (by omega)
      have hC1 : (0 : ℝ) < ((m + 1).choose i : ℕ) := by exact_mod_cast Nat.choose_pos (by omega)
      have hC2 : (0 : ℝ) < ((m + 1).choose (i + 1) : ℕ) := by exact_mod_cast Nat.choose_pos (by omega)
      have hn : (0 : ℝ) < ((m + 2 : Nat) : ℝ) := by positivity
      cases hc : c (m + 1)
      · simp only [Bool.false_eq_true, if_false, if_true, Nat.add_zero, mul_zero, ite_self, zero_add]
        by_cases hw : wt (m + 1) c = i + 1
        · rw [if_pos hw, if_pos hw]
          have hid : ((m + 1).choose (i + 1) : ℝ) * ((m + 2 : Nat) : ℝ) = ((m + 2).choose (i + 1) : ℝ) * (((m + 2 : Nat) : ℝ) - ((i + 1 : Nat) : ℝ)) := by
            have := Nat.choose_mul_succ_eq (m + 1) (i + 1)
            have h2 : (((m + 1 + 1 - (i + 1) : Nat)) : ℝ) = ((m + 2 : Nat) : ℝ) - ((i + 1 : Nat) : ℝ) := by
              rw [Nat.cast_sub (by omega)]
            rw [← h2]; exact_mod_cast this
          have hs : Real.sqrt (1 - ((i + 1 : Nat) : ℝ) / ((m + 2 : Nat) : ℝ)) * Real.sqrt (1 / ((m + 1).choose (i + 1) : ℕ)) =
              Real.sqrt (1 / ((m + 2).choose (i + 1) : ℕ)) := by
            rw [← Real.sqrt_mul' _ (by positivity)]
            congr 1
            field_simp
            linarith
          rw [← hs]
          push_cast
          ring
        · rw [if_neg hw, if_neg hw]; simp
      · simp only [Bool.true_eq_false, if_false, if_true, mul_zero, ite_self, add_zero]
        by_cases hw : wt (m + 1) c = i
        · rw [if_pos hw, if_pos (by omega)]
          have hid : ((m + 2 : Nat) : ℝ) * ((m + 1).choose i : ℝ) = ((m + 2).choose (i + 1) : ℝ) * ((i + 1 : Nat) : ℝ) := by
            exact_mod_cast Nat.add_one_mul_choose_eq (m + 1) i
          have hs : Real.sqrt (((i + 1 : Nat) : ℝ) / ((m + 2 : Nat) : ℝ)) * Real.sqrt (1 / ((m + 1).choose i : ℕ)) =
              Real.sqrt (1 / ((m + 2).choose (i + 1) : ℕ)) := by
            rw [← Real.sqrt_mul' _ (by positivity)]
            congr 1
            field_simp
            linarith
          rw [← hs]
          push_cast
          ring
        · rw [if_neg hw, if_neg (by omega)]; simp
    · rw [if_neg h1]
      rcases Nat.eq_zero_or_pos j with h0 | h0
      · subst h0
        have e1 : pat (m + 2) (std (m + 2) 0) χ = pat (m + 1) (std (m + 1) 0) (fixQ (m + 1) false χ) := by
          have := pat_succ (m := m + 1) (z := std (m + 2) 0) (z' := std (m + 1) 0) (fun k hk => by
            unfold std; rw [decide_eq_decide]; omega) χ
          rw [show std (m + 2) 0 (m + 1) = false by unfold std; rw [decide_eq_false_iff_not]; omega] at this
          exact this
        rw [e1, ih _ _ (by omega) (by omega) (by omega)]
        funext c
        unfold dk fixQ
        rw [clr_self, clr_clr, hwt]
        cases hc : c (m + 1)
        · simp
        · simp
      · have hjm : j = m + 2 := by omega
        subst hjm
        have e1 : pat (m + 2) (std (m + 2) (m + 2)) χ = pat (m + 1) (std (m + 1) (m + 1)) (fixQ (m + 1) true χ) := by
          have := pat_succ (m := m + 1) (z := std (m + 2) (m + 2)) (z' := std (m + 1) (m + 1)) (fun k hk => by
            unfold std; rw [decide_eq_decide]; omega) χ
          rw [show std (m + 2) (m + 2) (m + 1) = true by unfold std; rw [decide_eq_true_eq]; omega] at this
          exact this
        rw [e1, ih _ _ (by omega) (by omega) (by omega)]
        funext c
        unfold dk fixQ
        rw [clr_self, clr_clr, hwt]
        have hle : wt (m + 1) c ≤ m + 1 := by
          clear * -
          generalize m + 1 = r
          induction r with
          | zero => exact le_refl 0
          | succ r ih => unfold wt; cases c r <;> simp <;> omega
        cases hc : c (m + 1)
        · simp; intro h; omega
        · simp

end Verif.Circ
