import Verif.Circ.Dicke

/-!
Properties of the interaction gates, of `unbalanced_w_state` and of `dicke_state`.
-/

namespace Verif.Props

open Verif.Circ
open Verif.Rev (upd upd_ne)

variable {Q : Type} [DecidableEq Q]

/-! ### C91: the interaction gates -/

/-- The configuration with two bits inverted. -/
def both (c : Q → Bool) (a b : Q) : Q → Bool := fun z => if z = a ∨ z = b then !c z else c z

theorem both_eq {c : Q → Bool} {a b : Q} {x y : Bool} (hab : a ≠ b) (hx : x = !c a) (hy : y = !c b) : upd (upd c a x) b y = both c a b := by
  funext z
  unfold both
  by_cases e1 : z = b
  · subst e1; rw [upd_same, if_pos (Or.inr rfl), hy]
  · rw [upd_ne e1]
    by_cases e2 : z = a
    · subst e2; rw [upd_same, if_pos (Or.inl rfl), hx]
    · rw [upd_ne e2, if_neg (by simp [e1, e2])]

theorem upd2_self {c : Q → Bool} {a b : Q} {x y : Bool} (hx : c a = x) (hy : c b = y) : upd (upd c a x) b y = c := by
  funext z
  by_cases e1 : z = b
  · subst e1; rw [upd_same, hy]
  · rw [upd_ne e1]
    by_cases e2 : z = a
    · subst e2; rw [upd_same, hx]
    · rw [upd_ne e2]

/-- **C91** `rzz(φ)` multiplies by `e^{-iφ/2}` where the two bits agree and by `e^{iφ/2}` where they differ. -/
theorem C91_rzz {a b : Q} (hab : a ≠ b) (φ : ℝ) (ψ : Amp Q) (c : Q → Bool) :
    den (rzzG φ) [a, b] ψ c = Complex.exp (Complex.I * ((if c a = c b then -φ / 2 else φ / 2 : ℝ) : ℂ)) * ψ c := by
  rw [den_rzz hab, app2_eq]
  have e : ∀ x : ℝ, Complex.exp (Complex.I * (x : ℂ)) = ph x := fun _ => rfl
  rw [e]
  cases h1 : c a <;> cases h2 : c b <;> simp [rzzM, diag2, upd2_self h1 h2]

/-- **C91** `rxx(φ)` is `cos(φ/2) - i sin(φ/2) X⊗X`. -/
theorem C91_rxx {a b : Q} (hab : a ≠ b) (φ : ℝ) (ψ : Amp Q) (c : Q → Bool) :
    den (rxxG φ) [a, b] ψ c = Complex.cos (φ / 2) * ψ c - Complex.I * Complex.sin (φ / 2) * ψ (both c a b) := by
  rw [den_rxx hab, app2_eq]
  have hb := both_eq (c := c) hab rfl rfl
  cases h1 : c a <;> cases h2 : c b <;> rw [h1, h2] at hb <;> simp only [Bool.not_false, Bool.not_true] at hb <;>
    rw [upd2_self h1 h2, hb] <;> simp [rxxM] <;> ring

/-- **C91** `xxyy(φ, β)` leaves states with equal bits alone and rotates the two states with unequal bits into each other. -/
theorem C91_xxyy {a b : Q} (hab : a ≠ b) (φ β : ℝ) (ψ : Amp Q) (c : Q → Bool) :
    den (xxyyG φ β) [a, b] ψ c = if c a = c b then ψ c else
      Complex.cos (φ / 2) * ψ c - Complex.I * Complex.sin (φ / 2) * Complex.exp (Complex.I * ((if c a then -β else β : ℝ) : ℂ)) *
        ψ (both c a b) := by
  rw [xxyy_apply hab]
  by_cases h : c a = c b
  · rw [if_pos h, if_pos h]
  · rw [if_neg h, if_neg h, both_eq hab (by cases h1 : c a <;> cases h2 : c b <;> simp_all) (by cases h1 : c a <;> cases h2 : c b <;> simp_all)]
    rfl

/-- A full `rxx(π)` is `-i X⊗X`. -/
example {a b : Q} (hab : a ≠ b) (ψ : Amp Q) (c : Q → Bool) : den (rxxG Real.pi) [a, b] ψ c = -Complex.I * ψ (both c a b) := by
  rw [C91_rxx hab, Complex.cos_pi_div_two, Complex.sin_pi_div_two]; ring

/-- `xxyy(π, β)` exchanges the two states with unequal bits up to phases. -/
example {a b : Q} (hab : a ≠ b) (ψ : Amp Q) (c : Q → Bool) (h1 : c a = true) (h2 : c b = false) :
    den (xxyyG Real.pi 0) [a, b] ψ c = -Complex.I * ψ (both c a b) := by
  rw [C91_xxyy hab, h1, h2, Complex.cos_pi_div_two, Complex.sin_pi_div_two]
  simp

/-! ### C92: `unbalanced_w_state` -/

/-- `√(Σ |a_j|²)` of a list of amplitudes. -/
noncomputable def l2norm (a : List ℂ) : ℝ := Real.sqrt ((a.map fun z => ‖z‖ ^ 2).sum)

theorem sum_range_getD (f : ℂ → ℝ) (a : List ℂ) : ∑ j ∈ Finset.range a.length, f (a.getD j 0) = (a.map f).sum := by
  induction a with
  | nil => rfl
  | cons x r ih =>
    rw [List.length_cons, Finset.sum_range_succ', List.map_cons, List.sum_cons, ← ih, add_comm]
    simp

theorem sum_Ico_getD (f : ℂ → ℝ) : ∀ (a : List ℂ) (i : Nat), ∑ j ∈ Finset.Ico i a.length, f (a.getD j 0) = ((a.drop i).map f).sum
  | a, 0 => by rw [← Finset.range_eq_Ico, sum_range_getD, List.drop_zero]
  | [], i + 1 => by simp
  | x :: r, i + 1 => by
    rw [List.drop_succ_cons, ← sum_Ico_getD f r i, List.length_cons, ← Finset.sum_Ico_add' (fun j => f ((x :: r).getD j 0)) i r.length 1]
    simp

theorem wNormed_eq (a : List ℂ) (i : Nat) : wNormed a.length (a.getD · 0) i = a.getD i 0 / (l2norm a : ℝ) := by
  unfold wNormed l2norm
  rw [sum_range_getD (fun z => ‖z‖ ^ 2)]

theorem wRem_eq (a : List ℂ) (i : Nat) : wRem a.length (a.getD · 0) i = l2norm (a.drop i) / l2norm a := by
  unfold wRem
  simp only [wNormed_eq, norm_div, div_pow]
  simp only [div_eq_mul_inv]
  rw [← Finset.sum_mul, sum_Ico_getD (fun z => ‖z‖ ^ 2), Real.sqrt_mul (List.sum_nonneg (by intro x hx; obtain ⟨z, _, rfl⟩ := List.mem_map.mp hx; exact sq_nonneg _)), Real.sqrt_inv]
  congr 2
  rw [Complex.norm_real, Real.sqrt_sq (norm_nonneg _)]
  exact Real.norm_of_nonneg (Real.sqrt_nonneg _)

/-- **C92** On a fresh variable the amplitude of the state with only the bit `i` set is `a_i / ‖a‖`, and states with any
other number of set bits do not occur.  The tails of the amplitudes have to vanish or to exceed the threshold `1e-15` relative to the norm. -/
theorem C92_w_state {size : Nat} {a : List ℂ} {ops : List (Op × List Nat)} (h : wState size a = some ops)
    (htail : ∀ i < a.length, l2norm (a.drop i) = 0 ∨ l2norm (a.drop i) / l2norm a > 1 / 10 ^ 15)
    {ψ : Amp Nat} (hψ : ∀ c, (∃ k < size, c k = true) → ψ c = 0) (c : Nat → Bool) :
    (∀ i < size, (∀ k < size, c k = decide (k = i)) → runOps ops ψ c = a.getD i 0 / (l2norm a : ℝ) * ψ (fun k => if k < size then false else c k)) ∧
    ((∀ i < size, ¬ ∀ k < size, c k = decide (k = i)) → runOps ops ψ c = 0) := by
  have hsz : size = a.length := by
    by_contra hne
    unfold wState at h
    rw [if_pos hne] at h; cases h
  subst hsz
  obtain ⟨_, hrun⟩ := wState_exc h (fun i hi => by
    rw [wRem_eq]
    rcases htail i hi with h0 | h0
    · left; rw [h0, zero_div]
    · right; exact h0) hψ
  rw [hrun]
  refine ⟨fun i hi ho => ?_, fun hno => exc_none hno _ _⟩
  rw [exc_one hi ho, wNormed_eq]
  rfl

/-- `a = [3, 4i]`: the state with only the bit `1` set has the amplitude `4i/5`. -/
example {ops : List (Op × List Nat)} (h : wState 2 [3, 4 * Complex.I] = some ops) {ψ : Amp Nat}
    (hψ : ∀ c, (∃ k < 2, c k = true) → ψ c = 0) (c : Nat → Bool) (h0 : c 0 = false) (h1 : c 1 = true) :
    runOps ops ψ c = 4 * Complex.I / 5 * ψ (fun k => if k < 2 then false else c k) := by
  have n5 : l2norm [3, 4 * Complex.I] = 5 := by
    unfold l2norm
    rw [show (([3, 4 * Complex.I] : List ℂ).map fun z => ‖z‖ ^ 2).sum = 5 ^ 2 by simp; norm_num]
    exact Real.sqrt_sq (by norm_num)
  have n4 : l2norm [4 * Complex.I] = 4 := by
    unfold l2norm
    rw [show (([4 * Complex.I] : List ℂ).map fun z => ‖z‖ ^ 2).sum = 4 ^ 2 by simp]
    exact Real.sqrt_sq (by norm_num)
  have := (C92_w_state h (by
    intro i hi
    right
    match i, hi with
    | 0, _ => rw [List.drop_zero, n5]; norm_num
    | 1, _ => rw [show List.drop 1 [3, 4 * Complex.I] = [4 * Complex.I] from rfl, n5, n4]; norm_num) hψ c).1 1 (by decide) (by
    intro k hk
    match k, hk with
    | 0, _ => rw [h0]; rfl
    | 1, _ => rw [h1]; rfl)
  rw [this, n5]
  simp

/-- **C92** The call raises exactly if the length does not match or the norm is below `1e-15`. -/
theorem C92_raises (size : Nat) (a : List ℂ) : wState size a = none ↔ size ≠ a.length ∨ l2norm a < 1 / 10 ^ 15 := by
  unfold wState
  rw [show Real.sqrt (∑ j ∈ Finset.range a.length, ‖a.getD j 0‖ ^ 2) = l2norm a from congrArg Real.sqrt (sum_range_getD (fun z => ‖z‖ ^ 2) a)]
  by_cases h1 : size ≠ a.length
  · rw [if_pos h1]; exact ⟨fun _ => Or.inl h1, fun _ => rfl⟩
  · rw [if_neg h1]
    by_cases h2 : l2norm a < 1 / 10 ^ 15
    · rw [if_pos h2]; exact ⟨fun _ => Or.inr h2, fun _ => rfl⟩
    · rw [if_neg h2]
      refine ⟨fun h => ?_, fun h => absurd h (by rintro (h | h); exacts [h1 h, h2 h])⟩
      by_cases h3 : a.length = 1
      · rw [if_pos h3] at h; cases h
      · rw [if_neg h3] at h; cases h

/-! ### C93: `dicke_state` -/

theorem wt_card (n : Nat) (c : Nat → Bool) : wt n c = ((Finset.range n).filter fun k => c k = true).card := by
  induction n with
  | zero => rfl
  | succ n ih =>
    rw [Finset.range_add_one, Finset.filter_insert]
    unfold wt
    rw [ih]
    by_cases h : c n = true
    · rw [if_pos h, if_pos h, Finset.card_insert_of_notMem (by simp)]
    · rw [if_neg h, if_neg h, Nat.add_zero]

/-- **C93** If the variable is in the state `|0…01…1⟩` with the last `k` of `n` qubits set, then afterwards each basis state with exactly
`k` set bits has the amplitude `1/√(n choose k)` and no other basis state occurs; the other qubits are left alone. -/
theorem C93_dicke {n k : Nat} (hk : 1 ≤ k) (hkn : k ≤ n) {ψ : Amp Nat} (hψ : ∀ c, (∃ i < n, c i ≠ decide (n - k ≤ i)) → ψ c = 0) (c : Nat → Bool) :
    runOps (dicke n k) ψ c = if ((Finset.range n).filter fun i => c i = true).card = k then
      ((1 / Real.sqrt (n.choose k) : ℝ) : ℂ) * ψ (fun i => if i < n then decide (n - k ≤ i) else c i) else 0 := by
  have e : ψ = pat n (std n k) (fun c => ψ (fun i => if i < n then decide (n - k ≤ i) else c i)) := by
    funext d
    unfold pat
    by_cases h : ∀ i < n, d i = std n k i
    · rw [if_pos h]
      congr 1
      funext i
      unfold clr
      by_cases hi : i < n
      · rw [if_pos hi, h i hi]; rfl
      · rw [if_neg hi, if_neg hi]
    · rw [if_neg h]
      refine hψ d ?_
      by_contra hno
      refine h fun i hi => ?_
      by_contra hne
      exact hno ⟨i, hi, hne⟩
  conv_lhs => rw [e]
  rw [dicke_chain hk hkn, chain_dk hk n k _ (by omega) (le_refl k) hkn]
  unfold dk
  rw [wt_card, Real.sqrt_div zero_le_one, Real.sqrt_one]
  have e2 : (fun i => if i < n then decide (n - k ≤ i) else clr n c i) = fun i => if i < n then decide (n - k ≤ i) else c i := by
    funext i
    unfold clr
    by_cases hi : i < n
    · rw [if_pos hi, if_pos hi]
    · rw [if_neg hi, if_neg hi, if_neg hi]
  simp only [e2]

/-- Four qubits, weight two: `|1001⟩` has the amplitude `1/√6`. -/
example {ψ : Amp Nat} (hψ : ∀ c, (∃ i < 4, c i ≠ decide (4 - 2 ≤ i)) → ψ c = 0) (c : Nat → Bool) (h0 : c 0 = true) (h1 : c 1 = false)
    (h2 : c 2 = false) (h3 : c 3 = true) :
    runOps (dicke 4 2) ψ c = ((1 / Real.sqrt 6 : ℝ) : ℂ) * ψ (fun i => if i < 4 then decide (4 - 2 ≤ i) else c i) := by
  rw [C93_dicke (by decide) (by decide) hψ c, if_pos]
  · norm_num [Nat.choose]
  · have : (Finset.range 4).filter (fun i => c i = true) = {0, 3} := by
      ext i
      simp only [Finset.mem_filter, Finset.mem_range, Finset.mem_insert, Finset.mem_singleton]
      constructor
      · rintro ⟨h, hc⟩
        interval_cases i
        · exact Or.inl rfl
        · rw [h1] at hc; cases hc
        · rw [h2] at hc; cases hc
        · exact Or.inr rfl
      · rintro (rfl | rfl)
        · exact ⟨by decide, h0⟩
        · exact ⟨by decide, h3⟩
    rw [this]; rfl

end Verif.Props
