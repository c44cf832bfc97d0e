import Verif.Blk.Nlft

/-!
Layer stripping for polynomials of fixed parity: every second coefficient vanishes, the others are those of the polynomials in z².
-/

namespace Verif.Blk

open scoped ComplexConjugate

/-- The same arrays of length `d + 1`. -/
def Agree (d : ℕ) (s t : (ℕ → ℂ) × (ℕ → ℂ)) : Prop := ∀ k ≤ d, s.1 k = t.1 k ∧ s.2 k = t.2 k

theorem Agree.F {d : ℕ} {s t : (ℕ → ℂ) × (ℕ → ℂ)} (h : Agree d s t) : stripF s = stripF t := by
  rw [stripF, stripF, (h 0 (Nat.zero_le d)).1, (h 0 (Nat.zero_le d)).2]

theorem Agree.R {d : ℕ} {s t : (ℕ → ℂ) × (ℕ → ℂ)} (h : Agree d s t) : stripR s = stripR t := by rw [stripR, stripR, h.F]

theorem Agree.strip {d : ℕ} {s t : (ℕ → ℂ) × (ℕ → ℂ)} (h : Agree d s t) : Agree d (strip d s) (strip d t) := by
  intro k hk
  have hm : (k + 1) % (d + 1) ≤ d := Nat.lt_succ_iff.mp (Nat.mod_lt (k + 1) (Nat.succ_pos d))
  simp only [Blk.strip, roll, h.F, h.R, (h k hk).1, (h k hk).2, (h _ hm).1, (h _ hm).2, and_self]

theorem Agree.layers {d : ℕ} {s t : (ℕ → ℂ) × (ℕ → ℂ)} (h : Agree d s t) (j : ℕ) : layers d s j = layers d t j := by
  have it : Agree d ((Blk.strip d)^[j] s) ((Blk.strip d)^[j] t) := by
    induction j with
    | zero => exact h
    | succ j ih => rw [Function.iterate_succ', Function.comp_apply, Function.comp_apply]; exact ih.strip
  exact it.F

theorem layers_succ (d : ℕ) (s : (ℕ → ℂ) × (ℕ → ℂ)) (j : ℕ) : layers d s (j + 1) = layers d (strip d s) j := by
  rw [layers, layers, Function.iterate_succ, Function.comp_apply]

/-- Every second element, beginning with the element `o`. -/
def half (o : ℕ) (c : ℕ → ℂ) : ℕ → ℂ := fun k => c (2 * k + o)

/-- Both polynomials are even. -/
def BothEven (d : ℕ) (s : (ℕ → ℂ) × (ℕ → ℂ)) : Prop := ∀ k ≤ d, k % 2 = 1 → s.1 k = 0 ∧ s.2 k = 0

/-- The constant term of the first polynomial is positive. -/
def Pos0 (s : (ℕ → ℂ) × (ℕ → ℂ)) : Prop := ∃ x : ℝ, 0 < x ∧ s.1 0 = x

theorem Pos0.ne {s : (ℕ → ℂ) × (ℕ → ℂ)} (h : Pos0 s) : s.1 0 ≠ 0 := by
  obtain ⟨x, hx, e⟩ := h
  rw [e]; exact_mod_cast hx.ne'

theorem Pos0.strip {d : ℕ} {s : (ℕ → ℂ) × (ℕ → ℂ)} (h : Pos0 s) : Pos0 (strip d s) := by
  obtain ⟨x, hx, e⟩ := h
  refine ⟨(x + ‖s.2 0‖ ^ 2 / x) / stripR s, by have := stripR_pos s; positivity, ?_⟩
  simp only [Blk.strip]
  rw [stripF, e, map_div₀, Complex.conj_ofReal, div_mul_eq_mul_div, mul_comm (conj _), Complex.mul_conj, Complex.normSq_eq_norm_sq]
  push_cast
  rfl

/-- A layer with coefficient 0. -/
theorem strip_zero {d : ℕ} {s : (ℕ → ℂ) × (ℕ → ℂ)} (h : stripF s = 0) : strip d s = (s.1, roll d s.2) := by
  have r : stripR s = 1 := by rw [stripR, h, norm_zero]; simp
  rw [strip, h, r]
  simp only [map_zero, zero_mul, add_zero, sub_zero, Complex.ofReal_one, div_one]

/-- Two layers of even polynomials are one layer of the polynomials in z². -/
theorem two_layers {d e : ℕ} (hd : d = 2 * e ∨ d = 2 * e + 1) {s : (ℕ → ℂ) × (ℕ → ℂ)} (hs : BothEven d s) (hp : Pos0 s) :
    stripF (strip d s) = 0 ∧ BothEven d (strip d (strip d s))
      ∧ Agree e (half 0 (strip d (strip d s)).1, half 0 (strip d (strip d s)).2) (strip e (half 0 s.1, half 0 s.2)) := by
  set c : ℕ → ℂ := fun k => (s.2 k - stripF s * s.1 k) / stripR s with hc
  have c0 : c 0 = 0 := by simp only [hc]; rw [stripF, div_mul_cancel₀ _ hp.ne, sub_self, zero_div]
  have codd : ∀ k ≤ d, k % 2 = 1 → c k = 0 := by
    intro k hk h1
    simp only [hc]; rw [(hs k hk h1).1, (hs k hk h1).2, mul_zero, sub_zero, zero_div]
  have e2 : (strip d s).2 = roll d c := rfl
  have F1 : stripF (strip d s) = 0 := by
    rw [stripF, e2, roll]
    have : c ((0 + 1) % (d + 1)) = 0 := by
      rcases Nat.eq_zero_or_pos d with h | h
      · rw [h]; simpa using c0
      · rw [Nat.mod_eq_of_lt (by omega)]; exact codd _ (by omega) (by omega)
    rw [this, zero_div]
  have hF : stripF (half 0 s.1, half 0 s.2) = stripF s := by simp [stripF, half]
  have hR : stripR (half 0 s.1, half 0 s.2) = stripR s := by rw [stripR, hF, stripR]
  refine ⟨F1, ?_, ?_⟩
  · rw [strip_zero F1]
    intro k hk h1
    constructor
    · simp only [strip]; rw [(hs k hk h1).1, (hs k hk h1).2, mul_zero, add_zero, zero_div]
    · simp only [e2, roll]
      rcases Nat.lt_or_ge (k + 1) d with h | h
      · rw [Nat.mod_eq_of_lt (by omega : k + 1 < d + 1), Nat.mod_eq_of_lt (by omega)]
        exact codd _ (by omega) (by omega)
      · rcases Nat.eq_or_lt_of_le h with h | h
        · rw [← h, Nat.mod_eq_of_lt (by omega : d < d + 1), Nat.mod_self, c0]
        · rw [show k = d by omega, Nat.mod_self, Nat.mod_eq_of_lt (by omega)]
          exact codd _ (by omega) (by omega)
  · rw [strip_zero F1]
    intro k hk
    constructor
    · show (s.1 (2 * k + 0) + conj (stripF s) * s.2 (2 * k + 0)) / stripR s = (half 0 s.1 k + conj (stripF (half 0 s.1, half 0 s.2)) * half 0 s.2 k) / stripR (half 0 s.1, half 0 s.2)
      rw [hF, hR]; rfl
    · have r : (strip e (half 0 s.1, half 0 s.2)).2 k = c (2 * ((k + 1) % (e + 1))) := by
        show (half 0 s.2 _ - stripF (half 0 s.1, half 0 s.2) * half 0 s.1 _) / stripR (half 0 s.1, half 0 s.2) = _
        rw [hF, hR]; rfl
      rw [r]
      simp only [half, e2, roll, Nat.add_zero]
      rcases Nat.lt_or_ge k e with h | h
      · rw [Nat.mod_eq_of_lt (by omega : 2 * k + 1 < d + 1), Nat.mod_eq_of_lt (by omega : 2 * k + 1 + 1 < d + 1), Nat.mod_eq_of_lt (by omega : k + 1 < e + 1)]
        congr 1
      · have hke : k = e := by omega
        rw [hke, Nat.mod_self, mul_zero, c0]
        rcases hd with h' | h'
        · rw [show 2 * e + 1 = d + 1 by omega, Nat.mod_self]
          rcases Nat.eq_zero_or_pos d with h0 | h0
          · rw [h0]; simpa using c0
          · rw [Nat.mod_eq_of_lt (by omega)]; exact codd _ (by omega) (by omega)
        · rw [show 2 * e + 1 = d by omega, Nat.mod_eq_of_lt (by omega : d < d + 1), Nat.mod_self, c0]

/-- The coefficients of even polynomials. -/
theorem layers_even {d e : ℕ} (hd : d = 2 * e ∨ d = 2 * e + 1) : ∀ (j : ℕ) {s : (ℕ → ℂ) × (ℕ → ℂ)}, BothEven d s → Pos0 s →
    layers d s (2 * j) = layers e (half 0 s.1, half 0 s.2) j ∧ layers d s (2 * j + 1) = 0
  | 0, s, hs, hp => by
    refine ⟨by simp [layers, stripF, half], ?_⟩
    rw [Nat.mul_zero, layers_succ]
    exact (two_layers hd hs hp).1
  | j + 1, s, hs, hp => by
    obtain ⟨-, h2, h3⟩ := two_layers hd hs hp
    obtain ⟨i1, i2⟩ := layers_even hd j h2 hp.strip.strip
    rw [show 2 * (j + 1) = 2 * j + 1 + 1 by ring]
    refine ⟨?_, ?_⟩
    · rw [layers_succ, layers_succ, i1, h3.layers, ← layers_succ]
    · rw [layers_succ, layers_succ, i2]

/-- The coefficients for an odd second polynomial. -/
theorem layers_odd {d e : ℕ} (hd : d = 2 * e + 1) {s : (ℕ → ℂ) × (ℕ → ℂ)} (h1 : ∀ k ≤ d, k % 2 = 1 → s.1 k = 0) (h2 : ∀ k ≤ d, k % 2 = 0 → s.2 k = 0)
    (hp : Pos0 s) (j : ℕ) : layers d s (2 * j + 1) = layers e (half 0 s.1, half 1 s.2) j ∧ layers d s (2 * j) = 0 := by
  have F0 : stripF s = 0 := by rw [stripF, h2 0 (Nat.zero_le d) rfl, zero_div]
  have be : BothEven d (strip d s) := by
    rw [strip_zero F0]
    intro k hk hk1
    refine ⟨h1 k hk hk1, ?_⟩
    simp only [roll]
    rcases Nat.lt_or_ge k d with h | h
    · rw [Nat.mod_eq_of_lt (by omega)]; exact h2 _ (by omega) (by omega)
    · rw [show k = d by omega, Nat.mod_self]; exact h2 0 (by omega) rfl
  have ag : Agree e (half 0 (strip d s).1, half 0 (strip d s).2) (half 0 s.1, half 1 s.2) := by
    rw [strip_zero F0]
    intro k hk
    refine ⟨rfl, ?_⟩
    simp only [half, roll, Nat.add_zero]
    rw [Nat.mod_eq_of_lt (by omega)]
  have ev := fun i => layers_even (Or.inr hd) i be hp.strip
  refine ⟨?_, ?_⟩
  · rw [layers_succ, (ev j).1, ag.layers]
  · cases j with
    | zero => rw [Nat.mul_zero]; exact F0
    | succ j => rw [show 2 * (j + 1) = 2 * j + 1 + 1 by ring, layers_succ]; exact (ev j).2

/-! ### Evaluation -/

theorem sum_even {R : Type} [AddCommMonoid R] (f : ℕ → R) (h : ∀ k, k % 2 = 1 → f k = 0) : ∀ e, ∑ k ∈ Finset.range (2 * e + 1), f k = ∑ j ∈ Finset.range (e + 1), f (2 * j)
  | 0 => by simp
  | e + 1 => by
    rw [Finset.sum_range_succ (fun j => f (2 * j)), ← sum_even f h e, show 2 * (e + 1) + 1 = 2 * e + 1 + 1 + 1 by ring, Finset.sum_range_succ, Finset.sum_range_succ,
      h (2 * e + 1) (by omega), add_zero, show 2 * e + 1 + 1 = 2 * (e + 1) by ring]

theorem ev_half_even {R : Type} [Ring R] [Algebra ℂ R] {d e : ℕ} (hd : d = 2 * e ∨ d = 2 * e + 1) {c : ℕ → ℂ} (h : ∀ k ≤ d, k % 2 = 1 → c k = 0) (u : R) :
    ev d c u = ev e (half 0 c) (u ^ 2) := by
  have key : ∑ k ∈ Finset.range (2 * e + 1), c k • u ^ k = ev e (half 0 c) (u ^ 2) := by
    rw [Finset.sum_congr rfl (g := fun k => (if k % 2 = 1 then 0 else c k) • u ^ k)]
    · rw [sum_even _ (by intro k hk; rw [if_pos hk, zero_smul])]
      rw [ev]
      apply Finset.sum_congr rfl; intro j _
      rw [if_neg (by omega), half, pow_mul, Nat.add_zero]
    · intro k hk
      rw [Finset.mem_range] at hk
      by_cases hk1 : k % 2 = 1
      · rw [if_pos hk1, h k (by omega) hk1]
      · rw [if_neg hk1]
  rcases hd with hd | hd
  · rw [hd, ev, key]
  · rw [hd, ev, Finset.sum_range_succ, key, h (2 * e + 1) (by omega) (by omega), zero_smul, add_zero]

theorem ev_half_odd {R : Type} [Ring R] [Algebra ℂ R] {d e : ℕ} (hd : d = 2 * e + 1) {c : ℕ → ℂ} (h : ∀ k ≤ d, k % 2 = 0 → c k = 0) (u : R) :
    ev d c u = u * ev e (half 1 c) (u ^ 2) := by
  have h0 := h 0 (Nat.zero_le d) rfl
  rw [← ev_roll d c h0, ev_half_even (Or.inr hd) (c := roll d c)]
  · congr 1
    apply ev_congr
    intro k hk
    rw [half, half, roll, Nat.mod_eq_of_lt (by omega)]
  · intro k hk hk1
    rw [roll]
    rcases Nat.lt_or_ge k d with h' | h'
    · rw [Nat.mod_eq_of_lt (by omega)]; exact h _ (by omega) (by omega)
    · rw [show k = d by omega, Nat.mod_self, h0]

/-- Every number of the unit circle is a square. -/
theorem circle_sqrt {z : ℂ} (hz : ‖z‖ = 1) : ∃ w : ℂ, ‖w‖ = 1 ∧ w ^ 2 = z := by
  refine ⟨Complex.exp ((z.arg / 2 : ℝ) * Complex.I), Complex.norm_exp_ofReal_mul_I _, ?_⟩
  rw [← Complex.exp_nat_mul]
  have := Complex.norm_mul_exp_arg_mul_I z
  rw [hz, Complex.ofReal_one, one_mul] at this
  conv_rhs => rw [← this]
  congr 1
  push_cast
  ring

/-- The invariant holds for the polynomials in z². -/
theorem half_inv_even {d e : ℕ} (hd : d = 2 * e ∨ d = 2 * e + 1) {s : (ℕ → ℂ) × (ℕ → ℂ)} (h : LInv d d s) (hs : BothEven d s) :
    LInv e e (half 0 s.1, half 0 s.2) := by
  refine ⟨le_rfl, fun j h1 h2 => by omega, ?_, h.pos⟩
  intro z hz
  obtain ⟨w, hw, rfl⟩ := circle_sqrt hz
  rw [← ev_half_even hd (fun k h1 h2 => (hs k h1 h2).1), ← ev_half_even hd (fun k h1 h2 => (hs k h1 h2).2)]
  exact h.circ w hw

theorem half_inv_odd {d e : ℕ} (hd : d = 2 * e + 1) {s : (ℕ → ℂ) × (ℕ → ℂ)} (h : LInv d d s) (h1 : ∀ k ≤ d, k % 2 = 1 → s.1 k = 0)
    (h2 : ∀ k ≤ d, k % 2 = 0 → s.2 k = 0) : LInv e e (half 0 s.1, half 1 s.2) := by
  refine ⟨le_rfl, fun j h1 h2 => by omega, ?_, h.pos⟩
  intro z hz
  obtain ⟨w, hw, rfl⟩ := circle_sqrt hz
  have := h.circ w hw
  rw [ev_half_even (Or.inr hd) h1, ev_half_odd hd h2, norm_mul, hw, one_mul] at this
  exact this

end Verif.Blk
