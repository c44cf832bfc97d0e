import Verif.Fourier.GroverAlg
import Verif.Props.Fourier
import Mathlib.Analysis.Real.Pi.Bounds

/-!
# Property C99: Grover's algorithm
-/

namespace Verif.Props

open Verif.Rev Verif.Fourier

variable {Q : Type} [DecidableEq Q]

/-- The probability of the states with `g`, for given bits outside of the register. -/
noncomputable def winProb (reg : List Q) (g : St Q → Bool) (ψ : St Q → ℂ) : St Q → ℂ := ip reg (goodPart g ψ) (goodPart g ψ)

theorem winners_le {g : St Q → Bool} : ∀ (reg : List Q) (s : St Q), ∃ m : ℕ, sumOver reg (fun s => if g s then 1 else 0) s = m ∧ m ≤ 2 ^ reg.length
  | [], s => by
    cases h : g s
    · exact ⟨0, by simp [sumOver, h], by simp⟩
    · exact ⟨1, by simp [sumOver, h], by simp⟩
  | q :: reg, s => by
    obtain ⟨a, ha, ha'⟩ := winners_le (g := g) reg (upd s q false)
    obtain ⟨b, hb, hb'⟩ := winners_le (g := g) reg (upd s q true)
    refine ⟨a + b, ?_, ?_⟩
    · rw [sumOver, ha, hb]; push_cast; rfl
    · rw [List.length_cons, pow_succ]; omega

theorem winners_bound {g : St Q → Bool} {reg : List Q} {W : ℕ} (h : Winners g reg W) : W ≤ 2 ^ reg.length := by
  obtain ⟨m, h1, h2⟩ := winners_le (g := g) reg fun _ => false
  rw [h] at h1
  have : W = m := by exact_mod_cast h1
  rw [this]; exact h2

theorem winProb_scaled {g : St Q → Bool} {reg : List Q} {W : ℕ} (hW : Winners g reg W) (a b : ℂ) (s : St Q) :
    winProb reg g (scaled g a b (unif reg)) s = ((W / 2 ^ reg.length * Complex.normSq a : ℝ) : ℂ) := by
  have e : (fun s => (starRingEnd ℂ) (goodPart g (scaled g a b (unif reg)) s) * goodPart g (scaled g a b (unif reg)) s) =
      fun s => ((starRingEnd ℂ) (rt ^ reg.length) * rt ^ reg.length * ((starRingEnd ℂ) a * a)) * (if g s then 1 else 0) := by
    funext s
    unfold goodPart scaled unif
    cases g s <;> simp
    ring
  unfold winProb ip
  rw [e, sumOver_smul, hW]
  push_cast
  rw [Complex.normSq_eq_conj_mul_self]
  have h2 : (2 : ℂ) ^ reg.length ≠ 0 := pow_ne_zero _ two_ne_zero
  have h := rt_norm reg.length
  field_simp
  linear_combination (starRingEnd ℂ) a * a * W * h

theorem winners_not {g : St Q → Bool} {reg : List Q} {W : ℕ} (hW : Winners g reg W) : Winners (fun s => !g s) reg (2 ^ reg.length - W) := by
  intro s
  have h := sum_scaled hW 0 1 s
  have e : (fun s => if (!g s) = true then (1 : ℂ) else 0) = fun s => if g s then 0 else 1 := by
    funext s
    cases g s <;> rfl
  rw [e, h, Nat.cast_sub (winners_bound hW)]
  push_cast
  ring

theorem scaled_not (g : St Q → Bool) (a b : ℂ) (ψ : St Q → ℂ) : scaled g a b ψ = scaled (fun s => !g s) b a ψ := by
  funext s
  unfold scaled
  beta_reduce
  cases g s <;> rfl

theorem loseProb_scaled {g : St Q → Bool} {reg : List Q} {W : ℕ} (hW : Winners g reg W) (a b : ℂ) (s : St Q) :
    winProb reg (fun s => !g s) (scaled g a b (unif reg)) s = (((1 - W / 2 ^ reg.length) * Complex.normSq b : ℝ) : ℂ) := by
  rw [scaled_not, winProb_scaled (winners_not hW), Nat.cast_sub (winners_bound hW)]
  have h2 : (2 : ℝ) ^ reg.length ≠ 0 := pow_ne_zero _ two_ne_zero
  congr 1
  push_cast
  rw [sub_div, div_self h2]

theorem start_scaled (g : St Q → Bool) {reg : List Q} (hn : reg.Nodup) : run (hLayer reg) (zeroOn reg) = scaled g 1 1 (unif reg) := by
  funext s
  rw [run_hLayer hn]
  unfold scaled unif
  simp

/-- The probabilities after `k` iterations with the phase `φ`. -/
theorem loop_prob {g : St Q → Bool} {qs : List Q} {q : Q} (hn : (qs ++ [q]).Nodup) {W : ℕ} (hW : Winners g (qs ++ [q]) W) {φ α : ℝ}
    (hα : Real.sin α ^ 2 = Real.sin (φ / 2) ^ 2 * (W / 2 ^ (qs ++ [q]).length)) (hc : Real.cos α ≠ 0) (k : ℕ) (s : St Q) :
    winProb (qs ++ [q]) (fun s => !g s) (groverLoop g (φ / (2 * Real.pi)) qs q k (run (hLayer (qs ++ [q])) (zeroOn (qs ++ [q])))) s =
      (((1 - W / 2 ^ (qs ++ [q]).length) * (Real.cos ((2 * k + 1) * α) / Real.cos α) ^ 2 : ℝ) : ℂ) := by
  rw [start_scaled g hn, grover_loop hn hW _ k (1, 1), loseProb_scaled hW]
  have hx : ((W : ℂ) / 2 ^ (qs ++ [q]).length) = (((W : ℝ) / 2 ^ (qs ++ [q]).length : ℝ) : ℂ) := by push_cast; rfl
  rw [hx, gstep_snd hα hc, Complex.normSq_mul, Complex.normSq_ofReal]
  have he : Complex.normSq ((-E (φ / (2 * Real.pi))) ^ k) = 1 := by
    have h1 := conj_E_mul (φ / (2 * Real.pi))
    have h2 : Complex.normSq (E (φ / (2 * Real.pi))) = 1 := by
      have := Complex.normSq_eq_conj_mul_self (z := E (φ / (2 * Real.pi)))
      rw [h1] at this
      exact_mod_cast this
    rw [map_pow, Complex.normSq_neg, h2, one_pow]
  rw [he, one_mul, pow_two]

/-- Winner and other states together have the probability 1. -/
theorem loop_total {g : St Q → Bool} {qs : List Q} {q : Q} (hn : (qs ++ [q]).Nodup) {W : ℕ} (hW : Winners g (qs ++ [q]) W) (θ : ℝ) (k : ℕ) (s : St Q) :
    winProb (qs ++ [q]) g (groverLoop g θ qs q k (run (hLayer (qs ++ [q])) (zeroOn (qs ++ [q])))) s +
      winProb (qs ++ [q]) (fun s => !g s) (groverLoop g θ qs q k (run (hLayer (qs ++ [q])) (zeroOn (qs ++ [q])))) s = 1 := by
  rw [start_scaled g hn, grover_loop hn hW _ k (1, 1), loseProb_scaled hW, winProb_scaled hW]
  have hx : ((W : ℂ) / 2 ^ (qs ++ [q]).length) = (((W : ℝ) / 2 ^ (qs ++ [q]).length : ℝ) : ℂ) := by push_cast; rfl
  rw [hx]
  exact_mod_cast gstep_norm_iter _ θ k

/-- With the phase `π`: `sin² ((2k+1) arcsin √(W/N))`. -/
theorem loop_pi {g : St Q → Bool} {qs : List Q} {q : Q} (hn : (qs ++ [q]).Nodup) {W : ℕ} (hW : Winners g (qs ++ [q]) W) (k : ℕ) (s : St Q) :
    winProb (qs ++ [q]) g (groverLoop g (1 / 2) qs q k (run (hLayer (qs ++ [q])) (zeroOn (qs ++ [q])))) s =
      ((Real.sin ((2 * k + 1) * Real.arcsin (Real.sqrt (W / 2 ^ (qs ++ [q]).length))) ^ 2 : ℝ) : ℂ) := by
  have hN : (0 : ℝ) < 2 ^ (qs ++ [q]).length := by positivity
  have hx0 : (0 : ℝ) ≤ W / 2 ^ (qs ++ [q]).length := by positivity
  have hx1 : (W : ℝ) / 2 ^ (qs ++ [q]).length ≤ 1 := by
    rw [div_le_one hN]
    exact_mod_cast winners_bound hW
  have hpi : Real.pi / (2 * Real.pi) = 1 / 2 := by
    have := Real.pi_ne_zero
    field_simp
  have ht := loop_total hn hW (1 / 2) k s
  set x : ℝ := W / 2 ^ (qs ++ [q]).length with hx
  set t := Real.arcsin (Real.sqrt x) with ht'
  have hs : Real.sin t = Real.sqrt x := Real.sin_arcsin (by linarith [Real.sqrt_nonneg x]) (Real.sqrt_le_one.mpr hx1)
  have hs2 : Real.sin t ^ 2 = x := by rw [hs, Real.sq_sqrt hx0]
  have hc2 : Real.cos t ^ 2 = 1 - x := by rw [Real.cos_sq', hs2]
  by_cases hc : Real.cos t = 0
  · have hx1' : x = 1 := by rw [hc] at hc2; linarith
    have hl : winProb (qs ++ [q]) (fun s => !g s) (groverLoop g (1 / 2) qs q k (run (hLayer (qs ++ [q])) (zeroOn (qs ++ [q])))) s = 0 := by
      rw [start_scaled g hn, grover_loop hn hW _ k (1, 1), loseProb_scaled hW, ← hx, hx1']
      simp
    rw [hl, add_zero] at ht
    rw [ht]
    have htp : t = Real.pi / 2 := by rw [ht', hx1', Real.sqrt_one, Real.arcsin_one]
    have hk : (2 * (k : ℝ) + 1) * t = Real.pi / 2 + k * Real.pi := by rw [htp]; ring
    have hcos : Real.cos ((2 * (k : ℝ) + 1) * t) = 0 := by
      rw [hk, Real.cos_add, Real.cos_pi_div_two, Real.sin_nat_mul_pi]
      ring
    have := Real.sin_sq_add_cos_sq ((2 * (k : ℝ) + 1) * t)
    rw [hcos] at this
    have h1 : Real.sin ((2 * (k : ℝ) + 1) * t) ^ 2 = 1 := by linarith
    rw [h1]
    norm_num
  · have h := loop_prob hn hW (φ := Real.pi) (α := t) (by rw [Real.sin_pi_div_two, one_pow, one_mul, ← hx, hs2]) hc k s
    rw [hpi, ← hx, ← hc2] at h
    have e : Real.cos t ^ 2 * (Real.cos ((2 * (k : ℝ) + 1) * t) / Real.cos t) ^ 2 = Real.cos ((2 * (k : ℝ) + 1) * t) ^ 2 := by field_simp
    rw [e] at h
    rw [h] at ht
    have h3 := Real.sin_sq_add_cos_sq ((2 * (k : ℝ) + 1) * t)
    have h4 : ((Real.sin ((2 * (k : ℝ) + 1) * t) ^ 2 : ℝ) : ℂ) + ((Real.cos ((2 * (k : ℝ) + 1) * t) ^ 2 : ℝ) : ℂ) = 1 := by exact_mod_cast h3
    linear_combination ht - h4

/-! ### C99 -/

/-- With `k` iterations the winner states have the probability `sin² ((2k+1) arcsin √(W/N))`. -/
theorem C99_iterations {g : St Q → Bool} {qs : List Q} {q : Q} (hn : (qs ++ [q]).Nodup) {W : ℕ} (hW : Winners g (qs ++ [q]) W) (k : ℕ) (w : Option ℕ) :
    ∃ ψ, groversAlg g qs q (some k) w false = some ψ ∧ ∀ s, winProb (qs ++ [q]) g ψ s =
      ((Real.sin ((2 * k + 1) * Real.arcsin (Real.sqrt (W / 2 ^ (qs ++ [q]).length))) ^ 2 : ℝ) : ℂ) := by
  refine ⟨_, rfl, fun s => ?_⟩
  exact loop_pi hn hW k s

/-- The exact algorithm: all other states have the probability 0. -/
theorem C99_exact {g : St Q → Bool} {qs : List Q} {q : Q} (hn : (qs ++ [q]).Nodup) {W : ℕ} (hW : Winners g (qs ++ [q]) W) (h0 : 0 < W) (it : Option ℤ) :
    ∃ ψ, groversAlg g qs q it (some W) true = some ψ ∧ ∀ s, winProb (qs ++ [q]) g ψ s = 1 ∧ winProb (qs ++ [q]) (fun s => !g s) ψ s = 0 := by
  refine ⟨_, rfl, fun s => ?_⟩
  show winProb (qs ++ [q]) g (groverLoop g (exactPhase (2 ^ (qs ++ [q]).length) W (exactIter (2 ^ (qs ++ [q]).length) W) / (2 * Real.pi)) qs q
    (exactIter (2 ^ (qs ++ [q]).length) W).toNat (run (hLayer (qs ++ [q])) (zeroOn (qs ++ [q])))) s = 1 ∧
    winProb (qs ++ [q]) (fun s => !g s) (groverLoop g (exactPhase (2 ^ (qs ++ [q]).length) W (exactIter (2 ^ (qs ++ [q]).length) W) / (2 * Real.pi)) qs q
    (exactIter (2 ^ (qs ++ [q]).length) W).toNat (run (hLayer (qs ++ [q])) (zeroOn (qs ++ [q])))) s = 0
  have ht := loop_total hn hW (exactPhase (2 ^ (qs ++ [q]).length) W (exactIter (2 ^ (qs ++ [q]).length) W) / (2 * Real.pi))
    (exactIter (2 ^ (qs ++ [q]).length) W).toNat s
  suffices hl : winProb (qs ++ [q]) (fun s => !g s) (groverLoop g (exactPhase (2 ^ (qs ++ [q]).length) W (exactIter (2 ^ (qs ++ [q]).length) W) / (2 * Real.pi)) qs q
    (exactIter (2 ^ (qs ++ [q]).length) W).toNat (run (hLayer (qs ++ [q])) (zeroOn (qs ++ [q])))) s = 0 by
    rw [hl, add_zero] at ht
    exact ⟨ht, hl⟩
  have hN : (0 : ℝ) < 2 ^ (qs ++ [q]).length := by positivity
  have hWR : (0 : ℝ) < W := by exact_mod_cast h0
  have hcast : ((2 ^ (qs ++ [q]).length : ℕ) : ℝ) = 2 ^ (qs ++ [q]).length := by push_cast; rfl
  set N : ℝ := 2 ^ (qs ++ [q]).length with hNdef
  have hx0 : (0 : ℝ) < W / N := by positivity
  have hx1 : (W : ℝ) / N ≤ 1 := by
    rw [div_le_one hN, hNdef]
    exact_mod_cast winners_bound hW
  set t := Real.arcsin (Real.sqrt (W / N)) with htdef
  have hst : Real.sin t = Real.sqrt (W / N) := Real.sin_arcsin (by linarith [Real.sqrt_nonneg ((W : ℝ) / N)]) (Real.sqrt_le_one.mpr hx1)
  have hst0 : 0 < Real.sqrt (W / N) := Real.sqrt_pos.mpr hx0
  have ht0 : 0 < t := Real.arcsin_pos.mpr hst0
  have htp : t ≤ Real.pi / 2 := Real.arcsin_le_pi_div_two _
  have hpi := Real.pi_pos
  have hIt : exactIter (2 ^ (qs ++ [q]).length) W = ⌈Real.pi / (4 * t) - 1 / 2⌉ := by unfold exactIter; rw [hcast]
  set I := exactIter (2 ^ (qs ++ [q]).length) W with hIdef
  have hle : Real.pi / (4 * t) - 1 / 2 ≤ I := by rw [hIt]; exact Int.le_ceil _
  have hI0 : 0 ≤ I := by
    rw [hIt]
    apply Int.ceil_nonneg
    have : 1 / 2 ≤ Real.pi / (4 * t) := by
      rw [le_div_iff₀ (by positivity)]
      linarith
    linarith
  have hIR : (0 : ℝ) ≤ I := by exact_mod_cast hI0
  set α := Real.pi / (4 * I + 2) with hα
  have hα0 : 0 < α := by positivity
  have hαt : α ≤ t := by
    rw [hα, div_le_iff₀ (by positivity)]
    have : Real.pi ≤ (I + 1 / 2) * (4 * t) := by
      rw [← div_le_iff₀ (by positivity)]
      linarith
    linarith
  have hφ : exactPhase (2 ^ (qs ++ [q]).length) W I = 2 * Real.arcsin (Real.sin α / Real.sqrt (W / N)) := by
    unfold exactPhase
    rw [hcast, show 4 * ((I : ℝ) - 1) + 6 = 4 * I + 2 by ring, ← hα, show (N / W : ℝ) = (W / N)⁻¹ by rw [inv_div], Real.sqrt_inv]
    rfl
  have hsα : Real.sin α ≤ Real.sin t := Real.sin_le_sin_of_le_of_le_pi_div_two (by linarith) htp hαt
  have hsα0 : 0 ≤ Real.sin α := Real.sin_nonneg_of_nonneg_of_le_pi hα0.le (by linarith)
  have hq : Real.sin α / Real.sqrt (W / N) ≤ 1 := by rw [div_le_one hst0, ← hst]; exact hsα
  have hq0 : 0 ≤ Real.sin α / Real.sqrt (W / N) := by positivity
  have hsφ : Real.sin (exactPhase (2 ^ (qs ++ [q]).length) W I / 2) = Real.sin α / Real.sqrt (W / N) := by
    rw [hφ, mul_div_cancel_left₀ _ two_ne_zero, Real.sin_arcsin (by linarith) hq]
  have hkey : Real.sin α ^ 2 = Real.sin (exactPhase (2 ^ (qs ++ [q]).length) W I / 2) ^ 2 * (W / N) := by
    rw [hsφ, div_pow, Real.sq_sqrt hx0.le, div_mul_cancel₀ _ hx0.ne']
  rcases hI0.eq_or_lt with hz | hpos
  · have hI' : (I : ℝ) = 0 := by exact_mod_cast hz.symm
    have htt : t = Real.pi / 2 := by
      apply le_antisymm htp
      rw [hα, hI'] at hαt
      simpa using hαt
    have hx : (W : ℝ) / N = 1 := by
      have h1 : Real.sqrt ((W : ℝ) / N) = 1 := by rw [← hst, htt, Real.sin_pi_div_two]
      rw [← Real.sq_sqrt hx0.le, h1, one_pow]
    rw [start_scaled g hn, grover_loop hn hW _ _ (1, 1), loseProb_scaled hW, ← hNdef, hx]
    simp
  · have hI1 : (1 : ℝ) ≤ I := by exact_mod_cast hpos
    have hα6 : α < Real.pi / 2 := by
      rw [hα, div_lt_div_iff₀ (by positivity) (by norm_num)]
      nlinarith
    have hc : Real.cos α ≠ 0 := (Real.cos_pos_of_mem_Ioo ⟨by linarith, hα6⟩).ne'
    rw [loop_prob hn hW hkey hc]
    have hnat : ((I.toNat : ℕ) : ℝ) = I := by
      have : ((I.toNat : ℕ) : ℤ) = I := Int.toNat_of_nonneg hI0
      exact_mod_cast this
    have h2 : (2 * (I : ℝ) + 1) * α = Real.pi / 2 := by
      rw [hα]
      field_simp
      ring
    rw [hnat, h2, Real.cos_pi_div_two]
    simp

/-- The rounded number of iterations overshoots the right angle by a little. -/
theorem overshoot_le {r t y k : ℝ} (hst : Real.sin t = r) (ht0 : 0 < t) (htp : t ≤ Real.pi / 2) (hs0 : 0 < r) (hbig : 6 * r ^ 2 < 1)
    (hyr : y * r = Real.pi / 4) (hy0 : 0 < y) (hk1 : y - 1 / 2 ≤ k) (hk2 : k ≤ y + 1 / 2) :
    0 ≤ (2 * k + 1) * t - Real.pi / 2 ∧ (2 * k + 1) * t - Real.pi / 2 ≤ 2.4 * r := by
  have hpi := Real.pi_pos
  have hpi3 : Real.pi < 3.15 := Real.pi_lt_d2
  have hr41 : r < 0.41 := by nlinarith
  have hcube : ∀ b : ℝ, t ≤ b → t ^ 3 ≤ b ^ 2 * t := by
    intro b hb
    have h1 : t ^ 2 ≤ b ^ 2 := pow_le_pow_left₀ ht0.le hb 2
    calc t ^ 3 = t ^ 2 * t := by ring
      _ ≤ b ^ 2 * t := mul_le_mul_of_nonneg_right h1 ht0.le
  have hb1 : t ≤ 0.65 := by
    have h1 := Real.mul_le_sin ht0.le htp
    rw [hst] at h1
    have h2 : t ≤ Real.pi / 2 * r := by
      have : Real.pi / 2 * (2 / Real.pi * t) = t := by field_simp
      rw [← this]
      exact mul_le_mul_of_nonneg_left h1 (by positivity)
    nlinarith
  have hb2 := Real.sin_gt_sub_cube ht0
  rw [hst] at hb2
  have hb3 : 0.92 * t ≤ r := by
    have := hcube _ hb1
    norm_num at this ⊢
    linarith
  have hb4 : t ≤ 0.45 := by linarith
  have hb5 : 0.966 * t ≤ r := by
    have := hcube _ hb4
    norm_num at this ⊢
    linarith
  have hrt : r ≤ t := by rw [← hst]; exact Real.sin_le ht0.le
  constructor
  · have h1 : 2 * y * t ≤ (2 * k + 1) * t := mul_le_mul_of_nonneg_right (by linarith) ht0.le
    have h2 : y * r ≤ y * t := mul_le_mul_of_nonneg_left hrt hy0.le
    linarith
  · have h1 : (2 * k + 1) * t ≤ (2 * y + 2) * t := mul_le_mul_of_nonneg_right (by linarith) ht0.le
    have h5 : t ^ 3 ≤ 1.2 * r ^ 3 := by
      have h6 : t ≤ 1.0353 * r := by linarith
      have h7 : t ^ 3 ≤ (1.0353 * r) ^ 3 := pow_le_pow_left₀ ht0.le h6 3
      have h8 : 0 < r ^ 3 := by positivity
      have h9 : (1.0353 * r) ^ 3 = 1.0353 ^ 3 * r ^ 3 := by ring
      rw [h9] at h7
      norm_num at h7 ⊢
      linarith
    have h3 : t - r ≤ 0.2 * r ^ 3 := by linarith
    have h4 : y * (t - r) ≤ y * (0.2 * r ^ 3) := mul_le_mul_of_nonneg_left h3 hy0.le
    have h6 : y * (0.2 * r ^ 3) = 0.2 * (y * r) * r ^ 2 := by ring
    rw [h6, hyr] at h4
    have h7 : Real.pi * r ^ 2 ≤ 3.15 * (0.41 * r) := by
      have : r ^ 2 ≤ 0.41 * r := by rw [pow_two]; exact mul_le_mul_of_nonneg_right hr41.le hs0.le
      exact mul_le_mul hpi3.le this (by positivity) (by norm_num)
    linarith

/-- By default the other states have at most the probability `6 W / N`. -/
theorem C99_default {g : St Q → Bool} {qs : List Q} {q : Q} (hn : (qs ++ [q]).Nodup) {W : ℕ} (hW : Winners g (qs ++ [q]) W) (h0 : 0 < W) :
    ∃ ψ p, groversAlg g qs q none (some W) false = some ψ ∧ (∀ s, winProb (qs ++ [q]) g ψ s = ((p : ℝ) : ℂ)) ∧
      1 - 6 * (W / 2 ^ (qs ++ [q]).length) ≤ p := by
  refine ⟨_, _, rfl, fun s => loop_pi hn hW _ s, ?_⟩
  show _ ≤ Real.sin ((2 * ((defaultIter (2 ^ (qs ++ [q]).length) W).toNat : ℝ) + 1) * _) ^ 2
  have hN : (0 : ℝ) < 2 ^ (qs ++ [q]).length := by positivity
  have hWR : (0 : ℝ) < W := by exact_mod_cast h0
  have hcast : ((2 ^ (qs ++ [q]).length : ℕ) : ℝ) = 2 ^ (qs ++ [q]).length := by push_cast; rfl
  unfold defaultIter
  rw [hcast]
  have hx1 : (W : ℝ) / 2 ^ (qs ++ [q]).length ≤ 1 := by
    rw [div_le_one hN]
    exact_mod_cast winners_bound hW
  set N : ℝ := 2 ^ (qs ++ [q]).length with hNdef
  have hx0 : (0 : ℝ) < W / N := by positivity
  rw [show (N / W : ℝ) = (W / N)⁻¹ by rw [inv_div], Real.sqrt_inv]
  have hs0 : 0 < Real.sqrt (W / N) := Real.sqrt_pos.mpr hx0
  have hs1 : Real.sqrt (W / N) ≤ 1 := Real.sqrt_le_one.mpr hx1
  have hsx : Real.sqrt (W / N) ^ 2 = W / N := Real.sq_sqrt hx0.le
  set r := Real.sqrt (W / N) with hr
  suffices h : 1 - 6 * r ^ 2 ≤ Real.sin ((2 * ((round (Real.pi / 4 * r⁻¹)).toNat : ℝ) + 1) * Real.arcsin r) ^ 2 by rwa [hsx] at h
  set t := Real.arcsin r with ht
  have hst : Real.sin t = r := Real.sin_arcsin (by linarith) hs1
  have ht0 : 0 < t := Real.arcsin_pos.mpr hs0
  have htp : t ≤ Real.pi / 2 := Real.arcsin_le_pi_div_two _
  have hpi := Real.pi_pos
  have hpi3 : Real.pi < 3.15 := Real.pi_lt_d2
  set y := Real.pi / 4 * r⁻¹ with hy
  have hy0 : 0 < y := by positivity
  have hk0 : 0 ≤ round y := by
    rw [round_eq]
    apply Int.floor_nonneg.mpr
    linarith
  have hnat : (((round y).toNat : ℕ) : ℝ) = round y := by
    have : (((round y).toNat : ℕ) : ℤ) = round y := Int.toNat_of_nonneg hk0
    exact_mod_cast this
  rw [hnat]
  have habs := abs_sub_round y
  rw [abs_le] at habs
  set k : ℝ := ((round y : ℤ) : ℝ)
  by_cases hbig : 1 ≤ 6 * r ^ 2
  · have : 0 ≤ Real.sin ((2 * k + 1) * t) ^ 2 := sq_nonneg _
    linarith
  rw [not_le] at hbig
  have hyr : y * r = Real.pi / 4 := by rw [hy, mul_assoc, inv_mul_cancel₀ hs0.ne', mul_one]
  obtain ⟨hd0, hd1⟩ := overshoot_le (k := k) hst ht0 htp hs0 hbig hyr hy0 (by linarith) (by linarith)
  have hcos : Real.cos ((2 * k + 1) * t) ^ 2 ≤ ((2 * k + 1) * t - Real.pi / 2) ^ 2 := by
    have e : Real.cos ((2 * k + 1) * t) = -Real.sin ((2 * k + 1) * t - Real.pi / 2) := by rw [Real.sin_sub_pi_div_two]; ring
    rw [e, neg_sq]
    exact Real.sin_sq_le_sq
  have h8 := Real.sin_sq_add_cos_sq ((2 * k + 1) * t)
  have h9 : ((2 * k + 1) * t - Real.pi / 2) ^ 2 ≤ (2.4 * r) ^ 2 := pow_le_pow_left₀ hd0 hd1 2
  nlinarith

/-- The default number of iterations is too large for one winner state among four: two iterations give it the probability 1/4 only. -/
theorem C99_overshoot {g : St Q → Bool} {a q : Q} (hn : a ≠ q) (hW : Winners g [a, q] 1) :
    ∃ ψ, groversAlg g [a] q none none false = some ψ ∧ ∀ s, winProb [a, q] g ψ s = 1 / 4 := by
  refine ⟨_, rfl, fun s => ?_⟩
  have hk : defaultIter (2 ^ 2) 1 = 2 := by
    unfold defaultIter
    have h4 : Real.sqrt (((2 ^ 2 : ℕ) : ℝ) / ((1 : ℕ) : ℝ)) = 2 := by
      rw [show (((2 ^ 2 : ℕ) : ℝ) / ((1 : ℕ) : ℝ)) = 2 ^ 2 by norm_num, Real.sqrt_sq (by norm_num)]
    rw [h4, round_eq, Int.floor_eq_iff]
    constructor
    · push_cast; linarith [Real.pi_gt_three]
    · push_cast; linarith [Real.pi_lt_d2]
  have h := loop_pi (qs := [a]) (q := q) (by simp [hn]) hW 2 s
  show winProb [a, q] g (groverLoop g (1 / 2) [a] q (defaultIter (2 ^ 2) 1).toNat _) s = 1 / 4
  rw [hk]
  refine h.trans ?_
  have h1 : Real.sqrt (((1 : ℕ) : ℝ) / 2 ^ ([a] ++ [q]).length) = 1 / 2 := by
    rw [show (((1 : ℕ) : ℝ) / 2 ^ ([a] ++ [q]).length) = (1 / 2) ^ 2 by norm_num, Real.sqrt_sq (by norm_num)]
  have h2 : Real.arcsin (1 / 2) = Real.pi / 6 := by
    rw [← Real.sin_pi_div_six, Real.arcsin_sin] <;> linarith [Real.pi_pos]
  have h3 : Real.sin ((2 * ((2 : ℕ) : ℝ) + 1) * (Real.pi / 6)) = 1 / 2 := by
    rw [show (2 * ((2 : ℕ) : ℝ) + 1) * (Real.pi / 6) = Real.pi - Real.pi / 6 by push_cast; ring, Real.sin_pi_sub, Real.sin_pi_div_six]
  rw [h1, h2, h3]
  norm_num

/-- The exact algorithm needs the number of winner states. -/
theorem C99_missing (g : St Q → Bool) (qs : List Q) (q : Q) (it : Option ℤ) : groversAlg g qs q it none true = none := rfl

omit [DecidableEq Q] in
theorem zipIdx_val : ∀ (reg : List Q) (k v : ℕ) (s : St Q), v < 2 ^ (k + reg.length) →
    ((reg.zipIdx k).all fun p => s p.1 == v.testBit p.2) = decide (valL reg s = v / 2 ^ k)
  | [], k, v, s, h => by
    have : v / 2 ^ k = 0 := Nat.div_eq_of_lt (by simpa using h)
    simp [valL, this]
  | q :: reg, k, v, s, h => by
    have hlt : v < 2 ^ (k + 1 + reg.length) := by
      have e : k + (q :: reg).length = k + 1 + reg.length := by rw [List.length_cons]; omega
      rw [← e]; exact h
    rw [List.zipIdx_cons, List.all_cons, zipIdx_val reg (k + 1) v s hlt, valL, pow_succ, ← Nat.div_div_eq_div_mul, Nat.testBit_eq_decide_div_mod_eq]
    rw [Bool.eq_iff_iff, Bool.and_eq_true, decide_eq_true_eq, decide_eq_true_eq, beq_iff_eq]
    cases s q <;> simp <;> omega

omit [DecidableEq Q] in
theorem tagBits_spec : ∀ (l : List (List Q × ℕ)), (∀ p ∈ l, p.2 < 2 ^ p.1.length) → ∃ bits, tagBits l = some bits ∧
    bits.map Prod.fst = l.flatMap Prod.fst ∧ ∀ s : St Q, (bits.all fun c => s c.1 == c.2) = l.all fun p => decide (valL p.1 s = p.2)
  | [], _ => ⟨[], rfl, rfl, fun _ => rfl⟩
  | (reg, v) :: l, h => by
    obtain ⟨r, h1, h2, h3⟩ := tagBits_spec l fun p hp => h p (List.mem_cons_of_mem _ hp)
    have hv : v < 2 ^ reg.length := h (reg, v) List.mem_cons_self
    refine ⟨(reg.zipIdx.map fun p => (p.1, v.testBit p.2)) ++ r, ?_, ?_, ?_⟩
    · unfold tagBits
      rw [if_neg (not_le.mpr hv), h1]
      rfl
    · rw [List.map_append, List.map_map, h2, List.flatMap_cons]
      congr 1
      have : (Prod.fst ∘ fun p : Q × ℕ => (p.1, v.testBit p.2)) = Prod.fst := rfl
      rw [this, List.zipIdx_map_fst]
    · intro s
      rw [List.all_append, List.all_cons, h3, List.all_map]
      congr 1
      have := zipIdx_val reg 0 v s (by simpa using hv)
      rw [pow_zero, Nat.div_one] at this
      rw [← this]
      rfl

/-- `tag_state` multiplies exactly the states that carry all the labels by the phase. -/
theorem C99_tag {l : List (List Q × ℕ)} (hv : ∀ p ∈ l, p.2 < 2 ^ p.1.length) (hd : (l.flatMap Prod.fst).Nodup) (hne : l.flatMap Prod.fst ≠ [])
    (θ : ℝ) (ψ : St Q → ℂ) :
    tagState θ l ψ = some fun s => (if ∀ p ∈ l, valL p.1 s = p.2 then E θ else 1) * ψ s := by
  obtain ⟨bits, h1, h2, h3⟩ := tagBits_spec l hv
  rw [← h2] at hd hne
  have hb : bits ≠ [] := fun e => hne (by rw [e]; rfl)
  unfold tagState
  rw [h1]
  dsimp only
  obtain ⟨init, last, rfl⟩ : ∃ init last, bits = init ++ [last] := ⟨bits.dropLast, bits.getLast hb, (List.dropLast_append_getLast hb).symm⟩
  rw [List.getLast?_concat, List.dropLast_concat]
  dsimp only
  rw [List.map_append, List.nodup_append] at hd
  have hni : ∀ c ∈ init, c.1 ≠ last.1 := fun c hc => hd.2.2 c.1 (List.mem_map_of_mem hc) last.1 (by simp)
  have hall : ∀ (s : St Q) v, (init.all fun c => upd s last.1 v c.1 == c.2) = init.all fun c => s c.1 == c.2 := by
    intro s v
    rw [Bool.eq_iff_iff, List.all_eq_true, List.all_eq_true]
    exact forall₂_congr fun c hc => by rw [upd_ne (hni c hc)]
  have hdec : ∀ s : St Q, (∀ p ∈ l, valL p.1 s = p.2) ↔ ((init ++ [last]).all fun c => s c.1 == c.2) = true := by
    intro s
    rw [h3, List.all_eq_true]
    simp
  simp only [hdec]
  obtain ⟨x, b⟩ := last
  show some _ = some _
  congr 1
  funext s
  cases b
  · simp only [mcpS, xOp, List.all_append, List.all_cons, List.all_nil, Bool.and_true, hall, upd_same, upd_upd, Bool.not_not, upd_self, Bool.false_eq_true,
      if_false]
    cases s x <;> rfl
  · simp [mcpS]

/-- A label that does not fit raises. -/
theorem C99_tag_range {l : List (List Q × ℕ)} (h : ∃ p ∈ l, 2 ^ p.1.length ≤ p.2) (θ : ℝ) (ψ : St Q → ℂ) : tagState θ l ψ = none := by
  have : tagBits l = none := by
    induction l with
    | nil => obtain ⟨p, hp, _⟩ := h; cases hp
    | cons a l ih =>
      obtain ⟨reg, v⟩ := a
      unfold tagBits
      by_cases hv : 2 ^ reg.length ≤ v
      · rw [if_pos hv]
      · rw [if_neg hv]
        obtain ⟨p, hp, hp2⟩ := h
        rcases List.mem_cons.mp hp with rfl | hp
        · exact absurd hp2 hv
        · rw [ih ⟨p, hp, hp2⟩]; rfl
  unfold tagState
  rw [this]

/-! ### Examples -/

/-- Exact search for one of eight states. -/
example : ∃ ψ, groversAlg (fun s : St ℕ => s 0 && !s 1 && s 2) [0, 1] 2 none (some 1) true = some ψ ∧
    ∀ s, winProb [0, 1, 2] (fun s : St ℕ => s 0 && !s 1 && s 2) ψ s = 1 := by
  obtain ⟨ψ, h1, h2⟩ := C99_exact (g := fun s : St ℕ => s 0 && !s 1 && s 2) (qs := [0, 1]) (q := 2) (W := 1) (by decide)
    (fun s => by simp [sumOver, upd]) one_pos none
  exact ⟨ψ, h1, fun s => (h2 s).1⟩

/-- Tagging the label 2 of a register of two qubits. -/
example (ψ : St ℕ → ℂ) (s : St ℕ) (h : s 0 = false) (h' : s 1 = true) : (tagState (1 / 2) [([0, 1], 2)] ψ).map (· s) = some (-ψ s) := by
  rw [C99_tag (by simp) (by decide) (by simp)]
  have hE : E 2⁻¹ = -1 := by rw [← E_half]; norm_num
  simp [valL, h, h', hE]

end Verif.Props
