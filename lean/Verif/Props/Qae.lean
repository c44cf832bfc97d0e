import Verif.Fourier.QAE
import Verif.Props.Grover
import Mathlib.Analysis.InnerProductSpace.Basic

/-!
# Property C158: amplitude estimation and counting
-/

namespace Verif.Props

open Verif.Rev Verif.Fourier Real

variable {Q : Type} [DecidableEq Q]

/-- The result register holds a number `Y` for which `sin² (π Y / 2^n)` differs from `a` by at most `ε`. -/
noncomputable def closeTo (reg : List Q) (a ε : ℝ) : St Q → Bool := by
  classical exact fun s => decide (|sin (π * (valL reg s / 2 ^ reg.length)) ^ 2 - a| ≤ ε)

/-- The result register holds `Y`. -/
def holds (reg : List Q) (Y : ℕ) : St Q → Bool := fun s => decide (valL reg s = Y)

/-- All qubits are 0 at the start. -/
noncomputable def allZero (reg args : List Q) : St Q → ℂ := withZero reg (zeroOn args)

theorem run_zero (A : List (FGate Q)) : run A (fun _ => 0) = fun _ => 0 := by
  have h := run_additive A (fun _ => 0) (fun _ => 0)
  simp only [add_zero] at h
  funext s
  have := congrFun h s
  exact left_eq_add.mp this

theorem run_withZero {A : List (FGate Q)} {reg args : List Q} (hA : ∀ g ∈ A, ∀ x ∈ g.qubits, x ∈ args) (hd : ∀ x ∈ args, x ∉ reg) :
    run A (allZero reg args) = withZero reg (prepared A args) := by
  have h := run_lin (zeroOn reg) A (fun g hg x hx s v => zeroOn_indep (hd x (hA g hg x hx)) s v) (zeroOn args) (fun _ => 0)
  rw [run_zero] at h
  simp only [add_zero] at h
  exact h

section
variable (d : Q) {A : List (FGate Q)} (hw : ∀ g ∈ A, g.wf) {qs : List Q} {q : Q} {reg : List Q} (hn : (reg ++ (qs ++ [q])).Nodup)
  (hA : ∀ g ∈ A, ∀ x ∈ g.qubits, x ∈ qs ++ [q]) {g : St Q → Bool} (hgo : ∀ x ∈ reg, ∀ s v, g (upd s x v) = g s)
include hw hn hA

theorem qpe_amplify {φ : St Q → ℂ} (hout : ∀ q ∈ reg, ∀ s v, φ (upd s q v) = φ s) {θ : ℝ}
    (h : amplify A (fun s => if g s then -1 else 1) qs q 1 φ = fun s => E θ * φ s) (s : St Q) :
    qpe d (amplify A (fun s => if g s then -1 else 1) qs q) reg (withZero reg φ) s = qpeAmp reg.length θ (valL reg s) * φ s := by
  rw [List.nodup_append] at hn
  have hd : ∀ x ∈ qs ++ [q], x ∉ reg := fun x hx hx' => hn.2.2 x hx' x hx rfl
  exact C72_qpe_iter_spec d hn.1 (amplify_acts hw hn.2.1 hA hd _) hout (amplify_eigen hw hn.2.1 hA hd _ h) s

theorem prepared_out : ∀ x ∈ reg, ∀ s v, prepared A (qs ++ [q]) (upd s x v) = prepared A (qs ++ [q]) s := by
  rw [List.nodup_append] at hn
  intro x hx
  have hx' : x ∉ qs ++ [q] := fun h => hn.2.2 x hx x h rfl
  exact run_indep (fun g hg h => hx' (hA g hg x h)) (fun s v => zeroOn_indep hx' s v)

/-- The norm of a state with factors which depend on the register. -/
theorem ip_by_value {x : ℝ} (hg : ∀ s, winProb (qs ++ [q]) g (prepared A (qs ++ [q])) s = (x : ℂ)) (a b : ℕ → ℂ) {Φ : St Q → ℂ}
    (hΦ : ∀ s, Φ s = scaled g (a (valL reg s)) (b (valL reg s)) (prepared A (qs ++ [q])) s) (s : St Q) :
    ip (qs ++ [q]) Φ Φ s = ((‖a (valL reg s)‖ ^ 2 * x + ‖b (valL reg s)‖ ^ 2 * (1 - x) : ℝ) : ℂ) := by
  rw [List.nodup_append] at hn
  have hgp : ∀ ψ : St Q → ℂ, goodPart g ψ = scaled g 1 0 ψ := fun ψ => by
    funext s
    unfold goodPart scaled
    cases g s <;> simp
  unfold winProb at hg
  rw [hgp] at hg
  rw [← prep_scaled_norm hw hn.2.1 hA hg]
  refine sumOver_congr_out fun s' hs' => ?_
  have hv : valL reg s' = valL reg s := valL_congr fun y hy => hs' y fun h => hn.2.2 y hy y h rfl
  rw [hΦ, hv]
  rfl

include hgo

/-- The distribution of the results of `QAE`: with probability 1/2 each, phase estimation of `t/π` and of `-t/π`, if the good
states have the probability `sin² t`. -/
theorem qae_distribution {t : ℝ} (hg : ∀ s, winProb (qs ++ [q]) g (prepared A (qs ++ [q])) s = ((sin t ^ 2 : ℝ) : ℂ)) (s : St Q) :
    ip (qs ++ [q]) (qae d A (fun s => if g s then -1 else 1) qs q reg (allZero reg (qs ++ [q])))
      (qae d A (fun s => if g s then -1 else 1) qs q reg (allZero reg (qs ++ [q]))) s =
      (((‖qpeAmp reg.length (t / π) (valL reg s)‖ ^ 2 + ‖qpeAmp reg.length (-t / π) (valL reg s)‖ ^ 2) / 2 : ℝ) : ℂ) := by
  have hn' := hn
  rw [List.nodup_append] at hn'
  have hd : ∀ x ∈ qs ++ [q], x ∉ reg := fun x hx hx' => hn'.2.2 x hx' x hx rfl
  have hgp : ∀ ψ : St Q → ℂ, goodPart g ψ = scaled g 1 0 ψ := fun ψ => by
    funext s
    unfold goodPart scaled
    cases g s <;> simp
  have hg' := hg
  unfold winProb at hg'
  rw [hgp] at hg'
  have hout := prepared_out hw hn hA
  unfold qae
  rw [run_withZero hA hd]
  by_cases h0 : sin t = 0 ∨ cos t = 0
  · have key : ∀ u : ℝ, (sin u = 0 ∨ cos u = 0) → sin u ^ 2 = sin t ^ 2 →
        ip (qs ++ [q]) (qpe d (amplify A (fun s => if g s then -1 else 1) qs q) reg (withZero reg (prepared A (qs ++ [q]))))
          (qpe d (amplify A (fun s => if g s then -1 else 1) qs q) reg (withZero reg (prepared A (qs ++ [q])))) s =
        ((‖qpeAmp reg.length (u / π) (valL reg s)‖ ^ 2 : ℝ) : ℂ) := by
      intro u hu hut
      rw [← hut] at hg'
      have he := eig_special hw hn'.2.1 hA hu hg'
      rw [ip_by_value hw hn hA hg (qpeAmp reg.length (u / π)) (qpeAmp reg.length (u / π)) (fun s => by
        rw [qpe_amplify d hw hn hA hout he]
        unfold scaled
        cases g s <;> rfl)]
      congr 1
      ring
    have k1 := key t h0 rfl
    have k2 := key (-t) (by rwa [sin_neg, cos_neg, neg_eq_zero]) (by rw [sin_neg, neg_sq])
    have e : ‖qpeAmp reg.length (t / π) (valL reg s)‖ ^ 2 = ‖qpeAmp reg.length (-t / π) (valL reg s)‖ ^ 2 := by
      rw [k1] at k2
      exact_mod_cast k2
    rw [k1, ← e]
    congr 1
    ring
  · rw [not_or] at h0
    obtain ⟨hs0, hc0⟩ := h0
    have ho : ∀ u x, x ∈ reg → ∀ s v, eig A (qs ++ [q]) g u (upd s x v) = eig A (qs ++ [q]) g u s := fun u x hx s v => by
      unfold eig scaled
      rw [hgo x hx]
      exact congrArg _ (hout x hx s v)
    have e1 := eig_one hw hn'.2.1 hA hs0 hc0 hg'
    have e2 := eig_one hw hn'.2.1 hA (t := -t) (by rwa [sin_neg, neg_ne_zero]) (by rwa [cos_neg]) (by rw [sin_neg, neg_sq]; exact hg')
    have hsum : withZero reg (prepared A (qs ++ [q])) =
        fun s => withZero reg (eig A (qs ++ [q]) g t) s + withZero reg (eig A (qs ++ [q]) g (-t)) s := by
      funext s
      unfold withZero prepared
      rw [eig_start (g := g) hs0 hc0]
      ring
    have hΦ : ∀ s, qpe d (amplify A (fun s => if g s then -1 else 1) qs q) reg (withZero reg (prepared A (qs ++ [q]))) s =
        qpeAmp reg.length (t / π) (valL reg s) * eig A (qs ++ [q]) g t s +
          qpeAmp reg.length (-t / π) (valL reg s) * eig A (qs ++ [q]) g (-t) s := fun s => by
      rw [hsum, qpe_additive d (amplify_additive hw hn'.2.1 hA _)]
      beta_reduce
      rw [qpe_amplify d hw hn hA (ho t) e1, qpe_amplify d hw hn hA (ho (-t)) e2]
    rw [ip_by_value hw hn hA hg
      (fun Y => (qpeAmp reg.length (t / π) Y * (cos t + sin t * Complex.I) - qpeAmp reg.length (-t / π) Y * (cos t - sin t * Complex.I)) /
        (2 * Complex.I * sin t))
      (fun Y => (qpeAmp reg.length (t / π) Y * (cos t + sin t * Complex.I) + qpeAmp reg.length (-t / π) Y * (cos t - sin t * Complex.I)) /
        (2 * cos t))
      (fun s => by rw [hΦ, eig_sum hs0 hc0]; rfl)]
    congr 1
    generalize qpeAmp reg.length (t / π) (valL reg s) = α
    generalize qpeAmp reg.length (-t / π) (valL reg s) = β
    have hz : ‖(cos t : ℂ) + sin t * Complex.I‖ = 1 := by
      have := norm_E (t / (2 * π))
      rwa [E_turn] at this
    have hz' : ‖(cos t : ℂ) - sin t * Complex.I‖ = 1 := by
      have := norm_E (-t / (2 * π))
      rw [E_turn, cos_neg, sin_neg] at this
      push_cast at this ⊢
      rwa [neg_mul, ← sub_eq_add_neg] at this
    have hp := parallelogram_law_with_norm ℝ (α * (cos t + sin t * Complex.I)) (β * (cos t - sin t * Complex.I))
    rw [norm_mul, norm_mul, hz, hz', mul_one, mul_one] at hp
    have hx : 1 - sin t ^ 2 = cos t ^ 2 := by have := sin_sq_add_cos_sq t; linarith
    rw [hx, norm_div, norm_div, norm_mul, norm_mul, norm_mul, Complex.norm_I, Complex.norm_real, Complex.norm_real, Complex.norm_two,
      Real.norm_eq_abs, Real.norm_eq_abs, div_pow, div_pow, mul_pow, mul_pow, mul_pow, sq_abs, sq_abs]
    field_simp
    nlinarith [hp]

omit hw hA hgo in
/-- Probabilities of events of the result register. -/
theorem event_sum {Φ : St Q → ℂ} {P : ℕ → ℝ} (hP : ∀ s, ip (qs ++ [q]) Φ Φ s = (P (valL reg s) : ℂ)) (e : ℕ → Bool) (s : St Q) :
    winProb (reg ++ (qs ++ [q])) (fun s => e (valL reg s)) Φ s = ((∑ Y ∈ Finset.range (2 ^ reg.length), if e Y then P Y else 0 : ℝ) : ℂ) := by
  rw [List.nodup_append] at hn
  unfold winProb ip
  rw [sumOver_append]
  have h1 : sumOver (qs ++ [q]) (fun s => (starRingEnd ℂ) (goodPart (fun s => e (valL reg s)) Φ s) * goodPart (fun s => e (valL reg s)) Φ s) =
      fun s => (fun Y => (((if e Y then P Y else 0 : ℝ)) : ℂ)) (valL reg s) := by
    funext s
    have h2 : ∀ s', (∀ x, x ∉ qs ++ [q] → s' x = s x) →
        (starRingEnd ℂ) (goodPart (fun s => e (valL reg s)) Φ s') * goodPart (fun s => e (valL reg s)) Φ s' =
          (if e (valL reg s) then 1 else 0) * ((starRingEnd ℂ) (Φ s') * Φ s') := fun s' hs' => by
      have hv : valL reg s' = valL reg s := valL_congr fun y hy => hs' y fun h => hn.2.2 y hy y h rfl
      unfold goodPart
      beta_reduce
      rw [hv]
      cases e (valL reg s) <;> simp
    rw [sumOver_congr_out h2, sumOver_smul]
    have h3 := hP s
    unfold ip at h3
    rw [h3]
    beta_reduce
    cases h : e (valL reg s) <;> simp
  rw [h1, sumOver_val hn.1 (fun Y => (((if e Y then P Y else 0 : ℝ)) : ℂ))]
  push_cast
  rfl

/-- If the angle is a multiple of `π / M`, the result is one of the two integers with this estimate, with probability 1/2 each. -/
theorem qae_exact {k : ℕ} (hk : k < 2 ^ reg.length)
    (hg : ∀ s, winProb (qs ++ [q]) g (prepared A (qs ++ [q])) s = ((sin (π * (k / 2 ^ reg.length)) ^ 2 : ℝ) : ℂ)) (s : St Q) :
    ip (qs ++ [q]) (qae d A (fun s => if g s then -1 else 1) qs q reg (allZero reg (qs ++ [q])))
      (qae d A (fun s => if g s then -1 else 1) qs q reg (allZero reg (qs ++ [q]))) s =
      ((((if valL reg s = k then 1 else 0) + (if valL reg s = (2 ^ reg.length - k) % 2 ^ reg.length then 1 else 0)) / 2 : ℝ) : ℂ) := by
  have hpi := pi_ne_zero
  have hM : (2 : ℝ) ^ reg.length ≠ 0 := by positivity
  rw [qae_distribution d hw hn hA hgo hg]
  have e1 : π * (k / 2 ^ reg.length) / π = k / 2 ^ reg.length := by field_simp
  have hv := valL_lt reg s
  rw [e1, qpeAmp_exact _ _ _ hk hv]
  have e2 : qpeAmp reg.length (-(π * (k / 2 ^ reg.length)) / π) (valL reg s) =
      if valL reg s = (2 ^ reg.length - k) % 2 ^ reg.length then 1 else 0 := by
    rcases Nat.eq_zero_or_pos k with rfl | hk0
    · have := qpeAmp_exact reg.length 0 (valL reg s) hk hv
      rw [Nat.sub_zero, Nat.mod_self, ← this]
      simp
    · have hlt : 2 ^ reg.length - k < 2 ^ reg.length := by omega
      rw [Nat.mod_eq_of_lt hlt, ← qpeAmp_exact reg.length _ (valL reg s) hlt hv, qpeAmp_dist, qpeAmp_dist,
        ← dist1_int reg.length _ 1]
      congr 1
      rw [Nat.cast_sub hk.le]
      push_cast
      field_simp
      ring
  rw [e2]
  congr 2
  split <;> split <;> simp

/-- `QAE`: the estimate `sin² (π Y / M)` is at most `π / M` away from the probability `a` of the good states, with probability at least
`8 / π²`; `M` is two to the number of qubits of the result.  The documentation says `2 π / M + π² / M²`. -/
theorem qae_estimate {a ε : ℝ} (hg : ∀ s, winProb (qs ++ [q]) g (prepared A (qs ++ [q])) s = (a : ℂ)) (hε : π / 2 ^ reg.length ≤ ε) :
    ∃ p : ℝ, 8 / π ^ 2 ≤ p ∧ ∀ s, winProb (reg ++ (qs ++ [q])) (closeTo reg a ε)
      (qae d A (fun s => if g s then -1 else 1) qs q reg (allZero reg (qs ++ [q]))) s = (p : ℂ) := by
  classical
  have hn' := hn
  rw [List.nodup_append] at hn'
  have hgp : ∀ ψ : St Q → ℂ, goodPart g ψ = scaled g 1 0 ψ := fun ψ => by
    funext s
    unfold goodPart scaled
    cases g s <;> simp
  have hr : 0 ≤ a ∧ a ≤ 1 := by
    have hg' := hg
    unfold winProb at hg'
    rw [hgp] at hg'
    exact prep_range hw hn'.2.1 hA hg'
  obtain ⟨t, ht⟩ : ∃ t, sin t ^ 2 = a := ⟨arcsin (√a), by
    rw [sin_arcsin (by linarith [sqrt_nonneg a]) (sqrt_le_one.mpr hr.2), sq_sqrt hr.1]⟩
  subst ht
  have hdist := qae_distribution d hw hn hA hgo hg
  refine ⟨_, ?_, fun s => event_sum hn (P := fun Y => (‖qpeAmp reg.length (t / π) Y‖ ^ 2 + ‖qpeAmp reg.length (-t / π) Y‖ ^ 2) / 2) hdist (fun Y => decide (|sin (π * (Y / 2 ^ reg.length)) ^ 2 - sin t ^ 2| ≤ ε)) s⟩
  have hpi := pi_ne_zero
  have b1 := event_prob reg.length (t / π)
  have b2 := event_prob reg.length (-t / π)
  have m1 : π * (t / π) = t := by field_simp
  have m2 : π * (-t / π) = -t := by field_simp
  rw [m1] at b1
  rw [m2, sin_neg, neg_sq] at b2
  have h := add_le_add b1 b2
  rw [← Finset.sum_add_distrib] at h
  have e : 8 / π ^ 2 = (8 / π ^ 2 + 8 / π ^ 2) / 2 := by ring
  rw [e]
  refine (div_le_div_of_nonneg_right h (by norm_num)).trans ?_
  rw [Finset.sum_div]
  refine Finset.sum_le_sum fun Y _ => ?_
  by_cases hc : |sin (π * ((Y : ℕ) / 2 ^ reg.length)) ^ 2 - sin t ^ 2| ≤ π / 2 ^ reg.length
  · rw [if_pos hc, if_pos hc, if_pos (by simpa using hc.trans hε)]
  · rw [if_neg hc, if_neg hc]
    split
    · simp; positivity
    · simp

/-- A most likely result of `QAE` has an error of at most `π² / (2 √2 M)`. -/
theorem qae_most_likely {a : ℝ} (hg : ∀ s, winProb (qs ++ [q]) g (prepared A (qs ++ [q])) s = (a : ℂ)) {Y : ℕ} (hY : Y < 2 ^ reg.length) (s : St Q)
    (hmax : ∀ Y' < 2 ^ reg.length, (winProb (reg ++ (qs ++ [q])) (holds reg Y')
        (qae d A (fun s => if g s then -1 else 1) qs q reg (allZero reg (qs ++ [q]))) s).re ≤
      (winProb (reg ++ (qs ++ [q])) (holds reg Y)
        (qae d A (fun s => if g s then -1 else 1) qs q reg (allZero reg (qs ++ [q]))) s).re) :
    |sin (π * (Y / 2 ^ reg.length)) ^ 2 - a| ≤ π ^ 2 / (2 * √2 * 2 ^ reg.length) := by
  have hn' := hn
  rw [List.nodup_append] at hn'
  have hgp : ∀ ψ : St Q → ℂ, goodPart g ψ = scaled g 1 0 ψ := fun ψ => by
    funext s
    unfold goodPart scaled
    cases g s <;> simp
  have hr : 0 ≤ a ∧ a ≤ 1 := by
    have hg' := hg
    unfold winProb at hg'
    rw [hgp] at hg'
    exact prep_range hw hn'.2.1 hA hg'
  obtain ⟨t, ht⟩ : ∃ t, sin t ^ 2 = a := ⟨arcsin (√a), by
    rw [sin_arcsin (by linarith [sqrt_nonneg a]) (sqrt_le_one.mpr hr.2), sq_sqrt hr.1]⟩
  subst ht
  have hdist := qae_distribution d hw hn hA hgo hg
  have hval : ∀ Y' < 2 ^ reg.length, (winProb (reg ++ (qs ++ [q])) (holds reg Y')
      (qae d A (fun s => if g s then -1 else 1) qs q reg (allZero reg (qs ++ [q]))) s).re =
      (‖qpeAmp reg.length (t / π) Y'‖ ^ 2 + ‖qpeAmp reg.length (-t / π) Y'‖ ^ 2) / 2 := fun Y' hY' => by
    have := event_sum hn (P := fun Y => (‖qpeAmp reg.length (t / π) Y‖ ^ 2 + ‖qpeAmp reg.length (-t / π) Y‖ ^ 2) / 2) hdist (fun Z => decide (Z = Y')) s
    unfold holds
    rw [this, Complex.ofReal_re]
    rw [Finset.sum_eq_single Y']
    · simp
    · intro b _ hb
      simp [hb]
    · intro h
      exact absurd (Finset.mem_range.mpr hY') h
  obtain ⟨Y0, hY0, hb⟩ := best_exists reg.length (t / π)
  have h1 := hmax Y0 hY0
  rw [hval Y0 hY0, hval Y hY] at h1
  have hpi := pi_pos
  have hnn := sq_nonneg ‖qpeAmp reg.length (-t / π) Y0‖
  have e4 : 4 / π ^ 2 = 2 / π ^ 2 + 2 / π ^ 2 := by ring
  have h2 : 2 / π ^ 2 ≤ ‖qpeAmp reg.length (t / π) Y‖ ^ 2 ∨ 2 / π ^ 2 ≤ ‖qpeAmp reg.length (-t / π) Y‖ ^ 2 := by
    by_contra hcon
    rw [not_or, not_le, not_le] at hcon
    linarith [hcon.1, hcon.2]
  have m1 : π * (t / π) = t := by field_simp
  have m2 : π * (-t / π) = -t := by field_simp
  have h2' : (0 : ℝ) < √2 := by positivity
  have e5 : π * (π / (2 * √2)) / 2 ^ reg.length = π ^ 2 / (2 * √2 * 2 ^ reg.length) := by field_simp
  rcases h2 with h2 | h2
  · have := near_estimate (likely_near h2)
    rwa [m1, e5] at this
  · have := near_estimate (likely_near h2)
    rwa [m2, sin_neg, neg_sq, e5] at this

end

/-! ### Counting -/

theorem counting_qae (d : Q) (o : St Q → ℂ) (qs : List Q) (q : Q) (reg : List Q) (ψ : St Q → ℂ) :
    countingCircuit d o qs q reg ψ = qae d (hLayer (qs ++ [q])) o qs q reg ψ := by
  have h : (fun k => (groverOperator o qs q)^[k]) = amplify (hLayer (qs ++ [q])) o qs q := by
    funext k
    induction k with
    | zero => rfl
    | succ k ih =>
      funext ψ
      rw [Function.iterate_succ_apply, amplify, ← ih]
      rfl
  unfold countingCircuit qae
  rw [h]

section
variable (d : Q) {qs : List Q} {q : Q} {reg : List Q} (hn : (reg ++ (qs ++ [q])).Nodup) {g : St Q → Bool}
  (hgo : ∀ x ∈ reg, ∀ s v, g (upd s x v) = g s) {W : ℕ} (hW : Winners g (qs ++ [q]) W)

omit [DecidableEq Q] in
theorem hLayer_ok : (∀ x ∈ hLayer (qs ++ [q]), FGate.wf x) ∧ ∀ x ∈ hLayer (qs ++ [q]), ∀ y ∈ x.qubits, y ∈ qs ++ [q] := by
  constructor
  · intro x hx
    obtain ⟨y, _, rfl⟩ := List.mem_map.mp hx
    trivial
  · intro x hx y hy
    obtain ⟨z, hz, rfl⟩ := List.mem_map.mp hx
    rw [show y = z from List.mem_singleton.mp hy]
    exact hz

include hn hW in
theorem counting_start (s : St Q) : winProb (qs ++ [q]) g (prepared (hLayer (qs ++ [q])) (qs ++ [q])) s =
    ((W / 2 ^ (qs ++ [q]).length : ℝ) : ℂ) := by
  rw [List.nodup_append] at hn
  unfold prepared
  rw [start_scaled g hn.2.1, winProb_scaled hW]
  simp

include hn hgo hW

/-- `quantum_counting` in tracing mode: the number is at most `π N / 2^precision` away from the number of marked states, with
probability at least `8 / π²`. -/
theorem counting_estimate : ∃ p : ℝ, 8 / π ^ 2 ≤ p ∧ ∀ s, winProb (reg ++ (qs ++ [q]))
    (fun s => open Classical in decide (|countingValue (qs ++ [q]).length reg.length (valL reg s) - W| ≤ π * 2 ^ (qs ++ [q]).length / 2 ^ reg.length))
    (countingCircuit d (fun s => if g s then -1 else 1) qs q reg (allZero reg (qs ++ [q]))) s = (p : ℂ) := by
  classical
  obtain ⟨p, h1, h2⟩ := qae_estimate d hLayer_ok.1 hn hLayer_ok.2 hgo (counting_start hn hW) (le_refl (π / 2 ^ reg.length))
  refine ⟨p, h1, fun s => ?_⟩
  rw [counting_qae, ← h2 s]
  congr 1
  funext s
  unfold closeTo countingValue
  have hN : (0 : ℝ) < 2 ^ (qs ++ [q]).length := by positivity
  rw [decide_eq_decide]
  have e : (2 : ℝ) ^ (qs ++ [q]).length * sin (valL reg s / 2 ^ reg.length * π) ^ 2 - W =
      2 ^ (qs ++ [q]).length * (sin (π * (valL reg s / 2 ^ reg.length)) ^ 2 - W / 2 ^ (qs ++ [q]).length) := by
    rw [mul_comm π]
    field_simp
  have e2 : π * 2 ^ (qs ++ [q]).length / 2 ^ reg.length = 2 ^ (qs ++ [q]).length * (π / 2 ^ reg.length) := by ring
  rw [e, abs_mul, abs_of_pos hN, e2]
  exact mul_le_mul_iff_right₀ hN

/-- `quantum_counting` outside of tracing mode takes a most likely result: the error is at most `π² N / (2 √2 2^precision)`. -/
theorem counting_most_likely {Y : ℕ} (hY : Y < 2 ^ reg.length) (s : St Q)
    (hmax : ∀ Y' < 2 ^ reg.length, (winProb (reg ++ (qs ++ [q])) (holds reg Y')
        (countingCircuit d (fun s => if g s then -1 else 1) qs q reg (allZero reg (qs ++ [q]))) s).re ≤
      (winProb (reg ++ (qs ++ [q])) (holds reg Y)
        (countingCircuit d (fun s => if g s then -1 else 1) qs q reg (allZero reg (qs ++ [q]))) s).re) :
    |countingValue (qs ++ [q]).length reg.length Y - W| ≤ π ^ 2 * 2 ^ (qs ++ [q]).length / (2 * √2 * 2 ^ reg.length) := by
  rw [counting_qae] at hmax
  have h := qae_most_likely d hLayer_ok.1 hn hLayer_ok.2 hgo (counting_start hn hW) hY s hmax
  unfold countingValue
  have hN : (0 : ℝ) < 2 ^ (qs ++ [q]).length := by positivity
  have e : (2 : ℝ) ^ (qs ++ [q]).length * sin (Y / 2 ^ reg.length * π) ^ 2 - W =
      2 ^ (qs ++ [q]).length * (sin (π * (Y / 2 ^ reg.length)) ^ 2 - W / 2 ^ (qs ++ [q]).length) := by
    rw [mul_comm π]
    field_simp
  rw [e, abs_mul, abs_of_pos hN]
  refine (mul_le_mul_of_nonneg_left h hN.le).trans (le_of_eq ?_)
  ring

/-- With enough qubits in the result, rounding gives the number of marked states. -/
theorem counting_rounded {Y : ℕ} (hY : Y < 2 ^ reg.length) (s : St Q) (hp : 7 * 2 ^ (qs ++ [q]).length ≤ 2 ^ reg.length)
    (hmax : ∀ Y' < 2 ^ reg.length, (winProb (reg ++ (qs ++ [q])) (holds reg Y')
        (countingCircuit d (fun s => if g s then -1 else 1) qs q reg (allZero reg (qs ++ [q]))) s).re ≤
      (winProb (reg ++ (qs ++ [q])) (holds reg Y)
        (countingCircuit d (fun s => if g s then -1 else 1) qs q reg (allZero reg (qs ++ [q]))) s).re) :
    round (countingValue (qs ++ [q]).length reg.length Y) = W := by
  have h := counting_most_likely d hn hgo hW hY s hmax
  have hN : (0 : ℝ) < 2 ^ (qs ++ [q]).length := by positivity
  have hM : (0 : ℝ) < 2 ^ reg.length := by positivity
  have hp' : (7 : ℝ) * 2 ^ (qs ++ [q]).length ≤ 2 ^ reg.length := by exact_mod_cast hp
  have h2 : (0 : ℝ) < √2 := by positivity
  have h2' : (1.414 : ℝ) ≤ √2 := by
    exact Real.le_sqrt_of_sq_le (by norm_num)
  have hlt : π ^ 2 * 2 ^ (qs ++ [q]).length / (2 * √2 * 2 ^ reg.length) < 1 / 2 := by
    rw [div_lt_div_iff₀ (by positivity) (by norm_num)]
    have hpi : π ^ 2 < 9.87 := by nlinarith [pi_lt_d4, pi_gt_three]
    nlinarith [mul_pos hN h2, mul_le_mul_of_nonneg_left hp' h2.le]
  have h3 := lt_of_le_of_lt h hlt
  rw [abs_lt] at h3
  rw [round_eq, Int.floor_eq_iff]
  constructor
  · push_cast; linarith
  · push_cast; linarith

end

/-! ### Examples -/

theorem plus_prob (s : St Nat) : winProb ([] ++ [0]) (fun s => s 0) (prepared [FGate.h 0] ([] ++ [0])) s = ((1 / 2 : ℝ) : ℂ) := by
  have hp : ∀ s, prepared [FGate.h 0] [0] s = rt := fun s => by
    simp [prepared, Fourier.run, FGate.app, zeroOn, upd_same]
  have hrt : rt * rt = 1 / 2 := by rw [← pow_two, rt_sq]
  simp only [winProb, ip, List.nil_append, sumOver, goodPart, upd_same, hp, if_true, Bool.false_eq_true, if_false, mul_zero, conj_rt, hrt]
  norm_num

/-- The good state of `|+>` has the probability 1/2: with two qubits the results are 1 and 3, and both give the estimate 1/2. -/
example (s : St Nat) : ip ([] ++ [0]) (qae 9 [FGate.h 0] (fun s => if s 0 then -1 else 1) [] 0 [1, 2] (allZero [1, 2] ([] ++ [0])))
    (qae 9 [FGate.h 0] (fun s => if s 0 then -1 else 1) [] 0 [1, 2] (allZero [1, 2] ([] ++ [0]))) s =
    ((((if valL [1, 2] s = 1 then 1 else 0) + (if valL [1, 2] s = 3 then 1 else 0)) / 2 : ℝ) : ℂ) := by
  have h := qae_exact 9 (A := [FGate.h 0]) (by simp [FGate.wf]) (qs := []) (q := 0) (reg := [1, 2]) (by decide) (by simp [FGate.qubits])
    (g := fun s => s 0) (by
      intro x hx s v
      have : (0 : ℕ) ≠ x := by rintro rfl; simp at hx
      exact upd_ne this) (k := 1) (by decide) (by
      intro s
      rw [plus_prob]
      congr 1
      have : π * (((1 : ℕ) : ℝ) / 2 ^ [1, 2].length) = π / 4 := by
        rw [show [1, 2].length = 2 from rfl]; push_cast; ring
      rw [this, sin_pi_div_four, div_pow, Real.sq_sqrt (by norm_num)]
      norm_num) s
  exact h

/-- Counting one marked state of two with five qubits: a most likely result is rounded to 1. -/
example {Y : ℕ} (hY : Y < 2 ^ 5) (s : St Nat)
    (hmax : ∀ Y' < 2 ^ 5, (winProb ([1, 2, 3, 4, 5] ++ ([] ++ [0])) (holds [1, 2, 3, 4, 5] Y')
        (countingCircuit 9 (fun s => if s 0 then -1 else 1) [] 0 [1, 2, 3, 4, 5] (allZero [1, 2, 3, 4, 5] ([] ++ [0]))) s).re ≤
      (winProb ([1, 2, 3, 4, 5] ++ ([] ++ [0])) (holds [1, 2, 3, 4, 5] Y)
        (countingCircuit 9 (fun s => if s 0 then -1 else 1) [] 0 [1, 2, 3, 4, 5] (allZero [1, 2, 3, 4, 5] ([] ++ [0]))) s).re) :
    round (countingValue 1 5 Y) = 1 :=
  counting_rounded 9 (qs := []) (q := 0) (reg := [1, 2, 3, 4, 5]) (by decide) (g := fun s => s 0) (by
      intro x hx s v
      have : (0 : ℕ) ≠ x := by rintro rfl; simp at hx
      exact upd_ne this) (W := 1) (fun s => by simp [sumOver, upd_same]) hY s (by decide) hmax

end Verif.Props
