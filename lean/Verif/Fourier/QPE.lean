import Verif.Fourier.Adder
import Mathlib.Analysis.SpecialFunctions.Trigonometric.Bounds

/-!
# Inverse Fourier transform and quantum phase estimation

Model of `alg_primitives/qpe.py`.
-/

set_option linter.unusedSectionVars false

namespace Verif.Fourier

open Verif.Rev

variable {Q : Type} [DecidableEq Q]

/-! ### Model -/

/-- `with control(q): U`: `U` acts on the amplitudes where `q` is 1. -/
noncomputable def ctrlU (q : Q) (U : (St Q → ℂ) → St Q → ℂ) (ψ : St Q → ℂ) : St Q → ℂ := by
  classical exact fun s => if s q then U ψ s else ψ s

/-- The loop qpe.py:132-139 from register position `i` on. `Uit k` is `U(args, iter=k)` if `iter_spec` is set and `k`
calls of `U` otherwise. -/
noncomputable def qpeLoop (Uit : ℕ → (St Q → ℂ) → St Q → ℂ) : ℕ → List Q → (St Q → ℂ) → St Q → ℂ
  | _, [], ψ => ψ
  | i, q :: qs, ψ => qpeLoop Uit (i + 1) qs (ctrlU q (Uit (2 ^ i)) ψ)

/-- `QPE` (qpe.py:121-143) on the register `reg` (least significant qubit first). -/
noncomputable def qpe (d : Q) (Uit : ℕ → (St Q → ℂ) → St Q → ℂ) (reg : List Q) (ψ : St Q → ℂ) : St Q → ℂ :=
  run (inv (qftInner 1 true d reg.reverse)) (qpeLoop Uit 0 reg (run (reg.map .h) ψ))

/-- `QPE` in tracing mode: `jasp_qft` instead of `QFT_inner`. -/
noncomputable def jaspQpe (d : Q) (Uit : ℕ → (St Q → ℂ) → St Q → ℂ) (reg : List Q) (ψ : St Q → ℂ) : St Q → ℂ :=
  run (inv (jaspQft true d reg)) (qpeLoop Uit 0 reg (run (reg.map .h) ψ))

/-! ### Inverse transform -/

theorem E_pow (θ : ℝ) (k : ℕ) : E θ ^ k = E (k * θ) := by
  induction k with
  | zero => simp [E_zero]
  | succ k ih => rw [pow_succ, ih, ← E_add]; congr 1; push_cast; ring

theorem E_eq_one {θ : ℝ} (h : E θ = 1) : ∃ k : ℤ, θ = k := by
  unfold E at h
  rw [Complex.exp_eq_one_iff] at h
  obtain ⟨k, hk⟩ := h
  refine ⟨k, ?_⟩
  have hpi : (2 * Real.pi * Complex.I : ℂ) ≠ 0 := Complex.two_pi_I_ne_zero
  have : (θ : ℂ) = (k : ℂ) := by
    have h2 : (θ : ℂ) * (2 * Real.pi * Complex.I) = k * (2 * Real.pi * Complex.I) := by
      rw [← hk]; push_cast; ring
    exact mul_right_cancel₀ hpi h2
  exact_mod_cast this

/-- Orthogonality of the characters. -/
theorem sum_E (N : ℕ) (hN : 0 < N) (k : ℤ) : ∑ X ∈ Finset.range N, E (X * k / N) = if (N : ℤ) ∣ k then (N : ℂ) else 0 := by
  have hN' : (N : ℝ) ≠ 0 := by positivity
  have h1 : ∀ X : ℕ, E (X * k / N) = E (k / N) ^ X := fun X => by rw [E_pow]; congr 1; ring
  simp only [h1]
  split
  · next h =>
    obtain ⟨m, rfl⟩ := h
    have : E (((N * m : ℤ) : ℝ) / N) = 1 := by
      rw [← E_int m]
      congr 1
      push_cast
      field_simp
    simp only [this, one_pow, Finset.sum_const, Finset.card_range, nsmul_eq_mul, mul_one]
  · next h =>
    have hne : E ((k : ℝ) / N) ≠ 1 := fun e => by
      obtain ⟨m, hm⟩ := E_eq_one e
      refine h ⟨m, ?_⟩
      rw [div_eq_iff hN'] at hm
      have : (k : ℝ) = ((N * m : ℤ) : ℝ) := by rw [hm]; push_cast; ring
      exact_mod_cast this
    rw [geom_sum_eq hne, E_pow]
    have : E ((N : ℝ) * (k / N)) = 1 := by
      rw [← E_int k]; congr 1; field_simp
    rw [this, sub_self, zero_div]

theorem rt_pow_sq (n : ℕ) : rt ^ n * rt ^ n = 1 / 2 ^ n := by
  rw [← mul_pow, ← pow_two, rt_sq, div_pow, one_pow]

/-- The inverse of a Fourier transform with value `Y = valM qs`. -/
theorem fourier_inverse {qs : List Q} (hn : qs.Nodup) {c : List (FGate Q)} (hwf : ∀ g ∈ c, g.wf)
    (hF : ∀ ψ s, run c ψ s = rt ^ qs.length * ∑ X ∈ Finset.range (2 ^ qs.length),
      E ((1 : ℤ) * (X * (valM qs s : ℕ)) / 2 ^ qs.length) * ψ (setM qs X s)) (ψ : St Q → ℂ) (s : St Q) :
    run (inv c) ψ s = rt ^ qs.length * ∑ X ∈ Finset.range (2 ^ qs.length),
      E (-(X * (valM qs s : ℕ)) / 2 ^ qs.length) * ψ (setM qs X s) := by
  obtain ⟨G, hG⟩ : ∃ G : St Q → ℂ, G = fun s => rt ^ qs.length * ∑ X ∈ Finset.range (2 ^ qs.length),
      E (-(X * (valM qs s : ℕ)) / 2 ^ qs.length) * ψ (setM qs X s) := ⟨_, rfl⟩
  have hFG : run c G = ψ := by
    funext s
    have hv := valM_lt qs s
    rw [hF]
    have h1 : ∀ X ∈ Finset.range (2 ^ qs.length),
        E ((1 : ℤ) * (X * (valM qs s : ℕ)) / 2 ^ qs.length) * G (setM qs X s) =
        rt ^ qs.length * ∑ Z ∈ Finset.range (2 ^ qs.length),
          E (X * ((valM qs s : ℤ) - Z : ℤ) / (2 ^ qs.length : ℕ)) * ψ (setM qs Z s) := fun X hX => by
      rw [Finset.mem_range] at hX
      rw [hG]
      dsimp only
      rw [mul_left_comm, Finset.mul_sum]
      refine congrArg (rt ^ qs.length * ·) (Finset.sum_congr rfl fun Z _ => ?_)
      rw [valM_setM hn, Nat.mod_eq_of_lt hX, setM_setM _ _ _ _ hn, ← mul_assoc (E _) (E _), ← E_add]
      refine congrArg (E · * _) ?_
      push_cast
      ring
    rw [Finset.sum_congr rfl h1, ← Finset.mul_sum, ← mul_assoc, rt_pow_sq, Finset.sum_comm]
    have h2 : ∀ Z ∈ Finset.range (2 ^ qs.length), ∑ X ∈ Finset.range (2 ^ qs.length),
        E (X * ((valM qs s : ℤ) - Z : ℤ) / (2 ^ qs.length : ℕ)) * ψ (setM qs Z s) =
        if Z = valM qs s then 2 ^ qs.length * ψ s else 0 := fun Z hZ => by
      rw [Finset.mem_range] at hZ
      rw [← Finset.sum_mul, sum_E _ (by positivity)]
      by_cases he : Z = valM qs s
      · subst he
        rw [if_pos (by rw [sub_self]; exact dvd_zero _), if_pos rfl, setM_val hn]
        push_cast
        rfl
      · rw [if_neg he, if_neg, zero_mul]
        intro hd
        have := Int.eq_zero_of_abs_lt_dvd hd (by
          rw [abs_lt]; constructor <;> omega)
        omega
    rw [Finset.sum_congr rfl h2, Finset.sum_ite_eq' , if_pos (Finset.mem_range.2 hv)]
    have : (2 : ℂ) ^ qs.length ≠ 0 := pow_ne_zero _ two_ne_zero
    field_simp
  have h3 := (run_inv c hwf G).1
  rw [hFG] at h3
  rw [h3, hG]

/-! ### Phase estimation -/

theorem run_hs : ∀ (reg : List Q), reg.Nodup → ∀ (φ : St Q → ℂ), (∀ q ∈ reg, ∀ s v, φ (upd s q v) = φ s) →
    ∀ f : St Q → ℂ, (∀ q ∈ reg, ∀ s v, f (upd s q v) = f s) →
    run (reg.map .h) (fun s => f s * ((if reg.all fun q => !s q then 1 else 0) * φ s)) =
      fun s => f s * (rt ^ reg.length * φ s) := by
  intro reg
  induction reg with
  | nil => intro _ φ _ f _; funext s; simp [run]
  | cons q reg ih =>
    intro hn φ hφ f hf
    rw [List.nodup_cons] at hn
    show run (reg.map .h) ((FGate.h q).app _) = _
    have h1 : (FGate.h q).app (fun s => f s * ((if (q :: reg).all fun q => !s q then 1 else 0) * φ s)) =
        fun s => (rt * f s) * ((if reg.all fun q => !s q then 1 else 0) * φ s) := by
      funext s
      have hall : ∀ v, (reg.all fun x => !upd s q v x) = reg.all fun x => !s x := fun v => by
        rw [Bool.eq_iff_iff, List.all_eq_true, List.all_eq_true]
        refine forall₂_congr fun x hx => ?_
        have hne : x ≠ q := fun e => hn.1 (e ▸ hx)
        rw [upd_ne hne]
      simp only [FGate.app, List.all_cons, upd_same, hall, hφ q List.mem_cons_self, hf q List.mem_cons_self]
      simp
      ring
    rw [h1, ih hn.2 φ (fun x hx => hφ x (List.mem_cons_of_mem _ hx)) (fun s => rt * f s)
      (fun x hx s v => by rw [hf x (List.mem_cons_of_mem _ hx)])]
    funext s
    rw [List.length_cons, pow_succ]
    ring

/-- `f` depends on the qubits in `reg` only. -/
def DependsOn (reg : List Q) (f : St Q → ℂ) : Prop := ∀ s s', (∀ q ∈ reg, s q = s' q) → f s = f s'

/-- `U` acts on qubits outside `reg`: it commutes with multiplication by functions of `reg`. -/
def ActsOutside (reg : List Q) (U : (St Q → ℂ) → St Q → ℂ) : Prop :=
  ∀ f, DependsOn reg f → ∀ ψ, U (fun s => f s * ψ s) = fun s => f s * U ψ s

theorem qpeLoop_spec (Uit : ℕ → (St Q → ℂ) → St Q → ℂ) {all : List Q} (hU : ∀ k, ActsOutside all (Uit k)) {φ : St Q → ℂ}
    {θ : ℝ} (hφ : ∀ i, Uit (2 ^ i) φ = fun s => E (2 ^ i * θ) * φ s) : ∀ (reg : List Q) (i : ℕ) (f : St Q → ℂ),
    (∀ q ∈ reg, q ∈ all) → DependsOn all f →
    qpeLoop Uit i reg (fun s => f s * φ s) = fun s => E (2 ^ i * valL reg s * θ) * (f s * φ s) := by
  intro reg
  induction reg with
  | nil => intro i f _ _; funext s; simp [qpeLoop, valL, E_zero]
  | cons q reg ih =>
    intro i f hsub hf
    have hq := hsub q List.mem_cons_self
    have h1 : ctrlU q (Uit (2 ^ i)) (fun s => f s * φ s) =
        fun s => ((if s q then E (2 ^ i * θ) else 1) * f s) * φ s := by
      funext s
      unfold ctrlU
      dsimp only
      rw [hU _ f hf, hφ]
      cases s q <;> simp
      ring
    rw [qpeLoop, h1, ih _ _ (fun x hx => hsub x (List.mem_cons_of_mem _ hx)) (fun s s' h => by
      rw [hf s s' h, h q hq])]
    funext s
    rw [valL]
    cases hs : s q
    · simp
      left
      congr 1
      rw [pow_succ]; ring
    · simp only [if_true, Bool.toNat_true]
      have : (2 : ℝ) ^ i * ((1 + 2 * valL reg s : ℕ) : ℝ) * θ = 2 ^ (i + 1) * valL reg s * θ + 2 ^ i * θ := by
        push_cast
        rw [pow_succ]; ring
      rw [this, E_add]
      ring

/-- Amplitude of the phase estimation for a phase `θ` and the register value `Y`. -/
noncomputable def qpeAmp (n : ℕ) (θ : ℝ) (Y : ℕ) : ℂ := 1 / 2 ^ n * ∑ X ∈ Finset.range (2 ^ n), E (X * (θ - Y / 2 ^ n))

theorem qpe_general (Uit : ℕ → (St Q → ℂ) → St Q → ℂ) {reg : List Q} (hn : reg.Nodup)
    (hU : ∀ k, ActsOutside reg (Uit k)) {φ : St Q → ℂ} (hout : ∀ q ∈ reg, ∀ s v, φ (upd s q v) = φ s)
    {θ : ℝ} (hφ : ∀ i, Uit (2 ^ i) φ = fun s => E (2 ^ i * θ) * φ s)
    {c : List (FGate Q)} (hwf : ∀ g ∈ c, g.wf)
    (hF : ∀ ψ s, run c ψ s = rt ^ reg.length * ∑ X ∈ Finset.range (2 ^ reg.length),
      E ((1 : ℤ) * (X * (valL reg s : ℕ)) / 2 ^ reg.length) * ψ (setM reg.reverse X s)) (s : St Q) :
    run (inv c) (qpeLoop Uit 0 reg (run (reg.map .h) fun s => (if reg.all fun q => !s q then 1 else 0) * φ s)) s =
      qpeAmp reg.length θ (valL reg s) * φ s := by
  have hr : reg.reverse.Nodup := List.nodup_reverse.2 hn
  have hv : ∀ s, valM reg.reverse s = valL reg s := fun s => by
    rw [← valL_reverse, List.reverse_reverse]
  have h1 := run_hs reg hn φ hout (fun _ => 1) (fun _ _ _ _ => rfl)
  simp only [one_mul] at h1
  rw [h1, qpeLoop_spec Uit hU hφ reg 0 (fun _ => rt ^ reg.length) (fun _ h => h) (fun _ _ _ => rfl)]
  rw [fourier_inverse hr hwf (fun ψ s => by rw [hF, List.length_reverse, hv]), List.length_reverse]
  unfold qpeAmp
  rw [Finset.mul_sum, Finset.mul_sum, Finset.sum_mul]
  refine Finset.sum_congr rfl fun X hX => ?_
  rw [Finset.mem_range] at hX
  have hφX : ∀ (qs : List Q) (X : ℕ) (s : St Q), (∀ q ∈ qs, q ∈ reg) → φ (setM qs X s) = φ s := by
    intro qs
    induction qs with
    | nil => intro X s _; rfl
    | cons q qs ih =>
      intro X s h
      rw [setM, hout q (h q List.mem_cons_self), ih _ _ (fun x hx => h x (List.mem_cons_of_mem _ hx))]
  rw [hφX _ _ _ (fun q h => List.mem_reverse.1 h), ← hv (setM _ _ _), valM_setM hr, List.length_reverse,
    Nat.mod_eq_of_lt hX, hv, ← rt_pow_sq]
  have : (X : ℝ) * (θ - valL reg s / 2 ^ reg.length) = -(X * (valL reg s : ℕ)) / 2 ^ reg.length + 2 ^ 0 * X * θ := by
    ring
  rw [this, E_add]
  ring

theorem qpeAmp_exact (n k Y : ℕ) (hk : k < 2 ^ n) (hY : Y < 2 ^ n) : qpeAmp n (k / 2 ^ n) Y = if Y = k then 1 else 0 := by
  unfold qpeAmp
  have h1 : ∀ X : ℕ, E (X * ((k : ℝ) / 2 ^ n - Y / 2 ^ n)) = E (X * ((k : ℤ) - Y : ℤ) / (2 ^ n : ℕ)) := fun X => by
    congr 1
    push_cast
    ring
  simp only [h1]
  rw [sum_E _ (by positivity)]
  by_cases he : Y = k
  · subst he
    rw [if_pos (by rw [sub_self]; exact dvd_zero _), if_pos rfl]
    push_cast
    have : (2 : ℂ) ^ n ≠ 0 := pow_ne_zero _ two_ne_zero
    field_simp
  · rw [if_neg he, if_neg, mul_zero]
    intro hd
    have := Int.eq_zero_of_abs_lt_dvd hd (by
      rw [abs_lt]; constructor <;> omega)
    omega

theorem norm_E_sub_one (θ : ℝ) : ‖E θ - 1‖ = 2 * |Real.sin (Real.pi * θ)| := by
  have h := Complex.norm_exp_I_mul_ofReal_sub_one (2 * Real.pi * θ)
  have h2 : E θ = Complex.exp (Complex.I * ((2 * Real.pi * θ : ℝ) : ℂ)) := by
    unfold E; congr 1; push_cast; ring
  rw [h2, h, Real.norm_eq_abs, abs_mul, abs_two]
  congr 3
  ring

/-- Success probability of the phase estimation. -/
theorem qpeAmp_bound (n Y : ℕ) (θ : ℝ) (h : |θ - Y / 2 ^ n| ≤ 1 / (2 * 2 ^ n)) :
    4 / Real.pi ^ 2 ≤ ‖qpeAmp n θ Y‖ ^ 2 := by
  have hN : (0 : ℝ) < 2 ^ n := by positivity
  have hpi := Real.pi_pos
  have main : 2 / Real.pi ≤ ‖qpeAmp n θ Y‖ := by
    unfold qpeAmp
    generalize θ - Y / 2 ^ n = δ at h ⊢
    rw [norm_mul]
    have hc : ‖(1 / 2 ^ n : ℂ)‖ = 1 / 2 ^ n := by simp
    rw [hc]
    have hpow : ∀ X : ℕ, E (X * δ) = E δ ^ X := fun X => (E_pow δ X).symm
    simp only [hpow]
    by_cases h0 : δ = 0
    · subst h0
      simp only [E_zero, one_pow, Finset.sum_const, Finset.card_range, nsmul_eq_mul, mul_one]
      push_cast
      rw [norm_pow]
      simp
      rw [div_le_one hpi]
      linarith [Real.two_le_pi]
    · have hδ : 0 < |δ| := abs_pos.2 h0
      have hn1 : (1 : ℝ) ≤ 2 ^ n := one_le_pow₀ (by norm_num)
      have hδ2 : |δ| ≤ 1 / 2 := h.trans (by
        rw [div_le_div_iff₀ (by positivity) (by norm_num)]; linarith)
      have hNδ : 2 ^ n * |δ| ≤ 1 / 2 := by
        calc 2 ^ n * |δ| ≤ 2 ^ n * (1 / (2 * 2 ^ n)) := mul_le_mul_of_nonneg_left h hN.le
          _ = 1 / 2 := by field_simp
      have hne : E δ ≠ 1 := fun e => by
        obtain ⟨k, hk⟩ := E_eq_one e
        rw [hk] at hδ hδ2
        rw [← Int.cast_abs] at hδ hδ2
        have h1 : (0 : ℤ) < |k| := by exact_mod_cast hδ
        have h2 : (1 : ℝ) ≤ (|k| : ℤ) := by exact_mod_cast h1
        linarith
      rw [geom_sum_eq hne, E_pow, norm_div, norm_E_sub_one, norm_E_sub_one]
      have habs : ∀ x : ℝ, |Real.sin x| = |Real.sin (|x|)| := fun x => by
        rcases abs_choice x with e | e <;> rw [e]
        rw [Real.sin_neg, abs_neg]
      have hup : |Real.sin (Real.pi * δ)| ≤ Real.pi * |δ| := by
        have := Real.abs_sin_le_abs (x := Real.pi * δ)
        rwa [abs_mul, abs_of_pos hpi] at this
      have hlow : 2 * (2 ^ n * |δ|) ≤ |Real.sin (Real.pi * ((2 ^ n : ℕ) * δ))| := by
        rw [habs, abs_mul, abs_mul, abs_of_pos hpi]
        have hcast : |((2 ^ n : ℕ) : ℝ)| = 2 ^ n := by push_cast; exact abs_of_pos hN
        rw [hcast]
        have := Real.mul_le_sin (x := Real.pi * (2 ^ n * |δ|)) (by positivity) (by nlinarith)
        refine le_trans (le_of_eq ?_) (this.trans (le_abs_self _))
        field_simp
      have hpos : 0 < |Real.sin (Real.pi * δ)| := by
        refine abs_pos.2 fun e => hne ?_
        have := norm_E_sub_one δ
        rw [e, abs_zero, mul_zero, norm_eq_zero, sub_eq_zero] at this
        exact this
      rw [mul_div_mul_left _ _ (by norm_num : (2 : ℝ) ≠ 0), div_le_iff₀ hpi, div_mul_eq_mul_div, div_mul_eq_mul_div,
        one_mul, le_div_iff₀ hN, div_mul_eq_mul_div, le_div_iff₀ hpos]
      nlinarith [mul_le_mul_of_nonneg_left hup (by positivity : (0 : ℝ) ≤ 2 * 2 ^ n),
        mul_le_mul_of_nonneg_right hlow hpi.le]
  have h2 : (2 / Real.pi) ^ 2 = 4 / Real.pi ^ 2 := by rw [div_pow]; norm_num
  rw [← h2]
  exact pow_le_pow_left₀ (by positivity) main 2

end Verif.Fourier
