import Verif.Blk.Gqsp

/-!
# Property C104: generalized quantum signal processing
-/

namespace Verif.Props

open Matrix Verif.Blk
open scoped ComplexConjugate

variable {n a : Type} [Fintype n] [DecidableEq n] [Fintype a] [DecidableEq a]

/-- What `_complementary_polynomial` (gqsp_angles.py:83-146) is for: |q|² + |b|² = 1 on the unit circle, with positive constant term. -/
def Completes (d : ℕ) (q b : ℕ → ℂ) : Prop := (∀ z : ℂ, ‖z‖ = 1 → ‖ev d q z‖ ^ 2 + ‖ev d b z‖ ^ 2 = 1) ∧ ∃ x : ℝ, 0 < x ∧ q 0 = x

/-- The polynomial that is given to the completion (gqsp_angles.py:323-329). -/
noncomputable def scaled (M : ℝ) (p : ℕ → ℂ) : ℕ → ℂ := fun k => -Complex.I * ((0.99 : ℝ) * (p k / M))

/-- The block of the circuit of `GQSP` in which the ancilla stays 0, with the angles of `gqsp_angles` for the polynomial `p` of degree `d`, the maximum
`M`, the completion `q`, and the shift `k`. -/
noncomputable def gqspBlock (U : Matrix (a × n) (a × n) ℂ) (d k : ℕ) (M : ℝ) (q p : ℕ → ℂ) : Matrix (a × n) (a × n) ℂ :=
  colB (gqsp U d k (thetaA d (nlftSeq d M q p)) (phiA d (nlftSeq d M q p)) (lambdaA (nlftSeq d M q p))) false

theorem ev_scaled {R : Type} [Ring R] [Algebra ℂ R] (d : ℕ) (M : ℝ) (p : ℕ → ℂ) (u : R) : ev d (scaled M p) u = (-Complex.I * ((0.99 / M : ℝ) : ℂ)) • ev d p u := by
  rw [← ev_smul]
  apply ev_congr; intro k _
  rw [scaled]; push_cast; ring

/-- Conjugated coefficients evaluate to the conjugate at the conjugate. -/
theorem ev_conj (d : ℕ) (c : ℕ → ℂ) (z : ℂ) : ev d (fun k => conj (c k)) z = conj (ev d c (conj z)) := by
  rw [ev, ev, map_sum]
  apply Finset.sum_congr rfl; intro k _
  simp

/-- The state from which `_inlft` starts. -/
theorem start_inv {d : ℕ} {M : ℝ} {q p : ℕ → ℂ} (hq : Completes d q (scaled M p)) (hp : ∀ z : ℂ, ‖z‖ = 1 → ‖ev d p (conj z)‖ = ‖ev d p z‖) :
    LInv d d (fun k => conj (q k), scaled M p) := by
  refine ⟨le_rfl, fun j h1 h2 => by omega, ?_, ?_⟩
  · intro z hz
    have := hq.1 (conj z) (by rw [RCLike.norm_conj, hz])
    simp only
    rw [ev_conj, RCLike.norm_conj]
    rw [ev_scaled, smul_eq_mul, norm_mul] at this ⊢
    rw [hp z hz] at this
    exact this
  · obtain ⟨x, hx, e⟩ := hq.2
    exact ⟨x, hx, by simp only; rw [e, Complex.conj_ofReal]⟩

theorem block_of {d k : ℕ} (hk : k ≤ d) {M : ℝ} {q p : ℕ → ℂ} {U : Matrix (a × n) (a × n) ℂ} (hU : IsU U) (h : LInv d d (fun k => conj (q k), scaled M p))
    (hs : ∀ j ≤ d, Sharp (nlftSeq d M q p j)) : gqspBlock U d k M q p = ((0.99 / M : ℝ) : ℂ) • (Uᴴ ^ k * ev d p U) := by
  obtain ⟨e, -⟩ := gqsp_col h hs hU hk
  rw [gqspBlock]
  refine e.trans ?_
  simp only
  rw [ev_scaled, Matrix.mul_smul, smul_smul]
  congr 1
  linear_combination (-((0.99 / M : ℝ) : ℂ)) * Complex.I_mul_I

/-- `GQSP` applies p(U) U^(-k), divided by the returned factor alpha = M/0.99, for every unitary U, every polynomial with |p(z̄)| = |p(z)| on the unit
circle (so for real polynomials), and every shift, provided that the thresholds of the angle formulas do not round. -/
theorem gqsp_applies {d k : ℕ} (hk : k ≤ d) {M : ℝ} {q p : ℕ → ℂ} {U : Matrix (a × n) (a × n) ℂ} (hU : IsU U) (hq : Completes d q (scaled M p))
    (hp : ∀ z : ℂ, ‖z‖ = 1 → ‖ev d p (conj z)‖ = ‖ev d p z‖) (hs : ∀ j ≤ d, Sharp (nlftSeq d M q p j)) :
    gqspBlock U d k M q p = ((0.99 / M : ℝ) : ℂ) • (Uᴴ ^ k * ev d p U) :=
  block_of hk hU (start_inv hq hp) hs

/-- With real coefficients layer stripping stays real in the first component and imaginary in the second. -/
theorem layers_imag (d : ℕ) {s : (ℕ → ℂ) × (ℕ → ℂ)} (h : ∀ k, (s.1 k).im = 0 ∧ (s.2 k).re = 0) (j : ℕ) :
    (∀ k, (((strip d)^[j] s).1 k).im = 0 ∧ (((strip d)^[j] s).2 k).re = 0) ∧ (layers d s j).re = 0 := by
  have fl : ∀ s : (ℕ → ℂ) × (ℕ → ℂ), (∀ k, (s.1 k).im = 0 ∧ (s.2 k).re = 0) → (stripF s).re = 0 := by
    intro s h
    rw [stripF, Complex.div_re, (h 0).1, (h 0).2]; simp
  have st : ∀ s : (ℕ → ℂ) × (ℕ → ℂ), (∀ k, (s.1 k).im = 0 ∧ (s.2 k).re = 0) → ∀ k, ((strip d s).1 k).im = 0 ∧ ((strip d s).2 k).re = 0 := by
    intro s h k
    have hF := fl s h
    constructor
    · simp only [strip, Complex.div_ofReal_im, Complex.add_im, Complex.mul_im, Complex.conj_re, Complex.conj_im, hF, (h k).1, (h k).2]
      simp
    · simp only [strip, roll, Complex.div_ofReal_re, Complex.sub_re, Complex.mul_re, hF, (h _).1, (h _).2]
      simp
  have it : ∀ k, (((strip d)^[j] s).1 k).im = 0 ∧ (((strip d)^[j] s).2 k).re = 0 := by
    induction j with
    | zero => exact h
    | succ j ih => rw [Function.iterate_succ', Function.comp_apply]; exact st _ ih
  exact ⟨it, fl _ it⟩

/-- For real polynomials (with a real completion) no further condition is needed. -/
theorem gqsp_real {d k : ℕ} (hk : k ≤ d) {M : ℝ} {q p : ℕ → ℝ} {U : Matrix (a × n) (a × n) ℂ} (hU : IsU U)
    (hq : Completes d (fun k => q k) (scaled M (fun k => p k))) :
    gqspBlock U d k M (fun k => q k) (fun k => p k) = ((0.99 / M : ℝ) : ℂ) • (Uᴴ ^ k * ev d (fun k => (p k : ℂ)) U) := by
  apply gqsp_applies hk hU hq
  · intro z _
    have := ev_conj d (fun k => (p k : ℂ)) (conj z)
    simp only [Complex.conj_ofReal, Complex.conj_conj] at this
    rw [this, RCLike.norm_conj]
  · intro j _
    refine Or.inl (layers_imag d ?_ j).2
    intro k
    constructor
    · simp
    · simp only [Complex.mul_re, Complex.neg_re, Complex.I_re, Complex.neg_im, Complex.I_im, neg_zero, zero_mul, zero_sub]
      rw [show ((0.99 : ℝ) : ℂ) * ((p k : ℂ) / M) = ((0.99 * (p k / M) : ℝ) : ℂ) by push_cast; ring, Complex.ofReal_im]
      ring

/-- With `q` itself instead of its conjugate as the initial state of `_inlft`, the circuit would be right for all complex polynomials. -/
theorem gqsp_without_conjugate {d k : ℕ} (hk : k ≤ d) {M : ℝ} {q p : ℕ → ℂ} {U : Matrix (a × n) (a × n) ℂ} (hU : IsU U) (hq : Completes d q (scaled M p))
    (hs : ∀ j ≤ d, Sharp (layers d (q, scaled M p) j)) :
    gqspBlock U d k M (fun k => conj (q k)) p = ((0.99 / M : ℝ) : ℂ) • (Uᴴ ^ k * ev d p U) := by
  have e : nlftSeq d M (fun k => conj (q k)) p = layers d (q, scaled M p) := by
    simp only [nlftSeq, inlft, Complex.conj_conj]
    rfl
  apply block_of hk hU
  · simp only [Complex.conj_conj]
    exact ⟨le_rfl, fun j h1 h2 => by omega, hq.1, hq.2⟩
  · rw [e]; exact hs

/-! ### An example, and the polynomial 1 + i z -/

/-- The root in the completion of the example. -/
noncomputable def rt : ℝ := Real.sqrt 0.0199

theorem rt_sq : rt * rt = 0.0199 := Real.mul_self_sqrt (by norm_num)

theorem rt_pos : 0 < rt := Real.sqrt_pos.mpr (by norm_num)

theorem rt_lt : rt < 1 := by
  have := rt_sq; have := rt_pos; nlinarith

/-- The completion of 0.99 (1 + z) / 2. -/
noncomputable def exQ : ℕ → ℝ := fun k => if k = 0 then (1 + rt) / 2 else if k = 1 then (rt - 1) / 2 else 0

theorem ev_one_deg (c : ℕ → ℂ) (z : ℂ) : ev 1 c z = c 0 + c 1 * z := by
  rw [ev, Finset.sum_range_succ, Finset.sum_range_one]; simp

theorem circle_sq {z : ℂ} (hz : ‖z‖ = 1) : z.re * z.re + z.im * z.im = 1 := by
  have : Complex.normSq z = 1 := by rw [Complex.normSq_eq_norm_sq, hz]; norm_num
  rwa [Complex.normSq_apply] at this

theorem ex_completes : Completes 1 (fun k => exQ k) (scaled 2 (fun k => ((if k ≤ 1 then 1 else 0 : ℝ) : ℂ))) := by
  refine ⟨?_, (1 + rt) / 2, by have := rt_pos; positivity, by simp [exQ]⟩
  intro z hz
  have hc := circle_sq hz
  have hr := rt_sq
  rw [ev_one_deg, ev_one_deg]
  simp only [exQ, scaled, if_true, one_ne_zero, if_false, le_refl, Nat.zero_le]
  rw [← Complex.normSq_eq_norm_sq, ← Complex.normSq_eq_norm_sq]
  simp only [Complex.normSq_apply, Complex.add_re, Complex.add_im, Complex.mul_re, Complex.mul_im, Complex.ofReal_re, Complex.ofReal_im, Complex.neg_re, Complex.neg_im,
    Complex.I_re, Complex.I_im, Complex.div_ofReal_re, Complex.div_ofReal_im]
  norm_num
  linear_combination ((rt - 1) ^ 2 / 4 + (99 / 200) ^ 2) * hc + (1 / 2 + z.re / 2) * hr

example (U : Matrix (Unit × Bool) (Unit × Bool) ℂ) (hU : IsU U) :
    gqspBlock U 1 0 2 (fun k => exQ k) (fun k => ((if k ≤ 1 then 1 else 0 : ℝ) : ℂ)) = ((0.99 / 2 : ℝ) : ℂ) • (1 + U) := by
  rw [gqsp_real (Nat.zero_le 1) hU ex_completes, pow_zero, Matrix.one_mul]
  congr 1
  rw [ev, Finset.sum_range_succ, Finset.sum_range_one]
  simp

/-- The polynomial 1 + i z. -/
noncomputable def badP : ℕ → ℂ := fun k => if k = 0 then 1 else if k = 1 then Complex.I else 0

/-- Its completion. -/
noncomputable def badQ : ℕ → ℂ := fun k => if k = 0 then ((1 + rt) / 2 : ℝ) else if k = 1 then Complex.I * ((rt - 1) / 2 : ℝ) else 0

theorem bad_completes : Completes 1 badQ (scaled 2 badP) := by
  refine ⟨?_, (1 + rt) / 2, by have := rt_pos; positivity, by simp [badQ]⟩
  intro z hz
  have hc := circle_sq hz
  have hr := rt_sq
  rw [ev_one_deg, ev_one_deg]
  simp only [badQ, scaled, badP, if_true, one_ne_zero, if_false]
  rw [← Complex.normSq_eq_norm_sq, ← Complex.normSq_eq_norm_sq]
  simp only [Complex.normSq_apply, Complex.add_re, Complex.add_im, Complex.mul_re, Complex.mul_im, Complex.ofReal_re, Complex.ofReal_im, Complex.neg_re, Complex.neg_im,
    Complex.I_re, Complex.I_im, Complex.div_ofReal_re, Complex.div_ofReal_im, Complex.one_re, Complex.one_im]
  norm_num
  linear_combination ((rt - 1) ^ 2 / 4 + (99 / 200) ^ 2) * hc + (1 / 2 - z.im / 2) * hr

/-- The circuit for two angles. -/
theorem gqsp_two (U : Matrix (a × n) (a × n) ℂ) (F : ℕ → ℂ) (h0 : Sharp (F 0)) (h1 : Sharp (F 1)) :
    colB (gqsp U 1 0 (thetaA 1 F) (phiA 1 F) (lambdaA F)) false
      = (Complex.I * ((Real.sqrt (1 + ‖F 0‖ ^ 2))⁻¹ : ℝ) * ((Real.sqrt (1 + ‖F 1‖ ^ 2))⁻¹ : ℝ)) • (F 0 • 1 + F 1 • U) := by
  have g : gqsp U 1 0 (thetaA 1 F) (phiA 1 F) (lambdaA F) = bit a n (rzM (-2 * lambdaA F)) * (bit a n (rM (thetaA 1 F 0) (phiA 1 F 0))
      * (ctl false U * (bit a n (rM (thetaA 1 F 1) (phiA 1 F 1)) * 1))) := rfl
  have t0 : thetaA 1 F 0 = psi (F 1) - psi (F 0) := by simp [thetaA, thetaRaw]
  have t1 : thetaA 1 F 1 = psi (F 1) := by simp [thetaA, thetaRaw]
  have p0 : phiA 1 F 0 = phi (F 0) := by simp [phiA]
  have p1 : phiA 1 F 1 = phi (F 1) + Real.pi / 2 := by simp [phiA]
  obtain ⟨a1, a2, a3, a4⟩ := rM_apply (psi (F 1) - psi (F 0)) (phi (F 0))
  obtain ⟨b1, b2, b3, b4⟩ := rM_apply (psi (F 1)) (phi (F 1) + Real.pi / 2)
  obtain ⟨c0, s0⟩ := phi_trig h0
  obtain ⟨c1, s1⟩ := phi_trig h1
  have z0 : rzM (-2 * lambdaA F) false false = Complex.exp (Complex.I * psi (F 0)) := by
    simp only [rzM, if_true, Bool.false_eq_true, if_false, lambdaA]; congr 1; push_cast; ring
  have z1 : rzM (-2 * lambdaA F) false true = 0 := by simp [rzM]
  rw [g, colB_bit, z0, z1, zero_smul, add_zero, colB_bit, colB_ctl, if_pos rfl, colB_ctl, if_neg (by simp), colB_bit, colB_bit, colB_one, colB_one, t0, t1, p0, p1,
    a1, a2, b1, b2, b3, b4, Real.cos_add_pi_div_two, Real.sin_add_pi_div_two, c0, c1]
  simp only [Bool.false_eq_true, if_false, if_true, smul_zero, add_zero, Matrix.mul_smul, Matrix.mul_one, smul_smul, smul_add]
  generalize ((Real.sqrt (1 + ‖F 0‖ ^ 2))⁻¹ : ℝ) = r0 at *
  generalize ((Real.sqrt (1 + ‖F 1‖ ^ 2))⁻¹ : ℝ) = r1 at *
  rw [add_comm]
  have ep : ∀ x y : ℂ, Complex.exp x * Complex.exp y = Complex.exp (x + y) := fun x y => (Complex.exp_add x y).symm
  have k0 : Complex.exp (Complex.I * psi (F 0)) * Complex.exp (-Complex.I * ((psi (F 1) - psi (F 0) : ℝ) : ℂ)) * Complex.exp (Complex.I * psi (F 1))
      = Complex.exp (2 * Complex.I * psi (F 0)) := by
    rw [ep, ep]; congr 1; push_cast; ring
  have k1 : Complex.exp (Complex.I * psi (F 0)) * Complex.exp (Complex.I * ((psi (F 1) - psi (F 0) : ℝ) : ℂ)) * Complex.exp (Complex.I * psi (F 1))
      = Complex.exp (2 * Complex.I * psi (F 1)) := by
    rw [ep, ep]; congr 1; push_cast; ring
  congr 1
  · congr 1
    linear_combination (Complex.I * Real.sin (phi (F 0)) * Complex.I * r1) * k0 + (Complex.I * r1) * s0
  · congr 1
    push_cast
    push_cast at s1 k1
    linear_combination (-r0 * Complex.sin (phi (F 1))) * k1 + (Complex.I * r0) * s1 - (r0 * Complex.exp (2 * Complex.I * psi (F 1)) * Complex.sin (phi (F 1))) * Complex.I_mul_I

theorem bad_layers : nlftSeq 1 2 badQ badP 0 = -Complex.I * ((0.99 / (1 + rt) : ℝ) : ℂ) ∧ nlftSeq 1 2 badQ badP 1 = ((0.99 * rt / (1 + rt) : ℝ) : ℂ) := by
  have hr := rt_pos
  have hsq := rt_sq
  have hne : ((1 + rt : ℝ) : ℂ) ≠ 0 := by exact_mod_cast (by positivity : (1 + rt : ℝ) ≠ 0)
  have e0 : nlftSeq 1 2 badQ badP 0 = -Complex.I * ((0.99 / (1 + rt) : ℝ) : ℂ) := by
    show (-Complex.I * ((0.99 : ℝ) * (badP 0 / (2 : ℝ)))) / conj (badQ 0) = _
    simp only [badP, badQ, if_true, Complex.conj_ofReal]
    push_cast at hne ⊢
    field_simp
  refine ⟨e0, ?_⟩
  set s : (ℕ → ℂ) × (ℕ → ℂ) := (fun k => conj (badQ k), scaled 2 badP) with hs
  have f0 : stripF s = -Complex.I * ((0.99 / (1 + rt) : ℝ) : ℂ) := e0
  have hR : (stripR s : ℂ) ≠ 0 := by exact_mod_cast (stripR_pos s).ne'
  show (s.2 1 - stripF s * s.1 1) / stripR s / ((s.1 0 + conj (stripF s) * s.2 0) / stripR s) = _
  rw [div_div_div_cancel_right₀ hR, f0]
  have n1 : s.2 1 - -Complex.I * ((0.99 / (1 + rt) : ℝ) : ℂ) * s.1 1 = ((0.99 * rt / (1 + rt) : ℝ) : ℂ) := by
    simp only [hs, scaled, badP, badQ, one_ne_zero, if_false, if_true, map_mul, Complex.conj_I, Complex.conj_ofReal]
    push_cast at hne ⊢
    field_simp
    ring_nf
    simp only [Complex.I_sq]
    ring
  have n0 : s.1 0 + conj (-Complex.I * ((0.99 / (1 + rt) : ℝ) : ℂ)) * s.2 0 = 1 := by
    simp only [hs, scaled, badP, badQ, if_true, map_mul, map_neg, Complex.conj_I, Complex.conj_ofReal, neg_neg]
    have : ((rt : ℝ) : ℂ) * rt = 0.0199 := by rw [← Complex.ofReal_mul, hsq]; norm_num
    push_cast at hne ⊢
    field_simp
    ring_nf
    simp only [Complex.I_sq]
    linear_combination this
  rw [n1, n0, div_one]

/-- Finding: for the complex polynomial 1 + i z (with its exact completion and its maximum 2) the circuit does not apply 0.495 (1 + i U): for U = 1 the
real part is larger than the imaginary part. -/
theorem gqsp_complex_witness : Completes 1 badQ (scaled 2 badP) ∧ ∀ i j : Unit × Unit,
    gqspBlock (1 : Matrix (Unit × Unit) (Unit × Unit) ℂ) 1 0 2 badQ badP i j ≠ (((0.99 / 2 : ℝ) : ℂ) • ev 1 badP (1 : Matrix (Unit × Unit) (Unit × Unit) ℂ)) i j := by
  refine ⟨bad_completes, ?_⟩
  intro i j h
  have hr := rt_pos
  obtain ⟨l0, l1⟩ := bad_layers
  have hF0 : Sharp (nlftSeq 1 2 badQ badP 0) := by
    left; rw [l0, Complex.mul_re, Complex.ofReal_im]; simp
  have hF1 : Sharp (nlftSeq 1 2 badQ badP 1) := by
    right
    rw [l1]
    refine ⟨?_, Or.inl (Complex.ofReal_im _)⟩
    rw [Complex.norm_real, Real.norm_eq_abs, abs_of_pos (by positivity)]
    have h1 : (0.1 : ℝ) ≤ rt := by
      have := rt_sq; nlinarith
    have h2 := rt_lt
    rw [thres, le_div_iff₀ (by positivity)]
    norm_num
    nlinarith
  rw [gqspBlock, gqsp_two _ _ hF0 hF1, l0, l1] at h
  have hij : i = j := Subsingleton.elim _ _
  subst hij
  rw [ev, Finset.sum_range_succ, Finset.sum_range_one] at h
  simp only [badP, if_true, one_ne_zero, if_false, Matrix.smul_apply, Matrix.add_apply, pow_zero, pow_one, Matrix.one_apply_eq, smul_eq_mul, mul_one] at h
  generalize hw : (Real.sqrt (1 + ‖-Complex.I * ((0.99 / (1 + rt) : ℝ) : ℂ)‖ ^ 2))⁻¹ = r0 at h
  generalize hw' : (Real.sqrt (1 + ‖((0.99 * rt / (1 + rt) : ℝ) : ℂ)‖ ^ 2))⁻¹ = r1 at h
  have q0 : 0 < r0 := by rw [← hw]; positivity
  have q1 : 0 < r1 := by rw [← hw']; positivity
  have hre := congrArg Complex.re h
  have him := congrArg Complex.im h
  simp only [Complex.mul_re, Complex.mul_im, Complex.add_re, Complex.add_im, Complex.neg_re, Complex.neg_im, Complex.I_re, Complex.I_im, Complex.ofReal_re, Complex.ofReal_im,
    Complex.one_re, Complex.one_im] at hre him
  have hlt := rt_lt
  have e : r0 * r1 * (0.99 / (1 + rt)) = r0 * r1 * (0.99 * rt / (1 + rt)) := by linear_combination hre - him
  have q : r0 * r1 ≠ 0 := by positivity
  have e2 := mul_left_cancel₀ q e
  rw [div_left_inj' (by positivity)] at e2
  nlinarith

end Verif.Props
