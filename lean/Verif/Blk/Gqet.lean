import Verif.Blk.Gqsp
import Verif.Blk.Cheb
import Verif.Blk.Parity
import Verif.Blk.Walk
import Mathlib.RingTheory.Polynomial.Tower

/-!
Polynomials of block encodings: `GQET`, `hamiltonian_simulation`, `QET` (algorithms/gqsp). The completion `q` and the maximum `M` computed by
`poly_to_nlft_sequence` are parameters.
-/

namespace Verif.Blk

open Matrix Polynomial
open Polynomial.Chebyshev (T)
open scoped ComplexConjugate

variable {n a : Type} [Fintype n] [DecidableEq n] [Fintype a] [DecidableEq a]

/-- `GQSP` with the angles of `gqsp_angles` as unitary of a block encoding (gqet.py:171-185, hamiltonian_simulation.py:214-228). `d` is the degree, `k`
the shift. -/
noncomputable def BE.gqspOn (W : BE n) (d k : ℕ) (M : ℝ) (q c : ℕ → ℂ) : BE n :=
  let F := nlftSeq d M q c
  { anc := Bool × W.anc, zero := (false, W.zero), ancs := 1 + W.ancs, U := gqsp W.U d k (thetaA d F) (phiA d F) (lambdaA F), alpha := M / 0.99, herm := false }

/-- `GQET(H, p, kind, rescale)` (gqet.py:31-185) for an array of length `d + 1`. -/
noncomputable def BE.gqet (B : BE n) (d : ℕ) (p : ℕ → ℝ) (kind : PKind) (rescale : Bool) (M : ℝ) (q : ℕ → ℂ) : BE n :=
  let c := chebCoeffs (d + 1) B.alpha kind rescale p
  B.qubitization.gqspOn d 0 M q (fun k => c k)

/-- `jax_jv(m, x)` (hamiltonian_simulation.py:238-275): the mean of the integrand over 1000 midpoints. -/
noncomputable def jv (m : ℕ) (x : ℝ) : ℝ :=
  (∑ i ∈ Finset.range 1000, Real.cos (m * ((i + 0.5) * (Real.pi / 1000)) - x * Real.sin ((i + 0.5) * (Real.pi / 1000)))) / 1000

/-- `coeffs` (hamiltonian_simulation.py:208-212), an array of length `2 N + 1`. -/
noncomputable def jaCoeffs (N : ℕ) (t : ℝ) : ℕ → ℂ := fun j =>
  (-Complex.I) ^ ((j : ℤ) - N) * (if j ≤ N then ((jv (N - j) t * (-1) ^ (N - j) : ℝ) : ℂ) else ((jv (j - N) t : ℝ) : ℂ))

/-- `hamiltonian_simulation(H, t, N)` (hamiltonian_simulation.py:35-228). -/
noncomputable def BE.hamsim (B : BE n) (t : ℝ) (N : ℕ) (M : ℝ) (q : ℕ → ℂ) : BE n :=
  B.qubitization.gqspOn (2 * N) N M q (jaCoeffs N (t * B.alpha))

/-- `is_odd` (qet.py:144). -/
def isOdd (d : ℕ) (p : ℕ → ℝ) : Prop := ∀ k ≤ d, k % 2 = 0 → |p k| ≤ 1e-6

noncomputable instance (d : ℕ) (p : ℕ → ℝ) : Decidable (isOdd d p) := Classical.propDecidable _

/-- `T2` (qet.py:173-176). -/
def stepT2 (z : a) (U : Matrix (a × n) (a × n) ℂ) : Matrix (a × n) (a × n) ℂ := reflM n z * (Uᴴ * (reflM n z * U))

/-- The rotations and controlled steps of `QET` (qet.py:180-184), for `phi` before reversal and an array of length `d + 1`. -/
noncomputable def qetBody (V : Matrix (a × n) (a × n) ℂ) (d : ℕ) (phi : ℕ → ℝ) : Matrix ((Bool × a) × n) ((Bool × a) × n) ℂ :=
  fori 1 ((d + 2) / 2) (fun i X => bit a n (rxM (-2 * phi (d - 2 * i))) * (ctl false V * X)) (bit a n (rxM (-2 * phi (d - 2 * 0))))

/-- `QET(H, p, kind, rescale)` (qet.py:36-190) for an array of length `d + 1`. -/
noncomputable def BE.qet (B : BE n) (d : ℕ) (p : ℕ → ℝ) (kind : PKind) (rescale : Bool) (M : ℝ) (q : ℕ → ℂ) : BE n :=
  let c := chebCoeffs (d + 1) B.alpha kind rescale p
  let F := nlftSeq d M q (fun k => c k)
  { anc := Bool × B.anc, zero := (false, B.zero), ancs := 1 + B.ancs,
    U := (if isOdd d p then padL Bool B.U else 1) * qetBody (stepT2 B.zero B.U) d (phiA d F), alpha := M / 0.99, herm := false }

/-! ### Blocks and evaluation -/

theorem blk_add (z : a) (U V : Matrix (a × n) (a × n) ℂ) : blk z (U + V) = blk z U + blk z V := rfl

theorem blk_smul (z : a) (c : ℂ) (U : Matrix (a × n) (a × n) ℂ) : blk z (c • U) = c • blk z U := rfl

theorem blk_zero (z : a) : blk z (0 : Matrix (a × n) (a × n) ℂ) = 0 := rfl

theorem blk_sum (z : a) (s : Finset ℕ) (f : ℕ → Matrix (a × n) (a × n) ℂ) : blk z (∑ k ∈ s, f k) = ∑ k ∈ s, blk z (f k) := by
  classical
  induction s using Finset.induction_on with
  | empty => simp [blk_zero]
  | insert x s h ih => rw [Finset.sum_insert h, Finset.sum_insert h, blk_add, ih]

/-- A real Chebyshev series of a matrix. -/
theorem aeval_chebPoly (N : ℕ) (c : ℕ → ℝ) (X' : Matrix n n ℂ) : aeval X' (chebPoly N c) = ∑ k ∈ Finset.range N, (c k : ℂ) • aeval X' (T ℂ (k : ℤ)) := by
  rw [chebPoly, map_sum]
  apply Finset.sum_congr rfl; intro k _
  rw [map_mul, aeval_C, Algebra.algebraMap_eq_smul_one, Matrix.smul_mul, Matrix.one_mul, ← Chebyshev.map_T (algebraMap ℝ ℂ), aeval_map_algebraMap]
  rfl

/-- Rescaling of the argument. -/
theorem aeval_target (N : ℕ) (alpha : ℝ) (h : alpha ≠ 0) (kind : PKind) (rescale : Bool) (p : ℕ → ℝ) (X' : Matrix n n ℂ) :
    aeval (((1 / alpha : ℝ) : ℂ) • X') (chebPoly N (chebCoeffs N alpha kind rescale p))
      = aeval (if rescale then X' else ((1 / alpha : ℝ) : ℂ) • X') (target N kind p) := by
  rw [chebCoeffs_target]
  cases rescale
  · rfl
  · rw [if_pos rfl, if_pos rfl, aeval_comp]
    congr 2
    rw [map_mul, aeval_C, aeval_X, Algebra.algebraMap_eq_smul_one, Matrix.smul_mul, Matrix.one_mul]
    ext i j
    simp only [Matrix.smul_apply, smul_eq_mul, Complex.real_smul]
    have : (alpha : ℂ) ≠ 0 := by exact_mod_cast h
    push_cast
    field_simp

/-- The adjoint of a real polynomial. -/
theorem aeval_ct (X' : Matrix n n ℂ) (p : ℝ[X]) : (aeval X' p)ᴴ = aeval X'ᴴ p := by
  rw [aeval_eq_sum_range, aeval_eq_sum_range, conjTranspose_sum]
  apply Finset.sum_congr rfl; intro k _
  rw [conjTranspose_smul, conjTranspose_pow]; simp

theorem aeval_T_ct (X' : Matrix n n ℂ) (h : X'ᴴ = X') (k : ℕ) : (aeval X' (T ℂ (k : ℤ)))ᴴ = aeval X' (T ℂ (k : ℤ)) := by
  rw [← Chebyshev.map_T (algebraMap ℝ ℂ), aeval_map_algebraMap, aeval_ct, h]

theorem blk_ct_pow (z : a) (W : Matrix (a × n) (a × n) ℂ) (k : ℕ) : blk z (Wᴴ ^ k) = (blk z (W ^ k))ᴴ := by
  rw [← conjTranspose_pow]; rfl

/-! ### The coefficients of the Jacobi-Anger expansion -/

theorem negI_ne : (-Complex.I) ≠ 0 := neg_ne_zero.mpr Complex.I_ne_zero

theorem negI_inv : (-Complex.I)⁻¹ = Complex.I := by rw [inv_neg, Complex.inv_I, neg_neg]

theorem jaCoeffs_right (N : ℕ) (t : ℝ) (m : ℕ) : jaCoeffs N t (N + m) = (-Complex.I) ^ m * jv m t := by
  rw [jaCoeffs, show ((N + m : ℕ) : ℤ) - N = m by push_cast; ring, zpow_natCast]
  rcases Nat.eq_zero_or_pos m with h | h
  · subst h; simp
  · rw [if_neg (by omega), show N + m - N = m by omega]

theorem jaCoeffs_left (N : ℕ) (t : ℝ) (m : ℕ) (h : m ≤ N) : jaCoeffs N t (N - m) = (-Complex.I) ^ m * jv m t := by
  rw [jaCoeffs, show ((N - m : ℕ) : ℤ) - N = -(m : ℤ) by rw [Nat.cast_sub h]; ring, if_pos (by omega), show N - (N - m) = m by omega, _root_.zpow_neg, zpow_natCast,
    ← inv_pow, negI_inv]
  push_cast
  rw [neg_pow Complex.I]
  ring

/-- The coefficients are palindromic. -/
theorem jaCoeffs_pal (N : ℕ) (t : ℝ) {j : ℕ} (h : j ≤ 2 * N) : jaCoeffs N t (2 * N - j) = jaCoeffs N t j := by
  rcases Nat.le_total j N with h1 | h1
  · obtain ⟨m, rfl⟩ : ∃ m, N = j + m := ⟨N - j, by omega⟩
    rw [show 2 * (j + m) - j = (j + m) + m by omega, jaCoeffs_right]
    have := jaCoeffs_left (j + m) t m (by omega)
    rw [show j + m - m = j by omega] at this
    rw [this]
  · obtain ⟨m, rfl⟩ : ∃ m, j = N + m := ⟨j - N, by omega⟩
    rw [jaCoeffs_right, show 2 * N - (N + m) = N - m by omega, jaCoeffs_left N t m (by omega)]

/-- Palindromic polynomials have the same modulus at conjugate points of the circle. -/
theorem pal_conj {d : ℕ} {c : ℕ → ℂ} (h : ∀ j ≤ d, c (d - j) = c j) {z : ℂ} (hz : ‖z‖ = 1) : ‖ev d c (conj z)‖ = ‖ev d c z‖ := by
  have e : conj z * z = 1 := by rw [mul_comm, Complex.mul_conj, Complex.normSq_eq_norm_sq, hz]; norm_num
  have key : ev d c (conj z) * z ^ d = ev d c z := by
    rw [ev, ev, Finset.sum_mul, ← Finset.sum_range_reflect]
    apply Finset.sum_congr rfl; intro k hk
    rw [Finset.mem_range] at hk
    rw [show d + 1 - 1 - k = d - k by omega, h k (by omega), smul_eq_mul, smul_eq_mul, mul_assoc]
    congr 1
    rw [show d = (d - k) + k by omega, pow_add, show d - k + k - k = d - k by omega, ← mul_assoc, ← mul_pow, e, one_pow, one_mul]
  rw [← key, norm_mul, norm_pow, hz, one_pow, mul_one]

/-- The sum of the shifted powers of a walk, by distance from the middle. -/
theorem ev_shift {N : ℕ} {c : ℕ → ℂ} (h : ∀ j ≤ 2 * N, c (2 * N - j) = c j) {W : Matrix (a × n) (a × n) ℂ} (hW : IsU W) :
    Wᴴ ^ N * ev (2 * N) c W = c N • 1 + ∑ m ∈ Finset.range N, c (N + (m + 1)) • (W ^ (m + 1) + Wᴴ ^ (m + 1)) := by
  have cancel : ∀ j i : ℕ, Wᴴ ^ (j + i) * W ^ i = Wᴴ ^ j := by
    intro j i
    induction i with
    | zero => simp
    | succ i ih =>
      rw [← add_assoc, pow_succ, pow_succ' W, Matrix.mul_assoc, ← Matrix.mul_assoc Wᴴ W, show Wᴴ * W = 1 from hW, Matrix.one_mul, ih]
  have cancel' : ∀ j i : ℕ, Wᴴ ^ i * W ^ (i + j) = W ^ j := by
    intro j i
    rw [pow_add, ← Matrix.mul_assoc]
    have := cancel 0 i
    rw [zero_add, pow_zero] at this
    rw [this, Matrix.one_mul]
  rw [ev, Finset.mul_sum, show 2 * N + 1 = (N + 1) + N by ring, Finset.sum_range_add, Finset.sum_range_succ, ← Finset.sum_range_reflect]
  have e1 : ∀ m ∈ Finset.range N, Wᴴ ^ N * c (N - 1 - m) • W ^ (N - 1 - m) = c (N + (m + 1)) • Wᴴ ^ (m + 1) := by
    intro m hm
    rw [Finset.mem_range] at hm
    rw [Matrix.mul_smul]
    have := cancel (m + 1) (N - 1 - m)
    rw [show m + 1 + (N - 1 - m) = N by omega] at this
    rw [this, ← h (N - 1 - m) (by omega), show 2 * N - (N - 1 - m) = N + (m + 1) by omega]
  have e2 : ∀ m ∈ Finset.range N, Wᴴ ^ N * c (N + 1 + m) • W ^ (N + 1 + m) = c (N + (m + 1)) • W ^ (m + 1) := by
    intro m _
    rw [Matrix.mul_smul, show N + 1 + m = N + (m + 1) by ring, cancel']
  rw [Finset.sum_congr rfl e1, Finset.sum_congr rfl e2, Matrix.mul_smul]
  have := cancel 0 N
  rw [zero_add, pow_zero] at this
  rw [this]
  simp only [smul_add, Finset.sum_add_distrib]
  abel

/-! ### Real and imaginary layers -/

/-- All layers lie on the axes if the coefficients are real multiples of the powers of i. -/
theorem layers_axis (d : ℕ) (m : ℕ) {s : (ℕ → ℂ) × (ℕ → ℂ)} (h1 : ∀ k ≤ d, ∃ r : ℝ, s.1 k = Complex.I ^ k * r) (h2 : ∀ k ≤ d, ∃ r : ℝ, s.2 k = Complex.I ^ m * Complex.I ^ k * r)
    (h0 : Pos0 s) (j : ℕ) : ∃ i : ℕ, ∃ r : ℝ, layers d s j = Complex.I ^ i * r := by
  induction j generalizing s m with
  | zero =>
    obtain ⟨r1, e1⟩ := h1 0 (Nat.zero_le d)
    obtain ⟨r2, e2⟩ := h2 0 (Nat.zero_le d)
    refine ⟨m, r2 / r1, ?_⟩
    show s.2 0 / s.1 0 = _
    rw [e1, e2]; push_cast; simp [mul_div_assoc]
  | succ j ih =>
    rw [layers_succ]
    have hF : ∃ f : ℝ, stripF s = Complex.I ^ m * f := by
      obtain ⟨r1, e1⟩ := h1 0 (Nat.zero_le d)
      obtain ⟨r2, e2⟩ := h2 0 (Nat.zero_le d)
      refine ⟨r2 / r1, ?_⟩
      rw [stripF, e1, e2]; push_cast; simp [mul_div_assoc]
    obtain ⟨f, hf⟩ := hF
    have cI : conj (Complex.I ^ m) * Complex.I ^ m = 1 := by
      rw [mul_comm, Complex.mul_conj, Complex.normSq_eq_norm_sq, norm_pow, Complex.norm_I]; norm_num
    refine ih (m + 1) ?_ ?_ h0.strip
    · intro k hkd
      obtain ⟨r1, e1⟩ := h1 k hkd
      obtain ⟨r2, e2⟩ := h2 k hkd
      refine ⟨(r1 + f * r2) / stripR s, ?_⟩
      simp only [strip]
      rw [e1, e2, hf, map_mul, Complex.conj_ofReal]
      push_cast
      linear_combination (f * Complex.I ^ k * r2 / stripR s) * cI
    · intro k hkd
      simp only [strip, roll]
      by_cases hk : k = d
      · refine ⟨0, ?_⟩
        rw [hk, Nat.mod_self, stripF, div_mul_cancel₀ _ h0.ne, sub_self, zero_div]; simp
      · rw [Nat.mod_eq_of_lt (by omega)]
        obtain ⟨r1, e1⟩ := h1 (k + 1) (by omega)
        obtain ⟨r2, e2⟩ := h2 (k + 1) (by omega)
        refine ⟨(r2 - f * r1) / stripR s, ?_⟩
        rw [e1, e2, hf]
        push_cast
        ring

/-! ### Parity of the Chebyshev coefficients -/

theorem T_comp_neg (k : ℕ) : (T ℝ (k : ℤ)).comp (-X) = C ((-1) ^ k) * T ℝ (k : ℤ) := by
  apply Polynomial.funext
  intro x
  rw [eval_comp, eval_neg, eval_X, Chebyshev.T_eval_neg, eval_mul, eval_C]
  congr 1
  simp

theorem chebPoly_neg (N : ℕ) (c : ℕ → ℝ) : (chebPoly N c).comp (-X) = chebPoly N (fun k => (-1) ^ k * c k) := by
  rw [chebPoly, chebPoly, Polynomial.sum_comp]
  apply Finset.sum_congr rfl; intro k _
  rw [mul_comp, C_comp, T_comp_neg, C_mul]; ring

theorem powPoly_neg (N : ℕ) (p : ℕ → ℝ) : (powPoly N p).comp (-X) = powPoly N (fun k => (-1) ^ k * p k) := by
  rw [powPoly, powPoly, Polynomial.sum_comp]
  apply Finset.sum_congr rfl; intro k _
  rw [mul_comp, C_comp, pow_comp, X_comp, C_mul, neg_pow]; simp; ring

theorem powPoly_inj {N : ℕ} {p p' : ℕ → ℝ} (h : powPoly N p = powPoly N p') {k : ℕ} (hk : k < N) : p k = p' k := by
  have h2 := congrArg (fun q : ℝ[X] => q.coeff k) h
  simpa only [powPoly, finsetSum_coeff, coeff_C_mul, coeff_X_pow, mul_ite, mul_one, mul_zero, Finset.sum_ite_eq, Finset.mem_range, if_pos hk] using h2

theorem chebPoly_inj {N : ℕ} {c c' : ℕ → ℝ} (h : chebPoly N c = chebPoly N c') {k : ℕ} (hk : k < N) : c k = c' k := by
  rw [← powPoly_cheb2poly, ← powPoly_cheb2poly] at h
  rw [← poly2cheb_cheb2poly N c hk, ← poly2cheb_cheb2poly N c' hk, poly2cheb, poly2cheb, dif_pos hk, dif_pos hk]
  congr 2
  funext i
  exact powPoly_inj h i.2

/-- The sign of a parity: `o` = 0 even, 1 odd. -/
theorem target_neg {N : ℕ} {kind : PKind} {p : ℕ → ℝ} {o : ℕ} (h : ∀ k < N, k % 2 ≠ o % 2 → p k = 0) : (target N kind p).comp (-X) = C ((-1) ^ o) * target N kind p := by
  have hs : ∀ k < N, (-1 : ℝ) ^ k * p k = (-1) ^ o * p k := by
    intro k hk
    by_cases e : k % 2 = o % 2
    · congr 1
      rw [neg_one_pow_eq_pow_mod_two, e, ← neg_one_pow_eq_pow_mod_two]
    · rw [h k hk e, mul_zero, mul_zero]
  cases kind
  · simp only [target]
    rw [powPoly_neg, powPoly_congr N hs, powPoly, powPoly, Finset.mul_sum]
    apply Finset.sum_congr rfl; intro k _
    rw [C_mul]; ring
  · simp only [target]
    rw [chebPoly_neg, chebPoly, chebPoly, Finset.mul_sum]
    apply Finset.sum_congr rfl; intro k hk
    rw [hs k (Finset.mem_range.mp hk), C_mul]; ring

/-- Parity is kept by rescaling and conversion. -/
theorem chebCoeffs_parity {N : ℕ} (alpha : ℝ) {kind : PKind} (rescale : Bool) {p : ℕ → ℝ} {o : ℕ} (h : ∀ k < N, k % 2 ≠ o % 2 → p k = 0) :
    ∀ k < N, k % 2 ≠ o % 2 → chebCoeffs N alpha kind rescale p k = 0 := by
  intro k hk hko
  have e : (chebPoly N (chebCoeffs N alpha kind rescale p)).comp (-X) = C ((-1) ^ o) * chebPoly N (chebCoeffs N alpha kind rescale p) := by
    rw [chebCoeffs_target]
    cases rescale
    · exact target_neg h
    · simp only [if_true]
      have := congrArg (fun q : ℝ[X] => q.comp (C alpha * X)) (target_neg (kind := kind) h)
      simp only [mul_comp, C_comp] at this
      rw [← this, comp_assoc, comp_assoc]
      congr 1
      simp
  rw [chebPoly_neg, show C ((-1) ^ o) * chebPoly N (chebCoeffs N alpha kind rescale p) = chebPoly N (fun k => (-1) ^ o * chebCoeffs N alpha kind rescale p k) by
    rw [chebPoly, chebPoly, Finset.mul_sum]
    apply Finset.sum_congr rfl; intro k _
    rw [C_mul]; ring] at e
  have := chebPoly_inj e hk
  have hm : (-1 : ℝ) ^ k = -(-1) ^ o := by
    rw [neg_one_pow_eq_pow_mod_two, neg_one_pow_eq_pow_mod_two (n := o)]
    rcases Nat.mod_two_eq_zero_or_one k with h1 | h1 <;> rcases Nat.mod_two_eq_zero_or_one o with h2 | h2 <;> rw [h1, h2] at hko ⊢ <;> simp at hko ⊢
  rw [hm] at this
  have hne : ((-1 : ℝ)) ^ o ≠ 0 := pow_ne_zero _ (by norm_num)
  have : 2 * (-1 : ℝ) ^ o * chebCoeffs N alpha kind rescale p k = 0 := by linear_combination -this
  rcases mul_eq_zero.mp this with h | h
  · exact absurd h (mul_ne_zero (by norm_num) hne)
  · exact h

/-! ### The circuit of QET -/

theorem rz_zero : rzM (-2 * 0) = 1 := by
  ext x y
  cases x <;> cases y <;> simp [rzM]

/-- The circuit is that of GQSP for the step `V`, with every second angle. -/
theorem qetBody_gqsp {V : Matrix (a × n) (a × n) ℂ} {d e : ℕ} (hd : (d + 2) / 2 = e + 1) {phi theta phi' : ℕ → ℝ} (hphi : ∀ i ≤ e, phi (d - 2 * i) = phi' (e - i)) (ht : ∀ j, theta j = 0) :
    qetBody V d phi = gqsp V e 0 theta phi' 0 := by
  have loop : ∀ m ≤ e, fori 1 (m + 1) (fun i X => bit a n (rxM (-2 * phi (d - 2 * i))) * (ctl false V * X)) (bit a n (rxM (-2 * phi (d - 2 * 0))))
      = bit a n (rM (theta (e - m)) (phi' (e - m))) * fori 0 m (fun i M => ctl false V * (bit a n (rM (theta (e - i)) (phi' (e - i))) * M)) 1 := by
    intro m hm
    have hr : ∀ i ≤ e, rM (theta (e - i)) (phi' (e - i)) = rxM (-2 * phi (d - 2 * i)) := by
      intro i hi
      rw [rM, ht, rz_zero, Matrix.mul_one, hphi i hi]
    induction m with
    | zero => rw [fori_self, fori_self, Matrix.mul_one, hr 0 (by omega)]
    | succ m ih =>
      rw [fori_succ (Nat.le_add_left 1 m), ih (by omega), fori_succ (Nat.zero_le m), hr (m + 1) hm]
  rw [qetBody, hd, loop e le_rfl, gqsp]
  simp only [fori_self, Nat.sub_zero]
  rw [rz_zero, bit_one, Matrix.one_mul]

theorem step_pow (z : a) (U : Matrix (a × n) (a × n) ℂ) (k : ℕ) : stepT2 z U ^ k = reflM n z * chebStep z U ^ k * reflM n z := by
  have h := refl_refl (n := n) z
  have e : stepT2 z U = reflM n z * chebStep z U * reflM n z := by
    rw [stepT2, chebStep]
    simp only [Matrix.mul_assoc, h, Matrix.mul_one]
  induction k with
  | zero => rw [pow_zero, pow_zero, Matrix.mul_one, h]
  | succ k ih =>
    rw [pow_succ, ih, e, pow_succ]
    simp only [Matrix.mul_assoc]
    rw [← Matrix.mul_assoc (reflM n z) (reflM n z), h, Matrix.one_mul]

theorem step_unitary (z : a) {U : Matrix (a × n) (a × n) ℂ} (h : IsU U) : IsU (stepT2 z U) :=
  (refl_unitary z).mul (h.ct.mul ((refl_unitary z).mul h))

/-- The block of the steps. -/
theorem blk_step (z : a) {U : Matrix (a × n) (a × n) ℂ} (hU : IsU U) (k : ℕ) : blk z (stepT2 z U ^ k) = aeval (2 • ((blk z U)ᴴ * blk z U) - 1) (T ℂ (k : ℤ)) := by
  rw [← cheb_even z hU, step_pow, blk_eq, blk_eq, ← Matrix.mul_assoc, ← Matrix.mul_assoc, ct_emb_refl, Matrix.mul_assoc, refl_emb]

theorem blk_U_step (z : a) {U : Matrix (a × n) (a × n) ℂ} (hU : IsU U) (k : ℕ) : blk z (U * stepT2 z U ^ k) = blk z U * aeval ((blk z U)ᴴ * blk z U) (oddPart k) := by
  rw [← (cheb_odd z hU k).1, step_pow, blk_eq, blk_eq, ← Matrix.mul_assoc, ← Matrix.mul_assoc]
  simp only [Matrix.mul_assoc, refl_emb]

theorem colB_padL (V : Matrix (a × n) (a × n) ℂ) (M : Matrix ((Bool × a) × n) ((Bool × a) × n) ℂ) (q : Bool) : colB (padL Bool V * M) q = V * colB M q := by
  have e : padL Bool V = sel (fun _ => V) := rfl
  rw [e, colB_sel]

end Verif.Blk
