import Verif.Blk.Gqet

/-!
Singular value transformations: `_hermitianization` (block_encodings/block_encoding_base.py), `GQSVT`, `QSVT` (algorithms/gqsp).
-/

namespace Verif.Blk

open Matrix Polynomial
open Polynomial.Chebyshev (T)
open scoped ComplexConjugate

variable {n a : Type} [Fintype n] [DecidableEq n] [Fintype a] [DecidableEq a]

/-- `x` on the new ancilla, then U if it is 0, then the inverse of U if it is 1 (block_encoding_base.py:916-923). -/
def hermK (U : Matrix (a × n) (a × n) ℂ) : Matrix ((Bool × a) × n) ((Bool × a) × n) ℂ := ctl true Uᴴ * (ctl false U * bit a n xM)

/-- `_hermitianization` (block_encoding_base.py:896-934). -/
def BE.hermitianization (B : BE n) : BE n where
  anc := Bool × B.anc
  zero := (false, B.zero)
  ancs := 1 + B.ancs
  U := padL Bool (reflM n B.zero) * hermK B.U
  alpha := B.alpha
  herm := true

/-- `GQSVT(A, p, kind, parity, rescale)` (gqsvt.py:32-197) for an array of length `d + 1`; `even` is `parity == "even"`. -/
noncomputable def BE.gqsvt (B : BE n) (d : ℕ) (p : ℕ → ℝ) (kind : PKind) (even rescale : Bool) (M : ℝ) (q : ℕ → ℂ) : BE n :=
  let c := chebCoeffs (d + 1) B.alpha kind rescale p
  let F := nlftSeq d M q (fun k => (c k : ℂ))
  let x : Matrix ((Bool × (Bool × B.anc)) × n) ((Bool × (Bool × B.anc)) × n) ℂ := padL Bool (bit B.anc n xM)
  let W : Matrix ((Bool × B.anc) × n) ((Bool × B.anc) × n) ℂ := B.hermitianization.U
  let G := gqsp W d 0 (thetaA d F) (phiA d F) (lambdaA F)
  { anc := Bool × (Bool × B.anc), zero := (false, (false, B.zero)), ancs := 1 + (1 + B.ancs),
    U := x * (G * (if even then x else 1)), alpha := M / 0.99, herm := false }

/-- `laurent_to_analytic_coeffs(c, parity)` (gqsp_angles.py:444-506) for an array of length `L`. -/
def analytic (L : ℕ) (even : Bool) (c : ℕ → ℝ) : ℕ → ℝ := fun j =>
  if even then (if j < (L + 1) / 2 - 1 then 0 else c (2 * (j - ((L + 1) / 2 - 1)))) else (if j < L / 2 then 0 else c (2 * (j - L / 2) + 1))

/-- The length of the result minus one. -/
def analyticDeg (L : ℕ) (even : Bool) : ℕ := if even then 2 * ((L + 1) / 2) - 2 else 2 * (L / 2) - 1

/-- `qsp_angles(p, parity, "X")` (gqsp_angles.py:541-543) for angles `phi` of `gqsp_angles`. -/
noncomputable def qspPhi (d : ℕ) (phi : ℕ → ℝ) : ℕ → ℝ :=
  let p1 : ℕ → ℝ := fun j => if j = 0 then phi 0 - Real.pi / 4 else phi j
  fun j => if j = d then p1 d + Real.pi / 4 else p1 j

/-- `qsvt_angles` (gqsp_angles.py:573-579). -/
noncomputable def qsvtPhi (d : ℕ) (ph : ℕ → ℝ) : ℕ → ℝ := fun j =>
  if j = d then ph d - Real.pi / 4 else if j = 0 then ph 0 + (2 * (d : ℝ) - 1) * Real.pi / 4 else ph j - Real.pi / 2

/-- `mcx(qubits, args[0], ctrl_state=0)` (qsvt.py:192). -/
def mcxM (n : Type) [DecidableEq n] (z : a) : Matrix ((Bool × a) × n) ((Bool × a) × n) ℂ := fun x y =>
  if x.1.2 = y.1.2 ∧ x.2 = y.2 ∧ x.1.1 = Bool.xor y.1.1 (decide (y.1.2 = z)) then 1 else 0

/-- `reflection(args, phase)` in `QSVT` (qsvt.py:190-193). -/
noncomputable def qsvtRefl (n : Type) [Fintype n] [DecidableEq n] (z : a) (phase : ℝ) : Matrix ((Bool × a) × n) ((Bool × a) × n) ℂ :=
  (mcxM n z)ᴴ * (bit a n (rzM phase) * mcxM n z)

/-- The circuit of `QSVT` (qsvt.py:202-212). -/
noncomputable def qsvtU (z : a) (U : Matrix (a × n) (a × n) ℂ) (d : ℕ) (phi : ℕ → ℝ) : Matrix ((Bool × a) × n) ((Bool × a) × n) ℂ :=
  bit a n hM * (qsvtRefl n z (2 * phi 0)
    * fori 0 d (fun i X => padL Bool (if i % 2 = 0 then U else Uᴴ) * (qsvtRefl n z (2 * phi (d - i)) * X)) (bit a n hM))

/-- `QSVT(A, p, kind, parity, rescale)` (qsvt.py:33-215) for an array of length `L`. -/
noncomputable def BE.qsvt (B : BE n) (L : ℕ) (p : ℕ → ℝ) (kind : PKind) (even rescale : Bool) (M : ℝ) (q : ℕ → ℂ) : BE n :=
  let c := analytic L even (chebCoeffs L B.alpha kind rescale p)
  let d := analyticDeg L even
  let F := nlftSeq d M q (fun k => (c k : ℂ))
  { anc := Bool × B.anc, zero := (false, B.zero), ancs := 1 + B.ancs, U := qsvtU B.zero B.U d (qsvtPhi d (qspPhi d (phiA d F))), alpha := M / 0.99, herm := false }

/-! ### Reflections and walks on an abstract space -/

section
variable {ι : Type} [Fintype ι] [DecidableEq ι] {κ : Type} [Fintype κ] [DecidableEq κ]

/-- exp(i φ R) for a reflection R. -/
noncomputable def eR (R : Matrix ι ι ℂ) (t : ℝ) : Matrix ι ι ℂ := (Real.cos t : ℂ) • 1 + (Complex.I * Real.sin t : ℂ) • R

theorem eR_mul {R : Matrix ι ι ℂ} (hR : R * R = 1) (s t : ℝ) : eR R s * eR R t = eR R (s + t) := by
  simp only [eR, Matrix.add_mul, Matrix.mul_add, Matrix.smul_mul, Matrix.mul_smul, Matrix.one_mul, Matrix.mul_one, hR, smul_smul]
  rw [Real.cos_add, Real.sin_add]
  push_cast
  match_scalars
  · linear_combination (Complex.sin t * Complex.sin s) * Complex.I_mul_I
  · ring

omit [Fintype ι] in
theorem eR_ct {R : Matrix ι ι ℂ} (hR : Rᴴ = R) (t : ℝ) : (eR R t)ᴴ = eR R (-t) := by
  rw [eR, eR, conjTranspose_add, conjTranspose_smul, conjTranspose_smul, conjTranspose_one, hR, Real.cos_neg, Real.sin_neg, star_mul', Complex.star_def, Complex.conj_ofReal, Complex.conj_ofReal, Complex.conj_I]
  push_cast
  simp

theorem eR_unitary {R : Matrix ι ι ℂ} (hR : R * R = 1) (hh : Rᴴ = R) (t : ℝ) : IsU (eR R t) := by
  rw [IsU, eR_ct hh, eR_mul hR, neg_add_cancel, eR]
  simp

omit [Fintype ι] in
theorem eR_add_pi (R : Matrix ι ι ℂ) (t : ℝ) : eR R (t + Real.pi) = (-1 : ℂ) • eR R t := by
  rw [eR, eR, Real.cos_add_pi, Real.sin_add_pi]
  push_cast
  module

omit [Fintype κ] [DecidableEq κ] in
theorem eR_col {R : Matrix ι ι ℂ} {F : Matrix ι κ ℂ} (h : R * F = F) (t : ℝ) : eR R t * F = Complex.exp (Complex.I * t) • F := by
  rw [eR, Matrix.add_mul, Matrix.smul_mul, Matrix.smul_mul, h, Matrix.one_mul, ← add_smul]
  congr 1
  rw [mul_comm Complex.I (t : ℂ), Complex.exp_mul_I, ← Complex.ofReal_cos, ← Complex.ofReal_sin]; ring

omit [Fintype κ] [DecidableEq κ] in
theorem eR_row {R : Matrix ι ι ℂ} {F : Matrix κ ι ℂ} (h : F * R = F) (t : ℝ) : F * eR R t = Complex.exp (Complex.I * t) • F := by
  rw [eR, Matrix.mul_add, Matrix.mul_smul, Matrix.mul_smul, h, Matrix.mul_one, ← add_smul]
  congr 1
  rw [mul_comm Complex.I (t : ℂ), Complex.exp_mul_I, ← Complex.ofReal_cos, ← Complex.ofReal_sin]; ring

omit [Fintype ι] in
theorem eR_half_pi (R : Matrix ι ι ℂ) : eR R (-(Real.pi / 2)) = (-Complex.I) • R := by
  rw [eR, Real.cos_neg, Real.sin_neg, Real.cos_pi_div_two, Real.sin_pi_div_two]
  simp

/-- The walk of a Hermitian unitary and the reflection at the image of an isometry. -/
theorem walk_gen {R K : Matrix ι ι ℂ} {F : Matrix ι κ ℂ} (hR : R = 2 • (F * Fᴴ) - 1) (hF : Fᴴ * F = 1) (hK : K * K = 1) (k : ℕ) :
    Fᴴ * (R * K) ^ k * F = aeval (Fᴴ * K * F) (T ℂ (k : ℤ)) := by
  have rf : R * F = F := by
    rw [hR, Matrix.sub_mul, Matrix.smul_mul, Matrix.mul_assoc, hF, Matrix.mul_one, Matrix.one_mul, two_smul, add_sub_cancel_right]
  have fr : Fᴴ * R = Fᴴ := by
    rw [hR, Matrix.mul_sub, Matrix.mul_smul, ← Matrix.mul_assoc, hF, Matrix.mul_one, Matrix.one_mul, two_smul, add_sub_cancel_right]
  have rr : R * R = 1 := by
    have e : (2 • (F * Fᴴ) - 1) * R = 1 := by
      rw [Matrix.sub_mul, Matrix.smul_mul, Matrix.mul_assoc, fr, Matrix.one_mul, hR]
      abel
    rwa [← hR] at e
  refine (walk_T (V := R * K) (V' := K * R) (F := F) ?_ hF ?_ ?_ k).1
  · rw [Matrix.mul_assoc, ← Matrix.mul_assoc K K, hK, Matrix.one_mul, rr]
  · rw [Matrix.mul_assoc, Matrix.mul_assoc, rf]
    conv_lhs => rw [hR]
    rw [Matrix.sub_mul, Matrix.one_mul, sub_add_cancel, Matrix.smul_mul]
    simp only [Matrix.mul_assoc]
  · rw [← Matrix.mul_assoc, fr]

/-- The sequence of `d` steps and `d + 1` phases of quantum signal processing. -/
noncomputable def seqR (R : Matrix ι ι ℂ) (S : ℕ → Matrix ι ι ℂ) (d : ℕ) (phi : ℕ → ℝ) : Matrix ι ι ℂ :=
  eR R (phi 0) * fori 0 d (fun i X => S i * (eR R (phi (d - i)) * X)) 1

/-- A walk in the form in which the reflection inverts it. -/
noncomputable def walkJ (R K : Matrix ι ι ℂ) : Matrix ι ι ℂ := Complex.I • (eR R (-(Real.pi / 4)) * K * eR R (-(Real.pi / 4)))

theorem walkJ_eq {R : Matrix ι ι ℂ} (hR : R * R = 1) (K : Matrix ι ι ℂ) : walkJ R K = eR R (Real.pi / 4) * (R * K) * eR R (-(Real.pi / 4)) := by
  have e : R = Complex.I • eR R (-(Real.pi / 2)) := by
    rw [eR_half_pi, smul_smul, mul_neg, Complex.I_mul_I, neg_neg, one_smul]
  have e2 : eR R (Real.pi / 4) * R = Complex.I • eR R (-(Real.pi / 4)) := by
    have e3 : eR R (Real.pi / 4) * (Complex.I • eR R (-(Real.pi / 2))) = Complex.I • eR R (-(Real.pi / 4)) := by
      rw [Matrix.mul_smul, eR_mul hR]
      congr 2; ring
    rwa [← e] at e3
  rw [walkJ, ← Matrix.mul_assoc (eR R (Real.pi / 4)), e2, Matrix.smul_mul, Matrix.smul_mul]

theorem walkJ_pow {R : Matrix ι ι ℂ} (hR : R * R = 1) (K : Matrix ι ι ℂ) (k : ℕ) : walkJ R K ^ k = eR R (Real.pi / 4) * (R * K) ^ k * eR R (-(Real.pi / 4)) := by
  have z1 : eR R (Real.pi / 4) * eR R (-(Real.pi / 4)) = 1 := by rw [eR_mul hR, add_neg_cancel, eR]; simp
  have z2 : eR R (-(Real.pi / 4)) * eR R (Real.pi / 4) = 1 := by rw [eR_mul hR, neg_add_cancel, eR]; simp
  induction k with
  | zero => rw [pow_zero, pow_zero, Matrix.mul_one, z1]
  | succ k ih =>
    rw [pow_succ, ih, walkJ_eq hR, pow_succ]
    have : ∀ A B C : Matrix ι ι ℂ, eR R (Real.pi / 4) * A * eR R (-(Real.pi / 4)) * (eR R (Real.pi / 4) * B * C) = eR R (Real.pi / 4) * A * (eR R (-(Real.pi / 4)) * eR R (Real.pi / 4)) * B * C := by
      intro A B C; simp only [Matrix.mul_assoc]
    rw [this, z2, Matrix.mul_one]
    simp only [Matrix.mul_assoc]

theorem walkJ_unitary {R K : Matrix ι ι ℂ} (hR : R * R = 1) (hh : Rᴴ = R) (hK : IsU K) : IsU (walkJ R K) := by
  rw [walkJ_eq hR]
  refine ((eR_unitary hR hh _).mul (IsU.mul ?_ hK)).mul (eR_unitary hR hh _)
  rw [IsU, hh, hR]

theorem walkJ_inv {R K : Matrix ι ι ℂ} (hR : R * R = 1) (hh : Rᴴ = R) (hK : Kᴴ = K) : R * walkJ R K * R = (walkJ R K)ᴴ := by
  have comm : ∀ t, R * eR R t = eR R t * R := by
    intro t; rw [eR, Matrix.mul_add, Matrix.add_mul, Matrix.mul_smul, Matrix.smul_mul, Matrix.mul_smul, Matrix.smul_mul, Matrix.mul_one, Matrix.one_mul]
  rw [walkJ_eq hR, conjTranspose_mul, conjTranspose_mul, conjTranspose_mul, eR_ct hh, eR_ct hh, hh, hK, neg_neg]
  simp only [Matrix.mul_assoc]
  rw [← Matrix.mul_assoc R (eR R (Real.pi / 4)), comm, Matrix.mul_assoc (eR R (Real.pi / 4)) R, ← Matrix.mul_assoc R R, hR, Matrix.one_mul, ← comm]

/-- The sequence with the walk, in terms of GQSP with its square: the average over both signs of the phases is the component with signal ancilla 0. -/
theorem seqR_gqsp {m' : Type} [Fintype m'] [DecidableEq m'] {b : Type} [Fintype b] [DecidableEq b] {R J : Matrix (b × m') (b × m') ℂ} (hR : R * R = 1) (hJ : IsU J)
    (hI : R * J * R = Jᴴ) (d : ℕ) (phi : ℕ → ℝ) :
    (1 / 2 : ℂ) • (seqR R (fun _ => J) d phi + seqR R (fun _ => J) d (fun j => -phi j)) = Jᴴ ^ d * colB (gqsp (J ^ 2) d 0 (fun _ => 0) phi 0) false := by
  have JR : J * R = R * Jᴴ := by rw [← hI, ← Matrix.mul_assoc, ← Matrix.mul_assoc, hR, Matrix.one_mul]
  have rot : ∀ (t : ℝ) (x y : Matrix (b × m') (b × m') ℂ), eR R t * (x + R * y) = ((Real.cos t : ℂ) • x + (Complex.I * Real.sin t : ℂ) • y) + R * ((Complex.I * Real.sin t : ℂ) • x + (Real.cos t : ℂ) • y)
      ∧ eR R (-t) * (x - R * y) = ((Real.cos t : ℂ) • x + (Complex.I * Real.sin t : ℂ) • y) - R * ((Complex.I * Real.sin t : ℂ) • x + (Real.cos t : ℂ) • y) := by
    intro t x y
    constructor
    · rw [eR, Matrix.add_mul, Matrix.smul_mul, Matrix.smul_mul, Matrix.one_mul, Matrix.mul_add, ← Matrix.mul_assoc, hR, Matrix.one_mul, Matrix.mul_add, Matrix.mul_smul, Matrix.mul_smul]
      module
    · rw [eR, Real.cos_neg, Real.sin_neg, Matrix.add_mul, Matrix.smul_mul, Matrix.smul_mul, Matrix.one_mul, Matrix.mul_sub, ← Matrix.mul_assoc, hR, Matrix.one_mul, Matrix.mul_add, Matrix.mul_smul, Matrix.mul_smul]
      push_cast
      module
  have rm : ∀ t : ℝ, rM 0 t false false = Real.cos t ∧ rM 0 t false true = Complex.I * Real.sin t ∧ rM 0 t true false = Complex.I * Real.sin t ∧ rM 0 t true true = Real.cos t := by
    intro t
    obtain ⟨r1, r2, r3, r4⟩ := rM_apply 0 t
    rw [r1, r2, r3, r4]; simp
  have loop : ∀ m ≤ d, ∃ x y : Matrix (b × m') (b × m') ℂ,
      colB (fori 0 m (fun i M => ctl false (J ^ 2) * (bit b m' (rM 0 (phi (d - i))) * M)) 1) false = J ^ m * x
      ∧ colB (fori 0 m (fun i M => ctl false (J ^ 2) * (bit b m' (rM 0 (phi (d - i))) * M)) 1) true = J ^ m * y
      ∧ fori 0 m (fun i X => J * (eR R (phi (d - i)) * X)) 1 = x + R * y
      ∧ fori 0 m (fun i X => J * (eR R (-phi (d - i)) * X)) 1 = x - R * y := by
    intro m hm
    induction m with
    | zero =>
      refine ⟨1, 0, ?_, ?_, ?_, ?_⟩
      · rw [fori_self, colB_one]; simp
      · rw [fori_self, colB_one]; simp
      · rw [fori_self]; simp
      · rw [fori_self]; simp
    | succ m ih =>
      obtain ⟨x, y, h1, h2, h3, h4⟩ := ih (by omega)
      obtain ⟨r1, r2, r3, r4⟩ := rm (phi (d - m))
      refine ⟨J * ((Real.cos (phi (d - m)) : ℂ) • x + (Complex.I * Real.sin (phi (d - m)) : ℂ) • y), Jᴴ * ((Complex.I * Real.sin (phi (d - m)) : ℂ) • x + (Real.cos (phi (d - m)) : ℂ) • y), ?_, ?_, ?_, ?_⟩
      · rw [fori_succ (Nat.zero_le m), colB_ctl, if_pos rfl, colB_bit, h1, h2, r1, r2, ← Matrix.mul_smul, ← Matrix.mul_smul, ← Matrix.mul_add, ← Matrix.mul_assoc, ← Matrix.mul_assoc,
          ← pow_add, ← pow_succ]
        congr 2; ring
      · rw [fori_succ (Nat.zero_le m), colB_ctl, if_neg (by simp), colB_bit, h1, h2, r3, r4, ← Matrix.mul_smul, ← Matrix.mul_smul, ← Matrix.mul_add, ← Matrix.mul_assoc, pow_succ,
          Matrix.mul_assoc (J ^ m), hJ.right, Matrix.mul_one]
      · rw [fori_succ (Nat.zero_le m), h3, (rot _ x y).1, Matrix.mul_add, ← Matrix.mul_assoc J R, JR, Matrix.mul_assoc]
      · rw [fori_succ (Nat.zero_le m), h4, (rot _ x y).2, Matrix.mul_sub, ← Matrix.mul_assoc J R, JR, Matrix.mul_assoc]
  obtain ⟨x, y, h1, h2, h3, h4⟩ := loop d le_rfl
  obtain ⟨r1, r2, r3, r4⟩ := rm (phi 0)
  have pw : Jᴴ ^ d * J ^ d = 1 := by
    rw [← conjTranspose_pow]
    have : ∀ k, IsU (J ^ k) := by
      intro k
      induction k with
      | zero => rw [pow_zero]; exact IsU.one
      | succ k ih => rw [pow_succ]; exact ih.mul hJ
    exact this d
  rw [seqR, seqR, h3, h4, (rot _ x y).1, (rot _ x y).2, gqsp]
  simp only [fori_self, Nat.sub_zero, Nat.sub_self]
  rw [rz_zero, bit_one, Matrix.one_mul, colB_bit, h1, h2, r1, r2, ← Matrix.mul_smul, ← Matrix.mul_smul, ← Matrix.mul_add, ← Matrix.mul_assoc, pw, Matrix.one_mul]
  module

/-- The same sequence with the Hermitian unitary instead of the walk, with shifted phases. -/
theorem seqR_shift {R : Matrix ι ι ℂ} (hR : R * R = 1) (K : Matrix ι ι ℂ) {d : ℕ} (hd : 1 ≤ d) {phi psi : ℕ → ℝ} {c : ℂ}
    (h1 : ∀ j, 1 ≤ j → j < d → eR R (psi j) = c • eR R (phi j - Real.pi / 2)) (h2 : psi d = phi d) (hc : c * c = 1) :
    fori 0 d (fun i X => walkJ R K * (eR R (phi (d - i)) * X)) 1
      = (Complex.I ^ d * c ^ (d - 1)) • (eR R (-(Real.pi / 4)) * fori 0 d (fun i X => K * (eR R (psi (d - i)) * X)) 1 * eR R (-(Real.pi / 4))) := by
  have comm : ∀ s t, eR R s * eR R t = eR R t * eR R s := by
    intro s t; rw [eR_mul hR, eR_mul hR, add_comm]
  have loop : ∀ m, m + 1 ≤ d → fori 0 (m + 1) (fun i X => walkJ R K * (eR R (phi (d - i)) * X)) 1
      = (Complex.I ^ (m + 1) * c ^ m) • (eR R (-(Real.pi / 4)) * fori 0 (m + 1) (fun i X => K * (eR R (psi (d - i)) * X)) 1 * eR R (-(Real.pi / 4))) := by
    intro m hm
    induction m with
    | zero =>
      rw [fori_succ le_rfl, fori_succ le_rfl, fori_self, fori_self, Nat.sub_zero, h2, walkJ, Matrix.mul_one, Matrix.smul_mul, pow_zero, mul_one, zero_add, pow_one]
      congr 1
      rw [Matrix.mul_assoc, Matrix.mul_assoc, comm (-(Real.pi / 4)) (phi d)]
      simp only [Matrix.mul_assoc]
    | succ m ih =>
      rw [fori_succ (Nat.zero_le (m + 1)), ih (by omega), fori_succ (Nat.zero_le (m + 1)) (fun i X => K * (eR R (psi (d - i)) * X)), h1 (d - (m + 1)) (by omega) (by omega)]
      generalize fori 0 (m + 1) (fun i X => K * (eR R (psi (d - i)) * X)) 1 = Y
      generalize phi (d - (m + 1)) = t
      have e : eR R (-(Real.pi / 4)) * (eR R t * eR R (-(Real.pi / 4))) = eR R (t - Real.pi / 2) := by
        rw [eR_mul hR, eR_mul hR]; congr 1; ring
      have key : walkJ R K * (eR R t * (eR R (-(Real.pi / 4)) * Y * eR R (-(Real.pi / 4))))
          = Complex.I • (eR R (-(Real.pi / 4)) * (K * (eR R (t - Real.pi / 2) * Y)) * eR R (-(Real.pi / 4))) := by
        rw [walkJ, Matrix.smul_mul, ← e]
        simp only [Matrix.mul_assoc]
      rw [Matrix.mul_smul, Matrix.mul_smul, key, Matrix.smul_mul, Matrix.mul_smul, Matrix.mul_smul, Matrix.smul_mul, smul_smul, smul_smul]
      congr 1
      rw [pow_succ Complex.I (m + 1), pow_succ c m]
      linear_combination (-(Complex.I ^ (m + 1) * Complex.I * c ^ m)) * hc
  obtain ⟨m, rfl⟩ : ∃ m, d = m + 1 := ⟨d - 1, by omega⟩
  exact loop m le_rfl

/-- The block of the sequence of QSVT is that of the sequence with the walk; for both signs. -/
theorem seqR_block {R : Matrix ι ι ℂ} (hR : R * R = 1) (K : Matrix ι ι ℂ) {F : Matrix ι κ ℂ} (hRF : R * F = F) (hFR : Fᴴ * R = Fᴴ) {d : ℕ} (hd : 1 ≤ d) (phi : ℕ → ℝ) :
    Fᴴ * seqR R (fun _ => K) d (qsvtPhi d (qspPhi d phi)) * F = Fᴴ * seqR R (fun _ => walkJ R K) d phi * F
      ∧ Fᴴ * seqR R (fun _ => K) d (fun j => -qsvtPhi d (qspPhi d phi) j) * F = Fᴴ * seqR R (fun _ => walkJ R K) d (fun j => -phi j) * F := by
  have q0 : qsvtPhi d (qspPhi d phi) 0 = phi 0 - Real.pi / 2 + d * (Real.pi / 2) := by
    simp only [qsvtPhi, qspPhi]
    rw [if_neg (by omega), if_pos trivial, if_neg (by omega), if_pos trivial]; ring
  have qd : qsvtPhi d (qspPhi d phi) d = phi d := by
    simp only [qsvtPhi, qspPhi, if_true]
    rw [if_neg (by omega)]; ring
  have qj : ∀ j, 1 ≤ j → j < d → qsvtPhi d (qspPhi d phi) j = phi j - Real.pi / 2 := by
    intro j h1 h2
    simp only [qsvtPhi, qspPhi]
    rw [if_neg (by omega), if_neg (by omega), if_neg (by omega), if_neg (by omega)]
  have eI : ∀ k : ℕ, Complex.exp (Complex.I * ((k : ℝ) * (Real.pi / 2) : ℝ)) = Complex.I ^ k := by
    intro k
    rw [show Complex.I * (((k : ℝ) * (Real.pi / 2) : ℝ) : ℂ) = (k : ℕ) * (Real.pi / 2 * Complex.I) by push_cast; ring, Complex.exp_nat_mul, Complex.exp_pi_div_two_mul_I]
  constructor
  · rw [seqR, seqR, seqR_shift hR K hd (psi := qsvtPhi d (qspPhi d phi)) (c := 1) (fun j h1 h2 => by rw [qj j h1 h2, one_smul]) qd (one_mul 1)]
    generalize fori 0 d (fun i X => K * (eR R (qsvtPhi d (qspPhi d phi) (d - i)) * X)) 1 = Y
    have l : Fᴴ * (eR R (qsvtPhi d (qspPhi d phi) 0) * Y) * F = Complex.exp (Complex.I * (qsvtPhi d (qspPhi d phi) 0 : ℝ)) • (Fᴴ * Y * F) := by
      rw [← Matrix.mul_assoc, eR_row hFR, Matrix.smul_mul, Matrix.smul_mul]
    have r : Fᴴ * (eR R (phi 0) * (eR R (-(Real.pi / 4)) * Y * eR R (-(Real.pi / 4)))) * F
        = (Complex.exp (Complex.I * (phi 0 : ℝ)) * Complex.exp (Complex.I * (-(Real.pi / 4) : ℝ)) * Complex.exp (Complex.I * (-(Real.pi / 4) : ℝ))) • (Fᴴ * Y * F) := by
      have : Fᴴ * (eR R (phi 0) * (eR R (-(Real.pi / 4)) * Y * eR R (-(Real.pi / 4)))) * F = ((Fᴴ * eR R (phi 0)) * eR R (-(Real.pi / 4))) * Y * (eR R (-(Real.pi / 4)) * F) := by
        simp only [Matrix.mul_assoc]
      rw [this, eR_row hFR, Matrix.smul_mul, eR_row hFR, eR_col hRF, Matrix.mul_smul, Matrix.smul_mul, Matrix.smul_mul, Matrix.smul_mul, Matrix.smul_mul, smul_smul, smul_smul]
      congr 1; ring
    rw [l, Matrix.mul_smul, Matrix.mul_smul, Matrix.smul_mul, r, smul_smul, q0]
    congr 1
    rw [one_pow, mul_one, ← eI d, ← Complex.exp_add, ← Complex.exp_add, ← Complex.exp_add]
    congr 1
    push_cast; ring
  · rw [seqR, seqR, seqR_shift hR K hd (phi := fun j => -phi j) (psi := fun j => -qsvtPhi d (qspPhi d phi) j) (c := -1) (fun j h1 h2 => by
      rw [qj j h1 h2, ← eR_add_pi]; congr 1; ring) (by rw [qd]) (by ring)]
    generalize fori 0 d (fun i X => K * (eR R (-qsvtPhi d (qspPhi d phi) (d - i)) * X)) 1 = Y
    have l : Fᴴ * (eR R (-qsvtPhi d (qspPhi d phi) 0) * Y) * F = Complex.exp (Complex.I * (-qsvtPhi d (qspPhi d phi) 0 : ℝ)) • (Fᴴ * Y * F) := by
      rw [← Matrix.mul_assoc, eR_row hFR, Matrix.smul_mul, Matrix.smul_mul]
    have r : Fᴴ * (eR R (-phi 0) * (eR R (-(Real.pi / 4)) * Y * eR R (-(Real.pi / 4)))) * F
        = (Complex.exp (Complex.I * (-phi 0 : ℝ)) * Complex.exp (Complex.I * (-(Real.pi / 4) : ℝ)) * Complex.exp (Complex.I * (-(Real.pi / 4) : ℝ))) • (Fᴴ * Y * F) := by
      have : Fᴴ * (eR R (-phi 0) * (eR R (-(Real.pi / 4)) * Y * eR R (-(Real.pi / 4)))) * F = ((Fᴴ * eR R (-phi 0)) * eR R (-(Real.pi / 4))) * Y * (eR R (-(Real.pi / 4)) * F) := by
        simp only [Matrix.mul_assoc]
      rw [this, eR_row hFR, Matrix.smul_mul, eR_row hFR, eR_col hRF, Matrix.mul_smul, Matrix.smul_mul, Matrix.smul_mul, Matrix.smul_mul, Matrix.smul_mul, smul_smul, smul_smul]
      congr 1; ring
    rw [l, Matrix.mul_smul, Matrix.mul_smul, Matrix.smul_mul, r, smul_smul, q0]
    congr 1
    have m1 : ((-1 : ℂ)) ^ (d - 1) = Complex.exp (Complex.I * ((((d - 1 : ℕ) : ℝ) * Real.pi : ℝ))) := by
      rw [show Complex.I * ((((d - 1 : ℕ) : ℝ) * Real.pi : ℝ) : ℂ) = ((d - 1 : ℕ)) * (Real.pi * Complex.I) by push_cast; ring, Complex.exp_nat_mul, Complex.exp_pi_mul_I]
    rw [m1, ← eI d, ← Complex.exp_add, ← Complex.exp_add, ← Complex.exp_add, ← Complex.exp_add, Nat.cast_sub hd, Complex.exp_eq_exp_iff_exists_int]
    refine ⟨1 - d, ?_⟩
    push_cast
    ring

end
end Verif.Blk
