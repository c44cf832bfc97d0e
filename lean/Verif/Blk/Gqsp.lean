import Verif.Blk.Nlft
import Verif.Blk.Basic
import Verif.Loop

/-!
The circuit of generalized quantum signal processing (algorithms/gqsp/gqsp.py).
-/

namespace Verif.Blk

open Matrix
open scoped ComplexConjugate

variable {n a : Type} [Fintype n] [DecidableEq n] [Fintype a] [DecidableEq a]

/-- `rz(t)` (circuit/standard_operations.py: RZGate): diag(e^(-it/2), e^(it/2)). -/
noncomputable def rzM (t : ℝ) : Matrix Bool Bool ℂ := fun x y =>
  if x = y then (if x then Complex.exp (Complex.I * t / 2) else Complex.exp (-Complex.I * t / 2)) else 0

/-- `rx(t)` (circuit/standard_operations.py: RXGate). -/
noncomputable def rxM (t : ℝ) : Matrix Bool Bool ℂ := fun x y =>
  if x = y then (Real.cos (t / 2) : ℂ) else -Complex.I * (Real.sin (t / 2) : ℂ)

/-- `R(theta, phi, qubit)` (gqsp.py:218-220). -/
noncomputable def rM (theta phi : ℝ) : Matrix Bool Bool ℂ := rxM (-2 * phi) * rzM (-2 * theta)

/-- `GQSP` (gqsp.py:210-237) for angles of length d + 1 (before the reversal of lines 222-223) and 0 <= k <= d. -/
noncomputable def gqsp (U : Matrix (a × n) (a × n) ℂ) (d k : ℕ) (theta phi : ℕ → ℝ) (lam : ℝ) : Matrix ((Bool × a) × n) ((Bool × a) × n) ℂ :=
  let th : ℕ → ℝ := fun i => theta (d - i)
  let ph : ℕ → ℝ := fun i => phi (d - i)
  let M1 := fori 0 (d - k) (fun i M => ctl false U * (bit a n (rM (th i) (ph i)) * M)) 1
  let M2 := fori 0 k (fun i M => ctl true Uᴴ * (bit a n (rM (th (d - k + i)) (ph (d - k + i))) * M)) M1
  bit a n (rzM (-2 * lam)) * (bit a n (rM (th d) (ph d)) * M2)

/-- The block of a matrix from the value 0 to the value `q` of the first ancilla. -/
def colB (M : Matrix ((Bool × a) × n) ((Bool × a) × n) ℂ) (q : Bool) : Matrix (a × n) (a × n) ℂ := fun x y => M ((q, x.1), x.2) ((false, y.1), y.2)

theorem colB_bit (G : Matrix Bool Bool ℂ) (M : Matrix ((Bool × a) × n) ((Bool × a) × n) ℂ) (q : Bool) :
    colB (bit a n G * M) q = G q false • colB M false + G q true • colB M true := by
  ext x y
  simp only [colB, bit_mul_apply, Fintype.sum_bool, Matrix.add_apply, Matrix.smul_apply, smul_eq_mul]
  rw [add_comm]

theorem colB_sel (F : Bool → Matrix (a × n) (a × n) ℂ) (M : Matrix ((Bool × a) × n) ((Bool × a) × n) ℂ) (q : Bool) :
    colB (sel F * M) q = F q * colB M q := by
  ext x y
  simp only [colB, mul_apply, sel, Fintype.sum_prod_type]
  rw [Finset.sum_eq_single q]
  · simp
  · intro p _ hp; simp [Ne.symm hp]
  · simp

theorem colB_ctl (c : Bool) (V : Matrix (a × n) (a × n) ℂ) (M : Matrix ((Bool × a) × n) ((Bool × a) × n) ℂ) (q : Bool) :
    colB (ctl c V * M) q = if q = c then V * colB M q else colB M q := by
  rw [ctl_eq, colB_sel]
  split <;> simp

theorem colB_one (q : Bool) : colB (1 : Matrix ((Bool × a) × n) ((Bool × a) × n) ℂ) q = if q then 0 else 1 := by
  ext ⟨x, i⟩ ⟨y, j⟩
  cases q <;> simp [colB, Matrix.one_apply]

theorem rM_apply (t p : ℝ) : rM t p false false = Real.cos p * Complex.exp (Complex.I * t) ∧ rM t p false true = Complex.I * Real.sin p * Complex.exp (-Complex.I * t)
    ∧ rM t p true false = Complex.I * Real.sin p * Complex.exp (Complex.I * t) ∧ rM t p true true = Real.cos p * Complex.exp (-Complex.I * t) := by
  have e1 : Complex.I * ((-2 * t : ℝ) : ℂ) / 2 = -Complex.I * t := by push_cast; ring
  have e2 : -Complex.I * ((-2 * t : ℝ) : ℂ) / 2 = Complex.I * t := by push_cast; ring
  have c : Real.cos (-2 * p / 2) = Real.cos p := by rw [show -2 * p / 2 = -p by ring, Real.cos_neg]
  have s : Real.sin (-2 * p / 2) = -Real.sin p := by rw [show -2 * p / 2 = -p by ring, Real.sin_neg]
  simp only [rM, mul_apply, Fintype.sum_bool, rxM, rzM, c, s, e1, e2]
  push_cast
  simp

theorem rM_unitary (t p : ℝ) : IsU (rM t p) := by
  have sc : ((Real.sin p : ℝ) : ℂ) * Real.sin p + ((Real.cos p : ℝ) : ℂ) * Real.cos p = 1 := by
    rw [← Complex.ofReal_mul, ← Complex.ofReal_mul, ← Complex.ofReal_add]
    rw [show Real.sin p * Real.sin p + Real.cos p * Real.cos p = 1 by have := Real.sin_sq_add_cos_sq p; nlinarith]; simp
  have ee : Complex.exp (Complex.I * t) * Complex.exp (-Complex.I * t) = 1 := by
    rw [← Complex.exp_add]; simp
  have ce : conj (Complex.exp (Complex.I * t)) = Complex.exp (-Complex.I * t) := by
    rw [← Complex.exp_conj, map_mul, Complex.conj_I, Complex.conj_ofReal]
  have ce' : conj (Complex.exp (-Complex.I * t)) = Complex.exp (Complex.I * t) := by
    rw [← Complex.exp_conj, map_mul, map_neg, Complex.conj_I, Complex.conj_ofReal, neg_neg]
  obtain ⟨h1, h2, h3, h4⟩ := rM_apply t p
  rw [IsU]
  ext x y
  rw [mul_apply, Fintype.sum_bool]
  simp only [conjTranspose_apply, Complex.star_def]
  cases x <;> cases y <;> simp only [h1, h2, h3, h4, map_mul, Complex.conj_I, Complex.conj_ofReal, ce, ce', Matrix.one_apply, if_true, reduceCtorEq, if_false]
  · linear_combination (Complex.exp (Complex.I * t) * Complex.exp (-Complex.I * t)) * sc + ee
      - (Complex.exp (Complex.I * t) * Complex.exp (-Complex.I * t) * Real.sin p * Real.sin p) * Complex.I_mul_I
  · ring
  · ring
  · linear_combination (Complex.exp (Complex.I * t) * Complex.exp (-Complex.I * t)) * sc + ee
      - (Complex.exp (Complex.I * t) * Complex.exp (-Complex.I * t) * Real.sin p * Real.sin p) * Complex.I_mul_I

theorem rzM_unitary (t : ℝ) : IsU (rzM t) := by
  have h : rzM t = rM (-t / 2) 0 := by
    obtain ⟨h1, h2, h3, h4⟩ := rM_apply (-t / 2) 0
    ext x y
    cases x <;> cases y <;> simp only [h1, h2, h3, h4] <;> simp [rzM] <;> congr 1 <;> ring
  rw [h]; exact rM_unitary _ _

/-- The circuit is unitary. -/
theorem gqsp_unitary {U : Matrix (a × n) (a × n) ℂ} (hU : IsU U) (d k : ℕ) (theta phi : ℕ → ℝ) (lam : ℝ) : IsU (gqsp U d k theta phi lam) := by
  rw [gqsp]
  refine (rzM_unitary _).bit.mul ((rM_unitary _ _).bit.mul ?_)
  refine fori_inv (P := fun _ M => IsU M) (Nat.zero_le _) _ _ ?_ ?_
  · refine fori_inv (P := fun _ M => IsU M) (Nat.zero_le _) _ _ IsU.one ?_
    intro i M _ _ h
    exact (IsU.ctl _ hU).mul ((rM_unitary _ _).bit.mul h)
  · intro i M _ _ h
    exact (IsU.ctl _ hU.ct).mul ((rM_unitary _ _).bit.mul h)

section
variable {d : ℕ} {s : (ℕ → ℂ) × (ℕ → ℂ)}

/-- One layer: if the two components before the rotation are those of the stripped state, with U applied to the first one, then those after it are
those of the state. -/
theorem layer_core {j : ℕ} (h0 : ((strip d)^[j] s).1 0 ≠ 0) (hs : Sharp (layers d s j)) (U V x0 x1 : Matrix (a × n) (a × n) ℂ) (p : ℝ)
    (hx0 : x0 = (Complex.I * Complex.exp (-Complex.I * p)) • (V * (U * ev d ((strip d)^[j + 1] s).2 U)))
    (hx1 : x1 = (Complex.I * Complex.exp (Complex.I * p)) • (V * ev d ((strip d)^[j + 1] s).1 U)) :
    rM (p - psi (layers d s j)) (phi (layers d s j)) false false • x0 + rM (p - psi (layers d s j)) (phi (layers d s j)) false true • x1
        = (Complex.I * Complex.exp (-Complex.I * psi (layers d s j))) • (V * ev d ((strip d)^[j] s).2 U)
      ∧ rM (p - psi (layers d s j)) (phi (layers d s j)) true false • x0 + rM (p - psi (layers d s j)) (phi (layers d s j)) true true • x1
        = (Complex.I * Complex.exp (Complex.I * psi (layers d s j))) • (V * ev d ((strip d)^[j] s).1 U) := by
  obtain ⟨u2, u1⟩ := ev_unstrip d h0 U
  rw [u2, u1, hx0, hx1]
  rw [Function.iterate_succ', Function.comp_apply]
  have hF : layers d s j = stripF ((strip d)^[j] s) := rfl
  obtain ⟨c, sn⟩ := phi_trig hs
  rw [← hF]
  have hr : (stripR ((strip d)^[j] s) : ℂ)⁻¹ = ((Real.sqrt (1 + ‖layers d s j‖ ^ 2))⁻¹ : ℝ) := by rw [stripR, hF]; push_cast; rfl
  rw [hr]
  obtain ⟨h1, h2, h3, h4⟩ := rM_apply (p - psi (layers d s j)) (phi (layers d s j))
  rw [h1, h2, h3, h4, c]
  generalize layers d s j = F at *
  generalize ((Real.sqrt (1 + ‖F‖ ^ 2))⁻¹ : ℝ) = r at *
  generalize U * ev d (strip d ((strip d)^[j] s)).2 U = B
  generalize ev d (strip d ((strip d)^[j] s)).1 U = A
  have ep : ∀ x y : ℂ, Complex.exp x * Complex.exp y = Complex.exp (x + y) := fun x y => (Complex.exp_add x y).symm
  have sn' : -Complex.I * Complex.exp (-2 * Complex.I * psi F) * Real.sin (phi F) = r * conj F := by
    have := congrArg conj sn
    simp only [map_mul, Complex.conj_I, Complex.conj_ofReal, ← Complex.exp_conj, map_ofNat] at this
    rw [← this]
    ring_nf
  have k1 : Complex.exp (Complex.I * ((p - psi F : ℝ) : ℂ)) * Complex.exp (-Complex.I * p) = Complex.exp (-Complex.I * psi F) := by
    rw [ep]; congr 1; push_cast; ring
  have k2 : Complex.exp (-Complex.I * ((p - psi F : ℝ) : ℂ)) * Complex.exp (Complex.I * p) = Complex.exp (Complex.I * psi F) := by
    rw [ep]; congr 1; push_cast; ring
  have k3 : Complex.exp (-Complex.I * psi F) * Complex.exp (2 * Complex.I * psi F) = Complex.exp (Complex.I * psi F) := by
    rw [ep]; congr 1; ring
  have k4 : Complex.exp (Complex.I * psi F) * Complex.exp (-2 * Complex.I * psi F) = Complex.exp (-Complex.I * psi F) := by
    rw [ep]; congr 1; ring
  simp only [Matrix.mul_smul, Matrix.mul_add, Matrix.mul_sub, smul_add, smul_sub, smul_smul]
  constructor
  · rw [add_comm]
    congr 1
    · congr 1
      linear_combination (Complex.I * Real.sin (phi F) * Complex.I) * k2 - (Complex.I * Complex.I * Real.sin (phi F)) * k3 + (Complex.I * Complex.exp (-Complex.I * psi F)) * sn
    · congr 1
      linear_combination (r * Complex.I) * k1
  · have key : ∀ x y : Matrix (a × n) (a × n) ℂ, x - y = x + -y := fun x y => sub_eq_add_neg x y
    rw [key, ← neg_smul, add_comm]
    congr 1
    · congr 1
      linear_combination (r * Complex.I) * k2
    · congr 1
      linear_combination (Complex.I * Real.sin (phi F) * Complex.I) * k1 - (Complex.I * Complex.I * Real.sin (phi F)) * k4 - (Complex.I * Complex.exp (Complex.I * psi F)) * sn'

/-- The two components after the rotation of layer `j`. -/
def Comp (d : ℕ) (s : (ℕ → ℂ) × (ℕ → ℂ)) (U V : Matrix (a × n) (a × n) ℂ) (j : ℕ) (M : Matrix ((Bool × a) × n) ((Bool × a) × n) ℂ) : Prop :=
  colB M false = (Complex.I * Complex.exp (-Complex.I * psi (layers d s j))) • (V * ev d ((strip d)^[j] s).2 U)
    ∧ colB M true = (Complex.I * Complex.exp (Complex.I * psi (layers d s j))) • (V * ev d ((strip d)^[j] s).1 U)

theorem comp_step (h : LInv d d s) {j : ℕ} (hj : j < d) (hs : Sharp (layers d s j)) {U W : Matrix (a × n) (a × n) ℂ} {N : Matrix ((Bool × a) × n) ((Bool × a) × n) ℂ}
    (c0 : colB N false = (Complex.I * Complex.exp (-Complex.I * psi (layers d s (j + 1)))) • (W * (U * ev d ((strip d)^[j + 1] s).2 U)))
    (c1 : colB N true = (Complex.I * Complex.exp (Complex.I * psi (layers d s (j + 1)))) • (W * ev d ((strip d)^[j + 1] s).1 U)) :
    Comp d s U W j (bit a n (rM (thetaA d (layers d s) j) (phiA d (layers d s) j)) * N) := by
  have h0 := (strip_iter h j hj.le).ne
  have ht : thetaA d (layers d s) j = psi (layers d s (j + 1)) - psi (layers d s j) := by
    rw [thetaA, if_neg (by omega), thetaRaw, if_pos (by omega)]
  have hp : phiA d (layers d s) j = phi (layers d s j) := by rw [phiA, if_neg (by omega)]
  obtain ⟨r0, r1⟩ := layer_core h0 hs U W _ _ _ c0 c1
  rw [Comp, colB_bit, colB_bit, ht, hp]
  exact ⟨r0, r1⟩

theorem comp_first (h : LInv d d s) (hs : Sharp (layers d s d)) (U : Matrix (a × n) (a × n) ℂ) :
    Comp d s U 1 d (bit a n (rM (thetaA d (layers d s) d) (phiA d (layers d s) d)) * 1) := by
  have hi := strip_iter h d le_rfl
  rw [Nat.sub_self] at hi
  have h0 := hi.ne
  obtain ⟨l1, l2⟩ := strip_last hi U
  have ht : thetaA d (layers d s) d = psi (layers d s d) := by
    rw [thetaA, if_pos rfl, thetaRaw, if_neg (by omega)]; ring
  have hp : phiA d (layers d s) d = phi (layers d s d) + Real.pi / 2 := by rw [phiA, if_pos rfl]
  obtain ⟨u2, u1⟩ := ev_unstrip d h0 U
  rw [l1, l2, Matrix.mul_zero, add_zero] at u2
  rw [l1, l2, Matrix.mul_zero, smul_zero, sub_zero] at u1
  obtain ⟨c, sn⟩ := phi_trig hs
  have hF : layers d s d = stripF ((strip d)^[d] s) := rfl
  have hr : (stripR ((strip d)^[d] s) : ℂ)⁻¹ = ((Real.sqrt (1 + ‖layers d s d‖ ^ 2))⁻¹ : ℝ) := by rw [stripR, hF]; push_cast; rfl
  rw [Comp, colB_bit, colB_bit, ht, hp, u2, u1, hr, ← hF, colB_one, colB_one]
  obtain ⟨h1, h2, h3, h4⟩ := rM_apply (psi (layers d s d)) (phi (layers d s d) + Real.pi / 2)
  rw [h1, h2, h3, h4, Real.cos_add_pi_div_two, Real.sin_add_pi_div_two, c]
  generalize layers d s d = F at *
  generalize ((Real.sqrt (1 + ‖F‖ ^ 2))⁻¹ : ℝ) = r at *
  have k3 : Complex.exp (-Complex.I * psi F) * Complex.exp (2 * Complex.I * psi F) = Complex.exp (Complex.I * psi F) := by
    rw [← Complex.exp_add]; congr 1; ring
  simp only [Bool.false_eq_true, if_false, if_true, smul_zero, add_zero, Matrix.mul_smul, Matrix.one_mul, smul_smul]
  constructor
  · congr 1
    push_cast
    push_cast at sn
    linear_combination (Complex.I * Complex.exp (-Complex.I * psi F)) * sn - (Complex.I * Complex.I * Complex.sin (phi F)) * k3
      - (Complex.sin (phi F) * Complex.exp (Complex.I * psi F)) * Complex.I_mul_I
  · congr 1
    ring

/-- The circuit applies the polynomials of the initial state of layer stripping to the unitary. -/
theorem gqsp_col (h : LInv d d s) (hs : ∀ j ≤ d, Sharp (layers d s j)) {U : Matrix (a × n) (a × n) ℂ} (hU : IsU U) {k : ℕ} (hk : k ≤ d) :
    colB (gqsp U d k (thetaA d (layers d s)) (phiA d (layers d s)) (lambdaA (layers d s))) false = Complex.I • (Uᴴ ^ k * ev d s.2 U)
      ∧ colB (gqsp U d k (thetaA d (layers d s)) (phiA d (layers d s)) (lambdaA (layers d s))) true = Complex.I • (Uᴴ ^ k * ev d s.1 U) := by
  set F := layers d s with hF
  set M1 := fori 0 (d - k) (fun i M => ctl false U * (bit a n (rM (thetaA d F (d - i)) (phiA d F (d - i))) * M)) 1 with hM1
  set M2 := fori 0 k (fun i M => ctl true Uᴴ * (bit a n (rM (thetaA d F (d - (d - k + i))) (phiA d F (d - (d - k + i)))) * M)) M1 with hM2
  have i1 : Comp d s U 1 k (bit a n (rM (thetaA d F k) (phiA d F k)) * M1) := by
    have := fori_inv (P := fun i M => Comp d s U 1 (d - i) (bit a n (rM (thetaA d F (d - i)) (phiA d F (d - i))) * M)) (Nat.zero_le (d - k))
      (fun i M => ctl false U * (bit a n (rM (thetaA d F (d - i)) (phiA d F (d - i))) * M)) 1 (by
        simpa using comp_first h (hs d le_rfl) U) (by
        intro i M _ hi hc
        have hj : d - i = d - (i + 1) + 1 := by omega
        rw [Comp, hj] at hc
        refine comp_step h (by omega) (hs _ (by omega)) ?_ ?_
        · rw [colB_ctl, if_pos rfl, hj, hc.1]
          simp only [Matrix.one_mul, Matrix.mul_smul]
        · rw [colB_ctl, if_neg (by simp), hj, hc.2])
    rw [show d - (d - k) = k by omega] at this
    exact this
  have i2 : Comp d s U (Uᴴ ^ k) 0 (bit a n (rM (thetaA d F 0) (phiA d F 0)) * M2) := by
    have := fori_inv (P := fun i M => Comp d s U (Uᴴ ^ i) (k - i) (bit a n (rM (thetaA d F (k - i)) (phiA d F (k - i))) * M)) (Nat.zero_le k)
      (fun i M => ctl true Uᴴ * (bit a n (rM (thetaA d F (d - (d - k + i))) (phiA d F (d - (d - k + i)))) * M)) M1 (by
        simpa using i1) (by
        intro i M _ hi hc
        have hj : k - i = k - (i + 1) + 1 := by omega
        have hd : d - (d - k + i) = k - i := by omega
        rw [Comp, hj] at hc
        have comm : Uᴴ ^ (i + 1) * U = Uᴴ ^ i := by rw [pow_succ, Matrix.mul_assoc, hU, Matrix.mul_one]
        refine comp_step h (by omega) (hs _ (by omega)) (W := Uᴴ ^ (i + 1)) ?_ ?_
        · rw [colB_ctl, if_neg (by simp), hd, hj, hc.1, ← Matrix.mul_assoc (Uᴴ ^ (i + 1)), comm]
        · rw [colB_ctl, if_pos rfl, hd, hj, hc.2, Matrix.mul_smul, ← Matrix.mul_assoc, ← pow_succ'])
    rw [Nat.sub_self] at this
    exact this
  have g : gqsp U d k (thetaA d F) (phiA d F) (lambdaA F) = bit a n (rzM (-2 * lambdaA F)) * (bit a n (rM (thetaA d F 0) (phiA d F 0)) * M2) := by
    rw [gqsp, hM2, hM1]
    simp only [Nat.sub_self]
  have z0 : Complex.exp (-Complex.I * ((-2 * lambdaA F : ℝ) : ℂ) / 2) * (Complex.I * Complex.exp (-Complex.I * psi (F 0))) = Complex.I := by
    rw [mul_left_comm, ← Complex.exp_add, lambdaA]
    rw [show -Complex.I * ((-2 * psi (F 0) : ℝ) : ℂ) / 2 + -Complex.I * psi (F 0) = 0 by push_cast; ring, Complex.exp_zero, mul_one]
  have z1 : Complex.exp (Complex.I * ((-2 * lambdaA F : ℝ) : ℂ) / 2) * (Complex.I * Complex.exp (Complex.I * psi (F 0))) = Complex.I := by
    rw [mul_left_comm, ← Complex.exp_add, lambdaA]
    rw [show Complex.I * ((-2 * psi (F 0) : ℝ) : ℂ) / 2 + Complex.I * psi (F 0) = 0 by push_cast; ring, Complex.exp_zero, mul_one]
  obtain ⟨f0, f1⟩ := i2
  rw [← hF] at f0 f1
  generalize bit a n (rM (thetaA d F 0) (phiA d F 0)) * M2 = M3 at g f0 f1
  rw [g, colB_bit, colB_bit, f0, f1]
  simp only [rzM, if_true, reduceCtorEq, if_false, Bool.false_eq_true, zero_smul, add_zero, zero_add, smul_smul, z0, z1, zero_mul]
  exact ⟨rfl, rfl⟩

end

end Verif.Blk
