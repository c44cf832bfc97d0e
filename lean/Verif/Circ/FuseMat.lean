import Verif.Circ.Inter
import Verif.Circ.Combine

/-!
The matrix identities behind the fusion of two adjacent gates (fuse_adjacents.py:91-266).
-/

namespace Verif.Circ

open Verif.Rev (upd)

variable {Q : Type} [DecidableEq Q]

/-! ### Definitions of the fused gates -/

/-- fuse_adjacents.py:124-126: CX(0,1), CX(1,0). -/
def halfCx : List (Op × List Nat) := [(cxG, [0, 1]), (cxG, [1, 0])]
/-- fuse_adjacents.py:153-155: CX(1,0), CX(0,1). -/
def halfCx' : List (Op × List Nat) := [(cxG, [1, 0]), (cxG, [0, 1])]
/-- fuse_adjacents.py:130-134, 159-163. -/
noncomputable def halfRzz (θ : ℝ) : List (Op × List Nat) := [(cxG, [0, 1]), (cxG, [1, 0]), (rzG θ, [1]), (cxG, [0, 1])]
/-- fuse_adjacents.py:138-144, 167-173. -/
noncomputable def halfCp (θ : ℝ) : List (Op × List Nat) :=
  [(cxG, [0, 1]), (cxG, [1, 0]), (pG (-θ / 2), [1]), (cxG, [0, 1]), (pG (θ / 2), [0]), (pG (θ / 2), [1])]
/-- fuse_adjacents.py:177-181. -/
noncomputable def halfCz : List (Op × List Nat) := [(hG, [1]), (cxG, [1, 0]), (cxG, [0, 1]), (hG, [0])]

/-- A controlled phase gate (standard_operations.py:483-502 `CPGate`). -/
noncomputable def cpO (φ lam : ℝ) : Op := .ctrl (.u3 "p" 0 φ lam 0) [true]

/-! ### Operators as matrices -/

theorem den_cp {a b : Q} (φ lam : ℝ) (ψ : Amp Q) : den (cpO φ lam) [a, b] ψ = app2 (ctl2 true (pm (lam + φ))) a b ψ := by
  rw [← ctl_snd, ← u3m_pp]
  rfl

theorem den_cz {a b : Q} (ψ : Amp Q) : den czG [a, b] ψ = app2 (ctl2 true (mk 1 0 0 (-1))) a b ψ := by
  rw [← pauli_z_mk]
  exact den_ctl1 _ _ _ _ _

theorem den_swap2 {a b : Q} (hab : a ≠ b) (ψ : Amp Q) : den .swap [a, b] ψ = app2 swap2 a b ψ := by
  rw [← swap_app2 hab]
  simp only [den]

theorem den_halfCx {a b : Q} (hab : a ≠ b) (ψ : Amp Q) :
    denBody halfCx [a, b] ψ = app2 (ctl2' true (mk 0 1 1 0) * ctl2 true (mk 0 1 1 0)) a b ψ := by
  rw [← app2_app2 hab, ← den_cx01, ← den_cx10 hab]
  rfl

theorem den_halfCx' {a b : Q} (hab : a ≠ b) (ψ : Amp Q) :
    denBody halfCx' [a, b] ψ = app2 (ctl2 true (mk 0 1 1 0) * ctl2' true (mk 0 1 1 0)) a b ψ := by
  rw [← app2_app2 hab, ← den_cx01, ← den_cx10 hab]
  rfl

theorem den_halfRzz {a b : Q} (hab : a ≠ b) (θ : ℝ) (ψ : Amp Q) : denBody (halfRzz θ) [a, b] ψ
    = app2 (ctl2 true (mk 0 1 1 0) * (snd2 (rzm θ) * (ctl2' true (mk 0 1 1 0) * ctl2 true (mk 0 1 1 0)))) a b ψ := by
  simp only [← app2_app2 hab, ← app1_snd, ← den_cx01, ← den_cx10 hab, ← u3m_rz]
  rfl

theorem den_halfCp {a b : Q} (hab : a ≠ b) (θ : ℝ) (ψ : Amp Q) : denBody (halfCp θ) [a, b] ψ
    = app2 (snd2 (pm (θ / 2)) * (fst2 (pm (θ / 2)) * (ctl2 true (mk 0 1 1 0) * (snd2 (pm (-θ / 2)) *
      (ctl2' true (mk 0 1 1 0) * ctl2 true (mk 0 1 1 0)))))) a b ψ := by
  simp only [← app2_app2 hab, ← app1_snd, ← app1_fst hab, ← den_cx01, ← den_cx10 hab, ← u3m_p]
  rfl

theorem den_halfCz {a b : Q} (hab : a ≠ b) (ψ : Amp Q) : denBody halfCz [a, b] ψ
    = app2 (fst2 hm * (ctl2 true (mk 0 1 1 0) * (ctl2' true (mk 0 1 1 0) * snd2 hm))) a b ψ := by
  simp only [← app2_app2 hab, ← app1_snd, ← app1_fst hab, ← den_cx01, ← den_cx10 hab, ← u3m_h]
  rfl

/-! ### Swap with a neighbour -/

theorem swap_cx {a b : Q} (hab : a ≠ b) (ψ : Amp Q) : den cxG [a, b] (den .swap [a, b] ψ) = denBody halfCx [a, b] ψ := by
  rw [den_cx01, den_swap2 hab, app2_app2 hab, den_halfCx hab]
  refine app2_congr ?_ a b ψ
  refine m4_ext fun i j k l => ?_
  simp only [m4_mul, ctl2, ctl2', swap2]
  cases i <;> cases j <;> cases k <;> cases l <;> simp [mk]

theorem cx_swap {a b : Q} (hab : a ≠ b) (ψ : Amp Q) : den .swap [a, b] (den cxG [a, b] ψ) = denBody halfCx' [a, b] ψ := by
  rw [den_cx01, den_swap2 hab, app2_app2 hab, den_halfCx' hab]
  refine app2_congr ?_ a b ψ
  refine m4_ext fun i j k l => ?_
  simp only [m4_mul, ctl2, ctl2', swap2]
  cases i <;> cases j <;> cases k <;> cases l <;> simp [mk]

theorem swap_rzz {a b : Q} (hab : a ≠ b) (θ : ℝ) (ψ : Amp Q) :
    den (rzzG θ) [a, b] (den .swap [a, b] ψ) = denBody (halfRzz θ) [a, b] ψ := by
  rw [den_rzz hab, den_swap2 hab, app2_app2 hab, den_halfRzz hab]
  refine app2_congr ?_ a b ψ
  refine m4_ext fun i j k l => ?_
  simp only [m4_mul, ctl2, ctl2', swap2, rzzM, diag2, snd2, rzm]
  cases i <;> cases j <;> cases k <;> cases l <;> simp [mk]

theorem rzz_swap {a b : Q} (hab : a ≠ b) (θ : ℝ) (ψ : Amp Q) :
    den .swap [a, b] (den (rzzG θ) [a, b] ψ) = denBody (halfRzz θ) [a, b] ψ := by
  rw [den_rzz hab, den_swap2 hab, app2_app2 hab, den_halfRzz hab]
  refine app2_congr ?_ a b ψ
  refine m4_ext fun i j k l => ?_
  simp only [m4_mul, ctl2, ctl2', swap2, rzzM, diag2, snd2, rzm]
  cases i <;> cases j <;> cases k <;> cases l <;> simp [mk]

theorem ph_half (θ : ℝ) : ph θ = ph (θ / 2) * ph (θ / 2) := by rw [← ph_add, add_halves]

theorem ph_half_neg (θ : ℝ) : ph (-θ / 2) * ph (θ / 2) = 1 := by rw [← ph_add, neg_div, neg_add_cancel, ph_zero]

theorem swap_cp {a b : Q} (hab : a ≠ b) (φ lam : ℝ) (ψ : Amp Q) :
    den (cpO φ lam) [a, b] (den .swap [a, b] ψ) = denBody (halfCp (φ + lam)) [a, b] ψ := by
  rw [den_cp, den_swap2 hab, app2_app2 hab, den_halfCp hab, add_comm]
  refine app2_congr ?_ a b ψ
  have e1 := ph_half (φ + lam)
  have e2 := ph_half_neg (φ + lam)
  refine m4_ext fun i j k l => ?_
  simp only [m4_mul, ctl2, ctl2', swap2, fst2, snd2, pm]
  cases i <;> cases j <;> cases k <;> cases l <;> simp [mk] <;> grind

theorem cp_swap {a b : Q} (hab : a ≠ b) (φ lam : ℝ) (ψ : Amp Q) :
    den .swap [a, b] (den (cpO φ lam) [a, b] ψ) = denBody (halfCp (φ + lam)) [a, b] ψ := by
  rw [den_cp, den_swap2 hab, app2_app2 hab, den_halfCp hab, add_comm]
  refine app2_congr ?_ a b ψ
  have e1 := ph_half (φ + lam)
  have e2 := ph_half_neg (φ + lam)
  refine m4_ext fun i j k l => ?_
  simp only [m4_mul, ctl2, ctl2', swap2, fst2, snd2, pm]
  cases i <;> cases j <;> cases k <;> cases l <;> simp [mk] <;> grind

theorem cz_swap {a b : Q} (hab : a ≠ b) (ψ : Amp Q) :
    den .swap [a, b] (den czG [a, b] ψ) = denBody halfCz [a, b] ψ := by
  rw [den_cz, den_swap2 hab, app2_app2 hab, den_halfCz hab]
  refine app2_congr ?_ a b ψ
  have hh : r2 * r2 = 1 / 2 := r2_sq
  refine m4_ext fun i j k l => ?_
  simp only [m4_mul, ctl2, ctl2', swap2, fst2, snd2, hm]
  cases i <;> cases j <;> cases k <;> cases l <;> simp [mk] <;> grind

/-! ### Symmetric gates -/

theorem swap_sym {a b : Q} (hab : a ≠ b) (ψ : Amp Q) : den .swap [b, a] ψ = den .swap [a, b] ψ := by
  rw [den_swap2 hab, den_swap2 (Ne.symm hab), app2_flip hab]
  refine app2_congr ?_ a b ψ
  refine m4_ext fun i j k l => ?_
  simp only [flip2, swap2]
  cases i <;> cases j <;> cases k <;> cases l <;> simp

theorem cz_sym {a b : Q} (hab : a ≠ b) (ψ : Amp Q) : den czG [b, a] ψ = den czG [a, b] ψ := by
  rw [den_cz, den_cz, app2_flip hab]
  refine app2_congr ?_ a b ψ
  refine m4_ext fun i j k l => ?_
  simp only [flip2, ctl2]
  cases i <;> cases j <;> cases k <;> cases l <;> simp [mk]

theorem cp_sym {a b : Q} (hab : a ≠ b) (φ lam : ℝ) (ψ : Amp Q) : den (cpO φ lam) [b, a] ψ = den (cpO φ lam) [a, b] ψ := by
  rw [den_cp, den_cp, app2_flip hab]
  refine app2_congr ?_ a b ψ
  refine m4_ext fun i j k l => ?_
  simp only [flip2, ctl2, pm]
  cases i <;> cases j <;> cases k <;> cases l <;> simp [mk]

theorem rzz_sym {a b : Q} (hab : a ≠ b) (θ : ℝ) (ψ : Amp Q) : den (rzzG θ) [b, a] ψ = den (rzzG θ) [a, b] ψ := by
  rw [den_rzz hab, den_rzz (Ne.symm hab), app2_flip hab]
  refine app2_congr ?_ a b ψ
  refine m4_ext fun i j k l => ?_
  simp only [flip2, rzzM, diag2]
  cases i <;> cases j <;> cases k <;> cases l <;> simp

/-! ### Rotations -/

theorem u3m_diag (φ lam g : ℝ) : u3m 0 φ lam g = mk (ph g) 0 0 (ph g * ph (φ + lam)) := by
  rw [u3m_mk, mk_smul]
  refine mk_congr ?_ ?_ ?_ ?_ <;> simp

theorem rx_mul (α β : ℝ) : u3m β (-(Real.pi / 2)) (Real.pi / 2) 0 * u3m α (-(Real.pi / 2)) (Real.pi / 2) 0
    = u3m (α + β) (-(Real.pi / 2)) (Real.pi / 2) 0 := by
  have hI := Complex.I_mul_I
  have h1 : Complex.cos (((α + β : ℝ) : ℂ) / 2) = Complex.cos (α / 2) * Complex.cos (β / 2) - Complex.sin (α / 2) * Complex.sin (β / 2) := by
    rw [← Complex.cos_add]; congr 1; push_cast; ring
  have h2 : Complex.sin (((α + β : ℝ) : ℂ) / 2) = Complex.sin (α / 2) * Complex.cos (β / 2) + Complex.cos (α / 2) * Complex.sin (β / 2) := by
    rw [← Complex.sin_add]; congr 1; push_cast; ring
  have h3 : ph (-(Real.pi / 2)) = -Complex.I := by
    have := ph_neg (Real.pi / 2)
    rw [ph_half_pi] at this
    have h4 : ph (-(Real.pi / 2)) * (Complex.I * Complex.I) = Complex.I := by rw [← mul_assoc, this, one_mul]
    rw [hI] at h4
    rw [← h4]; ring
  simp only [u3m_mk, mk_smul, mk_mul, ph_zero, ph_half_pi, h3, neg_add_cancel, h1, h2]
  refine mk_congr ?_ ?_ ?_ ?_ <;> grind

theorem ry_mul (α β : ℝ) : u3m β 0 0 0 * u3m α 0 0 0 = u3m (α + β) 0 0 0 := by
  have h1 : Complex.cos (((α + β : ℝ) : ℂ) / 2) = Complex.cos (α / 2) * Complex.cos (β / 2) - Complex.sin (α / 2) * Complex.sin (β / 2) := by
    rw [← Complex.cos_add]; congr 1; push_cast; ring
  have h2 : Complex.sin (((α + β : ℝ) : ℂ) / 2) = Complex.sin (α / 2) * Complex.cos (β / 2) + Complex.cos (α / 2) * Complex.sin (β / 2) := by
    rw [← Complex.sin_add]; congr 1; push_cast; ring
  simp only [u3m_mk, mk_smul, mk_mul, ph_zero, add_zero, h1, h2]
  refine mk_congr ?_ ?_ ?_ ?_ <;> ring

theorem u3m_zero_rx : u3m 0 (-(Real.pi / 2)) (Real.pi / 2) 0 = 1 := by
  rw [u3m_diag, neg_add_cancel, ph_zero, mk_one]; simp

theorem u3m_zero_ry : u3m 0 0 0 0 = 1 := by
  rw [u3m_diag, add_zero, ph_zero, mk_one]; simp

theorem on1_ph (g : ℝ) (M : M2) {qs : List Q} (h : qs.length = 1) (ψ : Amp Q) : on1 (ph g • M) qs ψ = ph g • on1 M qs ψ := by
  match qs, h with
  | [q], _ =>
    funext c
    simp only [on1, app1, mux, Pi.smul_apply, smul_eq_mul, Matrix.smul_apply]
    ring

theorem den_smul (o : Op) (qs : List Q) (c : ℂ) (ψ : Amp Q) : den o qs (c • ψ) = c • den o qs ψ := by
  have := (den_loc o qs).smul c ψ
  exact this

theorem denBody_smul (o : List (Op × List Nat)) (qs : List Q) (c : ℂ) (ψ : Amp Q) : denBody o qs (c • ψ) = c • denBody o qs ψ := by
  have := (denBody_loc o qs).smul c ψ
  exact this

end Verif.Circ
