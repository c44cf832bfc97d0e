import Verif.Circ.Two
import Verif.Circ.Convert

/-!
The two qubit interaction gates `rxx`, `rzz`, `xxyy` (standard_operations.py:361-459).
-/

namespace Verif.Circ

open Verif.Rev (upd)

variable {Q : Type} [DecidableEq Q]

/-- standard_operations.py:545-560 `SXGate`. -/
noncomputable def sxG : Op := .u3 "sx" (Real.pi / 2) (-(Real.pi / 2)) (Real.pi / 2) 0
/-- quantum_circuit.py:2741-2750 `sx_dg`: the inverse of `SXGate()`. -/
noncomputable def sxdgG : Op := sxG.inv

/-- standard_operations.py:361-392 `RXXGate`: its definition. -/
noncomputable def rxxDef (φ : ℝ) : List (Op × List Nat) :=
  [(gphaseG (-φ / 2), [0]), (hG, [0]), (hG, [1]), (cxG, [0, 1]), (pG φ, [1]), (cxG, [0, 1]), (hG, [0]), (hG, [1])]
/-- `RXXGate`. -/
noncomputable def rxxG (φ : ℝ) : Op := .gate "rxx" 2 (rxxDef φ)

/-- standard_operations.py:395-421 `RZZGate`: its definition. -/
noncomputable def rzzDef (φ : ℝ) : List (Op × List Nat) :=
  [(cxG, [0, 1]), (gphaseG (-φ / 2), [0]), (pG φ, [1]), (cxG, [0, 1])]
/-- `RZZGate`. -/
noncomputable def rzzG (φ : ℝ) : Op := .gate "rzz" 2 (rzzDef φ)

/-- standard_operations.py:424-459 `XXYYGate`: its definition. -/
noncomputable def xxyyDef (φ β : ℝ) : List (Op × List Nat) :=
  [(rzG β, [0]), (rzG (-Real.pi / 2), [1]), (sxG, [1]), (rzG (Real.pi / 2), [1]), (sG, [0]), (cxG, [1, 0]), (ryG (-φ / 2), [1]),
   (ryG (-φ / 2), [0]), (cxG, [1, 0]), (sdgG, [0]), (rzG (-Real.pi / 2), [1]), (sxdgG, [1]), (rzG (Real.pi / 2), [1]), (rzG (-β), [0])]
/-- `XXYYGate`. -/
noncomputable def xxyyG (φ β : ℝ) : Op := .gate "xxyy" 2 (xxyyDef φ β)

/-! ### Matrices -/

theorem ph_neg_half_pi : ph (-(Real.pi / 2)) = -Complex.I := by
  have := ph_neg (Real.pi / 2)
  rw [ph_half_pi] at this
  have h2 := Complex.I_mul_I
  linear_combination (-Complex.I) * this + ph (-(Real.pi / 2)) * h2

theorem cos_qpi : Complex.cos (((Real.pi / 2 : ℝ) : ℂ) / 2) = r2 := by
  unfold r2; congr 1; push_cast; ring
theorem sin_qpi : Complex.sin (((Real.pi / 2 : ℝ) : ℂ) / 2) = r2 := by
  rw [← sin_r2]; congr 1; push_cast; ring

/-- The basis change on the second qubit. -/
theorem rz_sx_rz : rzm (Real.pi / 2) * (u3m (Real.pi / 2) (-(Real.pi / 2)) (Real.pi / 2) 0 * rzm (-Real.pi / 2)) = mk r2 (-r2) r2 r2 := by
  rw [u3m_mk, cos_qpi, sin_qpi, ph_neg_half_pi, ph_half_pi, ph_zero, one_smul, neg_add_cancel, ph_zero]
  unfold rzm
  rw [mk_mul, mk_mul]
  have e1 : ph (-(Real.pi / 2) / 2) * ph (Real.pi / 2 / 2) = 1 := by rw [neg_div]; exact ph_neg _
  have e2 : ph (-(-Real.pi / 2) / 2) = ph (Real.pi / 2 / 2) := by congr 1; ring
  have e3 : ph (-Real.pi / 2 / 2) = ph (-(Real.pi / 2) / 2) := by congr 1; ring
  have e4 : ph (Real.pi / 2 / 2) * ph (Real.pi / 2 / 2) = Complex.I := by rw [← ph_add, add_halves, ph_half_pi]
  have e5 : ph (-(Real.pi / 2) / 2) * ph (-(Real.pi / 2) / 2) = -Complex.I := by rw [← ph_add, add_halves, ph_neg_half_pi]
  have hI := Complex.I_mul_I
  rw [e2, e3]
  refine mk_congr ?_ ?_ ?_ ?_ <;> grind

theorem rz_sxdg_rz : rzm (Real.pi / 2) * (u3m (-(Real.pi / 2)) (-(Real.pi / 2)) (-(-(Real.pi / 2))) (-0) * rzm (-Real.pi / 2)) =
    mk r2 r2 (-r2) r2 := by
  have c1 : Complex.cos (((-(Real.pi / 2) : ℝ) : ℂ) / 2) = r2 := by
    rw [Complex.ofReal_neg, neg_div, Complex.cos_neg, cos_qpi]
  have c2 : Complex.sin (((-(Real.pi / 2) : ℝ) : ℂ) / 2) = -r2 := by
    rw [Complex.ofReal_neg, neg_div, Complex.sin_neg, sin_qpi]
  rw [u3m_mk, c1, c2, neg_neg, ph_neg_half_pi, ph_half_pi, neg_zero, ph_zero, one_smul, neg_add_cancel, ph_zero]
  unfold rzm
  rw [mk_mul, mk_mul]
  have e1 : ph (-(Real.pi / 2) / 2) * ph (Real.pi / 2 / 2) = 1 := by rw [neg_div]; exact ph_neg _
  have e2 : ph (-(-Real.pi / 2) / 2) = ph (Real.pi / 2 / 2) := by congr 1; ring
  have e3 : ph (-Real.pi / 2 / 2) = ph (-(Real.pi / 2) / 2) := by congr 1; ring
  have e4 : ph (Real.pi / 2 / 2) * ph (Real.pi / 2 / 2) = Complex.I := by rw [← ph_add, add_halves, ph_half_pi]
  have e5 : ph (-(Real.pi / 2) / 2) * ph (-(Real.pi / 2) / 2) = -Complex.I := by rw [← ph_add, add_halves, ph_neg_half_pi]
  have hI := Complex.I_mul_I
  rw [e2, e3]
  refine mk_congr ?_ ?_ ?_ ?_ <;> grind

/-- `1` on equal bits; on the space of unequal bits the rows `C, A` and `B, C`. -/
noncomputable def partM (C A B : ℂ) : M4 := fun p q => if p = q then (if p.1 = p.2 then 1 else C) else
  if p.1 = q.2 ∧ p.2 = q.1 then (if p.1 then B else A) else 0

theorem xx_core (c s h C S : ℂ) (hh : h * h = 1 / 2) (hcs : c * c + s * s = 1) (hC : C = c * c - s * s) (hS : S = 2 * s * c) :
    snd2 (mk h h (-h) h) * (ctl2' true (mk 0 1 1 0) * (fst2 (mk c s (-s) c) * (snd2 (mk c s (-s) c) *
      (ctl2' true (mk 0 1 1 0) * snd2 (mk h (-h) h h))))) =
    partM C (-S) S := by
  refine m4_ext fun i j k l => ?_
  simp only [m4_mul, ctl2', fst2, snd2, partM]
  cases i <;> cases j <;> cases k <;> cases l <;> simp [mk] <;> grind

/-- The matrix of `xxyy`. -/
noncomputable def xxyyM (φ β : ℝ) : M4 := fun p q =>
  if p = q then (if p.1 = p.2 then 1 else Complex.cos (φ / 2))
  else if p.1 = q.2 ∧ p.2 = q.1 then -Complex.I * Complex.sin (φ / 2) * ph (if p.1 then -β else β) else 0

/-- The matrix of `rzz`. -/
noncomputable def rzzM (φ : ℝ) : M4 := diag2 fun a b => if a = b then ph (-φ / 2) else ph (φ / 2)

/-- The matrix of `rxx`. -/
noncomputable def rxxM (φ : ℝ) : M4 := fun p q =>
  if p = q then Complex.cos (φ / 2) else if p.1 ≠ q.1 ∧ p.2 ≠ q.2 then -Complex.I * Complex.sin (φ / 2) else 0

theorem den_cx01 {a b : Q} (ψ : Amp Q) : den cxG [a, b] ψ = app2 (ctl2 true (mk 0 1 1 0)) a b ψ := by
  rw [← ctl_snd, ← pauli_x_mk]
  rfl

theorem den_cx10 {a b : Q} (hab : a ≠ b) (ψ : Amp Q) : den cxG [b, a] ψ = app2 (ctl2' true (mk 0 1 1 0)) a b ψ := by
  rw [← ctl_fst hab, ← pauli_x_mk]
  rfl

theorem fst2_mul (U V : M2) : fst2 U * fst2 V = fst2 (U * V) := by
  refine m4_ext fun i j k l => ?_
  rw [m4_mul]
  simp only [fst2, Matrix.mul_apply, Fintype.sum_bool]
  cases i <;> cases j <;> cases k <;> cases l <;> simp

theorem fst2_snd2 (U V : M2) : fst2 U * snd2 V = snd2 V * fst2 U := by
  refine m4_ext fun i j k l => ?_
  rw [m4_mul, m4_mul]
  simp only [fst2, snd2]
  cases i <;> cases j <;> cases k <;> cases l <;> simp [mul_comm]

theorem snd2_fst2 (U V : M2) (Z : M4) : snd2 V * (fst2 U * Z) = fst2 U * (snd2 V * Z) := by
  rw [← mul_assoc, ← fst2_snd2, mul_assoc]

theorem xx_conj (u v C S : ℂ) (huv : u * v = 1) :
    fst2 (mk u 0 0 (-Complex.I * v)) * (partM C (-S) S * fst2 (mk v 0 0 (Complex.I * u))) =
      partM C (-Complex.I * S * (u * u)) (-Complex.I * S * (v * v)) := by
  have hI := Complex.I_mul_I
  refine m4_ext fun i j k l => ?_
  simp only [m4_mul, fst2, partM]
  cases i <;> cases j <;> cases k <;> cases l <;> simp [mk] <;> grind

theorem den_xxyy {a b : Q} (hab : a ≠ b) (φ β : ℝ) (ψ : Amp Q) : den (xxyyG φ β) [a, b] ψ = app2 (xxyyM φ β) a b ψ := by
  have hstart : den (xxyyG φ β) [a, b] ψ = app2 (fst2 (rzm (-β)) * (snd2 (rzm (Real.pi / 2)) * (snd2 (u3m (-(Real.pi / 2)) (-(Real.pi / 2)) (-(-(Real.pi / 2))) (-0)) *
      (snd2 (rzm (-Real.pi / 2)) * (fst2 (pm (-(Real.pi / 2))) * (ctl2' true (mk 0 1 1 0) * (fst2 (rym (-φ / 2)) * (snd2 (rym (-φ / 2)) *
      (ctl2' true (mk 0 1 1 0) * (fst2 (pm (Real.pi / 2)) * (snd2 (rzm (Real.pi / 2)) * (snd2 (u3m (Real.pi / 2) (-(Real.pi / 2)) (Real.pi / 2) 0) *
      (snd2 (rzm (-Real.pi / 2)) * fst2 (rzm β)))))))))))))) a b ψ := by
    simp only [← app2_app2 hab, ← app1_snd, ← app1_fst hab, ← den_cx10 hab, ← u3m_rz, ← u3m_ry]
    rw [← u3m_p (Real.pi / 2), ← u3m_p' (-(Real.pi / 2))]
    rfl
  rw [hstart]
  refine app2_congr ?_ a b ψ
  have hh : r2 * r2 = 1 / 2 := r2_sq
  have hcs : Complex.cos (((-φ / 2 : ℝ) : ℂ) / 2) * Complex.cos (((-φ / 2 : ℝ) : ℂ) / 2) +
      Complex.sin (((-φ / 2 : ℝ) : ℂ) / 2) * Complex.sin (((-φ / 2 : ℝ) : ℂ) / 2) = 1 := by
    have := Complex.cos_sq_add_sin_sq (((-φ / 2 : ℝ) : ℂ) / 2)
    linear_combination this
  have hC : Complex.cos (φ / 2) = Complex.cos (((-φ / 2 : ℝ) : ℂ) / 2) * Complex.cos (((-φ / 2 : ℝ) : ℂ) / 2) -
      Complex.sin (((-φ / 2 : ℝ) : ℂ) / 2) * Complex.sin (((-φ / 2 : ℝ) : ℂ) / 2) := by
    rw [← Complex.cos_add, ← Complex.cos_neg]; congr 1; push_cast; ring
  have hS : Complex.sin (φ / 2) = 2 * (-Complex.sin (((-φ / 2 : ℝ) : ℂ) / 2)) * Complex.cos (((-φ / 2 : ℝ) : ℂ) / 2) := by
    rw [← Complex.sin_neg, ← Complex.cos_neg (((-φ / 2 : ℝ) : ℂ) / 2), ← Complex.sin_two_mul]; congr 1; push_cast; ring_nf
  have hcore := xx_core _ (-Complex.sin (((-φ / 2 : ℝ) : ℂ) / 2)) r2 (Complex.cos (φ / 2)) (Complex.sin (φ / 2)) hh
    (by rw [neg_mul_neg]; exact hcs) (by rw [neg_mul_neg]; exact hC) hS
  rw [neg_neg] at hcore
  have hgroup : fst2 (rzm (-β)) * (snd2 (rzm (Real.pi / 2)) * (snd2 (u3m (-(Real.pi / 2)) (-(Real.pi / 2)) (-(-(Real.pi / 2))) (-0)) *
      (snd2 (rzm (-Real.pi / 2)) * (fst2 (pm (-(Real.pi / 2))) * (ctl2' true (mk 0 1 1 0) * (fst2 (rym (-φ / 2)) * (snd2 (rym (-φ / 2)) *
      (ctl2' true (mk 0 1 1 0) * (fst2 (pm (Real.pi / 2)) * (snd2 (rzm (Real.pi / 2)) * (snd2 (u3m (Real.pi / 2) (-(Real.pi / 2)) (Real.pi / 2) 0) *
      (snd2 (rzm (-Real.pi / 2)) * fst2 (rzm β))))))))))))) =
      fst2 (rzm (-β) * pm (-(Real.pi / 2))) * (snd2 (rzm (Real.pi / 2) * (u3m (-(Real.pi / 2)) (-(Real.pi / 2)) (-(-(Real.pi / 2))) (-0) * rzm (-Real.pi / 2))) *
        (ctl2' true (mk 0 1 1 0) * (fst2 (rym (-φ / 2)) * (snd2 (rym (-φ / 2)) * (ctl2' true (mk 0 1 1 0) *
        (snd2 (rzm (Real.pi / 2) * (u3m (Real.pi / 2) (-(Real.pi / 2)) (Real.pi / 2) 0 * rzm (-Real.pi / 2))) * fst2 (pm (Real.pi / 2) * rzm β))))))) := by
    simp only [← fst2_mul, ← snd2_mul, mul_assoc, snd2_fst2, ← fst2_snd2]
  rw [hgroup, rz_sx_rz, rz_sxdg_rz]
  have hg2 : ∀ A B C D E F G H : M4, A * (B * (C * (D * (E * (F * (G * H)))))) = A * ((B * (C * (D * (E * (F * G))))) * H) := by
    intro A B C D E F G H
    simp only [mul_assoc]
  rw [hg2]
  unfold rym
  rw [hcore]
  rw [show rzm (-β) * pm (-(Real.pi / 2)) = mk (ph (β / 2)) 0 0 (-Complex.I * ph (-β / 2)) by
      unfold rzm pm; rw [mk_mul, neg_neg, ph_neg_half_pi]; refine mk_congr ?_ ?_ ?_ ?_ <;> ring,
    show pm (Real.pi / 2) * rzm β = mk (ph (-β / 2)) 0 0 (Complex.I * ph (β / 2)) by
      unfold rzm pm; rw [mk_mul, ph_half_pi]; refine mk_congr ?_ ?_ ?_ ?_ <;> ring]
  rw [xx_conj (ph (β / 2)) (ph (-β / 2)) _ _ (by rw [mul_comm, neg_div]; exact ph_neg _)]
  unfold xxyyM partM
  have e2 : ph (β / 2) * ph (β / 2) = ph β := by rw [← ph_add, add_halves]
  have e3 : ph (-β / 2) * ph (-β / 2) = ph (-β) := by rw [← ph_add, add_halves]
  rw [e2, e3]
  funext p q
  by_cases h1 : p.1 = true
  · simp only [h1, if_true]
  · simp only [h1, if_false, Bool.false_eq_true]

theorem den_rzz {a b : Q} (hab : a ≠ b) (φ : ℝ) (ψ : Amp Q) : den (rzzG φ) [a, b] ψ = app2 (rzzM φ) a b ψ := by
  have hstart : den (rzzG φ) [a, b] ψ = app2 (ctl2 true (mk 0 1 1 0) * (snd2 (pm φ) * (fst2 (ph (-φ / 2) • 1) *
      ctl2 true (mk 0 1 1 0)))) a b ψ := by
    simp only [← app2_app2 hab, ← app1_snd, ← app1_fst hab, ← den_cx01, ← u3m_g, ← u3m_p]
    rfl
  rw [hstart]
  refine app2_congr ?_ a b ψ
  have e : ph (φ / 2) = ph φ * ph (-φ / 2) := by rw [← ph_add]; congr 1; ring
  refine m4_ext fun i j k l => ?_
  simp only [m4_mul, fst2, snd2, ctl2, rzzM, diag2, pm, e]
  cases i <;> cases j <;> cases k <;> cases l <;> simp [mk]

theorem den_rxx {a b : Q} (hab : a ≠ b) (φ : ℝ) (ψ : Amp Q) : den (rxxG φ) [a, b] ψ = app2 (rxxM φ) a b ψ := by
  have hstart : den (rxxG φ) [a, b] ψ = app2 (snd2 hm * (fst2 hm * (ctl2 true (mk 0 1 1 0) * (snd2 (pm φ) * (ctl2 true (mk 0 1 1 0) *
      (snd2 hm * (fst2 hm * fst2 (ph (-φ / 2) • 1)))))))) a b ψ := by
    simp only [← app2_app2 hab, ← app1_snd, ← app1_fst hab, ← den_cx01, ← u3m_g, ← u3m_p, ← u3m_h]
    rfl
  rw [hstart]
  refine app2_congr ?_ a b ψ
  have e1 : ph (-φ / 2) = Complex.cos (φ / 2) - Complex.sin (φ / 2) * Complex.I := by
    rw [neg_div, ph_neg_cos]; push_cast; ring
  have e2 : ph φ * ph (-φ / 2) = Complex.cos (φ / 2) + Complex.sin (φ / 2) * Complex.I := by
    rw [← ph_add, show φ + -φ / 2 = φ / 2 by ring, ph_cos]; push_cast; ring
  have hh : r2 * r2 = 1 / 2 := r2_sq
  have key : ∀ P g C S : ℂ, g = C - S * Complex.I → P * g = C + S * Complex.I →
      snd2 hm * (fst2 hm * (ctl2 true (mk 0 1 1 0) * (snd2 (mk 1 0 0 P) * (ctl2 true (mk 0 1 1 0) *
      (snd2 hm * (fst2 hm * fst2 (g • 1))))))) =
      fun p q => if p = q then C else if p.1 ≠ q.1 ∧ p.2 ≠ q.2 then -Complex.I * S else 0 := by
    intro P g C S h1 h2
    clear hstart e1 e2 hab
    refine m4_ext fun i j k l => ?_
    simp only [m4_mul, fst2, snd2, ctl2, hm]
    cases i <;> cases j <;> cases k <;> cases l <;> simp [mk] <;> grind
  exact key _ _ _ _ e1 e2

end Verif.Circ
