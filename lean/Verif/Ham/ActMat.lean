import Verif.Ham.Simulate
import Verif.Circ.Inter

/-!
Matrices on the qubits of the quantum argument, acting on states with further qubits; the matrices of h, rx(π/2) and cx.
-/

namespace Verif.Ham

open Verif.Oper Verif.Circ
open Verif.Rev (upd)

/-- The bits of the quantum argument. -/
def rd (n : Nat) (c : HQ → Bool) : Fin n → Bool := fun k => c (.qv k)

/-- The bits of the quantum argument replaced. -/
def setB {n : Nat} (c : HQ → Bool) (b : Fin n → Bool) : HQ → Bool
  | .qv i => if h : i < n then b ⟨i, h⟩ else c (.qv i)
  | q => c q

theorem rd_setB {n : Nat} (c : HQ → Bool) (b : Fin n → Bool) : rd n (setB c b) = b := by
  funext k
  show (if h : (k : Nat) < n then b ⟨k, h⟩ else c (.qv k)) = b k
  rw [dif_pos k.2]

theorem setB_setB {n : Nat} (c : HQ → Bool) (b b' : Fin n → Bool) : setB (setB c b) b' = setB c b' := by
  funext q
  cases q with
  | qv i =>
    show (if h : i < n then b' ⟨i, h⟩ else setB c b (.qv i)) = (if h : i < n then b' ⟨i, h⟩ else c (.qv i))
    by_cases h : i < n
    · rw [dif_pos h, dif_pos h]
    · rw [dif_neg h, dif_neg h]
      show (if h : i < n then b ⟨i, h⟩ else c (.qv i)) = _
      rw [dif_neg h]
  | ctrl => rfl
  | hs => rfl
  | anc i => rfl

theorem setB_rd {n : Nat} (c : HQ → Bool) : setB c (rd n c) = c := by
  funext q
  cases q with
  | qv i =>
    show (if h : i < n then rd n c ⟨i, h⟩ else c (.qv i)) = _
    by_cases h : i < n
    · rw [dif_pos h]; rfl
    · rw [dif_neg h]
  | ctrl => rfl
  | hs => rfl
  | anc i => rfl

/-- A matrix on the quantum argument applied to a state. -/
noncomputable def actM {n : Nat} (H : MatN n) (ψ : Amp HQ) : Amp HQ := fun c => ∑ b, H (rd n c) b * ψ (setB c b)

theorem actM_mul {n : Nat} (A B : MatN n) (ψ : Amp HQ) : actM (A * B) ψ = actM A (actM B ψ) := by
  funext c
  simp only [actM, Matrix.mul_apply, Finset.sum_mul, Finset.mul_sum, rd_setB, setB_setB]
  rw [Finset.sum_comm]
  exact Finset.sum_congr rfl fun b _ => Finset.sum_congr rfl fun b' _ => by ring

theorem actM_one {n : Nat} (ψ : Amp HQ) : actM (1 : MatN n) ψ = ψ := by
  funext c
  unfold actM
  rw [Finset.sum_eq_single (rd n c)]
  · rw [Matrix.one_apply_eq, one_mul, setB_rd]
  · intro b _ hb
    rw [Matrix.one_apply_ne (Ne.symm hb), zero_mul]
  · intro h; exact absurd (Finset.mem_univ _) h

theorem actM_diag {n : Nat} (d : (Fin n → Bool) → ℂ) (ψ : Amp HQ) (c : HQ → Bool) : actM (Matrix.diagonal d) ψ c = d (rd n c) * ψ c := by
  unfold actM
  rw [Finset.sum_eq_single (rd n c)]
  · rw [Matrix.diagonal_apply_eq, setB_rd]
  · intro b _ hb
    rw [Matrix.diagonal_apply_ne _ (Ne.symm hb), zero_mul]
  · intro h; exact absurd (Finset.mem_univ _) h

/-- The factor of qubit `k` of a gate on qubit `j`. -/
noncomputable def slot (U : M2) (j k : Nat) : M2 := if k = j then U else 1

theorem slot_self (U : M2) (j : Nat) : slot U j j = U := if_pos rfl
theorem slot_ne (U : M2) {j k : Nat} (h : k ≠ j) : slot U j k = 1 := if_neg h

/-- A gate on one qubit as a matrix. -/
noncomputable def gate1 (n : Nat) (U : M2) (j : Nat) : MatN n := tensor fun k => slot U j k

theorem gate1_apply {n : Nat} (U : M2) {j : Nat} (hj : j < n) (b c : Fin n → Bool) :
    gate1 n U j b c = if ∀ k : Fin n, (k : Nat) ≠ j → b k = c k then U (b ⟨j, hj⟩) (c ⟨j, hj⟩) else 0 := by
  show (∏ k : Fin n, slot U j k (b k) (c k)) = _
  rw [← Finset.mul_prod_erase _ _ (Finset.mem_univ (⟨j, hj⟩ : Fin n)), slot_self]
  split
  · rename_i h
    rw [Finset.prod_eq_one, mul_one]
    intro k hk
    have hkj : (k : Nat) ≠ j := fun e => (Finset.mem_erase.mp hk).1 (Fin.ext e)
    rw [slot_ne U hkj, h k hkj, Matrix.one_apply_eq]
  · rename_i h
    push Not at h
    obtain ⟨k, hkj, hne⟩ := h
    rw [Finset.prod_eq_zero (i := k), mul_zero]
    · exact Finset.mem_erase.mpr ⟨fun e => hkj (by rw [e]), Finset.mem_univ _⟩
    · rw [slot_ne U hkj, Matrix.one_apply_ne hne]

theorem app1_actM {n : Nat} (U : M2) {j : Nat} (hj : j < n) (ψ : Amp HQ) : app1 U (.qv j) ψ = actM (gate1 n U j) ψ := by
  funext c
  have hs : ∀ v, setB c (Function.update (rd n c) ⟨j, hj⟩ v) = upd c (.qv j) v := by
    intro v
    funext q
    cases q with
    | qv i =>
      show (if h : i < n then Function.update (rd n c) ⟨j, hj⟩ v ⟨i, h⟩ else c (.qv i)) = _
      by_cases e : i = j
      · subst e
        rw [dif_pos hj, Function.update_self, Verif.Rev.upd_same]
      · have hne : (HQ.qv i) ≠ .qv j := fun h => e (by injection h)
        rw [Verif.Rev.upd_ne hne]
        by_cases h : i < n
        · rw [dif_pos h, Function.update_of_ne (fun h' => e (congrArg Fin.val h'))]; rfl
        · rw [dif_neg h]
    | ctrl => rw [Verif.Rev.upd_ne (show HQ.ctrl ≠ .qv j from nofun)]; rfl
    | hs => rw [Verif.Rev.upd_ne (show HQ.hs ≠ .qv j from nofun)]; rfl
    | anc i => rw [Verif.Rev.upd_ne (show HQ.anc i ≠ .qv j from nofun)]; rfl
  show U (c (.qv j)) false * ψ (upd c (.qv j) false) + U (c (.qv j)) true * ψ (upd c (.qv j) true) = ∑ b, gate1 n U j (rd n c) b * ψ (setB c b)
  have hsub : ({Function.update (rd n c) ⟨j, hj⟩ false, Function.update (rd n c) ⟨j, hj⟩ true} : Finset (Fin n → Bool)) ⊆ Finset.univ :=
    Finset.subset_univ _
  rw [← Finset.sum_subset hsub]
  · have hne : Function.update (rd n c) ⟨j, hj⟩ false ≠ Function.update (rd n c) ⟨j, hj⟩ true := by
      intro e
      have := congrFun e ⟨j, hj⟩
      rw [Function.update_self, Function.update_self] at this
      cases this
    have hg : ∀ v, gate1 n U j (rd n c) (Function.update (rd n c) ⟨j, hj⟩ v) = U (c (.qv j)) v := by
      intro v
      rw [gate1_apply U hj, if_pos, Function.update_self]
      · rfl
      · intro k hk
        rw [Function.update_of_ne (fun e => hk (by rw [e]))]
    rw [Finset.sum_pair hne, hs, hs, hg, hg]
  · intro b _ hb
    rw [gate1_apply U hj, if_neg, zero_mul]
    intro h
    apply hb
    have : b = Function.update (rd n c) ⟨j, hj⟩ (b ⟨j, hj⟩) := by
      funext k
      by_cases e : k = ⟨j, hj⟩
      · rw [e, Function.update_self]
      · rw [Function.update_of_ne e]
        exact (h k fun e' => e (Fin.ext e')).symm
    rw [this]
    cases b ⟨j, hj⟩ <;> simp

/-- The bit action of a cx gate. -/
def cxB {n : Nat} (a j : Fin n) (b : Fin n → Bool) : Fin n → Bool := Function.update b j (b j ^^ b a)

theorem cxB_cxB {n : Nat} {a j : Fin n} (h : a ≠ j) (b : Fin n → Bool) : cxB a j (cxB a j b) = b := by
  unfold cxB
  funext k
  by_cases e : k = j
  · subst e
    rw [Function.update_self, Function.update_self, Function.update_of_ne h]
    cases b k <;> cases b a <;> rfl
  · rw [Function.update_of_ne e, Function.update_of_ne e]

/-- The matrix of a permutation of basis states. -/
def permM {n : Nat} (w : (Fin n → Bool) → Fin n → Bool) : MatN n := fun b c => if b = w c then 1 else 0

theorem permM_actM {n : Nat} {w : (Fin n → Bool) → Fin n → Bool} (hw : ∀ b, w (w b) = b) (ψ : Amp HQ) (c : HQ → Bool) :
    actM (permM w) ψ c = ψ (setB c (w (rd n c))) := by
  unfold actM permM
  rw [Finset.sum_eq_single (w (rd n c))]
  · rw [if_pos (hw _).symm, one_mul]
  · intro b _ hb
    rw [if_neg, zero_mul]
    intro e
    exact hb (by rw [e, hw])
  · intro h; exact absurd (Finset.mem_univ _) h

theorem cx_actM {n : Nat} {a j : Nat} (ha : a < n) (hj : j < n) (h : a ≠ j) (ψ : Amp HQ) :
    Circ.den cxG [.qv a, .qv j] ψ = actM (permM (cxB (⟨a, ha⟩ : Fin n) ⟨j, hj⟩)) ψ := by
  funext c
  rw [cxQ_apply, permM_actM (cxB_cxB (fun e => h (congrArg Fin.val e)))]
  congr 1
  funext q
  cases q with
  | qv i =>
    show _ = (if h : i < n then cxB ⟨a, ha⟩ ⟨j, hj⟩ (rd n c) ⟨i, h⟩ else c (.qv i))
    by_cases e : i = j
    · subst e
      rw [dif_pos hj, Verif.Rev.upd_same]
      unfold cxB
      rw [Function.update_self]
      rfl
    · have hne : (HQ.qv i) ≠ .qv j := fun h => e (by injection h)
      rw [Verif.Rev.upd_ne hne]
      by_cases h : i < n
      · rw [dif_pos h]
        unfold cxB
        rw [Function.update_of_ne (fun h' => e (congrArg Fin.val h'))]
        rfl
      · rw [dif_neg h]
  | ctrl => rw [Verif.Rev.upd_ne (show HQ.ctrl ≠ .qv j from nofun)]; rfl
  | hs => rw [Verif.Rev.upd_ne (show HQ.hs ≠ .qv j from nofun)]; rfl
  | anc i => rw [Verif.Rev.upd_ne (show HQ.anc i ≠ .qv j from nofun)]; rfl

/-! ### The gates of the basis change -/

/-- The function `sx_dg` (core/gate_application_functions.py:1020-1030) appends the inverse of `SXDGGate` (circuit/standard_operations.py:564-582),
that is, an SX gate. -/
noncomputable def sxdgFn : Op := Op.inv (.u3 "sx_dg" (-(Real.pi / 2)) (-(Real.pi / 2)) (Real.pi / 2) 0)

/-- The matrix of an rx(π/2) gate. -/
noncomputable def sxm : M2 := mk r2 (-Complex.I * r2) (-Complex.I * r2) r2
/-- The matrix of an rx(-π/2) gate. -/
noncomputable def sxm' : M2 := mk r2 (Complex.I * r2) (Complex.I * r2) r2

theorem ph_hp : ph (Real.pi / 2) = Complex.I := ph_half_pi

theorem den_sxdgFn {Q : Type} [DecidableEq Q] (q : Q) (ψ : Amp Q) : Circ.den sxdgFn [q] ψ = app1 sxm q ψ := by
  have e : Circ.den sxdgFn [q] ψ = app1 (u3m (-(-(Real.pi / 2))) (-(Real.pi / 2)) (-(-(Real.pi / 2))) (-0)) q ψ := rfl
  rw [e, u3m_mk]
  simp only [neg_neg, neg_zero]
  rw [cos_qpi, sin_qpi, ph_neg_half_pi, ph_half_pi, ph_zero, one_smul, neg_add_cancel, ph_zero]
  unfold sxm
  congr 1
  refine mk_congr ?_ ?_ ?_ ?_ <;> ring

theorem den_sxdgFn_inv {Q : Type} [DecidableEq Q] (q : Q) (ψ : Amp Q) : Circ.den sxdgFn.inv [q] ψ = app1 sxm' q ψ := by
  have e : Circ.den sxdgFn.inv [q] ψ = app1 (u3m (-(-(-(Real.pi / 2)))) (-(-(-(Real.pi / 2)))) (-(-(Real.pi / 2))) (-(-0))) q ψ := rfl
  rw [e, u3m_mk]
  simp only [neg_neg, neg_zero]
  have c1 : Complex.cos (((-(Real.pi / 2) : ℝ) : ℂ) / 2) = r2 := by rw [Complex.ofReal_neg, neg_div, Complex.cos_neg, cos_qpi]
  have c2 : Complex.sin (((-(Real.pi / 2) : ℝ) : ℂ) / 2) = -r2 := by rw [Complex.ofReal_neg, neg_div, Complex.sin_neg, sin_qpi]
  rw [c1, c2, ph_neg_half_pi, ph_half_pi, ph_zero, one_smul, neg_add_cancel, ph_zero]
  unfold sxm'
  congr 1
  refine mk_congr ?_ ?_ ?_ ?_ <;> ring

theorem hm_hm' : hm * hm = 1 := by
  unfold hm
  rw [mk_mul, mk_one]
  refine mk_congr ?_ ?_ ?_ ?_
  · linear_combination 2 * r2_sq
  · ring
  · ring
  · linear_combination 2 * r2_sq

theorem sxm_sxm' : sxm' * sxm = 1 := by
  unfold sxm sxm'
  rw [mk_mul, mk_one]
  have hI := Complex.I_mul_I
  refine mk_congr ?_ ?_ ?_ ?_
  · linear_combination 2 * r2_sq - r2 * r2 * hI
  · ring
  · ring
  · linear_combination 2 * r2_sq - r2 * r2 * hI

end Verif.Ham
