import Verif.Circ.Chan
import Verif.Circ.Two
import Verif.Circ.CtrlDef

/-!
The passes convert_to_cx and convert_to_cz.
-/

namespace Verif.Circ

open Verif.Rev (upd)

variable {Q C K : Type} [DecidableEq Q] [DecidableEq C]

/-- standard_operations.py:85-94 `CXGate`. -/
def cxG : Op := .ctrl (.pauli .x) [true]
/-- standard_operations.py:97-106 `CYGate`. -/
def cyG : Op := .ctrl (.pauli .y) [true]
/-- standard_operations.py:109-118 `CZGate`. -/
def czG : Op := .ctrl (.pauli .z) [true]

/-- The unitary instructions of a list. -/
def uIns (l : List (Op × List Q)) : List (CI Q C K) := l.map fun x => ⟨.uni x.1, x.2, []⟩

/-- The operator of a list of unitary instructions. -/
noncomputable def runU : List (Op × List Q) → Amp Q → Amp Q
  | [], ψ => ψ
  | (o, qs) :: r, ψ => runU r (den o qs ψ)

/-- convert_to_cx.py:93-114: what one instruction is replaced by (`none`: ValueError). -/
noncomputable def toCx (strict : Bool) (i : CI Q C K) : Option (List (CI Q C K)) :=
  match i.qs with
  | [a, b] =>
    if i.op.name = "cx" ∨ i.op.name = "barrier" then some [i]
    else if i.op.name = "cz" then some (uIns [(hG, [b]), (cxG, [a, b]), (hG, [b])])
    else if i.op.name = "cy" then some (uIns [(sdgG, [b]), (cxG, [a, b]), (sG, [b])])
    else if i.op.name = "swap" then some (uIns [(cxG, [a, b]), (cxG, [b, a]), (cxG, [a, b])])
    else if strict then none
    else some [i]
  | _ => some [i]

/-- convert_to_cx.py:89-116. -/
noncomputable def convertToCx (strict : Bool) (data : List (CI Q C K)) : Option (List (CI Q C K)) :=
  (data.mapM (toCx strict)).map List.flatten

/-- convert_to_cz.py:94-125: what one instruction is replaced by (`none`: ValueError). -/
noncomputable def toCz (strict : Bool) (i : CI Q C K) : Option (List (CI Q C K)) :=
  match i.qs with
  | [a, b] =>
    if i.op.name = "cz" ∨ i.op.name = "barrier" then some [i]
    else if i.op.name = "cx" then some (uIns [(hG, [b]), (czG, [a, b]), (hG, [b])])
    else if i.op.name = "cy" then
      some (uIns [(sdgG, [b]), (hG, [b]), (czG, [a, b]), (hG, [b]), (sG, [b])])
    else if i.op.name = "swap" then
      some (uIns [(hG, [b]), (czG, [a, b]), (hG, [b]), (hG, [a]), (czG, [b, a]), (hG, [a]),
        (hG, [b]), (czG, [a, b]), (hG, [b])])
    else if strict then none
    else some [i]
  | _ => some [i]

/-- convert_to_cz.py:90-127. -/
noncomputable def convertToCz (strict : Bool) (data : List (CI Q C K)) : Option (List (CI Q C K)) :=
  (data.mapM (toCz strict)).map List.flatten

/-! ### Proofs -/

theorem runU_loc (l : List (Op × List Q)) : Loc Set.univ (runU l) := by
  induction l with
  | nil => exact Loc.id _
  | cons x r ih =>
    obtain ⟨o, qs⟩ := x
    exact ih.comp ((den_loc o qs).mono (Set.subset_univ _))

theorem crun_uIns (I : Interp Q C K) (l : List (Op × List Q)) (Ψ : Amp (Wire Q C)) :
    crun I (uIns l) Ψ = lift (runU l) Ψ := by
  induction l generalizing Ψ with
  | nil => exact (lift_id Ψ).symm
  | cons x r ih =>
    obtain ⟨o, qs⟩ := x
    have : crun I (uIns ((o, qs) :: r)) Ψ = crun I (uIns r) (lift (den o qs) Ψ) := by
      simp only [uIns, List.map_cons, crun, cden]
    rw [this, ih, lift_comp (runU_loc r) ((den_loc o qs).mono (Set.subset_univ _))]
    rfl

theorem den_h (q : Q) (ψ : Amp Q) : den hG [q] ψ = app1 hm q ψ := by
  simp only [hG, den, on1, u3m_h]

theorem den_s (q : Q) (ψ : Amp Q) : den sG [q] ψ = app1 (pm (Real.pi / 2)) q ψ := by
  simp only [sG, den, on1, u3m_p]

theorem den_sdg (q : Q) (ψ : Amp Q) : den sdgG [q] ψ = app1 (pm (-(Real.pi / 2))) q ψ := by
  simp only [sdgG, den, on1, u3m_p']

theorem den_ctl1 (p : Pauli) (v : Bool) (a b : Q) (ψ : Amp Q) :
    den (.ctrl (.pauli p) [v]) [a, b] ψ = app2 (ctl2 v p.mat) a b ψ := by
  rw [← ctl_snd]
  simp only [den, List.length_singleton, List.take_succ_cons, List.take_zero, List.drop_succ_cons,
    List.drop_zero]
  rfl

theorem den_ctl1' {a b : Q} (hab : a ≠ b) (p : Pauli) (v : Bool) (ψ : Amp Q) :
    den (.ctrl (.pauli p) [v]) [b, a] ψ = app2 (ctl2' v p.mat) a b ψ := by
  rw [← ctl_fst hab, ctl_snd, den_ctl1]

theorem s_x_sdg : pm (Real.pi / 2) * (xm * pm (-(Real.pi / 2))) = Pauli.y.mat := by
  rw [pm_half_pi, pm_neg_half_pi, pauli_y_mk]
  unfold xm
  rw [mk_mul, mk_mul]
  refine mk_congr ?_ ?_ ?_ ?_ <;> simp

theorem h_z_h : hm * (Pauli.z.mat * hm) = Pauli.x.mat := by
  have h := z_mat
  rw [← h, pauli_x_xm]
  have : hm * (hm * (xm * hm) * hm) = (hm * hm) * xm * (hm * hm) := by simp only [mul_assoc]
  rw [this, hm_hm]; simp

/-- CZ from CX. -/
theorem cz_id {a b : Q} (hab : a ≠ b) (ψ : Amp Q) :
    runU [(hG, [b]), (cxG, [a, b]), (hG, [b])] ψ = den czG [a, b] ψ := by
  simp only [runU, den_h, cxG, czG, den_ctl1, app1_snd (a := a), app2_app2 hab]
  rw [conj_ctl2 true Pauli.x.mat hm hm hm_hm, pauli_x_xm, z_mat]

/-- CX from CZ. -/
theorem cx_id {a b : Q} (hab : a ≠ b) (ψ : Amp Q) :
    runU [(hG, [b]), (czG, [a, b]), (hG, [b])] ψ = den cxG [a, b] ψ := by
  simp only [runU, den_h, cxG, czG, den_ctl1, app1_snd (a := a), app2_app2 hab]
  rw [conj_ctl2 true Pauli.z.mat hm hm hm_hm, h_z_h]

/-- CY from CX. -/
theorem cy_id {a b : Q} (hab : a ≠ b) (ψ : Amp Q) :
    runU [(sdgG, [b]), (cxG, [a, b]), (sG, [b])] ψ = den cyG [a, b] ψ := by
  have h1 : pm (Real.pi / 2) * pm (-(Real.pi / 2)) = 1 := by
    have := sdg_s
    unfold pm at this ⊢
    rw [mk_mul] at this ⊢
    rw [← this]
    refine mk_congr ?_ ?_ ?_ ?_ <;> ring
  simp only [runU, den_s, den_sdg, cxG, cyG, den_ctl1, app1_snd (a := a), app2_app2 hab]
  rw [conj_ctl2 true Pauli.x.mat _ _ h1, pauli_x_xm, s_x_sdg]

/-- A swap is three CX gates. -/
theorem swap_id {a b : Q} (hab : a ≠ b) (ψ : Amp Q) :
    runU [(cxG, [a, b]), (cxG, [b, a]), (cxG, [a, b])] ψ = den .swap [a, b] ψ := by
  simp only [runU, cxG, den_ctl1, den_ctl1' hab, app2_app2 hab, pauli_x_mk]
  simp only [den]
  rw [swap_app2 hab, swap_conj_ctl]

/-- The meaning of the name of a two qubit instruction. -/
def NameMeans (I : Interp Q C K) (i : CI Q C K) (nm : String) (o : Op) : Prop :=
  ∀ a b, i.qs = [a, b] → i.op.name = nm → ∀ Ψ, cden I i.op i.qs i.cs Ψ = lift (den o [a, b]) Ψ

theorem toCx_sound (I : Interp Q C K) (strict : Bool) (i : CI Q C K) (hnd : i.qs.Nodup)
    (hz : NameMeans I i "cz" czG) (hy : NameMeans I i "cy" cyG) (hs : NameMeans I i "swap" .swap)
    (out : List (CI Q C K)) (h : toCx strict i = some out) (Ψ : Amp (Wire Q C)) :
    crun I out Ψ = cden I i.op i.qs i.cs Ψ := by
  have hself : crun I [i] Ψ = cden I i.op i.qs i.cs Ψ := rfl
  unfold toCx at h
  split at h
  · rename_i a b hq
    have hab : a ≠ b := by rw [hq] at hnd; simpa using hnd
    split at h
    · cases h; exact hself
    split at h
    · rename_i hn
      cases h
      rw [crun_uIns, hz a b hq hn]
      exact lift_congr (cz_id hab) Ψ
    split at h
    · rename_i hn
      cases h
      rw [crun_uIns, hy a b hq hn]
      exact lift_congr (cy_id hab) Ψ
    split at h
    · rename_i hn
      cases h
      rw [crun_uIns, hs a b hq hn]
      exact lift_congr (swap_id hab) Ψ
    split at h
    · cases h
    · cases h; exact hself
  · cases h; exact hself

theorem toCz_sound (I : Interp Q C K) (strict : Bool) (i : CI Q C K) (hnd : i.qs.Nodup)
    (hx : NameMeans I i "cx" cxG) (hy : NameMeans I i "cy" cyG) (hs : NameMeans I i "swap" .swap)
    (out : List (CI Q C K)) (h : toCz strict i = some out) (Ψ : Amp (Wire Q C)) :
    crun I out Ψ = cden I i.op i.qs i.cs Ψ := by
  have hself : crun I [i] Ψ = cden I i.op i.qs i.cs Ψ := rfl
  have cx' : ∀ {a b : Q} (_ : a ≠ b) (ψ : Amp Q),
      den hG [b] (den czG [a, b] (den hG [b] ψ)) = den cxG [a, b] ψ := fun hab ψ => cx_id hab ψ
  unfold toCz at h
  split at h
  · rename_i a b hq
    have hab : a ≠ b := by rw [hq] at hnd; simpa using hnd
    split at h
    · cases h; exact hself
    split at h
    · rename_i hn
      cases h
      rw [crun_uIns, hx a b hq hn]
      exact lift_congr (cx_id hab) Ψ
    split at h
    · rename_i hn
      cases h
      rw [crun_uIns, hy a b hq hn]
      refine lift_congr (fun ψ => ?_) Ψ
      simp only [runU, cx' hab]
      exact cy_id hab ψ
    split at h
    · rename_i hn
      cases h
      rw [crun_uIns, hs a b hq hn]
      refine lift_congr (fun ψ => ?_) Ψ
      simp only [runU, cx' hab, cx' (Ne.symm hab)]
      exact swap_id hab ψ
    split at h
    · cases h
    · cases h; exact hself
  · cases h; exact hself

/-- Replacing instructions one by one. -/
theorem mapM_sound (I : Interp Q C K) (f : CI Q C K → Option (List (CI Q C K)))
    (data : List (CI Q C K))
    (hf : ∀ i ∈ data, ∀ out, f i = some out → ∀ Ψ, crun I out Ψ = cden I i.op i.qs i.cs Ψ)
    (out : List (CI Q C K)) (h : (data.mapM f).map List.flatten = some out) (Ψ : Amp (Wire Q C)) :
    crun I out Ψ = crun I data Ψ := by
  induction data generalizing out Ψ with
  | nil =>
    simp only [List.mapM_nil] at h
    cases h; rfl
  | cons i r ih =>
    simp only [List.mapM_cons] at h
    cases hi : f i with
    | none => simp [hi] at h
    | some o =>
      cases hr : List.mapM f r with
      | none => simp [hi, hr] at h
      | some rs =>
        simp [hi, hr] at h
        subst h
        rw [crun_append, hf i (by simp) o hi]
        have := ih (fun j hj => hf j (by simp [hj])) rs.flatten (by rw [hr]; rfl)
          (cden I i.op i.qs i.cs Ψ)
        rw [this]; rfl

end Verif.Circ
