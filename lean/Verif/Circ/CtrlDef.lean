import Verif.Circ.Control

/-!
Correctness of the definition circuits of controlled operations (model in `Verif.Circ.Control`).
-/

namespace Verif.Circ

open Verif.Rev (upd)

variable {Q : Type} [DecidableEq Q]

/-- What the proofs need to know about the synthesis gates. -/
structure SynOK (Q : Type) [DecidableEq Q] (S : Syn) : Prop where
  gray_p : ∀ (cs : List Q) (φ : ℝ), cs.Nodup → cs ≠ [] →
    den (S.gray (List.replicate (2 ^ cs.length - 1) 0 ++ [φ])) cs
      = diag fun b => if allOn cs b then ph φ else 1
  gray_d : ∀ (cs : List Q) (t : Q) (φ : ℝ), (cs ++ [t]).Nodup → cs ≠ [] →
    den (S.gray (List.replicate (2 ^ (cs.length + 1) - 2) 0 ++ [-φ, φ])) (cs ++ [t])
      = diag fun b => if allOn cs b then (if b t then ph φ else ph (-φ)) else 1
  gray_pt : ∀ (cs : List Q) (t : Q) (φ : ℝ), (cs ++ [t]).Nodup → cs ≠ [] →
    ∃ D : (Q → Bool) → ℂ, (∀ b v, D (upd b t v) = D b) ∧ (∀ b, D b ≠ 0) ∧
      den (S.grayPT (List.replicate (2 ^ (cs.length + 1) - 1) 0 ++ [φ])) (cs ++ [t])
        = diag fun b => D b * if allOn (cs ++ [t]) b then ph φ else 1
  wf_gray : ∀ t, (S.gray t).WF
  wf_pt : ∀ t, (S.grayPT t).WF
  ar_pt : ∀ n (t : List ℝ), t.length = 2 ^ n → (S.grayPT t).arity = n

/-- A circuit on `cs ++ [t]` acting as a multiplexed gate on `t`. -/
def MuxBody (cs : List Q) (t : Q) (body : List (Op × List Nat)) (M : (Q → Bool) → M2) : Prop :=
  (∀ ψ, denBody body (cs ++ [t]) ψ = mux M t ψ) ∧ ∀ b v, M (upd b t v) = M b

theorem MuxBody.nil (cs : List Q) (t : Q) : MuxBody cs t [] (fun _ => 1) :=
  ⟨fun ψ => by rw [mux_one]; rfl, fun _ _ => rfl⟩

theorem MuxBody.cons {cs : List Q} {t : Q} {o : Op} {is : List Nat} {r : List (Op × List Nat)}
    {N M : (Q → Bool) → M2} (ho : ∀ ψ, den o (pick (cs ++ [t]) is) ψ = mux N t ψ)
    (hN : ∀ b v, N (upd b t v) = N b) (hr : MuxBody cs t r M) :
    MuxBody cs t ((o, is) :: r) (fun b => M b * N b) := by
  refine ⟨fun ψ => ?_, fun b v => by simp only [hr.2, hN]⟩
  simp only [denBody]
  rw [hr.1, ho, mux_mux _ _ _ hN]

theorem MuxBody.congr {cs : List Q} {t : Q} {body : List (Op × List Nat)}
    {N M : (Q → Bool) → M2} (h : MuxBody cs t body M) (e : ∀ b, M b = N b) : MuxBody cs t body N := by
  have : M = N := funext e
  rwa [← this]

theorem pick_last (cs : List Q) (t : Q) : pick (cs ++ [t]) [cs.length] = [t] :=
  pick_one (by simp)

theorem pick_all (cs : List Q) (t : Q) : pick (cs ++ [t]) (List.range (cs.length + 1)) = cs ++ [t] := by
  have := pick_range (cs ++ [t])
  simpa using this

theorem MuxBody.u3 {cs : List Q} {t : Q} {nm : String} {θ φ lam g : ℝ} {r : List (Op × List Nat)}
    {M : (Q → Bool) → M2} (U : M2) (hU : u3m θ φ lam g = U) (hr : MuxBody cs t r M) :
    MuxBody cs t ((.u3 nm θ φ lam g, [cs.length]) :: r) (fun b => M b * U) := by
  refine MuxBody.cons (N := fun _ => U) (fun ψ => ?_) (fun _ _ => rfl) hr
  rw [pick_last]
  simp only [den, on1, hU]
  rfl

theorem MuxBody.gate1 {cs : List Q} {t : Q} {nm : String} {body r : List (Op × List Nat)}
    {M : (Q → Bool) → M2} (U : M2) (hU : ∀ ψ, denBody body [t] ψ = app1 U t ψ)
    (hr : MuxBody cs t r M) :
    MuxBody cs t ((.gate nm 1 body, [cs.length]) :: r) (fun b => M b * U) := by
  refine MuxBody.cons (N := fun _ => U) (fun ψ => ?_) (fun _ _ => rfl) hr
  rw [pick_last]
  simp only [den, hU]
  rfl

theorem allOn_upd {cs : List Q} {t : Q} (ht : t ∉ cs) (b : Q → Bool) (v : Bool) :
    allOn cs (upd b t v) = allOn cs b := by
  unfold allOn
  rw [Bool.eq_iff_iff]
  simp only [List.all_eq_true]
  refine forall₂_congr fun q hq => ?_
  have : q ≠ t := fun e => ht (e ▸ hq)
  simp [upd, this]

theorem allOn_append (cs : List Q) (t : Q) (b : Q → Bool) :
    allOn (cs ++ [t]) b = (allOn cs b && b t) := by simp [allOn]

theorem ctlMatch_ones (cs : List Q) (b : Q → Bool) :
    ctlMatch cs (List.replicate cs.length true) b = allOn cs b := by
  induction cs with
  | nil => rfl
  | cons c cs ih =>
    rw [List.length_cons, List.replicate_succ]
    simp only [ctlMatch, ih, allOn, List.all_cons]
    cases b c <;> rfl

theorem pauli_x_xm : Pauli.x.mat = xm := pauli_x_mk

theorem den_mcx (cs : List Q) (t : Q) (ψ : Amp Q) :
    den (mcxG cs.length) (cs ++ [t]) ψ = mux (fun b => if allOn cs b then xm else 1) t ψ := by
  have h1 : List.take cs.length (cs ++ [t]) = cs := by simp
  have h2 : List.drop cs.length (cs ++ [t]) = [t] := by simp
  simp only [mcxG, den, List.length_replicate, h1, h2, on1]
  have : ctlMatch cs (List.replicate cs.length true) = allOn cs := funext fun b => ctlMatch_ones cs b
  rw [this, pauli_x_xm]
  exact congrFun (ctl_app1 _ _ _) ψ

theorem MuxBody.mcx {cs : List Q} {t : Q} (ht : t ∉ cs) {r : List (Op × List Nat)}
    {M : (Q → Bool) → M2} (hr : MuxBody cs t r M) :
    MuxBody cs t ((mcxG cs.length, List.range (cs.length + 1)) :: r)
      (fun b => M b * if allOn cs b then xm else 1) := by
  refine MuxBody.cons (fun ψ => ?_) (fun b v => by rw [allOn_upd ht]) hr
  rw [pick_all]; exact den_mcx cs t ψ

/-- A diagonal operator as a multiplexed gate. -/
theorem diag_mux (t : Q) (d d0 d1 : (Q → Bool) → ℂ) (h : ∀ b, d b = if b t then d1 b else d0 b) :
    diag d = mux (fun b => mk (d0 b) 0 0 (d1 b)) t := by
  funext ψ b
  simp only [diag, mux, mk, h]
  cases hb : b t
  · have : upd b t false = b := by rw [← hb]; exact upd_self b t
    simp [this]
  · have : upd b t true = b := by rw [← hb]; exact upd_self b t
    simp [this]

theorem one_or_ph (cs : List Q) (φ : ℝ) (b : Q → Bool) :
    mk (if allOn cs b then ph φ else 1) 0 0 (if allOn cs b then ph φ else 1)
      = if allOn cs b then ph φ • 1 else (1 : M2) := by
  rw [mk_one, mk_smul]
  cases allOn cs b <;> simp

theorem MuxBody.gp {S : Syn} (hS : SynOK Q S) {cs : List Q} {t : Q} (hnd : (cs ++ [t]).Nodup)
    {r : List (Op × List Nat)} (φ : ℝ) {M : (Q → Bool) → M2} (hr : MuxBody cs t r M) :
    MuxBody cs t ((S.gray (List.replicate (2 ^ (cs.length + 1) - 1) 0 ++ [φ]),
      List.range (cs.length + 1)) :: r) (fun b => M b * if allOn cs b then pm φ else 1) := by
  have ht : t ∉ cs := fun h => (List.nodup_append.1 hnd).2.2 t h t (by simp) rfl
  refine MuxBody.cons (fun ψ => ?_) (fun b v => by rw [allOn_upd ht]) hr
  have h := hS.gray_p (cs ++ [t]) φ hnd (by simp)
  rw [List.length_append, List.length_singleton] at h
  rw [pick_all, h, diag_mux t _ (fun _ => 1) (fun b => if allOn cs b then ph φ else 1)]
  · refine congrFun (mux_congr _ fun b => ?_) ψ
    unfold pm
    rw [mk_one]
    cases allOn cs b <;> simp
  · intro b
    rw [allOn_append]
    cases b t <;> cases allOn cs b <;> simp

theorem MuxBody.gd {S : Syn} (hS : SynOK Q S) {cs : List Q} {t : Q} (hnd : (cs ++ [t]).Nodup)
    (hne : cs ≠ []) {r : List (Op × List Nat)} (α β φ : ℝ) (h1 : α = -φ) (h2 : β = φ)
    {M : (Q → Bool) → M2} (hr : MuxBody cs t r M) :
    MuxBody cs t ((S.gray (List.replicate (2 ^ (cs.length + 1) - 2) 0 ++ [α, β]),
      List.range (cs.length + 1)) :: r)
      (fun b => M b * if allOn cs b then mk (ph (-φ)) 0 0 (ph φ) else 1) := by
  subst h1 h2
  have ht : t ∉ cs := fun h => (List.nodup_append.1 hnd).2.2 t h t (by simp) rfl
  refine MuxBody.cons (fun ψ => ?_) (fun b v => by rw [allOn_upd ht]) hr
  rw [pick_all, hS.gray_d cs t _ hnd hne, diag_mux t _
    (fun b => if allOn cs b then ph (-β) else 1) (fun b => if allOn cs b then ph β else 1)]
  · refine congrFun (mux_congr _ fun b => ?_) ψ
    rw [mk_one]
    cases allOn cs b <;> simp
  · intro b
    cases b t <;> cases allOn cs b <;> simp

theorem MuxBody.gc {S : Syn} (hS : SynOK Q S) {cs : List Q} {t : Q} (hnd : (cs ++ [t]).Nodup)
    (hne : cs ≠ []) {r : List (Op × List Nat)} (φ : ℝ) {M : (Q → Bool) → M2} (hr : MuxBody cs t r M) :
    MuxBody cs t ((S.gray (List.replicate (2 ^ cs.length - 1) 0 ++ [φ]), List.range cs.length) :: r)
      (fun b => M b * if allOn cs b then ph φ • 1 else 1) := by
  have ht : t ∉ cs := fun h => (List.nodup_append.1 hnd).2.2 t h t (by simp) rfl
  refine MuxBody.cons (fun ψ => ?_) (fun b v => by rw [allOn_upd ht]) hr
  have h := hS.gray_p cs φ (List.nodup_append.1 hnd).1 hne
  rw [pick_range_append, h, diag_mux t _ (fun b => if allOn cs b then ph φ else 1)
    (fun b => if allOn cs b then ph φ else 1)]
  · exact congrFun (mux_congr _ fun b => one_or_ph cs φ b) ψ
  · intro b; cases b t <;> rfl

/-! ### Matrix identities -/

theorem ph_cos (a : ℝ) : ph a = Complex.cos a + Complex.sin a * Complex.I := by
  unfold ph; rw [mul_comm, Complex.exp_mul_I]

theorem ph_neg_cos (a : ℝ) : ph (-a) = Complex.cos a - Complex.sin a * Complex.I := by
  rw [ph_cos]; push_cast; rw [Complex.cos_neg, Complex.sin_neg]; ring

theorem half_cast (θ : ℝ) : ((θ / 2 : ℝ) : ℂ) = (θ : ℂ) / 2 := by push_cast; rfl

theorem rx_mat (θ : ℝ) : hm * mk (ph (-(θ / 2))) 0 0 (ph (θ / 2)) * hm
    = u3m θ (-(Real.pi / 2)) (Real.pi / 2) 0 := by
  have e : ph (-(Real.pi / 2)) = -Complex.I := by
    rw [ph_neg_cos]; push_cast
    rw [Complex.cos_pi_div_two, Complex.sin_pi_div_two]; ring
  unfold hm
  rw [mk_mul, mk_mul, u3m_mk, mk_smul, ph_half_pi, e, neg_add_cancel, ph_zero, ph_neg_cos, ph_cos,
    half_cast]
  have h := r2_sq
  generalize Complex.cos ((θ : ℂ) / 2) = C
  generalize Complex.sin ((θ : ℂ) / 2) = D
  refine mk_congr ?_ ?_ ?_ ?_
  · linear_combination (2 * C) * h
  · linear_combination (-2 * D * Complex.I) * h
  · linear_combination (-2 * D * Complex.I) * h
  · linear_combination (2 * C) * h

theorem I_sq : Complex.I * Complex.I = -1 := Complex.I_mul_I

theorem pm_neg_half_pi : pm (-(Real.pi / 2)) = mk 1 0 0 (-Complex.I) := by
  have e : ph (-(Real.pi / 2)) = -Complex.I := by
    rw [ph_neg_cos]; push_cast
    rw [Complex.cos_pi_div_two, Complex.sin_pi_div_two]; ring
  unfold pm; rw [e]

theorem pm_half_pi : pm (Real.pi / 2) = mk 1 0 0 Complex.I := by unfold pm; rw [ph_half_pi]

theorem ry_mat (θ : ℝ) :
    pm (-(Real.pi / 2)) * (hm * (mk (ph (-(-θ / 2))) 0 0 (ph (-θ / 2)) * (hm * pm (Real.pi / 2))))
      = rym θ := by
  have n1 : -(-θ / 2) = θ / 2 := by ring
  have n2 : -θ / 2 = -(θ / 2) := by ring
  rw [pm_neg_half_pi, pm_half_pi, n1, n2]
  unfold hm rym
  rw [mk_mul, mk_mul, mk_mul, mk_mul, ph_neg_cos, ph_cos, half_cast]
  have h := r2_sq
  have hI := I_sq
  generalize Complex.cos ((θ : ℂ) / 2) = C
  generalize Complex.sin ((θ : ℂ) / 2) = D
  generalize Complex.I = I at *
  refine mk_congr ?_ ?_ ?_ ?_
  · linear_combination (2 * C) * h
  · linear_combination (2 * D * I * I) * h + D * hI
  · linear_combination (-2 * D * I * I) * h - D * hI
  · linear_combination (-2 * C * I * I) * h - C * hI

theorem y_mat : pm (-(Real.pi / 2)) * (xm * pm (Real.pi / 2)) = -Pauli.y.mat := by
  rw [pm_neg_half_pi, pm_half_pi, pauli_y_mk]
  have : -mk 0 (-Complex.I) Complex.I 0 = mk 0 Complex.I (-Complex.I) 0 := by
    rw [← neg_one_smul ℂ, mk_smul]; refine mk_congr ?_ ?_ ?_ ?_ <;> ring
  rw [this]
  unfold xm
  rw [mk_mul, mk_mul]
  refine mk_congr ?_ ?_ ?_ ?_ <;> ring

theorem z_mat : hm * (xm * hm) = Pauli.z.mat := by
  rw [pauli_z_mk]
  unfold hm xm
  rw [mk_mul, mk_mul]
  have h := r2_sq
  refine mk_congr ?_ ?_ ?_ ?_
  · linear_combination 2 * h
  · ring
  · ring
  · linear_combination (-2) * h

theorem sdg_s : pm (-(Real.pi / 2)) * pm (Real.pi / 2) = 1 := by
  rw [pm_pm, neg_add_cancel, pm_zero]

theorem tdg_t : pm (-(Real.pi / 4)) * pm (Real.pi / 4) = 1 := by
  rw [pm_pm, neg_add_cancel, pm_zero]

theorem ph_quarter : ph (Real.pi / 4) = r2 + r2 * Complex.I := by
  rw [ph_cos, show ((Real.pi / 4 : ℝ) : ℂ) = (Real.pi : ℂ) / 4 by push_cast; rfl, sin_r2]; rfl

theorem ph_neg_quarter : ph (-(Real.pi / 4)) = r2 - r2 * Complex.I := by
  rw [ph_neg_cos, show ((Real.pi / 4 : ℝ) : ℂ) = (Real.pi : ℂ) / 4 by push_cast; rfl, sin_r2]; rfl

theorem h_mat : pm (-(Real.pi / 2)) * (hm * (pm (-(Real.pi / 4)) * (xm * (pm (Real.pi / 4) * (hm *
    pm (Real.pi / 2)))))) = hm := by
  rw [pm_neg_half_pi, pm_half_pi]
  unfold pm
  rw [ph_quarter, ph_neg_quarter]
  unfold hm xm
  simp only [mk_mul]
  have h := r2_sq
  have hI := I_sq
  have h3 : r2 * r2 * r2 = r2 / 2 := by rw [h]; ring
  generalize Complex.I = I at *
  refine mk_congr ?_ ?_ ?_ ?_
  · linear_combination 2 * h3
  · linear_combination (-2 * I * I) * h3 - r2 * hI
  · linear_combination (-2 * I * I) * h3 - r2 * hI
  · linear_combination (2 * I * I) * h3 + r2 * hI

theorem h_noctl : pm (-(Real.pi / 2)) * (hm * (pm (-(Real.pi / 4)) * (1 * (pm (Real.pi / 4) * (hm *
    pm (Real.pi / 2)))))) = 1 := by
  rw [one_mul, ← mul_assoc (pm (-(Real.pi / 4))), tdg_t, one_mul, ← mul_assoc hm, hm_hm, one_mul,
    sdg_s]

theorem u3m_pp (φ lam : ℝ) : u3m 0 φ lam 0 = pm (lam + φ) := by
  rw [u3m_mk, mk_smul]
  unfold pm
  refine mk_congr ?_ ?_ ?_ ?_ <;> simp [ph_zero, add_comm]

theorem u3m_rz' (φ lam : ℝ) : u3m 0 φ lam (-(lam + φ) / 2)
    = mk (ph (-((lam + φ) / 2))) 0 0 (ph ((lam + φ) / 2)) := by
  rw [u3m_mk, mk_smul]
  refine mk_congr ?_ ?_ ?_ ?_
  · simp only [Complex.ofReal_zero, zero_div, Complex.cos_zero, mul_one]; congr 1; ring
  · simp
  · simp
  · simp only [Complex.ofReal_zero, zero_div, Complex.cos_zero, mul_one]
    rw [← ph_add]; congr 1; ring

theorem u3m_h' : u3m (-(Real.pi / 2)) (-Real.pi) 0 0 = hm := by
  rw [u3m_mk, mk_smul]
  have e : (((-(Real.pi / 2) : ℝ) : ℂ) / 2) = -((Real.pi : ℂ) / 4) := by push_cast; ring
  have e2 : ph (-Real.pi) = -1 := by
    have := ph_neg Real.pi
    rw [ph_pi] at this
    linear_combination -this
  rw [e, Complex.cos_neg, Complex.sin_neg, sin_r2, add_zero, e2, ph_zero]
  refine mk_congr ?_ ?_ ?_ ?_ <;> simp [r2]

theorem u3m_g (g : ℝ) : u3m 0 0 0 g = ph g • 1 := by
  rw [u3m_mk, mk_one, mk_smul, mk_smul]
  refine mk_congr ?_ ?_ ?_ ?_ <;> simp [ph_zero]

/-- The product of the general case, controls set. -/
theorem abc_on (θ φ lam : ℝ) :
    rzm ((φ - lam) / 2) * (xm * ((rzm (-(lam + φ) / 2) * rym (-θ / 2)) * (xm * (rym (θ / 2) * rzm lam))))
      = rzm φ * rym θ * rzm lam := by
  have h1 : xm * ((rzm (-(lam + φ) / 2) * rym (-θ / 2)) * (xm * (rym (θ / 2) * rzm lam)))
      = (xm * rzm (-(lam + φ) / 2) * xm) * ((xm * rym (-θ / 2) * xm) * (rym (θ / 2) * rzm lam)) := by
    have hx := xm_xm
    calc _ = xm * rzm (-(lam + φ) / 2) * (1 * (rym (-θ / 2) * (xm * (rym (θ / 2) * rzm lam)))) := by
            simp only [mul_assoc, one_mul]
      _ = _ := by rw [← hx]; simp only [mul_assoc]
  rw [h1, xm_rzm, xm_rym, ← mul_assoc (rym _), rym_rym, ← mul_assoc (rzm _), rzm_rzm]
  have e1 : (φ - lam) / 2 + -(-(lam + φ) / 2) = φ := by ring
  have e2 : -(-θ / 2) + θ / 2 = θ := by ring
  rw [e1, e2, mul_assoc]

/-- The product of the general case, controls not set. -/
theorem abc_off (θ φ lam : ℝ) :
    rzm ((φ - lam) / 2) * ((rzm (-(lam + φ) / 2) * rym (-θ / 2)) * (rym (θ / 2) * rzm lam)) = 1 := by
  rw [mul_assoc (rzm (-(lam + φ) / 2)), ← mul_assoc (rym _), rym_rym]
  have e : -θ / 2 + θ / 2 = 0 := by ring
  rw [e, rym_zero, one_mul, rzm_rzm, rzm_rzm]
  have e : (φ - lam) / 2 + (-(lam + φ) / 2 + lam) = 0 := by ring
  rw [e, rzm_zero]

/-! ### The inner controlled X -/

/-- The inner controlled X is correct up to nonzero factors not depending on the target. -/
theorem inner_mux {S : Syn} (hS : SynOK Q S) {cs : List Q} {t : Q} (hnd : (cs ++ [t]).Nodup)
    (hne : cs ≠ []) : ∃ D : (Q → Bool) → ℂ, (∀ b v, D (upd b t v) = D b) ∧ (∀ b, D b ≠ 0) ∧
      ∀ ψ, den (innerMcx S cs.length) (cs ++ [t]) ψ
        = mux (fun b => D b • if allOn cs b then xm else 1) t ψ := by
  have ht : t ∉ cs := fun h => (List.nodup_append.1 hnd).2.2 t h t (by simp) rfl
  by_cases hn : cs.length > 1
  · obtain ⟨D, h1, h2, h3⟩ := hS.gray_pt cs t Real.pi hnd hne
    refine ⟨D, h1, h2, fun ψ => ?_⟩
    unfold innerMcx
    rw [if_pos hn]
    simp only [den]
    have hz : hm * pm Real.pi * hm = xm := by
      have := z_mat
      have e : pm Real.pi = Pauli.z.mat := by rw [pauli_z_mk]; unfold pm; rw [ph_pi]
      rw [e, ← this]
      calc hm * (hm * (xm * hm)) * hm = (hm * hm) * xm * (hm * hm) := by simp only [mul_assoc]
        _ = xm := by rw [hm_hm, one_mul, mul_one]
    have hb : MuxBody cs t [(hG, [cs.length]),
        (S.grayPT (List.replicate (2 ^ (cs.length + 1) - 1) 0 ++ [Real.pi]),
          List.range (cs.length + 1)), (hG, [cs.length])]
        (fun b => ((1 * hm) * (D b • if allOn cs b then pm Real.pi else 1)) * hm) := by
      refine MuxBody.u3 hm u3m_h (MuxBody.cons (fun ψ => ?_) (fun b v => by rw [allOn_upd ht, h1])
        (MuxBody.u3 hm u3m_h (MuxBody.nil cs t)))
      rw [pick_all, h3, diag_mux t _ D (fun b => D b * if allOn cs b then ph Real.pi else 1)]
      · refine congrFun (mux_congr _ fun b => ?_) ψ
        unfold pm
        rw [mk_one]
        cases allOn cs b <;> simp [mk_smul]
      · intro b
        rw [allOn_append]
        cases b t <;> cases allOn cs b <;> simp
    have hb' := hb.congr (N := fun b => D b • if allOn cs b then xm else 1) fun b => by
      rw [one_mul, Matrix.mul_smul, Matrix.smul_mul]
      cases allOn cs b
      · simp [hm_hm]
      · simp [hz]
    exact hb'.1 ψ
  · refine ⟨fun _ => 1, fun _ _ => rfl, fun _ => one_ne_zero, fun ψ => ?_⟩
    have : cs.length = 1 := by
      have : cs.length ≠ 0 := fun h => hne (List.length_eq_zero_iff.1 h)
      omega
    unfold innerMcx
    rw [if_neg hn, ← this, den_mcx]
    refine congrFun (mux_congr _ fun b => ?_) ψ
    rw [one_smul]

theorem innerMcx_wf {S : Syn} (hS : SynOK Q S) (n : Nat) : (innerMcx S n).WF := by
  unfold innerMcx
  split
  · simp only [Op.WF, WFBody, hG, Op.arity]
    refine ⟨trivial, by simp, by simp, rfl, hS.wf_pt _, List.nodup_range, by simp, ?_, trivial,
      by simp, by simp, rfl, trivial⟩
    rw [hS.ar_pt (n + 1) _ (by
      have := Nat.one_le_two_pow (n := n + 1)
      simp; omega)]
    simp
  · simp [mcxG, Op.WF]

/-- The inverse of the inner controlled X. -/
theorem inner_inv_mux {S : Syn} (hS : SynOK Q S) {cs : List Q} {t : Q} (hnd : (cs ++ [t]).Nodup)
    {D : (Q → Bool) → ℂ} (h1 : ∀ b v, D (upd b t v) = D b) (h2 : ∀ b, D b ≠ 0)
    (h3 : ∀ ψ, den (innerMcx S cs.length) (cs ++ [t]) ψ
        = mux (fun b => D b • if allOn cs b then xm else 1) t ψ) (ψ : Amp Q) :
    den (innerMcx S cs.length).inv (cs ++ [t]) ψ
      = mux (fun b => (D b)⁻¹ • if allOn cs b then xm else 1) t ψ := by
  have ht : t ∉ cs := fun h => (List.nodup_append.1 hnd).2.2 t h t (by simp) rfl
  have e : den (innerMcx S cs.length) (cs ++ [t])
      (mux (fun b => (D b)⁻¹ • if allOn cs b then xm else 1) t ψ) = ψ := by
    rw [h3, mux_mux _ _ _ (fun b v => by rw [h1, allOn_upd ht])]
    refine Eq.trans (congrFun (mux_congr t fun b => ?_) ψ) (mux_one t ψ)
    rw [Matrix.smul_mul, Matrix.mul_smul, smul_smul, mul_inv_cancel₀ (h2 b), one_smul]
    cases allOn cs b <;> simp [xm_xm]
  have := den_inv_left (innerMcx S cs.length) (cs ++ [t])
    (mux (fun b => (D b)⁻¹ • if allOn cs b then xm else 1) t ψ) (innerMcx_wf hS _) hnd
  rwa [e] at this

/-! ### The cores -/

/-- The named gates carry the parameters with which the library creates them. -/
def NameOK (nm : String) (θ φ lam g : ℝ) : Prop :=
  (nm ∈ ["p", "t", "s", "t_dg", "s_dg"] → θ = 0 ∧ g = 0) ∧
  (nm = "rz" → θ = 0 ∧ g = -(lam + φ) / 2) ∧
  (nm ∈ ["rx", "sx", "sx_dg"] → φ = -(Real.pi / 2) ∧ lam = Real.pi / 2 ∧ g = 0) ∧
  (nm = "ry" → φ = 0 ∧ lam = 0 ∧ g = 0) ∧
  (nm = "h" → (θ = Real.pi / 2 ∧ φ = 0 ∧ lam = Real.pi ∧ g = 0) ∨
    (θ = -(Real.pi / 2) ∧ φ = -Real.pi ∧ lam = 0 ∧ g = 0)) ∧
  (nm = "gphase" → θ = 0 ∧ φ = 0 ∧ lam = 0)

theorem u3Core_mux {S : Syn} (hS : SynOK Q S) {cs : List Q} {t : Q} (hnd : (cs ++ [t]).Nodup)
    (hne : cs ≠ []) (nm : String) (θ φ lam g : ℝ) (hN : NameOK nm θ φ lam g) :
    MuxBody cs t (u3Core S nm θ φ lam g cs.length)
      (fun b => if allOn cs b then u3m θ φ lam g else 1) := by
  have ht : t ∉ cs := fun h => (List.nodup_append.1 hnd).2.2 t h t (by simp) rfl
  obtain ⟨n1, n2, n3, n4, n5, n6⟩ := hN
  have nil := MuxBody.nil cs t
  unfold u3Core
  simp only
  split
  · next h =>
    obtain ⟨rfl, rfl⟩ := n1 h
    refine (MuxBody.gp hS hnd _ nil).congr fun b => ?_
    rw [one_mul, u3m_pp]
  split
  · next h =>
    obtain ⟨rfl, rfl⟩ := n2 h
    refine (MuxBody.gd hS hnd hne _ _ ((lam + φ) / 2) (by ring) rfl nil).congr fun b => ?_
    rw [one_mul, u3m_rz']
  split
  · next h =>
    obtain ⟨rfl, rfl, rfl⟩ := n3 h
    refine (MuxBody.u3 hm u3m_h (MuxBody.gd hS hnd hne _ _ (θ / 2) (by ring) rfl
      (MuxBody.u3 hm u3m_h nil))).congr fun b => ?_
    cases allOn cs b
    · simp [hm_hm]
    · simp only [if_true]; rw [one_mul, rx_mat]
  split
  · next h =>
    obtain ⟨rfl, rfl, rfl⟩ := n4 h
    refine (MuxBody.u3 (pm (Real.pi / 2)) (u3m_p _) (MuxBody.u3 hm u3m_h
      (MuxBody.gd hS hnd hne _ _ (-θ / 2) (by ring) rfl (MuxBody.u3 hm u3m_h
      (MuxBody.u3 (pm (-(Real.pi / 2))) (u3m_p' _) nil))))).congr fun b => ?_
    cases allOn cs b
    · simp only [Bool.false_eq_true, if_false, mul_one, one_mul]
      rw [mul_assoc (pm _), hm_hm, mul_one, sdg_s]
    · simp only [if_true, one_mul]
      rw [u3m_ry, ← ry_mat θ]
      simp only [mul_assoc]
  split
  · next h =>
    obtain ⟨rfl, rfl, rfl, rfl⟩ := h
    refine nil.congr fun b => ?_
    rw [u3m_g, ph_zero, one_smul]; simp
  split
  · next h =>
    obtain ⟨rfl, rfl, rfl⟩ := h
    refine (MuxBody.gc hS hnd hne g nil).congr fun b => ?_
    rw [one_mul, u3m_g]
  split
  · next h =>
    have hu : u3m θ φ lam g = hm := by
      rcases n5 h with ⟨rfl, rfl, rfl, rfl⟩ | ⟨rfl, rfl, rfl, rfl⟩
      · exact u3m_h
      · exact u3m_h'
    refine (MuxBody.u3 (pm (Real.pi / 2)) (u3m_p _) (MuxBody.u3 hm u3m_h
      (MuxBody.u3 (pm (Real.pi / 4)) (u3m_p _) (MuxBody.mcx ht
      (MuxBody.u3 (pm (-(Real.pi / 4))) (u3m_p' _) (MuxBody.u3 hm u3m_h
      (MuxBody.u3 (pm (-(Real.pi / 2))) (u3m_p' _) nil))))))).congr fun b => ?_
    rw [hu]
    cases allOn cs b
    · simp only [Bool.false_eq_true, if_false]
      have := h_noctl
      simp only [mul_assoc, one_mul] at this ⊢
      exact this
    · simp only [if_true]
      have := h_mat
      simp only [mul_assoc, one_mul] at this ⊢
      exact this
  · obtain ⟨D, d1, d2, d3⟩ := inner_mux hS hnd hne
    have dinv := inner_inv_mux hS hnd d1 d2 d3
    have hA : ∀ ψ : Amp Q, denBody [(rzG lam, [0]), (ryG (θ / 2), [0])] [t] ψ
        = app1 (rym (θ / 2) * rzm lam) t ψ := by
      intro ψ
      simp only [denBody, pick, List.filterMap_cons, List.getElem?_cons_zero, List.filterMap_nil, rzG,
        ryG, den, on1, u3m_rz, u3m_ry, app1_app1]
    have hB : ∀ ψ : Amp Q, denBody [(ryG (-θ / 2), [0]), (rzG (-(lam + φ) / 2), [0])] [t] ψ
        = app1 (rzm (-(lam + φ) / 2) * rym (-θ / 2)) t ψ := by
      intro ψ
      simp only [denBody, pick, List.filterMap_cons, List.getElem?_cons_zero, List.filterMap_nil, rzG,
        ryG, den, on1, u3m_rz, u3m_ry, app1_app1]
    have hC : ∀ ψ : Amp Q, denBody [(rzG ((φ - lam) / 2), [0])] [t] ψ
        = app1 (rzm ((φ - lam) / 2)) t ψ := by
      intro ψ
      simp only [denBody, pick, List.filterMap_cons, List.getElem?_cons_zero, List.filterMap_nil, rzG,
        den, on1, u3m_rz]
    refine (MuxBody.gc hS hnd hne _ (MuxBody.gate1 _ hA (MuxBody.cons (fun ψ => by
      rw [pick_all]; exact d3 ψ) (fun b v => by rw [allOn_upd ht, d1]) (MuxBody.gate1 _ hB
      (MuxBody.cons (fun ψ => by rw [pick_all]; exact dinv ψ) (fun b v => by rw [allOn_upd ht, d1])
      (MuxBody.gate1 _ hC nil)))))).congr fun b => ?_
    simp only [one_mul, Matrix.mul_smul, Matrix.smul_mul, smul_smul, mul_inv_cancel₀ (d2 b), one_smul]
    cases allOn cs b
    · simp only [Bool.false_eq_true, if_false, mul_one]
      have := abc_off θ φ lam
      simp only [mul_assoc] at this ⊢
      exact this
    · simp only [if_true, Matrix.mul_smul, mul_one]
      rw [u3m_zyz, ← abc_on]
      simp only [mul_assoc]

/-- The circuits for X and Z are right; the one for Y implements `-Y`. -/
theorem pauliCore_mux {cs : List Q} {t : Q} (hnd : (cs ++ [t]).Nodup) (p : Pauli) :
    MuxBody cs t (pauliCore p cs.length)
      (fun b => if allOn cs b then (if p = .y then -p.mat else p.mat) else 1) := by
  have ht : t ∉ cs := fun h => (List.nodup_append.1 hnd).2.2 t h t (by simp) rfl
  have nil := MuxBody.nil cs t
  cases p
  · refine (MuxBody.mcx ht nil).congr fun b => ?_
    rw [one_mul]; simp [pauli_x_xm]
  · refine (MuxBody.u3 (pm (Real.pi / 2)) (u3m_p _) (MuxBody.mcx ht
      (MuxBody.u3 (pm (-(Real.pi / 2))) (u3m_p' _) nil))).congr fun b => ?_
    cases allOn cs b
    · simp [sdg_s]
    · simp only [if_true, one_mul]; rw [← y_mat, mul_assoc]
  · refine (MuxBody.u3 hm u3m_h (MuxBody.mcx ht (MuxBody.u3 hm u3m_h nil))).congr fun b => ?_
    cases allOn cs b
    · simp [hm_hm]
    · simp only [if_true, one_mul]
      rw [mul_assoc, z_mat]; simp

/-! ### Controlled X as a classical map -/

theorem ctlMatch_append (cs ds : List Q) (st st' : List Bool) (h : st.length = cs.length)
    (b : Q → Bool) : ctlMatch (cs ++ ds) (st ++ st') b = (ctlMatch cs st b && ctlMatch ds st' b) := by
  induction cs generalizing st with
  | nil =>
    have : st = [] := by simpa using h
    subst this; simp [ctlMatch]
  | cons c cs ih =>
    match st, h with
    | v :: st, h =>
      simp only [List.cons_append, ctlMatch]
      rw [ih st (by simpa using h), Bool.and_assoc]

theorem ctlMatch_upd {cs : List Q} {t : Q} (ht : t ∉ cs) (st : List Bool) (b : Q → Bool) (v : Bool) :
    ctlMatch cs st (upd b t v) = ctlMatch cs st b := by
  refine ctlMatch_agree cs st fun q hq => ?_
  have : q ≠ t := fun e => ht (e ▸ hq)
  simp [upd, this]

theorem den_cx (cs : List Q) (t : Q) (st : List Bool) (h : st.length = cs.length) (ψ : Amp Q) :
    den (.ctrl (.pauli .x) st) (cs ++ [t]) ψ
      = fun b => if ctlMatch cs st b then ψ (upd b t (!(b t))) else ψ b := by
  have h1 : List.take st.length (cs ++ [t]) = cs := by rw [h]; simp
  have h2 : List.drop st.length (cs ++ [t]) = [t] := by rw [h]; simp
  simp only [den, h1, h2, on1, app1_x]
  rfl

/-! ### Controlled swap -/

theorem fredkin_sound {cs : List Q} {p q : Q} (hnd : (cs ++ [p, q]).Nodup) (st : List Bool)
    (hl : st.length = cs.length) (ψ : Amp Q) :
    denBody (fredkinDef st) (cs ++ [p, q]) ψ = ctl (ctlMatch cs st) (swapAmp [p, q]) ψ := by
  have hp : p ∉ cs := fun h => (List.nodup_append.1 hnd).2.2 p h p (by simp) rfl
  have hq : q ∉ cs := fun h => (List.nodup_append.1 hnd).2.2 q h q (by simp) rfl
  have hpq : p ≠ q := by
    have := (List.nodup_append.1 hnd).2.1
    simpa using this
  have k1 : pick (cs ++ [p, q]) [st.length + 1, st.length] = [q] ++ [p] := by
    simp [pick, hl]
  have k2 : pick (cs ++ [p, q]) (List.range (st.length + 2)) = (cs ++ [p]) ++ [q] := by
    have := pick_range (cs ++ [p, q])
    rw [hl]; simpa using this
  have hm : ∀ b, ctlMatch (cs ++ [p]) (st ++ [true]) b = (ctlMatch cs st b && b p) := by
    intro b
    rw [ctlMatch_append _ _ _ _ hl]
    simp [ctlMatch]
  have hm1 : ∀ b : Q → Bool, ctlMatch [q] [true] b = b q := by
    intro b; simp [ctlMatch]
  simp only [fredkinDef, denBody, k1, k2]
  rw [den_cx [q] p [true] rfl, den_cx (cs ++ [p]) q (st ++ [true]) (by simp [hl]),
    den_cx [q] p [true] rfl]
  funext b
  simp only [hm1, hm, ctl, swapAmp]
  have e1 : ∀ (c : Q → Bool) v, upd c p v q = c q := fun c v => by simp [upd, hpq.symm]
  have e2 : ∀ (c : Q → Bool) v, upd c q v p = c p := fun c v => by simp [upd, hpq]
  have com : ∀ (c : Q → Bool) v w, upd (upd c q w) p v = upd (upd c p v) q w := by
    intro c v w
    funext r
    simp only [upd]
    by_cases h1 : r = p
    · subst h1; simp [hpq]
    · simp [h1]
  have self1 : ∀ c : Q → Bool, ∀ v, c p = v → upd c p v = c := fun c v h => h ▸ upd_self c p
  have self2 : ∀ c : Q → Bool, ∀ v, c q = v → upd c q v = c := fun c v h => h ▸ upd_self c q
  cases hc : ctlMatch cs st b <;> cases h1 : b p <;> cases h2 : b q <;>
    simp [ctlMatch_upd hp, ctlMatch_upd hq, hc, h1, h2, e1, e2, upd_same, com, upd_upd] <;>
    congr 1 <;> first
      | exact self1 b _ h1
      | exact (self1 b _ h1).symm
      | (rw [self2 _ _ (by rw [e1]; exact h2), self1 b _ h1])
      | (rw [self1 b _ h1, self2 b _ h2])
      | (symm; rw [self1 b _ h1, self2 b _ h2])

/-! ### Controlled global phase -/

theorem gphase_sound {cs : List Q} {t : Q} (hnd : (cs ++ [t]).Nodup) (st : List Bool)
    (hl : st.length = cs.length) (hne : cs ≠ []) (g : ℝ) (ψ : Amp Q) :
    denBody (gphaseDef g st) (cs ++ [t]) ψ
      = diag (fun b => if ctlMatch cs (st.rotate 1) b then ph g else 1) ψ := by
  obtain ⟨ds, c, rfl⟩ : ∃ ds c, cs = ds ++ [c] :=
    ⟨cs.dropLast, cs.getLast hne, (List.dropLast_append_getLast hne).symm⟩
  match st, hl with
  | [], hl => simp at hl
  | v :: st, hl =>
    have hl' : st.length = ds.length := by simpa using hl
    have hc : c ∉ ds := fun h =>
      (List.nodup_append.1 (List.nodup_append.1 hnd).1).2.2 c h c (by simp) rfl
    have hrot : (v :: st).rotate 1 = st ++ [v] := by simp
    have k1 : pick (ds ++ [c] ++ [t]) [(v :: st).length - 1] = [c] := by
      apply pick_one; simp [hl']
    have k2 : pick (ds ++ [c] ++ [t]) (List.range (v :: st).length) = ds ++ [c] := by
      have := pick_range_append (ds ++ [c]) [t]
      rw [show (v :: st).length = (ds ++ [c]).length by simp [hl']]
      exact this
    have hmatch : ∀ b, ctlMatch (ds ++ [c]) (st ++ [v]) b = (ctlMatch ds st b && (b c == v)) := by
      intro b
      rw [ctlMatch_append _ _ _ _ hl']
      simp [ctlMatch]
    have htemp : ∀ ψ : Amp Q, den (if (v :: st).length > 1 then .ctrl (pG g) st else pG g) (ds ++ [c]) ψ
        = fun b => (if ctlMatch ds st b && b c then ph g else 1) * ψ b := by
      intro ψ
      have hp : ∀ b : Q → Bool, app1 (pm g) c ψ b = (if b c then ph g else 1) * ψ b := by
        intro b
        have := congrFun (congrFun (diag_mux c (fun b => if b c then ph g else 1) (fun _ => 1)
          (fun _ => ph g) fun b => rfl) ψ) b
        exact this.symm
      by_cases h1 : (v :: st).length > 1
      · rw [if_pos h1]
        have e1 : List.take st.length (ds ++ [c]) = ds := by rw [hl']; simp
        have e2 : List.drop st.length (ds ++ [c]) = [c] := by rw [hl']; simp
        simp only [den, e1, e2, pG, on1, u3m_p]
        funext b
        simp only [ctl, hp]
        cases ctlMatch ds st b <;> simp
      · rw [if_neg h1]
        have : st = [] := by
          apply List.length_eq_zero_iff.1
          simp at h1; simp [h1]
        subst this
        have : ds = [] := List.length_eq_zero_iff.1 (by simpa using hl'.symm)
        subst this
        simp only [List.nil_append, pG, den, on1, u3m_p]
        funext b
        rw [hp]; simp [ctlMatch]
    have htail : (v :: st).tail = st := rfl
    simp only [gphaseDef, htail]
    rw [hrot]
    cases v
    · simp only [List.head?_cons, if_true, List.singleton_append, denBody_append, denBody, k1, k2,
        htemp, den, on1, app1_x]
      funext b
      simp only [diag, hmatch, ctlMatch_upd hc, upd_same, upd_upd, Bool.not_not, upd_self]
      cases b c <;> simp
    · have hne : (some true = some false) = False := by simp
      simp only [List.head?_cons, hne, if_false, List.nil_append, List.append_nil, denBody, k2, htemp]
      funext b
      simp only [diag, hmatch]
      cases b c <;> simp

/-! ### Controlled circuits -/

/-- Whether an operation is phase tolerantly controlled. -/
def Op.isPt : Op → Bool
  | .pt .. => true
  | _ => false

theorem mkCtrl_sound (o : Op) (ho : o.isPt = false) (cs us : List Q) (st : List Bool)
    (hl : st.length = cs.length) (ψ : Amp Q) :
    den (mkCtrl o st) (cs ++ us) ψ = ctl (ctlMatch cs st) (den o us) ψ := by
  have plain : den (.ctrl o st) (cs ++ us) ψ = ctl (ctlMatch cs st) (den o us) ψ := by
    have e1 : List.take st.length (cs ++ us) = cs := by rw [hl]; simp
    have e2 : List.drop st.length (cs ++ us) = us := by rw [hl]; simp
    simp only [den, e1, e2]
  cases o with
  | ctrl b st' =>
    have e1 : List.take (st ++ st').length (cs ++ us) = cs ++ us.take st'.length := by
      rw [List.length_append, hl, List.take_length_add_append]
    have e2 : List.drop (st ++ st').length (cs ++ us) = us.drop st'.length := by
      rw [List.length_append, hl, List.drop_length_add_append]
    simp only [mkCtrl, den, e1, e2]
    have : ctlMatch (cs ++ us.take st'.length) (st ++ st')
        = fun b => ctlMatch cs st b && ctlMatch (us.take st'.length) st' b :=
      funext fun b => ctlMatch_append _ _ _ _ hl b
    rw [this]
    exact (ctl_ctl _ _ _ _).symm
  | pt _ _ _ => simp [Op.isPt] at ho
  | _ => exact plain

theorem ctlCircuit_sound {cs ts : List Q} (hnd : (cs ++ ts).Nodup) (st : List Bool)
    (hl : st.length = cs.length) (body : List (Op × List Nat))
    (hb : ∀ x ∈ body, x.1.isPt = false) (ψ : Amp Q) :
    denBody (ctlCircuit st body) (cs ++ ts) ψ = ctl (ctlMatch cs st) (denBody body ts) ψ := by
  have hp : ∀ b c, Agree (supp ts)ᶜ b c → ctlMatch cs st b = ctlMatch cs st c := by
    intro b c hbc
    refine ctlMatch_agree _ _ fun q hq => hbc q fun hq' => ?_
    exact (List.nodup_append.1 hnd).2.2 q hq q hq' rfl
  induction body generalizing ψ with
  | nil => simp only [ctlCircuit, denBody]; rw [ctl_id]
  | cons x r ih =>
    obtain ⟨o, is⟩ := x
    have ihr := ih fun x hx => hb x (by simp [hx])
    have ho : o.isPt = false := hb (o, is) (by simp)
    have step : ∀ o : Op, o.isPt = false → denBody ((mkCtrl o st, List.range st.length ++ is.map (· + st.length))
        :: ctlCircuit st r) (cs ++ ts) ψ = ctl (ctlMatch cs st) (denBody ((o, is) :: r) ts) ψ := by
      intro o ho
      have k : pick (cs ++ ts) (List.range st.length ++ is.map (· + st.length)) = cs ++ pick ts is := by
        have e1 := pick_range_append cs ts
        have e2 := pick_shift cs ts is
        unfold pick at e1 e2 ⊢
        rw [List.filterMap_append, hl, e1, e2]
      simp only [denBody]
      rw [k, mkCtrl_sound o ho cs _ st hl, ihr, ctl_comp (denBody_loc r ts) hp]
    cases o with
    | alloc => simp only [ctlCircuit, denBody, den]; exact ihr ψ
    | dealloc => simp only [ctlCircuit, denBody, den]; exact ihr ψ
    | u3 nm θ φ lam g => exact step _ ho
    | pauli p => exact step _ ho
    | barrier n => exact step _ ho
    | swap => exact step _ ho
    | gate nm n b => exact step _ ho
    | ctrl b s => exact step _ ho
    | pt b s bd => exact step _ ho

/-! ### All cases -/

/-- The operations whose controlled version has a correct definition circuit. -/
def CtlOK (o : Op) (st : List Bool) : Prop :=
  match o with
  | .u3 nm θ φ lam g => NameOK nm θ φ lam g ∧ (nm = "gphase" → st.rotate 1 = st)
  | .pauli p => p ≠ .y
  | .gate nm _ body => nm ≠ "swap" ∧ ∀ x ∈ body, x.1.isPt = false
  | _ => True

theorem ctrlDef_sound {S : Syn} (hS : SynOK Q S) (o : Op) (st : List Bool) (hst : st ≠ [])
    (hok : CtlOK o st) (body : List (Op × List Nat)) (hd : ctrlDef S o st = some body) (qs : List Q)
    (hnd : qs.Nodup) (hq : qs.length = st.length + o.arity) (ψ : Amp Q) :
    denBody body qs ψ = den (.ctrl o st) qs ψ := by
  obtain ⟨cs, ts, rfl, hcs⟩ : ∃ cs ts, qs = cs ++ ts ∧ cs.length = st.length :=
    ⟨qs.take st.length, qs.drop st.length, (List.take_append_drop _ _).symm, by
      rw [List.length_take]; omega⟩
  have hts : ts.length = o.arity := by rw [List.length_append] at hq; omega
  have hne : cs ≠ [] := by
    intro h; subst h
    exact hst (List.length_eq_zero_iff.1 hcs.symm)
  have e1 : List.take st.length (cs ++ ts) = cs := by rw [← hcs]; simp
  have e2 : List.drop st.length (cs ++ ts) = ts := by rw [← hcs]; simp
  cases o with
  | u3 nm θ φ lam g =>
    obtain ⟨t, rfl⟩ : ∃ t, ts = [t] := List.length_eq_one_iff.1 hts
    simp only [den, e1, e2, on1]
    simp only [CtlOK] at hok
    simp only [ctrlDef] at hd
    by_cases hg : nm = "gphase"
    · rw [if_pos hg] at hd
      obtain rfl := Option.some.inj hd
      obtain ⟨rfl, rfl, rfl⟩ := hok.1.2.2.2.2.2 hg
      rw [gphase_sound hnd st hcs.symm hne, hok.2 hg, u3m_g, ctl_app1]
      refine congrFun (Eq.trans (diag_mux t _ (fun b => if ctlMatch cs st b then ph g else 1)
        (fun b => if ctlMatch cs st b then ph g else 1) fun b => by cases b t <;> rfl)
        (mux_congr t fun b => ?_)) ψ
      rw [mk_one, mk_smul]
      cases ctlMatch cs st b <;> simp
    · rw [if_neg hg] at hd
      obtain rfl := Option.some.inj hd
      have := u3Core_mux hS hnd hne nm θ φ lam g hok.1
      rw [hcs] at this
      exact flips_conj hnd st hcs.symm _ _ this.1 ψ
  | pauli p =>
    obtain ⟨t, rfl⟩ : ∃ t, ts = [t] := List.length_eq_one_iff.1 hts
    simp only [den, e1, e2, on1]
    simp only [CtlOK] at hok
    simp only [ctrlDef] at hd
    split at hd
    · simp at hd
    · obtain rfl := Option.some.inj hd
      have := (pauliCore_mux hnd p).congr (N := fun b => if allOn cs b then p.mat else 1) fun b => by
        rw [if_neg hok]
      rw [hcs] at this
      exact flips_conj hnd st hcs.symm _ _ this.1 ψ
  | swap =>
    obtain ⟨p, q, rfl⟩ : ∃ p q, ts = [p, q] := List.length_eq_two.1 hts
    simp only [ctrlDef] at hd
    obtain rfl := Option.some.inj hd
    rw [fredkin_sound hnd st hcs.symm]
    simp only [den, e1, e2]
  | gate nm n b =>
    simp only [CtlOK] at hok
    simp only [ctrlDef] at hd
    split at hd
    · simp at hd
    · rw [if_neg hok.1] at hd
      obtain rfl := Option.some.inj hd
      rw [ctlCircuit_sound hnd st hcs.symm b hok.2]
      simp only [den, e1, e2]
  | alloc => simp [ctrlDef] at hd
  | dealloc => simp [ctrlDef] at hd
  | barrier _ => simp [ctrlDef] at hd
  | ctrl _ _ => simp [ctrlDef] at hd
  | pt _ _ _ => simp [ctrlDef] at hd

/-- What the definition circuit of a multi-controlled Y implements. -/
theorem ctrlY_def (S : Syn) (st : List Bool) (hst : st ≠ [true]) (body : List (Op × List Nat))
    (hd : ctrlDef S (.pauli .y) st = some body) {cs : List Q} {t : Q} (hnd : (cs ++ [t]).Nodup)
    (hl : st.length = cs.length) (ψ : Amp Q) :
    denBody body (cs ++ [t]) ψ = ctl (ctlMatch cs st) (app1 (-Pauli.y.mat) t) ψ := by
  simp only [ctrlDef, if_neg hst] at hd
  obtain rfl := Option.some.inj hd
  have := pauliCore_mux hnd Pauli.y
  simp only [if_true] at this
  rw [← hl] at this
  exact flips_conj hnd st hl _ _ this.1 ψ

end Verif.Circ
