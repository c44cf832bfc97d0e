import Verif.Rev.MontInplace

/-!
Montgomery multiplication of two quantum residues: `qq_montgomery_multiply` and
`qq_montgomery_multiply_modulus` (`jasp_arithmetic/jasp_montgomery.py` 251-375).
-/

set_option linter.unusedSectionVars false
set_option linter.unusedSimpArgs false

namespace Verif.Rev

variable {Q : Type} [DecidableEq Q]

/-- jasp_montgomery.py 344-347 `qq_mul(ox, oy, ores)`, positions `i, i+1, …` of `oy`. -/
def qqMul (A : Adder Q) (x S : List Q) : Nat → List Q → St Q → St Q
  | _, [], s => s
  | i, q :: r, s => qqMul A x S (i + 1) r (ctl q (A.addQ x (S.drop i)) s)

/-- `with invert(): qq_mul(…)`. -/
def qqMulInv (A : Adder Q) (x S : List Q) : Nat → List Q → St Q → St Q
  | _, [], s => s
  | i, q :: r, s => ctl q (A.invQ x (S.drop i)) (qqMulInv A x S (i + 1) r s)

/-- jasp_montgomery.py 355-373: `wqf = aux + res`; `qc_mul_inplace` (349-353) is the loop of
`inpl_q_int_mult` with constant `N`. -/
def qqMontMult (A : Adder Q) (N : Int) (m : Nat) (x y aux res : List Q) (s : St Q) : St Q :=
  let s := qqMul A x (aux ++ res).dropLast 0 y s
  let s := monReduce A (aux ++ res) N m s
  let s := inplMultLoop A aux N (aux.length - 1) s
  qqMulInv A x aux 0 y s

/-- jasp_montgomery.py 336-337: the shift used by `qq_montgomery_multiply_modulus`. -/
def qqShift (N : Nat) : Nat := smallestPow ((N - 1) ^ 2 + 1) - smallestPow N

theorem addC_drop_any (c : Int) (l : List Q) (k : Nat) (s : St Q) (h : l.Nodup) :
    addC c (l.drop k) s = addC (c * 2 ^ k) l s := by
  rcases Nat.lt_or_ge l.length k with hk | hk
  · have e : l.drop k = [] := List.drop_eq_nil_of_le hk.le
    rw [e, addC_congr_mod (c * 2 ^ k) 0 l s h, addC_zero _ _ h]
    · rfl
    · have : (2 : Int) ^ l.length ∣ c * 2 ^ k := (pow_dvd_pow 2 hk.le).mul_left c
      exact (Int.modEq_zero_iff_dvd).2 this
  · exact addC_drop c l k s h hk

theorem qqMul_spec {A : Adder Q} (hA : A.Correct) (x S : List Q) (i : Nat) (y : List Q) (s : St Q)
    (hxS : (x ++ S).Nodup) (hyS : ∀ q ∈ y, q ∉ S) :
    qqMul A x S i y s = addC (regVal x s * regVal y s * 2 ^ i) S s := by
  have hS : S.Nodup := (List.nodup_append.1 hxS).2.1
  have hxd : ∀ q ∈ x, q ∉ S := fun q hq h => (List.nodup_append.1 hxS).2.2 q hq q h rfl
  induction y generalizing i s with
  | nil => simp [qqMul, addC_zero _ _ hS]
  | cons q r ih =>
    have hxSi : (x ++ S.drop i).Nodup := hxS.sublist (List.Sublist.append_left (List.drop_sublist i S) x)
    have hstep : ctl q (A.addQ x (S.drop i)) s = addC (regVal x s * (s q).toNat * 2 ^ i) S s := by
      unfold ctl
      rw [hA.addQ_eq _ _ _ hxSi, addC_drop_any _ _ _ _ hS]
      cases s q <;> simp [addC_zero _ _ hS]
    rw [qqMul, hstep, ih (i + 1) _ (fun p hp => hyS p (by simp [hp])), addC_addC _ _ _ _ hS,
      regVal_addC_disj _ _ _ _ hxd, regVal_addC_disj _ _ _ _ (fun p hp => hyS p (by simp [hp])),
      regVal_cons]
    congr 1
    rw [pow_succ]; push_cast; ring

theorem qqMulInv_spec {A : Adder Q} (hA : A.Correct) (x S : List Q) (i : Nat) (y : List Q) (s : St Q)
    (hxS : (x ++ S).Nodup) (hyS : ∀ q ∈ y, q ∉ S) :
    qqMulInv A x S i y s = addC (-(regVal x s * regVal y s * 2 ^ i)) S s := by
  have hS : S.Nodup := (List.nodup_append.1 hxS).2.1
  have hxd : ∀ q ∈ x, q ∉ S := fun q hq h => (List.nodup_append.1 hxS).2.2 q hq q h rfl
  induction y generalizing i s with
  | nil => simp [qqMulInv, addC_zero _ _ hS]
  | cons q r ih =>
    have hxSi : (x ++ S.drop i).Nodup := hxS.sublist (List.Sublist.append_left (List.drop_sublist i S) x)
    rw [qqMulInv, ih (i + 1) _ (fun p hp => hyS p (by simp [hp]))]
    set a : Int := -((regVal x s : Int) * regVal r s * 2 ^ (i + 1)) with ha
    have hstep : ctl q (A.invQ x (S.drop i)) (addC a S s)
        = addC (-(regVal x s * (s q).toNat * 2 ^ i)) S (addC a S s) := by
      unfold ctl
      rw [hA.invQ_eq _ _ _ hxSi, addC_drop_any _ _ _ _ hS, regVal_addC_disj _ _ _ _ hxd,
        addC_frame _ _ _ _ (hyS q (by simp))]
      cases s q <;> simp [addC_zero _ _ hS]
    rw [hstep, addC_addC _ _ _ _ hS, regVal_cons]
    congr 1
    rw [ha, pow_succ]; push_cast; ring

/-- Multiplication of two quantum integers with `x y < 2^(m+n)`. -/
theorem qqMontMult_spec {A : Adder Q} (hA : A.Correct) (N m : Nat) (x y aux res : List Q) (s : St Q)
    (hN : N % 2 = 1) (hx : (x ++ (aux ++ res)).Nodup) (hy : ∀ q ∈ y, q ∉ aux ++ res)
    (haux : aux.length = m + 1) (hres : N ≤ 2 ^ res.length) (hne : res ≠ [])
    (hz : ∀ q ∈ aux ++ res, s q = false)
    (hT : regVal x s * regVal y s < 2 ^ (m + res.length)) :
    let s' := qqMontMult A N m x y aux res s
    (∃ (u : Nat) (W : Int), u < 2 ^ m ∧ (regVal x s * regVal y s : Int) - u * N = 2 ^ m * W
      ∧ (regVal res s' : Int) = if W < 0 then W + N else W)
    ∧ (regVal res s' : Int) * 2 ^ m ≡ regVal x s * regVal y s [ZMOD N]
    ∧ ∀ q, q ∉ res → s' q = s q := by
  have hwn : (aux ++ res).Nodup := (List.nodup_append.1 hx).2.1
  have hxd : ∀ q ∈ x, q ∉ aux ++ res := fun q hq h => (List.nodup_append.1 hx).2.2 q hq q h rfl
  have hauxn : aux.Nodup := (List.nodup_append.1 hwn).1
  have hresn : res.Nodup := (List.nodup_append.1 hwn).2.1
  set w := aux ++ res with hw
  have hwl : w.length = m + 1 + res.length := by rw [hw, List.length_append, haux]
  have hsub : w.dropLast.Sublist w := List.dropLast_sublist w
  have hdn : w.dropLast.Nodup := hwn.sublist hsub
  have hxw : (x ++ w.dropLast).Nodup := hx.sublist (List.Sublist.append_left hsub x)
  set T : Nat := regVal x s * regVal y s with hTd
  -- product
  set s1 := addC (T : Int) w.dropLast s with hs1
  have e1 : qqMul A x w.dropLast 0 y s = s1 := by
    rw [qqMul_spec hA x _ 0 y s hxw (fun q hq h => hy q hq (hsub.mem h)), hs1, hTd]
    congr 1; push_cast; ring
  have f1 : ∀ q, q ∉ w → s1 q = s q := fun q hq => addC_frame _ _ _ _ (fun h => hq (hsub.mem h))
  have v1d : regVal w.dropLast s1 = T := by
    have h0 : (regVal w.dropLast s1 : Int) = T := by
      rw [hs1, regVal_addC _ _ _ hdn, regVal_zero (fun q hq => hz q (hsub.mem hq)), Nat.cast_zero,
        add_zero, Int.emod_eq_of_lt (by positivity)]
      have : w.dropLast.length = m + res.length := by rw [List.length_dropLast, hwl]; omega
      rw [this]; exact_mod_cast hT
    exact_mod_cast h0
  have v1 : regVal w s1 = T := by
    have hwne : w ≠ [] := by intro h; rw [h] at hwl; simp at hwl; omega
    have hlast := List.dropLast_append_getLast hwne
    have hnl : w.getLast hwne ∉ w.dropLast := by
      rw [← hlast] at hwn
      intro h
      exact (List.nodup_append.1 hwn).2.2 _ h _ (by simp) rfl
    rw [← hlast, regVal_append, v1d]
    simp only [regVal_cons, regVal_nil]
    rw [hs1, addC_frame _ _ _ _ hnl, hz _ (List.getLast_mem hwne)]
    simp
  -- reduction
  obtain ⟨⟨u, W, r0, r1, r1'⟩, r2, r3, r4⟩ := monReduce_gen hA aux res N m hN hwn haux hres hne s1 (by
    intro u W hu h
    rw [← hw, v1] at h
    have h2 : (T : Int) < 2 ^ m * 2 ^ res.length := by rw [← pow_add]; exact_mod_cast hT
    have h3 : (0 : Int) ≤ u * N := by positivity
    have h4 : (2 : Int) ^ m * W < 2 ^ m * 2 ^ res.length := by linarith
    exact lt_of_mul_lt_mul_left h4 (by positivity))
  rw [← hw] at r1 r1' r2 r3 r4
  set s2 := monReduce A w N m s1 with hs2
  rw [v1] at r1 r2 r3
  -- multiplication of aux by N
  set s3 := addC (((N : Int) - 1) * (regVal aux s2 % 2 ^ m : Nat)) aux s2 with hs3
  have e3 : inplMultLoop A aux N (aux.length - 1) s2 = s3 := by
    rw [inplMultLoop_spec hA aux N (by omega) hauxn _ (by omega), haux]; rfl
  have hxa : ∀ q ∈ x, q ∉ aux := fun q hq h => hxd q hq (List.mem_append_left _ h)
  have hya : ∀ q ∈ y, q ∉ aux := fun q hq h => hy q hq (List.mem_append_left _ h)
  have f3 : ∀ q, q ∉ w → s3 q = s q := fun q hq => by
    rw [hs3, addC_frame _ _ _ _ (fun h => hq (List.mem_append_left _ h)), r4 q hq, f1 q hq]
  have hx3 : regVal x s3 = regVal x s := regVal_congr fun q hq => f3 q (hxd q hq)
  have hy3 : regVal y s3 = regVal y s := regVal_congr fun q hq => f3 q (hy q hq)
  set s4 := addC (-(T : Int)) aux s3 with hs4
  have hxan : (x ++ aux).Nodup := hx.sublist (List.Sublist.append_left (List.sublist_append_left _ _) x)
  have e4 : qqMulInv A x aux 0 y s3 = s4 := by
    rw [qqMulInv_spec hA x aux 0 y s3 hxan hya, hx3, hy3, hs4, hTd]
    congr 1; push_cast; ring
  have hfin : qqMontMult A N m x y aux res s = s4 := by
    unfold qqMontMult
    simp only
    rw [← hw, e1, ← hs2, e3, e4]
  intro s'
  have hs' : s' = s4 := hfin
  rw [hs']
  have hdis : ∀ q ∈ res, q ∉ aux := by
    intro q h1 h2; exact (List.nodup_append.1 hwn).2.2 q h2 q h1 rfl
  have hrv : regVal res s4 = regVal res s2 := by
    rw [hs4, regVal_addC_disj _ _ _ _ hdis, hs3, regVal_addC_disj _ _ _ _ hdis]
  have hauxz : ∀ q ∈ aux, s4 q = false := by
    have h0 : (regVal aux s4 : Int) = 0 := by
      rw [hs4, regVal_addC _ _ _ hauxn, hs3, regVal_addC _ _ _ hauxn, haux, Int.add_emod_emod]
      have h1 : ((N : Int) - 1) * ((regVal aux s2 % 2 ^ m : Nat) : Int) + regVal aux s2
          ≡ regVal aux s2 * N [ZMOD 2 ^ (m + 1)] := by
        obtain ⟨M, hM⟩ : ∃ M : Int, (N : Int) = 2 * M + 1 := ⟨(N : Int) / 2, by omega⟩
        have h2 := Nat.mod_add_div (regVal aux s2) (2 ^ m)
        have h3 : (regVal aux s2 : Int) = ((regVal aux s2 % 2 ^ m : Nat) : Int)
            + 2 ^ m * ((regVal aux s2 / 2 ^ m : Nat) : Int) := by exact_mod_cast h2.symm
        refine Int.modEq_iff_dvd.2 ⟨M * ((regVal aux s2 / 2 ^ m : Nat) : Int), ?_⟩
        rw [hM, pow_succ]
        linear_combination (2 * M) * h3
      have h4 := (h1.trans (by push_cast at r3; exact r3)).add_left (-(T : Int))
      rw [neg_add_cancel] at h4
      exact h4
    have h0' : regVal aux s4 = regVal aux (fun _ => false) := by
      rw [regVal_zero (fun _ _ => rfl)]; exact_mod_cast h0
    exact regVal_inj h0'
  refine ⟨⟨u, W, r0, by rw [← r1, hTd]; push_cast; ring, by rw [hrv]; exact r1'⟩, ?_, ?_⟩
  · rw [hrv]
    rw [hTd] at r2
    push_cast at r2
    exact r2
  · intro q hq
    by_cases h : q ∈ aux
    · rw [hauxz q h, hz q (List.mem_append_left _ h)]
    · have hqw : q ∉ w := by rw [hw, List.mem_append, not_or]; exact ⟨h, hq⟩
      rw [hs4, addC_frame _ _ _ _ h, f3 q hqw]

end Verif.Rev
