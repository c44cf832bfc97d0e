import Verif.Blk.FromLcu
import Verif.Props.BlockEnc

/-!
# Properties C114, C115: constructors of block encodings

C114: `from_lcu` encodes the linear combination. C115: `from_projector` encodes |left><right| (or the projector onto the complement of |left>),
`from_eye` a matrix with ones on one diagonal.
-/

namespace Verif.Props

open Matrix Verif.Blk

variable {n : Type} [Fintype n] [DecidableEq n]

/-- The state preparation does what C94 says: for normalised arrays, a unitary whose first column is the array. -/
def PrepOK (prep : Prep) : Prop := ∀ k v, ∑ i, ‖v i‖ ^ 2 = 1 → IsU (prep k v) ∧ ∀ i, prep k v i ⟨0, Nat.two_pow_pos k⟩ = v i

theorem enc_eq (C : BE n) : C.enc = (C.alpha : ℂ) • blk C.zero C.U := by ext i j; simp [BE.enc, blk]

theorem getD_mem_or {α : Type} (l : List α) (i : ℕ) (d : α) : l.getD i d ∈ l ∨ l.getD i d = d := by
  rw [List.getD_eq_getElem?_getD]
  rcases h : l[i]? with _ | x
  · right; simp
  · left; simpa using List.mem_of_getElem? h

theorem us_unitary {us : List (Matrix n n ℂ)} (hU : ∀ U ∈ us, IsU U) (i : ℕ) : IsU (us.getD i 1) := by
  rcases getD_mem_or us i 1 with h | h
  · exact hU _ h
  · rw [h]; exact IsU.one

theorem us_herm {us : List (Matrix n n ℂ)} (hU : ∀ U ∈ us, Uᴴ = U) (i : ℕ) : (us.getD i 1)ᴴ = us.getD i 1 := by
  rcases getD_mem_or us i 1 with h | h
  · exact hU _ h
  · rw [h]; exact conjTranspose_one

/-- **C114** `from_lcu`: for at least two unitaries and coefficients that are not all zero the result encodes the combination, with alpha the sum of
the absolute values. Coefficients within 1e-12 of the non-negative reals must be real. The encoding is valid if the flag is not set, or if the
unitaries are Hermitian and the coefficients non-negative. -/
theorem from_lcu_encodes {prep : Prep} (hp : PrepOK prep) {coeffs : List ℂ} {us : List (Matrix n n ℂ)} (hl : us.length = coeffs.length) (h2 : 2 ≤ coeffs.length)
    (hU : ∀ U ∈ us, IsU U) (hne : ∃ c ∈ coeffs, c ≠ 0) (htol : nonNeg coeffs → ∀ c ∈ coeffs, c.im = 0) (herm : Bool) :
    ∃ C, fromLcu prep coeffs us herm = some C ∧ C.enc = (List.zipWith (fun c U => c • U) coeffs us).sum ∧ C.alpha = (coeffs.map fun c => ‖c‖).sum ∧ C.ancs = 1 ∧
      (herm = false ∨ ((∀ U ∈ us, Uᴴ = U) ∧ nonNeg coeffs) → C.Valid) := by
  set k := lcuBits coeffs.length with hk
  set alpha : ℝ := (coeffs.map fun c => ‖c‖).sum with ha
  have apos : 0 < alpha := by
    obtain ⟨c, hc, c0⟩ := hne
    refine lt_of_lt_of_le (norm_pos_iff.2 c0) (List.single_le_sum ?_ _ (List.mem_map.2 ⟨c, hc, rfl⟩))
    intro x hx; obtain ⟨c, _, rfl⟩ := List.mem_map.1 hx; exact norm_nonneg c
  have hac : (alpha : ℂ) ≠ 0 := Complex.ofReal_ne_zero.2 apos.ne'
  set v : Fin (2 ^ k) → ℂ := fun i => csqrt (coeffs.getD i 0 / alpha) with hv
  have nv : ∀ i, ‖v i‖ ^ 2 = ‖coeffs.getD i 0‖ / alpha := fun i => by
    rw [hv]; simp only; rw [csqrt_norm, norm_div, Complex.norm_real, Real.norm_eq_abs, abs_of_pos apos]
  have s1 : ∑ i, ‖v i‖ ^ 2 = 1 := by
    simp only [nv, div_eq_mul_inv]
    rw [← Finset.sum_mul, sum_norm_getD _ _ (lcuBits_le _), ← ha, mul_inv_cancel₀ apos.ne']
  have s2 : ∑ i, ‖star (v i)‖ ^ 2 = 1 := by simpa using s1
  obtain ⟨u1, c1⟩ := hp k v s1
  obtain ⟨u2, c2⟩ := hp k (fun i => star (v i)) s2
  have hsel : IsU (lcuSel (n := n) k us) := IsU.selC fun i => (us_unitary hU i).liftU
  have hsum := sum_getD coeffs us hl (2 ^ k) (lcuBits_le _)
  by_cases hnn : nonNeg coeffs
  · refine ⟨_, by
      unfold fromLcu
      simp only
      rw [if_neg (by omega), if_neg apos.ne', if_pos hnn], ?_, rfl, rfl, fun hv => ⟨?_, ?_, apos.le⟩⟩
    · rw [enc_eq]
      simp only
      rw [lcuSel, lcu_blk, Finset.smul_sum, ← hsum]
      refine Finset.sum_congr rfl fun i _ => ?_
      rw [c1, nv, blk_liftU, smul_smul]
      congr 1
      have hi : coeffs.getD i 0 = ((‖coeffs.getD i 0‖ : ℝ) : ℂ) := by
        rcases getD_mem_or coeffs i 0 with h | h
        · have him := htol hnn _ h
          have hre := (hnn _ h).2
          generalize coeffs.getD i 0 = c at him hre
          have e : c = ((c.re : ℝ) : ℂ) := Complex.ext rfl (by simpa using him)
          rw [e, Complex.norm_real, Real.norm_eq_abs, abs_of_nonneg hre]
        · rw [h]; simp
      rw [Complex.ofReal_div, mul_div_cancel₀ _ hac, ← hi]
    · exact u1.regC.ct.mul (hsel.mul u1.regC)
    · intro hh
      rcases hv with h | ⟨h, _⟩
      · rw [h] at hh; simp at hh
      · simp only
        rw [conjTranspose_mul, conjTranspose_mul, conjTranspose_conjTranspose, lcuSel, selC_ct, Matrix.mul_assoc]
        simp only [liftU_ct, us_herm h]
  · refine ⟨_, by
      unfold fromLcu
      simp only
      rw [if_neg (by omega), if_neg apos.ne', if_neg hnn], ?_, rfl, rfl, fun hv => ⟨?_, ?_, apos.le⟩⟩
    · rw [enc_eq]
      simp only
      rw [lcuSel, lcu_blk2, Finset.smul_sum, ← hsum]
      refine Finset.sum_congr rfl fun i _ => ?_
      rw [c1, c2, star_star, blk_liftU, smul_smul]
      congr 1
      rw [hv]; simp only
      rw [csqrt_sq, mul_div_cancel₀ _ hac]
    · exact u2.regC.ct.mul (hsel.mul u1.regC)
    · intro hh
      rcases hv with h | ⟨_, h⟩
      · rw [h] at hh; simp at hh
      · exact absurd h hnn

/-- A single unitary: the coefficient is alpha, so that the encoding is valid only if the coefficient is not negative. -/
theorem from_lcu_single (prep : Prep) {c : ℂ} {U : Matrix n n ℂ} (hU : IsU U) (hc : c.im = 0) (herm : Bool) :
    ∃ C, fromLcu prep [c] [U] herm = some C ∧ C.enc = c • U ∧ (0 ≤ c.re → (herm = true → Uᴴ = U) → C.Valid) ∧ (c.re < 0 → ¬ C.Valid) := by
  refine ⟨_, by
      unfold fromLcu
      simp only
      rw [if_pos (by simp), if_pos (by simp only [List.getD_cons_zero, hc, abs_zero]; norm_num)], ?_, fun h hh => ⟨hU.liftU, fun e => ?_, h⟩, fun h hC => ?_⟩
  · rw [enc_eq]
    simp only [List.getD_cons_zero, blk_liftU]
    congr 1
    exact Complex.ext rfl (by simp [hc])
  · simp only [List.getD_cons_zero, liftU_ct]
    rw [hh e]
  · exact absurd hC.alpha (not_le.2 h)

/-- A negative coefficient of a single unitary gives a negative alpha. -/
theorem from_lcu_negative_witness (prep : Prep) : ∃ C, fromLcu prep [-1] [(1 : Matrix Unit Unit ℂ)] false = some C ∧ C.alpha = -1 ∧ ¬ C.Valid := by
  obtain ⟨C, h1, h2, _, h4⟩ := from_lcu_single prep (c := -1) (U := (1 : Matrix Unit Unit ℂ)) IsU.one (by simp) false
  refine ⟨C, h1, ?_, h4 (by simp)⟩
  unfold fromLcu at h1
  simp only at h1
  rw [if_pos (by simp), if_pos (by simp only [List.getD_cons_zero, Complex.neg_im, Complex.one_im, neg_zero, abs_zero]; norm_num)] at h1
  rw [← Option.some.inj h1]
  simp

/-- The rotation that maps |0> to the array. -/
def rotM (v : Fin (2 ^ 1) → ℂ) : Matrix (Fin (2 ^ 1)) (Fin (2 ^ 1)) ℂ := fun i j => if j = 0 then v i else if i = 0 then -star (v 1) else star (v 0)

theorem rotM_not_herm {v : Fin (2 ^ 1) → ℂ} (e0 : v 0 * v 0 = 1 / 2) (e1 : v 1 * v 1 = -1 / 2) :
    ((rotM fun i => star (v i))ᴴ * rotM v)ᴴ ≠ (rotM fun i => star (v i))ᴴ * rotM v := by
  intro he
  have r0 : star (v 0) = v 0 := by
    have h1 := congrArg Complex.re e0
    have h2 := congrArg Complex.im e0
    simp at h1 h2
    have : (v 0).im = 0 := by
      by_contra hc
      have hr : (v 0).re = 0 := by
        have : (v 0).re * (v 0).im = 0 := by linarith
        rcases mul_eq_zero.1 this with h | h
        · exact h
        · exact absurd h hc
      rw [hr] at h1
      nlinarith [sq_nonneg (v 0).im]
    exact Complex.ext (by simp) (by simp [this])
  have r1 : star (v 1) = -v 1 := by
    have h1 := congrArg Complex.re e1
    have h2 := congrArg Complex.im e1
    simp at h1 h2
    have : (v 1).re = 0 := by
      by_contra hc
      have hr : (v 1).im = 0 := by
        have : (v 1).re * (v 1).im = 0 := by linarith
        rcases mul_eq_zero.1 this with h | h
        · exact absurd h hc
        · exact h
      rw [hr] at h1
      nlinarith [sq_nonneg (v 1).re]
    exact Complex.ext (by simp [this]) (by simp)
  have key := congrFun (congrFun he 0) 1
  have h10 : (1 : Fin (2 ^ 1)) ≠ 0 := by decide
  rw [conjTranspose_apply, mul_apply, mul_apply, show (Finset.univ : Finset (Fin (2 ^ 1))) = {0, 1} by decide, Finset.sum_pair h10.symm,
    Finset.sum_pair h10.symm] at key
  simp only [conjTranspose_apply, rotM, if_pos, if_neg h10, star_add, star_mul', star_star, star_neg, r0, r1] at key
  have h4 : v 0 * v 1 = 0 := by linear_combination (-1 / 4 : ℂ) * key
  rcases mul_eq_zero.1 h4 with h | h
  · rw [h] at e0; norm_num at e0
  · rw [h] at e1; norm_num at e1

/-- The documentation asks to set the flag if all unitaries are Hermitian. With coefficients 1 and -1 the unitary of the encoding is not Hermitian
(here with the rotation that maps |0> to the array as state preparation). -/
theorem from_lcu_flag_witness {prep : Prep} (hprep : ∀ v, prep 1 v = rotM v) :
    ∃ C, fromLcu prep [1, -1] [(1 : Matrix Unit Unit ℂ), 1] true = some C ∧ C.herm = true ∧ C.Uᴴ ≠ C.U := by
  have hk : lcuBits ([1, -1] : List ℂ).length = 1 := by decide
  have hnn : ¬ nonNeg [1, -1] := fun h => by
    have := (h (-1) (by simp)).2
    norm_num at this
  have hal : (([1, -1] : List ℂ).map fun c => ‖c‖).sum = 2 := by simp; norm_num
  refine ⟨_, by
      unfold fromLcu
      simp only
      rw [if_neg (by simp), if_neg (by rw [hal]; norm_num), if_neg hnn], rfl, ?_⟩
  simp only
  have hsel : ∀ k, lcuSel k [(1 : Matrix Unit Unit ℂ), 1] = 1 := by
    intro k
    rw [lcuSel, ← selC_one]
    congr 1
    funext i
    rcases getD_mem_or [(1 : Matrix Unit Unit ℂ), 1] i 1 with h | h
    · rw [show ([(1 : Matrix Unit Unit ℂ), 1]).getD i 1 = 1 by simpa using h, liftU_one]
    · rw [h, liftU_one]
  rw [hsel, Matrix.one_mul, regC_ct, regC_mul, regC_ct, hal]
  have gen : ∀ k (hk : k = 1), regC Unit Unit ((prep k fun i : Fin (2 ^ k) => star (csqrt (([1, -1] : List ℂ).getD i 0 / ((2 : ℝ) : ℂ))))ᴴ *
      prep k fun i : Fin (2 ^ k) => csqrt (([1, -1] : List ℂ).getD i 0 / ((2 : ℝ) : ℂ)))ᴴ ≠
      regC Unit Unit ((prep k fun i : Fin (2 ^ k) => star (csqrt (([1, -1] : List ℂ).getD i 0 / ((2 : ℝ) : ℂ))))ᴴ *
      prep k fun i : Fin (2 ^ k) => csqrt (([1, -1] : List ℂ).getD i 0 / ((2 : ℝ) : ℂ))) := by
    rintro k rfl he
    rw [hprep, hprep] at he
    refine rotM_not_herm (v := fun i => csqrt (([1, -1] : List ℂ).getD i 0 / ((2 : ℝ) : ℂ))) ?_ ?_ ?_
    · rw [csqrt_sq]; simp
    · rw [csqrt_sq]; simp
    · ext i j
      have := congrFun (congrFun he ((i, ()), ())) ((j, ()), ())
      simpa only [regC, and_self, if_true] using this
  exact gen _ hk

/-! ### C115 -/

/-- The spec: 1 at the given place. -/
def unitE (o : n) : Matrix n n ℂ := fun i j => if i = o ∧ j = o then 1 else 0

theorem subB_mcx (o : n) (p q : Bool) :
    subB p q (mapU fun y : (Bool × Unit) × n => ((if y.2 = o then !y.1.1 else y.1.1, ()), y.2)) = if p = q then 1 - unitE o else unitE o := by
  ext i j
  by_cases hj : j = o
  · subst hj
    by_cases hi : i = j
    · subst hi; cases p <;> cases q <;> simp [subB, mapU, unitE]
    · cases p <;> cases q <;> simp [subB, mapU, unitE, hi]
  · by_cases hi : i = j
    · subst hi; cases p <;> cases q <;> simp [subB, mapU, unitE, hj]
    · cases p <;> cases q <;> simp [subB, mapU, unitE, hi, hj]

theorem subB_x (p q : Bool) : subB p q (bit Unit n xM) = if p = q then 0 else 1 := by
  ext i j
  by_cases hi : i = j
  · subst hi; cases p <;> cases q <;> simp [subB, bit, xM]
  · cases p <;> cases q <;> simp [subB, bit, xM, hi]

theorem subB_one (p q : Bool) : subB p q (1 : Matrix ((Bool × Unit) × n) ((Bool × Unit) × n) ℂ) = if p = q then 1 else 0 := by
  ext i j
  by_cases hi : i = j
  · subst hi; cases p <;> cases q <;> simp [subB, Matrix.one_apply]
  · cases p <;> cases q <;> simp [subB, Matrix.one_apply, hi]

theorem unitE_conj (o : n) (L R : Matrix n n ℂ) (i j : n) : (L * (unitE o * R)) i j = L i o * R o j := by
  rw [mul_apply, Finset.sum_eq_single o]
  · rw [mul_apply, Finset.sum_eq_single o]
    · simp [unitE]
    · intro k _ hk; simp [unitE, hk]
    · simp
  · intro k _ hk
    rw [mul_apply, Finset.sum_eq_zero, mul_zero]
    intro l _; simp [unitE, hk]
  · simp

/-- **C115** `from_projector`: for preparations L, R whose first columns (the images of the operand value 0) are the states, the result encodes
|left><right|; with `kernel` it encodes the projector onto the complement of |left>. -/
theorem from_projector_encodes (o : n) {L R : Matrix n n ℂ} (hL : IsU L) (hR : IsU R) (kernel : Bool) :
    (fromProjector o L R kernel).Valid ∧
      ∀ i j, (fromProjector o L R kernel).enc i j = if kernel then (if i = j then 1 else 0) - L i o * star (L j o) else L i o * star (R j o) := by
  refine ⟨⟨?_, (by simp [fromProjector]), (by simp [fromProjector])⟩, ?_⟩
  · have hm : Function.Injective (fun y : (Bool × Unit) × n => (((if y.2 = o then !y.1.1 else y.1.1, ()), y.2) : (Bool × Unit) × n)) := by
      rintro ⟨⟨p, _⟩, i⟩ ⟨⟨q, _⟩, j⟩ h
      simp only [Prod.mk.injEq, and_true] at h
      obtain ⟨h1, rfl⟩ := h
      by_cases ho : i = o
      · simp [ho] at h1; rw [h1]
      · simp [ho] at h1; rw [h1]
    show IsU (padL Bool (liftU L) * (mapU _ * (padL Bool (liftU (if kernel then L else R)ᴴ) * (if kernel then 1 else bit Unit n xM))))
    refine (IsU.padL hL.liftU).mul ((IsU.mapU hm).mul ((IsU.padL ?_).mul ?_))
    · cases kernel
      · exact hR.ct.liftU
      · exact hL.ct.liftU
    · cases kernel
      · exact IsU.bit x_unitary.1
      · exact IsU.one
  · intro i j
    have he : (fromProjector o L R kernel).enc i j = subB false false (padL Bool (liftU L) *
        (mapU (fun y : (Bool × Unit) × n => ((if y.2 = o then !y.1.1 else y.1.1, ()), y.2)) * (padL Bool (liftU (if kernel then L else R)ᴴ) * (if kernel then 1 else bit Unit n xM)))) i j := by
      simp only [BE.enc, fromProjector, subB, Complex.ofReal_one, one_mul]
    rw [he]
    cases kernel
    · simp only [Bool.false_eq_true, if_false, subB_mul, subB_padL, subB_mcx, subB_x, if_true, reduceCtorEq, Matrix.mul_zero, Matrix.zero_mul,
        Matrix.mul_one, add_zero, zero_add]
      rw [unitE_conj, conjTranspose_apply]
    · simp only [if_true, subB_mul, subB_padL, subB_mcx, subB_one, reduceCtorEq, if_false, Bool.false_eq_true, Bool.true_eq_false, Matrix.mul_zero, Matrix.zero_mul,
        Matrix.mul_one, add_zero, zero_add]
      rw [Matrix.sub_mul, Matrix.one_mul, Matrix.mul_sub, Matrix.sub_apply, unitE_conj, conjTranspose_apply, mul_eq_one_comm.1 hL, Matrix.one_apply]

/-- The classical map of `from_eye`, for offsets below 2^w in absolute value: the ancilla is flipped exactly if the subtraction wraps. -/
theorem eyeMap_spec (w : ℕ) {k : ℤ} (hk : |k| < 2 ^ w) (b : Bool) (x : Fin (2 ^ w)) :
    ((eyeMap w k (b, x)).2 : ℤ) = ((x : ℤ) - k) % 2 ^ w ∧
      (eyeMap w k (b, x)).1 = xor b (decide (k ≠ 0 ∧ ¬ (0 ≤ (x : ℤ) - k ∧ (x : ℤ) - k < 2 ^ w))) := by
  have hN : (0 : ℤ) < 2 ^ w := by positivity
  have hx0 : (0 : ℤ) ≤ (x : ℤ) := Int.natCast_nonneg _
  have hx1 : (x : ℤ) < 2 ^ w := by have := x.2; exact_mod_cast this
  obtain ⟨hk1, hk2⟩ := abs_lt.1 hk
  have hy : ((((((x : ℤ) - k) % (2 ^ w : ℤ)).toNat % 2 ^ w : ℕ)) : ℤ) = ((x : ℤ) - k) % 2 ^ w := by
    have h1 := Int.emod_nonneg ((x : ℤ) - k) hN.ne'
    have h2 := Int.emod_lt_of_pos ((x : ℤ) - k) hN
    push_cast
    rw [Int.toNat_of_nonneg h1, Int.emod_eq_of_lt h1 h2]
  have hsel : ((x : ℤ) - k) % 2 ^ w = if 0 ≤ (x : ℤ) - k then (if (x : ℤ) - k < 2 ^ w then (x : ℤ) - k else (x : ℤ) - k - 2 ^ w) else (x : ℤ) - k + 2 ^ w := by
    split_ifs with h1 h2
    · exact Int.emod_eq_of_lt h1 h2
    · rw [← Int.sub_emod_right]; exact Int.emod_eq_of_lt (by omega) (by omega)
    · rw [← Int.add_emod_right]; exact Int.emod_eq_of_lt (by omega) (by omega)
  unfold eyeMap
  simp only
  refine ⟨?_, ?_⟩
  · split_ifs <;> exact hy
  · split_ifs with h1 h2 h2
    all_goals
      refine congrArg (xor b) ?_
      rw [decide_eq_decide, hy, hsel]
      clear hy hsel hk
      generalize (2 : ℤ) ^ w = N at *
      split_ifs <;> omega

theorem eyeMap_injective (w : ℕ) {k : ℤ} (hk : |k| < 2 ^ w) : Function.Injective (eyeMap w k) := by
  rintro ⟨b, x⟩ ⟨c, y⟩ h
  obtain ⟨h1, h2⟩ := eyeMap_spec w hk b x
  obtain ⟨h3, h4⟩ := eyeMap_spec w hk c y
  rw [h, h3] at h1
  have hxy : x = y := by
    have e := Int.emod_emod_of_dvd ((y : ℤ) - k) (dvd_refl (2 ^ w : ℤ))
    have h5 : ((x : ℤ)) % 2 ^ w = (y : ℤ) % 2 ^ w := by
      have := (Int.emod_emod_of_dvd (0 : ℤ) (dvd_refl (2 ^ w : ℤ)))
      have h6 : ((y : ℤ) - k) ≡ ((x : ℤ) - k) [ZMOD 2 ^ w] := h1
      have h7 := h6.add_right k
      simp only [sub_add_cancel] at h7
      exact h7.symm
    have hx1 : (x : ℤ) < 2 ^ w := by have := x.2; exact_mod_cast this
    have hy1 : (y : ℤ) < 2 ^ w := by have := y.2; exact_mod_cast this
    rw [Int.emod_eq_of_lt (Int.natCast_nonneg _) hx1, Int.emod_eq_of_lt (Int.natCast_nonneg _) hy1] at h5
    exact Fin.ext (by exact_mod_cast h5)
  subst hxy
  rw [h, h4] at h2
  rw [Bool.xor_left_inj.1 h2]

/-- **C115** `from_eye`: for offsets k below 2^w in absolute value the result encodes the matrix with ones on the k-th diagonal. -/
theorem from_eye_encodes (w : ℕ) {k : ℤ} (hk : |k| < 2 ^ w) :
    (fromEye w k).Valid ∧ ∀ i j, (fromEye w k).enc i j = if (j : ℤ) = i + k then 1 else 0 := by
  unfold fromEye
  by_cases h0 : k = 0
  · simp only [if_pos h0]
    subst h0
    refine ⟨⟨IsU.one, (by simp), (by simp)⟩, ?_⟩
    intro i j
    simp only [BE.enc, Complex.ofReal_one, one_mul, Matrix.one_apply, add_zero, Prod.mk.injEq, true_and]
    by_cases h : i = j
    · simp [h]
    · rw [if_neg h, if_neg fun e => h (Fin.ext (by exact_mod_cast e.symm))]
  · simp only [if_neg h0]
    refine ⟨⟨IsU.mapU ?_, (by simp), (by simp)⟩, ?_⟩
    · rintro ⟨⟨b, _⟩, x⟩ ⟨⟨c, _⟩, y⟩ h
      simp only [Prod.mk.injEq, and_true] at h
      have := eyeMap_injective w hk (Prod.ext h.1 h.2)
      simp only [Prod.mk.injEq] at this
      simp [this.1, this.2]
    · intro i j
      simp only [BE.enc, Complex.ofReal_one, one_mul, mapU, Prod.mk.injEq, and_true]
      obtain ⟨h1, h2⟩ := eyeMap_spec w hk false j
      have hN : (0 : ℤ) < 2 ^ w := by positivity
      have hi1 : (i : ℤ) < 2 ^ w := by have := i.2; exact_mod_cast this
      have hi0 : (0 : ℤ) ≤ (i : ℤ) := Int.natCast_nonneg _
      have hiff : (false = (eyeMap w k (false, j)).1 ∧ i = (eyeMap w k (false, j)).2) ↔ (j : ℤ) = i + k := by
        rw [h2, Fin.ext_iff, ← Int.natCast_inj (n := ((eyeMap w k (false, j)).2 : ℕ)), h1]
        simp only [Bool.false_xor]
        constructor
        · rintro ⟨h3, h4⟩
          have h5 : 0 ≤ (j : ℤ) - k ∧ (j : ℤ) - k < 2 ^ w := by
            by_contra hc
            rw [decide_eq_true (show k ≠ 0 ∧ ¬ (0 ≤ (j : ℤ) - k ∧ (j : ℤ) - k < 2 ^ w) from ⟨h0, hc⟩)] at h3
            exact absurd h3 (by decide)
          rw [Int.emod_eq_of_lt h5.1 h5.2] at h4
          omega
        · intro h3
          have e : (j : ℤ) - k = i := by omega
          rw [e]
          exact ⟨by simp [hi0, hi1], (Int.emod_eq_of_lt hi0 hi1).symm⟩
      by_cases h : (j : ℤ) = i + k
      · rw [if_pos h, if_pos (hiff.2 h)]
      · rw [if_neg h, if_neg fun e => h (hiff.1 e)]

/-- Ones above the diagonal of a 4x4 matrix. -/
example : (fromEye 2 1).enc 0 1 = 1 ∧ (fromEye 2 1).enc 3 0 = 0 ∧ (fromEye 2 (-3)).enc 3 0 = 1 := by
  refine ⟨?_, ?_, ?_⟩
  · rw [(from_eye_encodes 2 (by norm_num)).2]; simp
  · rw [(from_eye_encodes 2 (by norm_num)).2]; norm_num
  · rw [(from_eye_encodes 2 (by norm_num)).2]; norm_num

/-- Two terms: 2 X + 3 i Y for any preparation. -/
example {prep : Prep} (hp : PrepOK prep) {X Y : Matrix (Fin 2) (Fin 2) ℂ} (hX : IsU X) (hY : IsU Y) :
    ∃ C, fromLcu prep [2, 3 * Complex.I] [X, Y] false = some C ∧ C.enc = (2 : ℂ) • X + (3 * Complex.I) • Y ∧ C.alpha = 5 := by
  have hnn : ¬ nonNeg [2, 3 * Complex.I] := fun h => by
    have := (h (3 * Complex.I) (by simp)).1
    norm_num at this
  obtain ⟨C, h1, h2, h3, _⟩ := from_lcu_encodes hp (coeffs := [2, 3 * Complex.I]) (us := [X, Y]) rfl (by simp) (by simp [hX, hY]) ⟨2, by simp⟩ (fun h => absurd h hnn) false
  refine ⟨C, h1, ?_, ?_⟩
  · rw [h2]; simp
  · rw [h3]; simp; norm_num

end Verif.Props
