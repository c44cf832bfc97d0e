import Verif.Loop
import Verif.Blk.Lcu
import Verif.Blk.Cks

/-!
The circuit of Childs, Kothari and Somma (algorithms/cks.py:140-505).
-/

namespace Verif.Blk

open Matrix

variable {n a : Type} [Fintype n] [DecidableEq n] [Fintype a] [DecidableEq a]

/-- `jnp.arctan(y / x / w)` for nonnegative arguments: `y / 0` is `inf`, whose arctan is π/2, and `0 / 0` is NaN (`none`). -/
noncomputable def arctanQ (y x w : ℝ) : Option ℝ :=
  if x * w = 0 then (if y = 0 then none else some (Real.pi / 2)) else some (Real.arctan (y / x / w))

/-- `_unary_angles(coeffs)` before the doubling (cks.py:163-169), `al` the square roots of the j+1 coefficients: entry d from the end. -/
noncomputable def unaryPhi (al : ℕ → ℝ) (j : ℕ) : ℕ → Option ℝ
  | 0 => arctanQ (al j) (al (j - 1)) 1
  | d + 1 => (unaryPhi al j d).bind fun p => arctanQ (al (j - 1 - d)) (al (j - 1 - d - 1)) (Real.cos p)

/-- `_unary_angles(coeffs)` (cks.py:140-170) for j+1 coefficients; `none` if some angle is NaN. -/
noncomputable def unaryAngles (coeffs : ℕ → ℝ) (j : ℕ) : Option (ℕ → ℝ) :=
  let phi := unaryPhi (fun k => Real.sqrt (coeffs k)) j
  if ∀ i < j, (phi (j - 1 - i)).isSome then some (fun i => 2 * (phi (j - 1 - i)).getD 0) else none

/-- `unary_prep(case, coeffs)` (cks.py:173-199) on a register of m qubits with the angles `th`. -/
noncomputable def unaryPrep (m : ℕ) (th : ℕ → ℝ) : Matrix (Fin m → Bool) (Fin m → Bool) ℂ :=
  fori 1 (m - 1) (fun i M => cgate m i (i + 1) (ryM (th i)) * M) (gate1 m 1 (ryM (th 0)) * gate1 m 0 xM)

/-- `T2` (cks.py:489-492): a reflection, then a reflection conjugated with the inverse of the unitary. -/
def cksT2 (z : a) (U : Matrix (a × n) (a × n) ℂ) : Matrix (a × n) (a × n) ℂ := (Uᴴ)ᴴ * (reflM n z * (Uᴴ * reflM n z))

/-- The selection (cks.py:497-502) on a register of j+1 qubits: the unitary, then for i = 1..j the z gate and the controlled `T2`. -/
noncomputable def cksSelect (j : ℕ) (z : a) (U : Matrix (a × n) (a × n) ℂ) : Matrix (((Fin (j + 1) → Bool) × a) × n) (((Fin (j + 1) → Bool) × a) × n) ℂ :=
  fori 1 (j + 1) (fun i M => selC (fun x => if bitAt x i then cksT2 z U else 1) * (selC (fun x => if bitAt x i then -1 else 1) * M)) (padL (Fin (j + 1) → Bool) U)

/-- `CKS(A, eps, kappa, max_beta)` (cks.py:202-506). `none` if some rotation angle is NaN, or if the case register has one qubit only (then
`unary_prep` accesses its second qubit). -/
noncomputable def BE.cks (B : BE n) (eps kappa : ℝ) (max_beta : Option ℝ) : Option (BE n) :=
  let P := cksParams eps kappa max_beta
  if P.1 = 0 then none
  else (unaryAngles (cksCoeffs P.2) P.1).map fun th =>
    { anc := (Fin (P.1 + 1) → Bool) × B.anc, zero := (fun _ => false, B.zero), ancs := 1 + B.ancs,
      U := (regC B.anc n (unaryPrep (P.1 + 1) th))ᴴ * (cksSelect P.1 B.zero B.U * regC B.anc n (unaryPrep (P.1 + 1) th)),
      alpha := (∑ k ∈ Finset.range (P.1 + 1), |cksCoeffs P.2 k|) / B.alpha, herm := false }

/-! ### The unary state -/

/-- The state 1...10...0 with k+1 ones. -/
def unary (m k : ℕ) : Fin m → Bool := fun i => decide (i.1 ≤ k)

theorem bitAt_unary {m k i : ℕ} (h : i < m) : bitAt (unary m k) i = decide (i ≤ k) := by simp [bitAt, unary, h]

theorem unary_inj {m k l : ℕ} (hk : k < m) (hl : l < m) (h : unary m k = unary m l) : k = l := by
  have h1 := congrFun h ⟨k, hk⟩
  have h2 := congrFun h ⟨l, hl⟩
  simp only [unary, le_refl, decide_true] at h1 h2
  have h1 := of_decide_eq_true h1.symm
  have h2 := of_decide_eq_true h2
  omega

/-- Amplitude of the state with l+1 ones after k rotations. -/
noncomputable def uAmp (th : ℕ → ℝ) (k l : ℕ) : ℝ := (∏ i ∈ Finset.range l, Real.sin (th i / 2)) * (if l = k then 1 else Real.cos (th l / 2))

theorem ne_of_bit {m : ℕ} {x y : Fin m → Bool} {i : ℕ} (h : bitAt x i ≠ bitAt y i) : x ≠ y := fun e => h (by rw [e])

theorem setBit_eq_unary {m k l : ℕ} (hk : k + 1 < m) (hl : l ≤ k) (x : Fin m → Bool) (b : Bool) (hx : bitAt x k = true) :
    setBit x (k + 1) b = unary m l ↔ b = false ∧ l = k ∧ (x = unary m k ∨ x = unary m (k + 1)) := by
  constructor
  · intro h
    have h1 := congrArg (fun y => bitAt y (k + 1)) h
    have h2 := congrArg (fun y => bitAt y k) h
    simp only [bitAt_setBit _ hk, bitAt_unary hk] at h1
    rw [bitAt_setBit_ne _ (by omega), bitAt_unary (by omega), hx] at h2
    have h2 := of_decide_eq_true h2.symm
    have hlk : l = k := by omega
    subst hlk
    refine ⟨by rw [h1]; simp, rfl, ?_⟩
    have hoff : ∀ j : Fin m, j.1 ≠ l + 1 → x j = decide (j.1 ≤ l) := by
      intro j hj
      have := congrFun h j
      simpa [setBit, hj, unary] using this
    by_cases hb : x ⟨l + 1, hk⟩ = true
    · right
      funext j
      by_cases hj : j.1 = l + 1
      · have : j = ⟨l + 1, hk⟩ := Fin.ext hj
        rw [this, hb]; simp [unary]
      · rw [hoff j hj, unary]; congr 1; exact propext ⟨fun h => by omega, fun h => by omega⟩
    · left
      funext j
      by_cases hj : j.1 = l + 1
      · have : j = ⟨l + 1, hk⟩ := Fin.ext hj
        rw [this]; simpa [unary] using hb
      · rw [hoff j hj, unary]
  · rintro ⟨rfl, rfl, h | h⟩ <;> subst h <;> funext j <;> simp only [setBit, unary] <;> split_ifs with hj
    · simp [hj]
    · rfl
    · simp [hj]
    · congr 1; exact propext ⟨fun h => by omega, fun h => by omega⟩

/-- One rotation of the preparation. -/
theorem rot_step {m k : ℕ} (hk : k + 1 < m) (th : ℕ → ℝ) {ι : Type} (M : Matrix (Fin m → Bool) ι ℂ) (z : ι)
    (h : ∀ x, M x z = ∑ l ∈ Finset.range (k + 1), if x = unary m l then (uAmp th k l : ℂ) else 0) (x : Fin m → Bool) :
    (cgate m k (k + 1) (ryM (th k)) * M) x z = ∑ l ∈ Finset.range (k + 1 + 1), if x = unary m l then (uAmp th (k + 1) l : ℂ) else 0 := by
  rw [cgate_mul_apply hk]
  split_ifs with hx
  · have lt : ∀ l ∈ Finset.range k, (if x = unary m l then (uAmp th (k + 1) l : ℂ) else 0) = 0 := by
      intro l hl
      have := Finset.mem_range.1 hl
      refine if_neg (ne_of_bit (i := k) ?_)
      rw [hx, bitAt_unary (by omega), decide_eq_false (by omega)]; simp
    have hM : ∀ b, M (setBit x (k + 1) b) z = if b = false ∧ (x = unary m k ∨ x = unary m (k + 1)) then (uAmp th k k : ℂ) else 0 := by
      intro b
      rw [h, Finset.sum_eq_single k]
      · simp only [setBit_eq_unary hk le_rfl x b hx, true_and]
      · intro l hl hne
        have := Finset.mem_range.1 hl
        refine if_neg fun e => hne ((setBit_eq_unary hk (by omega) x b hx).1 e).2.1
      · simp
    rw [Fintype.sum_bool, hM, hM, Finset.sum_range_succ, Finset.sum_range_succ, Finset.sum_eq_zero lt, zero_add]
    have hn : unary m k ≠ unary m (k + 1) := fun e => by have := unary_inj (by omega) hk e; omega
    by_cases h1 : x = unary m k
    · subst h1
      simp only [if_true, true_or, and_true, if_neg hn, bitAt_unary hk, uAmp, ryM]
      simp [mul_comm]
    · by_cases h2 : x = unary m (k + 1)
      · subst h2
        simp only [or_true, and_true, if_neg hn.symm, bitAt_unary hk, uAmp, ryM, Finset.prod_range_succ]
        simp [mul_comm]
      · simp [h1, h2]
  · have hk1 : x ≠ unary m (k + 1) := ne_of_bit (i := k) (by rw [bitAt_unary (by omega)]; simpa using hx)
    have hk0 : x ≠ unary m k := ne_of_bit (i := k) (by rw [bitAt_unary (by omega)]; simpa using hx)
    rw [h, Finset.sum_range_succ, Finset.sum_range_succ _ (k + 1), Finset.sum_range_succ _ k, if_neg hk0, if_neg hk1, if_neg hk0, add_zero, add_zero, add_zero]
    refine Finset.sum_congr rfl fun l hl => ?_
    have := Finset.mem_range.1 hl
    simp only [uAmp, if_neg (show l ≠ k by omega), if_neg (show l ≠ k + 1 by omega)]

/-- The first column of the preparation. -/
theorem unaryPrep_col {j : ℕ} (hj : 0 < j) (th : ℕ → ℝ) (x : Fin (j + 1) → Bool) :
    unaryPrep (j + 1) th x (fun _ => false) = ∑ l ∈ Finset.range (j + 1), if x = unary (j + 1) l then (uAmp th j l : ℂ) else 0 := by
  -- the x gate
  have h0 : ∀ x, gate1 (j + 1) 0 xM x (fun _ => false) = ∑ l ∈ Finset.range (0 + 1), if x = unary (j + 1) l then (uAmp th 0 l : ℂ) else 0 := by
    intro x
    rw [zero_add, Finset.sum_range_one, gate1]
    have e : (∀ i : Fin (j + 1), i.1 ≠ 0 → x i = false) ∧ bitAt x 0 = true ↔ x = unary (j + 1) 0 := by
      constructor
      · rintro ⟨h1, h2⟩
        funext i
        by_cases hi : i.1 = 0
        · have : i = ⟨0, by omega⟩ := Fin.ext hi
          rw [this]; simpa [bitAt, unary] using h2
        · rw [h1 i hi]; simp [unary, hi]
      · rintro rfl
        refine ⟨fun i hi => by simp [unary, hi], by simp [bitAt, unary]⟩
    by_cases hx : x = unary (j + 1) 0
    · rw [if_pos hx]
      obtain ⟨h1, h2⟩ := e.2 hx
      rw [if_pos h1, h2]; simp [xM, bitAt, uAmp]
    · rw [if_neg hx]
      split_ifs with h1
      · have h2 : bitAt x 0 = false := by
          by_contra hc; exact hx (e.1 ⟨h1, by simpa using hc⟩)
        rw [h2]; simp [xM, bitAt]
      · rfl
  -- the first rotation is not controlled, but the control would be set
  have h1 : ∀ x, (gate1 (j + 1) 1 (ryM (th 0)) * gate1 (j + 1) 0 xM) x (fun _ => false) = ∑ l ∈ Finset.range (1 + 1), if x = unary (j + 1) l then (uAmp th 1 l : ℂ) else 0 := by
    intro x
    rw [← rot_step (k := 0) (by omega) th _ _ h0 x, cgate_mul_apply (by omega), gate1_mul_apply (by omega)]
    split_ifs with hx
    · rfl
    · have hz : ∀ y : Fin (j + 1) → Bool, ¬ bitAt y 0 = true → gate1 (j + 1) 0 xM y (fun _ => false) = 0 := by
        intro y hy
        rw [h0, zero_add, Finset.sum_range_one, if_neg]
        exact ne_of_bit (i := 0) (by rw [bitAt_unary (by omega)]; simpa using hy)
      rw [hz x hx, Fintype.sum_bool, hz _ (by rw [bitAt_setBit_ne _ (by omega)]; exact hx), hz _ (by rw [bitAt_setBit_ne _ (by omega)]; exact hx)]
      simp
  have key : ∀ k, k ≤ j - 1 → ∀ x, fori 1 (k + 1) (fun i M => cgate (j + 1) i (i + 1) (ryM (th i)) * M) (gate1 (j + 1) 1 (ryM (th 0)) * gate1 (j + 1) 0 xM) x (fun _ => false)
      = ∑ l ∈ Finset.range (k + 1 + 1), if x = unary (j + 1) l then (uAmp th (k + 1) l : ℂ) else 0 := by
    intro k
    induction k with
    | zero => intro _ x; rw [fori_self]; exact h1 x
    | succ k ih =>
      intro hk x
      rw [fori_succ (by omega)]
      exact rot_step (by omega) th _ _ (ih (by omega)) x
  have := key (j - 1) le_rfl x
  rw [show j - 1 + 1 = j by omega] at this
  rw [unaryPrep, show j + 1 - 1 = j by omega]
  exact this

theorem unaryPrep_unitary {j : ℕ} (hj : 0 < j) (th : ℕ → ℝ) : IsU (unaryPrep (j + 1) th) := by
  rw [unaryPrep, show j + 1 - 1 = j by omega]
  have key : ∀ k, k ≤ j - 1 → IsU (fori 1 (k + 1) (fun i M => cgate (j + 1) i (i + 1) (ryM (th i)) * M) (gate1 (j + 1) 1 (ryM (th 0)) * gate1 (j + 1) 0 xM)) := by
    intro k
    induction k with
    | zero =>
      intro _
      rw [fori_self]
      exact (IsU.gate1 (by omega) (ry_unitary _)).mul (IsU.gate1 (by omega) x_unitary.1)
    | succ k ih =>
      intro hk
      rw [fori_succ (by omega)]
      exact (IsU.cgate (by omega) (by omega) (ry_unitary _)).mul (ih (by omega))
  have := key (j - 1) le_rfl
  rwa [show j - 1 + 1 = j by omega] at this

/-! ### The angles -/

/-- The norm of the tail of the amplitudes from i on. -/
noncomputable def tailR (al : ℕ → ℝ) (j i : ℕ) : ℝ := Real.sqrt (∑ l ∈ Finset.Icc i j, al l ^ 2)

theorem tailR_step (al : ℕ → ℝ) {j i : ℕ} (h : i < j) : tailR al j i ^ 2 = al i ^ 2 + tailR al j (i + 1) ^ 2 := by
  rw [tailR, tailR, Real.sq_sqrt (Finset.sum_nonneg fun _ _ => sq_nonneg _), Real.sq_sqrt (Finset.sum_nonneg fun _ _ => sq_nonneg _)]
  rw [← Finset.insert_Icc_add_one_left_eq_Icc h.le, Finset.sum_insert (by simp)]

theorem tailR_nonneg (al : ℕ → ℝ) (j i : ℕ) : 0 ≤ tailR al j i := Real.sqrt_nonneg _

theorem tailR_pos {al : ℕ → ℝ} {j i : ℕ} (h : i < j) (hp : 0 < al i) : 0 < tailR al j i := by
  have := tailR_step al h
  have h2 := tailR_nonneg al j i
  rcases h2.lt_or_eq with h3 | h3
  · exact h3
  · rw [← h3] at this; nlinarith [sq_nonneg (tailR al j (i + 1)), pow_pos hp 2]

theorem tailR_last {al : ℕ → ℝ} {j : ℕ} (h : 0 ≤ al j) : tailR al j j = al j := by
  rw [tailR, Finset.Icc_self, Finset.sum_singleton, Real.sqrt_sq h]

/-- Cosine and sine of the angle with tangent R/A. -/
theorem arctan_pair {A R N : ℝ} (hA : 0 < A) (hN : 0 < N) (h : N ^ 2 = A ^ 2 + R ^ 2) : Real.cos (Real.arctan (R / A)) = A / N ∧ Real.sin (Real.arctan (R / A)) = R / N := by
  have e : Real.sqrt (1 + (R / A) ^ 2) = N / A := by
    rw [show 1 + (R / A) ^ 2 = (N / A) ^ 2 by rw [div_pow, div_pow, h]; field_simp, Real.sqrt_sq (by positivity)]
  rw [Real.cos_arctan, Real.sin_arctan, e]
  constructor <;> field_simp

/-- The angles, if no amplitude before the last is zero. -/
theorem unaryPhi_eq {al : ℕ → ℝ} {j : ℕ} (hj : 0 < j) (hp : ∀ i < j, 0 < al i) (hl : 0 ≤ al j) (d : ℕ) (hd : d < j) :
    unaryPhi al j d = some (Real.arctan (tailR al j (j - 1 - d + 1) / al (j - 1 - d))) := by
  induction d with
  | zero =>
    have h1 := hp (j - 1) (by omega)
    rw [unaryPhi, arctanQ, mul_one, if_neg h1.ne', div_one, Nat.sub_zero, show j - 1 + 1 = j by omega, tailR_last hl]
  | succ d ih =>
    have h1 := hp (j - 1 - d) (by omega)
    have h2 := hp (j - 1 - d - 1) (by omega)
    have hR := tailR_pos (j := j) (by omega) h1
    rw [unaryPhi, ih (by omega), Option.bind_some, (arctan_pair h1 hR (tailR_step al (by omega))).1, arctanQ, if_neg (by positivity)]
    rw [show j - 1 - (d + 1) = j - 1 - d - 1 by omega, show j - 1 - d - 1 + 1 = j - 1 - d by omega]
    congr 2
    field_simp

theorem unaryAngles_eq {coeffs : ℕ → ℝ} {j : ℕ} (hj : 0 < j) (hp : ∀ i < j, 0 < coeffs i) :
    ∃ th, unaryAngles coeffs j = some th ∧ ∀ l ≤ j, 0 ≤ coeffs j → uAmp th j l = Real.sqrt (coeffs l) / Real.sqrt (∑ k ∈ Finset.range (j + 1), coeffs k) := by
  set al := fun k => Real.sqrt (coeffs k) with hal
  have hp' : ∀ i < j, 0 < al i := fun i hi => Real.sqrt_pos.2 (hp i hi)
  have hl' : 0 ≤ al j := Real.sqrt_nonneg _
  refine ⟨_, by rw [unaryAngles]; exact if_pos fun i hi => by rw [unaryPhi_eq hj hp' hl' _ (by omega)]; rfl, fun l hl hcj => ?_⟩
  have hth : ∀ i < j, 2 * (unaryPhi al j (j - 1 - i)).getD 0 / 2 = Real.arctan (tailR al j (i + 1) / al i) := by
    intro i hi
    rw [unaryPhi_eq hj hp' hl' _ (by omega), Option.getD_some, show j - 1 - (j - 1 - i) = i by omega]; ring
  have hN : ∀ i < j, 0 < tailR al j i := fun i hi => tailR_pos hi (hp' i hi)
  have hprod : ∀ l ≤ j, ∏ i ∈ Finset.range l, Real.sin (2 * (unaryPhi al j (j - 1 - i)).getD 0 / 2) = tailR al j l / tailR al j 0 := by
    intro l
    induction l with
    | zero => intro _; rw [Finset.prod_range_zero, div_self (hN 0 hj).ne']
    | succ l ih =>
      intro hl
      rw [Finset.prod_range_succ, ih (by omega), hth l (by omega), (arctan_pair (hp' l (by omega)) (hN l (by omega)) (tailR_step al (by omega))).2]
      have := hN l (by omega)
      have := hN 0 hj
      field_simp
  have hS : tailR al j 0 = Real.sqrt (∑ k ∈ Finset.range (j + 1), coeffs k) := by
    rw [tailR]; congr 1
    rw [← Nat.range_succ_eq_Icc_zero]
    refine Finset.sum_congr rfl fun k hk => ?_
    have := Finset.mem_range.1 hk
    refine Real.sq_sqrt ?_
    rcases Nat.lt_or_eq_of_le (Nat.lt_succ_iff.1 this) with h | h
    · exact (hp k h).le
    · rw [h]; exact hcj
  rw [uAmp, hprod l hl, hS]
  split_ifs with h
  · subst h; rw [tailR_last hl', mul_one]
  · rw [hth l (by omega), (arctan_pair (hp' l (by omega)) (hN l (by omega)) (tailR_step al (by omega))).1]
    have := hN l (by omega)
    have h0 := hN 0 hj
    rw [hS] at h0
    field_simp
    rfl

/-- If the last two coefficients are zero the angles are NaN. -/
theorem unaryAngles_nan {coeffs : ℕ → ℝ} {j : ℕ} (hj : 0 < j) (h1 : coeffs (j - 1) = 0) (h2 : coeffs j = 0) : unaryAngles coeffs j = none := by
  rw [unaryAngles]
  refine if_neg fun h => ?_
  have := h (j - 1) (by omega)
  rw [Nat.sub_self, unaryPhi] at this
  simp [arctanQ, h1, h2] at this

/-! ### The selection -/

theorem T2_pow (z : a) {U : Matrix (a × n) (a × n) ℂ} (k : ℕ) : cksT2 z U ^ k * U = U * stepT2 z U ^ k := by
  have e : cksT2 z U * U = U * stepT2 z U := by
    rw [cksT2, stepT2, conjTranspose_conjTranspose]; simp only [Matrix.mul_assoc]
  induction k with
  | zero => simp
  | succ k ih => rw [pow_succ, pow_succ, Matrix.mul_assoc, e, ← Matrix.mul_assoc, ih, Matrix.mul_assoc]

theorem T2_unitary (z : a) {U : Matrix (a × n) (a × n) ℂ} (hU : IsU U) : IsU (cksT2 z U) :=
  hU.ct.ct.mul ((refl_unitary z).mul (hU.ct.mul (refl_unitary z)))

theorem cksSelect_eq (j : ℕ) (z : a) (U : Matrix (a × n) (a × n) ℂ) : ∀ k ≤ j,
    fori 1 (k + 1) (fun i M => selC (fun x : Fin (j + 1) → Bool => if bitAt x i then cksT2 z U else 1) * (selC (fun x => if bitAt x i then -1 else 1) * M)) (padL (Fin (j + 1) → Bool) U)
      = selC (fun x => fori 1 (k + 1) (fun i M => (if bitAt x i then cksT2 z U else 1) * ((if bitAt x i then -1 else 1) * M)) U) := by
  intro k
  induction k with
  | zero => intro _; simp only [fori_self]; rfl
  | succ k ih =>
    intro hk
    rw [fori_succ (by omega), ih (by omega), selC_mul, selC_mul]
    congr 1
    funext x
    conv_rhs => rw [fori_succ (by omega)]

theorem select_unary (j : ℕ) (z : a) (U : Matrix (a × n) (a × n) ℂ) {l : ℕ} : ∀ k ≤ j,
    fori 1 (k + 1) (fun i M => (if bitAt (unary (j + 1) l) i then cksT2 z U else 1) * ((if bitAt (unary (j + 1) l) i then -1 else 1) * M)) U
      = ((-1 : ℂ) ^ min k l) • (U * stepT2 z U ^ min k l) := by
  intro k
  induction k with
  | zero => intro _; rw [fori_self]; simp
  | succ k ih =>
    intro hk
    rw [fori_succ (by omega), ih (by omega), bitAt_unary (by omega)]
    by_cases h : k + 1 ≤ l
    · rw [decide_eq_true h, if_pos rfl, if_pos rfl, min_eq_left h, min_eq_left (by omega), ← T2_pow, ← T2_pow, pow_succ, pow_succ' (cksT2 z U)]
      simp only [Matrix.mul_smul, neg_mul, Matrix.one_mul, mul_neg, mul_one, Matrix.mul_assoc, neg_smul]
    · rw [decide_eq_false h, min_eq_right (by omega), min_eq_right (by omega)]
      simp

theorem cksSelect_unitary (j : ℕ) (z : a) {U : Matrix (a × n) (a × n) ℂ} (hU : IsU U) : IsU (cksSelect j z U) := by
  rw [cksSelect]
  refine fori_inv (P := fun _ M => IsU M) (by omega) _ _ hU.padL fun i M _ _ hM => ?_
  refine IsU.mul (IsU.selC fun x => ?_) (IsU.mul (IsU.selC fun x => ?_) hM)
  · split_ifs
    · exact T2_unitary z hU
    · exact IsU.one
  · split_ifs
    · exact IsU.one.neg
    · exact IsU.one

end Verif.Blk
