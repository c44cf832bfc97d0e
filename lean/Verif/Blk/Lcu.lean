import Verif.Blk.Gqet

/-!
Linear combinations of unitaries with an arbitrary selection register: `with conjugate(PREP)(case): SELECT`.
-/

namespace Verif.Blk

open Matrix

variable {n a c : Type} [Fintype n] [DecidableEq n] [Fintype a] [DecidableEq a] [Fintype c] [DecidableEq c]

/-- Different unitaries for the values of the selection register. -/
def selC (F : c → Matrix (a × n) (a × n) ℂ) : Matrix ((c × a) × n) ((c × a) × n) ℂ :=
  fun x y => if x.1.1 = y.1.1 then F x.1.1 (x.1.2, x.2) (y.1.2, y.2) else 0

/-- A unitary on the selection register. -/
def regC (a n : Type) [DecidableEq a] [DecidableEq n] (P : Matrix c c ℂ) : Matrix ((c × a) × n) ((c × a) × n) ℂ :=
  fun x y => if x.1.2 = y.1.2 ∧ x.2 = y.2 then P x.1.1 y.1.1 else 0

omit [DecidableEq n] [DecidableEq a] in
theorem selC_mul (F G : c → Matrix (a × n) (a × n) ℂ) : selC F * selC G = selC (fun q => F q * G q) := by
  ext x y
  rw [mul_apply]
  simp only [selC, mul_apply, Fintype.sum_prod_type]
  by_cases h : x.1.1 = y.1.1
  · rw [if_pos h, Finset.sum_eq_single x.1.1]
    · simp [h]
    · intro q _ hq; simp [Ne.symm hq]
    · simp
  · rw [if_neg h]
    apply Finset.sum_eq_zero; intro p _
    apply Finset.sum_eq_zero; intro q _
    apply Finset.sum_eq_zero; intro i _
    by_cases hq : x.1.1 = p
    · rw [← hq]; simp [h]
    · simp [hq]

omit [Fintype n] [DecidableEq n] [Fintype a] [DecidableEq a] [Fintype c] in
theorem selC_ct (F : c → Matrix (a × n) (a × n) ℂ) : (selC F)ᴴ = selC (fun q => (F q)ᴴ) := by
  ext x y
  simp only [selC, conjTranspose_apply]
  by_cases h : x.1.1 = y.1.1
  · simp [h]
  · simp [h, Ne.symm h]

omit [Fintype n] [Fintype a] [Fintype c] in
theorem selC_one : selC (fun _ : c => (1 : Matrix (a × n) (a × n) ℂ)) = 1 := by
  ext ⟨⟨p, q⟩, i⟩ ⟨⟨p', q'⟩, i'⟩
  simp only [selC, Matrix.one_apply, Prod.mk.injEq]
  by_cases h : p = p' <;> simp [h]

theorem IsU.selC {F : c → Matrix (a × n) (a × n) ℂ} (h : ∀ q, IsU (F q)) : IsU (selC F) := by
  rw [IsU, selC_ct, selC_mul]; simp only [show ∀ q, (F q)ᴴ * F q = 1 from h, selC_one]

theorem regC_mul (G G' : Matrix c c ℂ) : regC a n G * regC a n G' = regC a n (G * G') := by
  ext ⟨⟨p, q⟩, i⟩ ⟨⟨p', q'⟩, i'⟩
  rw [mul_apply]
  simp only [regC, mul_apply, Fintype.sum_prod_type]
  rw [Finset.sum_congr rfl (g := fun r => if q = q' ∧ i = i' then G p r * G' r p' else 0)]
  · by_cases h : q = q' ∧ i = i'
    · simp [h]
    · simp [h]
  · intro r _
    rw [Finset.sum_eq_single q, Finset.sum_eq_single i]
    · simp
    · intro k _ hk; simp [Ne.symm hk]
    · simp
    · intro k _ hk; apply Finset.sum_eq_zero; intro l _; simp [Ne.symm hk]
    · simp

omit [Fintype n] [Fintype a] [Fintype c] in
theorem regC_one : regC a n (1 : Matrix c c ℂ) = 1 := by
  ext ⟨⟨p, q⟩, i⟩ ⟨⟨p', q'⟩, i'⟩
  simp only [regC, Matrix.one_apply, Prod.mk.injEq]
  by_cases h : p = p' <;> simp [h]

omit [Fintype n] [Fintype a] [Fintype c] [DecidableEq c] in
theorem regC_ct (G : Matrix c c ℂ) : (regC a n G)ᴴ = regC a n Gᴴ := by
  ext x y
  simp only [regC, conjTranspose_apply]
  by_cases h : x.1.2 = y.1.2 ∧ x.2 = y.2
  · simp [h]
  · rw [if_neg h, if_neg (fun h' => h ⟨h'.1.symm, h'.2.symm⟩)]; simp

theorem IsU.regC {G : Matrix c c ℂ} (h : IsU G) : IsU (regC a n G) := by
  rw [IsU, regC_ct, regC_mul, h, regC_one]

omit [DecidableEq c] in
theorem mul_regC_apply (G : Matrix c c ℂ) (M : Matrix ((c × a) × n) ((c × a) × n) ℂ) (x y : (c × a) × n) :
    (M * regC a n G) x y = ∑ r, M x ((r, y.1.2), y.2) * G r y.1.1 := by
  obtain ⟨⟨p, q⟩, i⟩ := y
  rw [mul_apply]
  simp only [regC, Fintype.sum_prod_type]
  apply Finset.sum_congr rfl; intro r _
  rw [Finset.sum_eq_single q, Finset.sum_eq_single i]
  · simp
  · intro k _ hk; simp [hk]
  · simp
  · intro k _ hk; apply Finset.sum_eq_zero; intro l _; simp [hk]
  · simp

omit [DecidableEq c] in
theorem regC_mul_apply (G : Matrix c c ℂ) (M : Matrix ((c × a) × n) ((c × a) × n) ℂ) (x y : (c × a) × n) :
    (regC a n G * M) x y = ∑ r, G x.1.1 r * M ((r, x.1.2), x.2) y := by
  obtain ⟨⟨p, q⟩, i⟩ := x
  rw [mul_apply]
  simp only [regC, Fintype.sum_prod_type]
  apply Finset.sum_congr rfl; intro r _
  rw [Finset.sum_eq_single q, Finset.sum_eq_single i]
  · simp
  · intro k _ hk; simp [Ne.symm hk]
  · simp
  · intro k _ hk; apply Finset.sum_eq_zero; intro l _; simp [Ne.symm hk]
  · simp

/-- PREP†, SELECT, PREP with possibly different preparations: the block is the combination with weights conj(Q x) P x. -/
theorem lcu_blk2 (z : a) (c0 : c) (Q P : Matrix c c ℂ) (F : c → Matrix (a × n) (a × n) ℂ) :
    blk (c0, z) ((regC a n Q)ᴴ * (selC F * regC a n P)) = ∑ x, (star (Q x c0) * P x c0) • blk z (F x) := by
  ext i j
  rw [Matrix.sum_apply, blk, regC_ct, regC_mul_apply]
  refine Finset.sum_congr rfl fun x _ => ?_
  rw [mul_regC_apply, Finset.sum_eq_single x]
  · simp only [selC, if_true, conjTranspose_apply, Matrix.smul_apply, blk, smul_eq_mul]; ring
  · intro y _ hy; simp [selC, Ne.symm hy]
  · simp

/-- PREP†, SELECT, PREP: the block is the combination with the squared amplitudes as weights. -/
theorem lcu_blk (z : a) (c0 : c) (P : Matrix c c ℂ) (F : c → Matrix (a × n) (a × n) ℂ) :
    blk (c0, z) ((regC a n P)ᴴ * (selC F * regC a n P)) = ∑ x, ((‖P x c0‖ ^ 2 : ℝ) : ℂ) • blk z (F x) := by
  rw [lcu_blk2]
  refine Finset.sum_congr rfl fun x _ => ?_
  congr 1
  rw [Complex.star_def, Complex.conj_mul', Complex.ofReal_pow]

/-! ### Gates on registers of qubits -/

variable {m : ℕ}

/-- Qubit i of a register. -/
def bitAt (x : Fin m → Bool) (i : ℕ) : Bool := if h : i < m then x ⟨i, h⟩ else false

/-- Set qubit i. -/
def setBit (x : Fin m → Bool) (i : ℕ) (b : Bool) : Fin m → Bool := fun j => if j.1 = i then b else x j

/-- A gate on qubit i of a register. -/
def gate1 (m i : ℕ) (G : Matrix Bool Bool ℂ) : Matrix (Fin m → Bool) (Fin m → Bool) ℂ :=
  fun x y => if ∀ j : Fin m, j.1 ≠ i → x j = y j then G (bitAt x i) (bitAt y i) else 0

/-- A gate on qubit i controlled on qubit k. -/
def cgate (m k i : ℕ) (G : Matrix Bool Bool ℂ) : Matrix (Fin m → Bool) (Fin m → Bool) ℂ :=
  fun x y => if bitAt x k then gate1 m i G x y else (1 : Matrix _ _ ℂ) x y

theorem bitAt_setBit (x : Fin m → Bool) {i : ℕ} (hi : i < m) (b : Bool) : bitAt (setBit x i b) i = b := by simp [bitAt, setBit, hi]

theorem bitAt_setBit_ne (x : Fin m → Bool) {i k : ℕ} (h : k ≠ i) (b : Bool) : bitAt (setBit x i b) k = bitAt x k := by
  unfold bitAt setBit
  split_ifs <;> simp_all

theorem gate1_mul_apply {i : ℕ} (hi : i < m) (G : Matrix Bool Bool ℂ) {ι : Type} (M : Matrix (Fin m → Bool) ι ℂ) (x : Fin m → Bool) (z : ι) :
    (gate1 m i G * M) x z = ∑ b, G (bitAt x i) b * M (setBit x i b) z := by
  rw [mul_apply]
  simp only [gate1, ite_mul, zero_mul]
  rw [← Finset.sum_filter]
  refine Finset.sum_nbij' (fun y => bitAt y i) (fun b => setBit x i b) ?_ ?_ ?_ ?_ ?_
  · simp
  · intro b _
    simp only [Finset.mem_filter, Finset.mem_univ, true_and]
    intro j hj; simp [setBit, hj]
  · intro y hy
    simp only [Finset.mem_filter, Finset.mem_univ, true_and] at hy
    funext j
    by_cases hj : j.1 = i
    · subst hj; simp [setBit, bitAt]
    · simp only [setBit, if_neg hj]; exact hy j hj
  · intro b _; exact bitAt_setBit x hi b
  · intro y hy
    simp only [Finset.mem_filter, Finset.mem_univ, true_and] at hy
    have : setBit x i (bitAt y i) = y := by
      funext j
      by_cases hj : j.1 = i
      · subst hj; simp [setBit, bitAt]
      · simp only [setBit, if_neg hj]; exact hy j hj
    rw [this]

theorem gate1_mul {i : ℕ} (hi : i < m) (G G' : Matrix Bool Bool ℂ) : gate1 m i G * gate1 m i G' = gate1 m i (G * G') := by
  ext x y
  rw [gate1_mul_apply hi]
  have : ∀ b, (∀ j : Fin m, j.1 ≠ i → setBit x i b j = y j) ↔ ∀ j : Fin m, j.1 ≠ i → x j = y j := by
    intro b
    refine forall_congr' fun j => forall_congr' fun hj => ?_
    rw [setBit, if_neg hj]
  simp only [gate1, this, bitAt_setBit x hi]
  split_ifs
  · rw [mul_apply]
  · simp

theorem gate1_one {i : ℕ} (hi : i < m) : gate1 m i 1 = 1 := by
  ext x y
  rw [gate1, Matrix.one_apply, Matrix.one_apply]
  by_cases h : x = y
  · subst h; simp
  · rw [if_neg h]
    split_ifs with h1 h2
    · refine absurd (funext fun j => ?_) h
      by_cases hj : j.1 = i
      · subst hj; simpa [bitAt] using h2
      · exact h1 j hj
    · rfl
    · rfl

theorem gate1_ct (i : ℕ) (G : Matrix Bool Bool ℂ) : (gate1 m i G)ᴴ = gate1 m i Gᴴ := by
  ext x y
  simp only [gate1, conjTranspose_apply]
  by_cases h : ∀ j : Fin m, j.1 ≠ i → x j = y j
  · rw [if_pos h, if_pos fun j hj => (h j hj).symm]
  · rw [if_neg h, if_neg fun h' => h fun j hj => (h' j hj).symm, star_zero]

theorem IsU.gate1 {i : ℕ} (hi : i < m) {G : Matrix Bool Bool ℂ} (h : IsU G) : IsU (gate1 m i G) := by
  rw [IsU, gate1_ct, gate1_mul hi, h, gate1_one hi]

theorem gate1_bit {i k : ℕ} (h : k ≠ i) {G : Matrix Bool Bool ℂ} {x y : Fin m → Bool} (hne : Blk.gate1 m i G x y ≠ 0) : bitAt x k = bitAt y k := by
  rw [Blk.gate1] at hne
  split_ifs at hne with h1
  · unfold bitAt; split_ifs with hk
    · exact h1 ⟨k, hk⟩ h
    · rfl
  · exact absurd rfl hne

theorem cgate_ct {i k : ℕ} (h : k ≠ i) (G : Matrix Bool Bool ℂ) : (cgate m k i G)ᴴ = cgate m k i Gᴴ := by
  ext x y
  rw [conjTranspose_apply, cgate, cgate, ← gate1_ct, conjTranspose_apply]
  by_cases he : bitAt x k = bitAt y k
  · rw [he]; split_ifs
    · rfl
    · rw [Matrix.one_apply, Matrix.one_apply]; by_cases hxy : x = y
      · simp [hxy]
      · simp [hxy, Ne.symm hxy]
  · have h1 : Blk.gate1 m i G y x = 0 := by
      by_contra hc; exact he (gate1_bit h hc).symm
    have h2 : x ≠ y := fun e => he (by rw [e])
    rw [h1, Matrix.one_apply_ne h2, Matrix.one_apply_ne h2.symm]
    simp

theorem cgate_mul_apply {i k : ℕ} (hi : i < m) (G : Matrix Bool Bool ℂ) {ι : Type} (M : Matrix (Fin m → Bool) ι ℂ) (x : Fin m → Bool) (z : ι) :
    (cgate m k i G * M) x z = if bitAt x k then ∑ b, G (bitAt x i) b * M (setBit x i b) z else M x z := by
  split_ifs with h
  · rw [← gate1_mul_apply hi, mul_apply, mul_apply]
    refine Finset.sum_congr rfl fun y _ => ?_
    rw [cgate, if_pos h]
  · rw [mul_apply, Finset.sum_eq_single x]
    · rw [cgate, if_neg h, Matrix.one_apply_eq, one_mul]
    · intro y _ hy; rw [cgate, if_neg h, Matrix.one_apply_ne hy.symm, zero_mul]
    · simp

theorem IsU.cgate {i k : ℕ} (hi : i < m) (h : k ≠ i) {G : Matrix Bool Bool ℂ} (hG : IsU G) : IsU (cgate m k i G) := by
  rw [IsU, cgate_ct h]
  ext x y
  rw [cgate_mul_apply hi]
  split_ifs with hx
  · have e : ∀ b, Blk.cgate m k i G (setBit x i b) y = Blk.gate1 m i G (setBit x i b) y := by
      intro b; rw [Blk.cgate, bitAt_setBit_ne x h, if_pos hx]
    simp only [e]
    rw [← gate1_mul_apply hi, ← gate1_ct, IsU.gate1 hi hG]
  · rw [Blk.cgate, if_neg hx]

end Verif.Blk
