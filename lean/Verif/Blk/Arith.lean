import Verif.Blk.Basic

/-!
Arithmetic of block encodings (block_encodings/block_encoding_base.py:754-790 and 1032-1569).
-/

namespace Verif.Blk

open Matrix

variable {n m : Type} [Fintype n] [DecidableEq n] [Fintype m] [DecidableEq m]

/-- `ry(theta)` (circuit/standard_operations.py): the rotation matrix. -/
noncomputable def ryM (t : ℝ) : Matrix Bool Bool ℂ := fun x y =>
  match x, y with
  | false, false => Real.cos (t / 2)
  | false, true => -Real.sin (t / 2)
  | true, false => Real.sin (t / 2)
  | true, true => Real.cos (t / 2)

/-- The `z` gate. -/
def zM : Matrix Bool Bool ℂ := fun x y => if x = y then (if x then -1 else 1) else 0

/-- `jnp.arctan(y / x)` for nonnegative `x`, `y` not both zero: `y / 0` is `inf`, whose arctan is π/2. -/
noncomputable def arctanDiv (y x : ℝ) : ℝ := if x = 0 then Real.pi / 2 else Real.arctan (y / x)

/-- `prep(qb, arr)` with `arr = jnp.sqrt(jnp.array([alpha, beta]) / (alpha + beta))` (block_encoding_base.py:1101-1103 and 1110-1113). -/
noncomputable def prepM (al be : ℝ) : Matrix Bool Bool ℂ :=
  ryM (2 * arctanDiv (Real.sqrt (be / (al + be))) (Real.sqrt (al / (al + be))))

namespace BE

/-- `dagger` (block_encoding_base.py:754-790). -/
def dagger (B : BE n) : BE n where
  anc := B.anc
  zero := B.zero
  ancs := B.ancs
  U := B.Uᴴ
  alpha := B.alpha
  herm := B.herm

/-- `__add__` (block_encoding_base.py:1032-1128). -/
noncomputable def add (A B : BE n) : BE n where
  anc := Bool × A.anc × B.anc
  zero := (false, A.zero, B.zero)
  ancs := 1 + A.ancs + B.ancs
  U := (bit _ n (prepM A.alpha B.alpha))ᴴ * (ctl true (padL A.anc B.U) * (ctl false (padR B.anc A.U) * bit _ n (prepM A.alpha B.alpha)))
  alpha := A.alpha + B.alpha
  herm := A.herm && B.herm

/-- `__sub__` (block_encoding_base.py:1130-1228). -/
noncomputable def sub (A B : BE n) : BE n where
  anc := Bool × A.anc × B.anc
  zero := (false, A.zero, B.zero)
  ancs := 1 + A.ancs + B.ancs
  U := (bit _ n (prepM A.alpha B.alpha))ᴴ *
    (ctl true (padL A.anc B.U) * (ctl false (padR B.anc A.U) * (bit _ n zM * bit _ n (prepM A.alpha B.alpha))))
  alpha := A.alpha + B.alpha
  herm := A.herm && B.herm

/-- `__mul__` with a real number (block_encoding_base.py:1230-1312): `gphase(np.pi, ...)` is the factor -1. -/
noncomputable def smul (c : ℝ) (B : BE n) : BE n where
  anc := B.anc
  zero := B.zero
  ancs := B.ancs
  U := if c < 0 then -B.U else B.U
  alpha := B.alpha * |c|
  herm := B.herm

/-- `__neg__` (block_encoding_base.py:1512-1569). -/
def neg (B : BE n) : BE n where
  anc := B.anc
  zero := B.zero
  ancs := B.ancs
  U := -B.U
  alpha := B.alpha
  herm := B.herm

/-- `__matmul__` (block_encoding_base.py:1314-1388): `other` is applied first. -/
noncomputable def matmul (A B : BE n) : BE n where
  anc := A.anc × B.anc
  zero := (A.zero, B.zero)
  ancs := A.ancs + B.ancs
  U := padR B.anc A.U * padL A.anc B.U
  alpha := A.alpha * B.alpha
  herm := false

end BE

/-- A unitary on the first ancillas and the first operands. -/
def onFst (b m : Type) [DecidableEq b] [DecidableEq m] {a n : Type} (V : Matrix (a × n) (a × n) ℂ) :
    Matrix ((a × b) × (n × m)) ((a × b) × (n × m)) ℂ :=
  fun x y => if x.1.2 = y.1.2 ∧ x.2.2 = y.2.2 then V (x.1.1, x.2.1) (y.1.1, y.2.1) else 0

/-- A unitary on the second ancillas and the second operands. -/
def onSnd (a n : Type) [DecidableEq a] [DecidableEq n] {b m : Type} (V : Matrix (b × m) (b × m) ℂ) :
    Matrix ((a × b) × (n × m)) ((a × b) × (n × m)) ℂ :=
  fun x y => if x.1.1 = y.1.1 ∧ x.2.1 = y.2.1 then V (x.1.2, x.2.2) (y.1.2, y.2.2) else 0

/-- `kron` (block_encoding_base.py:1393-1510). -/
noncomputable def BE.kron (A : BE n) (B : BE m) : BE (n × m) where
  anc := A.anc × B.anc
  zero := (A.zero, B.zero)
  ancs := A.ancs + B.ancs
  U := onSnd A.anc n B.U * onFst B.anc m A.U
  alpha := A.alpha * B.alpha
  herm := A.herm && B.herm

/-! ### Specification -/

/-- The operator encoded by a block encoding. -/
noncomputable def BE.enc (B : BE n) : Matrix n n ℂ := fun i j => (B.alpha : ℂ) * B.U (B.zero, i) (B.zero, j)

/-- The unitary is one, the flag is right and the scaling factor is not negative. -/
structure BE.Valid (B : BE n) : Prop where
  unitary : IsU B.U
  herm : B.herm = true → B.Uᴴ = B.U
  alpha : 0 ≤ B.alpha

/-! ### Lemmas -/

theorem ry_unitary (t : ℝ) : IsU (ryM t) := by
  have h : ((Real.cos (t / 2) : ℝ) : ℂ) * Real.cos (t / 2) + (Real.sin (t / 2) : ℝ) * Real.sin (t / 2) = 1 := by
    rw [← Complex.ofReal_mul, ← Complex.ofReal_mul, ← Complex.ofReal_add, ← sq, ← sq, Real.cos_sq_add_sin_sq, Complex.ofReal_one]
  rw [IsU]
  ext x y
  rw [mul_apply, Fintype.sum_bool]
  cases x <;> cases y <;> simp only [conjTranspose_apply, ryM, star_neg, Complex.star_def, Complex.conj_ofReal, Matrix.one_apply] <;> simp only [reduceCtorEq, if_true, if_false]
  · rw [add_comm]; exact h
  · ring
  · ring
  · rw [← h]; ring

theorem z_unitary : IsU zM := by
  rw [IsU]
  ext x y
  rw [mul_apply, Fintype.sum_bool]
  cases x <;> cases y <;> simp [conjTranspose_apply, zM]

theorem z_ct : zMᴴ = zM := by
  ext x y
  cases x <;> cases y <;> simp [conjTranspose_apply, zM]

/-- The amplitudes of the prepared state. -/
theorem prep_amp {al be : ℝ} (ha : 0 ≤ al) (hb : 0 ≤ be) (h : 0 < al + be) :
    prepM al be false false = (Real.sqrt (al / (al + be)) : ℝ) ∧ prepM al be true false = (Real.sqrt (be / (al + be)) : ℝ) := by
  simp only [prepM, ryM]
  rw [mul_div_cancel_left₀ _ (two_ne_zero)]
  by_cases h0 : al = 0
  · subst h0
    rw [zero_add] at h ⊢
    rw [zero_div, Real.sqrt_zero, arctanDiv, if_pos rfl, Real.cos_pi_div_two, Real.sin_pi_div_two, div_self h.ne', Real.sqrt_one]
    simp
  · have hal : 0 < al := lt_of_le_of_ne ha (Ne.symm h0)
    have hx : 0 < Real.sqrt (al / (al + be)) := Real.sqrt_pos.mpr (by positivity)
    rw [arctanDiv, if_neg hx.ne', Real.cos_arctan, Real.sin_arctan, div_pow, Real.sq_sqrt (by positivity), Real.sq_sqrt (by positivity)]
    have hs : 1 + be / (al + be) / (al / (al + be)) = (al / (al + be))⁻¹ := by field_simp
    rw [hs, Real.sqrt_inv]
    constructor
    · rw [one_div, inv_inv]
    · rw [div_inv_eq_mul, div_mul_cancel₀ _ hx.ne']

theorem add_core {a : Type} [Fintype a] [DecidableEq a] (G Z : Matrix Bool Bool ℂ) (z0 z1 : ℂ) (hZ : Z = fun x y => if x = y then (if x then z1 else z0) else 0)
    (V W : Matrix (a × n) (a × n) ℂ) (z : a) (i j : n) :
    ((bit a n G)ᴴ * (ctl true W * (ctl false V * (bit a n Z * bit a n G)))) ((false, z), i) ((false, z), j)
      = star (G false false) * z0 * G false false * V (z, i) (z, j) + star (G true false) * z1 * G true false * W (z, i) (z, j) := by
  have e : ctl true W * (ctl false V * (bit a n Z * bit a n G)) = sel (fun q => if q then W else V) * bit a n (Z * G) := by
    rw [ctl_eq, ctl_eq, ← Matrix.mul_assoc (sel _), sel_mul, bit_mul]
    congr 2; funext q; cases q <;> simp
  have zg : ∀ q, (Z * G) q false = (if q then z1 else z0) * G q false := by
    intro q; rw [mul_apply, Fintype.sum_bool, hZ]; cases q <;> simp
  rw [e, bit_ct, bit_mul_apply, Fintype.sum_bool, mul_bit_apply, mul_bit_apply, Fintype.sum_bool, Fintype.sum_bool, zg, zg]
  simp only [sel, conjTranspose_apply]
  simp
  ring

theorem add_core' {a : Type} [Fintype a] [DecidableEq a] (G : Matrix Bool Bool ℂ) (V W : Matrix (a × n) (a × n) ℂ) (z : a) (i j : n) :
    ((bit a n G)ᴴ * (ctl true W * (ctl false V * bit a n G))) ((false, z), i) ((false, z), j)
      = star (G false false) * G false false * V (z, i) (z, j) + star (G true false) * G true false * W (z, i) (z, j) := by
  have := add_core G 1 1 1 (by ext x y; cases x <;> cases y <;> simp) V W z i j
  rw [bit_mul, Matrix.one_mul] at this
  rw [this]; simp

theorem sqrt_part {x : ℝ} (hx : 0 ≤ x) {G : ℂ} (h : G = (Real.sqrt x : ℝ)) : star G * G = (x : ℂ) := by
  rw [h, Complex.star_def, Complex.conj_ofReal, ← Complex.ofReal_mul, Real.mul_self_sqrt hx]

theorem enc_dagger (B : BE n) : B.dagger.enc = B.encᴴ := by
  ext i j
  simp [BE.enc, BE.dagger, conjTranspose_apply]

theorem enc_add {A B : BE n} (hA : 0 ≤ A.alpha) (hB : 0 ≤ B.alpha) (h : 0 < A.alpha + B.alpha) : (A.add B).enc = A.enc + B.enc := by
  ext i j
  obtain ⟨h0, h1⟩ := prep_amp hA hB h
  have hc : ((A.alpha : ℂ) + B.alpha) ≠ 0 := by exact_mod_cast h.ne'
  rw [Matrix.add_apply, BE.enc, BE.enc, BE.enc]
  simp only [BE.add]
  rw [add_core', sqrt_part (by positivity) h0, sqrt_part (by positivity) h1]
  simp only [padR, padL, if_true]
  push_cast
  field_simp

theorem enc_sub {A B : BE n} (hA : 0 ≤ A.alpha) (hB : 0 ≤ B.alpha) (h : 0 < A.alpha + B.alpha) : (A.sub B).enc = A.enc - B.enc := by
  ext i j
  obtain ⟨h0, h1⟩ := prep_amp hA hB h
  have hc : ((A.alpha : ℂ) + B.alpha) ≠ 0 := by exact_mod_cast h.ne'
  rw [Matrix.sub_apply, BE.enc, BE.enc, BE.enc]
  simp only [BE.sub]
  rw [add_core _ zM 1 (-1) rfl, mul_one, sqrt_part (by positivity) h0, mul_assoc (star _) (-1), neg_one_mul, mul_neg, sqrt_part (by positivity) h1]
  simp only [padR, padL, if_true]
  push_cast
  field_simp
  ring

theorem enc_smul (c : ℝ) (B : BE n) : (B.smul c).enc = (c : ℂ) • B.enc := by
  ext i j
  rw [Matrix.smul_apply, BE.enc, BE.enc, smul_eq_mul]
  simp only [BE.smul]
  by_cases h : c < 0
  · rw [if_pos h, abs_of_neg h]; push_cast; simp; ring
  · rw [if_neg h, abs_of_nonneg (not_lt.mp h)]; push_cast; ring

theorem enc_neg (B : BE n) : B.neg.enc = -B.enc := by
  ext i j
  simp [BE.enc, BE.neg]

theorem pad_block {a b : Type} [Fintype a] [DecidableEq a] [Fintype b] [DecidableEq b] (V : Matrix (a × n) (a × n) ℂ) (W : Matrix (b × n) (b × n) ℂ) (z : a) (z' : b) (i j : n) :
    (padR b V * padL a W) ((z, z'), i) ((z, z'), j) = ∑ k, V (z, i) (z, k) * W (z', k) (z', j) := by
  rw [mul_apply]
  simp only [padR, padL, Fintype.sum_prod_type]
  rw [Finset.sum_eq_single z, Finset.sum_eq_single z']
  · simp
  · intro q _ hq; apply Finset.sum_eq_zero; intro k _; simp [Ne.symm hq]
  · simp
  · intro p _ hp; apply Finset.sum_eq_zero; intro q _; apply Finset.sum_eq_zero; intro k _; simp [hp]
  · simp

theorem enc_matmul (A B : BE n) : (A.matmul B).enc = A.enc * B.enc := by
  ext i j
  rw [mul_apply, BE.enc]
  simp only [BE.matmul]
  rw [pad_block, Finset.mul_sum]
  apply Finset.sum_congr rfl; intro k _
  simp only [BE.enc]; push_cast; ring

theorem on_mul {a b : Type} [Fintype a] [DecidableEq a] [Fintype b] [DecidableEq b] (V : Matrix (a × n) (a × n) ℂ) (W : Matrix (b × m) (b × m) ℂ) :
    onSnd a n W * onFst b m V = fun x y => V (x.1.1, x.2.1) (y.1.1, y.2.1) * W (x.1.2, x.2.2) (y.1.2, y.2.2) := by
  ext ⟨⟨p, q⟩, i, j⟩ ⟨⟨p', q'⟩, i', j'⟩
  rw [mul_apply]
  simp only [onSnd, onFst, Fintype.sum_prod_type]
  rw [Finset.sum_eq_single p, Finset.sum_eq_single q', Finset.sum_eq_single i, Finset.sum_eq_single j']
  · simp; ring
  · intro k _ hk; simp [hk]
  · simp
  · intro k _ hk; apply Finset.sum_eq_zero; intro l _; simp [Ne.symm hk]
  · simp
  · intro k _ hk; apply Finset.sum_eq_zero; intro l _; apply Finset.sum_eq_zero; intro l' _; simp [hk]
  · simp
  · intro k _ hk; apply Finset.sum_eq_zero; intro l _; apply Finset.sum_eq_zero; intro l' _; apply Finset.sum_eq_zero; intro l'' _; simp [Ne.symm hk]
  · simp

theorem enc_kron (A : BE n) (B : BE m) : (A.kron B).enc = fun x y => A.enc x.1 y.1 * B.enc x.2 y.2 := by
  ext x y
  simp only [BE.enc, BE.kron]
  rw [on_mul]
  push_cast; ring

/-! ### Validity -/

theorem valid_dagger {B : BE n} (h : B.Valid) : B.dagger.Valid :=
  ⟨h.unitary.ct, fun hh => by have := h.herm hh; show B.Uᴴᴴ = B.Uᴴ; rw [this, this], h.alpha⟩

theorem commute_ctl {a : Type} [Fintype a] [DecidableEq a] (V W : Matrix (a × n) (a × n) ℂ) : ctl false V * ctl true W = ctl true W * ctl false V := by
  rw [ctl_eq, ctl_eq, sel_mul, sel_mul]
  congr 1; funext q; cases q <;> simp

omit [Fintype n] in
theorem ctl_ct {a : Type} [DecidableEq a] (c : Bool) (V : Matrix (a × n) (a × n) ℂ) : (ctl c V)ᴴ = ctl c Vᴴ := by
  rw [ctl_eq, ctl_eq, sel_ct]
  congr 1; funext q
  by_cases h : q = c <;> simp [h]

theorem bit_z_ctl {a : Type} [Fintype a] [DecidableEq a] (c : Bool) (V : Matrix (a × n) (a × n) ℂ) : bit a n zM * ctl c V = ctl c V * bit a n zM := by
  ext x y
  rw [bit_mul_apply, mul_bit_apply, Fintype.sum_bool, Fintype.sum_bool]
  simp only [ctl, zM]
  cases h : x.1.1 <;> cases h' : y.1.1 <;> cases c <;> simp

theorem valid_add {A B : BE n} (hA : A.Valid) (hB : B.Valid) : (A.add B).Valid := by
  refine ⟨?_, ?_, add_nonneg hA.alpha hB.alpha⟩
  · exact (IsU.bit (ry_unitary _)).ct.mul ((hB.unitary.padL.ctl _).mul ((hA.unitary.padR.ctl _).mul (IsU.bit (ry_unitary _))))
  · intro h
    have h' : A.herm = true ∧ B.herm = true := by simpa [BE.add] using h
    simp only [BE.add, conjTranspose_mul, conjTranspose_conjTranspose, ctl_ct, padR_ct, padL_ct, hA.herm h'.1, hB.herm h'.2]
    rw [Matrix.mul_assoc, Matrix.mul_assoc, ← Matrix.mul_assoc (ctl false _), commute_ctl, Matrix.mul_assoc]

theorem valid_sub {A B : BE n} (hA : A.Valid) (hB : B.Valid) : (A.sub B).Valid := by
  refine ⟨?_, ?_, add_nonneg hA.alpha hB.alpha⟩
  · exact (IsU.bit (ry_unitary _)).ct.mul ((hB.unitary.padL.ctl _).mul ((hA.unitary.padR.ctl _).mul ((IsU.bit z_unitary).mul (IsU.bit (ry_unitary _)))))
  · intro h
    have h' : A.herm = true ∧ B.herm = true := by simpa [BE.sub] using h
    simp only [BE.sub, conjTranspose_mul, conjTranspose_conjTranspose, ctl_ct, padR_ct, padL_ct, hA.herm h'.1, hB.herm h'.2, bit_ct zM, z_ct]
    simp only [Matrix.mul_assoc]
    congr 1
    rw [← Matrix.mul_assoc (ctl false _) (ctl true _), commute_ctl, Matrix.mul_assoc, ← Matrix.mul_assoc (bit _ n zM), bit_z_ctl, Matrix.mul_assoc,
      ← Matrix.mul_assoc (bit _ n zM) (ctl false _), bit_z_ctl, Matrix.mul_assoc]

theorem valid_smul (c : ℝ) {B : BE n} (h : B.Valid) : (B.smul c).Valid := by
  refine ⟨?_, ?_, mul_nonneg h.alpha (abs_nonneg _)⟩
  · simp only [BE.smul]; split
    · exact h.unitary.neg
    · exact h.unitary
  · intro hh; have := h.herm hh
    simp only [BE.smul]; split
    · rw [conjTranspose_neg, this]
    · exact this

theorem valid_neg {B : BE n} (h : B.Valid) : B.neg.Valid :=
  ⟨h.unitary.neg, fun hh => by have := h.herm hh; show (-B.U)ᴴ = -B.U; rw [conjTranspose_neg, this], h.alpha⟩

theorem valid_matmul {A B : BE n} (hA : A.Valid) (hB : B.Valid) : (A.matmul B).Valid :=
  ⟨hA.unitary.padR.mul hB.unitary.padL, fun h => by simp [BE.matmul] at h, mul_nonneg hA.alpha hB.alpha⟩

/-- The product of two unitaries on different variables. -/
def kr {a b n m : Type} (V : Matrix (a × n) (a × n) ℂ) (W : Matrix (b × m) (b × m) ℂ) : Matrix ((a × b) × (n × m)) ((a × b) × (n × m)) ℂ :=
  fun x y => V (x.1.1, x.2.1) (y.1.1, y.2.1) * W (x.1.2, x.2.2) (y.1.2, y.2.2)

theorem kr_unitary {a b : Type} [Fintype a] [DecidableEq a] [Fintype b] [DecidableEq b] {V : Matrix (a × n) (a × n) ℂ} {W : Matrix (b × m) (b × m) ℂ}
    (h1 : IsU V) (h2 : IsU W) : IsU (kr V W) := by
  rw [IsU] at h1 h2 ⊢
  ext ⟨⟨p, q⟩, i, j⟩ ⟨⟨p', q'⟩, i', j'⟩
  have c1 := congrFun (congrFun h1 (p, i)) (p', i')
  have c2 := congrFun (congrFun h2 (q, j)) (q', j')
  rw [mul_apply] at c1 c2 ⊢
  have key : ∑ x : (a × b) × n × m, (kr V W)ᴴ ((p, q), i, j) x * kr V W x ((p', q'), i', j')
      = (∑ x, Vᴴ (p, i) x * V x (p', i')) * (∑ x, Wᴴ (q, j) x * W x (q', j')) := by
    rw [Finset.sum_mul_sum]
    simp only [Fintype.sum_prod_type, conjTranspose_apply, kr]
    apply Finset.sum_congr rfl; intro x _
    rw [Finset.sum_comm]
    apply Finset.sum_congr rfl; intro k _
    apply Finset.sum_congr rfl; intro y _
    apply Finset.sum_congr rfl; intro l _
    rw [star_mul]; ring
  rw [key, c1, c2]
  simp only [Matrix.one_apply, Prod.mk.injEq]
  by_cases ha : p = p' <;> by_cases hi : i = i' <;> by_cases hb : q = q' <;> by_cases hj : j = j' <;> simp [ha, hi, hb, hj]

omit [Fintype n] [DecidableEq n] [Fintype m] [DecidableEq m] in
theorem kr_ct {a b : Type} (V : Matrix (a × n) (a × n) ℂ) (W : Matrix (b × m) (b × m) ℂ) : (kr V W)ᴴ = kr Vᴴ Wᴴ := by
  ext x y
  simp only [kr, conjTranspose_apply, star_mul]
  ring

theorem valid_kron {A : BE n} {B : BE m} (hA : A.Valid) (hB : B.Valid) : (A.kron B).Valid := by
  have e : (A.kron B).U = kr A.U B.U := on_mul A.U B.U
  refine ⟨?_, ?_, mul_nonneg hA.alpha hB.alpha⟩
  · rw [e]; exact kr_unitary hA.unitary hB.unitary
  · intro h
    have h' : A.herm = true ∧ B.herm = true := by simpa [BE.kron] using h
    rw [e]
    refine (kr_ct A.U B.U).trans ?_
    rw [hA.herm h'.1, hB.herm h'.2]

end Verif.Blk
