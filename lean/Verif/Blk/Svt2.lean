import Verif.Blk.Svt

/-!
The circuits of `QSVT` and `GQSVT` as sequences of a Hermitian unitary and reflections; blocks of polynomials of a hermitized matrix.
-/

namespace Verif.Blk

open Matrix Polynomial
open Polynomial.Chebyshev (T)
open scoped ComplexConjugate

variable {n a : Type} [Fintype n] [DecidableEq n] [Fintype a] [DecidableEq a]

/-- The ancillas in state `z`, the bit left free. -/
def embB (n : Type) [DecidableEq n] (z : a) : Matrix ((Bool × a) × n) (Bool × n) ℂ := fun x y => if x = ((y.1, z), y.2) then 1 else 0

theorem mul_embB (z : a) {ι : Type} (M : Matrix ι ((Bool × a) × n) ℂ) (i : ι) (y : Bool × n) : (M * embB n z) i y = M i ((y.1, z), y.2) := by
  rw [mul_apply]; simp [embB]

theorem ct_embB_mul (z : a) {ι : Type} (M : Matrix ((Bool × a) × n) ι ℂ) (x : Bool × n) (j : ι) : ((embB n z)ᴴ * M) x j = M ((x.1, z), x.2) j := by
  rw [mul_apply]; simp [embB, conjTranspose_apply]

theorem ct_embB_embB (z : a) : (embB n z)ᴴ * embB n z = 1 := by
  ext ⟨p, i⟩ ⟨q, j⟩
  rw [ct_embB_mul]; simp only [embB, Matrix.one_apply, Prod.mk.injEq, and_true]

theorem reflB_eq (z : a) : padL Bool (reflM n z) = 2 • (embB n z * (embB n z)ᴴ) - 1 := by
  ext ⟨⟨r, p⟩, i⟩ ⟨⟨s, q⟩, j⟩
  rw [Matrix.sub_apply, Matrix.smul_apply, mul_apply, Matrix.one_apply]
  have : ∑ k, embB n z ((r, p), i) k * (embB n z)ᴴ k ((s, q), j) = if r = s ∧ p = z ∧ q = z ∧ i = j then 1 else 0 := by
    rw [Finset.sum_eq_single (r, i)]
    · simp only [embB, conjTranspose_apply, Prod.mk.injEq]
      by_cases h0 : r = s <;> by_cases h1 : p = z <;> by_cases h2 : q = z <;> by_cases h3 : i = j <;> simp [h0, h1, h2, h3, eq_comm]
    · rintro ⟨t, k⟩ _ hk
      have : ¬ ((r, p), i) = ((t, z), k) := by
        intro h; simp only [Prod.mk.injEq] at h; exact hk (by rw [h.1.1, h.2])
      simp [embB, this]
    · simp
  rw [this]
  simp only [padL, reflM, Prod.mk.injEq]
  by_cases h0 : r = s <;> by_cases h1 : p = z <;> by_cases h2 : q = z <;> by_cases h3 : i = j <;> by_cases h4 : p = q <;> simp_all <;> norm_num

omit [Fintype n] [DecidableEq n] [Fintype a] [DecidableEq a] in
theorem padL_add (V W : Matrix (a × n) (a × n) ℂ) : padL Bool (V + W) = padL Bool V + padL Bool W := by
  ext x y
  simp only [padL, Matrix.add_apply]
  split <;> simp

omit [Fintype n] [DecidableEq n] [Fintype a] [DecidableEq a] in
theorem padL_smul (c : ℂ) (V : Matrix (a × n) (a × n) ℂ) : padL Bool (c • V) = c • padL Bool V := by
  ext x y
  simp only [padL, Matrix.smul_apply]
  split <;> simp

theorem eR_padL (R : Matrix (a × n) (a × n) ℂ) (t : ℝ) : eR (padL Bool R) t = padL Bool (eR R t) := by
  rw [eR, eR, padL_add, padL_smul, padL_smul, padL_one]

theorem exp_eR (t : ℝ) : Complex.exp (Complex.I * t) = Real.cos t + Complex.I * Real.sin t := by
  rw [mul_comm Complex.I (t : ℂ), Complex.exp_mul_I, ← Complex.ofReal_cos, ← Complex.ofReal_sin]; ring

omit [Fintype n] [Fintype a] in
theorem eR_refl_apply (z : a) (t : ℝ) (x y : a × n) :
    eR (reflM n z) t x y = if x = y then (if x.1 = z then Complex.exp (Complex.I * t) else Complex.exp (Complex.I * ((-t : ℝ) : ℂ))) else 0 := by
  rw [exp_eR, exp_eR, Real.cos_neg, Real.sin_neg]
  simp only [eR, Matrix.add_apply, Matrix.smul_apply, Matrix.one_apply, reflM, smul_eq_mul]
  by_cases h : x = y
  · by_cases h1 : y.1 = z <;> simp [h, h1]
  · simp [h]

theorem mcx_mul_apply (z : a) (M : Matrix ((Bool × a) × n) ((Bool × a) × n) ℂ) (x y : (Bool × a) × n) :
    (mcxM n z * M) x y = M ((Bool.xor x.1.1 (decide (x.1.2 = z)), x.1.2), x.2) y := by
  rw [mul_apply, Finset.sum_eq_single ((Bool.xor x.1.1 (decide (x.1.2 = z)), x.1.2), x.2)]
  · simp [mcxM]
  · rintro ⟨⟨r, p⟩, i⟩ _ h
    rw [mcxM, if_neg, zero_mul]
    rintro ⟨h1, h2, h3⟩
    apply h
    simp only at h1 h2 h3
    rw [← h1] at h3 ⊢
    rw [h2, h3]; simp
  · simp

omit [Fintype n] [Fintype a] in
theorem mcx_ct (z : a) : (mcxM n z)ᴴ = mcxM n z := by
  ext ⟨⟨r, p⟩, i⟩ ⟨⟨s, q⟩, j⟩
  simp only [mcxM, conjTranspose_apply]
  by_cases h : p = q
  · subst h
    by_cases h2 : i = j
    · subst h2
      cases r <;> cases s <;> by_cases h3 : p = z <;> simp [h3]
    · simp [h2, Ne.symm h2]
  · simp [h, Ne.symm h]

theorem rz_double (t : ℝ) (x y : Bool) : rzM (2 * t) x y = if x = y then Complex.exp (Complex.I * ((if x then t else -t : ℝ) : ℂ)) else 0 := by
  simp only [rzM]
  cases x <;> cases y <;> simp <;> congr 1 <;> ring

/-- The reflection of `QSVT` is the exponential of the reflection, with a sign given by the signal ancilla. -/
theorem qsvtRefl_eq (z : a) (t : ℝ) : qsvtRefl n z (2 * t) = sel (fun q => eR (reflM n z) (if q then -t else t)) := by
  ext ⟨⟨r, p⟩, i⟩ ⟨⟨s, q⟩, j⟩
  rw [qsvtRefl, mcx_ct, mcx_mul_apply, bit_mul_apply]
  simp only [Fintype.sum_bool, mcxM, sel, eR_refl_apply, rz_double, Prod.mk.injEq]
  by_cases h1 : p = q
  · subst h1
    by_cases h2 : i = j
    · subst h2
      by_cases h3 : p = z <;> cases r <;> cases s <;> simp [h3]
    · simp [h2]
  · simp [h1]

/-- A loop of operations that keep the signal ancilla. -/
theorem fori_sel (d : ℕ) (S : ℕ → Matrix (a × n) (a × n) ℂ) (Q : ℕ → Bool → Matrix (a × n) (a × n) ℂ) (X0 : Matrix ((Bool × a) × n) ((Bool × a) × n) ℂ) :
    fori 0 d (fun i X => padL Bool (S i) * (sel (Q i) * X)) X0 = sel (fun q => fori 0 d (fun i X => S i * (Q i q * X)) 1) * X0 := by
  induction d with
  | zero => simp only [fori_self]; rw [sel_one, Matrix.one_mul]
  | succ d ih =>
    have e : padL Bool (S d) = sel (fun _ => S d) := rfl
    rw [fori_succ (Nat.zero_le d), ih, e, ← Matrix.mul_assoc, ← Matrix.mul_assoc, sel_mul, sel_mul]
    congr 2
    funext q
    rw [fori_succ (Nat.zero_le d), Matrix.mul_assoc]

theorem h_apply : hM false false = (((Real.sqrt 2)⁻¹ : ℝ) : ℂ) ∧ hM true false = (((Real.sqrt 2)⁻¹ : ℝ) : ℂ) ∧ hM false true = (((Real.sqrt 2)⁻¹ : ℝ) : ℂ) := by
  simp [hM]

theorem blk_h_sel (z : a) (F : Bool → Matrix (a × n) (a × n) ℂ) :
    blk (false, z) (bit a n hM * (sel F * bit a n hM)) = (1 / 2 : ℂ) • (blk z (F false) + blk z (F true)) := by
  ext i j
  obtain ⟨h1, h2, h3⟩ := h_apply
  have hh : (((Real.sqrt 2)⁻¹ : ℝ) : ℂ) * (((Real.sqrt 2)⁻¹ : ℝ) : ℂ) = 1 / 2 := by
    rw [← Complex.ofReal_mul, ← mul_inv, Real.mul_self_sqrt (by norm_num)]; norm_num
  simp only [blk, bit_mul_apply, mul_bit_apply, Fintype.sum_bool, sel, h1, h2, h3, if_true, reduceCtorEq, if_false, Matrix.smul_apply, Matrix.add_apply, smul_eq_mul]
  linear_combination (F false (z, i) (z, j) + F true (z, i) (z, j)) * hh

/-- The alternating unitaries of the circuit. -/
def altU (U : Matrix (a × n) (a × n) ℂ) : ℕ → Matrix (a × n) (a × n) ℂ := fun i => if i % 2 = 0 then U else Uᴴ

/-- The block of the circuit of `QSVT`. -/
theorem qsvtU_blk (z : a) (U : Matrix (a × n) (a × n) ℂ) (d : ℕ) (phi : ℕ → ℝ) : blk (false, z) (qsvtU z U d phi)
    = (1 / 2 : ℂ) • (blk z (seqR (reflM n z) (altU U) d phi) + blk z (seqR (reflM n z) (altU U) d (fun j => -phi j))) := by
  have e := fori_sel d (altU U) (fun i q => eR (reflM n z) (if q then -phi (d - i) else phi (d - i))) (bit a n hM)
  rw [qsvtU]
  simp only [qsvtRefl_eq]
  simp only [altU] at e
  rw [e, ← Matrix.mul_assoc (sel _) (sel _), sel_mul, blk_h_sel]
  rfl

theorem hermK_unitary {U : Matrix (a × n) (a × n) ℂ} (h : IsU U) : IsU (hermK U) :=
  (IsU.ctl true h.ct).mul ((IsU.ctl false h).mul (IsU.bit x_unitary.1))

theorem hermK_eq (U : Matrix (a × n) (a × n) ℂ) : hermK U = sel (fun q => if q then Uᴴ else U) * bit a n xM := by
  rw [hermK, ← Matrix.mul_assoc, ctl_pair]

theorem hermK_herm (U : Matrix (a × n) (a × n) ℂ) : (hermK U)ᴴ = hermK U := by
  rw [hermK_eq, conjTranspose_mul, sel_ct, bit_ct, x_unitary.2, sel_x]
  congr 2
  funext q
  cases q <;> simp

theorem colB_hermK (U : Matrix (a × n) (a × n) ℂ) (M : Matrix ((Bool × a) × n) ((Bool × a) × n) ℂ) (q : Bool) :
    colB (hermK U * M) q = (if q then Uᴴ else U) * colB M (!q) := by
  rw [hermK_eq, Matrix.mul_assoc, colB_sel, colB_bit]
  cases q <;> simp [xM]

/-- The alternating sequence is a sequence of one Hermitian unitary with one more bit. -/
theorem seqR_lift (R U : Matrix (a × n) (a × n) ℂ) (d : ℕ) (phi : ℕ → ℝ) :
    colB (seqR (padL Bool R) (fun _ => hermK Uᴴ) d phi) (decide (d % 2 = 1)) = seqR R (altU U) d phi := by
  have loop : ∀ m, colB (fori 0 m (fun i X => hermK Uᴴ * (eR (padL Bool R) (phi (d - i)) * X)) 1) (decide (m % 2 = 1))
      = fori 0 m (fun i X => altU U i * (eR R (phi (d - i)) * X)) 1 := by
    intro m
    induction m with
    | zero => rw [fori_self, fori_self, colB_one]; simp
    | succ m ih =>
      rw [fori_succ (Nat.zero_le m), fori_succ (Nat.zero_le m), colB_hermK, eR_padL, colB_padL, ← ih, altU]
      rcases Nat.mod_two_eq_zero_or_one m with h | h
      · have h' : (m + 1) % 2 = 1 := by omega
        simp [h, h']
      · have h' : (m + 1) % 2 = 0 := by omega
        simp [h, h']
  rw [seqR, seqR, eR_padL, colB_padL, loop]

/-! ### Hermitized matrices -/

/-- [[0, A], [A†, 0]]. -/
def hermN (A : Matrix n n ℂ) : Matrix (Bool × n) (Bool × n) ℂ := fun x y => if x.1 = y.1 then 0 else if x.1 then Aᴴ x.2 y.2 else A x.2 y.2

theorem hermK_blk (z : a) (U : Matrix (a × n) (a × n) ℂ) : (embB n z)ᴴ * hermK U * embB n z = hermN (blk z U) := by
  ext ⟨p, i⟩ ⟨q, j⟩
  rw [mul_embB, ct_embB_mul, hermK_eq, mul_bit_apply]
  simp only [Fintype.sum_bool, sel, hermN, xM, blk, conjTranspose_apply]
  cases p <;> cases q <;> simp

/-- The bit in state `q`. -/
def selE (n : Type) [DecidableEq n] (q : Bool) : Matrix (Bool × n) n ℂ := fun x j => if x = (q, j) then 1 else 0

theorem mul_selE (q : Bool) {ι : Type} (M : Matrix ι (Bool × n) ℂ) (i : ι) (j : n) : (M * selE n q) i j = M i (q, j) := by
  rw [mul_apply]; simp [selE]

theorem selE_mul (q : Bool) {ι : Type} (M : Matrix n ι ℂ) (x : Bool × n) (j : ι) : (selE n q * M) x j = if x.1 = q then M x.2 j else 0 := by
  rw [mul_apply]
  by_cases h : x.1 = q
  · rw [if_pos h, Finset.sum_eq_single x.2]
    · rw [selE, if_pos (by rw [← h]), one_mul]
    · intro k _ hk
      rw [selE, if_neg (by intro e; rw [e] at hk; exact hk rfl), zero_mul]
    · simp
  · rw [if_neg h]
    apply Finset.sum_eq_zero; intro k _
    rw [selE, if_neg (by intro e; rw [e] at h; exact h rfl), zero_mul]

theorem hermN_false (A : Matrix n n ℂ) : hermN A * selE n false = selE n true * Aᴴ := by
  ext ⟨p, i⟩ j
  rw [mul_selE, selE_mul]
  cases p <;> simp [hermN]

theorem hermN_true (A : Matrix n n ℂ) : hermN A * selE n true = selE n false * A := by
  ext ⟨p, i⟩ j
  rw [mul_selE, selE_mul]
  cases p <;> simp [hermN]

/-- Polynomials and matrices that intertwine. -/
theorem aeval_intertwine {ι κ S : Type} [Fintype ι] [DecidableEq ι] [Fintype κ] [DecidableEq κ] [CommSemiring S] [Algebra S ℂ] {X' : Matrix ι ι ℂ} {Y : Matrix κ κ ℂ} {E : Matrix ι κ ℂ} (h : X' * E = E * Y) (g : S[X]) :
    aeval X' g * E = E * aeval Y g := by
  have hp : ∀ k : ℕ, X' ^ k * E = E * Y ^ k := by
    intro k
    induction k with
    | zero => simp
    | succ k ih => rw [pow_succ', pow_succ, Matrix.mul_assoc, ih, ← Matrix.mul_assoc, h, Matrix.mul_assoc, (Commute.refl Y).pow_right k, ← pow_succ]
  induction g using Polynomial.induction_on' with
  | add p q hp hq => rw [map_add, map_add, Matrix.add_mul, Matrix.mul_add, hp, hq]
  | monomial k c =>
    rw [aeval_monomial, aeval_monomial, Algebra.algebraMap_eq_smul_one, Algebra.algebraMap_eq_smul_one, Matrix.smul_mul, Matrix.smul_mul, Matrix.one_mul,
      Matrix.smul_mul, hp, Matrix.one_mul, Matrix.mul_smul]

/-- Blocks of even and odd polynomials of a hermitized matrix. -/
theorem hermN_even (A : Matrix n n ℂ) (g : ℝ[X]) : aeval (hermN A) (g.comp (X ^ 2)) * selE n false = selE n false * aeval (A * Aᴴ) g
    ∧ aeval (hermN A) (g.comp (X ^ 2)) * selE n true = selE n true * aeval (Aᴴ * A) g := by
  rw [aeval_comp]
  constructor <;> apply aeval_intertwine
  · rw [map_pow, aeval_X, pow_two, Matrix.mul_assoc, hermN_false, ← Matrix.mul_assoc, hermN_true, Matrix.mul_assoc]
  · rw [map_pow, aeval_X, pow_two, Matrix.mul_assoc, hermN_true, ← Matrix.mul_assoc, hermN_false, Matrix.mul_assoc]

theorem hermN_odd (A : Matrix n n ℂ) (g : ℝ[X]) : aeval (hermN A) (X * g.comp (X ^ 2)) * selE n false = selE n true * (Aᴴ * aeval (A * Aᴴ) g)
    ∧ aeval (hermN A) (X * g.comp (X ^ 2)) * selE n true = selE n false * (A * aeval (Aᴴ * A) g) := by
  rw [map_mul, aeval_X]
  constructor
  · rw [Matrix.mul_assoc, (hermN_even A g).1, ← Matrix.mul_assoc, hermN_false, Matrix.mul_assoc]
  · rw [Matrix.mul_assoc, (hermN_even A g).2, ← Matrix.mul_assoc, hermN_true, Matrix.mul_assoc]

/-- Entries of the blocks, for a polynomial with even part g(x²) and odd part x h(x²). -/
theorem hermN_entries (A : Matrix n n ℂ) (g h : ℝ[X]) (i j : n) :
    aeval (hermN A) (g.comp (X ^ 2) + X * h.comp (X ^ 2)) (false, i) (false, j) = aeval (A * Aᴴ) g i j
      ∧ aeval (hermN A) (g.comp (X ^ 2) + X * h.comp (X ^ 2)) (true, i) (true, j) = aeval (Aᴴ * A) g i j
      ∧ aeval (hermN A) (g.comp (X ^ 2) + X * h.comp (X ^ 2)) (true, i) (false, j) = (Aᴴ * aeval (A * Aᴴ) h) i j := by
  have e1 := congrArg₂ (· + ·) (hermN_even A g).1 (hermN_odd A h).1
  have e2 := congrArg₂ (· + ·) (hermN_even A g).2 (hermN_odd A h).2
  simp only [← Matrix.add_mul, ← map_add] at e1 e2
  refine ⟨?_, ?_, ?_⟩
  · have := congrFun (congrFun e1 (false, i)) j
    rw [mul_selE, Matrix.add_apply, selE_mul, selE_mul] at this
    simpa using this
  · have := congrFun (congrFun e2 (true, i)) j
    rw [mul_selE, Matrix.add_apply, selE_mul, selE_mul] at this
    simpa using this
  · have := congrFun (congrFun e1 (true, i)) j
    rw [mul_selE, Matrix.add_apply, selE_mul, selE_mul] at this
    simpa using this

/-! ### Parity of coefficients -/

theorem sum_parity {α : Type} [AddCommMonoid α] (f : ℕ → α) (o : ℕ) (ho : o ≤ 1) (L : ℕ) :
    ∑ k ∈ Finset.range L, (if k % 2 = o then f k else 0) = ∑ i ∈ Finset.range ((L + 1 - o) / 2), f (2 * i + o) := by
  induction L with
  | zero => rw [show (0 + 1 - o) / 2 = 0 by omega]; simp
  | succ L ih =>
    rw [Finset.sum_range_succ, ih]
    by_cases h : L % 2 = o
    · rw [if_pos h, show (L + 1 + 1 - o) / 2 = (L + 1 - o) / 2 + 1 by omega, Finset.sum_range_succ, show 2 * ((L + 1 - o) / 2) + o = L by omega]
    · rw [if_neg h, add_zero, show (L + 1 + 1 - o) / 2 = (L + 1 - o) / 2 by omega]

/-- The coefficients of one parity give the even or the odd part. -/
theorem chebPoly_part (L : ℕ) (c : ℕ → ℝ) (g h : ℝ[X]) (e : chebPoly L c = g.comp (X ^ 2) + X * h.comp (X ^ 2)) :
    chebPoly L (fun k => if k % 2 = 0 then c k else 0) = g.comp (X ^ 2) ∧ chebPoly L (fun k => if k % 2 = 1 then c k else 0) = X * h.comp (X ^ 2) := by
  have en : chebPoly L (fun k => (-1) ^ k * c k) = g.comp (X ^ 2) - X * h.comp (X ^ 2) := by
    rw [← chebPoly_neg, e]
    simp only [add_comp, mul_comp, X_comp, comp_assoc, pow_comp, neg_sq]
    ring
  have s1 : chebPoly L c + chebPoly L (fun k => (-1) ^ k * c k) = 2 * chebPoly L (fun k => if k % 2 = 0 then c k else 0) := by
    rw [chebPoly, chebPoly, chebPoly, ← Finset.sum_add_distrib, Finset.mul_sum]
    apply Finset.sum_congr rfl; intro k _
    rcases Nat.mod_two_eq_zero_or_one k with h | h
    · rw [if_pos h, (Nat.even_iff.mpr h).neg_one_pow, one_mul]; ring
    · rw [if_neg (by omega), (Nat.odd_iff.mpr h).neg_one_pow, neg_one_mul, C_neg]; simp
  have s2 : chebPoly L c - chebPoly L (fun k => (-1) ^ k * c k) = 2 * chebPoly L (fun k => if k % 2 = 1 then c k else 0) := by
    rw [chebPoly, chebPoly, chebPoly, ← Finset.sum_sub_distrib, Finset.mul_sum]
    apply Finset.sum_congr rfl; intro k _
    rcases Nat.mod_two_eq_zero_or_one k with h | h
    · rw [if_neg (by omega), (Nat.even_iff.mpr h).neg_one_pow, one_mul]; simp
    · rw [if_pos h, (Nat.odd_iff.mpr h).neg_one_pow, neg_one_mul, C_neg]; ring
  rw [e, en] at s1 s2
  constructor
  · apply mul_left_cancel₀ (two_ne_zero : (2 : ℝ[X]) ≠ 0)
    rw [← s1]; ring
  · apply mul_left_cancel₀ (two_ne_zero : (2 : ℝ[X]) ≠ 0)
    rw [← s2]; ring

end Verif.Blk
