import Verif.Blk.Walk
import Mathlib.Algebra.Polynomial.Expand
import Mathlib.LinearAlgebra.Matrix.Notation
import Mathlib.Analysis.Complex.Basic
import Mathlib.Algebra.BigOperators.Field

/-!
# Properties C100, C101, C102, C103: block encodings
-/

namespace Verif.Props

open Matrix Polynomial Verif.Blk
open Polynomial.Chebyshev (T)

variable {n m : Type} [Fintype n] [DecidableEq n] [Fintype m] [DecidableEq m]

/-! ## C100: arithmetic -/

/-- Expressions over block encodings, as a user writes them. -/
inductive BExpr (n : Type) where
  | leaf (B : BE n)
  | add (x y : BExpr n)
  | sub (x y : BExpr n)
  | scale (c : ℝ) (x : BExpr n)
  | neg (x : BExpr n)
  | mul (x y : BExpr n)
  | dagger (x : BExpr n)

/-- What the program builds. -/
noncomputable def BExpr.build : BExpr n → BE n
  | leaf B => B
  | add x y => x.build.add y.build
  | sub x y => x.build.sub y.build
  | scale c x => x.build.smul c
  | neg x => x.build.neg
  | mul x y => x.build.matmul y.build
  | dagger x => x.build.dagger

/-- What the user means. -/
noncomputable def BExpr.sem : BExpr n → Matrix n n ℂ
  | leaf B => B.enc
  | add x y => x.sem + y.sem
  | sub x y => x.sem - y.sem
  | scale c x => (c : ℂ) • x.sem
  | neg x => -x.sem
  | mul x y => x.sem * y.sem
  | dagger x => x.semᴴ

/-- The leaves are block encodings, scalars are not zero. -/
def BExpr.Ok : BExpr n → Prop
  | leaf B => B.Valid ∧ 0 < B.alpha
  | add x y => x.Ok ∧ y.Ok
  | sub x y => x.Ok ∧ y.Ok
  | scale c x => c ≠ 0 ∧ x.Ok
  | neg x => x.Ok
  | mul x y => x.Ok ∧ y.Ok
  | dagger x => x.Ok

/-- Every expression of block encodings encodes the expression of the encoded operators. The result is a unitary, and if it is flagged as Hermitian,
then it is. -/
theorem block_encoding_expr : ∀ e : BExpr n, e.Ok → e.build.enc = e.sem ∧ e.build.Valid ∧ 0 < e.build.alpha
  | .leaf _, h => ⟨rfl, h.1, h.2⟩
  | .add x y, h => by
    obtain ⟨x1, x2, x3⟩ := block_encoding_expr x h.1
    obtain ⟨y1, y2, y3⟩ := block_encoding_expr y h.2
    refine ⟨?_, valid_add x2 y2, add_pos x3 y3⟩
    show (x.build.add y.build).enc = x.sem + y.sem
    rw [enc_add x3.le y3.le (add_pos x3 y3), x1, y1]
  | .sub x y, h => by
    obtain ⟨x1, x2, x3⟩ := block_encoding_expr x h.1
    obtain ⟨y1, y2, y3⟩ := block_encoding_expr y h.2
    refine ⟨?_, valid_sub x2 y2, add_pos x3 y3⟩
    show (x.build.sub y.build).enc = x.sem - y.sem
    rw [enc_sub x3.le y3.le (add_pos x3 y3), x1, y1]
  | .scale c x, h => by
    obtain ⟨x1, x2, x3⟩ := block_encoding_expr x h.2
    refine ⟨?_, valid_smul c x2, mul_pos x3 (abs_pos.mpr h.1)⟩
    show (x.build.smul c).enc = (c : ℂ) • x.sem
    rw [enc_smul, x1]
  | .neg x, h => by
    obtain ⟨x1, x2, x3⟩ := block_encoding_expr x h
    refine ⟨?_, valid_neg x2, x3⟩
    show x.build.neg.enc = -x.sem
    rw [enc_neg, x1]
  | .mul x y, h => by
    obtain ⟨x1, x2, x3⟩ := block_encoding_expr x h.1
    obtain ⟨y1, y2, y3⟩ := block_encoding_expr y h.2
    refine ⟨?_, valid_matmul x2 y2, mul_pos x3 y3⟩
    show (x.build.matmul y.build).enc = x.sem * y.sem
    rw [enc_matmul, x1, y1]
  | .dagger x, h => by
    obtain ⟨x1, x2, x3⟩ := block_encoding_expr x h
    refine ⟨?_, valid_dagger x2, x3⟩
    show x.build.dagger.enc = x.semᴴ
    rw [enc_dagger, x1]

/-- The sum with an encoding of scaling factor 0 (`0 * A + B`) also works as long as not both factors are 0. -/
theorem block_encoding_add_zero {A B : BE n} (hA : A.Valid) (hB : B.Valid) (h : 0 < A.alpha + B.alpha) :
    (A.add B).enc = A.enc + B.enc ∧ (A.sub B).enc = A.enc - B.enc ∧ (A.add B).Valid ∧ (A.sub B).Valid :=
  ⟨enc_add hA.alpha hB.alpha h, enc_sub hA.alpha hB.alpha h, valid_add hA hB, valid_sub hA hB⟩

/-- The Kronecker product of block encodings encodes the Kronecker product. -/
theorem block_encoding_kron {A : BE n} {B : BE m} (hA : A.Valid) (hB : B.Valid) :
    (A.kron B).enc = (fun x y => A.enc x.1 y.1 * B.enc x.2 y.2) ∧ (A.kron B).Valid :=
  ⟨enc_kron A B, valid_kron hA hB⟩

/-- A Hermitian unitary on one ancilla. -/
noncomputable def sampleU : Matrix (Bool × Unit) (Bool × Unit) ℂ := fun x y =>
  if x.1 = y.1 then (if x.1 then -3 / 5 else 3 / 5) else 4 / 5

/-- A small block encoding: 5 times the number 3/5, by a Hermitian unitary. -/
noncomputable def sample : BE Unit where
  anc := Bool
  zero := false
  ancs := 1
  U := sampleU
  alpha := 5
  herm := true

theorem sampleU_herm : sampleUᴴ = sampleU := by
  ext ⟨x, _⟩ ⟨y, _⟩
  simp only [conjTranspose_apply, sampleU]
  cases x <;> cases y <;> norm_num

theorem sampleU_unitary : IsU sampleU := by
  rw [IsU, sampleU_herm]
  ext ⟨x, _⟩ ⟨y, _⟩
  rw [mul_apply, Fintype.sum_prod_type, Fintype.sum_bool]
  cases x <;> cases y <;> simp only [sampleU, Matrix.one_apply] <;> norm_num

theorem sample_valid : sample.Valid := ⟨sampleU_unitary, fun _ => sampleU_herm, by norm_num [sample]⟩

theorem sample_enc : sample.enc = (3 : ℂ) • (1 : Matrix Unit Unit ℂ) := by
  ext i j
  show ((5 : ℝ) : ℂ) * sampleU (false, i) (false, j) = (3 : ℂ) * (1 : Matrix Unit Unit ℂ) i j
  norm_num [sampleU]

theorem two_mat : (2 : Matrix n n ℂ) = (2 : ℂ) • 1 := by rw [two_smul, one_add_one_eq_two]

example : (sample.add (sample.neg.smul 2)).enc = (-3 : ℂ) • (1 : Matrix Unit Unit ℂ) := by
  obtain ⟨h, -, -⟩ := block_encoding_expr (.add (.leaf sample) (.scale 2 (.neg (.leaf sample))))
    ⟨⟨sample_valid, by norm_num [sample]⟩, two_ne_zero, sample_valid, by norm_num [sample]⟩
  refine h.trans ?_
  simp only [BExpr.sem, sample_enc]
  push_cast
  module

/-! ## C101: qubitization -/

/-- The powers of the walk operator block encode the Chebyshev polynomials of the Hermitian part of A/α. Encodings without ancillas must be flagged
as Hermitian. -/
theorem qubitization_powers {B : BE n} (hB : B.Valid) (ha : 0 < B.alpha) (h0 : B.ancs = 0 → B.herm = true ∧ Subsingleton B.anc) (k : ℕ) :
    blk B.qubitization.zero (B.qubitization.U ^ k) = aeval (((1 / (2 * B.alpha) : ℝ) : ℂ) • (B.enc + B.encᴴ)) (T ℂ (k : ℤ))
      ∧ IsU B.qubitization.U ∧ B.qubitization.alpha = B.alpha := by
  have hc : (B.alpha : ℂ) ≠ 0 := by exact_mod_cast ha.ne'
  have e : ((1 / (2 * B.alpha) : ℝ) : ℂ) • (B.enc + B.encᴴ) = (1 / 2 : ℂ) • (blk B.zero B.U + (blk B.zero B.U)ᴴ) := by
    ext i j
    simp only [Matrix.smul_apply, Matrix.add_apply, conjTranspose_apply, BE.enc, blk, smul_eq_mul, star_mul, Complex.star_def, Complex.conj_ofReal]
    push_cast
    field_simp
  have self : B.Uᴴ = B.U → (1 / 2 : ℂ) • (blk B.zero B.U + (blk B.zero B.U)ᴴ) = blk B.zero B.U := by
    intro h
    have : (blk B.zero B.U)ᴴ = blk B.zero B.U := by
      ext i j
      exact congrFun (congrFun h (B.zero, i)) (B.zero, j)
    rw [this, ← two_smul ℂ, smul_smul]; norm_num
  rw [e]
  rw [BE.qubitization]
  by_cases hz : B.ancs = 0
  · rw [if_pos hz]
    obtain ⟨hh, hs⟩ := h0 hz
    have r1 : reflM n B.zero = 1 := by
      ext x y
      rw [reflM, Matrix.one_apply, if_pos (Subsingleton.elim x.1 B.zero)]
    refine ⟨?_, hB.unitary, rfl⟩
    rw [self (hB.herm hh), ← walk_refl B.zero hB.unitary (hB.herm hh), r1, Matrix.one_mul]
  · rw [if_neg hz]
    by_cases hh : B.herm = true
    · rw [if_pos hh]
      refine ⟨?_, (refl_unitary _).mul hB.unitary, rfl⟩
      rw [self (hB.herm hh)]
      exact walk_refl B.zero hB.unitary (hB.herm hh) k
    · rw [if_neg hh]
      refine ⟨?_, (refl_unitary _).mul (hermU_unitary hB.unitary), rfl⟩
      rw [← hermU_blk]
      exact walk_refl (false, B.zero) (hermU_unitary hB.unitary) (hermU_herm _) k

example : blk sample.qubitization.zero (sample.qubitization.U ^ 2) () () = (-7 / 25 : ℂ) := by
  obtain ⟨h, -, -⟩ := qubitization_powers sample_valid (by norm_num [sample]) (by intro h; simp [sample] at h) 2
  have e : ((1 / (2 * sample.alpha) : ℝ) : ℂ) • (sample.enc + sample.encᴴ) = (3 / 5 : ℂ) • (1 : Matrix Unit Unit ℂ) := by
    ext i j
    rw [sample_enc]
    simp only [Matrix.smul_apply, Matrix.add_apply, conjTranspose_apply, smul_eq_mul, Matrix.one_apply]
    norm_num [sample]
  rw [h, e, show ((2 : ℕ) : ℤ) = 2 from rfl, Chebyshev.T_two]
  simp only [map_sub, map_mul, aeval_X, map_ofNat, map_one, pow_two, two_mat, Matrix.smul_mul, Matrix.mul_smul, Matrix.one_mul, Matrix.sub_apply, Matrix.smul_apply,
    Matrix.one_apply_eq, smul_eq_mul]
  norm_num

/-- Finding: the result of `qubitization` is flagged as Hermitian, which it is not. Qubitizing it again therefore gives the original unitary and not a
walk. -/
theorem qubitization_flag_witness : sample.Valid ∧ sample.qubitization.herm = true ∧ ¬ sample.qubitization.Valid
    ∧ sample.qubitization.qubitization.U = sample.U := by
  refine ⟨sample_valid, rfl, ?_, ?_⟩
  · intro h
    have h2 : (reflM Unit false * sampleU)ᴴ = reflM Unit false * sampleU := h.herm rfl
    have := congrFun (congrFun h2 (false, ())) (true, ())
    rw [conjTranspose_apply, mul_apply, mul_apply] at this
    simp only [Fintype.sum_prod_type, Fintype.sum_bool, reflM, sampleU] at this
    norm_num [Complex.ext_iff] at this
  · show reflM Unit false * (reflM Unit false * sampleU) = sampleU
    rw [← Matrix.mul_assoc, refl_refl, Matrix.one_mul]

/-- The phase gate. -/
noncomputable def phaseU : Matrix (Unit × Bool) (Unit × Bool) ℂ := fun x y => if x = y then (if x.2 then Complex.I else 1) else 0

/-- The phase gate as a block encoding without ancillas (what `from_lcu` returns for one unitary). -/
noncomputable def phaseS : BE Bool where
  anc := Unit
  zero := ()
  ancs := 0
  U := phaseU
  alpha := 1
  herm := false

/-- Finding: for an encoding without ancillas that is not Hermitian, `qubitization` returns the encoding itself. Its block is not the
Hermitian part of the operator. -/
theorem qubitization_no_ancilla_witness : phaseS.Valid ∧ phaseS.qubitization = phaseS
    ∧ blk phaseS.qubitization.zero (phaseS.qubitization.U ^ 1) ≠ aeval (((1 / (2 * phaseS.alpha) : ℝ) : ℂ) • (phaseS.enc + phaseS.encᴴ)) (T ℂ ((1 : ℕ) : ℤ)) := by
  have q : phaseS.qubitization = phaseS := rfl
  refine ⟨⟨?_, fun h => by simp [phaseS] at h, by norm_num [phaseS]⟩, q, ?_⟩
  · show IsU phaseU
    rw [IsU]
    ext ⟨⟨⟩, x⟩ ⟨⟨⟩, y⟩
    rw [mul_apply]
    simp only [Fintype.sum_prod_type, Fintype.sum_bool, conjTranspose_apply, phaseU, Matrix.one_apply]
    cases x <;> cases y <;> simp
  · rw [q]
    intro h
    have e : ((1 / (2 * phaseS.alpha) : ℝ) : ℂ) • (phaseS.enc + phaseS.encᴴ) = (Matrix.diagonal (fun i : Bool => if i then 0 else 1) : Matrix Bool Bool ℂ) := by
      ext i j
      show ((1 / (2 * (1 : ℝ)) : ℝ) : ℂ) * (((1 : ℝ) : ℂ) * phaseU ((), i) ((), j) + star (((1 : ℝ) : ℂ) * phaseU ((), j) ((), i))) = _
      cases i <;> cases j <;> norm_num [phaseU, Matrix.diagonal]
    have h1 := congrFun (congrFun h true) true
    rw [e, show ((1 : ℕ) : ℤ) = 1 from rfl, Chebyshev.T_one, aeval_X, pow_one] at h1
    change phaseU ((), true) ((), true) = _ at h1
    simp [phaseU] at h1

/-! ## C102: Chebyshev polynomials -/

/-- `chebyshev(k, rescale=False)` of an arbitrary operator A: for even k it encodes g(A†A) where T_k(x) = g(x²), for odd k it encodes A g(A†A) where
T_k(x) = x g(x²), with A divided by α. -/
theorem chebyshev_svt {B : BE n} (hB : B.Valid) (k : ℕ) (g : ℂ[X]) :
    (k % 2 = 0 → T ℂ (k : ℤ) = g.comp (X ^ 2) → blk B.zero (B.chebyshev k).U = aeval ((blk B.zero B.U)ᴴ * blk B.zero B.U) g)
      ∧ (k % 2 = 1 → T ℂ (k : ℤ) = X * g.comp (X ^ 2) → blk B.zero (B.chebyshev k).U = blk B.zero B.U * aeval ((blk B.zero B.U)ᴴ * blk B.zero B.U) g)
      ∧ IsU (B.chebyshev k).U := by
  have inj : ∀ p q : ℂ[X], p.comp (X ^ 2) = q.comp (X ^ 2) → p = q := by
    intro p q h
    rw [← expand_eq_comp_X_pow, ← expand_eq_comp_X_pow] at h
    exact expand_injective (by norm_num) h
  have us : IsU (chebStep B.zero B.U) := ((hB.unitary.ct.mul (refl_unitary _)).mul hB.unitary).mul (refl_unitary _)
  have up : ∀ j, IsU (chebStep B.zero B.U ^ j) := by
    intro j
    induction j with
    | zero => rw [pow_zero]; exact IsU.one
    | succ j ih => rw [pow_succ]; exact ih.mul us
  refine ⟨?_, ?_, ?_⟩
  · intro hk hg
    have hk2 : k = 2 * (k / 2) := by omega
    simp only [BE.chebyshev, if_pos hk]
    refine (cheb_even B.zero hB.unitary (k / 2)).trans ?_
    have e : g = (T ℂ ((k / 2 : ℕ) : ℤ)).comp (2 * X - 1) := by
      apply inj
      rw [← hg, comp_assoc, show (2 * X - 1 : ℂ[X]).comp (X ^ 2) = 2 * X ^ 2 - 1 by simp, ← Chebyshev.T_two, ← Chebyshev.T_mul]
      congr 1
      omega
    rw [e, aeval_comp]
    congr 1
    simp only [map_sub, map_mul, aeval_X, map_ofNat, map_one]
    rw [two_smul, ← two_mul]
  · intro hk hg
    simp only [BE.chebyshev, if_neg (by omega : ¬ k % 2 = 0)]
    refine (cheb_odd B.zero hB.unitary (k / 2)).1.trans ?_
    have e : g = oddPart (k / 2) := by
      apply inj
      have h := (oddPart_T (k / 2)).1
      rw [show (2 * ((k / 2 : ℕ) : ℤ) + 1) = (k : ℤ) by omega, hg] at h
      exact mul_left_cancel₀ X_ne_zero h
    rw [e]
  · simp only [BE.chebyshev]
    split
    · exact up _
    · exact (hB.unitary.mul (refl_unitary _)).mul (up _)

/-- For a Hermitian operator A, `chebyshev(k, rescale=False)` encodes T_k(A/α), with scaling factor 1 if k is not 1. -/
theorem chebyshev_hermitian {B : BE n} (hB : B.Valid) (ha : 0 < B.alpha) (hA : B.encᴴ = B.enc) (k : ℕ) (hk : k ≠ 1) :
    (B.chebyshev k).enc = aeval (((1 / B.alpha : ℝ) : ℂ) • B.enc) (T ℂ (k : ℤ)) := by
  have hc : (B.alpha : ℂ) ≠ 0 := by exact_mod_cast ha.ne'
  have e : ((1 / B.alpha : ℝ) : ℂ) • B.enc = blk B.zero B.U := by
    ext i j
    simp only [Matrix.smul_apply, BE.enc, blk, smul_eq_mul]
    push_cast
    field_simp
  have hh : (blk B.zero B.U)ᴴ = blk B.zero B.U := by
    rw [← e, conjTranspose_smul, hA, Complex.star_def, Complex.conj_ofReal]
  have b : (B.chebyshev k).enc = blk B.zero (B.chebyshev k).U := by
    ext i j
    show (((if k = 1 then B.alpha else 1 : ℝ)) : ℂ) * _ = _
    rw [if_neg hk, Complex.ofReal_one, one_mul]
    rfl
  rw [b, e]
  have parts : ∃ g : ℂ[X], (k % 2 = 0 → T ℂ (k : ℤ) = g.comp (X ^ 2)) ∧ (k % 2 = 1 → T ℂ (k : ℤ) = X * g.comp (X ^ 2)) := by
    by_cases hp : k % 2 = 0
    · refine ⟨(T ℂ ((k / 2 : ℕ) : ℤ)).comp (2 * X - 1), fun _ => ?_, fun h => by omega⟩
      rw [comp_assoc, show (2 * X - 1 : ℂ[X]).comp (X ^ 2) = 2 * X ^ 2 - 1 by simp, ← Chebyshev.T_two, ← Chebyshev.T_mul]
      congr 1
      omega
    · refine ⟨oddPart (k / 2), fun h => absurd h hp, fun _ => ?_⟩
      rw [← (oddPart_T (k / 2)).1]
      congr 1
      omega
  obtain ⟨g, g0, g1⟩ := parts
  obtain ⟨c0, c1, -⟩ := chebyshev_svt hB k g
  by_cases hp : k % 2 = 0
  · rw [c0 hp (g0 hp), g0 hp, hh, aeval_comp, map_pow, aeval_X, pow_two]
  · have hp' : k % 2 = 1 := by omega
    rw [c1 hp' (g1 hp'), g1 hp', hh, map_mul, aeval_X, aeval_comp, map_pow, aeval_X, pow_two]

/-- Finding: for k = 1 the scaling factor stays α, so that `chebyshev(1, rescale=False)` encodes A and not A/α. -/
theorem chebyshev_one_witness : (sample.chebyshev 1).enc = sample.enc
    ∧ (sample.chebyshev 1).enc ≠ aeval (((1 / sample.alpha : ℝ) : ℂ) • sample.enc) (T ℂ ((1 : ℕ) : ℤ)) := by
  have e : (sample.chebyshev 1).enc = sample.enc := by
    have := (chebyshev_svt sample_valid 1 1).2.1 (by norm_num) (by simp)
    rw [map_one, Matrix.mul_one] at this
    ext i j
    show ((if 1 = 1 then sample.alpha else 1 : ℝ) : ℂ) * (sample.chebyshev 1).U (false, i) (false, j) = _
    rw [if_pos rfl, BE.enc]
    exact congrArg _ (congrFun (congrFun this i) j)
  refine ⟨e, ?_⟩
  rw [e, show ((1 : ℕ) : ℤ) = 1 from rfl, Chebyshev.T_one, aeval_X]
  intro h
  have := congrFun (congrFun h ()) ()
  rw [sample_enc] at this
  simp only [Matrix.smul_apply, smul_eq_mul] at this
  norm_num [sample] at this

example : (sample.chebyshev 2).enc = aeval (((1 / sample.alpha : ℝ) : ℂ) • sample.enc) (T ℂ ((2 : ℕ) : ℤ)) := by
  refine chebyshev_hermitian sample_valid (by norm_num [sample]) ?_ 2 (by norm_num)
  rw [sample_enc]
  ext i j
  simp [conjTranspose_apply, Matrix.smul_apply]

/-! ## C103: measuring block encodings -/

/-- The state of ancillas and operands before the unitary: all ancillas |0>. -/
def inject {a : Type} [DecidableEq a] (z : a) (ψ : n → ℂ) : a × n → ℂ := fun x => if x.1 = z then ψ x.2 else 0

/-- Squared norm of a state. -/
noncomputable def nsq {ι : Type} [Fintype ι] (ψ : ι → ℂ) : ℝ := ∑ i, ‖ψ i‖ ^ 2

/-- The probability that all ancillas are measured as 0 (`apply_rus`, block_encoding_base.py:500-520). -/
noncomputable def successProb (B : BE n) (ψ : n → ℂ) : ℝ := ∑ i, ‖(B.U *ᵥ inject B.zero ψ) (B.zero, i)‖ ^ 2

theorem unitary_inject (B : BE n) (ψ : n → ℂ) (x : B.anc × n) : (B.U *ᵥ inject B.zero ψ) x = ∑ j, B.U x (B.zero, j) * ψ j := by
  rw [mulVec, dotProduct, Fintype.sum_prod_type, Finset.sum_eq_single B.zero]
  · simp [inject]
  · intro p _ hp; simp [inject, hp]
  · simp

/-- `apply_rus`: the state of the operands after measuring all ancillas as 0 is the encoded operator applied to the initial state, divided by α, and
this happens with probability ‖Aψ‖²/α². -/
theorem rus_success {B : BE n} (ha : 0 < B.alpha) (ψ : n → ℂ) :
    (∀ i, (B.U *ᵥ inject B.zero ψ) (B.zero, i) = (B.enc *ᵥ ψ) i / B.alpha) ∧ successProb B ψ = nsq (B.enc *ᵥ ψ) / B.alpha ^ 2 := by
  have hc : (B.alpha : ℂ) ≠ 0 := by exact_mod_cast ha.ne'
  have h1 : ∀ i, (B.U *ᵥ inject B.zero ψ) (B.zero, i) = (B.enc *ᵥ ψ) i / B.alpha := by
    intro i
    rw [unitary_inject, mulVec, dotProduct, Finset.sum_div]
    apply Finset.sum_congr rfl; intro j _
    rw [BE.enc]; field_simp
  refine ⟨h1, ?_⟩
  rw [successProb, nsq, Finset.sum_div]
  apply Finset.sum_congr rfl; intro i _
  rw [h1, norm_div, div_pow, Complex.norm_real, Real.norm_eq_abs, sq_abs]

/-- The circuit of `expectation_value` (block_encoding_base.py:617-623): h, the unitary controlled on the new qubit, h. -/
noncomputable def hadamardTest (B : BE n) : Matrix ((Bool × B.anc) × n) ((Bool × B.anc) × n) ℂ := bit B.anc n hM * (ctl true B.U * bit B.anc n hM)

/-- The probability of the value `q` of the new qubit. -/
noncomputable def testProb (B : BE n) (ψ : n → ℂ) (q : Bool) : ℝ := ∑ x : B.anc × n, ‖(hadamardTest B *ᵥ inject (false, B.zero) ψ) ((q, x.1), x.2)‖ ^ 2

/-- `expectation_value` without sampling error: (P(0) - P(1)) α. -/
noncomputable def expectation (B : BE n) (ψ : n → ℂ) : ℝ := (testProb B ψ false - testProb B ψ true) * B.alpha

theorem test_amp (B : BE n) (ψ : n → ℂ) (q : Bool) (x : B.anc × n) : (hadamardTest B *ᵥ inject (false, B.zero) ψ) ((q, x.1), x.2)
    = 1 / 2 * (inject B.zero ψ x + (if q then -1 else 1) * (B.U *ᵥ inject B.zero ψ) x) := by
  have s : ((Real.sqrt 2)⁻¹ : ℝ) * ((Real.sqrt 2)⁻¹ : ℝ) = 1 / 2 := by
    rw [← mul_inv, Real.mul_self_sqrt (by norm_num)]; norm_num
  have s' : (((Real.sqrt 2)⁻¹ : ℝ) : ℂ) * (((Real.sqrt 2)⁻¹ : ℝ) : ℂ) = 1 / 2 := by rw [← Complex.ofReal_mul, s]; norm_num
  have col : ∀ j, hadamardTest B ((q, x.1), x.2) ((false, B.zero), j)
      = 1 / 2 * ((1 : Matrix (B.anc × n) (B.anc × n) ℂ) x (B.zero, j) + (if q then -1 else 1) * B.U x (B.zero, j)) := by
    intro j
    rw [hadamardTest, bit_mul_apply, Fintype.sum_bool, mul_bit_apply, mul_bit_apply, Fintype.sum_bool, Fintype.sum_bool]
    simp only [ctl, hM, if_true, reduceCtorEq, if_false, Bool.and_false, Bool.and_true, Bool.false_eq_true, zero_mul, add_zero, zero_add]
    cases q
    · simp only [Bool.false_eq_true, if_false]
      linear_combination (B.U x (B.zero, j) + (1 : Matrix (B.anc × n) (B.anc × n) ℂ) x (B.zero, j)) * s'
    · simp only [if_true]
      linear_combination (-B.U x (B.zero, j) + (1 : Matrix (B.anc × n) (B.anc × n) ℂ) x (B.zero, j)) * s'
  have e : (hadamardTest B *ᵥ inject (false, B.zero) ψ) ((q, x.1), x.2) = ∑ j, hadamardTest B ((q, x.1), x.2) ((false, B.zero), j) * ψ j := by
    rw [mulVec, dotProduct, Fintype.sum_prod_type, Finset.sum_eq_single (false, B.zero)]
    · simp [inject]
    · intro p _ hp; simp [inject, hp]
    · simp
  rw [e, unitary_inject, mul_add, ← mul_assoc, Finset.mul_sum]
  have i1 : inject B.zero ψ x = ∑ j, (1 : Matrix (B.anc × n) (B.anc × n) ℂ) x (B.zero, j) * ψ j := by
    obtain ⟨p, i⟩ := x
    simp only [inject, Matrix.one_apply, Prod.mk.injEq]
    by_cases hp : p = B.zero
    · simp [hp]
    · simp [hp]
  rw [i1, Finset.mul_sum, ← Finset.sum_add_distrib]
  apply Finset.sum_congr rfl; intro j _
  rw [col]; ring

theorem norm_half (a b : ℂ) : ‖1 / 2 * (a + 1 * b)‖ ^ 2 - ‖1 / 2 * (a + -1 * b)‖ ^ 2 = (star a * b).re := by
  rw [← Complex.normSq_eq_norm_sq, ← Complex.normSq_eq_norm_sq]
  simp only [Complex.normSq_apply, Complex.mul_re, Complex.mul_im, Complex.add_re, Complex.add_im, Complex.neg_re, Complex.neg_im, Complex.one_re, Complex.one_im,
    Complex.star_def, Complex.conj_re, Complex.conj_im]
  norm_num
  ring

/-- The expectation value returned for a state is the real part of ⟨ψ|A|ψ⟩ (with exact probabilities). -/
theorem expectation_value_eq (B : BE n) (ψ : n → ℂ) : expectation B ψ = (∑ i, star (ψ i) * (B.enc *ᵥ ψ) i).re := by
  have d : testProb B ψ false - testProb B ψ true = (∑ i, star (ψ i) * (B.U *ᵥ inject B.zero ψ) (B.zero, i)).re := by
    rw [testProb, testProb, ← Finset.sum_sub_distrib, Complex.re_sum]
    rw [Finset.sum_congr rfl (g := fun x : B.anc × n => (star (inject B.zero ψ x) * (B.U *ᵥ inject B.zero ψ) x).re)]
    · rw [Fintype.sum_prod_type, Finset.sum_eq_single B.zero]
      · simp [inject]
      · intro p _ hp; simp [inject, hp]
      · simp
    · intro x _
      rw [test_amp, test_amp]
      exact norm_half _ _
  rw [expectation, d, Complex.re_sum, Complex.re_sum, Finset.sum_mul]
  apply Finset.sum_congr rfl; intro i _
  rw [unitary_inject, mulVec, dotProduct]
  have : ∑ j, B.enc i j * ψ j = (B.alpha : ℂ) * ∑ j, B.U (B.zero, i) (B.zero, j) * ψ j := by
    rw [Finset.mul_sum]; apply Finset.sum_congr rfl; intro j _; rw [BE.enc]; ring
  rw [this, mul_left_comm, Complex.re_ofReal_mul, mul_comm]

example : expectation sample (fun _ => 1) = 3 := by
  rw [expectation_value_eq]
  simp [mulVec, dotProduct, sample_enc]

end Verif.Props
