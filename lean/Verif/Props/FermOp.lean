import Verif.Oper.FermOp
import Verif.Props.Oper

/-!
Property theorems C160: fermionic operators.
-/

namespace Verif.Props
open Verif.Oper

variable {R : Type} [CommRing R] (φ : R →+* ℂ)

/-! ### Arithmetic

`φ` maps the coefficients to complex numbers. `fomat φ n d` is the operator on `n` modes: the sum of
coefficient times product of the Jordan-Wigner matrices of the ladder operators. -/

/-- Every coefficient of a sum or difference is the sum or difference of the coefficients, up to
twice the threshold of 1e-9; keys stay distinct. -/
theorem ferm_coefficients {small : R → Bool} {ε : ℝ} (hε : 0 ≤ ε)
    (hs : ∀ v, small v = true → ‖φ v‖ ≤ ε) {a b : FOp R} (ha : (fkeys a).Nodup)
    (hb : (fkeys b).Nodup) (t : List Lad) :
    ‖φ (fget (fadd small a b) t) - (φ (fget a t) + φ (fget b t))‖ ≤ 2 * ε ∧
    ‖φ (fget (fsub small a b) t) - (φ (fget a t) - φ (fget b t))‖ ≤ 2 * ε ∧
    ‖φ (fget (frsub small a b) t) - (φ (fget b t) - φ (fget a t))‖ ≤ 2 * ε ∧
    (fkeys (fadd small a b)).Nodup ∧ (fkeys (fsub small a b)).Nodup ∧
    (fkeys (frsub small a b)).Nodup := by
  have key : ∀ x y : FOp R, (fkeys x).Nodup → (fkeys y).Nodup →
      ‖φ (fget (fadd small x y) t) - (φ (fget x t) + φ (fget y t))‖ ≤ 2 * ε := by
    intro x y hx hy
    have h1 : ‖φ (fget (x.foldl (fAddTo small) []) t) - φ (fget x t)‖ ≤ ε := by
      rw [fget_foldl x hx (by simp [fkeys])]
      have e : fget ([] : FOp R) t = 0 := rfl
      rw [e, zero_add]
      split
      · split
        · rename_i h; rw [map_zero, zero_sub, norm_neg]; exact hs _ h
        · simpa using hε
      · rename_i h; rw [fget_not_mem h]; simpa using hε
    have h2 : ‖φ (fget (fadd small x y) t) -
        (φ (fget (x.foldl (fAddTo small) []) t) + φ (fget y t))‖ ≤ ε := by
      rw [fadd, fget_foldl y hy (nodup_foldl x (by simp [fkeys]))]
      split
      · split
        · rename_i h; rw [map_zero, zero_sub, norm_neg, ← map_add]; exact hs _ h
        · rw [map_add]; simpa using hε
      · rename_i h; rw [fget_not_mem h]; simpa using hε
    have e : φ (fget (fadd small x y) t) - (φ (fget x t) + φ (fget y t)) =
        (φ (fget (fadd small x y) t) - (φ (fget (x.foldl (fAddTo small) []) t) + φ (fget y t))) +
        (φ (fget (x.foldl (fAddTo small) []) t) - φ (fget x t)) := by ring
    rw [e]
    refine (norm_add_le _ _).trans ?_
    linarith
  have hneg : ∀ x : FOp R, fkeys (fneg x) = fkeys x := by
    intro x; simp [fkeys, fneg]
  have hget : ∀ x : FOp R, fget (fneg x) t = -fget x t := by
    intro x
    induction x with
    | nil => simp [fneg, fget]
    | cons p x ih =>
      have : fneg (p :: x) = (p.1, -p.2) :: fneg x := rfl
      rw [this, fget, ih, fget]
      split <;> rfl
  refine ⟨key a b ha hb, ?_, ?_, nodup_foldl _ (nodup_foldl _ (by simp [fkeys])),
    nodup_foldl _ (nodup_foldl _ (by simp [fkeys])), nodup_foldl _ (nodup_foldl _ (by simp [fkeys]))⟩
  · have := key a (fneg b) ha (by rw [hneg]; exact hb)
    rw [hget, map_neg, ← sub_eq_add_neg] at this
    exact this
  · have := key (fneg a) b (by rw [hneg]; exact ha) hb
    rw [hget, map_neg] at this
    have e : -φ (fget a t) + φ (fget b t) = φ (fget b t) - φ (fget a t) := by ring
    rw [e] at this
    exact this

/-- If the threshold only removes zeros, `+`, `-` and `other - self` are those of the operators;
products, multiples and `dagger` always are. -/
theorem ferm_arithmetic {small : R → Bool} (hs : ∀ v, small v = true → v = 0) {conj : R → R}
    (hc : ∀ x, φ (conj x) = star (φ x)) (n : Nat) (a b : FOp R) (x : R) :
    fomat φ n (fadd small a b) = fomat φ n a + fomat φ n b ∧
    fomat φ n (fsub small a b) = fomat φ n a - fomat φ n b ∧
    fomat φ n (frsub small a b) = fomat φ n b - fomat φ n a ∧
    fomat φ n (fmul a b) = fomat φ n a * fomat φ n b ∧
    fomat φ n (fscal x a) = φ x • fomat φ n a ∧
    ((fkeys a).Nodup → fomat φ n (fdagger conj a) = (fomat φ n a).conjTranspose) := by
  have h0 : fomat φ n ([] : FOp R) = 0 := rfl
  refine ⟨?_, ?_, ?_, fomat_mul φ n a b, ?_, fun ha => fomat_dagger φ n hc ha⟩
  · rw [fadd, fomat_foldl φ n hs, fomat_foldl φ n hs, h0, zero_add]
  · rw [fsub, fomat_foldl φ n hs, fomat_foldl φ n hs, h0, zero_add, fomat_neg, sub_eq_add_neg]
  · rw [frsub, fomat_foldl φ n hs, fomat_foldl φ n hs, h0, zero_add, fomat_neg]; abel
  · rw [fscal, fomat_mul]; simp [fomat, fop]

/-- `hermitize` gives the Hermitian part. -/
theorem ferm_hermitize {small : R → Bool} (hs : ∀ v, small v = true → v = 0) {conj : R → R}
    (hc : ∀ x, φ (conj x) = star (φ x)) {half : R} (hh : φ half = 1 / 2) (n : Nat) {a : FOp R}
    (ha : (fkeys a).Nodup) :
    fomat φ n (fherm small conj half a) =
      (1 / 2 : ℂ) • (fomat φ n a + (fomat φ n a).conjTranspose) := by
  obtain ⟨h1, -, -, -, -, -⟩ := ferm_arithmetic φ hs hc n a (fdagger conj a) half
  obtain ⟨-, -, -, -, h5, -⟩ := ferm_arithmetic φ hs hc n (fadd small a (fdagger conj a)) a half
  rw [fherm, h5, h1, fomat_dagger φ n hc ha, hh]

/-- `(2*a(0) + c(1)) - c(1) = 2*a(0)`, and `c(1) * a(0)` is the term that applies a(0) first. -/
example : fsub isZeroG [([(0, false)], 2), ([(1, true)], 1)] [([(1, true)], 1)] =
      ([([(0, false)], 2)] : FOp GI) ∧
    fmul [([(1, true)], 1)] [([(0, false)], 3)] = ([([(0, false), (1, true)], 3)] : FOp GI) ∧
    fdagger star [([(0, false), (1, true)], gi)] = ([([(1, false), (0, true)], -gi)] : FOp GI) := by
  decide +kernel

/-! ### Conversions -/

/-- `to_qubit_operator` gives the same operator (threshold as above). -/
theorem ferm_to_qubit {small : R → Bool} (hs : ∀ v, small v = true → v = 0) {κ : GI → R}
    (hκ : ∀ x, φ (κ x) = toC x) {ord : Term → Term → List Nat} (ho : OrdOK ord) {n : Nat}
    {a : FOp R} (hn : ∀ p ∈ a, ∀ l ∈ p.1, l.1 < n) :
    omat φ n (fqubit small κ ord a) = fomat φ n a := omat_fqubit φ n hs hκ ho hn

/-- `from_openfermion` gives the sum of the products in the order of the openfermion term. -/
theorem ferm_from_openfermion (n : Nat) {h : List (List (Nat × Bool) × R)}
    (hk : (h.map Prod.fst).Nodup) :
    fomat φ n (fromOF h) = (h.map fun p => φ p.2 • (p.1.map (jw n)).prod).sum := by
  have hset := fomat_setAll (fun s : List Lad => s.reverse)
    (fun s t e => List.reverse_injective e) id h hk [] (by simp [fkeys])
  have e : fromOF h = h.foldl (fun d p => fset d p.1.reverse (id p.2)) [] := rfl
  rw [e, hset, List.nil_append, fomat, List.map_map]
  congr 2
  funext p
  simp only [Function.comp, id]
  congr 1
  have : ∀ L : List Lad, fop n L = (L.reverse.map (jw n)).prod := by
    intro L
    induction L with
    | nil => simp [fop]
    | cons l L ih => rw [fop, ih]; simp
  rw [this, List.reverse_reverse]

omit [CommRing R] in
/-- `find_minimal_qubit_amount` is the least number of modes that contains all indices. -/
theorem ferm_qubit_amount (a : FOp R) (n : Nat) :
    fqubits a ≤ n ↔ ∀ p ∈ a, ∀ l ∈ p.1, l.1 < n := by
  have key : ∀ (L : List Nat) (m : Nat), L.foldl max m < n ↔ m < n ∧ ∀ x ∈ L, x < n := by
    intro L
    induction L with
    | nil => intro m; simp
    | cons y L ih => intro m; rw [List.foldl_cons, ih]; simp [and_assoc]
  have hmem : (∀ x ∈ (a.flatMap fun p => p.1.map Prod.fst), x < n) ↔
      ∀ p ∈ a, ∀ l ∈ p.1, l.1 < n := by
    constructor
    · intro h p hp l hl
      exact h l.1 (List.mem_flatMap.2 ⟨p, hp, List.mem_map_of_mem hl⟩)
    · intro h x hx
      obtain ⟨p, hp, hx⟩ := List.mem_flatMap.1 hx
      obtain ⟨l, hl, rfl⟩ := List.mem_map.1 hx
      exact h p hp l hl
  rw [← hmem, fqubits]
  split
  · rename_i h
    rw [List.length_eq_zero_iff.1 h]; simp
  · rename_i h
    rw [Nat.succ_le_iff, key]
    constructor
    · exact fun h => h.2
    · intro hx
      refine ⟨?_, hx⟩
      obtain ⟨y, hy⟩ := List.exists_mem_of_length_pos (Nat.pos_of_ne_zero h)
      exact Nat.lt_of_le_of_lt (Nat.zero_le _) (hx y hy)

/-- The qubit operator of `2*c(1)*a(0)`, the image of an openfermion term, and the modes. -/
example : fqubit isZeroG id someOrd [([(0, false), (1, true)], 2)] =
      ([([(1, .C), (0, .A)], 2)] : QOp GI) ∧
    fromOF [([(1, true), (0, false)], (2 : GI))] = [([(0, false), (1, true)], 2)] ∧
    fqubits [([(0, false), (5, true)], (2 : GI)), ([(3, true)], 1)] = 6 := by decide +kernel

/-! ### `reduce` -/

/-- `reduce()` keeps the operator if every mode occurs at most twice in a term, or the sign of
`sort` is not 0 (see C35); keys are distinct. -/
theorem ferm_reduce {del : R → Bool} (hd : ∀ v, del v = true → v = 0) {n : Nat} {a : FOp R}
    (hn : ∀ p ∈ a, ∀ l ∈ p.1, l.1 < n) (hg : ∀ p ∈ a, SortGood p.1) :
    fomat φ n (fred del false a) = fomat φ n a ∧ (fkeys (fred del false a)).Nodup :=
  ⟨fomat_red φ n hd hn hg, nodup_red false a⟩

/-- `reduce(assume_hermitian=True)` keeps the Hermitian part if the coefficients are real; the
Hermitian part is the operator if that is Hermitian. Missing: complex coefficients (see
`ferm_reduce_hermitian_wrong`). -/
theorem ferm_reduce_hermitian_partial {del : R → Bool} (hd : ∀ v, del v = true → v = 0) {n : Nat}
    {a : FOp R} (hn : ∀ p ∈ a, ∀ l ∈ p.1, l.1 < n)
    (hg : ∀ p ∈ a, ∀ i, (p.1.map Prod.fst).count i ≤ 2) (hr : ∀ p ∈ a, star (φ p.2) = φ p.2) :
    (1 / 2 : ℂ) • (fomat φ n (fred del true a) + (fomat φ n (fred del true a)).conjTranspose) =
      (1 / 2 : ℂ) • (fomat φ n a + (fomat φ n a).conjTranspose) ∧
    ((fomat φ n a).conjTranspose = fomat φ n a →
      (1 / 2 : ℂ) • (fomat φ n (fred del true a) + (fomat φ n (fred del true a)).conjTranspose) =
        fomat φ n a) := by
  have h := sym_red φ n hd hn hg hr
  refine ⟨by rw [h], fun hh => ?_⟩
  rw [h, hh, ← two_smul ℂ, smul_smul]; norm_num

/-- The hopping term `c(0)*a(1) + c(1)*a(0)`: merged into one term with coefficient 2; without
`assume_hermitian` into two sorted terms. -/
example : fred isZeroG true [([(1, false), (0, true)], 1), ([(0, false), (1, true)], 1)] =
      ([([(1, false), (0, true)], 2)] : FOp GI) ∧
    fred isZeroG false [([(1, false), (0, true)], 1), ([(0, false), (1, true)], 1)] =
      ([([(1, false), (0, true)], 1), ([(1, true), (0, false)], -1)] : FOp GI) := by decide +kernel

/-- `1j*c(0)*a(1) - 1j*c(1)*a(0)`. -/
def current : FOp GI := [([(1, false), (0, true)], gi), ([(0, false), (1, true)], -gi)]

/-- `1j*a(1)*c(0) + 1j*c(1)*a(0)`. -/
def current' : FOp GI := [([(0, true), (1, false)], gi), ([(0, false), (1, true)], gi)]

theorem current_facts : (fomat toC 2 current).conjTranspose = fomat toC 2 current ∧ fomat toC 2 current ≠ 0 ∧
    fomat toC 2 current' = -fomat toC 2 current := by
  have e : fomat toC 2 current = Complex.I • (jw 2 (0, true) * jw 2 (1, false)) -
      Complex.I • (jw 2 (1, true) * jw 2 (0, false)) := by
    simp [fomat, current, fop, toC_gi, sub_eq_add_neg]
  refine ⟨?_, ?_, ?_⟩
  · rw [e, Matrix.conjTranspose_sub, Matrix.conjTranspose_smul,
      Matrix.conjTranspose_smul, Matrix.conjTranspose_mul, Matrix.conjTranspose_mul, jw_conj, jw_conj,
      jw_conj, jw_conj]
    simp
    abel
  · intro h
    rw [e, jw, jw, jw, jw, tensor_mul, tensor_mul] at h
    have hz := congrFun (congrFun h (fun k => k = 0)) (fun k => k = 1)
    simp [tensor, Fin.prod_univ_two, Matrix.mul_apply, mat, matG] at hz
  · rw [e, fomat, current']
    simp only [List.map_cons, List.map_nil, List.sum_cons, List.sum_nil, fop, toC_gi, one_mul,
      add_zero]
    rw [jw_anti (n := 2) (l := (0, true)) (m := (1, false)) (by decide) (by decide) (by decide)]
    simp; abel

/-- With complex coefficients `reduce(assume_hermitian=True)`, the first step of
`fermionic_trotterization`, is wrong: the Hermitian operator `1j*c(0)*a(1) - 1j*c(1)*a(0)` is
reduced to an operator with coefficient 0. -/
theorem ferm_reduce_hermitian_wrong : (fomat toC 2 current).conjTranspose = fomat toC 2 current ∧
    fomat toC 2 current ≠ 0 ∧
    fred (fun _ => false) true current = [([(1, false), (0, true)], 0)] ∧
    fomat toC 2 (fred (fun _ => false) true current) = 0 := by
  have h : fred (fun _ => false) true current = [([(1, false), (0, true)], 0)] := by decide +kernel
  exact ⟨current_facts.1, current_facts.2.1, h, by rw [h]; simp [fomat]⟩

/-! ### `==` -/

variable [DecidableEq R]

/-- If `a == b` is True and every term of the reduced `a` is a term of `b`, the operators agree.
Missing: terms compared with the adjoint, for which the answer can be wrong (`ferm_eq_wrong`). -/
theorem ferm_eq_partial {del : R → Bool} (hd : ∀ v, del v = true → v = 0) {n : Nat} {a b : FOp R}
    (hna : ∀ p ∈ a, ∀ l ∈ p.1, l.1 < n) (hga : ∀ p ∈ a, SortGood p.1)
    (hnb : ∀ p ∈ b, ∀ l ∈ p.1, l.1 < n) (hgb : ∀ p ∈ b, SortGood p.1)
    (hk : ∀ t ∈ fkeys (fred del false a), t ∈ fkeys b) (h : feq del a b = some true) :
    fomat φ n a = fomat φ n b := by
  rw [← fomat_red φ n hd hna hga, ← fomat_red φ n hd hnb hgb, fomat_perm φ n (feq_perm h hk)]

/-- `c(0)*a(1) + a(2)` compared with the same sum in another order and with a different one. -/
example : feq (R := GI) isZeroG [([(1, false), (0, true)], 1), ([(2, false)], 1)]
      [([(2, false)], 1), ([(1, false), (0, true)], 1)] = some true ∧
    feq (R := GI) isZeroG [([(1, false), (0, true)], 1), ([(2, false)], 1)]
      [([(2, false)], 1), ([(1, false), (0, true)], 3)] = some false := by decide +kernel

/-- `==` is wrong: `a(0) == c(0)` is True; `c(1)*a(0)` is not equal to itself; two Hermitian
operators that are not 0 and negatives of each other compare equal; and a comparison can raise
`KeyError`: `c(0)*a(1) == a(1) + c(0)*a(1) + a(1)*c(0)`. -/
theorem ferm_eq_wrong :
    (feq (R := GI) isZeroG [([(0, false)], 1)] [([(0, true)], 1)] = some true ∧
      fomat toC 1 [([(0, false)], 1)] ≠ fomat toC 1 [([(0, true)], 1)]) ∧
    feq (R := GI) isZeroG [([(0, false), (1, true)], 1)] [([(0, false), (1, true)], 1)] = some false ∧
    (feq isZeroG current current' = some true ∧ (fomat toC 2 current).conjTranspose = fomat toC 2 current ∧
      fomat toC 2 current ≠ 0 ∧ fomat toC 2 current' = -fomat toC 2 current) ∧
    feq (R := GI) isZeroG [([(1, false), (0, true)], 1)]
      [([(1, false)], 1), ([(1, false), (0, true)], 1), ([(0, true), (1, false)], 1)] = none := by
  refine ⟨⟨by decide +kernel, ?_⟩, by decide +kernel, ⟨by decide +kernel, current_facts⟩,
    by decide +kernel⟩
  intro h
  have hz := congrFun (congrFun h (fun _ => false)) (fun _ => true)
  simp [fomat, fop, jw, tensor, mat, matG] at hz

end Verif.Props
