import Verif.Oper.Adjoint
import Mathlib.Algebra.BigOperators.Ring.Finset

/-!
Pauli expansions of qubit operators (src/qrisp/operators/qubit/qubit_operator.py `to_pauli`, `hermitize`, `from_matrix`, `unitaries`).
-/

namespace Verif.Oper

open Matrix

section Model

/-- The Pauli operator multiplied in `QubitTerm.to_pauli` for one factor (src/qrisp/operators/qubit/qubit_term.py:202-216). -/
noncomputable def facP (k : Nat) : Fac → QOp ℂ
  | .I => [([], 1)]
  | .X => [([(k, .X)], 1)]
  | .Y => [([(k, .Y)], 1)]
  | .Z => [([(k, .Z)], 1)]
  | .A => [([(k, .X)], 1 / 2), ([(k, .Y)], Complex.I / 2)]
  | .C => [([(k, .X)], 1 / 2), ([(k, .Y)], -Complex.I / 2)]
  | .P0 => [([(k, .Z)], 1 / 2), ([], 1 / 2)]
  | .P1 => [([(k, .Z)], -1 / 2), ([], 1 / 2)]

variable (small : ℂ → Bool) (ord : Term → Term → List Nat)

/-- One step of `QubitTerm.to_pauli`: `res *= ...` (qubit_term.py:202-216). The result starts as the number 1 (left); a number times an operator is
`__rmul__`, the product with a multiple of the empty term. -/
noncomputable def stepP (s : ℂ ⊕ QOp ℂ) (p : Nat × Fac) : ℂ ⊕ QOp ℂ :=
  if p.2 = .I then s
  else
    match s with
    | .inl x => .inr (mulQ small toC ord (facP p.1 p.2) [([], x)])
    | .inr r => .inr (mulQ small toC ord r (facP p.1 p.2))

/-- `QubitTerm.to_pauli` (qubit_term.py:196-218). -/
noncomputable def toPauliT (t : Term) : ℂ ⊕ QOp ℂ := t.foldl (stepP small ord) (.inl 1)

/-- One step of `QubitOperator.to_pauli`: `res += coeff * term.to_pauli()` (qubit_operator.py:781-782). Numbers: `__radd__` (240-272) and the first
branch of `__iadd__` (388-390). -/
noncomputable def accP (s : ℂ ⊕ QOp ℂ) (p : Term × ℂ) : ℂ ⊕ QOp ℂ :=
  match s, toPauliT small ord p.1 with
  | .inl x, .inl y => .inl (x + p.2 * y)
  | .inl x, .inr q => .inr (addQ small (mulQ small toC ord q [([], p.2)]) [([], x)])
  | .inr r, .inl y => .inr (dset r [] (dget r [] + p.2 * y))
  | .inr r, .inr q => .inr ((mulQ small toC ord q [([], p.2)]).foldl (addTo small) r)

/-- `QubitOperator.to_pauli` (qubit_operator.py:780-785). -/
noncomputable def toPauliQ (d : QOp ℂ) : QOp ℂ :=
  match d.foldl (accP small ord) (.inl 0) with
  | .inl x => [([], x)]
  | .inr r => r

/-- `QubitOperator.hermitize` (qubit_operator.py:868-879). -/
noncomputable def hermitizeQ (d : QOp ℂ) : QOp ℂ := mulQ small toC ord (addQ small d (adjQ star d)) [([], 1 / 2)]

/-- `OPERATOR_TABLE` (qubit_operator.py:622). -/
def opTable : Bool → Bool → Fac
  | false, false => .P0
  | false, true => .A
  | true, false => .C
  | true, true => .P1

/-- The factors of an entry (lines 640-647) with `reverse_endianness = True`: bit k belongs to qubit k. -/
def termRC (w i j : Nat) : Term := (List.range w).map fun k => (k, opTable (i.testBit k) (j.testBit k))

/-- The nonzero entries, row by row (lines 633-636). -/
noncomputable def entries (w : Nat) (A : Nat → Nat → ℂ) : List (Nat × Nat) := by
  classical exact ((List.range (2 ^ w)) ×ˢ (List.range (2 ^ w))).filter fun p => A p.1 p.2 ≠ 0

/-- `QubitOperator.from_matrix` for a 2^w x 2^w matrix (qubit_operator.py:624-649). -/
noncomputable def fromMatrix (w : Nat) (A : Nat → Nat → ℂ) : QOp ℂ :=
  (entries w A).foldl (fun d p => dset d (termRC w p.1 p.2) (A p.1 p.2)) []

end Model

/-! ### Bounds -/

section Lemmas

variable {n : Nat}

/-- Sum of the absolute values of the coefficients. -/
noncomputable def l1 (d : QOp ℂ) : ℝ := (d.map fun p => ‖p.2‖).sum

theorem l1_nonneg (d : QOp ℂ) : 0 ≤ l1 d := by
  refine List.sum_nonneg ?_
  intro x hx
  obtain ⟨p, _, rfl⟩ := List.mem_map.1 hx
  exact norm_nonneg _

theorem l1_cons (p : Term × ℂ) (d : QOp ℂ) : l1 (p :: d) = ‖p.2‖ + l1 d := by simp [l1]

theorem l1_append (d e : QOp ℂ) : l1 (d ++ e) = l1 d + l1 e := by simp [l1]

theorem l1_dset (d : QOp ℂ) (t : Term) (v : ℂ) : l1 (dset d t (dget d t + v)) ≤ l1 d + ‖v‖ := by
  induction d with
  | nil => simp [dset, dget, l1]
  | cons p d ih =>
    obtain ⟨s, c⟩ := p
    simp only [dset, dget]
    split
    · rw [l1_cons, l1_cons]; have := norm_add_le c v; simp only; linarith
    · rw [l1_cons, l1_cons]; linarith

theorem l1_ddel (d : QOp ℂ) (t : Term) : l1 (ddel d t) ≤ l1 d := by
  induction d with
  | nil => simp [ddel]
  | cons p d ih =>
    obtain ⟨s, c⟩ := p
    simp only [ddel]
    split
    · rw [l1_cons]; have := norm_nonneg c; simp only; linarith
    · rw [l1_cons, l1_cons]; linarith

theorem l1_addTo (small : ℂ → Bool) (d : QOp ℂ) (p : Term × ℂ) : l1 (addTo small d p) ≤ l1 d + ‖p.2‖ := by
  simp only [addTo]
  split
  · exact (l1_ddel _ _).trans (l1_dset _ _ _)
  · exact l1_dset _ _ _

theorem l1_foldl (small : ℂ → Bool) (b d : QOp ℂ) : l1 (b.foldl (addTo small) d) ≤ l1 d + l1 b := by
  induction b generalizing d with
  | nil => simp [l1]
  | cons p b ih =>
    rw [List.foldl_cons, l1_cons]
    have := ih (addTo small d p)
    have := l1_addTo small d p
    linarith

theorem l1_acc (b d : QOp ℂ) : l1 (b.foldl accTo d) ≤ l1 d + l1 b := by
  induction b generalizing d with
  | nil => simp [l1]
  | cons p b ih =>
    rw [List.foldl_cons, l1_cons]
    have := ih (accTo d p)
    have h : l1 (accTo d p) ≤ l1 d + ‖p.2‖ := l1_dset _ _ _
    linarith

theorem l1_filter (f : Term × ℂ → Bool) (d : QOp ℂ) : l1 (d.filter f) ≤ l1 d := by
  induction d with
  | nil => simp
  | cons p d ih =>
    rw [List.filter_cons]
    split
    · rw [l1_cons, l1_cons]; linarith
    · rw [l1_cons]; have := norm_nonneg p.2; linarith

theorem table_norm : ∀ f g, ‖toC (table f g).2‖ ≤ 1 := by
  have h : ∀ f g, (table f g).2 = 0 ∨ (table f g).2 = 1 ∨ (table f g).2 = -1 ∨ (table f g).2 = gi ∨ (table f g).2 = -gi := by decide +kernel
  intro f g
  rcases h f g with h | h | h | h | h <;> rw [h] <;> simp [toC_gi]

theorem mulLoop_norm (a b : Term) (ks : List Nat) (res : Term) (co : GI) : ‖toC (mulLoop a b ks res co).2‖ ≤ ‖toC co‖ := by
  induction ks generalizing res co with
  | nil => exact le_rfl
  | cons k ks ih =>
    simp only [mulLoop]
    split_ifs
    · simp
    · refine (ih _ _).trans ?_
      rw [map_mul, norm_mul]
      exact mul_le_of_le_one_right (norm_nonneg _) (table_norm _ _)
    · exact ih _ _

theorem l1_prods (ord : Term → Term → List Nat) (a b : QOp ℂ) : l1 (prods toC ord a b) ≤ l1 a * l1 b := by
  induction a with
  | nil => simp [prods, l1]
  | cons p a ih =>
    have e : prods toC ord (p :: a) b = (b.map fun q => ((mulT (ord p.1 q.1) p.1 q.1).1,
        toC (mulT (ord p.1 q.1) p.1 q.1).2 * p.2 * q.2)) ++ prods toC ord a b := rfl
    rw [e, l1_append, l1_cons, add_mul]
    refine add_le_add ?_ ih
    clear e ih
    induction b with
    | nil => simp [l1]
    | cons q b ihb =>
      rw [List.map_cons, l1_cons, l1_cons, mul_add]
      refine add_le_add ?_ ihb
      simp only [norm_mul]
      have h := mulLoop_norm p.1 q.1 (ord p.1 q.1) [] 1
      rw [map_one, norm_one] at h
      have : ‖toC (mulT (ord p.1 q.1) p.1 q.1).2‖ * ‖p.2‖ ≤ 1 * ‖p.2‖ := mul_le_mul_of_nonneg_right h (norm_nonneg _)
      rw [one_mul] at this
      exact mul_le_mul_of_nonneg_right this (norm_nonneg _)

theorem l1_mulQ (small : ℂ → Bool) (ord : Term → Term → List Nat) (a b : QOp ℂ) : l1 (mulQ small toC ord a b) ≤ l1 a * l1 b := by
  rw [mulQ]
  refine (l1_filter _ _).trans ((l1_acc _ _).trans ?_)
  have := l1_prods ord a b
  simpa [l1] using this

theorem length_ddel {R : Type} (d : QOp R) (t : Term) : (ddel d t).length ≤ d.length := by
  induction d with
  | nil => simp [ddel]
  | cons p d ih =>
    obtain ⟨s, c⟩ := p
    simp only [ddel]
    split
    · simp
    · simpa using ih

theorem length_foldl (small : ℂ → Bool) (b d : QOp ℂ) : (b.foldl (addTo small) d).length ≤ d.length + b.length := by
  induction b generalizing d with
  | nil => simp
  | cons p b ih =>
    rw [List.foldl_cons, List.length_cons]
    have h1 := ih (addTo small d p)
    have h2 : (addTo small d p).length ≤ d.length + 1 := by
      simp only [addTo]
      split
      · exact (length_ddel _ _).trans (length_dset _ _ _)
      · exact length_dset _ _ _
    omega

theorem length_mulQ (small : ℂ → Bool) (ord : Term → Term → List Nat) (a b : QOp ℂ) : (mulQ small toC ord a b).length ≤ a.length * b.length := by
  rw [mulQ]
  refine (List.length_filter_le _ _).trans ?_
  have := length_acc (prods toC ord a b) []
  rwa [length_prods, List.length_nil, Nat.zero_add] at this

/-- Products up to dropped terms. -/
theorem near_mulQ {small : ℂ → Bool} {ε : ℝ} (hε : 0 ≤ ε) (hs : ∀ v, small v = true → ‖v‖ ≤ ε) {ord : Term → Term → List Nat} (ho : OrdOK ord)
    {a b : QOp ℂ} (ha : Below n a) (hb : Below n b) :
    Near ((a.length * b.length : ℕ) * ε) (omat id n (mulQ small toC ord a b)) (omat id n a * omat id n b) := by
  have h1 := near_filter (RingHom.id ℂ) n hε hs ((prods toC ord a b).foldl accTo [])
  have h2 : omat (RingHom.id ℂ) n ((prods toC ord a b).foldl accTo []) = omat (RingHom.id ℂ) n a * omat (RingHom.id ℂ) n b := by
    rw [omat_acc, omat_nil, zero_add]
    apply omat_prods (RingHom.id ℂ) n (fun x => rfl)
    intro p hp q hq
    refine ⟨ho _ _, fun k hk => ?_⟩
    rcases ((ho p.1 q.1).2 k).1 hk with h | h
    · exact ha p hp k h
    · exact hb q hq k h
  rw [h2] at h1
  refine h1.mono (mul_le_mul_of_nonneg_right ?_ hε)
  have := length_acc (prods toC ord a b) []
  rw [length_prods, List.length_nil, Nat.zero_add] at this
  exact_mod_cast this

/-- Column sums of a term are at most 1. -/
theorem tmat_colsum (n : Nat) (t : Term) (c : Fin n → Bool) : ∑ b, ‖tmat n t b c‖ ≤ 1 := by
  have h : ∑ b : Fin n → Bool, ‖tmat n t b c‖ = ∏ k : Fin n, ∑ x : Bool, ‖mat (t.get k) x (c k)‖ := by
    rw [Finset.prod_univ_sum, Fintype.piFinset_univ]
    refine Finset.sum_congr rfl fun b _ => ?_
    rw [tmat, tensor, norm_prod]
  rw [h]
  refine Finset.prod_le_one (fun k _ => Finset.sum_nonneg fun _ _ => norm_nonneg _) fun k _ => ?_
  have hf : ∀ f (y : Bool), (matG f false y = 0 ∨ matG f true y = 0) := by decide +kernel
  rw [Fintype.sum_bool]
  rcases hf (t.get k) (c k) with h | h
  · have e : mat (t.get k) false (c k) = 0 := by rw [mat, h, map_zero]
    rw [e, norm_zero, add_zero]; exact mat_norm _ _ _
  · have e : mat (t.get k) true (c k) = 0 := by rw [mat, h, map_zero]
    rw [e, norm_zero, zero_add]; exact mat_norm _ _ _

theorem Near.mul_tmat {e : ℝ} (he : 0 ≤ e) {A B : MatN n} (h : Near e A B) (t : Term) : Near e (A * tmat n t) (B * tmat n t) := by
  intro b c
  rw [mul_apply, mul_apply, ← Finset.sum_sub_distrib]
  refine (norm_sum_le _ _).trans ?_
  calc ∑ k, ‖A b k * tmat n t k c - B b k * tmat n t k c‖ ≤ ∑ k, e * ‖tmat n t k c‖ := by
        refine Finset.sum_le_sum fun k _ => ?_
        rw [← sub_mul, norm_mul]
        exact mul_le_mul_of_nonneg_right (h b k) (norm_nonneg _)
    _ = e * ∑ k, ‖tmat n t k c‖ := by rw [Finset.mul_sum]
    _ ≤ e * 1 := mul_le_mul_of_nonneg_left (tmat_colsum n t c) he
    _ = e := mul_one e

theorem Near.smul {e : ℝ} {A B : MatN n} (h : Near e A B) (c : ℂ) : Near (‖c‖ * e) (c • A) (c • B) := by
  intro b d
  rw [Matrix.smul_apply, Matrix.smul_apply, ← smul_sub, norm_smul]
  exact mul_le_mul_of_nonneg_left (h b d) (norm_nonneg _)

theorem omat_num (x : ℂ) : omat id n [([], x)] = x • 1 := by
  rw [omat_cons, omat_nil, tmat_nil, add_zero]; rfl

/-- One factor as a function of its qubit. -/
theorem tmat_single {k : Nat} (hk : k < n) (f : Fac) (b c : Fin n → Bool) :
    tmat n [(k, f)] b c = mat f (b ⟨k, hk⟩) (c ⟨k, hk⟩) * ∏ j ∈ Finset.univ.erase (⟨k, hk⟩ : Fin n), mat .I (b j) (c j) := by
  rw [tmat, tensor, ← Finset.mul_prod_erase _ _ (Finset.mem_univ (⟨k, hk⟩ : Fin n))]
  congr 1
  · simp [Term.get]
  · refine Finset.prod_congr rfl fun j hj => ?_
    have : (j : Nat) ≠ k := fun e => (Finset.mem_erase.1 hj).1 (Fin.ext e)
    have hb : ((j : Nat) == k) = false := by simpa using this
    simp [Term.get, List.lookup_cons, hb]

theorem tmat_nil' {k : Nat} (hk : k < n) (b c : Fin n → Bool) :
    tmat n [] b c = mat .I (b ⟨k, hk⟩) (c ⟨k, hk⟩) * ∏ j ∈ Finset.univ.erase (⟨k, hk⟩ : Fin n), mat .I (b j) (c j) := by
  rw [tmat, tensor, ← Finset.mul_prod_erase _ _ (Finset.mem_univ (⟨k, hk⟩ : Fin n))]
  simp [Term.get]

theorem facP_sound {k : Nat} (hk : k < n) (f : Fac) : omat id n (facP k f) = tmat n [(k, f)] := by
  have hI : Complex.I ^ 2 = -1 := Complex.I_sq
  ext b c
  rw [tmat_single hk]
  cases f <;> simp only [facP, omat_cons, omat_nil, add_zero, Matrix.add_apply, Matrix.smul_apply, id, smul_eq_mul, tmat_single hk, tmat_nil' hk] <;>
    generalize (∏ j ∈ Finset.univ.erase (⟨k, hk⟩ : Fin n), mat .I (b j) (c j)) = P <;>
    generalize b ⟨k, hk⟩ = x <;> generalize c ⟨k, hk⟩ = y <;> cases x <;> cases y <;>
    simp [mat, matG, toC_gi] <;> first | done | ring_nf <;> simp [hI] <;> ring_nf

end Lemmas

end Verif.Oper
