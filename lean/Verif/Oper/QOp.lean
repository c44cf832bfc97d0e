import Verif.Oper.Term
import Mathlib.Analysis.Complex.Norm
import Mathlib.Analysis.Complex.Basic
import Mathlib.LinearAlgebra.Matrix.ConjTranspose

/-!
Qubit operators: dictionaries from terms to coefficients
(src/qrisp/operators/qubit/qubit_operator.py).
-/

namespace Verif.Oper

/-- Two terms have the same dictionary. The code compares hash values of the sorted item tuples
(src/qrisp/operators/qubit/qubit_term.py lines 99-112); hash collisions are not modelled. -/
def keyEq (s t : Term) : Bool :=
  (s.keys ++ t.keys).all fun k => List.lookup k s == List.lookup k t

theorem keyEq_iff {s t : Term} : keyEq s t = true ↔ ∀ k, List.lookup k s = List.lookup k t := by
  simp only [keyEq, List.all_eq_true, List.mem_append, beq_iff_eq]
  constructor
  · intro h k
    by_cases hk : k ∈ s.keys ∨ k ∈ t.keys
    · exact h k hk
    · rw [not_or] at hk
      rw [lookup_none hk.1, lookup_none hk.2]
  · intro h k _; exact h k

theorem keyEq_refl (s : Term) : keyEq s s = true := keyEq_iff.2 fun _ => rfl

theorem keyEq_symm {s t : Term} (h : keyEq s t = true) : keyEq t s = true :=
  keyEq_iff.2 fun k => (keyEq_iff.1 h k).symm

theorem keyEq_trans {s t u : Term} (h : keyEq s t = true) (h' : keyEq t u = true) :
    keyEq s u = true :=
  keyEq_iff.2 fun k => (keyEq_iff.1 h k).trans (keyEq_iff.1 h' k)

theorem keyEq_get {s t : Term} (h : keyEq s t = true) (k : Nat) : s.get k = t.get k := by
  rw [Term.get, Term.get, keyEq_iff.1 h k]

theorem keyEq_tmat {n : Nat} {s t : Term} (h : keyEq s t = true) : tmat n s = tmat n t := by
  rw [tmat, tmat]; congr 1; funext k; rw [keyEq_get h]

/-- For terms without explicit identity factors equal operators factor by factor mean equal keys. -/
theorem keyEq_of_get {s t : Term} (hs : ∀ p ∈ s, p.2 ≠ .I) (ht : ∀ p ∈ t, p.2 ≠ .I)
    (h : ∀ k, s.get k = t.get k) : keyEq s t = true := by
  have aux : ∀ u : Term, (∀ p ∈ u, p.2 ≠ .I) → ∀ k,
      List.lookup k u = if u.get k = .I then none else some (u.get k) := by
    intro u hu k
    cases hl : List.lookup k u with
    | none => simp [Term.get, hl]
    | some f =>
      have hm : (k, f) ∈ u := by
        clear hu
        induction u with
        | nil => simp at hl
        | cons p u ih =>
          obtain ⟨k', f'⟩ := p
          rw [List.lookup_cons] at hl
          by_cases hk : k = k'
          · subst hk
            simp only [beq_self_eq_true] at hl
            rw [Option.some.inj hl]; exact List.mem_cons_self
          · have hb : (k == k') = false := by simpa using hk
            rw [hb] at hl
            exact List.mem_cons_of_mem _ (ih hl)
      have := hu _ hm
      simp only [Term.get, hl, Option.getD_some]
      rw [if_neg this]
  exact keyEq_iff.2 fun k => by rw [aux s hs, aux t ht, h]

section
variable {R : Type}

/-- A `QubitOperator`: the items of its `terms_dict` in insertion order
(src/qrisp/operators/qubit/qubit_operator.py lines 174-175). -/
abbrev QOp (R : Type) := List (Term × R)

/-- `terms_dict.get(t, 0)`. -/
def dget [Zero R] : QOp R → Term → R
  | [], _ => 0
  | (s, c) :: d, t => if keyEq s t then c else dget d t

/-- `terms_dict[t] = v`. -/
def dset : QOp R → Term → R → QOp R
  | [], t, v => [(t, v)]
  | (s, c) :: d, t, v => if keyEq s t then (s, v) :: d else (s, c) :: dset d t v

/-- `del terms_dict[t]`. -/
def ddel : QOp R → Term → QOp R
  | [], _ => []
  | (s, c) :: d, t => if keyEq s t then d else (s, c) :: ddel d t

/-- `t in terms_dict`. -/
def dmem : QOp R → Term → Bool
  | [], _ => false
  | (s, _) :: d, t => keyEq s t || dmem d t

/-- The keys of a dictionary are pairwise different. -/
def DWF : QOp R → Prop
  | [] => True
  | (s, _) :: d => dmem d s = false ∧ DWF d

variable [CommRing R]

/-- One step of the addition loops: `res[t] = res.get(t, 0) + c`, deleted again if small
(src/qrisp/operators/qubit/qubit_operator.py lines 261-264; 300-303 with `-c`). -/
def addTo (small : R → Bool) (d : QOp R) (p : Term × R) : QOp R :=
  let v := dget d p.1 + p.2
  if small v then ddel (dset d p.1 v) p.1 else dset d p.1 v

/-- `QubitOperator.__add__` (lines 240-272). Numbers are added as multiples of the empty term. -/
def addQ (small : R → Bool) (a b : QOp R) : QOp R :=
  b.foldl (addTo small) (a.foldl (addTo small) [])

/-- Negated coefficients, used in the subtraction loops. -/
def negQ (a : QOp R) : QOp R := a.map fun p => (p.1, -p.2)

/-- `QubitOperator.__sub__` (lines 274-306): `get(t, 0) - c` is `get(t, 0) + (-c)`. -/
def subQ (small : R → Bool) (a b : QOp R) : QOp R :=
  (negQ b).foldl (addTo small) (a.foldl (addTo small) [])

/-- `QubitOperator.__rsub__` (lines 308-340): `other - self`. -/
def rsubQ (small : R → Bool) (self other : QOp R) : QOp R :=
  other.foldl (addTo small) ((negQ self).foldl (addTo small) [])

/-- One step of the product loop: `res[t] = res.get(t, 0) + c` (lines 365-366). -/
def accTo (d : QOp R) (p : Term × R) : QOp R := dset d p.1 (dget d p.1 + p.2)

/-- All products of the items (lines 363-366). `κ` is the coefficient of a term product. -/
def prods (κ : GI → R) (ord : Term → Term → List Nat) (a b : QOp R) : QOp R :=
  a.flatMap fun p => b.map fun q =>
    ((mulT (ord p.1 q.1) p.1 q.1).1, κ (mulT (ord p.1 q.1) p.1 q.1).2 * p.2 * q.2)

/-- `QubitOperator.__mul__` (lines 342-370). `ord` is the iteration order of the key sets. -/
def mulQ (small : R → Bool) (κ : GI → R) (ord : Term → Term → List Nat) (a b : QOp R) : QOp R :=
  ((prods κ ord a b).foldl accTo []).filter fun p => !small p.2

end

/-! ### The operator of a dictionary -/

/-- The matrix of a qubit operator: the sum of coefficient times term. -/
noncomputable def omat {R : Type} (φ : R → ℂ) (n : Nat) (d : QOp R) : MatN n :=
  (d.map fun p => φ p.2 • tmat n p.1).sum

theorem omat_nil {R : Type} (φ : R → ℂ) (n : Nat) : omat φ n [] = 0 := rfl

theorem omat_cons {R : Type} (φ : R → ℂ) (n : Nat) (p : Term × R) (d : QOp R) :
    omat φ n (p :: d) = φ p.2 • tmat n p.1 + omat φ n d := rfl

theorem omat_append {R : Type} (φ : R → ℂ) (n : Nat) (d e : QOp R) :
    omat φ n (d ++ e) = omat φ n d + omat φ n e := by simp [omat]

section
variable {R : Type} [CommRing R]

theorem dget_congr {d : QOp R} {s t : Term} (h : keyEq s t = true) : dget d s = dget d t := by
  induction d with
  | nil => rfl
  | cons p d ih =>
    obtain ⟨u, c⟩ := p
    have : keyEq u s = keyEq u t := by
      rw [Bool.eq_iff_iff]; exact ⟨fun h' => keyEq_trans h' h, fun h' => keyEq_trans h' (keyEq_symm h)⟩
    simp only [dget, this, ih]

theorem dmem_dset {d : QOp R} {s t : Term} {v : R} : dmem (dset d t v) s = (dmem d s || keyEq t s) := by
  induction d with
  | nil => simp [dset, dmem]
  | cons p d ih =>
    obtain ⟨u, c⟩ := p
    simp only [dset]
    by_cases h : keyEq u t = true
    · rw [if_pos h]
      simp only [dmem]
      have : keyEq t s = true → keyEq u s = true := keyEq_trans h
      rcases hts : keyEq t s with _ | _ <;> simp_all
    · rw [if_neg h]
      simp only [dmem, ih, Bool.or_assoc]

theorem DWF_dset {d : QOp R} (h : DWF d) (t : Term) (v : R) : DWF (dset d t v) := by
  induction d with
  | nil => simp [dset, DWF, dmem]
  | cons p d ih =>
    obtain ⟨u, c⟩ := p
    simp only [dset]
    by_cases hk : keyEq u t = true
    · rw [if_pos hk]; exact h
    · rw [if_neg hk]
      refine ⟨?_, ih h.2⟩
      rw [dmem_dset, h.1, Bool.false_or]
      rw [Bool.not_eq_true] at hk
      rcases h' : keyEq t u with _ | _
      · rfl
      · rw [keyEq_symm h'] at hk; simp at hk

theorem dmem_ddel {d : QOp R} {s t : Term} (h : dmem d s = false) : dmem (ddel d t) s = false := by
  induction d with
  | nil => rfl
  | cons p d ih =>
    obtain ⟨u, c⟩ := p
    simp only [dmem, Bool.or_eq_false_iff] at h
    simp only [ddel]
    split
    · exact h.2
    · simp only [dmem, h.1, ih h.2, Bool.or_self]

theorem DWF_ddel {d : QOp R} (h : DWF d) (t : Term) : DWF (ddel d t) := by
  induction d with
  | nil => trivial
  | cons p d ih =>
    obtain ⟨u, c⟩ := p
    simp only [ddel]
    split
    · exact h.2
    · exact ⟨dmem_ddel h.1, ih h.2⟩

variable (φ : R →+* ℂ) (n : Nat)

theorem omat_dset (d : QOp R) (t : Term) (v : R) :
    omat φ n (dset d t v) = omat φ n d + φ (v - dget d t) • tmat n t := by
  induction d with
  | nil => simp [dset, dget, omat]
  | cons p d ih =>
    obtain ⟨u, c⟩ := p
    simp only [dset, dget]
    by_cases hk : keyEq u t = true
    · rw [if_pos hk, if_pos hk, omat_cons, omat_cons, keyEq_tmat hk, map_sub, sub_smul]
      abel
    · rw [if_neg hk, if_neg hk, omat_cons, omat_cons, ih]
      abel

theorem dget_dset (d : QOp R) (t : Term) (v : R) : dget (dset d t v) t = v := by
  induction d with
  | nil => simp [dset, dget, keyEq_refl]
  | cons p d ih =>
    obtain ⟨u, c⟩ := p
    simp only [dset]
    by_cases hk : keyEq u t = true
    · rw [if_pos hk]; simp [dget, hk]
    · rw [if_neg hk]; simp only [dget, if_neg hk, ih]

theorem omat_ddel (d : QOp R) (t : Term) :
    omat φ n (ddel d t) = omat φ n d - φ (dget d t) • tmat n t := by
  induction d with
  | nil => simp [ddel, dget, omat]
  | cons p d ih =>
    obtain ⟨u, c⟩ := p
    simp only [ddel, dget]
    by_cases hk : keyEq u t = true
    · rw [if_pos hk, if_pos hk, omat_cons, keyEq_tmat hk]; abel
    · rw [if_neg hk, if_neg hk, omat_cons, omat_cons, ih]; abel

/-- One addition step: the operator changes by the added term, up to a dropped small multiple. -/
theorem omat_addTo (small : R → Bool) (d : QOp R) (p : Term × R) :
    ∃ v : R, (v = 0 ∨ small v = true) ∧
      omat φ n (addTo small d p) = omat φ n d + φ p.2 • tmat n p.1 - φ v • tmat n p.1 := by
  simp only [addTo]
  by_cases h : small (dget d p.1 + p.2) = true
  · refine ⟨dget d p.1 + p.2, Or.inr h, ?_⟩
    rw [if_pos h, omat_ddel, dget_dset, omat_dset]
    simp [add_smul]
  · refine ⟨0, Or.inl rfl, ?_⟩
    rw [if_neg h, omat_dset]; simp

theorem DWF_addTo {small : R → Bool} {d : QOp R} (h : DWF d) (p : Term × R) :
    DWF (addTo small d p) := by
  simp only [addTo]
  split
  · exact DWF_ddel (DWF_dset h _ _) _
  · exact DWF_dset h _ _

end

/-! ### Approximation -/

/-- All matrix entries differ by at most `e`. -/
def Near {n : Nat} (e : ℝ) (A B : MatN n) : Prop := ∀ b c, ‖A b c - B b c‖ ≤ e

theorem Near.refl {n : Nat} {e : ℝ} (he : 0 ≤ e) (A : MatN n) : Near e A A := fun b c => by simpa

theorem Near.trans {n : Nat} {e e' : ℝ} {A B C : MatN n} (h : Near e A B) (h' : Near e' B C) :
    Near (e + e') A C := fun b c => by
  have : A b c - C b c = (A b c - B b c) + (B b c - C b c) := by ring
  rw [this]
  exact (norm_add_le _ _).trans (add_le_add (h b c) (h' b c))

theorem Near.add {n : Nat} {e e' : ℝ} {A B A' B' : MatN n} (h : Near e A B) (h' : Near e' A' B') :
    Near (e + e') (A + A') (B + B') := fun b c => by
  have : (A + A') b c - (B + B') b c = (A b c - B b c) + (A' b c - B' b c) := by
    simp only [Matrix.add_apply]; ring
  rw [this]
  exact (norm_add_le _ _).trans (add_le_add (h b c) (h' b c))

theorem Near.mono {n : Nat} {e e' : ℝ} {A B : MatN n} (h : Near e A B) (he : e ≤ e') :
    Near e' A B := fun b c => (h b c).trans he

theorem Near.zero {n : Nat} {A B : MatN n} (h : Near 0 A B) : A = B := by
  ext b c
  have := h b c
  exact sub_eq_zero.1 (norm_le_zero_iff.1 this)

/-- Matrix entries of a factor have modulus at most one. -/
theorem mat_norm (f : Fac) (i j : Bool) : ‖mat f i j‖ ≤ 1 := by
  have h : ∀ f i j, matG f i j = 0 ∨ matG f i j = 1 ∨ matG f i j = -1 ∨ matG f i j = gi ∨
      matG f i j = -gi := by decide +kernel
  rw [mat]
  rcases h f i j with h | h | h | h | h <;> rw [h] <;> simp [toC_gi]

theorem tmat_norm (n : Nat) (t : Term) (b c : Fin n → Bool) : ‖tmat n t b c‖ ≤ 1 := by
  rw [tmat, tensor, norm_prod]
  exact Finset.prod_le_one (fun _ _ => norm_nonneg _) fun k _ => mat_norm _ _ _

section
variable {R : Type} [CommRing R] (φ : R →+* ℂ) (n : Nat)

theorem near_addTo {small : R → Bool} {ε : ℝ} (hε : 0 ≤ ε) (hs : ∀ v, small v = true → ‖φ v‖ ≤ ε)
    (d : QOp R) (p : Term × R) :
    Near ε (omat φ n (addTo small d p)) (omat φ n d + φ p.2 • tmat n p.1) := by
  obtain ⟨v, hv, h⟩ := omat_addTo φ n small d p
  intro b c
  rw [h]
  have : (omat φ n d + φ p.2 • tmat n p.1 - φ v • tmat n p.1) b c -
      (omat φ n d + φ p.2 • tmat n p.1) b c = -(φ v * tmat n p.1 b c) := by
    simp only [Matrix.sub_apply, Matrix.smul_apply, smul_eq_mul]; ring
  rw [this, norm_neg, norm_mul]
  have hv' : ‖φ v‖ ≤ ε := by
    rcases hv with rfl | hv
    · simpa using hε
    · exact hs v hv
  calc ‖φ v‖ * ‖tmat n p.1 b c‖ ≤ ε * 1 :=
        mul_le_mul hv' (tmat_norm _ _ _ _) (norm_nonneg _) hε
    _ = ε := mul_one ε

theorem near_foldl {small : R → Bool} {ε : ℝ} (hε : 0 ≤ ε) (hs : ∀ v, small v = true → ‖φ v‖ ≤ ε)
    (b d : QOp R) :
    Near (b.length * ε) (omat φ n (b.foldl (addTo small) d)) (omat φ n d + omat φ n b) := by
  induction b generalizing d with
  | nil => simp [omat_nil]; exact Near.refl le_rfl _
  | cons p b ih =>
    rw [List.foldl_cons, omat_cons, ← add_assoc]
    have h1 := ih (addTo small d p)
    have h2 := (near_addTo φ n hε hs d p).add (Near.refl (le_refl 0) (omat φ n b))
    refine (h1.trans h2).mono ?_
    rw [List.length_cons]; push_cast; linarith

theorem DWF_foldl {small : R → Bool} (b : QOp R) {d : QOp R} (h : DWF d) :
    DWF (b.foldl (addTo small) d) := by
  induction b generalizing d with
  | nil => exact h
  | cons p b ih => exact ih (DWF_addTo h p)

theorem omat_negQ (a : QOp R) : omat φ n (negQ a) = -omat φ n a := by
  induction a with
  | nil => simp [negQ, omat]
  | cons p a ih =>
    rw [omat_cons, neg_add, ← ih]
    simp [negQ, omat_cons]

/-- The accumulation loop of the product is exact. -/
theorem omat_accTo (d : QOp R) (p : Term × R) :
    omat φ n (accTo d p) = omat φ n d + φ p.2 • tmat n p.1 := by
  rw [accTo, omat_dset]; simp

theorem omat_acc (b d : QOp R) : omat φ n (b.foldl accTo d) = omat φ n d + omat φ n b := by
  induction b generalizing d with
  | nil => simp [omat_nil]
  | cons p b ih => rw [List.foldl_cons, ih, omat_accTo, omat_cons, add_assoc]

theorem length_dset (d : QOp R) (t : Term) (v : R) : (dset d t v).length ≤ d.length + 1 := by
  induction d with
  | nil => simp [dset]
  | cons p d ih =>
    obtain ⟨u, c⟩ := p
    simp only [dset]
    split <;> simp
    omega

theorem length_acc (b d : QOp R) : (b.foldl accTo d).length ≤ d.length + b.length := by
  induction b generalizing d with
  | nil => simp
  | cons p b ih =>
    rw [List.foldl_cons, List.length_cons]
    have := ih (accTo d p)
    have := length_dset d p.1 (dget d p.1 + p.2)
    rw [accTo] at *
    omega

/-- Dropping small coefficients. -/
theorem near_filter {small : R → Bool} {ε : ℝ} (hε : 0 ≤ ε) (hs : ∀ v, small v = true → ‖φ v‖ ≤ ε)
    (d : QOp R) : Near (d.length * ε) (omat φ n (d.filter fun p => !small p.2)) (omat φ n d) := by
  induction d with
  | nil => simp; exact Near.refl le_rfl _
  | cons p d ih =>
    rw [List.filter_cons, omat_cons, List.length_cons]
    by_cases h : small p.2 = true
    · rw [if_neg (by simp [h])]
      have h1 : Near ε (0 : MatN n) (φ p.2 • tmat n p.1) := by
        intro b c
        simp only [Matrix.zero_apply, zero_sub, norm_neg, Matrix.smul_apply, smul_eq_mul, norm_mul]
        calc ‖φ p.2‖ * ‖tmat n p.1 b c‖ ≤ ε * 1 :=
              mul_le_mul (hs _ h) (tmat_norm _ _ _ _) (norm_nonneg _) hε
          _ = ε := mul_one ε
      have := h1.add ih
      rw [zero_add] at this
      refine this.mono ?_
      push_cast; linarith
    · rw [if_pos (by simp [h]), omat_cons]
      have := (Near.refl (le_refl 0) (φ p.2 • tmat n p.1)).add ih
      refine this.mono ?_
      push_cast; linarith

theorem omat_prods {κ : GI → R} (hκ : ∀ x, φ (κ x) = toC x) {ord : Term → Term → List Nat}
    (a b : QOp R)
    (hord : ∀ p ∈ a, ∀ q ∈ b, KeyOrder p.1 q.1 (ord p.1 q.1) ∧ ∀ k ∈ ord p.1 q.1, k < n) :
    omat φ n (prods κ ord a b) = omat φ n a * omat φ n b := by
  induction a with
  | nil => simp [prods, omat]
  | cons p a ih =>
    have hp : omat φ n (b.map fun q => ((mulT (ord p.1 q.1) p.1 q.1).1,
        κ (mulT (ord p.1 q.1) p.1 q.1).2 * p.2 * q.2)) = (φ p.2 • tmat n p.1) * omat φ n b := by
      have hb : ∀ q ∈ b, _ := fun q hq => hord p (by simp) q hq
      clear ih hord
      induction b with
      | nil => simp [omat]
      | cons q b ihb =>
        rw [List.map_cons, omat_cons, omat_cons, mul_add,
          ihb fun q' hq' => hb q' (List.mem_cons_of_mem _ hq')]
        congr 1
        obtain ⟨h1, h2⟩ := hb q (by simp)
        rw [Matrix.smul_mul, Matrix.mul_smul, mulT_sound h1 h2, smul_smul, smul_smul]
        congr 1
        simp only [map_mul, hκ]; ring
    have : prods κ ord (p :: a) b = (b.map fun q => ((mulT (ord p.1 q.1) p.1 q.1).1,
        κ (mulT (ord p.1 q.1) p.1 q.1).2 * p.2 * q.2)) ++ prods κ ord a b := rfl
    rw [this, omat_append, omat_cons, add_mul, hp,
      ih fun p' hp' q hq => hord p' (List.mem_cons_of_mem _ hp') q hq]

theorem length_prods (κ : GI → R) (ord : Term → Term → List Nat) (a b : QOp R) :
    (prods κ ord a b).length = a.length * b.length := by
  induction a with
  | nil => simp [prods]
  | cons p a ih =>
    have : prods κ ord (p :: a) b = (b.map fun q => ((mulT (ord p.1 q.1) p.1 q.1).1,
        κ (mulT (ord p.1 q.1) p.1 q.1).2 * p.2 * q.2)) ++ prods κ ord a b := rfl
    rw [this, List.length_append, ih, List.length_map, List.length_cons]
    ring

end

end Verif.Oper
