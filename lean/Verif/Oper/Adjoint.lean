import Verif.Oper.Fermion

/-!
Adjoints of qubit operators and the elimination of ladder conjugates
(src/qrisp/operators/qubit/qubit_operator.py lines 845-896).
-/

namespace Verif.Oper

/-- `QubitTerm.adjoint` (src/qrisp/operators/qubit/qubit_term.py lines 220-230); identity factors
are not copied. -/
def adjT : Term → Term
  | [] => []
  | (k, f) :: t =>
    match f with
    | .I => adjT t
    | .A => (k, .C) :: adjT t
    | .C => (k, .A) :: adjT t
    | f => (k, f) :: adjT t

/-- No explicit identity factors. -/
def NoI (t : Term) : Prop := ∀ p ∈ t, p.2 ≠ .I

theorem adjT_map {t : Term} (h : NoI t) : adjT t = t.map fun p => (p.1, facAdj p.2) := by
  induction t with
  | nil => rfl
  | cons p t ih =>
    obtain ⟨k, f⟩ := p
    have ih' := ih fun q hq => h q (List.mem_cons_of_mem _ hq)
    have hf : f ≠ .I := h (k, f) (by simp)
    cases f <;> simp [adjT, ih', facAdj] at *

theorem lookup_map (t : Term) (k : Nat) :
    List.lookup k (t.map fun p => (p.1, facAdj p.2)) = (List.lookup k t).map facAdj := by
  induction t with
  | nil => rfl
  | cons p t ih =>
    obtain ⟨k', f⟩ := p
    rw [List.map_cons, List.lookup_cons, List.lookup_cons]
    by_cases h : k = k'
    · subst h; simp
    · have hb : (k == k') = false := by simpa using h
      simp only [hb, ih]

theorem get_adjT {t : Term} (h : NoI t) (k : Nat) : (adjT t).get k = facAdj (t.get k) := by
  rw [adjT_map h, Term.get, lookup_map, Term.get]
  cases List.lookup k t <;> rfl

theorem tmat_adjT {n : Nat} {t : Term} (h : NoI t) :
    tmat n (adjT t) = (tmat n t).conjTranspose := by
  rw [tmat, tmat, tensor_conj]
  congr 1; funext k
  rw [get_adjT h, mat_conj]

theorem facAdj_inj : ∀ f g, facAdj f = facAdj g → f = g := by decide +kernel

theorem noI_adjT {t : Term} (h : NoI t) : NoI (adjT t) := by
  rw [adjT_map h]
  intro p hp
  obtain ⟨q, hq, rfl⟩ := List.mem_map.1 hp
  have := h q hq
  rcases q with ⟨k, f⟩
  cases f <;> simp_all [facAdj]

theorem keyEq_adjT {s t : Term} (hs : NoI s) (ht : NoI t) :
    keyEq (adjT s) (adjT t) = keyEq s t := by
  rw [Bool.eq_iff_iff]
  constructor
  · intro h
    apply keyEq_of_get hs ht
    intro k
    have := keyEq_get h k
    rw [get_adjT hs, get_adjT ht] at this
    exact facAdj_inj _ _ this
  · intro h
    apply keyEq_of_get (noI_adjT hs) (noI_adjT ht)
    intro k
    rw [get_adjT hs, get_adjT ht, keyEq_get h]

section
variable {R : Type}

/-- `QubitOperator.adjoint` (qubit_operator.py lines 845-866). -/
def adjQ (conj : R → R) (d : QOp R) : QOp R :=
  d.foldl (fun nd p => dset nd (adjT p.1) (conj p.2)) []

theorem dset_new {d : QOp R} {t : Term} {v : R} (h : dmem d t = false) : dset d t v = d ++ [(t, v)] := by
  induction d with
  | nil => rfl
  | cons p d ih =>
    obtain ⟨s, c⟩ := p
    simp only [dmem, Bool.or_eq_false_iff] at h
    simp only [dset, h.1, Bool.false_eq_true, if_false, ih h.2, List.cons_append]

theorem dmem_append {d e : QOp R} {t : Term} : dmem (d ++ e) t = (dmem d t || dmem e t) := by
  induction d with
  | nil => simp [dmem]
  | cons p d ih => simp only [List.cons_append, dmem, ih, Bool.or_assoc]

theorem dmem_adj {d : QOp R} {conj : R → R} {t : Term} (hd : ∀ p ∈ d, NoI p.1) (ht : NoI t) :
    dmem (d.map fun p => (adjT p.1, conj p.2)) (adjT t) = dmem d t := by
  induction d with
  | nil => rfl
  | cons p d ih =>
    simp only [List.map_cons, dmem]
    rw [ih fun q hq => hd q (List.mem_cons_of_mem _ hq), keyEq_adjT (hd p (by simp)) ht]

theorem DWF_iff {d e : QOp R} {p : Term × R} (h : DWF (d ++ p :: e)) :
    dmem d p.1 = false ∧ DWF (d ++ e) := by
  induction d with
  | nil => exact ⟨rfl, h.2⟩
  | cons q d ih =>
    obtain ⟨h1, h2⟩ := h
    obtain ⟨h3, h4⟩ := ih h2
    replace h1 : dmem (d ++ p :: e) q.1 = false := h1
    rw [dmem_append, Bool.or_eq_false_iff, dmem, Bool.or_eq_false_iff] at h1
    refine ⟨?_, ?_, h4⟩
    · rw [dmem, Bool.or_eq_false_iff]
      refine ⟨?_, h3⟩
      rcases hk : keyEq q.1 p.1 with _ | _
      · rfl
      · have := keyEq_symm hk; rw [h1.2.1] at this; simp at this
    · show dmem (d ++ e) q.1 = false
      rw [dmem_append, h1.1, h1.2.2]; rfl

theorem adjQ_eq {conj : R → R} {d : QOp R} (hw : DWF d) (hI : ∀ p ∈ d, NoI p.1) :
    adjQ conj d = d.map fun p => (adjT p.1, conj p.2) := by
  have gen : ∀ (e pre : QOp R), DWF (pre ++ e) → (∀ p ∈ pre ++ e, NoI p.1) →
      e.foldl (fun nd p => dset nd (adjT p.1) (conj p.2)) (pre.map fun p => (adjT p.1, conj p.2)) =
        (pre ++ e).map fun p => (adjT p.1, conj p.2) := by
    intro e
    induction e with
    | nil => intro pre _ _; simp
    | cons p e ih =>
      intro pre h hI
      rw [List.foldl_cons, dset_new]
      · have := ih (pre ++ [p]) (by simpa using h) (by simpa using hI)
        simpa using this
      · rw [dmem_adj (fun q hq => hI q (by simp [hq])) (hI p (by simp))]
        exact (DWF_iff h).1
  exact gen d [] hw hI

theorem omat_adjQ {φ : R → ℂ} {conj : R → R} (hc : ∀ c, φ (conj c) = star (φ c)) {n : Nat}
    {d : QOp R} (hw : DWF d) (hI : ∀ p ∈ d, NoI p.1) :
    omat φ n (adjQ conj d) = (omat φ n d).conjTranspose := by
  rw [adjQ_eq hw hI]
  clear hw
  induction d with
  | nil => simp [omat]
  | cons p d ih =>
    rw [List.map_cons, omat_cons, omat_cons, Matrix.conjTranspose_add, Matrix.conjTranspose_smul,
      ih fun q hq => hI q (List.mem_cons_of_mem _ hq), hc, tmat_adjT (hI p (by simp))]

/-! ### Elimination of ladder conjugates -/

/-- A term has a ladder factor. -/
def hasLadder (t : Term) : Bool := t.any fun p => p.2 = .A || p.2 = .C

variable [CommRing R] [DecidableEq R]

/-- One iteration of `eliminate_ladder_conjugates` (lines 883-894). -/
def elimStep (nd : QOp R) (p : Term × R) : QOp R :=
  if !hasLadder p.1 then dset nd p.1 p.2
  else if dmem nd (adjT p.1) then dset nd (adjT p.1) (dget nd (adjT p.1) + p.2)
  else dset nd p.1 p.2

/-- `eliminate_ladder_conjugates` (lines 881-896), followed by `apply_threshold(0)`. -/
def elimQ (d : QOp R) : QOp R := (d.foldl elimStep []).filter fun p => p.2 ≠ 0

/-- The meaning of an operator without ladder conjugates: a ladder term `T` stands for
`(T + T†)/2` (this is what `change_of_basis` diagonalises, lines 1107-1113 and 1315). -/
noncomputable def symOp (φ : R → ℂ) (n : Nat) (d : QOp R) : MatN n :=
  (d.map fun p => φ p.2 • ((1 / 2 : ℂ) • (tmat n p.1 + (tmat n p.1).conjTranspose))).sum

theorem symOp_cons (φ : R → ℂ) (n : Nat) (p : Term × R) (d : QOp R) :
    symOp φ n (p :: d) = φ p.2 • ((1 / 2 : ℂ) • (tmat n p.1 + (tmat n p.1).conjTranspose)) +
      symOp φ n d := rfl

theorem symOp_dset (φ : R →+* ℂ) (n : Nat) (d : QOp R) (t : Term) (v : R) :
    symOp φ n (dset d t v) = symOp φ n d +
      φ (v - dget d t) • ((1 / 2 : ℂ) • (tmat n t + (tmat n t).conjTranspose)) := by
  induction d with
  | nil => simp [dset, dget, symOp]
  | cons p d ih =>
    obtain ⟨u, c⟩ := p
    simp only [dset, dget]
    by_cases hk : keyEq u t = true
    · rw [if_pos hk, if_pos hk, symOp_cons, symOp_cons, keyEq_tmat hk, map_sub, sub_smul]
      abel
    · rw [if_neg hk, if_neg hk, symOp_cons, symOp_cons, ih]
      abel

theorem dget_of_not_dmem {d : QOp R} {t : Term} (h : dmem d t = false) : dget d t = 0 := by
  induction d with
  | nil => rfl
  | cons p d ih =>
    simp only [dmem, Bool.or_eq_false_iff] at h
    simp only [dget, h.1, Bool.false_eq_true, if_false, ih h.2]

theorem symOp_filter (φ : R →+* ℂ) (n : Nat) (d : QOp R) :
    symOp φ n (d.filter fun p => p.2 ≠ 0) = symOp φ n d := by
  induction d with
  | nil => rfl
  | cons p d ih =>
    rw [List.filter_cons]
    by_cases h : p.2 = 0
    · rw [if_neg (by simpa using h), ih, symOp_cons, h]; simp
    · rw [if_pos (by simpa using h), symOp_cons, symOp_cons, ih]

/-- Elimination does not change the symmetrised operator. -/
theorem symOp_elimQ (φ : R →+* ℂ) (n : Nat) {d : QOp R} (hw : DWF d) (hI : ∀ p ∈ d, NoI p.1) :
    symOp φ n (elimQ d) = symOp φ n d := by
  -- keys of the accumulated dictionary are keys already seen
  have gen : ∀ (e pre nd : QOp R), DWF (pre ++ e) → (∀ p ∈ pre ++ e, NoI p.1) →
      (∀ t, dmem nd t = true → dmem pre t = true) → symOp φ n nd = symOp φ n pre →
      symOp φ n (e.foldl elimStep nd) = symOp φ n (pre ++ e) := by
    intro e
    induction e with
    | nil => intro pre nd _ _ _ h; simpa using h
    | cons p e ih =>
      intro pre nd hw hI hsub h
      have hnew : dmem nd p.1 = false := by
        rcases hm : dmem nd p.1 with _ | _
        · rfl
        · have := hsub _ hm; rw [(DWF_iff hw).1] at this; simp at this
      have hd0 : dget nd p.1 = 0 := dget_of_not_dmem hnew
      have hsnoc : symOp φ n (pre ++ [p]) = symOp φ n pre + φ p.2 • ((1 / 2 : ℂ) •
          (tmat n p.1 + (tmat n p.1).conjTranspose)) := by
        simp [symOp]
      have hmsnoc : ∀ t, dmem (pre ++ [p]) t = (dmem pre t || keyEq p.1 t) := by
        intro t; rw [dmem_append]; simp [dmem]
      rw [List.foldl_cons]
      have := ih (pre ++ [p]) (elimStep nd p) (by simpa using hw) (by simpa using hI) ?_ ?_
      · simpa using this
      · intro t ht
        rw [hmsnoc]
        rw [elimStep] at ht
        split at ht
        · rw [dmem_dset, Bool.or_eq_true] at ht
          rcases ht with h | h
          · rw [hsub t h]; rfl
          · rw [h]; simp
        · split at ht
          · next hmem =>
            rw [dmem_dset, Bool.or_eq_true] at ht
            rcases ht with h | h
            · rw [hsub t h]; rfl
            · have hk : dmem pre (adjT p.1) = true := hsub _ hmem
              have : ∀ (d : QOp R) (s t : Term), keyEq s t = true → dmem d s = dmem d t := by
                intro d s t hst
                induction d with
                | nil => rfl
                | cons q d ih =>
                  simp only [dmem, ih]
                  congr 1
                  rw [Bool.eq_iff_iff]
                  exact ⟨fun h' => keyEq_trans h' hst, fun h' => keyEq_trans h' (keyEq_symm hst)⟩
              rw [← this _ _ _ h, hk]; rfl
          · rw [dmem_dset, Bool.or_eq_true] at ht
            rcases ht with h | h
            · rw [hsub t h]; rfl
            · rw [h]; simp
      · rw [hsnoc, ← h, elimStep]
        split
        · rw [symOp_dset, hd0, sub_zero]
        · split
          · rw [symOp_dset, add_sub_cancel_left, tmat_adjT (hI p (by simp)),
              Matrix.conjTranspose_conjTranspose, add_comm (Matrix.conjTranspose _)]
          · rw [symOp_dset, hd0, sub_zero]
  rw [elimQ, symOp_filter]
  exact gen d [] [] hw hI (by simp [dmem]) rfl

/-- The symmetrised operator of an operator with real coefficients is the Hermitian part. -/
theorem symOp_real (φ : R → ℂ) (n : Nat) {d : QOp R} (hr : ∀ p ∈ d, star (φ p.2) = φ p.2) :
    symOp φ n d = (1 / 2 : ℂ) • (omat φ n d + (omat φ n d).conjTranspose) := by
  induction d with
  | nil => simp [symOp, omat]
  | cons p d ih =>
    rw [symOp_cons, ih fun q hq => hr q (List.mem_cons_of_mem _ hq), omat_cons,
      Matrix.conjTranspose_add, Matrix.conjTranspose_smul, hr p (by simp), smul_comm]
    rw [← smul_add, smul_add (φ p.2)]
    congr 1; abel

end

end Verif.Oper
