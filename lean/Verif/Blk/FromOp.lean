import Verif.Oper.ToPauli2
import Verif.Blk.FromLcu

/-!
# Block encodings of qubit operators and matrices

`from_operator` (src/qrisp/block_encodings/constructors/from_operator.py) and `from_array` (from_array.py).
-/

namespace Verif.Blk

open Matrix Verif.Oper

variable (n : ℕ)

/-- The unitaries of `QubitOperator.unitaries` (src/qrisp/operators/qubit/qubit_operator.py:2147-2157, qubit_term.py:598-610): the Pauli gates of the
term, with a global phase -1 for a negative coefficient. -/
noncomputable def opUnitaries (d : QOp ℂ) : List (MatN n) := d.map fun p => (if p.2.re < 0 then (-1 : ℂ) else 1) • tmat n p.1

/-- The coefficients of `QubitOperator.unitaries`. -/
noncomputable def opCoeffs (d : QOp ℂ) : List ℂ := d.map fun p => ((|p.2.re| : ℝ) : ℂ)

/-- `build_from_operator` (from_operator.py:49-54) for a qubit operator. -/
noncomputable def fromOperator (prep : Prep) (small : ℂ → Bool) (ord : Term → Term → List Nat) (O : QOp ℂ) : Option (BE (Fin n → Bool)) :=
  let d := toPauliQ small ord (hermitizeQ small ord O)
  fromLcu prep (opCoeffs d) (opUnitaries n d) true

/-- `build_from_array` (from_array.py:62-75) for a 2^w x 2^w matrix (the checks in front raise for other shapes). -/
noncomputable def fromArray (prep : Prep) (small : ℂ → Bool) (ord : Term → Term → List Nat) (w : ℕ) (A : ℕ → ℕ → ℂ) : Option (BE (Fin w → Bool)) :=
  fromOperator w prep small ord (fromMatrix w A)

/-! ### Lemmas -/

variable {n}

theorem mat_pauli {f : Fac} (h : isP f) : (mat f)ᴴ = mat f ∧ mat f * mat f = 1 := by
  have h1 : ∀ f, isP f → facAdj f = f := by decide +kernel
  have h2 : ∀ f, isP f → table f f = (.I, 1) := by decide +kernel
  refine ⟨?_, ?_⟩
  · rw [mat_conj, h1 f h]
  · rw [mat_mul, h2 f h, map_one, one_smul, mat_I]

theorem tmat_pauli {t : Term} (h : PT n t) : (tmat n t)ᴴ = tmat n t ∧ tmat n t * tmat n t = 1 := by
  have hI : (mat .I)ᴴ = mat .I ∧ mat .I * mat .I = 1 := by rw [mat_I]; simp
  have hg : ∀ k, (mat (t.get k))ᴴ = mat (t.get k) ∧ mat (t.get k) * mat (t.get k) = 1 := fun k => by
    rcases h.get k with e | e
    · rw [e]; exact hI
    · exact mat_pauli e
  refine ⟨?_, ?_⟩
  · rw [tmat, tensor_conj]; congr 1; funext k; exact (hg k).1
  · rw [tmat, tensor_mul, ← tmat_nil, tmat]; congr 1; funext k
    rw [(hg k).2, ← mat_I]; rfl

theorem opUnitaries_ok {d : QOp ℂ} (h : ∀ p ∈ d, PT n p.1) : ∀ U ∈ opUnitaries n d, IsU U ∧ Uᴴ = U := by
  intro U hU
  obtain ⟨p, hp, rfl⟩ := List.mem_map.1 hU
  obtain ⟨h1, h2⟩ := tmat_pauli (h p hp)
  have hc : star (if p.2.re < 0 then (-1 : ℂ) else 1) = (if p.2.re < 0 then (-1 : ℂ) else 1) := by split_ifs <;> simp
  have hc2 : (if p.2.re < 0 then (-1 : ℂ) else 1) * (if p.2.re < 0 then (-1 : ℂ) else 1) = 1 := by split_ifs <;> simp
  refine ⟨?_, ?_⟩
  · rw [IsU, conjTranspose_smul, hc, h1, smul_mul_smul_comm, h2, hc2, one_smul]
  · rw [conjTranspose_smul, hc, h1]

/-- The combination is the Hermitian part. -/
theorem opSum {d : QOp ℂ} (h : ∀ p ∈ d, PT n p.1) :
    (List.zipWith (fun c U => c • U) (opCoeffs d) (opUnitaries n d)).sum = (1 / 2 : ℂ) • (omat id n d + (omat id n d)ᴴ) := by
  induction d with
  | nil => simp [opCoeffs, omat_nil]
  | cons p d ih =>
    have h1 := (tmat_pauli (h p (by simp))).1
    have ih' := ih fun q hq => h q (List.mem_cons_of_mem _ hq)
    simp only [opCoeffs, opUnitaries, List.map_cons, List.zipWith_cons_cons, List.sum_cons] at ih' ⊢
    rw [ih', omat_cons, conjTranspose_add, conjTranspose_smul, h1, smul_smul]
    have hc : ((|p.2.re| : ℝ) : ℂ) * (if p.2.re < 0 then (-1 : ℂ) else 1) = 1 / 2 * (p.2 + star p.2) := by
      have e : (1 / 2 : ℂ) * (p.2 + star p.2) = ((p.2.re : ℝ) : ℂ) := by
        rw [Complex.star_def, Complex.add_conj]; push_cast; ring
      rw [e]
      split_ifs with hr
      · rw [abs_of_neg hr]; push_cast; ring
      · rw [abs_of_nonneg (not_lt.1 hr), mul_one]
    rw [hc]
    simp only [id]
    module

theorem Near.herm {e : ℝ} {A H : MatN n} (h : Near e A H) (hH : Hᴴ = H) : Near e ((1 / 2 : ℂ) • (A + Aᴴ)) H := by
  intro b c
  have h1 := h b c
  have h2 := h c b
  have e1 : ((1 / 2 : ℂ) • (A + Aᴴ)) b c - H b c = (1 / 2 : ℂ) * (A b c - H b c) + (1 / 2 : ℂ) * star (A c b - H c b) := by
    have e2 : H b c = star (H c b) := by rw [← conjTranspose_apply, hH]
    rw [Matrix.smul_apply, Matrix.add_apply, conjTranspose_apply, smul_eq_mul, star_sub, ← e2]
    ring
  rw [e1]
  refine (norm_add_le _ _).trans ?_
  rw [norm_mul, norm_mul, norm_star]
  have h4 : ‖(1 / 2 : ℂ)‖ = 1 / 2 := by norm_num
  rw [h4]; linarith

/-! ### `from_matrix` -/

theorem opTable_mat (i j a b : Bool) : mat (opTable i j) a b = if a = i ∧ b = j then 1 else 0 := by
  cases i <;> cases j <;> cases a <;> cases b <;> simp [opTable, mat, matG]

theorem termRC_get {w i j : ℕ} {k : ℕ} (hk : k < w) : (termRC w i j).get k = opTable (i.testBit k) (j.testBit k) := by
  have hw : (termRC w i j).WF := by
    simp only [Term.WF, Term.keys, termRC, List.map_map]
    have : (Prod.fst ∘ fun k => (k, opTable (i.testBit k) (j.testBit k))) = id := by funext k; rfl
    rw [this, List.map_id]; exact List.nodup_range
  have : List.lookup k (termRC w i j) = some (opTable (i.testBit k) (j.testBit k)) :=
    (lookup_mem hw).2 (List.mem_map.2 ⟨k, List.mem_range.2 hk, rfl⟩)
  rw [Term.get, this]; rfl

/-- The matrix of an entry. -/
theorem termRC_mat (w : ℕ) {i j : ℕ} (hi : i < 2 ^ w) (hj : j < 2 ^ w) (b c : Fin w → Bool) :
    tmat w (termRC w i j) b c = if Nat.ofBits b = i ∧ Nat.ofBits c = j then 1 else 0 := by
  rw [tmat, tensor]
  have hb : ∀ (b : Fin w → Bool) (i : ℕ), i < 2 ^ w → (Nat.ofBits b = i ↔ ∀ k : Fin w, b k = i.testBit k) := by
    intro b i hi
    constructor
    · rintro rfl k; rw [Nat.testBit_ofBits_lt _ _ k.2]
    · intro h
      refine Nat.eq_of_testBit_eq fun k => ?_
      by_cases hk : k < w
      · rw [Nat.testBit_ofBits_lt _ _ hk]; exact h ⟨k, hk⟩
      · rw [Nat.testBit_ofBits_ge _ _ (not_lt.1 hk), Nat.testBit_lt_two_pow (hi.trans_le (Nat.pow_le_pow_right (by norm_num) (not_lt.1 hk)))]
  by_cases h : Nat.ofBits b = i ∧ Nat.ofBits c = j
  · rw [if_pos h]
    refine Finset.prod_eq_one fun k _ => ?_
    rw [termRC_get k.2, opTable_mat, if_pos ⟨(hb b i hi).1 h.1 k, (hb c j hj).1 h.2 k⟩]
  · rw [if_neg h]
    rw [hb b i hi, hb c j hj, ← forall_and] at h
    obtain ⟨k, hk⟩ := not_forall.1 h
    refine Finset.prod_eq_zero (Finset.mem_univ k) ?_
    rw [termRC_get k.2, opTable_mat, if_neg hk]

theorem termRC_inj {w i j i' j' : ℕ} (hi : i < 2 ^ w) (hj : j < 2 ^ w) (hi' : i' < 2 ^ w) (hj' : j' < 2 ^ w)
    (h : keyEq (termRC w i j) (termRC w i' j') = true) : i = i' ∧ j = j' := by
  have h1 : tmat w (termRC w i j) = tmat w (termRC w i' j') := keyEq_tmat h
  have h2 := congrFun (congrFun h1 fun k => i.testBit k) fun k => j.testBit k
  have hb : ∀ i, i < 2 ^ w → Nat.ofBits (fun k : Fin w => i.testBit k) = i := fun i hi => by
    refine Nat.eq_of_testBit_eq fun k => ?_
    by_cases hk : k < w
    · rw [Nat.testBit_ofBits_lt _ _ hk]
    · rw [Nat.testBit_ofBits_ge _ _ (not_lt.1 hk), Nat.testBit_lt_two_pow (hi.trans_le (Nat.pow_le_pow_right (by norm_num) (not_lt.1 hk)))]
  rw [termRC_mat w hi hj, termRC_mat w hi' hj', hb i hi, hb j hj, if_pos ⟨rfl, rfl⟩] at h2
  by_contra hc
  rw [if_neg hc] at h2
  exact one_ne_zero h2

theorem entries_ok (w : ℕ) (A : ℕ → ℕ → ℂ) :
    (entries w A).Nodup ∧ ∀ p, p ∈ entries w A ↔ p.1 < 2 ^ w ∧ p.2 < 2 ^ w ∧ A p.1 p.2 ≠ 0 := by
  refine ⟨?_, ?_⟩
  · exact (List.nodup_range.product List.nodup_range).filter _
  · rintro ⟨i, j⟩
    have h : (i, j) ∈ List.range (2 ^ w) ×ˢ List.range (2 ^ w) ↔ i < 2 ^ w ∧ j < 2 ^ w := by
      rw [← List.mem_range, ← List.mem_range (n := 2 ^ w)]; exact List.pair_mem_product
    simp only [entries, List.mem_filter, decide_eq_true_eq, h, and_assoc]

/-- The dictionary has one item per nonzero entry. -/
theorem fromMatrix_eq (w : ℕ) (A : ℕ → ℕ → ℂ) : fromMatrix w A = (entries w A).map fun p => (termRC w p.1 p.2, A p.1 p.2) := by
  obtain ⟨hn, hm⟩ := entries_ok w A
  have gen : ∀ (l pre : List (ℕ × ℕ)), (pre ++ l).Nodup → (∀ p ∈ pre ++ l, p.1 < 2 ^ w ∧ p.2 < 2 ^ w) →
      l.foldl (fun d p => dset d (termRC w p.1 p.2) (A p.1 p.2)) (pre.map fun p => (termRC w p.1 p.2, A p.1 p.2)) =
        (pre ++ l).map fun p => (termRC w p.1 p.2, A p.1 p.2) := by
    intro l
    induction l with
    | nil => intro pre _ _; simp
    | cons q l ih =>
      intro pre h1 h2
      rw [List.foldl_cons, dset_new]
      · have := ih (pre ++ [q]) (by simpa using h1) (by simpa using h2)
        simpa using this
      · have hq := h2 q (by simp)
        have hpre : ∀ p ∈ pre, p ≠ q := fun p hp e => by
          subst e
          exact (List.nodup_append.1 h1).2.2 p hp p (by simp) rfl
        have h3 : ∀ p ∈ pre, p.1 < 2 ^ w ∧ p.2 < 2 ^ w := fun p hp => h2 p (by simp [hp])
        clear ih h1 h2
        induction pre with
        | nil => rfl
        | cons p pre ih =>
          rw [List.map_cons, dmem, ih (fun r hr => hpre r (List.mem_cons_of_mem _ hr)) (fun r hr => h3 r (List.mem_cons_of_mem _ hr)), Bool.or_false]
          rw [Bool.eq_false_iff]
          intro hk
          obtain ⟨e1, e2⟩ := termRC_inj (h3 p (by simp)).1 (h3 p (by simp)).2 hq.1 hq.2 hk
          exact hpre p (by simp) (Prod.ext e1 e2)
  exact gen _ [] hn fun p hp => ⟨((hm p).1 hp).1, ((hm p).1 hp).2.1⟩

theorem fromMatrix_dwf (w : ℕ) (A : ℕ → ℕ → ℂ) : DWF (fromMatrix w A) := by
  rw [fromMatrix]
  have gen : ∀ (l : List (ℕ × ℕ)) (d : QOp ℂ), DWF d → DWF (l.foldl (fun d p => dset d (termRC w p.1 p.2) (A p.1 p.2)) d) := by
    intro l
    induction l with
    | nil => exact fun d h => h
    | cons q l ih => exact fun d h => ih _ (DWF_dset h _ _)
  exact gen _ _ trivial

theorem fromMatrix_noI (w : ℕ) (A : ℕ → ℕ → ℂ) : (∀ p ∈ fromMatrix w A, NoI p.1) ∧ Below w (fromMatrix w A) := by
  rw [fromMatrix_eq]
  refine ⟨?_, ?_⟩
  · intro p hp q hq
    obtain ⟨r, _, rfl⟩ := List.mem_map.1 hp
    obtain ⟨k, _, rfl⟩ := List.mem_map.1 hq
    have : ∀ a b, opTable a b ≠ .I := by decide
    exact this _ _
  · intro p hp k hk
    obtain ⟨r, _, rfl⟩ := List.mem_map.1 hp
    obtain ⟨q, hq, rfl⟩ := List.mem_map.1 hk
    obtain ⟨j, hj, rfl⟩ := List.mem_map.1 hq
    exact List.mem_range.1 hj

/-- `from_matrix` represents the matrix. -/
theorem fromMatrix_omat (w : ℕ) (A : ℕ → ℕ → ℂ) (b c : Fin w → Bool) : omat id w (fromMatrix w A) b c = A (Nat.ofBits b) (Nat.ofBits c) := by
  obtain ⟨hn, hm⟩ := entries_ok w A
  rw [fromMatrix_eq]
  have gen : ∀ l : List (ℕ × ℕ), l.Nodup → (∀ p ∈ l, p.1 < 2 ^ w ∧ p.2 < 2 ^ w) →
      omat id w (l.map fun p => (termRC w p.1 p.2, A p.1 p.2)) b c = if (Nat.ofBits b, Nat.ofBits c) ∈ l then A (Nat.ofBits b) (Nat.ofBits c) else 0 := by
    intro l
    induction l with
    | nil => intro _ _; simp [omat_nil]
    | cons q l ih =>
      intro h1 h2
      obtain ⟨i, j⟩ := q
      rw [List.map_cons, omat_cons, Matrix.add_apply, Matrix.smul_apply, ih (List.nodup_cons.1 h1).2 fun p hp => h2 p (List.mem_cons_of_mem _ hp),
        termRC_mat w (h2 (i, j) (by simp)).1 (h2 (i, j) (by simp)).2]
      by_cases h : Nat.ofBits b = i ∧ Nat.ofBits c = j
      · obtain ⟨rfl, rfl⟩ := h
        rw [if_pos ⟨rfl, rfl⟩, if_neg (List.nodup_cons.1 h1).1, if_pos (by simp)]
        simp
      · rw [if_neg h, smul_zero, zero_add]
        have : (Nat.ofBits b, Nat.ofBits c) ≠ (i, j) := fun e => h (Prod.mk.inj e)
        simp [this]
  rw [gen _ hn fun p hp => ⟨((hm p).1 hp).1, ((hm p).1 hp).2.1⟩]
  split_ifs with h
  · rfl
  · by_contra hc
    exact h ((hm _).2 ⟨Nat.ofBits_lt_two_pow b, Nat.ofBits_lt_two_pow c, Ne.symm hc⟩)

end Verif.Blk
