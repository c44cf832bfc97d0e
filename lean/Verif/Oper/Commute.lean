import Verif.Oper.QOp

/-!
Commutation tests of qubit terms (src/qrisp/operators/qubit/qubit_term.py lines 635-715).
-/

namespace Verif.Oper

/-- `abs(c) < 1e-9` on the coefficients of term products, which are Gaussian integers. -/
def smallG (c : GI) : Bool := c = 0

/-- `QubitTerm.commutator` (lines 635-644). The value of `apply_threshold` is discarded by the
code. `ks` and `ks'` are the iteration orders of the two products. -/
def commutatorT (ks ks' : List Nat) (a b : Term) : QOp GI :=
  subQ smallG [mulT ks a b] [mulT ks' b a]

/-- The loop of `QubitTerm.commute` (lines 655-672); `comm` is `len(commutator.terms_dict) == 0`. -/
def commuteLoop (a b : Term) (comm : Bool) : List Nat → Int → Bool
  | [], sign => sign == 1
  | k :: ks, sign =>
    let fa := table (a.get k) (b.get k)
    let fb := table (b.get k) (a.get k)
    if fa.2 = 0 ∧ fb.2 = 0 then true
    else if fa.1 = fb.1 then
      if fa.2 = fb.2 then commuteLoop a b comm ks sign
      else if fa.2 = -fb.2 then commuteLoop a b comm ks (sign * -1)
      else commuteLoop a b comm ks sign
    else comm

/-- `QubitTerm.commute` (lines 646-672). `o`, `o₁`, `o₂`: iteration orders of the key sets. -/
def commute (o o₁ o₂ : List Nat) (a b : Term) : Bool :=
  commuteLoop a b ((commutatorT o₁ o₂ a b).length == 0) o 1

/-- A Pauli factor name. -/
def isPauli (f : Fac) : Bool := f = .I || f = .X || f = .Y || f = .Z

/-- The loop of `QubitTerm.commute_pauli` (lines 683-701). -/
def commutePauliLoop (a b : Term) : List Nat → Int → Bool
  | [], sign => sign == 1
  | k :: ks, sign =>
    let fa := table (a.get k) (b.get k)
    let fb := table (b.get k) (a.get k)
    if ¬ fa = fb then
      if isPauli fa.1 && isPauli fb.1 then
        if fa.2 = -fb.2 then commutePauliLoop a b ks (sign * -1)
        else commutePauliLoop a b ks sign
      else false
    else commutePauliLoop a b ks sign

/-- `QubitTerm.commute_pauli` (lines 674-701). -/
def commutePauli (o : List Nat) (a b : Term) : Bool := commutePauliLoop a b o 1

/-- `QubitTerm.commute_qw` (lines 703-715). -/
def commuteQw (a b : Term) : List Nat → Bool
  | [] => true
  | k :: ks => if ¬ table (a.get k) (b.get k) = table (b.get k) (a.get k) then false
    else commuteQw a b ks

theorem KeyOrder.symm {a b : Term} {ks : List Nat} (h : KeyOrder a b ks) : KeyOrder b a ks :=
  ⟨h.1, fun k => (h.2 k).trans or_comm⟩

/-- The scalar multiples of two terms agree iff both vanish or the terms and scalars agree. -/
theorem smul_tmat_eq {n : Nat} {s t : Term} (hs : ∀ k ∈ s.keys, k < n) (ht : ∀ k ∈ t.keys, k < n)
    (hs' : ∀ p ∈ s, p.2 ≠ .I) (ht' : ∀ p ∈ t, p.2 ≠ .I) {x y : GI} :
    toC x • tmat n s = toC y • tmat n t ↔ (x = 0 ∧ y = 0) ∨ (keyEq s t = true ∧ x = y) := by
  have nz : ∀ u : Term, ∃ b c, tmat n u b c ≠ 0 := by
    intro u
    choose i j hij using fun k : Fin n => mat_ne (u.get k)
    refine ⟨i, j, ?_⟩
    rw [tmat, tensor]
    exact Finset.prod_ne_zero_iff.2 fun k _ => hij k
  constructor
  · intro h
    by_cases hx : x = 0
    · left; refine ⟨hx, ?_⟩
      rw [hx, map_zero, zero_smul] at h
      obtain ⟨b, c, hbc⟩ := nz t
      have := congrFun (congrFun h b) c
      simp only [Matrix.zero_apply, Matrix.smul_apply, smul_eq_mul] at this
      exact toC_zero.1 ((mul_eq_zero.1 this.symm).resolve_right hbc)
    · right
      have hx' : toC x ≠ 0 := fun h0 => hx (toC_zero.1 h0)
      have hk : keyEq s t = true := by
        apply keyEq_of_get hs' ht'
        intro k
        by_cases hkn : k < n
        · by_contra hne
          obtain ⟨i, j, i', j', hm⟩ := mat_minor hne
          exact hm (tensor_eq_factor h hx' (fun k => mat_ne _) ⟨k, hkn⟩ i j i' j')
        · rw [get_notin fun h' => hkn (hs k h'), get_notin fun h' => hkn (ht k h')]
      refine ⟨hk, ?_⟩
      rw [keyEq_tmat hk] at h
      obtain ⟨b, c, hbc⟩ := nz t
      have := congrFun (congrFun h b) c
      simp only [Matrix.smul_apply, smul_eq_mul] at this
      exact toC_inj.1 (mul_right_cancel₀ hbc this)
  · rintro (⟨rfl, rfl⟩ | ⟨hk, rfl⟩)
    · simp
    · rw [keyEq_tmat hk]

/-- `commutator` has no terms iff the operators commute. -/
theorem commutatorT_exact {n : Nat} {a b : Term} {o₁ o₂ : List Nat} (h₁ : KeyOrder a b o₁)
    (h₂ : KeyOrder b a o₂) (hlt : ∀ k, k ∈ a.keys ∨ k ∈ b.keys → k < n) :
    (commutatorT o₁ o₂ a b).length = 0 ↔ tmat n a * tmat n b = tmat n b * tmat n a := by
  have hl₁ : ∀ k ∈ o₁, k < n := fun k hk => hlt k ((h₁.2 k).1 hk)
  have hl₂ : ∀ k ∈ o₂, k < n := fun k hk => hlt k ((h₂.2 k).1 hk).symm
  rw [mulT_sound h₁ hl₁, mulT_sound h₂ hl₂, smul_tmat_eq
    (fun k hk => hl₁ k (mulT_keys h₁ k hk)) (fun k hk => hl₂ k (mulT_keys h₂ k hk))
    (mulT_wf h₁).2 (mulT_wf h₂).2]
  rw [commutatorT]
  generalize mulT o₁ a b = p
  generalize mulT o₂ b a = q
  obtain ⟨s, x⟩ := p
  obtain ⟨t, y⟩ := q
  simp only [subQ, negQ, List.map_cons, List.map_nil, List.foldl_cons, List.foldl_nil]
  have h1 : addTo smallG [] (s, x) = if x = 0 then [] else [(s, x)] := by
    simp only [addTo, dget, dset, ddel, zero_add, smallG, decide_eq_true_eq, keyEq_refl, if_true]
  rw [h1]
  by_cases hx : x = 0
  · subst hx
    rw [if_pos rfl]
    simp only [addTo, dget, dset, ddel, zero_add, smallG, decide_eq_true_eq, keyEq_refl, if_true,
      neg_eq_zero, true_and]
    by_cases hy : y = 0
    · simp [hy]
    · have : ¬ 0 = y := fun h => hy h.symm
      simp [hy, this]
  · rw [if_neg hx]
    by_cases hk : keyEq s t = true
    · simp only [addTo, dget, dset, ddel, hk, if_true, smallG, decide_eq_true_eq, true_and, hx,
        false_and, false_or]
      by_cases hxy : x = y
      · simp [hxy]
      · have : ¬ x + -y = 0 := by rw [← sub_eq_add_neg, sub_eq_zero]; exact hxy
        simp [hxy, this]
    · have h2 : dget [(s, x)] t = 0 := by simp [dget, hk]
      have h3 : ∀ v : GI, dset [(s, x)] t v = [(s, x), (t, v)] := by intro v; simp [dset, hk]
      have h4 : ∀ v : GI, ddel [(s, x), (t, v)] t = [(s, x)] := by intro v; simp [ddel, hk, keyEq_refl]
      simp only [addTo, h2, h3, h4, hx, hk, false_and, false_or, Bool.false_eq_true, iff_false]
      split <;> simp

/-- The invariant of the sign loops. -/
theorem signs_exact {n : Nat} {a b : Term} {o : List Nat} (ho : KeyOrder a b o)
    (hlt : ∀ k ∈ o, k < n) (σ : Nat → Int)
    (h : ∀ k ∈ o, (table (a.get k) (b.get k)).1 = (table (b.get k) (a.get k)).1 ∧
      (table (b.get k) (a.get k)).2 = (σ k : GI) * (table (a.get k) (b.get k)).2) :
    tmat n b * tmat n a = (((o.map σ).prod : Int) : ℂ) • (tmat n a * tmat n b) := by
  have hII : ∀ k, k ∉ o → a.get k = .I ∧ b.get k = .I := by
    intro k hkn
    have := mt (ho.2 k).2 hkn
    rw [not_or] at this
    exact ⟨get_notin this.1, get_notin this.2⟩
  have hf : ∀ k : Nat, (table (b.get k) (a.get k)).1 = (table (a.get k) (b.get k)).1 := by
    intro k
    by_cases hk : k ∈ o
    · exact (h k hk).1.symm
    · rw [(hII k hk).1, (hII k hk).2]
  rw [tmat_mul, tmat_mul, smul_smul]
  simp only [hf]
  congr 1
  rw [prod_keys (f := fun k => toC (table (b.get k) (a.get k)).2) ho.1 hlt
      (fun k hk => by simp only [(hII k hk).1, (hII k hk).2, table, map_one]),
    prod_keys (f := fun k => toC (table (a.get k) (b.get k)).2) ho.1 hlt
      (fun k hk => by simp only [(hII k hk).1, (hII k hk).2, table, map_one])]
  clear hlt hII hf ho
  induction o with
  | nil => simp
  | cons k o ih =>
    simp only [List.map_cons, List.prod_cons, Int.cast_mul]
    rw [ih fun k hk => h k (List.mem_cons_of_mem _ hk), (h k (by simp)).2, map_mul, map_intCast]
    ring

theorem commuteLoop_exact {n : Nat} {a b : Term} {o : List Nat} (ho : KeyOrder a b o)
    (hlt : ∀ k ∈ o, k < n) {comm : Bool}
    (hc : comm = true ↔ tmat n a * tmat n b = tmat n b * tmat n a) :
    commuteLoop a b comm o 1 = true ↔ tmat n a * tmat n b = tmat n b * tmat n a := by
  -- table facts
  have T1 : ∀ f g, ¬ ((table f g).2 = 0 ∧ (table g f).2 = 0) → (table f g).1 = (table g f).1 →
      ((table f g).2 ≠ 0 ∧ ((table f g).2 = (table g f).2 ∨ (table f g).2 = -(table g f).2)) := by
    decide +kernel
  -- generalise over the processed prefix
  have gen : ∀ (ks pre : List Nat) (σ : Nat → Int), o = pre ++ ks →
      (∀ k ∈ pre, (table (a.get k) (b.get k)).2 ≠ 0 ∧ (σ k = 1 ∨ σ k = -1) ∧
        (table (a.get k) (b.get k)).1 = (table (b.get k) (a.get k)).1 ∧
        (table (b.get k) (a.get k)).2 = (σ k : GI) * (table (a.get k) (b.get k)).2) →
      (commuteLoop a b comm ks (pre.map σ).prod = true ↔
        tmat n a * tmat n b = tmat n b * tmat n a) := by
    intro ks
    induction ks with
    | nil =>
      intro pre σ hpre h
      rw [List.append_nil] at hpre
      subst hpre
      have hs := signs_exact ho hlt σ fun k hk => (h k hk).2.2
      simp only [commuteLoop, beq_iff_eq]
      have hpm : (o.map σ).prod = 1 ∨ (o.map σ).prod = -1 := by
        have : ∀ k ∈ o, σ k = 1 ∨ σ k = -1 := fun k hk => (h k hk).2.1
        clear hs h ho hlt
        induction o with
        | nil => simp
        | cons k o ih =>
          simp only [List.map_cons, List.prod_cons]
          rcases this k (by simp) with h1 | h1 <;>
            rcases ih fun k hk => this k (List.mem_cons_of_mem _ hk) with h2 | h2 <;>
            rw [h1, h2] <;> simp
      constructor
      · intro h1; rw [hs, h1]; simp
      · intro h1
        rcases hpm with h2 | h2
        · exact h2
        · exfalso
          rw [h2, ← h1] at hs
          have h3 : tmat n a * tmat n b = 0 := by
            ext u v
            have := congrFun (congrFun hs u) v
            simp only [Matrix.smul_apply, smul_eq_mul, Int.cast_neg, Int.cast_one, neg_mul,
              one_mul] at this
            exact CharZero.eq_neg_self_iff.1 this
          rw [tmat_mul] at h3
          obtain ⟨i, hi⟩ : ∃ i : Fin n → Bool, ∃ j : Fin n → Bool,
              (tensor fun k : Fin n => mat (table (a.get k) (b.get k)).1) i j ≠ 0 := by
            choose i j hij using fun k : Fin n => mat_ne (table (a.get k) (b.get k)).1
            exact ⟨i, j, Finset.prod_ne_zero_iff.2 fun k _ => hij k⟩
          obtain ⟨j, hij⟩ := hi
          have := congrFun (congrFun h3 i) j
          simp only [Matrix.smul_apply, smul_eq_mul, Matrix.zero_apply] at this
          have h4 := (mul_eq_zero.1 this).resolve_right hij
          rw [Finset.prod_eq_zero_iff] at h4
          obtain ⟨k, -, hk⟩ := h4
          by_cases hko : (k : Nat) ∈ o
          · exact (h k hko).1 (toC_zero.1 hk)
          · have h5 := mt (ho.2 k).2 hko
            rw [not_or] at h5
            rw [get_notin h5.1, get_notin h5.2] at hk
            simp [table] at hk
    | cons k ks ih =>
      intro pre σ hpre h
      have hknp : k ∉ pre := by
        have := ho.1
        rw [hpre, List.nodup_append] at this
        intro hk
        exact this.2.2 k hk k (by simp) rfl
      have hko : k ∈ o := by rw [hpre]; simp
      have step : ∀ s : Int, (s = 1 ∨ s = -1) → (table (a.get k) (b.get k)).2 ≠ 0 →
          (table (a.get k) (b.get k)).1 = (table (b.get k) (a.get k)).1 →
          (table (b.get k) (a.get k)).2 = (s : GI) * (table (a.get k) (b.get k)).2 →
          (commuteLoop a b comm ks ((pre.map σ).prod * s) = true ↔
            tmat n a * tmat n b = tmat n b * tmat n a) := by
        intro s hs hne h1 h2
        have hmap : ((pre ++ [k]).map fun l => if l = k then s else σ l).prod =
            (pre.map σ).prod * s := by
          rw [List.map_append, List.prod_append]
          simp only [List.map_cons, List.map_nil, List.prod_singleton, if_true]
          congr 2
          apply List.map_congr_left
          intro l hl
          rw [if_neg]; rintro rfl; exact hknp hl
        rw [← hmap]
        apply ih
        · rw [hpre]; simp
        · intro l hl
          by_cases hlk : l = k
          · subst hlk; simp only [if_true]; exact ⟨hne, hs, h1, h2⟩
          · simp only [if_neg hlk]
            rcases List.mem_append.1 hl with hl | hl
            · exact h l hl
            · exact absurd (List.mem_singleton.1 hl) hlk
      simp only [commuteLoop]
      by_cases h0 : (table (a.get k) (b.get k)).2 = 0 ∧ (table (b.get k) (a.get k)).2 = 0
      · rw [if_pos h0]
        simp only [true_iff]
        rw [tmat_mul, tmat_mul, Finset.prod_eq_zero (Finset.mem_univ (⟨k, hlt k hko⟩ : Fin n))
          (by simp only [h0.1, map_zero]), Finset.prod_eq_zero (Finset.mem_univ (⟨k, hlt k hko⟩ : Fin n))
          (by simp only [h0.2, map_zero]), zero_smul, zero_smul]
      · rw [if_neg h0]
        by_cases h1 : (table (a.get k) (b.get k)).1 = (table (b.get k) (a.get k)).1
        · rw [if_pos h1]
          obtain ⟨hne, h2⟩ := T1 _ _ h0 h1
          by_cases h3 : (table (a.get k) (b.get k)).2 = (table (b.get k) (a.get k)).2
          · rw [if_pos h3]
            have := step 1 (Or.inl rfl) hne h1 (by rw [h3]; simp)
            rwa [mul_one] at this
          · rw [if_neg h3, if_pos (h2.resolve_left h3)]
            exact step (-1) (Or.inr rfl) hne h1 (by rw [h2.resolve_left h3]; simp)
        · rw [if_neg h1]; exact hc
  have := gen o [] (fun _ => 1) rfl (by simp)
  simpa using this

/-- `commute` decides commutation of the operators. -/
theorem commute_exact {n : Nat} {a b : Term} {o o₁ o₂ : List Nat} (ho : KeyOrder a b o)
    (h₁ : KeyOrder a b o₁) (h₂ : KeyOrder b a o₂) (hlt : ∀ k, k ∈ a.keys ∨ k ∈ b.keys → k < n) :
    commute o o₁ o₂ a b = true ↔ tmat n a * tmat n b = tmat n b * tmat n a := by
  apply commuteLoop_exact ho fun k hk => hlt k ((ho.2 k).1 hk)
  rw [← commutatorT_exact h₁ h₂ hlt, beq_iff_eq]

theorem commutePauliLoop_sound {n : Nat} {a b : Term} {o : List Nat} (ho : KeyOrder a b o)
    (hlt : ∀ k ∈ o, k < n) (h : commutePauli o a b = true) :
    tmat n a * tmat n b = tmat n b * tmat n a := by
  have T2 : ∀ f g, ¬ table f g = table g f → (isPauli (table f g).1 && isPauli (table g f).1) = true →
      (table f g).1 = (table g f).1 ∧ (table f g).2 = -(table g f).2 := by decide +kernel
  let τ : Nat → Int := fun l =>
    if table (a.get l) (b.get l) = table (b.get l) (a.get l) then 1 else -1
  have gen : ∀ (ks : List Nat) (s : Int), commutePauliLoop a b ks s = true →
      s * (ks.map τ).prod = 1 ∧ ∀ k ∈ ks,
        (table (a.get k) (b.get k)).1 = (table (b.get k) (a.get k)).1 ∧
        (table (b.get k) (a.get k)).2 = (τ k : GI) * (table (a.get k) (b.get k)).2 := by
    intro ks
    induction ks with
    | nil =>
      intro s hs
      simp only [commutePauliLoop, beq_iff_eq] at hs
      exact ⟨by simpa using hs, by simp⟩
    | cons k ks ih =>
      intro s hs
      simp only [commutePauliLoop] at hs
      by_cases h1 : table (a.get k) (b.get k) = table (b.get k) (a.get k)
      · rw [if_neg (by simpa using h1)] at hs
        obtain ⟨hσ, hk⟩ := ih s hs
        have hτ : τ k = 1 := if_pos h1
        refine ⟨by simpa [hτ] using hσ, fun l hl => ?_⟩
        rcases List.mem_cons.1 hl with rfl | hl
        · rw [hτ, h1]; simp
        · exact hk l hl
      · rw [if_pos h1] at hs
        by_cases h2 : (isPauli (table (a.get k) (b.get k)).1 &&
            isPauli (table (b.get k) (a.get k)).1) = true
        · obtain ⟨h3, h4⟩ := T2 _ _ h1 h2
          rw [if_pos h2, if_pos h4] at hs
          obtain ⟨hσ, hk⟩ := ih _ hs
          have hτ : τ k = -1 := if_neg h1
          refine ⟨by simpa [hτ] using hσ, fun l hl => ?_⟩
          rcases List.mem_cons.1 hl with rfl | hl
          · rw [hτ, h4]; exact ⟨h3, by simp⟩
          · exact hk l hl
        · rw [if_neg h2] at hs; simp at hs
  obtain ⟨h1, h2⟩ := gen o 1 h
  have := signs_exact ho hlt τ h2
  rw [one_mul] at h1
  rw [this, h1]; simp

theorem commuteQw_iff {a b : Term} {o : List Nat} :
    commuteQw a b o = true ↔ ∀ k ∈ o, table (a.get k) (b.get k) = table (b.get k) (a.get k) := by
  induction o with
  | nil => simp [commuteQw]
  | cons k o ih =>
    simp only [commuteQw, List.mem_cons, forall_eq_or_imp]
    by_cases h : table (a.get k) (b.get k) = table (b.get k) (a.get k)
    · rw [if_neg (by simpa using h), ih]; simp [h]
    · rw [if_pos h]; simp [h]

/-- Table entries agree iff the factors commute. -/
theorem table_comm {f g : Fac} : table f g = table g f ↔ mat f * mat g = mat g * mat f := by
  constructor
  · intro h; rw [mat_mul, mat_mul, h]
  · intro h
    have aux : ∀ f g, (∀ i j, matG f i false * matG g false j + matG f i true * matG g true j =
        matG g i false * matG f false j + matG g i true * matG f true j) →
        table f g = table g f := by decide +kernel
    apply aux
    intro i j
    have := congrFun (congrFun h i) j
    simp only [Matrix.mul_apply, Fintype.sum_bool, mat, ← map_mul, ← map_add] at this
    have := toC_inj.1 this
    rw [add_comm, this, add_comm]

/-- `commute_qw` decides commutation on every qubit. -/
theorem commuteQw_exact {a b : Term} {o : List Nat} (ho : KeyOrder a b o) :
    commuteQw a b o = true ↔ ∀ k, mat (a.get k) * mat (b.get k) = mat (b.get k) * mat (a.get k) := by
  rw [commuteQw_iff]
  constructor
  · intro h k
    by_cases hk : k ∈ o
    · exact table_comm.1 (h k hk)
    · have := mt (ho.2 k).2 hk
      rw [not_or] at this
      rw [get_notin this.1, get_notin this.2]
  · intro h k _; exact table_comm.2 (h k)

end Verif.Oper
