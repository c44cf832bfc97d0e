import Verif.Comp.Dag
import Mathlib.LinearAlgebra.Matrix.Notation
import Mathlib.Data.Complex.Basic
import Mathlib.Data.Matrix.Mul
import Mathlib.Data.Fintype.Pi
import Mathlib.Algebra.Algebra.Basic
import Mathlib.Tactic.NoncommRing
import Mathlib.Tactic.LinearCombination

/-!
# Permeability and commutation of matrices

The types of the permeability graph (`permeability/permeability_dag.py:34-74`) stand for commutation with the Pauli
matrices of a qubit. Two operators commute if on every qubit they share both are of type Z or both of type X.
-/

namespace Verif.Comp

/-! ### Splitting in a ring -/

section Ring

variable {R : Type} [Ring R] [Algebra ℂ R]

/-- The part of `B` that commutes with `Z`. -/
noncomputable def evenPart (Z B : R) : R := (1 / 2 : ℂ) • (B + Z * B * Z)

/-- `X` times the part of `B` that anticommutes with `Z`. -/
noncomputable def oddPart (X Z B : R) : R := (1 / 2 : ℂ) • (X * (B - Z * B * Z))

theorem parts_sum {X Z : R} (hX : X * X = 1) (B : R) : evenPart Z B + X * oddPart X Z B = B := by
  unfold evenPart oddPart
  rw [mul_smul_comm, ← smul_add, ← mul_assoc, hX, one_mul]
  have : B + Z * B * Z + (B - Z * B * Z) = (2 : ℂ) • B := by
    rw [two_smul]; abel
  rw [this, smul_smul]
  norm_num

theorem even_comm {Z : R} (hZ : Z * Z = 1) (B : R) : Commute (evenPart Z B) Z := by
  unfold evenPart
  apply Commute.smul_left
  change (B + Z * B * Z) * Z = Z * (B + Z * B * Z)
  have e1 : Z * B * Z * Z = Z * B := by rw [mul_assoc, hZ, mul_one]
  have e2 : Z * (Z * B * Z) = B * Z := by rw [← mul_assoc, ← mul_assoc, hZ, one_mul]
  rw [add_mul, mul_add, e1, e2, add_comm]

theorem odd_comm {X Z : R} (hZ : Z * Z = 1) (hXZ : X * Z = -(Z * X)) (B : R) : Commute (oddPart X Z B) Z := by
  unfold oddPart
  apply Commute.smul_left
  change X * (B - Z * B * Z) * Z = Z * (X * (B - Z * B * Z))
  have hZX : Z * X = -(X * Z) := by rw [hXZ, neg_neg]
  have e1 : (B - Z * B * Z) * Z = B * Z - Z * B := by
    rw [sub_mul]
    congr 1
    rw [mul_assoc, hZ, mul_one]
  have e2 : Z * (B - Z * B * Z) = Z * B - B * Z := by
    rw [mul_sub]
    congr 1
    rw [← mul_assoc, ← mul_assoc, hZ, one_mul]
  rw [mul_assoc, e1, ← mul_assoc, hZX, neg_mul, mul_assoc, e2, ← mul_neg, neg_sub]

theorem even_keep {Z B W : R} (h1 : Commute B W) (h2 : Commute Z W) : Commute (evenPart Z B) W :=
  (h1.add_left ((h2.mul_left h1).mul_left h2)).smul_left _

theorem odd_keep {X Z B W : R} (h1 : Commute B W) (h2 : Commute Z W) (h3 : Commute X W) :
    Commute (oddPart X Z B) W :=
  (h3.mul_left (h1.sub_left ((h2.mul_left h1).mul_left h2))).smul_left _

/-- Commutation with the anticommuting partner is kept too. -/
theorem even_keep' {X Z B : R} (hXZ : X * Z = -(Z * X)) (h : Commute B X) : Commute (evenPart Z B) X := by
  unfold evenPart
  apply Commute.smul_left
  refine h.add_left ?_
  have hZX : Z * X = -(X * Z) := by rw [hXZ, neg_neg]
  change Z * B * Z * X = X * (Z * B * Z)
  calc Z * B * Z * X = -(Z * (B * X) * Z) := by rw [mul_assoc (Z * B), hZX]; noncomm_ring
    _ = -(Z * (X * B) * Z) := by rw [h.eq]
    _ = -((Z * X) * B * Z) := by noncomm_ring
    _ = X * (Z * B * Z) := by rw [hZX]; noncomm_ring

theorem odd_keep' {X Z B : R} (hXZ : X * Z = -(Z * X)) (h : Commute B X) : Commute (oddPart X Z B) X := by
  unfold oddPart
  apply Commute.smul_left
  refine (Commute.refl X).mul_left (h.sub_left ?_)
  have hZX : Z * X = -(X * Z) := by rw [hXZ, neg_neg]
  change Z * B * Z * X = X * (Z * B * Z)
  calc Z * B * Z * X = -(Z * (B * X) * Z) := by rw [mul_assoc (Z * B), hZX]; noncomm_ring
    _ = -(Z * (X * B) * Z) := by rw [h.eq]
    _ = -((Z * X) * B * Z) := by noncomm_ring
    _ = X * (Z * B * Z) := by rw [hZX]; noncomm_ring

end Ring

/-! ### Pauli matrices of one qubit -/

/-- Operators of `n` qubits. -/
abbrev Op (n : Nat) := Matrix (Fin n → Bool) (Fin n → Bool) ℂ

/-- Flip one bit of a basis state. -/
def flipAt {n : Nat} (q : Fin n) (b : Fin n → Bool) : Fin n → Bool := Function.update b q (!b q)

/-- Pauli X of qubit `q`. -/
def pX {n : Nat} (q : Fin n) : Op n := fun b c => if c = flipAt q b then 1 else 0

/-- Pauli Z of qubit `q`. -/
def pZ {n : Nat} (q : Fin n) : Op n := Matrix.diagonal fun b => if b q then -1 else 1

variable {n : Nat}

theorem flip_flip (q : Fin n) (b : Fin n → Bool) : flipAt q (flipAt q b) = b := by
  unfold flipAt
  simp

theorem flip_eq {q : Fin n} {b c : Fin n → Bool} : c = flipAt q b ↔ b = flipAt q c := by
  constructor
  · rintro rfl; rw [flip_flip]
  · rintro rfl; rw [flip_flip]

theorem flip_at (q : Fin n) (b : Fin n → Bool) : flipAt q b q = !b q := by simp [flipAt]

theorem flip_other {q p : Fin n} (h : p ≠ q) (b : Fin n → Bool) : flipAt q b p = b p := by simp [flipAt, h]

theorem flip_comm (q p : Fin n) (b : Fin n → Bool) : flipAt q (flipAt p b) = flipAt p (flipAt q b) := by
  by_cases h : q = p
  · rw [h]
  · funext k
    unfold flipAt
    by_cases hk : k = q
    · subst hk
      simp [h]
    · by_cases hk' : k = p
      · subst hk'
        simp [hk]
      · simp [hk, hk']

theorem pX_mul (q : Fin n) (M : Op n) (b c : Fin n → Bool) : (pX q * M) b c = M (flipAt q b) c := by
  rw [Matrix.mul_apply]
  simp [pX]

theorem mul_pX (q : Fin n) (M : Op n) (b c : Fin n → Bool) : (M * pX q) b c = M b (flipAt q c) := by
  rw [Matrix.mul_apply]
  simp only [pX, flip_eq (c := c)]
  simp

theorem pZ_mul (q : Fin n) (M : Op n) (b c : Fin n → Bool) :
    (pZ q * M) b c = (if b q then -1 else 1) * M b c := Matrix.diagonal_mul _ _ _ _

theorem mul_pZ (q : Fin n) (M : Op n) (b c : Fin n → Bool) :
    (M * pZ q) b c = M b c * (if c q then -1 else 1) := Matrix.mul_diagonal _ _ _ _

theorem pX_sq (q : Fin n) : pX q * pX q = 1 := by
  ext b c
  rw [pX_mul, pX, flip_flip, Matrix.one_apply]
  exact if_congr eq_comm rfl rfl

theorem pZ_sq (q : Fin n) : pZ q * pZ q = 1 := by
  unfold pZ
  rw [Matrix.diagonal_mul_diagonal, ← Matrix.diagonal_one]
  congr 1
  funext b
  cases b q <;> simp

theorem pXZ (q : Fin n) : pX q * pZ q = -(pZ q * pX q) := by
  ext b c
  rw [Matrix.neg_apply, mul_pZ, pZ_mul]
  by_cases h : c = flipAt q b
  · subst h
    rw [flip_at]
    cases b q <;> simp [pX]
  · simp [pX, h]

theorem pXX (q p : Fin n) : Commute (pX q) (pX p) := by
  change pX q * pX p = pX p * pX q
  ext b c
  rw [pX_mul, pX_mul, pX, pX, flip_comm]

theorem pZZ (q p : Fin n) : Commute (pZ q) (pZ p) := by
  change pZ q * pZ p = pZ p * pZ q
  unfold pZ
  rw [Matrix.diagonal_mul_diagonal, Matrix.diagonal_mul_diagonal]
  congr 1
  funext b
  ring

theorem pXZ_other {q p : Fin n} (h : q ≠ p) : Commute (pX q) (pZ p) := by
  change pX q * pZ p = pZ p * pX q
  ext b c
  rw [mul_pZ, pZ_mul]
  by_cases hc : c = flipAt q b
  · subst hc
    rw [flip_other h.symm]
    ring
  · simp [pX, hc]

/-- Commuting with `Z` of a qubit is the block structure that `is_permeable` looks for
(permeability/type_checker.py:85-109). -/
theorem commute_Z_iff (q : Fin n) (M : Op n) : Commute M (pZ q) ↔ ∀ b c, b q ≠ c q → M b c = 0 := by
  constructor
  · intro h b c hne
    have e := congrFun (congrFun h.eq b) c
    rw [mul_pZ, pZ_mul] at e
    cases hb : b q <;> cases hc : c q
    · rw [hb, hc] at hne; exact absurd rfl hne
    · rw [hb, hc] at e
      simp only [if_true, Bool.false_eq_true, if_false, one_mul] at e
      have : (2 : ℂ) * M b c = 0 := by linear_combination -e
      simpa using this
    · rw [hb, hc] at e
      simp only [if_true, Bool.false_eq_true, if_false, mul_one] at e
      have : (2 : ℂ) * M b c = 0 := by linear_combination e
      simpa using this
    · rw [hb, hc] at hne; exact absurd rfl hne
  · intro h
    change M * pZ q = pZ q * M
    ext b c
    rw [mul_pZ, pZ_mul]
    by_cases hne : b q = c q
    · rw [hne, mul_comm]
    · rw [h b c hne]; simp

/-- A matrix that commutes with all Pauli matrices is a multiple of the identity. -/
theorem scalar_of_commute (M : Op n) (h : ∀ q, Commute M (pX q) ∧ Commute M (pZ q)) :
    M = (M (fun _ => false) fun _ => false) • (1 : Op n) := by
  have hoff : ∀ b c, b ≠ c → M b c = 0 := by
    intro b c hne
    obtain ⟨q, hq⟩ : ∃ q, b q ≠ c q := by
      by_contra hc
      push Not at hc
      exact hne (funext hc)
    exact (commute_Z_iff q M).1 (h q).2 b c hq
  have hflip : ∀ q b, M (flipAt q b) (flipAt q b) = M b b := by
    intro q b
    have e := congrFun (congrFun (h q).1.eq b) (flipAt q b)
    rw [mul_pX, pX_mul, flip_flip] at e
    exact e.symm
  have hset : ∀ (b : Fin n → Bool) (q : Fin n) (v : Bool),
      M (Function.update b q v) (Function.update b q v) = M b b := by
    intro b q v
    by_cases hv : v = b q
    · rw [hv, Function.update_eq_self]
    · have : v = !b q := by cases v <;> cases hb : b q <;> simp_all
      rw [this]
      exact hflip q b
  have hconst : ∀ b : Fin n → Bool, M b b = M (fun _ => false) fun _ => false := by
    intro b
    have key : ∀ S : Finset (Fin n), M (fun k => if k ∈ S then b k else false) (fun k => if k ∈ S then b k else false)
        = M (fun _ => false) fun _ => false := by
      intro S
      induction S using Finset.induction_on with
      | empty => simp
      | insert q S _ ih =>
        have e : (fun k => if k ∈ insert q S then b k else false)
            = Function.update (fun k => if k ∈ S then b k else false) q (b q) := by
          funext k
          by_cases hk : k = q
          · subst hk; simp
          · simp [hk]
        rw [e, hset, ih]
    have := key Finset.univ
    simpa using this
  ext b c
  rw [Matrix.smul_apply, Matrix.one_apply]
  by_cases hbc : b = c
  · subst hbc
    simp [hconst b]
  · simp [hbc, hoff b c hbc]

/-- **Operators commute if on every qubit one of them is trivial, or both commute with `Z`, or both with `X`.** -/
theorem commute_of_types (A : Op n) : ∀ (l : List (Fin n)) (B : Op n),
    (∀ q, q ∉ l → Commute B (pX q) ∧ Commute B (pZ q)) →
    (∀ q ∈ l, (Commute A (pX q) ∧ Commute A (pZ q)) ∨ (Commute A (pZ q) ∧ Commute B (pZ q)) ∨
      (Commute A (pX q) ∧ Commute B (pX q))) → Commute A B := by
  intro l
  induction l with
  | nil =>
    intro B h _
    rw [scalar_of_commute B fun q => h q (by simp)]
    exact (Commute.one_right A).smul_right _
  | cons q l ih =>
    intro B h hA
    -- parts that are trivial on `q` commute with `A`
    have part : ∀ C : Op n, Commute C (pX q) → Commute C (pZ q) →
        (∀ p, p ≠ q → Commute B (pX p) → Commute C (pX p)) → (∀ p, p ≠ q → Commute B (pZ p) → Commute C (pZ p)) →
        Commute A C := by
      intro C h1 h2 h3 h4
      apply ih C
      · intro p hp
        by_cases e : p = q
        · subst e; exact ⟨h1, h2⟩
        · obtain ⟨x, z⟩ := h p (by simp [e, hp])
          exact ⟨h3 p e x, h4 p e z⟩
      · intro p hp
        by_cases e : p = q
        · subst e
          rcases hA p (by simp) with a | ⟨a, _⟩ | ⟨a, _⟩
          · exact Or.inl a
          · exact Or.inr (Or.inl ⟨a, h2⟩)
          · exact Or.inr (Or.inr ⟨a, h1⟩)
        · rcases hA p (by simp [hp]) with a | ⟨a, b⟩ | ⟨a, b⟩
          · exact Or.inl a
          · exact Or.inr (Or.inl ⟨a, h4 p e b⟩)
          · exact Or.inr (Or.inr ⟨a, h3 p e b⟩)
    have hZX : pZ q * pX q = -(pX q * pZ q) := by rw [pXZ, neg_neg]
    have kX : ∀ {C : Op n}, ∀ p, p ≠ q → Commute C (pX p) →
        Commute (evenPart (pZ q) C) (pX p) ∧ Commute (oddPart (pX q) (pZ q) C) (pX p) ∧
        Commute (evenPart (pX q) C) (pX p) ∧ Commute (oddPart (pZ q) (pX q) C) (pX p) := by
      intro C p hp hc
      have hz : Commute (pZ q) (pX p) := (pXZ_other hp).symm
      exact ⟨even_keep hc hz, odd_keep hc hz (pXX q p), even_keep hc (pXX q p), odd_keep hc (pXX q p) hz⟩
    have kZ : ∀ {C : Op n}, ∀ p, p ≠ q → Commute C (pZ p) →
        Commute (evenPart (pZ q) C) (pZ p) ∧ Commute (oddPart (pX q) (pZ q) C) (pZ p) ∧
        Commute (evenPart (pX q) C) (pZ p) ∧ Commute (oddPart (pZ q) (pX q) C) (pZ p) := by
      intro C p hp hc
      have hx : Commute (pX q) (pZ p) := pXZ_other hp.symm
      exact ⟨even_keep hc (pZZ q p), odd_keep hc (pZZ q p) hx, even_keep hc hx, odd_keep hc hx (pZZ q p)⟩
    -- an operator that commutes with `Z` of `q`
    have zcase : ∀ C : Op n, Commute C (pZ q) → (∀ p, p ≠ q → Commute B (pX p) → Commute C (pX p)) →
        (∀ p, p ≠ q → Commute B (pZ p) → Commute C (pZ p)) → Commute A (pZ q) → Commute A C := by
      intro C h2 h3 h4 hAz
      rw [← parts_sum (X := pZ q) (Z := pX q) (pZ_sq q) C]
      refine Commute.add_right ?_ (hAz.mul_right ?_)
      · exact part _ (even_comm (pX_sq q) C) (even_keep' hZX h2) (fun p hp hb => (kX p hp (h3 p hp hb)).2.2.1)
          fun p hp hb => (kZ p hp (h4 p hp hb)).2.2.1
      · exact part _ (odd_comm (pX_sq q) hZX C) (odd_keep' hZX h2) (fun p hp hb => (kX p hp (h3 p hp hb)).2.2.2)
          fun p hp hb => (kZ p hp (h4 p hp hb)).2.2.2
    rcases hA q (by simp) with ⟨ax, az⟩ | ⟨az, bz⟩ | ⟨ax, bx⟩
    · rw [← parts_sum (X := pX q) (Z := pZ q) (pX_sq q) B]
      refine Commute.add_right ?_ (ax.mul_right ?_)
      · exact zcase _ (even_comm (pZ_sq q) B) (fun p hp hb => (kX p hp hb).1) (fun p hp hb => (kZ p hp hb).1) az
      · exact zcase _ (odd_comm (pZ_sq q) (pXZ q) B) (fun p hp hb => (kX p hp hb).2.1)
          (fun p hp hb => (kZ p hp hb).2.1) az
    · exact zcase B bz (fun _ _ h => h) (fun _ _ h => h) az
    · rw [← parts_sum (X := pX q) (Z := pZ q) (pX_sq q) B]
      refine Commute.add_right ?_ (ax.mul_right ?_)
      · exact part _ (even_keep' (pXZ q) bx) (even_comm (pZ_sq q) B) (fun p hp hb => (kX p hp hb).1)
          fun p hp hb => (kZ p hp hb).1
      · exact part _ (odd_keep' (pXZ q) bx) (odd_comm (pZ_sq q) (pXZ q) B) (fun p hp hb => (kX p hp hb).2.1)
          fun p hp hb => (kZ p hp hb).2.1

/-! ### Circuits of matrices -/

variable {L : Type} {mat : L → Op n}

/-- `mat` gives the matrix an instruction applies to all `n` qubits. A gate is well labelled if the matrix
is trivial outside the qubits of the gate and commutes with the Pauli matrix that its permeability claims. -/
structure Labelled (mat : L → Op n) (i : Instr L) : Prop where
  kind : i.kind = .gate
  len : i.perm.length = i.qubits.length
  outside : ∀ q : Fin n, q.val ∉ i.qubits → Commute (mat i.label) (pX q) ∧ Commute (mat i.label) (pZ q)
  typeZ : ∀ q : Fin n, i.typeOn q .z → Commute (mat i.label) (pZ q)
  typeX : ∀ q : Fin n, i.typeOn q .x → Commute (mat i.label) (pX q)

theorem Labelled.typed {i : Instr L} (h : Labelled mat i) {q : Nat} (hq : q ∈ i.qubits) : ∃ t, i.typeOn q t := by
  obtain ⟨k, hk, e⟩ := List.getElem_of_mem hq
  have hp : k < i.perm.length := by rw [h.len]; exact hk
  refine ⟨i.perm[k], ?_⟩
  unfold Instr.typeOn Instr.qperm
  rw [List.mem_iff_getElem]
  refine ⟨k, by simp [hk], ?_⟩
  rw [List.getElem_zip, List.getElem_map, List.getElem_range, e]
  simp [Instr.permAt, h.kind, List.getElem?_eq_getElem hp]

theorem labelled_commute {a b : Instr L} (ha : Labelled mat a) (hb : Labelled mat b) (h : Indep a b) :
    Commute (mat a.label) (mat b.label) := by
  refine commute_of_types (mat a.label) ((List.finRange n).filter fun q => b.qubits.contains q.val) (mat b.label) ?_ ?_
  · intro q hq
    apply hb.outside
    intro hm
    exact hq (List.mem_filter.2 ⟨List.mem_finRange q, by simpa using hm⟩)
  · intro q hq
    have hqb : q.val ∈ b.qubits := by simpa using (List.mem_filter.1 hq).2
    by_cases hqa : q.val ∈ a.qubits
    · obtain ⟨t, ht⟩ := ha.typed hqa
      obtain ⟨u, hu⟩ := hb.typed hqb
      obtain ⟨rfl, hn⟩ := h.1 q t u ht hu
      cases t with
      | z => exact Or.inr (Or.inl ⟨ha.typeZ q ht, hb.typeZ q hu⟩)
      | x => exact Or.inr (Or.inr ⟨ha.typeX q ht, hb.typeX q hu⟩)
      | neutral => exact absurd rfl hn
    · exact Or.inl (ha.outside q hqa)

open Classical in
/-- Well labelled gates act by their matrix, everything else not at all. -/
noncomputable def matInterp (mat : L → Op n) : Interp L ((Fin n → Bool) → ℂ) where
  act i ψ := if Labelled mat i then (mat i.label).mulVec ψ else ψ
  comm a b h ψ := by
    by_cases ha : Labelled mat a
    · by_cases hb : Labelled mat b
      · simp only [ha, hb, if_true]
        rw [Matrix.mulVec_mulVec, Matrix.mulVec_mulVec, (labelled_commute ha hb h).eq]
      · simp only [hb, if_false]
    · simp only [ha, if_false]
  idem a b ha hb _ ψ := by
    have h1 : ¬ Labelled mat a := fun h => by rw [h.kind] at ha; cases ha
    have h2 : ¬ Labelled mat b := fun h => by rw [h.kind] at hb; cases hb
    simp only [h1, h2, if_false]
  same a b ha hb _ ψ := by
    have h1 : ¬ Labelled mat a := fun h => by rw [h.kind] at ha; cases ha
    have h2 : ¬ Labelled mat b := fun h => by rw [h.kind] at hb; cases hb
    simp only [h1, h2, if_false]

/-- State after a circuit of matrices; allocations and deallocations do nothing. -/
noncomputable def matRun (mat : L → Op n) (l : List (Instr L)) (ψ : (Fin n → Bool) → ℂ) : (Fin n → Bool) → ℂ :=
  l.foldl (fun ψ i => if i.kind = .gate then (mat i.label).mulVec ψ else ψ) ψ

open Classical in
theorem matRun_eq {l : List (Instr L)} (h : ∀ i ∈ l, i.kind = .gate → Labelled mat i) (ψ : (Fin n → Bool) → ℂ) :
    matRun mat l ψ = runI (matInterp mat).act l ψ := by
  unfold matRun runI
  induction l generalizing ψ with
  | nil => rfl
  | cons i l ih =>
    rw [List.foldl_cons, List.foldl_cons, ih fun j hj => h j (by simp [hj])]
    congr 1
    change _ = if Labelled mat i then (mat i.label).mulVec ψ else ψ
    by_cases hk : i.kind = .gate
    · rw [if_pos hk, if_pos (h i (by simp) hk)]
    · rw [if_neg hk, if_neg fun hl => hk hl.kind]

end Verif.Comp
