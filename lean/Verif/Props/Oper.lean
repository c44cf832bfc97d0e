import Verif.Oper.Commute
import Verif.Oper.Measure
import Verif.Oper.Adjoint

/-!
Property theorems C31–C35, C49–C51: qubit and fermionic operators.

Specification vocabulary: `mat` the 2×2 matrix of a factor, `tensor` the tensor product of single
qubit matrices, `tmat n t` the matrix of a term on `n` qubits, `omat` the matrix of an operator (sum
of coefficient times term), `jw` the Jordan-Wigner matrix of a ladder operator, `fop` the operator
product of a ladder list. A dictionary or set iteration order is an arbitrary enumeration.
-/

namespace Verif.Props

open Verif.Oper

/-! ### The specification matrices -/

example : mat .X = fun i j => if i = j then 0 else 1 := by
  ext i j; cases i <;> cases j <;> simp [mat, matG]
example : mat .Y = fun i j => if i = j then 0 else if i then Complex.I else -Complex.I := by
  ext i j; cases i <;> cases j <;> simp [mat, matG, toC_gi]
example : mat .Z = fun i j => if i = j then (if i then -1 else 1) else 0 := by
  ext i j; cases i <;> cases j <;> simp [mat, matG]
/-- `A` is |0><1|. -/
example : mat .A = fun i j => if i = false ∧ j = true then 1 else 0 := by
  ext i j; cases i <;> cases j <;> simp [mat, matG]
/-- `C` is |1><0|. -/
example : mat .C = fun i j => if i = true ∧ j = false then 1 else 0 := by
  ext i j; cases i <;> cases j <;> simp [mat, matG]

/-! ### C31 -/

/-- The product of two terms is the term and coefficient of the operator product, for every
iteration order of the key set. -/
theorem C31_mul {n : Nat} {a b : Term} {ks : List Nat} (hk : KeyOrder a b ks)
    (hlt : ∀ k, k ∈ a.keys ∨ k ∈ b.keys → k < n) :
    tmat n a * tmat n b = toC (mulT ks a b).2 • tmat n (mulT ks a b).1 :=
  mulT_sound hk fun k h => hlt k ((hk.2 k).1 h)

/-- X0 Z1 A2 times Y0 A1 C2 is i Z0 A1 P0_2. -/
example : mulT [0, 1, 2] [(0, .X), (1, .Z), (2, .A)] [(0, .Y), (1, .A), (2, .C)] =
    ([(0, .Z), (1, .A), (2, .P0)], gi) := by decide +kernel

/-- A product which vanishes. -/
example : mulT [0, 1] [(0, .X), (1, .A)] [(0, .Y), (1, .A)] = ([], 0) := by decide +kernel

/-! ### C32 -/

/-- `commute` returns True iff the operators commute, for all iteration orders. -/
theorem C32_commute {n : Nat} {a b : Term} {o o₁ o₂ : List Nat} (ho : KeyOrder a b o)
    (h₁ : KeyOrder a b o₁) (h₂ : KeyOrder b a o₂) (hlt : ∀ k, k ∈ a.keys ∨ k ∈ b.keys → k < n) :
    commute o o₁ o₂ a b = true ↔ tmat n a * tmat n b = tmat n b * tmat n a :=
  commute_exact ho h₁ h₂ hlt

/-- `commute_qw` returns True iff the factors commute on every qubit. -/
theorem C32_commute_qw {a b : Term} {o : List Nat} (ho : KeyOrder a b o) :
    commuteQw a b o = true ↔
      ∀ k, mat (a.get k) * mat (b.get k) = mat (b.get k) * mat (a.get k) :=
  commuteQw_exact ho

/-- `commute_pauli` returns True only if the operators commute. -/
theorem C32_commute_pauli {n : Nat} {a b : Term} {o : List Nat} (ho : KeyOrder a b o)
    (hlt : ∀ k, k ∈ a.keys ∨ k ∈ b.keys → k < n) (h : commutePauli o a b = true) :
    tmat n a * tmat n b = tmat n b * tmat n a :=
  commutePauliLoop_sound ho (fun k hk => hlt k ((ho.2 k).1 hk)) h

/-- XX and YY commute but not qubit-wise; X0 P0_1 and X0 A1 do not commute. -/
example : commute [0, 1] [0, 1] [0, 1] [(0, .X), (1, .X)] [(0, .Y), (1, .Y)] = true ∧
    commuteQw [(0, .X), (1, .X)] [(0, .Y), (1, .Y)] [0, 1] = false ∧
    commute [1, 0] [0, 1] [1, 0] [(0, .X), (1, .P0)] [(0, .X), (1, .A)] = false := by
  decide +kernel

/-! ### C33 -/

/-- For a diagonal term the operator is diagonal and `evaluate_observable` of the serialized term
and an outcome is the eigenvalue of the outcome. -/
theorem C33_eval {t : Term} (hw : t.WF) {n : Nat} (hlt : ∀ k ∈ t.keys, k < n)
    (hd : ∀ k, t.get k = .I ∨ t.get k = .Z ∨ t.get k = .P0 ∨ t.get k = .P1) (x : Nat)
    (c : Fin n → Bool) :
    tmat n t (fun k => x.testBit k) c =
      if (fun k : Fin n => x.testBit k) = c then ((evalObs (serialize t) x : ℚ) : ℂ) else 0 := by
  rw [tmat_diag hd, evalObs_serialize hw hlt]
  have : (∏ k : Fin n, facVal (t.get k) (x.testBit k)) = ∏ k : Fin n, qubitVal t x k := by
    apply Finset.prod_congr rfl
    intro k _
    rw [qubitVal, if_neg]
    intro h
    have := (serInv t hw).lad _ h
    rcases hd k with h1 | h1 | h1 | h1 <;> rw [h1] at this <;> simp at this
  rw [this]

/-- For every term the value is the product of the factor values, where Pauli factors count as Z,
ladder factors as projectors and the last ladder factor as Z/2. -/
theorem C33_eval_ladder {t : Term} (hw : t.WF) {n : Nat} (hlt : ∀ k ∈ t.keys, k < n) (x : Nat) :
    evalObs (serialize t) x = ∏ k : Fin n, qubitVal t x k :=
  evalObs_serialize hw hlt x

/-- Z0 P1_1 on the outcome 11 (both bits set) is -1. -/
example : evalObs (serialize [(0, .Z), (1, .P1)]) 3 = -1 := by
  rw [evalObs_serialize (n := 2) (by unfold Term.WF; decide) (by decide)]
  simp [Fin.prod_univ_two, qubitVal, lastLadder, Term.get, List.lookup_cons, facVal, Nat.testBit]

/-! ### C34 -/

/-- The qubit image of a single ladder operator is the Jordan-Wigner matrix, and the image of a
product is the product of the images (the first list entry acts first). -/
theorem C34_images {ord : Term → Term → List Nat} (ho : OrdOK ord) {n : Nat} (L : List Lad)
    (hL : ∀ l ∈ L, l.1 < n) :
    omat toC n (toQubit ord L) = ((L.map fun l => omat toC n (toQubit ord [l])).reverse).prod ∧
    ∀ l ∈ L, omat toC n (toQubit ord [l]) = jw n l := by
  have h1 : ∀ l ∈ L, omat toC n (toQubit ord [l]) = jw n l := by
    intro l hl
    rw [toQubit_ok ho [l] (by intro m hm; rw [List.mem_singleton.1 hm]; exact hL l hl)]
    simp [fop]
  refine ⟨?_, h1⟩
  rw [toQubit_ok ho L hL, List.map_congr_left h1]
  clear h1 hL
  induction L with
  | nil => simp [fop]
  | cons l L ih => rw [fop, ih]; simp

/-- The images satisfy {a_i, a_j†} = δ_ij and {a_i, a_j} = 0 (hence {a_i†, a_j†} = 0). -/
theorem C34_car {ord : Term → Term → List Nat} (ho : OrdOK ord) {n i j : Nat} (hi : i < n)
    (hj : j < n) :
    let a := fun i => omat toC n (toQubit ord [(i, false)])
    let c := fun i => omat toC n (toQubit ord [(i, true)])
    a i * c j + c j * a i = (if i = j then 1 else 0) ∧
    a i * a j + a j * a i = 0 ∧ c i * c j + c j * c i = 0 := by
  have h : ∀ k b, k < n → omat toC n (toQubit ord [(k, b)]) = jw n (k, b) := by
    intro k b hk
    rw [toQubit_ok ho [(k, b)] (by intro m hm; rw [List.mem_singleton.1 hm]; exact hk)]
    simp [fop]
  simp only [h i _ hi, h j _ hj]
  by_cases hij : i = j
  · subst hij
    rw [if_pos rfl, jw_car_same hi, jw_sq (l := (i, false)) hi, jw_sq (l := (i, true)) hi]
    simp
  · rw [if_neg hij]
    rw [jw_anti (l := (i, false)) (m := (j, true)) hij hi hj,
      jw_anti (l := (i, false)) (m := (j, false)) hij hi hj,
      jw_anti (l := (i, true)) (m := (j, true)) hij hi hj]
    simp

/-- `c_jw` is the adjoint of `a_jw`. -/
theorem C34_adjoint {ord : Term → Term → List Nat} (ho : OrdOK ord) {n i : Nat} (hi : i < n) :
    omat toC n (toQubit ord [(i, true)]) =
      (omat toC n (toQubit ord [(i, false)])).conjTranspose := by
  rw [toQubit_ok ho [(i, true)] (by intro m hm; rw [List.mem_singleton.1 hm]; exact hi),
    toQubit_ok ho [(i, false)] (by intro m hm; rw [List.mem_singleton.1 hm]; exact hi)]
  simp [fop, jw_conj]

/-- A valid iteration order. -/
def someOrd (a b : Term) : List Nat := (a.keys ++ b.keys).dedup

theorem someOrd_ok : OrdOK someOrd := fun a b =>
  ⟨List.nodup_dedup _, fun k => by simp [someOrd, List.mem_dedup]⟩

/-- The code's image of a(2): Z0 Z1 A2. -/
example : toQubit someOrd [(2, false)] = [([(1, .Z), (0, .Z), (2, .A)], 1)] := by decide +kernel

/-! ### C35 -/

/-- The property of `sort`: the sorted term times the sign is the operator. -/
def SortOK (L : List Lad) : Prop := ∀ n, (∀ l ∈ L, l.1 < n) →
  (((sortF L).2 : ℤ) : ℂ) • fop n (sortF L).1 = fop n L

/-- `sort` returns a list ordered by descending index with the same ladder operators, and the sign
is right if no mode occurs more than twice. Missing: terms in which a mode occurs three times, for
which the sign is wrongly 0 (below). -/
theorem C35_sort_partial (L : List Lad) (h : ∀ i, (L.map Prod.fst).count i ≤ 2) :
    SortOK L ∧ (sortF L).1.Perm L ∧ (sortF L).1.Pairwise fun a b => b.1 ≤ a.1 :=
  ⟨fun _ hL => sortF_sound_aux hL h, sortF_perm L, sortF_sorted L⟩

/-- If the reported sign is not 0 the result is right for every term. -/
theorem C35_sort_nonzero (L : List Lad) (h : (sortF L).2 ≠ 0) : SortOK L :=
  fun _ hL => sortF_nonzero_aux hL h

/-- The ladder list of a(0) c(0) a(0) a(1). -/
def tripleL : List Lad := [(1, false), (0, false), (0, true), (0, false)]

/-- `sort` reports sign 0 for a(0) c(0) a(0) a(1), whose operator is not zero. -/
theorem C35_triple_wrong : (sortF tripleL).2 = 0 ∧ fop 2 tripleL ≠ 0 ∧ ¬ SortOK tripleL := by
  have h0 : (sortF tripleL).2 = 0 := by decide +kernel
  have h1 : fop 2 tripleL ≠ 0 := by
    have e : fop 2 tripleL = jw 2 (0, false) * jw 2 (0, true) * jw 2 (0, false) * jw 2 (1, false) := by
      simp [tripleL, fop]
    have car := jw_car_same (n := 2) (i := 0) (by omega)
    have sq := jw_sq (n := 2) (l := (0, false)) (by simp)
    have e2 : jw 2 (0, false) * jw 2 (0, true) * jw 2 (0, false) = jw 2 (0, false) := by
      have : jw 2 (0, false) * jw 2 (0, true) = 1 - jw 2 (0, true) * jw 2 (0, false) :=
        eq_sub_of_add_eq car
      rw [this, sub_mul, mul_assoc, sq]; simp
    rw [e, e2]
    intro h
    -- the matrix element from |11> to |00>
    have hz := congrFun (congrFun h (fun _ => false)) (fun _ => true)
    rw [jw, jw, tensor_mul] at hz
    simp [tensor, Fin.prod_univ_two, Matrix.mul_apply, mat, matG] at hz
  refine ⟨h0, h1, fun h => h1 ?_⟩
  rw [← h 2 (by decide), h0]; simp

/-- A sorted example: c(0) a(2) = -a(2) c(0). -/
example : sortF [(2, false), (0, true)] = ([(2, false), (0, true)], 1) ∧
    sortF [(0, true), (2, false)] = ([(2, false), (0, true)], -1) := by decide +kernel

/-! ### C49: arithmetic of qubit operators -/

/-- The threshold test `abs(c) < 1e-9` (qubit_operator.py line 33). -/
noncomputable def smallC (c : ℂ) : Bool := decide (‖c‖ < 1e-9)

theorem smallC_le (c : ℂ) (h : smallC c = true) : ‖(RingHom.id ℂ) c‖ ≤ 1e-9 :=
  le_of_lt (by simpa [smallC] using h)

/-- Addition: every matrix element of the result differs from the sum by at most 1e-9 per item of
the two dictionaries, and the result has distinct keys. -/
theorem C49_add (n : Nat) (a b : QOp ℂ) :
    Near ((a.length + b.length) * 1e-9) (omat id n (addQ smallC a b)) (omat id n a + omat id n b) ∧
    DWF (addQ smallC a b) := by
  have h1 := near_foldl (RingHom.id ℂ) n (by norm_num) smallC_le a []
  have h2 := near_foldl (RingHom.id ℂ) n (by norm_num) smallC_le b (a.foldl (addTo smallC) [])
  rw [omat_nil, zero_add] at h1
  have h3 := h2.trans (h1.add (Near.refl (le_refl 0) (omat (RingHom.id ℂ) n b)))
  refine ⟨h3.mono (by linarith), DWF_foldl _ (DWF_foldl _ trivial)⟩

/-- Subtraction. -/
theorem C49_sub (n : Nat) (a b : QOp ℂ) :
    Near ((a.length + b.length) * 1e-9) (omat id n (subQ smallC a b)) (omat id n a - omat id n b) ∧
    DWF (subQ smallC a b) := by
  have h1 := near_foldl (RingHom.id ℂ) n (by norm_num) smallC_le a []
  have h2 := near_foldl (RingHom.id ℂ) n (by norm_num) smallC_le (negQ b) (a.foldl (addTo smallC) [])
  rw [omat_nil, zero_add] at h1
  have h3 := h2.trans (h1.add (Near.refl (le_refl 0) (omat (RingHom.id ℂ) n (negQ b))))
  have hl : (negQ b).length = b.length := by simp [negQ]
  rw [omat_negQ, ← sub_eq_add_neg, hl] at h3
  refine ⟨h3.mono (by linarith), DWF_foldl _ (DWF_foldl _ trivial)⟩

/-- Reversed subtraction `other - self`. -/
theorem C49_rsub (n : Nat) (a b : QOp ℂ) :
    Near ((a.length + b.length) * 1e-9) (omat id n (rsubQ smallC a b)) (omat id n b - omat id n a) ∧
    DWF (rsubQ smallC a b) := by
  have h1 := near_foldl (RingHom.id ℂ) n (by norm_num) smallC_le (negQ a) []
  have h2 := near_foldl (RingHom.id ℂ) n (by norm_num) smallC_le b ((negQ a).foldl (addTo smallC) [])
  rw [omat_nil, zero_add] at h1
  have h3 := h2.trans (h1.add (Near.refl (le_refl 0) (omat (RingHom.id ℂ) n b)))
  have hl : (negQ a).length = a.length := by simp [negQ]
  rw [omat_negQ, hl, neg_add_eq_sub] at h3
  refine ⟨h3.mono (by linarith), DWF_foldl _ (DWF_foldl _ trivial)⟩

/-- Multiplication: the error is at most 1e-9 per pair of items. -/
theorem C49_mul {ord : Term → Term → List Nat} (ho : OrdOK ord) {n : Nat} {a b : QOp ℂ}
    (ha : Below n a) (hb : Below n b) :
    Near ((a.length * b.length) * 1e-9) (omat id n (mulQ smallC toC ord a b))
      (omat id n a * omat id n b) := by
  have h1 := near_filter (RingHom.id ℂ) n (by norm_num) smallC_le ((prods toC ord a b).foldl accTo [])
  have h2 : omat (RingHom.id ℂ) n ((prods toC ord a b).foldl accTo []) =
      omat (RingHom.id ℂ) n a * omat (RingHom.id ℂ) n b := by
    rw [omat_acc, omat_nil, zero_add]
    apply omat_prods (RingHom.id ℂ) n (fun x => rfl)
    intro p hp q hq
    refine ⟨ho _ _, fun k hk => ?_⟩
    rcases ((ho p.1 q.1).2 k).1 hk with h | h
    · exact ha p hp k h
    · exact hb q hq k h
  rw [h2] at h1
  refine h1.mono ?_
  have hl : ((prods toC ord a b).foldl accTo []).length ≤ a.length * b.length := by
    have := length_acc (prods toC ord a b) []
    rwa [length_prods, List.length_nil, Nat.zero_add] at this
  have hl' : ((((prods toC ord a b).foldl accTo []).length : ℕ) : ℝ) ≤ a.length * b.length := by
    exact_mod_cast hl
  exact mul_le_mul_of_nonneg_right hl' (by norm_num)

/-- With exact coefficients (Gaussian integers, zero test) all operations are exact. -/
theorem C49_exact {ord : Term → Term → List Nat} (ho : OrdOK ord) {n : Nat} {a b : QOp GI}
    (ha : Below n a) (hb : Below n b) :
    omat toC n (addQ isZeroG a b) = omat toC n a + omat toC n b ∧
    omat toC n (subQ isZeroG a b) = omat toC n a - omat toC n b ∧
    omat toC n (mulQ isZeroG id ord a b) = omat toC n a * omat toC n b := by
  have hs : ∀ v, isZeroG v = true → ‖toC v‖ ≤ 0 := by
    intro v hv
    have : v = 0 := by simpa [isZeroG] using hv
    simp [this]
  have fold : ∀ (b d : QOp GI), omat toC n (b.foldl (addTo isZeroG) d) =
      omat toC n d + omat toC n b := by
    intro b d
    have := near_foldl toC n le_rfl hs b d
    rw [mul_zero] at this
    exact this.zero
  refine ⟨?_, ?_, omat_mulG ho ha hb⟩
  · rw [addQ, fold, fold, omat_nil, zero_add]
  · rw [subQ, fold, fold, omat_nil, zero_add, omat_negQ, sub_eq_add_neg]

/-- The adjoint of an operator is the conjugate transpose. -/
theorem C49_adjoint (n : Nat) {d : QOp ℂ} (hw : DWF d) (hI : ∀ p ∈ d, NoI p.1) :
    omat id n (adjQ star d) = (omat id n d).conjTranspose :=
  omat_adjQ (φ := id) (conj := star) (fun _ => rfl) hw hI

/-- (X0 + Z1)(X0 - Z1) = 0, with all cross terms cancelling. -/
example : mulQ isZeroG id someOrd [([(0, .X)], 1), ([(1, .Z)], 1)] [([(0, .X)], 1), ([(1, .Z)], -1)] =
    [] := by decide +kernel

/-! ### C50: elimination of ladder conjugates -/

/-- `eliminate_ladder_conjugates` represents the operator (a ladder term T standing for (T + T†)/2)
if the operator is Hermitian and all coefficients are real. Missing: Hermitian operators with
complex coefficients of ladder terms, for which it is false (below). -/
theorem C50_elim_partial (n : Nat) [DecidableEq ℂ] {d : QOp ℂ} (hw : DWF d) (hI : ∀ p ∈ d, NoI p.1)
    (hr : ∀ p ∈ d, star p.2 = p.2) (hh : (omat id n d).conjTranspose = omat id n d) :
    symOp id n (elimQ d) = omat id n d := by
  have h1 := symOp_elimQ (RingHom.id ℂ) n hw hI
  have h2 := symOp_real (id : ℂ → ℂ) n hr
  have h3 : symOp id n (elimQ d) = symOp id n d := h1
  rw [h3, h2, hh, ← two_smul ℂ (omat id n d), smul_smul]
  norm_num

/-- In general the elimination keeps the part with symmetrised ladder terms. -/
theorem C50_elim_sym (n : Nat) [DecidableEq ℂ] {d : QOp ℂ} (hw : DWF d) (hI : ∀ p ∈ d, NoI p.1) :
    symOp id n (elimQ d) = symOp id n d :=
  symOp_elimQ (RingHom.id ℂ) n hw hI

/-- The Hermitian operator i A(0) - i C(0). -/
def iAC : QOp GI := [([(0, .A)], gi), ([(0, .C)], -gi)]

/-- i A(0) - i C(0) is Hermitian (it is -Y) but the elimination returns the empty operator, so that
its expectation value is reported as 0 and its evolution as the identity. -/
theorem C50_imaginary_lost : elimQ iAC = [] ∧ omat toC 1 iAC = -tmat 1 [(0, .Y)] ∧
    symOp toC 1 (elimQ iAC) ≠ omat toC 1 iAC := by
  have h0 : elimQ iAC = [] := by decide +kernel
  have h1 : omat toC 1 iAC = -tmat 1 [(0, .Y)] := by
    ext b c
    simp only [iAC, omat, List.map_cons, List.map_nil, List.sum_cons, List.sum_nil, tmat, tensor,
      Matrix.add_apply, Matrix.smul_apply, Matrix.neg_apply, Fin.prod_univ_one, add_zero,
      Term.get, List.lookup_cons, Fin.val_zero, beq_self_eq_true, Option.getD_some, smul_eq_mul,
      map_neg, toC_gi]
    rcases b 0 with _ | _ <;> rcases c 0 with _ | _ <;> simp [mat, matG, toC_gi]
  refine ⟨h0, h1, ?_⟩
  rw [h0, h1]
  intro h
  have := congrFun (congrFun h (fun _ => true)) (fun _ => false)
  simp [symOp, tmat, tensor, Term.get, List.lookup_cons, mat, matG, toC_gi] at this

/-! ### C51: fermionic terms -/

/-- The product of fermionic terms is the operator product, and `dagger` is the adjoint. -/
theorem C51_term_ops (n : Nat) (a b : List Lad) :
    fop n (mulF a b) = fop n a * fop n b ∧ fop n (dagger a) = (fop n a).conjTranspose :=
  ⟨fop_append n b a, fop_dagger n a⟩

/-- (c(1) a(0))† = c(0) a(1). -/
example : dagger (mulF [(1, true)] [(0, false)]) = mulF [(0, true)] [(1, false)] := by decide

end Verif.Props
