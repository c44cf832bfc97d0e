import Verif.Oper.QOp
import Mathlib.Data.List.Sort
import Mathlib.Data.List.GetD

/-!
Fermionic terms and the Jordan-Wigner transformation
(src/qrisp/operators/fermionic/fermionic_term.py).
-/

namespace Verif.Oper

/-- A ladder operator: mode index and whether it is a creator. -/
abbrev Lad := Nat × Bool

/-- The dictionary `{(): 1}` of the number 1. -/
def oneQ : QOp GI := [([], 1)]

/-- The zero test `abs(c) < 1e-9` on Gaussian integers. -/
def isZeroG (c : GI) : Bool := c = 0

/-- Product of qubit operators with Gaussian integer coefficients. -/
def mulG (ord : Term → Term → List Nat) (a b : QOp GI) : QOp GI := mulQ isZeroG id ord a b

/-- The operator of one factor, e.g. `Z(j)` (src/qrisp/operators/qubit/operator_factors.py). -/
def fac1 (f : Fac) (j : Nat) : QOp GI := [([(j, f)], 1)]

/-- The parity string `temp = Z(j) * temp` for `j < i` (fermionic_term.py lines 179-181). -/
def zString (ord : Term → Term → List Nat) : Nat → QOp GI
  | 0 => oneQ
  | i + 1 => mulG ord (fac1 .Z i) (zString ord i)

/-- One ladder operator (lines 179-186). For index 0 `temp` is the number 1 and the product is
`C(0).__rmul__(1) = C(0) * 1`. -/
def jwLad (ord : Term → Term → List Nat) (l : Lad) : QOp GI :=
  let f := fac1 (if l.2 then .C else .A) l.1
  if l.1 = 0 then mulG ord f oneQ else mulG ord (zString ord l.1) f

/-- The loop of `to_qubit_term` (lines 177-188): `res = temp * res`. -/
def jwLoop (ord : Term → Term → List Nat) : List Lad → QOp GI → QOp GI
  | [], res => res
  | l :: L, res => jwLoop ord L (mulG ord (jwLad ord l) res)

/-- `FermionicTerm.to_qubit_term` (lines 175-194). -/
def toQubit (ord : Term → Term → List Nat) (L : List Lad) : QOp GI := jwLoop ord L oneQ

/-- `FermionicTerm.dagger` (lines 54-55). -/
def dagger (L : List Lad) : List Lad := L.reverse.map fun l => (l.1, !l.2)

/-- `FermionicTerm.__mul__` (lines 95-97). -/
def mulF (self other : List Lad) : List Lad := other ++ self

/-- Entry of a ladder list. -/
def at_ (L : List Lad) (i : Nat) : Lad := L.getD i (0, false)

/-- `np.argsort(sorting_list, kind="stable")` of the negated indices (lines 120-121). -/
def argsort (L : List Lad) : List Nat :=
  (List.range L.length).insertionSort fun i j => (at_ L j).1 ≤ (at_ L i).1

/-- `permutation_signature` (lines 199-206). -/
def permSign (perm : List Nat) : Int :=
  let k := ((List.range perm.length).map fun i => ((List.range i).map fun j =>
    if perm.getD i 0 < perm.getD j 0 then 1 else 0).sum).sum
  (-1) ^ (k % 2)

/-- The loop of lines 125-132: `none` if the sign is left unchanged, `some 0` after a break. -/
def zeroCheck (l : List Lad) : List Nat → Bool
  | [] => false
  | i :: is =>
    if (at_ l i).1 = (at_ l (i + 1)).1 then
      if (at_ l i).2 = (at_ l (i + 1)).2 then true
      else if i > 1 ∧ (at_ l i).1 = (at_ l (i - 1)).1 then true
      else zeroCheck l is
    else zeroCheck l is

/-- `FermionicTerm.sort` (lines 118-134). -/
def sortF (L : List Lad) : List Lad × Int :=
  let perm := argsort L
  let l := perm.map (at_ L)
  (l, if zeroCheck l (List.range (l.length - 1)) then 0 else permSign perm)

/-! ### Specification -/

/-- The Jordan-Wigner matrix of a ladder operator: Z on the lower modes, |1><0| or |0><1| on the
mode itself. -/
noncomputable def jw (n : Nat) (l : Lad) : MatN n := tensor fun k =>
  if (k : Nat) < l.1 then mat .Z else if (k : Nat) = l.1 then mat (if l.2 then .C else .A) else 1

/-- The operator of a ladder list: the first entry acts first. -/
noncomputable def fop (n : Nat) : List Lad → MatN n
  | [] => 1
  | l :: L => fop n L * jw n l

theorem mat_I : mat .I = 1 := by
  ext i j; cases i <;> cases j <;> simp [mat, matG]

theorem tensor_one {n : Nat} : (tensor fun _ : Fin n => (1 : Matrix Bool Bool ℂ)) = 1 := by
  ext b c
  rw [tensor]
  by_cases h : b = c
  · subst h; simp
  · rw [Matrix.one_apply_ne h]
    obtain ⟨k, hk⟩ := Function.ne_iff.1 h
    exact Finset.prod_eq_zero (Finset.mem_univ k) (Matrix.one_apply_ne hk)

theorem tmat_nil (n : Nat) : tmat n [] = 1 := by
  rw [tmat, ← tensor_one]; congr 1; funext k; rw [← mat_I]; rfl

/-- Valid iteration orders of the key sets, for terms on `n` qubits. -/
def OrdOK (ord : Term → Term → List Nat) : Prop := ∀ a b, KeyOrder a b (ord a b)

/-- All keys are below `n`. -/
def Below {R : Type} (n : Nat) (d : QOp R) : Prop := ∀ p ∈ d, ∀ k ∈ p.1.keys, k < n

theorem mem_dset {R : Type} {d : QOp R} {t : Term} {v : R} {p : Term × R} (h : p ∈ dset d t v) :
    p.1 = t ∨ ∃ c, (p.1, c) ∈ d := by
  induction d with
  | nil => left; simp only [dset, List.mem_singleton] at h; rw [h]
  | cons q d ih =>
    obtain ⟨s, c⟩ := q
    simp only [dset] at h
    split at h
    · rcases List.mem_cons.1 h with h | h
      · right; exact ⟨c, by rw [h]; simp⟩
      · right; exact ⟨p.2, List.mem_cons_of_mem _ h⟩
    · rcases List.mem_cons.1 h with h | h
      · right; exact ⟨c, by rw [h]; simp⟩
      · rcases ih h with h | ⟨c', h⟩
        · exact Or.inl h
        · exact Or.inr ⟨c', List.mem_cons_of_mem _ h⟩

theorem below_acc {R : Type} [CommRing R] {n : Nat} {b d : QOp R} (hb : Below n b) (hd : Below n d) :
    Below n (b.foldl accTo d) := by
  induction b generalizing d with
  | nil => exact hd
  | cons q b ih =>
    apply ih (fun p hp => hb p (List.mem_cons_of_mem _ hp))
    intro p hp k hk
    rcases mem_dset hp with h | ⟨c, h⟩
    · rw [h] at hk; exact hb q (by simp) k hk
    · exact hd _ h k hk

theorem below_mulQ {R : Type} [CommRing R] {small : R → Bool} {κ : GI → R}
    {ord : Term → Term → List Nat} (ho : OrdOK ord) {n : Nat} {a b : QOp R} (ha : Below n a)
    (hb : Below n b) : Below n (mulQ small κ ord a b) := by
  intro p hp
  have hp' := (List.mem_filter.1 hp).1
  refine below_acc ?_ (by intro q hq; simp at hq) p hp'
  intro q hq k hk
  obtain ⟨r, hr, hq⟩ := List.mem_flatMap.1 hq
  obtain ⟨s, hs, rfl⟩ := List.mem_map.1 hq
  have := ((ho r.1 s.1).2 k).1 (mulT_keys (ho _ _) k hk)
  rcases this with h | h
  · exact ha r hr k h
  · exact hb s hs k h

theorem omat_mulG {ord : Term → Term → List Nat} (ho : OrdOK ord) {n : Nat} {a b : QOp GI}
    (ha : Below n a) (hb : Below n b) :
    omat toC n (mulG ord a b) = omat toC n a * omat toC n b := by
  have hs : ∀ v, isZeroG v = true → ‖toC v‖ ≤ 0 := by
    intro v hv
    have : v = 0 := by simpa [isZeroG] using hv
    simp [this]
  have h1 := near_filter toC n le_rfl hs ((prods id ord a b).foldl accTo [])
  rw [mul_zero] at h1
  rw [mulG, mulQ, h1.zero, omat_acc, omat_nil, zero_add]
  apply omat_prods toC n (fun x => rfl)
  intro p hp q hq
  refine ⟨ho _ _, fun k hk => ?_⟩
  rcases ((ho p.1 q.1).2 k).1 hk with h | h
  · exact ha p hp k h
  · exact hb q hq k h

theorem below_one {n : Nat} : Below n oneQ := by
  intro p hp k hk; rw [List.mem_singleton.1 hp] at hk; simp [Term.keys] at hk

theorem below_fac1 {n j : Nat} (f : Fac) (h : j < n) : Below n (fac1 f j) := by
  intro p hp k hk; rw [List.mem_singleton.1 hp] at hk
  simp [Term.keys] at hk; omega

theorem omat_one {n : Nat} : omat toC n oneQ = 1 := by
  simp [oneQ, omat, tmat_nil]

theorem omat_fac1 {n : Nat} (f : Fac) (j : Nat) :
    omat toC n (fac1 f j) = tensor fun k : Fin n => if (k : Nat) = j then mat f else 1 := by
  simp only [fac1, omat, List.map_cons, List.map_nil, List.sum_cons, List.sum_nil, map_one,
    one_smul, add_zero, tmat]
  congr 1; funext k
  by_cases h : (k : Nat) = j
  · simp [Term.get, List.lookup_cons, h]
  · have hb : ((k : Nat) == j) = false := by simpa using h
    simp [Term.get, List.lookup_cons, h, hb, mat_I]

theorem zString_ok {ord : Term → Term → List Nat} (ho : OrdOK ord) {n : Nat} (i : Nat) (hi : i ≤ n) :
    Below n (zString ord i) ∧
    omat toC n (zString ord i) = tensor fun k : Fin n => if (k : Nat) < i then mat .Z else 1 := by
  induction i with
  | zero => exact ⟨below_one, by rw [zString, omat_one, ← tensor_one]; simp⟩
  | succ i ih =>
    obtain ⟨h1, h2⟩ := ih (by omega)
    have h3 : Below n (fac1 .Z i) := below_fac1 _ (by omega)
    refine ⟨below_mulQ ho h3 h1, ?_⟩
    rw [zString, omat_mulG ho h3 h1, h2, omat_fac1, tensor_mul]
    congr 1; funext k
    rcases lt_trichotomy (k : Nat) i with h | h | h
    · have h' : ¬ (k : Nat) = i := by omega
      have h'' : (k : Nat) < i + 1 := by omega
      simp [h, h', h'']
    · simp [h]
    · have h' : ¬ (k : Nat) = i := by omega
      have h'' : ¬ (k : Nat) < i + 1 := by omega
      have h3 : ¬ (k : Nat) < i := by omega
      simp [h', h'', h3]

theorem jwLad_ok {ord : Term → Term → List Nat} (ho : OrdOK ord) {n : Nat} {l : Lad} (hl : l.1 < n) :
    Below n (jwLad ord l) ∧ omat toC n (jwLad ord l) = jw n l := by
  have hf := below_fac1 (n := n) (if l.2 then .C else .A) hl
  obtain ⟨h1, h2⟩ := zString_ok ho l.1 (le_of_lt hl)
  rw [jwLad]
  by_cases h0 : l.1 = 0
  · simp only [if_pos h0]
    refine ⟨below_mulQ ho hf below_one, ?_⟩
    rw [omat_mulG ho hf below_one, omat_one, mul_one, omat_fac1, jw]
    simp [h0]
  · simp only [if_neg h0]
    refine ⟨below_mulQ ho h1 hf, ?_⟩
    rw [omat_mulG ho h1 hf, h2, omat_fac1, tensor_mul, jw]
    congr 1; funext k
    rcases lt_trichotomy (k : Nat) l.1 with h | h | h
    · have h' : ¬ (k : Nat) = l.1 := by omega
      simp [h, h']
    · simp [h]
    · have h' : ¬ (k : Nat) = l.1 := by omega
      have h3 : ¬ (k : Nat) < l.1 := by omega
      simp [h', h3]

theorem jwLoop_ok {ord : Term → Term → List Nat} (ho : OrdOK ord) {n : Nat} (L : List Lad)
    (hL : ∀ l ∈ L, l.1 < n) (res : QOp GI) (hr : Below n res) :
    omat toC n (jwLoop ord L res) = fop n L * omat toC n res := by
  induction L generalizing res with
  | nil => simp [jwLoop, fop]
  | cons l L ih =>
    obtain ⟨h1, h2⟩ := jwLad_ok ho (hL l (by simp))
    rw [jwLoop, ih (fun l hl => hL l (List.mem_cons_of_mem _ hl)) (mulG ord (jwLad ord l) res)
        (below_mulQ ho h1 hr),
      omat_mulG ho h1 hr, h2, fop, mul_assoc]

/-- The qubit operator of a ladder product is the product of the Jordan-Wigner matrices. -/
theorem toQubit_ok {ord : Term → Term → List Nat} (ho : OrdOK ord) {n : Nat} (L : List Lad)
    (hL : ∀ l ∈ L, l.1 < n) : omat toC n (toQubit ord L) = fop n L := by
  rw [toQubit, jwLoop_ok ho L hL _ below_one, omat_one, mul_one]

/-! ### Anticommutation relations -/

theorem mat_mul_tab {f g h : Fac} {c : GI} (ht : table f g = (h, c)) :
    mat f * mat g = toC c • mat h := by rw [mat_mul, ht]

/-- Ladder operators of different modes anticommute. -/
theorem jw_anti_lt {n : Nat} {l m : Lad} (h : l.1 < m.1) (hm : m.1 < n) :
    jw n m * jw n l = -(jw n l * jw n m) := by
  rw [jw, jw, tensor_mul, tensor_mul]
  have hln : l.1 < n := by omega
  have hc : (-1 : ℂ) = ∏ k : Fin n, if (k : Nat) = l.1 then (-1 : ℂ) else 1 := by
    rw [Finset.prod_eq_single (⟨l.1, hln⟩ : Fin n)]
    · simp
    · intro k _ hk; rw [if_neg]; intro h'; exact hk (Fin.ext h')
    · simp
  rw [← neg_one_smul ℂ, hc, ← tensor_smul]
  congr 1; funext k
  have az : ∀ b : Bool, mat .Z * mat (if b then .C else .A) =
      (-1 : ℂ) • (mat (if b then .C else .A) * mat .Z) := by
    intro b
    cases b
    · rw [if_neg (by simp), mat_mul_tab (h := .A) (c := 1) rfl, mat_mul_tab (h := .A) (c := -1) rfl]
      simp
    · rw [if_pos rfl, mat_mul_tab (h := .C) (c := -1) rfl, mat_mul_tab (h := .C) (c := 1) rfl]
      simp
  rcases lt_trichotomy (k : Nat) l.1 with h1 | h1 | h1
  · have h2 : (k : Nat) < m.1 := by omega
    have h3 : ¬ (k : Nat) = l.1 := by omega
    simp [h1, h2, h3]
  · have h2 : (k : Nat) < m.1 := by omega
    have h3 : ¬ (k : Nat) < l.1 := by omega
    rw [if_pos h2, if_neg h3, if_pos h1, if_pos h1]
    exact az _
  · have h2 : ¬ (k : Nat) < l.1 := by omega
    have h3 : ¬ (k : Nat) = l.1 := by omega
    simp [h2, h3]

theorem jw_anti {n : Nat} {l m : Lad} (h : l.1 ≠ m.1) (hl : l.1 < n) (hm : m.1 < n) :
    jw n m * jw n l = -(jw n l * jw n m) := by
  rcases Nat.lt_or_gt_of_ne h with h | h
  · exact jw_anti_lt h hm
  · rw [jw_anti_lt h hl, neg_neg]

/-- Products of ladder operators of the same mode. -/
theorem jw_same {n : Nat} {i : Nat} (b c : Bool) : jw n (i, b) * jw n (i, c) =
    tensor fun k : Fin n => if (k : Nat) = i then mat (if b then .C else .A) *
      mat (if c then .C else .A) else 1 := by
  rw [jw, jw, tensor_mul]
  congr 1; funext k
  have hz : mat .Z * mat .Z = 1 := by
    rw [mat_mul_tab (h := .I) (c := 1) rfl, mat_I]; simp
  rcases lt_trichotomy (k : Nat) i with h | h | h
  · have h' : ¬ (k : Nat) = i := by omega
    simp [h, h', hz]
  · simp [h]
  · have h' : ¬ (k : Nat) = i := by omega
    have h3 : ¬ (k : Nat) < i := by omega
    simp [h', h3]

theorem jw_sq {n : Nat} {l : Lad} (hl : l.1 < n) : jw n l * jw n l = 0 := by
  obtain ⟨i, b⟩ := l
  rw [jw_same]
  ext u v
  rw [tensor, Matrix.zero_apply]
  apply Finset.prod_eq_zero (Finset.mem_univ (⟨i, hl⟩ : Fin n))
  have : mat (if b then .C else .A) * mat (if b then .C else .A) = 0 := by
    cases b
    · rw [if_neg (by simp), mat_mul_tab (h := .I) (c := 0) rfl]; simp
    · rw [if_pos rfl, mat_mul_tab (h := .I) (c := 0) rfl]; simp
  simp [this]

/-- A sum of tensor products which differ in one factor. -/
theorem tensor_add {n : Nat} (i : Fin n) (M : Fin n → Matrix Bool Bool ℂ) (A B : Matrix Bool Bool ℂ) :
    (tensor fun k => if k = i then A else M k) + (tensor fun k => if k = i then B else M k) =
      tensor fun k => if k = i then A + B else M k := by
  ext b c
  simp only [Matrix.add_apply, tensor]
  rw [← Finset.mul_prod_erase Finset.univ _ (Finset.mem_univ i),
    ← Finset.mul_prod_erase Finset.univ _ (Finset.mem_univ i),
    ← Finset.mul_prod_erase Finset.univ _ (Finset.mem_univ i)]
  have : ∀ X : Matrix Bool Bool ℂ, ∏ k ∈ Finset.univ.erase i, (if k = i then X else M k) (b k) (c k) =
      ∏ k ∈ Finset.univ.erase i, M k (b k) (c k) := by
    intro X
    apply Finset.prod_congr rfl
    intro k hk
    rw [if_neg (Finset.ne_of_mem_erase hk)]
  rw [this, this, this]
  simp only [if_true, Matrix.add_apply]
  ring

theorem jw_car_same {n i : Nat} (hi : i < n) :
    jw n (i, false) * jw n (i, true) + jw n (i, true) * jw n (i, false) = 1 := by
  rw [jw_same, jw_same, ← tensor_one]
  have h := tensor_add (⟨i, hi⟩ : Fin n) (fun _ => 1) (mat .A * mat .C) (mat .C * mat .A)
  have e : ∀ (k : Fin n), (k = (⟨i, hi⟩ : Fin n)) = ((k : Nat) = i) := fun k => by
    rw [Fin.ext_iff]
  simp only [e] at h
  simp only [Bool.false_eq_true, if_false, if_true]
  rw [h]
  congr 1; funext k
  have : mat .A * mat .C + mat .C * mat .A = 1 := by
    rw [mat_mul_tab (h := .P0) (c := 1) rfl, mat_mul_tab (h := .P1) (c := 1) rfl]
    ext i j; cases i <;> cases j <;> simp [mat, matG]
  simp [this]

/-! ### Products and adjoints -/

theorem fop_append (n : Nat) (L M : List Lad) : fop n (L ++ M) = fop n M * fop n L := by
  induction L with
  | nil => simp [fop]
  | cons l L ih => rw [List.cons_append, fop, ih, fop, mul_assoc]

theorem tensor_conj {n : Nat} (M : Fin n → Matrix Bool Bool ℂ) :
    (tensor M).conjTranspose = tensor fun k => (M k).conjTranspose := by
  ext b c
  simp [tensor, Matrix.conjTranspose_apply]

/-- The adjoint factor. -/
def facAdj : Fac → Fac
  | .A => .C
  | .C => .A
  | f => f

theorem toC_star (x : GI) : star (toC x) = toC (star x) := by
  rw [toC]; exact (GaussianInt.toComplex_star x).symm

theorem mat_conj (f : Fac) : (mat f).conjTranspose = mat (facAdj f) := by
  have h : ∀ f i j, star (matG f j i) = matG (facAdj f) i j := by decide +kernel
  ext i j
  rw [Matrix.conjTranspose_apply, mat, mat, toC_star, h]

theorem jw_conj (n : Nat) (l : Lad) : (jw n l).conjTranspose = jw n (l.1, !l.2) := by
  rw [jw, tensor_conj, jw]
  congr 1; funext k
  split
  · exact mat_conj .Z
  · split
    · rw [mat_conj]; rcases l with ⟨i, _ | _⟩ <;> rfl
    · exact Matrix.conjTranspose_one

theorem fop_dagger (n : Nat) (L : List Lad) : fop n (dagger L) = (fop n L).conjTranspose := by
  induction L with
  | nil => simp [dagger, fop]
  | cons l L ih =>
    have : dagger (l :: L) = dagger L ++ [(l.1, !l.2)] := by simp [dagger]
    have h1 : fop n [(l.1, !l.2)] = jw n (l.1, !l.2) := by simp [fop]
    rw [this, fop_append, ih, h1, fop, Matrix.conjTranspose_mul, jw_conj]

/-! ### Sorting -/

/-- Number of inversions. -/
def inv : List Nat → Nat
  | [] => 0
  | x :: P => (P.filter fun y => y < x).length + inv P

theorem inv_snoc (P : List Nat) (x : Nat) :
    inv (P ++ [x]) = inv P + (P.filter fun y => x < y).length := by
  induction P with
  | nil => simp [inv]
  | cons y P ih =>
    rw [List.cons_append, inv, ih, inv, List.filter_append, List.length_append, List.filter_cons,
      List.filter_cons]
    by_cases h : x < y
    · simp [h]; omega
    · simp [h]; omega

theorem filter_range (P : List Nat) (x : Nat) : (P.filter fun y => x < y).length =
    ((List.range P.length).map fun j => if x < P.getD j 0 then 1 else 0).sum := by
  induction P using List.reverseRecOn with
  | nil => simp
  | append_singleton P y ih =>
    rw [List.filter_append, List.length_append, ih, List.length_append, List.length_singleton,
      List.range_succ, List.map_append, List.sum_append]
    congr 1
    · congr 1
      apply List.map_congr_left
      intro j hj
      rw [List.getD_append _ _ _ _ (List.mem_range.1 hj)]
    · rw [List.map_singleton, List.sum_singleton, List.getD_append_right _ _ _ _ le_rfl]
      by_cases h : x < y <;> simp [h]

theorem permSign_inv (P : List Nat) : permSign P = (-1) ^ inv P := by
  have : ((List.range P.length).map fun i => ((List.range i).map fun j =>
      if P.getD i 0 < P.getD j 0 then 1 else 0).sum).sum = inv P := by
    induction P using List.reverseRecOn with
    | nil => simp [inv]
    | append_singleton P x ih =>
      rw [List.length_append, List.length_singleton, List.range_succ, List.map_append,
        List.sum_append, inv_snoc, ← ih, filter_range]
      congr 1
      · congr 1
        apply List.map_congr_left
        intro i hi
        congr 1
        apply List.map_congr_left
        intro j hj
        rw [List.getD_append _ _ _ _ (List.mem_range.1 hi),
          List.getD_append _ _ _ _ (by have := List.mem_range.1 hi; have := List.mem_range.1 hj; omega)]
      · rw [List.map_singleton, List.sum_singleton]
        congr 1
        apply List.map_congr_left
        intro j hj
        rw [List.getD_append_right _ _ _ _ le_rfl, List.getD_append _ _ _ _ (List.mem_range.1 hj)]
        simp
  rw [permSign, this]
  exact (neg_one_pow_eq_pow_mod_two _).symm

/-- The sorting relation: descending index. -/
def srel (L : List Lad) (i j : Nat) : Prop := (at_ L j).1 ≤ (at_ L i).1

instance (L : List Lad) : DecidableRel (srel L) := fun _ _ => Nat.decLe _ _

theorem argsort_eq (L : List Lad) : argsort L = (List.range L.length).insertionSort (srel L) := rfl

theorem insert_sign (n : Nat) (L : List Lad) (s : Nat) (P : List Nat) (hlt : ∀ y ∈ P, s < y)
    (hn : ∀ y ∈ s :: P, (at_ L y).1 < n) :
    ((-1 : ℂ) ^ inv (P.orderedInsert (srel L) s)) • fop n ((P.orderedInsert (srel L) s).map (at_ L)) =
      ((-1 : ℂ) ^ inv P) • fop n ((s :: P).map (at_ L)) := by
  induction P with
  | nil => simp [inv]
  | cons b P ih =>
    rw [List.orderedInsert_cons]
    by_cases h : srel L s b
    · rw [if_pos h]
      congr 2
      rw [inv, List.filter_eq_nil_iff.2 (by intro y hy; simpa using le_of_lt (hlt y hy))]
      simp
    · rw [if_neg h]
      have hlt' : (at_ L s).1 < (at_ L b).1 := Nat.not_le.1 h
      have ih' := ih (fun y hy => hlt y (List.mem_cons_of_mem _ hy)) (fun y hy => hn y (by
        rcases List.mem_cons.1 hy with rfl | hy
        · simp
        · simp [hy]))
      have hcount : ((P.orderedInsert (srel L) s).filter fun y => y < b).length =
          (P.filter fun y => y < b).length + 1 := by
        rw [((List.perm_orderedInsert (srel L) s P).filter _).length_eq, List.filter_cons,
          if_pos (by simpa using hlt b (by simp))]
        simp
      have hsb : jw n (at_ L b) * jw n (at_ L s) = -(jw n (at_ L s) * jw n (at_ L b)) :=
        jw_anti_lt hlt' (hn b (by simp))
      simp only [List.map_cons, fop, inv] at ih' ⊢
      have e1 : ((-1 : ℂ) ^ ((P.filter fun y => y < b).length + 1 +
          inv (P.orderedInsert (srel L) s))) • (fop n ((P.orderedInsert (srel L) s).map (at_ L)) *
            jw n (at_ L b)) = (-(-1 : ℂ) ^ (P.filter fun y => y < b).length) •
          (((-1 : ℂ) ^ inv (P.orderedInsert (srel L) s) •
            fop n ((P.orderedInsert (srel L) s).map (at_ L))) * jw n (at_ L b)) := by
        rw [Matrix.smul_mul, smul_smul]; congr 1; ring
      rw [hcount, e1, ih', Matrix.smul_mul, smul_smul, mul_assoc, mul_assoc, hsb, mul_neg, smul_neg,
        neg_mul, neg_smul, pow_add]

theorem sort_sign (n : Nat) (L : List Lad) (S : List Nat) (hS : S.Pairwise (· < ·))
    (hn : ∀ y ∈ S, (at_ L y).1 < n) :
    ((-1 : ℂ) ^ inv (S.insertionSort (srel L))) • fop n ((S.insertionSort (srel L)).map (at_ L)) =
      fop n (S.map (at_ L)) := by
  induction S with
  | nil => simp [inv]
  | cons s S ih =>
    rw [List.pairwise_cons] at hS
    have hp := List.perm_insertionSort (srel L) S
    have ih' := ih hS.2 fun y hy => hn y (List.mem_cons_of_mem _ hy)
    rw [List.insertionSort_cons, insert_sign n L s _ (fun y hy => hS.1 y (hp.mem_iff.1 hy))
      (fun y hy => hn y (by
        rcases List.mem_cons.1 hy with rfl | hy
        · simp
        · exact List.mem_cons_of_mem _ (hp.mem_iff.1 hy)))]
    rw [List.map_cons, fop, ← Matrix.smul_mul, ih', List.map_cons, fop]

theorem map_at_range (L : List Lad) : (List.range L.length).map (at_ L) = L := by
  apply List.ext_getElem
  · simp
  · intro i h1 h2
    simp [at_, h2]

theorem sortF_fst (L : List Lad) : (sortF L).1 = (argsort L).map (at_ L) := rfl

theorem sortF_perm (L : List Lad) : (sortF L).1.Perm L := by
  have := (List.perm_insertionSort (srel L) (List.range L.length)).map (at_ L)
  rw [map_at_range] at this
  exact this

/-- The sorted list is ordered by descending index. -/
theorem sortF_sorted (L : List Lad) : (sortF L).1.Pairwise fun a b => b.1 ≤ a.1 := by
  rw [sortF_fst, List.pairwise_map]
  haveI : Std.Total (srel L) := ⟨fun a b => Nat.le_total _ _⟩
  haveI : IsTrans Nat (srel L) := ⟨fun a b c h1 h2 => Nat.le_trans h2 h1⟩
  exact List.pairwise_insertionSort (srel L) _

/-- The permutation sign relates the operators of the list and the sorted list. -/
theorem sort_permSign (n : Nat) (L : List Lad) (hL : ∀ l ∈ L, l.1 < n) :
    ((permSign (argsort L) : ℤ) : ℂ) • fop n (sortF L).1 = fop n L := by
  have h := sort_sign n L (List.range L.length) List.pairwise_lt_range (by
    intro y hy
    have hy' := List.mem_range.1 hy
    apply hL
    rw [at_, List.getD_eq_getElem _ _ hy']
    exact List.getElem_mem _)
  rw [map_at_range] at h
  rw [permSign_inv, sortF_fst, argsort_eq]
  push_cast
  exact h

theorem zeroCheck_true {l : List Lad} {is : List Nat} (h : zeroCheck l is = true) :
    ∃ i ∈ is, (at_ l i).1 = (at_ l (i + 1)).1 ∧
      ((at_ l i).2 = (at_ l (i + 1)).2 ∨ (i > 1 ∧ (at_ l i).1 = (at_ l (i - 1)).1)) := by
  induction is with
  | nil => simp [zeroCheck] at h
  | cons i is ih =>
    have lift : (∃ i ∈ is, (at_ l i).1 = (at_ l (i + 1)).1 ∧
        ((at_ l i).2 = (at_ l (i + 1)).2 ∨ (i > 1 ∧ (at_ l i).1 = (at_ l (i - 1)).1))) → 
        ∃ j ∈ i :: is, (at_ l j).1 = (at_ l (j + 1)).1 ∧
        ((at_ l j).2 = (at_ l (j + 1)).2 ∨ (j > 1 ∧ (at_ l j).1 = (at_ l (j - 1)).1)) := by
      rintro ⟨j, hj, hh⟩; exact ⟨j, List.mem_cons_of_mem _ hj, hh⟩
    rw [zeroCheck] at h
    by_cases h1 : (at_ l i).1 = (at_ l (i + 1)).1
    · rw [if_pos h1] at h
      by_cases h2 : (at_ l i).2 = (at_ l (i + 1)).2
      · exact ⟨i, by simp, h1, Or.inl h2⟩
      · rw [if_neg h2] at h
        by_cases h3 : i > 1 ∧ (at_ l i).1 = (at_ l (i - 1)).1
        · exact ⟨i, by simp, h1, Or.inr h3⟩
        · rw [if_neg h3] at h; exact lift (ih h)
    · rw [if_neg h1] at h; exact lift (ih h)

theorem split_two {l : List Lad} {i : Nat} (h : i + 1 < l.length) :
    l = l.take i ++ at_ l i :: at_ l (i + 1) :: l.drop (i + 2) := by
  have h1 : at_ l i = l[i] := List.getD_eq_getElem _ _ _
  have h2 : at_ l (i + 1) = l[i + 1] := List.getD_eq_getElem _ _ h
  rw [h1, h2]
  conv_lhs => rw [← List.take_append_drop i l]
  congr 1
  rw [List.drop_eq_getElem_cons (by omega), List.drop_eq_getElem_cons h]

/-- Two equal adjacent ladder operators make the operator vanish. -/
theorem fop_zero {n : Nat} {l : List Lad} {i : Nat} (h : i + 1 < l.length)
    (he : at_ l i = at_ l (i + 1)) (hn : (at_ l i).1 < n) : fop n l = 0 := by
  rw [split_two h, fop_append, fop, fop, ← he, mul_assoc (fop n _), jw_sq hn, mul_zero, zero_mul]

theorem sortF_sound_aux {n : Nat} {L : List Lad} (hL : ∀ l ∈ L, l.1 < n)
    (h3 : ∀ i, (L.map Prod.fst).count i ≤ 2) :
    (((sortF L).2 : ℤ) : ℂ) • fop n (sortF L).1 = fop n L := by
  have hs := sort_permSign n L hL
  by_cases hz : zeroCheck (sortF L).1 (List.range ((sortF L).1.length - 1)) = true
  · have h0 : (sortF L).2 = 0 := if_pos hz
    obtain ⟨i, hi, h1, h2⟩ := zeroCheck_true hz
    have hi' : i + 1 < (sortF L).1.length := by have := List.mem_range.1 hi; omega
    have hmem : at_ (sortF L).1 i ∈ (sortF L).1 := by
      rw [at_, List.getD_eq_getElem _ _ (by omega)]; exact List.getElem_mem _
    rcases h2 with h2 | ⟨h2, h4⟩
    · have : fop n (sortF L).1 = 0 := fop_zero hi' (Prod.ext h1 h2)
        (hL _ ((sortF_perm L).mem_iff.1 hmem))
      rw [this, smul_zero] at hs
      rw [h0, this, smul_zero]; exact hs
    · exfalso
      -- three adjacent operators with the same index
      have hc := ((sortF_perm L).map Prod.fst).count_eq ((at_ (sortF L).1 i).1)
      have hle := h3 (at_ (sortF L).1 i).1
      rw [← hc] at hle
      obtain ⟨j, rfl⟩ : ∃ j, i = j + 1 := ⟨i - 1, by omega⟩
      set l := (sortF L).1 with hl
      have e1 : l = l.take j ++ at_ l j :: at_ l (j + 1) :: at_ l (j + 2) :: l.drop (j + 3) := by
        have h5 := split_two (l := l) (i := j) (by omega)
        have h6 : l.drop (j + 2) = at_ l (j + 2) :: l.drop (j + 3) := by
          rw [at_, List.getD_eq_getElem _ _ hi', List.drop_eq_getElem_cons hi']
        rw [h6] at h5; exact h5
      have h7 : (at_ l j).1 = (at_ l (j + 1)).1 := by simpa using h4.symm
      have h8 : (at_ l (j + 2)).1 = (at_ l (j + 1)).1 := h1.symm
      have h9 : 3 ≤ ((l.take j ++ at_ l j :: at_ l (j + 1) :: at_ l (j + 2) :: l.drop (j + 3)).map
          Prod.fst).count (at_ l (j + 1)).1 := by
        simp only [List.map_append, List.map_cons, List.count_append, h7, h8, List.count_cons_self]
        omega
      rw [← e1] at h9
      omega
  · have h0 : (sortF L).2 = permSign (argsort L) := if_neg hz
    rw [h0]; exact hs

theorem sortF_nonzero_aux {n : Nat} {L : List Lad} (hL : ∀ l ∈ L, l.1 < n) (h : (sortF L).2 ≠ 0) :
    (((sortF L).2 : ℤ) : ℂ) • fop n (sortF L).1 = fop n L := by
  by_cases hz : zeroCheck (sortF L).1 (List.range ((sortF L).1.length - 1)) = true
  · exact absurd (if_pos hz) h
  · have h0 : (sortF L).2 = permSign (argsort L) := if_neg hz
    rw [h0]; exact sort_permSign n L hL

end Verif.Oper
