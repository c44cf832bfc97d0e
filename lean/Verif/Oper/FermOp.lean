import Verif.Oper.Fermion

/-!
Fermionic operators: dictionaries from ladder terms to coefficients
(src/qrisp/operators/fermionic/fermionic_operator.py).
-/

namespace Verif.Oper

section Model
variable {R : Type}

/-- A `FermionicOperator`: the items of its `terms_dict` in insertion order
(fermionic_operator.py lines 66-68). Terms are compared by the hash of index list and creator bits
(fermionic_term.py lines 38-49); hash collisions are not modelled, so keys are compared as lists. -/
abbrev FOp (R : Type) := List (List Lad × R)

/-- `terms_dict.get(t, 0)`. -/
def fget [Zero R] : FOp R → List Lad → R
  | [], _ => 0
  | (s, c) :: d, t => if s = t then c else fget d t

/-- `terms_dict[t] = v`. -/
def fset : FOp R → List Lad → R → FOp R
  | [], t, v => [(t, v)]
  | (s, c) :: d, t, v => if s = t then (s, v) :: d else (s, c) :: fset d t v

/-- `del terms_dict[t]`. -/
def fdel : FOp R → List Lad → FOp R
  | [], _ => []
  | (s, c) :: d, t => if s = t then d else (s, c) :: fdel d t

/-- `t in terms_dict`. -/
def fmem (d : FOp R) (t : List Lad) : Bool := d.any fun p => p.1 = t

variable [CommRing R]

/-- One step of the addition loops: `res[t] = res.get(t, 0) + c`, deleted again if small
(lines 321-324 and 326-329; with `-c` lines 360-363 and 389-392). -/
def fAddTo (small : R → Bool) (d : FOp R) (p : List Lad × R) : FOp R :=
  let v := fget d p.1 + p.2
  if small v then fdel (fset d p.1 v) p.1 else fset d p.1 v

/-- Negated coefficients, used in the subtraction loops. -/
def fneg (a : FOp R) : FOp R := a.map fun p => (p.1, -p.2)

/-- `__add__` (lines 300-332); `__radd__` is the same function (431). Numbers are added as
multiples of the empty term (314-315). -/
def fadd (small : R → Bool) (a b : FOp R) : FOp R :=
  b.foldl (fAddTo small) (a.foldl (fAddTo small) [])

/-- `__sub__` (lines 334-366): `get(t, 0) - c` is `get(t, 0) + (-c)`. -/
def fsub (small : R → Bool) (a b : FOp R) : FOp R :=
  (fneg b).foldl (fAddTo small) (a.foldl (fAddTo small) [])

/-- `__rsub__` (lines 368-400): `other - self`. -/
def frsub (small : R → Bool) (self other : FOp R) : FOp R :=
  other.foldl (fAddTo small) ((fneg self).foldl (fAddTo small) [])

/-- One step of the product loop without deletion (line 426). -/
def fAccTo (d : FOp R) (p : List Lad × R) : FOp R := fset d p.1 (fget d p.1 + p.2)

/-- `__mul__` (lines 402-429); `__rmul__` is the same function (432). -/
def fmul (a b : FOp R) : FOp R :=
  (a.flatMap fun p => b.map fun q => (mulF p.1 q.1, p.2 * q.2)).foldl fAccTo []

/-- Product with a number (lines 416-417). -/
def fscal (x : R) (a : FOp R) : FOp R := fmul a [([], x)]

/-- `dagger` (lines 215-239). -/
def fdagger (conj : R → R) (a : FOp R) : FOp R :=
  a.foldl (fun d p => fset d (dagger p.1) (conj p.2)) []

/-- `hermitize` (lines 241-262): `0.5 * (self + self.dagger())`. -/
def fherm (small : R → Bool) (conj : R → R) (half : R) (a : FOp R) : FOp R :=
  fscal half (fadd small a (fdagger conj a))

/-- One step of `reduce` (lines 137-153); `h` is `assume_hermitian`. -/
def redStep (h : Bool) (d : FOp R) (p : List Lad × R) : FOp R :=
  let s := sortF p.1
  let s' := sortF (dagger p.1)
  let u := if !fmem d s.1 && h && fmem d s'.1 then s' else s
  fset d u.1 ((u.2 : R) * p.2 + fget d u.1)

/-- `reduce` (lines 70-160). `del` says which coefficients are deleted in lines 155-158: zeros of
type int or float, but not complex zeros. -/
def fred (del : R → Bool) (h : Bool) (a : FOp R) : FOp R :=
  (a.foldl (redStep h) []).filter fun p => !del p.2

/-- One pass of the loop of `__eq__` (lines 271-281); `none` is a `KeyError` in line 280. -/
def eqStep [DecidableEq R] (other rother : FOp R) (p : List Lad × R) : Option Bool :=
  if fmem other p.1 then
    if fmem rother p.1 then some (p.2 = fget rother p.1) else none
  else
    let s := sortF (dagger p.1)
    if fmem rother s.1 then some (p.2 = (s.2 : R) * fget rother s.1) else some false

/-- The loop of `__eq__` with its early returns. -/
def eqLoop [DecidableEq R] (other rother : FOp R) : FOp R → Option Bool
  | [] => some true
  | p :: d => match eqStep other rother p with
    | none => none
    | some false => some false
    | some true => eqLoop other rother d

/-- `__eq__` (lines 264-283). -/
def feq [DecidableEq R] (del : R → Bool) (self other : FOp R) : Option Bool :=
  let rself := fred del false self
  let rother := fred del false other
  if rself.length ≠ rother.length then some false else eqLoop other rother rself

/-- `to_qubit_operator` (lines 609-638): `res += coeff * term.to_qubit_term()`, the product being
`QubitOperator.__rmul__` and the sum `QubitOperator.__iadd__`
(src/qrisp/operators/qubit/qubit_operator.py lines 338-398). -/
def fqubit (small : R → Bool) (κ : GI → R) (ord : Term → Term → List Nat) (a : FOp R) : QOp R :=
  a.foldl (fun res p => (mulQ small κ ord ((toQubit ord p.1).map fun q => (q.1, κ q.2))
    [([], p.2)]).foldl (addTo small) res) []

/-- `from_openfermion` (lines 809-858). An openfermion term is a tuple of pairs (index, 1 for
creators and 0 for annihilators) in the order of the operator product; 1 and 0 are Booleans here. -/
def fromOF (h : List (List (Nat × Bool) × R)) : FOp R :=
  h.foldl (fun d p => fset d p.1.reverse p.2) []

/-- `find_minimal_qubit_amount` (lines 860-867). -/
def fqubits (a : FOp R) : Nat :=
  let ind := a.flatMap fun p => p.1.map Prod.fst
  if ind.length = 0 then 0 else ind.foldl max 0 + 1

end Model

/-! ### Specification and lemmas -/

/-- The operator of a dictionary on `n` modes. -/
noncomputable def fomat {R : Type} (φ : R → ℂ) (n : Nat) (d : FOp R) : MatN n :=
  (d.map fun p => φ p.2 • fop n p.1).sum

/-- The keys of the dictionary. -/
def fkeys {R : Type} (d : FOp R) : List (List Lad) := d.map Prod.fst

section Lemmas
variable {R : Type}

theorem fomat_cons (φ : R → ℂ) (n : Nat) (p : List Lad × R) (d : FOp R) :
    fomat φ n (p :: d) = φ p.2 • fop n p.1 + fomat φ n d := by simp [fomat]

theorem fomat_append (φ : R → ℂ) (n : Nat) (d e : FOp R) :
    fomat φ n (d ++ e) = fomat φ n d + fomat φ n e := by simp [fomat]

theorem fmem_iff {d : FOp R} {t : List Lad} : fmem d t = true ↔ t ∈ fkeys d := by
  simp [fmem, fkeys]

variable [CommRing R] (φ : R →+* ℂ) (n : Nat)

theorem fomat_fset (d : FOp R) (t : List Lad) (v : R) :
    fomat φ n (fset d t v) = fomat φ n d + φ (v - fget d t) • fop n t := by
  induction d with
  | nil => simp [fset, fget, fomat]
  | cons p d ih =>
    obtain ⟨u, c⟩ := p
    simp only [fset, fget]
    by_cases hk : u = t
    · rw [if_pos hk, if_pos hk, fomat_cons, fomat_cons, hk, map_sub, sub_smul]
      abel
    · rw [if_neg hk, if_neg hk, fomat_cons, fomat_cons, ih]
      abel

theorem fget_fset (d : FOp R) (t u : List Lad) (v : R) :
    fget (fset d t v) u = if t = u then v else fget d u := by
  induction d with
  | nil => simp [fset, fget]
  | cons p d ih =>
    obtain ⟨s, c⟩ := p
    simp only [fset]
    by_cases hk : s = t
    · subst hk; rw [if_pos rfl]
      by_cases h : s = u <;> simp [fget, h]
    · rw [if_neg hk]; simp only [fget, ih]
      by_cases h : s = u
      · subst h; simp [Ne.symm hk]
      · simp [h]

theorem fomat_fdel (d : FOp R) (t : List Lad) :
    fomat φ n (fdel d t) = fomat φ n d - φ (fget d t) • fop n t := by
  induction d with
  | nil => simp [fdel, fget, fomat]
  | cons p d ih =>
    obtain ⟨u, c⟩ := p
    simp only [fdel, fget]
    by_cases hk : u = t
    · rw [if_pos hk, if_pos hk, fomat_cons, hk]; abel
    · rw [if_neg hk, if_neg hk, fomat_cons, fomat_cons, ih]; abel

theorem fget_not_mem {d : FOp R} {t : List Lad} (h : t ∉ fkeys d) : fget d t = 0 := by
  induction d with
  | nil => rfl
  | cons p d ih =>
    obtain ⟨u, c⟩ := p
    simp only [fkeys, List.map_cons, List.mem_cons, not_or] at h
    rw [fget, if_neg (Ne.symm h.1)]; exact ih h.2

theorem fkeys_fset (d : FOp R) (t : List Lad) (v : R) :
    fkeys (fset d t v) = if t ∈ fkeys d then fkeys d else fkeys d ++ [t] := by
  induction d with
  | nil => simp [fset, fkeys]
  | cons p d ih =>
    obtain ⟨u, c⟩ := p
    simp only [fset]
    by_cases hk : u = t
    · subst hk; simp [fkeys]
    · rw [if_neg hk]
      have : fkeys ((u, c) :: fset d t v) = u :: fkeys (fset d t v) := rfl
      rw [this, ih]
      have e : fkeys ((u, c) :: d) = u :: fkeys d := rfl
      rw [e]
      by_cases h : t ∈ fkeys d
      · simp [h]
      · simp [h, Ne.symm hk]

theorem nodup_fset {d : FOp R} (h : (fkeys d).Nodup) (t : List Lad) (v : R) :
    (fkeys (fset d t v)).Nodup := by
  rw [fkeys_fset]
  split
  · exact h
  · rename_i ht
    exact List.Nodup.append h (List.nodup_singleton _) (by simpa using ht)

theorem fkeys_fdel (d : FOp R) (t : List Lad) : fkeys (fdel d t) = (fkeys d).erase t := by
  induction d with
  | nil => rfl
  | cons p d ih =>
    obtain ⟨u, c⟩ := p
    have e : fkeys ((u, c) :: d) = u :: fkeys d := rfl
    simp only [fdel]
    by_cases hk : u = t
    · subst hk; simp [e]
    · rw [if_neg hk]
      have : fkeys ((u, c) :: fdel d t) = u :: fkeys (fdel d t) := rfl
      rw [this, ih, e, List.erase_cons_tail (by simpa using hk)]

theorem fget_fdel {d : FOp R} (h : (fkeys d).Nodup) (t u : List Lad) :
    fget (fdel d t) u = if t = u then 0 else fget d u := by
  by_cases htu : t = u
  · subst htu
    rw [if_pos rfl]
    apply fget_not_mem
    rw [fkeys_fdel]
    exact h.not_mem_erase
  · rw [if_neg htu]
    clear h
    induction d with
    | nil => rfl
    | cons p d ih =>
      obtain ⟨s, c⟩ := p
      simp only [fdel]
      by_cases hk : s = t
      · subst hk; simp [fget, htu]
      · rw [if_neg hk]; simp only [fget, ih]

theorem nodup_addTo {small : R → Bool} {d : FOp R} (h : (fkeys d).Nodup) (p : List Lad × R) :
    (fkeys (fAddTo small d p)).Nodup := by
  simp only [fAddTo]
  split
  · rw [fkeys_fdel]; exact (nodup_fset h _ _).erase _
  · exact nodup_fset h _ _

theorem nodup_foldl {small : R → Bool} (b : FOp R) {d : FOp R} (h : (fkeys d).Nodup) :
    (fkeys (b.foldl (fAddTo small) d)).Nodup := by
  induction b generalizing d with
  | nil => exact h
  | cons p b ih => exact ih (nodup_addTo h p)

theorem fget_addTo {small : R → Bool} {d : FOp R} (h : (fkeys d).Nodup) (p : List Lad × R)
    (t : List Lad) : fget (fAddTo small d p) t =
      if p.1 = t then (if small (fget d t + p.2) then 0 else fget d t + p.2) else fget d t := by
  simp only [fAddTo]
  by_cases hp : p.1 = t
  · subst hp
    rw [if_pos rfl]
    by_cases hs : small (fget d p.1 + p.2) = true
    · rw [if_pos hs, if_pos hs, fget_fdel (nodup_fset h _ _), if_pos rfl]
    · rw [if_neg hs, if_neg hs, fget_fset, if_pos rfl]
  · rw [if_neg hp]
    split
    · rw [fget_fdel (nodup_fset h _ _), if_neg hp, fget_fset, if_neg hp]
    · rw [fget_fset, if_neg hp]

/-- The coefficients after an addition loop over a dictionary. -/
theorem fget_foldl {small : R → Bool} (b : FOp R) (hb : (fkeys b).Nodup) {d : FOp R}
    (h : (fkeys d).Nodup) (t : List Lad) : fget (b.foldl (fAddTo small) d) t =
      if t ∈ fkeys b then (if small (fget d t + fget b t) then 0 else fget d t + fget b t)
      else fget d t := by
  induction b generalizing d with
  | nil => simp [fkeys]
  | cons p b ih =>
    obtain ⟨s, c⟩ := p
    have e : fkeys ((s, c) :: b) = s :: fkeys b := rfl
    rw [e, List.nodup_cons] at hb
    rw [List.foldl_cons, ih hb.2 (nodup_addTo h _), fget_addTo h, e]
    by_cases hs : s = t
    · subst hs
      simp [hb.1, fget]
    · simp only [if_neg hs, List.mem_cons, Ne.symm hs, false_or, fget]

theorem fomat_foldl {small : R → Bool} (hs : ∀ v, small v = true → v = 0) (b d : FOp R) :
    fomat φ n (b.foldl (fAddTo small) d) = fomat φ n d + fomat φ n b := by
  induction b generalizing d with
  | nil => simp [fomat]
  | cons p b ih =>
    rw [List.foldl_cons, ih, fomat_cons, ← add_assoc]
    congr 1
    simp only [fAddTo]
    split
    · rename_i h
      have h0 := hs _ h
      rw [fomat_fdel, fomat_fset, fget_fset, if_pos rfl, h0]
      have : φ p.2 = -φ (fget d p.1) := by
        rw [← map_neg]; congr 1; exact eq_neg_of_add_eq_zero_right h0
      simp [this]
    · rw [fomat_fset]; simp

theorem fomat_neg (a : FOp R) : fomat φ n (fneg a) = -fomat φ n a := by
  induction a with
  | nil => simp [fneg, fomat]
  | cons p a ih =>
    have : fneg (p :: a) = (p.1, -p.2) :: fneg a := rfl
    rw [this, fomat_cons, fomat_cons, ih]; simp; abel

theorem fomat_acc (b d : FOp R) : fomat φ n (b.foldl fAccTo d) = fomat φ n d + fomat φ n b := by
  induction b generalizing d with
  | nil => simp [fomat]
  | cons p b ih =>
    rw [List.foldl_cons, ih, fomat_cons, ← add_assoc, fAccTo, fomat_fset]; simp

theorem fomat_mul (a b : FOp R) : fomat φ n (fmul a b) = fomat φ n a * fomat φ n b := by
  rw [fmul, fomat_acc]
  have h0 : fomat φ n ([] : FOp R) = 0 := rfl
  rw [h0, zero_add]
  induction a with
  | nil => simp [fomat]
  | cons p a ih =>
    rw [List.flatMap_cons, fomat_append, ih, fomat_cons, add_mul]
    congr 1
    clear ih
    induction b with
    | nil => simp [fomat]
    | cons q b ih =>
      rw [List.map_cons, fomat_cons, ih, fomat_cons, mul_add]
      congr 1
      rw [mulF, fop_append, map_mul, Matrix.smul_mul, Matrix.mul_smul, smul_smul]

theorem dagger_inj {s t : List Lad} (h : dagger s = dagger t) : s = t := by
  have hd : ∀ u : List Lad, dagger (dagger u) = u := by
    intro u
    rw [dagger, dagger, ← List.map_reverse, List.reverse_reverse, List.map_map]
    conv_rhs => rw [← List.map_id u]
    congr 1; funext l; simp
  rw [← hd s, h, hd]

theorem fomat_setAll (f : List Lad → List Lad) (hf : ∀ s t, f s = f t → s = t) (g : R → R)
    (a : FOp R) (ha : (fkeys a).Nodup) (d : FOp R) (hd : ∀ t ∈ fkeys a, f t ∉ fkeys d) :
    a.foldl (fun d p => fset d (f p.1) (g p.2)) d = d ++ a.map fun p => (f p.1, g p.2) := by
  induction a generalizing d with
  | nil => simp
  | cons p a ih =>
    have e : fkeys (p :: a) = p.1 :: fkeys a := rfl
    rw [e, List.nodup_cons] at ha
    have hn : fset d (f p.1) (g p.2) = d ++ [(f p.1, g p.2)] := by
      have := hd p.1 (by simp [e])
      clear ih hd
      induction d with
      | nil => rfl
      | cons q d ih =>
        simp only [fkeys, List.map_cons, List.mem_cons, not_or] at this
        rw [fset, if_neg (Ne.symm this.1), ih this.2]; rfl
    rw [List.foldl_cons, hn, ih ha.2]
    · simp
    · intro t ht
      simp only [fkeys, List.map_append, List.mem_append, not_or, List.map_cons, List.map_nil,
        List.mem_singleton]
      refine ⟨hd t (by simp [e, ht]), fun h => ?_⟩
      rw [hf _ _ h] at ht
      exact ha.1 ht

theorem fdagger_eq (conj : R → R) {a : FOp R} (ha : (fkeys a).Nodup) :
    fdagger conj a = a.map fun p => (dagger p.1, conj p.2) := by
  rw [fdagger, fomat_setAll dagger (fun _ _ => dagger_inj) conj a ha [] (by simp [fkeys])]
  simp

theorem fomat_dagger {conj : R → R} (hc : ∀ x, φ (conj x) = star (φ x)) {a : FOp R}
    (ha : (fkeys a).Nodup) : fomat φ n (fdagger conj a) = (fomat φ n a).conjTranspose := by
  rw [fdagger_eq conj ha]
  clear ha
  induction a with
  | nil => simp [fomat]
  | cons p a ih =>
    rw [List.map_cons, fomat_cons, fomat_cons, ih, Matrix.conjTranspose_add,
      Matrix.conjTranspose_smul, hc, fop_dagger]

theorem fomat_filter {del : R → Bool} (hd : ∀ v, del v = true → v = 0) (a : FOp R) :
    fomat φ n (a.filter fun p => !del p.2) = fomat φ n a := by
  induction a with
  | nil => rfl
  | cons p a ih =>
    rw [List.filter_cons, fomat_cons]
    by_cases h : del p.2 = true
    · rw [if_neg (by simp [h]), ih, hd _ h]; simp
    · rw [if_pos (by simp [h]), fomat_cons, ih]

/-- `sort` gives the operator with its sign: every mode occurs at most twice, or the reported sign
is not 0 (C35). -/
def SortGood (L : List Lad) : Prop := (∀ i, (L.map Prod.fst).count i ≤ 2) ∨ (sortF L).2 ≠ 0

theorem sort_op {n : Nat} {L : List Lad} (hL : ∀ l ∈ L, l.1 < n) (h : SortGood L) :
    (((sortF L).2 : ℤ) : ℂ) • fop n (sortF L).1 = fop n L := by
  rcases h with h | h
  · exact sortF_sound_aux hL h
  · exact sortF_nonzero_aux hL h

theorem fomat_redStep (d : FOp R) {p : List Lad × R} (hn : ∀ l ∈ p.1, l.1 < n)
    (hg : SortGood p.1) :
    fomat φ n (redStep false d p) = fomat φ n d + φ p.2 • fop n p.1 := by
  simp only [redStep, Bool.and_false, Bool.false_and, Bool.false_eq_true, if_false]
  rw [fomat_fset]
  congr 1
  rw [add_sub_cancel_right, map_mul, map_intCast, mul_comm, mul_smul, sort_op hn hg]

theorem fomat_red {del : R → Bool} (hd : ∀ v, del v = true → v = 0) {a : FOp R}
    (hn : ∀ p ∈ a, ∀ l ∈ p.1, l.1 < n) (hg : ∀ p ∈ a, SortGood p.1) :
    fomat φ n (fred del false a) = fomat φ n a := by
  rw [fred, fomat_filter φ n hd]
  have : ∀ d : FOp R, fomat φ n (a.foldl (redStep false) d) = fomat φ n d + fomat φ n a := by
    induction a with
    | nil => intro d; simp [fomat]
    | cons p a ih =>
      intro d
      rw [List.foldl_cons, ih (fun q hq => hn q (List.mem_cons_of_mem _ hq))
        (fun q hq => hg q (List.mem_cons_of_mem _ hq)),
        fomat_redStep φ n d (hn p (by simp)) (hg p (by simp)), fomat_cons, add_assoc]
  rw [this]; simp [fomat]

theorem dagger_lt {n : Nat} {L : List Lad} (h : ∀ l ∈ L, l.1 < n) : ∀ l ∈ dagger L, l.1 < n := by
  intro l hl
  obtain ⟨m, hm, rfl⟩ := List.mem_map.1 hl
  exact h m (List.mem_reverse.1 hm)

theorem dagger_count (L : List Lad) (i : Nat) :
    ((dagger L).map Prod.fst).count i = (L.map Prod.fst).count i := by
  have : (dagger L).map Prod.fst = (L.map Prod.fst).reverse := by
    rw [dagger, List.map_map, ← List.map_reverse]; rfl
  rw [this, List.count_reverse]

/-- Merging a term with its adjoint keeps twice the Hermitian part if the coefficient is real. -/
theorem sym_redStep (d : FOp R) {p : List Lad × R} (hn : ∀ l ∈ p.1, l.1 < n)
    (hg : ∀ i, (p.1.map Prod.fst).count i ≤ 2) (hr : star (φ p.2) = φ p.2) :
    fomat φ n (redStep true d p) + (fomat φ n (redStep true d p)).conjTranspose =
      (fomat φ n d + (fomat φ n d).conjTranspose) +
        (φ p.2 • fop n p.1 + (φ p.2 • fop n p.1).conjTranspose) := by
  have h1 : fomat φ n (redStep true d p) = fomat φ n d + φ p.2 • fop n p.1 ∨
      fomat φ n (redStep true d p) = fomat φ n d + φ p.2 • (fop n p.1).conjTranspose := by
    simp only [redStep, Bool.and_true]
    split
    · right
      rw [fomat_fset]
      congr 1
      rw [add_sub_cancel_right, map_mul, map_intCast, mul_comm, mul_smul,
        sort_op (dagger_lt hn) (Or.inl fun i => by rw [dagger_count]; exact hg i), fop_dagger]
    · left
      rw [fomat_fset]
      congr 1
      rw [add_sub_cancel_right, map_mul, map_intCast, mul_comm, mul_smul, sort_op hn (Or.inl hg)]
  rcases h1 with h1 | h1
  · rw [h1, Matrix.conjTranspose_add]; abel
  · rw [h1, Matrix.conjTranspose_add, Matrix.conjTranspose_smul, Matrix.conjTranspose_smul, hr,
      Matrix.conjTranspose_conjTranspose]; abel

theorem sym_red {del : R → Bool} (hd : ∀ v, del v = true → v = 0) {a : FOp R}
    (hn : ∀ p ∈ a, ∀ l ∈ p.1, l.1 < n) (hg : ∀ p ∈ a, ∀ i, (p.1.map Prod.fst).count i ≤ 2)
    (hr : ∀ p ∈ a, star (φ p.2) = φ p.2) :
    fomat φ n (fred del true a) + (fomat φ n (fred del true a)).conjTranspose =
      fomat φ n a + (fomat φ n a).conjTranspose := by
  rw [fred, fomat_filter φ n hd]
  have : ∀ d : FOp R, fomat φ n (a.foldl (redStep true) d) +
      (fomat φ n (a.foldl (redStep true) d)).conjTranspose =
      (fomat φ n d + (fomat φ n d).conjTranspose) + (fomat φ n a + (fomat φ n a).conjTranspose) := by
    induction a with
    | nil => intro d; simp [fomat]
    | cons p a ih =>
      intro d
      rw [List.foldl_cons, ih (fun q hq => hn q (List.mem_cons_of_mem _ hq))
        (fun q hq => hg q (List.mem_cons_of_mem _ hq))
        (fun q hq => hr q (List.mem_cons_of_mem _ hq)),
        sym_redStep φ n d (hn p (by simp)) (hg p (by simp)) (hr p (by simp)), fomat_cons,
        Matrix.conjTranspose_add]
      abel
  rw [this]; simp [fomat]

theorem nodup_red {del : R → Bool} (h : Bool) (a : FOp R) : (fkeys (fred del h a)).Nodup := by
  have h1 : ∀ d : FOp R, (fkeys d).Nodup → (fkeys (a.foldl (redStep h) d)).Nodup := by
    induction a with
    | nil => intro d hd; exact hd
    | cons p a ih => intro d hd; exact ih _ (nodup_fset hd _ _)
  exact ((h1 [] (by simp [fkeys])).sublist ((List.filter_sublist).map Prod.fst))

theorem mem_of_fget {d : FOp R} {t : List Lad} (h : t ∈ fkeys d) : (t, fget d t) ∈ d := by
  induction d with
  | nil => simp [fkeys] at h
  | cons p d ih =>
    obtain ⟨s, c⟩ := p
    rw [fget]
    by_cases hs : s = t
    · subst hs; simp
    · rw [if_neg hs]
      simp only [fkeys, List.map_cons, List.mem_cons] at h
      exact List.mem_cons_of_mem _ (ih (h.resolve_left (Ne.symm hs)))

theorem eqLoop_true [DecidableEq R] {other rother : FOp R} {d : FOp R}
    (h : eqLoop other rother d = some true) : ∀ p ∈ d, eqStep other rother p = some true := by
  induction d with
  | nil => simp
  | cons p d ih =>
    rw [eqLoop] at h
    intro q hq
    split at h
    · simp at h
    · simp at h
    · rename_i hp
      rcases List.mem_cons.1 hq with rfl | hq
      · exact hp
      · exact ih h q hq

/-- If no term takes the branch for adjoints, equality means equal reduced dictionaries. -/
theorem feq_perm [DecidableEq R] {del : R → Bool} {a b : FOp R} (h : feq del a b = some true)
    (hk : ∀ t ∈ fkeys (fred del false a), t ∈ fkeys b) :
    (fred del false a).Perm (fred del false b) := by
  rw [feq] at h
  split at h
  · simp at h
  rename_i hlen
  push Not at hlen
  have hsub : fred del false a ⊆ fred del false b := by
    intro p hp
    have h1 := eqLoop_true h p hp
    have h2 : fmem b p.1 = true := fmem_iff.2 (hk p.1 (List.mem_map_of_mem hp))
    rw [eqStep, if_pos h2] at h1
    split at h1
    · rename_i h3
      have h4 := mem_of_fget (fmem_iff.1 h3)
      have h5 : p.2 = fget (fred del false b) p.1 := by simpa using h1
      rw [← h5] at h4; exact h4
    · simp at h1
  have hnd : (fred del false a).Nodup := List.Nodup.of_map _ (nodup_red false a)
  exact (List.subperm_of_subset hnd hsub).perm_of_length_le hlen.ge

omit [CommRing R] in
theorem fomat_perm (φ : R → ℂ) (n : Nat) {a b : FOp R} (h : a.Perm b) : fomat φ n a = fomat φ n b :=
  (h.map _).sum_eq

/-! ### The qubit operator -/

theorem omat_map (κ : GI → R) (hκ : ∀ x, φ (κ x) = toC x) (d : QOp GI) :
    omat φ n (d.map fun q => (q.1, κ q.2)) = omat toC n d := by
  rw [omat, omat, List.map_map]
  congr 2
  funext q; simp [hκ]

theorem below_toQubit {ord : Term → Term → List Nat} (ho : OrdOK ord) {n : Nat} {L : List Lad}
    (hL : ∀ l ∈ L, l.1 < n) : Below n (toQubit ord L) := by
  have : ∀ res : QOp GI, Below n res → Below n (jwLoop ord L res) := by
    induction L with
    | nil => intro res h; exact h
    | cons l L ih =>
      intro res h
      exact ih (fun l hl => hL l (List.mem_cons_of_mem _ hl)) _
        (below_mulQ ho (jwLad_ok ho (hL l (by simp))).1 h)
  exact this _ below_one

theorem omat_mul_exact {small : R → Bool} (hs : ∀ v, small v = true → v = 0) {κ : GI → R}
    (hκ : ∀ x, φ (κ x) = toC x) {ord : Term → Term → List Nat} (ho : OrdOK ord) {a b : QOp R}
    (ha : Below n a) (hb : Below n b) :
    omat φ n (mulQ small κ ord a b) = omat φ n a * omat φ n b := by
  have hs' : ∀ v, small v = true → ‖φ v‖ ≤ 0 := by
    intro v hv
    simp [hs v hv]
  have h1 := near_filter φ n le_rfl hs' ((prods κ ord a b).foldl accTo [])
  rw [mul_zero] at h1
  rw [mulQ, h1.zero, omat_acc, omat_nil, zero_add]
  apply omat_prods φ n hκ
  intro p hp q hq
  refine ⟨ho _ _, fun k hk => ?_⟩
  rcases ((ho p.1 q.1).2 k).1 hk with h | h
  · exact ha p hp k h
  · exact hb q hq k h

theorem omat_fqubit {small : R → Bool} (hs : ∀ v, small v = true → v = 0) {κ : GI → R}
    (hκ : ∀ x, φ (κ x) = toC x) {ord : Term → Term → List Nat} (ho : OrdOK ord) {a : FOp R}
    (hn : ∀ p ∈ a, ∀ l ∈ p.1, l.1 < n) :
    omat φ n (fqubit small κ ord a) = fomat φ n a := by
  have hs' : ∀ v, small v = true → ‖φ v‖ ≤ 0 := by
    intro v hv
    simp [hs v hv]
  have : ∀ res : QOp R, omat φ n (a.foldl (fun res p => (mulQ small κ ord
      ((toQubit ord p.1).map fun q => (q.1, κ q.2)) [([], p.2)]).foldl (addTo small) res) res) =
      omat φ n res + fomat φ n a := by
    induction a with
    | nil => intro res; simp [fomat]
    | cons p a ih =>
      intro res
      rw [List.foldl_cons, ih (fun q hq => hn q (List.mem_cons_of_mem _ hq)), fomat_cons,
        ← add_assoc]
      congr 1
      have h1 := near_foldl φ n le_rfl hs' (mulQ small κ ord
        ((toQubit ord p.1).map fun q => (q.1, κ q.2)) [([], p.2)]) res
      rw [mul_zero] at h1
      rw [h1.zero]
      congr 1
      have hb : Below n ((toQubit ord p.1).map fun q => (q.1, κ q.2)) := by
        intro q hq k hk
        obtain ⟨q', hq', rfl⟩ := List.mem_map.1 hq
        exact below_toQubit ho (hn p (by simp)) q' hq' k hk
      rw [omat_mul_exact φ n hs hκ ho hb (by
        intro q hq k hk; rw [List.mem_singleton.1 hq] at hk; simp [Term.keys] at hk),
        omat_map φ n κ hκ, toQubit_ok ho p.1 (hn p (by simp))]
      simp [omat, tmat_nil]
  rw [fqubit, this, omat_nil, zero_add]

end Lemmas

end Verif.Oper
