import Verif.Tens.Index
import Mathlib.Data.List.Sort
import Mathlib.Algebra.Ring.Basic

/-!
# Lazily permuted tensors (`simulator/bi_arrays.py`)

All dimensions are powers of two, so a multi-index is a list of bit lists and a flat index is one bit list, most
significant bit first.  `shape` holds the base-two logarithms of the dimensions.
-/

namespace Verif.Tens

/-- the number with the given bits, most significant first (row-major flattening of a multi-index) -/
def num (bs : List Bool) : Nat := bs.foldl (fun a b => 2 * a + b.toNat) 0

/-- all bit lists of length `n` in increasing order of their numbers -/
def allBits : Nat → List (List Bool)
  | 0 => [[]]
  | n + 1 => (allBits n).map (false :: ·) ++ (allBits n).map (true :: ·)

/-- contents of a `SparseBiArray` (`nz_indices`, `data`) or of a `DenseBiArray` (`data`, flattened) -/
inductive Data (K : Type) where
  | sparse (l : List (Nat × K))
  | dense (l : List K)
deriving DecidableEq, Repr

/-- `SparseBiArray`, `simulator/bi_arrays.py` 141-232, and `DenseBiArray` 702-732: contents, shape and the logged
permutation `index_bit_permutation`.  Simplified: the multithreading wrapper (threads are joined before use), the sparsity
estimates and the contraction counter are left out. -/
structure Arr (K : Type) where
  data : Data K
  shape : List Nat
  ibp : List Nat
deriving DecidableEq, Repr

variable {K : Type} [CommRing K]

/-- the contents at a flat index: entries with the same index add up (`construct_flat_array`,
`simulator/bi_array_helper.py` 151-169) -/
def rawAt : Data K → Nat → K
  | .sparse l, i => ((l.filter fun x => x.1 = i).map (·.2)).sum
  | .dense l, i => l.getD i 0

/-- a new array from sparse data, `simulator/bi_arrays.py` 178-230 -/
def ofSparse (l : List (Nat × K)) (shape : List Nat) : Arr K := ⟨.sparse l, shape, List.range shape.sum⟩

/-- a new array from dense data, `simulator/bi_arrays.py` 704-732 -/
def ofDense (l : List K) (shape : List Nat) : Arr K := ⟨.dense l, shape, List.range shape.sum⟩

/-- `reshape`, `simulator/bi_arrays.py` 261-271, 753-761; `none` is the exception -/
def reshape (a : Arr K) (shape : List Nat) : Option (Arr K) :=
  if shape.sum = a.shape.sum then some { a with shape := shape } else none

/-- `swapaxes`, `simulator/bi_arrays.py` 274-359, 764-795 -/
def swapaxes (a : Arr K) (i j : Nat) : Arr K :=
  if i = j then a else
  let i' := min i j
  let j' := max i j
  let is := (a.shape.take i').sum
  let ie := is + a.shape.getD i' 0
  let js := (a.shape.take j').sum
  let je := js + a.shape.getD j' 0
  { a with
    ibp := a.ibp.take is ++ (a.ibp.take je).drop js ++ (a.ibp.take js).drop ie ++ (a.ibp.take ie).drop is ++ a.ibp.drop je
    shape := (a.shape.set i' (a.shape.getD j' 0)).set j' (a.shape.getD i' 0) }

/-- `move_index_to_front`, `simulator/bi_arrays.py` 425-446, 798-815 -/
def moveFront (a : Arr K) (k : Nat) : Arr K :=
  if k = 0 then a else
  let s := (a.shape.take k).sum
  let e := s + a.shape.getD k 0
  { a with
    shape := a.shape.getD k 0 :: a.shape.eraseIdx k
    ibp := (a.ibp.take e).drop s ++ a.ibp.take s ++ a.ibp.drop e }

/-- the multi-index read by `np.moveaxis(data, range(len(perm)), perm)` for the result index `bits`: axis `k` of the source
is axis `perm[k]` of the result, `simulator/bi_arrays.py` 888-894 -/
def moveaxis (perm shape : List Nat) (bits : List Bool) : List Bool :=
  let starts := partition ((invertPerm perm).map fun i => shape.getD i 0)
  (List.range perm.length).flatMap fun k => (bits.drop (starts.getD (perm.getD k 0) 0)).take (shape.getD k 0)

/-- `apply_swaps`, `simulator/bi_arrays.py` 362-384 (sparse) and 818-897 (dense, with the merge loop of 864-885) -/
def applySwaps (a : Arr K) : Arr K :=
  if a.ibp = List.range a.shape.sum then a else
  { a with
    ibp := List.range a.shape.sum
    data := match a.data with
      | .sparse l => .sparse (l.map fun x => (permuteAxes a.ibp x.1, x.2))
      | .dense l =>
        let r := mergeLoop a.ibp.length (invertPerm a.ibp) (List.replicate a.ibp.length 1) 1
        .dense ((allBits a.ibp.length).map fun bits => l.getD (num (moveaxis r.1 r.2 bits)) 0) }

/-- `to_array`, `simulator/bi_arrays.py` 555-566, 1073-1075, flattened -/
def toArray (a : Arr K) : List K :=
  let a := applySwaps a
  (List.range (2 ^ a.shape.sum)).map (rawAt a.data)

/-! ### Meaning -/

/-- the index into the stored data for an index into the permuted array: axis `r` of the array is axis `ibp[r]` of the
data -/
def old (ibp : List Nat) (bits : List Bool) : List Bool := (List.range ibp.length).map fun i => bits.getD (ibp.idxOf i) false

/-- the entry of the array at a flat index -/
def val (a : Arr K) (bits : List Bool) : K := rawAt a.data (num (old a.ibp bits))

/-- well-formed arrays -/
structure WF (a : Arr K) : Prop where
  perm : a.ibp.Perm (List.range a.shape.sum)
  data : match a.data with
    | .sparse l => (l.map (·.1)).Nodup ∧ ∀ x ∈ l, x.1 < 2 ^ a.shape.sum
    | .dense l => l.length = 2 ^ a.shape.sum

/-! ### Bits and numbers -/

theorem num_go (bs : List Bool) (a : Nat) : bs.foldl (fun a b => 2 * a + b.toNat) a = a * 2 ^ bs.length + num bs := by
  induction bs generalizing a with
  | nil => simp [num]
  | cons b bs ih =>
    simp only [num, List.foldl_cons, List.length_cons] at ih ⊢
    rw [ih, ih (2 * 0 + b.toNat)]
    rw [pow_succ]
    ring

theorem num_append (a b : List Bool) : num (a ++ b) = num a * 2 ^ b.length + num b := by
  rw [num, List.foldl_append, num_go]
  rfl

theorem num_cons (b : Bool) (bs : List Bool) : num (b :: bs) = b.toNat * 2 ^ bs.length + num bs := by
  have := num_append [b] bs
  simpa [num] using this

theorem num_lt (bs : List Bool) : num bs < 2 ^ bs.length := by
  induction bs with
  | nil => simp [num]
  | cons b bs ih =>
    rw [num_cons, List.length_cons, pow_succ]
    cases b <;> simp <;> omega

theorem num_inj {a b : List Bool} (hl : a.length = b.length) (h : num a = num b) : a = b := by
  induction a generalizing b with
  | nil => cases b with
    | nil => rfl
    | cons => simp at hl
  | cons x a ih =>
    cases b with
    | nil => simp at hl
    | cons y b =>
      simp only [List.length_cons, Nat.add_right_cancel_iff] at hl
      rw [num_cons, num_cons, hl] at h
      have h1 := num_lt a
      have h2 := num_lt b
      rw [hl] at h1
      cases x <;> cases y <;> simp at h <;> try omega
      · rw [ih hl h]
      · rw [ih hl h]

theorem num_bit (bs : List Bool) {r : Nat} (hr : r < bs.length) : (num bs).testBit (bs.length - 1 - r) = bs[r] := by
  induction bs generalizing r with
  | nil => simp at hr
  | cons b bs ih =>
    have h1 := num_lt bs
    rw [num_cons, Nat.mul_comm]
    cases r with
    | zero =>
      simp only [List.length_cons, Nat.add_sub_cancel, Nat.sub_zero, List.getElem_cons_zero]
      rw [Nat.testBit_two_pow_mul_add _ h1]
      cases b <;> simp
    | succ r =>
      have hr' : r < bs.length := by simpa using hr
      rw [Nat.testBit_two_pow_mul_add _ h1]
      have e : (b :: bs).length - 1 - (r + 1) = bs.length - 1 - r := by simp; omega
      rw [e, if_pos (by omega), ih hr']
      simp

theorem num_bit' {bs : List Bool} {n r : Nat} (hn : bs.length = n) (hr : r < n) :
    (num bs).testBit (n - 1 - r) = bs.getD r false := by
  subst hn
  rw [num_bit bs hr, List.getD_eq_getElem _ _ hr]

theorem allBits_length (n : Nat) : (allBits n).length = 2 ^ n := by
  induction n with
  | zero => rfl
  | succ n ih => simp [allBits, ih, pow_succ]; omega

theorem mem_allBits {n : Nat} {b : List Bool} : b ∈ allBits n ↔ b.length = n := by
  induction n generalizing b with
  | zero => simp [allBits, List.length_eq_zero_iff]
  | succ n ih =>
    cases b with
    | nil => simp [allBits]
    | cons x b =>
      simp only [allBits, List.mem_append, List.mem_map, List.length_cons, Nat.add_right_cancel_iff]
      constructor
      · rintro (⟨y, hy, e⟩ | ⟨y, hy, e⟩) <;> (simp at e; exact e.2 ▸ ih.1 hy)
      · intro h
        cases x
        · exact Or.inl ⟨b, ih.2 h, rfl⟩
        · exact Or.inr ⟨b, ih.2 h, rfl⟩

theorem allBits_nodup (n : Nat) : (allBits n).Nodup := by
  induction n with
  | zero => simp [allBits]
  | succ n ih =>
    rw [allBits, List.nodup_append]
    refine ⟨ih.map fun a b h => by simpa using h, ih.map fun a b h => by simpa using h, ?_⟩
    intro a ha b hb e
    obtain ⟨x, _, rfl⟩ := List.mem_map.1 ha
    obtain ⟨y, _, rfl⟩ := List.mem_map.1 hb
    simp at e

theorem allBits_num {n : Nat} {b : List Bool} (h : b.length = n) : (allBits n)[num b]? = some b := by
  induction n generalizing b with
  | zero =>
    obtain rfl := List.length_eq_zero_iff.1 h
    rfl
  | succ n ih =>
    cases b with
    | nil => simp at h
    | cons x b =>
      have h' : b.length = n := by simpa using h
      have hl := num_lt b
      rw [h'] at hl
      rw [allBits, num_cons, h']
      cases x
      · simp only [Bool.toNat_false, Nat.zero_mul, Nat.zero_add]
        rw [List.getElem?_append_left (by simp [allBits_length]; exact hl), List.getElem?_map, ih h']
        rfl
      · simp only [Bool.toNat_true, Nat.one_mul]
        rw [List.getElem?_append_right (by simp [allBits_length]), List.getElem?_map]
        simp only [List.length_map, allBits_length, Nat.add_sub_cancel_left]
        rw [ih h']
        rfl

theorem map_allBits_getD {n : Nat} (f : List Bool → K) {b : List Bool} (h : b.length = n) :
    ((allBits n).map f).getD (num b) 0 = f b := by
  rw [List.getD_eq_getElem?_getD, List.getElem?_map, allBits_num h]
  rfl

theorem old_length (ibp : List Nat) (bits : List Bool) : (old ibp bits).length = ibp.length := by simp [old]

theorem old_range {n : Nat} {bits : List Bool} (h : bits.length = n) : old (List.range n) bits = bits := by
  apply List.ext_getElem
  · simp [old, h]
  · intro i h1 h2
    have hi : i < n := by simpa [old] using h1
    have e : (List.range n).idxOf i = i := by
      have := List.Nodup.idxOf_getElem (xs := List.range n) List.nodup_range i (by simpa using hi)
      simpa using this
    simp only [old, List.length_range, List.getElem_map, List.getElem_range, e]
    rw [List.getD_eq_getElem _ _ h2]

/-- the permuted index of a stored entry -/
theorem permuteAxes_num {ibp : List Nat} (h : ibp.Perm (List.range ibp.length)) {bits : List Bool}
    (hb : bits.length = ibp.length) : permuteAxes ibp (num (old ibp bits)) = num bits := by
  apply Nat.eq_of_testBit_eq
  intro j
  by_cases hj : j < ibp.length
  · have e : j = ibp.length - 1 - (ibp.length - 1 - j) := by omega
    have hr : ibp.length - 1 - j < ibp.length := by omega
    have hlt : ibp[ibp.length - 1 - j] < ibp.length := List.mem_range.1 (h.mem_iff.1 (List.getElem_mem hr))
    rw [e, permuteAxes_bit h _ hr]
    rw [num_bit' (old_length _ _) hlt, num_bit' hb hr, List.getD_eq_getElem _ _ (by rw [old_length]; exact hlt)]
    simp only [old, List.getElem_map, List.getElem_range]
    rw [List.Nodup.idxOf_getElem (h.nodup_iff.2 List.nodup_range)]
  · rw [Nat.testBit_lt_two_pow, Nat.testBit_lt_two_pow]
    · exact lt_of_lt_of_le (num_lt bits) (Nat.pow_le_pow_right (by simp) (by omega))
    · exact lt_of_lt_of_le (permuteAxes_lt h _) (Nat.pow_le_pow_right (by simp) (by omega))

/-- the bits of a number -/
def bitsOf (n i : Nat) : List Bool := (List.range n).map fun r => i.testBit (n - 1 - r)

theorem num_bitsOf {n i : Nat} (h : i < 2 ^ n) : num (bitsOf n i) = i := by
  apply Nat.eq_of_testBit_eq
  intro j
  by_cases hj : j < n
  · have h2 := num_bit (bitsOf n i) (r := n - 1 - j) (by simp [bitsOf]; omega)
    simp only [bitsOf, List.length_map, List.length_range, List.getElem_map, List.getElem_range] at h2
    rw [show n - 1 - (n - 1 - j) = j by omega] at h2
    exact h2
  · rw [Nat.testBit_lt_two_pow, Nat.testBit_lt_two_pow]
    · exact lt_of_lt_of_le h (Nat.pow_le_pow_right (by simp) (by omega))
    · refine lt_of_lt_of_le (num_lt _) (Nat.pow_le_pow_right (by simp) ?_)
      simp [bitsOf]; omega

theorem bitsOf_length (n i : Nat) : (bitsOf n i).length = n := by simp [bitsOf]

/-- the array index of a data index -/
def new (ibp : List Nat) (bits : List Bool) : List Bool := ibp.map fun x => bits.getD x false

theorem old_new {ibp : List Nat} (h : ibp.Perm (List.range ibp.length)) {bits : List Bool} (hb : bits.length = ibp.length) :
    old ibp (new ibp bits) = bits := by
  apply List.ext_getElem
  · simp [old, hb]
  · intro i h1 h2
    have hi : i < ibp.length := by simpa [old] using h1
    have hm : ibp.idxOf i < ibp.length := List.idxOf_lt_length_iff.2 (h.mem_iff.2 (List.mem_range.2 hi))
    simp only [old, new, List.getElem_map, List.getElem_range]
    rw [List.getD_eq_getElem _ _ (by simpa using hm), List.getElem_map, List.getElem_idxOf hm, List.getD_eq_getElem _ _ h2]

theorem permuteAxes_inj {ibp : List Nat} (h : ibp.Perm (List.range ibp.length)) {i j : Nat} (hi : i < 2 ^ ibp.length)
    (hj : j < 2 ^ ibp.length) (e : permuteAxes ibp i = permuteAxes ibp j) : i = j := by
  have key : ∀ k, k < 2 ^ ibp.length → permuteAxes ibp k = num (new ibp (bitsOf ibp.length k)) := by
    intro k hk
    have := permuteAxes_num h (bits := new ibp (bitsOf ibp.length k)) (by simp [new])
    rwa [old_new h (bitsOf_length _ _), num_bitsOf hk] at this
  rw [key i hi, key j hj] at e
  have := num_inj (by simp [new]) e
  have e2 : old ibp (new ibp (bitsOf ibp.length i)) = old ibp (new ibp (bitsOf ibp.length j)) := by rw [this]
  rw [old_new h (bitsOf_length _ _), old_new h (bitsOf_length _ _)] at e2
  rw [← num_bitsOf hi, e2, num_bitsOf hj]

end Verif.Tens
