import Verif.Tens.Mul

/-!
# Contractions (`contract` and `tensordot` of `simulator/bi_arrays.py`)
-/

namespace Verif.Tens

set_option linter.unusedSectionVars false

variable {K : Type} [CommRing K] [DecidableEq K]

/-- moving the contracted axes to the front one by one; axes in front of the moved one are counted up,
`simulator/bi_arrays.py` 484-493, 496-501 (921-938 for dense arrays) -/
def moveAllN : Nat → List Nat → Arr K → Arr K
  | _, [], a => a
  | 0, _ :: _, a => a
  | n + 1, k :: ks, a => moveAllN n (ks.map fun j => if k > j then j + 1 else j) (moveFront a k)

/-- the whole loop (the number is the number of axes left) -/
def moveAll (ks : List Nat) (a : Arr K) : Arr K := moveAllN ks.length ks a

/-- the sparse contents -/
def sp : Data K → List (Nat × K)
  | .sparse l => l
  | .dense _ => []

/-- the dense contents -/
def dn : Data K → List K
  | .sparse _ => []
  | .dense l => l

/-- whether an array is a `SparseBiArray` -/
def isSparse : Data K → Bool
  | .sparse _ => true
  | .dense _ => false

/-- `contract`, `simulator/bi_arrays.py` 471-552 (sparse) and 908-1018 (dense); `none` is the exception for different sizes (and
a mixed call, which `tensordot` never makes).  `np.matmul` is the exact matrix product; the random cutoff of large dense results
(1003-1009) is left out. -/
def contract (own : Bool) (a b : Arr K) (axa axb : List Nat) : Option (Arr K) :=
  let cs := (axa.map fun i => a.shape.getD i 0).sum
  if cs ≠ (axb.map fun i => b.shape.getD i 0).sum then none else
  let a := moveAll axa a
  let b := moveAll axb b
  let shape := a.shape.drop axa.length ++ b.shape.drop axb.length
  let ra := a.shape.sum - cs
  let cb := b.shape.sum - cs
  match isSparse a.data, isSparse b.data with
  | true, true =>
    some (ofSparse (flatCoords cb (sparseMul own ra cs cb (transp (coords ra (sp (applySwaps a).data)))
      (coords cb (sp (applySwaps b).data)))) shape)
  | false, false =>
    let x := dn (applySwaps (swapaxes { a with shape := [cs, ra] } 0 1)).data
    let y := dn (applySwaps { b with shape := [cs, cb] }).data
    some (ofDense ((List.range (2 ^ ra)).flatMap fun i => (List.range (2 ^ cb)).map fun j =>
      ((List.range (2 ^ cs)).map fun k => x.getD (i * 2 ^ cs + k) 0 * y.getD (k * 2 ^ cb + j) 0).sum) shape)
  | _, _ => none

/-- `to_dense`, `simulator/bi_arrays.py` 677-692, 1078-1079 -/
def toDense (a : Arr K) : Arr K := if isSparse a.data then ofDense (toArray a) a.shape else a

/-- `to_sparse`, `simulator/bi_arrays.py` 694-695, 1082-1108 -/
def toSparse (a : Arr K) : Arr K :=
  if isSparse a.data then a
  else ofSparse ((List.range (2 ^ a.shape.sum)).filterMap fun i =>
    let v := (dn (applySwaps a).data).getD i 0
    if v = 0 then none else some (i, v)) a.shape

/-- the case without contracted axes of `tensordot`, `simulator/bi_arrays.py` 1224-1294 -/
def outer (a b : Arr K) : Option (Arr K) :=
  match isSparse a.data, isSparse b.data with
  | true, true =>
    some (ofSparse ((sp (applySwaps a).data).flatMap fun x => (sp (applySwaps b).data).map fun y =>
      (2 ^ b.shape.sum * x.1 + y.1, x.2 * y.2)) (a.shape ++ b.shape))
  | false, false =>
    some (ofDense ((dn (applySwaps a).data).flatMap fun x => (dn (applySwaps b).data).map fun y => x * y) (a.shape ++ b.shape))
  | _, _ => none

/-- what the sparsity estimates decide: dense or sparse contraction (`simulator/bi_arrays.py` 1210-1221), own or scipy
multiplication (`bi_array_helper.py` 609-612) -/
structure Choice where
  dense : Bool
  own : Bool

/-- `tensordot`, `simulator/bi_arrays.py` 1175-1296, for numerical entries -/
def tensordot (ch : Choice) (a b : Arr K) (axa axb : List Nat) : Option (Arr K) :=
  let a := if ch.dense then toDense a else toSparse a
  let b := if ch.dense then toDense b else toSparse b
  if axa = [] then outer a b else contract ch.own a b axa axb

/-! ### Numbers -/

theorem rawAt_sparse (l : List (Nat × K)) (i : Nat) :
    rawAt (.sparse l) i = (l.map fun x => if x.1 = i then x.2 else 0).sum := by
  simp only [rawAt]
  induction l with
  | nil => rfl
  | cons x l ih =>
    by_cases h : x.1 = i
    · rw [List.filter_cons_of_pos (by simpa using h)]
      simp [ih, h]
    · rw [List.filter_cons_of_neg (by simpa using h)]
      simp [ih, h]

theorem shift_and_iff {i c r q : Nat} (hq : q < 2 ^ c) : (i >>> c = r ∧ i &&& ((1 <<< c) - 1) = q) ↔ i = r * 2 ^ c + q := by
  rw [Nat.one_shiftLeft, Nat.and_two_pow_sub_one_eq_mod, Nat.shiftRight_eq_div_pow]
  have hp : 0 < 2 ^ c := by exact Nat.two_pow_pos _
  constructor
  · rintro ⟨h1, h2⟩
    rw [← h1, ← h2]
    have := Nat.div_add_mod i (2 ^ c)
    rw [Nat.mul_comm] at this
    exact this.symm
  · rintro rfl
    constructor
    · rw [Nat.mul_comm, Nat.mul_add_div hp, Nat.div_eq_of_lt hq]; omega
    · rw [Nat.mul_comm, Nat.mul_add_mod, Nat.mod_eq_of_lt hq]

theorem or_shift {r c q : Nat} (hq : q < 2 ^ c) : (r <<< c) ||| q = r * 2 ^ c + q := by
  rw [Nat.shiftLeft_eq, Nat.mul_comm, ← Nat.two_pow_add_eq_or_of_lt hq]

theorem entry_coords (c : Nat) (l : List (Nat × K)) (k x : List Bool) (hx : x.length = c) :
    entry (coords c l) (num k) (num x) = rawAt (.sparse l) (num (k ++ x)) := by
  rw [rawAt_sparse, entry, coords, List.map_map]
  congr 1
  apply List.map_congr_left
  intro y _
  simp only [Function.comp_apply]
  have h := num_lt x
  rw [hx] at h
  rw [num_append, hx]
  by_cases e : y.1 = num k * 2 ^ c + num x
  · rw [if_pos e, if_pos ((shift_and_iff h).2 e)]
  · rw [if_neg e, if_neg fun e' => e ((shift_and_iff h).1 e')]

theorem coords_good {r c : Nat} {l : List (Nat × K)} (hn : (l.map (·.1)).Nodup) (hb : ∀ x ∈ l, x.1 < 2 ^ (r + c)) :
    Good r c (coords c l) := by
  refine ⟨?_, ?_, ?_⟩
  · intro x hx
    obtain ⟨y, hy, rfl⟩ := List.mem_map.1 hx
    simp only [Nat.shiftRight_eq_div_pow]
    rw [Nat.div_lt_iff_lt_mul (by exact Nat.two_pow_pos _), ← pow_add]
    exact hb y hy
  · intro x hx
    obtain ⟨y, hy, rfl⟩ := List.mem_map.1 hx
    simp only [Nat.one_shiftLeft, Nat.and_two_pow_sub_one_eq_mod]
    exact Nat.mod_lt _ (by exact Nat.two_pow_pos _)
  · have : (coords c l).map (fun x => (x.1, x.2.1)) = (l.map (·.1)).map fun i => (i >>> c, i &&& ((1 <<< c) - 1)) := by
      simp [coords]
    rw [this]
    apply hn.map
    intro i j h
    simp only [Prod.mk.injEq] at h
    have hlt : j &&& ((1 <<< c) - 1) < 2 ^ c := by
      rw [Nat.one_shiftLeft, Nat.and_two_pow_sub_one_eq_mod]; exact Nat.mod_lt _ (by exact Nat.two_pow_pos _)
    have h1 := (shift_and_iff hlt).1 h
    have h2 := (shift_and_iff hlt).1 ⟨(rfl : j >>> c = j >>> c), rfl⟩
    rw [h1, ← h2]

theorem rawAt_flatCoords {r c : Nat} {m : Coo K} (hm : Good r c m) {x y : List Bool} (hy : y.length = c) :
    rawAt (.sparse (flatCoords c m)) (num (x ++ y)) = entry m (num x) (num y) := by
  rw [rawAt_sparse, entry, flatCoords, List.map_map]
  congr 1
  apply List.map_congr_left
  intro z hz
  simp only [Function.comp_apply]
  have h := num_lt y
  rw [hy] at h
  have hz' := hm.col z hz
  rw [num_append, hy, or_shift hz']
  have hp : 0 < 2 ^ c := by exact Nat.two_pow_pos _
  by_cases e : z.1 = num x ∧ z.2.1 = num y
  · rw [if_pos e, if_pos (by rw [e.1, e.2])]
  · rw [if_neg e, if_neg]
    intro e'
    have h1 := (shift_and_iff hz').2 (rfl : z.1 * 2 ^ c + z.2.1 = z.1 * 2 ^ c + z.2.1)
    have h2 := (shift_and_iff h).2 e'
    exact e ⟨h1.1.symm.trans h2.1, h1.2.symm.trans h2.2⟩

theorem flatCoords_ok {r c : Nat} {m : Coo K} (hm : Good r c m) :
    ((flatCoords c m).map (·.1)).Nodup ∧ ∀ x ∈ flatCoords c m, x.1 < 2 ^ (r + c) := by
  constructor
  · have : (flatCoords c m).map (·.1) = (m.map fun x => (x.1, x.2.1)).map fun p => (p.1 <<< c) ||| p.2 := by simp [flatCoords]
    rw [this]
    apply List.Nodup.map_on _ hm.nodup
    intro p hp q hq e
    obtain ⟨y, hy, rfl⟩ := List.mem_map.1 hp
    obtain ⟨z, hz, rfl⟩ := List.mem_map.1 hq
    simp only at e
    rw [or_shift (hm.col y hy), or_shift (hm.col z hz)] at e
    have h1 := (shift_and_iff (hm.col y hy)).2 (rfl : y.1 * 2 ^ c + y.2.1 = y.1 * 2 ^ c + y.2.1)
    have h2 := (shift_and_iff (hm.col z hz)).2 e
    exact Prod.ext (h1.1.symm.trans h2.1) (h1.2.symm.trans h2.2)
  · intro x hx
    obtain ⟨y, hy, rfl⟩ := List.mem_map.1 hx
    simp only
    rw [or_shift (hm.col y hy), pow_add]
    have h1 := hm.row y hy
    have h2 := hm.col y hy
    calc y.1 * 2 ^ c + y.2.1 < y.1 * 2 ^ c + 2 ^ c := by omega
      _ = (y.1 + 1) * 2 ^ c := by ring
      _ ≤ 2 ^ r * 2 ^ c := Nat.mul_le_mul_right _ h1

theorem allBits_range (n : Nat) : (allBits n).map num = List.range (2 ^ n) := by
  apply List.ext_getElem
  · simp [allBits_length]
  · intro i h1 h2
    have hi : i < 2 ^ n := by simpa using h2
    have e := allBits_num (bitsOf_length n i)
    rw [num_bitsOf hi] at e
    have : (allBits n)[i]'(by simpa using h1) = bitsOf n i := by
      rw [List.getElem?_eq_some_iff] at e
      exact e.2
    simp only [List.getElem_map, List.getElem_range, this, num_bitsOf hi]

theorem sum_range_bits (n : Nat) (f : Nat → K) : ((List.range (2 ^ n)).map f).sum = ((allBits n).map fun k => f (num k)).sum := by
  rw [← allBits_range, List.map_map]
  rfl

theorem allBits_append (a b : Nat) : allBits (a + b) = (allBits a).flatMap fun x => (allBits b).map (x ++ ·) := by
  induction a with
  | zero => simp [allBits]
  | succ a ih =>
    rw [Nat.succ_add, allBits, ih, allBits, List.flatMap_append, List.flatMap_map, List.flatMap_map, List.map_flatMap,
      List.map_flatMap]
    simp [Function.comp_def]

theorem sum_allBits_append (a b : Nat) (f : List Bool → K) :
    ((allBits (a + b)).map f).sum = ((allBits a).map fun x => ((allBits b).map fun y => f (x ++ y)).sum).sum := by
  rw [allBits_append, List.map_flatMap]
  induction allBits a with
  | nil => simp
  | cons x l ih => rw [List.flatMap_cons, List.sum_append, ih, List.map_cons, List.sum_cons, List.map_map]; rfl

/-! ### The values of stored contents -/

theorem isSparse_applySwaps (a : Arr K) : isSparse (applySwaps a).data = isSparse a.data := by
  unfold applySwaps
  split
  · rfl
  · cases a.data <;> rfl

theorem sparse_val {a : Arr K} (h : WF a) (hs : isSparse a.data = true) {bits : List Bool} (hb : bits.length = a.shape.sum) :
    val a bits = rawAt (.sparse (sp (applySwaps a).data)) (num bits) := by
  have h1 : isSparse (applySwaps a).data = true := by rw [isSparse_applySwaps, hs]
  rw [← val_applySwaps h hb, val, applySwaps_ibp, old_range hb]
  cases hd : (applySwaps a).data with
  | sparse l => rfl
  | dense l => rw [hd] at h1; simp [isSparse] at h1

theorem sparse_wf {a : Arr K} (h : WF a) (hs : isSparse a.data = true) :
    ((sp (applySwaps a).data).map (·.1)).Nodup ∧ ∀ x ∈ sp (applySwaps a).data, x.1 < 2 ^ a.shape.sum := by
  have h1 : isSparse (applySwaps a).data = true := by rw [isSparse_applySwaps, hs]
  have hw := (wf_applySwaps h).data
  rw [applySwaps_shape] at hw
  cases hd : (applySwaps a).data with
  | sparse l => rw [hd] at hw; exact hw
  | dense l => rw [hd] at h1; simp [isSparse] at h1

theorem dense_val {a : Arr K} (h : WF a) (hs : isSparse a.data = false) {bits : List Bool} (hb : bits.length = a.shape.sum) :
    val a bits = (dn (applySwaps a).data).getD (num bits) 0 := by
  have h1 : isSparse (applySwaps a).data = false := by rw [isSparse_applySwaps, hs]
  rw [← val_applySwaps h hb, val, applySwaps_ibp, old_range hb]
  cases hd : (applySwaps a).data with
  | dense l => rfl
  | sparse l => rw [hd] at h1; simp [isSparse] at h1

theorem dense_wf {a : Arr K} (h : WF a) (hs : isSparse a.data = false) : (dn (applySwaps a).data).length = 2 ^ a.shape.sum := by
  have h1 : isSparse (applySwaps a).data = false := by rw [isSparse_applySwaps, hs]
  have hw := (wf_applySwaps h).data
  rw [applySwaps_shape] at hw
  cases hd : (applySwaps a).data with
  | dense l => rw [hd] at hw; exact hw
  | sparse l => rw [hd] at h1; simp [isSparse] at h1

theorem dense_list {a : Arr K} (h : WF a) (hs : isSparse a.data = false) : dn (applySwaps a).data = (allBits a.shape.sum).map (val a) := by
  apply List.ext_getElem
  · rw [dense_wf h hs]; simp [allBits_length]
  · intro i h1 h2
    have hi : i < 2 ^ a.shape.sum := by rw [dense_wf h hs] at h1; exact h1
    have e := dense_val h hs (bitsOf_length a.shape.sum i)
    have e2 := map_allBits_getD (val a) (bitsOf_length a.shape.sum i)
    rw [num_bitsOf hi] at e e2
    rw [List.getD_eq_getElem _ _ h1] at e
    rw [List.getD_eq_getElem _ _ h2] at e2
    rw [← e, e2]

theorem ofSparse_wf {l : List (Nat × K)} {shape : List Nat} (h1 : (l.map (·.1)).Nodup) (h2 : ∀ x ∈ l, x.1 < 2 ^ shape.sum) :
    WF (ofSparse l shape) := ⟨List.Perm.refl _, h1, h2⟩

theorem ofDense_wf {l : List K} {shape : List Nat} (h : l.length = 2 ^ shape.sum) : WF (ofDense l shape) := ⟨List.Perm.refl _, h⟩

theorem ofSparse_val (l : List (Nat × K)) {shape : List Nat} {bits : List Bool} (hb : bits.length = shape.sum) :
    val (ofSparse l shape) bits = rawAt (.sparse l) (num bits) := by simp [val, ofSparse, old_range hb]

theorem ofDense_val (l : List K) {shape : List Nat} {bits : List Bool} (hb : bits.length = shape.sum) :
    val (ofDense l shape) bits = l.getD (num bits) 0 := by simp [val, ofDense, old_range hb, rawAt]

theorem toDense_ok {a : Arr K} (h : WF a) : WF (toDense a) ∧ (toDense a).shape = a.shape ∧ isSparse (toDense a).data = false ∧
    ∀ bits : List Bool, bits.length = a.shape.sum → val (toDense a) bits = val a bits := by
  unfold toDense
  by_cases hs : isSparse a.data = true
  · rw [if_pos hs]
    refine ⟨ofDense_wf (by simp [toArray, applySwaps_shape]), rfl, rfl, ?_⟩
    intro bits hb
    rw [ofDense_val _ hb, toArray_val h, map_allBits_getD _ hb]
  · rw [if_neg hs]
    exact ⟨h, rfl, by simpa using hs, fun _ _ => rfl⟩

theorem toSparse_ok {a : Arr K} (h : WF a) : WF (toSparse a) ∧ (toSparse a).shape = a.shape ∧ isSparse (toSparse a).data = true ∧
    ∀ bits : List Bool, bits.length = a.shape.sum → val (toSparse a) bits = val a bits := by
  unfold toSparse
  by_cases hs : isSparse a.data = true
  · rw [if_pos hs]
    exact ⟨h, rfl, hs, fun _ _ => rfl⟩
  · rw [if_neg hs]
    have hs' : isSparse a.data = false := by simpa using hs
    have key : ∀ (n : Nat) (f : Nat → K), let l := (List.range n).filterMap fun i => if f i = 0 then none else some (i, f i)
        (l.map (·.1)).Sublist (List.range n) ∧ ∀ j, j < n → rawAt (.sparse l) j = f j := by
      intro n f
      induction n with
      | zero => exact ⟨by simp, fun j hj => by omega⟩
      | succ n ih =>
        obtain ⟨i1, i2⟩ := ih
        simp only [List.range_succ, List.filterMap_append, List.filterMap_cons, List.filterMap_nil] at i1 i2 ⊢
        have hz : rawAt (.sparse ((List.range n).filterMap fun i => if f i = 0 then none else some (i, f i))) n = 0 := by
          rw [rawAt_sparse]
          apply sum_zero_of
          intro x hx
          have : x.1 ∈ List.range n := i1.subset (List.mem_map_of_mem hx)
          rw [List.mem_range] at this
          rw [if_neg (by omega)]
        have hadd : ∀ (l l' : List (Nat × K)) (j : Nat), rawAt (.sparse (l ++ l')) j = rawAt (.sparse l) j + rawAt (.sparse l') j := by
          intro l l' j
          simp [rawAt_sparse]
        constructor
        · rw [List.map_append]
          apply List.Sublist.append i1
          by_cases h : f n = 0 <;> simp [h]
        · intro j hj
          rw [hadd]
          by_cases hjn : j = n
          · subst hjn
            rw [hz]
            by_cases h : f j = 0 <;> simp [h, rawAt_sparse]
          · rw [i2 j (by omega)]
            by_cases h : f n = 0 <;> simp [h, rawAt_sparse, Ne.symm hjn]
    obtain ⟨k1, k2⟩ := key (2 ^ a.shape.sum) fun i => (dn (applySwaps a).data).getD i 0
    refine ⟨ofSparse_wf (k1.nodup List.nodup_range) ?_, rfl, rfl, ?_⟩
    · intro x hx
      exact List.mem_range.1 (k1.subset (List.mem_map_of_mem hx))
    · intro bits hb
      have hlt := num_lt bits
      rw [hb] at hlt
      rw [ofSparse_val _ hb, k2 _ hlt, dense_val h hs' hb]

/-- a table in row-major order -/
theorem table_getD (r c : Nat) (f : Nat → Nat → K) {i j : Nat} (hi : i < 2 ^ r) (hj : j < 2 ^ c) :
    ((List.range (2 ^ r)).flatMap fun i => (List.range (2 ^ c)).map fun j => f i j).getD (i * 2 ^ c + j) 0 = f i j := by
  have e : ((List.range (2 ^ r)).flatMap fun i => (List.range (2 ^ c)).map fun j => f i j)
      = (allBits (r + c)).map fun b => f (num (b.take r)) (num (b.drop r)) := by
    rw [allBits_append, List.map_flatMap, ← allBits_range r, List.flatMap_map]
    apply List.flatMap_congr
    intro x hx
    have hx' := mem_allBits.1 hx
    rw [← allBits_range, List.map_map, List.map_map]
    apply List.map_congr_left
    intro y _
    simp only [Function.comp_apply]
    rw [List.take_left' hx', List.drop_left' hx']
  have hn : i * 2 ^ c + j = num (bitsOf r i ++ bitsOf c j) := by
    rw [num_append, num_bitsOf hi, num_bitsOf hj, bitsOf_length]
  rw [e, hn, map_allBits_getD _ (by simp [bitsOf_length]), List.take_left' (bitsOf_length _ _), List.drop_left' (bitsOf_length _ _),
    num_bitsOf hi, num_bitsOf hj]

theorem outer_ok {a b : Arr K} (ha : WF a) (hb : WF b) (hs : isSparse a.data = isSparse b.data) :
    ∃ c, outer a b = some c ∧ WF c ∧ c.shape = a.shape ++ b.shape ∧ ∀ x y : List Bool, x.length = a.shape.sum →
      y.length = b.shape.sum → val c (x ++ y) = val a x * val b y := by
  unfold outer
  cases h : isSparse a.data with
  | true =>
    have h' : isSparse b.data = true := by rw [← hs, h]
    rw [h']
    obtain ⟨na, ba⟩ := sparse_wf ha h
    obtain ⟨nb, bb⟩ := sparse_wf hb h'
    generalize hA : sp (applySwaps a).data = A at na ba
    generalize hB : sp (applySwaps b).data = B at nb bb
    refine ⟨_, rfl, ofSparse_wf ?_ ?_, rfl, ?_⟩
    · have : (A.flatMap fun x => B.map fun y => (2 ^ b.shape.sum * x.1 + y.1, x.2 * y.2)).map (·.1)
          = ((A.map (·.1)).product (B.map (·.1))).map fun p => 2 ^ b.shape.sum * p.1 + p.2 := by
        simp [List.map_flatMap, List.product, List.flatMap_map, Function.comp_def]
      rw [this]
      apply List.Nodup.map_on _ (na.product nb)
      rintro ⟨p1, p2⟩ hp ⟨q1, q2⟩ hq e
      rw [List.mem_product] at hp hq
      obtain ⟨y, hy, e1⟩ := List.mem_map.1 hp.2
      obtain ⟨z, hz, e2⟩ := List.mem_map.1 hq.2
      have k1 := bb y hy
      have k2 := bb z hz
      simp only at e1 e2 e
      rw [e1] at k1
      rw [e2] at k2
      rw [Nat.mul_comm _ p1, Nat.mul_comm _ q1] at e
      have h1 := (shift_and_iff k1).2 (rfl : p1 * 2 ^ b.shape.sum + p2 = p1 * 2 ^ b.shape.sum + p2)
      have h2 := (shift_and_iff k2).2 e
      exact Prod.ext (h1.1.symm.trans h2.1) (h1.2.symm.trans h2.2)
    · intro z hz
      obtain ⟨x, hx, hz⟩ := List.mem_flatMap.1 hz
      obtain ⟨y, hy, rfl⟩ := List.mem_map.1 hz
      have k1 := ba x hx
      have k2 := bb y hy
      simp only [List.sum_append, pow_add]
      calc 2 ^ b.shape.sum * x.1 + y.1 < 2 ^ b.shape.sum * x.1 + 2 ^ b.shape.sum := by omega
        _ = (x.1 + 1) * 2 ^ b.shape.sum := by ring
        _ ≤ 2 ^ a.shape.sum * 2 ^ b.shape.sum := Nat.mul_le_mul_right _ k1
    · intro x y hx hy
      have hly := num_lt y
      rw [hy] at hly
      rw [ofSparse_val _ (by simp [hx, hy]), sparse_val ha h hx, sparse_val hb h' hy, hA, hB, rawAt_sparse, rawAt_sparse, rawAt_sparse,
        ← List.sum_map_mul_right, num_append, hy]
      clear hA na ba
      induction A with
      | nil => simp
      | cons u A ih =>
        rw [List.flatMap_cons, List.map_append, List.sum_append, ih, List.map_cons, List.sum_cons]
        congr 1
        rw [List.map_map, ← List.sum_map_mul_left]
        congr 1
        apply List.map_congr_left
        intro v hv
        have k2 := bb v hv
        simp only [Function.comp_apply]
        rw [Nat.mul_comm _ u.1]
        by_cases e : u.1 = num x ∧ v.1 = num y
        · rw [if_pos (by rw [e.1, e.2]), if_pos e.1, if_pos e.2]
        · rw [if_neg]
          · by_cases e1 : u.1 = num x
            · rw [if_neg (fun e2 => e ⟨e1, e2⟩)]; ring
            · rw [if_neg e1]; ring
          · intro e'
            have h1 := (shift_and_iff k2).2 (rfl : u.1 * 2 ^ b.shape.sum + v.1 = u.1 * 2 ^ b.shape.sum + v.1)
            have h2 := (shift_and_iff hly).2 e'
            exact e ⟨h1.1.symm.trans h2.1, h1.2.symm.trans h2.2⟩
  | false =>
    have h' : isSparse b.data = false := by rw [← hs, h]
    rw [h']
    refine ⟨_, rfl, ?_, rfl, ?_⟩
    · have e : ((dn (applySwaps a).data).flatMap fun x => (dn (applySwaps b).data).map fun y => x * y)
          = (allBits (a.shape.sum + b.shape.sum)).map fun z => val a (z.take a.shape.sum) * val b (z.drop a.shape.sum) := by
        rw [dense_list ha h, dense_list hb h', allBits_append, List.map_flatMap, List.flatMap_map]
        apply List.flatMap_congr
        intro x hx
        rw [List.map_map, List.map_map]
        apply List.map_congr_left
        intro y _
        simp only [Function.comp_apply]
        rw [List.take_left' (mem_allBits.1 hx), List.drop_left' (mem_allBits.1 hx)]
      apply ofDense_wf
      rw [e]
      simp [allBits_length]
    · intro x y hx hy
      have e : ((dn (applySwaps a).data).flatMap fun x => (dn (applySwaps b).data).map fun y => x * y)
          = (allBits (a.shape.sum + b.shape.sum)).map fun z => val a (z.take a.shape.sum) * val b (z.drop a.shape.sum) := by
        rw [dense_list ha h, dense_list hb h', allBits_append, List.map_flatMap, List.flatMap_map]
        apply List.flatMap_congr
        intro x hx
        rw [List.map_map, List.map_map]
        apply List.map_congr_left
        intro y _
        simp only [Function.comp_apply]
        rw [List.take_left' (mem_allBits.1 hx), List.drop_left' (mem_allBits.1 hx)]
      rw [ofDense_val _ (by simp [hx, hy]), e, map_allBits_getD _ (by simp [hx, hy]), List.take_left' hx, List.drop_left' hx]

/-! ### Moving axes to the front -/

theorem moveAllN_ok (n : Nat) : ∀ (ks : List Nat) (a : Arr K) (lab : List Nat) (s : Nat → Nat) (V : (Nat → List Bool) → K),
    ks.length = n → WF a → lab.Nodup → ks.Nodup → (∀ k ∈ ks, k < lab.length) → a.shape = lab.map s →
    (∀ f : Nat → List Bool, (∀ i ∈ lab, (f i).length = s i) → val a (lab.map f).flatten = V f) →
    let ks' := ks.map fun k => lab.getD k 0
    let lab' := ks'.reverse ++ lab.filter fun i => decide (i ∉ ks')
    WF (moveAllN n ks a) ∧ (moveAllN n ks a).shape = lab'.map s ∧ isSparse (moveAllN n ks a).data = isSparse a.data ∧
      ∀ f : Nat → List Bool, (∀ i ∈ lab, (f i).length = s i) → val (moveAllN n ks a) (lab'.map f).flatten = V f := by
  induction n with
  | zero =>
    intro ks a lab s V hl hw hn hk hb hsh hv
    obtain rfl := List.length_eq_zero_iff.1 hl
    simp only [moveAllN, List.map_nil, List.reverse_nil, List.nil_append, List.not_mem_nil, not_false_eq_true, decide_true,
      List.filter_true]
    exact ⟨hw, hsh, trivial, hv⟩
  | succ n ih =>
    intro ks a lab s V hl hw hn hk hb hsh hv
    obtain _ | ⟨k, ks⟩ := ks
    · simp at hl
    rw [moveAllN]
    have hk1 : k < lab.length := hb k (by simp)
    have hkn : k ∉ ks := (List.nodup_cons.1 hk).1
    have hshl : a.shape.length = lab.length := by rw [hsh, List.length_map]
    obtain ⟨w1, s1, v1⟩ := moveFront_ok hw (k := k) (by rw [hshl]; exact hk1)
    have hg : ∀ j, j < lab.length → lab.getD j 0 = lab.getD j 0 := fun _ _ => rfl
    have hmem : ∀ j, j < lab.length → lab.getD j 0 ∈ lab := by
      intro j hj
      rw [List.getD_eq_getElem _ _ hj]
      exact List.getElem_mem hj
    have hinj : ∀ i j, i < lab.length → j < lab.length → lab.getD i 0 = lab.getD j 0 → i = j := by
      intro i j hi hj e
      rw [List.getD_eq_getElem _ _ hi, List.getD_eq_getElem _ _ hj] at e
      exact (List.Nodup.getElem_inj_iff hn).1 e
    set lab1 := lab.getD k 0 :: lab.eraseIdx k with hlab1
    have hsplit : lab = lab.take k ++ lab.getD k 0 :: lab.drop (k + 1) := by
      rw [List.getD_eq_getElem _ _ hk1, List.cons_getElem_drop_succ, List.take_append_drop]
    have herase : lab.eraseIdx k = lab.take k ++ lab.drop (k + 1) := List.eraseIdx_eq_take_drop_succ ..
    have hperm : lab1.Perm lab := by
      rw [hlab1, herase]
      conv_rhs => rw [hsplit]
      exact List.perm_middle.symm
    have hlen1 : lab1.length = lab.length := hperm.length_eq
    have hn1 : lab1.Nodup := hperm.nodup_iff.2 hn
    have hadj : ∀ j, j < lab.length → j ≠ k → lab1.getD (if k > j then j + 1 else j) 0 = lab.getD j 0 := by
      intro j hj hjk
      by_cases hkj : k > j
      · rw [if_pos hkj, hlab1, List.getD_cons_succ, List.getD_eq_getElem?_getD, List.getElem?_eraseIdx, if_pos hkj,
          ← List.getD_eq_getElem?_getD]
      · rw [if_neg hkj]
        obtain ⟨i, rfl⟩ : ∃ i, j = i + 1 := ⟨j - 1, by omega⟩
        rw [hlab1, List.getD_cons_succ, List.getD_eq_getElem?_getD, List.getElem?_eraseIdx, if_neg (by omega),
          ← List.getD_eq_getElem?_getD]
    have hks : (ks.map fun j => if k > j then j + 1 else j).map (fun k => lab1.getD k 0) = ks.map fun k => lab.getD k 0 := by
      rw [List.map_map]
      apply List.map_congr_left
      intro j hj
      exact hadj j (hb j (by simp [hj])) (fun e => hkn (e ▸ hj))
    have step := ih (ks.map fun j => if k > j then j + 1 else j) (moveFront a k) lab1 s V (by simpa using hl) w1 hn1
      (by
        apply List.Nodup.map_on _ (List.nodup_cons.1 hk).2
        intro x hx y hy e
        have hx' : x ≠ k := fun e => hkn (e ▸ hx)
        have hy' : y ≠ k := fun e => hkn (e ▸ hy)
        split_ifs at e <;> omega)
      (by
        intro j hj
        obtain ⟨i, hi, rfl⟩ := List.mem_map.1 hj
        have := hb i (by simp [hi])
        have hi' : i ≠ k := fun e => hkn (e ▸ hi)
        rw [hlen1]
        split_ifs <;> omega)
      (by
        rw [s1, hsh, hlab1, List.map_cons, List.eraseIdx_map]
        congr 1
        rw [List.getD_eq_getElem _ _ (by simpa using hk1), List.getD_eq_getElem _ _ hk1, List.getElem_map])
      (by
        intro f hf
        rw [← hv f (fun i hi => hf i (hperm.mem_iff.2 hi)), ← v1 (lab.map f)
          (by rw [hsh, List.map_map]; exact List.map_congr_left fun i hi => hf i (hperm.mem_iff.2 hi))]
        rw [hlab1, List.map_cons, List.eraseIdx_map]
        congr 3
        rw [List.getD_eq_getElem _ _ hk1, List.getD_eq_getElem _ _ (by simpa using hk1), List.getElem_map])
    rw [hks] at step
    have hnot : lab.getD k 0 ∉ ks.map fun k => lab.getD k 0 := by
      intro hm
      obtain ⟨j, hj, e⟩ := List.mem_map.1 hm
      have := hinj j k (hb j (by simp [hj])) hk1 e
      exact hkn (this ▸ hj)
    have hlab' : (ks.map fun k => lab.getD k 0).reverse ++ lab1.filter (fun i => decide (i ∉ ks.map fun k => lab.getD k 0))
        = ((k :: ks).map fun k => lab.getD k 0).reverse
          ++ lab.filter (fun i => decide (i ∉ (k :: ks).map fun k => lab.getD k 0)) := by
      rw [List.map_cons, List.reverse_cons, List.append_assoc, List.singleton_append]
      congr 1
      rw [hlab1, List.filter_cons_of_pos (by simpa using hnot)]
      congr 1
      have hnn := hn
      rw [hsplit] at hnn
      rw [List.nodup_append, List.nodup_cons] at hnn
      obtain ⟨-, ⟨n2, -⟩, n3⟩ := hnn
      rw [herase]
      refine Eq.trans ?_ (congrArg (List.filter _) hsplit.symm)
      rw [List.filter_append, List.filter_append, List.filter_cons_of_neg (by simp)]
      congr 1
      · apply List.filter_congr
        intro i hi
        have : i ≠ lab.getD k 0 := n3 i hi _ (by simp)
        simp only [List.map_cons, List.mem_cons, this, false_or]
      · apply List.filter_congr
        intro i hi
        have : i ≠ lab.getD k 0 := fun e => n2 (e ▸ hi)
        simp only [List.map_cons, List.mem_cons, this, false_or]
    dsimp only at step ⊢
    rw [hlab'] at step
    refine ⟨step.1, step.2.1, step.2.2.1.trans ?_, fun f hf => step.2.2.2 f fun i hi => hf i (hperm.mem_iff.1 hi)⟩
    unfold moveFront
    split <;> rfl

/-- the axes that are not contracted, in their order -/
def rest (n : Nat) (axes : List Nat) : List Nat := (List.range n).filter fun i => decide (i ∉ axes)

theorem moveAll_ok {a : Arr K} (h : WF a) {ks : List Nat} (hn : ks.Nodup) (hb : ∀ k ∈ ks, k < a.shape.length) :
    WF (moveAll ks a) ∧ (moveAll ks a).shape = (ks.reverse ++ rest a.shape.length ks).map (a.shape.getD · 0) ∧
      isSparse (moveAll ks a).data = isSparse a.data ∧
      ∀ f : Nat → List Bool, (∀ i < a.shape.length, (f i).length = a.shape.getD i 0) →
        val (moveAll ks a) ((ks.reverse ++ rest a.shape.length ks).map f).flatten = val a ((List.range a.shape.length).map f).flatten := by
  have := moveAllN_ok ks.length ks a (List.range a.shape.length) (a.shape.getD · 0)
    (fun f => val a ((List.range a.shape.length).map f).flatten) rfl h List.nodup_range hn (by simpa using hb)
    (by
      apply List.ext_getElem
      · simp
      · intro i h1 h2
        simp [h1])
    (fun f _ => rfl)
  have e : ks.map (fun k => (List.range a.shape.length).getD k 0) = ks := by
    conv_rhs => rw [← List.map_id ks]
    apply List.map_congr_left
    intro k hk
    rw [List.getD_eq_getElem _ _ (by simpa using hb k hk), List.getElem_range]
    rfl
  rw [e] at this
  refine ⟨this.1, this.2.1, this.2.2.1, fun f hf => this.2.2.2 f fun i hi => hf i (List.mem_range.1 hi)⟩

/-! ### Contraction -/

/-- the product of two arrays whose leading axes are contracted -/
theorem contract_core (own : Bool) {a b : Arr K} (ha : WF a) (hb : WF b) (hs : isSparse a.data = isSparse b.data) {cs ra cb : Nat}
    {shape : List Nat} (hsa : a.shape.sum = cs + ra) (hsb : b.shape.sum = cs + cb) (hsh : shape.sum = ra + cb) :
    ∃ c, (match isSparse a.data, isSparse b.data with
      | true, true =>
        some (ofSparse (flatCoords cb (sparseMul own ra cs cb (transp (coords ra (sp (applySwaps a).data)))
          (coords cb (sp (applySwaps b).data)))) shape)
      | false, false =>
        let x := dn (applySwaps (swapaxes { a with shape := [cs, ra] } 0 1)).data
        let y := dn (applySwaps { b with shape := [cs, cb] }).data
        some (ofDense ((List.range (2 ^ ra)).flatMap fun i => (List.range (2 ^ cb)).map fun j =>
          ((List.range (2 ^ cs)).map fun k => x.getD (i * 2 ^ cs + k) 0 * y.getD (k * 2 ^ cb + j) 0).sum) shape)
      | _, _ => none) = some c ∧ WF c ∧ c.shape = shape ∧ ∀ x y : List Bool, x.length = ra → y.length = cb →
        val c (x ++ y) = ((allBits cs).map fun k => val a (k ++ x) * val b (k ++ y)).sum := by
  cases h : isSparse a.data with
  | true =>
    have h' : isSparse b.data = true := by rw [← hs, h]
    rw [h']
    obtain ⟨na, ba⟩ := sparse_wf ha h
    obtain ⟨nb, bb⟩ := sparse_wf hb h'
    rw [hsa] at ba
    rw [hsb] at bb
    have ga := (coords_good na ba).transp
    have gb := coords_good nb bb
    have gc := sparseMul_good own ga gb
    obtain ⟨c1, c2⟩ := flatCoords_ok gc
    refine ⟨_, rfl, ofSparse_wf c1 (by rw [hsh]; exact c2), rfl, ?_⟩
    intro x y hx hy
    rw [ofSparse_val _ (by simp [hx, hy, hsh]), rawAt_flatCoords gc hy,
      sparseMul_entry own ga gb (by rw [← hx]; exact num_lt x) (by rw [← hy]; exact num_lt y), sum_range_bits]
    congr 1
    apply List.map_congr_left
    intro k hk
    have hk' := mem_allBits.1 hk
    rw [entry_transp, entry_coords _ _ _ _ hx, entry_coords _ _ _ _ hy, sparse_val ha h (by simp [hx, hk', hsa]),
      sparse_val hb h' (by simp [hy, hk', hsb])]
  | false =>
    have h' : isSparse b.data = false := by rw [← hs, h]
    rw [h']
    have ha1 : WF ({ a with shape := [cs, ra] } : Arr K) := by
      have e : [cs, ra].sum = a.shape.sum := by simp [hsa]
      exact ⟨by rw [e]; exact ha.perm, by rw [e]; exact ha.data⟩
    have hb1 : WF ({ b with shape := [cs, cb] } : Arr K) := by
      have e : [cs, cb].sum = b.shape.sum := by simp [hsb]
      exact ⟨by rw [e]; exact hb.perm, by rw [e]; exact hb.data⟩
    obtain ⟨w1, s1, v1⟩ := swapaxes_ok ha1 (i := 0) (j := 1) (by simp) (by simp)
    have hs1 : isSparse (swapaxes ({ a with shape := [cs, ra] } : Arr K) 0 1).data = false := by
      unfold swapaxes
      rw [if_neg (by omega)]
      exact h
    refine ⟨_, rfl, ofDense_wf ?_, rfl, ?_⟩
    · rw [hsh]
      simp [List.length_flatMap, pow_add]
    · intro x y hx hy
      have hlx := num_lt x
      have hly := num_lt y
      rw [hx] at hlx
      rw [hy] at hly
      have e := table_getD ra cb (fun i j => ((List.range (2 ^ cs)).map fun k =>
        (dn (applySwaps (swapaxes { a with shape := [cs, ra] } 0 1)).data).getD (i * 2 ^ cs + k) 0
          * (dn (applySwaps { b with shape := [cs, cb] }).data).getD (k * 2 ^ cb + j) 0).sum) hlx hly
      rw [ofDense_val _ (by simp [hx, hy, hsh]), num_append, hy]
      refine e.trans ?_
      rw [sum_range_bits]
      congr 1
      apply List.map_congr_left
      intro k hk
      have hk' := mem_allBits.1 hk
      have e1 : val a (k ++ x) = (dn (applySwaps (swapaxes { a with shape := [cs, ra] } 0 1)).data).getD (num x * 2 ^ cs + num k) 0 := by
        have v := v1 [k, x] (by simp [hk', hx])
        have d := dense_val w1 hs1 (bits := x ++ k) (by rw [s1]; simp [swapAt, hx, hk'])
        rw [num_append, hk'] at d
        rw [← d]
        have : (swapAt [] [k, x] 0 1).flatten = x ++ k := by simp [swapAt]
        rw [this] at v
        rw [v]
        simp [val]
      have e2 : val b (k ++ y) = (dn (applySwaps { b with shape := [cs, cb] }).data).getD (num k * 2 ^ cb + num y) 0 := by
        have d := dense_val hb1 h' (bits := k ++ y) (by simp [hy, hk'])
        rw [num_append, hy] at d
        rw [← d]
        rfl
      rw [e1, e2]

/-! ### The specification -/

/-- all values of a tuple of axes with the given numbers of bits -/
def pick : List Nat → List (List (List Bool))
  | [] => [[]]
  | l :: ls => (allBits l).flatMap fun b => (pick ls).map (b :: ·)

/-- the index function that reads `ks` at the axes `axes` and `f` elsewhere -/
def put (axes : List Nat) (ks : List (List Bool)) (f : Nat → List Bool) (i : Nat) : List Bool :=
  if i ∈ axes then ks.getD (axes.idxOf i) [] else f i

theorem pick_length (lens : List Nat) : ∀ ks ∈ pick lens, ks.map List.length = lens := by
  induction lens with
  | nil => simp [pick]
  | cons l ls ih =>
    intro ks hks
    rw [pick, List.mem_flatMap] at hks
    obtain ⟨b, hb, hks⟩ := hks
    obtain ⟨t, ht, rfl⟩ := List.mem_map.1 hks
    rw [List.map_cons, ih t ht, mem_allBits.1 hb]

theorem sum_flatMap' {α β : Type} (l : List α) (g : α → List β) (f : β → K) :
    ((l.flatMap g).map f).sum = (l.map fun x => ((g x).map f).sum).sum := by
  induction l with
  | nil => simp
  | cons x l ih => rw [List.flatMap_cons, List.map_append, List.sum_append, ih, List.map_cons, List.sum_cons]

theorem sum_pick (lens : List Nat) (F : List Bool → K) :
    ((allBits lens.sum).map F).sum = ((pick lens).map fun ks => F ks.reverse.flatten).sum := by
  induction lens generalizing F with
  | nil => simp [pick, allBits]
  | cons l ls ih =>
    rw [List.sum_cons, Nat.add_comm, sum_allBits_append, ih, pick, sum_flatMap', sum_comm']
    congr 1
    apply List.map_congr_left
    intro b _
    rw [List.map_map]
    congr 1
    apply List.map_congr_left
    intro ks _
    simp

theorem put_axes {axes : List Nat} (hn : axes.Nodup) {ks : List (List Bool)} (hl : ks.length = axes.length) (f : Nat → List Bool) :
    axes.map (put axes ks f) = ks := by
  apply List.ext_getElem
  · simp [hl]
  · intro i h1 h2
    rw [List.length_map] at h1
    rw [List.getElem_map, put, if_pos (List.getElem_mem h1), List.Nodup.idxOf_getElem (xs := axes) hn, List.getD_eq_getElem _ _ h2]

theorem put_rest (n : Nat) (axes : List Nat) (ks : List (List Bool)) (f : Nat → List Bool) :
    (rest n axes).map (put axes ks f) = (rest n axes).map f := by
  apply List.map_congr_left
  intro i hi
  have : i ∉ axes := by simpa using (List.mem_filter.1 hi).2
  rw [put, if_neg this]

theorem put_length {axes : List Nat} {ks : List (List Bool)} {f : Nat → List Bool} {s : Nat → Nat} (hk : ks.map List.length = axes.map s)
    {i : Nat} (hf : (f i).length = s i) : (put axes ks f i).length = s i := by
  unfold put
  split
  · rename_i hi
    have hlt := List.idxOf_lt_length_iff.2 hi
    have hl : ks.length = axes.length := by simpa using congrArg List.length hk
    have h1 : (ks.map List.length)[axes.idxOf i]? = (axes.map s)[axes.idxOf i]? := by rw [hk]
    rw [List.getElem?_map, List.getElem?_map, List.getElem?_eq_getElem hlt, List.getElem?_eq_getElem (by omega)] at h1
    simp only [Option.map_some, Option.some.injEq] at h1
    rw [List.getD_eq_getElem _ _ (by omega), h1]
    congr 1
    exact List.getElem_idxOf hlt
  · exact hf

theorem sum_lengths (l : List Nat) (f : Nat → List Bool) (s : Nat → Nat) (h : ∀ i ∈ l, (f i).length = s i) :
    (l.map f).flatten.length = (l.map s).sum := by
  rw [List.length_flatten, List.map_map]
  congr 1
  exact List.map_congr_left h

/-- **contractions are tensor contractions**: the entry of the result is the sum over the contracted axes -/
theorem contract_ok (own : Bool) {a b : Arr K} (ha : WF a) (hb : WF b) (hs : isSparse a.data = isSparse b.data) {axa axb : List Nat}
    (na : axa.Nodup) (nb : axb.Nodup) (ba : ∀ k ∈ axa, k < a.shape.length) (bb : ∀ k ∈ axb, k < b.shape.length)
    (hd : axa.map (a.shape.getD · 0) = axb.map (b.shape.getD · 0)) :
    ∃ c, contract own a b axa axb = some c ∧ WF c ∧
      c.shape = (rest a.shape.length axa).map (a.shape.getD · 0) ++ (rest b.shape.length axb).map (b.shape.getD · 0) ∧
      ∀ f g : Nat → List Bool, (∀ i < a.shape.length, (f i).length = a.shape.getD i 0) →
        (∀ i < b.shape.length, (g i).length = b.shape.getD i 0) →
        val c (((rest a.shape.length axa).map f).flatten ++ ((rest b.shape.length axb).map g).flatten)
          = ((pick (axa.map (a.shape.getD · 0))).map fun ks =>
              val a ((List.range a.shape.length).map (put axa ks f)).flatten
                * val b ((List.range b.shape.length).map (put axb ks g)).flatten).sum := by
  unfold contract
  dsimp only
  rw [if_neg (by rw [hd]; simp)]
  obtain ⟨wa, sa, da, va⟩ := moveAll_ok ha na ba
  obtain ⟨wb, sb, db, vb⟩ := moveAll_ok hb nb bb
  have la : axa.length = (axa.reverse.map (a.shape.getD · 0)).length := by simp
  have lb : axb.length = (axb.reverse.map (b.shape.getD · 0)).length := by simp
  have hda : (moveAll axa a).shape.drop axa.length = (rest a.shape.length axa).map (a.shape.getD · 0) := by
    rw [sa, List.map_append, la, List.drop_left]
  have hdb : (moveAll axb b).shape.drop axb.length = (rest b.shape.length axb).map (b.shape.getD · 0) := by
    rw [sb, List.map_append, lb, List.drop_left]
  have hsuma : (moveAll axa a).shape.sum = (axa.map (a.shape.getD · 0)).sum + ((rest a.shape.length axa).map (a.shape.getD · 0)).sum := by
    rw [sa, List.map_append, List.sum_append, List.map_reverse, List.sum_reverse]
  have hsumb : (moveAll axb b).shape.sum = (axa.map (a.shape.getD · 0)).sum + ((rest b.shape.length axb).map (b.shape.getD · 0)).sum := by
    rw [sb, List.map_append, List.sum_append, List.map_reverse, List.sum_reverse, hd]
  rw [hda, hdb]
  have e1 : (moveAll axa a).shape.sum - (axa.map (a.shape.getD · 0)).sum = ((rest a.shape.length axa).map (a.shape.getD · 0)).sum := by
    omega
  have e2 : (moveAll axb b).shape.sum - (axa.map (a.shape.getD · 0)).sum = ((rest b.shape.length axb).map (b.shape.getD · 0)).sum := by
    omega
  rw [e1, e2]
  obtain ⟨c, hc, hw, hsh, hv⟩ := contract_core own wa wb (by rw [da, db, hs]) hsuma hsumb
    (shape := (rest a.shape.length axa).map (a.shape.getD · 0) ++ (rest b.shape.length axb).map (b.shape.getD · 0)) (by simp)
  refine ⟨c, hc, hw, hsh, ?_⟩
  intro f g hf hg
  rw [hv _ _ (sum_lengths _ _ _ fun i hi => hf i (List.mem_range.1 (List.mem_filter.1 hi).1))
    (sum_lengths _ _ _ fun i hi => hg i (List.mem_range.1 (List.mem_filter.1 hi).1)), sum_pick]
  congr 1
  apply List.map_congr_left
  intro ks hks
  have hk := pick_length _ ks hks
  have hka : ks.length = axa.length := by simpa using congrArg List.length hk
  have hkb : ks.length = axb.length := by rw [hd] at hk; simpa using congrArg List.length hk
  rw [← va (put axa ks f) fun i hi => put_length hk (hf i hi),
    ← vb (put axb ks g) fun i hi => put_length (hk.trans hd) (hg i hi)]
  rw [List.map_append, List.map_append, List.map_reverse, List.map_reverse, put_axes na hka, put_axes nb hkb, put_rest, put_rest,
    List.flatten_append, List.flatten_append]

theorem tensordot_conv (ch : Choice) {a : Arr K} (h : WF a) :
    WF (if ch.dense then toDense a else toSparse a) ∧ (if ch.dense then toDense a else toSparse a).shape = a.shape ∧
      isSparse (if ch.dense then toDense a else toSparse a).data = !ch.dense ∧
      ∀ bits : List Bool, bits.length = a.shape.sum → val (if ch.dense then toDense a else toSparse a) bits = val a bits := by
  cases ch.dense with
  | true => simpa using toDense_ok h
  | false => simpa using toSparse_ok h

/-- `tensordot` without axes is the tensor product, whatever the representation and the choices -/
theorem tensordot_outer (ch : Choice) {a b : Arr K} (ha : WF a) (hb : WF b) :
    ∃ c, tensordot ch a b [] [] = some c ∧ WF c ∧ c.shape = a.shape ++ b.shape ∧ ∀ x y : List Bool, x.length = a.shape.sum →
      y.length = b.shape.sum → val c (x ++ y) = val a x * val b y := by
  obtain ⟨a1, a2, a3, a4⟩ := tensordot_conv ch ha
  obtain ⟨b1, b2, b3, b4⟩ := tensordot_conv ch hb
  obtain ⟨c, h1, h2, h3, h4⟩ := outer_ok a1 b1 (by rw [a3, b3])
  refine ⟨c, by simpa [tensordot] using h1, h2, by rw [h3, a2, b2], ?_⟩
  intro x y hx hy
  rw [h4 x y (by rw [a2, hx]) (by rw [b2, hy]), a4 x hx, b4 y hy]

theorem range_lengths {s : List Nat} {f : Nat → List Bool} (h : ∀ i < s.length, (f i).length = s.getD i 0) :
    ((List.range s.length).map f).flatten.length = s.sum := by
  rw [sum_lengths _ f (s.getD · 0) fun i hi => h i (List.mem_range.1 hi)]
  congr 1
  apply List.ext_getElem
  · simp
  · intro i h1 h2
    simp [h2]

theorem tensordot_axes (ch : Choice) {a b : Arr K} (ha : WF a) (hb : WF b) {axa axb : List Nat} (h0 : axa ≠ [])
    (na : axa.Nodup) (nb : axb.Nodup) (ba : ∀ k ∈ axa, k < a.shape.length) (bb : ∀ k ∈ axb, k < b.shape.length)
    (hd : axa.map (a.shape.getD · 0) = axb.map (b.shape.getD · 0)) :
    ∃ c, tensordot ch a b axa axb = some c ∧ WF c ∧
      c.shape = (rest a.shape.length axa).map (a.shape.getD · 0) ++ (rest b.shape.length axb).map (b.shape.getD · 0) ∧
      ∀ f g : Nat → List Bool, (∀ i < a.shape.length, (f i).length = a.shape.getD i 0) →
        (∀ i < b.shape.length, (g i).length = b.shape.getD i 0) →
        val c (((rest a.shape.length axa).map f).flatten ++ ((rest b.shape.length axb).map g).flatten)
          = ((pick (axa.map (a.shape.getD · 0))).map fun ks =>
              val a ((List.range a.shape.length).map (put axa ks f)).flatten
                * val b ((List.range b.shape.length).map (put axb ks g)).flatten).sum := by
  obtain ⟨a1, a2, a3, a4⟩ := tensordot_conv ch ha
  obtain ⟨b1, b2, b3, b4⟩ := tensordot_conv ch hb
  unfold tensordot
  dsimp only
  rw [if_neg h0]
  generalize (if ch.dense then toDense a else toSparse a) = a' at *
  generalize (if ch.dense then toDense b else toSparse b) = b' at *
  obtain ⟨c, h1, h2, h3, h4⟩ := contract_ok ch.own a1 b1 (by rw [a3, b3]) na nb (by rw [a2]; exact ba) (by rw [b2]; exact bb)
    (by rw [a2, b2]; exact hd)
  rw [a2, b2] at h3 h4
  refine ⟨c, h1, h2, h3, ?_⟩
  intro f g hf hg
  rw [h4 f g hf hg]
  congr 1
  apply List.map_congr_left
  intro ks hks
  have hk := pick_length _ ks hks
  rw [a4 _ (range_lengths fun i hi => put_length hk (hf i hi)), b4 _ (range_lengths fun i hi => put_length (hk.trans hd) (hg i hi))]

end Verif.Tens
