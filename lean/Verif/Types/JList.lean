import Mathlib.Data.List.Basic
import Mathlib.Data.List.GetD
import Mathlib.Tactic.Linarith

/-!
Traced lists (src/qrisp/jasp/interpreter_tools/dynamic_list.py).

JAX semantics of array access: a negative index counts from the end; an update out of bounds is
dropped; a read out of bounds is clamped. 64 bit overflow of the values is not modelled.
-/

namespace Verif.Types

/-- Normalisation of a negative index. -/
def normIdx (n : ℕ) (i : ℤ) : ℤ := if i < 0 then i + n else i

/-- `array.at[i].set(v)`. -/
def atSet (a : List ℤ) (i : ℤ) (v : ℤ) : List ℤ :=
  let j := normIdx a.length i
  if j < 0 then a else a.set j.toNat v

/-- `array[i]`. -/
def atGet (a : List ℤ) (i : ℤ) : ℤ :=
  let j := normIdx a.length i
  a.getD (min (max j 0).toNat (a.length - 1)) 0

/-- A `Jlist`; `max_size` is the array length. -/
structure JList where
  array : List ℤ
  counter : ℤ
  deriving DecidableEq

/-- `Jlist(init_val, max_size)` (dynamic_list.py lines 28-56) for an initial array. -/
def JList.init (l : List ℤ) (cap : ℕ) : JList :=
  ⟨l.take cap ++ List.replicate (cap - l.length) 0, min l.length cap⟩

/-- `append` (lines 58-66). -/
def JList.append (j : JList) (v : ℤ) : JList :=
  ⟨atSet j.array j.counter v, min (j.counter + 1) j.array.length⟩

/-- `jnp.roll(array, 1)`. -/
def roll (a : List ℤ) : List ℤ := a.getLast?.toList ++ a.dropLast

/-- `prepend` (lines 68-77). -/
def JList.prepend (j : JList) (v : ℤ) : JList :=
  ⟨atSet (roll j.array) 0 v, min (j.counter + 1) j.array.length⟩

/-- `pop` (lines 79-87). -/
def JList.pop (j : JList) : JList × ℤ := (⟨j.array, j.counter - 1⟩, atGet j.array (j.counter - 1))

/-- `__getitem__` with an integer (line 143). -/
def JList.get (j : JList) (k : ℤ) : ℤ := atGet j.array (k + if k < 0 then j.counter else 0)

/-- Loop of `_extend` (lines 95-101). -/
def extendLoop (vs : JList) : ℕ → ℕ → JList → JList
  | 0, _, j => j
  | m + 1, i, j => extendLoop vs m (i + 1) (j.append (vs.get i))

/-- `extend` (lines 89-101). -/
def JList.extend (j vs : JList) : JList := extendLoop vs vs.counter.toNat 0 j

/-- `clear` (lines 103-110): the method is wrapped by `jax.jit`, which calls it on a copy of the
object. The first component is the object after the call, the second the returned list. -/
def JList.clear (j : JList) : JList × JList := (j, ⟨j.array, 0⟩)

/-- The copy loop of slicing (lines 127-134). -/
def sliceLoop (old : List ℤ) (start : ℤ) : ℕ → ℕ → List ℤ → List ℤ
  | 0, _, a => a
  | m + 1, i, a => sliceLoop old start m (i + 1) (atSet a i (atGet old (i + start)))

/-- `start` of a slice (lines 114-117). -/
def sliceStart (counter : ℤ) : Option ℤ → ℤ
  | none => 0
  | some s => s + if s < 0 then counter else 0

/-- `stop` of a slice (lines 119-123). -/
def sliceStop (counter : ℤ) : Option ℤ → ℤ
  | none => counter
  | some e => min e counter + if min e counter < 0 then counter else 0

/-- `__getitem__` with a slice (lines 113-141). -/
def JList.slice (j : JList) (start stop : Option ℤ) : JList :=
  let s := sliceStart j.counter start
  let e := sliceStop j.counter stop
  ⟨sliceLoop j.array s (e - s).toNat 0 (List.replicate j.array.length 0), e - s⟩

/-! ### Refinement -/

/-- Invariant: the counter is between 0 and the capacity. -/
def JList.OK (j : JList) : Prop := 0 ≤ j.counter ∧ j.counter ≤ j.array.length

/-- The represented list. -/
def JList.val (j : JList) : List ℤ := j.array.take j.counter.toNat

theorem atSet_length (a : List ℤ) (i v : ℤ) : (atSet a i v).length = a.length := by
  unfold atSet; simp only; split <;> simp

theorem atSet_nat (a : List ℤ) (i : ℕ) (v : ℤ) : atSet a i v = a.set i v := by
  unfold atSet normIdx
  simp only
  rw [if_neg (show ¬ (i : ℤ) < 0 by omega), if_neg (by omega)]
  simp

theorem atGet_nat (a : List ℤ) (i : ℕ) (h : i < a.length) : atGet a i = a[i] := by
  unfold atGet normIdx
  simp only
  rw [if_neg (show ¬ (i : ℤ) < 0 by omega)]
  have : min (max (i : ℤ) 0).toNat (a.length - 1) = i := by omega
  rw [this, List.getD_eq_getElem _ _ h]

theorem val_length {j : JList} (h : j.OK) : (j.val.length : ℤ) = j.counter := by
  obtain ⟨h1, h2⟩ := h
  rw [JList.val, List.length_take]
  omega

theorem init_ok (l : List ℤ) (cap : ℕ) (h : l.length ≤ cap) :
    (JList.init l cap).OK ∧ (JList.init l cap).val = l ∧ (JList.init l cap).array.length = cap := by
  have e : l.take cap = l := List.take_of_length_le h
  refine ⟨⟨?_, ?_⟩, ?_, ?_⟩
  · simp [JList.init]
  · simp only [JList.init, e, List.length_append, List.length_replicate]; omega
  · simp only [JList.val, JList.init, e]
    have : (min (l.length : ℤ) cap).toNat = l.length := by omega
    rw [this]; simp
  · simp only [JList.init, e, List.length_append, List.length_replicate]; omega

theorem append_ok {j : JList} (h : j.OK) (hc : j.counter < j.array.length) (v : ℤ) :
    (j.append v).OK ∧ (j.append v).val = j.val ++ [v] ∧
    (j.append v).array.length = j.array.length := by
  obtain ⟨h1, h2⟩ := h
  obtain ⟨c, hc'⟩ := Int.eq_ofNat_of_zero_le h1
  have hlt : c < j.array.length := by omega
  have hmin : min (j.counter + 1) (j.array.length : ℤ) = (c + 1 : ℕ) := by omega
  refine ⟨⟨?_, ?_⟩, ?_, atSet_length _ _ _⟩
  · simp only [JList.append, hmin]; omega
  · simp only [JList.append, hmin, atSet_length]; omega
  · simp only [JList.append, JList.val]
    rw [hmin, hc', Int.toNat_natCast, Int.toNat_natCast, atSet_nat, List.take_add_one, List.take_set_of_le (le_refl c), List.getElem?_set_self hlt]
    rfl

theorem roll_length (a : List ℤ) : (roll a).length = a.length := by
  unfold roll
  cases h : a.getLast? with
  | none => rw [List.getLast?_eq_none_iff] at h; simp [h]
  | some x =>
    have : a ≠ [] := by rintro rfl; simp at h
    have hp := List.length_pos_iff.2 this
    simp; omega

theorem prepend_ok {j : JList} (h : j.OK) (hc : j.counter < j.array.length) (v : ℤ) :
    (j.prepend v).OK ∧ (j.prepend v).val = v :: j.val ∧
    (j.prepend v).array.length = j.array.length := by
  obtain ⟨h1, h2⟩ := h
  obtain ⟨c, hc'⟩ := Int.eq_ofNat_of_zero_le h1
  have hlt : c < j.array.length := by omega
  have hmin : min (j.counter + 1) (j.array.length : ℤ) = (c + 1 : ℕ) := by omega
  have hne : j.array ≠ [] := by rintro e; rw [e] at hlt; simp at hlt
  have hset : atSet (roll j.array) 0 v = v :: j.array.dropLast := by
    have := atSet_nat (roll j.array) 0 v
    rw [Nat.cast_zero] at this
    rw [this, roll, List.getLast?_eq_some_getLast hne]
    rfl
  refine ⟨⟨?_, ?_⟩, ?_, ?_⟩
  · simp only [JList.prepend, hmin]; omega
  · simp only [JList.prepend, hmin, atSet_length, roll_length]; omega
  · simp only [JList.prepend, JList.val]
    rw [hmin, hc', Int.toNat_natCast, Int.toNat_natCast, hset, List.take_succ_cons, List.dropLast_eq_take, List.take_take]
    congr 2; omega
  · simp only [JList.prepend, atSet_length, roll_length]

theorem pop_ok {j : JList} (h : j.OK) (hc : 0 < j.counter) :
    j.pop.1.OK ∧ j.val = j.pop.1.val ++ [j.pop.2] ∧ j.pop.1.array.length = j.array.length := by
  obtain ⟨h1, h2⟩ := h
  obtain ⟨c, hc'⟩ := Int.eq_ofNat_of_zero_le (show 0 ≤ j.counter - 1 by omega)
  have hlt : c < j.array.length := by omega
  have hj : j.counter = (c + 1 : ℕ) := by omega
  refine ⟨⟨?_, ?_⟩, ?_, rfl⟩
  · simp only [JList.pop]; omega
  · simp only [JList.pop]; omega
  · simp only [JList.pop, JList.val]
    rw [hc', hj, Int.toNat_natCast, Int.toNat_natCast, atGet_nat _ _ hlt, List.take_add_one, List.getElem?_eq_getElem hlt]
    rfl

/-- Indexing, with Python's convention for negative indices. -/
theorem get_ok {j : JList} (h : j.OK) (k : ℤ) (hk : -j.counter ≤ k) (hk' : k < j.counter) :
    j.val[(if k < 0 then k + j.counter else k).toNat]? = some (j.get k) := by
  obtain ⟨h1, h2⟩ := h
  have e : k + (if k < 0 then j.counter else 0) = if k < 0 then k + j.counter else k := by
    split <;> omega
  rw [JList.get, e]
  obtain ⟨m, hm⟩ := Int.eq_ofNat_of_zero_le (show 0 ≤ if k < 0 then k + j.counter else k by
    split <;> omega)
  have hm' : (m : ℤ) < j.counter := by
    rw [← hm]; split <;> omega
  have hlt : m < j.array.length := by omega
  rw [hm]
  rw [Int.toNat_natCast, atGet_nat _ _ hlt, JList.val, List.getElem?_take_of_lt (by omega),
    List.getElem?_eq_getElem hlt]

theorem get_nat {j : JList} (h : j.OK) (i : ℕ) (hi : (i : ℤ) < j.counter) :
    j.val[i]? = some (j.get i) := by
  have := get_ok h i (by have := h.1; omega) hi
  rw [if_neg (by omega)] at this
  exact this

theorem extendLoop_ok {vs : JList} (hv : vs.OK) (m i : ℕ) (hmi : ((i + m : ℕ) : ℤ) = vs.counter)
    {j : JList} (h : j.OK) (hc : j.counter + m ≤ j.array.length) :
    (extendLoop vs m i j).OK ∧ (extendLoop vs m i j).val = j.val ++ vs.val.drop i ∧
    (extendLoop vs m i j).array.length = j.array.length := by
  induction m generalizing i j with
  | zero =>
    have hl := val_length hv
    refine ⟨h, ?_, rfl⟩
    rw [List.drop_of_length_le (by omega)]; simp [extendLoop]
  | succ m ih =>
    obtain ⟨a1, a2, a3⟩ := append_ok h (by push_cast at hc; omega) (vs.get i)
    have hcnt : (j.append (vs.get i)).counter = j.counter + 1 := by
      have h1 := val_length a1
      have h2 := val_length h
      rw [a2, List.length_append, List.length_singleton] at h1
      push_cast at h1; omega
    obtain ⟨b1, b2, b3⟩ := ih (i + 1) (by rw [← hmi]; push_cast; omega) a1
      (by rw [hcnt, a3]; push_cast at hc; omega)
    refine ⟨b1, ?_, b3.trans a3⟩
    rw [extendLoop, b2, a2]
    have hg := get_nat hv i (by omega)
    obtain ⟨hlt, hg'⟩ := List.getElem?_eq_some_iff.1 hg
    rw [List.drop_eq_getElem_cons hlt, hg']
    simp

theorem extend_ok {j vs : JList} (h : j.OK) (hv : vs.OK)
    (hc : j.counter + vs.counter ≤ j.array.length) :
    (j.extend vs).OK ∧ (j.extend vs).val = j.val ++ vs.val ∧
    (j.extend vs).array.length = j.array.length := by
  have h0 := hv.1
  have := extendLoop_ok hv vs.counter.toNat 0 (by omega) h (by omega)
  simpa [JList.extend] using this

theorem sliceLoop_ok (old : List ℤ) (s m i : ℕ) (a : List ℤ) (hs : i + s + m ≤ old.length)
    (ha : i + m ≤ a.length) :
    (sliceLoop old s m i a).length = a.length ∧
    (sliceLoop old s m i a).take (i + m) = a.take i ++ (old.drop (i + s)).take m := by
  induction m generalizing i a with
  | zero => simp [sliceLoop]
  | succ m ih =>
    rw [sliceLoop]
    have hcast : ((i : ℤ) + (s : ℤ)) = ((i + s : ℕ) : ℤ) := by push_cast; rfl
    rw [hcast, atGet_nat _ _ (by omega), atSet_nat]
    obtain ⟨b1, b2⟩ := ih (i + 1) (a.set i old[i + s]) (by omega) (by simp; omega)
    refine ⟨by rw [b1]; simp, ?_⟩
    rw [show i + (m + 1) = i + 1 + m by omega, b2, List.take_add_one,
      List.take_set_of_le (le_refl i), List.getElem?_set_self (by omega),
      List.drop_eq_getElem_cons (by omega : i + s < old.length), List.take_succ_cons,
      show i + 1 + s = i + s + 1 by omega]
    simp

/-- Slicing with bounds which (after adding the length to negative ones) satisfy
`0 ≤ start ≤ stop ≤ len`. -/
theorem slice_ok {j : JList} (h : j.OK) (start stop : Option ℤ) (s e : ℕ)
    (hs : (s : ℤ) = sliceStart j.counter start) (he : (e : ℤ) = sliceStop j.counter stop)
    (hse : s ≤ e) (hel : (e : ℤ) ≤ j.counter) :
    (j.slice start stop).OK ∧ (j.slice start stop).val = (j.val.drop s).take (e - s) ∧
    (j.slice start stop).array.length = j.array.length := by
  obtain ⟨h1, h2⟩ := h
  have hd : ((e : ℤ) - s).toNat = e - s := by omega
  have hL := sliceLoop_ok j.array s (e - s) 0 (List.replicate j.array.length 0) (by omega)
    (by simp; omega)
  have hform : j.slice start stop =
      ⟨sliceLoop j.array s (e - s) 0 (List.replicate j.array.length 0), (e : ℤ) - s⟩ := by
    rw [JList.slice, ← hs, ← he, hd]
  rw [hform]
  refine ⟨⟨?_, ?_⟩, ?_, ?_⟩
  · show (0 : ℤ) ≤ (e : ℤ) - s
    omega
  · show (e : ℤ) - s ≤ _
    simp only [hL.1, List.length_replicate]; omega
  · simp only [JList.val, hd]
    have := hL.2
    rw [Nat.zero_add, Nat.zero_add] at this
    rw [this, List.take_zero, List.nil_append]
    rw [List.drop_take, List.take_take]
    congr 1
    omega
  · simp only [hL.1, List.length_replicate]

end Verif.Types
