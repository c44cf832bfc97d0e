import Verif.Tens.Contract

/-!
# Sequences of operations on arrays, and the same operations done at once
-/

namespace Verif.Tens

set_option linter.unusedSectionVars false

variable {K : Type} [CommRing K] [DecidableEq K]

/-- operations on an array; the axes are natural numbers (negative axes of python are not modelled) -/
inductive AOp
  | reshape (shape : List Nat)
  | swap (i j : Nat)
  | front (k : Nat)
  | apply
  | dense
  | sparse
  deriving Repr

/-- the operations of `SparseBiArray` and `DenseBiArray`; `none` is an exception (`simulator/bi_arrays.py` 237-271, 274-446,
677-695, 740-815, 1078-1108) -/
def stepArr (o : AOp) (a : Arr K) : Option (Arr K) :=
  match o with
  | .reshape s => reshape a s
  | .swap i j => if i < a.shape.length ∧ j < a.shape.length then some (swapaxes a i j) else none
  | .front k => if k < a.shape.length then some (moveFront a k) else none
  | .apply => some (applySwaps a)
  | .dense => some (toDense a)
  | .sparse => some (toSparse a)

/-- all operations, in order -/
def runArr : List AOp → Arr K → Option (Arr K)
  | [], a => some a
  | o :: os, a => (stepArr o a).bind (runArr os)

/-! ### Specification: numpy arrays -/

/-- an array: the numbers of bits of its axes and its entries, in C order -/
structure Np (K : Type) where
  shape : List Nat
  get : List Bool → K

/-- a flat index cut into the indices of the axes -/
def chop : List Nat → List Bool → List (List Bool)
  | [], _ => []
  | s :: ss, bits => bits.take s :: chop ss (bits.drop s)

/-- the operations on numpy arrays: entries are moved at once -/
def stepNp (o : AOp) (a : Np K) : Option (Np K) :=
  match o with
  | .reshape s => if s.sum = a.shape.sum then some ⟨s, a.get⟩ else none
  | .swap i j =>
    if i < a.shape.length ∧ j < a.shape.length then
      let s := swapAt 0 a.shape i j
      some ⟨s, fun bits => a.get (swapAt [] (chop s bits) i j).flatten⟩
    else none
  | .front k =>
    if k < a.shape.length then
      let s := a.shape.getD k 0 :: a.shape.eraseIdx k
      some ⟨s, fun bits => a.get (((chop s bits).drop 1).insertIdx k ((chop s bits).getD 0 [])).flatten⟩
    else none
  | .apply => some a
  | .dense => some a
  | .sparse => some a

/-- all operations, in order -/
def runNp : List AOp → Np K → Option (Np K)
  | [], a => some a
  | o :: os, a => (stepNp o a).bind (runNp os)

/-- the stored array and the numpy array have the same shape and entries -/
structure Same (a : Arr K) (b : Np K) : Prop where
  wf : WF a
  shape : a.shape = b.shape
  get : ∀ bits : List Bool, bits.length = a.shape.sum → val a bits = b.get bits

theorem chop_map_length (s : List Nat) (bits : List Bool) (h : bits.length = s.sum) : (chop s bits).map List.length = s := by
  induction s generalizing bits with
  | nil => rfl
  | cons x s ih =>
    rw [List.sum_cons] at h
    rw [chop, List.map_cons, ih _ (by rw [List.length_drop]; omega), List.length_take, Nat.min_eq_left (by omega)]

theorem chop_flatten (s : List Nat) (bits : List Bool) (h : bits.length = s.sum) : (chop s bits).flatten = bits := by
  induction s generalizing bits with
  | nil => exact (List.eq_nil_of_length_eq_zero h).symm
  | cons x s ih =>
    rw [List.sum_cons] at h
    rw [chop, List.flatten_cons, ih _ (by rw [List.length_drop]; omega), List.take_append_drop]

theorem swapAt_map {α β : Type} (d : α) (e : β) (f : α → β) (l : List α) {i j : Nat} (hi : i < l.length) (hj : j < l.length) :
    (swapAt d l i j).map f = swapAt e (l.map f) i j := by
  unfold swapAt
  rw [List.map_set, List.map_set]
  congr 1
  · congr 1
    rw [List.getD_eq_getElem _ _ hj, List.getD_eq_getElem _ _ (by simpa using hj), List.getElem_map]
  · rw [List.getD_eq_getElem _ _ hi, List.getD_eq_getElem _ _ (by simpa using hi), List.getElem_map]

theorem swapAt_twice {α : Type} (d : α) (l : List α) {i j : Nat} (hi : i < l.length) (hj : j < l.length) :
    swapAt d (swapAt d l i j) i j = l := by
  apply List.ext_getElem
  · simp [swapAt]
  · intro k h1 h2
    simp only [swapAt, List.getElem_set, List.getD_eq_getElem?_getD, List.getElem?_set]
    by_cases hik : i = k <;> by_cases hjk : j = k <;> by_cases hij : i = j <;> simp_all [eq_comm]

theorem step_same (o : AOp) {a : Arr K} {b : Np K} (h : Same a b) :
    (stepArr o a = none ∧ stepNp o b = none) ∨ ∃ a' b', stepArr o a = some a' ∧ stepNp o b = some b' ∧ Same a' b' := by
  obtain ⟨hw, hs, hg⟩ := h
  cases o with
  | reshape s =>
    by_cases e : s.sum = a.shape.sum
    · right
      refine ⟨_, _, by simp only [stepArr, reshape, if_pos e]; rfl, by simp only [stepNp, ← hs, if_pos e]; rfl, ⟨?_, ?_⟩, rfl, ?_⟩
      · rw [e]; exact hw.perm
      · have := hw.data
        dsimp only
        rw [e]
        exact this
      · intro bits hb
        exact hg bits (hb.trans e)
    · left
      exact ⟨by simp [stepArr, reshape, e], by simp [stepNp, ← hs, e]⟩
  | swap i j =>
    by_cases e : i < a.shape.length ∧ j < a.shape.length
    · right
      obtain ⟨w1, s1, v1⟩ := swapaxes_ok hw e.1 e.2
      refine ⟨_, _, by simp only [stepArr, if_pos e], by simp only [stepNp, ← hs, if_pos e]; rfl, w1, s1, ?_⟩
      intro bits hb
      rw [s1] at hb
      have hl := chop_map_length _ _ hb
      have hlen : (chop (swapAt 0 a.shape i j) bits).length = a.shape.length := by
        have := congrArg List.length hl
        simpa [swapAt] using this
      have hx : (swapAt [] (chop (swapAt 0 a.shape i j) bits) i j).map List.length = a.shape := by
        rw [swapAt_map _ 0 _ _ (by rw [hlen]; exact e.1) (by rw [hlen]; exact e.2), hl, swapAt_twice _ _ e.1 e.2]
      have v := v1 _ hx
      rw [swapAt_twice _ _ (by rw [hlen]; exact e.1) (by rw [hlen]; exact e.2), chop_flatten _ _ hb] at v
      rw [v]
      apply hg
      rw [List.length_flatten, hx]
    · left
      exact ⟨by simp only [stepArr, if_neg e], by simp only [stepNp, ← hs, if_neg e]⟩
  | front k =>
    by_cases e : k < a.shape.length
    · right
      obtain ⟨w1, s1, v1⟩ := moveFront_ok hw e
      refine ⟨_, _, by simp only [stepArr, if_pos e], by simp only [stepNp, ← hs, if_pos e]; rfl, w1, s1, ?_⟩
      intro bits hb
      rw [s1] at hb
      have hl := chop_map_length _ _ hb
      have hc := chop_flatten _ _ hb
      rw [chop] at hl hc
      dsimp only
      rw [chop, List.drop_succ_cons, List.drop_zero, List.getD_cons_zero]
      generalize bits.take (a.shape.getD k 0) = u at *
      generalize chop (a.shape.eraseIdx k) (bits.drop (a.shape.getD k 0)) = us at *
      rw [List.map_cons, List.cons.injEq] at hl
      have hlen : us.length = a.shape.length - 1 := by
        have := congrArg List.length hl.2
        rw [List.length_map, List.length_eraseIdx, if_pos e] at this
        exact this
      have hk : k ≤ us.length := by omega
      have hx : (us.insertIdx k u).map List.length = a.shape := by
        rw [List.map_insertIdx, hl.1, hl.2, List.getD_eq_getElem _ _ e]
        exact List.insertIdx_eraseIdx_getElem e
      have v := v1 _ hx
      rw [List.eraseIdx_insertIdx_self] at v
      have g : (us.insertIdx k u).getD k [] = u := by
        rw [List.getD_eq_getElem _ _ (by rw [List.length_insertIdx, if_pos hk]; omega), List.getElem_insertIdx_self]
      rw [g, hc] at v
      rw [v]
      apply hg
      rw [List.length_flatten, hx]
    · left
      exact ⟨by simp only [stepArr, if_neg e], by simp only [stepNp, ← hs, if_neg e]⟩
  | apply =>
    right
    refine ⟨_, _, rfl, rfl, wf_applySwaps hw, by rw [applySwaps_shape, hs], ?_⟩
    intro bits hb
    rw [applySwaps_shape] at hb
    rw [val_applySwaps hw hb, hg bits hb]
  | dense =>
    right
    obtain ⟨w, s, -, v⟩ := toDense_ok hw
    refine ⟨_, _, rfl, rfl, w, by rw [s, hs], ?_⟩
    intro bits hb
    rw [s] at hb
    rw [v bits hb, hg bits hb]
  | sparse =>
    right
    obtain ⟨w, s, -, v⟩ := toSparse_ok hw
    refine ⟨_, _, rfl, rfl, w, by rw [s, hs], ?_⟩
    intro bits hb
    rw [s] at hb
    rw [v bits hb, hg bits hb]

theorem run_same (os : List AOp) {a : Arr K} {b : Np K} (h : Same a b) :
    (runArr os a = none ∧ runNp os b = none) ∨ ∃ a' b', runArr os a = some a' ∧ runNp os b = some b' ∧ Same a' b' := by
  induction os generalizing a b with
  | nil => exact Or.inr ⟨a, b, rfl, rfl, h⟩
  | cons o os ih =>
    rcases step_same o h with ⟨h1, h2⟩ | ⟨a', b', h1, h2, h3⟩
    · exact Or.inl ⟨by rw [runArr, h1]; rfl, by rw [runNp, h2]; rfl⟩
    · have := ih h3
      rw [runArr, h1, runNp, h2]
      exact this

end Verif.Tens
