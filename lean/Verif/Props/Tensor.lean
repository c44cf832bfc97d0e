import Verif.Tens.Eager
import Mathlib.Data.Rat.Defs

/-!
# C140, C141: the arrays of the simulator
-/

namespace Verif.Props

open Verif.Tens

set_option linter.unusedSectionVars false

variable {K : Type} [CommRing K] [DecidableEq K]

/-! ### C140: lazily permuted arrays -/

/-- An array built from given entries, by any sequence of reshapes, swaps of axes, moves of axes to the front, evaluations and
changes of the representation, has the shape and the entries that numpy would give; exceptions are raised by the same sequences. -/
theorem array_history (os : List AOp) (shape : List Nat) (l : List K) (hl : l.length = 2 ^ shape.sum) :
    (runArr os (ofDense l shape) = none ↔ runNp os ⟨shape, fun bits => l.getD (num bits) 0⟩ = none) ∧
    ∀ a, runArr os (ofDense l shape) = some a → ∃ b, runNp os ⟨shape, fun bits => l.getD (num bits) 0⟩ = some b ∧
      a.shape = b.shape ∧ toArray a = (allBits b.shape.sum).map b.get := by
  have h0 : Same (ofDense l shape) ⟨shape, fun bits => l.getD (num bits) 0⟩ :=
    ⟨ofDense_wf hl, rfl, fun bits hb => ofDense_val _ hb⟩
  rcases run_same os h0 with ⟨h1, h2⟩ | ⟨a, b, h1, h2, h3⟩
  · exact ⟨by rw [h1, h2]; simp only, fun a ha => by rw [h1] at ha; cases ha⟩
  · refine ⟨by rw [h1, h2]; simp only [reduceCtorEq], fun a' ha => ⟨b, h2, ?_⟩⟩
    rw [h1] at ha
    obtain rfl := Option.some.inj ha
    refine ⟨h3.shape, ?_⟩
    rw [toArray_val h3.wf, h3.shape]
    apply List.map_congr_left
    intro bits hb
    exact h3.get bits (by rw [mem_allBits.1 hb, h3.shape])

/-- The same for arrays given by the places of their non-zero entries. -/
theorem array_history_sparse (os : List AOp) (shape : List Nat) (l : List (Nat × K)) (hn : (l.map (·.1)).Nodup)
    (hb : ∀ x ∈ l, x.1 < 2 ^ shape.sum) :
    (runArr os (ofSparse l shape) = none ↔ runNp os ⟨shape, fun bits => (l.lookup (num bits)).getD 0⟩ = none) ∧
    ∀ a, runArr os (ofSparse l shape) = some a → ∃ b, runNp os ⟨shape, fun bits => (l.lookup (num bits)).getD 0⟩ = some b ∧
      a.shape = b.shape ∧ toArray a = (allBits b.shape.sum).map b.get := by
  have key : ∀ (l : List (Nat × K)) (i : Nat), (l.map (·.1)).Nodup → rawAt (.sparse l) i = (l.lookup i).getD 0 := by
    intro l i hn
    rw [rawAt_sparse]
    induction l with
    | nil => rfl
    | cons x l ih =>
      rw [List.map_cons, List.nodup_cons] at hn
      rw [List.map_cons, List.sum_cons]
      by_cases e : x.1 = i
      · rw [if_pos e, sum_zero_of, add_zero]
        · obtain ⟨x1, x2⟩ := x
          simp only at e
          simp [List.lookup, e]
        · intro y hy
          rw [if_neg]
          intro e'
          exact hn.1 (e ▸ e' ▸ List.mem_map_of_mem hy)
      · rw [if_neg e, zero_add, ih hn.2]
        obtain ⟨x1, x2⟩ := x
        have : (i == x1) = false := by simpa using fun h : i = x1 => e h.symm
        simp [List.lookup, this]
  have h0 : Same (ofSparse l shape) ⟨shape, fun bits => (l.lookup (num bits)).getD 0⟩ :=
    ⟨ofSparse_wf hn hb, rfl, fun bits hb => (ofSparse_val l (shape := shape) hb).trans (key l _ hn)⟩
  rcases run_same os h0 with ⟨h1, h2⟩ | ⟨a, b, h1, h2, h3⟩
  · exact ⟨by rw [h1, h2]; simp only, fun a ha => by rw [h1] at ha; cases ha⟩
  · refine ⟨by rw [h1, h2]; simp only [reduceCtorEq], fun a' ha => ⟨b, h2, ?_⟩⟩
    rw [h1] at ha
    obtain rfl := Option.some.inj ha
    refine ⟨h3.shape, ?_⟩
    rw [toArray_val h3.wf, h3.shape]
    apply List.map_congr_left
    intro bits hb
    exact h3.get bits (by rw [mem_allBits.1 hb, h3.shape])

/-- Swapping axes does not move entries: the stored data is untouched until it is needed. -/
theorem array_lazy (a : Arr K) (i j k : Nat) : (swapaxes a i j).data = a.data ∧ (moveFront a k).data = a.data := by
  unfold swapaxes moveFront
  constructor <;> (split <;> rfl)

/-- a 2x4 array: its transpose, then cut into three axes and the last one moved to the front -/
example : (runArr [.swap 0 1, .reshape [1, 1, 1], .front 2] (ofDense ([0, 1, 2, 3, 4, 5, 6, 7] : List ℤ) [1, 2])).map
    (fun a => (a.shape, toArray a)) = some ([1, 1, 1], [0, 1, 2, 3, 4, 5, 6, 7]) := by decide +kernel

example : (runArr [.swap 0 2, .sparse, .front 1, .dense] (ofDense ([0, 1, 2, 3, 4, 5, 6, 7] : List ℤ) [1, 1, 1])).map
    (fun a => (a.shape, toArray a)) = some ([1, 1, 1], [0, 4, 1, 5, 2, 6, 3, 7]) := by decide +kernel

example : (runArr [.reshape [2, 2]] (ofDense ([0, 1, 2, 3, 4, 5, 6, 7] : List ℤ) [1, 2])).isNone := by decide +kernel

/-! ### C141: products of arrays -/

/-- `tensordot` with contracted axes is the tensor contraction, for every choice of the representation and of the multiplication;
the axes of the result are the remaining axes of the first array, then those of the second. -/
theorem array_tensordot (ch : Choice) {a b : Arr K} (ha : WF a) (hb : WF b) {axa axb : List Nat} (h0 : axa ≠ [])
    (na : axa.Nodup) (nb : axb.Nodup) (ba : ∀ k ∈ axa, k < a.shape.length) (bb : ∀ k ∈ axb, k < b.shape.length)
    (hd : axa.map (a.shape.getD · 0) = axb.map (b.shape.getD · 0)) :
    ∃ c, tensordot ch a b axa axb = some c ∧ WF c ∧
      c.shape = (rest a.shape.length axa).map (a.shape.getD · 0) ++ (rest b.shape.length axb).map (b.shape.getD · 0) ∧
      ∀ f g : Nat → List Bool, (∀ i < a.shape.length, (f i).length = a.shape.getD i 0) →
        (∀ i < b.shape.length, (g i).length = b.shape.getD i 0) →
        val c (((rest a.shape.length axa).map f).flatten ++ ((rest b.shape.length axb).map g).flatten)
          = ((pick (axa.map (a.shape.getD · 0))).map fun ks =>
              val a ((List.range a.shape.length).map (put axa ks f)).flatten
                * val b ((List.range b.shape.length).map (put axb ks g)).flatten).sum :=
  tensordot_axes ch ha hb h0 na nb ba bb hd

/-- Axes of different total size cannot be contracted. -/
theorem array_tensordot_size (ch : Choice) {a b : Arr K} (ha : WF a) (hb : WF b) {axa axb : List Nat} (h0 : axa ≠ [])
    (hd : (axa.map (a.shape.getD · 0)).sum ≠ (axb.map (b.shape.getD · 0)).sum) : tensordot ch a b axa axb = none := by
  unfold tensordot contract
  dsimp only
  rw [if_neg h0, if_pos]
  rw [(tensordot_conv ch ha).2.1, (tensordot_conv ch hb).2.1]
  exact hd

/-- `tensordot` without axes is the tensor product. -/
theorem array_outer (ch : Choice) {a b : Arr K} (ha : WF a) (hb : WF b) :
    ∃ c, tensordot ch a b [] [] = some c ∧ WF c ∧ c.shape = a.shape ++ b.shape ∧ ∀ x y : List Bool, x.length = a.shape.sum →
      y.length = b.shape.sum → val c (x ++ y) = val a x * val b y :=
  tensordot_outer ch ha hb

/-- The product of sparse matrices, by the own routine and by scipy: no place occurs twice, and the entries are those of the matrix
product. -/
theorem array_sparse_product (own : Bool) {r k c : Nat} {A B : Coo K} (hA : Good r k A) (hB : Good k c B) :
    Good r c (sparseMul own r k c A B) ∧ ∀ i j, i < 2 ^ r → j < 2 ^ c →
      entry (sparseMul own r k c A B) i j = ((List.range (2 ^ k)).map fun l => entry A i l * entry B l j).sum :=
  ⟨sparseMul_good own hA hB, fun _ _ hi hj => sparseMul_entry own hA hB hi hj⟩

/-- a matrix on the second axis of an array of three axes, with the own sparse product, with scipy and with dense arrays -/
example : ([⟨true, true⟩, ⟨false, true⟩, ⟨false, false⟩] : List Choice).map (fun ch =>
      (tensordot ch (ofDense ([1, 2, 3, 4] : List ℤ) [1, 1]) (ofDense [1, 0, 0, 5, 0, 2, 7, 0] [1, 1, 1]) [1] [1]).map fun c =>
        (c.shape, toArray c))
    = List.replicate 3 (some ([1, 1, 1], [1, 10, 14, 2, 3, 20, 28, 6])) := by decide +kernel

/-- two contracted axes at once -/
example : (tensordot ⟨false, true⟩ (ofDense ([1, 2, 3, 4, 5, 6, 7, 8] : List ℤ) [1, 1, 1]) (ofDense [1, 0, 0, 5] [1, 1]) [2, 0]
      [0, 1]).map (fun c => (c.shape, toArray c)) = some ([1], [1 * 1 + 6 * 5, 3 * 1 + 8 * 5]) := by decide +kernel

end Verif.Props
