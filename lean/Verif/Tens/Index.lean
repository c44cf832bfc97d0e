import Mathlib.Data.List.Perm.Basic
import Mathlib.Data.List.Nodup
import Mathlib.Data.List.GetD
import Mathlib.Data.Nat.Bitwise
import Mathlib.Tactic.Ring
import Mathlib.Algebra.BigOperators.Group.List.Basic

/-!
# Permuting the bits of array indices (`simulator/bi_array_helper.py`)

`permute_axes` moves the bits of every stored index.  Neighbouring bits that stay neighbours are first merged into
blocks, then every block is cut out and moved as a whole.
-/

namespace Verif.Tens

/-- one pass of the `while` loop that merges blocks, `simulator/bi_array_helper.py` 242-257 (and `bi_arrays.py` 868-885):
`perm` is the new place of every block, `shape` its width; block `i` is merged into block `i - 1` when it stays directly
behind it, and all later places move down by one.  `fuel` bounds the passes (each pass lowers `len(perm) - i`). -/
def mergeLoop : Nat → List Nat → List Nat → Nat → List Nat × List Nat
  | 0, perm, shape, _ => (perm, shape)
  | fuel + 1, perm, shape, i =>
    if i < perm.length then
      if perm.getD i 0 = perm.getD (i - 1) 0 + 1 then
        mergeLoop fuel ((perm.eraseIdx i).map fun x => if perm.getD (i - 1) 0 < x then x - 1 else x)
          ((shape.eraseIdx i).modify (i - 1) (· + 1)) i
      else mergeLoop fuel perm shape (i + 1)
    else (perm, shape)

/-- `invert_perm`, `simulator/bi_array_helper.py` 222-223 (and the list at 236) -/
def invertPerm (perm : List Nat) : List Nat := (List.range perm.length).map fun i => perm.idxOf i

/-- `bit_partition = [sum(perm_shape[:i]) for i in range(len(perm_shape) + 1)]`, `simulator/bi_array_helper.py` 266, 269 -/
def partition (shape : List Nat) : List Nat := (List.range (shape.length + 1)).map fun i => (shape.take i).sum

/-- `permuter` for one index, `simulator/bi_array_helper.py` 204-219 (`jitted_permuter` 184-201 is the same formula) -/
def permuter (index : Nat) (bp pbp perm : List Nat) : Nat :=
  (List.range perm.length).foldl (fun r i =>
    r ||| (((index &&& (((1 <<< (bp.getD (i + 1) 0 - bp.getD i 0)) - 1) <<< bp.getD i 0)) >>> bp.getD i 0)
      <<< pbp.getD (perm.getD i 0) 0)) 0

/-- `permute_axes`, `simulator/bi_array_helper.py` 226-288, for one index -/
def permuteAxes (ibp : List Nat) (index : Nat) : Nat :=
  let n := ibp.length
  let rev := (ibp.map fun x => n - 1 - x).reverse
  let perm := invertPerm rev
  let r := mergeLoop n perm (List.replicate n 1) 1
  let permuted := (invertPerm r.1).map fun i => r.2.getD i 0
  permuter index (partition r.2) (partition permuted) r.1

/-! ### Blocks -/

/-- where the block with place `p` starts: behind all blocks with a smaller place -/
def start (L : List (Nat × Nat)) (p : Nat) : Nat := ((L.filter fun x => x.1 < p).map (·.2)).sum

/-- the new position of every bit, in the order of the old positions -/
def flat (L : List (Nat × Nat)) : List Nat := L.flatMap fun x => (List.range x.2).map (start L x.1 + ·)

theorem start_append (A B : List (Nat × Nat)) (p : Nat) : start (A ++ B) p = start A p + start B p := by
  simp [start, List.filter_append]

theorem start_cons (x : Nat × Nat) (B : List (Nat × Nat)) (p : Nat) :
    start (x :: B) p = (if x.1 < p then x.2 else 0) + start B p := by
  simp only [start, List.filter_cons]
  by_cases h : x.1 < p <;> simp [h]

theorem start_succ_of_not_mem {L : List (Nat × Nat)} {p : Nat} (h : p ∉ L.map (·.1)) : start L (p + 1) = start L p := by
  unfold start
  congr 2
  apply List.filter_congr
  intro x hx
  have : x.1 ≠ p := fun e => h (e ▸ List.mem_map_of_mem hx)
  simp only [decide_eq_decide]
  omega

theorem start_succ {L : List (Nat × Nat)} (hn : (L.map (·.1)).Nodup) {p s : Nat} (h : (p, s) ∈ L) :
    start L (p + 1) = start L p + s := by
  induction L with
  | nil => simp at h
  | cons x L ih =>
    simp only [List.map_cons, List.nodup_cons] at hn
    rw [start_cons, start_cons]
    rcases List.mem_cons.1 h with e | e
    · subst e
      rw [start_succ_of_not_mem hn.1]
      simp; omega
    · rw [ih hn.2 e]
      have : x.1 ≠ p := fun e' => hn.1 (e' ▸ List.mem_map_of_mem e)
      by_cases h1 : x.1 < p
      · rw [if_pos h1, if_pos (by omega)]; omega
      · rw [if_neg h1, if_neg (by omega)]; omega

/-- the renumbering after a merge at place `p` -/
def lower (p x : Nat) : Nat := if p < x then x - 1 else x

def lowerL (p : Nat) (L : List (Nat × Nat)) : List (Nat × Nat) := L.map fun x => (lower p x.1, x.2)

theorem start_lowerL {p x : Nat} {L : List (Nat × Nat)} (hL : p ∉ L.map (·.1)) (hL1 : p + 1 ∉ L.map (·.1)) (hx : x ≠ p + 1) :
    start (lowerL p L) (lower p x) = start L x := by
  induction L with
  | nil => rfl
  | cons y L ih =>
    simp only [List.map_cons, List.mem_cons, not_or] at hL hL1
    show start ((lower p y.1, y.2) :: lowerL p L) (lower p x) = _
    rw [start_cons, start_cons, ih hL.2 hL1.2]
    congr 1
    simp only [lower]
    by_cases hp : p < y.1 <;> by_cases hq : p < x
    · simp only [if_pos hp, if_pos hq]
      by_cases hyx : y.1 < x
      · rw [if_pos (by omega), if_pos hyx]
      · rw [if_neg (by omega), if_neg hyx]
    · simp only [if_pos hp, if_neg hq]
      rw [if_neg (by omega), if_neg (by omega)]
    · simp only [if_neg hp, if_pos hq]
      have := hL.1
      rw [if_pos (by omega), if_pos (by omega)]
    · simp only [if_neg hp, if_neg hq]

theorem start_shift {A C : List (Nat × Nat)} {p s x : Nat} (hA : p ∉ A.map (·.1)) (hA1 : p + 1 ∉ A.map (·.1))
    (hC : p ∉ C.map (·.1)) (hC1 : p + 1 ∉ C.map (·.1)) (hx : x ≠ p + 1) :
    start (lowerL p A ++ (p, s + 1) :: lowerL p C) (lower p x) = start (A ++ (p, s) :: (p + 1, 1) :: C) x := by
  rw [start_append, start_append, start_cons, start_cons, start_cons, start_lowerL hA hA1 hx, start_lowerL hC hC1 hx]
  have : (if (p, s + 1).1 < lower p x then (p, s + 1).2 else 0)
      = (if (p, s).1 < x then (p, s).2 else 0) + (if (p + 1, 1).1 < x then (p + 1, 1).2 else 0) := by
    simp only [lower]
    by_cases h : p < x
    · simp only [if_pos h]
      rw [if_pos (by omega), if_pos (by omega)]
    · simp only [if_neg h]
      rw [if_neg (by omega)]
  rw [this]; omega

theorem flat_merge {A C : List (Nat × Nat)} {p s : Nat}
    (hn : ((A ++ (p, s) :: (p + 1, 1) :: C).map (·.1)).Nodup) :
    flat (lowerL p A ++ (p, s + 1) :: lowerL p C) = flat (A ++ (p, s) :: (p + 1, 1) :: C) := by
  have hn' := hn
  simp only [List.map_append, List.map_cons, List.nodup_append, List.nodup_cons, List.mem_cons, not_or] at hn'
  obtain ⟨_, ⟨⟨_, hC⟩, hC1, _⟩, hd⟩ := hn'
  have hA : p ∉ A.map (·.1) := fun h => hd p h p (Or.inl rfl) rfl
  have hA1 : p + 1 ∉ A.map (·.1) := fun h => hd _ h (p + 1) (Or.inr (Or.inl rfl)) rfl
  have key : ∀ x : Nat × Nat, x.1 ≠ p + 1 →
      start (lowerL p A ++ (p, s + 1) :: lowerL p C) (lower p x.1) = start (A ++ (p, s) :: (p + 1, 1) :: C) x.1 :=
    fun x hx => start_shift hA hA1 hC hC1 hx
  have part : ∀ D : List (Nat × Nat), p + 1 ∉ D.map (·.1) →
      ((lowerL p D).flatMap fun x => (List.range x.2).map (start (lowerL p A ++ (p, s + 1) :: lowerL p C) x.1 + ·))
        = D.flatMap fun x => (List.range x.2).map (start (A ++ (p, s) :: (p + 1, 1) :: C) x.1 + ·) := by
    intro D hD
    unfold lowerL
    rw [List.flatMap_map]
    apply List.flatMap_congr
    intro x hx
    have := key x (fun e => hD (e ▸ List.mem_map_of_mem hx))
    unfold lowerL at this
    simp only [this]
  have hp := key (p, s) (by simp)
  have hlp : lower p p = p := by simp [lower]
  rw [hlp] at hp
  have hp1 : start (A ++ (p, s) :: (p + 1, 1) :: C) (p + 1) = start (A ++ (p, s) :: (p + 1, 1) :: C) p + s :=
    start_succ hn (by simp)
  unfold flat
  rw [List.flatMap_append, List.flatMap_append, List.flatMap_cons, List.flatMap_cons, List.flatMap_cons,
    part A hA1, part C hC1]
  simp only [hp, hp1, List.range_succ, List.map_append, List.map_cons, List.map_nil, List.range_zero, List.nil_append,
    List.append_assoc, Nat.add_zero]

/-- the places are all different and below the number of blocks -/
def Labels (L : List (Nat × Nat)) : Prop := (L.map (·.1)).Nodup ∧ ∀ x ∈ L, x.1 < L.length

theorem labels_merge {A C : List (Nat × Nat)} {p s : Nat} (h : Labels (A ++ (p, s) :: (p + 1, 1) :: C)) :
    Labels (lowerL p A ++ (p, s + 1) :: lowerL p C) := by
  obtain ⟨hn, hb⟩ := h
  have hs : (A ++ (p, s) :: C).Sublist (A ++ (p, s) :: (p + 1, 1) :: C) := by
    apply List.Sublist.append_left
    exact List.Sublist.cons_cons _ (List.sublist_cons_self _ _)
  have he : (lowerL p A ++ (p, s + 1) :: lowerL p C).map (·.1) = ((A ++ (p, s) :: C).map (·.1)).map (lower p) := by
    simp [lowerL, lower, Function.comp_def]
  have hnot : p + 1 ∉ (A ++ (p, s) :: C).map (·.1) := by
    simp only [List.map_append, List.map_cons, List.nodup_append, List.nodup_cons, List.mem_cons, not_or] at hn
    simp only [List.map_append, List.map_cons, List.mem_append, List.mem_cons, not_or]
    exact ⟨fun h => hn.2.2 _ h (p + 1) (Or.inr (Or.inl rfl)) rfl, by omega, hn.2.1.2.1⟩
  constructor
  · rw [he]
    apply List.Nodup.map_on _ ((hs.map _).nodup hn)
    intro x hx y hy hxy
    have h1 : x ≠ p + 1 := fun e => hnot (e ▸ hx)
    have h2 : y ≠ p + 1 := fun e => hnot (e ▸ hy)
    simp only [lower] at hxy
    split at hxy <;> split at hxy <;> omega
  · have hp : p + 1 < (A ++ (p, s) :: (p + 1, 1) :: C).length := hb (p + 1, 1) (by simp)
    have hlen : (lowerL p A ++ (p, s + 1) :: lowerL p C).length + 1 = (A ++ (p, s) :: (p + 1, 1) :: C).length := by
      simp [lowerL]; omega
    intro x hx
    have hx' : x.1 ∈ (lowerL p A ++ (p, s + 1) :: lowerL p C).map (·.1) := List.mem_map_of_mem hx
    rw [he, List.mem_map] at hx'
    obtain ⟨y, hy, e⟩ := hx'
    obtain ⟨z, hz, e'⟩ := List.mem_map.1 hy
    have := hb z (hs.subset hz)
    simp only [lower] at e
    split at e <;> omega

theorem lowerL_fst (p : Nat) (L : List (Nat × Nat)) :
    (lowerL p L).map (·.1) = (L.map (·.1)).map fun x => if p < x then x - 1 else x := by
  simp [lowerL, lower]

theorem lowerL_snd (p : Nat) (L : List (Nat × Nat)) : (lowerL p L).map (·.2) = L.map (·.2) := by simp [lowerL]

theorem modify_mid {α : Type} (A : List α) (x : α) (R : List α) (f : α → α) :
    (A ++ x :: R).modify A.length f = A ++ f x :: R := by
  induction A with
  | nil => rfl
  | cons a A ih => simp [ih]

theorem mergeLoop_ok : ∀ (fuel : Nat) (A : List (Nat × Nat)) (p s : Nat) (R : List Nat), R.length < fuel →
    Labels (A ++ (p, s) :: R.map (·, 1)) →
    ∃ L, mergeLoop fuel (A.map (·.1) ++ p :: R) (A.map (·.2) ++ s :: List.replicate R.length 1) (A.length + 1)
        = (L.map (·.1), L.map (·.2)) ∧ Labels L ∧ flat L = flat (A ++ (p, s) :: R.map (·, 1))
  | 0, _, _, _, _, h, _ => by omega
  | fuel + 1, A, p, s, [], _, hl => by
    refine ⟨A ++ [(p, s)], ?_, hl, rfl⟩
    simp [mergeLoop]
  | fuel + 1, A, p, s, q :: R, hf, hl => by
    have h1 : A.length + 1 < (A.map (·.1) ++ p :: q :: R).length := by simp
    have h2 : (A.map (·.1) ++ p :: q :: R).getD (A.length + 1) 0 = q := by
      rw [List.getD_eq_getElem _ _ h1, List.getElem_append_right (by simp)]
      simp
    have h3 : (A.map (·.1) ++ p :: q :: R).getD (A.length + 1 - 1) 0 = p := by
      rw [List.getD_eq_getElem _ _ (by simp), List.getElem_append_right (by simp)]
      simp
    rw [mergeLoop, if_pos h1, h2, h3]
    by_cases hq : q = p + 1
    · subst hq
      rw [if_pos rfl]
      have hl' : Labels (lowerL p A ++ (p, s + 1) :: (lowerL p (R.map (·, 1)))) := labels_merge hl
      have hR : lowerL p (R.map (·, 1)) = (R.map (lower p)).map (·, 1) := by simp [lowerL]
      rw [hR] at hl'
      obtain ⟨L, e, hL, hF⟩ := mergeLoop_ok fuel (lowerL p A) p (s + 1) (R.map (lower p)) (by simp at hf ⊢; omega) hl'
      refine ⟨L, ?_, hL, ?_⟩
      · rw [← e]
        congr 1
        · rw [List.eraseIdx_append_of_length_le (by simp)]
          simp [lowerL_fst, lower]
        · rw [List.eraseIdx_append_of_length_le (by simp)]
          simp only [List.length_map, Nat.add_sub_cancel_left, lowerL_snd, List.eraseIdx_cons_succ, List.length_cons,
            List.replicate_succ, List.eraseIdx_zero, List.tail_cons, Nat.add_sub_cancel]
          rw [show A.length = (A.map (·.2)).length by simp, modify_mid]
        · simp [lowerL]
      · rw [hF, ← hR]
        exact flat_merge (A := A) (C := R.map (·, 1)) hl.1
    · rw [if_neg hq]
      have hl' : Labels ((A ++ [(p, s)]) ++ (q, 1) :: R.map (·, 1)) := by simpa using hl
      obtain ⟨L, e, hL, hF⟩ := mergeLoop_ok fuel (A ++ [(p, s)]) q 1 R (by simp at hf ⊢; omega) hl'
      refine ⟨L, ?_, hL, by simpa using hF⟩
      rw [← e]
      simp [List.replicate_succ]

/-! ### Moving the blocks -/

theorem block_bit (i w b t j : Nat) :
    (((i &&& (((1 <<< w) - 1) <<< b)) >>> b) <<< t).testBit j = (decide (t ≤ j) && decide (j - t < w) && i.testBit (b + (j - t))) := by
  rw [Nat.testBit_shiftLeft, Nat.testBit_shiftRight, Nat.testBit_and, Nat.testBit_shiftLeft, Nat.one_shiftLeft,
    Nat.testBit_two_pow_sub_one]
  by_cases h : t ≤ j
  · have h2 : b ≤ b + (j - t) := by omega
    have h3 : b + (j - t) - b = j - t := by omega
    simp [h, h2, h3, Bool.and_comm]
  · simp [h]

theorem foldl_or_bit (f : Nat → Nat) (l : List Nat) (r j : Nat) :
    (l.foldl (fun r i => r ||| f i) r).testBit j = (r.testBit j || l.any fun i => (f i).testBit j) := by
  induction l generalizing r with
  | nil => simp
  | cons a l ih => rw [List.foldl_cons, ih, Nat.testBit_or, List.any_cons, Bool.or_assoc]

theorem partition_getD {shape : List Nat} {i : Nat} (h : i ≤ shape.length) : (partition shape).getD i 0 = (shape.take i).sum := by
  rw [partition, List.getD_eq_getElem _ _ (by simp; omega)]
  simp

theorem sum_take_succ' (l : List Nat) {i : Nat} (h : i < l.length) : (l.take (i + 1)).sum = (l.take i).sum + l[i] := by
  rw [← List.take_concat_get' _ _ h, List.sum_append]
  simp

theorem flat_any (T : Nat → Nat) (P : Nat → Prop) (t : Nat) : ∀ (L : List (Nat × Nat)) (b : Nat),
    (∃ k, ∃ h : k < L.length, T L[k].1 ≤ t ∧ t - T L[k].1 < L[k].2 ∧ P (b + ((L.map (·.2)).take k).sum + (t - T L[k].1)))
      ↔ ∃ m, (L.flatMap fun x => (List.range x.2).map (T x.1 + ·))[m]? = some t ∧ P (b + m)
  | [], b => by simp
  | x :: L, b => by
    have ih := flat_any T P t L (b + x.2)
    constructor
    · rintro ⟨k, hk, h1, h2, h3⟩
      cases k with
      | zero =>
        simp only [List.getElem_cons_zero] at h1 h2 h3
        refine ⟨t - T x.1, ?_, by simpa using h3⟩
        rw [List.flatMap_cons, List.getElem?_append_left (by simpa using h2)]
        simp [h2]
        omega
      | succ k =>
        have hk' : k < L.length := by simpa using hk
        simp only [List.getElem_cons_succ] at h1 h2 h3
        obtain ⟨m, hm, hp⟩ := ih.1 ⟨k, hk', h1, h2, by
          simpa [Nat.add_assoc, Nat.add_comm, Nat.add_left_comm] using h3⟩
        refine ⟨x.2 + m, ?_, by rw [← Nat.add_assoc]; exact hp⟩
        rw [List.flatMap_cons, List.getElem?_append_right (by simp)]
        simpa using hm
    · rintro ⟨m, hm, hp⟩
      by_cases h : m < x.2
      · refine ⟨0, by simp, ?_⟩
        rw [List.flatMap_cons, List.getElem?_append_left (by simpa using h)] at hm
        simp [h] at hm
        simp only [List.getElem_cons_zero, List.take_zero, List.sum_nil, Nat.add_zero]
        refine ⟨by omega, by omega, ?_⟩
        rwa [show t - T x.1 = m by omega]
      · rw [List.flatMap_cons, List.getElem?_append_right (by simp; omega)] at hm
        obtain ⟨k, hk, h1, h2, h3⟩ := ih.2 ⟨m - x.2, by simpa using hm, by rwa [show b + x.2 + (m - x.2) = b + m by omega]⟩
        refine ⟨k + 1, by simpa using hk, by simpa using h1, by simpa using h2, ?_⟩
        simpa [Nat.add_assoc, Nat.add_comm, Nat.add_left_comm] using h3

theorem start_zero (L : List (Nat × Nat)) : start L 0 = 0 := by simp [start]

theorem labels_mem {L : List (Nat × Nat)} (h : Labels L) {x : Nat} (hx : x < L.length) : x ∈ L.map (·.1) := by
  have hp : (L.map (·.1)).Perm (List.range L.length) := by
    apply List.Subperm.perm_of_length_le
    · apply List.subperm_of_subset h.1
      intro y hy
      obtain ⟨z, hz, rfl⟩ := List.mem_map.1 hy
      exact List.mem_range.2 (h.2 z hz)
    · simp
  exact hp.mem_iff.2 (List.mem_range.2 hx)

theorem permuted_sum {L : List (Nat × Nat)} (h : Labels L) : ∀ x, x ≤ L.length →
    (((invertPerm (L.map (·.1))).map fun i => (L.map (·.2)).getD i 0).take x).sum = start L x
  | 0, _ => by simp [start_zero]
  | x + 1, hx => by
    have hm := labels_mem h (show x < L.length by omega)
    have hi : (L.map (·.1)).idxOf x < L.length := by simpa using List.idxOf_lt_length_iff.2 hm
    have he : L[(L.map (·.1)).idxOf x].1 = x := by
      have := List.getElem_idxOf (List.idxOf_lt_length_iff.2 hm)
      rwa [List.getElem_map] at this
    rw [sum_take_succ' _ (by simp [invertPerm]; omega), permuted_sum h x (by omega),
      start_succ h.1 (s := L[(L.map (·.1)).idxOf x].2) (by
        have := List.getElem_mem hi
        convert this using 1
        exact Prod.ext he.symm rfl)]
    congr 1
    simp only [invertPerm, List.getElem_map, List.getElem_range]
    rw [List.getD_eq_getElem _ _ (by simpa using hi)]
    simp

theorem permuter_bit {L : List (Nat × Nat)} (h : Labels L) (i j : Nat) :
    (permuter i (partition (L.map (·.2))) (partition ((invertPerm (L.map (·.1))).map fun i => (L.map (·.2)).getD i 0))
      (L.map (·.1))).testBit j = true ↔ ∃ m, (flat L)[m]? = some j ∧ i.testBit m = true := by
  have key := flat_any (start L) (fun m => i.testBit m = true) j L 0
  simp only [Nat.zero_add] at key
  unfold flat
  rw [← key, permuter, foldl_or_bit]
  simp only [Nat.zero_testBit, Bool.false_or, List.any_eq_true, List.mem_range, block_bit, Bool.and_eq_true, decide_eq_true_eq,
    List.length_map]
  have hk : ∀ k, (h' : k < L.length) → (partition (L.map (·.2))).getD (k + 1) 0 - (partition (L.map (·.2))).getD k 0 = L[k].2
      ∧ (partition (L.map (·.2))).getD k 0 = ((L.map (·.2)).take k).sum
      ∧ (partition ((invertPerm (L.map (·.1))).map fun i => (L.map (·.2)).getD i 0)).getD ((L.map (·.1)).getD k 0) 0
        = start L L[k].1 := by
    intro k h'
    have e2 : (partition (L.map (·.2))).getD k 0 = ((L.map (·.2)).take k).sum := partition_getD (by simp; omega)
    refine ⟨?_, e2, ?_⟩
    · rw [e2, partition_getD (by simp; omega), sum_take_succ' _ (by simpa using h')]
      simp
    · have hlt := h.2 L[k] (List.getElem_mem h')
      have e3 : (L.map (·.1)).getD k 0 = L[k].1 := by
        rw [List.getD_eq_getElem _ _ (by simpa using h')]; simp
      rw [e3, partition_getD (by simp [invertPerm]; omega), permuted_sum h _ (by omega)]
  constructor
  · rintro ⟨k, h', ⟨h1, h2⟩, h3⟩
    obtain ⟨e1, e2, e3⟩ := hk k h'
    rw [e3] at h1 h2 h3
    rw [e1] at h2
    rw [e2] at h3
    exact ⟨k, h', h1, h2, h3⟩
  · rintro ⟨k, h', h1, h2, h3⟩
    obtain ⟨e1, e2, e3⟩ := hk k h'
    refine ⟨k, h', ⟨?_, ?_⟩, ?_⟩
    · rw [e3]; exact h1
    · rw [e3, e1]; exact h2
    · rw [e3, e2]; exact h3

/-- blocks of width one: every bit goes to its own place -/
theorem flat_ones {perm : List Nat} (hn : perm.Nodup) (hb : ∀ x ∈ perm, x < perm.length) : flat (perm.map (·, 1)) = perm := by
  have hl : Labels (perm.map (·, 1)) := ⟨by simpa [Function.comp_def] using hn, by simpa using hb⟩
  have hs : ∀ x, x ≤ perm.length → start (perm.map (·, 1)) x = x := by
    intro x
    induction x with
    | zero => intro _; exact start_zero _
    | succ x ih =>
      intro hx
      have hm := labels_mem hl (x := x) (by simp; omega)
      rw [start_succ hl.1 (s := 1) (by simpa using hm), ih (by omega)]
  unfold flat
  rw [List.flatMap_map]
  have : ∀ l : List Nat, (∀ x ∈ l, x < perm.length) →
      (l.flatMap fun x => (List.range (x, 1).2).map (start (perm.map (·, 1)) (x, 1).1 + ·)) = l := by
    intro l hl'
    induction l with
    | nil => rfl
    | cons a l ih =>
      rw [List.flatMap_cons, ih fun x hx => hl' x (by simp [hx])]
      simp [hs a (by have := hl' a (by simp); omega)]
  exact this perm hb

theorem invertPerm_nodup {l : List Nat} (h : l.Perm (List.range l.length)) : (invertPerm l).Nodup := by
  unfold invertPerm
  apply List.Nodup.map_on _ List.nodup_range
  intro x hx y hy e
  exact (List.idxOf_inj (h.mem_iff.2 hx)).1 e

theorem invertPerm_lt {l : List Nat} (h : l.Perm (List.range l.length)) : ∀ x ∈ invertPerm l, x < (invertPerm l).length := by
  intro x hx
  simp only [invertPerm, List.mem_map, List.length_map, List.length_range] at hx ⊢
  obtain ⟨y, hy, rfl⟩ := hx
  exact List.idxOf_lt_length_iff.2 (h.mem_iff.2 hy)

theorem permuteAxes_flat {ibp : List Nat} (h : ibp.Perm (List.range ibp.length)) (i j : Nat) :
    (permuteAxes ibp i).testBit j = true ↔
      ∃ m, (invertPerm (ibp.map fun x => ibp.length - 1 - x).reverse)[m]? = some j ∧ i.testBit m = true := by
  set rev := (ibp.map fun x => ibp.length - 1 - x).reverse with hrev
  have hlen : rev.length = ibp.length := by simp [hrev]
  have hr : rev.Perm (List.range rev.length) := by
    apply List.Subperm.perm_of_length_le
    · apply List.subperm_of_subset
      · rw [hrev, List.nodup_reverse]
        apply List.Nodup.map_on _ (h.nodup_iff.2 List.nodup_range)
        intro x hx y hy e
        have := List.mem_range.1 (h.mem_iff.1 hx)
        have := List.mem_range.1 (h.mem_iff.1 hy)
        omega
      · intro x hx
        rw [hrev, List.mem_reverse, List.mem_map] at hx
        obtain ⟨y, hy, rfl⟩ := hx
        have := List.mem_range.1 (h.mem_iff.1 hy)
        rw [hlen, List.mem_range]
        omega
    · simp
  have hn := invertPerm_nodup hr
  have hb := invertPerm_lt hr
  have hpl : (invertPerm rev).length = ibp.length := by simp [invertPerm, hlen]
  cases hc : invertPerm rev with
  | nil =>
    have h0 : ibp = [] := by
      rw [hc] at hpl
      exact List.eq_nil_of_length_eq_zero hpl.symm
    subst h0
    simp [permuteAxes, mergeLoop, permuter, invertPerm]
  | cons p R =>
    rw [hc] at hn hb hpl
    have hl : Labels ([] ++ (p, 1) :: R.map (·, 1)) := by
      constructor
      · simpa [Function.comp_def] using hn
      · simpa using hb
    obtain ⟨L, e, hL, hF⟩ := mergeLoop_ok ibp.length [] p 1 R (by simp at hpl; omega) hl
    have hflat : flat L = p :: R := by
      rw [hF]
      have := flat_ones hn hb
      simpa using this
    have hrep : List.replicate ibp.length 1 = 1 :: List.replicate R.length 1 := by
      rw [← hpl]; simp [List.replicate_succ]
    have hdef : permuteAxes ibp i = permuter i (partition (L.map (·.2)))
        (partition ((invertPerm (L.map (·.1))).map fun i => (L.map (·.2)).getD i 0)) (L.map (·.1)) := by
      unfold permuteAxes
      simp only [← hrev, hc, hrep]
      simp only [List.map_nil, List.nil_append, List.length_nil, Nat.zero_add] at e
      rw [e]
    rw [hdef, permuter_bit hL, hflat]

/-- every bit of the permuted index: axis `r` of the result (counted from the most significant bit) is axis `ibp[r]` -/
theorem permuteAxes_bit {ibp : List Nat} (h : ibp.Perm (List.range ibp.length)) (i : Nat) {r : Nat} (hr : r < ibp.length) :
    (permuteAxes ibp i).testBit (ibp.length - 1 - r) = i.testBit (ibp.length - 1 - ibp[r]) := by
  have hn : ibp.Nodup := h.nodup_iff.2 List.nodup_range
  have hlt : ibp[r] < ibp.length := List.mem_range.1 (h.mem_iff.1 (List.getElem_mem hr))
  rw [Bool.eq_iff_iff, permuteAxes_flat h]
  set rev := (ibp.map fun x => ibp.length - 1 - x).reverse with hrev
  have hlen : rev.length = ibp.length := by simp [hrev]
  have hg : ∀ k, (hk : k < ibp.length) → rev[k]'(by omega) = ibp.length - 1 - ibp[ibp.length - 1 - k] := by
    intro k hk
    simp [hrev]
  have hmem : ∀ m, m < ibp.length → m ∈ rev := by
    intro m hm
    rw [hrev, List.mem_reverse, List.mem_map]
    exact ⟨ibp.length - 1 - m, h.mem_iff.2 (List.mem_range.2 (by omega)), by omega⟩
  constructor
  · rintro ⟨m, hm, hb⟩
    obtain ⟨hm1, hm2⟩ := List.getElem?_eq_some_iff.1 hm
    simp only [invertPerm, List.length_map, List.length_range, List.getElem_map, List.getElem_range] at hm1 hm2
    have hi := List.getElem_idxOf (List.idxOf_lt_length_iff.2 (hmem m (by omega)))
    have : rev[ibp.length - 1 - r]'(by omega) = m := by
      refine Eq.trans ?_ hi
      congr 1; exact hm2.symm
    rw [hg _ (by omega)] at this
    have e : ibp.length - 1 - (ibp.length - 1 - r) = r := by omega
    simp only [e] at this
    rwa [this]
  · intro hb
    refine ⟨ibp.length - 1 - ibp[r], ?_, hb⟩
    rw [List.getElem?_eq_some_iff]
    refine ⟨by simp [invertPerm, hlen]; omega, ?_⟩
    simp only [invertPerm, List.getElem_map, List.getElem_range]
    have e := hg (ibp.length - 1 - r) (by omega)
    have e' : ibp.length - 1 - (ibp.length - 1 - r) = r := by omega
    simp only [e'] at e
    rw [← e]
    apply List.Nodup.idxOf_getElem
    rw [hrev, List.nodup_reverse]
    apply List.Nodup.map_on _ hn
    intro x hx y hy exy
    have := List.mem_range.1 (h.mem_iff.1 hx)
    have := List.mem_range.1 (h.mem_iff.1 hy)
    omega

/-- no bits outside the array -/
theorem permuteAxes_lt {ibp : List Nat} (h : ibp.Perm (List.range ibp.length)) (i : Nat) : permuteAxes ibp i < 2 ^ ibp.length := by
  apply Nat.lt_pow_two_of_testBit
  intro j hj
  rw [Bool.eq_false_iff]
  intro hb
  obtain ⟨m, hm, _⟩ := (permuteAxes_flat h i j).1 hb
  obtain ⟨hm1, hm2⟩ := List.getElem?_eq_some_iff.1 hm
  simp only [invertPerm, List.length_map, List.length_range, List.getElem_map, List.getElem_range, List.length_reverse] at hm1 hm2
  have : (List.map (fun x => ibp.length - 1 - x) ibp).reverse.idxOf m < (List.map (fun x => ibp.length - 1 - x) ibp).reverse.length := by
    rw [List.idxOf_lt_length_iff, List.mem_reverse, List.mem_map]
    exact ⟨ibp.length - 1 - m, h.mem_iff.2 (List.mem_range.2 (by omega)), by omega⟩
  simp only [List.length_reverse, List.length_map] at this
  omega

end Verif.Tens
