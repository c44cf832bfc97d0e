import Verif.Tens.Lazy
import Mathlib.Algebra.BigOperators.Ring.List
import Mathlib.Algebra.BigOperators.Group.List.Lemmas
import Mathlib.Tactic.LinearCombination

/-!
# Sparse matrix multiplication (`simulator/bi_array_helper.py`)
-/

namespace Verif.Tens

set_option linter.unusedSectionVars false

variable {K : Type} [CommRing K] [DecidableEq K]

/-- a sparse matrix: rows, columns and data -/
abbrev Coo (K : Type) := List (Nat × Nat × K)

/-- `get_coordinates`, `simulator/bi_array_helper.py` 106-137; `c` is `log2(shape[1])` -/
def coords (c : Nat) (l : List (Nat × K)) : Coo K := l.map fun x => (x.1 >>> c, x.1 &&& ((1 <<< c) - 1), x.2)

/-- `gen_flat_coords`, `simulator/bi_array_helper.py` 142-148 -/
def flatCoords (c : Nat) (m : Coo K) : List (Nat × K) := m.map fun x => ((x.1 <<< c) ||| x.2.1, x.2.2)

/-- exchanging rows and columns -/
def transp (m : Coo K) : Coo K := m.map fun x => (x.2.1, x.1, x.2.2)

/-- the key of `sort_indices_jitted`, `simulator/bi_array_helper.py` 392-393; `c` is `log2(shape_1)` -/
def key (c : Nat) (x : Nat × Nat × K) : Nat := (x.1 <<< (c + 1)) ^^^ x.2.1

/-- `sort_indices_jitted`, `simulator/bi_array_helper.py` 390-401 -/
def sortIdx (c : Nat) (m : Coo K) : Coo K := m.insertionSort fun x y => key c x ≤ key c y

/-- the runs with equal rows, `find_unique_markers`, `simulator/bi_array_helper.py` 540-552.  Simplified: the code reads
`arr[0]` and so needs at least one entry; here no entries give no runs. -/
def groups : Coo K → List (Nat × List (Nat × K))
  | [] => []
  | x :: l => match groups l with
    | [] => [(x.1, [x.2])]
    | g :: gs => if x.1 = g.1 then (x.1, x.2 :: g.2) :: gs else (x.1, [x.2]) :: g :: gs

/-- one entry of `coo_mult_kernel`, `simulator/bi_array_helper.py` 518-534: blocks whose ranges do not meet are skipped -/
def dotBlocks (a b : List (Nat × K)) : K :=
  if (b.getLast?.map (·.1)).getD 0 < (a.head?.map (·.1)).getD 0 then 0
  else if (a.getLast?.map (·.1)).getD 0 < (b.head?.map (·.1)).getD 0 then 0
  else (a.map fun x => (b.map fun y => if x.1 = y.1 then x.2 * y.2 else 0).sum).sum

/-- `coo_sparse_matrix_mult_inner`, `simulator/bi_array_helper.py` 491-510, for a matrix with `2 ^ k` columns.  Simplified:
exact numbers, an entry is dropped when it is zero. -/
def mulInner (k : Nat) (A B : Coo K) : Coo K :=
  (groups (sortIdx k A)).flatMap fun x => (groups (sortIdx k (transp B))).filterMap fun y =>
    if dotBlocks x.2 y.2 = 0 then none else some (x.1, y.1, dotBlocks x.2 y.2)

/-- `coo_sparse_matrix_mult`, `simulator/bi_array_helper.py` 562-590: the smaller side runs over the outer loop -/
def cooMul (r k c : Nat) (A B : Coo K) : Coo K :=
  if 2 ^ r < 2 ^ c then mulInner k A B else transp (mulInner k (transp B) (transp A))

/-- the entry of a sparse matrix -/
def entry (m : Coo K) (r c : Nat) : K := (m.map fun x => if x.1 = r ∧ x.2.1 = c then x.2.2 else 0).sum

/-- `(A @ B).tocoo()` of scipy (not modelled further): the non-zero entries of the product, row by row -/
def scipyMul (r k c : Nat) (A B : Coo K) : Coo K :=
  (List.range (2 ^ r)).flatMap fun i => (List.range (2 ^ c)).filterMap fun j =>
    let s := ((List.range (2 ^ k)).map fun l => entry A i l * entry B l j).sum
    if s = 0 then none else some (i, j, s)

/-- `sparse_matrix_mult`, `simulator/bi_array_helper.py` 593-612; `own` is the prediction of `get_prediction`, negated -/
def sparseMul (own : Bool) (r k c : Nat) (A B : Coo K) : Coo K := if own then cooMul r k c A B else scipyMul r k c A B

/-! ### Values -/

theorem entry_nil (r c : Nat) : entry ([] : Coo K) r c = 0 := rfl

theorem entry_cons (x : Nat × Nat × K) (m : Coo K) (r c : Nat) :
    entry (x :: m) r c = (if x.1 = r ∧ x.2.1 = c then x.2.2 else 0) + entry m r c := by simp [entry]

theorem entry_append (m m' : Coo K) (r c : Nat) : entry (m ++ m') r c = entry m r c + entry m' r c := by simp [entry]

theorem entry_perm {m m' : Coo K} (h : m.Perm m') (r c : Nat) : entry m r c = entry m' r c := (h.map _).sum_eq

theorem entry_transp (m : Coo K) (r c : Nat) : entry (transp m) r c = entry m c r := by
  unfold entry transp
  rw [List.map_map]
  congr 1
  apply List.map_congr_left
  intro x _
  simp only [Function.comp_apply]
  by_cases h : x.1 = c <;> by_cases h' : x.2.1 = r <;> simp [h, h']

theorem entry_flatMap {α : Type} (l : List α) (f : α → Coo K) (r c : Nat) :
    entry (l.flatMap f) r c = (l.map fun a => entry (f a) r c).sum := by
  induction l with
  | nil => simp [entry]
  | cons a l ih => rw [List.flatMap_cons, entry_append, ih]; simp

theorem entry_filterMap {α : Type} (l : List α) (i : α → Nat) (j : α → Nat) (v : α → K) (r c : Nat) :
    entry (l.filterMap fun a => if v a = 0 then none else some (i a, j a, v a)) r c
      = (l.map fun a => if i a = r ∧ j a = c then v a else 0).sum := by
  induction l with
  | nil => rfl
  | cons a l ih =>
    rw [List.filterMap_cons]
    by_cases h : v a = 0
    · simp [h, ih]
    · simp only [h, if_false, entry_cons, ih, List.map_cons, List.sum_cons]

/-- runs add up to the whole list -/
theorem groups_sum (m : Coo K) (r : Nat) (f : Nat × K → K) :
    ((groups m).map fun g => if g.1 = r then (g.2.map f).sum else 0).sum
      = (m.map fun x => if x.1 = r then f x.2 else 0).sum := by
  induction m with
  | nil => rfl
  | cons x m ih =>
    simp only [groups, List.map_cons, List.sum_cons]
    rw [← ih]
    cases hg : groups m with
    | nil => simp
    | cons g gs =>
      simp only [List.map_cons, List.sum_cons]
      split
      · next h =>
        simp only [List.map_cons, List.sum_cons]
        by_cases h' : x.1 = r
        · rw [if_pos h', if_pos h', if_pos (h ▸ h')]; ring
        · rw [if_neg h', if_neg h', if_neg (h ▸ h')]; ring
      · simp

theorem groups_mem {m : Coo K} {g : Nat × List (Nat × K)} (hg : g ∈ groups m) :
    g.2 ≠ [] ∧ (g.2.map fun y => (g.1, y)).Sublist m := by
  induction m generalizing g with
  | nil => simp [groups] at hg
  | cons x m ih =>
    simp only [groups] at hg
    cases hc : groups m with
    | nil =>
      rw [hc] at hg
      simp only [List.mem_singleton] at hg
      subst hg
      simp
    | cons h gs =>
      rw [hc] at hg
      simp only at hg
      split at hg
      · next e =>
        rcases List.mem_cons.1 hg with rfl | hg
        · refine ⟨by simp, ?_⟩
          simp only [List.map_cons]
          apply List.Sublist.cons_cons
          rw [e]
          exact (ih (g := h) (by rw [hc]; simp)).2
        · have := ih (g := g) (by rw [hc]; simp [hg])
          exact ⟨this.1, this.2.trans (List.sublist_cons_self _ _)⟩
      · rcases List.mem_cons.1 hg with rfl | hg
        · simp
        · have := ih (g := g) (by rw [hc]; exact hg)
          exact ⟨this.1, this.2.trans (List.sublist_cons_self _ _)⟩

/-- the full double sum -/
def dotFull (a b : List (Nat × K)) : K := (a.map fun x => (b.map fun y => if x.1 = y.1 then x.2 * y.2 else 0).sum).sum

theorem sum_zero_of {α : Type} (l : List α) (f : α → K) (h : ∀ x ∈ l, f x = 0) : (l.map f).sum = 0 := by
  induction l with
  | nil => rfl
  | cons a l ih => simp [h a (by simp), ih fun x hx => h x (by simp [hx])]

theorem sum_comm' {α β : Type} (l : List α) (l' : List β) (f : α → β → K) :
    (l.map fun a => (l'.map (f a)).sum).sum = (l'.map fun b => (l.map fun a => f a b).sum).sum := by
  induction l with
  | nil => simp
  | cons a l ih => simp [ih, List.sum_map_add]

theorem pairwise_head {l : List (Nat × K)} (h : l.Pairwise fun x y => x.1 ≤ y.1) {x : Nat × K} (hx : x ∈ l) :
    (l.head?.map (·.1)).getD 0 ≤ x.1 := by
  cases l with
  | nil => simp at hx
  | cons a l =>
    simp only [List.head?_cons, Option.map_some, Option.getD_some]
    rcases List.mem_cons.1 hx with rfl | hx
    · exact le_refl _
    · exact (List.pairwise_cons.1 h).1 x hx

theorem pairwise_last {l : List (Nat × K)} (h : l.Pairwise fun x y => x.1 ≤ y.1) {x : Nat × K} (hx : x ∈ l) :
    x.1 ≤ (l.getLast?.map (·.1)).getD 0 := by
  induction l generalizing x with
  | nil => simp at hx
  | cons a l ih =>
    cases l with
    | nil => simp at hx; simp [hx]
    | cons b l =>
      rw [List.getLast?_cons_cons]
      rcases List.mem_cons.1 hx with e | hx
      · have h1 := (List.pairwise_cons.1 h).1 b (by simp)
        have h2 := ih (List.pairwise_cons.1 h).2 (x := b) (List.mem_cons_self)
        rw [e]
        exact le_trans h1 h2
      · exact ih (List.pairwise_cons.1 h).2 hx

theorem dotBlocks_eq {a b : List (Nat × K)} (ha : a.Pairwise fun x y => x.1 ≤ y.1) (hb : b.Pairwise fun x y => x.1 ≤ y.1) :
    dotBlocks a b = dotFull a b := by
  unfold dotBlocks dotFull
  split
  · next h =>
    symm
    apply sum_zero_of
    intro x hx
    apply sum_zero_of
    intro y hy
    have h1 := pairwise_head ha hx
    have h2 := pairwise_last hb hy
    rw [if_neg (by omega)]
  · split
    · next h =>
      symm
      apply sum_zero_of
      intro x hx
      apply sum_zero_of
      intro y hy
      have h1 := pairwise_head hb hy
      have h2 := pairwise_last ha hx
      rw [if_neg (by omega)]
    · rfl

theorem key_eq {c : Nat} {x : Nat × Nat × K} (h : x.2.1 < 2 ^ c) : key c x = x.1 * 2 ^ (c + 1) + x.2.1 := by
  unfold key
  apply Nat.eq_of_testBit_eq
  intro j
  have h' : x.2.1 < 2 ^ (c + 1) := lt_of_lt_of_le h (Nat.pow_le_pow_right (by simp) (by omega))
  rw [Nat.mul_comm x.1, Nat.testBit_two_pow_mul_add _ h', Nat.testBit_xor, Nat.testBit_shiftLeft]
  by_cases hj : j < c + 1
  · have h1 : ¬ c + 1 ≤ j := by omega
    simp only [if_pos hj, h1, decide_false, Bool.false_and, Bool.false_xor]
  · have : x.2.1.testBit j = false :=
      Nat.testBit_lt_two_pow (lt_of_lt_of_le h' (Nat.pow_le_pow_right (by simp) (by omega)))
    have h1 : c + 1 ≤ j := by omega
    simp only [if_neg hj, h1, decide_true, Bool.true_and, this, Bool.xor_false]

theorem key_le {c : Nat} {x y : Nat × Nat × K} (hx : x.2.1 < 2 ^ c) (hy : y.2.1 < 2 ^ c) (h : key c x ≤ key c y) :
    x.1 < y.1 ∨ (x.1 = y.1 ∧ x.2.1 ≤ y.2.1) := by
  rw [key_eq hx, key_eq hy] at h
  rw [pow_succ] at h
  rcases Nat.lt_trichotomy x.1 y.1 with h1 | h1 | h1
  · exact Or.inl h1
  · rw [h1] at h
    exact Or.inr ⟨h1, by omega⟩
  · exfalso
    have : (y.1 + 1) * (2 ^ c * 2) ≤ x.1 * (2 ^ c * 2) := Nat.mul_le_mul_right _ h1
    rw [Nat.add_mul] at this
    omega

theorem sortIdx_perm (c : Nat) (m : Coo K) : (sortIdx c m).Perm m := List.perm_insertionSort _ _

theorem sortIdx_pairwise {c : Nat} {m : Coo K} (h : ∀ x ∈ m, x.2.1 < 2 ^ c) :
    (sortIdx c m).Pairwise fun x y => x.1 < y.1 ∨ (x.1 = y.1 ∧ x.2.1 ≤ y.2.1) := by
  have hs : (sortIdx c m).Pairwise fun x y => key c x ≤ key c y := by
    unfold sortIdx
    have : Std.Total fun x y : Nat × Nat × K => key c x ≤ key c y := ⟨fun x y => le_total _ _⟩
    have : IsTrans (Nat × Nat × K) fun x y => key c x ≤ key c y := ⟨fun x y z h1 h2 => le_trans h1 h2⟩
    exact List.pairwise_insertionSort _ _
  apply List.Pairwise.imp_of_mem _ hs
  intro x y hx hy hxy
  exact key_le (h x ((sortIdx_perm c m).mem_iff.1 hx)) (h y ((sortIdx_perm c m).mem_iff.1 hy)) hxy

theorem groups_pairwise {c : Nat} {m : Coo K} (h : ∀ x ∈ m, x.2.1 < 2 ^ c) {g : Nat × List (Nat × K)}
    (hg : g ∈ groups (sortIdx c m)) : g.2.Pairwise fun x y => x.1 ≤ y.1 := by
  have h1 := (sortIdx_pairwise h).sublist (groups_mem hg).2
  rw [List.pairwise_map] at h1
  apply h1.imp
  intro x y hxy
  simpa using hxy

/-- the rows of the runs are different -/
theorem groups_nodup {m : Coo K} (h : m.Pairwise fun x y => x.1 ≤ y.1) :
    ((groups m).map (·.1)).Pairwise (· < ·) ∧ ∀ g ∈ (groups m).head?, ∀ x ∈ m.head?, g.1 = x.1 := by
  induction m with
  | nil => simp [groups]
  | cons x m ih =>
    obtain ⟨h1, h2⟩ := List.pairwise_cons.1 h
    obtain ⟨i1, i2⟩ := ih h2
    simp only [groups]
    cases hc : groups m with
    | nil => simp
    | cons g gs =>
      rw [hc] at i1 i2
      simp only [List.map_cons, List.pairwise_cons] at i1
      dsimp only
      by_cases e : x.1 = g.1
      · rw [if_pos e]
        refine ⟨?_, by simp⟩
        simp only [List.map_cons, List.pairwise_cons]
        exact ⟨fun a ha => e ▸ i1.1 a ha, i1.2⟩
      · rw [if_neg e]
        refine ⟨?_, by simp⟩
        have hle : x.1 ≤ g.1 := by
          cases m with
          | nil => simp [groups] at hc
          | cons y m =>
            have := i2 g (by simp) y (by simp)
            rw [this]
            exact h1 y (by simp)
        simp only [List.map_cons, List.pairwise_cons, List.mem_cons, forall_eq_or_imp]
        refine ⟨⟨by omega, fun a ha => ?_⟩, i1.1, i1.2⟩
        have := i1.1 a ha
        omega

theorem groups_sorted_nodup {c : Nat} {m : Coo K} (h : ∀ x ∈ m, x.2.1 < 2 ^ c) :
    ((groups (sortIdx c m)).map (·.1)).Nodup := by
  have := (groups_nodup ((sortIdx_pairwise h).imp (S := fun x y : Nat × Nat × K => x.1 ≤ y.1) (by
    intro x y h; rcases h with h | h <;> omega))).1
  exact this.imp (by intro a b h; omega)

/-- the double sum over entries that meet -/
theorem meet_sum (k : Nat) (A B : Coo K) (hA : ∀ x ∈ A, x.2.1 < 2 ^ k) (r c : Nat) :
    (A.map fun u => if u.1 = r then (B.map fun v => if v.2.1 = c then (if u.2.1 = v.1 then u.2.2 * v.2.2 else 0) else 0).sum
      else 0).sum = ((List.range (2 ^ k)).map fun l => entry A r l * entry B l c).sum := by
  induction A with
  | nil => simp [entry_nil]
  | cons u A ih =>
    rw [List.map_cons, List.sum_cons, ih fun x hx => hA x (by simp [hx])]
    have hu := hA u (by simp)
    have : ((List.range (2 ^ k)).map fun l => entry (u :: A) r l * entry B l c).sum
        = ((List.range (2 ^ k)).map fun l => (if u.1 = r ∧ u.2.1 = l then u.2.2 else 0) * entry B l c).sum
          + ((List.range (2 ^ k)).map fun l => entry A r l * entry B l c).sum := by
      rw [← List.sum_map_add]
      congr 1
      apply List.map_congr_left
      intro l _
      rw [entry_cons]; ring
    rw [this]
    congr 1
    have hone : ∀ n, u.2.1 < n → ((List.range n).map fun l => (if u.1 = r ∧ u.2.1 = l then u.2.2 else 0) * entry B l c).sum
        = if u.1 = r then u.2.2 * entry B u.2.1 c else 0 := by
      intro n hn
      induction n with
      | zero => omega
      | succ n ihn =>
        rw [List.range_succ, List.map_append, List.sum_append]
        by_cases h : u.2.1 = n
        · have : ((List.range n).map fun l => (if u.1 = r ∧ u.2.1 = l then u.2.2 else 0) * entry B l c).sum = 0 := by
            apply sum_zero_of
            intro l hl
            have := List.mem_range.1 hl
            rw [if_neg (by omega)]; ring
          rw [this]
          by_cases hr : u.1 = r <;> simp [h, hr]
        · rw [ihn (by omega)]
          simp [h]
    rw [hone _ hu]
    by_cases hr : u.1 = r
    · rw [if_pos hr, if_pos hr]
      unfold entry
      rw [← List.sum_map_mul_left]
      congr 1
      apply List.map_congr_left
      intro v _
      by_cases h1 : v.2.1 = c <;> by_cases h2 : u.2.1 = v.1
      · simp [h1, h2]
      · simp [h1, h2, Ne.symm h2]
      · simp [h1]
      · simp [h1]
    · rw [if_neg hr, if_neg hr]

theorem mulInner_entry {k : Nat} {A B : Coo K} (hA : ∀ x ∈ A, x.2.1 < 2 ^ k) (hB : ∀ x ∈ B, x.1 < 2 ^ k) (r c : Nat) :
    entry (mulInner k A B) r c = ((List.range (2 ^ k)).map fun l => entry A r l * entry B l c).sum := by
  have hB' : ∀ x ∈ transp B, x.2.1 < 2 ^ k := by
    intro x hx
    obtain ⟨y, hy, rfl⟩ := List.mem_map.1 hx
    exact hB y hy
  unfold mulInner
  rw [entry_flatMap]
  have h1 : ∀ g ∈ groups (sortIdx k A), entry ((groups (sortIdx k (transp B))).filterMap fun y =>
      if dotBlocks g.2 y.2 = 0 then none else some (g.1, y.1, dotBlocks g.2 y.2)) r c
      = if g.1 = r then (g.2.map fun u => ((transp B).map fun v => if v.1 = c then (if u.1 = v.2.1 then u.2 * v.2.2 else 0)
          else 0).sum).sum else 0 := by
    intro g hg
    rw [entry_filterMap _ (fun _ => g.1) (fun y : Nat × List (Nat × K) => y.1) (fun y => dotBlocks g.2 y.2)]
    by_cases hr : g.1 = r
    · rw [if_pos hr]
      simp only [hr, true_and]
      have h2 : ((groups (sortIdx k (transp B))).map fun y => if y.1 = c then dotBlocks g.2 y.2 else 0)
          = (groups (sortIdx k (transp B))).map fun y => if y.1 = c then
              (y.2.map fun v => (g.2.map fun u => if u.1 = v.1 then u.2 * v.2 else 0).sum).sum else 0 := by
        apply List.map_congr_left
        intro y hy
        by_cases hc : y.1 = c
        · rw [if_pos hc, if_pos hc, dotBlocks_eq (groups_pairwise hA hg) (groups_pairwise hB' hy), dotFull,
            sum_comm']
        · rw [if_neg hc, if_neg hc]
      rw [h2, groups_sum _ _ fun v => (g.2.map fun u => if u.1 = v.1 then u.2 * v.2 else 0).sum]
      rw [((sortIdx_perm k (transp B)).map _).sum_eq]
      rw [sum_comm']
      congr 1
      apply List.map_congr_left
      intro v _
      by_cases hv : v.1 = c
      · simp [hv]
      · simp [hv]
    · rw [if_neg hr]
      apply sum_zero_of
      intro y _
      rw [if_neg (by tauto)]
  rw [List.map_congr_left h1, groups_sum _ _ fun u => ((transp B).map fun v => if v.1 = c then
    (if u.1 = v.2.1 then u.2 * v.2.2 else 0) else 0).sum, ((sortIdx_perm k A).map _).sum_eq, ← meet_sum k A B hA r c]
  congr 1
  apply List.map_congr_left
  intro u _
  by_cases hu : u.1 = r
  · rw [if_pos hu, if_pos hu]
    unfold transp
    rw [List.map_map]
    rfl
  · rw [if_neg hu, if_neg hu]

theorem cooMul_entry {r k c : Nat} {A B : Coo K} (hA : ∀ x ∈ A, x.2.1 < 2 ^ k) (hB : ∀ x ∈ B, x.1 < 2 ^ k) (i j : Nat) :
    entry (cooMul r k c A B) i j = ((List.range (2 ^ k)).map fun l => entry A i l * entry B l j).sum := by
  unfold cooMul
  split
  · exact mulInner_entry hA hB i j
  · rw [entry_transp, mulInner_entry]
    · congr 1
      apply List.map_congr_left
      intro l _
      rw [entry_transp, entry_transp]; ring
    · intro x hx
      obtain ⟨y, hy, rfl⟩ := List.mem_map.1 hx
      exact hB y hy
    · intro x hx
      obtain ⟨y, hy, rfl⟩ := List.mem_map.1 hx
      exact hA y hy

/-! ### The result has one entry per place -/

/-- places in range, each at most once -/
structure Good (r c : Nat) (m : Coo K) : Prop where
  row : ∀ x ∈ m, x.1 < 2 ^ r
  col : ∀ x ∈ m, x.2.1 < 2 ^ c
  nodup : (m.map fun x => (x.1, x.2.1)).Nodup

theorem Good.transp {r c : Nat} {m : Coo K} (h : Good r c m) : Good c r (transp m) := by
  refine ⟨?_, ?_, ?_⟩
  · intro x hx
    obtain ⟨y, hy, rfl⟩ := List.mem_map.1 hx
    exact h.col y hy
  · intro x hx
    obtain ⟨y, hy, rfl⟩ := List.mem_map.1 hx
    exact h.row y hy
  · have : (Tens.transp m).map (fun x => (x.1, x.2.1)) = (m.map fun x => (x.1, x.2.1)).map Prod.swap := by
      simp [Tens.transp]
    rw [this]
    exact h.nodup.map Prod.swap_injective

/-- a table over two lists without repetitions has one entry per place -/
theorem table_nodup {α β : Type} (l : List α) (l' : List β) (i : α → Nat) (j : β → Nat) (v : α → β → K)
    (hl : (l.map i).Nodup) (hl' : (l'.map j).Nodup) :
    ((l.flatMap fun a => l'.filterMap fun b => if v a b = 0 then none else some (i a, j b, v a b)).map
      fun x => (x.1, x.2.1)).Nodup := by
  induction l with
  | nil => simp
  | cons a l ih =>
    simp only [List.map_cons, List.nodup_cons] at hl
    rw [List.flatMap_cons, List.map_append, List.nodup_append]
    refine ⟨?_, ih hl.2, ?_⟩
    · have hsub : ∀ l' : List β, ((l'.filterMap fun b => if v a b = 0 then none else some (i a, j b, v a b)).map
          fun x => (x.1, x.2.1)).Sublist ((l'.map j).map (i a, ·)) := by
        intro l'
        induction l' with
        | nil => simp
        | cons b l' ihb =>
          rw [List.filterMap_cons]
          by_cases h : v a b = 0
          · simp only [h, if_true, List.map_cons]
            exact ihb.cons _
          · simp only [h, if_false, List.map_cons]
            exact ihb.cons_cons _
      exact (hsub l').nodup (hl'.map fun x y h => by simpa using h)
    · intro x hx y hy e
      obtain ⟨u, hu, rfl⟩ := List.mem_map.1 hx
      obtain ⟨w, hw, rfl⟩ := List.mem_map.1 hy
      obtain ⟨b, _, hb⟩ := List.mem_filterMap.1 hu
      obtain ⟨a', ha', hw⟩ := List.mem_flatMap.1 hw
      obtain ⟨b', _, hb'⟩ := List.mem_filterMap.1 hw
      split at hb
      · simp at hb
      · split at hb'
        · simp at hb'
        · simp only [Option.some.injEq] at hb hb'
          subst hb hb'
          simp only [Prod.mk.injEq] at e
          exact hl.1 (e.1 ▸ List.mem_map_of_mem ha')

theorem mem_table {α β : Type} {l : List α} {l' : List β} {i : α → Nat} {j : β → Nat} {v : α → β → K} {x : Nat × Nat × K}
    (hx : x ∈ l.flatMap fun a => l'.filterMap fun b => if v a b = 0 then none else some (i a, j b, v a b)) :
    (∃ a ∈ l, x.1 = i a) ∧ ∃ b ∈ l', x.2.1 = j b := by
  obtain ⟨a, ha, hx⟩ := List.mem_flatMap.1 hx
  obtain ⟨b, hb, hx⟩ := List.mem_filterMap.1 hx
  split at hx
  · simp at hx
  · simp only [Option.some.injEq] at hx
    subst hx
    exact ⟨⟨a, ha, rfl⟩, b, hb, rfl⟩

theorem groups_key {c : Nat} {m : Coo K} {g : Nat × List (Nat × K)} (hg : g ∈ groups (sortIdx c m)) : ∃ x ∈ m, x.1 = g.1 := by
  obtain ⟨h1, h2⟩ := groups_mem hg
  obtain ⟨y, hy⟩ := List.exists_mem_of_ne_nil _ h1
  have := h2.subset (List.mem_map_of_mem hy)
  exact ⟨_, (sortIdx_perm c m).mem_iff.1 this, rfl⟩

theorem mulInner_good {r k c : Nat} {A B : Coo K} (hA : Good r k A) (hB : Good k c B) : Good r c (mulInner k A B) := by
  unfold mulInner
  refine ⟨?_, ?_, ?_⟩
  · intro x hx
    obtain ⟨⟨g, hg, e⟩, _⟩ := mem_table (i := Prod.fst) (j := Prod.fst) hx
    obtain ⟨y, hy, e'⟩ := groups_key hg
    rw [e, ← e']
    exact hA.row y hy
  · intro x hx
    obtain ⟨_, g, hg, e⟩ := mem_table (i := Prod.fst) (j := Prod.fst) hx
    obtain ⟨y, hy, e'⟩ := groups_key hg
    rw [e, ← e']
    exact hB.transp.row y hy
  · exact table_nodup _ _ Prod.fst Prod.fst (fun (x y : Nat × List (Nat × K)) => dotBlocks x.2 y.2) (groups_sorted_nodup hA.col)
      (groups_sorted_nodup hB.transp.col)

theorem scipyMul_entry (r k c : Nat) (A B : Coo K) {i j : Nat} (hi : i < 2 ^ r) (hj : j < 2 ^ c) :
    entry (scipyMul r k c A B) i j = ((List.range (2 ^ k)).map fun l => entry A i l * entry B l j).sum := by
  have one : ∀ (n : Nat) (f : Nat → K) (a : Nat), a < n → ((List.range n).map fun x => if x = a then f x else 0).sum = f a := by
    intro n f a
    induction n with
    | zero => omega
    | succ n ih =>
      intro ha
      rw [List.range_succ, List.map_append, List.sum_append]
      by_cases h : a = n
      · subst h
        rw [sum_zero_of]
        · simp
        · intro x hx
          have := List.mem_range.1 hx
          rw [if_neg (by omega)]
      · rw [ih (by omega)]
        simp [Ne.symm h]
  unfold scipyMul
  rw [entry_flatMap]
  have : ∀ i' ∈ List.range (2 ^ r), entry ((List.range (2 ^ c)).filterMap fun j =>
      let s := ((List.range (2 ^ k)).map fun l => entry A i' l * entry B l j).sum
      if s = 0 then none else some (i', j, s)) i j
      = if i' = i then ((List.range (2 ^ k)).map fun l => entry A i l * entry B l j).sum else 0 := by
    intro i' _
    rw [entry_filterMap _ (fun _ => i') (fun j : Nat => j) (fun j => ((List.range (2 ^ k)).map fun l => entry A i' l * entry B l j).sum)]
    by_cases h : i' = i
    · subst h
      simp only [true_and, if_true]
      exact one _ _ j hj
    · simp [h]
  rw [List.map_congr_left this, one (2 ^ r) (fun _ => ((List.range (2 ^ k)).map fun l => entry A i l * entry B l j).sum) i hi]

theorem sparseMul_good (own : Bool) {r k c : Nat} {A B : Coo K} (hA : Good r k A) (hB : Good k c B) :
    Good r c (sparseMul own r k c A B) := by
  unfold sparseMul
  split
  · unfold cooMul
    split
    · exact mulInner_good hA hB
    · exact (mulInner_good hB.transp hA.transp).transp
  · unfold scipyMul
    refine ⟨?_, ?_, ?_⟩
    · intro x hx
      obtain ⟨⟨a, ha, e⟩, _⟩ := mem_table (i := fun a : Nat => a) (j := fun a : Nat => a)
        (v := fun i j => ((List.range (2 ^ k)).map fun l => entry A i l * entry B l j).sum) hx
      rw [e]
      exact List.mem_range.1 ha
    · intro x hx
      obtain ⟨_, a, ha, e⟩ := mem_table (i := fun a : Nat => a) (j := fun a : Nat => a)
        (v := fun i j => ((List.range (2 ^ k)).map fun l => entry A i l * entry B l j).sum) hx
      rw [e]
      exact List.mem_range.1 ha
    · exact table_nodup _ _ (fun a : Nat => a) (fun a : Nat => a)
        (fun i j => ((List.range (2 ^ k)).map fun l => entry A i l * entry B l j).sum) (by simpa using List.nodup_range)
        (by simpa using List.nodup_range)

theorem sparseMul_entry (own : Bool) {r k c : Nat} {A B : Coo K} (hA : Good r k A) (hB : Good k c B) {i j : Nat}
    (hi : i < 2 ^ r) (hj : j < 2 ^ c) :
    entry (sparseMul own r k c A B) i j = ((List.range (2 ^ k)).map fun l => entry A i l * entry B l j).sum := by
  unfold sparseMul
  split
  · exact cooMul_entry hA.col hB.row i j
  · exact scipyMul_entry r k c A B hi hj

end Verif.Tens
