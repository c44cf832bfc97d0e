import Verif.Samp.Model
import Mathlib.Algebra.BigOperators.Group.List.Basic
import Mathlib.Data.Nat.Bitwise
import Mathlib.Tactic.Ring

/-!
# Lemmas on dictionaries, counts and parts of integers
-/

namespace Verif.Samp

variable {K C V : Type}

/-! ### Dictionaries -/

theorem fold_put [DecidableEq K] : ∀ (l d : List (K × C)), ((d ++ l).map Prod.fst).Nodup →
    l.foldl (fun d e => put d e.1 e.2) d = d ++ l
  | [], d, _ => by simp
  | e :: l, d, h => by
    have hn : e.1 ∉ d.map Prod.fst := by
      intro hc
      rw [List.map_append, List.map_cons, List.nodup_append] at h
      exact h.2.2 _ hc _ (List.mem_cons_self ..) rfl
    rw [List.foldl_cons, put, if_neg hn, fold_put l _ (by simpa using h)]
    simp

theorem fromList_nodup [DecidableEq K] {l : List (K × C)} (h : (l.map Prod.fst).Nodup) : fromList l = l := by
  rw [fromList, fold_put l [] (by simpa using h)]
  rfl

/-! ### Counts -/

/-- The list with every key as often as its value says. -/
def expand (l : List (K × ℕ)) : List K := l.flatMap fun e => List.replicate e.2 e.1

theorem expand_map (f : K → V) (l : List (K × ℕ)) : expand (l.map fun e => (f e.1, e.2)) = (expand l).map f := by
  induction l with
  | nil => rfl
  | cons e l ih =>
    simp only [expand, List.map_cons, List.flatMap_cons, List.map_append, List.map_replicate] at ih ⊢
    rw [ih]

theorem expand_filter (l : List (K × ℕ)) : expand (l.filter fun e => decide (e.2 ≠ 0)) = expand l := by
  induction l with
  | nil => rfl
  | cons e l ih =>
    simp only [expand, List.flatMap_cons] at ih ⊢
    by_cases h : e.2 = 0
    · rw [List.filter_cons_of_neg (by simpa using h), ih, h]; simp
    · rw [List.filter_cons_of_pos (by simpa using h), List.flatMap_cons, ih]

theorem count_expand [DecidableEq K] (f : K → ℕ) (j : K) : ∀ R : List K, R.Nodup →
    (expand (R.map fun i => (i, f i))).count j = if j ∈ R then f j else 0
  | [], _ => by simp [expand]
  | i :: R, h => by
    rw [List.nodup_cons] at h
    have ih := count_expand f j R h.2
    simp only [expand, List.map_cons, List.flatMap_cons, List.count_append, List.count_replicate] at ih ⊢
    rw [ih]
    by_cases e : i = j
    · subst e; simp [h.1]
    · have e' : j ≠ i := fun h => e h.symm
      simp [e, e', List.mem_cons]

theorem le_foldl_max : ∀ (l : List ℕ) (a : ℕ), a ≤ l.foldl max a ∧ ∀ x ∈ l, x ≤ l.foldl max a
  | [], a => by simp
  | y :: l, a => by
    obtain ⟨h1, h2⟩ := le_foldl_max l (max a y)
    refine ⟨(le_max_left _ _).trans h1, fun x hx => ?_⟩
    rcases List.mem_cons.mp hx with rfl | hx
    · exact (le_max_right _ _).trans h1
    · exact h2 x hx

/-- The histogram has all samples. -/
theorem expand_gen (samples : List ℕ) : (expand (genResDict samples)).Perm samples := by
  rw [List.perm_iff_count]
  intro j
  have e : genResDict samples = ((List.range (samples.foldl max 0 + 1)).map fun i => (i, samples.count i)).filter fun e => decide (e.2 ≠ 0) := by
    rw [List.filter_map]; rfl
  rw [e, expand_filter, count_expand _ _ _ List.nodup_range]
  split_ifs with h
  · rfl
  · rw [List.mem_range] at h
    symm
    rw [List.count_eq_zero]
    intro hc
    have := (le_foldl_max samples 0).2 j hc
    omega

theorem gen_keys (samples : List ℕ) : ((genResDict samples).map Prod.fst).Nodup := by
  rw [genResDict, List.map_map]
  have : (Prod.fst ∘ fun i => (i, samples.count i)) = (id : ℕ → ℕ) := rfl
  rw [this, List.map_id]
  exact List.nodup_range.filter _

theorem gen_mem {samples : List ℕ} {e : ℕ × ℕ} (h : e ∈ genResDict samples) : e.1 ∈ samples ∧ e.2 ≠ 0 := by
  rw [genResDict, List.mem_map] at h
  obtain ⟨i, hi, rfl⟩ := h
  have h2 := (List.mem_filter.mp hi).2
  simp only [ne_eq, decide_not, Bool.not_eq_true', decide_eq_false_iff_not] at h2
  exact ⟨by_contra fun hc => h2 (List.count_eq_zero.mpr hc), h2⟩

theorem count_dict {mes samples : List ℕ} (hm : mes.Nodup) (hs : ∀ s ∈ samples, s < mes.length) :
    countDict mes samples = (genResDict samples).map fun e => (mes.getD e.1 0, e.2) := by
  apply fromList_nodup
  rw [List.map_map]
  have : (Prod.fst ∘ fun e : ℕ × ℕ => (mes.getD e.1 0, e.2)) = (fun i => mes.getD i 0) ∘ Prod.fst := rfl
  rw [this, ← List.map_map]
  refine List.Nodup.map_on ?_ (gen_keys samples)
  intro x hx y hy hxy
  obtain ⟨a, ha, rfl⟩ := List.mem_map.mp hx
  obtain ⟨b, hb, rfl⟩ := List.mem_map.mp hy
  have h1 := hs _ (gen_mem ha).1
  have h2 := hs _ (gen_mem hb).1
  rw [List.getD_eq_getElem _ _ h1, List.getD_eq_getElem _ _ h2] at hxy
  exact (List.Nodup.getElem_inj_iff hm).mp hxy

/-- The counts have all measured integers. -/
theorem expand_count {mes samples : List ℕ} (hm : mes.Nodup) (hs : ∀ s ∈ samples, s < mes.length) :
    (expand (countDict mes samples)).Perm (samples.map fun s => mes.getD s 0) := by
  rw [count_dict hm hs, expand_map (fun i => mes.getD i 0)]
  exact (expand_gen samples).map _

theorem count_mem {mes samples : List ℕ} (hm : mes.Nodup) (hs : ∀ s ∈ samples, s < mes.length) {e : ℕ × ℕ} (h : e ∈ countDict mes samples) :
    e.1 ∈ samples.map (fun s => mes.getD s 0) ∧ e.2 ≠ 0 := by
  rw [count_dict hm hs, List.mem_map] at h
  obtain ⟨a, ha, rfl⟩ := h
  exact ⟨List.mem_map.mpr ⟨_, (gen_mem ha).1, rfl⟩, (gen_mem ha).2⟩

theorem count_keys {mes samples : List ℕ} (hm : mes.Nodup) (hs : ∀ s ∈ samples, s < mes.length) :
    ((countDict mes samples).map Prod.fst).Nodup := by
  rw [count_dict hm hs, List.map_map]
  have : (Prod.fst ∘ fun e : ℕ × ℕ => (mes.getD e.1 0, e.2)) = (fun i => mes.getD i 0) ∘ Prod.fst := rfl
  rw [this, ← List.map_map]
  refine List.Nodup.map_on ?_ (gen_keys samples)
  intro x hx y hy hxy
  obtain ⟨a, ha, rfl⟩ := List.mem_map.mp hx
  obtain ⟨b, hb, rfl⟩ := List.mem_map.mp hy
  have h1 := hs _ (gen_mem ha).1
  have h2 := hs _ (gen_mem hb).1
  rw [List.getD_eq_getElem _ _ h1, List.getD_eq_getElem _ _ h2] at hxy
  exact (List.Nodup.getElem_inj_iff hm).mp hxy

/-! ### Decoding -/

theorem decoded_inj [DecidableEq V] {dec : Shot → V} {sizes : List ℕ} {d : List (ℕ × C)} (hd : (d.map Prod.fst).Nodup)
    (hi : ∀ a ∈ d.map Prod.fst, ∀ b ∈ d.map Prod.fst, dec (split sizes a) = dec (split sizes b) → a = b) :
    decoded dec sizes d = d.map fun e => (dec (split sizes e.1), e.2) := by
  apply fromList_nodup
  rw [List.map_map]
  have : (Prod.fst ∘ fun e : ℕ × C => (dec (split sizes e.1), e.2)) = (fun k => dec (split sizes k)) ∘ Prod.fst := rfl
  rw [this, ← List.map_map]
  exact List.Nodup.map_on hi hd

/-! ### Parts of integers -/

/-- The integer of all registers: the first register has the lowest bits. -/
def joinInts : List ℕ → Shot → ℕ
  | s :: sizes, x :: xs => x + 2 ^ s * joinInts sizes xs
  | _, _ => 0

/-- The measured integers fit into their registers. -/
def FitsIn : List ℕ → Shot → Prop
  | [], [] => True
  | s :: sizes, x :: xs => x < 2 ^ s ∧ FitsIn sizes xs
  | _, _ => False

theorem part (k s j : ℕ) : (k &&& ((2 ^ s - 1) <<< j)) >>> j = k / 2 ^ j % 2 ^ s := by
  rw [Nat.shiftRight_and_distrib, Nat.shiftLeft_shiftRight, Nat.and_two_pow_sub_one_eq_mod, Nat.shiftRight_eq_div_pow]

theorem splitFrom_join : ∀ (sizes : List ℕ) (xs : Shot) (j k : ℕ), FitsIn sizes xs → k / 2 ^ j = joinInts sizes xs → splitFrom j sizes k = xs
  | [], [], _, _, _, _ => rfl
  | [], _ :: _, _, _, h, _ => h.elim
  | _ :: _, [], _, _, h, _ => h.elim
  | s :: sizes, x :: xs, j, k, h, e => by
    rw [splitFrom, part, e, joinInts, Nat.add_mul_mod_self_left, Nat.mod_eq_of_lt h.1]
    congr 1
    apply splitFrom_join sizes xs _ _ h.2
    rw [pow_add, ← Nat.div_div_eq_div_mul, e, joinInts, Nat.add_mul_div_left _ _ (Nat.two_pow_pos s), Nat.div_eq_of_lt h.1, Nat.zero_add]

theorem split_join {sizes : List ℕ} {xs : Shot} (h : FitsIn sizes xs) : split sizes (joinInts sizes xs) = xs :=
  splitFrom_join sizes xs 0 _ h (by simp)

/-! ### Sums -/

theorem foldl_add {α M : Type} [AddCommMonoid M] (f : α → M) : ∀ (l : List α) (a : M), l.foldl (fun acc s => acc + f s) a = a + (l.map f).sum
  | [], a => by simp
  | x :: l, a => by rw [List.foldl_cons, foldl_add f l, List.map_cons, List.sum_cons, add_assoc]

theorem sum_expand {M : Type} [CommSemiring M] (f : K → M) (l : List (K × ℕ)) :
    (l.map fun e => f e.1 * (e.2 : M)).sum = ((expand l).map f).sum := by
  induction l with
  | nil => rfl
  | cons e l ih =>
    simp only [expand, List.map_cons, List.sum_cons, List.flatMap_cons, List.map_append, List.sum_append, List.map_replicate,
      List.sum_replicate] at ih ⊢
    rw [ih, nsmul_eq_mul, mul_comm]

/-! ### Sorting -/

section Order
variable [LinearOrder V] [LinearOrder C]

/-- More counts first, equal counts by keys. -/
def Before (a b : V × C) : Prop := b.2 < a.2 ∨ (a.2 = b.2 ∧ a.1 < b.1)

theorem insert_before (a : V × C) : ∀ (l : List (V × C)), (∀ b ∈ l, a.1 < b.1) → l.Pairwise Before →
    (l.orderedInsert (fun a b => b.2 ≤ a.2) a).Pairwise Before
  | [], _, _ => by simp
  | b :: l, h, hp => by
    rw [List.pairwise_cons] at hp
    rw [List.orderedInsert]
    by_cases hc : b.2 ≤ a.2
    · rw [if_pos hc, List.pairwise_cons, List.pairwise_cons]
      refine ⟨fun c hc' => ?_, hp⟩
      have hcb : c.2 ≤ b.2 := by
        rcases List.mem_cons.mp hc' with rfl | hm
        · exact le_refl _
        · rcases hp.1 c hm with h | h
          · exact h.le
          · exact h.1.ge
      rcases lt_or_eq_of_le (hcb.trans hc) with h1 | h1
      · exact Or.inl h1
      · exact Or.inr ⟨h1.symm, h c hc'⟩
    · rw [if_neg hc, List.pairwise_cons]
      refine ⟨fun c hc' => ?_, insert_before a l (fun b hb => h b (List.mem_cons_of_mem _ hb)) hp.2⟩
      rcases (List.mem_orderedInsert _).mp hc' with rfl | hm
      · exact Or.inl (not_le.mp hc)
      · exact hp.1 c hm

theorem sort_before : ∀ (l : List (V × C)), l.Pairwise (fun a b => a.1 < b.1) → (l.insertionSort fun a b => b.2 ≤ a.2).Pairwise Before
  | [], _ => List.Pairwise.nil
  | a :: l, h => by
    rw [List.pairwise_cons] at h
    rw [List.insertionSort_cons]
    exact insert_before a _ (fun b hb => h.1 b ((List.mem_insertionSort _).mp hb)) (sort_before l h.2)

theorem dict_sorted {l : List (V × C)} (h : (l.map Prod.fst).Nodup) :
    ((l.insertionSort fun a b => a.1 ≤ b.1).insertionSort fun a b => b.2 ≤ a.2).Pairwise Before := by
  apply sort_before
  have : Std.Total (fun a b : V × C => a.1 ≤ b.1) := ⟨fun a b => le_total a.1 b.1⟩
  have : IsTrans (V × C) (fun a b => a.1 ≤ b.1) := ⟨fun a b c => le_trans⟩
  have hs := List.pairwise_insertionSort (fun a b : V × C => a.1 ≤ b.1) l
  have hn : ((l.insertionSort fun a b => a.1 ≤ b.1).map Prod.fst).Nodup :=
    ((List.perm_insertionSort _ l).map _).nodup_iff.mpr h
  rw [List.Nodup, List.pairwise_map] at hn
  exact (hs.and hn).imp fun ⟨a, b⟩ => lt_of_le_of_ne a b

end Order

end Verif.Samp
