import Mathlib.Data.List.GetD
import Mathlib.Data.Int.Order.Basic
import Verif.Jasp.ExtractBase

/-!
# Post-processing computes the results of the program
-/

namespace Verif.Jasp.Xt

/-- What an execution keeps: `odd` stays noted, the number of measurements grows. -/
def Grow (s t : St) : Prop := (s.odd = true → t.odd = true) ∧ s.k ≤ t.k

theorem grow_prim {mb : Nat → Bool} {p : Prim} {xs : List EVal} {s : St} {z} (h : execP mb p xs s = some z) : Grow s z.2 := by
  unfold execP at h
  split at h <;> simp only [Option.bind_eq_some_iff, Option.some.injEq, reduceCtorEq] at h
  · obtain ⟨ys, _, zs, _, h⟩ := h
    split at h
    · simp only [Option.some.injEq] at h; subst h; exact ⟨id, Nat.le_refl _⟩
    · simp at h
  · subst h; exact ⟨id, Nat.le_refl _⟩
  · obtain ⟨ys, _, h⟩ := h; subst h; exact ⟨id, Nat.le_refl _⟩
  · subst h; exact ⟨fun hs => by simp [hs], Nat.le_refl _⟩
  · obtain ⟨q, _, h⟩ := h; subst h; exact ⟨id, Nat.le_refl _⟩
  · subst h; exact ⟨id, Nat.le_refl _⟩
  · obtain ⟨q, _, h⟩ := h; subst h; exact ⟨fun hs => by simp [hs], Nat.le_refl _⟩
  · subst h; exact ⟨fun hs => by simp [hs], Nat.le_refl _⟩
  · obtain ⟨q, _, ps, _, h⟩ := h; subst h; exact ⟨id, Nat.le_refl _⟩
  · subst h; exact ⟨id, by simp⟩
  · subst h; exact ⟨id, by simp⟩
  · subst h; exact ⟨id, Nat.le_refl _⟩
  · subst h; exact ⟨id, Nat.le_refl _⟩
  · subst h; exact ⟨id, Nat.le_refl _⟩

theorem grow_cnd {mb : Nat → Bool} {c : Cnd} {xs : List EVal} {s : St} {z} (h : (execM mb).cnd c xs s = some z) : z.2 = s := by
  simp only [Option.bind_eq_some_iff, Option.some.injEq] at h
  obtain ⟨b, _, rfl⟩ := h
  rfl

theorem exec_branch {mb : Nat → Bool} {x : EVal} {s : St} {b} (h : (execM mb).branch x s = some b) :
    (x = .int 0 ∧ b = some false) ∨ (x = .int 1 ∧ b = some true) := by
  cases x with
  | int n =>
    simp only at h
    by_cases h0 : n = 0
    · rw [if_pos h0, Option.some.injEq] at h
      exact .inl ⟨by rw [h0], h.symm⟩
    · rw [if_neg h0] at h
      by_cases h1 : n = 1
      · rw [if_pos h1, Option.some.injEq] at h
        exact .inr ⟨by rw [h1], h.symm⟩
      · simp [if_neg h1] at h
  | qb q => simp at h
  | arr l => simp at h

theorem grow_eval {mb : Nat → Bool} {fuel : Nat} {p : Pg} {c s z} (h : eval (execM mb) fuel p c s = some z) : Grow s z.2 := by
  refine eval_rel (M := execM mb) (R := Grow) (fun s => ⟨id, Nat.le_refl _⟩) (fun h1 h2 => ⟨fun h => h2.1 (h1.1 h), Nat.le_trans h1.2 h2.2⟩)
    grow_prim (fun h => by rw [grow_cnd h]; exact ⟨id, Nat.le_refl _⟩) (fun _ _ => ⟨id, Nat.le_refl _⟩) (fun h => ?_) fuel h
  rcases exec_branch h with ⟨_, h⟩ | ⟨_, h⟩ <;> cases h

inductive PR : EVal → PVal → Prop where
  | int (i : Int) : PR (.int i) (.int i)
  | qb (q : Nat) : PR (.qb q) .non
  | arr (l : List Nat) : PR (.arr l) (.sz l.length)

theorem PR.arr' {l : List Nat} {n : Int} (h : (l.length : Int) = n) : PR (.arr l) (.sz n) := h ▸ PR.arr l

theorem pr_toInt {x y} (h : PR x y) : y.toInt = x.toInt := by cases h <;> rfl

theorem pr_ints {xs ys} (h : List.Forall₂ PR xs ys) : ys.map PVal.toInt = xs.map EVal.toInt := by
  induction h with
  | nil => rfl
  | cons h1 _ ih => simp only [List.map_cons, ih, pr_toInt h1]

theorem allM_map {α β : Type} (f : α → Option β) (l : List α) : allM f l = allM id (l.map f) := by
  induction l with
  | nil => rfl
  | cons a l ih => simp only [List.map_cons, allM, ih, id]

theorem pr_allInt {xs ys} (h : List.Forall₂ PR xs ys) : allM PVal.toInt ys = allM EVal.toInt xs := by
  rw [allM_map, pr_ints h, ← allM_map]

theorem pr_map (zs : List Int) : List.Forall₂ PR (zs.map .int) (zs.map .int) := by
  induction zs with
  | nil => exact .nil
  | cons a l ih => exact .cons (.int a) ih

theorem odd_add (a b : Int) : (decide (a % 2 = 1) ^^ decide (b % 2 = 1)) = decide ((a + b) % 2 = 1) := by
  rcases Int.emod_two_eq a with h1 | h1 <;> rcases Int.emod_two_eq b with h2 | h2 <;>
    rw [h1, h2, Int.add_emod, h1, h2] <;> decide

theorem xors_sum (ys : List Int) : xors (ys.map fun i => decide (i % 2 = 1)) = decide (ys.sum % 2 = 1) := by
  induction ys with
  | nil => simp [xors]
  | cons y ys ih => rw [List.map_cons, xors, ih, odd_add, List.sum_cons]

theorem bitAt_eq {l : List Bool} {mb : Nat → Bool} (hl : ∀ j, j < l.length → l.getD j false = mb j) {j : Nat} (h : j < l.length) :
    bitAt l j = mb j := by
  rw [← hl j h, bitAt]
  simp only [Int.natCast_nonneg, Int.not_lt.mpr, if_false]
  congr 1
  omega

theorem readBits_eq {l : List Bool} {mb : Nat → Bool} (hl : ∀ j, j < l.length → l.getD j false = mb j) {k n : Nat}
    (h : k + n ≤ l.length) : readBits l k n = ofBits (outs mb k n) := by
  simp only [readBits, outs]
  congr 1
  refine List.map_congr_left fun i hi => ?_
  rw [List.mem_range] at hi
  have := bitAt_eq hl (j := k + i) (by omega)
  rw [← this]
  simp

theorem slice_length {l : List Nat} {i j : Int} (h : 0 ≤ i ∧ i ≤ j ∧ j ≤ l.length) : ((pySlice l i j).length : Int) = j - i := by
  obtain ⟨h1, h2, h3⟩ := h
  simp only [pySlice, pyBound, if_pos h1, if_pos (show 0 ≤ j from Int.le_trans h1 h2), List.length_drop, List.length_take]
  omega

theorem post_prim {l : List Bool} {mb : Nat → Bool} (hl : ∀ j, j < l.length → l.getD j false = mb j) {p : Prim} {xs : List EVal} {xs'}
    {s : St} {s' : Int} {z} (hx : List.Forall₂ PR xs xs') (hs : s' = s.k) (h : execP mb p xs s = some z)
    (hg : z.2.odd = false ∧ z.2.k ≤ l.length) :
    ∃ z', postP l p xs' s' = some z' ∧ List.Forall₂ PR z.1 z'.1 ∧ z'.2 = z.2.k := by
  subst hs
  unfold execP at h
  split at h <;> simp only [Option.bind_eq_some_iff, Option.some.injEq, reduceCtorEq] at h
  · rename_i f n
    obtain ⟨ys, h1, zs, h2, h⟩ := h
    by_cases hn : zs.length = n
    · rw [if_pos hn, Option.some.injEq] at h
      subst h
      exact ⟨(zs.map .int, (s.k : Int)), by simp only [postP, pr_allInt hx, h1, h2, Option.bind_some, if_pos hn], pr_map zs, rfl⟩
    · simp [if_neg hn] at h
  · subst h
    obtain _ | ⟨⟨i⟩, _ | _⟩ := hx
    exact ⟨_, rfl, .cons (.int _) .nil, rfl⟩
  · obtain ⟨ys, h1, h⟩ := h
    subst h
    refine ⟨([.int (b2i (decide (ys.sum % 2 = 1) ^^ _))], (s.k : Int)), by simp only [postP, pr_allInt hx, h1, Option.bind_some]; rfl, ?_, rfl⟩
    rw [xors_sum]
    exact .cons (.int _) .nil
  · subst h
    obtain _ | ⟨⟨i⟩, _ | _⟩ := hx
    refine ⟨_, rfl, ?_, rfl⟩
    simp only [Bool.or_eq_false_iff, decide_eq_false_iff_not, Int.not_lt] at hg
    exact .cons (PR.arr' (by rw [List.length_map, List.length_range, Int.toNat_of_nonneg hg.1.2])) .nil
  · obtain ⟨q, h1, h⟩ := h
    subst h
    obtain _ | ⟨⟨i⟩, _ | ⟨⟨j⟩, _ | _⟩⟩ := hx
    exact ⟨_, rfl, .cons (.qb _) .nil, rfl⟩
  · subst h
    obtain _ | ⟨⟨i⟩, _ | _⟩ := hx
    exact ⟨_, rfl, .cons (.int _) .nil, rfl⟩
  · obtain ⟨q, h1, h⟩ := h
    subst h
    obtain _ | ⟨h2, _ | ⟨h3, _ | _⟩⟩ := hx
    simp only [Bool.or_eq_false_iff, Bool.not_eq_false', Bool.and_eq_true] at hg
    cases h2 <;> simp only [isArr, Bool.false_eq_true, false_and, and_false] at hg
    cases h3 <;> simp only [isArr, Bool.false_eq_true, and_false, false_and] at hg
    simp only [fuseE, Option.some.injEq] at h1
    subst h1
    exact ⟨_, rfl, .cons (PR.arr' (by simp)) .nil, rfl⟩
  · subst h
    obtain _ | ⟨⟨a⟩, _ | ⟨⟨i⟩, _ | ⟨⟨j⟩, _ | _⟩⟩⟩ := hx
    simp only [Bool.or_eq_false_iff, Bool.not_eq_false', decide_eq_true_eq] at hg
    exact ⟨_, rfl, .cons (PR.arr' (slice_length hg.1.2)) .nil, rfl⟩
  · obtain ⟨q, _, ps, _, h⟩ := h
    subst h
    exact ⟨_, rfl, .nil, rfl⟩
  · subst h
    obtain _ | ⟨⟨i⟩, _ | _⟩ := hx
    simp only at hg
    refine ⟨_, rfl, ?_, by simp⟩
    rw [bitAt_eq hl (by omega)]
    exact .cons (.int _) .nil
  · subst h
    obtain _ | ⟨⟨i⟩, _ | _⟩ := hx
    simp only at hg
    refine ⟨_, rfl, ?_, by simp⟩
    rw [Int.toNat_natCast, readBits_eq hl hg.2]
    exact .cons (.int _) .nil
  · subst h
    obtain _ | ⟨_, _ | _⟩ := hx
    exact ⟨_, rfl, .nil, rfl⟩
  · subst h
    obtain _ | ⟨_, _ | _⟩ := hx
    exact ⟨_, rfl, .nil, rfl⟩
  · subst h
    obtain _ | ⟨_, _ | _⟩ := hx
    exact ⟨_, rfl, .nil, rfl⟩

theorem post_eval {l : List Bool} {mb : Nat → Bool} (hl : ∀ j, j < l.length → l.getD j false = mb j) {fuel : Nat} {p : Pg} (hn : noConst p)
    {c : Ctx EVal} {c' : Ctx PVal} (hc : RC PR c c') {s : St} {z} (h : eval (execM mb) fuel p c s = some z) (ho : z.2.odd = false)
    (hk : z.2.k ≤ l.length) : ∃ z', eval (postM l) fuel p c' (s.k : Int) = some z' ∧ RC PR z.1 z'.1 ∧ z'.2 = z.2.k := by
  have hG : ∀ {s t : St}, Grow s t → (t.odd = false ∧ t.k ≤ l.length) → (s.odd = false ∧ s.k ≤ l.length) := by
    intro s t hg ht
    refine ⟨?_, Nat.le_trans hg.2 ht.2⟩
    cases hs : s.odd with
    | false => rfl
    | true => rw [hg.1 hs] at ht; simp at ht
  refine eval_sim (I := execM mb) (J := postM l) (RV := PR) (RS := fun (s : St) (s' : Int) => s' = s.k)
    (G := fun s => s.odd = false ∧ s.k ≤ l.length) fuel (fun hz => hG (grow_eval hz)) (fun hz hg => by rw [grow_cnd hz] at hg; exact hg)
    (post_prim hl) ?_ ?_ (fun hx => by simpa using hx) hn hc rfl h ⟨ho, hk⟩
  · intro c xs xs' s s' z hx hs hz
    simp only [Option.bind_eq_some_iff, Option.some.injEq] at hz
    obtain ⟨b, hb, rfl⟩ := hz
    exact ⟨s', by simp only [pr_ints hx, hb, Option.bind_some], hs⟩
  · intro x x' s s' b hx hs hb
    rcases exec_branch hb with ⟨rfl, rfl⟩ | ⟨rfl, rfl⟩ <;> cases hx <;> simp

end Verif.Jasp.Xt
