import Mathlib.Algebra.Order.BigOperators.Group.List
import Mathlib.Data.List.Count
import Verif.Jasp.MetricSim

/-!
# The metrics are statistics of the execution
-/

namespace Verif.Jasp.Met

variable {mb : Int → Bool}

/-! ### Restrictions and measurement outcomes -/

theorem guarded {α : Type} {b : Bool} {x : Option α} {z : α} (h : (if b = true then x else none) = some z) :
    b = true ∧ x = some z := by
  cases b with
  | true => exact ⟨rfl, by simpa using h⟩
  | false => simp at h

theorem lift_eq {x y : Nat ⊕ List Nat} (h : Sum.LiftRel Eq Eq x y) : x = y := by
  cases h with
  | inl e => rw [e]
  | inr e => rw [e]

theorem forall_eq {l m : List Nat} (h : List.Forall₂ Eq l m) : l = m := by
  induction h with
  | nil => rfl
  | cons e _ ih => rw [e, ih]

/-- An execution with restrictions is an execution. -/
def simFree (G : Guard) (mb : Int → Bool) (glob : Bool) : Sim (exact G mb glob) (exact .free mb glob) where
  RQ := Eq
  RA := Eq
  RS := Eq
  create := by
    rintro n s _ z rfl h
    simp only [exact] at h
    split at h
    · exact ⟨z, by simpa [exact, Guard.free] using h, rfl, rfl⟩
    · simp at h
  getq := by
    rintro a _ i q rfl h
    simp only [exact] at h
    split at h
    · exact ⟨q, by simpa [exact, Guard.free] using h, rfl⟩
    · simp at h
  size := by rintro a _ rfl; rfl
  fuse := by
    rintro x y x' y' z hx hy h
    obtain rfl := lift_eq hx
    obtain rfl := lift_eq hy
    simp only [exact] at h
    split at h
    · exact ⟨z, by simpa [exact, Guard.free] using h, rfl⟩
    · simp at h
  slice := by
    rintro a _ i j z rfl h
    simp only [exact] at h
    split at h
    · exact ⟨z, by simpa [exact, Guard.free] using h, rfl⟩
    · simp at h
  gate := by
    rintro g qs qs' s _ t hq rfl h
    obtain rfl := forall_eq hq
    exact ⟨t, h, rfl⟩
  meas1 := by rintro q _ k s _ z rfl rfl h; exact ⟨z.2, h, rfl⟩
  measA := by rintro q _ k s _ z rfl rfl h; exact ⟨z.2, h, rfl⟩
  reset := by
    rintro x x' s s' t _ hs h
    simp only [Option.some.injEq] at h; subst h
    exact ⟨s', rfl, hs⟩
  delete := by rintro q _ s _ z rfl rfl h; exact ⟨z, h, rfl⟩

/-- If all outcomes are the same, it does not matter how measurements are numbered. -/
def simConst (G : Guard) {mb : Int → Bool} (b : Bool) (hb : ∀ k, mb k = b) :
    Sim (exact G mb true) (exact G mb false) where
  RQ := Eq
  RA := Eq
  RS := Eq
  create := by rintro n s _ z rfl h; exact ⟨z, h, rfl, rfl⟩
  getq := by rintro a _ i q rfl h; exact ⟨q, h, rfl⟩
  size := by rintro a _ rfl; rfl
  fuse := by
    rintro x y x' y' z hx hy h
    obtain rfl := lift_eq hx
    obtain rfl := lift_eq hy
    exact ⟨z, h, rfl⟩
  slice := by rintro a _ i j z rfl h; exact ⟨z, h, rfl⟩
  gate := by
    rintro g qs qs' s _ t hq rfl h
    obtain rfl := forall_eq hq
    exact ⟨t, h, rfl⟩
  meas1 := by
    rintro q _ k s _ z rfl rfl h
    refine ⟨z.2, ?_, rfl⟩
    simp only [exact, Option.some.injEq] at h; subst h
    simp [outcome, hb]
  measA := by
    rintro q _ k s _ z rfl rfl h
    refine ⟨z.2, ?_, rfl⟩
    have : ∀ k k' n, outcome mb k n = outcome mb k' n := by
      intro k k' n
      induction n with
      | zero => rfl
      | succ n ih => simp [outcome, ih, hb]
    simp only [exact, Option.some.injEq] at h; subst h
    simp [this k (measured s.ev)]
  reset := by
    rintro x x' s s' t _ hs h
    simp only [Option.some.injEq] at h; subst h
    exact ⟨s', rfl, hs⟩
  delete := by rintro q _ s _ z rfl rfl h; exact ⟨z, h, rfl⟩

/-! ### Sizes of arrays -/

/-- The slices that the counting metrics treat correctly: no negative bounds, and the start is not behind the end. -/
def okSlice (l : List Nat) (s t : Int) : Bool := decide (0 ≤ s ∧ s ≤ t ∧ s ≤ l.length)

/-- Programs without negative sizes, wrong slices and concatenation with single qubits. -/
def sizeGuard : Guard where
  getq _ _ := true
  slice := okSlice
  fuse x y := x.isRight && y.isRight
  create n _ := decide (0 ≤ n)

theorem slice_length {l : List Nat} {s t : Int} (h : okSlice l s t = true) :
    ((pySlice l s t).length : Int) = min t l.length - max s 0 := by
  simp only [okSlice, decide_eq_true_eq] at h
  simp only [pySlice, pyBound, List.length_drop, List.length_take]
  rw [if_pos h.1, if_pos (by omega)]
  omega

theorem measured_append (l m : List Ev) : measured (l ++ m) = measured l + measured m := by
  induction l with
  | nil => simp [measured]
  | cons e l ih => cases e <;> simp [measured, ih] <;> omega

/-- How often a gate was executed. -/
def opCount (n : String) (l : List Ev) : Nat := l.countP fun e => match e with | .gate m _ => m == n | _ => false

theorem elems_names {qs : List Nat} : ∀ {ops : List (String × List Nat)} {l},
    allM (fun o : String × List Nat => (allM (fun i => qs[i]?) o.2).map (Ev.gate o.1)) ops = some l →
    measured l = 0 ∧ ∀ n, opCount n l = (ops.map (·.1)).count n := by
  intro ops
  induction ops with
  | nil => intro l h; simp only [allM, Option.some.injEq] at h; subst h; simp [measured, opCount]
  | cons o ops ih =>
    intro l h
    simp only [allM, Option.bind_eq_some_iff, Option.map_eq_some_iff, Option.some.injEq] at h
    obtain ⟨e, ⟨q, h1, rfl⟩, l', h2, rfl⟩ := h
    obtain ⟨g1, g2⟩ := ih h2
    refine ⟨by simpa [measured] using g1, fun n => ?_⟩
    have := g2 n
    simp only [opCount] at this ⊢
    rw [List.countP_cons, List.map_cons, List.count_cons, this]

theorem bump_eq : ∀ {fuel c x : Nat}, c ≤ fuel → bump fuel c x = x + c := by
  intro fuel
  induction fuel with
  | zero => intro c x h; have : c = 0 := by omega
            subst this; rfl
  | succ f ih =>
    intro c x h
    cases c with
    | zero => rfl
    | succ c => rw [bump, ih (by omega)]; omega

theorem foldl_counts (cnt : String → Nat) : ∀ {ns : List String} (f : String → Int) (n : String), ns.Nodup →
    (ns.map fun m => (m, cnt m)).foldl (fun (f : String → Int) x n => if n = x.1 then f n + (bump x.2 x.2 0 : Nat) else f n) f n =
      f n + if n ∈ ns then (cnt n : Int) else 0 := by
  intro ns
  induction ns with
  | nil => intro f n _; simp
  | cons m ns ih =>
    intro f n hn
    rw [List.map_cons, List.foldl_cons, ih _ _ (List.nodup_cons.1 hn).2]
    have hm := (List.nodup_cons.1 hn).1
    by_cases h : n = m
    · subst h; simp [hm, bump_eq]
    · simp [h]

/-- The counters are the numbers of operations of the execution. -/
def simCount (mb : Int → Bool) : Sim (exact sizeGuard mb true) (countI mb) where
  RQ _ _ := True
  RA l n := n = (l.length : Int)
  RS s c := c.meas = (measured s.ev : Int) ∧ ∀ n, c.op n = (opCount n s.ev : Int)
  create := by
    rintro n s s' z hs h
    obtain ⟨hn, h⟩ := guarded h
    simp only [sizeGuard] at hn
    simp only [decide_eq_true_eq] at hn
    simp only [Option.some.injEq] at h; subst h
    refine ⟨(n, s'), rfl, ?_, ?_, ?_⟩
    · simp; omega
    · simp [measured_append, measured, hs.1]
    · intro m; simp [opCount, hs.2]
  getq := by rintro a a' i q _ _; exact ⟨(), rfl, trivial⟩
  size := by rintro a a' h; exact h
  fuse := by
    rintro x y x' y' z hx hy h
    obtain ⟨hg, h⟩ := guarded h
    simp only [sizeGuard] at hg
    cases hx with
    | inl => simp at hg
    | inr hx =>
      cases hy with
      | inl => simp at hg
      | inr hy =>
        simp only [Option.some.injEq] at h; subst h
        exact ⟨_, rfl, by simp [eitherQs, hx, hy]⟩
  slice := by
    rintro a a' i j z ha h
    obtain ⟨hg, h⟩ := guarded h
    simp only [sizeGuard] at hg
    simp only [Option.some.injEq] at h; subst h
    exact ⟨_, rfl, by rw [slice_length hg, ha]⟩
  gate := by
    rintro g qs qs' s s' t hq hs h
    simp only [exact, elems, Option.map_eq_some_iff] at h
    obtain ⟨l, h1, rfl⟩ := h
    obtain ⟨g1, g2⟩ := elems_names h1
    refine ⟨_, rfl, ?_, fun n => ?_⟩
    · simp only [measured_append, g1]; exact hs.1
    · simp only [opCounts]
      rw [foldl_counts (fun m => (g.ops.map (·.1)).count m) _ _ (List.nodup_dedup _), hs.2]
      simp only [opCount, List.countP_append, List.mem_dedup]
      have := g2 n
      simp only [opCount] at this
      rw [this]
      by_cases hm : n ∈ g.ops.map (·.1)
      · rw [if_pos hm]; push_cast; rfl
      · rw [if_neg hm, List.count_eq_zero_of_not_mem hm]; simp
  meas1 := by
    rintro q q' k s s' z _ hs h
    simp only [exact, Option.some.injEq] at h; subst h
    refine ⟨{ s' with meas := s'.meas + 1 }, ?_, ?_, ?_⟩
    · simp [countI, hs.1]
    · simp [measured_append, measured, hs.1]
    · intro n; simp [opCount, hs.2]
  measA := by
    rintro a a' k s s' z ha hs h
    simp only [exact, Option.some.injEq] at h; subst h
    refine ⟨{ s' with meas := s'.meas + a' }, ?_, ?_, ?_⟩
    · have : a'.toNat = a.length := by rw [ha]; simp
      simp [countI, hs.1, this]
    · simp [measured_append, measured, hs.1, ha]
    · intro n; simp [opCount, hs.2]
  reset := by
    rintro x x' s s' t _ hs h
    simp only [Option.some.injEq] at h; subst h
    exact ⟨s', rfl, hs⟩
  delete := by
    rintro a a' s s' t ha hs h
    simp only [exact, Option.some.injEq] at h; subst h
    refine ⟨s', rfl, ?_, ?_⟩
    · simp [measured_append, measured, hs.1]
    · intro n; simp [opCount, hs.2]

/-! ### Allocations -/

/-- The allocations (positive) and deallocations (negative) of an execution. -/
def allocs : List Ev → List Int
  | [] => []
  | .create l :: r => (l.length : Int) :: allocs r
  | .delete l :: r => -(l.length : Int) :: allocs r
  | _ :: r => allocs r

theorem allocs_append (l m : List Ev) : allocs (l ++ m) = allocs l ++ allocs m := by
  induction l with
  | nil => simp [allocs]
  | cons e l ih => cases e <;> simp [allocs, ih]

theorem elems_allocs {qs : List Nat} : ∀ {ops : List (String × List Nat)} {l},
    allM (fun o : String × List Nat => (allM (fun i => qs[i]?) o.2).map (Ev.gate o.1)) ops = some l →
    allocs l = [] := by
  intro ops
  induction ops with
  | nil => intro l h; simp only [allM, Option.some.injEq] at h; subst h; rfl
  | cons o ops ih =>
    intro l h
    simp only [allM, Option.bind_eq_some_iff, Option.map_eq_some_iff, Option.some.injEq] at h
    obtain ⟨e, ⟨q, h1, rfl⟩, l', h2, rfl⟩ := h
    simpa [allocs] using ih h2

/-- The array contains the list `l`. -/
def Holds (mx : Nat) (a : Al) (l : List Int) : Prop :=
  a.arr.length = mx ∧ a.idx = l.length ∧ a.bad = decide (mx < l.length) ∧ (l.length ≤ mx → a.arr.take l.length = l)

theorem Holds.push {mx : Nat} {a : Al} {l : List Int} (h : Holds mx a l) (x : Int) :
    Holds mx (a.push mx x) (l ++ [x]) := by
  obtain ⟨h1, h2, h3, h4⟩ := h
  refine ⟨by simp [Al.push, h1], by simp [Al.push, h2], ?_, fun hl => ?_⟩
  · simp only [Al.push, h3, h2, List.length_append, List.length_singleton]
    by_cases e : mx < l.length
    · simp [e]; omega
    · simp [e]
  · simp only [List.length_append, List.length_singleton] at hl ⊢
    have e := h4 (by omega)
    simp only [Al.push, h2]
    rw [List.take_add_one, List.take_set_of_le (le_refl _), e, List.getElem?_set_self (by omega)]
    rfl

def simNum (mb : Int → Bool) (mx : Nat) : Sim (exact sizeGuard mb false) (numI mb mx) where
  RQ _ _ := True
  RA l n := n = (l.length : Int)
  RS s a := Holds mx a (allocs s.ev)
  create := by
    rintro n s s' z hs h
    obtain ⟨hn, h⟩ := guarded h
    simp only [sizeGuard] at hn
    simp only [decide_eq_true_eq] at hn
    simp only [Option.some.injEq] at h; subst h
    refine ⟨_, rfl, ?_, ?_⟩
    · simp; omega
    · have e : ((List.map (fun x => s.next + x) (List.range n.toNat)).length : Int) = n := by simp; omega
      simp only [allocs_append, allocs, e]
      exact hs.push n
  getq := by rintro a a' i q _ _; exact ⟨(), rfl, trivial⟩
  size := by rintro a a' h; exact h
  fuse := by
    rintro x y x' y' z hx hy h
    obtain ⟨hg, h⟩ := guarded h
    simp only [sizeGuard] at hg
    cases hx with
    | inl => simp at hg
    | inr hx =>
      cases hy with
      | inl => simp at hg
      | inr hy =>
        simp only [Option.some.injEq] at h; subst h
        exact ⟨_, rfl, by simp [eitherQs, hx, hy]⟩
  slice := by
    rintro a a' i j z ha h
    obtain ⟨hg, h⟩ := guarded h
    simp only [sizeGuard] at hg
    simp only [Option.some.injEq] at h; subst h
    exact ⟨_, rfl, by rw [slice_length hg, ha]⟩
  gate := by
    rintro g qs qs' s s' t hq hs h
    simp only [exact, elems, Option.map_eq_some_iff] at h
    obtain ⟨l, h1, rfl⟩ := h
    refine ⟨s', rfl, ?_⟩
    simp only [allocs_append, elems_allocs h1, List.append_nil]; exact hs
  meas1 := by
    rintro q q' k s s' z _ hs h
    simp only [exact, Option.some.injEq] at h; subst h
    refine ⟨s', by simp [numI], ?_⟩
    simp only [allocs_append, allocs, List.append_nil]; exact hs
  measA := by
    rintro a a' k s s' z ha hs h
    simp only [exact, Option.some.injEq] at h; subst h
    refine ⟨s', ?_, ?_⟩
    · have : a'.toNat = a.length := by rw [ha]; simp
      simp [numI, this]
    · simp only [allocs_append, allocs, List.append_nil]; exact hs
  reset := by
    rintro x x' s s' t _ hs h
    simp only [Option.some.injEq] at h; subst h
    exact ⟨s', rfl, hs⟩
  delete := by
    rintro a a' s s' t ha hs h
    simp only [exact, Option.some.injEq] at h; subst h
    refine ⟨_, rfl, ?_⟩
    simp only [allocs_append, allocs]
    rw [← ha]
    exact hs.push _

theorem peak_go (l : List Int) : ∀ c p : Int, c ≤ p →
    let r := l.foldl (fun (p : Int × Int) d => (p.1 + d, max p.2 (p.1 + d))) (c, p)
    r.1 = c + l.sum ∧ (∀ m, m <+: l → c + m.sum ≤ r.2) ∧ (r.2 = p ∨ ∃ m, m <+: l ∧ c + m.sum = r.2) := by
  induction l with
  | nil => intro c p h; simp [h]
  | cons d l ih =>
    intro c p h
    obtain ⟨h1, h2, h3⟩ := ih (c + d) (max p (c + d)) (le_max_right _ _)
    refine ⟨by simp only [List.foldl_cons, h1, List.sum_cons]; omega, fun m hm => ?_, ?_⟩
    · simp only [List.foldl_cons]
      have hp : p ≤ (l.foldl (fun (p : Int × Int) d => (p.1 + d, max p.2 (p.1 + d))) (c + d, max p (c + d))).2 := by
        rcases h3 with h3 | ⟨m', _, h3⟩
        · rw [h3]; exact le_max_left _ _
        · have mono : ∀ (l : List Int) (z : Int × Int), z.2 ≤ (l.foldl (fun (p : Int × Int) d => (p.1 + d, max p.2 (p.1 + d))) z).2 := by
            intro l
            induction l with
            | nil => intro z; simp
            | cons d l ih => intro z; exact le_trans (le_max_left _ _) (ih (z.1 + d, max z.2 (z.1 + d)))
          exact le_trans (le_max_left _ _) (mono l (c + d, max p (c + d)))
      cases m with
      | nil => simp only [List.sum_nil, add_zero]; exact le_trans h hp
      | cons e m =>
        obtain ⟨he, hm'⟩ := List.cons_prefix_cons.1 hm
        have := h2 m hm'
        simp only [List.sum_cons, he]; omega
    · simp only [List.foldl_cons]
      rcases h3 with h3 | ⟨m, hm, h3⟩
      · rcases le_total p (c + d) with e | e
        · right
          exact ⟨[d], by simp, by rw [h3, max_eq_right e]; simp⟩
        · left; rw [h3, max_eq_left e]
      · right
        exact ⟨d :: m, by simpa using hm, by simp only [List.sum_cons]; omega⟩

theorem peak_spec (l : List Int) : (∀ m, m <+: l → m.sum ≤ peak l) ∧ ∃ m, m <+: l ∧ m.sum = peak l := by
  obtain ⟨_, h2, h3⟩ := peak_go l 0 0 (le_refl _)
  refine ⟨fun m hm => by simpa [peak] using h2 m hm, ?_⟩
  rcases h3 with h3 | ⟨m, hm, h3⟩
  · exact ⟨[], by simp, by simp only [List.sum_nil]; exact h3.symm⟩
  · exact ⟨m, hm, by simpa [peak] using h3⟩

end Verif.Jasp.Met
