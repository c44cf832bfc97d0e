import Mathlib.Data.List.Nodup
import Mathlib.Data.List.GetD
import Mathlib.Data.List.Chain
import Mathlib.Tactic.Ring
import Mathlib.Tactic.Linarith
import Mathlib.Tactic.LinearCombination
import Mathlib.Data.Nat.Log

/-!
# Shifts and permutations of iterables

Models `alg_primitives/iterable_processing.py:220-547`. The contents of an iterable are a function of the position; a
circuit is a list of pairs of positions to be swapped.
-/

namespace Verif.Iter

variable {α : Type}

/-- `swap(iterable[i], iterable[j])`. -/
def swapP (v : ℕ → α) (i j : ℕ) : ℕ → α := fun p => if p = i then v j else if p = j then v i else v p

def runP : List (ℕ × ℕ) → (ℕ → α) → (ℕ → α)
  | [], v => v
  | x :: xs, v => runP xs (swapP v x.1 x.2)

/-- `compute_ladder_iterations` (iterable_processing.py:364-390). -/
def ladderIter (N : ℕ) : ℕ → ℕ → ℕ → ℕ
  | 0, _, it => it
  | fuel + 1, power, it => if power < N then ladderIter N fuel (power * 2) (it + 1) else it

/-- One value of `j` in `singular_shift` without `use_saeedi` (iterable_processing.py:418-426). -/
def ladderStage (N j : ℕ) : List (ℕ × ℕ) :=
  (List.range (N - 2 ^ j)).flatMap fun i => if i % (2 * 2 ^ j) = 0 ∧ i + 2 ^ j < N then [(i, i + 2 ^ j)] else []

/-- `singular_shift` without `use_saeedi` (iterable_processing.py:416-426). -/
def ladder (N : ℕ) : List (ℕ × ℕ) := (List.range (ladderIter N N 1 0)).flatMap (ladderStage N)

/-- One loop of `singular_shift(use_saeedi=True)` (iterable_processing.py:398-405 for `c = 1`, 407-414 for `c = 2`). -/
def saeediLoop (N c : ℕ) : List (ℕ × ℕ) :=
  (List.range (N / 2)).flatMap fun i => if (N - i) % N ≠ i + c ∧ i + c < N then [((N - i) % N, i + c)] else []

/-- `singular_shift(use_saeedi=True)` (iterable_processing.py:397-414). -/
def saeedi (N : ℕ) : List (ℕ × ℕ) := saeediLoop N 1 ++ saeediLoop N 2

/-- Act on the iterable made of the elements at the positions `idx`. -/
def onIdx (idx : List ℕ) (ps : List (ℕ × ℕ)) : List (ℕ × ℕ) := ps.map fun x => (idx.getD x.1 0, idx.getD x.2 0)

/-- `cyclic_shift(iterable, 1)` (iterable_processing.py:275-291) on the elements at `idx`. -/
def cyc1 (idx : List ℕ) : List (ℕ × ℕ) :=
  let N := idx.length
  if N ≤ 1 then []
  else
    let M := 2 ^ Nat.log 2 N
    onIdx (idx.take M) (ladder M) ++ onIdx (idx.getD 0 0 :: idx.drop M) (saeedi (N - M + 1))

/-- The inner loop of `to_cycles` (iterable_processing.py:438-446): the rest of the cycle and the rest of the dictionary. -/
def cycLoop (π : ℕ → ℕ) : ℕ → List ℕ → ℕ → ℕ → List ℕ × List ℕ
  | 0, rem, _, _ => ([], rem)
  | fuel + 1, rem, this, next =>
    let rem' := rem.erase this
    if next ∈ rem' then
      let r := cycLoop π fuel rem' next (π next)
      (this :: r.1, r.2)
    else ([this], rem')

/-- `to_cycles` (iterable_processing.py:429-450); `rem` are the keys of the dictionary. -/
def toCycles (π : ℕ → ℕ) : ℕ → List ℕ → List (List ℕ)
  | 0, _ => []
  | _, [] => []
  | fuel + 1, e :: rem =>
    let r := cycLoop π (rem.length + 1) (e :: rem) (π e) (π (π e))
    r.1 :: toCycles π fuel r.2

/-- `permute_iterable` (iterable_processing.py:453-547) on the elements at `idx`. -/
def permuteIt (idx perm : List ℕ) : List (ℕ × ℕ) :=
  let N := perm.length
  let invPerm := (List.range N).map fun i => perm.idxOf i
  (toCycles (fun i => invPerm.getD i 0) N (List.range N)).flatMap fun c => cyc1 (c.map fun i => idx.getD i 0)

/-- `cyclic_shift` (iterable_processing.py:275-291) on the elements at `idx`; `none` for an empty iterable (the logarithm
of 0 raises). -/
def cyclicShift (idx : List ℕ) (k : ℤ) : Option (List (ℕ × ℕ)) :=
  let N := idx.length
  if N = 0 then none
  else if k % N = 0 then some []
  else
    let idx' := if k < 0 then idx.reverse else idx
    let k' := if k < 0 then -k else k
    if k' ≠ 1 then some (permuteIt idx' ((List.range N).map fun i : ℕ => (((i : ℤ) - k') % N).toNat))
    else some (cyc1 idx')

/-! ### Swaps -/

theorem runP_append (A B : List (ℕ × ℕ)) (v : ℕ → α) : runP (A ++ B) v = runP B (runP A v) := by
  induction A generalizing v with
  | nil => rfl
  | cons g A ih => exact ih _

/-- Disjoint swaps that exchange positions related by `ρ`. -/
theorem runP_refl (ρ : ℕ → ℕ) : ∀ (ps : List (ℕ × ℕ)), (∀ x ∈ ps, ρ x.1 = x.2 ∧ ρ x.2 = x.1) →
    ps.Pairwise (fun x y => x.1 ≠ y.1 ∧ x.1 ≠ y.2 ∧ x.2 ≠ y.1 ∧ x.2 ≠ y.2) → ∀ (v : ℕ → α) (p : ℕ),
    ((∃ x ∈ ps, p = x.1 ∨ p = x.2) → runP ps v p = v (ρ p)) ∧ ((¬ ∃ x ∈ ps, p = x.1 ∨ p = x.2) → runP ps v p = v p) := by
  intro ps
  induction ps with
  | nil =>
    intro _ _ v p
    exact ⟨fun ⟨x, hx, _⟩ => absurd hx List.not_mem_nil, fun _ => rfl⟩
  | cons x xs ih =>
    intro h hp v p
    rw [List.pairwise_cons] at hp
    have hx := h x List.mem_cons_self
    obtain ⟨h1, h2⟩ := ih (fun y hy => h y (List.mem_cons_of_mem _ hy)) hp.2 (swapP v x.1 x.2) p
    by_cases hc : ∃ y ∈ xs, p = y.1 ∨ p = y.2
    · refine ⟨fun _ => ?_, fun hn => ?_⟩
      · show runP xs _ p = _
        rw [h1 hc]
        obtain ⟨y, hy, hpy⟩ := hc
        have hd := hp.1 y hy
        have hyρ := h y (List.mem_cons_of_mem _ hy)
        unfold swapP
        rcases hpy with rfl | rfl
        · rw [hyρ.1, if_neg (fun e => hd.2.1 e.symm), if_neg (fun e => hd.2.2.2 e.symm)]
        · rw [hyρ.2, if_neg (fun e => hd.1 e.symm), if_neg (fun e => hd.2.2.1 e.symm)]
      · exact absurd (by obtain ⟨y, hy, hpy⟩ := hc; exact ⟨y, List.mem_cons_of_mem _ hy, hpy⟩) hn
    · refine ⟨fun he => ?_, fun hn => ?_⟩
      · show runP xs _ p = _
        rw [h2 hc]
        obtain ⟨y, hy, hpy⟩ := he
        rcases List.mem_cons.1 hy with rfl | hy
        · unfold swapP
          rcases hpy with rfl | rfl
          · rw [if_pos rfl, hx.1]
          · by_cases e : y.2 = y.1
            · rw [if_pos e, hx.2, e]
            · rw [if_neg e, if_pos rfl, hx.2]
        · exact absurd ⟨y, hy, hpy⟩ hc
      · show runP xs _ p = _
        rw [h2 hc]
        unfold swapP
        rw [if_neg fun e => hn ⟨x, List.mem_cons_self, Or.inl e⟩, if_neg fun e => hn ⟨x, List.mem_cons_self, Or.inr e⟩]

theorem pairwise_flat {R : ℕ × ℕ → ℕ × ℕ → Prop} (P : ℕ → Prop) [DecidablePred P] (g : ℕ → ℕ × ℕ) :
    ∀ (l : List ℕ), l.Pairwise (fun i j => P i → P j → R (g i) (g j)) →
    (l.flatMap fun i => if P i then [g i] else []).Pairwise R := by
  intro l
  induction l with
  | nil => intro _; exact List.Pairwise.nil
  | cons a l ih =>
    intro h
    rw [List.pairwise_cons] at h
    rw [List.flatMap_cons]
    by_cases ha : P a
    · rw [if_pos ha, List.singleton_append, List.pairwise_cons]
      refine ⟨fun y hy => ?_, ih h.2⟩
      rw [List.mem_flatMap] at hy
      obtain ⟨j, hj, hy⟩ := hy
      by_cases hPj : P j
      · rw [if_pos hPj, List.mem_singleton] at hy
        rw [hy]
        exact h.1 j hj ha hPj
      · rw [if_neg hPj] at hy; cases hy
    · rw [if_neg ha, List.nil_append]
      exact ih h.2

theorem mem_flat {P : ℕ → Prop} [DecidablePred P] {g : ℕ → ℕ × ℕ} {l : List ℕ} {x : ℕ × ℕ} :
    x ∈ (l.flatMap fun i => if P i then [g i] else []) ↔ ∃ i ∈ l, P i ∧ x = g i := by
  rw [List.mem_flatMap]
  refine exists_congr fun i => and_congr_right fun _ => ?_
  by_cases h : P i
  · rw [if_pos h, List.mem_singleton]; simp [h]
  · rw [if_neg h]; simp [h]

/-! ### The ladder -/

theorem ladderIter_pow (n : ℕ) : ∀ (fuel t : ℕ), t ≤ n → 2 ^ n ≤ 2 ^ t + fuel → ladderIter (2 ^ n) fuel (2 ^ t) t = n := by
  intro fuel
  induction fuel with
  | zero =>
    intro t ht hf
    have : n ≤ t := (Nat.pow_le_pow_iff_right (by norm_num : 1 < 2)).1 (by omega)
    simp only [ladderIter]
    omega
  | succ fuel ih =>
    intro t ht hf
    simp only [ladderIter]
    by_cases h : 2 ^ t < 2 ^ n
    · rw [if_pos h, ← pow_succ]
      have htn : t < n := (Nat.pow_lt_pow_iff_right (by norm_num : 1 < 2)).1 h
      have : 1 ≤ 2 ^ t := Nat.one_le_two_pow
      exact ih (t + 1) htn (by rw [pow_succ]; omega)
    · rw [if_neg h]
      have : n ≤ t := (Nat.pow_le_pow_iff_right (by norm_num : 1 < 2)).1 (by omega)
      omega

theorem ladderStage_spec {N w j a : ℕ} (hw : w = 2 ^ j) (hN : N = 2 * w * a) (v : ℕ → α) :
    (∀ b, b < a → runP (ladderStage N j) v (2 * w * b) = v (2 * w * b + w) ∧
      runP (ladderStage N j) v (2 * w * b + w) = v (2 * w * b)) ∧
    (∀ p, p % (2 * w) ≠ 0 → p % (2 * w) ≠ w → runP (ladderStage N j) v p = v p) ∧
    ∀ p, N ≤ p → runP (ladderStage N j) v p = v p := by
  have hwpos : 0 < w := by rw [hw]; positivity
  set ρ : ℕ → ℕ := fun p => if p % (2 * w) = 0 then p + w else p - w with hρ
  have h1 : ∀ x ∈ ladderStage N j, x.1 % (2 * w) = 0 ∧ x.2 = x.1 + w ∧ x.2 < N := by
    intro x hx
    unfold ladderStage at hx
    rw [← hw, mem_flat (P := fun i => i % (2 * w) = 0 ∧ i + w < N) (g := fun i => (i, i + w))] at hx
    obtain ⟨i, _, h, rfl⟩ := hx
    exact ⟨h.1, rfl, h.2⟩
  have hmod : ∀ p, p % (2 * w) = 0 → (p + w) % (2 * w) = w := fun p hp => by
    rw [Nat.add_mod, hp, Nat.zero_add, Nat.mod_mod, Nat.mod_eq_of_lt (by omega)]
  have key := runP_refl (α := α) ρ (ladderStage N j)
    (fun x hx => by
      obtain ⟨e1, e2, _⟩ := h1 x hx
      have e3 := hmod x.1 e1
      simp only [hρ]
      rw [if_pos e1, e2, if_neg (by omega)]
      exact ⟨rfl, by omega⟩)
    (by
      unfold ladderStage
      rw [← hw]
      refine pairwise_flat (P := fun i => i % (2 * w) = 0 ∧ i + w < N) (g := fun i => (i, i + w)) _ ?_
      refine List.Pairwise.imp (fun {i k} (hik : i < k) hi hk => ?_) List.pairwise_lt_range
      have hi' := hmod i hi.1
      have hk' := hmod k hk.1
      refine ⟨by simp; omega, fun e => ?_, fun e => ?_, by simp; omega⟩
      · simp only at e; omega
      · simp only at e; rw [e] at hi'; omega)
    v
  have hmem : ∀ b, b < a → ((2 * w * b, 2 * w * b + w) : ℕ × ℕ) ∈ ladderStage N j := by
    intro b hb
    have hle : 2 * w * b + 2 * w ≤ N := by
      rw [hN]
      calc 2 * w * b + 2 * w = 2 * w * (b + 1) := by ring
        _ ≤ 2 * w * a := Nat.mul_le_mul_left _ hb
    unfold ladderStage
    rw [← hw, mem_flat (P := fun i => i % (2 * w) = 0 ∧ i + w < N) (g := fun i => (i, i + w))]
    exact ⟨2 * w * b, List.mem_range.2 (by omega), ⟨Nat.mul_mod_right _ _, by omega⟩, rfl⟩
  refine ⟨fun b hb => ?_, fun p hp1 hp2 => ?_, fun p hp => ?_⟩
  · have hz : 2 * w * b % (2 * w) = 0 := Nat.mul_mod_right _ _
    have e1 := (key (2 * w * b)).1 ⟨_, hmem b hb, Or.inl rfl⟩
    have e2 := (key (2 * w * b + w)).1 ⟨_, hmem b hb, Or.inr rfl⟩
    have e3 := hmod _ hz
    rw [e1, e2]
    simp only [hρ]
    rw [if_pos hz, if_neg (by omega), Nat.add_sub_cancel]
    exact ⟨rfl, rfl⟩
  · refine (key p).2 ?_
    rintro ⟨x, hx, rfl | rfl⟩
    · exact hp1 (h1 x hx).1
    · rw [(h1 x hx).2.1] at hp2
      exact hp2 (hmod _ (h1 x hx).1)
  · refine (key p).2 ?_
    rintro ⟨x, hx, rfl | rfl⟩
    · have := h1 x hx; omega
    · have := h1 x hx; omega

theorem ladder_stages {n : ℕ} (v : ℕ → α) : ∀ j, j ≤ n →
    (∀ a r, r < 2 ^ j → a < 2 ^ (n - j) → runP ((List.range j).flatMap (ladderStage (2 ^ n))) v (2 ^ j * a + r) =
      v (2 ^ j * a + if r = 0 then 2 ^ j - 1 else r - 1)) ∧
    ∀ p, 2 ^ n ≤ p → runP ((List.range j).flatMap (ladderStage (2 ^ n))) v p = v p := by
  intro j
  induction j with
  | zero =>
    intro _
    refine ⟨fun a r hr _ => ?_, fun p _ => rfl⟩
    have : r = 0 := by simpa using hr
    subst this
    rfl
  | succ j ih =>
    intro hj
    obtain ⟨ih1, ih2⟩ := ih (by omega)
    have hw : 0 < 2 ^ j := by positivity
    have hN : 2 ^ n = 2 * 2 ^ j * 2 ^ (n - (j + 1)) := by
      rw [mul_comm 2, ← pow_succ, ← pow_add]; congr 1; omega
    have hA : 2 ^ (n - j) = 2 * 2 ^ (n - (j + 1)) := by
      rw [mul_comm, ← pow_succ]; congr 1; omega
    rw [List.range_succ, List.flatMap_append, List.flatMap_singleton]
    obtain ⟨s1, s2, s3⟩ := ladderStage_spec (w := 2 ^ j) rfl hN
      (runP ((List.range j).flatMap (ladderStage (2 ^ n))) v)
    refine ⟨fun a r hr ha => ?_, fun p hp => ?_⟩
    · rw [runP_append, pow_succ, mul_comm (2 ^ j) 2]
      have hr' : r < 2 * 2 ^ j := by rw [pow_succ] at hr; omega
      have e0 := ih1 (2 * a) 0 hw (by omega)
      have e1 := ih1 (2 * a + 1) 0 hw (by omega)
      simp only [if_true, add_zero] at e0 e1
      have c0 : 2 ^ j * (2 * a) = 2 * 2 ^ j * a := by ring
      have c1 : 2 ^ j * (2 * a + 1) = 2 * 2 ^ j * a + 2 ^ j := by ring
      rw [c0] at e0
      rw [c1] at e1
      by_cases hr0 : r = 0
      · rw [if_pos hr0, hr0, add_zero, (s1 a ha).1, e1]
        congr 1; omega
      · rw [if_neg hr0]
        by_cases hrw : r = 2 ^ j
        · rw [hrw, (s1 a ha).2, e0]
        · have hm : (2 * 2 ^ j * a + r) % (2 * 2 ^ j) = r := by
            rw [Nat.mul_add_mod, Nat.mod_eq_of_lt hr']
          rw [s2 _ (by rw [hm]; exact hr0) (by rw [hm]; exact hrw)]
          by_cases hlt : r < 2 ^ j
          · have := ih1 (2 * a) r hlt (by omega)
            rw [c0, if_neg hr0] at this
            exact this
          · have := ih1 (2 * a + 1) (r - 2 ^ j) (by omega) (by omega)
            rw [c1, if_neg (by omega)] at this
            have e2 : 2 * 2 ^ j * a + 2 ^ j + (r - 2 ^ j) = 2 * 2 ^ j * a + r := by omega
            have e3 : 2 * 2 ^ j * a + 2 ^ j + (r - 2 ^ j - 1) = 2 * 2 ^ j * a + (r - 1) := by omega
            rw [e2, e3] at this
            exact this
    · rw [runP_append, s3 p hp, ih2 p hp]

/-- The ladder shifts `2^n` elements cyclically by one. -/
theorem ladder_spec (n : ℕ) (v : ℕ → α) :
    (∀ p, p < 2 ^ n → runP (ladder (2 ^ n)) v p = v (if p = 0 then 2 ^ n - 1 else p - 1)) ∧
    ∀ p, 2 ^ n ≤ p → runP (ladder (2 ^ n)) v p = v p := by
  have hi : ladderIter (2 ^ n) (2 ^ n) 1 0 = n := by
    have := ladderIter_pow n (2 ^ n) 0 (by omega) (by omega)
    simpa using this
  unfold ladder
  rw [hi]
  obtain ⟨h1, h2⟩ := ladder_stages (n := n) v n (le_refl _)
  refine ⟨fun p hp => ?_, h2⟩
  have := h1 0 p hp (by simp)
  simpa using this

/-! ### The two reflections -/

theorem saeediLoop_spec {N c : ℕ} (hc : c = 1 ∨ c = 2) (hN : 2 ≤ N) (v : ℕ → α) :
    (∀ p, p < N → runP (saeediLoop N c) v p = v ((N + c - p) % N)) ∧ ∀ p, N ≤ p → runP (saeediLoop N c) v p = v p := by
  by_cases h22 : c = 2 ∧ N = 2
  · obtain ⟨rfl, rfl⟩ := h22
    have : saeediLoop 2 2 = [] := by decide
    rw [this]
    refine ⟨fun p hp => ?_, fun p _ => rfl⟩
    have : (2 + 2 - p) % 2 = p := by omega
    rw [this]; rfl
  have hmod : ∀ i, i < N / 2 → (N - i) % N = if i = 0 then 0 else N - i := fun i hi => by
    by_cases h : i = 0
    · subst h; simp
    · rw [if_neg h, Nat.mod_eq_of_lt (by omega)]
  have hρm : ∀ p, p < N → (N + c - p) % N = if p < c then c - p else if p = c then 0 else N + c - p := fun p hp => by
    by_cases h : p < c
    · rw [if_pos h, show N + c - p = N + (c - p) by omega, Nat.add_mod_left]
      exact Nat.mod_eq_of_lt (by omega)
    · rw [if_neg h]
      by_cases h2 : p = c
      · rw [if_pos h2, h2, Nat.add_sub_cancel, Nat.mod_self]
      · rw [if_neg h2, Nat.mod_eq_of_lt (by omega)]
  have hP : saeediLoop N c = (List.range (N / 2)).flatMap fun i =>
      if (N - i) % N ≠ i + c ∧ i + c < N then [((N - i) % N, i + c)] else [] := rfl
  have hmem : ∀ x, x ∈ saeediLoop N c ↔ ∃ i ∈ List.range (N / 2), ((N - i) % N ≠ i + c ∧ i + c < N) ∧
      x = ((N - i) % N, i + c) := fun x => by
    rw [hP]
    exact mem_flat (P := fun i => (N - i) % N ≠ i + c ∧ i + c < N) (g := fun i => ((N - i) % N, i + c))
  have key := runP_refl (α := α) (fun p => (N + c - p) % N) (saeediLoop N c)
    (fun x hx => by
      rw [hmem] at hx
      obtain ⟨i, hi, h, rfl⟩ := hx
      rw [List.mem_range] at hi
      simp only
      rw [hmod i hi] at h ⊢
      by_cases h0 : i = 0
      · subst h0
        simp only [if_true] at h ⊢
        rw [hρm 0 (by omega), hρm (0 + c) (by omega)]
        constructor
        · rw [if_pos (by omega)]; omega
        · rw [if_neg (by omega), if_pos (by omega)]
      · rw [if_neg h0] at h ⊢
        rw [hρm (N - i) (by omega), hρm (i + c) (by omega)]
        constructor
        · by_cases h1 : N - i < c
          · omega
          · rw [if_neg h1]
            by_cases h2 : N - i = c
            · omega
            · rw [if_neg h2]; omega
        · rw [if_neg (by omega), if_neg (by omega)]; omega)
    (by
      rw [hP]
      refine pairwise_flat (P := fun i => (N - i) % N ≠ i + c ∧ i + c < N) (g := fun i => ((N - i) % N, i + c)) _ ?_
      have hp : (List.range (N / 2)).Pairwise fun i k => i < k ∧ k < N / 2 := by
        rw [List.pairwise_iff_getElem]
        intro a b ha hb hab
        simp at ha hb ⊢
        omega
      refine List.Pairwise.imp (fun {i k} hik hi hk => ?_) hp
      rw [hmod i (by omega)] at hi
      rw [hmod k (by omega)] at hk
      simp only
      rw [hmod i (by omega), hmod k (by omega), if_neg (show k ≠ 0 by omega)]
      rw [if_neg (show k ≠ 0 by omega)] at hk
      by_cases h0 : i = 0
      · rw [if_pos h0] at hi ⊢
        omega
      · rw [if_neg h0] at hi ⊢
        omega)
    v
  refine ⟨fun p hp => ?_, fun p hp => ?_⟩
  · by_cases he : ∃ x ∈ saeediLoop N c, p = x.1 ∨ p = x.2
    · exact (key p).1 he
    · rw [(key p).2 he]
      have hfix : (N + c - p) % N = p := by
        rw [hρm p hp]
        by_contra hne
        refine he ?_
        by_cases h1 : p < c
        · rw [if_pos h1] at hne
          -- `p = 0`, or `p = 1` is a fixed point
          have h0 : p = 0 := by omega
          subst h0
          by_cases hcN : c < N
          · refine ⟨(0, c), (hmem _).2 ⟨0, List.mem_range.2 (by omega), ⟨?_, by omega⟩, ?_⟩, Or.inl rfl⟩
            · rw [hmod 0 (by omega), if_pos rfl]; omega
            · rw [hmod 0 (by omega), if_pos rfl, Nat.zero_add]
          · exfalso
            omega
        · rw [if_neg h1] at hne
          by_cases h2 : p = c
          · rw [if_pos h2] at hne
            refine ⟨(0, c), (hmem _).2 ⟨0, List.mem_range.2 (by omega), ⟨?_, by omega⟩, ?_⟩, Or.inr h2⟩
            · rw [hmod 0 (by omega), if_pos rfl]; omega
            · rw [hmod 0 (by omega), if_pos rfl, Nat.zero_add]
          · rw [if_neg h2] at hne
            by_cases h3 : p - c < N / 2
            · refine ⟨(N - (p - c), p), (hmem _).2 ⟨p - c, List.mem_range.2 h3, ⟨?_, by omega⟩, ?_⟩, Or.inr rfl⟩
              · rw [hmod _ h3, if_neg (by omega)]; omega
              · rw [hmod _ h3, if_neg (by omega)]
                ext
                · rfl
                · show p = p - c + c; omega
            · refine ⟨(p, N - p + c), (hmem _).2 ⟨N - p, List.mem_range.2 (by omega), ⟨?_, by omega⟩, ?_⟩, Or.inl rfl⟩
              · rw [hmod _ (by omega), if_neg (by omega)]; omega
              · rw [hmod _ (by omega), if_neg (by omega)]
                ext
                · show p = N - (N - p); omega
                · rfl
      show v p = v ((N + c - p) % N)
      rw [hfix]
  · refine (key p).2 ?_
    rintro ⟨x, hx, hpx⟩
    rw [hmem] at hx
    obtain ⟨i, hi, h, rfl⟩ := hx
    rw [List.mem_range] at hi
    have : (N - i) % N < N := Nat.mod_lt _ (by omega)
    rcases hpx with rfl | rfl
    · simp only at hp; omega
    · simp only at hp; omega

/-- The two reflections shift cyclically by one. -/
theorem saeedi_spec {N : ℕ} (hN : 1 ≤ N) (v : ℕ → α) :
    (∀ p, p < N → runP (saeedi N) v p = v (if p = 0 then N - 1 else p - 1)) ∧ ∀ p, N ≤ p → runP (saeedi N) v p = v p := by
  by_cases h1 : N = 1
  · subst h1
    have : saeedi 1 = [] := by decide
    rw [this]
    refine ⟨fun p hp => ?_, fun p _ => rfl⟩
    have : p = 0 := by omega
    subst this
    rfl
  · have h2 : 2 ≤ N := by omega
    unfold saeedi
    obtain ⟨a1, a2⟩ := saeediLoop_spec (c := 1) (Or.inl rfl) h2 v
    obtain ⟨b1, b2⟩ := saeediLoop_spec (c := 2) (Or.inr rfl) h2 (runP (saeediLoop N 1) v)
    refine ⟨fun p hp => ?_, fun p hp => ?_⟩
    · rw [runP_append, b1 p hp, a1 _ (Nat.mod_lt _ (by omega))]
      congr 1
      by_cases hp0 : p = 0
      · rw [if_pos hp0, hp0, Nat.sub_zero, Nat.add_mod_left]
        by_cases hN2 : N = 2
        · subst hN2; rfl
        · rw [Nat.mod_eq_of_lt (show 2 < N by omega), Nat.mod_eq_of_lt (by omega)]; omega
      · rw [if_neg hp0]
        by_cases hp1 : p = 1
        · subst hp1
          rw [show N + 2 - 1 = N + 1 by omega, Nat.add_mod_left, Nat.mod_eq_of_lt (show 1 < N by omega),
            show N + 1 - 1 = N by omega, Nat.mod_self]
        · by_cases hp2 : p = 2
          · subst hp2
            rw [show N + 2 - 2 = N by omega, Nat.mod_self, Nat.sub_zero, Nat.add_mod_left,
              Nat.mod_eq_of_lt (show 1 < N by omega)]
          · rw [Nat.mod_eq_of_lt (show N + 2 - p < N by omega), show N + 1 - (N + 2 - p) = p - 1 by omega,
              Nat.mod_eq_of_lt (by omega)]
    · rw [runP_append, b2 p hp, a2 p hp]

end Verif.Iter
