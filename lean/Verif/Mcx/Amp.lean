import Verif.Mcx.Hybrid
import Mathlib.Algebra.Ring.Basic
import Mathlib.Algebra.BigOperators.Group.List.Basic
import Mathlib.Algebra.BigOperators.Ring.List
import Mathlib.Tactic.Ring
import Mathlib.Tactic.LinearCombination

/-!
# Amplitudes

States as functions from basis states to amplitudes. The coefficients are a commutative ring with an eighth root of
unity `w` and a number `r` with `2 r² = 1`; `Props/Mcx.lean` instantiates it with the complex numbers.
-/

set_option linter.unusedSectionVars false

namespace Verif.Mcx

open Verif.Rev

/-- `w = exp(iπ/4)` and `r = 1/√2`. -/
structure Root8 (R : Type) [CommRing R] where
  w : R
  r : R
  w4 : w ^ 4 = -1
  r2 : 2 * r ^ 2 = 1

/-- Gates of `circuit_library.py`: X with controls, H, phase `w ^ k` on all-ones, `sx` = RX(π/2) and its inverse
(standard_operations.py:545-585), and one branch of a measurement (unnormalised). -/
inductive AGate (Q : Type) where
  | mcx (cs : List Q) (t : Q)
  | h (t : Q)
  | dg (k : Nat) (cs : List Q)
  | sx (t : Q)
  | sxdg (t : Q)
  | proj (t : Q) (b : Bool)
  deriving DecidableEq

variable {Q : Type} [DecidableEq Q] {R : Type} [CommRing R]

/-- Action of a gate. -/
def AGate.app (e : Root8 R) : AGate Q → (St Q → R) → (St Q → R)
  | .mcx cs t, ψ => fun s => ψ (upd s t (s t ^^ allOn cs s))
  | .h t, ψ => fun s => e.r * (ψ (upd s t false) + (if s t then -1 else 1) * ψ (upd s t true))
  | .dg k cs, ψ => fun s => (if allOn cs s then e.w ^ k else 1) * ψ s
  | .sx t, ψ => fun s => e.r * (ψ s - e.w ^ 2 * ψ (upd s t (!s t)))
  | .sxdg t, ψ => fun s => e.r * (ψ s + e.w ^ 2 * ψ (upd s t (!s t)))
  | .proj t b, ψ => fun s => if s t = b then ψ s else 0

def run (e : Root8 R) : List (AGate Q) → (St Q → R) → (St Q → R)
  | [], ψ => ψ
  | g :: gs, ψ => run e gs (g.app e ψ)

def AGate.inv : AGate Q → AGate Q
  | .mcx cs t => .mcx cs t
  | .h t => .h t
  | .dg k cs => .dg (7 * k) cs
  | .sx t => .sxdg t
  | .sxdg t => .sx t
  | .proj t b => .proj t b

/-- `with invert()`. -/
def ainv (gs : List (AGate Q)) : List (AGate Q) := (gs.map AGate.inv).reverse

/-- Unitary gates with controls different from the target. -/
def AGate.uwf : AGate Q → Prop
  | .mcx cs t => t ∉ cs
  | .proj _ _ => False
  | _ => True

theorem run_append (e : Root8 R) (A B : List (AGate Q)) (ψ : St Q → R) : run e (A ++ B) ψ = run e B (run e A ψ) := by
  induction A generalizing ψ with
  | nil => rfl
  | cons g A ih => exact ih _

theorem Root8.w8 (e : Root8 R) : e.w ^ 8 = 1 := by
  rw [show e.w ^ 8 = (e.w ^ 4) ^ 2 by ring, e.w4]; ring

theorem app_inv (e : Root8 R) (g : AGate Q) (hg : g.uwf) (ψ : St Q → R) :
    g.inv.app e (g.app e ψ) = ψ ∧ g.app e (g.inv.app e ψ) = ψ := by
  have hw : (e.w ^ 2) * (e.w ^ 2) = -1 := by rw [← e.w4]; ring
  cases g with
  | mcx cs t =>
    replace hg : t ∉ cs := hg
    have : ∀ s : St Q, upd (upd s t (s t ^^ allOn cs s)) t (upd s t (s t ^^ allOn cs s) t ^^
        allOn cs (upd s t (s t ^^ allOn cs s))) = s := by
      intro s
      rw [upd_same, allOn_upd hg, upd_upd]
      simp [upd_self]
    exact ⟨funext fun s => congrArg ψ (this s), funext fun s => congrArg ψ (this s)⟩
  | h t =>
    have : ∀ s : St Q, AGate.app e (.h t) (AGate.app e (.h t) ψ) s = ψ s := by
      intro s
      simp only [AGate.app, upd_same, upd_upd]
      cases hs : s t
      · have : upd s t false = s := by rw [← hs, upd_self]
        rw [this]
        simp only [Bool.false_eq_true, if_false, if_true]
        linear_combination ψ s * e.r2
      · have : upd s t true = s := by rw [← hs, upd_self]
        rw [this]
        simp only [Bool.false_eq_true, if_false, if_true]
        linear_combination ψ s * e.r2
    exact ⟨funext this, funext this⟩
  | dg k cs =>
    have hk : e.w ^ (7 * k) * e.w ^ k = 1 := by
      rw [← pow_add, show 7 * k + k = 8 * k by ring, pow_mul, e.w8, one_pow]
    constructor <;> funext s <;> simp only [AGate.inv, AGate.app] <;> split
    · rw [← mul_assoc, hk, one_mul]
    · rw [one_mul, one_mul]
    · rw [← mul_assoc, mul_comm (e.w ^ k), hk, one_mul]
    · rw [one_mul, one_mul]
  | sx t =>
    constructor <;> funext s <;> simp only [AGate.inv, AGate.app, upd_same, upd_upd, Bool.not_not, upd_self]
    · linear_combination ψ s * e.r2 - e.r ^ 2 * ψ s * hw
    · linear_combination ψ s * e.r2 - e.r ^ 2 * ψ s * hw
  | sxdg t =>
    constructor <;> funext s <;> simp only [AGate.inv, AGate.app, upd_same, upd_upd, Bool.not_not, upd_self]
    · linear_combination ψ s * e.r2 - e.r ^ 2 * ψ s * hw
    · linear_combination ψ s * e.r2 - e.r ^ 2 * ψ s * hw
  | proj t b => exact hg.elim

theorem run_ainv (e : Root8 R) : ∀ (gs : List (AGate Q)), (∀ g ∈ gs, g.uwf) → ∀ ψ : St Q → R,
    run e (ainv gs) (run e gs ψ) = ψ ∧ run e gs (run e (ainv gs) ψ) = ψ := by
  intro gs
  induction gs with
  | nil => intro _ ψ; exact ⟨rfl, rfl⟩
  | cons g gs ih =>
    intro hw ψ
    have hc : ainv (g :: gs) = ainv gs ++ [g.inv] := by simp [ainv]
    have hg := app_inv e g (hw g (by simp))
    have hgs := ih fun p hp => hw p (by simp [hp])
    constructor
    · rw [hc, run_append]
      show run e [g.inv] (run e (ainv gs) (run e gs (g.app e ψ))) = ψ
      rw [(hgs _).1]
      exact (hg ψ).1
    · rw [hc, run_append]
      show run e gs (g.app e (g.inv.app e (run e (ainv gs) ψ))) = ψ
      rw [(hg _).2]
      exact (hgs ψ).2

/-- A circuit that acts like a self-inverse operator also does so inverted. -/
theorem run_ainv_of_self (e : Root8 R) {gs : List (AGate Q)} (hw : ∀ g ∈ gs, g.uwf) {U : (St Q → R) → (St Q → R)}
    (hU : ∀ ψ, U (U ψ) = ψ) (h : ∀ ψ, run e gs ψ = U ψ) (ψ : St Q → R) : run e (ainv gs) ψ = U ψ := by
  have := (run_ainv e gs hw (U ψ)).1
  rw [h, hU] at this
  exact this

/-- Specification: the target flips when all controls are in their control state. -/
def mcxOp (ps : List (Q × Bool)) (t : Q) (ψ : St Q → R) : St Q → R := fun s => ψ (upd s t (s t ^^ allMatch ps s))

/-! ### Local circuits -/

/-- Rename the qubits of a gate. -/
def AGate.map (f : Nat → Q) : AGate Nat → AGate Q
  | .mcx cs t => .mcx (cs.map f) (f t)
  | .h t => .h (f t)
  | .dg k cs => .dg k (cs.map f)
  | .sx t => .sx (f t)
  | .sxdg t => .sxdg (f t)
  | .proj t b => .proj (f t) b

/-- Largest index of a gate is below `n`. -/
def AGate.below (n : Nat) : AGate Nat → Bool
  | .mcx cs t => cs.all (· < n) && decide (t < n)
  | .h t => decide (t < n)
  | .dg _ cs => cs.all (· < n)
  | .sx t => decide (t < n)
  | .sxdg t => decide (t < n)
  | .proj t _ => decide (t < n)

/-- `s` with the values `l` on the qubits `q 0, q 1, …`. -/
def put (q : Nat → Q) (s : St Q) (l : List Bool) : St Q := fun x =>
  match (List.range l.length).find? (fun i => decide (q i = x)) with
  | some i => l.getD i false
  | none => s x

def localOn (cs : List Nat) (l : List Bool) : Bool := cs.all fun i => l.getD i false

/-- The basis states a gate pulls back to, with the exponent of `w`. -/
def branch : AGate Nat → List Bool → List (Nat × List Bool)
  | .mcx cs t, l => [(0, l.set t (l.getD t false ^^ localOn cs l))]
  | .h t, l => [(0, l.set t false), (if l.getD t false then 4 else 0, l.set t true)]
  | .dg k cs, l => [(if localOn cs l then k else 0, l)]
  | .sx t, l => [(0, l), (6, l.set t (!l.getD t false))]
  | .sxdg t, l => [(0, l), (2, l.set t (!l.getD t false))]
  | .proj t b, l => if l.getD t false = b then [(0, l)] else []

/-- Paths of a circuit given in reverse order. -/
def paths : List (AGate Nat) → List Bool → List (Nat × List Bool)
  | [], l => [(0, l)]
  | g :: gs, l => (branch g l).flatMap fun p => (paths gs p.2).map fun q => (p.1 + q.1, q.2)

/-- Number of factors `r`. -/
def AGate.scale : AGate Nat → Nat
  | .h _ | .sx _ | .sxdg _ => 1
  | _ => 0

def scales (gs : List (AGate Nat)) : Nat := (gs.map AGate.scale).sum

section
variable {q : Nat → Q} {n : Nat}

theorem put_at (hq : ∀ i j, i < n → j < n → q i = q j → i = j) (s : St Q) {l : List Bool} (hl : l.length = n) {i : Nat}
    (hi : i < n) : put q s l (q i) = l.getD i false := by
  unfold put
  cases h : (List.range l.length).find? (fun j => decide (q j = q i)) with
  | none =>
    have := List.find?_eq_none.1 h i (by rw [List.mem_range, hl]; exact hi)
    simp at this
  | some j =>
    have h1 := List.find?_some h
    have h2 := List.mem_of_find?_eq_some h
    rw [List.mem_range, hl] at h2
    have : j = i := hq j i h2 hi (of_decide_eq_true h1)
    rw [this]

theorem put_out (s : St Q) {l : List Bool} (hl : l.length = n) {x : Q} (hx : ∀ i, i < n → q i ≠ x) :
    put q s l x = s x := by
  unfold put
  have : (List.range l.length).find? (fun j => decide (q j = x)) = none := by
    rw [List.find?_eq_none]
    intro j hj
    rw [List.mem_range, hl] at hj
    simpa using hx j hj
  rw [this]

theorem upd_put (hq : ∀ i j, i < n → j < n → q i = q j → i = j) (s : St Q) {l : List Bool} (hl : l.length = n) {i : Nat}
    (hi : i < n) (v : Bool) : upd (put q s l) (q i) v = put q s (l.set i v) := by
  funext x
  have hl' : (l.set i v).length = n := by rw [List.length_set, hl]
  by_cases hx : ∃ j, j < n ∧ q j = x
  · obtain ⟨j, hj, rfl⟩ := hx
    rw [put_at hq s hl' hj]
    by_cases hij : i = j
    · subst hij
      rw [upd_same]
      simp [List.getD, hl, hi]
    · rw [upd_ne fun e => hij (hq j i hj hi e).symm, put_at hq s hl hj]
      simp [List.getD, List.getElem?_set_ne hij]
  · have hx' : ∀ j, j < n → q j ≠ x := fun j hj e => hx ⟨j, hj, e⟩
    rw [put_out s hl' hx', upd_ne fun e => hx' i hi e.symm, put_out s hl hx']

theorem put_self (hq : ∀ i j, i < n → j < n → q i = q j → i = j) (s : St Q) :
    put q s ((List.range n).map fun i => s (q i)) = s := by
  have hl : ((List.range n).map fun i => s (q i)).length = n := by simp
  funext x
  by_cases hx : ∃ j, j < n ∧ q j = x
  · obtain ⟨j, hj, rfl⟩ := hx
    rw [put_at hq s hl hj]
    simp [List.getD, hj]
  · exact put_out s hl fun j hj e => hx ⟨j, hj, e⟩

theorem allOn_put (hq : ∀ i j, i < n → j < n → q i = q j → i = j) (s : St Q) {l : List Bool} (hl : l.length = n)
    {cs : List Nat} (hcs : cs.all (· < n) = true) : allOn (cs.map q) (put q s l) = localOn cs l := by
  unfold allOn localOn
  rw [List.all_map, Bool.eq_iff_iff, List.all_eq_true, List.all_eq_true]
  refine forall₂_congr fun i hi => ?_
  have := of_decide_eq_true (List.all_eq_true.1 hcs i hi)
  rw [Function.comp, put_at hq s hl this]

/-- One gate on a local state. -/
theorem branch_sum (e : Root8 R) (hq : ∀ i j, i < n → j < n → q i = q j → i = j) (g : AGate Nat) (hg : g.below n = true)
    (ψ : St Q → R) (s : St Q) {l : List Bool} (hl : l.length = n) :
    (g.map q).app e ψ (put q s l) =
      e.r ^ g.scale * ((branch g l).map fun p => e.w ^ p.1 * ψ (put q s p.2)).sum := by
  have hw6 : e.w ^ 6 = - e.w ^ 2 := by rw [show e.w ^ 6 = e.w ^ 4 * e.w ^ 2 by ring, e.w4]; ring
  cases g with
  | mcx cs t =>
    simp only [AGate.below, Bool.and_eq_true, decide_eq_true_eq] at hg
    simp only [AGate.map, AGate.app, branch, AGate.scale, List.map_cons, List.map_nil, List.sum_cons, List.sum_nil,
      pow_zero, one_mul, add_zero]
    rw [allOn_put hq s hl hg.1, put_at hq s hl hg.2, upd_put hq s hl hg.2]
  | h t =>
    replace hg : t < n := of_decide_eq_true hg
    simp only [AGate.map, AGate.app, branch, AGate.scale, List.map_cons, List.map_nil, List.sum_cons, List.sum_nil,
      pow_zero, one_mul, add_zero, pow_one]
    rw [put_at hq s hl hg, upd_put hq s hl hg, upd_put hq s hl hg]
    cases l.getD t false
    · simp
    · simp [e.w4]
  | dg k cs =>
    replace hg : cs.all (· < n) = true := hg
    simp only [AGate.map, AGate.app, branch, AGate.scale, List.map_cons, List.map_nil, List.sum_cons, List.sum_nil,
      pow_zero, one_mul, add_zero]
    rw [allOn_put hq s hl hg]
    cases localOn cs l <;> simp
  | sx t =>
    replace hg : t < n := of_decide_eq_true hg
    simp only [AGate.map, AGate.app, branch, AGate.scale, List.map_cons, List.map_nil, List.sum_cons, List.sum_nil,
      pow_zero, one_mul, add_zero, pow_one]
    rw [put_at hq s hl hg, upd_put hq s hl hg, hw6]
    ring
  | sxdg t =>
    replace hg : t < n := of_decide_eq_true hg
    simp only [AGate.map, AGate.app, branch, AGate.scale, List.map_cons, List.map_nil, List.sum_cons, List.sum_nil,
      pow_zero, one_mul, add_zero, pow_one]
    rw [put_at hq s hl hg, upd_put hq s hl hg]
  | proj t b =>
    replace hg : t < n := of_decide_eq_true hg
    simp only [AGate.map, AGate.app, branch, AGate.scale, pow_zero, one_mul]
    rw [put_at hq s hl hg]
    split <;> simp

theorem branch_len {g : AGate Nat} {l : List Bool} : ∀ p ∈ branch g l, p.2.length = l.length := by
  intro p hp
  cases g with
  | proj t b =>
    simp only [branch] at hp
    split at hp
    · simp only [List.mem_cons, List.not_mem_nil, or_false] at hp
      rw [hp]
    · cases hp
  | mcx cs t =>
    simp only [branch, List.mem_cons, List.not_mem_nil, or_false] at hp
    rw [hp, List.length_set]
  | dg k cs =>
    simp only [branch, List.mem_cons, List.not_mem_nil, or_false] at hp
    rw [hp]
  | h t =>
    simp only [branch, List.mem_cons, List.not_mem_nil, or_false] at hp
    rcases hp with hp | hp <;> rw [hp, List.length_set]
  | sx t =>
    simp only [branch, List.mem_cons, List.not_mem_nil, or_false] at hp
    rcases hp with hp | hp <;> rw [hp]
    rw [List.length_set]
  | sxdg t =>
    simp only [branch, List.mem_cons, List.not_mem_nil, or_false] at hp
    rcases hp with hp | hp <;> rw [hp]
    rw [List.length_set]

/-- The amplitude of a local circuit is the sum over its paths. -/
theorem paths_sum (e : Root8 R) (hq : ∀ i j, i < n → j < n → q i = q j → i = j) : ∀ (gs : List (AGate Nat)),
    (∀ g ∈ gs, g.below n = true) → ∀ (ψ : St Q → R) (s : St Q) (l : List Bool), l.length = n →
    run e (gs.reverse.map (AGate.map q)) ψ (put q s l) =
      e.r ^ scales gs * ((paths gs l).map fun p => e.w ^ p.1 * ψ (put q s p.2)).sum := by
  intro gs
  induction gs with
  | nil => intro _ ψ s l _; simp [run, paths, scales]
  | cons g gs ih =>
    intro hb ψ s l hl
    rw [List.reverse_cons, List.map_append, run_append]
    show (g.map q).app e (run e (gs.reverse.map (AGate.map q)) ψ) (put q s l) = _
    rw [branch_sum e hq g (hb g (by simp)) _ s hl]
    have : (branch g l).map (fun p => e.w ^ p.1 * run e (gs.reverse.map (AGate.map q)) ψ (put q s p.2)) =
        (branch g l).map (fun p => e.r ^ scales gs *
          (((paths gs p.2).map fun x => (p.1 + x.1, x.2)).map fun x => e.w ^ x.1 * ψ (put q s x.2)).sum) := by
      apply List.map_congr_left
      intro p hp
      rw [ih (fun g hg => hb g (by simp [hg])) ψ s p.2 (by rw [branch_len p hp, hl]), List.map_map]
      rw [← mul_assoc, mul_comm (e.w ^ p.1), mul_assoc, ← List.sum_map_mul_left]
      congr 2
      apply List.map_congr_left
      intro x _
      simp only [Function.comp, pow_add]
      ring
    rw [this, List.sum_map_mul_left, ← mul_assoc, paths, ← pow_add]
    rw [show scales (g :: gs) = g.scale + scales gs by simp [scales]]
    congr 1
    rw [List.map_flatMap, List.flatMap_def, List.sum_flatten, List.map_map]
    rfl

end

/-! ### Checking local circuits -/

/-- All lists of `n` bits. -/
def bitLists : Nat → List (List Bool)
  | 0 => [[]]
  | n + 1 => (bitLists n).flatMap fun l => [false :: l, true :: l]

theorem mem_bitLists : ∀ {n : Nat} {l : List Bool}, l.length = n → l ∈ bitLists n
  | 0, [], _ => by simp [bitLists]
  | n + 1, b :: l, h => by
    rw [bitLists, List.mem_flatMap]
    refine ⟨l, mem_bitLists (by simpa using h), ?_⟩
    cases b <;> simp

theorem nodup_bitLists : ∀ n, (bitLists n).Nodup
  | 0 => by simp [bitLists]
  | n + 1 => by
    rw [bitLists, List.nodup_flatMap]
    refine ⟨fun l _ => by simp, ?_⟩
    refine (nodup_bitLists n).imp ?_
    intro a b hab
    simp only [Function.onFun]
    intro x hx hy
    simp only [List.mem_cons, List.not_mem_nil, or_false] at hx hy
    rcases hx with rfl | rfl <;> rcases hy with h | h
    · exact hab (List.cons.inj h).2
    · exact absurd (List.cons.inj h).1 (by simp)
    · exact absurd (List.cons.inj h).1 (by simp)
    · exact hab (List.cons.inj h).2

/-- Coefficients of `1, w, w², w³` of a sum of powers of `w`. -/
def vec (ks : List Nat) : Int × Int × Int × Int :=
  ks.foldr (fun k v =>
    match k % 8 with
    | 0 => (v.1 + 1, v.2.1, v.2.2.1, v.2.2.2)
    | 1 => (v.1, v.2.1 + 1, v.2.2.1, v.2.2.2)
    | 2 => (v.1, v.2.1, v.2.2.1 + 1, v.2.2.2)
    | 3 => (v.1, v.2.1, v.2.2.1, v.2.2.2 + 1)
    | 4 => (v.1 - 1, v.2.1, v.2.2.1, v.2.2.2)
    | 5 => (v.1, v.2.1 - 1, v.2.2.1, v.2.2.2)
    | 6 => (v.1, v.2.1, v.2.2.1 - 1, v.2.2.2)
    | _ => (v.1, v.2.1, v.2.2.1, v.2.2.2 - 1)) (0, 0, 0, 0)

def evalVec (e : Root8 R) (v : Int × Int × Int × Int) : R :=
  (v.1 : R) + (v.2.1 : R) * e.w + (v.2.2.1 : R) * e.w ^ 2 + (v.2.2.2 : R) * e.w ^ 3

theorem eval_vec (e : Root8 R) (ks : List Nat) : (ks.map fun k => e.w ^ k).sum = evalVec e (vec ks) := by
  induction ks with
  | nil => simp [vec, evalVec]
  | cons k ks ih =>
    rw [List.map_cons, List.sum_cons, ih]
    have hk : e.w ^ k = e.w ^ (k % 8) := by
      conv_lhs => rw [← Nat.div_add_mod k 8, pow_add, pow_mul, e.w8, one_pow, one_mul]
    rw [hk]
    have hv : vec (k :: ks) = (match k % 8 with
      | 0 => ((vec ks).1 + 1, (vec ks).2.1, (vec ks).2.2.1, (vec ks).2.2.2)
      | 1 => ((vec ks).1, (vec ks).2.1 + 1, (vec ks).2.2.1, (vec ks).2.2.2)
      | 2 => ((vec ks).1, (vec ks).2.1, (vec ks).2.2.1 + 1, (vec ks).2.2.2)
      | 3 => ((vec ks).1, (vec ks).2.1, (vec ks).2.2.1, (vec ks).2.2.2 + 1)
      | 4 => ((vec ks).1 - 1, (vec ks).2.1, (vec ks).2.2.1, (vec ks).2.2.2)
      | 5 => ((vec ks).1, (vec ks).2.1 - 1, (vec ks).2.2.1, (vec ks).2.2.2)
      | 6 => ((vec ks).1, (vec ks).2.1, (vec ks).2.2.1 - 1, (vec ks).2.2.2)
      | _ => ((vec ks).1, (vec ks).2.1, (vec ks).2.2.1, (vec ks).2.2.2 - 1)) := rfl
    rw [hv]
    generalize vec ks = v
    have hlt : k % 8 < 8 := Nat.mod_lt _ (by omega)
    generalize k % 8 = m at hlt ⊢
    have w4 := e.w4
    have w5 : e.w ^ 5 = - e.w := by rw [show e.w ^ 5 = e.w ^ 4 * e.w by ring, w4]; ring
    have w6 : e.w ^ 6 = - e.w ^ 2 := by rw [show e.w ^ 6 = e.w ^ 4 * e.w ^ 2 by ring, w4]; ring
    have w7 : e.w ^ 7 = - e.w ^ 3 := by rw [show e.w ^ 7 = e.w ^ 4 * e.w ^ 3 by ring, w4]; ring
    interval_cases m <;> simp only [evalVec, Int.cast_add, Int.cast_sub, Int.cast_one, w4, w5, w6, w7] <;> ring

/-- What a circuit should do: output basis state `l` takes its amplitude from `want l = (ks, x)`: the sum of the `w ^ k`
times the amplitude of `x`. `dom` are the input basis states allowed to have an amplitude. -/
def checks (gs : List (AGate Nat)) (n : Nat) (dom : List Bool → Bool) (want : List Bool → List Nat × List Bool) : Bool :=
  gs.all (AGate.below n) &&
  (bitLists n).all fun l =>
    let ps := paths gs.reverse l
    (bitLists n).all fun x => !dom x ||
      decide (vec ((ps.filter fun p => p.2 == x).map Prod.fst) =
        vec (if (want l).2 = x then (want l).1 else []))

theorem sum_group (e : Root8 R) (F : List Bool → R) (n : Nat) : ∀ ps : List (Nat × List Bool), (∀ p ∈ ps, p.2.length = n) →
    (ps.map fun p => e.w ^ p.1 * F p.2).sum =
      ((bitLists n).map fun x => (((ps.filter fun p => p.2 == x).map Prod.fst).map fun k => e.w ^ k).sum * F x).sum := by
  intro ps
  induction ps with
  | nil => intro _; simp
  | cons p ps ih =>
    intro hp
    rw [List.map_cons, List.sum_cons, ih fun p' hp' => hp p' (by simp [hp'])]
    have hx : p.2 ∈ bitLists n := mem_bitLists (hp p (by simp))
    have key : ∀ L : List (List Bool), L.Nodup →
        (L.map fun x => ((((p :: ps).filter fun p => p.2 == x).map Prod.fst).map fun k => e.w ^ k).sum * F x).sum =
        (if p.2 ∈ L then e.w ^ p.1 * F p.2 else 0) +
        (L.map fun x => (((ps.filter fun p => p.2 == x).map Prod.fst).map fun k => e.w ^ k).sum * F x).sum := by
      intro L
      induction L with
      | nil => intro _; simp
      | cons y L ihL =>
        intro hn
        rw [List.nodup_cons] at hn
        rw [List.map_cons, List.sum_cons, ihL hn.2, List.map_cons, List.sum_cons]
        by_cases hy : p.2 = y
        · subst hy
          rw [if_neg hn.1, if_pos (by simp)]
          simp only [List.filter_cons, beq_self_eq_true, if_true, List.map_cons, List.sum_cons]
          ring
        · have h1 : (p.2 == y) = false := by simpa using hy
          simp only [List.filter_cons, h1, Bool.false_eq_true, if_false, List.mem_cons, hy, false_or]
          ring
    rw [key _ (nodup_bitLists n), if_pos hx]

theorem paths_len : ∀ (gs : List (AGate Nat)) (l : List Bool), ∀ p ∈ paths gs l, p.2.length = l.length := by
  intro gs
  induction gs with
  | nil => intro l p hp; rw [paths, List.mem_singleton] at hp; rw [hp]
  | cons g gs ih =>
    intro l p hp
    rw [paths, List.mem_flatMap] at hp
    obtain ⟨a, ha, hp⟩ := hp
    obtain ⟨b, hb, rfl⟩ := List.mem_map.1 hp
    rw [← branch_len a ha]
    exact ih _ b hb

/-- A passed check gives the action of the circuit on any qubits, for every state. -/
theorem run_of_checks (e : Root8 R) {q : Nat → Q} {n : Nat} (hq : ∀ i j, i < n → j < n → q i = q j → i = j)
    {gs : List (AGate Nat)} {dom : List Bool → Bool} {want : List Bool → List Nat × List Bool}
    (hc : checks gs n dom want = true) (ψ : St Q → R)
    (hψ : ∀ s l, l.length = n → dom l = false → ψ (put q s l) = 0) (s : St Q) {l : List Bool} (hl : l.length = n)
    (hw : (want l).2.length = n) :
    run e (gs.map (AGate.map q)) ψ (put q s l) =
      e.r ^ scales gs * (((want l).1.map fun k => e.w ^ k).sum * ψ (put q s (want l).2)) := by
  unfold checks at hc
  rw [Bool.and_eq_true, List.all_eq_true, List.all_eq_true] at hc
  obtain ⟨hb, hc⟩ := hc
  have hcl := hc l (mem_bitLists hl)
  simp only [List.all_eq_true] at hcl
  have h1 := paths_sum e hq gs.reverse (fun g hg => hb g (List.mem_reverse.1 hg)) ψ s l hl
  rw [List.reverse_reverse] at h1
  rw [h1, sum_group e (fun x => ψ (put q s x)) n _ fun p hp => by rw [paths_len _ _ p hp, hl]]
  have hsc : scales gs.reverse = scales gs := by simp [scales, List.sum_reverse]
  rw [hsc]
  congr 1
  have h2 : ((bitLists n).map fun x => (((((paths gs.reverse l).filter fun p => p.2 == x).map Prod.fst).map
      fun k => e.w ^ k).sum * ψ (put q s x))) =
      (bitLists n).map fun x => if (want l).2 = x then ((want l).1.map fun k => e.w ^ k).sum * ψ (put q s (want l).2) else 0 := by
    apply List.map_congr_left
    intro x hx
    have hxl : x.length = n := by
      clear * - hx
      induction n generalizing x with
      | zero => simp [bitLists] at hx; simp [hx]
      | succ n ih =>
        rw [bitLists, List.mem_flatMap] at hx
        obtain ⟨y, hy, hx⟩ := hx
        simp only [List.mem_cons, List.not_mem_nil, or_false] at hx
        rcases hx with rfl | rfl <;> simp [ih _ hy]
    have := hcl x hx
    rw [Bool.or_eq_true] at this
    rcases this with hd | hv
    · have hd' : dom x = false := by simpa using hd
      rw [hψ s x hxl hd', mul_zero]
      split
      · rename_i hwx
        rw [hwx, hψ s x hxl hd', mul_zero]
      · rfl
    · rw [eval_vec, of_decide_eq_true hv]
      split
      · rename_i hwx
        rw [← eval_vec, hwx]
      · simp [vec, evalVec]
  rw [h2]
  have h3 : ∀ L : List (List Bool), L.Nodup → ∀ c : R, (want l).2 ∈ L →
      (L.map fun x => if (want l).2 = x then c else 0).sum = c := by
    intro L
    induction L with
    | nil => intro _ c h; cases h
    | cons y L ih =>
      intro hn c h
      rw [List.nodup_cons] at hn
      rw [List.map_cons, List.sum_cons]
      by_cases hy : (want l).2 = y
      · rw [if_pos hy]
        have : (L.map fun x => if (want l).2 = x then c else 0).sum = 0 := by
          apply List.sum_eq_zero
          intro z hz
          obtain ⟨x, hx, rfl⟩ := List.mem_map.1 hz
          rw [if_neg]
          rintro rfl
          exact hn.1 (hy ▸ hx)
        rw [this, add_zero]
      · rw [if_neg hy, zero_add, ih hn.2 c]
        rcases List.mem_cons.1 h with h | h
        · exact absurd h hy
        · exact h
  rw [h3 _ (nodup_bitLists n) _ (mem_bitLists hw)]

end Verif.Mcx
