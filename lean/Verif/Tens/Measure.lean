import Verif.Tens.Factor
import Mathlib.Algebra.Star.BigOperators
import Mathlib.Algebra.Star.Basic
import Mathlib.Tactic.FieldSimp

/-!
# Measuring and disentangling (`simulator/bi_arrays.py`, `simulator/tensor_factor.py`)
-/

namespace Verif.Tens

set_option linter.unusedSectionVars false

variable {K : Type} [Field K] [StarRing K] [DecidableEq K]

/-- the sum of the squared absolute values -/
def sumsq (l : List K) : K := (l.map fun x => star x * x).sum

/-- `split`, `simulator/bi_arrays.py` 579-607, 1021-1028 -/
def split (a : Arr K) : Option (Arr K × Arr K) :=
  if a.shape.length ≠ 1 then none else
  let a := applySwaps a
  let h := 2 ^ a.shape.sum / 2
  let s := [a.shape.getD 0 0 - 1]
  match a.data with
  | .sparse l => some (ofSparse (l.filter fun x => x.1 < h) s, ofSparse ((l.filter fun x => !(x.1 < h)).map fun x => (x.1 - h, x.2)) s)
  | .dense l => some (ofDense (l.take h) s, ofDense (l.drop h) s)

/-- the stored numbers -/
def numbers : Data K → List K
  | .sparse l => l.map (·.2)
  | .dense l => l

/-- `squared_norm`, `simulator/bi_arrays.py` 658-659, 1059-1061; `np.abs` of this number is left out -/
def sqNorm (a : Arr K) : K := if isSparse a.data then sumsq (numbers a.data) else sumsq (numbers (applySwaps a).data)

/-- `data *= c` -/
def scale (c : K) (a : Arr K) : Arr K :=
  { a with data := match a.data with
    | .sparse l => .sparse (l.map fun x => (x.1, x.2 * c))
    | .dense l => .dense (l.map (· * c)) }

/-- `dense_measurement_smart`, `simulator/bi_array_helper.py` 349-386; `none` is the outcome list `[-1]`; probabilities below the
threshold are those equal to zero -/
def denseSmart : Nat → List K → Nat → Option (List (Nat × K × List K))
  | 0, l, o => if sumsq l = 0 then none else some [(o, sumsq l, l)]
  | m + 1, l, o =>
    if sumsq l = 0 then none
    else
      let r := ((denseSmart m (l.take (l.length / 2)) o).getD []) ++ ((denseSmart m (l.drop (l.length / 2)) (o + 2 ^ m)).getD [])
      if r = [] then none else some r

/-- `dense_measurement_brute`, `simulator/bi_array_helper.py` 315-332 -/
def denseBrute (m : Nat) (n : Nat) (l : List K) : List (Nat × K × List K) :=
  (List.range (2 ^ m)).filterMap fun i =>
    let v := (l.drop (i * 2 ^ (n - m))).take (2 ^ (n - m))
    if sumsq v = 0 then none else some (i, sumsq v, v)

/-- `multi_measure` of the first `m` qubits, `simulator/bi_arrays.py` 609-647, 1030-1056: outcome, probability and remaining array.
Simplified: for a dense array of zeros the code lists the outcome -1. -/
def multiMeasure (m : Nat) (a : Arr K) : List (Nat × K × Arr K) :=
  let n := a.shape.sum
  if isSparse a.data then
    (groups (sortIdx (n - m) (coords (n - m) (sp (applySwaps a).data)))).filterMap fun g =>
      let p := sumsq (g.2.map (·.2))
      if p = 0 then none else some (g.1, p, ofSparse g.2 [n - m])
  else
    let l := toArray a
    (if m > 10 then denseBrute m n l else (denseSmart m l 0).getD []).map fun x => (x.1, x.2.1, ofDense x.2.2 [n - m])

/-- `vdot`, `simulator/bi_arrays.py` 661-672, 1063-1066 -/
def vdot (own : Bool) (a b : Arr K) : K :=
  if isSparse a.data then
    let A := (coords a.shape.sum (sp (applySwaps a).data)).map fun x => (x.1, x.2.1, star x.2.2)
    entry (sparseMul own 0 a.shape.sum 0 A (coords 0 (sp (applySwaps b).data))) 0 0
  else ((dn (applySwaps a).data).zipWith (fun x y => star x * y) (dn (applySwaps b).data)).sum

/-- `exclude_linear_indpendence`, `simulator/bi_arrays.py` 650-654, 1069-1070 -/
def maybeDependent (a b : Arr K) : Bool :=
  !isSparse a.data || ((numbers b.data).length < 2 * (numbers a.data).length && (numbers a.data).length < 2 * (numbers b.data).length)

/-- `measure`, `simulator/tensor_factor.py` 111-161: probabilities and factors of both outcomes; `none` is an exception -/
def measureTF (root : K → K) (t : TF K) (q : Nat) : Option ((K × Option (TF K)) × (K × Option (TF K))) :=
  let t := swap t 0 (t.qubits.idxOf q)
  (split t.arr).map fun (l, u) =>
    let qs := t.qubits.drop 1
    let p0 := sqNorm l
    let p1 := sqNorm u
    if p0 ≠ 0 ∧ p1 ≠ 0 then ((p0, some ⟨qs, scale (1 / root p0) l⟩), (p1, some ⟨qs, scale (1 / root p1) u⟩))
    else if p0 = 0 then ((0, none), (1, some ⟨qs, u⟩))
    else ((1, some ⟨qs, l⟩), (0, none))

/-- the results of `disentangle`: the object itself twice, or two new factors; `t` is the object after the swap -/
inductive Disent (K : Type)
  | same (t : TF K)
  | parts (t d r : TF K)

/-- `disentangle`, `simulator/tensor_factor.py` 198-247.  Simplified: the comparison of `|vdot|` with `sqrt(p0 * p1)` up to `1e-7` is
equality of the squares; a factor without outcomes (norm zero) is left as it is. -/
def disentangleTF (root : K → K) (own : Bool) (t : TF K) (q : Nat) : Disent K :=
  if t.qubits.length = 1 then .same t else
  let t := swap t 0 (t.qubits.idxOf q)
  let qs := t.qubits.erase q
  match multiMeasure 1 t.arr with
  | [x] => .parts t (vecTF q (if x.1 = 1 then [0, 1] else [1, 0])) ⟨qs, scale (1 / root x.2.1) x.2.2⟩
  | x :: y :: _ =>
    if maybeDependent x.2.2 y.2.2 then
      let v := vdot own x.2.2 y.2.2
      if star v * v = x.2.1 * y.2.1 then
        .parts t (vecTF q [root x.2.1, root y.2.1 * v / root (star v * v)]) ⟨qs, scale (1 / root x.2.1) x.2.2⟩
      else .same t
    else .same t
  | [] => .same t

/-- what is used of the real numbers: `root` is the square root of sums of squared absolute values -/
structure Root (root : K → K) : Prop where
  definite : ∀ l : List K, sumsq l = 0 → ∀ x ∈ l, x = 0
  sq : ∀ l : List K, root (sumsq l) * root (sumsq l) = sumsq l
  real : ∀ l : List K, star (root (sumsq l)) = root (sumsq l)
  one : root 1 = 1
  mul : ∀ l l' : List K, root (sumsq l * sumsq l') = root (sumsq l) * root (sumsq l')

/-! ### Norms -/

/-- the squared norm as a sum over all indices -/
def norm2 (n : Nat) (f : List Bool → K) : K := ((allBits n).map fun y => star (f y) * f y).sum

theorem norm2_eq (n : Nat) (f : List Bool → K) : norm2 n f = sumsq ((allBits n).map f) := by
  unfold norm2 sumsq
  rw [List.map_map]
  rfl

theorem sum_range_single (N i : Nat) (hi : i < N) (x : K) : ((List.range N).map fun j => if i = j then x else 0).sum = x := by
  induction N with
  | zero => omega
  | succ N ih =>
    rw [List.range_succ, List.map_append, List.sum_append]
    by_cases e : i = N
    · subst e
      rw [sum_zero_of _ _ fun j hj => if_neg (by have := List.mem_range.1 hj; omega)]
      simp
    · rw [ih (by omega)]
      simp [e]

theorem sp_sum (g : K → K) (g0 : g 0 = 0) (N : Nat) (l : List (Nat × K)) (hn : (l.map (·.1)).Nodup) (hb : ∀ x ∈ l, x.1 < N) :
    (l.map fun x => g x.2).sum = ((List.range N).map fun i => g (rawAt (.sparse l) i)).sum := by
  induction l with
  | nil => exact (sum_zero_of _ _ fun i _ => g0).symm
  | cons x l ih =>
    rw [List.map_cons, List.nodup_cons] at hn
    rw [List.map_cons, List.sum_cons, ih hn.2 fun y hy => hb y (by simp [hy])]
    rw [← sum_range_single N x.1 (hb x (by simp)) (g x.2), ← List.sum_map_add]
    congr 1
    apply List.map_congr_left
    intro i _
    rw [rawAt_sparse, rawAt_sparse, List.map_cons, List.sum_cons]
    by_cases e : x.1 = i
    · rw [if_pos e, if_pos e, sum_zero_of, g0]
      · simp
      · intro y hy
        rw [if_neg]
        intro e'
        exact hn.1 (e ▸ e' ▸ List.mem_map_of_mem hy)
    · rw [if_neg e, if_neg e, zero_add, zero_add]

theorem sqNorm_val {a : Arr K} (h : WF a) : sqNorm a = norm2 a.shape.sum (val a) := by
  unfold sqNorm
  cases hs : isSparse a.data with
  | true =>
    rw [if_pos rfl]
    obtain ⟨h1, h2⟩ := sparse_wf h hs
    have e : numbers a.data = (sp (applySwaps a).data).map (·.2) := by
      unfold applySwaps
      split
      · cases hd : a.data with
        | sparse l => rfl
        | dense l => rw [hd] at hs; simp [isSparse] at hs
      · cases hd : a.data with
        | sparse l => simp [numbers, sp]
        | dense l => rw [hd] at hs; simp [isSparse] at hs
    rw [e, sumsq, List.map_map]
    refine (sp_sum (fun x => star x * x) (by simp) _ _ h1 h2).trans ?_
    rw [sum_range_bits, norm2]
    congr 1
    apply List.map_congr_left
    intro y hy
    rw [sparse_val h hs (mem_allBits.1 hy)]
  | false =>
    rw [if_neg (by simp)]
    have e : numbers (applySwaps a).data = dn (applySwaps a).data := by
      have h1 : isSparse (applySwaps a).data = false := by rw [isSparse_applySwaps, hs]
      cases hd : (applySwaps a).data with
      | dense l => rfl
      | sparse l => rw [hd] at h1; simp [isSparse] at h1
    rw [e, dense_list h hs, norm2_eq]

theorem scale_ok {a : Arr K} (h : WF a) (c : K) : WF (scale c a) ∧ (scale c a).shape = a.shape ∧ ∀ y, val (scale c a) y = val a y * c := by
  refine ⟨⟨h.perm, ?_⟩, rfl, ?_⟩
  · have := h.data
    unfold scale
    cases hd : a.data with
    | sparse l =>
      rw [hd] at this
      dsimp only at this ⊢
      refine ⟨by rw [List.map_map]; exact this.1, ?_⟩
      intro x hx
      obtain ⟨y, hy, rfl⟩ := List.mem_map.1 hx
      exact this.2 y hy
    | dense l =>
      rw [hd] at this
      dsimp only at this ⊢
      rw [List.length_map, this]
  · intro y
    unfold val scale
    dsimp only
    cases hd : a.data with
    | sparse l =>
      dsimp only
      rw [rawAt_sparse, rawAt_sparse, List.map_map, ← List.sum_map_mul_right]
      congr 1
      apply List.map_congr_left
      intro x _
      simp only [Function.comp_apply]
      split <;> simp
    | dense l =>
      dsimp only [rawAt]
      rw [List.getD_eq_getElem?_getD, List.getElem?_map, List.getD_eq_getElem?_getD]
      cases l[num (old a.ibp y)]? <;> simp

/-! ### Splitting -/

theorem num_false (bits : List Bool) : num (false :: bits) = num bits := by rw [num_cons]; simp

theorem num_true (bits : List Bool) : num (true :: bits) = 2 ^ bits.length + num bits := by rw [num_cons]; simp

theorem split_ok {a : Arr K} (h : WF a) {n : Nat} (hs : a.shape = [n + 1]) :
    ∃ l u, split a = some (l, u) ∧ WF l ∧ WF u ∧ l.shape = [n] ∧ u.shape = [n] ∧
      (∀ y : List Bool, y.length = n → val l y = val a (false :: y)) ∧ ∀ y : List Bool, y.length = n → val u y = val a (true :: y) := by
  have hsum : a.shape.sum = n + 1 := by rw [hs]; simp
  have hh : 2 ^ (n + 1) / 2 = 2 ^ n := by rw [pow_succ]; omega
  unfold split
  rw [if_neg (by rw [hs]; simp)]
  dsimp only
  rw [applySwaps_shape, hsum, hh, hs]
  have hwd := (wf_applySwaps h).data
  rw [applySwaps_shape, hsum] at hwd
  have hv : ∀ y : List Bool, y.length = n + 1 → val a y = rawAt (applySwaps a).data (num y) := by
    intro y hy
    rw [← val_applySwaps h (by rw [hsum]; exact hy), val, applySwaps_ibp, hsum, old_range hy]
  cases hd : (applySwaps a).data with
  | sparse l =>
    rw [hd] at hwd hv
    dsimp only at hwd ⊢
    refine ⟨_, _, rfl, ofSparse_wf ?_ ?_, ofSparse_wf ?_ ?_, rfl, rfl, ?_, ?_⟩
    · exact hwd.1.sublist ((List.filter_sublist (p := fun x : Nat × K => decide (x.1 < 2 ^ n))).map _)
    · intro x hx
      simpa using (List.mem_filter.1 hx).2
    · rw [List.map_map]
      have : (l.filter fun x => !decide (x.1 < 2 ^ n)).map ((fun x : Nat × K => x.1) ∘ fun x => (x.1 - 2 ^ n, x.2))
          = ((l.filter fun x => !decide (x.1 < 2 ^ n)).map (·.1)).map (· - 2 ^ n) := by rw [List.map_map]; rfl
      rw [this]
      apply List.Nodup.map_on _ (hwd.1.sublist (List.filter_sublist.map _))
      intro i hi j hj e
      obtain ⟨x, hx, rfl⟩ := List.mem_map.1 hi
      obtain ⟨y, hy, rfl⟩ := List.mem_map.1 hj
      have h1 : ¬ x.1 < 2 ^ n := by simpa using (List.mem_filter.1 hx).2
      have h2 : ¬ y.1 < 2 ^ n := by simpa using (List.mem_filter.1 hy).2
      omega
    · intro x hx
      obtain ⟨y, hy, rfl⟩ := List.mem_map.1 hx
      have h1 : ¬ y.1 < 2 ^ n := by simpa using (List.mem_filter.1 hy).2
      have h2 := hwd.2 y (List.mem_filter.1 hy).1
      rw [pow_succ] at h2
      simp only [Nat.add_sub_cancel, List.getD_cons_zero, List.sum_singleton]
      omega
    · intro y hy
      have hl := num_lt y
      rw [hy] at hl
      rw [ofSparse_val _ (by simpa using hy), hv _ (by simp [hy]), num_false, rawAt_sparse, rawAt_sparse]
      clear hv hwd hd
      induction l with
      | nil => rfl
      | cons x l ih =>
        by_cases e : x.1 < 2 ^ n
        · rw [List.filter_cons_of_pos (by simpa using e), List.map_cons, List.map_cons, List.sum_cons, List.sum_cons, ih]
        · rw [List.filter_cons_of_neg (by simpa using e), List.map_cons, List.sum_cons, ih, if_neg (by omega), zero_add]
    · intro y hy
      have hl := num_lt y
      rw [hy] at hl
      rw [ofSparse_val _ (by simpa using hy), hv _ (by simp [hy]), num_true, hy, rawAt_sparse, rawAt_sparse, List.map_map]
      clear hv hwd hd
      induction l with
      | nil => rfl
      | cons x l ih =>
        by_cases e : x.1 < 2 ^ n
        · rw [List.filter_cons_of_neg (by simpa using e), List.map_cons, List.sum_cons, ih, if_neg (by omega), zero_add]
        · rw [List.filter_cons_of_pos (by simpa using e), List.map_cons, List.map_cons, List.sum_cons, List.sum_cons, ih]
          congr 1
          simp only [Function.comp_apply]
          by_cases e' : x.1 = 2 ^ n + num y
          · rw [if_pos e', if_pos (by omega)]
          · rw [if_neg e', if_neg (by omega)]
  | dense l =>
    rw [hd] at hwd hv
    dsimp only at hwd ⊢
    rw [pow_succ] at hwd
    refine ⟨_, _, rfl, ofDense_wf (by simp; omega), ofDense_wf (by simp; omega), rfl, rfl, ?_, ?_⟩
    · intro y hy
      have hl := num_lt y
      rw [hy] at hl
      rw [ofDense_val _ (by simpa using hy), hv _ (by simp [hy]), num_false, rawAt, List.getD_eq_getElem?_getD, List.getElem?_take,
        if_pos hl, List.getD_eq_getElem?_getD]
    · intro y hy
      rw [ofDense_val _ (by simpa using hy), hv _ (by simp [hy]), num_true, hy, rawAt, List.getD_eq_getElem?_getD, List.getElem?_drop,
        List.getD_eq_getElem?_getD]

end Verif.Tens
