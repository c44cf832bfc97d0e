import Verif.Tens.Eager
import Mathlib.Data.List.Sort
import Mathlib.Data.List.InsertIdx

/-!
# Tensor factors (`simulator/tensor_factor.py`)
-/

namespace Verif.Tens

set_option linter.unusedSectionVars false

variable {K : Type} [CommRing K] [DecidableEq K]

/-- `TensorFactor`, `simulator/tensor_factor.py` 28-53 -/
structure TF (K : Type) where
  qubits : List Nat
  arr : Arr K

/-- a fresh factor for a qubit in state 0, `simulator/tensor_factor.py` 29-30, 43-44 -/
def zeroTF (q : Nat) : TF K := ⟨[q], ofSparse [(0, 1)] [1]⟩

/-- a factor for a qubit with given amplitudes, `simulator/tensor_factor.py` 46-50 -/
def vecTF (q : Nat) (v : List K) : TF K := ⟨[q], toSparse (ofDense v [1])⟩

/-- `swap`, `simulator/tensor_factor.py` 56-64 -/
def swap (t : TF K) (i j : Nat) : TF K :=
  if i = j then t else
  { qubits := swapAt 0 t.qubits i j
    arr := { swapaxes { t.arr with shape := List.replicate t.qubits.length 1 } i j with shape := [t.qubits.length] } }

/-- swapping qubits to the places from `i` on, `simulator/tensor_factor.py` 79-81, 173-176 -/
def toFront : List Nat → Nat → TF K → TF K
  | [], _, t => t
  | q :: qs, i, t => toFront qs (i + 1) (swap t (t.qubits.idxOf q) i)

/-- `unravel`, `simulator/tensor_factor.py` 163-169 (swaps of a place with itself do nothing) -/
def unravel (t : TF K) : TF K := toFront (t.qubits.insertionSort (· ≤ ·)) 0 t

/-- the estimates of `tensordot` -/
abbrev Heur (K : Type) := Arr K → Arr K → Choice

/-- `apply_matrix`, `simulator/tensor_factor.py` 67-89, for the matrix with entries `M` (row by row) on the qubits `qs`; small
entries of the matrix are kept.  `none` is an exception. -/
def applyMatrix (H : Heur K) (M : List K) (qs : List Nat) (t : TF K) : Option (TF K) :=
  let t := toFront qs 0 t
  let m : Arr K := ofDense M [qs.length, qs.length]
  do
    let a ← reshape t.arr [qs.length, t.qubits.length - qs.length]
    let c ← tensordot (H m a) m a [1] [0]
    let c ← reshape c [t.qubits.length]
    pure { t with arr := c }

/-- `entangle`, `simulator/tensor_factor.py` 93-108, for different factors -/
def entangle (H : Heur K) (t o : TF K) : Option (TF K) :=
  if t.qubits.any (o.qubits.contains ·) then none
  else do
    let c ← tensordot (H o.arr t.arr) o.arr t.arr [] []
    pure ⟨o.qubits ++ t.qubits, { c with shape := [c.shape.sum] }⟩

/-- `multi_entangle`, `simulator/tensor_factor.py` 256-273; the number bounds the recursion -/
def multiEntangle (H : Heur K) : Nat → List (TF K) → Option (TF K)
  | _, [t] => some t
  | 0, _ => none
  | n + 1, l =>
    match l.insertionSort fun s t => s.qubits.length ≤ t.qubits.length with
    | s :: t :: r => (entangle H s t).bind fun u => multiEntangle H n (r ++ [u])
    | _ => none

/-! ### Meaning -/

/-- the amplitude of a factor for the values `b` of all qubits -/
def amp (t : TF K) (b : Nat → Bool) : K := val t.arr (t.qubits.map b)

/-- well-formed factors -/
structure TF.Ok (t : TF K) : Prop where
  wf : WF t.arr
  shape : t.arr.shape = [t.qubits.length]
  nodup : t.qubits.Nodup

/-- the values `b`, with the qubits `qs` set to `ks` -/
def setBits (b : Nat → Bool) (qs : List Nat) (ks : List Bool) (q : Nat) : Bool :=
  if q ∈ qs then ks.getD (qs.idxOf q) false else b q

theorem wf_reshape {a : Arr K} (h : WF a) {s : List Nat} (e : s.sum = a.shape.sum) : WF ({ a with shape := s } : Arr K) := by
  refine ⟨?_, ?_⟩
  · dsimp only; rw [e]; exact h.perm
  · dsimp only; rw [e]; exact h.data

theorem val_reshape (a : Arr K) (s : List Nat) (bits : List Bool) : val ({ a with shape := s } : Arr K) bits = val a bits := rfl

theorem swapAt_perm {α : Type} (d : α) (l : List α) {i j : Nat} (hi : i < l.length) (hj : j < l.length) :
    (swapAt d l i j).Perm l := by
  rcases Nat.lt_trichotomy i j with h | h | h
  · obtain ⟨A, x, M, y, F, rfl, rfl, rfl⟩ := split_two l h hj
    rw [swapAt_two]
    apply List.Perm.append_left
    have h1 : (y :: (M ++ x :: F)).Perm (y :: x :: (M ++ F)) := List.Perm.cons _ List.perm_middle
    have h2 : (x :: (M ++ y :: F)).Perm (x :: y :: (M ++ F)) := List.Perm.cons _ List.perm_middle
    exact h1.trans ((List.Perm.swap _ _ _).trans h2.symm)
  · subst h
    rw [swapAt_self _ _ hi]
  · rw [swapAt_comm _ _ (by omega)]
    obtain ⟨A, x, M, y, F, rfl, rfl, rfl⟩ := split_two l h hi
    rw [swapAt_two]
    apply List.Perm.append_left
    have h1 : (y :: (M ++ x :: F)).Perm (y :: x :: (M ++ F)) := List.Perm.cons _ List.perm_middle
    have h2 : (x :: (M ++ y :: F)).Perm (x :: y :: (M ++ F)) := List.Perm.cons _ List.perm_middle
    exact h1.trans ((List.Perm.swap _ _ _).trans h2.symm)

theorem flatten_single (l : List Bool) : (l.map fun b => [b]).flatten = l := by
  induction l with
  | nil => rfl
  | cons b l ih => simp [ih]

theorem swap_ok {t : TF K} (h : t.Ok) {i j : Nat} (hi : i < t.qubits.length) (hj : j < t.qubits.length) :
    (swap t i j).Ok ∧ (swap t i j).qubits = swapAt 0 t.qubits i j ∧ ∀ b, amp (swap t i j) b = amp t b := by
  unfold swap
  by_cases e : i = j
  · subst e
    rw [if_pos rfl, swapAt_self _ _ hi]
    exact ⟨h, rfl, fun _ => rfl⟩
  rw [if_neg e]
  have hs : (List.replicate t.qubits.length 1).sum = t.arr.shape.sum := by rw [h.shape]; simp
  obtain ⟨w, s, v⟩ := swapaxes_ok (wf_reshape h.wf hs) (i := i) (j := j) (by simpa using hi) (by simpa using hj)
  have hsum : (swapaxes { t.arr with shape := List.replicate t.qubits.length 1 } i j).shape.sum = t.qubits.length := by
    rw [s, (swapAt_perm 0 _ (by simpa using hi) (by simpa using hj)).sum_eq]
    simp
  have hlen : (swapAt 0 t.qubits i j).length = t.qubits.length := by simp [swapAt]
  refine ⟨⟨wf_reshape w (by rw [hsum]; simp), by dsimp only; rw [hlen], ?_⟩, rfl, ?_⟩
  · dsimp only
    rw [(swapAt_perm 0 _ hi hj).nodup_iff]
    exact h.nodup
  · intro b
    have v' := v (t.qubits.map fun q => [b q]) (by
      dsimp only
      rw [List.map_map]
      exact List.map_eq_replicate_iff.2 fun _ _ => rfl)
    unfold amp
    dsimp only
    rw [val_reshape]
    refine Eq.trans ?_ (v'.trans ?_)
    · congr 1
      rw [← swapAt_map 0 [] (fun q => [b q]) _ hi hj]
      have := flatten_single ((swapAt 0 t.qubits i j).map b)
      rw [List.map_map] at this
      exact this.symm
    · rw [val_reshape]
      congr 1
      have := flatten_single (t.qubits.map b)
      rw [List.map_map] at this
      exact this

theorem toFront_ok (qs : List Nat) : ∀ (t : TF K) (A R : List Nat), t.Ok → t.qubits = A ++ R → qs.Nodup → (∀ q ∈ qs, q ∈ R) →
    ∃ R', (toFront qs A.length t).Ok ∧ (toFront qs A.length t).qubits = A ++ qs ++ R' ∧ (qs ++ R').Perm R ∧
      ∀ b, amp (toFront qs A.length t) b = amp t b := by
  induction qs with
  | nil =>
    intro t A R h hq _ _
    exact ⟨R, h, by rw [toFront, hq, List.append_nil], by simp, fun _ => rfl⟩
  | cons q qs ih =>
    intro t A R h hq hn hm
    obtain ⟨hn1, hn2⟩ := List.nodup_cons.1 hn
    have hqR : q ∈ R := hm q (by simp)
    have hnd := h.nodup
    rw [hq] at hnd
    have hqA : q ∉ A := fun hA => (List.disjoint_of_nodup_append hnd) hA hqR
    have hidx : t.qubits.idxOf q = A.length + R.idxOf q := by
      rw [hq, List.idxOf_append_of_notMem hqA]
    have hlt : R.idxOf q < R.length := List.idxOf_lt_length_iff.2 hqR
    have hlen : t.qubits.length = A.length + R.length := by rw [hq, List.length_append]
    obtain ⟨s1, s2, s3⟩ := swap_ok h (i := t.qubits.idxOf q) (j := A.length) (by omega) (by omega)
    -- the new list
    have key : ∃ R1, (swap t (t.qubits.idxOf q) A.length).qubits = (A ++ [q]) ++ R1 ∧ (q :: R1).Perm R := by
      rw [s2, hidx, hq]
      rcases R with _ | ⟨x, R⟩
      · simp at hlt
      by_cases hx : x = q
      · subst hx
        refine ⟨R, ?_, List.Perm.refl _⟩
        rw [List.idxOf_cons_self, Nat.add_zero, swapAt_self _ _ (by simp)]
        simp
      · have hqR' : q ∈ R := by simpa [Ne.symm hx] using hqR
        obtain ⟨M, F, rfl⟩ := List.append_of_mem hqR'
        have hqM : q ∉ M := by
          intro hM'
          have := (List.nodup_append.1 hnd).2.1
          rw [List.nodup_cons, List.nodup_append] at this
          exact this.2.2.2 q hM' q (by simp) rfl
        refine ⟨M ++ x :: F, ?_, ?_⟩
        · have e : List.idxOf q (x :: (M ++ q :: F)) = 1 + M.length := by
            rw [List.idxOf_cons_ne _ hx, List.idxOf_append_of_notMem hqM, List.idxOf_cons_self]; omega
          rw [e, swapAt_comm _ _ (by omega), show A.length + (1 + M.length) = A.length + 1 + M.length by omega, swapAt_two]
          simp
        · have h1 : (q :: (M ++ x :: F)).Perm (q :: x :: (M ++ F)) := List.Perm.cons _ List.perm_middle
          have h2 : (x :: (M ++ q :: F)).Perm (x :: q :: (M ++ F)) := List.Perm.cons _ List.perm_middle
          exact h1.trans ((List.Perm.swap _ _ _).trans h2.symm)
    obtain ⟨R1, k1, k2⟩ := key
    obtain ⟨R', r1, r2, r3, r4⟩ := ih (swap t (t.qubits.idxOf q) A.length) (A ++ [q]) R1 s1 k1 hn2 (by
      intro p hp
      have : p ∈ q :: R1 := k2.mem_iff.2 (hm p (by simp [hp]))
      rcases List.mem_cons.1 this with rfl | this
      · exact absurd hp hn1
      · exact this)
    have hl : (A ++ [q]).length = A.length + 1 := by simp
    rw [hl] at r1 r2 r4
    refine ⟨R', r1, by rw [toFront, r2]; simp, ?_, ?_⟩
    · rw [List.cons_append]
      exact (List.Perm.cons q r3).trans k2
    · intro b
      rw [toFront, r4, s3]

theorem unravel_ok {t : TF K} (h : t.Ok) :
    (unravel t).Ok ∧ (unravel t).qubits = t.qubits.insertionSort (· ≤ ·) ∧ ∀ b, amp (unravel t) b = amp t b := by
  have hp := List.perm_insertionSort (· ≤ ·) t.qubits
  obtain ⟨R', r1, r2, r3, r4⟩ := toFront_ok (t.qubits.insertionSort (· ≤ ·)) t [] t.qubits h rfl (hp.nodup_iff.2 h.nodup)
    (fun q hq => hp.mem_iff.1 hq)
  have hR : R' = [] := by
    have := (r3.trans hp.symm).length_eq
    rw [List.length_append] at this
    exact List.eq_nil_of_length_eq_zero (by omega)
  subst hR
  exact ⟨r1, by rw [unravel]; simpa using r2, r4⟩

/-! ### Matrices -/

theorem tensordot_mat (ch : Choice) {a b : Arr K} (ha : WF a) (hb : WF b) {r m c : Nat} (sa : a.shape = [r, m]) (sb : b.shape = [m, c]) :
    ∃ d, tensordot ch a b [1] [0] = some d ∧ WF d ∧ d.shape = [r, c] ∧ ∀ x y : List Bool, x.length = r → y.length = c →
      val d (x ++ y) = ((allBits m).map fun k => val a (x ++ k) * val b (k ++ y)).sum := by
  obtain ⟨d, h1, h2, h3, h4⟩ := tensordot_axes ch ha hb (axa := [1]) (axb := [0]) (by simp) (by simp) (by simp) (by simp [sa])
    (by simp [sb]) (by simp [sa, sb])
  have ra : rest a.shape.length [1] = [0] := by rw [sa]; rfl
  have rb : rest b.shape.length [0] = [1] := by rw [sb]; rfl
  refine ⟨d, h1, h2, ?_, ?_⟩
  · rw [h3, ra, rb, sa, sb]
    rfl
  · intro x y hx hy
    have e := h4 (fun i => if i = 0 then x else List.replicate m false) (fun i => if i = 1 then y else List.replicate m false)
      (by
        intro i hi
        rw [sa] at hi ⊢
        match i, hi with
        | 0, _ => simpa using hx
        | 1, _ => simp)
      (by
        intro i hi
        rw [sb] at hi ⊢
        match i, hi with
        | 0, _ => simp
        | 1, _ => simpa using hy)
    rw [ra, rb] at e
    have e0 : val d (x ++ y) = _ := Eq.trans (by simp) e
    rw [e0]
    have hp : pick (List.map (fun x => a.shape.getD x 0) [1]) = (allBits m).map fun k => [k] := by
      rw [sa]
      simp only [List.map_cons, List.map_nil, List.getD_cons_succ, List.getD_cons_zero, pick]
      induction allBits m with
      | nil => rfl
      | cons k l ih => simp [ih]
    rw [hp, List.map_map]
    congr 1
    apply List.map_congr_left
    intro k _
    simp only [Function.comp_apply]
    have l1 : a.shape.length = 2 := by rw [sa]; rfl
    have l2 : b.shape.length = 2 := by rw [sb]; rfl
    rw [l1, l2]
    simp [List.range_succ, put]

theorem map_setBits_self {qs : List Nat} (hn : qs.Nodup) {ks : List Bool} (hl : ks.length = qs.length) (b : Nat → Bool) :
    qs.map (setBits b qs ks) = ks := by
  apply List.ext_getElem
  · simp [hl]
  · intro i h1 h2
    rw [List.length_map] at h1
    rw [List.getElem_map, setBits, if_pos (List.getElem_mem h1), List.Nodup.idxOf_getElem (xs := qs) hn, List.getD_eq_getElem _ _ h2]

theorem map_setBits_other {qs l : List Nat} (h : ∀ q ∈ l, q ∉ qs) (ks : List Bool) (b : Nat → Bool) : l.map (setBits b qs ks) = l.map b := by
  apply List.map_congr_left
  intro q hq
  rw [setBits, if_neg (h q hq)]

/-- **a matrix acts on the amplitudes of a factor** -/
theorem applyMatrix_ok (H : Heur K) {M : List K} {qs : List Nat} {t : TF K} (h : t.Ok) (hM : M.length = 2 ^ (qs.length + qs.length))
    (hn : qs.Nodup) (hq : ∀ q ∈ qs, q ∈ t.qubits) :
    ∃ t', applyMatrix H M qs t = some t' ∧ t'.Ok ∧ t'.qubits.Perm t.qubits ∧
      ∀ b, amp t' b = ((allBits qs.length).map fun k => M.getD (num (qs.map b ++ k)) 0 * amp t (setBits b qs k)).sum := by
  obtain ⟨R, f1, f2, f3, f4⟩ := toFront_ok qs t [] t.qubits h rfl hn hq
  rw [List.length_nil] at f1 f2 f4
  rw [List.nil_append] at f2
  have hlen : (toFront qs 0 t).qubits.length = qs.length + R.length := by rw [f2, List.length_append]
  have hsum : [qs.length, (toFront qs 0 t).qubits.length - qs.length].sum = (toFront qs 0 t).arr.shape.sum := by
    rw [f1.shape, hlen]
    simp
  have hm : WF (ofDense M [qs.length, qs.length] : Arr K) := ofDense_wf (by simpa using hM)
  have hR : (toFront qs 0 t).qubits.length - qs.length = R.length := by omega
  obtain ⟨d, d1, d2, d3, d4⟩ := tensordot_mat
    (H (ofDense M [qs.length, qs.length]) { (toFront qs 0 t).arr with shape := [qs.length, (toFront qs 0 t).qubits.length - qs.length] })
    hm (wf_reshape f1.wf hsum) (r := qs.length) (m := qs.length) (c := R.length) rfl (by rw [hR])
  refine ⟨⟨(toFront qs 0 t).qubits, { d with shape := [(toFront qs 0 t).qubits.length] }⟩, ?_, ⟨?_, rfl, f1.nodup⟩, ?_, ?_⟩
  · unfold applyMatrix
    simp only [reshape, if_pos hsum, Option.bind_eq_bind, Option.bind_some, d1]
    rw [if_pos (by rw [d3, hlen]; simp)]
    rfl
  · exact wf_reshape d2 (by rw [d3, hlen]; simp)
  · dsimp only
    rw [f2]
    exact f3
  · intro b
    have e : amp ⟨(toFront qs 0 t).qubits, { d with shape := [(toFront qs 0 t).qubits.length] }⟩ b = val d (qs.map b ++ R.map b) := by
      unfold amp
      dsimp only
      rw [val_reshape, f2, List.map_append]
    rw [e, d4 _ _ (by simp) (by simp)]
    congr 1
    apply List.map_congr_left
    intro k hk
    have hk' := mem_allBits.1 hk
    congr 1
    · rw [ofDense_val _ (by simp [hk'])]
    · rw [val_reshape, ← f4]
      unfold amp
      rw [f2, List.map_append, map_setBits_self hn hk']
      congr 2
      symm
      apply map_setBits_other
      intro q hqR hqs
      have := f1.nodup
      rw [f2] at this
      exact (List.disjoint_of_nodup_append this) hqs hqR

/-! ### Products of factors -/

theorem entangle_ok (H : Heur K) {t o : TF K} (ht : t.Ok) (ho : o.Ok) (hd : t.qubits.Disjoint o.qubits) :
    ∃ u, entangle H t o = some u ∧ u.Ok ∧ u.qubits = o.qubits ++ t.qubits ∧ ∀ b, amp u b = amp o b * amp t b := by
  obtain ⟨c, c1, c2, c3, c4⟩ := tensordot_outer (H o.arr t.arr) ho.wf ht.wf
  have hs : c.shape.sum = o.qubits.length + t.qubits.length := by rw [c3, ho.shape, ht.shape]; simp
  refine ⟨⟨o.qubits ++ t.qubits, { c with shape := [c.shape.sum] }⟩, ?_, ⟨wf_reshape c2 (by simp), ?_, ?_⟩, rfl, ?_⟩
  · unfold entangle
    rw [if_neg]
    · simp [c1]
    · simp only [List.any_eq_true, List.contains_iff_mem, not_exists, not_and]
      exact fun q h1 h2 => hd h1 h2
  · dsimp only
    rw [hs, List.length_append]
  · dsimp only
    exact ho.nodup.append ht.nodup hd.symm
  · intro b
    unfold amp
    dsimp only
    rw [val_reshape, List.map_append, c4 _ _ (by rw [ho.shape]; simp) (by rw [ht.shape]; simp)]

theorem multiEntangle_ok (H : Heur K) (n : Nat) : ∀ l : List (TF K), l.length = n + 1 → (∀ t ∈ l, t.Ok) → (l.flatMap (·.qubits)).Nodup →
    ∃ u, multiEntangle H n l = some u ∧ u.Ok ∧ u.qubits.Perm (l.flatMap (·.qubits)) ∧ ∀ b, amp u b = (l.map (amp · b)).prod := by
  induction n with
  | zero =>
    intro l hl ho _
    obtain ⟨t, rfl⟩ := List.length_eq_one_iff.1 hl
    exact ⟨t, rfl, ho t (by simp), by simp, by simp⟩
  | succ n ih =>
    intro l hl ho hn
    have hp := List.perm_insertionSort (fun s t : TF K => s.qubits.length ≤ t.qubits.length) l
    generalize hl' : l.insertionSort (fun s t : TF K => s.qubits.length ≤ t.qubits.length) = l' at hp
    obtain _ | ⟨s, _ | ⟨t, r⟩⟩ := l'
    · have := hp.length_eq; simp [hl] at this
    · have := hp.length_eq; simp [hl] at this
    have hf := hp.flatMap_right (·.qubits)
    have hn' := hf.nodup_iff.2 hn
    simp only [List.flatMap_cons] at hn' hf
    have hdis : s.qubits.Disjoint t.qubits := by
      intro q h1 h2
      exact (List.disjoint_of_nodup_append hn') h1 (by simp [h2])
    obtain ⟨u, u1, u2, u3, u4⟩ := entangle_ok H (ho s (hp.mem_iff.1 (by simp))) (ho t (hp.mem_iff.1 (by simp))) hdis
    have hperm : ((r ++ [u]).flatMap (·.qubits)).Perm (s.qubits ++ (t.qubits ++ r.flatMap (·.qubits))) := by
      rw [List.flatMap_append, List.flatMap_cons, List.flatMap_nil, List.append_nil, u3]
      refine List.perm_append_comm.trans ?_
      rw [← List.append_assoc]
      exact List.Perm.append_right _ List.perm_append_comm
    obtain ⟨v, v1, v2, v3, v4⟩ := ih (r ++ [u]) (by have := hp.length_eq; simp at this ⊢; omega)
      (by
        intro w hw
        rcases List.mem_append.1 hw with hw | hw
        · exact ho w (hp.mem_iff.1 (by simp [hw]))
        · rw [List.mem_singleton.1 hw]; exact u2)
      (hperm.nodup_iff.2 hn')
    refine ⟨v, ?_, v2, v3.trans (hperm.trans hf), ?_⟩
    · have : ∀ t, l ≠ [t] := by rintro t rfl; simp at hl
      rw [multiEntangle]
      · simp only [hl', u1, Option.bind_some, v1]
      · intro t
        exact this t
    · intro b
      rw [v4, ← (hp.map (amp · b)).prod_eq]
      simp only [List.map_append, List.map_cons, List.map_nil, List.prod_append, List.prod_cons, List.prod_nil, u4]
      ring

end Verif.Tens
