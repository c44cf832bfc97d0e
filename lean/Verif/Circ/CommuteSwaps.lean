import Verif.Circ.Swaps
import Mathlib.Data.List.Sort

/-!
The pass commute_swaps.
-/

namespace Verif.Circ

open Verif.Rev (upd)

variable {Q C K : Type} [DecidableEq Q] [DecidableEq C]

/-- commute_swaps.py:79, 101-103: the placeholder left behind for a moved instruction. -/
def idCI (i : CI Q C K) : CI Q C K := ⟨.uni (.gate "id" 1 []), i.qs, []⟩

/-- commute_swaps.py:95-107: the loop over the instructions of a qubit that are moved to `partner`.
Returns the instructions and the positions of the moved ones. -/
def moveLoop (partner : Q) : List Nat → List (CI Q C K) → List Nat → List (CI Q C K) × List Nat
  | [], out, u => (out, u)
  | k :: r, out, u =>
    match out[k]? with
    | none => moveLoop partner r out u
    | some last =>
      if last.qs.length ≠ 1 then moveLoop partner r out u
      else
        let out' := out.set k (idCI last) ++ [⟨last.op, [partner], last.cs⟩]
        moveLoop partner r out' (u ++ [out'.length - 1])

/-- The new circuit and `last_instruction_dic`. -/
structure CSt (Q C K : Type) where
  out : List (CI Q C K)
  dic : Q → List Nat

/-- commute_swaps.py:81-122: one iteration. -/
def csStep (s : CSt Q C K) (i : CI Q C K) : CSt Q C K :=
  let out := s.out ++ [i]
  if i.op.name = "swap" then
    match i.qs with
    | [a, b] =>
      let r1 := moveLoop b (s.dic a) out []
      let r2 := moveLoop a (s.dic b) r1.1 []
      ⟨r2.1, fun q => if q = a then r2.2 else if q = b then r1.2 else s.dic q⟩
    | _ => ⟨out, s.dic⟩
  else
    match i.qs with
    | [q] => ⟨out, fun p => if p = q then s.dic p ++ [out.length - 1] else s.dic p⟩
    | qs => ⟨out, fun p => if p ∈ qs then [] else s.dic p⟩

/-- commute_swaps.py:76-127. -/
def commuteSwaps (data : List (CI Q C K)) : List (CI Q C K) :=
  (data.foldl csStep ⟨[], fun _ => []⟩).out.filter fun i => i.op.name ≠ "id"

/-! ### Extraction of instructions -/

/-- Replace the instructions at the positions satisfying `P` by placeholders. -/
def keepP (out : List (CI Q C K)) (P : Nat → Bool) : List (CI Q C K) :=
  out.mapIdx fun k i => if P k then idCI i else i

/-- The instructions at the positions satisfying `P`. -/
def movedP (out : List (CI Q C K)) (P : Nat → Bool) : List (CI Q C K) :=
  ((List.range out.length).filter P).filterMap fun k => out[k]?

/-- The instruction on another qubit. -/
def moveTo (p : Q) (i : CI Q C K) : CI Q C K := ⟨i.op, [p], i.cs⟩

theorem keepP_snoc (out : List (CI Q C K)) (i : CI Q C K) (P : Nat → Bool) :
    keepP (out ++ [i]) P = keepP out P ++ [if P out.length then idCI i else i] := by
  unfold keepP
  rw [List.mapIdx_concat]

theorem movedP_snoc (out : List (CI Q C K)) (i : CI Q C K) (P : Nat → Bool) :
    movedP (out ++ [i]) P = movedP out P ++ if P out.length then [i] else [] := by
  unfold movedP
  rw [List.length_append, List.length_singleton, List.range_succ, List.filter_append,
    List.filterMap_append]
  congr 1
  · apply List.filterMap_congr
    intro k hk
    have : k < out.length := by simpa using (List.mem_filter.1 hk).1
    rw [List.getElem?_append_left this]
  · cases h : P out.length <;> simp [h]

theorem cden_id (I : Interp Q C K) (i : CI Q C K) (Ψ : Amp (Wire Q C)) :
    cden I (idCI i).op (idCI i).qs (idCI i).cs Ψ = Ψ := by
  simp only [idCI, cden]
  refine (lift_congr (U := fun ψ => ψ) (fun ψ => ?_) Ψ).trans (lift_id Ψ)
  simp only [den, denBody]

/-- Instructions have no common bit. -/
def CDisj (i j : CI Q C K) : Prop := (∀ q ∈ i.qs, q ∉ j.qs) ∧ ∀ c ∈ i.cs, c ∉ j.cs

theorem crun_comm (I : Interp Q C K) (l : List (CI Q C K)) (i : CI Q C K)
    (h : ∀ j ∈ l, CDisj j i) (Ψ : Amp (Wire Q C)) :
    cden I i.op i.qs i.cs (crun I l Ψ) = crun I l (cden I i.op i.qs i.cs Ψ) := by
  induction l generalizing Ψ with
  | nil => rfl
  | cons j r ih =>
    simp only [crun]
    rw [ih (fun k hk => h k (by simp [hk]))]
    have := h j (by simp)
    rw [cden_comm I j.op i.op this.1 this.2]

/-- The instructions at the positions `P` can be executed last if none of them has a bit in common
with a later instruction that stays. -/
theorem extract (I : Interp Q C K) (out : List (CI Q C K)) (P : Nat → Bool)
    (h : ∀ k m i j, k < m → P k = true → P m = false → out[k]? = some i → out[m]? = some j → CDisj i j)
    (Ψ : Amp (Wire Q C)) : crun I out Ψ = crun I (movedP out P) (crun I (keepP out P) Ψ) := by
  induction out using List.reverseRecOn with
  | nil => rfl
  | append_singleton out i ih =>
    rw [keepP_snoc, movedP_snoc, crun_append, crun_append, crun_append]
    rw [ih fun k m a b hkm hk hm ha hb => by
      have l1 := (List.getElem?_eq_some_iff.1 ha).1
      have l2 := (List.getElem?_eq_some_iff.1 hb).1
      exact h k m a b hkm hk hm (by rw [List.getElem?_append_left l1]; exact ha)
        (by rw [List.getElem?_append_left l2]; exact hb)]
    cases hP : P out.length
    · simp only [Bool.false_eq_true, if_false, crun]
      refine crun_comm I _ i (fun j hj => ?_) _
      unfold movedP at hj
      obtain ⟨k, hk, hkj⟩ := List.mem_filterMap.1 hj
      obtain ⟨hk1, hk2⟩ := List.mem_filter.1 hk
      have hk1 : k < out.length := by simpa using hk1
      exact h k out.length j i hk1 hk2 hP (by rw [List.getElem?_append_left hk1]; exact hkj) (by simp)
    · simp only [if_true, crun]
      rw [cden_id]

/-! ### Closed form of the inner loop -/

/-- A list of positions in increasing order. -/
def Incr (l : List Nat) : Prop := l.Pairwise (· < ·)

/-- Membership in a list of positions. -/
def inL (l : List Nat) : Nat → Bool := fun k => decide (k ∈ l)

theorem incr_filter (l : List Nat) (hl : Incr l) (n : Nat) (hn : ∀ k ∈ l, k < n) :
    (List.range n).filter (inL l) = l := by
  apply List.Perm.eq_of_pairwise (le := (· < ·))
  · intro a b _ _ h1 h2; omega
  · exact (List.pairwise_lt_range).filter _
  · exact hl
  · rw [List.perm_ext_iff_of_nodup ((List.nodup_range).filter _) (hl.imp (fun h => Nat.ne_of_lt h))]
    intro a
    simp only [List.mem_filter, List.mem_range, inL, decide_eq_true_eq]
    exact ⟨fun h => h.2, fun h => ⟨hn a h, h⟩⟩

/-- The moved instructions in the order of the loop. -/
def movedL (p : Q) (out : List (CI Q C K)) (l : List Nat) : List (CI Q C K) :=
  l.filterMap fun k => (out[k]?).map (moveTo p)

theorem movedL_eq (p : Q) (out : List (CI Q C K)) (l : List Nat) (hl : Incr l)
    (hn : ∀ k ∈ l, k < out.length) : movedL p out l = (movedP out (inL l)).map (moveTo p) := by
  unfold movedL movedP
  rw [incr_filter l hl _ hn, List.map_filterMap]

theorem keepP_length (out : List (CI Q C K)) (P : Nat → Bool) : (keepP out P).length = out.length := by
  simp [keepP]

theorem keepP_get (out : List (CI Q C K)) (P : Nat → Bool) (k : Nat) :
    (keepP out P)[k]? = (out[k]?).map fun i => if P k then idCI i else i := by
  simp [keepP]

theorem moveLoop_eq (p : Q) (l : List Nat) (hnd : l.Nodup) (out : List (CI Q C K)) (u : List Nat)
    (hl : ∀ k ∈ l, ∃ i, out[k]? = some i ∧ i.qs.length = 1) :
    moveLoop p l out u = (keepP out (inL l) ++ movedL p out l, u ++ List.range' out.length l.length) := by
  induction l generalizing out u with
  | nil =>
    simp only [moveLoop, movedL, List.filterMap_nil, List.append_nil, List.length_nil, List.range'_zero]
    congr 1
    apply List.ext_getElem?
    intro k
    rw [keepP_get]
    cases out[k]? <;> simp [inL]
  | cons k r ih =>
    obtain ⟨hk, hr⟩ := List.nodup_cons.1 hnd
    obtain ⟨i, hi, h1⟩ := hl k (by simp)
    have hkl : k < out.length := (List.getElem?_eq_some_iff.1 hi).1
    have hget : ∀ m ∈ r, (out.set k (idCI i) ++ [(⟨i.op, [p], i.cs⟩ : CI Q C K)])[m]? = out[m]? := by
      intro m hm
      obtain ⟨j, hj, _⟩ := hl m (by simp [hm])
      have hml : m < out.length := (List.getElem?_eq_some_iff.1 hj).1
      rw [List.getElem?_append_left (by simpa using hml)]
      rw [List.getElem?_set_ne (by intro e; subst e; exact hk hm)]
    simp only [moveLoop, hi, h1, ne_eq, not_true_eq_false, if_false]
    rw [ih hr]
    · congr 1
      · rw [keepP_snoc]
        have hlen : (out.set k (idCI i)).length = out.length := by simp
        have hnr : inL r (out.set k (idCI i)).length = false := by
          rw [hlen]
          simp only [inL, decide_eq_false_iff_not]
          intro hm
          obtain ⟨j, hj, _⟩ := hl out.length (by simp [hm])
          simp at hj
        rw [hnr]
        simp only [Bool.false_eq_true, if_false]
        have e1 : keepP (out.set k (idCI i)) (inL r) = keepP out (inL (k :: r)) := by
          apply List.ext_getElem?
          intro m
          rw [keepP_get, keepP_get, List.getElem?_set]
          by_cases e : k = m
          · subst e
            simp only [hkl, inL, hk, hi, if_true, decide_false, List.mem_cons, true_or, decide_true, Option.map_some, Bool.false_eq_true, if_false]
          · have e' : ¬ m = k := fun h => e h.symm
            have e2 : inL (k :: r) m = inL r m := by simp [inL, e']
            rw [e2, if_neg e]
        rw [e1]
        have e2 : movedL p (out.set k (idCI i) ++ [(⟨i.op, [p], i.cs⟩ : CI Q C K)]) r = movedL p out r := by
          unfold movedL
          apply List.filterMap_congr
          intro m hm
          rw [hget m hm]
        rw [e2]
        have e3 : movedL p out (k :: r) = moveTo p i :: movedL p out r := by
          simp [movedL, hi]
        rw [e3, List.append_assoc]; rfl
      · simp only [List.length_append, List.length_set, List.length_singleton, List.length_cons,
          Nat.add_sub_cancel, List.append_assoc]
        rw [List.range'_succ]; rfl
    · intro m hm
      rw [hget m hm]
      exact hl m (by simp [hm])

/-! ### Invariant -/

/-- Number of instructions using the classical bit `c`. -/
def usesC (c : C) (l : List (CI Q C K)) : Nat := l.countP fun i => decide (c ∈ i.cs)

/-- `last_instruction_dic` lists, in order, single qubit instructions that no instruction on the same
qubit outside the list follows. -/
structure CSInv (s : CSt Q C K) : Prop where
  incr : ∀ q, Incr (s.dic q)
  here : ∀ q, ∀ k ∈ s.dic q, ∃ i, s.out[k]? = some i ∧ i.qs = [q]
  last : ∀ q, ∀ k ∈ s.dic q, ∀ m j, k < m → s.out[m]? = some j → q ∈ j.qs → m ∈ s.dic q

/-- A classical bit of a single qubit instruction is used by no other instruction. -/
def Private (l : List (CI Q C K)) : Prop :=
  ∀ i ∈ l, i.qs.length = 1 → ∀ c ∈ i.cs, usesC c l ≤ 1

theorem usesC_two (l : List (CI Q C K)) (k m : Nat) (i j : CI Q C K) (c : C) (hkm : k < m)
    (hi : l[k]? = some i) (hj : l[m]? = some j) (h1 : c ∈ i.cs) (h2 : c ∈ j.cs) : 2 ≤ usesC c l := by
  induction l generalizing k m with
  | nil => simp at hi
  | cons a l ih =>
    unfold usesC
    rw [List.countP_cons]
    match k, m with
    | 0, m + 1 =>
      simp only [List.getElem?_cons_zero, Option.some.injEq] at hi
      subst hi
      simp only [List.getElem?_cons_succ] at hj
      have : 0 < l.countP fun i => decide (c ∈ i.cs) :=
        List.countP_pos_iff.2 ⟨j, List.mem_of_getElem? hj, by simpa using h2⟩
      simp only [h1, decide_true, if_true]; omega
    | k + 1, m + 1 =>
      simp only [List.getElem?_cons_succ] at hi hj
      have := ih k m (by omega) hi hj
      unfold usesC at this
      omega

theorem usesC_append (c : C) (a b : List (CI Q C K)) : usesC c (a ++ b) = usesC c a + usesC c b :=
  List.countP_append ..

theorem usesC_extract (c : C) (out : List (CI Q C K)) (P : Nat → Bool) :
    usesC c (keepP out P) + usesC c (movedP out P) = usesC c out := by
  induction out using List.reverseRecOn with
  | nil => rfl
  | append_singleton out i ih =>
    rw [keepP_snoc, movedP_snoc, usesC_append, usesC_append, usesC_append]
    cases hP : P out.length
    · have : usesC c ([] : List (CI Q C K)) = 0 := rfl
      simp only [Bool.false_eq_true, if_false, this]; omega
    · have : usesC c [idCI i] = 0 := by simp [usesC, idCI]
      simp only [if_true, this]; omega

theorem usesC_move (c : C) (p : Q) (l : List (CI Q C K)) : usesC c (l.map (moveTo p)) = usesC c l := by
  unfold usesC
  rw [List.countP_map]; rfl

theorem mem_movedP {out : List (CI Q C K)} {P : Nat → Bool} {i : CI Q C K} (h : i ∈ movedP out P) :
    i ∈ out ∧ ∃ k, P k = true ∧ out[k]? = some i := by
  unfold movedP at h
  obtain ⟨k, hk, hki⟩ := List.mem_filterMap.1 h
  exact ⟨List.mem_of_getElem? hki, k, (List.mem_filter.1 hk).2, hki⟩

theorem mem_keepP {out : List (CI Q C K)} {P : Nat → Bool} {i : CI Q C K} (h : i ∈ keepP out P) :
    i ∈ out ∨ ∃ j ∈ out, i = idCI j := by
  obtain ⟨k, hk⟩ := List.mem_iff_getElem?.1 h
  rw [keepP_get] at hk
  cases ho : out[k]? with
  | none => simp [ho] at hk
  | some j =>
    simp only [ho, Option.map_some, Option.some.injEq] at hk
    have hj := List.mem_of_getElem? ho
    cases hP : P k
    · left
      rw [hP] at hk
      simp only [Bool.false_eq_true, if_false] at hk
      exact hk ▸ hj
    · right
      rw [hP] at hk
      simp only [if_true] at hk
      exact ⟨j, hj, hk.symm⟩

theorem keepP_comm (out : List (CI Q C K)) (P P' : Nat → Bool) :
    keepP (keepP out P) P' = keepP (keepP out P') P := by
  apply List.ext_getElem?
  intro k
  simp only [keepP_get]
  cases out[k]? with
  | none => rfl
  | some i => cases P k <;> cases P' k <;> rfl

theorem movedP_keepP (out : List (CI Q C K)) (P P' : Nat → Bool)
    (h : ∀ k, P k = true → P' k = false) : movedP (keepP out P) P' = movedP out P' := by
  unfold movedP
  rw [keepP_length]
  apply List.filterMap_congr
  intro k hk
  have hP' := (List.mem_filter.1 hk).2
  have hP : P k = false := by
    cases hp : P k
    · rfl
    · rw [h k hp] at hP'; cases hP'
  rw [keepP_get, hP]
  cases out[k]? <;> simp

/-- Moving single qubit instructions through a swap. -/
theorem crun_through (I : Interp Q C K) {a b : Q} (σ : Equiv.Perm Q) (hσ : σ a = b)
    (l : List (CI Q C K)) (h : ∀ i ∈ l, i.qs = [a]) (Ψ : Amp (Wire Q C)) :
    permW σ (crun I l Ψ) = crun I (l.map (moveTo b)) (permW σ Ψ) := by
  induction l generalizing Ψ with
  | nil => rfl
  | cons i r ih =>
    simp only [List.map_cons, crun]
    rw [ih fun j hj => h j (by simp [hj])]
    congr 1
    have := cden_perm I i.op σ i.qs i.cs Ψ
    rw [h i (by simp)] at this ⊢
    simp only [List.map_cons, List.map_nil, hσ] at this
    exact this.symm

theorem csInv_disj {s : CSt Q C K} (h : CSInv s) (hp : Private s.out) (q : Q) (k m : Nat)
    (i j : CI Q C K) (hkm : k < m) (hk : k ∈ s.dic q) (hm : m ∉ s.dic q) (hi : s.out[k]? = some i)
    (hj : s.out[m]? = some j) : CDisj i j := by
  obtain ⟨i', hi', hq⟩ := h.here q k hk
  rw [hi] at hi'
  cases hi'
  refine ⟨fun p hp hpj => ?_, fun c hc hcj => ?_⟩
  · rw [hq] at hp
    have : p = q := by simpa using hp
    subst this
    exact hm (h.last p k hk m j hkm hj hpj)
  · have := usesC_two s.out k m i j c hkm hi hj hc hcj
    have h2 := hp i (List.mem_of_getElem? hi) (by rw [hq]; rfl) c hc
    omega

theorem dic_disj {s : CSt Q C K} (h : CSInv s) {a b : Q} (hab : a ≠ b) (k : Nat) (ha : k ∈ s.dic a) :
    k ∉ s.dic b := by
  intro hb
  obtain ⟨i, hi, h1⟩ := h.here a k ha
  obtain ⟨j, hj, h2⟩ := h.here b k hb
  rw [hi] at hj
  cases hj
  rw [h1] at h2
  simp at h2
  exact hab h2

theorem dic_lt {s : CSt Q C K} (h : CSInv s) (q : Q) (k : Nat) (hk : k ∈ s.dic q) :
    k < s.out.length := by
  obtain ⟨i, hi, _⟩ := h.here q k hk
  exact (List.getElem?_eq_some_iff.1 hi).1

/-- The circuit after a swap instruction. -/
def swapOut (s : CSt Q C K) (i : CI Q C K) (a b : Q) : List (CI Q C K) :=
  keepP (keepP s.out (inL (s.dic a))) (inL (s.dic b)) ++ [i]
    ++ (movedP s.out (inL (s.dic a))).map (moveTo b) ++ (movedP s.out (inL (s.dic b))).map (moveTo a)

theorem keepP_append (a b : List (CI Q C K)) (l : List Nat) (h : ∀ k ∈ l, k < a.length) :
    keepP (a ++ b) (inL l) = keepP a (inL l) ++ b := by
  apply List.ext_getElem?
  intro k
  rw [keepP_get]
  by_cases hk : k < a.length
  · rw [List.getElem?_append_left hk, List.getElem?_append_left (by rw [keepP_length]; exact hk),
      keepP_get]
  · have hk' : a.length ≤ k := by omega
    rw [List.getElem?_append_right hk', List.getElem?_append_right (by rw [keepP_length]; exact hk'),
      keepP_length]
    have : inL l k = false := by
      simp only [inL, decide_eq_false_iff_not]
      intro h'; have := h k h'; omega
    rw [this]
    cases b[k - a.length]? <;> simp

theorem movedL_append (p : Q) (a b : List (CI Q C K)) (l : List Nat) (h : ∀ k ∈ l, k < a.length) :
    movedL p (a ++ b) l = movedL p a l := by
  unfold movedL
  apply List.filterMap_congr
  intro k hk
  rw [List.getElem?_append_left (h k hk)]

theorem csStep_swap {s : CSt Q C K} (h : CSInv s) (i : CI Q C K) {a b : Q} (hab : a ≠ b)
    (hn : i.op.name = "swap") (hq : i.qs = [a, b]) :
    csStep s i = ⟨swapOut s i a b, fun q =>
      if q = a then List.range' (s.out.length + 1 + (s.dic a).length) (s.dic b).length
      else if q = b then List.range' (s.out.length + 1) (s.dic a).length else s.dic q⟩ := by
  have nd : ∀ q, (s.dic q).Nodup := fun q => (h.incr q).imp (fun h => Nat.ne_of_lt h)
  have lt := fun q k hk => dic_lt h q k hk
  have hA : ∀ k ∈ s.dic a, ∃ x, (s.out ++ [i])[k]? = some x ∧ x.qs.length = 1 := by
    intro k hk
    obtain ⟨x, hx, hx'⟩ := h.here a k hk
    exact ⟨x, by rw [List.getElem?_append_left (lt a k hk)]; exact hx, by rw [hx']; rfl⟩
  have e1 := moveLoop_eq b (s.dic a) (nd a) (s.out ++ [i]) [] hA
  rw [keepP_append _ _ _ (lt a), movedL_append _ _ _ _ (lt a)] at e1
  have hB : ∀ k ∈ s.dic b, ∃ x, (keepP s.out (inL (s.dic a)) ++ [i] ++ movedL b s.out (s.dic a))[k]? = some x
      ∧ x.qs.length = 1 := by
    intro k hk
    obtain ⟨x, hx, hx'⟩ := h.here b k hk
    refine ⟨x, ?_, by rw [hx']; rfl⟩
    rw [List.append_assoc, List.getElem?_append_left (by rw [keepP_length]; exact lt b k hk), keepP_get, hx]
    have : inL (s.dic a) k = false := by
      simp only [inL, decide_eq_false_iff_not]
      exact dic_disj h hab.symm k hk
    simp [this]
  have e2 := moveLoop_eq a (s.dic b) (nd b) _ [] hB
  rw [List.append_assoc, keepP_append _ _ _ (by rw [keepP_length]; exact lt b),
    movedL_append _ _ _ _ (by rw [keepP_length]; exact lt b)] at e2
  have e3 : movedL a (keepP s.out (inL (s.dic a))) (s.dic b) = movedL a s.out (s.dic b) := by
    unfold movedL
    apply List.filterMap_congr
    intro k hk
    have : inL (s.dic a) k = false := by
      simp only [inL, decide_eq_false_iff_not]
      exact dic_disj h hab.symm k hk
    rw [keepP_get, this]
    cases s.out[k]? <;> simp
  have l1 : (movedL b s.out (s.dic a)).length = (s.dic a).length := by
    unfold movedL
    have : ∀ l : List Nat, (∀ k ∈ l, k < s.out.length) →
        (l.filterMap fun k => (s.out[k]?).map (moveTo b)).length = l.length := by
      intro l hl
      induction l with
      | nil => rfl
      | cons k r ih =>
        rw [List.filterMap_cons, List.getElem?_eq_getElem (hl k (by simp))]
        simp only [Option.map_some, List.length_cons]
        rw [ih fun m hm => hl m (by simp [hm])]
    exact this _ (lt a)
  unfold csStep
  simp only [hn, if_true, hq]
  rw [e1]
  simp only [List.nil_append, List.length_append, List.length_singleton] at e2 ⊢
  rw [List.append_assoc, e2]
  simp only [e3, keepP_length, l1]
  rw [movedL_eq b s.out _ (h.incr a) (lt a), movedL_eq a s.out _ (h.incr b) (lt b)]
  unfold swapOut
  simp only [List.append_assoc]
  congr 1
  funext q
  have e : s.out.length + (1 + (s.dic a).length) = s.out.length + 1 + (s.dic a).length := by omega
  simp only [e]

theorem swapOut_sem (I : Interp Q C K) {s : CSt Q C K} (h : CSInv s) (hp : Private s.out)
    (i : CI Q C K) {a b : Q} (hab : a ≠ b) (hsw : ∀ Ψ, cden I i.op i.qs i.cs Ψ = permW (Equiv.swap a b) Ψ)
    (Ψ : Amp (Wire Q C)) :
    crun I (swapOut s i a b) Ψ = cden I i.op i.qs i.cs (crun I s.out Ψ) := by
  have hex : ∀ q, ∀ k m x y, k < m → inL (s.dic q) k = true → inL (s.dic q) m = false →
      s.out[k]? = some x → s.out[m]? = some y → CDisj x y := by
    intro q k m x y hkm hk hm hx hy
    exact csInv_disj h hp q k m x y hkm (by simpa [inL] using hk) (by simpa [inL] using hm) hx hy
  have hdis : ∀ k, inL (s.dic b) k = true → inL (s.dic a) k = false := by
    intro k hk
    simp only [inL, decide_eq_true_eq, decide_eq_false_iff_not] at hk ⊢
    exact dic_disj h hab.symm k hk
  have hex2 : ∀ k m x y, k < m → inL (s.dic a) k = true → inL (s.dic a) m = false →
      (keepP s.out (inL (s.dic b)))[k]? = some x → (keepP s.out (inL (s.dic b)))[m]? = some y →
      CDisj x y := by
    intro k m x y hkm hk hm hx hy
    rw [keepP_get] at hx hy
    cases hok : s.out[k]? with
    | none => simp [hok] at hx
    | some x0 =>
      cases hom : s.out[m]? with
      | none => simp [hom] at hy
      | some y0 =>
        have hd := hex a k m x0 y0 hkm hk hm hok hom
        have hbk : inL (s.dic b) k = false := by
          cases e : inL (s.dic b) k
          · rfl
          · rw [hdis k e] at hk; cases hk
        simp only [hok, hom, Option.map_some, Option.some.injEq, hbk, Bool.false_eq_true, if_false] at hx hy
        subst hx
        split at hy
        · subst hy
          exact ⟨hd.1, fun c _ => by simp [idCI]⟩
        · subst hy; exact hd
  rw [extract I s.out (inL (s.dic b)) (hex b), extract I (keepP s.out (inL (s.dic b))) (inL (s.dic a)) hex2,
    movedP_keepP _ _ _ hdis, keepP_comm, hsw]
  have one : ∀ q, ∀ x ∈ movedP s.out (inL (s.dic q)), x.qs = [q] := by
    intro q x hx
    obtain ⟨_, k, hk, hkx⟩ := mem_movedP hx
    obtain ⟨y, hy, hyq⟩ := h.here q k (by simpa [inL] using hk)
    rw [hkx] at hy
    cases hy
    exact hyq
  rw [crun_through I (b := a) _ (Equiv.swap_apply_right a b) _ (one b),
    crun_through I (b := b) _ (Equiv.swap_apply_left a b) _ (one a)]
  unfold swapOut
  rw [crun_append, crun_append, crun_append]
  congr 2
  simp only [crun]
  rw [hsw]

/-! ### Soundness -/

theorem swapOut_uses (c : C) (s : CSt Q C K) (h : CSInv s) (i : CI Q C K) {a b : Q} (hab : a ≠ b) :
    usesC c (swapOut s i a b) = usesC c (s.out ++ [i]) := by
  have hdis : ∀ k, inL (s.dic a) k = true → inL (s.dic b) k = false := by
    intro k hk
    simp only [inL, decide_eq_true_eq, decide_eq_false_iff_not] at hk ⊢
    exact dic_disj h hab k hk
  have h1 := usesC_extract c s.out (inL (s.dic a))
  have h2 := usesC_extract c (keepP s.out (inL (s.dic a))) (inL (s.dic b))
  rw [movedP_keepP _ _ _ hdis] at h2
  unfold swapOut
  rw [usesC_append, usesC_append, usesC_append, usesC_append, usesC_move, usesC_move]
  omega

/-- Every instruction of the circuit after a swap comes from an instruction before it. -/
theorem swapOut_mem (s : CSt Q C K) (i : CI Q C K) (a b : Q) (h : CSInv s) :
    ∀ x ∈ swapOut s i a b, x.op = .uni (.gate "id" 1 []) ∧ x.cs = [] ∨
      ∃ y ∈ s.out ++ [i], x.op = y.op ∧ x.cs = y.cs ∧ x.qs.length = y.qs.length := by
  intro x hx
  have mv : ∀ q p, x ∈ (movedP s.out (inL (s.dic q))).map (moveTo p) →
      ∃ y ∈ s.out ++ [i], x.op = y.op ∧ x.cs = y.cs ∧ x.qs.length = y.qs.length := by
    intro q p hm
    obtain ⟨y, hy, rfl⟩ := List.mem_map.1 hm
    obtain ⟨h1, k, hk, hky⟩ := mem_movedP hy
    obtain ⟨z, hz, hzq⟩ := h.here q k (by simpa [inL] using hk)
    rw [hky] at hz
    cases hz
    exact ⟨y, by simp [h1], rfl, rfl, by rw [hzq]; rfl⟩
  unfold swapOut at hx
  rw [List.mem_append, List.mem_append, List.mem_append] at hx
  rcases hx with ((hx | hx) | hx) | hx
  · rcases mem_keepP hx with h1 | ⟨j, _, rfl⟩
    · rcases mem_keepP h1 with h2 | ⟨j, _, rfl⟩
      · exact .inr ⟨x, by simp [h2], rfl, rfl, rfl⟩
      · exact .inl ⟨rfl, rfl⟩
    · exact .inl ⟨rfl, rfl⟩
  · exact .inr ⟨x, by simpa using .inr (by simpa using hx), rfl, rfl, rfl⟩
  · exact .inr (mv _ _ hx)
  · exact .inr (mv _ _ hx)

/-- What the pass expects of an instruction: one named swap exchanges two different qubits, one
named id is the identity, and an instruction has a qubit at most once. -/
structure CSOK (I : Interp Q C K) (i : CI Q C K) : Prop where
  swap : i.op.name = "swap" → ∃ a b, i.qs = [a, b] ∧ a ≠ b ∧
    ∀ Ψ, cden I i.op i.qs i.cs Ψ = permW (Equiv.swap a b) Ψ
  ident : i.op.name = "id" → ∀ qs Ψ, cden I i.op qs i.cs Ψ = Ψ

theorem incr_range' (n m : Nat) : Incr (List.range' n m) := by
  unfold Incr
  exact List.pairwise_lt_range'

theorem csInv_swap {s : CSt Q C K} (h : CSInv s) (i : CI Q C K) {a b : Q} (hab : a ≠ b)
    (hq : i.qs = [a, b]) :
    CSInv (⟨swapOut s i a b, fun q =>
      if q = a then List.range' (s.out.length + 1 + (s.dic a).length) (s.dic b).length
      else if q = b then List.range' (s.out.length + 1) (s.dic a).length else s.dic q⟩ : CSt Q C K) := by
  have lenP : ∀ q, (movedP s.out (inL (s.dic q))).length = (s.dic q).length := by
    intro q
    have := movedL_eq q s.out _ (h.incr q) (dic_lt h q)
    have e : (movedL q s.out (s.dic q)).length = (s.dic q).length := by
      unfold movedL
      have : ∀ l : List Nat, (∀ k ∈ l, k < s.out.length) →
          (l.filterMap fun k => (s.out[k]?).map (moveTo q)).length = l.length := by
        intro l hl
        induction l with
        | nil => rfl
        | cons k r ih =>
          rw [List.filterMap_cons, List.getElem?_eq_getElem (hl k (by simp))]
          simp only [Option.map_some, List.length_cons]
          rw [ih fun m hm => hl m (by simp [hm])]
      exact this _ (dic_lt h q)
    rw [← e, this, List.length_map]
  -- the four parts of the new circuit
  have g0 : ∀ m, m < s.out.length → (swapOut s i a b)[m]?
      = (keepP (keepP s.out (inL (s.dic a))) (inL (s.dic b)))[m]? := by
    intro m hm
    unfold swapOut
    rw [List.append_assoc, List.append_assoc, List.getElem?_append_left (by simpa [keepP_length] using hm)]
  have qs0 : ∀ m j, m < s.out.length → (swapOut s i a b)[m]? = some j →
      ∃ j0, s.out[m]? = some j0 ∧ j0.qs = j.qs ∧ (m ∉ s.dic a → m ∉ s.dic b → j0 = j) := by
    intro m j hm hj
    rw [g0 m hm, keepP_get, keepP_get, List.getElem?_eq_getElem hm] at hj
    simp only [Option.map_some, Option.some.injEq] at hj
    refine ⟨_, List.getElem?_eq_getElem hm, ?_, ?_⟩
    · rw [← hj]
      cases inL (s.dic a) m <;> cases inL (s.dic b) m <;> rfl
    · intro h1 h2
      rw [← hj]
      simp [inL, h1, h2]
  have g1 : (swapOut s i a b)[s.out.length]? = some i := by
    unfold swapOut
    rw [List.append_assoc, List.append_assoc, List.getElem?_append_right (by simp [keepP_length])]
    simp [keepP_length]
  have g2 : ∀ k, k < (s.dic a).length → ∃ j, (swapOut s i a b)[s.out.length + 1 + k]? = some j ∧ j.qs = [b] := by
    intro k hk
    unfold swapOut
    rw [List.getElem?_append_left (by simp [keepP_length, lenP]; omega),
      List.getElem?_append_right (by simp [keepP_length])]
    simp only [List.length_append, keepP_length, List.length_singleton, Nat.add_sub_cancel_left,
      List.getElem?_map]
    rw [List.getElem?_eq_getElem (by rw [lenP]; exact hk)]
    exact ⟨_, rfl, rfl⟩
  have g3 : ∀ k, k < (s.dic b).length →
      ∃ j, (swapOut s i a b)[s.out.length + 1 + (s.dic a).length + k]? = some j ∧ j.qs = [a] := by
    intro k hk
    unfold swapOut
    rw [List.getElem?_append_right (by simp [keepP_length, lenP]; omega)]
    simp only [List.length_append, keepP_length, List.length_singleton, List.length_map, lenP,
      Nat.add_sub_cancel_left, List.getElem?_map]
    rw [List.getElem?_eq_getElem (by rw [lenP]; exact hk)]
    exact ⟨_, rfl, rfl⟩
  have len : (swapOut s i a b).length = s.out.length + 1 + (s.dic a).length + (s.dic b).length := by
    unfold swapOut
    simp only [List.length_append, keepP_length, List.length_singleton, List.length_map, lenP]
  constructor
  · intro q
    simp only
    split
    · exact incr_range' _ _
    · split
      · exact incr_range' _ _
      · exact h.incr q
  · intro q k hk
    simp only at hk ⊢
    split at hk
    · rename_i e
      obtain ⟨t, ht, rfl⟩ := List.mem_range'.1 hk
      rw [Nat.one_mul, e]
      exact g3 t ht
    · split at hk
      · rename_i e
        obtain ⟨t, ht, rfl⟩ := List.mem_range'.1 hk
        rw [Nat.one_mul, e]
        exact g2 t ht
      · rename_i e1 e2
        obtain ⟨x, hx, hxq⟩ := h.here q k hk
        have hlt := dic_lt h q k hk
        refine ⟨x, ?_, hxq⟩
        rw [g0 k hlt, keepP_get, keepP_get, hx]
        have n1 : inL (s.dic a) k = false := by
          simp only [inL, decide_eq_false_iff_not]
          exact dic_disj h e1 k hk
        have n2 : inL (s.dic b) k = false := by
          simp only [inL, decide_eq_false_iff_not]
          exact dic_disj h e2 k hk
        simp [n1, n2]
  · intro q k hk m j hkm hj hqj
    simp only at hk hj ⊢
    have hml : m < s.out.length + 1 + (s.dic a).length + (s.dic b).length := by
      rw [← len]; exact (List.getElem?_eq_some_iff.1 hj).1
    -- qubits of an appended instruction
    have app : s.out.length + 1 ≤ m → m < s.out.length + 1 + (s.dic a).length → j.qs = [b] := by
      intro h1 h2
      obtain ⟨t, rfl⟩ := Nat.exists_eq_add_of_le h1
      obtain ⟨j', hj', hq'⟩ := g2 t (by omega)
      rw [hj] at hj'; cases hj'; exact hq'
    have app2 : s.out.length + 1 + (s.dic a).length ≤ m → j.qs = [a] := by
      intro h1
      obtain ⟨t, rfl⟩ := Nat.exists_eq_add_of_le h1
      obtain ⟨j', hj', hq'⟩ := g3 t (by omega)
      rw [hj] at hj'; cases hj'; exact hq'
    split at hk
    · rename_i e
      rw [List.mem_range'_1] at hk
      rw [if_pos e, List.mem_range'_1]
      omega
    · rename_i e1
      rw [if_neg e1]
      split at hk
      · rename_i e2
        rw [if_pos e2]
        rw [List.mem_range'_1] at hk ⊢
        refine ⟨by omega, ?_⟩
        by_contra hc
        have := app2 (by omega)
        rw [this] at hqj
        exact e1 (by simpa using hqj)
      · rename_i e2
        rw [if_neg e2]
        have hlt := dic_lt h q k hk
        by_cases hm : m < s.out.length
        · obtain ⟨j0, hj0, hq0, _⟩ := qs0 m j hm hj
          exact h.last q k hk m j0 hkm hj0 (by rw [hq0]; exact hqj)
        · exfalso
          by_cases hm1 : m = s.out.length
          · subst hm1
            rw [g1] at hj
            cases hj
            rw [hq] at hqj
            simp [e1, e2] at hqj
          · by_cases hm2 : m < s.out.length + 1 + (s.dic a).length
            · rw [app (by omega) hm2] at hqj
              exact e2 (by simpa using hqj)
            · rw [app2 (by omega)] at hqj
              exact e1 (by simpa using hqj)

theorem csInv_other {s : CSt Q C K} (h : CSInv s) (i : CI Q C K) (hn : i.op.name ≠ "swap") :
    CSInv (csStep s i) ∧ (csStep s i).out = s.out ++ [i] := by
  have old : ∀ q k, k ∈ s.dic q → (s.out ++ [i])[k]? = s.out[k]? := fun q k hk =>
    List.getElem?_append_left (dic_lt h q k hk)
  have cases' : ∀ m j, (s.out ++ [i])[m]? = some j → s.out[m]? = some j ∨ m = s.out.length ∧ j = i := by
    intro m j hj
    by_cases hm : m < s.out.length
    · rw [List.getElem?_append_left hm] at hj; exact .inl hj
    · right
      rw [List.getElem?_append_right (by omega)] at hj
      have : m - s.out.length = 0 := by
        have := (List.getElem?_eq_some_iff.1 hj).1
        simp at this; omega
      rw [this] at hj
      simp at hj
      exact ⟨by omega, hj.symm⟩
  have many : (∀ q, i.qs ≠ [q]) → csStep s i = ⟨s.out ++ [i], fun p => if p ∈ i.qs then [] else s.dic p⟩ := by
    intro hne
    unfold csStep
    rw [if_neg hn]
    generalize i.qs = l at hne ⊢
    match l, hne with
    | [], _ => rfl
    | [q], hne => exact absurd rfl (hne q)
    | _ :: _ :: _, _ => rfl
  by_cases hone : ∃ q, i.qs = [q]
  · obtain ⟨q0, hq0⟩ := hone
    have e : csStep s i = ⟨s.out ++ [i], fun p => if p = q0 then s.dic p ++ [s.out.length] else s.dic p⟩ := by
      unfold csStep
      rw [if_neg hn, hq0]
      simp
    rw [e]
    refine ⟨⟨fun q => ?_, fun q k hk => ?_, fun q k hk m j hkm hj hqj => ?_⟩, rfl⟩
    · simp only
      split
      · unfold Incr
        rw [List.pairwise_append]
        refine ⟨h.incr q, List.pairwise_singleton _ _, fun x hx y hy => ?_⟩
        have := dic_lt h q x hx
        have : y = s.out.length := by simpa using hy
        omega
      · exact h.incr q
    · simp only at hk ⊢
      have main : k ∈ s.dic q → ∃ x, (s.out ++ [i])[k]? = some x ∧ x.qs = [q] := by
        intro hk
        rw [old q k hk]; exact h.here q k hk
      split at hk
      · rename_i e
        rcases List.mem_append.1 hk with hk | hk
        · exact main hk
        · have : k = s.out.length := by simpa using hk
          subst this
          exact ⟨i, by simp, by rw [hq0, e]⟩
      · exact main hk
    · simp only at hk hj ⊢
      rcases cases' m j hj with hj | ⟨hm, hj⟩
      · have hlt := (List.getElem?_eq_some_iff.1 hj).1
        split at hk
        · rename_i e
          rw [if_pos e]
          rcases List.mem_append.1 hk with hk | hk
          · exact List.mem_append.2 (.inl (h.last q k hk m j hkm hj hqj))
          · have : k = s.out.length := by simpa using hk
            omega
        · rename_i e
          rw [if_neg e]
          exact h.last q k hk m j hkm hj hqj
      · subst hj hm
        rw [hq0] at hqj
        have : q = q0 := by simpa using hqj
        rw [if_pos this]
        simp
  · have hne : ∀ q, i.qs ≠ [q] := fun q hq => hone ⟨q, hq⟩
    rw [many hne]
    refine ⟨⟨fun q => ?_, fun q k hk => ?_, fun q k hk m j hkm hj hqj => ?_⟩, rfl⟩
    · simp only
      split
      · exact List.Pairwise.nil
      · exact h.incr q
    · simp only at hk ⊢
      split at hk
      · simp at hk
      · rw [old q k hk]; exact h.here q k hk
    · simp only at hk hj ⊢
      split at hk
      · simp at hk
      · rename_i e
        rw [if_neg e]
        rcases cases' m j hj with hj | ⟨hm, hj⟩
        · exact h.last q k hk m j hkm hj hqj
        · subst hj; exact absurd hqj e

/-- The state of the pass after the instructions `done`. -/
structure CSGood (I : Interp Q C K) (done : List (CI Q C K)) (s : CSt Q C K) : Prop where
  inv : CSInv s
  sem : ∀ Ψ, crun I s.out Ψ = crun I done Ψ
  uses : ∀ c, usesC c s.out = usesC c done
  from_ : ∀ x ∈ s.out, x.op = .uni (.gate "id" 1 []) ∧ x.cs = [] ∨
      ∃ y ∈ done, x.op = y.op ∧ x.cs = y.cs ∧ x.qs.length = y.qs.length

theorem csGood_private {I : Interp Q C K} {done : List (CI Q C K)} {s : CSt Q C K}
    (h : CSGood I done s) (hp : Private done) : Private s.out := by
  intro x hx h1 c hc
  rw [h.uses]
  rcases h.from_ x hx with ⟨_, e⟩ | ⟨y, hy, _, e2, e3⟩
  · rw [e] at hc; simp at hc
  · exact hp y hy (by omega) c (e2 ▸ hc)

theorem private_prefix {a b : List (CI Q C K)} (h : Private (a ++ b)) : Private a := by
  intro i hi h1 c hc
  have := h i (by simp [hi]) h1 c hc
  rw [usesC_append] at this
  omega

theorem csStep_good {I : Interp Q C K} {done : List (CI Q C K)} {s : CSt Q C K}
    (h : CSGood I done s) (i : CI Q C K) (hok : CSOK I i) (hp : Private (done ++ [i])) :
    CSGood I (done ++ [i]) (csStep s i) := by
  have lift' : ∀ x ∈ s.out ++ [i], x.op = .uni (.gate "id" 1 []) ∧ x.cs = [] ∨
      ∃ y ∈ done ++ [i], x.op = y.op ∧ x.cs = y.cs ∧ x.qs.length = y.qs.length := by
    intro x hx
    rcases List.mem_append.1 hx with hx | hx
    · rcases h.from_ x hx with e | ⟨y, hy, e⟩
      · exact .inl e
      · exact .inr ⟨y, by simp [hy], e⟩
    · exact .inr ⟨x, by simpa using .inr (by simpa using hx), rfl, rfl, rfl⟩
  by_cases hn : i.op.name = "swap"
  · obtain ⟨a, b, hq, hab, hsw⟩ := hok.swap hn
    rw [csStep_swap h.inv i hab hn hq]
    refine ⟨csInv_swap h.inv i hab hq, fun Ψ => ?_, fun c => ?_, fun x hx => ?_⟩
    · simp only
      rw [swapOut_sem I h.inv (csGood_private h (private_prefix hp)) i hab hsw, h.sem, crun_append]
      rfl
    · simp only
      rw [swapOut_uses c s h.inv i hab, usesC_append, usesC_append, h.uses]
    · rcases swapOut_mem s i a b h.inv x hx with e | ⟨y, hy, e1, e2, e3⟩
      · exact .inl e
      · rcases lift' y hy with ⟨e4, e5⟩ | ⟨z, hz, e4, e5, e6⟩
        · exact .inl ⟨e1.trans e4, e2.trans e5⟩
        · exact .inr ⟨z, hz, e1.trans e4, e2.trans e5, e3.trans e6⟩
  · obtain ⟨h1, h2⟩ := csInv_other h.inv i hn
    refine ⟨h1, fun Ψ => ?_, fun c => ?_, fun x hx => ?_⟩
    · rw [h2, crun_append, crun_append, h.sem]
    · rw [h2, usesC_append, usesC_append, h.uses]
    · rw [h2] at hx; exact lift' x hx

theorem csFold_good {I : Interp Q C K} (data done : List (CI Q C K)) (s : CSt Q C K)
    (h : CSGood I done s) (hok : ∀ i ∈ data, CSOK I i) (hp : Private (done ++ data)) :
    CSGood I (done ++ data) (data.foldl csStep s) := by
  induction data generalizing done s with
  | nil => simpa using h
  | cons i r ih =>
    have e : done ++ i :: r = done ++ [i] ++ r := by simp
    rw [e] at hp ⊢
    exact ih _ _ (csStep_good h i (hok i (by simp)) (private_prefix hp)) (fun j hj => hok j (by simp [hj])) hp

theorem crun_filter_id (I : Interp Q C K) (l : List (CI Q C K))
    (h : ∀ i ∈ l, i.op.name = "id" → ∀ Ψ, cden I i.op i.qs i.cs Ψ = Ψ) (Ψ : Amp (Wire Q C)) :
    crun I (l.filter fun i => i.op.name ≠ "id") Ψ = crun I l Ψ := by
  induction l generalizing Ψ with
  | nil => rfl
  | cons i r ih =>
    have ih' := ih (fun j hj => h j (by simp [hj]))
    by_cases hn : i.op.name = "id"
    · rw [List.filter_cons_of_neg (by simp [hn]), ih']
      simp only [crun]
      rw [h i (by simp) hn]
    · rw [List.filter_cons_of_pos (by simp [hn])]
      simp only [crun]
      rw [ih']

/-- commute_swaps does not change the effect of the circuit. -/
theorem commuteSwaps_sound (I : Interp Q C K) (data : List (CI Q C K))
    (hok : ∀ i ∈ data, CSOK I i) (hp : Private data) (Ψ : Amp (Wire Q C)) :
    crun I (commuteSwaps data) Ψ = crun I data Ψ := by
  have h0 : CSGood I ([] : List (CI Q C K)) ⟨[], fun _ => []⟩ :=
    ⟨⟨fun _ => List.Pairwise.nil, fun _ _ hk => by simp at hk, fun _ _ hk => by simp at hk⟩,
      fun _ => rfl, fun _ => rfl, fun _ hx => by simp at hx⟩
  have h := csFold_good data [] _ h0 hok (by simpa using hp)
  unfold commuteSwaps
  rw [crun_filter_id, h.sem]
  · rfl
  · intro i hi hn Φ
    rcases h.from_ i hi with ⟨e1, e2⟩ | ⟨y, hy, e1, e2, _⟩
    · rw [e1, e2]; exact cden_id I i Φ
    · rw [e1, e2]
      exact (hok y (by simpa using hy)).ident (e1 ▸ hn) _ _

end Verif.Circ
