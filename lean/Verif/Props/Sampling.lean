import Verif.Samp.Lemmas
import Mathlib.Tactic.NormNum

/-!
# C151, C152: sampling

The specification is the loop over the shots: every shot has a list of measured integers, one for each returned variable, which is decoded.
-/

namespace Verif.Props
open Verif.Samp

/-- The shots that were drawn: `samples` are indices into the outcomes `mes`, given as lists of integers of registers of the sizes `sizes`. -/
structure Drawn (sizes : List ℕ) (outs : List Shot) (samples : List ℕ) : Prop where
  fits : ∀ o ∈ outs, FitsIn sizes o
  nodup : (outs.map (joinInts sizes)).Nodup
  index : ∀ s ∈ samples, s < outs.length

/-- The drawn shots. -/
def drawn (outs : List Shot) (samples : List ℕ) : List Shot := samples.map fun s => outs.getD s []

/-- The measured integer is split into the integers of the registers. -/
theorem sampling_split {sizes : List ℕ} {xs : Shot} (h : FitsIn sizes xs) : split sizes (joinInts sizes xs) = xs := split_join h

theorem drawn_split {sizes : List ℕ} {outs : List Shot} {samples : List ℕ} (h : Drawn sizes outs samples) :
    (samples.map fun s => (outs.map (joinInts sizes)).getD s 0).map (split sizes) = drawn outs samples := by
  rw [List.map_map, drawn]
  refine List.map_congr_left fun s hs => ?_
  have hl := h.index s hs
  rw [Function.comp_apply, List.getD_eq_getElem _ _ (by simpa using hl), List.getElem_map, List.getD_eq_getElem _ _ hl,
    split_join (h.fits _ (List.getElem_mem hl))]

theorem drawn_index {sizes : List ℕ} {outs : List Shot} {samples : List ℕ} (h : Drawn sizes outs samples) :
    ∀ s ∈ samples, s < (outs.map (joinInts sizes)).length := fun s hs => by simpa using h.index s hs

/-! ### C151: expectation values -/

/-- The simulator returns the mean of the loop, for every decoder and post-processor. -/
theorem sampling_ev {m : ℕ} (dec : Shot → Fin m → ℚ) {sizes : List ℕ} {outs : List Shot} {samples : List ℕ} (h : Drawn sizes outs samples) :
    termEv dec sizes (countDict (outs.map (joinInts sizes)) samples) samples.length = loopEv dec (drawn outs samples) := by
  have hl : (drawn outs samples).length = samples.length := by simp [drawn]
  rw [termEv, loopEv, hl, foldl_add, foldl_add, sum_expand (fun k => dec (split sizes k))]
  congr 2
  have hp := (expand_count h.nodup (drawn_index h)).map fun k => dec (split sizes k)
  rw [hp.sum_eq, ← drawn_split h, List.map_map, List.map_map, List.map_map]
  rfl

/-! ### C152: arrays and dictionaries of samples -/

/-- Different outcomes that were drawn have different values. -/
def Distinct {V : Type} (dec : Shot → V) (l : List Shot) : Prop := ∀ a ∈ l, ∀ b ∈ l, dec a = dec b → a = b

theorem drawn_keys {V : Type} {dec : Shot → V} {sizes : List ℕ} {outs : List Shot} {samples : List ℕ} (h : Drawn sizes outs samples)
    (hd : Distinct dec (drawn outs samples)) :
    let d := countDict (outs.map (joinInts sizes)) samples
    ∀ a ∈ d.map Prod.fst, ∀ b ∈ d.map Prod.fst, dec (split sizes a) = dec (split sizes b) → a = b := by
  intro d a ha b hb hab
  obtain ⟨x, hx, rfl⟩ := List.mem_map.mp ha
  obtain ⟨y, hy, rfl⟩ := List.mem_map.mp hb
  have mem : ∀ e ∈ d, split sizes e.1 ∈ drawn outs samples ∧ joinInts sizes (split sizes e.1) = e.1 := by
    intro e he
    have h1 := (count_mem h.nodup (drawn_index h) he).1
    refine ⟨by rw [← drawn_split h]; exact List.mem_map_of_mem h1, ?_⟩
    obtain ⟨s, hs, es⟩ := List.mem_map.mp h1
    have hl := h.index s hs
    rw [← es, List.getD_eq_getElem _ _ (by simpa using hl), List.getElem_map, split_join (h.fits _ (List.getElem_mem hl))]
  have := hd _ (mem x hx).1 _ (mem y hy).1 hab
  rw [← (mem x hx).2, ← (mem y hy).2, this]

/-- The array of the simulator has the results of the loop, in any order, if different outcomes have different values.  Missing (false of the
code): post-processors that give several outcomes the same value. -/
theorem sampling_array_partial {V : Type} [DecidableEq V] (dec : Shot → V) {sizes : List ℕ} {outs : List Shot} {samples : List ℕ}
    (h : Drawn sizes outs samples) (hd : Distinct dec (drawn outs samples)) :
    (termArray dec sizes (countDict (outs.map (joinInts sizes)) samples)).Perm (loopArray dec (drawn outs samples)) := by
  have hk := count_keys h.nodup (drawn_index h)
  rw [termArray, decoded_inj hk (drawn_keys h hd), loopArray]
  have e := expand_map (fun k => dec (split sizes k)) (countDict (outs.map (joinInts sizes)) samples)
  rw [expand] at e
  rw [e]
  have hp := (expand_count h.nodup (drawn_index h)).map fun k => dec (split sizes k)
  refine hp.trans (List.Perm.of_eq ?_)
  rw [← drawn_split h, List.map_map, List.map_map, List.map_map]
  rfl

/-- The dictionary has the number of shots of each value; the most frequent values come first, values with equal numbers in their order.  Missing
(false of the code): decoders that give several outcomes the same value. -/
theorem sampling_dict_partial {V : Type} [LinearOrder V] (dec : Shot → V) {sizes : List ℕ} {outs : List Shot} {samples : List ℕ}
    (h : Drawn sizes outs samples) (hd : Distinct dec (drawn outs samples)) :
    let r := termDict dec sizes (countDict (outs.map (joinInts sizes)) samples)
    (∀ v c, (v, c) ∈ r ↔ c ≠ 0 ∧ c = (loopArray dec (drawn outs samples)).count v) ∧
    r.Pairwise fun a b => b.2 < a.2 ∨ (a.2 = b.2 ∧ a.1 < b.1) := by
  intro r
  set d := countDict (outs.map (joinInts sizes)) samples with hdd
  have hk := count_keys h.nodup (drawn_index h)
  have hinj := drawn_keys h hd
  have e : decoded dec sizes d = d.map fun e => (dec (split sizes e.1), e.2) := decoded_inj hk hinj
  have hn : ((decoded dec sizes d).map Prod.fst).Nodup := by
    rw [e, List.map_map]
    have : (Prod.fst ∘ fun e : ℕ × ℕ => (dec (split sizes e.1), e.2)) = (fun k => dec (split sizes k)) ∘ Prod.fst := rfl
    rw [this, ← List.map_map]
    exact List.Nodup.map_on hinj hk
  refine ⟨fun v c => ?_, dict_sorted hn⟩
  have hm : (v, c) ∈ r ↔ (v, c) ∈ decoded dec sizes d := by
    show (v, c) ∈ termDict dec sizes d ↔ _
    rw [termDict, List.mem_insertionSort, List.mem_insertionSort]
  rw [hm]
  have hc : ∀ (l : List (V × ℕ)), (l.map Prod.fst).Nodup → (∀ e ∈ l, e.2 ≠ 0) → ∀ v c,
      (v, c) ∈ l ↔ c ≠ 0 ∧ c = (expand l).count v := by
    intro l
    induction l with
    | nil => intro _ _ v c; simp [expand]
    | cons x l ih =>
      intro hn h0 v c
      rw [List.map_cons, List.nodup_cons] at hn
      have ih := ih hn.2 (fun e he => h0 e (List.mem_cons_of_mem _ he)) v c
      have hx := h0 x (List.mem_cons_self ..)
      have ec : (expand (x :: l)).count v = (if x.1 = v then x.2 else 0) + (expand l).count v := by
        simp [expand, List.count_replicate]
      rw [ec, List.mem_cons]
      by_cases hv : x.1 = v
      · have h3 : (expand l).count v = 0 := by
          rw [List.count_eq_zero]
          intro hc
          rw [expand, List.mem_flatMap] at hc
          obtain ⟨y, hy, hy2⟩ := hc
          have := (List.mem_replicate.mp hy2).2
          exact hn.1 (List.mem_map.mpr ⟨y, hy, by rw [hv, this]⟩)
        have h4 : (v, c) ∉ l := fun hc => hn.1 (List.mem_map.mpr ⟨_, hc, hv.symm⟩)
        rw [if_pos hv, h3, Nat.add_zero]
        constructor
        · rintro (rfl | h)
          · exact ⟨hx, rfl⟩
          · exact absurd h h4
        · rintro ⟨_, rfl⟩
          exact Or.inl (by rw [← hv])
      · rw [if_neg hv, Nat.zero_add, ← ih]
        constructor
        · rintro (rfl | h)
          · exact absurd rfl hv
          · exact h
        · exact Or.inr
  have h0 : ∀ e ∈ decoded dec sizes d, e.2 ≠ 0 := by
    rw [e]
    intro x hx
    obtain ⟨y, hy, rfl⟩ := List.mem_map.mp hx
    exact (count_mem h.nodup (drawn_index h) hy).2
  rw [hc _ hn h0 v c]
  have := (sampling_array_partial dec h hd).count_eq v
  rw [termArray] at this
  rw [expand, this]

/-- Without shots the dictionary has the probabilities. -/
theorem sampling_probabilities_partial {V C : Type} [LinearOrder V] [LinearOrder C] (dec : Shot → V) {sizes : List ℕ} {outs : List Shot}
    {probs : List C} (hf : ∀ o ∈ outs, FitsIn sizes o) (hn : outs.Nodup) (hl : probs.length = outs.length) (hd : Distinct dec outs) (v : V) (c : C) :
    (v, c) ∈ termDict dec sizes (probDict (outs.map (joinInts sizes)) probs) ↔ ∃ o, (o, c) ∈ outs.zip probs ∧ v = dec o := by
  have hj : ∀ a ∈ outs, ∀ b ∈ outs, joinInts sizes a = joinInts sizes b → a = b := by
    intro a ha b hb hab
    rw [← split_join (hf a ha), ← split_join (hf b hb), hab]
  have ek : ((outs.map (joinInts sizes)).zip probs).map Prod.fst = outs.map (joinInts sizes) :=
    List.map_fst_zip (by simp [hl])
  have hk : (((outs.map (joinInts sizes)).zip probs).map Prod.fst).Nodup := by
    rw [ek]; exact List.Nodup.map_on hj hn
  have ed : decoded dec sizes (probDict (outs.map (joinInts sizes)) probs) =
      ((outs.map (joinInts sizes)).zip probs).map fun e => (dec (split sizes e.1), e.2) := by
    rw [probDict, fromList_nodup hk]
    refine decoded_inj hk ?_
    rw [ek]
    intro a ha b hb hab
    obtain ⟨x, hx, rfl⟩ := List.mem_map.mp ha
    obtain ⟨y, hy, rfl⟩ := List.mem_map.mp hb
    rw [split_join (hf x hx), split_join (hf y hy)] at hab
    rw [hd x hx y hy hab]
  rw [termDict, List.mem_insertionSort, List.mem_insertionSort, ed, List.zip_map_left, List.map_map, List.mem_map]
  constructor
  · rintro ⟨⟨o, p⟩, hm, he⟩
    simp only [Function.comp_apply, Prod.map_apply, id_eq, Prod.mk.injEq] at he
    refine ⟨o, by rw [← he.2]; exact hm, ?_⟩
    rw [← he.1, split_join (hf o (List.of_mem_zip hm).1)]
  · rintro ⟨o, hm, rfl⟩
    refine ⟨(o, c), hm, ?_⟩
    simp only [Function.comp_apply, Prod.map_apply, id_eq]
    rw [split_join (hf o (List.of_mem_zip hm).1)]

/-- Three shots of a register of two qubits with the results 2, 3, 2 and the post-processor that divides by 2: the array has a single entry, the loop
has three. -/
theorem sampling_array_wrong : ∃ (dec : Shot → ℕ) (sizes : List ℕ) (outs : List Shot) (samples : List ℕ), Drawn sizes outs samples ∧
    loopArray dec (drawn outs samples) = [1, 1, 1] ∧ termArray dec sizes (countDict (outs.map (joinInts sizes)) samples) = [1] := by
  refine ⟨fun s => s.getD 0 0 / 2, [2], [[2], [3]], [0, 1, 0], ⟨?_, ?_, ?_⟩, ?_, ?_⟩
  · intro o ho
    simp only [List.mem_cons, List.not_mem_nil, or_false] at ho
    rcases ho with rfl | rfl <;> simp [FitsIn]
  all_goals decide +kernel

/-- In the dictionary the number of shots is that of the last outcome with the value. -/
theorem sampling_dict_wrong : ∃ (dec : Shot → ℕ) (sizes : List ℕ) (outs : List Shot) (samples : List ℕ), Drawn sizes outs samples ∧
    (loopArray dec (drawn outs samples)).count 1 = 3 ∧ termDict dec sizes (countDict (outs.map (joinInts sizes)) samples) = [(1, 1)] := by
  refine ⟨fun s => s.getD 0 0 / 2, [2], [[2], [3]], [0, 1, 0], ⟨?_, ?_, ?_⟩, ?_, ?_⟩
  · intro o ho
    simp only [List.mem_cons, List.not_mem_nil, or_false] at ho
    rcases ho with rfl | rfl <;> simp [FitsIn]
  all_goals decide +kernel

/-- `sample` called from Python does not use the post-processor: whatever it is, the result is the same. -/
theorem sampling_post_ignored {U : Type} [LinearOrder U] (dec : Shot → U) (post : U → U) (sizes mes samples : List ℕ) :
    sampleCall false dec post sizes mes samples = sampleCall false dec id sizes mes samples := rfl

/-- So the values are wrong, already if the post-processor doubles the value of a single shot. -/
theorem sampling_post_wrong : sampleCall false (fun s => s.getD 0 0) (fun x => 2 * x) [2] [3] [0] = Res.dict [(3, 1)] ∧
    loopArray (fun s => 2 * s.getD 0 0) [[3]] = [6] := by
  decide +kernel

/-- With no shots there is a result only for dictionaries. -/
theorem sampling_no_shots {R : Type} (isDict : Bool) (shots : ℕ) (r : R) : evaluated isDict shots r = none ↔ isDict = false ∧ shots = 0 := by
  unfold evaluated
  cases isDict <;> rcases Nat.eq_zero_or_pos shots with h | h <;> simp [h, Nat.pos_iff_ne_zero.mp] <;> exact Nat.pos_iff_ne_zero.mp h

/-! ### Examples -/

/-- A float of two qubits and a truth value, entangled; five shots. -/
example : Drawn [2, 1] [[0, 0], [2, 1]] [1, 0, 1, 1, 0] ∧ Distinct (fun s => s) (drawn [[0, 0], [2, 1]] [1, 0, 1, 1, 0]) := by
  refine ⟨⟨?_, by decide +kernel, by decide +kernel⟩, fun a _ b _ h => h⟩
  intro o ho
  simp only [List.mem_cons, List.not_mem_nil, or_false] at ho
  rcases ho with rfl | rfl <;> simp [FitsIn]

example : termDict (fun s => s.getD 0 0 + 10 * s.getD 1 0) [2, 1] (countDict [0, 6] [1, 0, 1, 1, 0]) = [(12, 3), (0, 2)] := by decide +kernel

example : split [2, 1] 6 = [2, 1] := by decide +kernel

end Verif.Props
