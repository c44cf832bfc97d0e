import Verif.Iter.Demux

/-!
# Properties of shifts, permutations and quantum indexing

The contents of an array are a function of the position; `runP ps v` are the contents after the swaps `ps`. An iterable is
the list of the positions of its elements, without repetition.
-/

namespace Verif.Props

open Verif.Iter

variable {α : Type}

/-! ### C79: cyclic shift -/

/-- `cyclic_shift(iterable, k)` moves the element at place `t` to place `t + k`, cyclically, for every integer `k` and
every length, and touches nothing else. -/
theorem C79_cyclic_shift {idx : List ℕ} (hnd : idx.Nodup) (hN : idx ≠ []) (k : ℤ) : ∃ ps, cyclicShift idx k = some ps ∧
    ∀ (v : ℕ → α), (∀ t, t < idx.length → runP ps v (idx.getD (((t : ℤ) + k) % idx.length).toNat 0) = v (idx.getD t 0)) ∧
      ∀ q, q ∉ idx → runP ps v q = v q :=
  cyclicShift_spec hnd hN k

/-- The same for the version used while tracing. -/
theorem C79_cyclic_shift_tracing {idx : List ℕ} (hnd : idx.Nodup) (hN : idx ≠ []) (k : ℤ) (v : ℕ → α) :
    (∀ t, t < idx.length → runP (cyclicShiftJasp idx k) v (idx.getD (((t : ℤ) + k) % idx.length).toNat 0) =
      v (idx.getD t 0)) ∧ ∀ q, q ∉ idx → runP (cyclicShiftJasp idx k) v q = v q :=
  cyclicShiftJasp_spec hnd hN k v

/-- The two versions agree, and shifting back by `-k` undoes a shift. -/
theorem C79_shift_back {idx : List ℕ} (hnd : idx.Nodup) (hN : idx ≠ []) (k : ℤ) (v : ℕ → α) :
    runP (cyclicShiftJasp idx (-k)) (runP (cyclicShiftJasp idx k) v) = v ∧
    ∀ ps, cyclicShift idx k = some ps → runP ps v = runP (cyclicShiftJasp idx k) v := by
  have hpos : (0 : ℤ) < idx.length := by exact_mod_cast List.length_pos_iff.2 hN
  have hsurj : ∀ (k : ℤ) (p : ℕ), p < idx.length → ∃ t, t < idx.length ∧ (((t : ℤ) + k) % idx.length).toNat = p := by
    intro k p hp
    have a := Int.emod_nonneg ((p : ℤ) - k) hpos.ne'
    have b := Int.emod_lt_of_pos ((p : ℤ) - k) hpos
    refine ⟨(((p : ℤ) - k) % idx.length).toNat, by omega, ?_⟩
    rw [Int.toNat_of_nonneg a, Int.emod_add_emod, show (p : ℤ) - k + k = p by ring, Int.emod_eq_of_lt (by omega) (by omega)]
    rfl
  constructor
  · funext q
    by_cases hq : q ∈ idx
    · obtain ⟨p, hp, rfl⟩ := mem_getD hq
      obtain ⟨t, ht, he⟩ := hsurj (-k) p hp
      have h1 := (cyclicShiftJasp_spec hnd hN (-k) (runP (cyclicShiftJasp idx k) v)).1 t ht
      rw [he] at h1
      rw [h1]
      have h2 := (cyclicShiftJasp_spec hnd hN k v).1 p hp
      have e : (((p : ℤ) + k) % idx.length).toNat = t := by
        have a := Int.emod_nonneg ((t : ℤ) + -k) hpos.ne'
        have : (p : ℤ) = ((t : ℤ) + -k) % idx.length := by omega
        rw [this, Int.emod_add_emod, show (t : ℤ) + -k + k = t by ring, Int.emod_eq_of_lt (by omega) (by omega)]
        rfl
      rw [e] at h2
      exact h2
    · rw [(cyclicShiftJasp_spec hnd hN (-k) _).2 q hq, (cyclicShiftJasp_spec hnd hN k v).2 q hq]
  · intro ps hps
    obtain ⟨ps', h1, h2⟩ := cyclicShift_spec (α := α) hnd hN k
    rw [hps] at h1
    obtain rfl := Option.some.inj h1
    funext q
    by_cases hq : q ∈ idx
    · obtain ⟨p, hp, rfl⟩ := mem_getD hq
      obtain ⟨t, ht, he⟩ := hsurj k p hp
      have e1 := (h2 v).1 t ht
      have e2 := (cyclicShiftJasp_spec hnd hN k v).1 t ht
      rw [he] at e1 e2
      rw [e1, e2]
    · rw [(h2 v).2 q hq, (cyclicShiftJasp_spec hnd hN k v).2 q hq]

/-- An empty iterable: the classical version raises. -/
theorem C79_empty (k : ℤ) : cyclicShift [] k = none := rfl

/-! ### C80: permutation -/

/-- `permute_iterable(iterable, perm)`: afterwards place `i` holds the element that was at place `perm[i]`. -/
theorem C80_permute {idx perm : List ℕ} (hnd : idx.Nodup) (hlen : perm.length = idx.length)
    (hperm : perm.Perm (List.range perm.length)) (v : ℕ → α) :
    (∀ i, i < idx.length → runP (permuteIt idx perm) v (idx.getD i 0) = v (idx.getD (perm.getD i 0) 0)) ∧
    ∀ q, q ∉ idx → runP (permuteIt idx perm) v q = v q :=
  permuteIt_spec hnd hlen hperm v

/-! ### C81: demultiplexer -/

/-- `demux`: for an index smaller than the number of outputs, and at most as many outputs as index values, the output
at the index receives the input; nothing outside input and outputs changes. -/
theorem C81_demux_partial {permit : Bool} {inp : ℕ} {ctrl : List Bool} {out : List ℕ} (hnd : out.Nodup)
    (hin : inp ∉ out.tail) (hle : out.length ≤ 2 ^ ctrl.length) (hp : out.length = 2 ^ ctrl.length ∨ permit = true)
    (hi : bitsVal ctrl < out.length) : ∃ ps, demux permit inp ctrl out = some ps ∧ ∀ (v : ℕ → α),
      runP ps v (out.getD (bitsVal ctrl) 0) = v inp ∧ ∀ q, q ∉ out → q ≠ inp → runP ps v q = v q :=
  demux_spec hnd hin hle hp hi

/-- With `permit_mismatching_size` and more outputs than index values, the input arrives at the wrong output: index 1 of a
control register of two qubits with eight outputs leads to output 2. -/
theorem C81_more_outputs_fails : ¬ ∀ (inp : ℕ) (ctrl : List Bool) (out : List ℕ), out.Nodup → inp ∉ out.tail →
    bitsVal ctrl < out.length → ∃ ps, demux true inp ctrl out = some ps ∧ ∀ (v : ℕ → ℕ),
      runP ps v (out.getD (bitsVal ctrl) 0) = v inp := by
  intro H
  obtain ⟨ps, h1, h2⟩ := H 0 [true, false] (List.range 8) (by decide) (by decide) (by decide)
  have h3 : demux true 0 [true, false] (List.range 8) = some [(0, 2), (4, 6)] := by decide +kernel
  rw [h3] at h1
  obtain rfl := Option.some.inj h1
  exact absurd (h2 id) (by decide)

/-- Sizes that do not match are refused unless permitted. -/
theorem C81_mismatch_raises (inp : ℕ) (ctrl : List Bool) (out : List ℕ) (h : out.length ≠ 2 ^ ctrl.length) :
    demux false inp ctrl out = none := by
  unfold demux
  split
  · rfl
  · split
    · rfl
    · rw [if_pos ⟨h, rfl⟩]

/-! ### C82: quantum indexing of arrays -/

/-- Specification: row-major position of a multi-index, given pairs of dimension and index. -/
def rowMajor (l : List (ℕ × ℕ)) : ℕ := l.foldl (fun a d => a * d.1 + d.2) 0

/-- `array[i, j, ...]` with quantum indices of sizes matching the dimensions `2^n`: the place of the first entry holds the
entry at the row-major position of the indices. Undoing the swaps restores the array. -/
theorem C82_deref_partial {arr : List ℕ} (hnd : arr.Nodup) {index : List Ind}
    (hsz : arr.length = 2 ^ (index.map (·.bits.length)).sum) (hs : ∀ i ∈ index, i.signed = false ∧ i.exp = 0) :
    ∃ ps, derefTuple index.length arr index = some ps ∧ ∀ (v : ℕ → α),
      runP ps v (arr.getD 0 0) = v (arr.getD (rowMajor (index.map fun i => (2 ^ i.bits.length, bitsVal i.bits))) 0) ∧
      (∀ q, q ∉ arr → runP ps v q = v q) ∧ runP ps.reverse (runP ps v) = v := by
  have hlen : (index.reverse.flatMap (·.bits)).length = (index.map (·.bits.length)).sum := length_index index
  have hlt := bitsVal_lt (index.reverse.flatMap (·.bits))
  have hne : arr ≠ [] := List.length_pos_iff.1 (by rw [hsz]; positivity)
  have hin : arr.getD 0 0 ∉ arr.tail := by
    rcases arr with _ | ⟨a, l⟩
    · exact absurd rfl hne
    · exact (List.nodup_cons.1 hnd).1
  obtain ⟨ps, h1, h2⟩ := demux_spec (α := α) (permit := false) hnd hin (by rw [hlen, hsz]) (Or.inl (by rw [hlen, hsz]))
    (by rw [hsz, ← hlen]; exact hlt)
  refine ⟨ps.reverse, ?_, fun v => ⟨?_, fun q hq => ?_, ?_⟩⟩
  · unfold derefTuple
    have a1 : index.any (·.signed) = false := by
      rw [List.any_eq_false]; intro i hi; simp [(hs i hi).1]
    have a2 : index.any (fun i => i.exp != 0) = false := by
      rw [List.any_eq_false]; intro i hi; simp [(hs i hi).2]
    rw [if_neg (by simp), a1, a2, h1]
    rfl
  · have := (h2 (runP ps.reverse v)).1
    rw [runP_reverse, bitsVal_index] at this
    exact this.symm
  · have := (h2 (runP ps.reverse v)).2 q hq (fun e => hq (e ▸ getD_mem' (List.length_pos_iff.2 hne)))
    rw [runP_reverse] at this
    exact this.symm
  · rw [List.reverse_reverse, runP_reverse]

/-- Only the product of the sizes is checked: with an array of shape `(4, 2)` and indices of one and two qubits the entry
`[1, 0]` is read from row-major position 4, which is the entry `[2, 0]`. -/
theorem C82_shape_unchecked : ¬ ∀ (dims : List ℕ) (arr : List ℕ) (index : List Ind), arr.Nodup → arr.length = dims.prod →
    index.length = dims.length → (∀ i ∈ index, i.signed = false ∧ i.exp = 0) →
    (∀ p ∈ dims.zip index, bitsVal p.2.bits < p.1) → ∀ ps, derefTuple dims.length arr index = some ps →
    ∀ (v : ℕ → ℕ), runP ps v (arr.getD 0 0) =
      v (arr.getD (rowMajor (dims.zip (index.map fun i => bitsVal i.bits))) 0) := by
  intro H
  have h := H [4, 2] (List.range 8) [⟨[true], false, 0⟩, ⟨[false, false], false, 0⟩] (by decide) (by decide) (by decide)
    (by decide) (by decide) [(0, 4)] (by decide +kernel) id
  exact absurd h (by decide)

/-- Signed and non-integer indices are refused. -/
theorem C82_raises (n : ℕ) (arr : List ℕ) (index : List Ind) (h : ∃ i ∈ index, i.signed = true ∨ i.exp ≠ 0) :
    derefTuple n arr index = none := by
  unfold derefTuple
  split
  · rfl
  · obtain ⟨i, hi, h | h⟩ := h
    · rw [if_pos (by rw [List.any_eq_true]; exact ⟨i, hi, h⟩)]
    · split
      · rfl
      · rw [if_pos (by rw [List.any_eq_true]; exact ⟨i, hi, by simpa using h⟩)]

/-! ### Examples -/

/-- Shifting seven elements by one. -/
example : (cyclicShift (List.range 7) 1).map (fun ps => (List.range 7).map (runP ps id)) = some [6, 0, 1, 2, 3, 4, 5] := by
  decide +kernel

example : (cyclicShift (List.range 7) (-3)).map (fun ps => (List.range 7).map (runP ps id)) = some [3, 4, 5, 6, 0, 1, 2] := by
  decide +kernel

example : (List.range 5).map (runP (cyclicShiftJasp (List.range 5) (-2)) id) = [2, 3, 4, 0, 1] := by decide +kernel

/-- The example of the documentation of `permute_iterable`. -/
example : (List.range 8).map (runP (permuteIt (List.range 8) [1, 0, 3, 7, 5, 2, 6, 4]) id) = [1, 0, 3, 7, 5, 2, 6, 4] := by
  decide +kernel

/-- Index 4 with five outputs. -/
example : (demux true 9 [false, false, true] (List.range 5)).map (fun ps => runP ps id 4) = some 9 := by decide +kernel

/-- Entry `[1, 2]` of an array of shape `(2, 4)`. -/
example : (derefTuple 2 (List.range 8) [⟨[true], false, 0⟩, ⟨[false, true], false, 0⟩]).map (fun ps => runP ps id 0) =
    some 6 := by decide +kernel

end Verif.Props
