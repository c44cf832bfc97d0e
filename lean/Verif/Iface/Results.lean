import Mathlib.Data.List.Basic
import Mathlib.Data.List.Nodup
import Mathlib.Data.List.Perm.Basic
import Mathlib.Data.List.Sort
import Mathlib.Data.Rat.Defs
import Mathlib.Algebra.Order.Ring.Rat
import Mathlib.Algebra.BigOperators.Group.List.Lemmas
import Mathlib.Algebra.Order.BigOperators.Group.List
import Mathlib.Tactic.Linarith
import Mathlib.Tactic.FieldSimp
import Mathlib.Tactic.Ring

/-!
Decoding of measurement results (src/qrisp/interface/measurement_result.py).

A dictionary is an association list with distinct keys in insertion order; weights are exact
rationals.
-/

namespace Verif.Iface

/-- A dictionary of weights. -/
abbrev Dict (κ : Type) := List (κ × ℚ)

variable {κ ℓ : Type} [DecidableEq κ] [DecidableEq ℓ]

/-- `d.get(k, 0)`. -/
def wget (d : Dict κ) (k : κ) : ℚ := (d.lookup k).getD 0

/-- `d[k] = v`: replaces in place or appends. -/
def wset (d : Dict κ) (k : κ) (v : ℚ) : Dict κ :=
  match d with
  | [] => [(k, v)]
  | p :: d => if p.1 = k then (k, v) :: d else p :: wset d k v

/-- `d[k] = d.get(k, 0) + v`. -/
def wadd (d : Dict κ) (k : κ) (v : ℚ) : Dict κ := wset d k (wget d k + v)

/-- `sorted(d.items(), key=lambda x: -x[1])`: stable, descending weight. -/
def sortDesc (d : Dict κ) : Dict κ := d.mergeSort fun a b => decide (b.2 ≤ a.2)

/-- `DecodedMeasurementResult._populate` (lines 342-353): `srt` is the `sorted(...items())`
enumeration of the raw dictionary. Comparing weights cannot raise `TypeError`. -/
def decoded (srt : Dict κ → Dict κ) (dec : κ → ℓ) (raw : Dict κ) : Dict ℓ :=
  sortDesc ((srt raw).foldl (fun d p => wadd d (dec p.1) p.2) [])

/-- `int(s, 2)` for strings of the characters 0 and 1; `none` = ValueError (in particular for the
empty string). Other notations accepted by Python are not modelled. -/
def parse2 (s : List Char) : Option Nat :=
  if s.isEmpty || !(s.all fun c => c == '0' || c == '1') then none
  else some (s.foldl (fun n c => 2 * n + (if c = '1' then 1 else 0)) 0)

/-- The key of a bitstring (lines 465-466). -/
def intKey (n : Nat) (bits : List Char) : Option Nat :=
  parse2 ((bits.filter (· != ' ')).take n)

/-- The summation loop (lines 462-468). -/
def intLoop (n : Nat) : Dict (List Char) → Dict Nat × ℚ → Option (Dict Nat × ℚ)
  | [], st => some st
  | (bits, c) :: raw, (d, tot) =>
    match intKey n bits with
    | none => none
    | some k => intLoop n raw (wadd d k c, tot + c)

/-- `_IntKeyedResult._populate` (lines 458-472). -/
def intKeyed (n : Nat) (raw : Dict (List Char)) : Option (Dict Nat) :=
  match intLoop n raw ([], 0) with
  | none => none
  | some (d, tot) =>
    if 0 < tot ∧ 1 / 1000 < |1 - tot| then some (d.map fun p => (p.1, p.2 / |tot|)) else some d

/-- The integers of the slices of a bitstring for registers of the given lengths (lines 409-418). -/
def sliceInts : List Nat → List Char → Option (List Nat)
  | [], _ => some []
  | n :: ns, bits =>
    match parse2 (bits.take n), sliceInts ns (bits.drop n) with
    | some k, some ks => some (k :: ks)
    | _, _ => none

/-- The label tuple of a bitstring (lines 409-430); `regs` are the lengths of `cl_reg_list[::-1]`. -/
def multiKey (regs : List Nat) (decs : List (Nat → ℓ)) (bits : List Char) : Option (List ℓ) :=
  (sliceInts regs bits).map fun ks => List.zipWith (fun f k => f k) decs ks

/-- Loop of `MultiMeasurementResult._populate` (lines 407-436). The assignment overwrites. -/
def multiLoop (regs : List Nat) (decs : List (Nat → ℓ)) (tot : ℚ) :
    Dict (List Char) → Dict (List ℓ) → Option (Dict (List ℓ))
  | [], d => some d
  | (bits, c) :: raw, d =>
    match multiKey regs decs bits with
    | none => none
    | some k => if tot = 0 then none else multiLoop regs decs tot raw (wset d k (c / tot))

/-- Sum of the weights. -/
def total (d : Dict κ) : ℚ := (d.map Prod.snd).sum

/-- `MultiMeasurementResult._populate` (lines 386-440); division by a zero total raises. -/
def multi (srt : Dict (List Char) → Dict (List Char)) (regs : List Nat) (decs : List (Nat → ℓ))
    (raw : Dict (List Char)) : Option (Dict (List ℓ)) :=
  (multiLoop regs decs (total raw) (srt raw) []).map sortDesc

/-! ### Lemmas -/

/-- Weight of all items whose key satisfies a predicate. -/
def weight (P : κ → Prop) [DecidablePred P] (d : Dict κ) : ℚ :=
  ((d.filter fun p => decide (P p.1)).map Prod.snd).sum

theorem wget_nil (k : κ) : wget ([] : Dict κ) k = 0 := rfl

theorem wget_cons (p : κ × ℚ) (d : Dict κ) (k : κ) :
    wget (p :: d) k = if k = p.1 then p.2 else wget d k := by
  rcases p with ⟨a, v⟩
  rw [wget, List.lookup_cons]
  by_cases h : k = a
  · subst h; simp
  · have hb : (k == a) = false := by simpa using h
    rw [hb, if_neg h]; rfl

theorem wget_wset (d : Dict κ) (k : κ) (v : ℚ) (j : κ) :
    wget (wset d k v) j = if j = k then v else wget d j := by
  induction d with
  | nil => rw [wset, wget_cons]
  | cons p d ih =>
    rw [wset]
    split
    · next h =>
      rw [wget_cons, wget_cons, h]
      by_cases hj : j = k <;> simp [hj]
    · next h =>
      rw [wget_cons, ih, wget_cons]
      by_cases hj : j = p.1
      · rw [if_pos hj, if_pos hj, if_neg (hj ▸ h)]
      · rw [if_neg hj, if_neg hj]

theorem keys_wset (d : Dict κ) (k : κ) (v : ℚ) :
    (wset d k v).map Prod.fst = if k ∈ d.map Prod.fst then d.map Prod.fst
      else d.map Prod.fst ++ [k] := by
  induction d with
  | nil => simp [wset]
  | cons p d ih =>
    rw [wset]
    by_cases h : p.1 = k
    · rw [if_pos h, if_pos (by simp [h])]; simp [h]
    · rw [if_neg h, List.map_cons, ih]
      by_cases h2 : k ∈ d.map Prod.fst
      · rw [if_pos h2, if_pos (by rw [List.map_cons]; exact List.mem_cons_of_mem _ h2)]
        rfl
      · rw [if_neg h2, if_neg (by
          rw [List.map_cons, List.mem_cons]; rintro (e | e)
          · exact h e.symm
          · exact h2 e)]
        rfl

theorem nodup_wset {d : Dict κ} (h : (d.map Prod.fst).Nodup) (k : κ) (v : ℚ) :
    ((wset d k v).map Prod.fst).Nodup := by
  rw [keys_wset]
  split
  · exact h
  · next hk =>
    rw [List.nodup_append]
    refine ⟨h, by simp, ?_⟩
    intro a ha b hb e
    rw [List.mem_singleton.1 hb] at e
    exact hk (e ▸ ha)

theorem weight_cons (P : κ → Prop) [DecidablePred P] (p : κ × ℚ) (d : Dict κ) :
    weight P (p :: d) = (if P p.1 then p.2 else 0) + weight P d := by
  rw [weight, List.filter_cons]
  by_cases h : P p.1 <;> simp [h, weight]

theorem weight_perm (P : κ → Prop) [DecidablePred P] {d e : Dict κ} (h : d.Perm e) :
    weight P d = weight P e :=
  ((h.filter _).map _).sum_eq

theorem total_perm {d e : Dict κ} (h : d.Perm e) : total d = total e := (h.map _).sum_eq

theorem total_cons (p : κ × ℚ) (d : Dict κ) : total (p :: d) = p.2 + total d := by
  simp [total]

theorem wget_fold (dec : κ → ℓ) (raw : Dict κ) (d : Dict ℓ) (l : ℓ) :
    wget (raw.foldl (fun d p => wadd d (dec p.1) p.2) d) l =
      wget d l + weight (fun k => dec k = l) raw := by
  induction raw generalizing d with
  | nil => simp [weight]
  | cons p raw ih =>
    rw [List.foldl_cons, ih, wadd, wget_wset, weight_cons]
    by_cases h : l = dec p.1
    · rw [if_pos h, if_pos h.symm, h]; ring
    · rw [if_neg h, if_neg (Ne.symm h)]; ring

theorem total_wset {d : Dict κ} (k : κ) (v : ℚ) :
    total (wset d k v) = total d - wget d k + v := by
  induction d with
  | nil => simp [wset, total, wget]
  | cons p d ih =>
    rw [wset, wget_cons, total_cons]
    by_cases h : p.1 = k
    · rw [if_pos h, if_pos h.symm, total_cons]; ring
    · rw [if_neg h, if_neg (Ne.symm h), total_cons, ih]; ring

theorem total_fold (dec : κ → ℓ) (raw : Dict κ) (d : Dict ℓ) :
    total (raw.foldl (fun d p => wadd d (dec p.1) p.2) d) = total d + total raw := by
  induction raw generalizing d with
  | nil => simp [total]
  | cons p raw ih =>
    rw [List.foldl_cons, ih, wadd, total_wset, total_cons]; ring

theorem nodup_fold (dec : κ → ℓ) (raw : Dict κ) (d : Dict ℓ) (h : (d.map Prod.fst).Nodup) :
    ((raw.foldl (fun d p => wadd d (dec p.1) p.2) d).map Prod.fst).Nodup := by
  induction raw generalizing d with
  | nil => exact h
  | cons p raw ih => exact ih _ (nodup_wset h _ _)

theorem sortDesc_perm (d : Dict κ) : (sortDesc d).Perm d := List.mergeSort_perm _ _

theorem sortDesc_sorted (d : Dict κ) : (sortDesc d).Pairwise fun a b => b.2 ≤ a.2 := by
  have := List.pairwise_mergeSort (le := fun a b : κ × ℚ => decide (b.2 ≤ a.2))
    (by intro a b c; simp only [decide_eq_true_eq]; intro h1 h2; exact le_trans h2 h1)
    (by intro a b; simp only [Bool.or_eq_true, decide_eq_true_eq]; exact le_total _ _) d
  exact this.imp (by intro a b; simp)

theorem wget_of_mem {d : Dict κ} (h : (d.map Prod.fst).Nodup) {k : κ} {v : ℚ} (hm : (k, v) ∈ d) :
    wget d k = v := by
  induction d with
  | nil => cases hm
  | cons p d ih =>
    rw [List.map_cons, List.nodup_cons] at h
    rw [wget_cons]
    rcases List.mem_cons.1 hm with rfl | hm
    · simp
    · rw [if_neg, ih h.2 hm]
      rintro rfl
      exact h.1 (List.mem_map.2 ⟨_, hm, rfl⟩)

theorem wget_notin {d : Dict κ} {k : κ} (h : k ∉ d.map Prod.fst) : wget d k = 0 := by
  induction d with
  | nil => rfl
  | cons p d ih =>
    rw [List.map_cons, List.mem_cons, not_or] at h
    rw [wget_cons, if_neg h.1, ih h.2]

theorem wget_perm {d e : Dict κ} (h : d.Perm e) (hd : (d.map Prod.fst).Nodup) (k : κ) :
    wget d k = wget e k := by
  have he : (e.map Prod.fst).Nodup := (h.map _).nodup_iff.1 hd
  by_cases hk : k ∈ d.map Prod.fst
  · obtain ⟨⟨a, v⟩, hp, rfl⟩ := List.mem_map.1 hk
    rw [wget_of_mem hd hp, wget_of_mem he (h.mem_iff.1 hp)]
  · rw [wget_notin hk, wget_notin fun h2 => hk ((h.map Prod.fst).mem_iff.2 h2)]

theorem intLoop_spec (n : Nat) (raw : Dict (List Char)) (d : Dict Nat) (t : ℚ) (e : Dict Nat)
    (u : ℚ) (h : intLoop n raw (d, t) = some (e, u)) :
    u = t + total raw ∧ total e = total d + total raw ∧
    (∀ k, wget e k = wget d k + weight (fun b => intKey n b = some k) raw) ∧
    ((d.map Prod.fst).Nodup → (e.map Prod.fst).Nodup) := by
  induction raw generalizing d t with
  | nil =>
    rw [intLoop] at h
    cases h
    simp [total, weight]
  | cons p raw ih =>
    obtain ⟨b, c⟩ := p
    rw [intLoop] at h
    cases hk : intKey n b with
    | none => rw [hk] at h; cases h
    | some k =>
      rw [hk] at h
      obtain ⟨h1, h2, h3, h4⟩ := ih _ _ h
      refine ⟨?_, ?_, ?_, fun hd => h4 (nodup_wset hd _ _)⟩
      · rw [h1, total_cons]; ring
      · rw [h2, wadd, total_wset, total_cons]; ring
      · intro j
        rw [h3, wadd, wget_wset, weight_cons]
        simp only [hk, Option.some.injEq]
        by_cases hj : j = k
        · rw [if_pos hj, if_pos hj.symm, hj]; ring
        · rw [if_neg hj, if_neg (Ne.symm hj)]; ring

theorem wget_scale (d : Dict κ) (t : ℚ) (k : κ) :
    wget (d.map fun p => (p.1, p.2 / t)) k = wget d k / t := by
  induction d with
  | nil => simp [wget]
  | cons p d ih =>
    rw [List.map_cons, wget_cons, wget_cons, ih]
    split <;> rfl

theorem total_scale (d : Dict κ) (t : ℚ) : total (d.map fun p => (p.1, p.2 / t)) = total d / t := by
  induction d with
  | nil => simp [total]
  | cons p d ih => rw [List.map_cons, total_cons, total_cons, ih]; ring

theorem multiLoop_spec (regs : List Nat) (decs : List (Nat → ℓ)) (t : ℚ)
    (raw : Dict (List Char)) (d e : Dict (List ℓ))
    (h : multiLoop regs decs t raw d = some e) (hd : (d.map Prod.fst).Nodup)
    (hinj : raw.Pairwise fun p q => multiKey regs decs p.1 ≠ multiKey regs decs q.1)
    (hfresh : ∀ p ∈ raw, ∀ k, multiKey regs decs p.1 = some k → k ∉ d.map Prod.fst) :
    (∀ k, wget e k = wget d k + weight (fun b => multiKey regs decs b = some k) raw / t) ∧
    total e = total d + total raw / t ∧ (e.map Prod.fst).Nodup := by
  induction raw generalizing d with
  | nil =>
    rw [multiLoop] at h; cases h
    simp [weight, total, hd]
  | cons p raw ih =>
    obtain ⟨b, c⟩ := p
    rw [multiLoop] at h
    rw [List.pairwise_cons] at hinj
    cases hk : multiKey regs decs b with
    | none => rw [hk] at h; cases h
    | some k =>
      rw [hk] at h
      simp only at h
      split at h
      · cases h
      next ht =>
      have hkd := hfresh _ List.mem_cons_self k hk
      obtain ⟨h1, h2, h3⟩ := ih _ h (nodup_wset hd _ _) hinj.2 (by
        intro p hp j hj hm
        rw [keys_wset, if_neg hkd, List.mem_append, List.mem_singleton] at hm
        rcases hm with hm | hm
        · exact hfresh p (List.mem_cons_of_mem _ hp) j hj hm
        · exact hinj.1 p hp (by rw [hk, hj, hm]))
      refine ⟨?_, ?_, h3⟩
      · intro j
        rw [h1, wget_wset, weight_cons]
        simp only [hk, Option.some.injEq]
        by_cases hj : j = k
        · rw [if_pos hj, if_pos hj.symm, hj, wget_notin hkd]; ring
        · rw [if_neg hj, if_neg (Ne.symm hj)]; ring
      · rw [h2, total_wset, wget_notin hkd, total_cons]; ring

/-- Bitstrings over 0 and 1. -/
def Bits (b : List Char) : Prop := ∀ c ∈ b, c = '0' ∨ c = '1'

theorem fold_inj (a b : List Char) (ha : Bits a) (hb : Bits b) (hl : a.length = b.length) (m n : Nat)
    (h : a.foldl (fun n c => 2 * n + (if c = '1' then 1 else 0)) m =
      b.foldl (fun n c => 2 * n + (if c = '1' then 1 else 0)) n) : m = n ∧ a = b := by
  induction a generalizing b m n with
  | nil =>
    cases b with
    | nil => exact ⟨h, rfl⟩
    | cons => simp at hl
  | cons x a ih =>
    cases b with
    | nil => simp at hl
    | cons y b =>
      rw [List.foldl_cons, List.foldl_cons] at h
      obtain ⟨h1, h2⟩ := ih b (fun c hc => ha c (List.mem_cons_of_mem _ hc))
        (fun c hc => hb c (List.mem_cons_of_mem _ hc)) (by simpa using hl) _ _ h
      have hx := ha x List.mem_cons_self
      have hy := hb y List.mem_cons_self
      rcases hx with rfl | rfl <;> rcases hy with rfl | rfl <;> simp at h1 <;>
        first
          | (exfalso; omega)
          | exact ⟨by omega, by rw [h2]⟩

theorem parse2_inj {a b : List Char} (ha : Bits a) (hb : Bits b) (hl : a.length = b.length) {k : Nat}
    (h1 : parse2 a = some k) (h2 : parse2 b = some k) : a = b := by
  unfold parse2 at h1 h2
  split at h1
  · cases h1
  split at h2
  · cases h2
  exact (fold_inj a b ha hb hl 0 0 ((Option.some.inj h1).trans (Option.some.inj h2).symm)).2

theorem sliceInts_inj {regs : List Nat} {a b : List Char} (ha : Bits a) (hb : Bits b)
    (hla : a.length = regs.sum) (hlb : b.length = regs.sum) {ks : List Nat}
    (h1 : sliceInts regs a = some ks) (h2 : sliceInts regs b = some ks) : a = b := by
  induction regs generalizing a b ks with
  | nil =>
    rw [List.sum_nil, List.length_eq_zero_iff] at hla hlb
    rw [hla, hlb]
  | cons n regs ih =>
    rw [sliceInts] at h1 h2
    rw [List.sum_cons] at hla hlb
    split at h1
    swap; · cases h1
    next k ks' p1 q1 =>
    cases h1
    split at h2
    swap; · cases h2
    next k2 ks2 p2 q2 =>
    cases h2
    have e1 := parse2_inj (fun c hc => ha c (List.mem_of_mem_take hc))
      (fun c hc => hb c (List.mem_of_mem_take hc))
      (by rw [List.length_take, List.length_take, hla, hlb]) p1 p2
    have e2 := ih (fun c hc => ha c (List.mem_of_mem_drop hc))
      (fun c hc => hb c (List.mem_of_mem_drop hc)) (by rw [List.length_drop]; omega)
      (by rw [List.length_drop]; omega) q1 q2
    rw [← List.take_append_drop n a, ← List.take_append_drop n b, e1, e2]

theorem sliceInts_length {regs : List Nat} {a : List Char} {ks : List Nat}
    (h : sliceInts regs a = some ks) : ks.length = regs.length := by
  induction regs generalizing a ks with
  | nil => rw [sliceInts] at h; cases h; rfl
  | cons n regs ih =>
    rw [sliceInts] at h
    split at h
    · next k ks' p q => cases h; simp [ih q]
    · cases h

theorem zipWith_inj {decs : List (Nat → ℓ)} (hd : ∀ f ∈ decs, Function.Injective f)
    {a b : List Nat} (ha : a.length = decs.length) (hb : b.length = decs.length)
    (h : List.zipWith (fun f k => f k) decs a = List.zipWith (fun f k => f k) decs b) : a = b := by
  induction decs generalizing a b with
  | nil =>
    rw [List.length_nil, List.length_eq_zero_iff] at ha hb
    rw [ha, hb]
  | cons f decs ih =>
    cases a with
    | nil => simp at ha
    | cons x a =>
      cases b with
      | nil => simp at hb
      | cons y b =>
        simp only [List.zipWith_cons_cons, List.cons.injEq] at h
        rw [hd f List.mem_cons_self h.1, ih (fun g hg => hd g (List.mem_cons_of_mem _ hg))
          (by simpa using ha) (by simpa using hb) h.2]

/-- With injective decoders and bitstrings of exactly the registers' total length, different
bitstrings have different label tuples. -/
theorem multiKey_inj {regs : List Nat} {decs : List (Nat → ℓ)} (hl : decs.length = regs.length)
    (hd : ∀ f ∈ decs, Function.Injective f) {a b : List Char} (ha : Bits a) (hb : Bits b)
    (hla : a.length = regs.sum) (hlb : b.length = regs.sum) {k : List ℓ}
    (h1 : multiKey regs decs a = some k) (h2 : multiKey regs decs b = some k) : a = b := by
  unfold multiKey at h1 h2
  rw [Option.map_eq_some_iff] at h1 h2
  obtain ⟨x, p1, q1⟩ := h1
  obtain ⟨y, p2, q2⟩ := h2
  have := zipWith_inj hd (by rw [sliceInts_length p1, hl]) (by rw [sliceInts_length p2, hl])
    (q1.trans q2.symm)
  subst this
  exact sliceInts_inj ha hb hla hlb p1 p2

end Verif.Iface
