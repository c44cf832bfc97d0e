import Verif.Circ.Gray
import Mathlib.Data.List.Chain

/-!
The traversal sequences of `gray_synthesis.py` are walks flipping one bit per step.
-/

namespace Verif.Circ

/-- `b` differs from `a` in one bit, at a position below `m`. -/
def Adj (m a b : Nat) : Prop := ∃ c < m, b = a ^^^ 2 ^ c

theorem Adj.symm {m a b : Nat} (h : Adj m a b) : Adj m b a := by
  obtain ⟨c, hc, rfl⟩ := h
  exact ⟨c, hc, by rw [Nat.xor_assoc, Nat.xor_self, Nat.xor_zero]⟩

theorem xor_lt {m a c : Nat} (ha : a < 2 ^ m) (hc : c < m) : a ^^^ 2 ^ c < 2 ^ m :=
  Nat.xor_lt_two_pow ha (Nat.pow_lt_pow_right (by omega) hc)

theorem add_two_pow_eq_xor {n w : Nat} (h : w < 2 ^ n) : 2 ^ n + w = w ^^^ 2 ^ n := by
  apply Nat.eq_of_testBit_eq
  intro i
  rw [Nat.testBit_xor]
  rcases Nat.lt_trichotomy i n with hi | hi | hi
  · rw [Nat.testBit_two_pow_add_gt hi, Nat.testBit_two_pow_of_ne (by omega)]; simp
  · subst hi
    rw [testBit_high h, Nat.testBit_lt_two_pow h, Nat.testBit_two_pow_self]; rfl
  · have h1 : 2 ^ n + w < 2 ^ i := by
      have : 2 ^ (n + 1) ≤ 2 ^ i := Nat.pow_le_pow_right (by omega) hi
      rw [Nat.pow_succ] at this; omega
    rw [Nat.testBit_lt_two_pow h1, Nat.testBit_lt_two_pow (by omega),
      Nat.testBit_two_pow_of_ne (by omega)]; rfl

theorem lowDiff_flip {n a c : Nat} (hc : c < n) : lowDiff n a (a ^^^ 2 ^ c) = c := by
  unfold lowDiff
  have : (List.range n).find? (fun k => a.testBit k != (a ^^^ 2 ^ c).testBit k) = some c := by
    rw [List.find?_range_eq_some]
    refine ⟨?_, by simpa using hc, fun j hj => ?_⟩
    · rw [Nat.testBit_xor, Nat.testBit_two_pow_self]; cases a.testBit c <;> rfl
    · rw [Nat.testBit_xor, Nat.testBit_two_pow_of_ne (by omega)]; cases a.testBit j <;> rfl
  rw [this]; rfl

theorem topDiff_some {n a b k : Nat} (h : topDiff n a b = some k) :
    k < n ∧ a.testBit k ≠ b.testBit k ∧ ∀ j, k < j → j < n → a.testBit j = b.testBit j := by
  induction n with
  | zero => simp [topDiff] at h
  | succ n ih =>
    simp only [topDiff] at h
    split at h
    · next hd =>
      obtain rfl := Option.some.inj h
      exact ⟨by omega, hd, fun j h1 h2 => by omega⟩
    · next hd =>
      obtain ⟨h1, h2, h3⟩ := ih h
      refine ⟨by omega, h2, fun j hj hj' => ?_⟩
      rcases Nat.lt_succ_iff_lt_or_eq.1 hj' with h' | h'
      · exact h3 j hj h'
      · subst h'; exact not_not.1 hd

theorem topDiff_none {n a b : Nat} (h : topDiff n a b = none) :
    ∀ j < n, a.testBit j = b.testBit j := by
  induction n with
  | zero => intro j hj; omega
  | succ n ih =>
    simp only [topDiff] at h
    split at h
    · simp at h
    · next hd =>
      intro j hj
      rcases Nat.lt_succ_iff_lt_or_eq.1 hj with h' | h'
      · exact ih h j h'
      · subst h'; exact not_not.1 hd

theorem eq_of_low {m a b : Nat} (ha : a < 2 ^ m) (hb : b < 2 ^ m)
    (h : ∀ j < m, a.testBit j = b.testBit j) : a = b := by
  apply Nat.eq_of_testBit_eq
  intro i
  rcases Nat.lt_or_ge i m with hi | hi
  · exact h i hi
  · have : 2 ^ m ≤ 2 ^ i := Nat.pow_le_pow_right (by omega) hi
    rw [Nat.testBit_lt_two_pow (by omega), Nat.testBit_lt_two_pow (by omega)]

/-- A walk from `h` with values below `2 ^ m`. -/
structure Walk (m h : Nat) (s : List Nat) : Prop where
  head : s.head? = some h
  chain : s.IsChain (Adj m)
  lt : ∀ x ∈ s, x < 2 ^ m

theorem hamMove_spec {bit m : Nat} (hm : m ≤ bit) (f a b : Nat)
    (hf : ∀ k, topDiff bit a b = some k → k < f) (ha : a < 2 ^ m) (hb : b < 2 ^ m) :
    Walk m a (a :: hamMove f bit a b) ∧ (a :: hamMove f bit a b).getLast? = some b := by
  induction f generalizing a with
  | zero =>
    have : topDiff bit a b = none := by
      cases h : topDiff bit a b with
      | none => rfl
      | some k => exact absurd (hf k h) (by omega)
    have e := eq_of_low ha hb fun j hj => topDiff_none this j (by omega)
    subst e
    exact ⟨⟨rfl, by simp [hamMove], by simpa [hamMove] using ha⟩, by simp [hamMove]⟩
  | succ f ih =>
    unfold hamMove
    cases h : topDiff bit a b with
    | none =>
      have e := eq_of_low ha hb fun j hj => topDiff_none h j (by omega)
      subst e
      exact ⟨⟨rfl, by simp, by simpa using ha⟩, by simp⟩
    | some k =>
      obtain ⟨h1, h2, h3⟩ := topDiff_some h
      have hkm : k < m := by
        by_contra hk
        have : 2 ^ m ≤ 2 ^ k := Nat.pow_le_pow_right (by omega) (by omega)
        exact h2 (by rw [Nat.testBit_lt_two_pow (by omega), Nat.testBit_lt_two_pow (by omega)])
      have hf' : ∀ k', topDiff bit (a ^^^ 2 ^ k) b = some k' → k' < f := by
        intro k' hk'
        obtain ⟨g1, g2, g3⟩ := topDiff_some hk'
        have hkf := hf k h
        by_contra hlt
        have : k ≤ k' := by omega
        rcases Nat.eq_or_lt_of_le this with e | e
        · subst e
          rw [Nat.testBit_xor, Nat.testBit_two_pow_self] at g2
          cases ha : a.testBit k <;> cases hb : b.testBit k <;> simp_all
        · rw [Nat.testBit_xor, Nat.testBit_two_pow_of_ne (by omega), Bool.xor_false] at g2
          exact g2 (h3 k' e g1)
      obtain ⟨w, hl⟩ := ih (a ^^^ 2 ^ k) hf' (xor_lt ha hkm)
      simp only
      refine ⟨⟨rfl, ?_, ?_⟩, ?_⟩
      · rw [List.isChain_cons_cons]; exact ⟨⟨k, hkm, rfl⟩, w.chain⟩
      · intro x hx
        rcases List.mem_cons.1 hx with h | h
        · exact h ▸ ha
        · exact w.lt x h
      · rw [List.getLast?_cons_cons]; exact hl

theorem topDiff_lt {bit a b k : Nat} (h : topDiff bit a b = some k) : k < bit := (topDiff_some h).1

theorem getLastD_append_single (u : List Nat) (e : Nat) : (u ++ [e]).getLastD 0 = e := by
  simp [List.getLastD_eq_getLast?]

/-- Extending a walk by a movement. -/
theorem Walk.extend {bit m h : Nat} (hm : m ≤ bit) {s : List Nat} (w : Walk m h s) {tgt : Nat}
    (ht : tgt < 2 ^ m) : ∃ u, s ++ hamMove bit bit (s.getLastD 0) tgt = u ++ [tgt] ∧
      Walk m h (u ++ [tgt]) ∧ ∀ x ∈ s, x ∈ u ++ [tgt] := by
  obtain ⟨v, e, rfl⟩ : ∃ v e, s = v ++ [e] := by
    have hne : s ≠ [] := by
      rintro rfl; have := w.head; simp at this
    exact ⟨s.dropLast, s.getLast hne, (List.dropLast_append_getLast hne).symm⟩
  rw [getLastD_append_single]
  have he : e < 2 ^ m := w.lt e (by simp)
  obtain ⟨w2, hl⟩ := hamMove_spec hm bit e tgt (fun k => topDiff_lt) he ht
  have hne : (e :: hamMove bit bit e tgt) ≠ [] := by simp
  have hd := List.dropLast_append_getLast hne
  have hg : (e :: hamMove bit bit e tgt).getLast hne = tgt := by
    rw [List.getLast?_eq_some_getLast hne] at hl
    exact Option.some.inj hl
  rw [hg] at hd
  have hs : v ++ [e] ++ hamMove bit bit e tgt = v ++ (e :: hamMove bit bit e tgt) := by simp
  have hw : Walk m h (v ++ [e] ++ hamMove bit bit e tgt) := by
    refine ⟨?_, ?_, ?_⟩
    · have := w.head
      cases v with
      | nil => simpa using this
      | cons a v => simpa using this
    · rw [hs, List.isChain_split]
      exact ⟨w.chain, w2.chain⟩
    · intro x hx
      rcases List.mem_append.1 hx with h | h
      · exact w.lt x h
      · exact w2.lt x (by simp [h])
  refine ⟨v ++ (e :: hamMove bit bit e tgt).dropLast, ?_, ?_, ?_⟩
  · rw [hs, List.append_assoc, hd]
  · rw [List.append_assoc, hd, ← hs]; exact hw
  · intro x hx
    rw [List.append_assoc, hd, ← hs]
    exact List.mem_append_left _ hx

theorem nearest_lt (bit cur : Nat) (loc : List Nat) (h : loc ≠ []) : nearest bit cur loc < loc.length := by
  unfold nearest
  simp only
  have hpos : 0 < loc.length := List.length_pos_iff.2 h
  cases hf : loc.findIdx? (fun x => hammingD bit cur x == ((loc.map (hammingD bit cur)).min?).getD 0) with
  | none => simpa [hf] using hpos
  | some i =>
    simp only [Option.getD_some]
    rw [List.findIdx?_eq_some_iff_getElem] at hf
    exact hf.1

theorem mem_or_erase {loc : List Nat} {i : Nat} (x : Nat) (hx : x ∈ loc) :
    x = loc.getD i 0 ∨ x ∈ loc.eraseIdx i := by
  obtain ⟨j, hj, rfl⟩ := List.getElem_of_mem hx
  by_cases h : j = i
  · subst h; left; simp [List.getD_eq_getElem?_getD, hj]
  · right
    rw [List.mem_eraseIdx_iff_getElem?]
    exact ⟨j, h, by simp [hj]⟩

theorem getD_mem {loc : List Nat} {i : Nat} (hi : i < loc.length) : loc.getD i 0 ∈ loc := by
  simp [List.getD_eq_getElem?_getD, hi]

theorem mem_of_eraseIdx {loc : List Nat} {i x : Nat} (h : x ∈ loc.eraseIdx i) : x ∈ loc :=
  List.mem_of_mem_eraseIdx h

theorem tspLoop_spec {bit m h1 h2 : Nat} (hm : m ≤ bit) (f : Nat) (loc s1 s2 : List Nat)
    (hf : loc.length ≤ f) (hloc : ∀ x ∈ loc, x < 2 ^ m) (w1 : Walk m h1 s1) (w2 : Walk m h2 s2) :
    Walk m h1 (tspLoop bit f loc s1 s2).1 ∧ Walk m h2 (tspLoop bit f loc s1 s2).2 ∧
      ∀ x, x ∈ loc ∨ x ∈ s1 ∨ x ∈ s2 →
        x ∈ (tspLoop bit f loc s1 s2).1 ∨ x ∈ (tspLoop bit f loc s1 s2).2 := by
  induction f generalizing loc s1 s2 with
  | zero =>
    have : loc = [] := List.length_eq_zero_iff.1 (by omega)
    subst this
    exact ⟨w1, w2, fun x hx => by simpa [tspLoop] using hx⟩
  | succ f ih =>
    unfold tspLoop
    by_cases hl : loc = []
    · subst hl
      simp only [if_true]
      exact ⟨w1, w2, fun x hx => by simpa using hx⟩
    · simp only [if_neg hl]
      have hi := nearest_lt bit (s1.getLastD 0) loc hl
      generalize nearest bit (s1.getLastD 0) loc = i at hi
      obtain ⟨u, e1, wu, hu⟩ := w1.extend hm (hloc _ (getD_mem hi))
      rw [e1]
      have hlen := List.length_eraseIdx_of_lt hi
      by_cases hl2 : loc.eraseIdx i = []
      · simp only [if_pos hl2]
        refine ⟨wu, w2, fun x hx => ?_⟩
        rcases hx with h | h | h
        · rcases mem_or_erase (i := i) x h with h | h
          · left; simp [h]
          · rw [hl2] at h; simp at h
        · left; exact hu x h
        · right; exact h
      · simp only [if_neg hl2]
        have hj := nearest_lt bit (s2.getLastD 0) _ hl2
        generalize nearest bit (s2.getLastD 0) (loc.eraseIdx i) = j at hj
        obtain ⟨v, e2, wv, hv⟩ := w2.extend hm (hloc _ (mem_of_eraseIdx (getD_mem hj)))
        rw [e2]
        obtain ⟨r1, r2, r3⟩ := ih ((loc.eraseIdx i).eraseIdx j) (u ++ [loc.getD i 0])
          (v ++ [(loc.eraseIdx i).getD j 0]) (by rw [List.length_eraseIdx_of_lt hj]; omega)
          (fun x hx => hloc x (mem_of_eraseIdx (mem_of_eraseIdx hx))) wu wv
        refine ⟨r1, r2, fun x hx => r3 x ?_⟩
        rcases hx with h | h | h
        · rcases mem_or_erase (i := i) x h with h | h
          · right; left; simp [h]
          · rcases mem_or_erase (i := j) x h with h | h
            · right; right; simp [h]
            · left; exact h
        · right; left; exact hu x h
        · right; right; exact hv x h

/-! ### Gray code -/

theorem grayCode_spec (n : Nat) : Walk (n + 1) (2 ^ n) (grayCode (n + 1)) ∧
    (grayCode (n + 1)).getLast? = some 0 ∧ ∀ x < 2 ^ (n + 1), x ∈ grayCode (n + 1) := by
  induction n with
  | zero =>
    refine ⟨⟨rfl, ?_, ?_⟩, rfl, ?_⟩
    · simp only [grayCode, List.isChain_cons_cons, List.isChain_singleton, and_true]
      exact ⟨0, by omega, rfl⟩
    · intro x hx; simp [grayCode] at hx; omega
    · intro x hx
      have : x = 0 ∨ x = 1 := by simp at hx; omega
      simp [grayCode]; omega
  | succ n ih =>
    obtain ⟨w, hl, hc⟩ := ih
    have hg : grayCode (n + 1 + 1) = (grayCode (n + 1)).reverse.map (2 ^ (n + 1) + ·)
        ++ grayCode (n + 1) := rfl
    have hne : grayCode (n + 1) ≠ [] := by
      intro h; rw [h] at hl; simp at hl
    have hp : (2 : Nat) ^ (n + 2) = 2 * 2 ^ (n + 1) := Nat.pow_succ'
    refine ⟨⟨?_, ?_, ?_⟩, ?_, ?_⟩
    · rw [hg]
      have hne' : (grayCode (n + 1)).reverse.map (2 ^ (n + 1) + ·) ≠ [] := by simpa using hne
      rw [List.head?_append_of_ne_nil _ hne', List.head?_map, List.head?_reverse, hl]
      rfl
    · rw [hg]
      have hrev : ((grayCode (n + 1)).reverse.map (2 ^ (n + 1) + ·)).IsChain (Adj (n + 2)) := by
        rw [List.isChain_map]
        have hr : (grayCode (n + 1)).reverse.IsChain (fun a b => Adj (n + 1) a b) := by
          rw [List.isChain_reverse]
          exact w.chain.imp fun a b h => h.symm
        have hlt : ∀ x ∈ (grayCode (n + 1)).reverse, x < 2 ^ (n + 1) := fun x hx =>
          w.lt x (by simpa using hx)
        have : ∀ l : List Nat, l.IsChain (fun a b => Adj (n + 1) a b) → (∀ x ∈ l, x < 2 ^ (n + 1)) →
            l.IsChain (fun a b => Adj (n + 2) (2 ^ (n + 1) + a) (2 ^ (n + 1) + b)) := by
          intro l
          induction l with
          | nil => intro _ _; exact .nil
          | cons a l ihl =>
            cases l with
            | nil => intro _ _; exact .singleton _
            | cons b l =>
              intro h hlt
              rw [List.isChain_cons_cons] at h ⊢
              refine ⟨?_, ihl h.2 fun x hx => hlt x (by simp [hx])⟩
              obtain ⟨c, hc, e⟩ := h.1
              refine ⟨c, by omega, ?_⟩
              rw [add_two_pow_eq_xor (hlt a (by simp)), add_two_pow_eq_xor (hlt b (by simp)), e,
                Nat.xor_assoc, Nat.xor_assoc, Nat.xor_comm (2 ^ c)]
        exact this _ hr hlt
      rw [List.isChain_append]
      refine ⟨hrev, w.chain.imp fun a b h => ?_, ?_⟩
      · obtain ⟨c, hc, e⟩ := h; exact ⟨c, by omega, e⟩
      · intro x hx y hy
        rw [List.getLast?_map, List.getLast?_reverse, w.head] at hx
        rw [w.head] at hy
        have hx : 2 ^ (n + 1) + 2 ^ n = x := by simpa using hx
        have hy : 2 ^ n = y := by simpa using hy
        subst hx hy
        refine Adj.symm ⟨n + 1, by omega, ?_⟩
        exact add_two_pow_eq_xor (Nat.pow_lt_pow_right (by omega) (by omega))
    · rw [hg]
      intro x hx
      rcases List.mem_append.1 hx with h | h
      · rw [List.mem_map] at h
        obtain ⟨y, hy, rfl⟩ := h
        have := w.lt y (by simpa using hy)
        change 2 ^ (n + 1) + y < 2 ^ (n + 2)
        omega
      · have := w.lt x h
        change x < 2 ^ (n + 2)
        omega
    · rw [hg, List.getLast?_append_of_ne_nil _ hne, hl]
    · rw [hg]
      intro x hx
      change x < 2 ^ (n + 2) at hx
      rcases Nat.lt_or_ge x (2 ^ (n + 1)) with h | h
      · exact List.mem_append_right _ (hc x h)
      · refine List.mem_append_left _ ?_
        rw [List.mem_map]
        exact ⟨x - 2 ^ (n + 1), by rw [List.mem_reverse]; exact hc _ (by omega), by
          omega⟩

/-! ### Traversal sequences -/

/-- The walk on the parity operators of operation bit `o` starts and ends at 0 and visits all. -/
structure Closed (o : Nat) (L tr : List Nat) : Prop where
  walk : Walk o 0 tr
  last : tr.getLast? = some 0
  cover : ∀ x ∈ L, x ∈ tr

theorem min_spec (L : List Nat) (hL : L ≠ []) :
    L.min?.getD 0 ∈ L ∧ ∀ x ∈ L, L.min?.getD 0 ≤ x := by
  cases h : L.min? with
  | none => rw [List.min?_eq_none_iff] at h; exact absurd h hL
  | some m =>
    rw [List.min?_eq_some_iff] at h
    exact h

/-- Adding the missing zeros at the ends of a walk. -/
theorem travEnds {o h e : Nat} {s : List Nat} (w : Walk o h s) (hl : s.getLast? = some e)
    (hh : h = 0 ∨ ∃ c < o, h = 2 ^ c) (he : e = 0 ∨ ∃ c < o, e = 2 ^ c) {L : List Nat}
    (hc : ∀ x ∈ L, x ∈ s) :
    Closed o L (let s := if s.getLastD 0 ≠ 0 then s ++ [0] else s
      if s.headD 0 ≠ 0 then 0 :: s else s) := by
  have hpos : 0 < 2 ^ o := Nat.two_pow_pos o
  have hlD : s.getLastD 0 = e := by rw [List.getLastD_eq_getLast?, hl]; rfl
  obtain ⟨s', hs', w', hl', hc'⟩ : ∃ s', (if s.getLastD 0 ≠ 0 then s ++ [0] else s) = s' ∧
      Walk o h s' ∧ s'.getLast? = some 0 ∧ ∀ x ∈ L, x ∈ s' := by
    rw [hlD]
    by_cases h0 : e = 0
    · subst h0
      exact ⟨s, by simp, w, hl, hc⟩
    · refine ⟨s ++ [0], by simp [h0], ⟨?_, ?_, ?_⟩, by simp, fun x hx => by simp [hc x hx]⟩
      · have hne : s ≠ [] := by rintro rfl; simp at hl
        rw [List.head?_append_of_ne_nil _ hne]; exact w.head
      · rw [List.isChain_append]
        refine ⟨w.chain, .singleton _, fun x hx y hy => ?_⟩
        rw [hl] at hx
        have hx : e = x := by simpa using hx
        have hy : 0 = y := by simpa using hy
        subst hx hy
        obtain ⟨c, hc, rfl⟩ := he.resolve_left h0
        exact ⟨c, hc, by rw [Nat.xor_self]⟩
      · intro x hx
        rcases List.mem_append.1 hx with h | h
        · exact w.lt x h
        · have : x = 0 := by simpa using h
          omega
  simp only [hs']
  have hhD : s'.headD 0 = h := by rw [List.headD_eq_head?_getD, w'.head]; rfl
  rw [hhD]
  by_cases h0 : h = 0
  · subst h0
    simp only [ne_eq, not_true_eq_false, if_false]
    exact ⟨w', hl', hc'⟩
  · simp only [ne_eq, h0, not_false_eq_true, if_true]
    obtain ⟨c, hc2, hcc⟩ := hh.resolve_left h0
    refine ⟨⟨rfl, ?_, ?_⟩, ?_, fun x hx => by simp [hc' x hx]⟩
    · rw [List.isChain_cons]
      refine ⟨fun y hy => ?_, w'.chain⟩
      rw [w'.head] at hy
      have hy : h = y := by simpa using hy
      exact ⟨c, hc2, by rw [← hy, hcc, Nat.zero_xor]⟩
    · intro x hx
      rcases List.mem_cons.1 hx with h | h
      · omega
      · exact w'.lt x h
    · have hne : s' ≠ [] := by rintro h; rw [h] at hl'; simp at hl'
      rw [List.getLast?_cons_of_ne_nil hne]; exact hl'

theorem travSeq_closed {o : Nat} (ho : 0 < o) (L : List Nat) (hL : L ≠ []) (hlt : ∀ x ∈ L, x < 2 ^ o)
    (hmin : L.min?.getD 0 = 0 ∨ ∃ c < o, L.min?.getD 0 = 2 ^ c) :
    Closed o L (travSeq (0 :: L) (o + 1)) := by
  have hpos : 0 < 2 ^ o := Nat.two_pow_pos o
  have hgray : Closed o L (let s := grayCode o
      let s := if s.getLastD 0 ≠ 0 then s ++ [0] else s
      if s.headD 0 ≠ 0 then 0 :: s else s) := by
    obtain ⟨n, rfl⟩ : ∃ n, o = n + 1 := ⟨o - 1, by omega⟩
    obtain ⟨w, hl, hc⟩ := grayCode_spec n
    exact travEnds w hl (Or.inr ⟨n, by omega, rfl⟩) (Or.inl rfl) fun x hx => hc x (hlt x hx)
  have hmax : max (o + 1 - 1) 1 = o := by omega
  unfold travSeq hammingTsp
  rw [hmax]
  by_cases c1 : (0 :: L).length = 2 ^ (o + 1 - 1) + 1
  · simp only [if_pos c1]
    exact hgray
  simp only [if_neg c1]
  have c2 : (0 :: L).length ≠ 1 := by
    intro h; exact hL (List.length_eq_zero_iff.1 (by simpa using h))
  simp only [if_neg c2]
  by_cases c3 : (0 :: L).length = 2
  · simp only [if_pos c3]
    obtain ⟨x, rfl⟩ : ∃ x, L = [x] := List.length_eq_one_iff.1 (by simpa using c3)
    have e1 : max (([0, x] : List Nat).getD 0 0) (([0, x] : List Nat).getD 1 0) = x := by simp
    have e2 : min (([0, x] : List Nat).getD 0 0) (([0, x] : List Nat).getD 1 0) = 0 := by simp
    rw [e1, e2]
    obtain ⟨w, hl⟩ := hamMove_spec (bit := o + 1) (m := o) (by omega) (o + 1) x 0
      (fun k => topDiff_lt) (hlt x (by simp)) hpos
    refine travEnds w hl (by simpa using hmin) (Or.inl rfl) fun y hy => ?_
    have : y = x := by simpa using hy
    simp [this]
  simp only [if_neg c3]
  have p1 : popMin (0 :: L) = (0, L) := by
    have hm := min_spec (0 :: L) (by simp)
    have : (0 :: L).min?.getD 0 = 0 := Nat.le_zero.1 (hm.2 0 (by simp))
    unfold popMin
    simp only [this, List.erase_cons_head]
  obtain ⟨m1, m2⟩ := min_spec L hL
  have p2 : popMin L = (L.min?.getD 0, L.erase (L.min?.getD 0)) := rfl
  rw [p1]
  simp only
  rw [p2]
  simp only
  generalize hm : L.min?.getD 0 = m at *
  have hmlt := hlt m m1
  obtain ⟨r1, r2, r3⟩ := tspLoop_spec (bit := o + 1) (m := o) (by omega) (0 :: L).length (L.erase m)
    [0] [m] (by
      have := List.length_erase_of_mem m1
      simp; omega) (fun x hx => hlt x (List.mem_of_mem_erase hx))
    ⟨rfl, .singleton _, by simpa using hpos⟩ ⟨rfl, .singleton _, by simpa using hmlt⟩
  generalize (tspLoop (o + 1) (0 :: L).length (L.erase m) [0] [m]) = st at *
  obtain ⟨s1, s2⟩ := st
  simp only at r1 r2 r3 ⊢
  obtain ⟨v, e, rfl⟩ : ∃ v e, s2 = v ++ [e] := by
    have hne : s2 ≠ [] := by
      rintro rfl; have := r2.head; simp at this
    exact ⟨s2.dropLast, s2.getLast hne, (List.dropLast_append_getLast hne).symm⟩
  rw [getLastD_append_single]
  obtain ⟨u, e1, wu, hu⟩ := r1.extend (bit := o + 1) (by omega) (r2.lt e (by simp))
  rw [e1]
  have hdl : (v ++ [e]).dropLast = v := by simp
  rw [hdl]
  have hrev : (e :: v.reverse).IsChain (Adj o) := by
    have : e :: v.reverse = (v ++ [e]).reverse := by simp
    rw [this, List.isChain_reverse]
    exact r2.chain.imp fun a b h => h.symm
  have hsol : u ++ [e] ++ v.reverse = u ++ e :: v.reverse := by simp
  have wsol : Walk o 0 (u ++ [e] ++ v.reverse) := by
    refine ⟨?_, ?_, ?_⟩
    · rw [List.head?_append_of_ne_nil _ (by simp)]; exact wu.head
    · rw [hsol, List.isChain_split]; exact ⟨wu.chain, hrev⟩
    · intro x hx
      rcases List.mem_append.1 hx with h | h
      · exact wu.lt x h
      · exact r2.lt x (by simp at h; simp [h])
  have hlast : (u ++ [e] ++ v.reverse).getLast? = some m := by
    have hh := r2.head
    cases v with
    | nil => simpa using hh
    | cons a v =>
      rw [List.reverse_cons, ← List.append_assoc, List.getLast?_concat]
      simpa using hh
  have hcov : ∀ x ∈ L, x ∈ u ++ [e] ++ v.reverse := by
    intro x hx
    have : x ∈ L.erase m ∨ x ∈ [0] ∨ x ∈ [m] := by
      by_cases h : x = m
      · right; right; simp [h]
      · left; exact (List.mem_erase_of_ne h).2 hx
    rcases r3 x this with h | h
    · exact List.mem_append_left _ (hu x h)
    · rcases List.mem_append.1 h with h | h
      · exact List.mem_append_right _ (by simpa using h)
      · refine List.mem_append_left _ (List.mem_append_right _ h)
  by_cases c4 : 2 ^ o < (u ++ [e] ++ v.reverse).length
  · simp only [if_pos c4]
    exact hgray
  · simp only [if_neg c4]
    exact travEnds wsol hlast (Or.inl rfl) hmin hcov

end Verif.Circ
