import Verif.Sbp.Order
import Verif.Types.Float

/-!
# Equality of quantum floats

Models `equal` of `alg_primitives/arithmetic/comparisons.py` (static mode).
-/

set_option linter.unusedSectionVars false

namespace Verif.Sbp

open Verif.Rev Verif.Fourier Verif.Iter

variable {Q : Type} [DecidableEq Q]

/-- The slice `l[i:j]` of a python list. -/
def pySlice {α : Type} (l : List α) (i j : ℤ) : List α :=
  let norm (k : ℤ) : ℕ := if k < 0 then (k + l.length).toNat else min k.toNat l.length
  (l.take (norm j)).drop (norm i)

/-- The pairs of the conjugator (comparisons.py:222-224). `d` is never used as a qubit. -/
def eqPairs (d : Q) (x y : QF Q) : List (Q × Q) :=
  let l := max x.exp y.exp
  let r := min (x.exp + x.msize) (y.exp + y.msize)
  (List.range (r - l).toNat).map fun i : ℕ =>
    (y.reg.getD (i + (l - y.exp)).toNat d, x.reg.getD (i + (l - x.exp)).toNat d)

/-- `mcx_qubits` (comparisons.py:207-208, 226-227). -/
def eqCtrls (x y : QF Q) : List Q :=
  let l := max x.exp y.exp
  x.reg ++ pySlice y.reg 0 (l - y.exp) ++ pySlice y.reg (x.exp + x.msize - y.exp) y.msize

/-- `equal` for two floats after the exchange (comparisons.py:207-235). -/
def eqOrdered (d res : Q) (x y : QF Q) : List (Gate Q) :=
  let signs := if y.signed && x.signed then [cx (y.reg.getLastD d) (x.reg.getLastD d)] else []
  signs ++ (eqPairs d x y).map (fun p => cx p.1 p.2) ++ [.mcx ((eqCtrls x y).map fun q => (q, false)) res] ++
    (eqPairs d x y).reverse.map (fun p => cx p.1 p.2) ++ signs

/-- `equal` for two floats (comparisons.py:196-235). -/
def equalQ (d res : Q) (a b : QF Q) : List (Gate Q) :=
  if b.signed && !a.signed then eqOrdered d res b a else eqOrdered d res a b

open Classical in
/-- `equal` for a float and a number (comparisons.py:240-244). The body of the classical control is executed in any
case, but an exception in it is dropped if the condition is false (classical_control_environment.py:179-206). `none`
is an exception. -/
noncomputable def equalNum (res : Q) (a : QF Q) (c : ℚ) : Option (List (Gate Q)) :=
  if Types.qfTruncate a.msize a.exp a.signed c = c then
    (Types.qfEncode a.msize a.exp a.signed c).map fun i =>
      [.mcx (a.reg.zipIdx.map fun q => (q.1, i.toNat.testBit q.2)) res]
  else some []

/-! ### Lists of CX gates -/

theorem run_pairs : ∀ {ps : List (Q × Q)}, (ps.map (·.2)).Nodup → (∀ p ∈ ps, ∀ p' ∈ ps, p.1 ≠ p'.2) → ∀ s : St Q,
    (∀ q, (∀ p ∈ ps, q ≠ p.2) → run (ps.map fun p => cx p.1 p.2) s q = s q) ∧
    ∀ p ∈ ps, run (ps.map fun p => cx p.1 p.2) s p.2 = (s p.2 ^^ s p.1)
  | [], _, _, s => ⟨fun _ _ => rfl, by simp⟩
  | p :: ps, hn, hc, s => by
    rw [List.map_cons, List.nodup_cons] at hn
    have ih := run_pairs hn.2 (fun a ha b hb => hc a (List.mem_cons_of_mem _ ha) b (List.mem_cons_of_mem _ hb))
      (upd s p.2 (s p.2 ^^ s p.1))
    have e : run ((p :: ps).map fun p => cx p.1 p.2) s =
        run (ps.map fun p => cx p.1 p.2) (upd s p.2 (s p.2 ^^ s p.1)) := by
      rw [List.map_cons, Rev.run_cons]
      congr 1
      show upd s p.2 (s p.2 ^^ fire [(p.1, true)] s) = _
      simp [fire]
    rw [e]
    refine ⟨fun q hq => ?_, fun p' hp' => ?_⟩
    · rw [ih.1 q fun a ha => hq a (List.mem_cons_of_mem _ ha), upd_ne (hq p (by simp))]
    · rcases List.mem_cons.1 hp' with h | h
      · subst h
        rw [ih.1 p'.2 fun a ha h => hn.1 (List.mem_map.2 ⟨a, ha, h.symm⟩), upd_same]
      · have h2 : p'.2 ≠ p.2 := fun h' => hn.1 (List.mem_map.2 ⟨p', h, h'⟩)
        rw [ih.2 p' h, upd_ne h2, upd_ne (hc p' hp' p (by simp))]

/-! ### The circuit -/

/-- The mantissa. -/
def mant (x : QF Q) (s : St Q) : ℕ := bitsVal ((x.reg.take x.msize).map s)

/-- The sign. -/
def sgn (d : Q) (x : QF Q) (s : St Q) : Bool := x.signed && s (x.reg.getLastD d)

theorem msize_le (x : QF Q) : x.msize ≤ x.reg.length := Nat.sub_le _ _

theorem ival_mant (d : Q) {x : QF Q} (h : x.signed = true → x.reg ≠ []) (s : St Q) :
    ival x s = mant x s - if sgn d x s then 2 ^ x.msize else 0 := by
  unfold mant sgn
  cases hs : x.signed
  · have : x.msize = x.reg.length := by unfold QF.msize; simp [hs]
    rw [ival_unsigned hs, this, List.take_length]; simp
  · obtain ⟨B, q, hr⟩ : ∃ B q, x.reg = B ++ [q] := ⟨_, _, (List.dropLast_append_getLast (h hs)).symm⟩
    have hm : x.msize = B.length := by unfold QF.msize; simp [hs, hr]
    rw [ival_signed hs (B := B.map s) (σ := s q) (by rw [hr]; simp), hm, hr]
    simp [List.getLastD_eq_getLast?]

/-- The bit at a position. -/
def bitAt (d : Q) (x : QF Q) (s : St Q) (p : ℤ) : Bool :=
  decide (x.exp ≤ p) && decide (p < x.exp + x.msize) && s (x.reg.getD (p - x.exp).toNat d)

theorem testBit_bitsVal : ∀ (L : List Bool) (i : ℕ), (bitsVal L).testBit i = L.getD i false
  | [], i => by simp [bitsVal]
  | b :: L, 0 => by
    cases b <;> simp [bitsVal, Nat.testBit_zero]
  | b :: L, i + 1 => by
    have h : (b.toNat + 2 * bitsVal L) / 2 = bitsVal L := by cases b <;> simp <;> omega
    rw [bitsVal, Nat.testBit_succ, h, testBit_bitsVal L i]
    simp

theorem mant_testBit (d : Q) (x : QF Q) (s : St Q) (i : ℕ) :
    (mant x s).testBit i = (decide (i < x.msize) && s (x.reg.getD i d)) := by
  have hl := msize_le x
  unfold mant
  rw [testBit_bitsVal, List.getD_eq_getElem?_getD, List.getElem?_map, List.getD_eq_getElem?_getD, List.getElem?_take]
  by_cases h : i < x.msize
  · rw [if_pos h, List.getElem?_eq_getElem (by omega)]
    simp [h]
  · rw [if_neg h]
    simp [h]

theorem mant_eq_iff (d : Q) (x y : QF Q) (s : St Q) :
    ((mant x s : ℚ) * 2 ^ x.exp = mant y s * 2 ^ y.exp) ↔ ∀ p, bitAt d x s p = bitAt d y s p := by
  set e := min x.exp y.exp with he
  have h1 : ((mant x s : ℚ) * 2 ^ x.exp = mant y s * 2 ^ y.exp) ↔
      mant x s * 2 ^ (x.exp - e).toNat = mant y s * 2 ^ (y.exp - e).toNat := by
    have hx : (2 : ℚ) ^ x.exp = 2 ^ (x.exp - e).toNat * 2 ^ e := by
      rw [← zpow_natCast, ← zpow_add₀ (by norm_num)]; congr 1; omega
    have hy : (2 : ℚ) ^ y.exp = 2 ^ (y.exp - e).toNat * 2 ^ e := by
      rw [← zpow_natCast, ← zpow_add₀ (by norm_num)]; congr 1; omega
    have hu : (2 : ℚ) ^ e ≠ 0 := by positivity
    rw [hx, hy, ← mul_assoc, ← mul_assoc, mul_left_inj' hu]
    exact_mod_cast Iff.rfl
  have hb : ∀ (z : QF Q), e ≤ z.exp → ∀ i : ℕ, (mant z s * 2 ^ (z.exp - e).toNat).testBit i = bitAt d z s (e + i) := by
    intro z hz i
    rw [Nat.testBit_mul_two_pow, mant_testBit d]
    unfold bitAt
    rw [← Bool.and_assoc]
    by_cases h1 : z.exp ≤ e + i
    · have e1 : (z.exp - e).toNat ≤ i := by omega
      have e2 : (e + i - z.exp).toNat = i - (z.exp - e).toNat := by omega
      have e3 : (i - (z.exp - e).toNat < z.msize) ↔ (e + (i : ℤ) < z.exp + z.msize) := by omega
      rw [decide_eq_true h1, decide_eq_true e1, e2, decide_eq_decide.2 e3]
    · have e1 : ¬ (z.exp - e).toNat ≤ i := by omega
      rw [decide_eq_false h1, decide_eq_false e1]
      simp
  rw [h1]
  constructor
  · intro h p
    by_cases hp : e ≤ p
    · obtain ⟨i, rfl⟩ : ∃ i : ℕ, p = e + i := ⟨(p - e).toNat, by omega⟩
      rw [← hb x (by omega), ← hb y (by omega), h]
    · unfold bitAt
      rw [decide_eq_false (by omega : ¬ x.exp ≤ p), decide_eq_false (by omega : ¬ y.exp ≤ p)]
      simp
  · intro h
    apply Nat.eq_of_testBit_eq
    intro i
    rw [hb x (by omega), hb y (by omega), h]

/-- The part of the second float that `equal` looks at is complete: no negative slice bound wraps around, and its sign
is not among the low bits. -/
structure EqRange (x y : QF Q) : Prop where
  gap : y.exp ≤ x.exp + x.msize ∨ x.exp + x.msize - y.exp + y.reg.length ≤ 0
  low : y.signed = true → x.exp ≤ y.exp + y.msize

theorem mem_pySlice {l : List Q} {i j : ℤ} {q : Q} {a b : ℕ}
    (ha : a = if i < 0 then (i + l.length).toNat else min i.toNat l.length)
    (hb : b = if j < 0 then (j + l.length).toNat else min j.toNat l.length) :
    q ∈ pySlice l i j ↔ ∃ k, a ≤ k ∧ k < b ∧ l[k]? = some q := by
  unfold pySlice
  simp only [← ha, ← hb]
  rw [List.mem_iff_getElem?]
  constructor
  · rintro ⟨k, hk⟩
    rw [List.getElem?_drop, List.getElem?_take] at hk
    by_cases h : a + k < b
    · rw [if_pos h] at hk
      exact ⟨a + k, by omega, h, hk⟩
    · rw [if_neg h] at hk
      cases hk
  · rintro ⟨k, h1, h2, h3⟩
    refine ⟨k - a, ?_⟩
    rw [List.getElem?_drop, List.getElem?_take, if_pos (by omega)]
    rw [show a + (k - a) = k by omega]
    exact h3

theorem getD_mem {l : List Q} {k : ℕ} (h : k < l.length) (d : Q) : l.getD k d ∈ l := by
  rw [List.getD_eq_getElem _ _ h]
  exact List.getElem_mem h

theorem getD_inj {l : List Q} (hn : l.Nodup) {i j : ℕ} (hi : i < l.length) (hj : j < l.length) {d : Q}
    (h : l.getD i d = l.getD j d) : i = j := by
  rw [List.getD_eq_getElem _ _ hi, List.getD_eq_getElem _ _ hj] at h
  exact (List.Nodup.getElem_inj_iff hn).1 h

theorem getLastD_getD {l : List Q} (h : l ≠ []) (d : Q) : l.getLastD d = l.getD (l.length - 1) d := by
  have : 0 < l.length := List.length_pos_iff.2 h
  rw [List.getLastD_eq_getLast?, List.getLast?_eq_getElem?, List.getD_eq_getElem?_getD]

/-- What `equal` computes: it compares the signs and the mantissas. -/
theorem eqOrdered_spec {d res : Q} {x y : QF Q} (hn : (res :: x.reg ++ y.reg).Nodup) (hxy : y.signed = true → x.signed = true)
    (hx : x.signed = true → x.reg ≠ []) (hy : y.signed = true → y.reg ≠ []) (hr : EqRange x y) (s : St Q) :
    run (eqOrdered d res x y) s =
      upd s res (s res ^^ decide (sgn d x s = sgn d y s ∧ (mant x s : ℚ) * 2 ^ x.exp = mant y s * 2 ^ y.exp)) := by
  simp only [List.cons_append, List.nodup_cons, List.mem_append, not_or, List.nodup_append] at hn
  obtain ⟨⟨rx, ry⟩, nx, ny, nxy⟩ := hn
  have lx : x.reg.length = x.msize + x.signed.toNat := by
    have : x.signed.toNat ≤ x.reg.length := by
      cases h : x.signed
      · simp
      · have := List.length_pos_iff.2 (hx h); rw [Bool.toNat_true]; omega
    unfold QF.msize; omega
  have ly : y.reg.length = y.msize + y.signed.toNat := by
    have : y.signed.toNat ≤ y.reg.length := by
      cases h : y.signed
      · simp
      · have := List.length_pos_iff.2 (hy h); rw [Bool.toNat_true]; omega
    unfold QF.msize; omega
  -- the pairs
  set ps := eqPairs d x y with hps
  have hpm : ∀ p ∈ ps, ∃ i j : ℕ, i < y.msize ∧ j < x.msize ∧ y.exp + i = x.exp + j ∧
      p = (y.reg.getD i d, x.reg.getD j d) := by
    intro p hp
    rw [hps] at hp
    unfold eqPairs at hp
    obtain ⟨k, hk, rfl⟩ := List.mem_map.1 hp
    rw [List.mem_range] at hk
    exact ⟨_, _, by omega, by omega, by omega, rfl⟩
  have hpm' : ∀ i j : ℕ, i < y.msize → j < x.msize → y.exp + i = x.exp + j → (y.reg.getD i d, x.reg.getD j d) ∈ ps := by
    intro i j hi hj h
    rw [hps]
    unfold eqPairs
    refine List.mem_map.2 ⟨(y.exp + i - max x.exp y.exp).toNat, List.mem_range.2 (by omega), ?_⟩
    congr 2 <;> omega
  have hpn : (ps.map (·.2)).Nodup := by
    rw [hps]
    unfold eqPairs
    rw [List.map_map]
    refine List.Nodup.map_on ?_ List.nodup_range
    intro a ha b hb h
    rw [List.mem_range] at ha hb
    have := getD_inj nx (by omega) (by omega) h
    omega
  have hpc : ∀ p ∈ ps, ∀ p' ∈ ps, p.1 ≠ p'.2 := by
    intro p hp p' hp' h
    obtain ⟨i, j, hi, hj, -, rfl⟩ := hpm p hp
    obtain ⟨i', j', hi', hj', -, rfl⟩ := hpm p' hp'
    exact nxy _ (getD_mem (by omega) d) _ (getD_mem (by omega) d) h.symm
  -- the signs
  set sg : List (Gate Q) := if y.signed && x.signed then [cx (y.reg.getLastD d) (x.reg.getLastD d)] else [] with hsg
  have hsgn : ∀ t : St Q, (∀ q, (x.signed = true → q ≠ x.reg.getLastD d) → run sg t q = t q) ∧
      (x.signed = true → run sg t (x.reg.getLastD d) = (t (x.reg.getLastD d) ^^ sgn d y t)) := by
    intro t
    rw [hsg]
    unfold sgn
    cases h1 : y.signed
    · simp
    · have h2 := hxy h1
      rw [h2]
      refine ⟨fun q hq => ?_, fun _ => ?_⟩
      · show (upd t _ _) q = _
        rw [upd_ne (hq rfl)]
      · show (upd t _ _) _ = _
        rw [upd_same]
        simp [fire]
  have hlast : x.signed = true → x.reg.getLastD d = x.reg.getD x.msize d := fun h => by
    rw [getLastD_getD (hx h)]
    congr 1
    rw [lx, h]; simp
  have hylast : y.signed = true → y.reg.getLastD d ∈ y.reg := fun h => by
    rw [getLastD_getD (hy h)]
    exact getD_mem (by rw [ly, h]; simp) d
  have hxlast : x.signed = true → x.reg.getLastD d ∈ x.reg := fun h => by
    rw [hlast h]
    exact getD_mem (by rw [lx, h]; simp) d
  set s1 := run (ps.map fun p => cx p.1 p.2) (run sg s) with hs1
  have hR := run_pairs hpn hpc (run sg s)
  -- values after the conjugation
  have v0 : ∀ q, q ∉ x.reg → s1 q = s q := fun q hq => by
    rw [hs1, hR.1 q ?_, (hsgn s).1 q fun h h' => hq (h' ▸ hxlast h)]
    intro p hp h
    obtain ⟨i, j, hi, hj, -, rfl⟩ := hpm p hp
    exact hq (h ▸ getD_mem (by omega) d)
  have v1 : ∀ j : ℕ, j < x.msize → s1 (x.reg.getD j d) = (s (x.reg.getD j d) ^^ bitAt d y s (x.exp + j)) := by
    intro j hj
    have hnl : x.signed = true → x.reg.getD j d ≠ x.reg.getLastD d := fun h h' => by
      rw [hlast h] at h'
      have := getD_inj nx (by omega) (by rw [lx, h]; simp) h'
      omega
    by_cases hin : y.exp ≤ x.exp + j ∧ x.exp + (j : ℤ) < y.exp + y.msize
    · have hp := hpm' (x.exp + j - y.exp).toNat j (by omega) hj (by omega)
      rw [hs1, hR.2 _ hp, (hsgn s).1 _ hnl, (hsgn s).1 _ ?_]
      · unfold bitAt
        rw [decide_eq_true hin.1, decide_eq_true hin.2]
        simp
      · intro h h'
        exact nxy _ (hxlast h) _ (getD_mem (by omega) d) h'.symm
    · rw [hs1, hR.1 _ ?_, (hsgn s).1 _ hnl]
      · unfold bitAt
        have : (decide (y.exp ≤ x.exp + j) && decide (x.exp + (j : ℤ) < y.exp + y.msize)) = false := by
          rw [← Bool.decide_and]; exact decide_eq_false hin
        rw [this]; simp
      · intro p hp h
        obtain ⟨i, j', hi, hj', hij, rfl⟩ := hpm p hp
        have := getD_inj nx (by omega) (by omega) h
        omega
  have v2 : x.signed = true → s1 (x.reg.getLastD d) = (sgn d x s ^^ sgn d y s) := fun h => by
    rw [hs1, hR.1 _ ?_, (hsgn s).2 h]
    · unfold sgn; rw [h]; simp
    · intro p hp h'
      obtain ⟨i, j', hi, hj', hij, rfl⟩ := hpm p hp
      rw [hlast h] at h'
      have := getD_inj nx (by rw [lx, h]; simp) (by omega) h'
      omega
  -- the controls
  have hfire : fire ((eqCtrls x y).map fun q => (q, false)) s1 = true ↔
      (sgn d x s = sgn d y s ∧ (mant x s : ℚ) * 2 ^ x.exp = mant y s * 2 ^ y.exp) := by
    rw [mant_eq_iff d]
    have h0 : fire ((eqCtrls x y).map fun q => (q, false)) s1 = true ↔ ∀ q ∈ eqCtrls x y, s1 q = false := by
      unfold fire
      rw [List.all_eq_true]
      constructor
      · intro h q hq
        have := h (q, false) (List.mem_map.2 ⟨q, hq, rfl⟩)
        simpa using this
      · intro h c hc
        obtain ⟨q, hq, rfl⟩ := List.mem_map.1 hc
        simpa using h q hq
    rw [h0]
    have m1 : ∀ q, q ∈ pySlice y.reg 0 (max x.exp y.exp - y.exp) ↔
        ∃ k, k < min (max x.exp y.exp - y.exp).toNat y.reg.length ∧ y.reg[k]? = some q := fun q => by
      rw [mem_pySlice rfl rfl, if_neg (by omega : ¬ max x.exp y.exp - y.exp < 0)]
      simp
    have m2 : ∀ q, q ∈ pySlice y.reg (x.exp + x.msize - y.exp) y.msize ↔
        ∃ k : ℕ, x.exp + x.msize ≤ y.exp + k ∧ k < y.msize ∧ y.reg[k]? = some q := fun q => by
      rw [mem_pySlice rfl rfl, if_neg (by omega : ¬ (y.msize : ℤ) < 0)]
      refine exists_congr fun k => ?_
      rw [← and_assoc, ← and_assoc]
      refine and_congr_left fun hk => ?_
      have hkl : k < y.reg.length := (List.getElem?_eq_some_iff.1 hk).1
      rcases hr.gap with h | h
      · rw [if_neg (by omega)]; omega
      · by_cases h' : x.exp + x.msize - y.exp < 0
        · rw [if_pos h']; omega
        · have : y.reg.length = 0 := by omega
          omega
    have hctl : (∀ q ∈ eqCtrls x y, s1 q = false) ↔
        (∀ q ∈ x.reg, s1 q = false) ∧ (∀ k : ℕ, k < y.msize →
          (y.exp + k < x.exp ∨ x.exp + x.msize ≤ y.exp + (k : ℤ)) → s (y.reg.getD k d) = false) := by
      unfold eqCtrls
      simp only [List.mem_append, m1, m2]
      constructor
      · intro h
        refine ⟨fun q hq => h q (Or.inl (Or.inl hq)), fun k hk hk' => ?_⟩
        have hkl : k < y.reg.length := by omega
        have hg : y.reg[k]? = some (y.reg.getD k d) := by
          rw [List.getD_eq_getElem _ _ hkl, List.getElem?_eq_getElem hkl]
        rw [← v0 _ fun h => nxy _ h _ (getD_mem hkl d) rfl]
        rcases hk' with h' | h'
        · exact h _ (Or.inl (Or.inr ⟨k, by omega, hg⟩))
        · exact h _ (Or.inr ⟨k, h', hk, hg⟩)
      · rintro ⟨h1, h2⟩ q hq
        rcases hq with (hq | ⟨k, hk, hg⟩) | ⟨k, hk1, hk2, hg⟩
        · exact h1 q hq
        · have hkl : k < y.reg.length := by omega
          have e : y.reg.getD k d = q := by
            rw [List.getD_eq_getElem?_getD, hg]; rfl
          rw [← e, v0 _ fun h => nxy _ h _ (getD_mem hkl d) rfl]
          have hkm : k < y.msize := by
            cases hs : y.signed
            · rw [hs] at ly; simp at ly; omega
            · have := hr.low hs; omega
          exact h2 k hkm (Or.inl (by omega))
        · have hkl : k < y.reg.length := by omega
          have e : y.reg.getD k d = q := by
            rw [List.getD_eq_getElem?_getD, hg]; rfl
          rw [← e, v0 _ fun h => nxy _ h _ (getD_mem hkl d) rfl]
          exact h2 k hk2 (Or.inr hk1)
    have hxr : (∀ q ∈ x.reg, s1 q = false) ↔ sgn d x s = sgn d y s ∧
        ∀ j : ℕ, j < x.msize → s (x.reg.getD j d) = bitAt d y s (x.exp + j) := by
      constructor
      · intro h
        refine ⟨?_, fun j hj => ?_⟩
        · cases hs : x.signed
          · have : y.signed = false := by
              cases h' : y.signed
              · rfl
              · rw [hxy h'] at hs; cases hs
            unfold sgn; rw [hs, this]; rfl
          · have := h _ (hxlast hs)
            rw [v2 hs] at this
            simpa using this
        · have := h _ (getD_mem (by omega : j < x.reg.length) d)
          rw [v1 j hj] at this
          simpa using this
      · rintro ⟨h1, h2⟩ q hq
        obtain ⟨k, hk, rfl⟩ := List.getElem_of_mem hq
        rw [← List.getD_eq_getElem _ d hk]
        by_cases hkm : k < x.msize
        · rw [v1 k hkm, h2 k hkm]; simp
        · have hs : x.signed = true := by
            cases hs : x.signed
            · rw [hs] at lx; simp at lx; omega
            · rfl
          have : k = x.msize := by rw [hs] at lx; simp at lx; omega
          rw [this, ← hlast hs, v2 hs, h1]; simp
    rw [hctl, hxr, and_assoc]
    refine and_congr_right fun _ => ?_
    have bx : ∀ j : ℕ, j < x.msize → bitAt d x s (x.exp + j) = s (x.reg.getD j d) := fun j hj => by
      unfold bitAt
      rw [decide_eq_true (by omega : x.exp ≤ x.exp + j), decide_eq_true (by omega : x.exp + (j : ℤ) < x.exp + x.msize)]
      simp
    have by' : ∀ j : ℕ, j < y.msize → bitAt d y s (y.exp + j) = s (y.reg.getD j d) := fun j hj => by
      unfold bitAt
      rw [decide_eq_true (by omega : y.exp ≤ y.exp + j), decide_eq_true (by omega : y.exp + (j : ℤ) < y.exp + y.msize)]
      simp
    have out : ∀ (z : QF Q) (p : ℤ), (p < z.exp ∨ z.exp + z.msize ≤ p) → bitAt d z s p = false := fun z p h => by
      unfold bitAt
      rcases h with h | h
      · rw [decide_eq_false (by omega : ¬ z.exp ≤ p)]; simp
      · rw [decide_eq_false (by omega : ¬ p < z.exp + z.msize)]; simp
    constructor
    · rintro ⟨h1, h2⟩ p
      by_cases hp : x.exp ≤ p ∧ p < x.exp + x.msize
      · obtain ⟨j, rfl⟩ : ∃ j : ℕ, p = x.exp + j := ⟨(p - x.exp).toNat, by omega⟩
        rw [bx j (by omega), h1 j (by omega)]
      · rw [out x p (by omega)]
        by_cases hq : y.exp ≤ p ∧ p < y.exp + y.msize
        · obtain ⟨j, rfl⟩ : ∃ j : ℕ, p = y.exp + j := ⟨(p - y.exp).toNat, by omega⟩
          rw [by' j (by omega), h2 j (by omega) (by omega)]
        · rw [out y p (by omega)]
    · intro h
      refine ⟨fun j hj => by rw [← bx j hj, h], fun k hk hk' => ?_⟩
      rw [← by' k hk, ← h, out x _ (by omega)]
  -- the whole circuit
  have hrev : ∀ t : St Q, run (ps.reverse.map fun p => cx p.1 p.2) t = run (ps.map fun p => cx p.1 p.2) t := by
    intro t
    have hn' : (ps.reverse.map (·.2)).Nodup := by rw [List.map_reverse]; exact List.nodup_reverse.2 hpn
    have A := run_pairs hpn hpc t
    have B := run_pairs hn' (fun a ha b hb => hpc a (List.mem_reverse.1 ha) b (List.mem_reverse.1 hb)) t
    funext q
    by_cases hq : ∃ p ∈ ps, q = p.2
    · obtain ⟨p, hp, rfl⟩ := hq
      rw [A.2 p hp, B.2 p (List.mem_reverse.2 hp)]
    · rw [A.1 q fun p hp h => hq ⟨p, hp, h⟩, B.1 q fun p hp h => hq ⟨p, List.mem_reverse.1 hp, h⟩]
  have e : run (eqOrdered d res x y) s = run sg (run (ps.map fun p => cx p.1 p.2)
      (upd s1 res (s1 res ^^ fire ((eqCtrls x y).map fun q => (q, false)) s1))) := by
    unfold eqOrdered
    simp only [← hsg, ← hps, Rev.run_append, Rev.run_cons, Rev.run_nil, hrev]
    rfl
  rw [e]
  have hfd : fire ((eqCtrls x y).map fun q => (q, false)) s1 =
      decide (sgn d x s = sgn d y s ∧ (mant x s : ℚ) * 2 ^ x.exp = mant y s * 2 ^ y.exp) := by
    rw [Bool.eq_iff_iff, hfire, decide_eq_true_eq]
  rw [hfd]
  generalize decide (sgn d x s = sgn d y s ∧ (mant x s : ℚ) * 2 ^ x.exp = mant y s * 2 ^ y.exp) = w
  set s2 := upd s1 res (s1 res ^^ w) with hs2
  have A := run_pairs hpn hpc s2
  have yn : ∀ q ∈ y.reg, s2 q = s q := fun q hq => by
    have : q ≠ res := fun h => ry (h ▸ hq)
    rw [hs2, upd_ne this, v0 q fun h => nxy q h q hq rfl]
  -- after the pairs
  have w0 : run (ps.map fun p => cx p.1 p.2) s2 = upd (run sg s) res (s res ^^ w) := by
    funext q
    by_cases hq : ∃ p ∈ ps, q = p.2
    · obtain ⟨p, hp, rfl⟩ := hq
      obtain ⟨i, j, hi, hj, -, hpe⟩ := hpm p hp
      have h1 : p.2 ∈ x.reg := by rw [hpe]; exact getD_mem (by omega) d
      have h2 : p.1 ∈ y.reg := by rw [hpe]; exact getD_mem (by omega) d
      have h3 : p.2 ≠ res := fun h => rx (h ▸ h1)
      have h4 : run sg s p.1 = s p.1 := (hsgn s).1 _ fun h h' => nxy _ (hxlast h) _ h2 h'.symm
      rw [A.2 p hp, yn _ h2, hs2, upd_ne h3, upd_ne h3, hs1, hR.2 p hp, h4]
      cases s p.1 <;> simp
    · have hq' : ∀ p ∈ ps, q ≠ p.2 := fun p hp h => hq ⟨p, hp, h⟩
      rw [A.1 q hq', hs2]
      by_cases hqr : q = res
      · subst hqr
        rw [upd_same, upd_same, v0 q rx]
      · rw [upd_ne hqr, upd_ne hqr, hs1, hR.1 q hq']
  rw [w0]
  -- after the signs
  have hresl : x.signed = true → res ≠ x.reg.getLastD d := fun h h' => rx (h' ▸ hxlast h)
  funext q
  by_cases hqr : q = res
  · subst hqr
    rw [(hsgn _).1 q hresl, upd_same, upd_same]
  · rw [upd_ne hqr]
    by_cases hql : x.signed = true ∧ q = x.reg.getLastD d
    · obtain ⟨h, rfl⟩ := hql
      rw [(hsgn _).2 h, upd_ne hqr, (hsgn s).2 h]
      have : sgn d y (upd (run sg s) res (s res ^^ w)) = sgn d y s := by
        unfold sgn
        cases hs : y.signed
        · rfl
        · have h5 := hylast hs
          have h6 : y.reg.getLastD d ≠ res := fun h' => ry (h' ▸ h5)
          rw [upd_ne h6, (hsgn s).1 _ fun h' h'' => nxy _ (hxlast h') _ h5 h''.symm]
      rw [this]
      cases sgn d y s <;> simp
    · have hq' : x.signed = true → q ≠ x.reg.getLastD d := fun h h' => hql ⟨h, h'⟩
      rw [(hsgn _).1 q hq', upd_ne hqr, (hsgn s).1 q hq']

theorem mant_lt (x : QF Q) (s : St Q) : mant x s < 2 ^ x.msize := by
  have := bitsVal_lt ((x.reg.take x.msize).map s)
  rw [List.length_map, List.length_take, Nat.min_eq_left (msize_le x)] at this
  exact this

theorem qval_mant (d : Q) {x : QF Q} (h : x.signed = true → x.reg ≠ []) (s : St Q) :
    qval x s = mant x s * 2 ^ x.exp - if sgn d x s then 2 ^ (x.exp + x.msize) else 0 := by
  unfold qval
  rw [ival_mant d h]
  cases sgn d x s
  · simp
  · simp only [if_true]
    push_cast
    rw [zpow_add₀ (by norm_num : (2 : ℚ) ≠ 0), zpow_natCast]
    ring

theorem mant_top (x : QF Q) (s : St Q) : (mant x s : ℚ) * 2 ^ x.exp < 2 ^ (x.exp + x.msize) := by
  rw [zpow_add₀ (by norm_num : (2 : ℚ) ≠ 0), zpow_natCast, mul_comm]
  have h1 : (mant x s : ℚ) < 2 ^ x.msize := by exact_mod_cast mant_lt x s
  have h2 : (0 : ℚ) < 2 ^ x.exp := by positivity
  exact mul_lt_mul_of_pos_left h1 h2

theorem mant_nonneg (x : QF Q) (s : St Q) : (0 : ℚ) ≤ mant x s * 2 ^ x.exp := by positivity

end Verif.Sbp
