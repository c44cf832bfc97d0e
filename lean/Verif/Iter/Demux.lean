import Verif.Iter.Perm

/-!
# Demultiplexer, quantum indexing, cyclic shifts while tracing

Models `demux` (iterable_processing.py:25-193), `q_indexing` (196-206), `manipulate_array` (core/quantum_array.py:2186-2209)
and `_cyclic_shift_jasp` (iterable_processing.py:294-361). The control register is a list of truth values, least
significant first: a controlled swap is a swap or nothing. Phases of phase tolerant controls are not part of this model.
-/

namespace Verif.Iter

variable {α : Type}

/-- The recursion of `demux` (iterable_processing.py:138-193), the control bits most significant first. The copies of the
controls made by `parallelize_qc` have the same values. -/
def demuxRec : List Bool → List ℕ → List (ℕ × ℕ)
  | [], _ => []
  | b :: bs, out =>
    let n := Nat.clog 2 out.length
    let N := 2 ^ n
    if 2 ^ bs.length < out.length then
      (if b then [(out.getD 0 0, out.getD (N / 2) 0)] else []) ++
        (if n > 1 then demuxRec bs (out.take (N / 2)) ++ demuxRec bs (out.drop (N / 2)) else [])
    else demuxRec bs out

/-- `demux` with a given output (iterable_processing.py:129-145); `none` if it raises. -/
def demux (permit : Bool) (inp : ℕ) (ctrl : List Bool) (out : List ℕ) : Option (List (ℕ × ℕ)) :=
  if inp ∈ out.tail then none
  else if out = [] then none
  else if out.length ≠ 2 ^ ctrl.length ∧ permit = false then none
  else some ((if inp ≠ out.getD 0 0 then [(inp, out.getD 0 0)] else []) ++ demuxRec ctrl.reverse out)

/-- An index of `manipulate_array`: bits, least significant first, sign flag, exponent. -/
structure Ind where
  bits : List Bool
  signed : Bool := false
  exp : ℤ := 0
deriving Repr, DecidableEq

/-- `manipulate_array` (quantum_array.py:2186-2209) with a tuple of indices, for an array with `ndim` dimensions and the
entries `arr` in row-major order. -/
def derefTuple (ndim : ℕ) (arr : List ℕ) (index : List Ind) : Option (List (ℕ × ℕ)) :=
  if ndim ≠ index.length then none
  else if index.any (·.signed) then none
  else if index.any (fun i => i.exp != 0) then none
  else (demux false (arr.getD 0 0) (index.reverse.flatMap (·.bits)) arr).map List.reverse

/-- `_cyclic_shift_one` (iterable_processing.py:323-345). -/
def cycOneJasp (idx : List ℕ) : List (ℕ × ℕ) :=
  let M := 2 ^ Nat.log 2 idx.length
  onIdx (idx.take M) (ladder (idx.take M).length) ++ onIdx (idx.take 1 ++ idx.drop M) (saeedi (idx.take 1 ++ idx.drop M).length)

/-- `_cyclic_shift_jasp` (iterable_processing.py:294-320). -/
def cyclicShiftJasp (idx : List ℕ) (k : ℤ) : List (ℕ × ℕ) :=
  if k < 0 then ((List.replicate (-k).toNat (cycOneJasp idx)).flatten).reverse
  else (List.replicate k.toNat (cycOneJasp idx)).flatten

/-! ### Inverse -/

theorem swapP_swapP (v : ℕ → α) (i j : ℕ) : swapP (swapP v i j) i j = v := by
  funext p
  unfold swapP
  by_cases h1 : p = i
  · rw [if_pos h1]
    by_cases h2 : j = i
    · rw [if_pos h2, h1, h2]
    · rw [if_neg h2, if_pos rfl, h1]
  · rw [if_neg h1]
    by_cases h2 : p = j
    · rw [if_pos h2, if_pos rfl, h2]
    · rw [if_neg h2, if_neg h1, if_neg h2]

theorem runP_reverse (ps : List (ℕ × ℕ)) (v : ℕ → α) : runP ps (runP ps.reverse v) = v := by
  induction ps generalizing v with
  | nil => rfl
  | cons x ps ih =>
    show runP ps (swapP (runP (x :: ps).reverse v) x.1 x.2) = v
    rw [List.reverse_cons, runP_append]
    show runP ps (swapP (swapP (runP ps.reverse v) x.1 x.2) x.1 x.2) = v
    rw [swapP_swapP, ih]

/-! ### Demultiplexer -/

/-- The number given by bits, least significant first. -/
def bitsVal : List Bool → ℕ
  | [] => 0
  | b :: bs => b.toNat + 2 * bitsVal bs

/-- … most significant first. -/
def bitsValM : List Bool → ℕ
  | [] => 0
  | b :: bs => b.toNat * 2 ^ bs.length + bitsValM bs

theorem bitsVal_append (a b : List Bool) : bitsVal (a ++ b) = bitsVal a + 2 ^ a.length * bitsVal b := by
  induction a with
  | nil => simp [bitsVal]
  | cons x a ih => simp only [List.cons_append, bitsVal, ih, List.length_cons, pow_succ]; ring

theorem bitsValM_reverse (bs : List Bool) : bitsValM bs.reverse = bitsVal bs := by
  have key : ∀ l : List Bool, bitsVal l.reverse = bitsValM l := by
    intro l
    induction l with
    | nil => rfl
    | cons x l ih =>
      rw [List.reverse_cons, bitsVal_append, ih, List.length_reverse]
      simp only [bitsVal, bitsValM]
      ring
  have := key bs.reverse
  rw [List.reverse_reverse] at this
  exact this.symm

theorem bitsVal_lt (bs : List Bool) : bitsVal bs < 2 ^ bs.length := by
  induction bs with
  | nil => simp [bitsVal]
  | cons b bs ih =>
    simp only [bitsVal, List.length_cons, pow_succ]
    cases b <;> simp <;> omega

theorem swapP_out (v : ℕ → α) {i j q : ℕ} (h1 : q ≠ i) (h2 : q ≠ j) : swapP v i j q = v q := by
  unfold swapP; rw [if_neg h1, if_neg h2]

theorem demuxRec_outside : ∀ (bs : List Bool) (out : List ℕ), out ≠ [] → out.length ≤ 2 ^ bs.length →
    ∀ (v : ℕ → α) (q : ℕ), q ∉ out → runP (demuxRec bs out) v q = v q := by
  intro bs
  induction bs with
  | nil => intro out _ _ v q _; rfl
  | cons b bs ih =>
    intro out hne hle v q hq
    rw [List.length_cons, pow_succ] at hle
    unfold demuxRec
    simp only
    by_cases hc : 2 ^ bs.length < out.length
    · rw [if_pos hc]
      have hn : Nat.clog 2 out.length = bs.length + 1 := by
        have h1 : Nat.clog 2 out.length ≤ bs.length + 1 := by
          rw [Nat.clog_le_iff_le_pow (by norm_num), pow_succ]; exact hle
        have h2 : bs.length < Nat.clog 2 out.length := by
          rw [Nat.lt_clog_iff_pow_lt (by norm_num)]; exact hc
        omega
      have hhalf : 2 ^ (bs.length + 1) / 2 = 2 ^ bs.length := by rw [pow_succ]; omega
      rw [hn, hhalf, runP_append]
      have hsw : runP (if b then [(out.getD 0 0, out.getD (2 ^ bs.length) 0)] else []) v q = v q := by
        cases b
        · rfl
        · exact swapP_out v (fun e => hq (e ▸ getD_mem' (by omega))) (fun e => hq (e ▸ getD_mem' hc))
      by_cases h1 : bs.length + 1 > 1
      · rw [if_pos h1, runP_append, ih, ih, hsw]
        · intro h
          have := congrArg List.length h
          rw [List.length_take, List.length_nil] at this
          have : 0 < 2 ^ bs.length := by positivity
          omega
        · rw [List.length_take]; exact min_le_left _ _
        · exact fun h => hq (List.mem_of_mem_take h)
        · intro h
          have := congrArg List.length h
          rw [List.length_drop, List.length_nil] at this
          omega
        · rw [List.length_drop]; omega
        · exact fun h => hq (List.mem_of_mem_drop h)
      · rw [if_neg h1]
        exact hsw
    · rw [if_neg hc]
      exact ih out hne (by omega) v q hq

theorem demuxRec_spec : ∀ (bs : List Bool) (out : List ℕ), out.Nodup → bitsValM bs < out.length →
    out.length ≤ 2 ^ bs.length → ∀ (v : ℕ → α), runP (demuxRec bs out) v (out.getD (bitsValM bs) 0) = v (out.getD 0 0) := by
  intro bs
  induction bs with
  | nil => intro out _ _ _ v; rfl
  | cons b bs ih =>
    intro out hnd hlt hle v
    rw [List.length_cons, pow_succ] at hle
    have hpos : 0 < 2 ^ bs.length := by positivity
    unfold demuxRec
    simp only
    by_cases hc : 2 ^ bs.length < out.length
    · rw [if_pos hc]
      have hn : Nat.clog 2 out.length = bs.length + 1 := by
        have h1 : Nat.clog 2 out.length ≤ bs.length + 1 := by
          rw [Nat.clog_le_iff_le_pow (by norm_num), pow_succ]; exact hle
        have h2 : bs.length < Nat.clog 2 out.length := by
          rw [Nat.lt_clog_iff_pow_lt (by norm_num)]; exact hc
        omega
      have hhalf : 2 ^ (bs.length + 1) / 2 = 2 ^ bs.length := by rw [pow_succ]; omega
      rw [hn, hhalf, runP_append]
      have hlt' : (out.take (2 ^ bs.length)).length = 2 ^ bs.length := by rw [List.length_take]; omega
      have hld : (out.drop (2 ^ bs.length)).length = out.length - 2 ^ bs.length := List.length_drop
      have hgt : ∀ t, t < 2 ^ bs.length → (out.take (2 ^ bs.length)).getD t 0 = out.getD t 0 := fun t ht => by
        rw [List.getD_eq_getElem _ _ (by omega), List.getD_eq_getElem _ _ (by omega), List.getElem_take]
      have hgd : ∀ t, t < out.length - 2 ^ bs.length →
          (out.drop (2 ^ bs.length)).getD t 0 = out.getD (2 ^ bs.length + t) 0 := fun t ht => by
        rw [List.getD_eq_getElem _ _ (by omega), List.getD_eq_getElem _ _ (by omega), List.getElem_drop]
      have hndt : (out.take (2 ^ bs.length)).Nodup := hnd.sublist (List.take_sublist _ _)
      have hndd : (out.drop (2 ^ bs.length)).Nodup := hnd.sublist (List.drop_sublist _ _)
      have hnet : out.take (2 ^ bs.length) ≠ [] := List.length_pos_iff.1 (by omega)
      have hned : out.drop (2 ^ bs.length) ≠ [] := List.length_pos_iff.1 (by omega)
      have hnotT : ∀ t, 2 ^ bs.length ≤ t → t < out.length → out.getD t 0 ∉ out.take (2 ^ bs.length) := fun t h1 h2 hm => by
        obtain ⟨i, hi, he⟩ := mem_getD hm
        rw [hgt i (by omega)] at he
        have := getD_inj hnd (by omega) h2 he
        omega
      have hnotD : ∀ t, t < 2 ^ bs.length → out.getD t 0 ∉ out.drop (2 ^ bs.length) := fun t h1 hm => by
        obtain ⟨i, hi, he⟩ := mem_getD hm
        rw [hgd i (by omega)] at he
        have := getD_inj hnd (by omega) (by omega) he
        omega
      cases b
      · simp only [bitsValM, Bool.toNat_false, zero_mul, zero_add] at hlt ⊢
        have hvb : bitsValM bs < 2 ^ bs.length := by
          rw [← List.reverse_reverse bs, bitsValM_reverse]
          have := bitsVal_lt bs.reverse
          simpa using this
        show runP _ v _ = _
        by_cases h1 : bs.length + 1 > 1
        · rw [if_pos h1, runP_append, demuxRec_outside bs _ hned (by omega) _ _ (hnotD _ hvb)]
          have := ih (out.take (2 ^ bs.length)) hndt (by omega) (by omega) v
          rw [hgt _ hvb, hgt 0 hpos] at this
          exact this
        · rw [if_neg h1]
          have : bs = [] := List.length_eq_zero_iff.1 (by omega)
          subst this
          rfl
      · simp only [bitsValM, Bool.toNat_true, one_mul] at hlt ⊢
        have hv1 : runP [(out.getD 0 0, out.getD (2 ^ bs.length) 0)] v (out.getD (2 ^ bs.length) 0) = v (out.getD 0 0) := by
          have hne : out.getD (2 ^ bs.length) 0 ≠ out.getD 0 0 := fun e => by
            have := getD_inj hnd hc (by omega) e
            omega
          show swapP v _ _ _ = _
          unfold swapP
          rw [if_neg hne, if_pos rfl]
        by_cases h1 : bs.length + 1 > 1
        · rw [if_pos h1, runP_append, if_pos trivial]
          have := ih (out.drop (2 ^ bs.length)) hndd (by omega) (by omega) (runP (demuxRec bs (out.take (2 ^ bs.length)))
            (runP [(out.getD 0 0, out.getD (2 ^ bs.length) 0)] v))
          rw [hgd _ (by omega), hgd 0 (by omega), add_zero] at this
          rw [this, demuxRec_outside bs _ hnet (by omega) _ _ (hnotT _ (le_refl _) hc)]
          exact hv1
        · rw [if_neg h1]
          have : bs = [] := List.length_eq_zero_iff.1 (by omega)
          subst this
          exact hv1
    · rw [if_neg hc]
      cases b
      · simp only [bitsValM, Bool.toNat_false, zero_mul, zero_add] at hlt ⊢
        exact ih out hnd hlt (by omega) v
      · simp only [bitsValM, Bool.toNat_true, one_mul] at hlt
        omega

theorem demux_spec {permit : Bool} {inp : ℕ} {ctrl : List Bool} {out : List ℕ} (hnd : out.Nodup) (hin : inp ∉ out.tail)
    (hle : out.length ≤ 2 ^ ctrl.length) (hp : out.length = 2 ^ ctrl.length ∨ permit = true)
    (hi : bitsVal ctrl < out.length) : ∃ ps, demux permit inp ctrl out = some ps ∧ ∀ (v : ℕ → α),
      runP ps v (out.getD (bitsVal ctrl) 0) = v inp ∧ ∀ q, q ∉ out → q ≠ inp → runP ps v q = v q := by
  have hne : out ≠ [] := List.length_pos_iff.1 (by omega)
  unfold demux
  rw [if_neg hin, if_neg hne, if_neg (by rintro ⟨h1, h2⟩; rcases hp with h | h; exact h1 h; rw [h] at h2; cases h2)]
  refine ⟨_, rfl, fun v => ?_⟩
  rw [runP_append]
  have h0 : runP (if inp ≠ out.getD 0 0 then [(inp, out.getD 0 0)] else []) v (out.getD 0 0) = v inp := by
    by_cases h : inp = out.getD 0 0
    · rw [if_neg (by simpa using h), h]; rfl
    · rw [if_pos h]
      show swapP v _ _ _ = _
      unfold swapP
      rw [if_neg (fun e => h e.symm), if_pos rfl]
  constructor
  · have := demuxRec_spec ctrl.reverse out hnd (by rw [bitsValM_reverse]; exact hi) (by rw [List.length_reverse]; exact hle)
      (runP (if inp ≠ out.getD 0 0 then [(inp, out.getD 0 0)] else []) v)
    rw [bitsValM_reverse] at this
    rw [this, h0]
  · intro q hq hqi
    rw [demuxRec_outside _ _ hne (by rw [List.length_reverse]; exact hle) _ _ hq]
    by_cases h : inp = out.getD 0 0
    · rw [if_neg (by simpa using h)]; rfl
    · rw [if_pos h]
      exact swapP_out v hqi (fun e => hq (e ▸ getD_mem' (by omega)))

/-- Concatenating the indices, the last one lowest, is the row-major position. -/
theorem bitsVal_index (index : List Ind) : bitsVal (index.reverse.flatMap (·.bits)) =
    (index.map fun i => (2 ^ i.bits.length, bitsVal i.bits)).foldl (fun a d => a * d.1 + d.2) 0 := by
  have key : ∀ (l : List Ind), bitsVal (l.flatMap (·.bits)) =
      ((l.reverse).map fun i => (2 ^ i.bits.length, bitsVal i.bits)).foldl (fun a d => a * d.1 + d.2) 0 := by
    intro l
    induction l with
    | nil => rfl
    | cons i l ih =>
      rw [List.flatMap_cons, bitsVal_append, ih, List.reverse_cons, List.map_append, List.foldl_append]
      simp only [List.map_cons, List.map_nil, List.foldl_cons, List.foldl_nil]
      ring
  have := key index.reverse
  rw [List.reverse_reverse] at this
  exact this

theorem length_index (index : List Ind) : (index.reverse.flatMap (·.bits)).length = (index.map (·.bits.length)).sum := by
  rw [List.length_flatMap, List.map_reverse, List.sum_reverse]

/-! ### Shifts while tracing -/

theorem cycOneJasp_eq {idx : List ℕ} (h : idx ≠ []) : cycOneJasp idx = cyc1 idx := by
  have hpos := List.length_pos_iff.2 h
  have hMN : 2 ^ Nat.log 2 idx.length ≤ idx.length := Nat.pow_log_le_self 2 (by omega)
  have h1 : idx.take 1 = [idx.getD 0 0] := by
    rcases idx with _ | ⟨a, l⟩
    · exact absurd rfl h
    · rfl
  unfold cycOneJasp cyc1
  simp only
  rw [h1, List.singleton_append, List.length_cons, List.length_take, List.length_drop, min_eq_left hMN]
  by_cases hl : idx.length ≤ 1
  · rw [if_pos hl]
    have : idx.length = 1 := by omega
    rw [this]
    have e1 : ladder (2 ^ Nat.log 2 1) = [] := by decide
    have e2 : saeedi (1 - 2 ^ Nat.log 2 1 + 1) = [] := by decide
    rw [e1, e2]
    rfl
  · rw [if_neg hl]

theorem cyclicShiftJasp_spec {idx : List ℕ} (hnd : idx.Nodup) (hN : idx ≠ []) (k : ℤ) (v : ℕ → α) :
    (∀ t, t < idx.length → runP (cyclicShiftJasp idx k) v (idx.getD (((t : ℤ) + k) % idx.length).toNat 0) =
      v (idx.getD t 0)) ∧ ∀ q, q ∉ idx → runP (cyclicShiftJasp idx k) v q = v q := by
  have hpos : 0 < idx.length := List.length_pos_iff.2 hN
  have hNz : (0 : ℤ) < idx.length := by exact_mod_cast hpos
  have hone : ∀ v : ℕ → α, (∀ t : ℤ, runP (cyc1 idx) v (idx.getD ((t + 1) % idx.length).toNat 0) =
      v (idx.getD (t % idx.length).toNat 0)) ∧ ∀ q, q ∉ idx → runP (cyc1 idx) v q = v q := by
    intro v
    obtain ⟨c1, c2⟩ := cyc1_spec hnd v
    refine ⟨fun t => ?_, c2⟩
    have a := Int.emod_nonneg t hNz.ne'
    have b := Int.emod_lt_of_pos t hNz
    rw [Int.add_emod]
    by_cases hl : idx.length = 1
    · have h1 := c1 0 (by omega)
      rw [if_pos rfl, hl] at h1
      rw [hl]
      simpa using h1
    · have e1 : (1 : ℤ) % idx.length = 1 := Int.emod_eq_of_lt (by omega) (by omega)
      rw [e1]
      by_cases htl : t % idx.length + 1 = idx.length
      · rw [htl, Int.emod_self]
        have := c1 0 (by omega)
        rw [if_pos rfl] at this
        rw [show (0 : ℤ).toNat = 0 from rfl, this]
        congr 2; omega
      · rw [Int.emod_eq_of_lt (by omega) (by omega)]
        have := c1 (t % idx.length + 1).toNat (by omega)
        rw [this, if_neg (by omega)]
        congr 2; omega
  have hrep : ∀ (n : ℕ) (v : ℕ → α), (∀ t : ℤ, runP ((List.replicate n (cyc1 idx)).flatten) v
      (idx.getD ((t + n) % idx.length).toNat 0) = v (idx.getD (t % idx.length).toNat 0)) ∧
      ∀ q, q ∉ idx → runP ((List.replicate n (cyc1 idx)).flatten) v q = v q := by
    intro n
    induction n with
    | zero => intro v; exact ⟨fun t => by simp [runP], fun q _ => rfl⟩
    | succ n ih =>
      intro v
      rw [List.replicate_succ, List.flatten_cons]
      refine ⟨fun t => ?_, fun q hq => ?_⟩
      · rw [runP_append]
        have := (ih (runP (cyc1 idx) v)).1 (t + 1)
        rw [show t + 1 + (n : ℤ) = t + ((n + 1 : ℕ) : ℤ) by push_cast; ring] at this
        rw [this, (hone v).1 t]
      · rw [runP_append, (ih _).2 q hq, (hone v).2 q hq]
  have hmodt : ∀ t, t < idx.length → ((t : ℤ) % idx.length).toNat = t := fun t ht => by
    rw [Int.emod_eq_of_lt (by omega) (by omega)]; rfl
  unfold cyclicShiftJasp
  rw [cycOneJasp_eq hN]
  by_cases hk : k < 0
  · rw [if_pos hk]
    set L := (List.replicate (-k).toNat (cyc1 idx)).flatten with hL
    have hcast : (((-k).toNat : ℕ) : ℤ) = -k := Int.toNat_of_nonneg (by omega)
    obtain ⟨r1, r2⟩ := hrep (-k).toNat (runP L.reverse v)
    rw [← hL, runP_reverse] at r1
    rw [← hL, runP_reverse] at r2
    refine ⟨fun t ht => ?_, fun q hq => (r2 q hq).symm⟩
    have := r1 (t + k)
    rw [hcast, show (t : ℤ) + k + -k = t by ring, hmodt t ht] at this
    exact this.symm
  · rw [if_neg hk]
    have hcast : ((k.toNat : ℕ) : ℤ) = k := Int.toNat_of_nonneg (by omega)
    obtain ⟨r1, r2⟩ := hrep k.toNat v
    refine ⟨fun t ht => ?_, r2⟩
    have := r1 t
    rw [hcast, hmodt t ht] at this
    exact this

end Verif.Iter
