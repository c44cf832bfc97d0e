import Verif.Rev.QclaCq
import Mathlib.Data.List.Nodup

/-! # The sum path of the carry-lookahead adder -/

namespace Verif.Rev.Qcla

open Verif.Rev

/-! ### Arithmetic of the blocks -/

theorem nc_spec {nb R : Nat} (hR : 0 < R) (hb : 0 < nb) : nc nb R * R < nb ∧ nb ≤ (nc nb R + 1) * R := by
  have h1 : ceilDiv nb R * R < nb + R ∧ nb ≤ ceilDiv nb R * R := by
    rw [ceilDiv]
    have h := Nat.div_add_mod (nb + R - 1) R
    have h2 := Nat.mod_lt (nb + R - 1) hR
    rw [Nat.mul_comm] at h
    omega
  have h2 : 0 < ceilDiv nb R := Nat.pos_of_ne_zero fun h => by rw [h] at h1; omega
  have e : ceilDiv nb R = nc nb R + 1 := by rw [nc]; omega
  rw [e, Nat.add_mul] at h1
  rw [Nat.add_mul]
  omega

theorem blen_lt {nb R j : Nat} (h : R * (j + 1) ≤ nb) : blen nb R j = R := by
  rw [blen, Nat.min_eq_left h, Nat.mul_add]; omega

theorem blen_le {nb R j : Nat} (h : R * j ≤ nb) : R * j + blen nb R j = min (R * (j + 1)) nb := by
  rw [blen, Nat.mul_add]; omega

/-- The sum of a block with its carry-in, for the bits `x` of the addend. -/
def T (nb R : Nat) (x : Nat → Bool) (j : Nat) (s : St W) : Nat :=
  nv (fun i => x (R * j + i)) (blen nb R j) + nv (fun i => s (.b (R * j + i))) (blen nb R j) + (optBit (cIn R j) s).toNat

/-- Addition of one block: `b_block += a_block + c_in`, the carry toggles `c[j]`. -/
structure Step (nb C R : Nat) (x : Nat → Bool) (j : Nat) (s s' : St W) : Prop where
  val : nv (fun i => s' (.b (R * j + i))) (blen nb R j) = T nb R x j s % 2 ^ blen nb R j
  out : j < C → s' (cw R j) = (s (cw R j) ^^ decide (2 ^ blen nb R j ≤ T nb R x j s))
  rest : ∀ q, (∀ i < blen nb R j, q ≠ .b (R * j + i)) → (j < C → q ≠ cw R j) → s' q = s q

/-- The state after the blocks `n, …, C` have been added. -/
structure Done (nb C R : Nat) (x : Nat → Bool) (s0 s1 : St W) (n : Nat) (u : St W) : Prop where
  val : ∀ j, n ≤ j → j ≤ C → nv (fun i => u (.b (R * j + i))) (blen nb R j) = T nb R x j s1 % 2 ^ blen nb R j
  c : ∀ j, n ≤ j → j < C → u (cw R j) = false
  rest : ∀ q, (∀ i, R * n ≤ i → i < nb → q ≠ .b i) → (∀ j, n ≤ j → j < C → q ≠ cw R j) → u q = s1 q

theorem cw_inj {R i j : Nat} (hR : 0 < R) (h : cw R i = cw R j) : i = j := by
  injection h with h
  have h1 := Nat.mul_pos (Nat.succ_pos i) hR
  have h2 := Nat.mul_pos (Nat.succ_pos j) hR
  simp only [Nat.succ_eq_add_one] at h1 h2
  have := Nat.eq_of_mul_eq_mul_right hR (show (i + 1) * R = (j + 1) * R by omega)
  omega

theorem le_iff_div {N M u v : Nat} (hN : 0 < N) : N * M ≤ u + N * v ↔ M ≤ v + u / N := by
  have : v + u / N = (u + N * v) / N := by rw [Nat.add_mul_div_left _ _ hN]; omega
  rw [this, Nat.le_div_iff_mul_le hN, Nat.mul_comm]

theorem mod_combine {N M u v : Nat} (hN : 0 < N) : u % N + N * ((v + u / N) % M) = (u + N * v) % (N * M) := by
  rw [Nat.mod_mul, Nat.add_mul_mod_self_left, Nat.add_mul_div_left _ _ hN, Nat.add_comm v]

/-- The carry into block `j`. -/
theorem cin_val {C R j : Nat} {x : Nat → Bool} {s0 s1 : St W} (h : CarryRes C R x s0 s1) (hj : j ≤ C) :
    (optBit (cIn R j) s1).toNat = (nv x (R * j) + nv (fun i => s0 (.b i)) (R * j)) / 2 ^ (R * j) := by
  cases j with
  | zero => simp [cIn, nv]
  | succ j =>
    rw [cIn, if_neg (by omega), optBit_some, Nat.add_sub_cancel, h.c j (by omega), Nat.mul_comm]
    have h1 := nv_lt x (R * (j + 1))
    have h2 := nv_lt (fun i => s0 (.b i)) (R * (j + 1))
    generalize nv x (R * (j + 1)) = X at *
    generalize nv (fun i => s0 (.b i)) (R * (j + 1)) = Y at *
    generalize 2 ^ (R * (j + 1)) = N at *
    by_cases hc : N ≤ X + Y
    · have : (X + Y) / N = 1 := by rw [Nat.div_eq_iff (by omega)]; omega
      simp [hc, this]
    · have : (X + Y) / N = 0 := Nat.div_eq_of_lt (by omega)
      simp [hc, this]

theorem T_val {nb C R j : Nat} {x : Nat → Bool} {s0 s1 : St W} (h : CarryRes C R x s0 s1) (hj : j ≤ C) :
    T nb R x j s1 = (nv (fun i => x (R * j + i)) (blen nb R j) + nv (fun i => s0 (.b (R * j + i))) (blen nb R j))
      + (nv x (R * j) + nv (fun i => s0 (.b i)) (R * j)) / 2 ^ (R * j) := by
  rw [T, cin_val h hj]
  congr 2
  exact nv_congr fun i _ => h.rest _ fun j _ => by simp [cw]

theorem Done_step {nb C R n : Nat} {x : Nat → Bool} {s0 s1 u u' : St W} (hR : 0 < R) (hC1 : C * R < nb)
    (h : CarryRes C R x s0 s1) (hn : n ≤ C) (hd : Done nb C R x s0 s1 (n + 1) u) (hs : Step nb C R x n u u') :
    Done nb C R x s0 s1 n u' := by
  have hlen : ∀ j, j < C → blen nb R j = R := fun j hj => blen_lt (by
    have := Nat.mul_le_mul_left R (show j + 1 ≤ C by omega)
    rw [Nat.mul_comm R C] at this; omega)
  have hnb : ∀ j, j ≤ C → R * j < nb := fun j hj => by
    have := Nat.mul_le_mul_left R hj
    rw [Nat.mul_comm R C] at this; omega
  -- the block and the carries of this step are untouched so far
  have ub : ∀ i < blen nb R n, u (.b (R * n + i)) = s1 (.b (R * n + i)) := fun i hi => hd.rest _
    (fun i' h1 h2 h => by
      injection h with h
      have := blen_le (le_of_lt (hnb n hn))
      have h3 : R * (n + 1) = R * n + R := by ring
      omega)
    (fun j _ _ => by simp [cw])
  have uT : T nb R x n u = T nb R x n s1 := by
    rw [T, T, nv_congr ub]
    congr 2
    rw [cIn]
    split
    · rfl
    · rw [optBit_some, optBit_some]
      refine hd.rest _ (fun i _ _ => by simp [cw]) fun j h1 h2 h => ?_
      have := cw_inj hR h
      omega
  constructor
  · intro j h1 h2
    by_cases hj : j = n
    · subst hj; rw [hs.val, uT]
    · rw [← hd.val j (by omega) h2]
      refine nv_congr fun i hi => hs.rest _ (fun i' hi' h => ?_) fun _ => by simp [cw]
      injection h with h
      have h3 := Nat.mul_le_mul_left R (show n + 1 ≤ j by omega)
      rw [Nat.mul_add, Nat.mul_one] at h3
      have : blen nb R n ≤ R := by rw [blen, Nat.mul_add]; omega
      omega
  · intro j h1 h2
    by_cases hj : j = n
    · subst hj
      rw [hs.out h2, uT, hd.rest (cw R j) (fun i _ _ => by simp [cw]) (fun i h3 _ h => by have := cw_inj hR h; omega), h.c j h2,
        T_val h hn, hlen j h2]
      have e1 : (j + 1) * R = R * j + R := by ring
      rw [e1, nv_add, nv_add, pow_add]
      have := le_iff_div (N := 2 ^ (R * j)) (M := 2 ^ R) (u := nv x (R * j) + nv (fun i => s0 (.b i)) (R * j))
        (v := nv (fun i => x (R * j + i)) R + nv (fun i => s0 (.b (R * j + i))) R) (by positivity)
      rw [decide_eq_decide.2 ?_, Bool.xor_self]
      rw [← this, Nat.mul_add]
      constructor <;> intro h <;> omega
    · rw [hs.rest _ (fun i _ => by simp [cw]) fun _ h => hj (cw_inj hR h), hd.c j (by omega) h2]
  · intro q h1 h2
    rw [hs.rest q (fun i hi => h1 _ (by omega) (by have := blen_le (le_of_lt (hnb n hn)); omega)) (fun h3 => h2 n le_rfl h3)]
    refine hd.rest q (fun i h3 => h1 i ?_) fun j h3 => h2 j (by omega)
    rw [Nat.mul_add] at h3; omega

/-- The block values make up the sum. -/
theorem vals_sum {nb C R : Nat} {x : Nat → Bool} {s0 s1 u : St W} (hC1 : C * R < nb) (hC2 : nb ≤ (C + 1) * R)
    (h : CarryRes C R x s0 s1)
    (hd : ∀ j ≤ C, nv (fun i => u (.b (R * j + i))) (blen nb R j) = T nb R x j s1 % 2 ^ blen nb R j) :
    nv (fun i => u (.b i)) nb = (nv x nb + nv (fun i => s0 (.b i)) nb) % 2 ^ nb := by
  have : ∀ j, j ≤ C → nv (fun i => u (.b i)) (min (R * (j + 1)) nb)
      = (nv x (min (R * (j + 1)) nb) + nv (fun i => s0 (.b i)) (min (R * (j + 1)) nb)) % 2 ^ min (R * (j + 1)) nb := by
    intro j
    induction j with
    | zero =>
      intro _
      have hv := hd 0 (by omega)
      rw [T_val h (by omega)] at hv
      have e := blen_le (nb := nb) (R := R) (j := 0) (by omega)
      simp only [Nat.mul_zero, Nat.zero_add, nv, Nat.zero_div, Nat.add_zero, pow_zero] at hv e
      rw [Nat.zero_add, ← e]; exact hv
    | succ j ih =>
      intro hj
      have hnb : R * (j + 1) ≤ nb := by
        have := Nat.mul_le_mul_left R hj
        rw [Nat.mul_comm R C] at this; omega
      have hv := hd (j + 1) hj
      have ihj := ih (by omega)
      rw [Nat.min_eq_left hnb] at ihj
      rw [← blen_le hnb, nv_add, hv, ihj, T_val h hj, mod_combine (by positivity), ← pow_add, nv_add, nv_add, Nat.mul_add]
      congr 1
      ring
  have := this C le_rfl
  rw [Nat.mul_comm, Nat.min_eq_right hC2] at this
  exact this

/-- All blocks added: the register holds the sum and the carries are gone. -/
theorem Done_val {nb C R : Nat} {x : Nat → Bool} {s0 s1 u : St W} (hC1 : C * R < nb) (hC2 : nb ≤ (C + 1) * R)
    (h : CarryRes C R x s0 s1) (hz : ∀ i, s0 (.g i) = false) (hd : Done nb C R x s0 s1 0 u) :
    nv (fun i => u (.b i)) nb = (nv x nb + nv (fun i => s0 (.b i)) nb) % 2 ^ nb ∧
      ∀ q, (∀ i < nb, q ≠ .b i) → u q = s0 q := by
  constructor
  · exact vals_sum hC1 hC2 h fun j hj => hd.val j (by omega) hj
  · intro q hq
    by_cases hc : ∃ j < C, q = cw R j
    · obtain ⟨j, hj, rfl⟩ := hc
      rw [hd.c j (by omega) hj, cw, hz]
    · push Not at hc
      rw [hd.rest q (fun i _ => hq i) fun j _ => hc j, h.rest q hc]

/-! ### The block adders -/

@[simp] theorem bblk_length (nb R j : Nat) : (bblk nb R j).length = blen nb R j := by simp [bblk]
@[simp] theorem ablk_length (na R j : Nat) : (ablk na R j).length = blen na R j := by simp [ablk]
@[simp] theorem ancs_length (n : Nat) : (ancs n).length = n := by simp [ancs]
@[simp] theorem pads_length (n : Nat) : (pads n).length = n := by simp [pads]

theorem mem_bblk {nb R j : Nat} {q : W} : q ∈ bblk nb R j ↔ ∃ i < blen nb R j, q = .b (R * j + i) := by
  simp only [bblk, List.mem_map, List.mem_range, eq_comm]
theorem mem_ablk {na R j : Nat} {q : W} : q ∈ ablk na R j ↔ ∃ i < blen na R j, q = .a (R * j + i) := by
  simp only [ablk, List.mem_map, List.mem_range, eq_comm]
theorem mem_ancs {n : Nat} {q : W} : q ∈ ancs n ↔ ∃ i < n, q = .anc i := by
  simp only [ancs, List.mem_map, List.mem_range, eq_comm]
theorem mem_pads {n : Nat} {q : W} : q ∈ pads n ↔ ∃ i < n, q = .pad i := by
  simp only [pads, List.mem_map, List.mem_range, eq_comm]

theorem bblk_nodup (nb R j : Nat) : (bblk nb R j).Nodup :=
  List.Nodup.map (fun a b h => by injection h with h; omega) List.nodup_range
theorem ablk_nodup (na R j : Nat) : (ablk na R j).Nodup :=
  List.Nodup.map (fun a b h => by injection h with h; omega) List.nodup_range
theorem ancs_nodup (n : Nat) : (ancs n).Nodup :=
  List.Nodup.map (fun a b h => by injection h with h) List.nodup_range
theorem pads_nodup (n : Nat) : (pads n).Nodup :=
  List.Nodup.map (fun a b h => by injection h with h) List.nodup_range

theorem regVal_bblk (nb R j : Nat) (s : St W) : regVal (bblk nb R j) s = nv (fun i => s (.b (R * j + i))) (blen nb R j) :=
  regVal_nv _ _ _

theorem cInOut_nodup {C R j : Nat} (hR : 0 < R) : ((cIn R j).toList ++ (cOut C R j).toList).Nodup := by
  rw [cIn, cOut]
  split <;> split <;> simp
  intro h
  have := cw_inj hR h
  omega

theorem cIn_g {R j : Nat} {q : W} (h : q ∈ (cIn R j).toList) : ∃ i, q = .g i := by
  rw [cIn] at h
  split at h <;> simp at h
  exact ⟨_, h⟩

theorem cOut_g {C R j : Nat} {q : W} (h : q ∈ (cOut C R j).toList) : ∃ i, q = .g i := by
  rw [cOut] at h
  split at h <;> simp at h
  exact ⟨_, h⟩

theorem mem_cOut {C R j : Nat} {q : W} : q ∈ (cOut C R j).toList ↔ j < C ∧ q = cw R j := by
  rw [cOut]
  split <;> simp_all [eq_comm]

/-- A block adder that treats block and carry-out as one register makes a `Step`. -/
theorem Step_of {nb C R j : Nat} {x : Nat → Bool} {s s' : St W}
    (hv : regVal (bblk nb R j ++ (cOut C R j).toList) s' = (regVal (bblk nb R j ++ (cOut C R j).toList) s +
      (nv (fun i => x (R * j + i)) (blen nb R j) + (optBit (cIn R j) s).toNat)) % 2 ^ (bblk nb R j ++ (cOut C R j).toList).length)
    (hf : ∀ q, q ∉ bblk nb R j ++ (cOut C R j).toList → s' q = s q) : Step nb C R x j s s' := by
  have h1 := nv_lt (fun i => x (R * j + i)) (blen nb R j)
  have h2 := nv_lt (fun i => s (.b (R * j + i))) (blen nb R j)
  have h3 := Bool.toNat_le (optBit (cIn R j) s)
  have hrest : ∀ q, (∀ i < blen nb R j, q ≠ .b (R * j + i)) → (j < C → q ≠ cw R j) → s' q = s q := by
    intro q hq1 hq2
    refine hf q fun hq => ?_
    rcases List.mem_append.1 hq with hq | hq
    · obtain ⟨i, hi, e⟩ := mem_bblk.1 hq; exact hq1 i hi e
    · obtain ⟨hi, e⟩ := mem_cOut.1 hq; exact hq2 hi e
  by_cases hj : j < C
  · have ho : (cOut C R j).toList = [cw R j] := by simp [cOut, hj]
    rw [ho] at hv
    have := top_split (bblk nb R j) (cw R j) s s' (T nb R x j s) (by rw [T, bblk_length]; omega) (by
      rw [hv, regVal_append, regVal_bblk, T]
      simp only [List.length_append, bblk_length, List.length_singleton, regVal_cons, regVal_nil]
      congr 1; ring)
    rw [bblk_length, regVal_bblk] at this
    exact ⟨this.1, fun _ => this.2, hrest⟩
  · have ho : (cOut C R j).toList = [] := by simp [cOut, hj]
    rw [ho, List.append_nil, regVal_bblk, regVal_bblk, bblk_length] at hv
    refine ⟨?_, fun h => absurd h hj, hrest⟩
    rw [hv, T]; congr 1; omega

theorem bblk_ne {nb R j : Nat} (h : blen nb R j ≠ 0) : bblk nb R j ≠ [] := by
  intro h1; apply h; rw [← bblk_length nb R j, h1]; rfl

/-- The incrementor. -/
theorem linIncr_step {nb C R j : Nat} {x : Nat → Bool} (hR : 0 < R) (hj : j ≠ 0) (hl : blen nb R j ≠ 0) (s : St W)
    (hx : nv (fun i => x (R * j + i)) (blen nb R j) = 0) (hz : ∀ i, s (.anc i) = false) :
    Step nb C R x j s (run (linIncr (bblk nb R j) (ancs (blen nb R j + (cOut C R j).toList.length - 1)) (cIn R j) (cOut C R j)) s) ∧
      ok (linIncr (bblk nb R j) (ancs (blen nb R j + (cOut C R j).toList.length - 1)) (cIn R j) (cOut C R j)) s := by
  have hc : cIn R j = some (cw R (j - 1)) := by rw [cIn, if_neg hj]
  have hnd : (cw R (j - 1) :: (bblk nb R j ++ (cOut C R j).toList ++ ancs (blen nb R j + (cOut C R j).toList.length - 1))).Nodup := by
    rw [List.nodup_cons, List.nodup_append', List.nodup_append']
    have h0 := cInOut_nodup (C := C) (j := j) hR
    rw [hc, Option.toList_some, List.singleton_append, List.nodup_cons] at h0
    refine ⟨?_, ⟨bblk_nodup _ _ _, h0.2, ?_⟩, ancs_nodup _, ?_⟩
    · intro h
      rcases List.mem_append.1 h with h | h
      · rcases List.mem_append.1 h with h | h
        · obtain ⟨i, _, h⟩ := mem_bblk.1 h; simp [cw] at h
        · exact h0.1 h
      · obtain ⟨i, _, h⟩ := mem_ancs.1 h; simp [cw] at h
    · intro q h1 h2
      obtain ⟨i, _, rfl⟩ := mem_bblk.1 h1
      obtain ⟨i, h⟩ := cOut_g h2; simp at h
    · intro q h1 h2
      obtain ⟨i, _, rfl⟩ := mem_ancs.1 h2
      rcases List.mem_append.1 h1 with h | h
      · obtain ⟨i, _, h⟩ := mem_bblk.1 h; simp at h
      · obtain ⟨i, h⟩ := cOut_g h; simp at h
  obtain ⟨h1, h2, h3⟩ := linIncr_spec (bblk nb R j) (ancs (blen nb R j + (cOut C R j).toList.length - 1)) (cw R (j - 1)) (cOut C R j) s
    (by simp [bblk_ne hl]) hnd (by simp only [ancs_length, List.length_append, bblk_length]; omega) (by
      intro q hq; obtain ⟨i, _, rfl⟩ := mem_ancs.1 hq; exact hz i)
  rw [hc]
  refine ⟨Step_of ?_ h2, h3⟩
  rw [h1, hx, hc, optBit_some, Nat.zero_add]

/-- The quantum-quantum block adder. -/
theorem addBlock_step {na nb C R j : Nat} (hR : 0 < R) (hab : na ≤ nb) (hl : blen na R j ≠ 0) (s : St W)
    (hz : ∀ i, s (.anc i) = false) (hp : ∀ i, s (.pad i) = false) :
    Step nb C R (abits na s) j s (run (addBlock na nb C R j) s) ∧ ok (addBlock na nb C R j) s := by
  have hle : blen na R j ≤ blen nb R j := by rw [blen, blen]; omega
  have hlen : blen na R j + (blen nb R j - blen na R j) = blen nb R j := by omega
  rw [addBlock, if_neg hl]
  have hnd : (bblk nb R j ++ (ablk na R j ++ pads (blen nb R j - blen na R j)) ++ [] ++
      ancs (blen nb R j + (cOut C R j).toList.length - 1) ++ (cIn R j).toList ++ (cOut C R j).toList ++
        (none : Option W).toList).Nodup := by
    rw [Option.toList_none, List.append_nil, List.append_nil, List.append_assoc _ (cIn R j).toList, List.nodup_append',
      List.nodup_append', List.nodup_append', List.nodup_append']
    refine ⟨⟨⟨bblk_nodup _ _ _, ⟨ablk_nodup _ _ _, pads_nodup _, ?_⟩, ?_⟩, ancs_nodup _, ?_⟩, cInOut_nodup hR, ?_⟩
    · intro q h1 h2
      obtain ⟨i, _, rfl⟩ := mem_ablk.1 h1
      obtain ⟨i, _, h⟩ := mem_pads.1 h2; simp at h
    · intro q h1 h2
      obtain ⟨i, _, rfl⟩ := mem_bblk.1 h1
      rcases List.mem_append.1 h2 with h | h
      · obtain ⟨i, _, h⟩ := mem_ablk.1 h; simp at h
      · obtain ⟨i, _, h⟩ := mem_pads.1 h; simp at h
    · intro q h1 h2
      obtain ⟨i, _, rfl⟩ := mem_ancs.1 h2
      rcases List.mem_append.1 h1 with h | h
      · obtain ⟨i, _, h⟩ := mem_bblk.1 h; simp at h
      · rcases List.mem_append.1 h with h | h
        · obtain ⟨i, _, h⟩ := mem_ablk.1 h; simp at h
        · obtain ⟨i, _, h⟩ := mem_pads.1 h; simp at h
    · intro q h1 h2
      obtain ⟨i, rfl⟩ : ∃ i, q = .g i := by
        rcases List.mem_append.1 h2 with h | h
        · exact cIn_g h
        · exact cOut_g h
      rcases List.mem_append.1 h1 with h | h
      · rcases List.mem_append.1 h with h | h
        · obtain ⟨i, _, h⟩ := mem_bblk.1 h; simp at h
        · rcases List.mem_append.1 h with h | h
          · obtain ⟨i, _, h⟩ := mem_ablk.1 h; simp at h
          · obtain ⟨i, _, h⟩ := mem_pads.1 h; simp at h
      · obtain ⟨i, _, h⟩ := mem_ancs.1 h; simp at h
  obtain ⟨h1, -, h3, h4⟩ := gidneyQ_spec (ablk na R j ++ pads (blen nb R j - blen na R j)) (bblk nb R j) []
    (ancs (blen nb R j + (cOut C R j).toList.length - 1)) (cIn R j) (cOut C R j) none s hnd (bblk_ne (by omega))
    (by simp only [List.length_nil, List.length_append, bblk_length, ablk_length, pads_length]; omega)
    (by simp only [bblk_length, ancs_length]; omega) (by simp)
    (by intro q hq; obtain ⟨i, _, rfl⟩ := mem_ancs.1 hq; exact hz i)
  have hA : nv (fun i => abits na s (R * j + i)) (blen nb R j) = nv (fun i => s (.a (R * j + i))) (blen na R j) := by
    rw [← hlen, nv_add, nv_zero (f := fun i => abits na s (R * j + (blen na R j + i))), Nat.mul_zero, Nat.add_zero]
    · refine nv_congr fun i hi => ?_
      have : R * j + i < na := by rw [blen] at hi; omega
      simp [abits, this]
    · intro i hi
      have : ¬ R * j + (blen na R j + i) < na := by rw [blen, blen] at hi; rw [blen] at hl ⊢; omega
      simp [abits, this]
  have hT : regVal (ablk na R j ++ pads (blen nb R j - blen na R j)) s % 2 ^ (bblk nb R j).length
      + regVal (bblk nb R j) s + (optBit (cIn R j) s).toNat = T nb R (abits na s) j s := by
    rw [T, hA, regVal_bblk, bblk_length, regVal_append, regVal_zero (l := pads _) (by
      intro q hq; obtain ⟨i, _, rfl⟩ := mem_pads.1 hq; exact hp i), Nat.mul_zero, Nat.add_zero, ablk, regVal_nv, Nat.mod_eq_of_lt]
    exact lt_of_lt_of_le (nv_lt _ _) (Nat.pow_le_pow_right (by omega) hle)
  rw [hT, bblk_length, regVal_bblk] at h1
  refine ⟨⟨(h1 rfl).1, fun hj => (h1 rfl).2 _ (by rw [cOut, if_pos hj]), fun q hq1 hq2 => h3 q ?_ ?_⟩, h4 rfl⟩
  · intro hq; obtain ⟨i, hi, e⟩ := mem_bblk.1 hq; exact hq1 i hi e
  · intro o ho e
    have : q ∈ (cOut C R j).toList := by rw [ho, e]; simp
    obtain ⟨hi, e⟩ := mem_cOut.1 this; exact hq2 hi e

theorem onBit_ctlQ (ctrl : Bool) (s : St W) : ctrlOn (ctlQ ctrl) s = onBit ctrl s := by
  cases ctrl <;> simp [ctlQ, onBit]

theorem xblk_nv (x : Nat → Bool) (nb R j : Nat) : xblk x nb R j = nv (fun i => x (R * j + i)) (blen nb R j) := bv_nv _ _

/-- The classical-quantum block adder. -/
theorem gidneyC_step {nb C R j : Nat} {x : Nat → Bool} {ctrl : Bool} (hR : 0 < R) (hl : blen nb R j ≠ 0) (s : St W) (ci : Option W)
    (hci : ci = cIn R j ∨ ci = none ∧ optBit (cIn R j) s = false)
    (hoff : onBit ctrl s = false → optBit (cIn R j) s = false) (hz : ∀ i, s (.anc i) = false) :
    let G := gidneyCInt (xblk x nb R j) (bblk nb R j) (ancs (ci.toList.length + blen nb R j + (cOut C R j).toList.length - 1))
      ci (cOut C R j) (ctlQ ctrl)
    Step nb C R (fun i => onBit ctrl s && x i) j s (run G s) ∧ ok G s := by
  intro G
  have hcm : ∀ q ∈ ci.toList, q ∈ (cIn R j).toList := by
    rcases hci with rfl | ⟨rfl, _⟩ <;> simp
  have hcn : (ci.toList ++ (cOut C R j).toList).Nodup := by
    have := cInOut_nodup (C := C) (j := j) hR
    rcases hci with rfl | ⟨rfl, _⟩
    · exact this
    · exact (List.nodup_append'.1 this).2.1
  have hcb : optBit ci s = optBit (cIn R j) s := by
    rcases hci with rfl | ⟨rfl, h⟩
    · rfl
    · rw [h]; rfl
  have hnd : (ci.toList ++ bblk nb R j ++ (cOut C R j).toList ++
      ancs (ci.toList.length + blen nb R j + (cOut C R j).toList.length - 1) ++ (ctlQ ctrl).toList).Nodup := by
    rw [List.nodup_append', List.nodup_append', List.nodup_append', List.nodup_append']
    rw [List.nodup_append'] at hcn
    refine ⟨⟨⟨⟨hcn.1, bblk_nodup _ _ _, ?_⟩, hcn.2.1, ?_⟩, ancs_nodup _, ?_⟩, by cases ctrl <;> simp [ctlQ], ?_⟩
    · intro q h1 h2
      obtain ⟨i, rfl⟩ := cIn_g (hcm q h1)
      obtain ⟨i, _, h⟩ := mem_bblk.1 h2; simp at h
    · intro q h1 h2
      rcases List.mem_append.1 h1 with h | h
      · exact hcn.2.2 h h2
      · obtain ⟨i, rfl⟩ := cOut_g h2
        obtain ⟨i, _, h⟩ := mem_bblk.1 h; simp at h
    · intro q h1 h2
      obtain ⟨i, _, rfl⟩ := mem_ancs.1 h2
      rcases List.mem_append.1 h1 with h | h
      · rcases List.mem_append.1 h with h | h
        · obtain ⟨i, h⟩ := cIn_g (hcm _ h); simp at h
        · obtain ⟨i, _, h⟩ := mem_bblk.1 h; simp at h
      · obtain ⟨i, h⟩ := cOut_g h; simp at h
    · intro q h1 h2
      obtain rfl : q = .ctl := by cases ctrl <;> simp [ctlQ] at h2; exact h2
      rcases List.mem_append.1 h1 with h | h
      · rcases List.mem_append.1 h with h | h
        · rcases List.mem_append.1 h with h | h
          · obtain ⟨i, h⟩ := cIn_g (hcm _ h); simp at h
          · obtain ⟨i, _, h⟩ := mem_bblk.1 h; simp at h
        · obtain ⟨i, h⟩ := cOut_g h; simp at h
      · obtain ⟨i, _, h⟩ := mem_ancs.1 h; simp at h
  have hx : (((xblk x nb R j : Nat) : Int) % (2 ^ (bblk nb R j).length : Int)).toNat = xblk x nb R j := by
    have : xblk x nb R j < 2 ^ blen nb R j := by rw [xblk_nv]; exact nv_lt _ _
    rw [bblk_length]
    have e : ((xblk x nb R j : Nat) : Int) % ((2 : Int) ^ blen nb R j) = ((xblk x nb R j % 2 ^ blen nb R j : Nat) : Int) := by
      push_cast; rfl
    rw [e, Int.toNat_natCast, Nat.mod_eq_of_lt this]
  have hG : G = gidneyC (xblk x nb R j) (bblk nb R j) (ancs (ci.toList.length + blen nb R j + (cOut C R j).toList.length - 1))
      ci (cOut C R j) (ctlQ ctrl) := by
    show gidneyCInt _ _ _ _ _ _ = _
    rw [gidneyCInt, hx]
  obtain ⟨h1, h2, h3⟩ := gidneyC_spec (xblk x nb R j) (bblk nb R j)
    (ancs (ci.toList.length + blen nb R j + (cOut C R j).toList.length - 1)) ci (cOut C R j) (ctlQ ctrl) s hnd (bblk_ne hl)
    (by simp only [bblk_length, ancs_length]; omega)
    (by intro q hq; obtain ⟨i, _, rfl⟩ := mem_ancs.1 hq; exact hz i)
  rw [hG]
  refine ⟨Step_of ?_ h2, h3⟩
  rw [h1, onBit_ctlQ, hcb, xblk_nv]
  congr 2
  cases ho : onBit ctrl s
  · rw [hoff ho]; simp [nv_zero]
  · simp

/-- One pass of the classical-quantum sum path. -/
theorem cqBlock_step {nb C R j : Nat} {x : Nat → Bool} {ctrl : Bool} {h : List (Gate W)} {s0 : St W} (hR : 0 < R)
    (hl : blen nb R j ≠ 0) (hz0 : ∀ q, local_ q = true → s0 q = false)
    (hoff : onBit ctrl (run h s0) = false → optBit (cIn R j) (run h s0) = false) (hz : ∀ i, run h s0 (.anc i) = false)
    (hok : ok h s0) :
    Step nb C R (fun i => onBit ctrl (run h s0) && x i) j (run h s0) (run (cqBlock ctrl x nb C R h j) s0) ∧
      ok (cqBlock ctrl x nb C R h j) s0 := by
  have hx0 : xblk x nb R j = 0 → nv (fun i => onBit ctrl (run h s0) && x (R * j + i)) (blen nb R j) = 0 := by
    intro h0
    cases onBit ctrl (run h s0)
    · exact nv_zero fun i _ => by simp
    · rw [xblk_nv] at h0; simpa using h0
  have hskip : (j = 0 ∨ fresh local_ h (cw R (j - 1)) = true) → optBit (cIn R j) (run h s0) = false := by
    rintro (h0 | h0)
    · simp [cIn, h0]
    · rw [cIn]
      split
      · rfl
      · rw [optBit_some]; exact fresh_run h0 s0 hz0
  rw [cqBlock]
  by_cases hs : j = 0 ∨ fresh local_ h (cw R (j - 1)) = true
  · simp only [hs, true_and, if_true]
    by_cases h0 : xblk x nb R j = 0
    · rw [if_pos h0]
      refine ⟨Step_of ?_ fun q _ => rfl, hok⟩
      rw [hx0 h0, hskip hs]
      simp only [Bool.toNat_false, Nat.add_zero]
      rw [Nat.mod_eq_of_lt (regVal_lt _ _)]
    · rw [if_neg h0, if_pos h0, run_append, ok_append]
      have := gidneyC_step (x := x) (C := C) hR hl (run h s0) none (Or.inr ⟨rfl, hskip hs⟩) hoff hz
      exact ⟨this.1, hok, this.2⟩
  · simp only [hs, false_and, if_false]
    have hc : cIn R j = some (cw R (j - 1)) := by rw [cIn, if_neg fun h => hs (Or.inl h)]
    by_cases h0 : xblk x nb R j = 0
    · rw [if_neg (by simp [h0]), run_append, ok_append]
      have := linIncr_step (x := fun i => onBit ctrl (run h s0) && x i) (C := C) hR (fun h => hs (Or.inl h)) hl (run h s0) (hx0 h0) hz
      rw [hc] at this
      exact ⟨this.1, hok, this.2⟩
    · rw [if_pos h0, run_append, ok_append]
      have := gidneyC_step (x := x) (C := C) hR hl (run h s0) (cIn R j) (Or.inl rfl) hoff hz
      rw [hc] at this
      exact ⟨this.1, hok, this.2⟩

end Verif.Rev.Qcla
