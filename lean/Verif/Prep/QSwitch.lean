import Verif.Prep.BitRev
import Verif.Circ.WState

/-!
`prepare_qswitch` (alg_primitives/state_preparation/qswitch_state_preparation.py).
Arrays are functions on numbers together with their length.  The qubit `qv[i]` is the number `i`.
-/

namespace Verif.Prep

open Verif.Circ
open Verif.Rev (upd)

/-- misc/utility.py:37: the square root of the machine epsilon of `float64`. -/
noncomputable def EPS : ℝ := Real.sqrt (1 / 2 ^ 52)

/-- `jnp.linalg.norm` of the first `L` entries. -/
noncomputable def nrm (L : Nat) (v : Nat → ℂ) : ℝ := Real.sqrt (∑ j ∈ Finset.range L, ‖v j‖ ^ 2)

/-- qswitch_state_preparation.py:75-128 `_normalize_with_phase`. -/
noncomputable def normPhase (L : Nat) (v : Nat → ℂ) (acc : ℝ) : ℝ × (Nat → ℂ) × ℝ :=
  if nrm L v > EPS then (nrm L v, fun j => v j / ((nrm L v : ℝ) * ph (Complex.arg (v 0))), acc + Complex.arg (v 0))
  else (nrm L v, fun j => if j = 0 then (if (v 0).re < 0 then -v 0 else v 0) else v j, acc)

/-- `vec[:half]` and `vec[half:]`. -/
def halfVec (h : Nat) (b : Bool) (v : Nat → ℂ) : Nat → ℂ := fun j => if b then v (h + j) else v j

/-- qswitch_state_preparation.py:237-256: `subvecs` and `acc_phases` of `_preprocess` before the layer `l`. -/
noncomputable def sub (n : Nat) (T : Nat → ℂ) : Nat → Nat → (Nat → ℂ) × ℝ
  | 0, _ => (T, 0)
  | l + 1, node => (normPhase (2 ^ (n - l - 1)) (halfVec (2 ^ (n - l - 1)) (node % 2 == 1) (sub n T l (node / 2)).1) (sub n T l (node / 2)).2).2

/-- qswitch_state_preparation.py:131-174 `_compute_thetas`: the angle of a node. -/
noncomputable def thetaN (n : Nat) (T : Nat → ℂ) (l node : Nat) : ℝ :=
  2 * Real.arccos (min 1 (normPhase (2 ^ (n - l - 1)) (halfVec (2 ^ (n - l - 1)) false (sub n T l node).1) (sub n T l node).2).1)

/-- qswitch_state_preparation.py:177-203 `_compute_u3_params` and 37-72 `_rot_params_from_state`: the matrix of
`u3(theta, phi, lam)` followed by `gphase(total_phase)` at a leaf. -/
noncomputable def leafM (n : Nat) (T : Nat → ℂ) (node : Nat) : M2 :=
  ph (normPhase 2 (sub n T (n - 1) node).1 (sub n T (n - 1) node).2).2.2 •
    u3m (2 * Real.arccos (max (-1) (min (Complex.re ((normPhase 2 (sub n T (n - 1) node).1 (sub n T (n - 1) node).2).2.1 0)) 1)))
      (if ‖(normPhase 2 (sub n T (n - 1) node).1 (sub n T (n - 1) node).2).2.1 1‖ > EPS then
        Complex.arg ((normPhase 2 (sub n T (n - 1) node).1 (sub n T (n - 1) node).2).2.1 1) else 0) 0 0

/-- The number held by the first `l` qubits, `qv[0]` being the least significant one: the index of the `q_switch`. -/
def idxL : Nat → (Nat → Bool) → Nat
  | 0, _ => 0
  | l + 1, c => idxL l c + (if c l then 2 ^ l else 0)

/-- qswitch_state_preparation.py:333-348: the loop over the layers `1, …, k`.  `q_switch` on the qubits before `l` selects the
operation on the qubit `l` by the value of these qubits (C89); its cases are 316-329 `case_fn`. -/
noncomputable def layers (n : Nat) (T : Nat → ℂ) : Nat → Amp Nat → Amp Nat
  | 0, ψ => ψ
  | k + 1, ψ => mux (fun c => rym (thetaN n T (k + 1) (bitReverse (idxL (k + 1) c) (k + 1)))) (k + 1) (layers n T k ψ)

/-- misc/utility.py:2229-2248 `swap_endianness`. -/
def swapEndian (n : Nat) (T : Nat → ℂ) : Nat → ℂ := fun j => T (bitrevIdx j n)

/-- qswitch_state_preparation.py:259-354 `prepare_qswitch(qv, target_array, big_endianness)` for a variable with `n` qubits and an
array with `2^n` entries, as an operator on amplitudes. -/
noncomputable def prepareQ (n : Nat) (T : Nat → ℂ) (big : Bool) (ψ : Amp Nat) : Amp Nat :=
  let T := fun j => T j / (nrm (2 ^ n) T : ℝ)
  let T := if big then T else swapEndian n T
  if n = 1 then app1 (leafM n T 0) 0 ψ
  else mux (fun c => leafM n T (bitReverse (idxL (n - 1) c) (n - 1))) (n - 1) (layers n T (n - 2) (app1 (rym (thetaN n T 0 0)) 0 ψ))

/-- alg_primitives/state_preparation/prepare_func.py:173-195 `prepare(qv, target_array, reversed, method="qswitch")` outside of
tracing: `none` is a `ValueError`.  `np.isclose(norm, 0.0)` is `|norm| ≤ 1e-8`. -/
noncomputable def prepareS (n size : Nat) (T : Nat → ℂ) (big : Bool) (ψ : Amp Nat) : Option (Amp Nat) :=
  if size ≠ 2 ^ n then none
  else if nrm size T ≤ 1 / 10 ^ 8 then none
  else some (prepareQ n (fun j => T j / (nrm size T : ℝ)) big ψ)

/-! ### Indices -/

theorem idxL_lt (c : Nat → Bool) : ∀ l, idxL l c < 2 ^ l
  | 0 => by simp [idxL]
  | l + 1 => by
    have := idxL_lt c l
    unfold idxL
    rw [pow_succ]
    cases c l <;> simp <;> omega

theorem idxL_testBit (c : Nat → Bool) : ∀ l k, (idxL l c).testBit k = (decide (k < l) && c k)
  | 0, k => by simp [idxL]
  | l + 1, k => by
    have h := idxL_lt c l
    have ih := idxL_testBit c l
    unfold idxL
    have e : idxL l c + (if c l then 2 ^ l else 0) = 2 ^ l * (c l).toNat + idxL l c := by cases c l <;> simp [add_comm]
    rw [e, Nat.testBit_two_pow_mul_add _ h]
    by_cases hk : k < l
    · rw [if_pos hk, ih, decide_eq_true hk, decide_eq_true (show k < l + 1 by omega)]
    · rw [if_neg hk]
      by_cases hk2 : k = l
      · subst hk2
        rw [Nat.sub_self, decide_eq_true (show k < k + 1 by omega)]
        cases c k <;> rfl
      · rw [decide_eq_false (show ¬ k < l + 1 by omega), Bool.false_and]
        obtain ⟨d, hd⟩ : ∃ d, k - l = d + 1 := ⟨k - l - 1, by omega⟩
        rw [hd]
        cases c l <;> simp [Nat.testBit_succ]

/-- The node of the tree reached with the first `l` bits. -/
def node : Nat → (Nat → Bool) → Nat
  | 0, _ => 0
  | l + 1, c => 2 * node l c + (c l).toNat

theorem node_succ (l : Nat) (c : Nat → Bool) : node (l + 1) c = 2 * node l c + (c l).toNat := rfl

theorem node_testBit (c : Nat → Bool) : ∀ l k, (node l c).testBit k = (decide (k < l) && c (l - 1 - k))
  | 0, k => by simp [node]
  | l + 1, k => by
    have ih := node_testBit c l
    unfold node
    cases k with
    | zero =>
      rw [decide_eq_true (show 0 < l + 1 by omega), Bool.true_and, Nat.testBit_zero, show l + 1 - 1 - 0 = l by omega]
      cases c l <;> simp
    | succ k =>
      rw [Nat.testBit_succ, show (2 * node l c + (c l).toNat) / 2 = node l c by cases c l <;> simp <;> omega, ih,
        show l + 1 - 1 - (k + 1) = l - 1 - k by omega]
      congr 1
      rw [decide_eq_decide]; omega

theorem node_rev {l : Nat} (hl : l ≤ 64) (c : Nat → Bool) : bitReverse (idxL l c) l = node l c := by
  refine Nat.eq_of_testBit_eq fun k => ?_
  rw [bitReverse_testBit hl, node_testBit, idxL_testBit]
  by_cases h : k < l
  · rw [decide_eq_true h, decide_eq_true (show l - 1 - k < l by omega), Bool.true_and, Bool.true_and]
  · rw [decide_eq_false h, Bool.false_and, Bool.false_and]

theorem node_idx (n : Nat) (c : Nat → Bool) : bitrevIdx (node n c) n = idxL n c := by
  refine Nat.eq_of_testBit_eq fun k => ?_
  rw [bitrevIdx_testBit, node_testBit, idxL_testBit]
  by_cases h : k < n
  · rw [decide_eq_true h, decide_eq_true (show n - 1 - k < n by omega), Bool.true_and, Bool.true_and, Bool.true_and]
    congr 1
    omega
  · rw [decide_eq_false h, Bool.false_and, Bool.false_and]

theorem node_lt (c : Nat → Bool) : ∀ l, node l c < 2 ^ l
  | 0 => by simp [node]
  | l + 1 => by
    have := node_lt c l
    unfold node
    rw [pow_succ]
    cases c l <;> simp <;> omega

theorem node_upd {l q : Nat} (h : l ≤ q) (c : Nat → Bool) (b : Bool) : ∀ k ≤ l, node k (upd c q b) = node k c
  | 0, _ => rfl
  | k + 1, hk => by
    unfold node
    rw [node_upd h c b k (by omega), Verif.Rev.upd_ne (by omega)]

theorem idxL_upd {l q : Nat} (h : l ≤ q) (c : Nat → Bool) (b : Bool) : ∀ k ≤ l, idxL k (upd c q b) = idxL k c
  | 0, _ => rfl
  | k + 1, hk => by
    unfold idxL
    rw [idxL_upd h c b k (by omega), Verif.Rev.upd_ne (by omega)]

/-! ### Norms -/

theorem nrm_nonneg (L : Nat) (v : Nat → ℂ) : 0 ≤ nrm L v := Real.sqrt_nonneg _

theorem nrm_sq (L : Nat) (v : Nat → ℂ) : nrm L v ^ 2 = ∑ j ∈ Finset.range L, ‖v j‖ ^ 2 :=
  Real.sq_sqrt (Finset.sum_nonneg fun _ _ => sq_nonneg _)

theorem nrm_zero {L : Nat} {v : Nat → ℂ} (h : nrm L v = 0) (j : Nat) (hj : j < L) : v j = 0 := by
  have h1 := nrm_sq L v
  rw [h, zero_pow (by decide)] at h1
  have h2 := (Finset.sum_eq_zero_iff_of_nonneg (fun i _ => sq_nonneg ‖v i‖)).mp h1.symm j (Finset.mem_range.mpr hj)
  exact norm_eq_zero.mp (pow_eq_zero_iff (by decide) |>.mp h2)

theorem nrm_le {L : Nat} {v : Nat → ℂ} (j : Nat) (hj : j < L) : ‖v j‖ ≤ nrm L v := by
  refine Real.le_sqrt_of_sq_le ?_
  exact Finset.single_le_sum (f := fun i => ‖v i‖ ^ 2) (fun i _ => sq_nonneg _) (Finset.mem_range.mpr hj)

theorem nrm_smul (L : Nat) (a : ℂ) (v : Nat → ℂ) : nrm L (fun j => a * v j) = ‖a‖ * nrm L v := by
  unfold nrm
  simp only [norm_mul, mul_pow]
  rw [← Finset.mul_sum, Real.sqrt_mul (sq_nonneg _), Real.sqrt_sq (norm_nonneg _)]

theorem nrm_congr {L : Nat} {v w : Nat → ℂ} (h : ∀ j < L, v j = w j) : nrm L v = nrm L w := by
  unfold nrm
  congr 1
  refine Finset.sum_congr rfl fun j hj => ?_
  rw [h j (Finset.mem_range.mp hj)]

theorem nrm_half (h : Nat) (v : Nat → ℂ) : nrm (h + h) v ^ 2 = nrm h (halfVec h false v) ^ 2 + nrm h (halfVec h true v) ^ 2 := by
  rw [nrm_sq, nrm_sq, nrm_sq, Finset.sum_range_add]
  rfl

theorem EPS_nonneg : 0 ≤ EPS := Real.sqrt_nonneg _
theorem EPS_lt_one : EPS < 1 := by
  unfold EPS
  rw [Real.sqrt_lt' one_pos]
  norm_num

/-! ### The tree -/

/-- The magnitude that the rotations give to a node. -/
noncomputable def wgt (n : Nat) (T : Nat → ℂ) : Nat → Nat → ℝ
  | 0, _ => 1
  | l + 1, k => wgt n T l (k / 2) * (if k % 2 == 1 then Real.sin (thetaN n T l (k / 2) / 2) else Real.cos (thetaN n T l (k / 2) / 2))

/-- Entries are zero or not too small. -/
def Big (n : Nat) (T : Nat → ℂ) : Prop := ∀ j < 2 ^ n, T j = 0 ∨ ‖T j‖ > EPS

/-- The relation between a node and the target. -/
structure Node (n : Nat) (T : Nat → ℂ) (l k : Nat) : Prop where
  pos : 0 ≤ wgt n T l k
  eq : ∀ j < 2 ^ (n - l), T (k * 2 ^ (n - l) + j) = (wgt n T l k : ℝ) * ph (sub n T l k).2 * (sub n T l k).1 j
  one : wgt n T l k = 0 ∨ nrm (2 ^ (n - l)) (sub n T l k).1 = 1

theorem norm_block {n : Nat} {T : Nat → ℂ} (hT : nrm (2 ^ n) T = 1) {L o : Nat} (ho : o + L ≤ 2 ^ n) : nrm L (fun j => T (o + j)) ≤ 1 := by
  rw [← hT]
  refine Real.sqrt_le_sqrt ?_
  have : ∑ j ∈ Finset.range L, ‖T (o + j)‖ ^ 2 = ∑ j ∈ Finset.Ico o (o + L), ‖T j‖ ^ 2 := by
    rw [Finset.sum_Ico_eq_sum_range, Nat.add_sub_cancel_left]
  rw [this]
  refine Finset.sum_le_sum_of_subset_of_nonneg ?_ fun _ _ _ => sq_nonneg _
  intro j hj
  rw [Finset.mem_Ico] at hj
  rw [Finset.mem_range]; omega

theorem block_lt {n l k : Nat} (hl : l ≤ n) (hk : k < 2 ^ l) : k * 2 ^ (n - l) + 2 ^ (n - l) ≤ 2 ^ n := by
  have : 2 ^ n = 2 ^ l * 2 ^ (n - l) := by rw [← pow_add]; congr 1; omega
  rw [this, ← Nat.succ_mul]
  exact Nat.mul_le_mul_right _ hk

theorem node_step {n : Nat} {T : Nat → ℂ} (hT : nrm (2 ^ n) T = 1) (hB : Big n T) {l k : Nat} (hl : l < n) (hk : k < 2 ^ (l + 1))
    (h : Node n T l (k / 2)) : Node n T (l + 1) k := by
  obtain ⟨hpos, heq, hone⟩ := h
  have hk2 : k / 2 < 2 ^ l := by rw [pow_succ] at hk; omega
  have hpow : 2 ^ (n - l) = 2 ^ (n - l - 1) + 2 ^ (n - l - 1) := by
    rw [← mul_two, ← pow_succ]; congr 1; omega
  have hnl : n - (l + 1) = n - l - 1 := by omega
  set H := 2 ^ (n - l - 1) with hH
  set p := sub n T l (k / 2) with hp
  set w := wgt n T l (k / 2) with hw
  set u := halfVec H (k % 2 == 1) p.1 with hu
  have hsub : sub n T (l + 1) k = (normPhase H u p.2).2 := rfl
  have hwgt : wgt n T (l + 1) k = w * (if k % 2 == 1 then Real.sin (thetaN n T l (k / 2) / 2) else Real.cos (thetaN n T l (k / 2) / 2)) := rfl
  -- the entries of the child
  have hent : ∀ j < H, T (k * H + j) = (w : ℝ) * ph p.2 * u j := by
    intro j hj
    have hb : (k % 2 == 1) = true ∨ (k % 2 == 1) = false := by cases (k % 2 == 1) <;> simp
    rcases hb with hb | hb
    · have e := heq (H + j) (by omega)
      rw [hu, hb]
      unfold halfVec
      rw [if_pos rfl, ← e]
      congr 1
      rw [beq_iff_eq] at hb
      have : k = k / 2 * 2 + 1 := by omega
      conv_lhs => rw [this]
      rw [hpow]; ring
    · have e := heq j (by omega)
      rw [hu, hb]
      unfold halfVec
      rw [if_neg (by decide), ← e]
      congr 1
      have : k = k / 2 * 2 := by
        have : ¬ k % 2 = 1 := by simpa using hb
        omega
      conv_lhs => rw [this]
      rw [hpow]; ring
  rcases hone with h0 | h1
  · have hw0 : wgt n T (l + 1) k = 0 := by rw [hwgt, h0, zero_mul]
    refine ⟨hw0.ge, ?_, Or.inl hw0⟩
    intro j hj
    rw [hnl, ← hH] at hj
    rw [hnl, ← hH, hent j hj, hw0, h0]; simp
  · -- the parent is normalised
    have hsq := nrm_half H p.1
    rw [← hpow, h1] at hsq
    have n0 := nrm_nonneg H (halfVec H false p.1)
    have n1 := nrm_nonneg H (halfVec H true p.1)
    have hle : nrm H (halfVec H false p.1) ≤ 1 := by nlinarith
    have htheta : thetaN n T l (k / 2) / 2 = Real.arccos (nrm H (halfVec H false p.1)) := by
      have e1 : (normPhase H (halfVec H false p.1) p.2).1 = nrm H (halfVec H false p.1) := by
        unfold normPhase
        by_cases h : nrm H (halfVec H false p.1) > EPS
        · rw [if_pos h]
        · rw [if_neg h]
      show 2 * Real.arccos (min 1 (normPhase H (halfVec H false p.1) p.2).1) / 2 = _
      rw [e1, min_eq_right hle]; ring
    have hfac : (if k % 2 == 1 then Real.sin (thetaN n T l (k / 2) / 2) else Real.cos (thetaN n T l (k / 2) / 2)) = nrm H u := by
      rw [htheta, hu]
      cases hb : (k % 2 == 1)
      · rw [if_neg (by decide), Real.cos_arccos (by linarith) hle]
      · rw [if_pos rfl, Real.sin_arccos, show 1 - nrm H (halfVec H false p.1) ^ 2 = nrm H (halfVec H true p.1) ^ 2 by linarith, Real.sqrt_sq n1]
    rw [hfac] at hwgt
    have hun := nrm_nonneg H u
    by_cases hz : nrm H u = 0
    · have hw0 : wgt n T (l + 1) k = 0 := by rw [hwgt, hz, mul_zero]
      refine ⟨hw0.ge, ?_, Or.inl hw0⟩
      intro j hj
      rw [hnl, ← hH] at hj
      rw [hnl, ← hH, hent j hj, hw0, nrm_zero hz j hj]; simp
    · by_cases hw00 : w = 0
      · have hw0 : wgt n T (l + 1) k = 0 := by rw [hwgt, hw00, zero_mul]
        refine ⟨hw0.ge, ?_, Or.inl hw0⟩
        intro j hj
        rw [hnl, ← hH] at hj
        rw [hnl, ← hH, hent j hj, hw0, hw00]; simp
      · -- the child exceeds the threshold
        have hwle : w ≤ 1 := by
          have e : nrm (2 ^ (n - l)) (fun j => T (k / 2 * 2 ^ (n - l) + j)) = w := by
            rw [nrm_congr (w := fun j => ((w : ℝ) * ph p.2) * p.1 j) heq, nrm_smul, h1, norm_mul, norm_ph, Complex.norm_real, Real.norm_of_nonneg hpos]
            ring
          rw [← e]
          exact norm_block hT (block_lt (by omega) hk2)
        have hgt : nrm H u > EPS := by
          have hex : ∃ j < H, u j ≠ 0 := by
            by_contra hno
            refine hz ?_
            rw [nrm_congr (w := fun _ => 0) (fun j hj => by by_contra hne; exact hno ⟨j, hj, hne⟩)]
            simp [nrm]
          obtain ⟨j, hj, hne⟩ := hex
          have hTj := hent j hj
          have hlt : k * H + j < 2 ^ n := by
            have := block_lt (n := n) (l := l + 1) (k := k) (by omega) hk
            rw [hnl, ← hH] at this
            omega
          have hTne : T (k * H + j) ≠ 0 := by
            rw [hTj]
            exact mul_ne_zero (mul_ne_zero (Complex.ofReal_ne_zero.mpr hw00) (ph_ne _)) hne
          have hbig := (hB _ hlt).resolve_left hTne
          have hnorm : ‖T (k * H + j)‖ = w * ‖u j‖ := by
            rw [hTj, norm_mul, norm_mul, norm_ph, Complex.norm_real, Real.norm_of_nonneg hpos, mul_one]
          have h3 : ‖u j‖ ≤ nrm H u := nrm_le j hj
          have h4 : w * ‖u j‖ ≤ ‖u j‖ := by nlinarith [norm_nonneg (u j)]
          linarith
        have hnp : normPhase H u p.2 = (nrm H u, fun j => u j / ((nrm H u : ℝ) * ph (Complex.arg (u 0))), p.2 + Complex.arg (u 0)) := by
          unfold normPhase
          rw [if_pos hgt]
        have hne : ((nrm H u : ℝ) : ℂ) ≠ 0 := Complex.ofReal_ne_zero.mpr hz
        refine ⟨by rw [hwgt]; exact mul_nonneg hpos hun, ?_, Or.inr ?_⟩
        · intro j hj
          rw [hnl, ← hH] at hj
          rw [hnl, ← hH, hent j hj, hwgt, hsub, hnp]
          simp only
          rw [ph_add, Complex.ofReal_mul]
          have := ph_ne (Complex.arg (u 0))
          field_simp
        · rw [hnl, ← hH, hsub, hnp]
          simp only
          rw [nrm_congr (w := fun j => (1 / ((nrm H u : ℝ) * ph (Complex.arg (u 0)))) * u j) (fun j _ => by ring), nrm_smul, norm_div, norm_mul,
            norm_ph, norm_one, Complex.norm_real, Real.norm_of_nonneg hun]
          field_simp

theorem node_all {n : Nat} {T : Nat → ℂ} (hT : nrm (2 ^ n) T = 1) (hB : Big n T) : ∀ l k, l < n → k < 2 ^ l → Node n T l k
  | 0, k, _, hk => by
    have : k = 0 := by simpa using hk
    subst this
    refine ⟨zero_le_one, fun j _ => ?_, Or.inr hT⟩
    simp [wgt, sub, ph_zero]
  | l + 1, k, hl, hk => node_step hT hB (by omega) hk (node_all hT hB l (k / 2) (by omega) (by rw [pow_succ] at hk; omega))

/-- The two columns of a leaf. -/
theorem leaf_eq {n : Nat} {T : Nat → ℂ} (hT : nrm (2 ^ n) T = 1) (hB : Big n T) (hn : 0 < n) {k : Nat} (hk : k < 2 ^ (n - 1)) (b : Bool) :
    (wgt n T (n - 1) k : ℝ) * leafM n T k b false = T (2 * k + b.toNat) := by
  obtain ⟨hpos, heq, hone⟩ := node_all hT hB (n - 1) k (by omega) hk
  rw [show n - (n - 1) = 1 by omega, pow_one] at heq hone
  have hTb : T (2 * k + b.toNat) = (wgt n T (n - 1) k : ℝ) * ph (sub n T (n - 1) k).2 * (sub n T (n - 1) k).1 b.toNat := by
    rw [← heq b.toNat (by cases b <;> decide), mul_comm k]
  rw [hTb]
  by_cases h0 : wgt n T (n - 1) k = 0
  · rw [h0]; simp
  · have h1 := hone.resolve_left h0
    unfold leafM
    set p := sub n T (n - 1) k with hp
    have hnp : normPhase 2 p.1 p.2 = (nrm 2 p.1, fun j => p.1 j / ((nrm 2 p.1 : ℝ) * ph (Complex.arg (p.1 0))), p.2 + Complex.arg (p.1 0)) := by
      unfold normPhase
      rw [if_pos (by rw [h1]; exact EPS_lt_one)]
    rw [hnp]
    simp only
    rw [h1, Complex.ofReal_one]
    simp only [one_mul]
    have hv0 : p.1 0 / ph (Complex.arg (p.1 0)) = (‖p.1 0‖ : ℝ) := by
      rw [div_eq_iff (ph_ne _)]
      exact (ph_arg _).symm
    have hsq : ‖p.1 0‖ ^ 2 + ‖p.1 1‖ ^ 2 = 1 := by
      have := nrm_sq 2 p.1
      rw [h1, Finset.sum_range_succ, Finset.sum_range_one] at this
      linarith
    have ha0 := norm_nonneg (p.1 0)
    have hb0 := norm_nonneg (p.1 1)
    have ha1 : ‖p.1 0‖ ≤ 1 := by nlinarith
    rw [hv0, Complex.ofReal_re, min_eq_left ha1, max_eq_right (by linarith), u3m_mk, ph_zero, one_smul]
    have hc : Complex.cos (((2 * Real.arccos ‖p.1 0‖ : ℝ) : ℂ) / 2) = (‖p.1 0‖ : ℝ) := by
      rw [show ((2 * Real.arccos ‖p.1 0‖ : ℝ) : ℂ) / 2 = ((Real.arccos ‖p.1 0‖ : ℝ) : ℂ) by push_cast; ring, ← Complex.ofReal_cos,
        Real.cos_arccos (by linarith) ha1]
    have hs : Complex.sin (((2 * Real.arccos ‖p.1 0‖ : ℝ) : ℂ) / 2) = (‖p.1 1‖ : ℝ) := by
      rw [show ((2 * Real.arccos ‖p.1 0‖ : ℝ) : ℂ) / 2 = ((Real.arccos ‖p.1 0‖ : ℝ) : ℂ) by push_cast; ring, ← Complex.ofReal_sin,
        Real.sin_arccos, show 1 - ‖p.1 0‖ ^ 2 = ‖p.1 1‖ ^ 2 by linarith, Real.sqrt_sq hb0]
    rw [hc, hs, ph_add]
    have hv1n : ‖p.1 1 / ph (Complex.arg (p.1 0))‖ = ‖p.1 1‖ := by rw [norm_div, norm_ph, div_one]
    cases b with
    | false =>
      rw [Matrix.smul_apply, smul_eq_mul]
      show _ = (wgt n T (n - 1) k : ℝ) * ph p.2 * p.1 0
      have := ph_arg (p.1 0)
      simp only [mk]
      linear_combination (wgt n T (n - 1) k : ℂ) * ph p.2 * this
    | true =>
      rw [Matrix.smul_apply, smul_eq_mul, hv1n]
      show _ = (wgt n T (n - 1) k : ℝ) * ph p.2 * p.1 1
      by_cases hz : p.1 1 = 0
      · rw [hz]; simp [mk]
      · have hbig : ‖p.1 1‖ > EPS := by
          have hTne : T (2 * k + 1) ≠ 0 := by
            have := heq 1 (by decide)
            rw [mul_comm k] at this
            rw [this]
            exact mul_ne_zero (mul_ne_zero (Complex.ofReal_ne_zero.mpr h0) (ph_ne _)) hz
          have hlt : 2 * k + 1 < 2 ^ n := by
            have : 2 ^ n = 2 ^ (n - 1) * 2 := by rw [← pow_succ]; congr 1; omega
            omega
          have h2 := (hB _ hlt).resolve_left hTne
          have hwle : wgt n T (n - 1) k ≤ 1 := by
            have e : nrm 2 (fun j => T (k * 2 + j)) = wgt n T (n - 1) k := by
              rw [nrm_congr (w := fun j => ((wgt n T (n - 1) k : ℝ) * ph p.2) * p.1 j) heq, nrm_smul, h1, norm_mul, norm_ph, Complex.norm_real,
                Real.norm_of_nonneg hpos]
              ring
            rw [← e]
            refine norm_block hT ?_
            have : 2 ^ n = 2 ^ (n - 1) * 2 := by rw [← pow_succ]; congr 1; omega
            omega
          have hnorm : ‖T (2 * k + 1)‖ = wgt n T (n - 1) k * ‖p.1 1‖ := by
            rw [mul_comm 2, heq 1 (by decide), norm_mul, norm_mul, norm_ph, Complex.norm_real, Real.norm_of_nonneg hpos, mul_one]
          nlinarith
        rw [if_pos hbig]
        have ha := ph_arg (p.1 1 / ph (Complex.arg (p.1 0)))
        rw [hv1n] at ha
        have hne := ph_ne (Complex.arg (p.1 0))
        have ha' : (‖p.1 1‖ : ℂ) * ph (Complex.arg (p.1 1 / ph (Complex.arg (p.1 0)))) * ph (Complex.arg (p.1 0)) = p.1 1 := by
          rw [ha]; field_simp
        simp only [mk]
        linear_combination (wgt n T (n - 1) k : ℂ) * ph p.2 * ha'

/-! ### The circuit -/

/-- The state after `l` layers. -/
noncomputable def lay (n : Nat) (T : Nat → ℂ) (ψ : Amp Nat) (l : Nat) : Amp Nat := fun c =>
  if ∀ k < n, l ≤ k → c k = false then (wgt n T l (node l c) : ℝ) * ψ (clr n c) else 0

theorem lay_zero {n : Nat} {T : Nat → ℂ} {ψ : Amp Nat} (hψ : Fresh n ψ) : lay n T ψ 0 = ψ := by
  funext c
  unfold lay
  by_cases h : ∀ k < n, 0 ≤ k → c k = false
  · rw [if_pos h]
    have : clr n c = c := by
      funext k
      unfold clr
      by_cases hk : k < n
      · rw [if_pos hk, h k hk (Nat.zero_le k)]
      · rw [if_neg hk]
    rw [this]; simp [wgt]
  · rw [if_neg h]
    symm
    refine hψ c ?_
    by_contra hno
    refine h fun k hk _ => ?_
    cases hc : c k
    · rfl
    · exact absurd ⟨k, hk, hc⟩ hno

/-- Only the first column of the matrices matters. -/
theorem mux_lay {n l : Nat} (hl : l < n) (T : Nat → ℂ) (ψ : Amp Nat) (M : (Nat → Bool) → M2) (c : Nat → Bool) :
    mux M l (lay n T ψ l) c = if ∀ k < n, l + 1 ≤ k → c k = false then M c (c l) false * ((wgt n T l (node l c) : ℝ) * ψ (clr n c)) else 0 := by
  unfold mux
  have e1 : lay n T ψ l (upd c l true) = 0 := by
    unfold lay
    refine if_neg fun h => ?_
    have := h l hl (le_refl l)
    rw [Verif.Rev.upd_same] at this; cases this
  rw [e1, mul_zero, add_zero]
  unfold lay
  rw [node_upd (le_refl l) c false l (le_refl l), clr_upd hl]
  by_cases h : ∀ k < n, l + 1 ≤ k → c k = false
  · rw [if_pos h, if_pos]
    intro k hk hlk
    by_cases e : k = l
    · subst e; exact Verif.Rev.upd_same _ _ _
    · rw [Verif.Rev.upd_ne e]; exact h k hk (by omega)
  · rw [if_neg h, if_neg, mul_zero]
    intro h'
    refine h fun k hk hlk => ?_
    have := h' k hk (by omega)
    rwa [Verif.Rev.upd_ne (by omega)] at this

theorem lay_step {n l : Nat} (hl : l < n) (T : Nat → ℂ) (ψ : Amp Nat) (M : (Nat → Bool) → M2)
    (hM : ∀ c, M c = rym (thetaN n T l (node l c))) : mux M l (lay n T ψ l) = lay n T ψ (l + 1) := by
  funext c
  rw [mux_lay hl, hM]
  unfold lay
  by_cases h : ∀ k < n, l + 1 ≤ k → c k = false
  · rw [if_pos h, if_pos h]
    have e : wgt n T (l + 1) (node (l + 1) c) = wgt n T l (node l c) *
        (if c l then Real.sin (thetaN n T l (node l c) / 2) else Real.cos (thetaN n T l (node l c) / 2)) := by
      have h2 : node (l + 1) c / 2 = node l c := by rw [node_succ]; cases c l <;> simp <;> omega
      have h3 : (node (l + 1) c % 2 == 1) = c l := by
        rw [node_succ]
        cases c l
        · simp
        · simp [Nat.add_mod]
      show wgt n T l (node (l + 1) c / 2) * _ = _
      rw [h2, h3]
    rw [e]
    unfold rym
    cases c l
    · rw [if_neg (by decide)]; simp [mk]; ring
    · rw [if_pos rfl]; simp [mk]; ring
  · rw [if_neg h, if_neg h]

theorem layers_lay {n : Nat} (hn : n ≤ 64) (T : Nat → ℂ) (ψ : Amp Nat) : ∀ k, k + 1 < n → layers n T k (lay n T ψ 1) = lay n T ψ (k + 1)
  | 0, _ => rfl
  | k + 1, hk => by
    unfold layers
    rw [layers_lay hn T ψ k (by omega)]
    exact lay_step (by omega) T ψ _ fun c => by rw [node_rev (by omega)]

/-- The prepared state, for a normalised array and the first qubit as the most significant one. -/
theorem final_lay {n : Nat} (hn : 0 < n) {T : Nat → ℂ} (hT : nrm (2 ^ n) T = 1) (hB : Big n T) (ψ : Amp Nat) (M : (Nat → Bool) → M2)
    (hM : ∀ c, M c = leafM n T (node (n - 1) c)) (c : Nat → Bool) : mux M (n - 1) (lay n T ψ (n - 1)) c = T (node n c) * ψ (clr n c) := by
  rw [mux_lay (by omega), if_pos (fun k hk h => by omega), hM]
  have h := leaf_eq hT hB hn (node_lt c (n - 1)) (c (n - 1))
  have e : node n c = 2 * node (n - 1) c + (c (n - 1)).toNat := by
    obtain ⟨m, rfl⟩ : ∃ m, n = m + 1 := ⟨n - 1, by omega⟩
    rfl
  rw [e, ← h]
  ring

theorem nrm_perm {n : Nat} (v : Nat → ℂ) (f : Nat → Nat) (hf : ∀ j < 2 ^ n, f j < 2 ^ n) (hinv : ∀ j < 2 ^ n, f (f j) = j) :
    nrm (2 ^ n) (fun j => v (f j)) = nrm (2 ^ n) v := by
  unfold nrm
  congr 1
  refine Finset.sum_nbij' f f ?_ ?_ ?_ ?_ ?_
  · intro j hj; exact Finset.mem_range.mpr (hf j (Finset.mem_range.mp hj))
  · intro j hj; exact Finset.mem_range.mpr (hf j (Finset.mem_range.mp hj))
  · intro j hj; exact hinv j (Finset.mem_range.mp hj)
  · intro j hj; exact hinv j (Finset.mem_range.mp hj)
  · intro j hj; rfl

theorem bitrevIdx_lt (j n : Nat) : bitrevIdx j n < 2 ^ n := by
  refine Nat.lt_pow_two_of_testBit _ fun k hk => ?_
  rw [bitrevIdx_testBit, decide_eq_false (by omega), Bool.false_and]

theorem bitrevIdx_inv (j n : Nat) (hj : j < 2 ^ n) : bitrevIdx (bitrevIdx j n) n = j := by
  refine Nat.eq_of_testBit_eq fun k => ?_
  rw [bitrevIdx_testBit, bitrevIdx_testBit]
  by_cases h : k < n
  · rw [decide_eq_true h, decide_eq_true (show n - 1 - k < n by omega), Bool.true_and, Bool.true_and, show n - 1 - (n - 1 - k) = k by omega]
  · rw [decide_eq_false h, Bool.false_and]
    exact (Nat.testBit_lt_two_pow (lt_of_lt_of_le hj (Nat.pow_le_pow_right (by decide) (by omega)))).symm

theorem prepareQ_eq {n : Nat} (hn : 0 < n) (hn64 : n ≤ 64) {T : Nat → ℂ} (hT : nrm (2 ^ n) T ≠ 0)
    (hB : ∀ j < 2 ^ n, T j = 0 ∨ ‖T j‖ > EPS * nrm (2 ^ n) T) (big : Bool) {ψ : Amp Nat} (hψ : Fresh n ψ) (c : Nat → Bool) :
    prepareQ n T big ψ c = T (if big then node n c else idxL n c) / (nrm (2 ^ n) T : ℝ) * ψ (clr n c) := by
  have hpos : 0 < nrm (2 ^ n) T := lt_of_le_of_ne (nrm_nonneg _ _) (Ne.symm hT)
  have hN : nrm (2 ^ n) (fun j => T j / (nrm (2 ^ n) T : ℝ)) = 1 := by
    rw [nrm_congr (w := fun j => (1 / (nrm (2 ^ n) T : ℝ) : ℂ) * T j) (fun j _ => by ring), nrm_smul, norm_div, norm_one, Complex.norm_real,
      Real.norm_of_nonneg hpos.le]
    field_simp
  have hBN : Big n (fun j => T j / (nrm (2 ^ n) T : ℝ)) := by
    intro j hj
    rcases hB j hj with h | h
    · left; simp only; rw [h, zero_div]
    · right
      simp only
      rw [norm_div, Complex.norm_real, Real.norm_of_nonneg hpos.le, gt_iff_lt, lt_div_iff₀ hpos]
      exact h
  have key : ∀ U : Nat → ℂ, nrm (2 ^ n) U = 1 → Big n U →
      (if n = 1 then app1 (leafM n U 0) 0 ψ
        else mux (fun c => leafM n U (bitReverse (idxL (n - 1) c) (n - 1))) (n - 1) (layers n U (n - 2) (app1 (rym (thetaN n U 0 0)) 0 ψ))) c =
      U (node n c) * ψ (clr n c) := by
    intro U hU hBU
    by_cases h1 : n = 1
    · rw [if_pos h1]
      subst h1
      have := final_lay (by decide) hU hBU ψ (fun _ => leafM 1 U 0) (fun c => rfl) c
      rw [← this]
      show app1 (leafM 1 U 0) 0 ψ c = mux (fun _ => leafM 1 U 0) 0 (lay 1 U ψ 0) c
      rw [lay_zero hψ]; rfl
    · rw [if_neg h1]
      have e1 : app1 (rym (thetaN n U 0 0)) 0 ψ = lay n U ψ 1 := by
        have := lay_step (l := 0) hn U ψ (fun _ => rym (thetaN n U 0 0)) (fun c => rfl)
        rw [lay_zero hψ] at this
        exact this
      rw [e1, layers_lay hn64 U ψ (n - 2) (by omega), show n - 2 + 1 = n - 1 by omega]
      exact final_lay hn hU hBU ψ _ (fun c => by rw [node_rev (by omega)]) c
  unfold prepareQ
  cases big
  · rw [if_neg Bool.false_ne_true, if_neg Bool.false_ne_true]
    have hsw : nrm (2 ^ n) (swapEndian n fun j => T j / (nrm (2 ^ n) T : ℝ)) = 1 := by
      rw [← hN]
      exact nrm_perm (fun j => T j / (nrm (2 ^ n) T : ℝ)) (fun j => bitrevIdx j n) (fun j _ => bitrevIdx_lt j n) (fun j hj => bitrevIdx_inv j n hj)
    have hsB : Big n (swapEndian n fun j => T j / (nrm (2 ^ n) T : ℝ)) := fun j _ => hBN _ (bitrevIdx_lt j n)
    rw [key _ hsw hsB]
    unfold swapEndian
    rw [node_idx]
  · rw [if_pos rfl, if_pos rfl]
    exact key _ hN hBN

end Verif.Prep
