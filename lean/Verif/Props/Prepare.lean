import Verif.Prep.QSwitch

/-!
Properties of `prepare(…, method="qswitch")`, `bit_reverse` and `swap_endianness`.
-/

namespace Verif.Props

open Verif.Circ Verif.Prep

/-- The number written by the bits `c 0, …, c (n-1)`, the first one counting `1`. -/
def little (n : Nat) (c : Nat → Bool) : Nat := ∑ k ∈ Finset.range n, if c k then 2 ^ k else 0

/-- The number written by the bits `c 0, …, c (n-1)`, the last one counting `1`. -/
def bigE (n : Nat) (c : Nat → Bool) : Nat := ∑ k ∈ Finset.range n, if c k then 2 ^ (n - 1 - k) else 0

theorem little_eq (c : Nat → Bool) : ∀ n, idxL n c = little n c
  | 0 => by simp [idxL, little]
  | n + 1 => by
    unfold idxL little
    rw [Finset.sum_range_succ, little_eq c n, little]

theorem bigE_eq (c : Nat → Bool) : ∀ n, node n c = bigE n c
  | 0 => by simp [node, bigE]
  | n + 1 => by
    rw [node_succ, bigE_eq c n]
    unfold bigE
    rw [Finset.sum_range_succ, Finset.mul_sum, show n + 1 - 1 - n = 0 by omega, pow_zero]
    congr 1
    · refine Finset.sum_congr rfl fun k hk => ?_
      rw [Finset.mem_range] at hk
      rw [show n + 1 - 1 - k = (n - 1 - k) + 1 by omega, pow_succ]
      cases c k <;> simp [mul_comm]
    · cases c n <;> rfl

/-- The 2-norm of an array with `L` entries. -/
noncomputable def norm2 (L : Nat) (T : Nat → ℂ) : ℝ := Real.sqrt (∑ j ∈ Finset.range L, ‖T j‖ ^ 2)

/-- **C94** On fresh qubits, `prepare` produces the state whose amplitude on a bit pattern is the entry of the normalised array at the
number the bits write - for every size up to 64, every array whose entries are zero or larger than `2^-26` times the norm, in both
orders of the bits, and also when the qubits outside of the variable are in any state. -/
theorem C94_prepare {n : Nat} (hn : 0 < n) (hn64 : n ≤ 64) {T : Nat → ℂ} (hT : 1 / 10 ^ 8 < norm2 (2 ^ n) T)
    (hB : ∀ j < 2 ^ n, T j = 0 ∨ ‖T j‖ > 1 / 2 ^ 26 * norm2 (2 ^ n) T) (big : Bool) {ψ : Amp Nat} (hψ : Fresh n ψ) :
    ∃ out, prepareS n (2 ^ n) T big ψ = some out ∧
      ∀ c, out c = T (if big then bigE n c else little n c) / (norm2 (2 ^ n) T : ℝ) * ψ (fun k => if k < n then false else c k) := by
  have hE : EPS = 1 / 2 ^ 26 := by
    unfold EPS
    rw [show (1 / 2 ^ 52 : ℝ) = (1 / 2 ^ 26) ^ 2 by norm_num, Real.sqrt_sq (by positivity)]
  have hpos : 0 < nrm (2 ^ n) T := lt_trans (by norm_num) hT
  unfold prepareS
  rw [if_neg (by simp), if_neg (not_le.mpr (show 1 / 10 ^ 8 < nrm (2 ^ n) T from hT))]
  have hN : nrm (2 ^ n) (fun j => T j / (nrm (2 ^ n) T : ℝ)) = 1 := by
    rw [nrm_congr (w := fun j => (1 / (nrm (2 ^ n) T : ℝ) : ℂ) * T j) (fun j _ => by ring), nrm_smul, norm_div, norm_one, Complex.norm_real,
      Real.norm_of_nonneg hpos.le]
    field_simp
  refine ⟨_, rfl, fun c => ?_⟩
  rw [prepareQ_eq hn hn64 (by rw [hN]; exact one_ne_zero) ?_ big hψ c, hN, Complex.ofReal_one, div_one, little_eq, bigE_eq]
  · rfl
  · intro j hj
    rcases hB j hj with h | h
    · left; rw [h, zero_div]
    · right
      rw [hN, hE, norm_div, Complex.norm_real, Real.norm_of_nonneg hpos.le, gt_iff_lt, mul_one, lt_div_iff₀ hpos]
      exact h

/-- **C94** An array of the wrong length, or with norm at most `1e-8`, is refused. -/
theorem C94_raises {n size : Nat} {T : Nat → ℂ} (big : Bool) (ψ : Amp Nat) :
    prepareS n size T big ψ = none ↔ (size ≠ 2 ^ n ∨ norm2 size T ≤ 1 / 10 ^ 8) := by
  unfold prepareS
  by_cases h : size ≠ 2 ^ n
  · rw [if_pos h]; simp [h]
  · rw [if_neg h]
    have e : nrm size T = norm2 size T := rfl
    by_cases h2 : nrm size T ≤ 1 / 10 ^ 8
    · rw [if_pos h2]; rw [e] at h2; exact ⟨fun _ => Or.inr h2, fun _ => rfl⟩
    · rw [if_neg h2]; rw [e] at h2; exact ⟨fun h' => (Option.some_ne_none _ h').elim, fun h' => absurd h' (not_or.mpr ⟨h, h2⟩)⟩

/-- **C94** `bit_reverse` reverses the lowest `width` bits, for every width up to 64. -/
theorem C94_bit_reverse {i w : Nat} (hw : w ≤ 64) (j : Nat) : (bitReverse i w).testBit j = (decide (j < w) && i.testBit (w - 1 - j)) :=
  bitReverse_testBit hw j

/-- **C94** `swap_endianness` moves the entry at a bit pattern to the reversed bit pattern; applied twice it does nothing. -/
theorem C94_swap_endianness (n : Nat) (T : Nat → ℂ) (c : Nat → Bool) : swapEndian n T (bigE n c) = T (little n c) := by
  unfold swapEndian
  rw [← bigE_eq, node_idx, little_eq]

theorem C94_swap_twice (n : Nat) (T : Nat → ℂ) (j : Nat) (hj : j < 2 ^ n) : swapEndian n (swapEndian n T) j = T j := by
  unfold swapEndian
  rw [bitrevIdx_inv j n hj]

example : bitReverse 0b0011 4 = 0b1100 := by decide +kernel
example : bitReverse 1 64 = 2 ^ 63 := by decide +kernel

/-- A concrete case: `(|01⟩ + i|10⟩)/√2` on two qubits. -/
example : ∃ out, prepareS 2 4 (fun j => if j = 1 then 1 else if j = 2 then Complex.I else 0) false
    (fun c => if c 0 = false ∧ c 1 = false then 1 else 0) = some out ∧ ∀ c, c 0 = false → c 1 = true → out c = Complex.I / (Real.sqrt 2 : ℝ) := by
  have hn : norm2 (2 ^ 2) (fun j => if j = 1 then (1 : ℂ) else if j = 2 then Complex.I else 0) = Real.sqrt 2 := by
    unfold norm2
    congr 1
    simp [Finset.sum_range_succ]
    norm_num
  have h2 : (1 : ℝ) ≤ Real.sqrt 2 := by rw [Real.one_le_sqrt]; norm_num
  have h3 : Real.sqrt 2 ≤ 2 := by rw [Real.sqrt_le_left (by norm_num)]; norm_num
  obtain ⟨out, e, h⟩ := C94_prepare (n := 2) (by decide) (by decide) (T := fun j => if j = 1 then (1 : ℂ) else if j = 2 then Complex.I else 0)
    (by rw [hn]; norm_num; linarith) (by
      intro j _
      rw [hn]
      by_cases h1 : j = 1
      · right; simp only [h1, if_true]; norm_num; linarith
      · by_cases h2 : j = 2
        · right; simp [h2]; norm_num; linarith
        · left; simp [h1, h2]) false (ψ := fun c => if c 0 = false ∧ c 1 = false then 1 else 0) (by
      intro c ⟨k, hk, hc⟩
      refine if_neg fun h => ?_
      interval_cases k
      · rw [h.1] at hc; cases hc
      · rw [h.2] at hc; cases hc)
  refine ⟨out, e, fun c h0 h1 => ?_⟩
  rw [h, hn]
  simp [little, Finset.sum_range_succ, h0, h1]

end Verif.Props
