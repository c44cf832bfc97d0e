import Verif.Iqae.Coin
import Verif.Props.Fourier

/-!
# C148-C150: iterative quantum amplitude estimation

The amplitude to be estimated is `a = sin² t` with an angle `t` between 0 and `π/2`.
-/

namespace Verif.Props
open Real Verif.Iqae

/-! ### C148: the intervals and the result -/

/-- The results of the quantum steps are shares of shots. -/
def Shares (A : ℕ → ℝ) : Prop := ∀ i, 0 ≤ A i ∧ A i ≤ 1

/-- The results of the first `n` quantum steps are at most `cE` away from the probability of the amplified state. -/
def GoodShares (A : ℕ → ℝ) (t : ℝ) (n : ℕ) : Prop := ∀ i < n, |A i - sin ((after A i).K * t) ^ 2| ≤ cE

/-- In every round an entry of the table fits: the new factor is 3, 5 or 7 and both bounds lie in the new quadrant; the index 0 that `argmax` gives
if there is no entry is not used. -/
theorem iqae_fits {A : ℕ → ℝ} (hA : Shares A) (n : ℕ) :
    ∃ L j, (L = 3 ∨ L = 5 ∨ L = 7) ∧ j < L ∧ (after A (n + 1)).K = L * (after A n).K ∧ (after A (n + 1)).m = L * (after A n).m + j ∧
      ∀ x ∈ [(after A (n + 1)).tb, (after A (n + 1)).ts],
        (after A (n + 1)).m * (π / 2) ≤ (after A (n + 1)).K * x ∧ (after A (n + 1)).K * x ≤ ((after A (n + 1)).m + 1) * (π / 2) := by
  have hK : 0 < (after A n).K := lt_of_lt_of_le (by positivity) (pos_after hA n)
  obtain ⟨n1, n2⟩ := nextL_spec (exists_fit (m := (after A n).m) hK (hA n).1 (hA n).2)
  obtain ⟨t1, t2⟩ := table_mem n1
  refine ⟨_, _, t1, t2, rfl, rfl, ?_⟩
  obtain ⟨f1, f2, f3, f4⟩ := n2
  intro x hx
  simp only [List.mem_cons, List.not_mem_nil, or_false] at hx
  simp only [after, body, Nat.cast_add, Nat.cast_mul] at hx ⊢
  rcases hx with rfl | rfl <;> constructor <;> linarith

/-- The angle lies between the two bounds in all rounds, if the shares are good. -/
theorem iqae_inside {A : ℕ → ℝ} (hA : Shares A) {t : ℝ} (h0 : 0 ≤ t) (h1 : t ≤ π / 2) {n : ℕ} (hg : GoodShares A t n) (hn : 0 < n) :
    min (after A n).tb (after A n).ts ≤ t ∧ t ≤ max (after A n).tb (after A n).ts := by
  rcases (after_inside hA h0 h1 n hg).1 hn with ⟨a, b⟩ | ⟨a, b⟩
  · exact ⟨(min_le_left _ _).trans a, b.trans (le_max_right _ _)⟩
  · exact ⟨(min_le_right _ _).trans a, b.trans (le_max_left _ _)⟩

/-- With good shares the result is within `eps` of the amplitude. -/
theorem iqae_accurate {A : ℕ → ℝ} (hA : Shares A) {t eps : ℝ} (h0 : 0 ≤ t) (h1 : t ≤ π / 2) {fuel n : ℕ}
    (hr : rounds A eps fuel = some n) (hg : GoodShares A t n) : ∃ r, iqae A eps fuel = some r ∧ |r - sin t ^ 2| ≤ eps := by
  obtain ⟨r1, r2, _⟩ := rounds_some hr
  exact ⟨_, by rw [iqae, hr]; rfl, result_near ((after_inside hA h0 h1 n hg).1 r1) r2⟩

/-- The bounds are at most `π / (2 · 3ⁿ)` apart after `n` rounds. -/
theorem iqae_width {A : ℕ → ℝ} (hA : Shares A) {n : ℕ} (hn : 0 < n) : |(after A n).tb - (after A n).ts| * 3 ^ n ≤ π / 2 := by
  obtain ⟨m, rfl⟩ : ∃ m, n = m + 1 := ⟨n - 1, by omega⟩
  refine le_trans (mul_le_mul_of_nonneg_left ?_ (abs_nonneg _)) (round_after hA m).next
  exact_mod_cast pos_after hA (m + 1)

/-! ### C149: rounds, shots and iterations -/

/-- The loop ends after at most `n` rounds, whatever the shots give, if `π / 4 ≤ eps · 3ⁿ`. -/
theorem iqae_terminates {A : ℕ → ℝ} (hA : Shares A) {eps : ℝ} {n fuel : ℕ} (hn : 0 < n) (he : π / 4 ≤ eps * 3 ^ n) (hf : n < fuel) :
    ∃ k, 0 < k ∧ k ≤ n ∧ rounds A eps fuel = some k := by
  have hw := iqae_width hA hn
  have h3 : (0 : ℝ) < 3 ^ n := by positivity
  have hw' : |(after A n).tb - (after A n).ts| ≤ 2 * eps := by
    by_contra hc
    push Not at hc
    have := mul_lt_mul_of_pos_right hc h3
    linarith
  obtain ⟨k, k1, k2⟩ := loopFrom_stops (A := A) (i := 0) (bc := 2 * eps + 1) (by rw [Nat.zero_add]; exact hw') hf hn
  exact ⟨k, (rounds_some k2).1, by omega, k2⟩

/-- In round `i` amplitude amplification is performed `(K - 1) / 2` times, so the amplified angle is `K t`. -/
theorem iqae_iterations {A : ℕ → ℝ} (hA : Shares A) (i : ℕ) : 2 * (((after A i).K - 1) / 2) + 1 = (after A i).K := by
  have := odd_after hA i
  omega

/-- The allowed failure probabilities of the rounds add up to at most `al`. -/
theorem iqae_budget {A : ℕ → ℝ} (hA : Shares A) {al eps : ℝ} (ha : 0 ≤ al) (he : 0 < eps) (he1 : eps ≤ 1) {fuel n : ℕ}
    (h : rounds A eps fuel = some n) : ((List.range n).map fun i => alp al eps (after A i).K).sum ≤ al := by
  have hb := budget hA he he1 h
  have e : ∀ n, ((List.range n).map fun i => alp al eps (after A i).K).sum = al * (cC * (eps * spent A n)) := by
    intro n
    induction n with
    | zero => simp [spent]
    | succ n ih =>
      rw [spent_succ, List.range_succ, List.map_append, List.sum_append, ih]
      simp only [List.map_cons, List.map_nil, List.sum_cons, List.sum_nil, alp]
      ring
  rw [e]
  calc al * (cC * (eps * spent A n)) ≤ al * 1 := mul_le_mul_of_nonneg_left hb ha
    _ = al := mul_one _

/-- The number of shots of a round: the bound of Hoeffding for a deviation of more than `cE` is at most the allowed failure probability of the round. -/
theorem iqae_shots {al eps : ℝ} (ha : 0 < al) (he : 0 < eps) {K : ℕ} (hK : 0 < K) :
    2 * exp (-2 * (shots al eps K : ℝ) * cE ^ 2) ≤ alp al eps K := by
  apply shots_enough
  have := cC_pos
  have : (0 : ℝ) < K := by exact_mod_cast hK
  unfold alp
  positivity

/-! ### C150: the result is right with probability `1 - al` -/

/-- With independent shots, the probability of no result or of one that is more than `eps` from the amplitude is at most `al`. -/
theorem iqae_probability {samp : ℕ → ℤ → PMF ℝ} {al eps t : ℝ} (h0 : 0 ≤ t) (h1 : t ≤ π / 2) (ha : 0 < al) (ha1 : al ≤ 1) (he : 0 < eps)
    (he1 : eps ≤ 1) (hs : ∀ k N, 0 < N → IsMean (samp (2 * k + 1) N) N (sin ((2 * k + 1) * t) ^ 2)) {n : ℕ} (hn : 0 < n)
    (hf : π / 4 ≤ eps * 3 ^ n) :
    (prun samp al eps (n + 1) Iqae.init (2 * eps + 1)).toOuterMeasure {o | ¬ ∃ r, o = some r ∧ |r - sin t ^ 2| ≤ eps} ≤ ENNReal.ofReal al := by
  obtain ⟨m, rfl⟩ : ∃ m, n = m + 1 := ⟨n - 1, by omega⟩
  have hB : {o | ¬ ∃ r, o = some r ∧ |r - sin t ^ 2| ≤ eps} = Bad eps (sin t ^ 2) := by
    ext o
    simp only [Bad, Set.mem_ofPred_eq, not_exists, not_and, not_le]
  rw [hB]
  refine prob_init h0 h1 ha ha1 he he1 (fun K N hK hN => ?_) hf
  have e : K = 2 * (K / 2) + 1 := by omega
  have := hs (K / 2) N hN
  rw [← e] at this
  have e2 : (2 * ((K / 2 : ℕ) : ℝ) + 1) = (K : ℝ) := by exact_mod_cast e.symm
  rwa [e2] at this

/-- Independent shots exist for every probability. -/
theorem iqae_sampler (t : ℝ) : ∃ samp : ℕ → ℤ → PMF ℝ, ∀ k N, IsMean (samp (2 * k + 1) N) N (sin ((2 * k + 1) * t) ^ 2) := by
  have h : ∀ K : ℕ, ∀ N : ℤ, ∃ q : PMF ℝ, IsMean q N (sin ((2 * ((K / 2 : ℕ) : ℝ) + 1) * t) ^ 2) :=
    fun K N => isMean_exists (sq_nonneg _) (sin_sq_le_one _) N
  choose f hf using h
  refine ⟨f, fun k N => ?_⟩
  have := hf (2 * k + 1) N
  rwa [show (2 * k + 1) / 2 = k from by omega] at this

open Verif.Fourier Verif.Rev in
/-- The shots of a round: if the last qubit of the prepared state is 1 with probability `sin² t`, it is 1 with probability `sin² (K t)` after the
`(K - 1) / 2` iterations of the round. -/
theorem iqae_step {Q : Type} [DecidableEq Q] {P : List (FGate Q)} (hw : ∀ g ∈ P, g.wf) {qs : List Q} {q : Q}
    (hn : (qs ++ [q]).Nodup) (hP : ∀ g ∈ P, ∀ x ∈ g.qubits, x ∈ qs ++ [q]) {t : ℝ} (h0 : 0 < t) (h1 : t < π / 2)
    (hg : ∀ s, ip (qs ++ [q]) (goodPart (fun s => s q) (prepared P (qs ++ [q]))) (goodPart (fun s => s q) (prepared P (qs ++ [q]))) s =
      ((sin t ^ 2 : ℝ) : ℂ)) {A : ℕ → ℝ} (hA : Shares A) (i : ℕ) (s : St Q) :
    let ψ := amplify P (fun s => if s q then -1 else 1) qs q (((after A i).K - 1) / 2) (prepared P (qs ++ [q]))
    ip (qs ++ [q]) (goodPart (fun s => s q) ψ) (goodPart (fun s => s q) ψ) s = ((sin ((after A i).K * t) ^ 2 : ℝ) : ℂ) := by
  intro ψ
  have hs0 : sin t ≠ 0 := (sin_pos_of_pos_of_lt_pi h0 (by linarith [pi_pos])).ne'
  have hc0 : cos t ≠ 0 := (cos_pos_of_mem_Ioo ⟨by linarith, h1⟩).ne'
  have hk := iqae_iterations hA i
  set k := ((after A i).K - 1) / 2
  have hK : ((after A i).K : ℝ) = 2 * k + 1 := by rw [← hk]; push_cast; rfl
  set c : ℝ := sin ((2 * k + 1) * t) / sin t with hc
  have e : ∀ s, goodPart (fun s => s q) ψ s = (c : ℂ) * goodPart (fun s => s q) (prepared P (qs ++ [q])) s := by
    intro s
    have := C75_amplitude_amplification hw hn hP (fun s => s q) hs0 hc0 hg k s
    unfold goodPart
    cases hq : s q
    · simp [hq]
    · simp only [hq, if_true] at this ⊢
      exact this
  have : ip (qs ++ [q]) (goodPart (fun s => s q) ψ) (goodPart (fun s => s q) ψ) s =
      ((c : ℂ) * c) * ip (qs ++ [q]) (goodPart (fun s => s q) (prepared P (qs ++ [q]))) (goodPart (fun s => s q) (prepared P (qs ++ [q]))) s := by
    unfold ip
    rw [← sumOver_smul]
    congr 1
    funext s
    rw [e, map_mul, Complex.conj_ofReal]
    ring
  rw [this, hg, hK, ← Complex.ofReal_mul, ← Complex.ofReal_mul, hc]
  congr 1
  field_simp

/-! ### Examples -/

/-- For `eps = 1/10` two rounds suffice. -/
example {A : ℕ → ℝ} (hA : Shares A) : ∃ k, 0 < k ∧ k ≤ 2 ∧ rounds A (1 / 10) 3 = some k :=
  iqae_terminates hA (by norm_num) (by have := pi_lt_d2; norm_num at *; linarith) (by norm_num)

/-- If the amplitude is 1, all shots give 1; the shares are good. -/
example : Shares (fun _ => 1) ∧ GoodShares (fun _ => 1) (π / 2) 5 := by
  have hA : Shares fun _ => 1 := fun i => ⟨zero_le_one, le_refl _⟩
  refine ⟨hA, fun i _ => ?_⟩
  have h := iqae_iterations hA i
  set k := ((after (fun _ => (1 : ℝ)) i).K - 1) / 2
  rw [← h]
  have e : ((2 * k + 1 : ℕ) : ℝ) * (π / 2) = k * π + π / 2 := by push_cast; ring
  rw [e, sin_add_pi_div_two, cos_nat_mul_pi, ← pow_mul, mul_comm, pow_mul]
  have := cE_pos
  norm_num
  linarith

/-- A fair coin: the estimate of 1/2 is within 1/100 with probability at least 99/100, after at most four rounds. -/
example : ∃ samp : ℕ → ℤ → PMF ℝ, (prun samp (1 / 100) (1 / 100) 5 Iqae.init (2 * (1 / 100) + 1)).toOuterMeasure
    {o | ¬ ∃ r, o = some r ∧ |r - sin (π / 4) ^ 2| ≤ 1 / 100} ≤ ENNReal.ofReal (1 / 100) := by
  obtain ⟨samp, h⟩ := iqae_sampler (π / 4)
  have hp := pi_pos
  exact ⟨samp, iqae_probability (by positivity) (by linarith) (by norm_num) (by norm_num) (by norm_num) (by norm_num) (fun k N _ => h k N)
    (n := 4) (by norm_num) (by have := pi_lt_d2; norm_num at *; linarith)⟩

end Verif.Props
