import Verif.Fourier.QMCI
import Verif.Props.Qae

/-!
# Property C159: Monte Carlo integration
-/

set_option linter.unusedSectionVars false

namespace Verif.Props

open Verif.Rev Verif.Fourier

variable {Q : Type} [DecidableEq Q]

/-- The Riemann sum on the grid of the registers: every point has the weight of its cell. -/
noncomputable def gridSum : List (Axis Q) → (List ℝ → ℝ) → ℝ
  | [], F => F []
  | a :: xs, F => ∑ k ∈ Finset.range (2 ^ a.qs.length), 2 ^ a.exp * gridSum xs fun l => F ((k : ℝ) * 2 ^ a.exp :: l)

/-- The points of the grid. -/
def GridPoint : List (Axis Q) → List ℝ → Prop
  | [], v => v = []
  | a :: xs, v => ∃ k : ℕ, k < 2 ^ a.qs.length ∧ ∃ l, GridPoint xs l ∧ v = (k : ℝ) * 2 ^ a.exp :: l

/-- The exact probability which `IQAE` estimates in `QMCI`. -/
noncomputable def qmciProb (D : List (FGate Q)) (F : List ℝ → ℝ) (xs : List (Axis Q)) (y : Axis Q) (tar : Q) : St Q → ℂ :=
  winProb (axesQ xs ++ (y.qs ++ [tar])) (fun s => s tar) (qmciState D F xs y tar (zeroOn (axesQ xs ++ (y.qs ++ [tar]))))

theorem grid_sumOver : ∀ {xs : List (Axis Q)}, (axesQ xs).Nodup → ∀ (G : List ℝ → ℝ) (s : St Q),
    ((xs.map fun a => (2 : ℝ) ^ a.exp).prod : ℝ) * sumOver (axesQ xs) (fun s => (G (xs.map fun a => a.value s) : ℂ)) s = (gridSum xs G : ℂ)
  | [], _, G, s => by simp [axesQ, sumOver, gridSum]
  | a :: xs, hn, G, s => by
    have e : axesQ (a :: xs) = a.qs ++ axesQ xs := rfl
    rw [e] at hn ⊢
    rw [List.nodup_append] at hn
    rw [sumOver_append]
    have h1 : ∀ s, sumOver (axesQ xs) (fun s => (G ((a :: xs).map fun a => a.value s) : ℂ)) s =
        sumOver (axesQ xs) (fun s' => ((fun l => G (a.value s :: l)) (xs.map fun a => a.value s') : ℂ)) s := fun s =>
      sumOver_congr_out fun s' hs' => by
        rw [List.map_cons]
        have : a.value s' = a.value s := by
          unfold Axis.value
          rw [valL_congr fun x hx => hs' x fun h => hn.2.2 x hx x h rfl]
        rw [this]
    have h2 : sumOver a.qs (sumOver (axesQ xs) fun s => (G ((a :: xs).map fun a => a.value s) : ℂ)) s =
        sumOver a.qs (fun s => (fun k : ℕ => sumOver (axesQ xs)
          (fun s' => ((fun l => G ((k : ℝ) * 2 ^ a.exp :: l)) (xs.map fun a => a.value s') : ℂ)) s) (valL a.qs s)) s := by
      refine congrFun (congrArg _ (funext fun s => ?_)) s
      rw [h1]
      rfl
    have hprod : ((xs.map fun a => (2 : ℝ) ^ a.exp).prod : ℝ) ≠ 0 := by
      apply List.prod_ne_zero
      intro h
      obtain ⟨b, _, hb⟩ := List.mem_map.mp h
      exact zpow_ne_zero _ two_ne_zero hb
    have hprodC : (((xs.map fun a => (2 : ℝ) ^ a.exp).prod : ℝ) : ℂ) ≠ 0 := by exact_mod_cast hprod
    have h3 : ∀ (k : ℕ) (s : St Q), sumOver (axesQ xs) (fun s' => ((fun l => G ((k : ℝ) * 2 ^ a.exp :: l)) (xs.map fun a => a.value s') : ℂ)) s =
        (gridSum xs (fun l => G ((k : ℝ) * 2 ^ a.exp :: l)) : ℂ) / ((xs.map fun a => (2 : ℝ) ^ a.exp).prod : ℝ) := fun k s => by
      rw [eq_div_iff hprodC, mul_comm]
      exact grid_sumOver hn.2.1 (fun l => G ((k : ℝ) * 2 ^ a.exp :: l)) s
    rw [h2]
    have h4 : (fun s => (fun k : ℕ => sumOver (axesQ xs)
          (fun s' => ((fun l => G ((k : ℝ) * 2 ^ a.exp :: l)) (xs.map fun a => a.value s') : ℂ)) s) (valL a.qs s)) =
        fun s : St Q => (fun k : ℕ => (gridSum xs (fun l => G ((k : ℝ) * 2 ^ a.exp :: l)) : ℂ) / ((xs.map fun a => (2 : ℝ) ^ a.exp).prod : ℝ))
          (valL a.qs s) := by
      funext s
      exact h3 _ s
    rw [h4, sumOver_val hn.1 (fun k : ℕ => (gridSum xs (fun l => G ((k : ℝ) * 2 ^ a.exp :: l)) : ℂ) / ((xs.map fun a => (2 : ℝ) ^ a.exp).prod : ℝ)),
      ← Finset.sum_div, gridSum, List.map_cons, List.prod_cons, ← Finset.mul_sum, Complex.ofReal_mul, Complex.ofReal_mul, Complex.ofReal_sum,
      mul_assoc, mul_div_cancel₀ _ hprodC]

theorem gridSum_congr : ∀ {xs : List (Axis Q)} {F G : List ℝ → ℝ}, (∀ v, GridPoint xs v → F v = G v) → gridSum xs F = gridSum xs G
  | [], _, _, h => h [] rfl
  | a :: xs, F, G, h => Finset.sum_congr rfl fun k hk => by
    rw [gridSum_congr fun l hl => h _ ⟨k, Finset.mem_range.mp hk, l, hl, rfl⟩]

theorem gridSum_le : ∀ {xs : List (Axis Q)} {F G : List ℝ → ℝ}, (∀ v, GridPoint xs v → F v ≤ G v) → gridSum xs F ≤ gridSum xs G
  | [], _, _, h => h [] rfl
  | a :: xs, F, G, h => Finset.sum_le_sum fun k hk => mul_le_mul_of_nonneg_left
    (gridSum_le fun l hl => h _ ⟨k, Finset.mem_range.mp hk, l, hl, rfl⟩) (by positivity)

theorem gridSum_add_const : ∀ (xs : List (Axis Q)) (F : List ℝ → ℝ) (c : ℝ), gridSum xs (fun v => F v + c) = gridSum xs F + volume xs * c
  | [], F, c => by simp [gridSum, volume]
  | a :: xs, F, c => by
    simp only [gridSum]
    have h : ∀ k : ℕ, gridSum xs (fun l => F ((k : ℝ) * 2 ^ a.exp :: l) + c) = gridSum xs (fun l => F ((k : ℝ) * 2 ^ a.exp :: l)) + volume xs * c :=
      fun k => gridSum_add_const xs _ c
    simp only [h, mul_add]
    rw [Finset.sum_add_distrib, Finset.sum_const, Finset.card_range, nsmul_eq_mul, volume, volume, List.map_cons, List.prod_cons,
      zpow_add₀ two_ne_zero, zpow_natCast]
    push_cast
    ring

theorem uniform_ok (xs : List (Axis Q)) : uniformD xs = hLayer (axesQ xs) := by
  unfold uniformD axesQ hLayer
  rw [List.map_flatMap]

theorem volume_split (xs : List (Axis Q)) : volume xs = 2 ^ (axesQ xs).length * (xs.map fun a => (2 : ℝ) ^ a.exp).prod := by
  induction xs with
  | nil => simp [volume, axesQ]
  | cons a xs ih =>
    have e : axesQ (a :: xs) = a.qs ++ axesQ xs := rfl
    unfold volume at ih ⊢
    rw [List.map_cons, List.prod_cons, ih, e, List.length_append, List.map_cons, List.prod_cons, zpow_add₀ two_ne_zero, zpow_natCast, pow_add]
    ring

section
variable {xs : List (Axis Q)} {y : Axis Q} {tar : Q} (hn : (axesQ xs ++ (y.qs ++ [tar])).Nodup)
include hn

/-- For any distribution: the probability of the target is the mean of the rounded and truncated integrand, in units of the range of `y`. -/
theorem qmci_distribution {D : List (FGate Q)} (hD : ∀ g ∈ D, ∀ x ∈ g.qubits, x ∈ axesQ xs) (F : List ℝ → ℝ) (s : St Q) :
    qmciProb D F xs y tar s = sumOver (axesQ xs) (fun s => ((‖prepared D (axesQ xs) s‖ ^ 2 *
      ((min (2 ^ y.qs.length) ⌈F (xs.map fun a => a.value s) / 2 ^ y.exp⌉₊ : ℕ) / 2 ^ y.qs.length) : ℝ) : ℂ)) s :=
  qmci_prob hn hD F s

/-- The uniform distribution: `V` for the exact probability is the Riemann sum of the integrand, rounded up to the grid of `y` and truncated
to its range. -/
theorem qmci_riemann (F : List ℝ → ℝ) : ∃ a : ℝ, (∀ s, qmciProb (uniformD xs) F xs y tar s = (a : ℂ)) ∧
    qmciValue xs y a = gridSum xs fun v => 2 ^ y.exp * (min (2 ^ y.qs.length) ⌈F v / 2 ^ y.exp⌉₊ : ℕ) := by
  have hnx : (axesQ xs).Nodup := by
    rw [List.nodup_append] at hn
    exact hn.1
  have hD : ∀ g ∈ uniformD xs, ∀ x ∈ g.qubits, x ∈ axesQ xs := by
    intro g hg x hx
    rw [uniform_ok] at hg
    obtain ⟨z, hz, rfl⟩ := List.mem_map.mp hg
    rw [show x = z from List.mem_singleton.mp hx]
    exact hz
  have hV : volume (xs ++ [y]) = volume xs * (2 ^ y.qs.length * 2 ^ y.exp) := by
    unfold volume
    rw [List.map_append, List.prod_append, List.map_singleton, List.prod_singleton, zpow_add₀ two_ne_zero, zpow_natCast]
  have hV0 : volume (xs ++ [y]) ≠ 0 := by
    unfold volume
    apply List.prod_ne_zero
    intro h
    obtain ⟨b, _, hb⟩ := List.mem_map.mp h
    exact zpow_ne_zero _ two_ne_zero hb
  refine ⟨gridSum xs (fun v => 2 ^ y.exp * (min (2 ^ y.qs.length) ⌈F v / 2 ^ y.exp⌉₊ : ℕ)) / volume (xs ++ [y]), fun s => ?_, ?_⟩
  · have h2 : ∀ s, ((‖prepared (uniformD xs) (axesQ xs) s‖ ^ 2 *
        ((min (2 ^ y.qs.length) ⌈F (xs.map fun a => a.value s) / 2 ^ y.exp⌉₊ : ℕ) / 2 ^ y.qs.length) : ℝ) : ℂ) =
        (1 / (2 ^ (axesQ xs).length * 2 ^ y.qs.length * 2 ^ y.exp : ℝ) : ℝ) *
          (((fun v => 2 ^ y.exp * ((min (2 ^ y.qs.length) ⌈F v / 2 ^ y.exp⌉₊ : ℕ) : ℝ)) (xs.map fun a => a.value s) : ℝ) : ℂ) := fun s => by
      have hp : ‖prepared (uniformD xs) (axesQ xs) s‖ ^ 2 = 1 / 2 ^ (axesQ xs).length := by
        unfold prepared
        rw [uniform_ok, run_hLayer hnx]
        have h := rt_norm (axesQ xs).length
        rw [Complex.conj_mul'] at h
        have h' : ‖rt ^ (axesQ xs).length‖ ^ 2 * 2 ^ (axesQ xs).length = 1 := by exact_mod_cast h
        exact eq_one_div_of_mul_eq_one_left h'
      rw [hp, ← Complex.ofReal_mul]
      congr 1
      have h2e : (2 : ℝ) ^ y.exp ≠ 0 := zpow_ne_zero _ two_ne_zero
      field_simp
    rw [qmci_distribution hn hD, sumOver_congr h2, sumOver_smul]
    have h3 := grid_sumOver hnx (fun v => 2 ^ y.exp * ((min (2 ^ y.qs.length) ⌈F v / 2 ^ y.exp⌉₊ : ℕ) : ℝ)) s
    rw [hV, volume_split]
    push_cast at h3 ⊢
    rw [← h3]
    have h2e : (2 : ℂ) ^ y.exp ≠ 0 := zpow_ne_zero _ two_ne_zero
    have hpr : (xs.map fun a => (2 : ℝ) ^ a.exp).prod ≠ 0 := by
      apply List.prod_ne_zero
      intro h
      obtain ⟨b, _, hb⟩ := List.mem_map.mp h
      exact zpow_ne_zero _ two_ne_zero hb
    have hprC : (((xs.map fun a => (2 : ℝ) ^ a.exp).prod : ℝ) : ℂ) ≠ 0 := by exact_mod_cast hpr
    field_simp
  · unfold qmciValue
    field_simp

/-- If all values of the integrand on the grid are numbers of the `y` register (or its upper end), it is the Riemann sum. -/
theorem qmci_exact {F : List ℝ → ℝ} (hF : ∀ v, GridPoint xs v → ∃ k : ℕ, k ≤ 2 ^ y.qs.length ∧ F v = k * 2 ^ y.exp) :
    ∃ a : ℝ, (∀ s, qmciProb (uniformD xs) F xs y tar s = (a : ℂ)) ∧ qmciValue xs y a = gridSum xs F := by
  obtain ⟨a, h1, h2⟩ := qmci_riemann hn F
  refine ⟨a, h1, h2.trans (gridSum_congr fun v hv => ?_)⟩
  obtain ⟨k, hk, e⟩ := hF v hv
  have h2e : (2 : ℝ) ^ y.exp ≠ 0 := zpow_ne_zero _ two_ne_zero
  rw [e, mul_div_cancel_right₀ _ h2e, Nat.ceil_natCast, min_eq_right hk]
  ring

/-- If the values are in the range of the `y` register, the rounding adds at most one step of `y` for each point. -/
theorem qmci_rounding {F : List ℝ → ℝ} (hF : ∀ v, GridPoint xs v → 0 ≤ F v ∧ F v ≤ 2 ^ y.qs.length * 2 ^ y.exp) :
    ∃ a : ℝ, (∀ s, qmciProb (uniformD xs) F xs y tar s = (a : ℂ)) ∧ gridSum xs F ≤ qmciValue xs y a ∧
      qmciValue xs y a ≤ gridSum xs F + volume xs * 2 ^ y.exp := by
  obtain ⟨a, h1, h2⟩ := qmci_riemann hn F
  have h2e : (0 : ℝ) < 2 ^ y.exp := by positivity
  have hc : ∀ v, GridPoint xs v → min (2 ^ y.qs.length) ⌈F v / 2 ^ y.exp⌉₊ = ⌈F v / 2 ^ y.exp⌉₊ := fun v hv => by
    refine min_eq_right (Nat.ceil_le.mpr ?_)
    rw [div_le_iff₀ h2e]
    push_cast
    exact (hF v hv).2
  refine ⟨a, h1, ?_, ?_⟩
  · rw [h2]
    refine gridSum_le fun v hv => ?_
    rw [hc v hv, mul_comm, ← div_le_iff₀ h2e]
    exact Nat.le_ceil _
  · rw [h2, ← gridSum_add_const]
    refine gridSum_le fun v hv => ?_
    rw [hc v hv]
    have h3 := (Nat.ceil_lt_add_one (div_nonneg (hF v hv).1 h2e.le)).le
    calc (2 : ℝ) ^ y.exp * ⌈F v / 2 ^ y.exp⌉₊ ≤ 2 ^ y.exp * (F v / 2 ^ y.exp + 1) := mul_le_mul_of_nonneg_left h3 h2e.le
      _ = F v + 2 ^ y.exp := by field_simp

/-- The error of `IQAE` (`eps = 0.01`, qmci.py:114) is multiplied by `V0`. -/
theorem qmci_accuracy {F : List ℝ → ℝ} (hF : ∀ v, GridPoint xs v → ∃ k : ℕ, k ≤ 2 ^ y.qs.length ∧ F v = k * 2 ^ y.exp) :
    ∃ a : ℝ, (∀ s, qmciProb (uniformD xs) F xs y tar s = (a : ℂ)) ∧
      ∀ est eps : ℝ, |est - a| ≤ eps → |qmciValue xs y est - gridSum xs F| ≤ volume (xs ++ [y]) * eps := by
  obtain ⟨a, h1, h2⟩ := qmci_exact hn hF
  refine ⟨a, h1, fun est eps h => ?_⟩
  have hV : 0 < volume (xs ++ [y]) := by
    unfold volume
    refine List.prod_pos fun x hx => ?_
    obtain ⟨b, _, rfl⟩ := List.mem_map.mp hx
    positivity
  rw [← h2]
  unfold qmciValue
  rw [← mul_sub, abs_mul, abs_of_pos hV]
  exact mul_le_mul_of_nonneg_left h hV.le

/-- For any distribution, `V` is the mean of the integrand times the volume of the `x` registers; this is the mean for registers with the
range `[0, 1)`. -/
theorem qmci_mean {D : List (FGate Q)} (hD : ∀ g ∈ D, ∀ x ∈ g.qubits, x ∈ axesQ xs) {F : List ℝ → ℝ}
    (hF : ∀ s, ∃ k : ℕ, k ≤ 2 ^ y.qs.length ∧ F (xs.map fun a => a.value s) = k * 2 ^ y.exp) (s : St Q) :
    (volume (xs ++ [y]) : ℂ) * qmciProb D F xs y tar s =
      volume xs * sumOver (axesQ xs) (fun s => ((‖prepared D (axesQ xs) s‖ ^ 2 * F (xs.map fun a => a.value s) : ℝ) : ℂ)) s := by
  have hV : volume (xs ++ [y]) = volume xs * (2 ^ y.qs.length * 2 ^ y.exp) := by
    unfold volume
    rw [List.map_append, List.prod_append, List.map_singleton, List.prod_singleton, zpow_add₀ two_ne_zero, zpow_natCast]
  have h2e : (2 : ℝ) ^ y.exp ≠ 0 := zpow_ne_zero _ two_ne_zero
  rw [qmci_distribution hn hD, hV, Complex.ofReal_mul, mul_assoc, ← sumOver_smul]
  congr 1
  refine congrFun (sumOver_congr fun s => ?_) s
  obtain ⟨k, hk, e⟩ := hF s
  rw [← Complex.ofReal_mul, e, mul_div_cancel_right₀ _ h2e, Nat.ceil_natCast, min_eq_right hk]
  congr 1
  field_simp

end

/-- Finding: `QMCI` appends a `QuantumBool` to the list of the caller, and a second call with the same list fails. -/
theorem qmci_twice_wrong {l r : List (ℕ × Option ℤ)} (h : qmciArgs l = some r) : r ≠ l ∧ qmciArgs r = none := by
  unfold qmciArgs at h
  split at h
  · rw [Option.some.injEq] at h
    subst h
    constructor
    · intro e
      have := congrArg List.length e
      simp at this
    · unfold qmciArgs
      simp
  · cases h

/-! ### Examples -/

/-- The example of the documentation: `x²` at eight points, in a `y` register with six bits; the Riemann sum is 0.2734375. -/
example : ∃ a : ℝ, (∀ s, qmciProb (uniformD [⟨[0, 1, 2], -3⟩]) (fun v => (v.headD 0) ^ 2) [⟨[0, 1, 2], -3⟩] ⟨[3, 4, 5, 6, 7, 8], -6⟩ 9 s = (a : ℂ)) ∧
    qmciValue [⟨[0, 1, 2], -3⟩] ⟨[3, 4, 5, 6, 7, 8], -6⟩ a = 0.2734375 := by
  obtain ⟨a, h1, h2⟩ := qmci_exact (xs := [⟨[0, 1, 2], -3⟩]) (y := ⟨[3, 4, 5, 6, 7, 8], -6⟩) (tar := 9) (by decide)
    (F := fun v => (v.headD 0) ^ 2) (by
      rintro v ⟨k, hk, l, rfl, rfl⟩
      refine ⟨k ^ 2, ?_, ?_⟩
      · have hk' : k < 8 := hk
        have : k ^ 2 ≤ 8 ^ 2 := Nat.pow_le_pow_left hk'.le 2
        exact this
      · simp only [List.headD_cons]
        push_cast
        rw [mul_pow]
        norm_num)
  refine ⟨a, h1, h2.trans ?_⟩
  simp only [gridSum, List.length_cons, List.length_nil]
  norm_num [Finset.sum_range_succ]

example : qmciArgs [(3, some (-3)), (6, some (-6))] = some [(3, some (-3)), (6, some (-6)), (1, none)] := by decide

end Verif.Props
