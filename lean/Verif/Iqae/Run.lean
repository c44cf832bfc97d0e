import Mathlib.Tactic.IntervalCases
import Verif.Iqae.Table

/-!
# Rounds of the iterative amplitude estimation
-/

namespace Verif.Iqae
open Real

/-- The position within the quadrant `m`. -/
noncomputable def off (m : ℕ) (x : ℝ) : ℝ := if m % 2 = 0 then x else π / 2 - x

theorem theta_mul {m K : ℕ} (hK : 0 < K) (y : ℝ) : K * theta m K y = m * (π / 2) + off m (arcsin (√y)) := by
  have hk : (K : ℝ) ≠ 0 := by exact_mod_cast hK.ne'
  rw [theta, mul_div_cancel₀ _ hk, off]
  rcases Nat.mod_two_eq_zero_or_one m with h | h
  · rw [h, if_pos rfl]; push_cast; ring
  · rw [h, if_neg (by norm_num)]; push_cast; ring

theorem off_sq_diff (m : ℕ) (x y : ℝ) : |sin (off m y) ^ 2 - sin (off m x) ^ 2| = |sin y ^ 2 - sin x ^ 2| := by
  unfold off
  split_ifs
  · rfl
  · rw [sq_compl, sq_compl, abs_sub_comm]
    congr 1
    ring

theorem off_mem {m : ℕ} {x : ℝ} (h0 : 0 ≤ x) (h1 : x ≤ π / 2) : 0 ≤ off m x ∧ off m x ≤ π / 2 := by
  unfold off
  split_ifs
  · exact ⟨h0, h1⟩
  · constructor <;> linarith

theorem sin_arcsin_sqrt {y : ℝ} (h0 : 0 ≤ y) (h1 : y ≤ 1) : sin (arcsin (√y)) ^ 2 = y := by
  rw [sin_arcsin (by linarith [sqrt_nonneg y]) (sqrt_le_one.mpr h1), sq_sqrt h0]

theorem arcsin_sqrt_mem (y : ℝ) : 0 ≤ arcsin (√y) ∧ arcsin (√y) ≤ π / 2 :=
  ⟨arcsin_nonneg.mpr (sqrt_nonneg y), arcsin_le_pi_div_two _⟩

theorem arcsin_sqrt_mono {x y : ℝ} (h : x ≤ y) : arcsin (√x) ≤ arcsin (√y) := monotone_arcsin (sqrt_le_sqrt h)

/-- The bounds of the probability. -/
theorem bounds {A : ℝ} (h0 : 0 ≤ A) (h1 : A ≤ 1) : 0 ≤ max (A - cE) 0 ∧ max (A - cE) 0 ≤ min (A + cE) 1 ∧ min (A + cE) 1 ≤ 1 ∧
    min (A + cE) 1 - max (A - cE) 0 ≤ 2 * cE := by
  have := cE_pos
  refine ⟨le_max_right _ _, ?_, min_le_right _ _, ?_⟩
  · rw [max_le_iff, le_min_iff, le_min_iff]
    refine ⟨⟨?_, ?_⟩, ?_, ?_⟩ <;> linarith
  · linarith [min_le_left (A + cE) 1, le_max_left (A - cE) 0]

theorem mem_table {L j : ℕ} (hL : L ∈ ([3, 5, 7] : List ℕ)) (hj : j < L) : (L, j) ∈ table := by
  simp only [List.mem_cons, List.not_mem_nil, or_false] at hL
  rcases hL with rfl | rfl | rfl <;> interval_cases j <;> decide

theorem table_mem {e : ℕ × ℕ} (h : e ∈ table) : (e.1 = 3 ∨ e.1 = 5 ∨ e.1 = 7) ∧ e.2 < e.1 := by
  have : ∀ e ∈ table, (e.1 = 3 ∨ e.1 = 5 ∨ e.1 = 7) ∧ e.2 < e.1 := by decide
  exact this e h

/-- For angles `θ = (m π/2 + x) / K` the condition of the table only depends on the positions within the quadrant. -/
theorem fits_iff {m K : ℕ} {tb ts x y : ℝ} (hb : K * tb = m * (π / 2) + x) (hs : K * ts = m * (π / 2) + y) (e : ℕ × ℕ) :
    Fits m K tb ts e ↔ e.2 * (π / 2) ≤ e.1 * x ∧ e.1 * x ≤ (e.2 + 1) * (π / 2) ∧ e.2 * (π / 2) ≤ e.1 * y ∧ e.1 * y ≤ (e.2 + 1) * (π / 2) := by
  unfold Fits
  rw [mul_assoc, hb, mul_assoc (e.1 : ℝ) (K : ℝ), hs]
  have e1 : (e.1 : ℝ) * (m * (π / 2) + x) = e.1 * m * (π / 2) + e.1 * x := by ring
  have e2 : (e.1 : ℝ) * (m * (π / 2) + y) = e.1 * m * (π / 2) + e.1 * y := by ring
  have e3 : ((e.1 : ℝ) * m + e.2) * π / 2 = e.1 * m * (π / 2) + e.2 * (π / 2) := by ring
  rw [e1, e2, e3]
  have e4 : ((e.2 : ℝ) + 1) * (π / 2) = e.2 * (π / 2) + π / 2 := by ring
  rw [e4]
  constructor
  · rintro ⟨a, b, c, d⟩; refine ⟨?_, ?_, ?_, ?_⟩ <;> linarith
  · rintro ⟨a, b, c, d⟩; refine ⟨?_, ?_, ?_, ?_⟩ <;> linarith

theorem exists_fit {m K : ℕ} (hK : 0 < K) {A : ℝ} (h0 : 0 ≤ A) (h1 : A ≤ 1) :
    ∃ e ∈ table, Fits m K (thetas m K A).1 (thetas m K A).2 e := by
  obtain ⟨b1, b2, b3, b4⟩ := bounds h0 h1
  have hb := theta_mul (m := m) hK (max (A - cE) 0)
  have hs := theta_mul (m := m) hK (min (A + cE) 1)
  set x := arcsin (√(max (A - cE) 0)) with hx
  set y := arcsin (√(min (A + cE) 1)) with hy
  have hxy : x ≤ y := arcsin_sqrt_mono b2
  have hx0 := arcsin_sqrt_mem (max (A - cE) 0)
  have hy0 := arcsin_sqrt_mem (min (A + cE) 1)
  rw [← hx] at hx0
  rw [← hy] at hy0
  have hw : sin y ^ 2 - sin x ^ 2 ≤ 2 * cE := by
    rw [hx, hy, sin_arcsin_sqrt b1 (b2.trans b3), sin_arcsin_sqrt (b1.trans b2) b3]; exact b4
  have key : ∃ L ∈ ([3, 5, 7] : List ℕ), ∃ j : ℕ, j < L ∧ ((j : ℝ) * (π / 2) ≤ L * off m x ∧ (L : ℝ) * off m x ≤ (j + 1) * (π / 2) ∧
      (j : ℝ) * (π / 2) ≤ L * off m y ∧ (L : ℝ) * off m y ≤ (j + 1) * (π / 2)) := by
    unfold off
    by_cases hm : m % 2 = 0
    · simp only [if_pos hm]
      obtain ⟨L, hL, j, k1, k2, k3⟩ := some_fits hx0.1 hy0.2 hxy hw
      have : (L : ℝ) * x ≤ L * y := mul_le_mul_of_nonneg_left hxy (by positivity)
      exact ⟨L, hL, j, k1, k2, by linarith, by linarith, k3⟩
    · simp only [if_neg hm]
      obtain ⟨L, hL, j, k1, k2, k3⟩ := some_fits (u := π / 2 - y) (v := π / 2 - x) (by linarith) (by linarith) (by linarith)
        (by rw [sq_compl, sq_compl]; linarith)
      have : (L : ℝ) * (π / 2 - y) ≤ L * (π / 2 - x) := mul_le_mul_of_nonneg_left (by linarith) (by positivity)
      exact ⟨L, hL, j, k1, by linarith, k3, k2, by linarith⟩
  obtain ⟨L, hL, j, k1, k2⟩ := key
  exact ⟨(L, j), mem_table hL k1, (fits_iff hb hs (L, j)).mpr k2⟩

theorem nextL_spec {m K : ℕ} {tb ts : ℝ} (h : ∃ e ∈ table, Fits m K tb ts e) :
    nextL m K tb ts ∈ table ∧ Fits m K tb ts (nextL m K tb ts) := by
  classical
  obtain ⟨e, he, hf⟩ := h
  unfold nextL
  cases hx : table.find? fun e => decide (Fits m K tb ts e) with
  | none =>
    rw [List.find?_eq_none] at hx
    have := hx e he
    simp [hf] at this
  | some x =>
    have h1 := List.find?_some hx
    exact ⟨List.mem_of_find?_eq_some hx, by simpa using h1⟩

/-- What a round does, whatever the estimate is. -/
structure Round (s t : Stt) : Prop where
  K : ∃ L, (L = 3 ∨ L = 5 ∨ L = 7) ∧ t.K = L * s.K
  wide : |t.tb - t.ts| * s.K ≤ 2 * cF
  next : |t.tb - t.ts| * t.K ≤ π / 2

theorem sq_sub {x y : ℝ} (h0 : 0 ≤ x) (hxy : x ≤ y) (h1 : y ≤ π / 2) : sin (y - x) ^ 2 ≤ sin y ^ 2 - sin x ^ 2 := by
  have e : sin y ^ 2 - sin x ^ 2 = sin (y - x) * sin (y + x) := by
    rw [sin_sub, sin_add]
    have := sin_sq_add_cos_sq x
    have := sin_sq_add_cos_sq y
    have e : (sin y * cos x - cos y * sin x) * (sin y * cos x + cos y * sin x) = sin y ^ 2 * cos x ^ 2 - cos y ^ 2 * sin x ^ 2 := by ring
    rw [e, cos_sq' x, cos_sq' y]; ring
  have hp := pi_pos
  have h2 : 0 ≤ sin (y - x) := sin_nonneg_of_nonneg_of_le_pi (by linarith) (by linarith)
  have h3 : sin (y - x) ≤ sin (y + x) := by
    rcases le_total (y + x) (π / 2) with h | h
    · exact sin_le_sin_of_le_of_le_pi_div_two (by linarith) h (by linarith)
    · rw [← sin_pi_sub (y + x)]
      exact sin_le_sin_of_le_of_le_pi_div_two (by linarith) (by linarith) (by linarith)
  rw [e, sq]
  exact mul_le_mul_of_nonneg_left h3 h2

theorem width_le {x y : ℝ} (h0 : 0 ≤ x) (hxy : x ≤ y) (h1 : y ≤ π / 2) (hw : sin y ^ 2 - sin x ^ 2 ≤ 2 * cE) : y - x ≤ 2 * cF := by
  have h := (sq_sub h0 hxy h1).trans hw
  have hp := pi_pos
  have h2 : 0 ≤ sin (y - x) := sin_nonneg_of_nonneg_of_le_pi (by linarith) (by linarith)
  have h3 : sin (y - x) ≤ √(2 * cE) := le_sqrt_of_sq_le h
  have h4 : arcsin (sin (y - x)) = y - x := arcsin_sin (by linarith) (by linarith)
  rw [cF, ← h4]
  have := monotone_arcsin h3
  linarith

theorem round_body {s : Stt} (hK : 0 < s.K) {A : ℝ} (h0 : 0 ≤ A) (h1 : A ≤ 1) : Round s (body A s) := by
  obtain ⟨n1, n2⟩ := nextL_spec (exists_fit (m := s.m) hK h0 h1)
  obtain ⟨t1, t2⟩ := table_mem n1
  obtain ⟨b1, b2, b3, b4⟩ := bounds h0 h1
  have hb := theta_mul (m := s.m) hK (max (A - cE) 0)
  have hs := theta_mul (m := s.m) hK (min (A + cE) 1)
  have hKr : (0 : ℝ) < s.K := by exact_mod_cast hK
  refine ⟨⟨_, t1, rfl⟩, ?_, ?_⟩
  · have hxy := arcsin_sqrt_mono b2
    have hw : sin (arcsin (√(min (A + cE) 1))) ^ 2 - sin (arcsin (√(max (A - cE) 0))) ^ 2 ≤ 2 * cE := by
      rw [sin_arcsin_sqrt b1 (b2.trans b3), sin_arcsin_sqrt (b1.trans b2) b3]; exact b4
    have := width_le (arcsin_sqrt_mem _).1 hxy (arcsin_sqrt_mem _).2 hw
    have e : |(body A s).tb - (body A s).ts| * s.K = |s.K * theta s.m s.K (max (A - cE) 0) - s.K * theta s.m s.K (min (A + cE) 1)| := by
      rw [← mul_sub, abs_mul, abs_of_pos hKr, mul_comm]; rfl
    rw [e, hb, hs]
    unfold off
    split_ifs
    · rw [abs_le]; constructor <;> linarith
    · rw [abs_le]; constructor <;> linarith
  · obtain ⟨f1, f2, f3, f4⟩ := n2
    have e : |(body A s).tb - (body A s).ts| * (body A s).K =
        |(nextL s.m s.K (thetas s.m s.K A).1 (thetas s.m s.K A).2).1 * s.K * (thetas s.m s.K A).1 -
          (nextL s.m s.K (thetas s.m s.K A).1 (thetas s.m s.K A).2).1 * s.K * (thetas s.m s.K A).2| := by
      rw [← mul_sub, abs_mul, abs_of_nonneg (a := ((nextL s.m s.K (thetas s.m s.K A).1 (thetas s.m s.K A).2).1 : ℝ) * s.K)
        (mul_nonneg (Nat.cast_nonneg _) (Nat.cast_nonneg _)), mul_comm]
      simp only [body]
      push_cast
      rfl
    rw [e, abs_le]
    constructor <;> linarith

theorem pos_after {A : ℕ → ℝ} (hA : ∀ i, 0 ≤ A i ∧ A i ≤ 1) : ∀ n, 3 ^ n ≤ (after A n).K
  | 0 => by simp [after, init]
  | n + 1 => by
    have ih := pos_after hA n
    have hK : 0 < (after A n).K := lt_of_lt_of_le (by positivity) ih
    obtain ⟨L, hL, e⟩ := (round_body hK (hA n).1 (hA n).2).K
    simp only [after]
    rw [e, pow_succ, mul_comm]
    have : 3 ≤ L := by omega
    exact Nat.mul_le_mul this ih

theorem round_after {A : ℕ → ℝ} (hA : ∀ i, 0 ≤ A i ∧ A i ≤ 1) (n : ℕ) : Round (after A n) (after A (n + 1)) :=
  round_body (lt_of_lt_of_le (by positivity) (pos_after hA n)) (hA n).1 (hA n).2

theorem odd_after {A : ℕ → ℝ} (hA : ∀ i, 0 ≤ A i ∧ A i ≤ 1) : ∀ n, (after A n).K % 2 = 1
  | 0 => rfl
  | n + 1 => by
    obtain ⟨L, hL, e⟩ := (round_after hA n).K
    rw [e, Nat.mul_mod, odd_after hA n]
    rcases hL with rfl | rfl | rfl <;> rfl

/-! ### The angle stays inside -/

/-- Within the quadrant `m` the position is determined by the squared sine. -/
theorem fold {m : ℕ} {t : ℝ} (h0 : m * (π / 2) ≤ t) (h1 : t ≤ (m + 1) * (π / 2)) : off m (arcsin (√(sin t ^ 2))) = t - m * (π / 2) := by
  have hp := pi_pos
  set r := t - m * (π / 2) with hr
  have hr0 : 0 ≤ r := by rw [hr]; linarith
  have hr1 : r ≤ π / 2 := by rw [hr]; linarith
  unfold off
  rcases Nat.even_or_odd' m with ⟨k, rfl | rfl⟩
  · rw [if_pos (by omega)]
    have e : t = r + k * π := by rw [hr]; push_cast; ring
    have e2 : sin t ^ 2 = sin r ^ 2 := by
      rw [e, sin_add_nat_mul_pi, mul_pow, ← pow_mul, mul_comm k 2, pow_mul]; norm_num
    rw [e2, sqrt_sq (sin_nonneg_of_nonneg_of_le_pi hr0 (by linarith)), arcsin_sin (by linarith) hr1]
  · rw [if_neg (by omega)]
    have e : t = (r + π / 2) + k * π := by rw [hr]; push_cast; ring
    have e2 : sin t ^ 2 = sin (π / 2 - r) ^ 2 := by
      rw [e, sin_add_nat_mul_pi, mul_pow, ← pow_mul, mul_comm k 2, pow_mul, sin_add_pi_div_two, sin_pi_div_two_sub]; norm_num
    rw [e2, sqrt_sq (sin_nonneg_of_nonneg_of_le_pi (by linarith) (by linarith)), arcsin_sin (by linarith) (by linarith)]
    ring

/-- `x` lies between `a` and `b`. -/
def Btw (a b x : ℝ) : Prop := (a ≤ x ∧ x ≤ b) ∨ (b ≤ x ∧ x ≤ a)

theorem body_inside {s : Stt} (hK : 0 < s.K) {A t : ℝ} (h0 : 0 ≤ A) (h1 : A ≤ 1) (hq0 : s.m * (π / 2) ≤ s.K * t)
    (hq1 : s.K * t ≤ (s.m + 1) * (π / 2)) (hA : |A - sin (s.K * t) ^ 2| ≤ cE) :
    Btw (body A s).tb (body A s).ts t ∧ (body A s).m * (π / 2) ≤ (body A s).K * t ∧ (body A s).K * t ≤ ((body A s).m + 1) * (π / 2) := by
  have hKr : (0 : ℝ) < s.K := by exact_mod_cast hK
  obtain ⟨n1, n2⟩ := nextL_spec (exists_fit (m := s.m) hK h0 h1)
  have hb := theta_mul (m := s.m) hK (max (A - cE) 0)
  have hs := theta_mul (m := s.m) hK (min (A + cE) 1)
  have hf := fold hq0 hq1
  rw [abs_le] at hA
  have hsq : sin (s.K * t) ^ 2 ≤ 1 := sin_sq_le_one _
  have l1 : max (A - cE) 0 ≤ sin (s.K * t) ^ 2 := max_le (by linarith) (by positivity)
  have l2 : sin (s.K * t) ^ 2 ≤ min (A + cE) 1 := le_min (by linarith) hsq
  have a1 := arcsin_sqrt_mono l1
  have a2 := arcsin_sqrt_mono l2
  have hbt : Btw (s.K * theta s.m s.K (max (A - cE) 0)) (s.K * theta s.m s.K (min (A + cE) 1)) (s.K * t) := by
    rw [hb, hs]
    unfold off at hf ⊢
    by_cases hm : s.m % 2 = 0
    · rw [if_pos hm] at hf ⊢
      rw [if_pos hm]
      left; constructor <;> linarith
    · rw [if_neg hm] at hf ⊢
      rw [if_neg hm]
      right; constructor <;> linarith
  obtain ⟨f1, f2, f3, f4⟩ := n2
  set e := nextL s.m s.K (thetas s.m s.K A).1 (thetas s.m s.K A).2 with he
  have hm' : ((body A s).m : ℝ) = e.1 * s.m + e.2 := by simp only [body, ← he]; push_cast; rfl
  have hK' : ((body A s).K : ℝ) = e.1 * s.K := by simp only [body, ← he]; push_cast; rfl
  have hL : (0 : ℝ) ≤ e.1 := by positivity
  have t1 : (thetas s.m s.K A).1 = theta s.m s.K (max (A - cE) 0) := rfl
  have t2 : (thetas s.m s.K A).2 = theta s.m s.K (min (A + cE) 1) := rfl
  rw [t1] at f1 f2
  rw [t2] at f3 f4
  refine ⟨?_, ?_, ?_⟩
  · rcases hbt with ⟨p, q⟩ | ⟨p, q⟩
    · exact .inl ⟨le_of_mul_le_mul_left p hKr, le_of_mul_le_mul_left q hKr⟩
    · exact .inr ⟨le_of_mul_le_mul_left p hKr, le_of_mul_le_mul_left q hKr⟩
  · rw [hm', hK', mul_assoc (e.1 : ℝ)]
    rw [mul_assoc] at f1 f3
    rcases hbt with ⟨p, q⟩ | ⟨p, q⟩
    · have := mul_le_mul_of_nonneg_left p hL
      linarith
    · have := mul_le_mul_of_nonneg_left p hL
      linarith
  · rw [hm', hK', mul_assoc (e.1 : ℝ)]
    rw [mul_assoc] at f2 f4
    rcases hbt with ⟨p, q⟩ | ⟨p, q⟩
    · have := mul_le_mul_of_nonneg_left q hL
      linarith
    · have := mul_le_mul_of_nonneg_left q hL
      linarith

theorem after_inside {A : ℕ → ℝ} (hA : ∀ i, 0 ≤ A i ∧ A i ≤ 1) {t : ℝ} (h0 : 0 ≤ t) (h1 : t ≤ π / 2) : ∀ n,
    (∀ i < n, |A i - sin ((after A i).K * t) ^ 2| ≤ cE) →
    (0 < n → Btw (after A n).tb (after A n).ts t) ∧ (after A n).m * (π / 2) ≤ (after A n).K * t ∧
      (after A n).K * t ≤ ((after A n).m + 1) * (π / 2)
  | 0, _ => by
    refine ⟨fun h => absurd h (lt_irrefl 0), ?_, ?_⟩
    · simpa [after, init] using h0
    · simpa [after, init] using h1
  | n + 1, h => by
    obtain ⟨_, k1, k2⟩ := after_inside hA h0 h1 n fun i hi => h i (by omega)
    have := body_inside (lt_of_lt_of_le (by positivity) (pos_after hA n)) (hA n).1 (hA n).2 k1 k2 (h n (by omega))
    exact ⟨fun _ => this.1, this.2.1, this.2.2⟩

/-! ### The loop -/

theorem loopFrom_some {A : ℕ → ℝ} {eps : ℝ} : ∀ {fuel i : ℕ} {bc : ℝ} {n : ℕ}, loopFrom A eps fuel i bc = some n →
    (n = i ∧ bc ≤ 2 * eps) ∨ (i < n ∧ bc > 2 * eps ∧ |(after A n).tb - (after A n).ts| ≤ 2 * eps ∧
      ∀ j, i < j → j < n → 2 * eps < |(after A j).tb - (after A j).ts|) := by
  intro fuel
  induction fuel with
  | zero => intro i bc n h; simp [loopFrom] at h
  | succ f ih =>
    intro i bc n h
    unfold loopFrom at h
    by_cases hb : bc > 2 * eps
    · rw [if_pos hb] at h
      right
      rcases ih h with ⟨rfl, h2⟩ | ⟨h1, h2, h3, h4⟩
      · exact ⟨by omega, hb, h2, fun j h1 h2 => by omega⟩
      · refine ⟨by omega, hb, h3, fun j j1 j2 => ?_⟩
        by_cases hj : j = i + 1
        · subst hj; exact h2
        · exact h4 j (by omega) j2
    · rw [if_neg hb, Option.some.injEq] at h
      left
      exact ⟨h.symm, not_lt.mp hb⟩

theorem rounds_some {A : ℕ → ℝ} {eps : ℝ} {fuel n : ℕ} (h : rounds A eps fuel = some n) :
    0 < n ∧ |(after A n).tb - (after A n).ts| ≤ 2 * eps ∧ ∀ j, 0 < j → j < n → 2 * eps < |(after A j).tb - (after A j).ts| := by
  rcases loopFrom_some h with ⟨_, h2⟩ | ⟨h1, _, h3, h4⟩
  · linarith
  · exact ⟨h1, h3, h4⟩

theorem loopFrom_stops {A : ℕ → ℝ} {eps : ℝ} : ∀ {d i fuel : ℕ} {bc : ℝ}, |(after A (i + d)).tb - (after A (i + d)).ts| ≤ 2 * eps → d < fuel →
    0 < d → ∃ n ≤ i + d, loopFrom A eps fuel i bc = some n := by
  intro d
  induction d with
  | zero => intro i fuel bc _ _ h; omega
  | succ d ih =>
    intro i fuel bc h hf _
    obtain ⟨f, rfl⟩ : ∃ f, fuel = f + 1 := ⟨fuel - 1, by omega⟩
    unfold loopFrom
    by_cases hb : bc > 2 * eps
    · rw [if_pos hb]
      by_cases hd : d = 0
      · subst hd
        obtain ⟨g, rfl⟩ : ∃ g, f = g + 1 := ⟨f - 1, by omega⟩
        refine ⟨i + 1, by omega, ?_⟩
        unfold loopFrom
        rw [if_neg (not_lt.mpr h)]
      · obtain ⟨n, h1, h2⟩ := ih (i := i + 1) (fuel := f) (bc := |(after A (i + 1)).tb - (after A (i + 1)).ts|)
          (by rw [show i + 1 + d = i + (d + 1) by omega]; exact h) (by omega) (by omega)
        exact ⟨n, by omega, h2⟩
    · rw [if_neg hb]
      exact ⟨i, by omega, rfl⟩

/-- The squared sine changes at most as fast as the angle. -/
theorem sq_lipschitz (x y : ℝ) : |sin x ^ 2 - sin y ^ 2| ≤ |x - y| := by
  rw [Iqae.sin_sq x, Iqae.sin_sq y]
  have e : (1 - cos (2 * x)) / 2 - (1 - cos (2 * y)) / 2 = (cos (2 * y) - cos (2 * x)) / 2 := by ring
  rw [e, cos_sub_cos]
  have e1 : (2 * y + 2 * x) / 2 = y + x := by ring
  have e2 : (2 * y - 2 * x) / 2 = y - x := by ring
  rw [e1, e2]
  have e3 : -2 * sin (y + x) * sin (y - x) / 2 = -(sin (y + x) * sin (y - x)) := by ring
  rw [e3, abs_neg, abs_mul, abs_sub_comm x y]
  have h1 : |sin (y + x)| ≤ 1 := abs_sin_le_one _
  have h2 : |sin (y - x)| ≤ |y - x| := abs_sin_le_abs
  calc |sin (y + x)| * |sin (y - x)| ≤ 1 * |y - x| := mul_le_mul h1 h2 (abs_nonneg _) (by norm_num)
    _ = |y - x| := one_mul _

end Verif.Iqae
