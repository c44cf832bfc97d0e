import Verif.Rev.Montgomery
import Mathlib.Data.Nat.Log
import Mathlib.Data.Nat.Size
import Mathlib.Tactic.IntervalCases

/-!
The Montgomery shift chosen by `best_montgomery_shift(X, N)` for a classical multiplier `X`
(`jasp_arithmetic/jasp_mod_tools.py`, called from `qtypes/quantum_modulus.py` 410 and 439) is large
enough for the classical-quantum multiplication, although the bound derived in its docstring is for
the number of partial products and not for the multiplier.
-/

set_option linter.unusedSectionVars false
set_option linter.unusedSimpArgs false

namespace Verif.Rev

variable {Q : Type} [DecidableEq Q]

/-- jasp_mod_tools.py 348-374 `smallest_power_of_two` on python integers. -/
def smallestPow (n : Nat) : Nat := if n > 1 then Nat.size (n - 1) else 0

/-- jasp_mod_tools.py 377-415 `best_montgomery_shift`, python integers (lines 413-415). -/
def bestShift (n N : Nat) : Nat := smallestPow ((n * (N - 1) + N - 1) / N)

theorem le_two_pow_smallestPow (n : Nat) : n ≤ 2 ^ smallestPow n := by
  unfold smallestPow
  split_ifs with h
  · have := Nat.lt_size_self (n - 1)
    omega
  · simp; omega

theorem lt_of_smallestPow (n m : Nat) (h : smallestPow n = m + 1) : 2 ^ m < n := by
  unfold smallestPow at h
  split_ifs at h with h1
  have : ¬ (n - 1).size ≤ m := by omega
  rw [Nat.size_le] at this
  omega

/-- For `X < N` the rounded quotient is `X` itself. -/
theorem ceil_eq (X N : Nat) (h : X < N) : (X * (N - 1) + N - 1) / N = X := by
  obtain ⟨N, rfl⟩ : ∃ k, N = k + 1 := ⟨N - 1, by omega⟩
  apply Nat.div_eq_of_lt_le
  · simp only [Nat.add_sub_cancel]
    rw [Nat.mul_succ]; omega
  · simp only [Nat.add_sub_cancel]
    have h1 : (X + 1) * (N + 1) = X * N + X + N + 1 := by ring
    rw [h1]; omega

theorem coefSum_append (coef : Nat → Int) (s : St Q) (i : Nat) (l r : List Q) :
    coefSum coef s i (l ++ r) = coefSum coef s i l + coefSum coef s (i + l.length) r := by
  induction l generalizing i with
  | nil => simp [coefSum]
  | cons q l ih =>
    have e : i + 1 + l.length = i + (l.length + 1) := by omega
    rw [List.cons_append, coefSum, coefSum, ih, e, List.length_cons]
    ring

theorem coefSum_le_const (coef : Nat → Int) (B : Int) (hB : 0 ≤ B) (hc : ∀ j, coef j ≤ B) (s : St Q)
    (i : Nat) (y : List Q) : coefSum coef s i y ≤ B * y.length := by
  induction y generalizing i with
  | nil => simp [coefSum]
  | cons q r ih =>
    have h1 := ih (i + 1)
    have h2 := hc i
    rw [coefSum, List.length_cons]
    push_cast
    split_ifs <;> linarith

theorem coefSum_le_pow (coef : Nat → Int) (C : Int) (hc : ∀ j, coef j ≤ C * 2 ^ j) (s : St Q)
    (i : Nat) (y : List Q) : coefSum coef s i y ≤ C * 2 ^ i * regVal y s := by
  induction y generalizing i with
  | nil => simp [coefSum]
  | cons q r ih =>
    have h1 := ih (i + 1)
    have h2 := hc i
    have e : C * 2 ^ i * ((regVal (q :: r) s : Nat) : Int)
        = C * 2 ^ i * (s q).toNat + C * 2 ^ (i + 1) * regVal r s := by
      rw [regVal_cons, pow_succ]; push_cast; ring
    rw [coefSum, e]
    cases s q
    · simpa using h1
    · simp only [if_true, Bool.toNat_true, Nat.cast_one, mul_one]; linarith

theorem coefSum_divmod (X N : Int) (s : St Q) (i : Nat) (y : List Q) :
    coefSum (fun j => (X * 2 ^ j) % N) s i y
      = X * 2 ^ i * regVal y s - N * coefSum (fun j => (X * 2 ^ j) / N) s i y := by
  induction y generalizing i with
  | nil => simp [coefSum]
  | cons q r ih =>
    have e : X * 2 ^ i * ((regVal (q :: r) s : Nat) : Int)
        = X * 2 ^ i * (s q).toNat + X * 2 ^ (i + 1) * regVal r s := by
      rw [regVal_cons, pow_succ]; push_cast; ring
    rw [coefSum, coefSum, e, ih]
    have := Int.emod_add_mul_ediv (X * 2 ^ i) N
    cases s q
    · simp
    · simp only [if_true, Bool.toNat_true, Nat.cast_one, mul_one]; linear_combination this

theorem emod_le_self {a N : Int} (ha : 0 ≤ a) (hN : 0 ≤ N) : a % N ≤ a := by
  have h1 := Int.emod_add_mul_ediv a N
  have h2 := mul_nonneg hN (Int.ediv_nonneg ha hN)
  linarith

/-- The number of reduced partial products is at most `2 m`. -/
theorem coefSum_bound (X N m : Nat) (y : List Q) (s : St Q) (hX : X ≤ 2 ^ m) (hN : 0 < N)
    (hn : 2 ^ y.length ≤ 2 * N) :
    coefSum (fun j => ((X : Int) * 2 ^ m * 2 ^ j) % N) s 0 y < (2 * m + 2) * N := by
  set coef : Nat → Int := fun j => ((X : Int) * 2 ^ m * 2 ^ j) % N with hcoef
  have hNz : (0 : Int) < N := by exact_mod_cast hN
  have hB : ∀ j, coef j ≤ N := fun j => (Int.emod_lt_of_pos _ hNz).le
  set k := y.length - 2 * m with hk
  have hlow : ∀ j, coef j ≤ (2 ^ (2 * m) : Int) * 2 ^ j := by
    intro j
    have h0 : (0 : Int) ≤ (X : Int) * 2 ^ m * 2 ^ j := by positivity
    have h1 : (X : Int) * 2 ^ m * 2 ^ j ≤ 2 ^ m * 2 ^ m * 2 ^ j := by
      have : (X : Int) ≤ 2 ^ m := by exact_mod_cast hX
      gcongr
    have h2 : coef j ≤ (X : Int) * 2 ^ m * 2 ^ j := emod_le_self h0 hNz.le
    have h3 : (2 : Int) ^ m * 2 ^ m = 2 ^ (2 * m) := by rw [← pow_add]; congr 1; omega
    rw [h3] at h1
    linarith
  have e : y = y.take k ++ y.drop k := (List.take_append_drop k y).symm
  rw [e, coefSum_append]
  have a1 := coefSum_le_pow coef _ hlow s 0 (y.take k)
  have a2 := coefSum_le_const coef N hNz.le hB s (0 + (y.take k).length) (y.drop k)
  by_cases hc : 2 * m ≤ y.length
  · have hk' : k + 2 * m = y.length := by omega
    have hl1 : (y.take k).length = k := by rw [List.length_take]; omega
    have hl2 : (y.drop k).length = 2 * m := by rw [List.length_drop]; omega
    rw [hl2] at a2
    have hv : regVal (y.take k) s < 2 ^ k := by have := regVal_lt (y.take k) s; rwa [hl1] at this
    have h4 : (2 : Int) ^ (2 * m) * 2 ^ 0 * regVal (y.take k) s < 2 * N := by
      have h5 : (regVal (y.take k) s : Int) < 2 ^ k := by exact_mod_cast hv
      have h6 : (2 : Int) ^ (2 * m) * 2 ^ k = 2 ^ y.length := by rw [← pow_add]; congr 1; omega
      have h7 : (2 : Int) ^ y.length ≤ 2 * N := by exact_mod_cast hn
      have h8 : (2 : Int) ^ (2 * m) * regVal (y.take k) s < 2 ^ (2 * m) * 2 ^ k :=
        mul_lt_mul_of_pos_left h5 (by positivity)
      rw [pow_zero, mul_one]
      linarith
    push_cast at a2
    linarith
  · have hk0 : k = 0 := by omega
    rw [hk0] at a1 a2 ⊢
    simp only [List.take_zero, regVal_nil, Nat.cast_zero, mul_zero, List.drop_zero] at a1 a2 ⊢
    have hl : (y.length : Int) ≤ 2 * m := by omega
    have : (N : Int) * y.length ≤ N * (2 * m) := mul_le_mul_of_nonneg_left hl hNz.le
    linarith

/-- `X = 2`, `m = 1`. -/
theorem quot_lt_two (N : Nat) (y : List Q) (s : St Q) (hN : N % 2 = 1)
    (hn : 2 ^ y.length ≤ 2 * N) (hn' : N ≤ 2 ^ y.length) (hN3 : 3 ≤ N) (hy : regVal y s < N)
    (u : Nat) (W : Int)
    (h : coefSum (fun j => ((2 : Int) * 2 ^ 1 * 2 ^ j) % N) s 0 y - u * N = 2 ^ 1 * W) : W < N := by
  by_contra hcon
  rw [coefSum_divmod] at h
  set qc : Nat → Int := fun j => ((2 : Int) * 2 ^ 1 * 2 ^ j) / N with hqc
  have hq0 : ∀ j, 0 ≤ qc j := fun j => Int.ediv_nonneg (by positivity) (by positivity)
  have hQ0 := coefSum_nonneg qc hq0 s 0 y
  -- split off the two top bits
  have hlen : 2 ≤ y.length := by
    by_contra hc
    have : y.length ≤ 1 := by omega
    have : 2 ^ y.length ≤ 2 ^ 1 := Nat.pow_le_pow_right (by norm_num) this
    omega
  obtain ⟨l, a, b, rfl⟩ : ∃ l a b, y = l ++ [a, b] := by
    have hl2 : (y.drop (y.length - 2)).length = 2 := by rw [List.length_drop]; omega
    obtain ⟨a, b, hab⟩ := List.length_eq_two.1 hl2
    exact ⟨y.take (y.length - 2), a, b, by rw [← hab, List.take_append_drop]⟩
  set k := l.length with hk
  have hr : regVal (l ++ [a, b]) s = regVal l s + 2 ^ k * ((s a).toNat + 2 * (s b).toNat) := by
    rw [regVal_append]
    simp [regVal_cons, hk]
  have hQ : coefSum qc s 0 (l ++ [a, b]) = coefSum qc s 0 l + ((if s a then qc k else 0)
      + (if s b then qc (k + 1) else 0)) := by
    rw [coefSum_append]
    simp [coefSum, hk]
  set y := l ++ [a, b] with hyd
  have hl := regVal_lt l s
  rw [← hk] at hl
  have hQl := coefSum_nonneg qc hq0 s 0 l
  have hpow : 2 ^ y.length = 4 * 2 ^ k := by
    have : y.length = k + 2 := by rw [hyd, List.length_append]; rfl
    rw [this, pow_add]; ring
  rw [hpow] at hn hn'
  have hlt : N < 4 * 2 ^ k := by
    rcases Nat.lt_or_ge N (4 * 2 ^ k) with h | h
    · exact h
    · omega
  have hk1 : 1 ≤ qc k := by
    apply (Int.le_ediv_iff_mul_le (by omega)).2
    have : (N : Int) < 4 * 2 ^ k := by exact_mod_cast hlt
    linarith
  have hk2 : 1 ≤ qc (k + 1) := by
    apply (Int.le_ediv_iff_mul_le (by omega)).2
    have : (N : Int) < 4 * 2 ^ k := by exact_mod_cast hlt
    have h2 : (0 : Int) < 2 ^ k := by positivity
    have e : (2 : Int) ^ (k + 1) = 2 * 2 ^ k := by rw [pow_succ]; ring
    rw [e]; linarith
  -- the quotient must vanish
  have hQu : coefSum qc s 0 y + u ≤ 0 := by
    by_contra hc
    have hev : ∃ K : Int, coefSum qc s 0 y + u = 2 * K := by
      obtain ⟨M, hM⟩ : ∃ M : Int, (N : Int) = 2 * M + 1 := ⟨(N : Int) / 2, by omega⟩
      refine ⟨2 * regVal y s - W - M * (coefSum qc s 0 y + u), ?_⟩
      rw [hM] at h
      linear_combination -h
    obtain ⟨K, hK⟩ := hev
    have hK1 : 1 ≤ K := by omega
    have h1 : W = 2 * regVal y s - N * K := by
      have h2 : 2 * W = 2 * (2 * regVal y s - N * K) := by
        linear_combination -h - (N : Int) * hK
      omega
    have h3 : (N : Int) ≤ N * K := by
      have := mul_le_mul_of_nonneg_left hK1 (show (0 : Int) ≤ N by positivity)
      linarith
    omega
  have hQz : coefSum qc s 0 y = 0 := by omega
  have huz : (u : Int) = 0 := by omega
  rw [hQz, huz] at h
  have hW : W = 2 * regVal y s := by linarith
  rw [hQz] at hQ
  cases ha : s a <;> cases hb : s b <;> simp [ha, hb] at hQ hr
  · omega
  · omega
  · omega
  · omega

/-- Four top bits decide the case `m = 2`: arithmetic core. -/
theorem quot_lt_four_core (X N P low W Qq u k3 r : Int) (b0 b1 b2 b3 : Bool)
    (hX : X = 3 ∨ X = 4) (hN : N % 2 = 1) (hP : 0 < P) (h1 : 8 * P < N) (h2 : N < 16 * P)
    (hlow0 : 0 ≤ low) (hlow : low < P) (hu0 : 0 ≤ u)
    (hr : r = low + P * (b0.toNat + 2 * b1.toNat + 4 * b2.toNat + 8 * b3.toNat)) (hrN : r < N)
    (hk1 : k3 * N ≤ 32 * X * P) (hk2 : 32 * X * P < (k3 + 1) * N)
    (hQ : (if b0 then k3 / 8 else 0) + (if b1 then k3 / 4 else 0) + (if b2 then k3 / 2 else 0)
      + (if b3 then k3 else 0) ≤ Qq)
    (h : 4 * X * r - N * Qq - u * N = 4 * W) : W < N := by
  by_contra hcon
  have hcon : N ≤ W := by omega
  obtain ⟨K, hK⟩ : ∃ K : Int, Qq + u = 4 * K := by
    obtain ⟨M, hM⟩ : ∃ M : Int, N = 2 * M + 1 := ⟨N / 2, by omega⟩
    refine ⟨(X * r - W) * N - M * (M + 1) * (Qq + u), ?_⟩
    rw [hM] at h ⊢
    linear_combination -(2 * M + 1) * h
  have hW : W = X * r - N * K := by
    have : 4 * W = 4 * (X * r - N * K) := by linear_combination -h - N * hK
    omega
  have hk3l : 6 ≤ k3 := by
    by_contra hc
    have : (k3 + 1) * N ≤ 6 * N := mul_le_mul_of_nonneg_right (by omega) (by omega)
    rcases hX with rfl | rfl <;> omega
  have hk3u : k3 ≤ 15 := by
    by_contra hc
    have : 16 * N ≤ k3 * N := mul_le_mul_of_nonneg_right (by omega) (by omega)
    rcases hX with rfl | rfl <;> omega
  have hK0 : 0 ≤ K := by
    have : 0 ≤ Qq := by
      refine le_trans ?_ hQ
      have : 0 ≤ k3 / 8 := by omega
      have : 0 ≤ k3 / 4 := by omega
      have : 0 ≤ k3 / 2 := by omega
      cases b0 <;> cases b1 <;> cases b2 <;> cases b3 <;> simp <;> omega
    omega
  have hK3 : K ≤ 2 := by
    by_contra hc
    have h3 : N * 3 ≤ N * K := mul_le_mul_of_nonneg_left (by omega) (by omega)
    rcases hX with rfl | rfl <;> omega
  interval_cases k3 <;> interval_cases K <;> cases b0 <;> cases b1 <;> cases b2 <;> cases b3 <;>
    simp only [Bool.toNat_true, Bool.toNat_false, Nat.cast_one, Nat.cast_zero, if_true, if_false,
      Bool.false_eq_true] at hQ hr <;>
    rcases hX with rfl | rfl <;> omega

theorem quot_lt_four (X N : Nat) (y : List Q) (s : St Q) (hX : X = 3 ∨ X = 4) (hXN : X < N)
    (hN : N % 2 = 1)
    (hn : 2 ^ y.length ≤ 2 * N) (hn' : N ≤ 2 ^ y.length) (hy : regVal y s < N)
    (u : Nat) (W : Int) (hu : u < 4)
    (h : coefSum (fun j => ((X : Int) * 2 ^ 2 * 2 ^ j) % N) s 0 y - u * N = 2 ^ 2 * W) : W < N := by
  rw [coefSum_divmod] at h
  set qc : Nat → Int := fun j => ((X : Int) * 2 ^ 2 * 2 ^ j) / N with hqc
  have hq0 : ∀ j, 0 ≤ qc j := fun j => Int.ediv_nonneg (by positivity) (by positivity)
  have hlen : 3 ≤ y.length := by
    by_contra hc
    have : y.length ≤ 2 := by omega
    have : 2 ^ y.length ≤ 2 ^ 2 := Nat.pow_le_pow_right (by norm_num) this
    omega
  have hNpos : (0 : Int) < N := by omega
  rcases Nat.lt_or_ge y.length 4 with h3 | h4
  · -- three qubits: N = 5 or N = 7
    obtain ⟨a, b, c, rfl⟩ := List.length_eq_three.1 (show y.length = 3 by omega)
    simp only [List.length_cons, List.length_nil] at hn hn'
    have hN57 : N = 5 ∨ N = 7 := by omega
    have hc : coefSum qc s 0 [a, b, c] = (if s a then qc 0 else 0) + ((if s b then qc 1 else 0)
        + ((if s c then qc 2 else 0) + 0)) := rfl
    have hr : regVal [a, b, c] s = (s a).toNat + 2 * ((s b).toNat + 2 * ((s c).toNat)) := by
      simp [regVal_cons]
    rw [hc, hr] at h
    rw [hr] at hy
    simp only [hqc] at h
    rcases hN57 with rfl | rfl <;> rcases hX with rfl | rfl <;> cases ha : s a <;>
      cases hb : s b <;> cases hc' : s c <;> simp [ha, hb, hc'] at h hy ⊢ <;> omega
  · obtain ⟨l, a, b, c, d, rfl⟩ : ∃ l a b c d, y = l ++ [a, b, c, d] := by
      have hl2 : (y.drop (y.length - 4)).length = 4 := by rw [List.length_drop]; omega
      obtain ⟨a, t, ht⟩ := List.exists_cons_of_length_eq_add_one hl2
      rw [ht] at hl2
      obtain ⟨b, c, d, hbcd⟩ := List.length_eq_three.1 (show t.length = 3 by simpa using hl2)
      exact ⟨y.take (y.length - 4), a, b, c, d, by rw [← hbcd, ← ht, List.take_append_drop]⟩
    set k := l.length with hk
    have hr : regVal (l ++ [a, b, c, d]) s = regVal l s + 2 ^ k *
        ((s a).toNat + 2 * (s b).toNat + 4 * (s c).toNat + 8 * (s d).toNat) := by
      rw [regVal_append]
      simp only [regVal_cons, regVal_nil, ← hk]
      ring
    have hQ : coefSum qc s 0 (l ++ [a, b, c, d]) = coefSum qc s 0 l + ((if s a then qc k else 0)
        + (if s b then qc (k + 1) else 0) + (if s c then qc (k + 2) else 0)
        + (if s d then qc (k + 3) else 0)) := by
      rw [coefSum_append]
      simp only [coefSum, ← hk, Nat.zero_add]
      ring
    set y := l ++ [a, b, c, d] with hyd
    have hl := regVal_lt l s
    rw [← hk] at hl
    have hQl := coefSum_nonneg qc hq0 s 0 l
    have hpow : 2 ^ y.length = 16 * 2 ^ k := by
      have : y.length = k + 4 := by rw [hyd, List.length_append]; rfl
      rw [this, pow_add]; ring
    rw [hpow] at hn hn'
    have hlt : N < 16 * 2 ^ k := by omega
    have hgt : 8 * 2 ^ k < N := by omega
    have hdiv : ∀ (z : Int) (e : Nat), z * 2 ^ e / N = z * 2 ^ (e + 3) / N / 8
        ∧ z * 2 ^ (e + 1) / N = z * 2 ^ (e + 3) / N / 4
        ∧ z * 2 ^ (e + 2) / N = z * 2 ^ (e + 3) / N / 2 := by
      intro z e
      refine ⟨?_, ?_, ?_⟩
      · rw [Int.ediv_ediv_of_nonneg hNpos.le, mul_comm (N : Int) 8,
          ← Int.ediv_ediv_of_nonneg (by norm_num : (0 : Int) ≤ 8)]
        congr 1
        have : z * 2 ^ (e + 3) = 8 * (z * 2 ^ e) := by rw [pow_add]; ring
        rw [this, Int.mul_ediv_cancel_left _ (by norm_num)]
      · rw [Int.ediv_ediv_of_nonneg hNpos.le, mul_comm (N : Int) 4,
          ← Int.ediv_ediv_of_nonneg (by norm_num : (0 : Int) ≤ 4)]
        congr 1
        have : z * 2 ^ (e + 3) = 4 * (z * 2 ^ (e + 1)) := by rw [pow_add, pow_add]; ring
        rw [this, Int.mul_ediv_cancel_left _ (by norm_num)]
      · rw [Int.ediv_ediv_of_nonneg hNpos.le, mul_comm (N : Int) 2,
          ← Int.ediv_ediv_of_nonneg (by norm_num : (0 : Int) ≤ 2)]
        congr 1
        have : z * 2 ^ (e + 3) = 2 * (z * 2 ^ (e + 2)) := by rw [pow_add, pow_add]; ring
        rw [this, Int.mul_ediv_cancel_left _ (by norm_num)]
    obtain ⟨d0, d1, d2⟩ := hdiv ((X : Int) * 2 ^ 2) k
    have hk3 := Int.emod_add_mul_ediv ((X : Int) * 2 ^ 2 * 2 ^ (k + 3)) N
    have hk3n := Int.emod_nonneg ((X : Int) * 2 ^ 2 * 2 ^ (k + 3)) hNpos.ne'
    have hk3l := Int.emod_lt_of_pos ((X : Int) * 2 ^ 2 * 2 ^ (k + 3)) hNpos
    have e3 : (X : Int) * 2 ^ 2 * 2 ^ (k + 3) = 32 * X * 2 ^ k := by rw [pow_add]; ring
    refine quot_lt_four_core X N (2 ^ k) (regVal l s) W (coefSum qc s 0 y) u (qc (k + 3))
      (regVal y s) (s a) (s b) (s c) (s d) (by omega) (by omega) (by positivity)
      (by exact_mod_cast hgt) (by exact_mod_cast hlt) (by positivity) (by exact_mod_cast hl)
      (by positivity) (by rw [hr]; push_cast; ring) (by exact_mod_cast hy) ?_ ?_ ?_ ?_
    · rw [hqc]; simp only; rw [← e3]; linarith
    · rw [hqc]; simp only; rw [← e3]; linarith
    · rw [hQ]
      have q0 : qc k = qc (k + 3) / 8 := d0
      have q1 : qc (k + 1) = qc (k + 3) / 4 := d1
      have q2 : qc (k + 2) = qc (k + 3) / 2 := d2
      rw [q0, q1, q2]
      linarith
    · linear_combination h

theorem pow_pred_ge (n : Nat) : n ≤ 2 ^ (n - 1) := by
  cases n with
  | zero => simp
  | succ n => have := Nat.lt_two_pow_self (n := n); simp only [Nat.add_sub_cancel]; omega

/-- The shift `best_montgomery_shift(X, N)` suffices for every `X` and every residue `y`. -/
theorem bestShift_ok (X N : Nat) (y : List Q) (s : St Q) (hN : N % 2 = 1) (hN3 : 3 ≤ N)
    (hn : 2 ^ y.length ≤ 2 * N) (hn' : N ≤ 2 ^ y.length) (hy : regVal y s < N) :
    let T := coefSum (fun j => ((X * 2 ^ bestShift X N : Nat) % N : Int) * 2 ^ j % N) s 0 y
    T < 2 ^ bestShift X N * (2 * N)
    ∧ ∀ (u : Nat) (W : Int), u < 2 ^ bestShift X N → T - u * N = 2 ^ bestShift X N * W → W < N := by
  have hNpos : (0 : Int) < N := by omega
  have hco : (fun j => ((X * 2 ^ bestShift X N : Nat) % N : Int) * 2 ^ j % N)
      = fun j => ((X : Int) * 2 ^ bestShift X N * 2 ^ j) % N := by
    funext j
    push_cast
    exact (Int.mod_modEq ((X : Int) * 2 ^ bestShift X N) N).mul_right (2 ^ j)
  rw [hco]
  suffices hsuf : (∃ T, coefSum (fun j => ((X : Int) * 2 ^ bestShift X N * 2 ^ j) % N) s 0 y = T ∧
      T < 2 ^ bestShift X N * N) ∨ (bestShift X N = 1 ∧ X = 2) ∨
      (bestShift X N = 2 ∧ (X = 3 ∨ X = 4) ∧ X < N) by
    rcases hsuf with ⟨T, h1, h2⟩ | ⟨h1, h2⟩ | ⟨h1, h2, h3⟩
    · rw [h1]
      exact ⟨h2.trans_le (mul_le_mul_of_nonneg_left (by omega) (by positivity)),
        fun u W _ h => quot_lt_of_lt hNpos.le h2 h⟩
    · subst h2
      rw [h1]
      refine ⟨?_, fun u W _ h => quot_lt_two N y s hN hn hn' hN3 hy u W h⟩
      have := coefSum_bound 2 N 1 y s (by norm_num) (by omega) hn
      push_cast at this ⊢
      linarith
    · rw [h1]
      refine ⟨?_, fun u W hu h => quot_lt_four X N y s h2 h3 hN hn hn' hy u W (by simpa using hu) h⟩
      have := coefSum_bound X N 2 y s (by omega) (by omega) hn
      push_cast at this ⊢
      linarith
  by_cases hXN : X < N
  · have hb : bestShift X N = smallestPow X := by rw [bestShift, ceil_eq X N hXN]
    rw [hb]
    have hle := le_two_pow_smallestPow X
    obtain h0 | ⟨m, hm⟩ : smallestPow X = 0 ∨ ∃ m, smallestPow X = m + 1 := by
      cases h : smallestPow X
      · exact Or.inl rfl
      · exact Or.inr ⟨_, rfl⟩
    · left
      rw [h0] at hle ⊢
      refine ⟨_, rfl, ?_⟩
      have h1 := coefSum_le_pow (fun j => ((X : Int) * 2 ^ 0 * 2 ^ j) % N) 1 (by
        intro j
        have h1 : (X : Int) * 2 ^ 0 * 2 ^ j % N ≤ X * 2 ^ 0 * 2 ^ j :=
          emod_le_self (by positivity) hNpos.le
        have h2 : (X : Int) ≤ 1 := by simpa using hle
        have h3 : (X : Int) * 2 ^ 0 * 2 ^ j ≤ 1 * 2 ^ j := by
          rw [pow_zero, mul_one]
          exact mul_le_mul_of_nonneg_right h2 (by positivity)
        exact h1.trans h3) s 0 y
      refine h1.trans_lt ?_
      simpa using hy
    · have hgt := lt_of_smallestPow X m hm
      rw [hm] at hle ⊢
      rcases m with _ | _ | m
      · right; left
        refine ⟨rfl, ?_⟩
        norm_num at hgt hle; omega
      · right; right
        refine ⟨rfl, ?_, hXN⟩
        norm_num at hgt hle; omega
      · left
        refine ⟨_, rfl, ?_⟩
        refine (coefSum_bound X N (m + 3) y s hle (by omega) hn).trans_le ?_
        apply mul_le_mul_of_nonneg_right _ hNpos.le
        have h1 := Nat.lt_two_pow_self (n := m)
        have h2 : 2 * (m + 3) + 2 ≤ 2 ^ (m + 3) := by rw [pow_add]; omega
        exact_mod_cast h2
  · left
    refine ⟨_, rfl, ?_⟩
    have h1 := coefSum_le_const (fun j => ((X : Int) * 2 ^ bestShift X N * 2 ^ j) % N) (N - 1)
      (by omega) (by
        intro j
        have := Int.emod_lt_of_pos ((X : Int) * 2 ^ bestShift X N * 2 ^ j) hNpos
        omega) s 0 y
    have h2 : N - 1 ≤ 2 ^ bestShift X N := by
      refine le_trans ?_ (le_two_pow_smallestPow _)
      rw [Nat.le_div_iff_mul_le (by omega)]
      have : N * (N - 1) ≤ X * (N - 1) := Nat.mul_le_mul_right _ (by omega)
      rw [mul_comm] at this
      omega
    have h3 : y.length ≤ N - 1 := by
      have h4 := pow_pred_ge y.length
      rcases Nat.eq_zero_or_pos y.length with h5 | h5
      · omega
      · have : 2 ^ y.length = 2 * 2 ^ (y.length - 1) := by
          rw [← pow_succ']; congr 1; omega
        have hne : N ≠ 2 ^ (y.length - 1) := by
          intro h
          rcases Nat.eq_zero_or_pos (y.length - 1) with h6 | h6
          · rw [h6] at h; omega
          · have : 2 ∣ N := by rw [h]; exact dvd_pow_self 2 (by omega)
            omega
        omega
    have h6 : y.length ≤ 2 ^ bestShift X N := h3.trans h2
    have h7 : ((N : Int) - 1) * y.length ≤ (N - 1) * 2 ^ bestShift X N :=
      mul_le_mul_of_nonneg_left (by exact_mod_cast h6) (by omega)
    have h8 : (0 : Int) < 2 ^ bestShift X N := by positivity
    linarith

end Verif.Rev
