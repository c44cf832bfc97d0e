import Verif.NumTheory.Basic
import Verif.Props.Mult
import Mathlib.RingTheory.Coprime.Lemmas

/-!
Property theorems C09–C12 (classical number theory helpers), and the versions of C17 and C43 in which
the precomputed inverses are the ones the library computes.

Specification vocabulary: `Int.gcd`, `%` on integers.
-/

namespace Verif.Props

open Verif.NT

/-! ### C09 -/

/-- C09, `mod_tools.modinv` outside tracing: the inverse in `[0, m)` for coprime arguments, an exception
otherwise. -/
theorem C09_modinv_static (a m : Int) (ha : 0 ≤ a) (hm : 1 < m) :
    (Int.gcd a m = 1 → ∃ x, modinvStatic a m = some x ∧ 0 ≤ x ∧ x < m ∧ a * x % m = 1)
    ∧ (Int.gcd a m ≠ 1 → modinvStatic a m = none) := by
  obtain ⟨h1, h2⟩ := egcdAux_spec (a.natAbs + 1) a m ha (by omega) (by omega)
  change (egcd a m).1 = _ at h1
  constructor
  · intro hg
    rw [hg] at h1
    refine ⟨(egcd a m).2.1.fmod m, by simp [modinvStatic, h1], ?_⟩
    rw [Int.fmod_eq_emod_of_nonneg _ (by omega : (0 : Int) ≤ m)]
    refine ⟨Int.emod_nonneg _ (by omega), Int.emod_lt_of_pos _ (by omega), ?_⟩
    rw [Int.mul_emod, Int.emod_emod, ← Int.mul_emod]
    have h3 : a * (egcd a m).2.1 = 1 + m * (-(egcd a m).2.2) := by
      rw [hg] at h2
      change a * (egcd a m).2.1 + m * (egcd a m).2.2 = _ at h2
      push_cast at h2
      linarith
    rw [h3, Int.add_mul_emod_self_left, Int.emod_eq_of_lt (by omega) hm]
  · intro hg
    have : (egcd a m).1 ≠ 1 := by rw [h1]; exact_mod_cast hg
    simp [modinvStatic, this]

/-- C09, the iterative `modinv` of jasp_mod_tools (and of mod_tools under tracing). -/
theorem C09_modinv (a m : Int) (ha : 0 ≤ a) (hm : 1 < m) (hg : Int.gcd a m = 1) :
    0 ≤ modinv a m ∧ modinv a m < m ∧ a * modinv a m % m = 1 := by
  obtain ⟨h1, h2, h3⟩ := modinv_gcd ha hm
  refine ⟨h2, h3, ?_⟩
  rw [hg] at h1
  rw [mul_comm]
  have h4 : modinv a m * a % m = 1 % m := by exact_mod_cast h1
  rw [h4, Int.emod_eq_of_lt (by omega) hm]

/-- C09, uniqueness: both variants return the same number. -/
theorem C09_unique (a m x y : Int) (hg : Int.gcd a m = 1) (hx : 0 ≤ x ∧ x < m)
    (hy : 0 ≤ y ∧ y < m) (h1 : a * x % m = 1) (h2 : a * y % m = 1) : x = y := by
  have h3 : m ∣ a * (x - y) := by
    have h4 : a * x ≡ a * y [ZMOD m] := h1.trans h2.symm
    have := h4.symm.dvd
    rwa [← mul_sub] at this
  have h5 : m ∣ x - y := Int.dvd_of_dvd_mul_right_of_gcd_one h3 (by rw [Int.gcd_comm]; exact hg)
  obtain ⟨k, hk⟩ := h5
  have hk0 : k = 0 := by
    by_contra h
    rcases lt_or_gt_of_ne h with h' | h'
    · have := mul_le_mul_of_nonneg_left (by omega : k ≤ -1) (by omega : 0 ≤ m)
      linarith
    · have := mul_le_mul_of_nonneg_left (by omega : 1 ≤ k) (by omega : 0 ≤ m)
      linarith
  rw [hk0] at hk; linarith

example : modinv 3 259 = 173 ∧ modinvStatic 3 259 = some 173 ∧ modinv 1000 7 = 6
    ∧ modinvStatic 6 9 = none := by decide +kernel

/-! ### C10 -/

/-- C10: encoding followed by decoding in `QuantumModulus` outside tracing, every shift, odd modulus:
residues round-trip, everything else is rejected by the encoder. -/
theorem C10_roundtrip (m N i : Int) (hN : 1 < N) (hodd : N % 2 = 1) :
    (0 ≤ i ∧ i < N → ∃ e, qmEncoder false m N i = some e ∧ 0 ≤ e ∧ e < N
        ∧ qmDecoder false m N e = some i)
    ∧ (¬ (0 ≤ i ∧ i < N) → qmEncoder false m N i = none) := by
  have hcop : ∀ k : Nat, Int.gcd (2 ^ k) N = 1 := by
    intro k
    have h2 : Nat.Coprime (2 ^ k) N.natAbs :=
      Nat.Coprime.pow_left k ((Nat.prime_two.coprime_iff_not_dvd).2 (by omega))
    have : Int.gcd (2 ^ k) N = Nat.gcd (2 ^ k) N.natAbs := by
      rw [Int.gcd, Int.natAbs_pow]; rfl
    rw [this]; exact h2
  have hcop' : ∀ k : Nat, Int.gcd (2 ^ k % N) N = 1 := by
    intro k; rw [Int.gcd_emod]; exact hcop k
  have hN0 : (0 : Int) ≤ N := by omega
  constructor
  · rintro ⟨h0, h1⟩
    have hE : qmEncoder false m N i = encoder i m N := by
      simp only [qmEncoder, Bool.false_eq_true, if_false]
      rw [if_neg (by omega), if_neg (by omega)]
    rw [hE]
    set k := m.natAbs with hk
    have fin : ∀ e F : Int, e = i * F % N → ∀ factor : Int, F * factor ≡ 1 [ZMOD N] →
        jEncoder e factor N = i := by
      intro e F he factor hF
      rw [jEncoder_spec _ _ _ (by omega), he]
      have h2 : i * F % N * factor ≡ i [ZMOD N] := by
        refine ((Int.mod_modEq (i * F) N).mul_right factor).trans ?_
        rw [mul_assoc]
        simpa using hF.mul_left i
      rw [h2, Int.emod_eq_of_lt h0 h1]
    by_cases hm : m < 0
    · obtain ⟨x, hx, x0, x1, hxm⟩ := (C09_modinv_static (2 ^ k) N (by positivity) hN).1 (hcop k)
      refine ⟨i * x % N, ?_, Int.emod_nonneg _ (by omega), Int.emod_lt_of_pos _ (by omega), ?_⟩
      · simp only [encoder, hm, if_true, ← hk, hx, Option.map_some, Int.fmod_eq_emod_of_nonneg _ hN0]
        rw [Int.mul_emod, Int.emod_emod, ← Int.mul_emod]
      · have hlt := Int.emod_lt_of_pos (i * x) (by omega : 0 < N)
        simp only [qmDecoder, Bool.false_eq_true, if_false]
        rw [if_neg (by omega)]
        simp only [newDecoder, ← hk, pow2mod_spec _ _ _ hN]
        rw [if_neg (by omega)]
        rw [fin _ x rfl]
        have h3 : x * (2 ^ k % N) ≡ x * 2 ^ k [ZMOD N] := (Int.mod_modEq _ _).mul_left x
        refine h3.trans ?_
        rw [mul_comm, Int.ModEq, hxm, Int.emod_eq_of_lt (by omega) hN]
    · refine ⟨i * 2 ^ k % N, ?_, Int.emod_nonneg _ (by omega), Int.emod_lt_of_pos _ (by omega), ?_⟩
      · simp only [encoder, hm, if_false, ← hk, Int.fmod_eq_emod_of_nonneg _ hN0]
        rw [Int.mul_emod, Int.emod_emod, ← Int.mul_emod]
      · have hlt := Int.emod_lt_of_pos (i * 2 ^ k) (by omega : 0 < N)
        simp only [qmDecoder, Bool.false_eq_true, if_false]
        rw [if_neg (by omega)]
        simp only [newDecoder, ← hk, pow2mod_spec _ _ _ hN]
        rw [fin _ (2 ^ k) rfl]
        split_ifs with hp
        · obtain ⟨a, b, c⟩ := C09_modinv (2 ^ k % N) N (Int.emod_nonneg _ (by omega)) hN (hcop' k)
          have h3 : (2 ^ k % N) * modinv (2 ^ k % N) N ≡ 2 ^ k * modinv (2 ^ k % N) N [ZMOD N] :=
            (Int.mod_modEq _ _).mul_right _
          refine h3.symm.trans ?_
          rw [Int.ModEq, c, Int.emod_eq_of_lt (by omega) hN]
        · have : m = 0 := by omega
          have hk0 : k = 0 := by omega
          rw [hk0]
          simp only [pow_zero, one_mul]
          exact Int.mod_modEq 1 N
  · intro h
    simp only [qmEncoder, Bool.false_eq_true, if_false]
    by_cases h1 : i ≥ N
    · rw [if_pos h1]
    · rw [if_neg h1, if_pos (by omega)]

/-- C10, the same under tracing (shift not negative, no range check). -/
theorem C10_roundtrip_traced (m N i : Int) (hN : 1 < N) (hodd : N % 2 = 1) (hm : 0 ≤ m)
    (h0 : 0 ≤ i) (h1 : i < N) :
    ∃ e, qmEncoder true m N i = some e ∧ qmDecoder true m N e = some i := by
  obtain ⟨e, he, e0, e1, hd⟩ := (C10_roundtrip m N i hN hodd).1 ⟨h0, h1⟩
  have hN0 : (0 : Int) ≤ N := by omega
  refine ⟨e, ?_, ?_⟩
  · rw [← he]
    have hne : ¬ m < 0 := by omega
    simp only [qmEncoder, if_true, Bool.false_eq_true, if_false]
    rw [if_neg (by omega), if_neg (by omega)]
    simp only [encoder, hne, if_false, jEncoder, Int.fmod_eq_emod_of_nonneg _ hN0]
    rw [Int.mul_emod (i % N) (2 ^ m.natAbs)]
    simp
  · rw [← hd]
    simp only [qmDecoder, if_true, Bool.false_eq_true, if_false]
    rw [if_neg (by omega)]
    simp only [newDecoder, pow2mod_spec _ _ _ hN]

/-- C10 needs the odd modulus: with modulus 6 and shift 1 the value 1 is read back as 2. -/
theorem C10_even_modulus_fails :
    qmEncoder false 1 6 1 = some 2 ∧ qmDecoder false 1 6 2 = some 2 := by decide +kernel

/-- C10, products: the reduction of the product of two encoded residues decodes to the product. -/
theorem C10_product (m : Nat) (N a b S : Int) (hN : 1 < N) (hodd : N % 2 = 1)
    (hS0 : 0 ≤ S) (hS1 : S < N) (tr : Bool)
    (hS : S * 2 ^ m % N = (jEncoder a (2 ^ m) N * jEncoder b (2 ^ m) N) % N) :
    newDecoder tr S m N = a * b % N := by
  have hN0 : (0 : Int) < N := by omega
  rw [jEncoder_spec _ _ _ hN0, jEncoder_spec _ _ _ hN0] at hS
  obtain ⟨e, he, _, _, hd⟩ := (C10_roundtrip m N (a * b % N) hN hodd).1
    ⟨Int.emod_nonneg _ (by omega), Int.emod_lt_of_pos _ hN0⟩
  have hcop : IsCoprime ((2 : Int) ^ m) N := by
    apply IsCoprime.pow_left
    exact ⟨-(N / 2), 1, by omega⟩
  have hSe : S = a * b * 2 ^ m % N := by
    have h1 : S * 2 ^ m ≡ a * b * 2 ^ m * 2 ^ m [ZMOD N] := by
      have h2 : (a * 2 ^ m % N) * (b * 2 ^ m % N) ≡ (a * 2 ^ m) * (b * 2 ^ m) [ZMOD N] :=
        (Int.mod_modEq _ _).mul (Int.mod_modEq _ _)
      refine Int.ModEq.trans hS (h2.trans ?_)
      rw [show (a * 2 ^ m) * (b * 2 ^ m) = a * b * 2 ^ m * 2 ^ m by ring]
    have h3 : N ∣ (S - a * b * 2 ^ m) * 2 ^ m := by
      have := h1.symm.dvd
      rwa [← sub_mul] at this
    have h4 : N ∣ S - a * b * 2 ^ m := hcop.symm.dvd_of_dvd_mul_right h3
    have h5 : S ≡ a * b * 2 ^ m [ZMOD N] := (Int.modEq_iff_dvd.2 h4).symm
    rw [← h5, Int.emod_eq_of_lt hS0 hS1]
  have hee : e = S := by
    have hlt := Int.emod_lt_of_pos (a * b) hN0
    have hge := Int.emod_nonneg (a * b) (by omega : N ≠ 0)
    have hm : ¬ ((m : Int) < 0) := by omega
    simp only [qmEncoder, Bool.false_eq_true, if_false] at he
    rw [if_neg (by omega), if_neg (by omega)] at he
    simp only [encoder, hm, if_false, Int.fmod_eq_emod_of_nonneg _ hN0.le, Int.natAbs_natCast,
      Option.some.injEq] at he
    rw [← he, hSe, Int.emod_emod, Int.mul_emod, Int.emod_emod, ← Int.mul_emod]
  have e1 : newDecoder tr S m N = newDecoder false S m N := by
    simp only [newDecoder, pow2mod_spec _ _ _ hN]
  rw [e1]
  rw [hee] at hd
  simp only [qmDecoder, Bool.false_eq_true, if_false] at hd
  rw [if_neg (by omega)] at hd
  exact Option.some.inj hd

example : qmEncoder false 3 21 5 = some 19 ∧ qmDecoder false 3 21 19 = some 5
    ∧ qmEncoder false (-3) 21 5 = some 19 ∧ qmDecoder false (-3) 21 19 = some 5
    ∧ qmEncoder false (-2) 21 5 = some 17 ∧ qmDecoder false (-2) 21 17 = some 5 := by
  decide +kernel

/-! ### C11 -/

/-- C11: the classical Montgomery reduction. -/
theorem C11_reduction (t N : Int) (m : Nat) (hodd : N % 2 = 1) (hN : 0 < N)
    (h0 : 0 ≤ t) (h1 : t < N * 2 ^ m) :
    let r := clReduction t N m
    0 ≤ r.1 ∧ r.1 < N ∧ r.1 * 2 ^ m % N = t % N ∧ r.2 < 2 ^ m
    ∧ (t = r.2 * N + r.1 * 2 ^ m ∨ t = r.2 * N + (r.1 - N) * 2 ^ m) := by
  have key : (fun k (st : Int × Nat) => st.2 < 2 ^ k ∧ t = st.2 * N + st.1 * 2 ^ k) m
      (fori 0 m (fun k (st : Int × Nat) =>
        let temp := st.1.fmod 2
        ((st.1 - temp * N).fdiv 2, st.2 ||| (temp.toNat <<< k))) (t, 0)) := by
    apply fori_inv (P := fun k (st : Int × Nat) => st.2 < 2 ^ k ∧ t = st.2 * N + st.1 * 2 ^ k)
      (Nat.zero_le m)
    · simp
    · rintro k ⟨S, u⟩ _ _ ⟨hu, ht⟩
      simp only at hu ht ⊢
      have hfm : S.fmod 2 = S % 2 := Int.fmod_eq_emod_of_nonneg _ (by omega)
      have hfd : ∀ x : Int, x.fdiv 2 = x / 2 := fun x => Int.fdiv_eq_ediv_of_nonneg _ (by omega)
      rw [hfm, hfd]
      have hor : u ||| ((S % 2).toNat <<< k) = u + 2 ^ k * (S % 2).toNat := by
        rw [Nat.shiftLeft_eq, mul_comm, Nat.or_comm, ← Nat.two_pow_add_eq_or_of_lt hu, add_comm]
      rw [hor]
      have hp : (2 : Int) ^ (k + 1) = 2 ^ k * 2 := pow_succ _ _
      rcases Int.emod_two_eq_zero_or_one S with e | e <;> rw [e]
      · refine ⟨by simp [pow_succ]; omega, ?_⟩
        have : (S - 0 * N) / 2 * 2 = S := by omega
        push_cast
        rw [hp]
        linear_combination ht - 2 ^ k * this
      · refine ⟨by simp [pow_succ]; omega, ?_⟩
        have : (S - 1 * N) / 2 * 2 = S - N := by omega
        push_cast
        rw [hp]
        linear_combination ht - 2 ^ k * this
  simp only [clReduction]
  set st := fori 0 m (fun k (st : Int × Nat) =>
        ((st.1 - st.1.fmod 2 * N).fdiv 2, st.2 ||| ((st.1.fmod 2).toNat <<< k))) (t, 0) with hst
  obtain ⟨hu, ht⟩ := key
  change st.2 < 2 ^ m at hu
  change t = st.2 * N + st.1 * 2 ^ m at ht
  have hP : (0 : Int) < 2 ^ m := by positivity
  have hu' : (st.2 : Int) * N ≤ 2 ^ m * N := mul_le_mul_of_nonneg_right (by exact_mod_cast hu.le) hN.le
  have hub : (st.2 : Int) * N < 2 ^ m * N := mul_lt_mul_of_pos_right (by exact_mod_cast hu) hN
  have hu0 : (0 : Int) ≤ st.2 * N := by positivity
  have hS1 : st.1 < N := by
    have : st.1 * 2 ^ m < N * 2 ^ m := by linarith
    exact lt_of_mul_lt_mul_right this hP.le
  have hS0 : -N < st.1 := by
    have : (-N) * 2 ^ m < st.1 * 2 ^ m := by linarith
    exact lt_of_mul_lt_mul_right this hP.le
  have hmod : ∀ S u : Int, t = u * N + S * 2 ^ m → S * 2 ^ m % N = t % N := by
    intro S u h; rw [h, add_comm, Int.add_mul_emod_self_right]
  split_ifs with hneg
  · refine ⟨by omega, by omega, ?_, hu, Or.inr (by rw [ht]; ring)⟩
    apply hmod _ (st.2 - 2 ^ m)
    rw [ht]; ring
  · exact ⟨by omega, hS1, hmod _ _ ht, hu, Or.inl ht⟩

example : clReduction 100 21 3 = (2, 4) ∧ 2 * 8 % 21 = (100 : Int) % 21 := by decide +kernel

/-! ### C12 -/

/-- C12: the search ends and returns the least shift with `(N-1) (b 2^m mod N) < N 2^m`. -/
theorem C12_findShift (b N : Int) (hN : 1 ≤ N) :
    ∃ m, findShift b N = some m ∧ (N - 1) * (b * 2 ^ m % N) < N * 2 ^ m
    ∧ ∀ k < m, ¬ ((N - 1) * (b * 2 ^ k % N) < N * 2 ^ k) := by
  have hok : ∀ m, shiftOk b N m = decide ((N - 1) * (b * 2 ^ m % N) < N * 2 ^ m) := by
    intro m
    simp only [shiftOk, jEncoder_spec _ _ _ (by omega : 0 < N),
      Int.fmod_eq_emod_of_nonneg _ (by omega : (0 : Int) ≤ N), Int.emod_emod]
  have hbig : shiftOk b N N.natAbs = true := by
    rw [hok]
    simp only [decide_eq_true_eq]
    have h1 := Int.emod_lt_of_pos (b * 2 ^ N.natAbs) (by omega : 0 < N)
    have h2 : (N : Int) < 2 ^ N.natAbs := by
      have : N.natAbs < 2 ^ N.natAbs := Nat.lt_two_pow_self
      have h3 : ((N.natAbs : Nat) : Int) < ((2 ^ N.natAbs : Nat) : Int) := by exact_mod_cast this
      push_cast at h3
      rw [abs_of_nonneg (by omega : (0 : Int) ≤ N)] at h3
      exact h3
    have h4 : (N - 1) * (b * 2 ^ N.natAbs % N) ≤ (N - 1) * N :=
      mul_le_mul_of_nonneg_left h1.le (by omega)
    have h5 : N * N < N * 2 ^ N.natAbs := mul_lt_mul_of_pos_left h2 (by omega)
    nlinarith
  have key : ∀ (f m : Nat), (∀ k < m, shiftOk b N k = false) → N.natAbs < m + f →
      ∃ r, findShiftAux b N f m = some r ∧ shiftOk b N r = true ∧ ∀ k < r, shiftOk b N k = false := by
    intro f
    induction f with
    | zero =>
      intro m hk hf
      have := hk N.natAbs (by omega)
      rw [hbig] at this; cases this
    | succ f ih =>
      intro m hk hf
      rw [findShiftAux]
      by_cases h : shiftOk b N m = true
      · rw [if_pos h]; exact ⟨m, rfl, h, hk⟩
      · rw [if_neg h]
        apply ih (m + 1) _ (by omega)
        intro k hkm
        rcases Nat.lt_succ_iff_lt_or_eq.1 hkm with h1 | h1
        · exact hk k h1
        · rw [h1]; simpa using h
  obtain ⟨r, h1, h2, h3⟩ := key (N.natAbs + 1) 0 (by intro k h; omega) (by omega)
  refine ⟨r, h1, by rw [hok] at h2; simpa using h2, ?_⟩
  intro k hk
  have := h3 k hk
  rw [hok] at this
  simpa using this

example : findShift 7 21 = some 4 ∧ findShift 1 21 = some 0 := by decide +kernel

/-! ### C17 and C43 with the library's inverses -/

section
open Verif.Rev
variable {Q : Type} [DecidableEq Q]

theorem inverse_pow_two (N k : Nat) (hN : N % 2 = 1) (hk : 0 < k) :
    modinv N (2 ^ k) * N ≡ 1 [ZMOD 2 ^ k] := by
  have h1 : (1 : Int) < 2 ^ k := by
    have : 1 < 2 ^ k := Nat.one_lt_two_pow (by omega)
    exact_mod_cast this
  have h2 := (modinv_gcd (a := N) (m := 2 ^ k) (by positivity) h1).1
  have h3 : Int.gcd (N : Int) (2 ^ k) = 1 := by
    have : Int.gcd (N : Int) (2 ^ k) = Nat.gcd N (2 ^ k) := by
      rw [Int.gcd]; simp [Int.natAbs_pow]
    rw [this]
    exact Nat.Coprime.pow_right k ((Nat.prime_two.coprime_iff_not_dvd).2 (by omega)).symm
  rw [h3] at h2
  exact_mod_cast h2

/-- C17, multiplication with every precomputed constant as the library computes it. -/
theorem C17_cq_multiply_closed {A : Adder Q} (hA : A.Correct) (X N : Nat)
    (y aux res : List Q) (s : St Q) (hN : N % 2 = 1) (hN3 : 3 ≤ N)
    (hnd : (y ++ (aux ++ res)).Nodup) (haux : aux.length = bestShift X N + 1)
    (hyl : y.length = smallestPow N) (hrl : res.length = smallestPow N)
    (hz : ∀ q ∈ aux ++ res, s q = false) (hy : regVal y s < N) :
    let m := bestShift X N
    let s' := cqMontMult A (jEncoder X (2 ^ m) N) N (modinv N (2 ^ (m + 1))) m y aux res s
    regVal res s' = X * regVal y s % N ∧ ∀ q, q ∉ res → s' q = s q := by
  intro m
  have e : jEncoder X (2 ^ m) N = ((X * 2 ^ m : Nat) % N : Int) := by
    rw [jEncoder_spec _ _ _ (by omega)]; push_cast; rfl
  rw [e]
  exact C17_cq_multiply hA X N _ y aux res s hN hN3 (inverse_pow_two N _ hN (by omega)) hnd haux hyl
    hrl hz hy

/-- C43 (partial) with every precomputed constant as the library computes it; missing as in
`C43_inplace_partial`. -/
theorem C43_inplace_closed_partial {A : Adder Q} (hA : A.Correct) (X N m : Nat)
    (y tmp aux : List Q) (ctrl : Option Q) (s : St Q)
    (hN : N % 2 = 1) (hN1 : 1 < N) (hX : Nat.gcd X N = 1)
    (hnd : (y ++ (aux ++ tmp)).Nodup) (hlen : tmp.length = y.length)
    (haux : aux.length = m + 1) (hyl : y ≠ []) (hNl : N ≤ 2 ^ y.length)
    (hctrl : ∀ c ∈ ctrl, c ∉ y ++ (aux ++ tmp))
    (hz : ∀ q ∈ aux ++ tmp, s q = false) (hy : regVal y s < N) (hm : y.length ≤ 2 ^ m) :
    let s' := cqMontInplace A X N (modinv N (2 ^ (m + 1))) (modinv X N).toNat m y tmp aux ctrl s
    regVal y s' = (if ctrlOn ctrl s then X * regVal y s % N else regVal y s)
    ∧ ∀ q, q ∉ y → s' q = s q := by
  obtain ⟨a, b, c⟩ := C09_modinv X N (by positivity) (by exact_mod_cast hN1)
    (by rw [Int.gcd_natCast_natCast]; exact hX)
  refine C43_inplace_partial hA X N m _ _ y tmp aux ctrl s hN (inverse_pow_two N _ hN (by omega)) ?_
    hnd hlen haux hyl hNl hctrl hz hy hm
  have : ((modinv X N).toNat : Int) = modinv X N := Int.toNat_of_nonneg a
  have h2 : (((modinv X N).toNat * X % N : Nat) : Int) = 1 := by
    push_cast; rw [this, mul_comm]; exact c
  rw [Nat.mod_eq_of_lt hN1]
  exact_mod_cast h2

/-- C43 (partial), the statement for `qm *= X` with the library's shift: right for every invertible
`X < N` that is at least the number of qubits of the register. Missing: smaller `X`. -/
theorem C43_library_shift_partial {A : Adder Q} (hA : A.Correct) (X N : Nat)
    (y tmp aux : List Q) (ctrl : Option Q) (s : St Q)
    (hN : N % 2 = 1) (hN1 : 1 < N) (hX : Nat.gcd X N = 1) (hXN : X < N) (hXn : y.length ≤ X)
    (hnd : (y ++ (aux ++ tmp)).Nodup) (hlen : tmp.length = y.length)
    (haux : aux.length = bestShift X N + 1) (hyl : y ≠ []) (hNl : N ≤ 2 ^ y.length)
    (hctrl : ∀ c ∈ ctrl, c ∉ y ++ (aux ++ tmp))
    (hz : ∀ q ∈ aux ++ tmp, s q = false) (hy : regVal y s < N) :
    let m := bestShift X N
    let s' := cqMontInplace A X N (modinv N (2 ^ (m + 1))) (modinv X N).toNat m y tmp aux ctrl s
    regVal y s' = (if ctrlOn ctrl s then X * regVal y s % N else regVal y s)
    ∧ ∀ q, q ∉ y → s' q = s q := by
  refine C43_inplace_closed_partial hA X N _ y tmp aux ctrl s hN hN1 hX hnd hlen haux hyl hNl hctrl hz
    hy (hXn.trans ?_)
  have hX0 : 0 < X := by
    rcases Nat.eq_zero_or_pos X with h | h
    · rw [h, Nat.gcd_zero_left] at hX; omega
    · exact h
  have e : (X * (N - 1) + N - 1) / N = X := by
    obtain ⟨k, rfl⟩ : ∃ k, N = k + 1 := ⟨N - 1, by omega⟩
    have h1 : X * (k + 1 - 1) + (k + 1) - 1 = (k - X) + X * (k + 1) := by
      have : X * (k + 1) = X * k + X := by ring
      rw [this, Nat.add_sub_cancel]
      omega
    rw [h1, Nat.add_mul_div_right _ _ (by omega), Nat.div_eq_of_lt (by omega), zero_add]
  unfold bestShift
  rw [e]
  exact le_two_pow_smallestPow X

end

end Verif.Props
