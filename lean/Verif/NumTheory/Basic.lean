import Verif.Loop
import Mathlib.Tactic.Ring
import Mathlib.Tactic.Linarith
import Mathlib.Tactic.LinearCombination
import Mathlib.Tactic.Positivity
import Mathlib.Data.Int.ModEq
import Mathlib.Data.Int.GCD
import Mathlib.Data.Nat.Prime.Basic

/-!
Model of the classical number theory helpers

* `alg_primitives/arithmetic/modular_arithmetic/mod_tools.py`
* `alg_primitives/arithmetic/modular_arithmetic/modular_multiplication.py` (classical part)
* `alg_primitives/arithmetic/jasp_arithmetic/jasp_mod_tools.py`

for Python integers (`BigInteger` arguments are not modelled here). Python's `//` and `%` are
`Int.fdiv`, `Int.fmod`. Under tracing the same loops run on int64; the model has exact integers.
-/

namespace Verif.NT

/-- mod_tools.py:36-41 `egcd(a, b)`; the recursion is on fuel, `a.natAbs + 1` is enough. -/
def egcdAux : Nat → Int → Int → Int × Int × Int
  | 0, _, b => (b, 0, 1)
  | f + 1, a, b =>
    if a = 0 then (b, 0, 1)
    else
      let r := egcdAux f (b.fmod a) a
      (r.1, r.2.2 - b.fdiv a * r.2.1, r.2.1)

/-- mod_tools.py:36-41 `egcd(a, b)`. -/
def egcd (a b : Int) : Int × Int × Int := egcdAux (a.natAbs + 1) a b

/-- mod_tools.py:62-67 `modinv(a, m)` outside tracing; `none` is the exception. -/
def modinvStatic (a m : Int) : Option Int :=
  let r := egcd a m
  if r.1 ≠ 1 then none else some (r.2.1.fmod m)

/-- State `(t, new_t, r, new_r)` of the loops in mod_tools.py:45-58 and jasp_mod_tools.py:326-345. -/
structure InvSt where
  t : Int
  nt : Int
  r : Int
  nr : Int
  deriving DecidableEq

/-- One iteration, mod_tools.py:51-56, jasp_mod_tools.py:332-335, 341-344. -/
def invStep (x : InvSt) : InvSt :=
  let q := x.r.fdiv x.nr
  ⟨x.nt, x.t - q * x.nt, x.nr, x.r - q * x.nr⟩

/-- The loop `while nr != 0` on fuel. -/
def invLoop (fuel : Nat) (x : InvSt) : InvSt :=
  whileLoop fuel (fun x => decide (x.nr ≠ 0)) invStep x

/-- jasp_mod_tools.py:297-345 `modinv(a, m)` for integers, also mod_tools.py:45-61 under tracing.
Fuel: two more than `a` iterations always suffice. -/
def modinv (a m : Int) : Int :=
  let x := invLoop (a.natAbs + 2) ⟨0, 1, m, a⟩
  if x.t < 0 then x.t + m else x.t

/-- jasp_mod_tools.py:48-93 `pow2_mod_N(m, N)`: square and multiply. -/
def pow2ModN (m : Nat) (N : Int) : Int :=
  (whileLoop (m + 1) (fun st : Int × Int × Nat => decide (st.2.2 > 0))
    (fun st => (if st.2.2 % 2 = 1 then (st.1 * st.2.1).fmod N else st.1,
      (st.2.1 * st.2.1).fmod N, st.2.2 / 2)) (1, (2 : Int).fmod N, m)).1

/-- jasp_mod_tools.py:141-164 `pow2mod(exp, modulus)` for integers: Python's `pow(2, e, N)` or, under
tracing, `pow2_mod_N`. -/
def pow2mod (tracing : Bool) (e : Nat) (N : Int) : Int :=
  if tracing then pow2ModN e N else ((2 : Int) ^ e).fmod N

/-- jasp_mod_tools.py:190 `montgomery_encoder(x, R, N)`. -/
def jEncoder (x R N : Int) : Int := ((x.fmod N) * (R.fmod N)).fmod N

/-- jasp_mod_tools.py:193-231 `new_montgomery_decoder(y, m, N)`. -/
def newDecoder (tracing : Bool) (y m N : Int) : Int :=
  let power := pow2mod tracing m.natAbs N
  let factor := if m > 0 then modinv power N else power
  jEncoder y factor N

/-- mod_tools.py:30-33 `montgomery_encoder(y, 2**m, N)`. For a negative shift the argument is the float
`2.0**m` and line 32 replaces it by the inverse of `2**(-m)`; the model takes these floats as exact.
`none` is the exception of `modinv`. -/
def encoder (y m N : Int) : Option Int :=
  if m < 0 then (modinvStatic (2 ^ m.natAbs) N).map fun R => ((y.fmod N) * R).fmod N
  else some (((y.fmod N) * (2 ^ m.natAbs)).fmod N)

/-- mod_tools.py:24-27 `montgomery_decoder(y, 2**m, N)`, same remark on negative shifts. -/
def decoder (y m N : Int) : Option Int :=
  if m < 0 then
    (modinvStatic (2 ^ m.natAbs) N).bind fun R => (modinvStatic R N).map fun R1 => (y * R1).fmod N
  else (modinvStatic (2 ^ m.natAbs) N).map fun R1 => (y * R1).fmod N

/-- qtypes/quantum_modulus.py:339-375 `QuantumModulus.encoder(i)` for integers; `none` is the
`ValueError`. Tracing: line 352 (`1 << m`, shift not negative). -/
def qmEncoder (tracing : Bool) (m N i : Int) : Option Int :=
  if tracing then some (jEncoder i (2 ^ m.natAbs) N)
  else if i ≥ N then none
  else if i < 0 then none
  else encoder i m N

/-- qtypes/quantum_modulus.py:279-302 `QuantumModulus.decoder(i)`; `none` is `nan`. -/
def qmDecoder (tracing : Bool) (m N i : Int) : Option Int :=
  if tracing then some (newDecoder true i m N)
  else if i ≥ N then none
  else some (newDecoder false i m N)

/-- modular_multiplication.py:40-76 `cl_montgomery_reduction(t, N, m)`; `u | temp << k` sets bit `k`. -/
def clReduction (t N : Int) (m : Nat) : Int × Nat :=
  let st := fori 0 m (fun k (st : Int × Nat) =>
    let temp := st.1.fmod 2
    ((st.1 - temp * N).fdiv 2, st.2 ||| (temp.toNat <<< k))) (t, 0)
  (if st.1 < 0 then st.1 + N else st.1, st.2)

/-- The test of modular_multiplication.py:198-200. -/
def shiftOk (b N : Int) (m : Nat) : Bool :=
  let bTrial := (jEncoder b (2 ^ m) N).fmod N
  decide ((N - 1) * bTrial < N * 2 ^ m)

/-- modular_multiplication.py:191-202 `find_best_montgomery_shift(b, N)` with fuel; `none` is running
out of fuel. -/
def findShiftAux (b N : Int) : Nat → Nat → Option Nat
  | 0, _ => none
  | f + 1, m => if shiftOk b N m then some m else findShiftAux b N f (m + 1)

/-- modular_multiplication.py:191-202 `find_best_montgomery_shift(b, N)`. -/
def findShift (b N : Int) : Option Nat := findShiftAux b N (N.natAbs + 1) 0

/-! ### Lemmas -/

theorem egcdAux_spec (f : Nat) : ∀ a b : Int, 0 ≤ a → 0 ≤ b → a.natAbs < f →
    (egcdAux f a b).1 = Int.gcd a b
    ∧ a * (egcdAux f a b).2.1 + b * (egcdAux f a b).2.2 = Int.gcd a b := by
  induction f with
  | zero => intro a b _ _ h; omega
  | succ f ih =>
    intro a b ha hb h
    rw [egcdAux]
    by_cases h0 : a = 0
    · subst h0
      simp only [if_true]
      have : ((Int.gcd 0 b : Nat) : Int) = b := by
        rw [Int.gcd_zero_left]; exact Int.natAbs_of_nonneg hb
      refine ⟨this.symm, ?_⟩
      rw [this]; ring
    · rw [if_neg h0]
      have hfm : b.fmod a = b % a := Int.fmod_eq_emod_of_nonneg _ ha
      have hfd : b.fdiv a = b / a := Int.fdiv_eq_ediv_of_nonneg _ ha
      have hlt := Int.emod_lt_of_pos b (by omega : 0 < a)
      have hge := Int.emod_nonneg b h0
      obtain ⟨h1, h2⟩ := ih (b % a) a hge ha (by omega)
      simp only [hfm, hfd]
      have hg : Int.gcd (b % a) a = Int.gcd a b := by
        rw [Int.gcd_comm a b, Int.gcd_emod]
      rw [hg] at h1 h2
      refine ⟨h1, ?_⟩
      have hdiv := Int.emod_add_mul_ediv b a
      rw [← h2]
      linear_combination (-(egcdAux f (b % a) a).2.1) * hdiv

/-- Invariant of the loop. -/
structure InvOK (a m : Int) (x : InvSt) : Prop where
  hr : 0 ≤ x.r
  hnr : 0 ≤ x.nr
  c1 : x.t * a ≡ x.r [ZMOD m]
  c2 : x.nt * a ≡ x.nr [ZMOD m]
  g : Int.gcd x.r x.nr = Int.gcd m a
  sg : x.t * x.nt ≤ 0
  w : x.r * |x.nt| + x.nr * |x.t| = m
  lt : |x.t| < m
  big : 1 ≤ x.nr → 2 ≤ x.r

theorem invOK_step {a m : Int} {x : InvSt} (h : InvOK a m x) (hnr : x.nr ≠ 0) (hm : 1 < m) :
    InvOK a m (invStep x) := by
  obtain ⟨hr, hnr0, c1, c2, g, sg, w, lt, big⟩ := h
  obtain ⟨t, nt, r, nr⟩ := x
  simp only at hr hnr0 c1 c2 g sg w lt big hnr
  have hfd : r.fdiv nr = r / nr := Int.fdiv_eq_ediv_of_nonneg _ hnr0
  have hdiv := Int.emod_add_mul_ediv r nr
  have hq : 0 ≤ r / nr := Int.ediv_nonneg hr hnr0
  have hmod : r - r / nr * nr = r % nr := by linear_combination -hdiv
  have habs : |t - r / nr * nt| = |t| + r / nr * |nt| := by
    have h1 : 0 ≤ r / nr := hq
    rcases le_total 0 t with ht | ht <;> rcases le_total 0 nt with hn | hn
    · rcases eq_or_lt_of_le ht with h0 | h0
      · subst h0
        rw [zero_sub, abs_neg, abs_mul, abs_of_nonneg h1]; simp
      · have : nt = 0 := by
          rcases eq_or_lt_of_le hn with e | e
          · exact e.symm
          · have := mul_pos h0 e; omega
        subst this; simp
    · rw [abs_of_nonneg ht, abs_of_nonpos hn, abs_of_nonneg]
      · ring
      · have := mul_nonneg h1 (by linarith : 0 ≤ -nt); linarith
    · rw [abs_of_nonpos ht, abs_of_nonneg hn, abs_of_nonpos]
      · ring
      · have := mul_nonneg h1 hn; linarith
    · rcases eq_or_lt_of_le ht with h0 | h0
      · subst h0
        rw [zero_sub, abs_neg, abs_mul, abs_of_nonneg h1]; simp
      · have : nt = 0 := by
          rcases eq_or_lt_of_le hn with e | e
          · exact e
          · have := mul_pos_of_neg_of_neg h0 e; omega
        subst this; simp
  have hr2 := big (by omega)
  refine ⟨hnr0, ?_, c2, ?_, ?_, ?_, ?_, ?_, ?_⟩ <;> simp only [invStep, hfd]
  · rw [hmod]; exact Int.emod_nonneg r hnr
  · have : (t - r / nr * nt) * a = t * a - r / nr * (nt * a) := by ring
    rw [this]
    exact c1.sub (c2.mul_left _)
  · rw [hmod, ← g, Int.gcd_comm, Int.gcd_emod]
  · have h1 : nt * (t - r / nr * nt) = t * nt - r / nr * (nt * nt) := by ring
    have h2 := mul_nonneg hq (mul_self_nonneg nt)
    rw [h1]; linarith
  · rw [habs, ← w]; ring
  · have h1 : 0 ≤ nr * |t| := mul_nonneg hnr0 (abs_nonneg _)
    have h2 : 2 * |nt| ≤ r * |nt| := mul_le_mul_of_nonneg_right hr2 (abs_nonneg _)
    have h3 := abs_nonneg nt
    linarith
  · rw [hmod]
    intro h1
    by_contra h2
    have : nr = 1 := by omega
    subst this
    simp at h1

theorem invLoop_ok {a m : Int} (hm : 1 < m) : ∀ (fuel : Nat) (x : InvSt), InvOK a m x →
    InvOK a m (invLoop fuel x) := by
  intro fuel
  induction fuel with
  | zero => intro x h; exact h
  | succ f ih =>
    intro x h
    rw [invLoop, whileLoop]
    by_cases h0 : x.nr = 0
    · simpa [h0] using h
    · simp only [ne_eq, h0, not_false_eq_true, decide_true, if_true]
      exact ih _ (invOK_step h h0 hm)

theorem invLoop_done {a m : Int} (hm : 1 < m) : ∀ (fuel : Nat) (x : InvSt), InvOK a m x →
    (x.nr < x.r ∧ x.nr.natAbs ≤ fuel) → (invLoop fuel x).nr = 0 := by
  intro fuel
  induction fuel with
  | zero => intro x h hf; simp only [invLoop, whileLoop]; omega
  | succ f ih =>
    intro x h hf
    rw [invLoop, whileLoop]
    by_cases h0 : x.nr = 0
    · simp [h0]
    · simp only [ne_eq, h0, not_false_eq_true, decide_true, if_true]
      have hs := invOK_step h h0 hm
      have e1 : (invStep x).r = x.nr := rfl
      have e2 : (invStep x).nr = x.r % x.nr := by
        simp only [invStep, Int.fdiv_eq_ediv_of_nonneg _ h.hnr]
        have := Int.emod_add_mul_ediv x.r x.nr
        linear_combination -this
      have hpos : 0 < x.nr := lt_of_le_of_ne h.hnr (Ne.symm h0)
      have h1 := Int.emod_lt_of_pos x.r hpos
      have h2 := Int.emod_nonneg x.r h0
      apply ih _ hs
      rw [e1, e2]
      omega

theorem invOK_init {a m : Int} (ha : 0 ≤ a) (hm : 1 < m) : InvOK a m ⟨0, 1, m, a⟩ := by
  refine ⟨by simp; omega, ha, ?_, ?_, rfl, by simp, by simp, by simp; omega, fun _ => ?_⟩
  · simp only [zero_mul]
    exact (Int.modEq_zero_iff_dvd.2 (dvd_refl m)).symm
  · simp only [one_mul]; exact Int.ModEq.refl _
  · simp; omega

theorem invLoop_final {a m : Int} (ha : 0 ≤ a) (hm : 1 < m) :
    (invLoop (a.natAbs + 2) ⟨0, 1, m, a⟩).nr = 0 := by
  have h0 := invOK_init ha hm
  by_cases hlt : a < m
  · exact invLoop_done hm _ _ h0 (by simp only; omega)
  · -- the first iteration only exchanges the two numbers
    have hane : a ≠ 0 := by omega
    have h1 := invOK_step h0 hane hm
    rw [invLoop, whileLoop]
    simp only [ne_eq, hane, not_false_eq_true, decide_true, if_true]
    by_cases heq : a = m
    · subst heq
      have e : (invStep ⟨0, 1, a, a⟩).nr = 0 := by
        simp [invStep, Int.fdiv_eq_ediv_of_nonneg _ ha, Int.ediv_self hane]
      have hs : invStep ⟨0, 1, a, a⟩ = ⟨1, -1, a, 0⟩ := by
        simp [invStep, Int.fdiv_eq_ediv_of_nonneg _ ha, Int.ediv_self hane]
      rw [hs, whileLoop]
      simp
    · apply invLoop_done hm (a.natAbs + 1) _ h1
      have hs : invStep ⟨0, 1, m, a⟩ = ⟨1, 0, a, m⟩ := by
        simp [invStep, Int.fdiv_eq_ediv_of_nonneg _ ha, Int.ediv_eq_zero_of_lt (by omega : 0 ≤ m)
          (by omega : m < a)]
      rw [hs]
      simp only
      omega

/-- The value returned by the iterative inverse, for every `a ≥ 0`. -/
theorem modinv_gcd {a m : Int} (ha : 0 ≤ a) (hm : 1 < m) :
    modinv a m * a ≡ Int.gcd a m [ZMOD m] ∧ 0 ≤ modinv a m ∧ modinv a m < m := by
  have h := invLoop_ok hm (a.natAbs + 2) _ (invOK_init ha hm)
  have hz := invLoop_final ha hm
  set x := invLoop (a.natAbs + 2) ⟨0, 1, m, a⟩ with hx
  have hr : x.r = Int.gcd a m := by
    have := h.g
    rw [hz, Int.gcd_zero_right] at this
    have h2 := Int.natAbs_of_nonneg h.hr
    rw [← h2, this, Int.gcd_comm]
  have hlt := abs_lt.1 h.lt
  have e : modinv a m = if x.t < 0 then x.t + m else x.t := rfl
  rw [e]
  split_ifs with h1
  · refine ⟨?_, by omega, by omega⟩
    rw [← hr, add_mul]
    have h3 : m * a ≡ 0 [ZMOD m] := Int.modEq_zero_iff_dvd.2 (dvd_mul_right _ _)
    simpa using h.c1.add h3
  · refine ⟨by rw [← hr]; exact h.c1, by omega, hlt.2⟩

theorem pow2ModN_spec (m : Nat) (N : Int) (hN : 1 < N) : pow2ModN m N = 2 ^ m % N := by
  have key : ∀ (f e : Nat) (res b : Int), e < f → 0 ≤ res → res < N →
      (whileLoop f (fun st : Int × Int × Nat => decide (st.2.2 > 0))
        (fun st => (if st.2.2 % 2 = 1 then (st.1 * st.2.1).fmod N else st.1,
          (st.2.1 * st.2.1).fmod N, st.2.2 / 2)) (res, b, e)).1 = res * b ^ e % N := by
    intro f
    induction f with
    | zero => intro e _ _ h; omega
    | succ f ih =>
      intro e res b he h0 h1
      rw [whileLoop]
      by_cases hz : e = 0
      · subst hz
        simp [Int.emod_eq_of_lt h0 h1]
      · have hpos : decide (e > 0) = true := by simp; omega
        simp only [hpos, if_true]
        have hfm : ∀ x : Int, x.fmod N = x % N := fun x =>
          Int.fmod_eq_emod_of_nonneg _ (by omega)
        rw [hfm, hfm]
        have hb : (b * b % N) ^ (e / 2) ≡ b ^ (2 * (e / 2)) [ZMOD N] := by
          have := (Int.mod_modEq (b * b) N).pow (e / 2)
          rwa [show (b * b) ^ (e / 2) = b ^ (2 * (e / 2)) by rw [pow_mul, pow_two]] at this
        have hNe : N ≠ 0 := by omega
        rw [ih (e / 2) _ _ (by omega) (by split_ifs; exacts [Int.emod_nonneg _ hNe, h0])
          (by split_ifs; exacts [Int.emod_lt_of_pos _ (by omega), h1])]
        split_ifs with h2
        · have e1 : b ^ e = b * b ^ (2 * (e / 2)) := by
            rw [← pow_succ']; congr 1; omega
          have := ((Int.mod_modEq (res * b) N).mul hb)
          rw [e1, ← mul_assoc]
          exact this
        · have e1 : b ^ e = b ^ (2 * (e / 2)) := by congr 1; omega
          rw [e1]
          exact hb.mul_left res
  rw [pow2ModN, key (m + 1) m 1 _ (by omega) (by omega) hN]
  rw [one_mul, Int.fmod_eq_emod_of_nonneg _ (by omega : (0 : Int) ≤ N)]
  exact (Int.mod_modEq 2 N).pow m

theorem pow2mod_spec (tr : Bool) (e : Nat) (N : Int) (hN : 1 < N) : pow2mod tr e N = 2 ^ e % N := by
  cases tr
  · simp [pow2mod, Int.fmod_eq_emod_of_nonneg _ (by omega : (0 : Int) ≤ N)]
  · simp [pow2mod, pow2ModN_spec e N hN]

theorem jEncoder_spec (x R N : Int) (hN : 0 < N) : jEncoder x R N = x * R % N := by
  simp only [jEncoder, Int.fmod_eq_emod_of_nonneg _ hN.le]
  rw [← Int.mul_emod]

end Verif.NT
