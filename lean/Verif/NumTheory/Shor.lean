import Verif.NumTheory.Basic
import Mathlib.NumberTheory.DiophantineApproximation.Basic
import Mathlib.FieldTheory.Finite.Basic
import Mathlib.Data.Nat.ModEq
import Mathlib.Data.Rat.Floor
import Mathlib.Data.List.Sort
import Mathlib.Data.Nat.Size

/-!
Model of the classical parts of `algorithms/shor/shors_algorithm.py` and
`algorithms/shor/crypto_tools.py`. The quantum order finding enters as its measured values, which are
arbitrary; `numpy`/`sympy` integers are exact.
-/

namespace Verif.NT

/-! ### Continued fractions -/

/-- sympy's `continued_fraction_convergents(continued_fraction_iterator(x))` for a nonnegative
rational: the values of the prefixes of the continued fraction. -/
def convAux : ℕ → ℚ → List ℚ
  | 0, _ => []
  | f + 1, x => (⌊x⌋ : ℚ) ::
      if Int.fract x = 0 then [] else (convAux f (Int.fract x)⁻¹).map fun c => ⌊x⌋ + c⁻¹

/-- All convergents; the denominators of the remainders decrease, so `x.den` steps suffice. -/
def convs (x : ℚ) : List ℚ := convAux x.den x

/-- `get_r_values(approx)` (shors_algorithm.py:117-119). -/
def getR (x : ℚ) : List ℕ := ((convs x).filter fun c => 1 < c.den).map Rat.den

theorem inv_fract_den {x : ℚ} (h : Int.fract x ≠ 0) : (Int.fract x)⁻¹.den < x.den := by
  have h0 : 0 < Int.fract x := lt_of_le_of_ne (Int.fract_nonneg x) (Ne.symm h)
  have h1 := Int.fract_lt_one x
  have hn : 0 < (Int.fract x).num := Rat.num_pos.2 h0
  have hd : (Int.fract x).den = x.den := by
    have : Int.fract x = x - (⌊x⌋ : ℚ) := rfl
    rw [this, Rat.sub_intCast_den]
  rw [Rat.den_inv_of_ne_zero h, ← hd]
  have := Rat.num_lt_denom_iff.2 h1
  omega

theorem convAux_mem (f : ℕ) (x : ℚ) (hf : x.den ≤ f) (n : ℕ) :
    (x : ℝ).convergent n ∈ convAux f x := by
  induction f generalizing x n with
  | zero => have := x.den_pos; omega
  | succ f ih =>
    rw [convAux]
    by_cases h : Int.fract x = 0
    · have hx : x = ⌊x⌋ := by
        have := Int.floor_add_fract x
        rw [h, add_zero] at this
        exact this.symm
      have hxr : ((x : ℚ) : ℝ) = ((⌊x⌋ : ℤ) : ℝ) := by
        conv_lhs => rw [hx]
        simp
      rw [hxr, Real.convergent_of_int]
      simp
    · rw [if_neg h]
      cases n with
      | zero => rw [Real.convergent_zero, Rat.floor_cast]; exact List.mem_cons_self
      | succ n =>
        rw [Real.convergent_succ, Rat.floor_cast]
        apply List.mem_cons_of_mem
        refine List.mem_map.2 ⟨_, ih (Int.fract x)⁻¹ ?_ n, ?_⟩
        · have := inv_fract_den h; omega
        · congr 3
          rw [Rat.cast_inv, ← Rat.cast_fract]

/-- Every fraction closer to `x` than `1/(2 q²)` is a convergent. -/
theorem convs_mem {x q : ℚ} (h : |x - q| < 1 / (2 * (q.den : ℚ) ^ 2)) : q ∈ convs x := by
  have h' : |(x : ℝ) - q| < 1 / (2 * (q.den : ℝ) ^ 2) := by
    have h2 : ((|x - q| : ℚ) : ℝ) < ((1 / (2 * (q.den : ℚ) ^ 2) : ℚ) : ℝ) := Rat.cast_lt.2 h
    push_cast at h2
    exact h2
  obtain ⟨n, hn⟩ := Real.exists_rat_eq_convergent h'
  rw [hn]
  exact convAux_mem _ x le_rfl n

/-! ### Order extraction -/

/-- `itertools.product(*ls)`. -/
def prodL : List (List ℕ) → List (List ℕ)
  | [] => [[]]
  | l :: ls => l.flatMap fun x => (prodL ls).map (x :: ·)

/-- `np.lcm.reduce(comb)`. -/
def lcmL (l : List ℕ) : ℕ := l.foldl Nat.lcm 1

/-- The loop of `extract_order` (lines 101-114); `none` is the IndexError of `pop(0)`. -/
def extractLoop (a N : ℕ) : List ℚ → List (List ℕ) → Option ℕ
  | [], _ => none
  | x :: xs, col =>
    match (getR x).find? fun r => a ^ r % N == 1 with
    | some r => some r
    | none =>
      match ((prodL (col ++ [getR x])).map lcmL).find? fun r => a ^ r % N == 1 with
      | some r => some r
      | none => extractLoop a N xs (col ++ [getR x])

/-- `extract_order(mes_res, a, N)` (lines 90-114) on the measured values in the order of the
dictionary. -/
def extractOrder (mes : List ℚ) (a N : ℕ) : Option ℕ := extractLoop a N (mes.erase 0) []

/-- The value of `a` after the loop of `find_order` (lines 79-82), which overwrites `a` in each of
its `k` iterations. -/
def squared (N : ℕ) : ℕ → ℕ → ℕ
  | 0, a => a
  | k + 1, a => squared N k (a * a % N)

/-- `find_order(a, N)` (lines 74-87) with `k` control qubits and measured values `mes`. Line 87 uses
the overwritten `a`. -/
def findOrder (k : ℕ) (mes : List ℚ) (a N : ℕ) : Option ℕ := extractOrder mes (squared N k a) N

theorem find_sound {a N : ℕ} {l : List ℕ} {r : ℕ}
    (h : (l.find? fun r => a ^ r % N == 1) = some r) : a ^ r % N = 1 := by
  have := List.find?_some h
  simpa using this

theorem extractLoop_sound {a N : ℕ} {xs : List ℚ} {col : List (List ℕ)} {r : ℕ}
    (h : extractLoop a N xs col = some r) : a ^ r % N = 1 := by
  induction xs generalizing col with
  | nil => cases h
  | cons x xs ih =>
    rw [extractLoop] at h
    split at h
    · next h1 => cases h; exact find_sound h1
    · split at h
      · next h1 => cases h; exact find_sound h1
      · exact ih h

theorem extractLoop_complete {a N : ℕ} {xs : List ℚ} {col : List (List ℕ)} {x : ℚ} (hx : x ∈ xs)
    {r : ℕ} (hr : r ∈ getR x) (h : a ^ r % N = 1) : (extractLoop a N xs col).isSome := by
  induction xs generalizing col with
  | nil => cases hx
  | cons y xs ih =>
    rw [extractLoop]
    split
    · rfl
    · next h1 =>
      split
      · rfl
      · rcases List.mem_cons.1 hx with e | hx
        · subst e
          rw [List.find?_eq_none] at h1
          exact absurd (by simpa using h) (h1 r hr)
        · exact ih hx

theorem squared_eq (N k a : ℕ) : squared N k a % N = a ^ 2 ^ k % N := by
  induction k generalizing a with
  | zero => simp [squared]
  | succ k ih =>
    rw [squared, ih, ← Nat.pow_mod, pow_succ', pow_mul, sq]

/-! ### Factoring -/

/-- The proposals of `find_optimal_a` (lines 30-71): numbers coprime to `N` sorted by a cost. The cost
only affects the order. -/
def proposals (cost : ℕ → ℕ) (N : ℕ) : List ℕ :=
  (((List.range (min 100 (N - 1))).drop 2).filter fun a => Nat.gcd a N == 1).insertionSort
    fun a b => cost a ≤ cost b

/-- The loop of `shors_alg` (lines 154-171). `order` is `find_order` (`none` if it raises); falling off
the loop is the UnboundLocalError of line 171. -/
def shorsLoop (order : ℕ → Option ℕ) (N : ℕ) : List ℕ → Option ℕ
  | [] => none
  | a :: as =>
    if Nat.gcd a N ≠ 1 then some (Nat.gcd a N)
    else (order a).bind fun r =>
      if r % 2 = 1 then shorsLoop order N as
      else if Nat.gcd (a ^ (r / 2) + 1) N ≠ N ∧ Nat.gcd (a ^ (r / 2) + 1) N ≠ 1 then
        some (Nat.gcd (a ^ (r / 2) + 1) N)
      else shorsLoop order N as

/-- `shors_alg(N)` (lines 122-171). -/
def shorsAlg (cost : ℕ → ℕ) (order : ℕ → Option ℕ) (N : ℕ) : Option ℕ :=
  if N % 2 = 0 then some 2 else shorsLoop order N (proposals cost N)

theorem mem_proposals {cost : ℕ → ℕ} {N a : ℕ} :
    a ∈ proposals cost N ↔ 2 ≤ a ∧ a < min 100 (N - 1) ∧ Nat.gcd a N = 1 := by
  rw [proposals, List.mem_insertionSort, List.mem_filter]
  have : a ∈ (List.range (min 100 (N - 1))).drop 2 ↔ 2 ≤ a ∧ a < min 100 (N - 1) := by
    rw [List.mem_iff_getElem?]
    constructor
    · rintro ⟨i, hi⟩
      rw [List.getElem?_drop, List.getElem?_eq_some_iff] at hi
      obtain ⟨h1, h2⟩ := hi
      rw [List.getElem_range] at h2
      rw [List.length_range] at h1
      omega
    · rintro ⟨h1, h2⟩
      exact ⟨a - 2, by
        rw [List.getElem?_drop, List.getElem?_range (by omega)]
        congr 1; omega⟩
  rw [this]
  simp [and_assoc]

theorem shorsLoop_sound {order : ℕ → Option ℕ} {N : ℕ} (hN : 0 < N) {as : List ℕ} {p : ℕ}
    (has : ∀ a ∈ as, 0 < a ∧ a < N) (h : shorsLoop order N as = some p) :
    p ∣ N ∧ 1 < p ∧ p < N := by
  induction as with
  | nil => cases h
  | cons a as ih =>
    have ih := ih fun b hb => has b (List.mem_cons_of_mem _ hb)
    obtain ⟨ha, ha'⟩ := has a List.mem_cons_self
    rw [shorsLoop] at h
    split at h
    · next h1 =>
      cases h
      have h2 := Nat.gcd_pos_of_pos_left N ha
      have h3 := Nat.le_of_dvd ha (Nat.gcd_dvd_left a N)
      exact ⟨Nat.gcd_dvd_right a N, by omega, by omega⟩
    · rw [Option.bind_eq_some_iff] at h
      obtain ⟨r, _, h⟩ := h
      split at h
      · exact ih h
      · split at h
        · next h1 =>
          cases h
          have h2 := Nat.gcd_pos_of_pos_right (a ^ (r / 2) + 1) hN
          have h3 := Nat.le_of_dvd hN (Nat.gcd_dvd_right (a ^ (r / 2) + 1) N)
          exact ⟨Nat.gcd_dvd_right _ N, by omega, by omega⟩
        · exact ih h

/-- The gcd step succeeds for an even order `r` with `a^(r/2) ≢ -1`. -/
theorem gcd_step {a N r : ℕ} (hr : a ^ r % N = 1) (hmin : a ^ (r / 2) % N ≠ 1)
    (he : r % 2 = 0) (hm : (a ^ (r / 2) + 1) % N ≠ 0) :
    Nat.gcd (a ^ (r / 2) + 1) N ≠ N ∧ Nat.gcd (a ^ (r / 2) + 1) N ≠ 1 := by
  constructor
  · intro h
    exact hm (Nat.mod_eq_zero_of_dvd (h ▸ Nat.gcd_dvd_left _ _))
  · intro h
    have hN1 : 1 < N := by
      by_contra hc
      have : N = 0 ∨ N = 1 := by omega
      rcases this with e | e
      · subst e; rw [Nat.mod_zero] at hr
        rw [Nat.gcd_zero_right] at h
        have : a ^ (r / 2) = 0 := by omega
        have : a ^ r = 0 := by
          rw [show r = r / 2 + r / 2 by omega, pow_add, this, Nat.zero_mul]
        omega
      · subst e; rw [Nat.mod_one] at hr; omega
    set b := a ^ (r / 2) with hb
    have hsq : b * b % N = 1 := by rw [hb, ← pow_add, show r / 2 + r / 2 = r by omega, hr]
    have hdvd : (N : ℤ) ∣ ((b : ℤ) + 1) * (b - 1) := by
      have : ((b * b : ℕ) : ℤ) % N = 1 := by exact_mod_cast hsq
      have h2 : (N : ℤ) ∣ (b * b : ℤ) - 1 := by
        apply Int.dvd_of_emod_eq_zero
        push_cast at this
        rw [Int.sub_emod, this]
        simp
      have h3 : ((b : ℤ) + 1) * (b - 1) = b * b - 1 := by ring
      rw [h3]; exact h2
    have hc : IsCoprime (N : ℤ) ((b : ℤ) + 1) := by
      rw [Int.isCoprime_iff_gcd_eq_one, Int.gcd_comm]
      have : Int.gcd ((b + 1 : ℕ) : ℤ) (N : ℤ) = 1 := by rw [Int.gcd_natCast_natCast]; exact h
      exact_mod_cast this
    have h4 := hc.dvd_of_dvd_mul_left hdvd
    apply hmin
    have h5 : (b : ℤ) % N = 1 % N :=
      Int.emod_eq_emod_iff_emod_sub_eq_zero.2 (Int.emod_eq_zero_of_dvd h4)
    have h6 : b % N = 1 % N := by exact_mod_cast h5
    rw [h6, Nat.mod_eq_of_lt hN1]

theorem shorsLoop_complete {order : ℕ → Option ℕ} {N : ℕ} {as : List ℕ}
    (htot : ∀ a ∈ as, (order a).isSome) {a r : ℕ} (ha : a ∈ as) (ho : order a = some r)
    (he : r % 2 = 0) (hr : a ^ r % N = 1) (hmin : a ^ (r / 2) % N ≠ 1)
    (hm : (a ^ (r / 2) + 1) % N ≠ 0) : (shorsLoop order N as).isSome := by
  induction as with
  | nil => cases ha
  | cons b as ih =>
    rw [shorsLoop]
    split
    · rfl
    · obtain ⟨s, hs⟩ := Option.isSome_iff_exists.1 (htot b List.mem_cons_self)
      rw [hs, Option.bind_some]
      have ih := ih fun b hb => htot b (List.mem_cons_of_mem _ hb)
      rcases List.mem_cons.1 ha with e | ha
      · subst e
        rw [ho] at hs
        cases hs
        rw [if_neg (by omega), if_pos (gcd_step hr hmin he hm)]
        rfl
      · split
        · exact ih ha
        · split
          · rfl
          · exact ih ha

/-! ### RSA -/

/-- `rsa_encrypt(e, N, message_int)` (crypto_tools.py:74-106). -/
def rsaEncrypt (e N m : ℕ) : ℕ := m ^ e % N

/-- `rsa_decrypt(e, N, cipher_int)` (lines 24-71); `fac` is the result of `shors_alg(N)`. The exception
of `modinv` is `none`. -/
def rsaDecrypt (fac : Option ℕ) (e N c : ℕ) : Option ℕ :=
  fac.bind fun p =>
    let q := N / p
    let phi := (p - 1) * (q - 1)
    (modinvStatic e phi).map fun d => c ^ d.toNat % N

theorem pow_prime_mod {p x k : ℕ} (hp : p.Prime) (hk : (p - 1) ∣ k) : x ^ (k + 1) ≡ x [MOD p] := by
  haveI := Fact.mk hp
  rw [← ZMod.natCast_eq_natCast_iff]
  push_cast
  by_cases h : (x : ZMod p) = 0
  · rw [h]; simp
  · obtain ⟨j, rfl⟩ := hk
    rw [pow_succ, pow_mul, ZMod.pow_card_sub_one_eq_one h, one_pow, one_mul]

theorem rsa_core {p q x k : ℕ} (hp : p.Prime) (hq : q.Prime) (hpq : p ≠ q)
    (hk : (p - 1) * (q - 1) ∣ k) : x ^ (k + 1) ≡ x [MOD p * q] := by
  have hc : Nat.Coprime p q := (Nat.coprime_primes hp hq).2 hpq
  rw [← Nat.modEq_and_modEq_iff_modEq_mul hc]
  exact ⟨pow_prime_mod hp (dvd_trans (dvd_mul_right _ _) hk),
    pow_prime_mod hq (dvd_trans (dvd_mul_left _ _) hk)⟩

/-! ### Strings -/

/-- Value of a bit string, most significant bit first (`int(s, 2)`). -/
def ofBits (l : List Bool) : ℕ := l.foldl (fun n b => 2 * n + b.toNat) 0

/-- `bin(x)[2:]`. -/
def binStr (x : ℕ) : List Bool := if x = 0 then [false] else x.bits.reverse

/-- `s.zfill(w)`. -/
def zfill (w : ℕ) (l : List Bool) : List Bool := List.replicate (w - l.length) false ++ l

/-- `s[::-1].zfill(w)[::-1]`. -/
def zfillR (w : ℕ) (l : List Bool) : List Bool := (zfill w l.reverse).reverse

/-- The slices `[l[i*k:(i+1)*k] for i in range(ceil(len(l)/k))]`. -/
def slicesL {α : Type} (k : ℕ) (l : List α) : List (List α) :=
  (List.range ((l.length + k - 1) / k)).map fun i => (l.drop (i * k)).take k

/-- `N.bit_length()`. -/
def bitLen (N : ℕ) : ℕ := N.size

/-- `rsa_encrypt_string(e, N, message)` (lines 109-150); characters are their codes. -/
def encryptString (e N : ℕ) (msg : List ℕ) : List Bool :=
  let bits := msg.flatMap fun x => zfill 7 (binStr x)
  let k := bitLen N - 1
  ((slicesL k bits).map (zfillR k)).flatMap fun c =>
    zfill (k + 1) (binStr (rsaEncrypt e N (ofBits c)))

/-- `bitstring_to_string(bitstring)` (lines 211-216). -/
def bitsToString (l : List Bool) : List ℕ :=
  (List.range (l.length / 7)).map fun i => ofBits ((l.drop (i * 7)).take 7)

/-- `rsa_decrypt_string(e, N, ciphertext)` (lines 153-208). -/
def decryptString (fac : Option ℕ) (e N : ℕ) (c : List Bool) : Option (List ℕ) :=
  fac.bind fun p =>
    let q := N / p
    let phi := (p - 1) * (q - 1)
    (modinvStatic e phi).map fun d =>
      let k := bitLen N
      bitsToString ((slicesL k c).flatMap fun ch =>
        zfill (k - 1) (binStr (ofBits ch ^ d.toNat % N)))

theorem ofBits_append (l : List Bool) (b : Bool) : ofBits (l ++ [b]) = 2 * ofBits l + b.toNat := by
  simp [ofBits]

theorem ofBits_lt (l : List Bool) : ofBits l < 2 ^ l.length := by
  induction l using List.reverseRecOn with
  | nil => simp [ofBits]
  | append_singleton l b ih =>
    rw [ofBits_append, List.length_append, List.length_singleton, pow_succ]
    have : b.toNat ≤ 1 := Bool.toNat_le b
    omega

theorem ofBits_inj {l l' : List Bool} (h : l.length = l'.length) (h' : ofBits l = ofBits l') :
    l = l' := by
  induction l using List.reverseRecOn generalizing l' with
  | nil => exact (List.length_eq_zero_iff.1 h.symm).symm
  | append_singleton l b ih =>
    rcases List.eq_nil_or_concat l' with rfl | ⟨m, c, rfl⟩
    · simp at h
    · rw [List.concat_eq_append] at h h' ⊢
      rw [ofBits_append, ofBits_append] at h'
      have hb : b.toNat ≤ 1 := Bool.toNat_le b
      have hc : c.toNat ≤ 1 := Bool.toNat_le c
      have h1 : ofBits l = ofBits m := by omega
      have h2 : b.toNat = c.toNat := by omega
      have h3 : b = c := by cases b <;> cases c <;> simp_all
      rw [ih (by simpa using h) h1, h3]

theorem ofBits_zfill (w : ℕ) (l : List Bool) : ofBits (zfill w l) = ofBits l := by
  have : ∀ n, ofBits (List.replicate n false ++ l) = ofBits l := by
    intro n
    induction n with
    | zero => rfl
    | succ n ih => rw [List.replicate_succ, List.cons_append, ofBits, List.foldl_cons]; exact ih
  exact this _

theorem ofBits_bits (x : ℕ) : ofBits x.bits.reverse = x := by
  induction x using Nat.binaryRec' with
  | zero => simp [ofBits]
  | bit b n h ih =>
    rw [Nat.bits_append_bit n b h, List.reverse_cons, ofBits_append, ih, Nat.bit_val]

theorem ofBits_binStr (x : ℕ) : ofBits (binStr x) = x := by
  rw [binStr]
  split
  · next h => rw [h]; rfl
  · exact ofBits_bits x

theorem binStr_length {x w : ℕ} (hw : 0 < w) (hx : x < 2 ^ w) : (binStr x).length ≤ w := by
  rw [binStr]
  split
  · exact hw
  · rw [List.length_reverse, Nat.size_eq_bits_len]
    exact Nat.size_le.2 hx

theorem zfill_length {w : ℕ} {l : List Bool} (h : l.length ≤ w) : (zfill w l).length = w := by
  simp [zfill]; omega

/-- The representation of a bit string's value with the same width is the bit string. -/
theorem zfill_ofBits {w : ℕ} (hw : 0 < w) {l : List Bool} (h : l.length = w) :
    zfill w (binStr (ofBits l)) = l := by
  apply ofBits_inj
  · rw [zfill_length (binStr_length hw (h ▸ ofBits_lt l)), h]
  · rw [ofBits_zfill, ofBits_binStr]

theorem slicesL_nil {α : Type} (k : ℕ) : slicesL k ([] : List α) = [] := by
  rcases Nat.eq_zero_or_pos k with rfl | h
  · simp [slicesL]
  · rw [slicesL, List.length_nil, Nat.div_eq_of_lt (by omega)]; rfl

theorem slicesL_append {α : Type} {k : ℕ} (hk : 0 < k) {a l : List α} (ha : a.length = k) :
    slicesL k (a ++ l) = a :: slicesL k l := by
  rw [slicesL, List.length_append, ha,
    show k + l.length + k - 1 = (l.length + k - 1) + k by omega, Nat.add_div_right _ hk,
    List.range_succ_eq_map, List.map_cons, List.map_map, slicesL]
  congr 1
  · rw [Nat.zero_mul, List.drop_zero, ← ha, List.take_left']; rfl
  · apply List.map_congr_left
    intro i _
    simp only [Function.comp, Nat.succ_eq_add_one]
    rw [show (i + 1) * k = a.length + i * k by rw [ha]; ring,
      List.drop_length_add_append]

theorem slicesL_short {α : Type} {k : ℕ} {l : List α} (h : l ≠ []) (hl : l.length < k) :
    slicesL k l = [l] := by
  have hp := List.length_pos_iff.2 h
  have : (l.length + k - 1) / k = 1 := by
    apply Nat.div_eq_of_lt_le <;> omega
  rw [slicesL, this]
  simp [List.take_of_length_le hl.le]

theorem slicesL_flatten {α : Type} {k : ℕ} (hk : 0 < k) {L : List (List α)}
    (h : ∀ a ∈ L, a.length = k) : slicesL k L.flatten = L := by
  induction L with
  | nil => exact slicesL_nil k
  | cons a L ih =>
    rw [List.flatten_cons, slicesL_append hk (h a List.mem_cons_self),
      ih fun b hb => h b (List.mem_cons_of_mem _ hb)]

/-- Padding the last slice appends zeros to the string up to the next multiple of the width. -/
theorem pad_flatten {k : ℕ} (hk : 0 < k) (l : List Bool) :
    (∀ c ∈ (slicesL k l).map (zfillR k), c.length = k) ∧
    ((slicesL k l).map (zfillR k)).flatten =
      l ++ List.replicate ((l.length + k - 1) / k * k - l.length) false := by
  induction hn : l.length using Nat.strong_induction_on generalizing l with
  | _ n ih =>
    subst hn
    by_cases h0 : l = []
    · subst h0
      rw [slicesL_nil, List.length_nil, Nat.div_eq_of_lt (by omega)]
      simp
    by_cases h1 : l.length < k
    · have hp := List.length_pos_iff.2 h0
      have hd : (l.length + k - 1) / k = 1 := by apply Nat.div_eq_of_lt_le <;> omega
      rw [slicesL_short h0 h1, hd]
      simp [zfillR, zfill]
      omega
    · have hsplit : l = l.take k ++ l.drop k := (List.take_append_drop k l).symm
      have hlen : (l.take k).length = k := by rw [List.length_take]; omega
      obtain ⟨i1, i2⟩ := ih (l.drop k).length (by rw [List.length_drop]; omega) (l.drop k) rfl
      have hs : slicesL k l = l.take k :: slicesL k (l.drop k) := by
        conv_lhs => rw [hsplit]
        exact slicesL_append hk hlen
      have hz : zfillR k (l.take k) = l.take k := by simp [zfillR, zfill, hlen]
      rw [hs, List.map_cons, hz]
      refine ⟨?_, ?_⟩
      · intro c hc
        rcases List.mem_cons.1 hc with e | hc
        · rw [e, hlen]
        · exact i1 c hc
      · rw [List.flatten_cons, i2, ← List.append_assoc, ← hsplit]
        congr 2
        rw [List.length_drop]
        have : l.length + k - 1 = (l.length - k + k - 1) + k := by omega
        rw [this, Nat.add_div_right _ hk, Nat.succ_mul]
        omega

theorem bitsToString_append {a l : List Bool} (ha : a.length = 7) :
    bitsToString (a ++ l) = ofBits a :: bitsToString l := by
  rw [bitsToString, List.length_append, ha, show 7 + l.length = l.length + 7 by omega,
    Nat.add_div_right _ (by norm_num), List.range_succ_eq_map, List.map_cons, List.map_map,
    bitsToString]
  congr 1
  · rw [Nat.zero_mul, List.drop_zero, List.take_left' ha]
  · apply List.map_congr_left
    intro i _
    simp only [Function.comp, Nat.succ_eq_add_one]
    rw [show (i + 1) * 7 = a.length + i * 7 by rw [ha]; ring,
      List.drop_length_add_append]

theorem ofBits_zeros (n : ℕ) : ofBits (List.replicate n false) = 0 := by
  induction n with
  | zero => rfl
  | succ n ih => rw [List.replicate_succ, ofBits, List.foldl_cons]; exact ih

theorem bitsToString_zeros (n : ℕ) :
    bitsToString (List.replicate n false) = List.replicate (n / 7) 0 := by
  rw [bitsToString, List.length_replicate]
  rw [List.eq_replicate_iff]
  constructor
  · simp
  · intro b hb
    obtain ⟨i, _, rfl⟩ := List.mem_map.1 hb
    rw [List.drop_replicate, List.take_replicate, ofBits_zeros]

theorem bitsToString_msg {msg : List ℕ} (h : ∀ c ∈ msg, c < 128) (n : ℕ) :
    bitsToString ((msg.flatMap fun x => zfill 7 (binStr x)) ++ List.replicate n false) =
      msg ++ List.replicate (n / 7) 0 := by
  induction msg with
  | nil => simpa using bitsToString_zeros n
  | cons c msg ih =>
    have hc : c < 2 ^ 7 := h c List.mem_cons_self
    rw [List.flatMap_cons, List.append_assoc,
      bitsToString_append (zfill_length (binStr_length (by norm_num) hc)), ofBits_zfill,
      ofBits_binStr, ih fun x hx => h x (List.mem_cons_of_mem _ hx)]
    rfl

end Verif.NT
