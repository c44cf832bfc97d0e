import Verif.NumTheory.Shor
import Verif.Props.NumTheory
import Mathlib.Tactic.NormNum.Prime

/-!
Property theorems C53-C56: factoring and RSA.
-/

namespace Verif.Props

open Verif.NT

/-! ### C53 -/

/-- Whatever the order finding returns, a result of `shors_alg` is a divisor of `N` larger than one,
and a proper one unless `N = 2`. -/
theorem C53_sound (cost : ℕ → ℕ) (order : ℕ → Option ℕ) {N p : ℕ} (hN : 0 < N)
    (h : shorsAlg cost order N = some p) : p ∣ N ∧ 1 < p ∧ (p < N ∨ N = 2) := by
  rw [shorsAlg] at h
  split at h
  · next h0 =>
    cases h
    exact ⟨Nat.dvd_of_mod_eq_zero h0, by norm_num, by omega⟩
  · obtain ⟨h1, h2, h3⟩ := shorsLoop_sound hN (fun a ha => by
      have := mem_proposals.1 ha
      omega) h
    exact ⟨h1, h2, Or.inl h3⟩

/-- If order finding never raises and returns, for some proposal `a` (a number from 2 to 99, below
`N - 1` and coprime to `N`), its multiplicative order `r`, and this order is even with
`a^(r/2) ≢ -1`, then a factor is returned. -/
theorem C53_complete (cost : ℕ → ℕ) (order : ℕ → Option ℕ) {N a : ℕ}
    (htot : ∀ a, (order a).isSome) (ha : 2 ≤ a) (ha' : a < 100) (haN : a < N - 1)
    (hg : Nat.gcd a N = 1) {r : ℕ} (ho : order a = some r) (hr0 : 0 < r) (hr : a ^ r % N = 1)
    (hmin : ∀ s, 0 < s → s < r → a ^ s % N ≠ 1) (he : r % 2 = 0)
    (hm : (a ^ (r / 2) + 1) % N ≠ 0) : ∃ p, shorsAlg cost order N = some p := by
  rw [← Option.isSome_iff_exists, shorsAlg]
  split
  · rfl
  · exact shorsLoop_complete (fun a _ => htot a)
      (mem_proposals.2 ⟨ha, by omega, hg⟩) ho he hr (hmin _ (by omega) (by omega)) hm

/-- Factoring 21 with the orders of 2 (order 6) supplied. -/
example : shorsAlg (fun a => a) (fun a => if a = 2 then some 6 else some 1) 21 = some 3 := by
  decide +kernel

/-! ### C54 -/

/-- `extract_order` returns an exponent `r` with `a^r ≡ 1`. -/
theorem C54_extract (mes : List ℚ) {a N r : ℕ} (h : extractOrder mes a N = some r) :
    a ^ r % N = 1 := extractLoop_sound h

/-- Candidates: if a measured value is closer than `1/(2 r²)` to a fraction `k/r` in lowest terms with
`r > 1`, then `r` is among the candidates. -/
theorem C54_candidates {x : ℚ} {k r : ℕ} (hr : 1 < r) (hk : Nat.Coprime k r)
    (h : |x - (k : ℚ) / r| < 1 / (2 * (r : ℚ) ^ 2)) : r ∈ getR x := by
  have hd : ((k : ℚ) / r).den = r := by
    have := Rat.den_div_eq_of_coprime (a := (k : ℤ)) (b := (r : ℤ)) (by omega) (by simpa using hk)
    simpa using this
  have := convs_mem (x := x) (q := (k : ℚ) / r) (by rw [hd]; exact h)
  rw [getR]
  refine List.mem_map.2 ⟨_, List.mem_filter.2 ⟨this, ?_⟩, hd⟩
  rw [hd]
  simpa using hr

/-- With such a value for the order `r` of `a`, `extract_order` returns a result. -/
theorem C54_extract_succeeds (mes : List ℚ) {a N r k : ℕ} {x : ℚ} (hx : x ∈ mes) (hx0 : x ≠ 0)
    (hr : 1 < r) (hk : Nat.Coprime k r) (h : |x - (k : ℚ) / r| < 1 / (2 * (r : ℚ) ^ 2))
    (ho : a ^ r % N = 1) : ∃ s, extractOrder mes a N = some s := by
  rw [← Option.isSome_iff_exists]
  exact extractLoop_complete ((List.mem_erase_of_ne hx0).2 hx) (C54_candidates hr hk h) ho

/-- `find_order` with `k` control qubits: the result is only guaranteed to be an exponent for
`a^(2^k)`. Missing: an exponent for `a` (false, below), because the loop overwrites `a`. -/
theorem C54_find_order_partial (k : ℕ) (mes : List ℚ) {a N r : ℕ}
    (h : findOrder k mes a N = some r) : (a ^ 2 ^ k) ^ r % N = 1 := by
  have h1 := C54_extract mes h
  rw [Nat.pow_mod, squared_eq, ← Nat.pow_mod] at h1
  exact h1

/-- If the order of `a` is odd, the result is an exponent for `a` as well. -/
theorem C54_find_order_odd_partial (k : ℕ) (mes : List ℚ) {a N r s : ℕ} (hN : 1 < N) (hs : s % 2 = 1)
    (ho : a ^ s % N = 1) (h : findOrder k mes a N = some r) : a ^ r % N = 1 := by
  have h1 := C54_find_order_partial k mes h
  have hord : orderOf (a : ZMod N) ∣ s := orderOf_dvd_of_pow_eq_one (by
    have : ((a ^ s : ℕ) : ZMod N) = ((1 : ℕ) : ZMod N) :=
      (ZMod.natCast_eq_natCast_iff' _ _ _).2 (by rw [ho, Nat.mod_eq_of_lt hN])
    push_cast at this; exact this)
  have hord2 : orderOf (a : ZMod N) ∣ 2 ^ k * r := orderOf_dvd_of_pow_eq_one (by
    have : (((a ^ 2 ^ k) ^ r : ℕ) : ZMod N) = ((1 : ℕ) : ZMod N) :=
      (ZMod.natCast_eq_natCast_iff' _ _ _).2 (by rw [h1, Nat.mod_eq_of_lt hN])
    push_cast at this; rw [pow_mul]; exact this)
  have hodd : Nat.Coprime (orderOf (a : ZMod N)) (2 ^ k) := by
    apply Nat.Coprime.pow_right
    have : ¬ 2 ∣ orderOf (a : ZMod N) := fun h2 => by
      have := h2.trans hord; omega
    exact ((Nat.Prime.coprime_iff_not_dvd Nat.prime_two).2 this).symm
  have h3 := hodd.dvd_of_dvd_mul_left hord2
  have h4 : (a : ZMod N) ^ r = 1 := orderOf_dvd_iff_pow_eq_one.1 h3
  have h5 : ((a ^ r : ℕ) : ZMod N) = ((1 : ℕ) : ZMod N) := by push_cast; exact h4
  have h6 := (ZMod.natCast_eq_natCast_iff' _ _ _).1 h5
  rw [h6, Nat.mod_eq_of_lt hN]

/-- Factoring 15 with `a = 7` (order 4): if the outcome 1/2, a possible outcome of the phase
estimation, comes first, `find_order` returns 2, and `shors_alg` gives up on `a = 7`. -/
theorem C54_find_order_wrong :
    findOrder 9 [1 / 2, 1 / 4, 3 / 4, 0] 7 15 = some 2 ∧ 7 ^ 2 % 15 ≠ 1 ∧
    extractOrder [1 / 2, 1 / 4, 3 / 4, 0] 7 15 = some 4 ∧
    Nat.gcd (7 ^ (2 / 2) + 1) 15 = 1 ∧ Nat.gcd (7 ^ (4 / 2) + 1) 15 = 5 := by
  have h1 : getR (1 / 2) = [2] := by decide +kernel
  have h2 : getR (1 / 4) = [4] := by decide +kernel
  refine ⟨?_, by norm_num, ?_, by norm_num, by norm_num⟩
  · have hm : ([1 / 2, 1 / 4, 3 / 4, 0] : List ℚ).erase 0 = [1 / 2, 1 / 4, 3 / 4] := by
      decide +kernel
    rw [findOrder, extractOrder, hm, extractLoop, h1]
    decide +kernel
  · have hm : ([1 / 2, 1 / 4, 3 / 4, 0] : List ℚ).erase 0 = [1 / 2, 1 / 4, 3 / 4] := by
      decide +kernel
    rw [extractOrder, hm, extractLoop, extractLoop, h1, h2]
    decide +kernel

/-- 85/512 is close to 1/6. -/
example : (6 : ℕ) ∈ getR (85 / 512) :=
  C54_candidates (k := 1) (by norm_num) (by norm_num) (by norm_num [abs_lt])

/-! ### C55 -/

/-- Decrypting an encrypted message gives the message back, for an RSA modulus and an exponent
coprime to the totient, given a factor of the modulus. -/
theorem C55_rsa {p q e m f : ℕ} (hp : p.Prime) (hq : q.Prime) (hpq : p ≠ q)
    (he : Nat.gcd e ((p - 1) * (q - 1)) = 1) (hm : m < p * q) (hf : f ∣ p * q) (hf1 : 1 < f)
    (hf2 : f < p * q) :
    rsaDecrypt (some f) e (p * q) (rsaEncrypt e (p * q) m) = some m := by
  have hfp : f = p ∨ f = q := by
    have := (Nat.dvd_mul).1 hf
    obtain ⟨k1, k2, h1, h2, h3⟩ := this
    rcases (Nat.dvd_prime hp).1 h1 with e1 | e1 <;> rcases (Nat.dvd_prime hq).1 h2 with e2 | e2 <;>
      subst e1 <;> subst e2
    · omega
    · right; omega
    · left; omega
    · omega
  have hp2 := hp.two_le
  have hq2 := hq.two_le
  have hphi : (f - 1) * (p * q / f - 1) = (p - 1) * (q - 1) := by
    rcases hfp with e | e
    · rw [e, Nat.mul_div_cancel_left _ (by omega)]
    · rw [e, Nat.mul_div_cancel _ (by omega)]; ring
  have hphi1 : 1 < (p - 1) * (q - 1) := by
    have : 2 ≤ p - 1 ∨ 2 ≤ q - 1 := by omega
    rcases this with h | h
    · nlinarith [show 1 ≤ q - 1 by omega]
    · nlinarith [show 1 ≤ p - 1 by omega]
  obtain ⟨d, h1, h2, h3, h4⟩ := (C09_modinv_static e ((p - 1) * (q - 1) : ℕ) (by positivity)
    (by exact_mod_cast hphi1)).1 (by rw [Int.gcd_natCast_natCast]; exact he)
  rw [rsaDecrypt, Option.bind_some]
  simp only
  have hcast : (((f - 1) * (p * q / f - 1) : ℕ) : ℤ) = (((p - 1) * (q - 1) : ℕ) : ℤ) := by
    rw [hphi]
  rw [hcast, h1, Option.map_some, rsaEncrypt, ← Nat.pow_mod, ← pow_mul]
  congr 1
  -- e * d = 1 + k * phi
  obtain ⟨D, rfl⟩ := Int.eq_ofNat_of_zero_le h2
  rw [Int.toNat_natCast]
  have h5 : e * D % ((p - 1) * (q - 1)) = 1 := by exact_mod_cast h4
  have h6 : e * D = (p - 1) * (q - 1) * (e * D / ((p - 1) * (q - 1))) + 1 := by
    conv_lhs => rw [← Nat.div_add_mod (e * D) ((p - 1) * (q - 1)), h5]
  rw [h6]
  have := rsa_core (x := m) hp hq hpq (dvd_mul_right ((p - 1) * (q - 1)) (e * D / ((p - 1) * (q - 1))))
  rw [this, Nat.mod_eq_of_lt hm]

/-- The modulus 33, exponent 3: 5 is encrypted to 26 and decrypted to 5. -/
example : rsaEncrypt 3 33 5 = 26 ∧ rsaDecrypt (some 3) 3 33 26 = some 5 := by decide +kernel

/-! ### C56 -/

/-- Number of NUL characters appended by the padding to a message of `L` characters. -/
def nulCount (N L : ℕ) : ℕ :=
  let k := N.size - 1
  ((7 * L + k - 1) / k * k - 7 * L) / 7

/-- String round trip up to trailing NUL characters. Missing: equality (false, below). -/
theorem C56_string_partial {p q e f : ℕ} (hp : p.Prime) (hq : q.Prime) (hpq : p ≠ q)
    (he : Nat.gcd e ((p - 1) * (q - 1)) = 1) (hf : f ∣ p * q) (hf1 : 1 < f) (hf2 : f < p * q)
    (msg : List ℕ) (hmsg : ∀ c ∈ msg, c < 128) :
    decryptString (some f) e (p * q) (encryptString e (p * q) msg) =
      some (msg ++ List.replicate (nulCount (p * q) msg.length) 0) := by
  have hN : 6 ≤ p * q := by
    have hp2 := hp.two_le
    have hq2 := hq.two_le
    rcases Nat.lt_or_gt_of_ne hpq with h | h <;> nlinarith
  have hsz : 2 < (p * q).size := by
    rw [Nat.lt_size]; omega
  -- the decryption of a single number
  have hone : ∀ m, m < p * q → ∃ d, modinvStatic e ((f - 1) * (p * q / f - 1) : ℕ) = some d ∧
      rsaEncrypt e (p * q) m ^ d.toNat % (p * q) = m := by
    intro m hm
    have := C55_rsa hp hq hpq he hm hf hf1 hf2
    rw [rsaDecrypt, Option.bind_some, Option.map_eq_some_iff] at this
    exact this
  obtain ⟨d, hd, _⟩ := hone 0 (by omega)
  have hdec : ∀ m, m < p * q → rsaEncrypt e (p * q) m ^ d.toNat % (p * q) = m := by
    intro m hm
    obtain ⟨d', h1, h2⟩ := hone m hm
    rw [hd] at h1; cases h1; exact h2
  rw [decryptString, Option.bind_some]
  simp only
  rw [hd, Option.map_some]
  congr 1
  -- bits of the message, padded
  set bits := msg.flatMap fun x => zfill 7 (binStr x) with hbits
  have hbl : bits.length = 7 * msg.length := by
    rw [hbits]
    clear_value bits
    clear hbits
    induction msg with
    | nil => rfl
    | cons c msg ih =>
      rw [List.flatMap_cons, List.length_append, ih fun x hx => hmsg x (List.mem_cons_of_mem _ hx),
        zfill_length (binStr_length (by norm_num) (hmsg c List.mem_cons_self)), List.length_cons]
      ring
  set k := (p * q).size - 1 with hk
  have hk1 : (p * q).size = k + 1 := by omega
  have hkpos : 0 < k := by omega
  obtain ⟨hlen, hflat⟩ := pad_flatten hkpos bits
  set chunks := (slicesL k bits).map (zfillR k) with hch
  have hNk : 2 ^ k ≤ p * q := by
    have : k < (p * q).size := by omega
    exact Nat.lt_size.1 this
  have hNk' : p * q < 2 ^ (k + 1) := by rw [← hk1]; exact Nat.lt_size_self _
  have henc : encryptString e (p * q) msg =
      (chunks.map fun c => zfill (k + 1) (binStr (rsaEncrypt e (p * q) (ofBits c)))).flatten := by
    rw [encryptString, bitLen, ← List.flatMap_def]
  have hb : ∀ c, rsaEncrypt e (p * q) c < 2 ^ (k + 1) := fun c =>
    (Nat.mod_lt _ (by omega)).trans hNk'
  rw [bitLen, hk1, henc, slicesL_flatten (by omega) (by
    intro a ha
    obtain ⟨c, _, rfl⟩ := List.mem_map.1 ha
    exact zfill_length (binStr_length (by omega) (hb _)))]
  have hmain : ((chunks.map fun c => zfill (k + 1) (binStr (rsaEncrypt e (p * q) (ofBits c)))).flatMap
      fun ch => zfill (k + 1 - 1) (binStr (ofBits ch ^ d.toNat % (p * q)))) = chunks.flatten := by
    rw [List.flatMap_map, List.flatMap_def]
    congr 1
    conv_rhs => rw [← List.map_id chunks]
    apply List.map_congr_left
    intro c hc
    have hcl := hlen c hc
    rw [ofBits_zfill, ofBits_binStr, hdec _ ((hcl ▸ ofBits_lt c : ofBits c < 2 ^ k).trans_le hNk)]
    exact zfill_ofBits hkpos hcl
  rw [hmain, hflat, bitsToString_msg hmsg, hbl]
  rfl

/-- With the modulus 34571 = 181 · 191 a 15 bit chunk holds two characters, so the decryption of a one
character message ends with an additional NUL. -/
theorem C56_trailing_nul : nulCount (181 * 191) 1 = 1 ∧
    decryptString (some 181) 7 (181 * 191) (encryptString 7 (181 * 191) [65]) = some [65, 0] := by
  have h1 : nulCount (181 * 191) 1 = 1 := by decide +kernel
  refine ⟨h1, ?_⟩
  have := C56_string_partial (p := 181) (q := 191) (e := 7) (f := 181) (by norm_num) (by norm_num)
    (by norm_num) (by norm_num) (by norm_num) (by norm_num) (by norm_num) [65] (by simp)
  rw [this]
  simp only [List.length_cons, List.length_nil]
  rw [h1]
  rfl

end Verif.Props
