import Verif.Sbp.InplMult

/-!
# Properties of in-place multiplication

`Steps gs step`: the gates map every basis state `s` to `step s`, coherently. `ival x s`, `qval x s`: the integer, respectively
the number, a float holds in basis state `s`.
-/

namespace Verif.Props

open Verif.Rev Verif.Fourier Verif.Sbp

section
variable {Q : Type} [DecidableEq Q]

/-! ### C83: `x *= c` -/

/-- The numbers that `inpl_mult` accepts: not 0, at most 31 binary digits after the point. -/
def Factor (c : ℚ) : Prop := c ≠ 0 ∧ ∃ i : ℕ, i < 32 ∧ ∃ z : ℤ, 2 ^ i * c = z

/-- Signed floats: given enough fresh qubits, the float afterwards holds exactly `c` times the number, except for the smallest
number of the range and the negative of a power of two. -/
theorem C83_imul_signed_partial (d : Q) {x : QF Q} (hs : x.signed = true) (hl : 2 ≤ x.reg.length) {c : ℚ} (hc : Factor c) :
    ∃ N : ℕ, ∀ fresh : List Q, N ≤ fresh.length → (x.reg ++ fresh).Nodup →
      ∃ gs x', inplMult d c true x fresh = some (gs, x') ∧ (∀ q ∈ x'.reg, q ∈ x.reg ++ fresh) ∧
      ∃ step, Steps gs step ∧ ∀ s, (∀ q, q ∉ x.reg ++ fresh → step s q = s q) ∧
        ((∀ q ∈ fresh, s q = false) →
          (¬ ((∃ k : ℤ, c = -2 ^ k) ∧ ival x s = -2 ^ (x.reg.length - 1)) → qval x' (step s) = c * qval x s) ∧
          ((∃ k : ℤ, c = -2 ^ k) ∧ ival x s = -2 ^ (x.reg.length - 1) → qval x' (step s) = -(c * qval x s))) := by
  obtain ⟨h0, i, hi, z, hz⟩ := hc
  obtain ⟨bs, m, hsp⟩ := splitFactor_some h0 hi hz
  obtain ⟨hm, hcm⟩ := splitFactor_spec hsp
  refine ⟨Nat.clog 2 m.natAbs + bs.natAbs, fun fresh hfr hn => ?_⟩
  have hne : x.reg ≠ [] := by rintro h; rw [h] at hl; simp at hl
  obtain ⟨body, sg, hreg⟩ : ∃ body sg, x.reg = body ++ [sg] :=
    ⟨x.reg.dropLast, x.reg.getLast hne, (List.dropLast_append_getLast hne).symm⟩
  have hbl : body.length = x.reg.length - 1 := by rw [hreg]; simp
  have hbody : body ≠ [] := by rintro h; rw [h] at hbl; simp at hbl; omega
  obtain ⟨gs, x', h1, h2, step, h3, h4⟩ := inplMult_signed d hs hreg hbody hn hsp hfr
  refine ⟨gs, x', h1, h2, step, h3, fun s => ⟨(h4 s).1, fun hz => ?_⟩⟩
  obtain ⟨r, hr, ⟨j, hj⟩, hr1, hr2⟩ := (h4 s).2 hz
  obtain ⟨hv1, hv2⟩ := ival_range x s fun _ => hne
  have hms : x.msize = body.length := by unfold QF.msize; rw [hs, hbl]; rfl
  rw [hs, if_pos rfl, hms] at hv1
  rw [hms] at hv2
  have hpow : (m.natAbs : ℤ) ≤ 2 ^ Nat.clog 2 m.natAbs := by
    exact_mod_cast Nat.le_pow_clog (by norm_num) m.natAbs
  have hb0 : (0 : ℤ) < 2 ^ body.length := by positivity
  have he0 : (0 : ℤ) < 2 ^ Nat.clog 2 m.natAbs := by positivity
  have hsz : (2 : ℤ) ^ (x.reg.length + Nat.clog 2 m.natAbs) = 2 * (2 ^ body.length * 2 ^ Nat.clog 2 m.natAbs) := by
    rw [show x.reg.length = body.length + 1 by omega, pow_add, pow_succ]; ring
  rw [hsz] at hj
  rw [pow_add] at hr1 hr2
  have hqv : c * qval x s = (m * ival x s : ℤ) * 2 ^ bs * 2 ^ x.exp := by
    unfold qval
    rw [hcm]; push_cast; ring
  rw [← hbl]
  have hm1 : (∃ k : ℤ, c = -2 ^ k) ↔ m = -1 := by
    constructor
    · rintro ⟨k, hk⟩
      rw [hk] at hcm
      -- an odd number that is minus a power of two
      have hmz : (m : ℚ) = -2 ^ (k - bs) := by
        rw [zpow_sub₀ two_ne_zero]
        have : (2 : ℚ) ^ bs ≠ 0 := by positivity
        field_simp
        linarith
      rcases lt_trichotomy (k - bs) 0 with h | h | h
      · exfalso
        have e : (2 : ℚ) ^ (k - bs) = ((2 : ℚ) ^ (bs - k).toNat)⁻¹ := by
          rw [← zpow_natCast, ← zpow_neg]; congr 1; omega
        rw [e] at hmz
        have hp : (m : ℚ) * 2 ^ (bs - k).toNat = -1 := by
          rw [hmz]
          have : (2 : ℚ) ^ (bs - k).toNat ≠ 0 := by positivity
          field_simp
        have hp' : m * 2 ^ (bs - k).toNat = -1 := by exact_mod_cast hp
        obtain ⟨t, ht⟩ : ∃ t, (bs - k).toNat = t + 1 := ⟨(bs - k).toNat - 1, by omega⟩
        rw [ht, pow_succ] at hp'
        generalize (2 : ℤ) ^ t = u at hp'
        have : 2 * (m * u) = -1 := by linarith
        omega
      · rw [h] at hmz
        simp only [zpow_zero] at hmz
        exact_mod_cast hmz
      · exfalso
        have e : (2 : ℚ) ^ (k - bs) = (2 : ℚ) ^ (k - bs).toNat := by
          rw [← zpow_natCast]; congr 1; omega
        rw [e] at hmz
        have hp' : m = -2 ^ (k - bs).toNat := by exact_mod_cast hmz
        obtain ⟨t, ht⟩ : ∃ t, (k - bs).toNat = t + 1 := ⟨(k - bs).toNat - 1, by omega⟩
        rw [ht, pow_succ] at hp'
        generalize (2 : ℤ) ^ t = u at hp'
        omega
    · intro h
      exact ⟨bs, by rw [hcm, h]; push_cast; ring⟩
  rw [hm1]
  generalize (2 : ℤ) ^ body.length = B at *
  generalize hv : ival x s = v at *
  constructor
  · intro hexc
    rw [hr, hqv]
    have hE : (m.natAbs : ℤ) ≤ 2 ^ Nat.clog 2 m.natAbs := hpow
    -- the product is in the range
    have hin : -(B * 2 ^ Nat.clog 2 m.natAbs) ≤ m * v ∧ m * v < B * 2 ^ Nat.clog 2 m.natAbs := by
      rcases lt_or_ge m 0 with hneg | hpos
      · have hab : (m.natAbs : ℤ) = -m := by omega
        rw [hab] at hE
        constructor
        · nlinarith
        · by_cases hm' : m = -1
          · subst hm'
            have hvne : v ≠ -B := fun h => hexc ⟨rfl, h⟩
            have : Nat.clog 2 (-1 : ℤ).natAbs = 0 := by decide
            rw [this, pow_zero]
            omega
          · -- an odd number is not a power of two
            have hlt : -m < 2 ^ Nat.clog 2 m.natAbs := by
              refine lt_of_le_of_ne hE fun h => ?_
              have hcl : Nat.clog 2 m.natAbs ≠ 0 := by
                intro h0
                rw [h0, pow_zero] at h
                omega
              obtain ⟨t, ht⟩ := Nat.exists_eq_succ_of_ne_zero hcl
              rw [ht, pow_succ] at h
              generalize (2 : ℤ) ^ t = u at h
              omega
            nlinarith
      · have hab : (m.natAbs : ℤ) = m := by omega
        rw [hab] at hE
        constructor
        · nlinarith
        · nlinarith
    generalize B * 2 ^ Nat.clog 2 m.natAbs = C at *
    have hC : 0 < C := by omega
    have hj0 : j = 0 := by
      by_contra hj0
      rcases lt_or_gt_of_ne hj0 with h5 | h5
      · have : C * j ≤ -C := by nlinarith
        have : 2 * C * j = 2 * (C * j) := by ring
        omega
      · have : C * j ≥ C := by nlinarith
        have : 2 * C * j = 2 * (C * j) := by ring
        omega
    rw [hj, hj0, mul_zero, add_zero]
  · rintro ⟨hm', hvB⟩
    rw [hr, hqv]
    subst hm'
    have hcl : Nat.clog 2 (-1 : ℤ).natAbs = 0 := by decide
    rw [hcl, pow_zero, mul_one] at hj hr1 hr2
    have hj1 : j = -1 := by
      rw [hvB] at hj
      rcases lt_trichotomy j (-1) with h5 | h5 | h5
      · have : B * j ≤ -2 * B := by nlinarith
        have : 2 * B * j = 2 * (B * j) := by ring
        omega
      · exact h5
      · have : B * j ≥ 0 := by nlinarith
        have : 2 * B * j = 2 * (B * j) := by ring
        omega
    rw [hj, hj1, hvB]
    push_cast
    ring

/-- Unsigned floats: a power of two is always right; any other factor is right exactly if the top qubit is 0. -/
theorem C83_imul_unsigned_partial (d : Q) {x : QF Q} (hs : x.signed = false) (hne : x.reg ≠ []) {c : ℚ} (hc : Factor c)
    (hpos : 0 < c) :
    ∃ N : ℕ, ∀ fresh : List Q, N ≤ fresh.length → (x.reg ++ fresh).Nodup →
      ∃ gs x', inplMult d c true x fresh = some (gs, x') ∧ (∀ q ∈ x'.reg, q ∈ x.reg ++ fresh) ∧
      ∃ step, Steps gs step ∧ ∀ s, (∀ q, q ∉ x.reg ++ fresh → step s q = s q) ∧
        ((∀ q ∈ fresh, s q = false) →
          ((∃ k : ℤ, c = 2 ^ k) → qval x' (step s) = c * qval x s) ∧
          ((¬ ∃ k : ℤ, c = 2 ^ k) →
            (qval x' (step s) = c * qval x s ↔ ival x s < 2 ^ (x.reg.length - 1)))) := by
  obtain ⟨h0, i, hi, z, hz⟩ := hc
  obtain ⟨bs, m, hsp⟩ := splitFactor_some h0 hi hz
  obtain ⟨hm, hcm⟩ := splitFactor_spec hsp
  have hm0 : 0 < m := by
    rw [hcm] at hpos
    have h2 : (0 : ℚ) < 2 ^ bs := by positivity
    have : (0 : ℚ) < m := by
      by_contra h
      have := mul_nonpos_of_nonpos_of_nonneg (not_lt.1 h) h2.le
      linarith
    exact_mod_cast this
  refine ⟨Nat.clog 2 m.natAbs + bs.natAbs, fun fresh hfr hn => ?_⟩
  obtain ⟨body, sg, hreg⟩ : ∃ body sg, x.reg = body ++ [sg] :=
    ⟨x.reg.dropLast, x.reg.getLast hne, (List.dropLast_append_getLast hne).symm⟩
  have hbl : x.reg.length = body.length + 1 := by rw [hreg]; simp
  obtain ⟨gs, x', h1, h2, step, h3, h4⟩ := inplMult_unsigned d hs hreg hn hpos hsp hfr
  refine ⟨gs, x', h1, h2, step, h3, fun s => ⟨(h4 s).1, fun hz => ?_⟩⟩
  obtain ⟨r, hr, ⟨j, hj⟩, hr1, hr2⟩ := (h4 s).2 hz
  have hv : ival x s = Verif.Iter.bitsVal (body.map s) + 2 ^ body.length * (s sg).toNat := by
    rw [ival_unsigned hs, hreg, List.map_append, List.map_singleton, Verif.Iter.bitsVal_append, List.length_map]
    simp [Verif.Iter.bitsVal]
  have hlt := Verif.Iter.bitsVal_lt (body.map s)
  rw [List.length_map] at hlt
  have hlt' : ((Verif.Iter.bitsVal (body.map s) : ℕ) : ℤ) < 2 ^ body.length := by exact_mod_cast hlt
  have hqv : c * qval x s = (m * ival x s : ℤ) * 2 ^ bs * 2 ^ x.exp := by
    unfold qval
    rw [hcm]; push_cast; ring
  have hpow : (m.natAbs : ℤ) ≤ 2 ^ Nat.clog 2 m.natAbs := by
    exact_mod_cast Nat.le_pow_clog (by norm_num) m.natAbs
  have hab : (m.natAbs : ℤ) = m := by omega
  rw [hab] at hpow
  have hB : (0 : ℤ) < 2 ^ body.length := by positivity
  have hsz : (2 : ℤ) ^ (x.reg.length + Nat.clog 2 m.natAbs) = 2 * 2 ^ body.length * 2 ^ Nat.clog 2 m.natAbs := by
    rw [hbl, pow_add, pow_succ]; ring
  rw [hsz] at hj hr2
  have hu : (2 : ℚ) ^ bs * 2 ^ x.exp ≠ 0 := by positivity
  have hiff : qval x' (step s) = c * qval x s ↔ r = m * ival x s := by
    rw [hr, hqv, mul_assoc, mul_assoc]
    constructor
    · intro h
      exact_mod_cast mul_right_cancel₀ hu h
    · intro h; rw [h]
  have hnn : (0 : ℤ) ≤ Verif.Iter.bitsVal (body.map s) := by positivity
  -- the top qubit is 0, or there are no new qubits
  have hok : (s sg = false ∨ m = 1) → r = m * ival x s := by
    intro hcase
    have hterm : ((s sg).toNat : ℤ) * 2 ^ body.length * (2 ^ Nat.clog 2 m.natAbs - 1) = 0 := by
      rcases hcase with h | h
      · rw [h]; simp
      · rw [h]; simp
    rw [hterm, add_zero] at hj
    have hv1 : ival x s < 2 * 2 ^ body.length := by
      rw [hv]; cases s sg <;> simp <;> omega
    have hv0 : 0 ≤ ival x s := by rw [hv]; positivity
    generalize ival x s = v at *
    have hmv : m * v < 2 * 2 ^ body.length * 2 ^ Nat.clog 2 m.natAbs := by nlinarith
    have hmv0 : 0 ≤ m * v := by positivity
    generalize 2 * 2 ^ body.length * (2 : ℤ) ^ Nat.clog 2 m.natAbs = C at *
    have hj0 : j = 0 := by
      by_contra hj0
      rcases lt_or_gt_of_ne hj0 with h5 | h5
      · have : C * j ≤ -C := by nlinarith
        omega
      · have : C * j ≥ C := by nlinarith
        omega
    rw [hj, hj0, mul_zero, add_zero]
  constructor
  · rintro ⟨k, hk⟩
    refine hiff.2 (hok (Or.inr ?_))
    rw [hk] at hcm
    have hmz : (m : ℚ) = 2 ^ (k - bs) := by
      rw [zpow_sub₀ two_ne_zero]
      have : (2 : ℚ) ^ bs ≠ 0 := by positivity
      field_simp
      linarith
    rcases lt_trichotomy (k - bs) 0 with h | h | h
    · exfalso
      have e : (2 : ℚ) ^ (k - bs) = ((2 : ℚ) ^ (bs - k).toNat)⁻¹ := by
        rw [← zpow_natCast, ← zpow_neg]; congr 1; omega
      rw [e] at hmz
      have hp : (m : ℚ) * 2 ^ (bs - k).toNat = 1 := by
        rw [hmz]
        have : (2 : ℚ) ^ (bs - k).toNat ≠ 0 := by positivity
        field_simp
      have hp' : m * 2 ^ (bs - k).toNat = 1 := by exact_mod_cast hp
      obtain ⟨t, ht⟩ : ∃ t, (bs - k).toNat = t + 1 := ⟨(bs - k).toNat - 1, by omega⟩
      rw [ht, pow_succ] at hp'
      generalize (2 : ℤ) ^ t = u at hp'
      have : 2 * (m * u) = 1 := by linarith
      omega
    · rw [h] at hmz
      simp only [zpow_zero] at hmz
      exact_mod_cast hmz
    · exfalso
      have e : (2 : ℚ) ^ (k - bs) = (2 : ℚ) ^ (k - bs).toNat := by
        rw [← zpow_natCast]; congr 1; omega
      rw [e] at hmz
      have hp' : m = 2 ^ (k - bs).toNat := by exact_mod_cast hmz
      obtain ⟨t, ht⟩ : ∃ t, (k - bs).toNat = t + 1 := ⟨(k - bs).toNat - 1, by omega⟩
      rw [ht, pow_succ] at hp'
      generalize (2 : ℤ) ^ t = u at hp'
      omega
  · intro hk
    have hm1 : m ≠ 1 := fun h => hk ⟨bs, by rw [hcm, h]; simp⟩
    rw [hiff, hbl, Nat.add_sub_cancel]
    cases hsg : s sg
    · rw [hsg] at hv
      refine ⟨fun _ => by rw [hv]; simp; omega, fun _ => hok (Or.inl hsg)⟩
    · rw [hsg] at hv hj
      refine ⟨fun heq => ?_, fun h => by rw [hv] at h; simp at h; omega⟩
      exfalso
      rw [heq] at hj
      simp only [Bool.toNat_true, Nat.cast_one, one_mul] at hj
      have hcl : Nat.clog 2 m.natAbs ≠ 0 := by
        intro h0
        rw [h0] at hpow
        simp at hpow
        omega
      obtain ⟨t, ht⟩ := Nat.exists_eq_succ_of_ne_zero hcl
      rw [ht, pow_succ] at hj
      generalize (2 : ℤ) ^ t = u at *
      generalize (2 : ℤ) ^ body.length = B at *
      have h5 : B * (m * (u * 2 - 1) + 2 * (u * 2) * j) = 0 := by linarith
      rcases mul_eq_zero.1 h5 with h6 | h6
      · omega
      · have h7 : m = 2 * (m * u + 2 * u * j) := by linarith
        omega

/-- Without the overflow treatment an odd integer multiplies modulo the range. -/
theorem C83_imul_modular (d : Q) {x : QF Q} (hn : x.reg.Nodup) (hl : x.signed.toNat < x.reg.length) {m : ℤ}
    (hm : m % 2 = 1) (hneg : m < 0 → x.signed = true) (fresh : List Q) :
    ∃ gs, inplMult d m false x fresh = some (gs, x) ∧ ∃ step, Steps gs step ∧ ∀ s, (∀ q, q ∉ x.reg → step s q = s q) ∧
      ∃ j : ℤ, qval x (step s) = m * qval x s + j * 2 ^ x.reg.length * 2 ^ x.exp := by
  obtain ⟨gs, h1, step, h2, h3⟩ := inplMult_modular d hn hl hm hneg fresh
  refine ⟨gs, h1, step, h2, fun s => ⟨(h3 s).1, ?_⟩⟩
  obtain ⟨j, hj⟩ := (h3 s).2
  refine ⟨j, ?_⟩
  unfold qval
  rw [hj]
  push_cast
  ring

omit [DecidableEq Q] in
/-- What is refused: a negative factor for an unsigned float, too many digits, and (it does not end) 0. -/
theorem C83_imul_raises (d : Q) (x : QF Q) (treat : Bool) (fresh : List Q) (c : ℚ)
    (h : (c < 0 ∧ x.signed = false) ∨ ¬ Factor c) : inplMult d c treat x fresh = none := by
  unfold inplMult
  by_cases h1 : c < 0 ∧ x.signed = false
  · rw [if_pos h1]
  · rw [if_neg h1]
    have hF : ¬ Factor c := h.resolve_left h1
    have : splitFactor c = none := by
      rcases hs : splitFactor c with _ | ⟨bs, m⟩
      · rfl
      · exfalso
        obtain ⟨_, hc⟩ := splitFactor_spec hs
        apply hF
        refine ⟨?_, ?_⟩
        · rintro rfl
          unfold splitFactor at hs
          simp at hs
        · unfold splitFactor at hs
          by_cases hd : c.den ≠ 1
          · rw [if_pos hd] at hs
            obtain ⟨i, hi, he⟩ := Option.map_eq_some_iff.1 hs
            have hmem := List.mem_of_find?_eq_some hi
            simp only [Prod.mk.injEq] at he
            refine ⟨i, List.mem_range.1 hmem, m, ?_⟩
            rw [hc, ← he.1, zpow_neg, zpow_natCast]
            have : (2 : ℚ) ^ i ≠ 0 := by positivity
            field_simp
          · exact ⟨0, by norm_num, c.num, by rw [pow_zero, one_mul]; exact rat_int (not_not.1 hd)⟩
    rw [this]
    rfl

end

/-- Concrete cases: `-3 / 2` times a signed float; the unsigned float 5 of three qubits times 3. -/
example : ∃ N : ℕ, ∀ fresh : List ℕ, N ≤ fresh.length → ([0, 1, 2] ++ fresh).Nodup →
    ∃ gs x', inplMult 0 (-3 / 2) true ⟨[0, 1, 2], 0, true⟩ fresh = some (gs, x') ∧ ∃ step, Steps gs step ∧
      qval x' (step fun q => q = 0) = -3 / 2 := by
  have hF : Factor (-3 / 2) := ⟨by norm_num, 1, by norm_num, -3, by norm_num⟩
  obtain ⟨N, h⟩ := C83_imul_signed_partial (Q := ℕ) 0 (x := ⟨[0, 1, 2], 0, true⟩) rfl (by decide) hF
  refine ⟨N, fun fresh hf hn => ?_⟩
  obtain ⟨gs, x', h1, -, step, h2, h3⟩ := h fresh hf hn
  refine ⟨gs, x', h1, step, h2, ?_⟩
  have hz : ∀ q ∈ fresh, (decide (q = 0)) = false := fun q hq => by
    have := (List.nodup_append.1 hn).2.2 0 (by simp) q hq
    simp only [decide_eq_false_iff_not]
    exact fun h => this h.symm
  have hv : ival ⟨[0, 1, 2], 0, true⟩ (fun q : ℕ => decide (q = 0)) = 1 := by decide
  rw [((h3 _).2 hz).1 (by rintro ⟨-, h⟩; rw [hv] at h; norm_num at h)]
  unfold qval
  rw [hv]
  norm_num

theorem C83_unsigned_fails : ∃ N : ℕ, ∀ fresh : List ℕ, N ≤ fresh.length → ([0, 1, 2] ++ fresh).Nodup →
    ∃ gs x', inplMult 0 3 true ⟨[0, 1, 2], 0, false⟩ fresh = some (gs, x') ∧ ∃ step, Steps gs step ∧
      qval ⟨[0, 1, 2], 0, false⟩ (fun q : ℕ => q = 0 ∨ q = 2) = 5 ∧ qval x' (step fun q => q = 0 ∨ q = 2) ≠ 3 * 5 := by
  have hF : Factor 3 := ⟨by norm_num, 0, by norm_num, 3, by norm_num⟩
  obtain ⟨N, h⟩ := C83_imul_unsigned_partial (Q := ℕ) 0 (x := ⟨[0, 1, 2], 0, false⟩) rfl (by decide) hF (by norm_num)
  refine ⟨N, fun fresh hf hn => ?_⟩
  obtain ⟨gs, x', h1, -, step, h2, h3⟩ := h fresh hf hn
  have hz : ∀ q ∈ fresh, (decide (q = 0 ∨ q = 2)) = false := fun q hq => by
    have h0 := (List.nodup_append.1 hn).2.2 0 (by simp) q hq
    have h2 := (List.nodup_append.1 hn).2.2 2 (by simp) q hq
    simp only [decide_eq_false_iff_not]
    rintro (h | h)
    · exact h0 h.symm
    · exact h2 h.symm
  have hv : ival ⟨[0, 1, 2], 0, false⟩ (fun q : ℕ => decide (q = 0 ∨ q = 2)) = 5 := by decide
  have hq : qval ⟨[0, 1, 2], 0, false⟩ (fun q : ℕ => decide (q = 0 ∨ q = 2)) = 5 := by
    unfold qval
    rw [hv]
    norm_num
  refine ⟨gs, x', h1, step, h2, hq, fun heq => ?_⟩
  have h4 := ((h3 _).2 hz).2 (by
    rintro ⟨k, hk⟩
    rcases lt_or_ge k 0 with hk0 | hk0
    · have : (2 : ℚ) ^ k < 1 := zpow_lt_one_of_neg₀ (by norm_num) hk0
      linarith
    · obtain ⟨n, rfl⟩ := Int.eq_ofNat_of_zero_le hk0
      rw [zpow_natCast] at hk
      have hk' : (3 : ℕ) = 2 ^ n := by exact_mod_cast hk
      rcases n with _ | n
      · simp at hk'
      · rw [pow_succ] at hk'; omega)
  rw [hq] at h4
  have := h4.1 heq
  rw [hv] at this
  norm_num at this

end Verif.Props
