import Verif.Rev.Cuccaro
import Verif.Rev.GidneyC

/-!
Property theorems C13, C14, C41, C42: in-place ripple-carry adders.

Specification vocabulary: `regVal l s` is the little-endian integer held by register `l` in basis
state `s`; `optBit`/`ctrlOn` read an optional carry-in / control. `exec` also tracks phases and
fails when a measurement based uncomputation would be random.
-/

namespace Verif.Props

open Verif.Rev

variable {Q : Type} [DecidableEq Q]

/-- C13. Uncontrolled Cuccaro adder: `b := (a mod 2^n) + b + c_in mod 2^n`, the carry is XORed into
`c_out`, every other qubit (first operand, carry-in, ancilla, extension) is unchanged. -/
theorem C13_cuccaro_adder (a b ext : List Q) (anc : Q) (cIn cOut : Option Q) (s : St Q)
    (hnd : (anc :: (b ++ (a ++ ext) ++ cOut.toList ++ cIn.toList)).Nodup)
    (hext : ext.length = b.length - a.length)
    (hanc : s anc = false) (hz : ∀ q ∈ ext, s q = false) :
    ∃ s', (∀ p, exec (cuccaroAdder a b ext anc cIn cOut none) (s, p) = some (s', p))
      ∧ regVal b s' = (regVal a s + regVal b s + (optBit cIn s).toNat) % 2 ^ b.length
      ∧ (∀ o, cOut = some o → s' o = (s o ^^ decide (2 ^ b.length ≤
            regVal a s % 2 ^ b.length + regVal b s + (optBit cIn s).toNat)))
      ∧ (∀ q, q ∉ b → (∀ o, cOut = some o → q ≠ o) → s' q = s q) := by
  obtain ⟨h1, -, h3, h4⟩ := cuccaroAdder_spec a b ext anc cIn cOut none s (by simpa using hnd)
    hext hanc hz
  refine ⟨_, fun p => exec_of_ok _ _ _ (ok_of_mcx _ ?_ _), ?_, h3, h4⟩
  · intro g hg
    simp only [cuccaroAdder, cuccaroCore, List.mem_append, List.mem_flatMap, umaOpt, uma,
      maj] at hg
    cases cIn <;> cases cOut <;> simp at hg <;> aesop
  · rw [h1 rfl]
    simp [Nat.add_assoc]

/-- Three-bit addition 5 + 6 with carry-out: sum 3, carry 1. Qubits: a = 0,1,2; b = 3,4,5;
ancilla 6; carry-out 7. -/
example : let s : St Nat := fun q => q ∈ [0, 2, 4, 5]
    regVal [0, 1, 2] s = 5 ∧ regVal [3, 4, 5] s = 6 ∧
    regVal [3, 4, 5] (run (cuccaroAdder [0, 1, 2] [3, 4, 5] [] 6 none (some 7) none) s) = 3 ∧
    run (cuccaroAdder [0, 1, 2] [3, 4, 5] [] 6 none (some 7) none) s 7 = true ∧
    (6 :: ([3, 4, 5] ++ ([0, 1, 2] ++ []) ++ (some 7).toList ++ (none : Option Nat).toList)).Nodup
    := by decide

/-- C41, proved part. Controlled Cuccaro adder without carry-out: adds if the control is 1 and is
the identity if it is 0. Missing with respect to the full claim: the carry-out, see
`C41_cuccaro_control_leaks_carry`. -/
theorem C41_cuccaro_controlled_partial (a b ext : List Q) (anc k : Q) (cIn : Option Q) (s : St Q)
    (hnd : (anc :: (b ++ (a ++ ext) ++ [k] ++ cIn.toList)).Nodup)
    (hext : ext.length = b.length - a.length)
    (hanc : s anc = false) (hz : ∀ q ∈ ext, s q = false) :
    let s' := run (cuccaroAdder a b ext anc cIn none (some k)) s
    regVal b s' = (if s k then (regVal a s + regVal b s + (optBit cIn s).toNat) % 2 ^ b.length
        else regVal b s)
      ∧ (∀ q, q ∉ b → s' q = s q) := by
  obtain ⟨h1, h2, -, h4⟩ := cuccaroAdder_spec a b ext anc cIn none (some k) s (by simpa using hnd)
    hext hanc hz
  refine ⟨?_, fun q hq => h4 q hq (by simp)⟩
  cases hk : s k
  · simpa using regVal_congr (h2 hk)
  · rw [h1 hk]
    simp [Nat.add_assoc]

/-- C41, the full claim is false: with the control at 0 the carry-out is still flipped
(`cx(a[-1], ancilla2)` in cuccaro_adder.py 155 is not controlled). Here 1 + 1 on one bit. -/
theorem C41_cuccaro_control_leaks_carry :
    ∃ s : St Nat, s 4 = false ∧ s 2 = false ∧
      (2 :: ([1] ++ ([0] ++ []) ++ [3] ++ [4])).Nodup ∧
      run (cuccaroAdder [0] [1] [] 2 none (some 3) (some 4)) s 3 ≠ s 3 :=
  ⟨fun q => q ∈ [0, 1], by decide⟩

/-- C14, quantum addend without control. -/
theorem C14_gidney_quantum (a b ext anc : List Q) (cIn cOut : Option Q) (s : St Q)
    (hnd : (b ++ a ++ ext ++ anc ++ cIn.toList ++ cOut.toList).Nodup) (hb : b ≠ [])
    (hext : ext.length = b.length - a.length)
    (hanc : anc.length + 1 = b.length + cOut.toList.length)
    (hz : ∀ q ∈ ext, s q = false) (hza : ∀ q ∈ anc, s q = false) :
    ∃ s', (∀ p, exec (gidneyQ a b ext anc cIn cOut none) (s, p) = some (s', p))
      ∧ regVal b s' = (regVal a s + regVal b s + (optBit cIn s).toNat) % 2 ^ b.length
      ∧ (∀ o, cOut = some o → s' o = (s o ^^ decide (2 ^ b.length ≤
            regVal a s % 2 ^ b.length + regVal b s + (optBit cIn s).toNat)))
      ∧ (∀ q, q ∉ b → (∀ o, cOut = some o → q ≠ o) → s' q = s q) := by
  obtain ⟨h1, -, h3, h4⟩ := gidneyQ_spec a b ext anc cIn cOut none s (by simpa using hnd) hb hext
    hanc hz hza
  refine ⟨_, fun p => exec_of_ok _ _ _ (h4 rfl), ?_, (h1 rfl).2, h3⟩
  rw [(h1 rfl).1]
  simp [Nat.add_assoc]

/-- 5 + 6 + 1 on three bits with carry-in 9 and carry-out 8; ancillas 6, 7, 10. -/
example : let s : St Nat := fun q => q ∈ [0, 2, 4, 5, 9]
    let s' := run (gidneyQ [0, 1, 2] [3, 4, 5] [] [6, 7, 10] (some 9) (some 8) none) s
    regVal [0, 1, 2] s = 5 ∧ regVal [3, 4, 5] s = 6 ∧ regVal [3, 4, 5] s' = 4 ∧ s' 8 = true ∧
    regVal [6, 7, 10] s' = 0 ∧ s' 9 = true ∧
    ([3, 4, 5] ++ [0, 1, 2] ++ [] ++ [6, 7, 10] ++ (some 9).toList ++ (some 8).toList).Nodup
    := by decide

/-- C14, classical integer addend, with or without control: `b := b + a + c_in mod 2^n` when the
control is on, the carry of `(a mod 2^n) + b + c_in` goes to `c_out`. -/
theorem C14_gidney_classical (a : Int) (b anc : List Q) (cIn cOut ctrl : Option Q) (s : St Q)
    (hnd : (cIn.toList ++ b ++ cOut.toList ++ anc ++ ctrl.toList).Nodup) (hb : b ≠ [])
    (hanc : anc.length + 1 = cIn.toList.length + b.length + cOut.toList.length)
    (hza : ∀ q ∈ anc, s q = false) :
    ∃ s', (∀ p, exec (gidneyCInt a b anc cIn cOut ctrl) (s, p) = some (s', p))
      ∧ (ctrlOn ctrl s = true →
          (regVal b s' : Int) = (a + regVal b s + (optBit cIn s).toNat) % 2 ^ b.length
          ∧ ∀ o, cOut = some o → s' o = (s o ^^ decide ((2 : Int) ^ b.length ≤
            a % 2 ^ b.length + regVal b s + (optBit cIn s).toNat)))
      ∧ (ctrlOn ctrl s = false → ∀ q, s' q = s q)
      ∧ (∀ q, q ∉ b → (∀ o, cOut = some o → q ≠ o) → s' q = s q) := by
  have hpos : (0 : Int) < 2 ^ b.length := by positivity
  obtain ⟨m, hm⟩ : ∃ m : Nat, (a % (2 ^ b.length : Int)) = m :=
    ⟨_, (Int.toNat_of_nonneg (Int.emod_nonneg a hpos.ne')).symm⟩
  have hmlt : m < 2 ^ b.length := by
    have := Int.emod_lt_of_pos a hpos
    rw [hm] at this
    exact_mod_cast this
  have hG : gidneyCInt a b anc cIn cOut ctrl = gidneyC m b anc cIn cOut ctrl := by
    simp [gidneyCInt, hm]
  obtain ⟨h1, h2, h3⟩ := gidneyC_spec m b anc cIn cOut ctrl s hnd hb hanc hza
  rw [← hG] at h1 h2 h3
  set s' := run (gidneyCInt a b anc cIn cOut ctrl) s with hs'
  have hfr : ∀ q, q ∉ b → (∀ o, cOut = some o → q ≠ o) → s' q = s q := by
    intro q hq ho
    apply h2
    rw [List.mem_append, not_or]
    refine ⟨hq, ?_⟩
    cases cOut with
    | none => simp
    | some o => simpa using ho o rfl
  refine ⟨s', fun p => exec_of_ok _ _ _ h3, ?_, ?_, hfr⟩
  · intro hon
    rw [hon] at h1
    simp only [if_true] at h1
    set T := m + regVal b s + (optBit cIn s).toNat with hT
    have hTlt : T < 2 * 2 ^ b.length := by
      have := regVal_lt b s
      have := Bool.toNat_le (optBit cIn s)
      omega
    have hres : regVal b s' = T % 2 ^ b.length
        ∧ ∀ o, cOut = some o → s' o = (s o ^^ decide (2 ^ b.length ≤ T)) := by
      cases hco : cOut with
      | none =>
        rw [hco] at h1
        simp only [Option.toList_none, List.append_nil] at h1
        refine ⟨?_, by simp⟩
        rw [h1, hT]; congr 1; ring
      | some o =>
        rw [hco] at h1
        simp only [Option.toList_some] at h1
        have := top_split b o s s' T hTlt (by
          rw [h1, regVal_append, List.length_append]
          simp only [regVal_cons, regVal_nil, List.length_cons, List.length_nil]
          congr 1
          rw [hT]; ring)
        refine ⟨this.1, ?_⟩
        intro o' ho; cases ho; exact this.2
    constructor
    · rw [hres.1]
      push_cast [hT]
      rw [← hm, Int.add_assoc, Int.emod_add_emod, ← Int.add_assoc]
    · intro o ho
      rw [hres.2 o ho, hm]
      congr 2
      rw [hT]
      apply propext
      constructor
      · intro h; exact_mod_cast h
      · intro h; exact_mod_cast h
  · intro hoff q
    rw [hoff] at h1
    simp only [Bool.false_eq_true, if_false, Nat.add_zero,
      Nat.mod_eq_of_lt (regVal_lt _ s)] at h1
    by_cases hq : q ∈ b ++ cOut.toList
    · exact regVal_inj h1 q hq
    · exact h2 q hq

/-- Adding -3 to 2 on three bits under control qubit 7 gives 7. Ancillas 3, 4. -/
example : let s : St Nat := fun q => q ∈ [1, 7]
    let s' := run (gidneyCInt (-3) [0, 1, 2] [3, 4] none none (some 7)) s
    regVal [0, 1, 2] s = 2 ∧ regVal [0, 1, 2] s' = 7 ∧ regVal [3, 4] s' = 0 := by decide

/-- C14, remark on traced (not clamped) addends: the clamp of gidney_adder.py 401-402 is skipped for
JAX scalars and `BigInteger`s, so an addend with bit `n` set flips `c_out` although
`(a mod 2^n) + b` does not overflow. Addend 2 on one bit: static mode leaves the carry-out alone,
traced mode flips it. -/
theorem C14_traced_wide_addend_flips_carry :
    ∃ s : St Nat,
      run (gidneyCInt 2 [0] [1] none (some 2) none) s 2 = s 2 ∧
      run (gidneyC 2 [0] [1] none (some 2) none) s 2 ≠ s 2 :=
  ⟨fun _ => false, by decide⟩

/-- C42, proved part. Quantum addend with control: the bits are those of the controlled addition.
Missing: freedom from phases, which is false, see `C42_gidney_control_phase`. -/
theorem C42_gidney_controlled_bits_partial (a b ext anc : List Q) (k : Q) (cIn cOut : Option Q)
    (s : St Q)
    (hnd : (b ++ a ++ ext ++ anc ++ cIn.toList ++ cOut.toList ++ [k]).Nodup) (hb : b ≠ [])
    (hext : ext.length = b.length - a.length)
    (hanc : anc.length + 1 = b.length + cOut.toList.length)
    (hz : ∀ q ∈ ext, s q = false) (hza : ∀ q ∈ anc, s q = false) :
    let s' := run (gidneyQ a b ext anc cIn cOut (some k)) s
    (s k = true →
      regVal b s' = (regVal a s + regVal b s + (optBit cIn s).toNat) % 2 ^ b.length
      ∧ (∀ o, cOut = some o → s' o = (s o ^^ decide (2 ^ b.length ≤
            regVal a s % 2 ^ b.length + regVal b s + (optBit cIn s).toNat))))
    ∧ (s k = false → ∀ q, s' q = s q)
    ∧ (∀ q, q ∉ b → (∀ o, cOut = some o → q ≠ o) → s' q = s q) := by
  obtain ⟨h1, h2, h3, -⟩ := gidneyQ_spec a b ext anc cIn cOut (some k) s (by simpa using hnd) hb
    hext hanc hz hza
  refine ⟨fun h => ⟨?_, (h1 h).2⟩, h2, h3⟩
  rw [(h1 h).1]
  simp [Nat.add_assoc]

/-- C42, the full claim is false: with the control at 0 the one-bit controlled addition is not the
identity. It leaves `b = 0` alone but multiplies `b = 1` by `i`, a relative phase between the two
basis states, because `mcx(..., method="gidney")` is applied to a target that may be 1. -/
theorem C42_gidney_control_phase :
    ∃ s t : St Nat, s 2 = false ∧ t 2 = false ∧
      (∃ s', exec (gidneyQ [0] [1] [] [] none none (some 2)) (s, 0) = some (s', 0) ∧
        ∀ q, s' q = s q) ∧
      (∃ t', exec (gidneyQ [0] [1] [] [] none none (some 2)) (t, 0) = some (t', 1) ∧
        ∀ q, t' q = t q) ∧
      (1 : ZMod 4) ≠ 0 := by
  refine ⟨fun _ => false, fun q => q == 1, by decide, by decide, ⟨_, rfl, ?_⟩, ⟨_, rfl, ?_⟩,
    by decide⟩
  · intro q; by_cases h : q = 1 <;> simp [upd, h, Gate.app]
  · intro q; by_cases h : q = 1 <;> simp [upd, h, Gate.app]

end Verif.Props
