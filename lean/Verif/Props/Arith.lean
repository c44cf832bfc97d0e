import Verif.Rev.Incr
import Verif.Rev.ModArith

/-!
Property theorems C15, C16, C18: increments, modular addition, unsigned comparison.

Specification vocabulary: `regVal`, `Addend.val` (the integer an operand denotes), `Adder.Correct`
(what is demanded of the `inpl_adder` argument).
-/

namespace Verif.Props

open Verif.Rev

variable {Q : Type} [DecidableEq Q]

/-- C15, increment by one (`increment_qb_list`), including that the ANDs are uncomputed without any
phase or randomness. -/
theorem C15_increment_one (l anc : List Q) (s : St Q) (hl : l ≠ [])
    (hnd : (l ++ anc).Nodup) (hanc : anc.length = l.length - 2) (hz : ∀ q ∈ anc, s q = false) :
    ∃ s', (∀ p, exec (incrementQbList l anc) (s, p) = some (s', p))
      ∧ regVal l s' = (regVal l s + 1) % 2 ^ l.length ∧ (∀ q, q ∉ l → s' q = s q) := by
  obtain ⟨h1, h2, h3⟩ := incrementQbList_spec l anc s hl hnd hanc hz
  exact ⟨_, fun p => exec_of_ok _ _ _ h3, h1, h2⟩

/-- 7 + 1 = 8 on four qubits, ancillas 10 and 11. -/
example : let s : St Nat := fun q => q ∈ [0, 1, 2]
    regVal [0, 1, 2, 3] s = 7 ∧ regVal [0, 1, 2, 3] (run (incrementQbList [0, 1, 2, 3] [10, 11]) s) = 8
    := by decide

/-- C15, `increment(qf, amount)`: if the amount is accepted (`|amount| < 2^n`), the register value
changes by `amount` modulo `2^n`, negative amounts included, and nothing else changes. -/
theorem C15_increment (l anc : List Q) (c0 : Q) (amount : Int) (s : St Q)
    (hnd : (c0 :: (l ++ anc)).Nodup) (hanc : l.length ≤ anc.length)
    (hz : ∀ q ∈ c0 :: anc, s q = false) (hlt : amount.natAbs < 2 ^ l.length) :
    ∃ gs, increment l anc c0 amount = some gs
      ∧ (regVal l (run gs s) : Int) = (regVal l s + amount) % 2 ^ l.length
      ∧ (∀ q, q ∉ l → run gs s q = s q) := by
  obtain ⟨gs, hgs⟩ : ∃ gs, increment l anc c0 amount = some gs := by
    unfold increment
    split_ifs
    · exact ⟨_, rfl⟩
    · omega
    · exact ⟨_, rfl⟩
  exact ⟨gs, hgs, increment_spec l anc c0 amount s hnd hanc hz gs hgs⟩

/-- 3 - 5 = 14 modulo 16 through the constant-increment circuit. -/
example : let s : St Nat := fun q => q ∈ [0, 1]
    ((increment [0, 1, 2, 3] [10, 11, 12, 13] 20 (-5)).map
      fun gs => regVal [0, 1, 2, 3] (run gs s)) = some 14 := by decide

/-- C15, `lin_incr` with a carry-in adds the carry. -/
theorem C15_lin_incr (a anc : List Q) (c : Q) (cOut : Option Q) (s : St Q)
    (hl : a ++ cOut.toList ≠ [])
    (hnd : (c :: (a ++ cOut.toList ++ anc)).Nodup)
    (hanc : anc.length + 1 = (a ++ cOut.toList).length) (hz : ∀ q ∈ anc, s q = false) :
    ∃ s', (∀ p, exec (linIncr a anc (some c) cOut) (s, p) = some (s', p))
      ∧ regVal (a ++ cOut.toList) s' = (regVal (a ++ cOut.toList) s + (s c).toNat)
          % 2 ^ (a ++ cOut.toList).length
      ∧ (∀ q, q ∉ a ++ cOut.toList → s' q = s q) := by
  obtain ⟨h1, h2, h3⟩ := linIncr_spec a anc c cOut s hl hnd hanc hz
  exact ⟨_, fun p => exec_of_ok _ _ _ h3, h1, h2⟩

example : let s : St Nat := fun q => q ∈ [0, 1, 9]
    regVal [0, 1, 2] (run (linIncr [0, 1] [10, 11] (some 9) (some 2)) s) = 4 := by decide

/-- C15, `lin_incr` without a carry-in does not increment: it is the identity. -/
theorem C15_lin_incr_no_carry_is_identity (a anc : List Q) (cOut : Option Q) (s : St Q)
    (hnd : (a ++ cOut.toList ++ anc).Nodup)
    (hanc : anc.length + 1 = (a ++ cOut.toList).length) (hz : ∀ q ∈ anc, s q = false) :
    run (linIncr a anc none cOut) s = s :=
  funext (linIncr_none_spec a anc cOut s hnd hanc hz)

/-- C16. Modular in-place addition for an operand (classical or quantum) denoting a residue. `b` and
`sign` are the register extended by the sign qubit. -/
theorem C16_mod_adder (A : Adder Q) (hA : A.Correct) (a : Addend Q) (b : List Q) (sign red : Q)
    (N : Nat) (ctrl : Option Q) (s : St Q)
    (hnd : (red :: (a.regs ++ (b ++ [sign]))).Nodup)
    (hctrl : ∀ k, ctrl = some k → k ∉ b ++ [sign] ∧ k ≠ red)
    (haq : ∀ r, a = .q r → regVal r s < N)
    (hN : N ≤ 2 ^ b.length) (hb : regVal b s < N) (hs : s sign = false) (hr : s red = false) :
    let s' := modAdder A a b sign red N ctrl s
    (regVal b s' : Int) = ((if ctrlOn ctrl s then a.val s else 0) + regVal b s) % N
    ∧ s' sign = false ∧ s' red = false ∧ ∀ q, q ∉ b → s' q = s q := by
  have hN0 : (0 : Int) < N := by omega
  obtain ⟨h1, h2, h3, h4⟩ := modAdderBody_spec hA (a.reduce N) b sign red N ctrl s
    (by cases a <;> simpa [Addend.reduce, Addend.regs] using hnd) hctrl
    (by
      cases a with
      | cl a => exact Int.emod_nonneg _ hN0.ne'
      | q r => simp [Addend.reduce, Addend.val])
    (by
      cases a with
      | cl a => exact Int.emod_lt_of_pos _ hN0
      | q r => simpa [Addend.reduce, Addend.val] using haq r rfl)
    hN hb hs hr
  refine ⟨?_, h2, h3, h4⟩
  show (regVal b (modAdderBody A (a.reduce N) b sign red N ctrl s) : Int) = _
  rw [h1]
  cases a with
  | cl a =>
    simp only [Addend.reduce, Addend.val]
    split_ifs
    · rw [Int.emod_add_emod]
    · rfl
  | q r => rfl

/-- 9 + 7 = 3 modulo 13 in a four qubit register (0..3), sign 4, helper 5. -/
example : let s : St Nat := fun q => q ∈ [0, 1, 2]
    let s' := modAdder (idealAdder Nat) (.cl 9) [0, 1, 2, 3] 4 5 13 none s
    regVal [0, 1, 2, 3] s = 7 ∧ regVal [0, 1, 2, 3] s' = 3 ∧ s' 4 = false ∧ s' 5 = false := by decide

/-- C16, the inverse (used by `-=`): any right inverse of the modular adder maps a residue `b` with
clean helpers to `b - a mod N` with clean helpers. -/
theorem C16_mod_subtract (A : Adder Q) (hA : A.Correct) (a : Int) (b : List Q) (sign red : Q)
    (N : Nat) (s : St Q) (g : St Q → St Q)
    (hg : ∀ s, g (modAdder A (.cl a) b sign red N none s) = s)
    (hnd : (red :: (b ++ [sign])).Nodup)
    (hN : N ≤ 2 ^ b.length) (hb : regVal b s < N) (hs : s sign = false) (hr : s red = false) :
    (regVal b (g s) : Int) = (regVal b s - a) % N
    ∧ g s sign = false ∧ g s red = false ∧ ∀ q, q ∉ b → g s q = s q := by
  have hN0 : (0 : Int) < N := by omega
  have hbn : b.Nodup := (List.nodup_append.1 (List.nodup_cons.1 hnd).2).1
  have hsb : sign ∉ b := by
    intro h
    exact (List.nodup_append.1 (List.nodup_cons.1 hnd).2).2.2 sign h sign (by simp) rfl
  have hrb : red ∉ b := fun h => (List.nodup_cons.1 hnd).1 (by simp [h])
  set v : Nat := ((regVal b s - a) % N : Int).toNat with hv
  have hvc : (v : Int) = (regVal b s - a) % N := Int.toNat_of_nonneg (Int.emod_nonneg _ hN0.ne')
  have hvN : v < N := by
    have := Int.emod_lt_of_pos (regVal b s - a : Int) hN0
    rw [← hvc] at this; exact_mod_cast this
  set t := setReg b v s with ht
  have htv : regVal b t = v := by
    rw [ht, regVal_setReg _ _ _ hbn, Nat.mod_eq_of_lt (lt_of_lt_of_le hvN hN)]
  have htf : ∀ q, q ∉ b → t q = s q := fun q hq => setReg_frame _ _ _ _ hq
  obtain ⟨h1, h2, h3, h4⟩ := C16_mod_adder A hA (.cl a) b sign red N none t hnd (by simp)
    (by simp) hN (by rw [htv]; exact hvN) (by rw [htf _ hsb, hs]) (by rw [htf _ hrb, hr])
  have key : modAdder A (.cl a) b sign red N none t = s := by
    apply st_ext (l := b)
    · zify
      rw [h1, htv, hvc]
      simp only [ctrlOn_none, if_true, Addend.val]
      rw [Int.add_emod_emod, add_sub_cancel, Int.emod_eq_of_lt (by positivity)]
      exact_mod_cast hb
    · intro q hq; rw [h4 q hq, htf q hq]
  have hgs : g s = t := by rw [← key]; exact hg t
  rw [hgs, htv]
  exact ⟨hvc, by rw [htf _ hsb, hs], by rw [htf _ hrb, hr], htf⟩

/-- C18, quantum/quantum. The only change is that the result qubit is flipped iff `a < b`. -/
theorem C18_qq_less_than (A : Adder Q) (hA : A.Correct) (a b temp : List Q) (anc res : Q) (s : St Q)
    (hnd : (res :: (b ++ (a ++ temp ++ [anc]))).Nodup)
    (htl : temp.length = b.length - a.length)
    (hz : ∀ q ∈ anc :: temp, s q = false) :
    uintQQLess A a b temp anc res s = upd s res (s res ^^ decide (regVal a s < regVal b s)) := by
  have h1 : regVal b s < 2 ^ (a ++ temp).length := by
    refine (regVal_lt b s).trans_le (Nat.pow_le_pow_right (by norm_num) ?_)
    rw [List.length_append]; omega
  have h2 : regVal (a ++ temp) s = regVal a s := by
    rw [regVal_append, regVal_zero (l := temp) (fun q hq => hz q (by simp [hq]))]; simp
  have := cmpCore_spec hA (.q b) (a ++ temp) anc res s hnd (hz anc (by simp))
    (by simp [Addend.val]) (by simp only [Addend.val]; exact_mod_cast h1.le)
  rw [uintQQLess, this, h2]
  simp only [Addend.val, Nat.cast_lt]

/-- C18, classical left operand, any integer. -/
theorem C18_cq_less_than (A : Adder Q) (hA : A.Correct) (a : Int) (b : List Q) (anc res : Q)
    (s : St Q) (hnd : (res :: (b ++ [anc])).Nodup) (hz : s anc = false) :
    uintCQLess A a b anc res s = upd s res (s res ^^ decide (a < (regVal b s : Int))) := by
  have hlt : (regVal b s : Int) < 2 ^ b.length := by exact_mod_cast regVal_lt b s
  have h0 : (0 : Int) ≤ regVal b s := by positivity
  unfold uintCQLess
  by_cases h1 : a < 0
  · have h2 : ¬ (0 ≤ a ∧ a < 2 ^ b.length - 1) := by omega
    have h3 : a < (regVal b s : Int) := by omega
    simp only [if_pos h1, if_neg h2, xS, decide_eq_true h3, Bool.xor_true]
  · simp only [if_neg h1]
    by_cases h2 : 0 ≤ a ∧ a < 2 ^ b.length - 1
    · rw [if_pos h2, cmpCore_spec hA (.cl (a + 1)) b anc res s hnd hz
        (by simp only [Addend.val]; omega) (by simp only [Addend.val]; omega)]
      funext q
      by_cases hq : q = res
      · subst hq
        have : (regVal b s : Int) < a + 1 ↔ ¬ a < (regVal b s : Int) := by omega
        simp only [xS, upd_same, Addend.val, this, decide_not]
        simp
      · simp [xS, upd_ne hq]
    · rw [if_neg h2]
      have h3 : ¬ a < (regVal b s : Int) := by omega
      funext q
      by_cases hq : q = res
      · subst hq; simp [h3]
      · rw [upd_ne hq]

/-- C18, classical right operand, any integer. -/
theorem C18_qc_less_than (A : Adder Q) (hA : A.Correct) (a : List Q) (b : Int) (anc res : Q)
    (s : St Q) (hnd : (res :: (a ++ [anc])).Nodup) (hz : s anc = false) :
    uintQCLess A a b anc res s = upd s res (s res ^^ decide ((regVal a s : Int) < b)) := by
  have hlt : (regVal a s : Int) < 2 ^ a.length := by exact_mod_cast regVal_lt a s
  have h0 : (0 : Int) ≤ regVal a s := by positivity
  unfold uintQCLess
  by_cases h1 : b > 2 ^ a.length
  · have h2 : ¬ (0 ≤ b ∧ b ≤ 2 ^ a.length) := by omega
    have h3 : (regVal a s : Int) < b := by omega
    simp only [if_pos h1, if_neg h2, xS, decide_eq_true h3, Bool.xor_true]
  · simp only [if_neg h1]
    by_cases h2 : 0 ≤ b ∧ b ≤ 2 ^ a.length
    · rw [if_pos h2, cmpCore_spec hA (.cl b) a anc res s hnd hz h2.1 h2.2]
      rfl
    · rw [if_neg h2]
      have h3 : ¬ (regVal a s : Int) < b := by omega
      funext q
      by_cases hq : q = res
      · subst hq; simp [h3]
      · rw [upd_ne hq]

/-- C18, the derived comparisons (lines 94-107): `a >= b` is `(a < b).flip()`, `a <= b` is
`(b < a).flip()`; stated on two registers. -/
theorem C18_derived_comparisons (A : Adder Q) (hA : A.Correct) (a b temp : List Q) (anc res : Q)
    (s : St Q) (hnd : (res :: (a ++ (b ++ temp ++ [anc]))).Nodup)
    (hnd' : (res :: (b ++ (a ++ temp ++ [anc]))).Nodup)
    (hz : ∀ q ∈ anc :: temp, s q = false) (hr : s res = false) :
    (temp.length = b.length - a.length →
      xS res (uintQQLess A a b temp anc res s) res = decide (regVal b s ≤ regVal a s))
    ∧ (temp.length = a.length - b.length →
      uintQQLess A b a temp anc res s res = decide (regVal a s > regVal b s)
      ∧ xS res (uintQQLess A b a temp anc res s) res = decide (regVal a s ≤ regVal b s)) := by
  constructor
  · intro h
    rw [C18_qq_less_than A hA a b temp anc res s hnd' h hz, xS, upd_same, upd_same, hr]
    simp [← decide_not]
  · intro h
    rw [C18_qq_less_than A hA b a temp anc res s hnd h hz, xS, upd_same, upd_same, hr]
    constructor <;> simp [← decide_not]

/-- 5 < 6 and the boundary constants -1, 7, 8, 9 against a three qubit register holding 7. -/
example : let s : St Nat := fun q => q ∈ [0, 1, 2]
    let A := idealAdder Nat
    regVal [0, 1, 2] s = 7 ∧
    uintQCLess A [0, 1, 2] 8 5 6 s 6 = true ∧ uintQCLess A [0, 1, 2] 9 5 6 s 6 = true ∧
    uintQCLess A [0, 1, 2] 7 5 6 s 6 = false ∧ uintQCLess A [0, 1, 2] (-1) 5 6 s 6 = false ∧
    uintCQLess A (-1) [0, 1, 2] 5 6 s 6 = true ∧ uintCQLess A 6 [0, 1, 2] 5 6 s 6 = true ∧
    uintCQLess A 7 [0, 1, 2] 5 6 s 6 = false := by decide

end Verif.Props
