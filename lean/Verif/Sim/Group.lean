import Verif.Sim.Sem
import Mathlib.Data.Nat.Bitwise

/-!
Model of the grouping of gates before the simulation (simulator/circuit_preprocessing.py:41-228, 290-304, 494-682).
-/

namespace Verif.Sim

/-! ### Code -/

/-- simulator/circuit_preprocessing.py:501-505 (`qb_set_to_int`). -/
def mask (qs : List Nat) : Nat := qs.foldl (fun r q => r ||| 1 <<< q) 0

/-- Instructions whose integer gets negated, simulator/circuit_preprocessing.py:512-513. -/
def Ins.neg : Ins → Bool
  | .gate _ _ => false
  | _ => true

/-- simulator/circuit_preprocessing.py:508-515 (`qc_to_int_list`); the integer is `-m` for a pair `(m, true)`. -/
def ints (data : List Ins) : List (Nat × Bool) := data.map fun i => (mask i.qubits, i.neg)

/-- The bits of `R & -m` for `m > 0` (two's complement: `-m = ~(m-1)`). -/
def andNeg (R m : Nat) : Nat := R ^^^ (R &&& (m - 1))

/-- simulator/circuit_preprocessing.py:539-597 (`binary_get_circuit_block_jitted`, `jit = true`, fewer than 63 qubits)
and 601-661 (`binary_get_circuit_block`). `i` is the current index, `R` are the qubits that are left, `est` the
established indices that are left. The new qubits after a non-unitary instruction are `R & ((2^n-1) ^ m)` in the first
version and `R & ((2^n-1) ^ -m)`, that is `R & (m-1)`, in the second one. -/
def blk (jit : Bool) (n : Nat) : List (Nat × Bool) → Nat → Nat → List Nat → List Nat × Nat
  | [], _, _, _ => ([], 0)
  | (m, neg) :: t, i, R, est =>
    if R = 0 then ([], 0)
    else if est.head? = some i then
      let r := blk jit n t (i + 1) R est.tail
      (i :: r.1, r.2)
    else
      let inter := if neg then andNeg R m else R &&& m
      if inter = 0 then blk jit n t (i + 1) R est
      else if neg then
        blk jit n t (i + 1) (if jit then R &&& ((2 ^ n - 1) ^^^ m) else R &&& (m - 1)) est
      else if ((2 ^ n - 1) ^^^ R) &&& m = 0 then
        let r := blk jit n t (i + 1) R est
        (i :: r.1, r.2)
      else
        let r := blk jit n t (i + 1) (R &&& ((2 ^ n - 1) ^^^ inter)) est
        (r.1, (m &&& ((2 ^ n - 1) ^^^ inter)) ||| r.2)

/-- simulator/circuit_preprocessing.py:664-674 (`int_to_qb_set`). -/
def bits (n m : Nat) : List Nat := (List.range n).filter fun q => m.testBit q

/-- A grouping option: indices and qubits. -/
abbrev Opt := List Nat × List Nat

/-- 20 times the gain, simulator/circuit_preprocessing.py:90-94 (exact, the code uses floating point numbers). -/
def gain (data : List Ins) (o : Opt) : Int :=
  20 * (o.1.map fun i => ((2 : Int) ^ ((data[i]?.map fun x => x.qubits.length).getD 0))).sum - 9 * 2 ^ o.2.length

/-- simulator/circuit_preprocessing.py:176-227 (`find_grouping_options`); `tr` are the sets that have been tried, it is
returned with the options. -/
def opts (jit : Bool) (n : Nat) (data : List Ins) : Nat → List Nat → Nat → List Nat → List Opt × List Nat
  | 0, tr, Q, est => ([((blk jit n (ints data) 0 Q est).1, bits n Q)], tr ++ [Q])
  | d + 1, tr, Q, est =>
    let r := blk jit n (ints data) 0 Q est
    let o : Opt := (r.1, bits n Q)
    if 7 ≤ (bits n Q).length then ([o], tr ++ [Q])
    else (bits n r.2).foldl (fun acc e =>
      let Q' := Q ||| mask [e]
      if Q' ∈ acc.2 then acc
      else
        let x := opts jit n data d acc.2 Q' r.1
        (acc.1 ++ x.1, x.2)) ([o], tr ++ [Q])

/-- The first of the options with the largest gain (`np.argmax`). -/
def best (data : List Ins) : Opt → List Opt → Opt
  | o, [] => o
  | o, p :: l => if gain data o < gain data p then best data p l else best data o l

/-- simulator/circuit_preprocessing.py:159-173 (`find_group`), for a circuit that starts with the gate `i`. -/
def findGroup (jit : Bool) (n depth : Nat) (i : Ins) (data : List Ins) : Opt :=
  let l := (opts jit n data depth [] (mask i.qubits) [0]).1
  match l with
  | [] => ([0], bits n (mask i.qubits))
  | o :: r =>
    let b := best data o r
    if 0 < gain data b then b else ([0], bits n (mask i.qubits))

/-- The gates of an instruction. -/
def Ins.gates : Ins → List Gate
  | .gate _ gs => gs
  | _ => []

/-- simulator/circuit_preprocessing.py:96-114 (`get_instruction`). -/
def getInstruction (data : List Ins) (o : Opt) : Ins :=
  .gate o.2 (o.1.flatMap fun i => (data[i]?.map Ins.gates).getD [])

/-- simulator/circuit_preprocessing.py:494-498 (`delete_multiple_element`). -/
def deleteIdx (data : List Ins) (is : List Nat) : List Ins :=
  (data.zipIdx.filter fun p => p.2 ∉ is).map (·.1)

/-- simulator/circuit_preprocessing.py:290-304. -/
def recursionParameter (n : Nat) : Nat :=
  if n ≤ 16 then 2 else if n ≤ 20 then 3 else if n ≤ 24 then 4 else if n ≤ 28 then 6 else if n ≤ 32 then 7
  else if n < 35 then 8 else 9

/-- simulator/circuit_preprocessing.py:130-148, the loop; it ends because every round removes an instruction. -/
def groupLoop (jit : Bool) (n depth : Nat) : Nat → List Ins → List Ins
  | 0, _ => []
  | _ + 1, [] => []
  | fuel + 1, i :: t =>
    if i.neg then i :: groupLoop jit n depth fuel t
    else
      let o := findGroup jit n depth i (i :: t)
      getInstruction (i :: t) o :: groupLoop jit n depth fuel (deleteIdx (i :: t) o.1)

/-- simulator/circuit_preprocessing.py:119-155 (`group_qc`) for a circuit with `n` qubits. -/
def groupQc (n : Nat) (data : List Ins) : List Ins :=
  groupLoop (n < 63) n (recursionParameter n + 12) data.length data

/-! ### Bits -/

theorem mask_go (qs : List Nat) (r q : Nat) :
    (qs.foldl (fun r q => r ||| 1 <<< q) r).testBit q = (r.testBit q || decide (q ∈ qs)) := by
  induction qs generalizing r with
  | nil => simp
  | cons p l ih =>
    rw [List.foldl_cons, ih, Nat.testBit_or, Nat.one_shiftLeft, Nat.testBit_two_pow]
    by_cases h : p = q
    · simp [h]
    · simp [h, Ne.symm h]

theorem mask_bit (qs : List Nat) (q : Nat) : (mask qs).testBit q = decide (q ∈ qs) := by
  unfold mask
  rw [mask_go]
  simp

/-- Set of qubits. -/
def Sub (R R' : Nat) : Prop := ∀ q, R.testBit q = true → R'.testBit q = true

theorem sub_zero {R : Nat} (h : Sub R 0) : R = 0 := by
  apply Nat.eq_of_testBit_eq
  intro q
  cases hb : R.testBit q
  · simp
  · exact (h q hb).symm

theorem eq_zero_bits {R : Nat} (h : ∀ q, R.testBit q = false) : R = 0 := by
  apply Nat.eq_of_testBit_eq
  intro q
  simp [h q]

theorem bit_of_zero {R : Nat} (h : R = 0) (q : Nat) : R.testBit q = false := by simp [h]

theorem mem_bits {n m q : Nat} : q ∈ bits n m ↔ q < n ∧ m.testBit q = true := by simp [bits]

/-- The integers of a circuit whose non-unitary instructions act on one qubit. -/
def OK1 (n : Nat) (l : List (Nat × Bool)) : Prop :=
  ∀ x ∈ l, (∀ q, x.1.testBit q = true → q < n) ∧ (x.2 = true → ∃ k, x.1 = 2 ^ k)

theorem andNeg_bit (R k q : Nat) : (andNeg R (2 ^ k)).testBit q = (R.testBit q && decide (k ≤ q)) := by
  unfold andNeg
  rw [Nat.testBit_xor, Nat.testBit_and, Nat.testBit_two_pow_sub_one]
  by_cases h : q < k
  · have : ¬ k ≤ q := by omega
    cases R.testBit q <;> simp [h, this]
  · have : k ≤ q := by omega
    cases R.testBit q <;> simp [h, this]

/-- What is left after a non-unitary instruction. -/
def cutNeg (jit : Bool) (n m R : Nat) : Nat :=
  if andNeg R m = 0 then R else if jit then R &&& ((2 ^ n - 1) ^^^ m) else R &&& (m - 1)

theorem cutNeg_sub (jit : Bool) (n k R : Nat) : Sub (cutNeg jit n (2 ^ k) R) R := by
  intro q h
  unfold cutNeg at h
  split at h
  · exact h
  · split at h <;> (rw [Nat.testBit_and] at h; simp at h; exact h.1)

theorem cutNeg_bit (jit : Bool) {n k : Nat} (hk : k < n) (R : Nat) : (cutNeg jit n (2 ^ k) R).testBit k = false := by
  unfold cutNeg
  split
  · rename_i h
    have := bit_of_zero h k
    rw [andNeg_bit] at this
    simpa using this
  · split
    · rw [Nat.testBit_and, Nat.testBit_xor, Nat.testBit_two_pow_sub_one, Nat.testBit_two_pow_self]
      simp [hk]
    · rw [Nat.testBit_and, Nat.testBit_two_pow_sub_one]
      simp

theorem cutNeg_true {n k R : Nat} (hk : k < n) (q : Nat) (hR : ∀ q, R.testBit q = true → q < n) :
    (cutNeg true n (2 ^ k) R).testBit q = (R.testBit q && decide (q ≠ k)) := by
  unfold cutNeg
  split
  · rename_i h
    have := bit_of_zero h k
    rw [andNeg_bit] at this
    simp at this
    by_cases hq : q = k
    · subst hq; simp [this]
    · simp [hq]
  · rw [if_pos rfl, Nat.testBit_and, Nat.testBit_xor, Nat.testBit_two_pow_sub_one, Nat.testBit_two_pow]
    cases hb : R.testBit q
    · simp
    · have := hR q hb
      by_cases hq : q = k
      · subst hq; simp [hk]
      · simp [this, hq, Ne.symm hq]

theorem cutNeg_false {n k R : Nat} (q : Nat) :
    (cutNeg false n (2 ^ k) R).testBit q = (R.testBit q && decide (q < k)) := by
  unfold cutNeg
  split
  · rename_i h
    have := bit_of_zero h q
    rw [andNeg_bit] at this
    cases hb : R.testBit q
    · simp
    · rw [hb] at this
      simp at this
      simp [this]
  · rw [if_neg (by decide), Nat.testBit_and, Nat.testBit_two_pow_sub_one]

theorem cutNeg_mono {jit : Bool} {n k R R' : Nat} (hk : k < n) (hR : ∀ q, R'.testBit q = true → q < n) (h : Sub R R') :
    Sub (cutNeg jit n (2 ^ k) R) (cutNeg jit n (2 ^ k) R') := by
  have hR0 : ∀ q, R.testBit q = true → q < n := fun q hq => hR q (h q hq)
  intro q hq
  cases jit
  · rw [cutNeg_false] at hq ⊢
    simp at hq ⊢
    exact ⟨h q hq.1, hq.2⟩
  · rw [cutNeg_true hk q hR0] at hq
    rw [cutNeg_true hk q hR]
    simp at hq ⊢
    exact ⟨h q hq.1, hq.2⟩

/-- What is left after a gate that leaves the set. -/
theorem cutGate_bit {n m R : Nat} (hR : ∀ q, R.testBit q = true → q < n) (q : Nat) :
    (R &&& ((2 ^ n - 1) ^^^ (R &&& m))).testBit q = (R.testBit q && !m.testBit q) := by
  rw [Nat.testBit_and, Nat.testBit_xor, Nat.testBit_two_pow_sub_one, Nat.testBit_and]
  cases hb : R.testBit q
  · simp
  · have := hR q hb
    simp [this]

theorem inside_iff {n m R : Nat} (hm : ∀ q, m.testBit q = true → q < n) : ((2 ^ n - 1) ^^^ R) &&& m = 0 ↔ Sub m R := by
  constructor
  · intro h q hq
    have := bit_of_zero h q
    rw [Nat.testBit_and, Nat.testBit_xor, Nat.testBit_two_pow_sub_one] at this
    have hn := hm q hq
    rw [hq] at this
    simpa [hn] using this
  · intro h
    apply eq_zero_bits
    intro q
    rw [Nat.testBit_and, Nat.testBit_xor, Nat.testBit_two_pow_sub_one]
    cases hb : m.testBit q
    · simp
    · simp [hm q hb, h q hb]

/-! ### The scan -/

theorem blk_zero (jit : Bool) (n : Nat) (l : List (Nat × Bool)) (i : Nat) (est : List Nat) : blk jit n l i 0 est = ([], 0) := by
  cases l with
  | nil => rfl
  | cons x t => obtain ⟨m, neg⟩ := x; simp [blk]

theorem blk_neg (jit : Bool) (n m i R : Nat) (t : List (Nat × Bool)) (est : List Nat) (h : est.head? ≠ some i) :
    blk jit n ((m, true) :: t) i R est = blk jit n t (i + 1) (cutNeg jit n m R) est := by
  by_cases h0 : R = 0
  · subst h0
    have : cutNeg jit n m 0 = 0 := by
      unfold cutNeg
      split
      · rfl
      · split <;> simp
    rw [this, blk_zero, blk_zero]
  · simp only [blk, h0, h, if_false, if_true]
    unfold cutNeg
    split
    · rfl
    · rfl

theorem blk_ge (jit : Bool) (n : Nat) (l : List (Nat × Bool)) (i R : Nat) : ∀ j ∈ (blk jit n l i R []).1, i ≤ j := by
  induction l generalizing i R with
  | nil => simp [blk]
  | cons x t ih =>
    obtain ⟨m, neg⟩ := x
    intro j hj
    cases neg with
    | true =>
      rw [blk_neg _ _ _ _ _ _ _ (by simp)] at hj
      exact Nat.le_of_succ_le (ih _ _ j hj)
    | false =>
      simp only [blk, List.head?_nil, reduceCtorEq, if_false, Bool.false_eq_true] at hj
      split at hj
      · simp at hj
      · split at hj
        · exact Nat.le_of_succ_le (ih _ _ j hj)
        · split at hj
          · rcases List.mem_cons.1 hj with h | h
            · omega
            · exact Nat.le_of_succ_le (ih _ _ j h)
          · exact Nat.le_of_succ_le (ih _ _ j hj)

theorem blk_head (jit : Bool) (n : Nat) (l : List (Nat × Bool)) (i R : Nat) : (blk jit n l (i + 1) R []).1.head? ≠ some i := by
  intro h
  have := blk_ge jit n l (i + 1) R i (List.mem_of_mem_head? h)
  omega

/-- Established indices of a smaller set change nothing. -/
theorem blk_est {jit : Bool} {n : Nat} {l : List (Nat × Bool)} (hl : OK1 n l) (i : Nat) {R R' : Nat} (h : Sub R R')
    (hR : ∀ q, R'.testBit q = true → q < n) : blk jit n l i R' (blk jit n l i R []).1 = blk jit n l i R' [] := by
  induction l generalizing i R R' with
  | nil => simp [blk]
  | cons x t ih =>
    obtain ⟨m, neg⟩ := x
    have ht : OK1 n t := fun x hx => hl x (by simp [hx])
    have hx := hl (m, neg) (by simp)
    have hR0 : ∀ q, R.testBit q = true → q < n := fun q hq => hR q (h q hq)
    by_cases h0' : R' = 0
    · subst h0'
      rw [blk_zero, blk_zero]
    by_cases h0 : R = 0
    · subst h0
      rw [blk_zero]
    cases neg with
    | true =>
      obtain ⟨k, hk⟩ := hx.2 rfl
      dsimp only at hk
      have hkn : k < n := hx.1 k (by simp [hk])
      rw [blk_neg jit n m i R t [] (by simp), blk_neg jit n m i R' t [] (by simp), blk_neg _ _ _ _ _ _ _ (blk_head _ _ _ _ _), hk]
      exact ih ht (i + 1) (cutNeg_mono hkn hR h) fun q hq => hR q (cutNeg_sub _ _ _ _ q hq)
    | false =>
      have hm := hx.1
      dsimp only at hm
      by_cases h1 : R &&& m = 0
      · have e : blk jit n ((m, false) :: t) i R [] = blk jit n t (i + 1) R [] := by simp [blk, h0, h1]
        rw [e]
        have hh := blk_head jit n t i R
        simp only [blk, h0', hh, if_false, List.head?_nil, reduceCtorEq, Bool.false_eq_true]
        split
        · exact ih ht (i + 1) h hR
        · split
          · rw [ih ht (i + 1) h hR]
          · have := ih (R := R) (R' := R' &&& ((2 ^ n - 1) ^^^ (R' &&& m))) ht (i + 1) (fun q hq => by
              rw [cutGate_bit hR]
              have h2 := bit_of_zero h1 q
              rw [Nat.testBit_and, hq] at h2
              simp at h2
              simp [h q hq, h2]) (fun q hq => by
              rw [cutGate_bit hR] at hq
              simp at hq
              exact hR q hq.1)
            rw [this]
      · by_cases h2 : ((2 ^ n - 1) ^^^ R) &&& m = 0
        · have e : (blk jit n ((m, false) :: t) i R []).1 = i :: (blk jit n t (i + 1) R []).1 := by simp [blk, h0, h1, h2]
          rw [e]
          have s' : Sub m R' := fun q hq => h q ((inside_iff hm).1 h2 q hq)
          have h1' : R' &&& m ≠ 0 := by
            intro hz
            apply h1
            apply eq_zero_bits
            intro q
            have := bit_of_zero hz q
            rw [Nat.testBit_and] at this ⊢
            cases hb : R.testBit q
            · simp
            · rw [h q hb] at this
              simpa using this
          simp only [blk, h0', h1', (inside_iff hm).2 s', if_false, if_true, List.head?_cons, List.tail_cons, List.head?_nil,
            reduceCtorEq, Bool.false_eq_true]
          rw [ih ht (i + 1) h hR]
        · have e : (blk jit n ((m, false) :: t) i R []).1 = (blk jit n t (i + 1) (R &&& ((2 ^ n - 1) ^^^ (R &&& m))) []).1 := by
            simp [blk, h0, h1, h2]
          rw [e]
          have hh := blk_head jit n t i (R &&& ((2 ^ n - 1) ^^^ (R &&& m)))
          have hs : Sub (R &&& ((2 ^ n - 1) ^^^ (R &&& m))) R' := fun q hq => by
            rw [cutGate_bit hR0] at hq
            simp at hq
            exact h q hq.1
          simp only [blk, h0', hh, if_false, List.head?_nil, reduceCtorEq, Bool.false_eq_true]
          split
          · exact ih ht (i + 1) hs hR
          · split
            · rw [ih ht (i + 1) hs hR]
            · have := ih (R := R &&& ((2 ^ n - 1) ^^^ (R &&& m))) (R' := R' &&& ((2 ^ n - 1) ^^^ (R' &&& m))) ht (i + 1)
                (fun q hq => by
                  rw [cutGate_bit hR0] at hq
                  rw [cutGate_bit hR]
                  simp at hq
                  simp [h q hq.1, hq.2]) (fun q hq => by
                  rw [cutGate_bit hR] at hq
                  simp at hq
                  exact hR q hq.1)
              rw [this]

/-! ### Options -/

theorem ok1_ints {n : Nat} {data : List Ins} (h : ∀ i ∈ data, (∀ q ∈ i.qubits, q < n) ∧ (i.neg = true → ∃ k, i.qubits = [k])) :
    OK1 n (ints data) := by
  intro x hx
  obtain ⟨i, hi, rfl⟩ := List.mem_map.1 hx
  refine ⟨fun q hq => (h i hi).1 q ?_, fun hn => ?_⟩
  · rw [mask_bit] at hq
    simpa using hq
  · obtain ⟨k, hk⟩ := (h i hi).2 hn
    refine ⟨k, ?_⟩
    show mask i.qubits = _
    rw [hk]
    simp [mask, Nat.one_shiftLeft]

/-- The option is a plain scan. -/
def Valid (jit : Bool) (n : Nat) (data : List Ins) (o : Opt) : Prop :=
  ∃ Q, (∀ q, Q.testBit q = true → ∃ x ∈ ints data, x.1.testBit q = true) ∧
    o = ((blk jit n (ints data) 0 Q []).1, bits n Q)

theorem blk_exp (jit : Bool) (n : Nat) (l : List (Nat × Bool)) (i R : Nat) (est : List Nat) (q : Nat)
    (h : (blk jit n l i R est).2.testBit q = true) : ∃ x ∈ l, x.1.testBit q = true := by
  induction l generalizing i R est with
  | nil => simp [blk] at h
  | cons x t ih =>
    obtain ⟨m, neg⟩ := x
    have up : (∃ x ∈ t, x.1.testBit q = true) → ∃ x ∈ (m, neg) :: t, x.1.testBit q = true :=
      fun ⟨x, hx, hq⟩ => ⟨x, by simp [hx], hq⟩
    simp only [blk] at h
    by_cases h0 : R = 0
    · simp [h0] at h
    rw [if_neg h0] at h
    by_cases h1 : est.head? = some i
    · rw [if_pos h1] at h
      exact up (ih _ _ _ h)
    rw [if_neg h1] at h
    by_cases h2 : (if neg = true then andNeg R m else R &&& m) = 0
    · rw [if_pos h2] at h
      exact up (ih _ _ _ h)
    rw [if_neg h2] at h
    by_cases h3 : neg = true
    · rw [if_pos h3] at h
      exact up (ih _ _ _ h)
    rw [if_neg h3] at h
    by_cases h4 : ((2 ^ n - 1) ^^^ R) &&& m = 0
    · rw [if_pos h4] at h
      exact up (ih _ _ _ h)
    rw [if_neg h4, Nat.testBit_or, Nat.testBit_and] at h
    simp only [Bool.or_eq_true, Bool.and_eq_true] at h
    rcases h with h | h
    · exact ⟨(m, neg), by simp, h.1⟩
    · exact up (ih _ _ _ h)

theorem opts_valid {jit : Bool} {n : Nat} {data : List Ins} (hl : OK1 n (ints data)) :
    ∀ (d : Nat) (tr : List Nat) (Q : Nat) (est : List Nat), (∀ q, Q.testBit q = true → ∃ x ∈ ints data, x.1.testBit q = true) →
    blk jit n (ints data) 0 Q est = blk jit n (ints data) 0 Q [] →
    ∀ o ∈ (opts jit n data d tr Q est).1, Valid jit n data o := by
  intro d
  induction d with
  | zero =>
    intro tr Q est hQ he o ho
    simp only [opts, List.mem_singleton] at ho
    subst ho
    exact ⟨Q, hQ, by rw [he]⟩
  | succ d ih =>
    intro tr Q est hQ he o ho
    have h0 : Valid jit n data ((blk jit n (ints data) 0 Q est).1, bits n Q) := ⟨Q, hQ, by rw [he]⟩
    simp only [opts] at ho
    split at ho
    · rw [List.mem_singleton] at ho
      subst ho
      exact h0
    · have key : ∀ (es : List Nat) (acc : List Opt × List Nat), (∀ e ∈ es, ∃ x ∈ ints data, x.1.testBit e = true) → (∀ o ∈ acc.1, Valid jit n data o) →
          ∀ o ∈ (es.foldl (fun acc e =>
            if Q ||| mask [e] ∈ acc.2 then acc
            else
              (acc.1 ++ (opts jit n data d acc.2 (Q ||| mask [e]) (blk jit n (ints data) 0 Q est).1).1,
                (opts jit n data d acc.2 (Q ||| mask [e]) (blk jit n (ints data) 0 Q est).1).2)) acc).1, Valid jit n data o := by
        intro es
        induction es with
        | nil => intro acc _ ha; exact ha
        | cons e es ihe =>
          intro acc hes ha
          rw [List.foldl_cons]
          refine ihe _ (fun x hx => hes x (by simp [hx])) ?_
          split
          · exact ha
          · intro o ho
            rcases List.mem_append.1 ho with h | h
            · exact ha o h
            · have hQ' : ∀ q, (Q ||| mask [e]).testBit q = true → ∃ x ∈ ints data, x.1.testBit q = true := by
                intro q hq
                rw [Nat.testBit_or, mask_bit] at hq
                simp at hq
                rcases hq with h1 | h1
                · exact hQ q h1
                · rw [h1]; exact hes e (by simp)
              refine ih _ _ _ hQ' ?_ o h
              rw [he]
              exact blk_est hl 0 (fun q hq => by rw [Nat.testBit_or, hq]; simp) fun q hq => by
                obtain ⟨x, hx, hb⟩ := hQ' q hq
                exact (hl x hx).1 q hb
      refine key _ _ (fun e he => blk_exp _ _ _ _ _ _ _ (mem_bits.1 he).2) ?_ o ho
      intro o ho
      rw [List.mem_singleton] at ho
      subst ho
      exact h0

theorem best_mem (data : List Ins) (o : Opt) (l : List Opt) : best data o l ∈ o :: l := by
  induction l generalizing o with
  | nil => simp [best]
  | cons p l ih =>
    unfold best
    split
    · exact List.mem_cons_of_mem _ (ih p)
    · rcases List.mem_cons.1 (ih o) with h | h
      · rw [h]; simp
      · exact List.mem_cons_of_mem _ (List.mem_cons_of_mem _ h)

/-! ### Selected instructions come to the front -/

/-- The instructions with and without the indices of a plain scan. -/
theorem blk_exec {jit : Bool} {n : Nat} (data : List Ins) (hw : ∀ i ∈ data, i.WF)
    (h : ∀ i ∈ data, (∀ q ∈ i.qubits, q < n) ∧ (i.neg = true → ∃ k, i.qubits = [k])) (k R : Nat)
    (hR : ∀ q, R.testBit q = true → q < n) (U : List Ins) (hU : ∀ u ∈ U, u.WF ∧ ∀ q ∈ u.qubits, R.testBit q = false) :
    ∃ sel rest : List Ins,
      (blk jit n (ints data) k R []).1.map (fun j => data[j - k]?) = sel.map some ∧
      ((data.zipIdx k).filter fun p => p.2 ∉ (blk jit n (ints data) k R []).1).map (·.1) = rest ∧
      (∀ i ∈ sel, i ∈ data ∧ i.neg = false ∧ ∀ q ∈ i.qubits, R.testBit q = true) ∧
      rest.filter Ins.neg = data.filter Ins.neg ∧
      ∀ s, exec (U ++ data) s = exec (sel ++ (U ++ rest)) s := by
  induction data generalizing k R U with
  | nil => exact ⟨[], [], by simp [ints, blk], by simp, by simp, by simp, fun s => by simp⟩
  | cons i t ih =>
    have ht : ∀ i ∈ t, (∀ q ∈ i.qubits, q < n) ∧ (i.neg = true → ∃ k, i.qubits = [k]) := fun x hx => h x (by simp [hx])
    have hwt : ∀ i ∈ t, i.WF := fun x hx => hw x (by simp [hx])
    have hi := h i (by simp)
    have hwi := hw i (by simp)
    have hget : ∀ l : List Nat, (∀ j ∈ l, k + 1 ≤ j) → l.map (fun j => (i :: t)[j - k]?) = l.map fun j => t[j - (k + 1)]? := by
      intro l hl
      refine List.map_congr_left fun j hj => ?_
      have := hl j hj
      have e : j - k = (j - (k + 1)) + 1 := by omega
      rw [e, List.getElem?_cons_succ]
    -- the instruction is not selected
    have skip : ∀ R' : Nat, Sub R' R → (∀ q ∈ i.qubits, R'.testBit q = false) →
        (blk jit n (ints (i :: t)) k R []).1 = (blk jit n (ints t) (k + 1) R' []).1 →
        ∃ sel rest : List Ins,
          (blk jit n (ints (i :: t)) k R []).1.map (fun j => (i :: t)[j - k]?) = sel.map some ∧
          (((i :: t).zipIdx k).filter fun p => p.2 ∉ (blk jit n (ints (i :: t)) k R []).1).map (·.1) = rest ∧
          (∀ x ∈ sel, x ∈ i :: t ∧ x.neg = false ∧ ∀ q ∈ x.qubits, R.testBit q = true) ∧
          rest.filter Ins.neg = (i :: t).filter Ins.neg ∧
          ∀ s, exec (U ++ i :: t) s = exec (sel ++ (U ++ rest)) s := by
      intro R' hs hd e
      have hge := blk_ge jit n (ints t) (k + 1) R'
      obtain ⟨sel, rest, h1, h2, h3, hf, h4⟩ := ih hwt ht (k + 1) R' (fun q hq => hR q (hs q hq)) (U ++ [i]) (fun u hu => by
        rcases List.mem_append.1 hu with hu | hu
        · refine ⟨(hU u hu).1, fun q hq => ?_⟩
          cases hb : R'.testBit q
          · rfl
          · have := (hU u hu).2 q hq
            rw [hs q hb] at this
            exact this
        · rw [List.mem_singleton] at hu
          subst hu
          exact ⟨hwi, hd⟩)
      refine ⟨sel, i :: rest, ?_, ?_, ?_, by rw [List.filter_cons, List.filter_cons, hf], ?_⟩
      · rw [e, hget _ hge, h1]
      · rw [e, List.zipIdx_cons, List.filter_cons, if_pos, List.map_cons, h2]
        simp only [decide_eq_true_eq]
        intro hm
        have := hge k hm
        omega
      · intro x hx
        obtain ⟨a, b, c⟩ := h3 x hx
        exact ⟨by simp [a], b, fun q hq => hs q (c q hq)⟩
      · intro s
        have := h4 s
        simpa using this
    by_cases h0 : R = 0
    · subst h0
      exact skip 0 (fun _ h => h) (by simp) (by rw [blk_zero, blk_zero])
    cases hn : i.neg with
    | true =>
      obtain ⟨c, hc⟩ := hi.2 hn
      have hm : mask i.qubits = 2 ^ c := by rw [hc]; simp [mask, Nat.one_shiftLeft]
      have hcn : c < n := hi.1 c (by simp [hc])
      refine skip (cutNeg jit n (2 ^ c) R) (cutNeg_sub _ _ _ _) (fun q hq => ?_) ?_
      · rw [hc] at hq
        simp at hq
        rw [hq]
        exact cutNeg_bit jit hcn R
      · have : ints (i :: t) = (2 ^ c, true) :: ints t := by simp [ints, hn, hm]
        rw [this, blk_neg _ _ _ _ _ _ _ (by simp)]
    | false =>
      have hints : ints (i :: t) = (mask i.qubits, false) :: ints t := by simp [ints, hn]
      have hm : ∀ q, (mask i.qubits).testBit q = true → q < n := by
        intro q hq
        rw [mask_bit] at hq
        exact hi.1 q (by simpa using hq)
      by_cases h1 : R &&& mask i.qubits = 0
      · refine skip R (fun _ h => h) (fun q hq => ?_) ?_
        · have := bit_of_zero h1 q
          rw [Nat.testBit_and, mask_bit] at this
          simpa [hq] using this
        · rw [hints]
          simp [blk, h0, h1]
      · by_cases h2 : ((2 ^ n - 1) ^^^ R) &&& mask i.qubits = 0
        · have hin : ∀ q ∈ i.qubits, R.testBit q = true := fun q hq => (inside_iff hm).1 h2 q (by rw [mask_bit]; simp [hq])
          have e : (blk jit n (ints (i :: t)) k R []).1 = k :: (blk jit n (ints t) (k + 1) R []).1 := by
            rw [hints]; simp [blk, h0, h1, h2]
          have hge := blk_ge jit n (ints t) (k + 1) R
          obtain ⟨sel, rest, g1, g2, g3, gf, g4⟩ := ih hwt ht (k + 1) R hR U hU
          refine ⟨i :: sel, rest, ?_, ?_, ?_, by rw [List.filter_cons, hn, gf]; simp, ?_⟩
          · rw [e, List.map_cons, List.map_cons, hget _ hge, g1]
            simp
          · rw [e, List.zipIdx_cons, List.filter_cons, if_neg (by simp), ← g2]
            congr 1
            refine List.filter_congr fun p hp => ?_
            have : k + 1 ≤ p.2 := List.le_snd_of_mem_zipIdx hp
            have : p.2 ≠ k := by omega
            simp [this]
          · intro x hx
            rcases List.mem_cons.1 hx with rfl | hx
            · exact ⟨by simp, hn, hin⟩
            · obtain ⟨a, b, c⟩ := g3 x hx
              exact ⟨by simp [a], b, c⟩
          · intro s
            rw [exec_front hwi, exec_cons, g4, List.cons_append, exec_cons]
            intro u hu
            refine ⟨(hU u hu).1, fun q hq hc => ?_, fun c _ hc => ?_⟩
            · have := (hU u hu).2 q hq
              rw [hin q hc] at this
              simp at this
            · cases i <;> simp [Ins.neg] at hn <;> simp [Ins.clbits] at hc
        · refine skip (R &&& ((2 ^ n - 1) ^^^ (R &&& mask i.qubits))) (fun q hq => ?_) (fun q hq => ?_) ?_
          · rw [cutGate_bit hR] at hq
            simp at hq
            exact hq.1
          · rw [cutGate_bit hR, mask_bit]
            simp [hq]
          · rw [hints]
            simp [blk, h0, h1, h2]

/-! ### The loop -/

theorem prodG_append (a b : List Gate) : prodG (a ++ b) = prodG b * prodG a := by
  induction a with
  | nil => simp [prodG]
  | cons g l ih => simp only [List.cons_append, prodG, ih, mul_assoc]

theorem exec_gates {sel : List Ins} (h : ∀ i ∈ sel, i.neg = false) (qs : List Nat) (r : List Ins) (s : Multiset Br) :
    exec (sel ++ r) s = exec (.gate qs (sel.flatMap Ins.gates) :: r) s := by
  rw [exec_append, exec_cons]
  congr 1
  have e : ∀ gs (s : Multiset Br), s.bind (step (.gate qs gs)) = s.map fun x => (x.1, prodG gs x.2) := by
    intro gs s
    rw [← Multiset.bind_singleton]
    exact Multiset.bind_congr fun x _ => by simp [step, alts]
  rw [e]
  induction sel generalizing s with
  | nil =>
    simp only [exec_nil, List.flatMap_nil, prodG]
    conv_lhs => rw [← Multiset.map_id s]
    rfl
  | cons i l ih =>
    rw [exec_cons, ih fun j hj => h j (by simp [hj])]
    have hi := h i (by simp)
    cases i <;> simp [Ins.neg] at hi
    rename_i qs' gs
    have e' : s.bind (step (.gate qs' gs)) = s.map fun x => (x.1, prodG gs x.2) := by
      rw [← Multiset.bind_singleton]
      exact Multiset.bind_congr fun x _ => by simp [step, alts]
    rw [e', Multiset.map_map, List.flatMap_cons]
    refine Multiset.map_congr rfl fun x _ => ?_
    show (x.1, prodG (l.flatMap Ins.gates) (prodG gs x.2)) = (x.1, prodG (gs ++ _) x.2)
    rw [prodG_append]
    rfl

/-- Conditions on the circuit: the qubits exist and non-unitary instructions act on one qubit. -/
def GOk (n : Nat) (data : List Ins) : Prop :=
  ∀ i ∈ data, i.WF ∧ (∀ q ∈ i.qubits, q < n) ∧ (i.neg = true → ∃ k, i.qubits = [k])

theorem gok_tail {n : Nat} {i : Ins} {t : List Ins} (h : GOk n (i :: t)) : GOk n t := fun x hx => h x (by simp [hx])

theorem findGroup_ok {jit : Bool} {n depth : Nat} {i : Ins} {t : List Ins} (h : GOk n (i :: t)) (hi : i.neg = false) :
    ∃ sel, (findGroup jit n depth i (i :: t)).1.map (fun j => (i :: t)[j]?) = sel.map some ∧ sel ≠ [] ∧
      (∀ x ∈ sel, x ∈ i :: t ∧ x.neg = false ∧ ∀ q ∈ x.qubits, q ∈ (findGroup jit n depth i (i :: t)).2) ∧
      (∀ q ∈ (findGroup jit n depth i (i :: t)).2, ∃ x ∈ i :: t, q ∈ x.qubits) ∧
      (deleteIdx (i :: t) (findGroup jit n depth i (i :: t)).1).filter Ins.neg = (i :: t).filter Ins.neg ∧
      ∀ s, exec (i :: t) s = exec (sel ++ deleteIdx (i :: t) (findGroup jit n depth i (i :: t)).1) s := by
  have hl : OK1 n (ints (i :: t)) := ok1_ints fun x hx => (h x hx).2
  have hm : ∀ q, (mask i.qubits).testBit q = true → q < n := by
    intro q hq
    rw [mask_bit] at hq
    exact (h i (by simp)).2.1 q (by simpa using hq)
  have hfall : ∃ sel, (([0], bits n (mask i.qubits)) : Opt).1.map (fun j => (i :: t)[j]?) = sel.map some ∧ sel ≠ [] ∧
      (∀ x ∈ sel, x ∈ i :: t ∧ x.neg = false ∧ ∀ q ∈ x.qubits, q ∈ (([0], bits n (mask i.qubits)) : Opt).2) ∧
      (∀ q ∈ (([0], bits n (mask i.qubits)) : Opt).2, ∃ x ∈ i :: t, q ∈ x.qubits) ∧
      (deleteIdx (i :: t) (([0], bits n (mask i.qubits)) : Opt).1).filter Ins.neg = (i :: t).filter Ins.neg ∧
      ∀ s, exec (i :: t) s = exec (sel ++ deleteIdx (i :: t) (([0], bits n (mask i.qubits)) : Opt).1) s := by
    have e : deleteIdx (i :: t) [0] = t := by
      unfold deleteIdx
      rw [List.zipIdx_cons, List.filter_cons, if_neg (by simp)]
      rw [List.filter_eq_self.2, List.zipIdx_map_fst]
      intro p hp
      have : 0 + 1 ≤ p.2 := List.le_snd_of_mem_zipIdx hp
      have : p.2 ≠ 0 := by omega
      simp [this]
    refine ⟨[i], by simp, by simp, fun x hx => ?_, fun q hq => ?_, ?_, fun s => ?_⟩
    · rw [List.mem_singleton] at hx
      subst hx
      exact ⟨by simp, hi, fun q hq => mem_bits.2 ⟨(h x (by simp)).2.1 q hq, by rw [mask_bit]; simp [hq]⟩⟩
    · have := (mem_bits.1 hq).2
      rw [mask_bit] at this
      exact ⟨i, by simp, by simpa using this⟩
    · rw [e, List.filter_cons, hi]
      simp
    · rw [e]
      rfl
  have hstart : blk jit n (ints (i :: t)) 0 (mask i.qubits) [0] = blk jit n (ints (i :: t)) 0 (mask i.qubits) [] := by
    have : ints (i :: t) = (mask i.qubits, false) :: ints t := by simp [ints, hi]
    rw [this]
    by_cases h0 : mask i.qubits = 0
    · simp [blk, h0]
    · have h2 : ((2 ^ n - 1) ^^^ mask i.qubits) &&& mask i.qubits = 0 := (inside_iff hm).2 fun _ h => h
      simp [blk, h0, h2]
  have hv := opts_valid (jit := jit) hl depth [] (mask i.qubits) [0] (fun q hq => ⟨(mask i.qubits, i.neg), by simp [ints], hq⟩) hstart
  unfold findGroup
  dsimp only
  generalize (opts jit n (i :: t) depth [] (mask i.qubits) [0]).1 = L at hv
  cases L with
  | nil => exact hfall
  | cons o r =>
    dsimp only
    split
    · rename_i hg
      obtain ⟨Q, hQ, hb⟩ := hv _ (best_mem (i :: t) o r)
      have hQn : ∀ q, Q.testBit q = true → q < n := fun q hq => by
        obtain ⟨x, hx, hb⟩ := hQ q hq
        exact (hl x hx).1 q hb
      obtain ⟨sel, rest, h1, h2, h3, hf, h4⟩ := blk_exec (jit := jit) (n := n) (i :: t) (fun x hx => (h x hx).1) (fun x hx => (h x hx).2) 0 Q
        hQn [] (by simp)
      refine ⟨sel, ?_, ?_, ?_, ?_, ?_, ?_⟩
      · rw [hb]
        simpa using h1
      · rintro rfl
        rw [hb] at hg
        simp only [List.map_nil, List.map_eq_nil_iff] at h1
        rw [h1] at hg
        have : (0 : Int) < 9 * 2 ^ (bits n Q).length := Int.mul_pos (by decide) (Int.pow_pos (by decide))
        simp [gain] at hg
        omega
      · intro x hx
        obtain ⟨a, b, c⟩ := h3 x hx
        exact ⟨a, b, fun q hq => by rw [hb]; exact mem_bits.2 ⟨hQn q (c q hq), c q hq⟩⟩
      · intro q hq
        rw [hb] at hq
        obtain ⟨x, hx, hxb⟩ := hQ q (mem_bits.1 hq).2
        obtain ⟨y, hy, rfl⟩ := List.mem_map.1 hx
        rw [mask_bit] at hxb
        exact ⟨y, hy, by simpa using hxb⟩
      · rw [hb]
        unfold deleteIdx
        rw [h2, hf]
      · intro s
        rw [hb]
        unfold deleteIdx
        rw [h2]
        simpa using h4 s
    · exact hfall

theorem deleteIdx_sublist (data : List Ins) (is : List Nat) : (deleteIdx data is).Sublist data := by
  have := (List.filter_sublist (p := fun p : Ins × Nat => p.2 ∉ is) (l := data.zipIdx)).map (·.1)
  unfold deleteIdx
  refine this.trans ?_
  rw [List.zipIdx_map_fst]

theorem deleteIdx_length {data : List Ins} {is : List Nat} {j : Nat} (h : j ∈ is) (hj : j < data.length) :
    (deleteIdx data is).length < data.length := by
  unfold deleteIdx
  rw [List.length_map]
  have : data.zipIdx.length = data.length := by simp
  rw [← this]
  refine List.length_filter_lt_length_iff_exists.2 ⟨(data[j], j), ?_, by simp [h]⟩
  rw [List.mk_mem_zipIdx_iff_getElem?]
  simp [hj]

/-- What the grouping keeps. -/
theorem groupLoop_ok {jit : Bool} {n depth : Nat} : ∀ (fuel : Nat) (data : List Ins), data.length ≤ fuel → GOk n data →
    (∀ s, exec (groupLoop jit n depth fuel data) s = exec data s) ∧
    (groupLoop jit n depth fuel data).filter Ins.neg = data.filter Ins.neg ∧
    (∀ x ∈ groupLoop jit n depth fuel data, x.WF ∧ ∀ q ∈ x.qubits, ∃ y ∈ data, q ∈ y.qubits) := by
  intro fuel
  induction fuel with
  | zero =>
    intro data hl _
    have : data = [] := by simpa using hl
    subst this
    simp [groupLoop]
  | succ fuel ih =>
    intro data hl h
    cases data with
    | nil => simp [groupLoop]
    | cons i t =>
      by_cases hn : i.neg = true
      · obtain ⟨h1, h2, h3⟩ := ih t (by simpa using hl) (gok_tail h)
        have e : groupLoop jit n depth (fuel + 1) (i :: t) = i :: groupLoop jit n depth fuel t := by simp [groupLoop, hn]
        rw [e]
        refine ⟨fun s => by rw [exec_cons, exec_cons, h1], by rw [List.filter_cons, List.filter_cons, h2], fun x hx => ?_⟩
        rcases List.mem_cons.1 hx with rfl | hx
        · exact ⟨(h x (by simp)).1, fun q hq => ⟨x, by simp, hq⟩⟩
        · obtain ⟨a, b⟩ := h3 x hx
          refine ⟨a, fun q hq => ?_⟩
          obtain ⟨y, hy, hq⟩ := b q hq
          exact ⟨y, by simp [hy], hq⟩
      · have hn' : i.neg = false := by simpa using hn
        obtain ⟨sel, s1, s2, s3, s4, s5, s6⟩ := findGroup_ok (jit := jit) (depth := depth) h hn'
        have e : groupLoop jit n depth (fuel + 1) (i :: t) = getInstruction (i :: t) (findGroup jit n depth i (i :: t)) ::
            groupLoop jit n depth fuel (deleteIdx (i :: t) (findGroup jit n depth i (i :: t)).1) := by
          simp [groupLoop, hn]
        generalize findGroup jit n depth i (i :: t) = o at *
        have hlen : (deleteIdx (i :: t) o.1).length < (i :: t).length := by
          obtain ⟨x, l, rfl⟩ := List.exists_cons_of_ne_nil s2
          cases ho : o.1 with
          | nil => simp [ho] at s1
          | cons j js =>
            rw [ho] at s1
            simp only [List.map_cons, List.cons.injEq] at s1
            exact deleteIdx_length (by simp) (List.getElem?_eq_some_iff.1 s1.1).1
        have hsub := deleteIdx_sublist (i :: t) o.1
        obtain ⟨h1, h2, h3⟩ := ih (deleteIdx (i :: t) o.1) (by simp only [List.length_cons] at hlen hl; omega)
          fun x hx => h x (hsub.subset hx)
        have hg : getInstruction (i :: t) o = .gate o.2 (sel.flatMap Ins.gates) := by
          unfold getInstruction
          congr 1
          have : ∀ (l : List Nat) (sel : List Ins), l.map (fun j => (i :: t)[j]?) = sel.map some →
              l.flatMap (fun j => ((i :: t)[j]?.map Ins.gates).getD []) = sel.flatMap Ins.gates := by
            intro l
            induction l with
            | nil =>
              intro sel hs
              have : sel = [] := by simpa using hs.symm
              simp [this]
            | cons j l ihl =>
              intro sel hs
              cases sel with
              | nil => simp at hs
              | cons x sel =>
                simp only [List.map_cons, List.cons.injEq] at hs
                rw [List.flatMap_cons, List.flatMap_cons, hs.1, ihl sel hs.2]
                rfl
          exact this _ _ s1
        rw [e, hg]
        refine ⟨fun s => ?_, ?_, fun x hx => ?_⟩
        · rw [exec_cons, h1, ← exec_cons, ← exec_gates fun x hx => (s3 x hx).2.1, ← s6]
        · rw [List.filter_cons, h2, s5]
          simp [Ins.neg]
        · rcases List.mem_cons.1 hx with rfl | hx
          · refine ⟨fun g hg q hq => ?_, s4⟩
            obtain ⟨y, hy, hgy⟩ := List.mem_flatMap.1 hg
            obtain ⟨a, b, c⟩ := s3 y hy
            apply c
            cases y <;> simp [Ins.neg] at b
            exact (h _ a).1 g hgy q hq
          · obtain ⟨a, b⟩ := h3 x hx
            refine ⟨a, fun q hq => ?_⟩
            obtain ⟨y, hy, hq⟩ := b q hq
            exact ⟨y, hsub.subset hy, hq⟩

end Verif.Sim
