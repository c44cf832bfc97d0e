import Mathlib.Data.Nat.Bitwise
import Mathlib.Data.List.Range

/-!
Loops with a quantum bound (src/qrisp/misc/qrange.py), on basis states.
-/

namespace Verif.Ctl.QRange

/-! ### Model

The index register has `n + 1` qubits (after line 47 for unsigned floats); its value is a number below
`2^(n+1)`. `σ` is the rest of the system, `body i` one pass of the loop body. -/

/-- `x(index_qf)`. -/
def flip (n v : Nat) : Nat := 2 ^ (n + 1) - 1 - v

/-- `index_qf += c`, addition modulo the size of the register. -/
def incr (n v c : Nat) : Nat := (v + c) % 2 ^ (n + 1)

/-- `__iter__` (lines 49-50). -/
def start (n v : Nat) : Nat := incr n (flip n v) 1

/-- One pass of the loop: line 89 except for the first pass, then the body under the control of the
qubit `index_qf[-1]` (lines 52, 96). -/
def pass {σ : Type} (n : Nat) (body : Nat → σ → σ) (st : Nat × σ) (c : Nat) : Nat × σ :=
  let v := if c = 0 then st.1 else incr n st.1 1
  (v, if v.testBit n then body c st.2 else st.2)

/-- All passes: `c_index` runs up to `2^(size-1)` (line 70). -/
def passes {σ : Type} (n : Nat) (body : Nat → σ → σ) (v : Nat) (s : σ) : Nat × σ :=
  (List.range (2 ^ n)).foldl (pass n body) (start n v, s)

/-- The index register after the reset in lines 72-73 and 81-82; `c_index` is `2^n`. -/
def reset (n v : Nat) : Nat := incr n (flip n v) (2 ^ n - 1)

/-- The loop `for i in qRange(m): body(i)` without an index of its own: the register before
`reduce` in line 84, and the rest of the system. -/
def loop {σ : Type} (n : Nat) (body : Nat → σ → σ) (v : Nat) (s : σ) : Nat × σ :=
  let st := passes n body v s
  (reset n st.1, st.2)

/-- With `create_index_qf=True`: the index is a copy (lines 40-41); it is deleted in line 79 with
the value given here (lines 75-78: the gates CX leave out the last qubit for unsigned bounds). -/
def loopCopy {σ : Type} (n : Nat) (signed : Bool) (body : Nat → σ → σ) (v : Nat) (s : σ) : Nat × σ :=
  let st := passes n body v s
  (if signed then reset n st.1 ^^^ v else reset n st.1 ^^^ (v % 2 ^ n), st.2)

/-! ### Lemmas -/

theorem start_eq {n v : Nat} (hv : v < 2 ^ (n + 1)) : start n v = (2 ^ (n + 1) - v) % 2 ^ (n + 1) := by
  rw [start, incr, flip]
  congr 1; omega

theorem passes_fst {σ : Type} (n : Nat) (body : Nat → σ → σ) (w : Nat) (hw : w < 2 ^ (n + 1)) (s : σ)
    (k : Nat) :
    ((List.range (k + 1)).foldl (pass n body) (w, s)).1 = (w + k) % 2 ^ (n + 1) := by
  induction k with
  | zero => simp [pass, Nat.mod_eq_of_lt hw]
  | succ k ih =>
    rw [List.range_succ, List.foldl_append, List.foldl_cons, List.foldl_nil]
    generalize (List.range (k + 1)).foldl (pass n body) (w, s) = st at ih
    simp only [pass, Nat.succ_ne_zero, if_false, incr, ih]
    rw [Nat.mod_add_mod, Nat.add_assoc]

/-- The system after `k` passes. -/
theorem passes_snd {σ : Type} (n : Nat) (body : Nat → σ → σ) (w : Nat) (hw : w < 2 ^ (n + 1)) (s : σ)
    (k : Nat) :
    ((List.range k).foldl (pass n body) (w, s)).2 =
      ((List.range k).filter fun c => ((w + c) % 2 ^ (n + 1)).testBit n).foldl (fun s i => body i s) s := by
  induction k with
  | zero => rfl
  | succ k ih =>
    have h1 := passes_fst n body w hw s k
    rw [List.range_succ, List.foldl_append, List.foldl_cons, List.foldl_nil] at h1
    rw [List.range_succ, List.foldl_append, List.foldl_cons, List.foldl_nil, List.filter_append,
      List.foldl_append, ← ih]
    generalize (List.range k).foldl (pass n body) (w, s) = st at *
    simp only [pass] at h1 ⊢
    rw [h1]
    by_cases h : ((w + k) % 2 ^ (n + 1)).testBit n = true <;>
      simp only [List.filter_cons, List.filter_nil, h, if_true, if_false, Bool.false_eq_true,
        List.foldl_cons, List.foldl_nil]

theorem testBit_top {n x : Nat} (hx : x < 2 ^ (n + 1)) : x.testBit n = decide (2 ^ n ≤ x) := by
  by_cases h : 2 ^ n ≤ x
  · rw [decide_eq_true h]
    exact Nat.testBit_of_two_pow_le_and_two_pow_add_one_gt h hx
  · rw [decide_eq_false h]
    exact Nat.testBit_lt_two_pow (by omega)

theorem loop_fst {σ : Type} (n : Nat) (body : Nat → σ → σ) {v : Nat} (hv : v < 2 ^ (n + 1)) (s : σ) :
    (loop n body v s).1 = (v + (2 ^ (n + 1) - 1)) % 2 ^ (n + 1) := by
  have hp : 0 < 2 ^ n := Nat.two_pow_pos n
  have hp' : 2 ^ (n + 1) = 2 * 2 ^ n := by rw [pow_succ, Nat.mul_comm]
  have h := passes_fst n body (start n v) (by rw [start, incr]; exact Nat.mod_lt _ (by omega)) s
    (2 ^ n - 1)
  rw [Nat.sub_add_cancel hp] at h
  change reset n (passes n body v s).1 = _
  rw [passes, h, start_eq hv, Nat.mod_add_mod, reset, incr, flip]
  rw [hp'] at hv ⊢
  generalize 2 ^ n = p at *
  rcases Nat.lt_or_ge (2 * p - v + (p - 1)) (2 * p) with h1 | h1
  · rw [Nat.mod_eq_of_lt h1]
    rcases Nat.lt_or_ge v 1 with h2 | h2
    · omega
    · have e1 : 2 * p - 1 - (2 * p - v + (p - 1)) + (p - 1) = v - 1 := by omega
      have e2 : v + (2 * p - 1) = (v - 1) + 2 * p := by omega
      rw [e1, e2, Nat.add_mod_right]
  · rw [Nat.mod_eq_sub_mod h1,
      Nat.mod_eq_of_lt (show 2 * p - v + (p - 1) - 2 * p < 2 * p by omega)]
    have e1 : 2 * p - 1 - (2 * p - v + (p - 1) - 2 * p) + (p - 1) = v + (2 * p - 1) := by omega
    rw [e1]

theorem loop_snd {σ : Type} (n : Nat) (body : Nat → σ → σ) {v : Nat} (hv : v < 2 ^ (n + 1)) (s : σ) :
    (loop n body v s).2 = ((List.range (2 ^ n)).filter fun c =>
      decide (2 ^ n ≤ (2 ^ (n + 1) - v + c) % 2 ^ (n + 1))).foldl (fun s i => body i s) s := by
  have hp : 0 < 2 ^ (n + 1) := Nat.two_pow_pos _
  have h := passes_snd n body (start n v) (by rw [start, incr]; exact Nat.mod_lt _ hp) s (2 ^ n)
  change (passes n body v s).2 = _
  rw [passes, h]
  congr 1
  apply List.filter_congr
  intro c _
  rw [start_eq hv, Nat.mod_add_mod, testBit_top (Nat.mod_lt _ hp)]

theorem filter_lt (m k : Nat) (h : m ≤ k) : (List.range k).filter (fun c => decide (c < m)) = List.range m := by
  obtain ⟨d, rfl⟩ := Nat.exists_eq_add_of_le h
  rw [List.range_add, List.filter_append, List.filter_eq_self.2 (by simp),
    List.filter_eq_nil_iff.2 (by simp)]
  simp

theorem filter_ge (m k : Nat) (h : m ≤ k) :
    (List.range k).filter (fun c => decide (m ≤ c)) = List.range' m (k - m) := by
  obtain ⟨d, rfl⟩ := Nat.exists_eq_add_of_le h
  rw [List.range_add, List.filter_append, List.filter_eq_nil_iff.2 (by simp),
    List.filter_eq_self.2 (by simp), List.range'_eq_map_range]
  simp

end Verif.Ctl.QRange
