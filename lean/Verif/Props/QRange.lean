import Verif.Ctl.QRange

/-!
Property theorems C162: loops with a quantum bound.
-/

namespace Verif.Props
open Verif.Ctl.QRange

/-- The loop runs exactly the passes `i < m`, in order, for every bound `0 ≤ m < 2^n` held by a
QuantumFloat with `n` bits. Missing: the value of the bound afterwards, see `qrange_bound_wrong`, and
negative bounds, see `qrange_negative_wrong`. -/
theorem qrange_runs_partial {σ : Type} (n : Nat) (body : Nat → σ → σ) {m : Nat} (hm : m < 2 ^ n) (s : σ) :
    (loop n body m s).2 = (List.range m).foldl (fun s i => body i s) s ∧
    ∀ signed, (loopCopy n signed body m s).2 = (List.range m).foldl (fun s i => body i s) s := by
  have hp : 2 ^ (n + 1) = 2 * 2 ^ n := by rw [pow_succ, Nat.mul_comm]
  have key : (loop n body m s).2 = (List.range m).foldl (fun s i => body i s) s := by
    rw [loop_snd n body (by omega) s]
    congr 1
    rw [← filter_lt m (2 ^ n) (by omega)]
    apply List.filter_congr
    intro c hc
    have hc := List.mem_range.1 hc
    rw [hp]
    generalize 2 ^ n = p at *
    congr 1
    rw [eq_iff_iff]
    rcases Nat.lt_or_ge c m with h | h
    · rw [Nat.mod_eq_of_lt (by omega)]; omega
    · rw [Nat.mod_eq_sub_mod (by omega), Nat.mod_eq_of_lt (by omega)]; omega
  exact ⟨key, fun _ => key⟩

/-- The sum of the example in the documentation: the test expects 6 and 10, as proved here, the
documentation shows 10 and 15. -/
example : (loop 3 (fun i s => s + i) 4 0).2 = 6 ∧ (loop 3 (fun i s => s + i) 5 0).2 = 10 := by
  decide +kernel

/-- For every bound the register ends with one less than the bound (modulo its size): the loop
changes the bound. -/
theorem qrange_bound_wrong {σ : Type} (n : Nat) (body : Nat → σ → σ) {m : Nat} (hm : m < 2 ^ (n + 1))
    (s : σ) : (loop n body m s).1 = (m + (2 ^ (n + 1) - 1)) % 2 ^ (n + 1) ∧
      (loop n body m s).1 ≠ m := by
  have hp : 0 < 2 ^ n := Nat.two_pow_pos n
  have hp' : 2 ^ (n + 1) = 2 * 2 ^ n := by rw [pow_succ, Nat.mul_comm]
  have h := loop_fst n body hm s
  refine ⟨h, ?_⟩
  rw [h]
  rw [hp'] at hm ⊢
  generalize 2 ^ n = p at *
  rcases Nat.eq_zero_or_pos m with h0 | h0
  · rw [h0, Nat.zero_add, Nat.mod_eq_of_lt (by omega)]; omega
  · rw [Nat.mod_eq_sub_mod (by omega), Nat.mod_eq_of_lt (by omega)]; omega

/-- The bound 0: the last qubit is 1 when `reduce` gives it back as a free qubit. -/
theorem qrange_reduce_wrong {σ : Type} (n : Nat) (body : Nat → σ → σ) (s : σ) :
    (loop n body 0 s).1.testBit n = true := by
  have hp : 0 < 2 ^ n := Nat.two_pow_pos n
  have hp' : 2 ^ (n + 1) = 2 * 2 ^ n := by rw [pow_succ, Nat.mul_comm]
  rw [loop_fst n body (by omega) s, testBit_top (Nat.mod_lt _ (by omega)), hp']
  rw [decide_eq_true_iff, Nat.zero_add, Nat.mod_eq_of_lt (by omega)]
  omega

/-- With `create_index_qf=True` the index is never 0 when it is deleted. -/
theorem qrange_copy_wrong {σ : Type} (n : Nat) (signed : Bool) (body : Nat → σ → σ) {m : Nat}
    (hm : m < if signed then 2 ^ (n + 1) else 2 ^ n) (s : σ) :
    (loopCopy n signed body m s).1 ≠ 0 := by
  have hp' : 2 ^ (n + 1) = 2 * 2 ^ n := by rw [pow_succ, Nat.mul_comm]
  cases signed with
  | true =>
    have h := (qrange_bound_wrong n body (m := m) (by simpa using hm) s).2
    change (loop n body m s).1 ^^^ m ≠ 0
    exact fun h0 => h (Nat.xor_eq_zero_iff.1 h0)
  | false =>
    have hm : m < 2 ^ n := by simpa using hm
    have h := (qrange_bound_wrong n body (m := m) (by omega) s).2
    change (loop n body m s).1 ^^^ (m % 2 ^ n) ≠ 0
    rw [Nat.mod_eq_of_lt hm]
    exact fun h0 => h (Nat.xor_eq_zero_iff.1 h0)

/-- A signed bound `-k`: the loop runs the `k` passes `2^n - k ≤ i < 2^n`, where `range(-k)` is
empty. -/
theorem qrange_negative_wrong {σ : Type} (n : Nat) (body : Nat → σ → σ) {k : Nat} (h1 : 0 < k)
    (h2 : k ≤ 2 ^ n) (s : σ) :
    (loop n body (2 ^ (n + 1) - k) s).2 =
      (List.range' (2 ^ n - k) k).foldl (fun s i => body i s) s := by
  have hp : 2 ^ (n + 1) = 2 * 2 ^ n := by rw [pow_succ, Nat.mul_comm]
  rw [loop_snd n body (by omega) s]
  congr 1
  have e : List.range' (2 ^ n - k) k = List.range' (2 ^ n - k) (2 ^ n - (2 ^ n - k)) := by
    congr 1; omega
  rw [e, ← filter_ge (2 ^ n - k) (2 ^ n) (by omega)]
  apply List.filter_congr
  intro c hc
  have hc := List.mem_range.1 hc
  rw [hp]
  generalize 2 ^ n = p at *
  congr 1
  rw [eq_iff_iff]
  have e : 2 * p - (2 * p - k) + c = k + c := by omega
  rw [e, Nat.mod_eq_of_lt (by omega)]
  omega

/-- Bounds 4 and 0 in three bits, and -3 in a signed float. -/
example : (loop 3 (fun i s => s ++ [i]) 4 []) = (3, [0, 1, 2, 3]) ∧
    (loop 3 (fun i s => s ++ [i]) 0 []) = (15, []) ∧
    (loop 3 (fun i s => s ++ [i]) 13 []) = (12, [5, 6, 7]) ∧
    (loopCopy 3 false (fun i s => s ++ [i]) 4 []) = (7, [0, 1, 2, 3]) := by decide +kernel

end Verif.Props
