import Verif.Props.Control
import Mathlib.LinearAlgebra.UnitaryGroup
import Mathlib.Data.Complex.BigOperators
import Mathlib.Data.Nat.Log
import Mathlib.Analysis.Complex.Norm

/-!
Model of `inner_LCU` (alg_primitives/lcu.py:26-197) without amplitude amplification (`oaa_iter=0`).
-/

namespace Verif.Ctl

open Verif.Rev

variable {V : Type} [AddCommGroup V] [Module ℂ V]

/-- The basis state of the index qubits holding `i`, everything else 0. -/
def idxSt (i : ℕ) : St SQ
  | .ca j => i.testBit j
  | _ => false

/-- `q_switch(case_indicator, unitaries, operand)` (lcu.py:181) on a superposition `Ψ i` of index states; `none` if it raises. The
switch keeps every index state (`switch_keeps`), so the superposition is mapped state by state. -/
def select (n m : ℕ) (F : ℕ → V → V) (Ψ : Fin (2 ^ n) → V) (i : Fin (2 ^ n)) : Option V :=
  if n = 0 then none else (runSw (fun i => some (F i)) (tree false n m) (idxSt i, Ψ i)).map (·.2)

/-- A matrix on the index register. -/
def onIdx {n : ℕ} (P : Matrix (Fin (2 ^ n)) (Fin (2 ^ n)) ℂ) (Ψ : Fin (2 ^ n) → V) (i : Fin (2 ^ n)) : V := ∑ j, P i j • Ψ j

/-- `inner_LCU` with `m` unitaries and the state preparation `P` on `⌈log2 m⌉` qubits (lcu.py:175-186): the joint state of index and
operand, or `none` if the switch raises. -/
noncomputable def innerLcu (m : ℕ) (P : Matrix (Fin (2 ^ Nat.clog 2 m)) (Fin (2 ^ Nat.clog 2 m)) ℂ) (F : ℕ → V → V) (v : V) :
    Option (Fin (2 ^ Nat.clog 2 m) → V) :=
  let Ψ := onIdx P (fun j => if j = 0 then v else 0)
  if ∀ i, (select (Nat.clog 2 m) m F Ψ i).isSome then
    some (onIdx P.conjTranspose fun i => (select (Nat.clog 2 m) m F Ψ i).getD 0)
  else none

theorem idxVal_idxSt {n i : ℕ} (h : i < 2 ^ n) : idxVal n (idxSt i) = i := by
  apply Nat.eq_of_testBit_eq
  intro j
  by_cases hj : j < n
  · rw [idxVal_testBit _ hj]; rfl
  · have hle : 2 ^ n ≤ 2 ^ j := Nat.pow_le_pow_right (by norm_num) (by omega)
    have := idxVal_lt n (idxSt i)
    rw [Nat.testBit_lt_two_pow (by omega), Nat.testBit_lt_two_pow (by omega)]

/-- The switch keeps the index. -/
theorem switch_keeps {n m : ℕ} (hn : 0 < n) (h1 : 1 ≤ m) (hm : m ≤ 2 ^ n) (F : ℕ → V → V) {i : ℕ} (hi : i < 2 ^ n) (v : V) :
    runSw (fun i => some (F i)) (tree false n m) (idxSt i, v) = some (idxSt i, if i < m then F i v else v) := by
  rw [tree_spec (F := F) (fun i _ => rfl) hn h1 hm (fun _ _ => rfl), idxVal_idxSt hi]
  unfold eff con
  simp

theorem onIdx_zero {n : ℕ} (P : Matrix (Fin (2 ^ n)) (Fin (2 ^ n)) ℂ) (v : V) (i : Fin (2 ^ n)) :
    onIdx P (fun j => if j = 0 then v else 0) i = P i 0 • v := by
  unfold onIdx
  rw [Finset.sum_eq_single 0]
  · simp
  · intro j _ hj; simp [hj]
  · intro h; exact absurd (Finset.mem_univ _) h

theorem innerLcu_eq {m : ℕ} (hm : 2 ≤ m) (P : Matrix (Fin (2 ^ Nat.clog 2 m)) (Fin (2 ^ Nat.clog 2 m)) ℂ) (F : ℕ → V →ₗ[ℂ] V) (v : V) :
    innerLcu m P (fun i => F i) v = some fun k => ∑ i, (star (P i k) * P i 0) • (if (i : ℕ) < m then F i v else v) := by
  have hn : 0 < Nat.clog 2 m := Nat.clog_pos (by norm_num) hm
  have hle : m ≤ 2 ^ Nat.clog 2 m := Nat.le_pow_clog (by norm_num) m
  have hsel : ∀ i, select (Nat.clog 2 m) m (fun i => F i) (onIdx P (fun j => if j = 0 then v else 0)) i =
      some (P i 0 • if (i : ℕ) < m then F i v else v) := by
    intro i
    unfold select
    rw [if_neg (by omega), switch_keeps hn (by omega) hle _ i.2, onIdx_zero, Option.map_some]
    congr 1
    split_ifs
    · exact (F i).map_smul _ _
    · rfl
  unfold innerLcu
  simp only [hsel, Option.isSome_some, implies_true, if_true, Option.getD_some]
  congr 1
  funext k
  unfold onIdx
  refine Finset.sum_congr rfl fun i _ => ?_
  rw [Matrix.conjTranspose_apply, smul_smul]

end Verif.Ctl
