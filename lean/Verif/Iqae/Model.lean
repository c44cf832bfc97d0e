import Mathlib.Analysis.SpecialFunctions.Trigonometric.Inverse
import Mathlib.Analysis.SpecialFunctions.Log.Basic
import Mathlib.Algebra.Order.Floor.Ring

/-!
# Iterative quantum amplitude estimation

alg_primitives/iterative_qae.py with real numbers instead of floating point numbers.  The results of the quantum steps are given: `A i` is the
one of round `i`.
-/

namespace Verif.Iqae
open Real

/-- Line 124. -/
noncomputable def cE : ℝ := 1 / 2 * sin (π * 3 / 14) ^ 2 - 1 / 2 * sin (π * 1 / 6) ^ 2

/-- Line 125. -/
noncomputable def cF : ℝ := 1 / 2 * arcsin (√(2 * cE))

/-- Line 127. -/
noncomputable def cC : ℝ := 4 / (6 * cF + π)

/-- `L_arr` and `m_arr` (lines 136-137). -/
def table : List (ℕ × ℕ) :=
  List.zip [3, 3, 3, 5, 5, 5, 5, 5, 7, 7, 7, 7, 7, 7, 7] [0, 1, 2, 0, 1, 2, 3, 4, 0, 1, 2, 3, 4, 5, 6]

/-- `m_i`, `K_i`, `theta_b`, `theta_sh`. -/
structure Stt where
  m : ℕ
  K : ℕ
  tb : ℝ
  ts : ℝ

/-- `alp_i` (line 146). -/
noncomputable def alp (al eps : ℝ) (K : ℕ) : ℝ := cC * al * eps * K

/-- `N_i` (line 147), the number of shots. -/
noncomputable def shots (al eps : ℝ) (K : ℕ) : ℤ := ⌈1 / (2 * cE ^ 2) * log (2 / alp al eps K)⌉

/-- One of the angles of `compute_thetas` (lines 249-250). -/
noncomputable def theta (m K : ℕ) (y : ℝ) : ℝ :=
  ((m + (m % 2 : ℕ)) * π / 2 + (-1) ^ (m % 2) * arcsin (√y)) / K

/-- `compute_thetas` (lines 225-255). -/
noncomputable def thetas (m K : ℕ) (A : ℝ) : ℝ × ℝ := (theta m K (max (A - cE) 0), theta m K (min (A + cE) 1))

/-- The condition of line 286 for an entry of the table. -/
def Fits (m K : ℕ) (tb ts : ℝ) (e : ℕ × ℕ) : Prop :=
  (e.1 * m + e.2) * π / 2 ≤ e.1 * K * tb ∧ e.1 * K * tb ≤ (e.1 * m + e.2) * π / 2 + π / 2 ∧
  (e.1 * m + e.2) * π / 2 ≤ e.1 * K * ts ∧ e.1 * K * ts ≤ (e.1 * m + e.2) * π / 2 + π / 2

open Classical in
/-- `compute_Li` (lines 258-292): the first entry that fits; `argmax` is 0 if none does. -/
noncomputable def nextL (m K : ℕ) (tb ts : ℝ) : ℕ × ℕ := (table.find? fun e => decide (Fits m K tb ts e)).getD (3, 0)

/-- `body_fun` (lines 143-169). -/
noncomputable def body (A : ℝ) (s : Stt) : Stt :=
  let t := thetas s.m s.K A
  let e := nextL s.m s.K t.1 t.2
  ⟨e.1 * s.m + e.2, e.1 * s.K, t.1, t.2⟩

/-- The start (lines 130-134). -/
def init : Stt := ⟨0, 1, 0, 0⟩

/-- The state after `n` rounds. -/
noncomputable def after (A : ℕ → ℝ) : ℕ → Stt
  | 0 => init
  | n + 1 => body (A n) (after A n)

open Classical in
/-- The loop (lines 173-178): `break_cond` is `2 eps + 1` at first; the result is the number of rounds. -/
noncomputable def loopFrom (A : ℕ → ℝ) (eps : ℝ) : ℕ → ℕ → ℝ → Option ℕ
  | 0, _, _ => none
  | fuel + 1, i, bc => if bc > 2 * eps then loopFrom A eps fuel (i + 1) |(after A (i + 1)).tb - (after A (i + 1)).ts| else some i

noncomputable def rounds (A : ℕ → ℝ) (eps : ℝ) (fuel : ℕ) : Option ℕ := loopFrom A eps fuel 0 (2 * eps + 1)

/-- Line 180. -/
noncomputable def result (s : Stt) : ℝ := sin ((s.tb + s.ts) / 2) ^ 2

/-- `IQAE` (lines 25-181). -/
noncomputable def iqae (A : ℕ → ℝ) (eps : ℝ) (fuel : ℕ) : Option ℝ := (rounds A eps fuel).map fun n => result (after A n)

end Verif.Iqae
