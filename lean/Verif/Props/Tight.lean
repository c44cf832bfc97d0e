import Mathlib.Analysis.SpecialFunctions.Complex.Circle
import Verif.Circ.Append
import Verif.Circ.Depth
import Verif.Circ.Zero
import Verif.Circ.PassManager
import Verif.Iface.Results
import Verif.Iqae.Budget

/-!
Further property theorems for C23, C24, C29, C30, C37 and C149. Each one states a claim that was covered only by an example
or by a hypothesis before.
-/

namespace Verif.Props

/-! ### C23 -/
section
open Verif.Circ

/-- **C23** Python indices: `k` counts from the front, `-(k + 1)` from the end, everything else raises. -/
theorem append_index (reg : List Bit) (isQ : Bool) :
    (∀ k (h : k < reg.length), conv reg isQ (.idx k) = some (.bit reg[k]) ∧
      conv reg isQ (.idx (-(k + 1 : Int))) = some (.bit (reg[reg.length - 1 - k]'(by omega)))) ∧
    (∀ i : Int, (reg.length : Int) ≤ i ∨ i < -(reg.length : Int) → conv reg isQ (.idx i) = none) := by
  refine ⟨fun k h => ⟨?_, ?_⟩, fun i h => ?_⟩
  · rw [conv]
    rw [if_neg (by omega), if_neg (by omega), Int.toNat_natCast, List.getElem?_eq_getElem h]
    rfl
  · rw [conv]
    have hneg : -(k + 1 : Int) < 0 := by omega
    rw [if_pos hneg, if_neg (by omega)]
    have : (-(k + 1 : Int) + reg.length).toNat = reg.length - 1 - k := by omega
    rw [this, List.getElem?_eq_getElem (by omega)]
    rfl
  · rw [conv]
    by_cases hi : i < 0
    · rw [if_pos hi, if_pos (by omega)]
    · rw [if_neg hi, if_neg (by omega), List.getElem?_eq_none (by omega)]
      rfl

/-! ### C24 -/

/-- **C24** Allocation, deallocation and the global phase do not change the depth of any bit. Every other instruction on at
least one bit puts all its bits to the same depth, which is the largest of their depths plus the weight, and leaves the
others. -/
theorem depth_instruction {B : Type} [DecidableEq B] (st : B → Nat) (i : DInstr B) :
    (i.name = "qb_alloc" ∨ i.name = "qb_dealloc" ∨ i.name = "gphase" → depthStep st i = some st) ∧
    (i.name ≠ "qb_alloc" → i.name ≠ "qb_dealloc" → i.name ≠ "gphase" → i.bits ≠ [] →
      ∃ st' m, depthStep st i = some st' ∧ (∃ b ∈ i.bits, m = st b + i.w) ∧ (∀ b ∈ i.bits, st b + i.w ≤ m ∧ st' b = m) ∧
        ∀ b, b ∉ i.bits → st' b = st b) := by
  constructor
  · intro h
    rw [depthStep, if_pos]
    rcases h with h | h | h <;> simp [DInstr.skipped, h]
  · intro h1 h2 h3 hb
    have hs : i.skipped ≠ true := by simp [DInstr.skipped, h1, h2, h3]
    rw [depthStep, if_neg hs]
    cases hm : (i.bits.map fun b => st b + i.w).max? with
    | none =>
      rw [List.max?_eq_none_iff] at hm
      exact absurd (List.map_eq_nil_iff.1 hm) hb
    | some m =>
      have := List.max?_eq_some_iff.1 hm
      obtain ⟨b, hbm, e⟩ := List.mem_map.1 this.1
      refine ⟨_, m, rfl, ⟨b, hbm, e.symm⟩, fun b hb => ⟨this.2 _ (List.mem_map.2 ⟨b, hb, rfl⟩), if_pos hb⟩, fun b hb => if_neg hb⟩

/-! ### C29 -/

/-- The matrices of the named one-qubit gates with angle `a` (rows), written independently of the table; `none` for other
names. -/
noncomputable def gateMatrix (a : ℝ) : String → Option ((ℂ × ℂ) × (ℂ × ℂ))
  | "id" => some ((1, 0), (0, 1))
  | "gphase" => some ((Complex.exp (a * Complex.I), 0), (0, Complex.exp (a * Complex.I)))
  | "p" => some ((1, 0), (0, Complex.exp (a * Complex.I)))
  | "rz" => some ((Complex.exp (-(a / 2) * Complex.I), 0), (0, Complex.exp (a / 2 * Complex.I)))
  | "z" => some ((1, 0), (0, -1))
  | "s" => some ((1, 0), (0, Complex.I))
  | "s_dg" => some ((1, 0), (0, -Complex.I))
  | "t" => some ((1, 0), (0, Complex.exp (Real.pi / 4 * Complex.I)))
  | "t_dg" => some ((1, 0), (0, Complex.exp (-(Real.pi / 4) * Complex.I)))
  | "x" => some ((0, 1), (1, 0))
  | "y" => some ((0, -Complex.I), (Complex.I, 0))
  | _ => none

/-- **C29** Every gate in the table of diagonal gates has a diagonal matrix, for every angle. So a qubit in state 0 stays
in state 0. -/
theorem diagonal_table (a : ℝ) (n : String) (h : n ∈ diagonal1q) : ∃ u v, gateMatrix a n = some ((u, 0), (0, v)) := by
  simp only [diagonal1q, List.mem_cons, List.not_mem_nil, or_false] at h
  rcases h with rfl | rfl | rfl | rfl | rfl | rfl | rfl | rfl | rfl <;> exact ⟨_, _, rfl⟩

example : gateMatrix 0 "x" = some ((0, 1), (1, 0)) ∧ "x" ∉ diagonal1q := ⟨rfl, by decide⟩
end

/-! ### C30 -/

/-- **C30** A rejected call leaves no trace: the passes at the end are those of the sequence without it. -/
theorem pass_rejected {α ε : Type} (c : Verif.PassManager.Call α ε) (e : Verif.PassManager.Err) (b : List (Verif.PassManager.Call α ε)) :
    ∀ (a : List (Verif.PassManager.Call α ε)) (ps : List (Verif.PassManager.Pass α ε)),
      Verif.PassManager.call (Verif.PassManager.calls ps a) c = .error e →
      Verif.PassManager.calls ps (a ++ c :: b) = Verif.PassManager.calls ps (a ++ b)
  | [], ps, h => by
    rw [Verif.PassManager.calls] at h
    rw [List.nil_append, List.nil_append, Verif.PassManager.calls, h]
  | d :: a, ps, h => by
    rw [List.cons_append, List.cons_append, Verif.PassManager.calls, Verif.PassManager.calls]
    rw [Verif.PassManager.calls] at h
    cases hd : Verif.PassManager.call ps d with
    | ok ps' =>
      rw [hd] at h
      exact pass_rejected c e b a ps' h
    | error e' =>
      rw [hd] at h
      exact pass_rejected c e b a ps h

/-! ### C37 -/

/-- The number of a list of bits, most significant first. -/
def bitsValue : List Bool → Nat
  | [] => 0
  | b :: r => (if b then 2 ^ r.length else 0) + bitsValue r

/-- The characters of bits. -/
def bitChar (b : Bool) : Char := if b then '1' else '0'

theorem foldl_bits : ∀ (bs : List Bool) (k : Nat),
    (bs.map bitChar).foldl (fun n c => 2 * n + (if c = '1' then 1 else 0)) k = k * 2 ^ bs.length + bitsValue bs
  | [], k => by simp [bitsValue]
  | b :: bs, k => by
    rw [List.map_cons, List.foldl_cons, foldl_bits bs, bitsValue, List.length_cons, pow_succ]
    cases b <;> simp [bitChar] <;> ring

/-- **C37** The integer key of a bit string is the number of its leading `n` bits, whatever follows and wherever there are
spaces. -/
theorem int_key_value (s : List Char) (bs rest : List Bool) (hb : bs ≠ [])
    (hs : s.filter (· != ' ') = bs.map bitChar ++ rest.map bitChar) :
    Verif.Iface.intKey bs.length s = some (bitsValue bs) := by
  rw [Verif.Iface.intKey, hs, List.take_left' (by simp), Verif.Iface.parse2, if_neg, foldl_bits]
  · simp
  · have h1 : (bs.map bitChar).isEmpty = false := by simpa using hb
    have h2 : ((bs.map bitChar).all fun c => c == '0' || c == '1') = true := by
      rw [List.all_eq_true]
      intro c hc
      obtain ⟨b, _, rfl⟩ := List.mem_map.1 hc
      cases b <;> decide
    rw [h1, h2]
    decide

example : Verif.Iface.intKey 2 ['1', ' ', '0', '1'] = some 2 := by decide +kernel

/-! ### C149 -/

/-- **C149** The constant F is the angle between 0 and a quarter turn with `sin² (2F) = 2E`. -/
theorem iqae_constant : 0 < Verif.Iqae.cF ∧ Verif.Iqae.cF ≤ Real.pi / 4 ∧
    Real.sin (2 * Verif.Iqae.cF) ^ 2 = 2 * Verif.Iqae.cE := by
  have hE := Verif.Iqae.cE_pos
  have h1 : √(2 * Verif.Iqae.cE) ≤ 1 := Real.sqrt_le_one.mpr (Verif.Iqae.two_cE_lt.trans (by norm_num))
  have h0 : 0 < √(2 * Verif.Iqae.cE) := Real.sqrt_pos.2 (by linarith)
  refine ⟨?_, ?_, ?_⟩
  · rw [Verif.Iqae.cF]
    have := Real.arcsin_pos.2 h0
    linarith
  · rw [Verif.Iqae.cF]
    have := Real.arcsin_le_pi_div_two (√(2 * Verif.Iqae.cE))
    linarith
  · have : 2 * Verif.Iqae.cF = Real.arcsin (√(2 * Verif.Iqae.cE)) := by rw [Verif.Iqae.cF]; ring
    rw [this, Real.sin_arcsin (by linarith) h1, Real.sq_sqrt (by linarith)]

end Verif.Props
