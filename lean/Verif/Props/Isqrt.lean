import Verif.Rev.Isqrt

/-!
Property theorems C20, C45: the integer square root and its adders.

Specification vocabulary: `reg n A` is the register of the qubits `A 0, …, A (n-1)`, `regVal` the
integer held by a register (little endian), `Nat.sqrt` the floor of the square root.
-/

namespace Verif.Props

open Verif.Rev

variable {Q : Type} [DecidableEq Q]

/-- The register `A 0, …, A (n-1)`. -/
def reg (n : Nat) (A : Nat → Q) : List Q := (List.range n).map A

theorem mem_reg {n : Nat} {A : Nat → Q} {q : Q} : q ∈ reg n A ↔ ∃ i, i < n ∧ A i = q := by
  simp [reg]

theorem lay_of_nodup {n : Nat} {A B : Nat → Q} (h : (reg n A ++ reg n B).Nodup) : Lay n A B := by
  have ha := (List.nodup_append.1 h).1
  have hb := (List.nodup_append.1 h).2.1
  have inj : ∀ C : Nat → Q, (reg n C).Nodup → ∀ i j, i < n → j < n → C i = C j → i = j := by
    intro C hC i j hi hj e
    have := List.inj_on_of_nodup_map hC
    exact this (by simpa using hi) (by simpa using hj) e
  refine ⟨inj A ha, inj B hb, fun i j hi hj e => ?_⟩
  exact (List.nodup_append.1 h).2.2 (A i) (mem_reg.2 ⟨i, hi, rfl⟩) (B j) (mem_reg.2 ⟨j, hj, rfl⟩) e

theorem z_of_nodup {n : Nat} {A B : Nat → Q} {z : Q} (h : (z :: (reg n A ++ reg n B)).Nodup) :
    ∀ i, i < n → z ≠ A i ∧ z ≠ B i := by
  intro i hi
  have := (List.nodup_cons.1 h).1
  constructor
  · rintro rfl; exact this (List.mem_append_left _ (mem_reg.2 ⟨i, hi, rfl⟩))
  · rintro rfl; exact this (List.mem_append_right _ (mem_reg.2 ⟨i, hi, rfl⟩))

/-! ### C20 -/

/-- C20, `add(A, B)`: `A` becomes `A + B mod 2^n`, every other qubit (in particular `B`) is restored. -/
theorem C20_add (n : Nat) (A B : Nat → Q) (hnd : (reg n A ++ reg n B).Nodup) (s : St Q) :
    regVal (reg n A) (isqAdd n A B s)
        = (regVal (reg n A) s + regVal (reg n B) s) % 2 ^ n
      ∧ ∀ q, q ∉ reg n A → isqAdd n A B s q = s q := by
  obtain ⟨h1, h2⟩ := isqAdd_spec (lay_of_nodup hnd) s
  simp only [reg, regVal_range]
  refine ⟨h1, fun q hq => h2 q fun i hi e => hq (mem_reg.2 ⟨i, hi, e.symm⟩)⟩

/-- C20, `control_add(z, B, A)`: adds `A` to `B` exactly when `z` is set. -/
theorem C20_control_add (n : Nat) (hn : 0 < n) (z : Q) (A B : Nat → Q)
    (hnd : (z :: (reg n A ++ reg n B)).Nodup) (s : St Q) :
    regVal (reg n B) (isqCtlAdd n z B A s)
        = (regVal (reg n B) s + if s z then regVal (reg n A) s else 0) % 2 ^ n
      ∧ ∀ q, q ∉ reg n B → isqCtlAdd n z B A s q = s q := by
  obtain ⟨h1, h2⟩ := isqCtlAdd_spec (lay_of_nodup (List.nodup_cons.1 hnd).2) hn z (z_of_nodup hnd) s
  simp only [reg, regVal_range]
  refine ⟨h1, fun q hq => h2 q fun i hi e => hq (mem_reg.2 ⟨i, hi, e.symm⟩)⟩

/-- C20, `control_add_sub(z, A, B)`: `A` becomes `A - B` when `z` is set and `A + B` otherwise
(modulo `2^n`), every other qubit is restored. -/
theorem C20_control_add_sub (n : Nat) (z : Q) (A B : Nat → Q)
    (hnd : (z :: (reg n A ++ reg n B)).Nodup) (s : St Q) :
    (regVal (reg n A) (isqAddSub n z A B s) : Int)
        = (regVal (reg n A) s + if s z then -(regVal (reg n B) s : Int) else regVal (reg n B) s)
            % 2 ^ n
      ∧ ∀ q, q ∉ reg n A → isqAddSub n z A B s q = s q := by
  obtain ⟨h1, h2⟩ := isqAddSub_spec (lay_of_nodup (List.nodup_cons.1 hnd).2) z (z_of_nodup hnd) s
  simp only [reg, regVal_range]
  refine ⟨h1, fun q hq => h2 q fun i hi e => hq (mem_reg.2 ⟨i, hi, e.symm⟩)⟩

/-- 5 + 6 = 11 = 3 (mod 8), with `A = q0 q1 q2`, `B = q3 q4 q5`. -/
example : regVal (reg 3 (fun i => i)) (isqAdd 3 (fun i => i) (fun i => i + 3)
    (fun q : Nat => (5 + 8 * 6).testBit q)) = 3 := by decide +kernel

/-- 2 - 5 = -3 = 5 (mod 8) with the control `q6` set. -/
example : regVal (reg 3 (fun i => i)) (isqAddSub 3 6 (fun i => i) (fun i => i + 3)
    (fun q : Nat => (2 + 8 * 5 + 64).testBit q)) = 5 := by decide +kernel

/-! ### C45 -/

/-- C45, `q_isqrt(R)`: for an unsigned register of any size holding any `X`, the returned register
holds `⌊√X⌋`, `R` holds the remainder `X - ⌊√X⌋²`, the qubits that are released (the extension of `R`,
the top of `F`, the helper `z`) are clean, and no other qubit changes. -/
theorem C45_isqrt (size : Nat) (hs : 1 ≤ size) (R F : Nat → Q) (z : Q) (s : St Q)
    (hnd : (z :: (reg (isqExt size) R ++ reg (isqExt size) F)).Nodup)
    (hF : ∀ q ∈ reg (isqExt size) F, s q = false) (hz : s z = false)
    (hext : ∀ i, size ≤ i → i < isqExt size → s (R i) = false) :
    let X := regVal (reg size R) s
    let s' := qIsqrt size R F z s
    regVal (reg size F) s' = Nat.sqrt X
    ∧ regVal (reg size R) s' = X - Nat.sqrt X ^ 2
    ∧ (∀ i, size ≤ i → i < isqExt size → s' (R i) = false ∧ s' (F i) = false)
    ∧ s' z = false
    ∧ ∀ q, q ≠ z → q ∉ reg (isqExt size) R → q ∉ reg (isqExt size) F → s' q = s q := by
  intro X s'
  have hX : bval size (fun i => s (R i)) = X := (regVal_range size R s).symm
  obtain ⟨r, v, hv⟩ := qIsqrt_spec size hs (lay_of_nodup (List.nodup_cons.1 hnd).2) (z_of_nodup hnd)
    (fun i hi => hF _ (mem_reg.2 ⟨i, hi, rfl⟩)) hz hext hX
  have hle : size ≤ isqExt size := by unfold isqExt; split <;> omega
  have hXlt : X < 2 ^ size := by rw [← hX]; exact bval_lt _ _
  have hq : Nat.sqrt X < 2 ^ size := lt_of_le_of_lt (Nat.sqrt_le_self X) hXlt
  have hr : ∀ i, i < isqExt size → r i = (X - Nat.sqrt X ^ 2).testBit i := by
    apply bval_inj
    rw [hv, bval_testBit, Nat.mod_eq_of_lt]
    exact lt_of_le_of_lt (Nat.sub_le _ _)
      (lt_of_lt_of_le hXlt (Nat.pow_le_pow_right (by decide) hle))
  refine ⟨?_, ?_, fun i h1 h2 => ⟨?_, ?_⟩, v.hz, fun q h1 h2 h3 => ?_⟩
  · simp only [reg, regVal_range]
    rw [bval_congr size (fun i hi => v.hf i (by omega)), bval_testBit, Nat.mod_eq_of_lt hq]
  · simp only [reg, regVal_range]
    rw [bval_congr size (fun i hi => (v.hr i (by omega)).trans (hr i (by omega))), bval_testBit,
      Nat.mod_eq_of_lt (lt_of_le_of_lt (Nat.sub_le _ _) hXlt)]
  · refine (v.hr i h2).trans ?_
    rw [hr i h2]
    exact testBit_zero_of_lt _ _ _ (lt_of_le_of_lt (Nat.sub_le _ _) hXlt) h1
  · refine (v.hf i h2).trans ?_
    exact testBit_zero_of_lt _ _ _ hq h1
  · refine v.ho q h1 fun i hi => ⟨fun e => h2 (mem_reg.2 ⟨i, hi, e.symm⟩),
      fun e => h3 (mem_reg.2 ⟨i, hi, e.symm⟩)⟩

/-- `√27 = 5` with remainder 2 on a five qubit register (extended to six). -/
example : regVal (reg 5 (fun i => i + 6)) (qIsqrt 5 (fun i => i) (fun i => i + 6) 12
      (fun q : Nat => (27).testBit q)) = 5
    ∧ regVal (reg 5 (fun i => i)) (qIsqrt 5 (fun i => i) (fun i => i + 6) 12
      (fun q : Nat => (27).testBit q)) = 2 := by
  have h := C45_isqrt 5 (by decide) (fun i => i) (fun i => i + 6) 12 (fun q : Nat => (27).testBit q)
    (by decide) (by decide) (by decide) (by decide)
  have hX : regVal (reg 5 (fun i => i)) (fun q : Nat => (27).testBit q) = 27 := by decide
  simp only [hX] at h
  have : Nat.sqrt 27 = 5 := by symm; rw [Nat.eq_sqrt']; decide
  rw [this] at h
  exact ⟨h.1, h.2.1⟩

end Verif.Props
