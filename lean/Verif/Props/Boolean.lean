import Verif.Jasp.BooleanProof
import Verif.Props.Metric

/-!
# C137: boolean simulation

The theorem compares the simulation on packed words of bits with the execution of the program on basis states (`boolX`), in which every qubit
has a name that is never used again.
-/

namespace Verif.Props
open Verif.Jasp.Met Verif.Types

/-- Running a program on basis states, without qubits at the beginning. -/
def bRun (G : BGuard) (fuel : Nat) (p : Pg) (a : Var → Option Int) : Option (Ctx (boolX G) × Bx) :=
  eval (boolX G) fuel p (mArgs _ a) 0 ⟨0, fun _ => false, [], 0⟩

/-- Running a program with `bit_array_padding = 64 * W`. -/
def bSim (W fuel : Nat) (p : Pg) (a : Var → Option Int) : Option (Ctx (boolI W) × Bq) :=
  eval (boolI W) fuel p (mArgs _ a) 0 (Bq.init W)

theorem lift_eq {α β : Type} {x y : α ⊕ β} (h : Sum.LiftRel Eq Eq x y) : y = x := by
  cases h with
  | inl e => rw [e]
  | inr e => rw [e]

/-- The restricted executions of the theorem are executions. -/
theorem boolean_guarded {G : BGuard} {fuel : Nat} {p : Pg} {a : Var → Option Int} {z} (h : bRun G fuel p a = some z) :
    ∃ z', bRun .free fuel p a = some z' ∧ mSame z.1 z'.1 ∧ z'.2 = z.2 := by
  let M : Sim (boolX G) (boolX .free) :=
    { RQ := Eq
      RA := Eq
      RS := Eq
      create := by
        rintro n s _ z rfl h
        obtain ⟨⟨h1, h2⟩, h3⟩ := guardedP h
        exact ⟨z, by simp only [boolX, BGuard.free, h1, and_self, if_true]; exact h3, rfl, rfl⟩
      getq := by rintro a _ i q rfl h; exact ⟨q, h, rfl⟩
      size := by rintro a _ rfl; rfl
      fuse := by
        rintro x y x' y' z hx hy h
        obtain ⟨h1, h2⟩ := guarded h
        have e1 : x' = x := lift_eq hx
        have e2 : y' = y := lift_eq hy
        rw [e1, e2]
        exact ⟨z, h2, rfl⟩
      slice := by
        rintro a _ i j z rfl h
        obtain ⟨h1, h2⟩ := guarded h
        exact ⟨z, h2, rfl⟩
      gate := by
        rintro g qs qs' s _ t hq rfl h
        rw [List.forall₂_eq_eq_eq] at hq
        subst hq
        obtain ⟨⟨h1, h2, h3⟩, h4⟩ := guardedP h
        exact ⟨t, by simp only [boolX, BGuard.free]; rw [if_pos ⟨trivial, h2, h3⟩]; exact h4, rfl⟩
      meas1 := by rintro q _ k s _ z rfl rfl h; exact ⟨z.2, h, rfl⟩
      measA := by rintro q _ k s _ z rfl rfl h; exact ⟨z.2, h, rfl⟩
      reset := by
        rintro x x' s _ t hx rfl h
        obtain ⟨⟨h1, h2⟩, h3⟩ := guardedP h
        have e1 : x' = x := lift_eq hx
        rw [e1]
        exact ⟨t, (if_pos ⟨by simp [BGuard.free], h2⟩).trans h3, rfl⟩
      delete := by rintro x _ s _ t rfl rfl h; exact ⟨t, h, rfl⟩ }
  obtain ⟨z', h1, h2, h3⟩ := eval_sim (M := M) (mArgs_rel _ a) (rfl : M.RS _ _) h
  exact ⟨z', h1, mSame_of h2, h3.symm⟩

/-- `boolean_simulation` computes, for every program, the measured numbers of the execution on basis states, and submits a warning for every
    qubit that is deleted in state 1. -/
theorem boolean_simulation_partial {W : Nat} (hW : 64 * W ≤ 2 ^ 64) {fuel : Nat} {p : Pg} {a : Var → Option Int} {z}
    (h : bRun (boolGuard W) fuel p a = some z) :
    ∃ z', bSim W fuel p a = some z' ∧ mSame z.1 z'.1 ∧ z'.2.warn = z.2.dirty := by
  have ha : WRC (boolSim W hW) [] (mArgs (boolX (boolGuard W)) a) (mArgs (boolI W) a) := by
    intro v x hx
    simp only [mArgs, Option.map_eq_some_iff] at hx
    obtain ⟨i, hi, rfl⟩ := hx
    exact ⟨.int i, by simp [mArgs, hi], .int i⟩
  obtain ⟨m, z', -, h1, h2, h3⟩ := eval_wsim (M := boolSim W hW) (s := (⟨0, fun _ => false, [], 0⟩ : Bx)) (s' := Bq.init W) ha (mem_init W) h
  refine ⟨z', h1, ?_, h3.warn⟩
  intro v i hi
  obtain ⟨y, hy, hr⟩ := h2 v _ hi
  cases hr with
  | int _ => exact hy

/-! ### Example: an increment whose size is an argument -/

def bX : Gd := { ops := [], name := "x" }
def bCx (b : Bool) : Gd := { ops := [], name := "cx", ctrl := some ("x", [b]) }
def bCcx : Gd := { ops := [], name := "2cx", ctrl := some ("x", [true, true]) }
def bSwap : Gd := { ops := [], name := "swap" }
def bCp : Gd := { ops := [], name := "cp", ctrl := some ("p", [true]) }

/-- Setting the qubits of an array (variable `q`) for which the given number (variable `v`) has bits; `n` is the number of qubits; the program uses 40–49. -/
def bEncode (n q v : Var) (rest : Pg) : Pg :=
  .cls (fun _ => some [0]) [] [40] <|
  .whl (fun l => match l with | [some i, some n, _, _] => some (decide (i < n)) | _ => none) [40, 41, 42, 43] [44, 41, 42, 43]
    (.cls (fun l => match l with | [i, v] => some [i + 1, v / 2 ^ i.toNat % 2] | _ => none) [40, 42] [44, 45] <|
      .cond 45 [0, 1] [] (.getq 2 0 1 <| .gate bX [2] .done) [0, 1] [] .done [43, 40] [] .done)
    [] [40, n, v, q] [46, 47, 48, 49] rest

/-- `qv = QuantumVariable(n); qv[:] = v; c = QuantumVariable(n); x(c[0]);
    for i in range(n-1): mcx([c[i], qv[i]], c[i+1])`, then `cx(c[i], qv[i])` for all `i`;
    the carries are not uncomputed.  Variables 0, 1, 2 are `n`, `v`, 0; the results are in 30 and 31. -/
def bInc : Pg :=
  .create 3 0 <| bEncode 0 3 1 <| .create 4 0 <| .getq 5 4 2 <| .gate bX [5] <|
  .whl (fun l => match l with | [some i, some n, _, _] => some (decide (i + 1 < n)) | _ => none) [0, 1, 2, 3] [6, 1, 2, 3]
    (.cls (fun l => l.head?.map fun i => [i + 1]) [0] [6] <| .getq 7 2 0 <| .getq 8 3 0 <| .getq 9 3 6 <| .gate bCcx [7, 8, 9] .done)
    [] [2, 0, 3, 4] [10, 11, 12, 13] <|
  .whl (fun l => match l with | [some i, some n, _, _] => some (decide (i < n)) | _ => none) [0, 1, 2, 3] [6, 1, 2, 3]
    (.cls (fun l => l.head?.map fun i => [i + 1]) [0] [6] <| .getq 7 2 0 <| .getq 8 3 0 <| .gate (bCx true) [8, 7] .done)
    [] [2, 0, 3, 4] [14, 15, 16, 17] <|
  .meas 30 3 <| .delete 4 .done

def bArgs (l : List Int) : Var → Option Int := fun v => l[v]?

/-- 3 + 1 = 4 with three qubits, three carries are deleted in state 1; 7 + 1 = 0. -/
example : ((bSim 3 9 bInc (bArgs [3, 3, 0])).bind fun z => (z.1 30).bind fun x => x.toInt.map fun i => (i, z.2.warn)) = some (4, 3) := by
  decide +kernel
example : ((bSim 3 9 bInc (bArgs [3, 7, 0])).bind fun z => (z.1 30).bind fun x => x.toInt.map fun i => (i, z.2.warn)) = some (0, 3) := by
  decide +kernel
example : ((bRun (boolGuard 3) 9 bInc (bArgs [3, 4, 0])).bind fun z => (z.1 30).bind fun x => x.toInt.map fun i => (i, z.2.dirty)) =
    some (5, 1) := by decide +kernel
/-- `x(q[1]); swap(q[0], q[1])`; then, controlled on 0 of the second qubit, a flip of the first. -/
example : ((bSim 2 9 (.create 2 0 <| .getq 3 2 1 <| .getq 4 2 5 <| .gate bX [4] <| .gate bSwap [3, 4] <| .meas 6 2 <| .gate (bCx false) [4, 3] <|
    .meas 7 2 .done) (fun v => if v = 0 then some 2 else if v = 1 then some 0 else some 1)).bind fun z =>
    (z.1 6).bind fun x => (z.1 7).bind fun y => x.toInt.bind fun i => y.toInt.map fun j => (i, j)) = some (1, 0) := by decide +kernel

/-! ### Findings -/

theorem alloc_count (n : Nat) : ∀ (reg free : JList), 0 ≤ reg.counter → reg.counter ≤ reg.array.length →
    (allocLoop n reg free).1.counter = min (reg.counter + n) reg.array.length := by
  induction n with
  | zero => intro reg free h h'; simp only [allocLoop]; omega
  | succ n ih =>
    intro reg free h h'
    have e : (reg.append free.pop.2).array.length = reg.array.length := atSet_length _ _ _
    have e' : (reg.append free.pop.2).counter = min (reg.counter + 1) reg.array.length := rfl
    rw [allocLoop, ih _ _ (by rw [e']; omega) (by rw [e', e]; omega), e, e']
    push_cast
    omega

/-- A variable never has more than `W = bit_array_padding / 64` qubits; larger ones are cut without an error. -/
theorem boolean_size {W : Nat} {n : Nat} {s : Bq} {z} (h : (boolI W).create n s = some z) : (boolI W).size z.1 = min (n : Int) W := by
  obtain rfl := Option.some.inj h
  obtain ⟨i1, i2, i3⟩ := init_ok [] W (by simp)
  have i4 : (JList.init [] W).counter = 0 := by
    have := val_length i1; rw [i2] at this; simpa using this.symm
  show (allocLoop n (JList.init [] W) s.free).1.counter = _
  rw [alloc_count n _ _ i1.1 i1.2, i4, i3]
  simp

/-- Three qubits are flipped and measured. -/
def bThree : Pg := .create 3 0 <| bEncode 0 3 1 <| .meas 30 3 .done

/-- With `bit_array_padding = 128` a variable of three qubits has two of them, and a gate on the third acts on the second: 7 is measured as 1. -/
theorem boolean_truncated :
    ((bRun .free 9 bThree (bArgs [3, 7])).bind fun z => (z.1 30).bind Val.toInt) = some 7 ∧
    ((bSim 2 9 bThree (bArgs [3, 7])).bind fun z => (z.1 30).bind Val.toInt) = some 1 ∧
    ((bSim 3 9 bThree (bArgs [3, 7])).bind fun z => (z.1 30).bind Val.toInt) = some 7 := by decide +kernel

/-- Two variables of two qubits have the values `v`, `w`; the second one is reset and both are measured.  Variables 0, 1, 2 are 2, `v`, `w`. -/
def bReset : Pg := .create 3 0 <| bEncode 0 3 1 <| .create 4 0 <| bEncode 0 4 2 <| .reset 4 <| .meas 30 3 <| .meas 31 4 .done

/-- `reset(qv)` resets the places from `qv[0]` to `qv[0] + qv[1]` instead of the qubits of `qv`: only one of its two qubits is reset,
    but the other variable is set to 0. -/
theorem boolean_reset_array :
    ((bRun .free 9 bReset (bArgs [2, 3, 3])).bind fun z => (z.1 30).bind fun x => (z.1 31).bind fun y => x.toInt.bind fun i => y.toInt.map fun j =>
      (i, j)) = some (3, 0) ∧
    ((bSim 2 9 bReset (bArgs [2, 3, 3])).bind fun z => (z.1 30).bind fun x => (z.1 31).bind fun y => x.toInt.bind fun i => y.toInt.map fun j =>
      (i, j)) = some (0, 2) := by decide +kernel

/-- `len(qv[s:t])` of three qubits. -/
def bSlice : Pg := .create 3 0 <| .slice 4 3 1 2 <| .size 30 4 .done

/-- An empty slice has a negative size: `len(qv[2:1]) = -1`. -/
theorem boolean_slice_negative :
    ((bRun .free 9 bSlice (bArgs [3, 2, 1])).bind fun z => (z.1 30).bind Val.toInt) = some 0 ∧
    ((bSim 3 9 bSlice (bArgs [3, 2, 1])).bind fun z => (z.1 30).bind Val.toInt) = some (-1) := by decide +kernel

/-- A qubit is created, then `n` more; the last one is flipped, the first one is measured.  Variables 0, 1, 2 are 1, 0, `n`. -/
def bMany : Pg :=
  .create 3 0 <|
  .whl (fun l => match l with | [some i, some n, _, _] => some (decide (i < n)) | _ => none) [0, 1, 2, 3] [4, 1, 2, 5]
    (.cls (fun l => l.head?.map fun i => [i + 1]) [0] [4] <| .create 5 2 .done)
    [] [1, 2, 0, 3] [6, 7, 8, 9] <|
  .getq 10 9 1 <| .gate bX [10] <| .meas 30 3 .done

/-- If the qubits do not suffice, then places are used twice: with 64 qubits the 65th is the first one. -/
theorem boolean_aliased :
    ((bRun .free 70 bMany (bArgs [1, 0, 64])).bind fun z => (z.1 30).bind Val.toInt) = some 0 ∧
    ((bSim 1 70 bMany (bArgs [1, 0, 64])).bind fun z => (z.1 30).bind Val.toInt) = some 1 ∧
    ((bSim 1 70 bMany (bArgs [1, 0, 63])).bind fun z => (z.1 30).bind Val.toInt) = some 0 := by decide +kernel

/-- Controlled phases other than `z` are rejected, though they do not change basis states. -/
theorem boolean_rejects_cp (ps : List Int) (w : List Nat) (a b : Bool) :
    processOp bCp ps w = none ∧ gateAct bCp [a, b] = some [a, b] := by
  refine ⟨?_, by cases a <;> cases b <;> decide +kernel⟩
  simp [processOp, bCp, phaseNames]

end Verif.Props
