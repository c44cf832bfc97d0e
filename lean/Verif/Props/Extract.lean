import Verif.Jasp.ExtractEval

/-!
# C145–C147: circuits and post-processing functions of Jasp programs

`xExec` executes a program on qubits, where `mb k` is the outcome of the `k`-th measurement of a qubit; `xCirc` is `to_qc` and `xPost` is
`extract_post_processing`.  Not all programs are treated correctly (see the negative theorems below); `odd`, `lost` and `nest` note during the
execution or the construction that one of these cases occurred.
-/

namespace Verif.Props
open Verif.Jasp.Xt

structure XProg where
  ins : List Nat
  body : Pg
  outs : List Nat

def xExec (mb : Nat → Bool) (fuel : Nat) (p : XProg) (args : List Int) : Option (List EVal × St) :=
  sub (eval (execM mb) fuel p.body) p.ins p.outs (args.map .int) ⟨0, 0, [], false⟩

def xCirc (fuel : Nat) (p : XProg) (args : List Int) : Option (List XVal × Qc) :=
  sub (eval extM fuel p.body) p.ins p.outs (args.map .int) Qc.init

def xPost (l : List Bool) (fuel : Nat) (p : XProg) (args : List Int) : Option (List PVal × Int) :=
  sub (eval (postM l) fuel p.body) p.ins p.outs (args.map .int) 0

/-- The outcomes of the first `n` measurements. -/
def xBits (mb : Nat → Bool) (n : Nat) : List Bool := (List.range n).map mb

/-! ### Post-processing -/

theorem xPR : ∀ args : List Int, List.Forall₂ PR (args.map .int) (args.map .int) := pr_map

/-- The function that was extracted computes the results of the program from the outcomes of the measurements (in their order).  What is
    missing: called programs with constants, and executions where `odd` is noted (a fused single qubit, a slice with negative or too large
    bounds, a negative number of qubits). -/
theorem extract_post_partial {p : XProg} (hp : noConst p.body) {fuel : Nat} {args : List Int} {mb : Nat → Bool} {z}
    (h : xExec mb fuel p args = some z) (ho : z.2.odd = false) {n : Nat} (hn : z.2.k ≤ n) :
    ∃ z', xPost (xBits mb n) fuel p args = some z' ∧ z'.1.map PVal.toInt = z.1.map EVal.toInt ∧ z'.2 = z.2.k := by
  obtain ⟨c0, w, h1, h2, h3, h4⟩ := sub_some h
  obtain ⟨c0', k1, k2⟩ := RC.sets RC.none (xPR args) h1
  have hl : ∀ j, j < (xBits mb n).length → (xBits mb n).getD j false = mb j := by
    intro j hj
    have : j < n := by simpa [xBits] using hj
    simp [xBits, List.getD_eq_getElem?_getD, List.getElem?_range this]
  obtain ⟨w', m1, m2, m3⟩ := post_eval hl hp k2 h2 (h4 ▸ ho) (by rw [h4]; simpa [xBits] using hn)
  obtain ⟨ys, k6, k7⟩ := m2.gets h3
  exact ⟨(ys, w'.2), sub_eq k1 m1 k6, pr_ints k7, h4 ▸ m3⟩

/-- Slices: `qv[:-1]` of two qubits is one qubit, but post-processing takes its size to be -1 and reads nothing. -/
def xSlice : XProg := ⟨[0, 1, 2], .op .create [0] [3] (.op .slice [3, 1, 2] [4] (.op .meas [4] [5] .done)), [5]⟩

theorem extract_slice_wrong : ∃ mb : Nat → Bool,
    (xExec mb 1 xSlice [2, 0, -1]).map (fun z => (z.1.map EVal.toInt, z.2.k)) = some ([some 1], 1) ∧
    (xPost (xBits mb 1) 1 xSlice [2, 0, -1]).map (fun z => (z.1.map PVal.toInt, z.2)) = some ([some 0], -1) :=
  ⟨fun _ => true, by decide +kernel, by decide +kernel⟩

/-- A single qubit that is fused with an array is an error in post-processing. -/
def xFuse : XProg := ⟨[0, 1], .op .create [0] [3] (.op .getq [3, 1] [4] (.op .fuse [4, 3] [5] (.op .meas [5] [6] .done))), [6]⟩

theorem extract_fuse_error (mb : Nat → Bool) (l : List Bool) :
    (xExec mb 1 xFuse [2, 0]).isSome = true ∧ (xPost l 1 xFuse [2, 0]).isNone = true := by
  constructor <;> rfl

/-- A called program with a constant: it is bound to the argument and the argument to the constant. -/
def xConst : XProg := ⟨[0], .call [1] [3] [2] [4] (.op (.cls (fun l => match l with | [a, b] => some [a - b] | _ => none) 1) [1, 2] [4] .done) [0] [5] .done, [5]⟩

theorem extract_const_wrong (mb : Nat → Bool) (l : List Bool) (i : Int) :
    (xExec mb 1 xConst [i]).map (fun z => z.1.map EVal.toInt) = some [some (3 - i)] ∧
    (xPost l 1 xConst [i]).map (fun z => z.1.map PVal.toInt) = some [some (i - 3)] := by
  constructor <;> rfl

/-! ### Circuits -/

/-- Renaming qubits. -/
def xRen (nm : List Nat) : Ev → Ev
  | .alloc q => .alloc (nm.getD q 0)
  | .dealloc q => .dealloc (nm.getD q 0)
  | .gate g qs ps => .gate g (qs.map fun q => nm.getD q 0) ps
  | .meas q => .meas (nm.getD q 0)
  | .reset q => .reset (nm.getD q 0)

/-- What a result of `to_qc` says about the result of the program, given the values of the bits: a `ProcessedMeasurement` says nothing. -/
def xSays (nm : List Nat) (mem : Nat → Option Bool) : EVal → XVal → Prop
  | .int i, .int j => i = j
  | .int i, .clb c => ∃ b, mem c = some b ∧ i = b2i b
  | .int i, .clist l => ∃ bs, l.map mem = bs.map some ∧ i = ofBits bs
  | .int i, .par cs e => ∃ bs, cs.map mem = bs.map some ∧ i = b2i (xors bs ^^ e)
  | .qb q, .qb q' => nm[q]? = some q'
  | .arr l, .arr l' => l.map (nm[·]?) = l'.map some
  | _, .proc => True
  | _, _ => False

theorem xQb {w : World} {q q' : Nat} (h : RQ w q q') : q' = w.nm.getD q 0 := by
  rw [List.getD_eq_getElem?_getD, show w.nm[q]? = _ from h]; rfl

theorem xQbs {w : World} {l l' : List Nat} (h : List.Forall₂ (RQ w) l l') : l' = l.map fun q => w.nm.getD q 0 := by
  induction h with
  | nil => rfl
  | cons h1 _ ih => rw [List.map_cons, ← ih, ← xQb h1]

theorem xRen_eq {w : World} {e e' : Ev} (h : EvR w e e') : e' = xRen w.nm e := by
  cases h with
  | gate g ps hq => simp only [xRen]; rw [← xQbs hq]
  | _ hq => simp only [xRen]; rw [← xQb hq]

theorem xRens_eq {w : World} {l l' : List Ev} (h : List.Forall₂ (EvR w) l l') : l' = l.map (xRen w.nm) := by
  induction h with
  | nil => rfl
  | cons h1 _ ih => rw [List.map_cons, ← ih, ← xRen_eq h1]

theorem xBits_eq {w : World} {l : List Nat} {bs : List Bool} (h : List.Forall₂ (Bit w) l bs) : l.map w.mem = bs.map some := by
  induction h with
  | nil => rfl
  | cons h1 _ ih => rw [List.map_cons, List.map_cons, ih, show w.mem _ = _ from h1]

theorem xSays_of {w : World} {x y} (h : XR w x y) : xSays w.nm w.mem x y := by
  cases h with
  | int i => rfl
  | clb h => exact ⟨_, h, rfl⟩
  | clist h => exact ⟨_, xBits_eq h, rfl⟩
  | par e _ h => exact ⟨_, xBits_eq h, rfl⟩
  | proc i => trivial
  | qb h => exact h
  | qproc q => trivial
  | arr h =>
    simp only [xSays]
    induction h with
    | nil => rfl
    | cons h1 _ ih => rw [List.map_cons, List.map_cons, ih, show w.nm[_]? = _ from h1]
  | aproc l => trivial

/-- A program, its circuit and a renaming of its qubits. -/
theorem xRun {p : XProg} {fuel : Nat} {args : List Int} {mb : Nat → Bool} {z z'} (h : xExec mb fuel p args = some z)
    (h' : xCirc fuel p args = some z') (ho : z'.2.odd = false) (hl : z'.2.lost = false) :
    ∃ w : World, List.Forall₂ (XR w) z.1 z'.1 ∧ RS mb Rt.init w z.2 z'.2 := by
  have h0 : RS mb Rt.init ⟨[], fun _ => none⟩ ⟨0, 0, [], false⟩ Qc.init :=
    ⟨rfl, rfl, .nil, rfl, List.nodup_nil, by simp, fun _ _ => rfl, by simp [Qc.init], by simp [Qc.init]⟩
  obtain ⟨w, _, h2, h3⟩ := fol_sub (ext_eval p.body) (xr_map _ args) h0 h h' ho hl
  exact ⟨w, h2, h3⟩

/-- The circuit of a program, run with the outcomes `mb`, does what the execution of the program with these outcomes does: the same operations in the same
    order on corresponding qubits, and the results are those of the program, as far as `to_qc` knows them.  What is missing: constructions where
    `odd` or `lost` is noted. -/
theorem extract_circuit_partial {p : XProg} {fuel : Nat} {args : List Int} {mb : Nat → Bool} {z z'} (h : xExec mb fuel p args = some z)
    (h' : xCirc fuel p args = some z') (ho : z'.2.odd = false) (hl : z'.2.lost = false) :
    ∃ nm : List Nat, nm.length = z.2.next ∧ nm.Nodup ∧ (∀ q ∈ nm, q < z'.2.nq) ∧
      (runL mb z'.2.data Rt.init).ev = z.2.ev.map (xRen nm) ∧ (runL mb z'.2.data Rt.init).k = z.2.k ∧
      List.Forall₂ (xSays nm (runL mb z'.2.data Rt.init).mem) z.1 z'.1 := by
  obtain ⟨w, h2, h3⟩ := xRun h h' ho hl
  refine ⟨w.nm, h3.len, h3.nodup, h3.bound, xRens_eq h3.ev, h3.k, ?_⟩
  rw [h3.mem]
  exact forall2_mono xSays_of h2

/-- A gate in a branch with a parameter that is computed from a measurement is not in the circuit. -/
def xDrop : XProg := ⟨[0, 1], .op .create [0] [2] (.op .getq [2, 1] [3] (.op .meas [3] [4]
  (.op (.cls (fun l => match l with | [a] => some [a + 1] | _ => none) 1) [4] [5]
  (.cond 4 [6, 7] [] (.op (.gate "rz" 1) [6, 7] [] .done) [6, 7] [] .done [3, 5] [] .done)))), []⟩

theorem extract_gate_dropped : ∃ mb : Nat → Bool,
    (xExec mb 1 xDrop [1, 0]).map (fun z => z.2.ev.length) = some 3 ∧
    (xCirc 1 xDrop [1, 0]).map (fun z => ((runL mb z.2.data Rt.init).ev.length, z.2.lost)) = some (2, false) :=
  ⟨fun _ => true, by decide +kernel, by decide +kernel⟩

/-- A loop whose condition is a measured bit: with outcome 0 the program does not enter it, the construction of the circuit never leaves it. -/
def xLoop : XProg := ⟨[0, 1], .op .create [0] [2] (.op .getq [2, 1] [3] (.op .meas [3] [4]
  (.whl (.val 0) [5] [5] .done [] [4] [6] .done))), [6]⟩

theorem xLoop_none (c : Nat) : ∀ fuel s, s.lost = false →
    loop (fun vs s => sub (eval extM 0 .done) [5] [5] ([] ++ vs) s) (extCnd (.val 0)) fuel [.clb c] s = none := by
  intro fuel
  induction fuel with
  | zero => intro s _; rfl
  | succ n ih =>
    intro s hs
    simp only [loop, extCnd, List.getElem?_cons_zero, Option.bind_some, if_true]
    exact ih _ hs

theorem extract_while_wrong : (∃ mb : Nat → Bool, ∀ fuel, (xExec mb (fuel + 1) xLoop [1, 0]).map (fun z => z.1.map EVal.toInt) = some [some 0]) ∧
    ∀ fuel, (xCirc fuel xLoop [1, 0]).isNone = true := by
  refine ⟨⟨fun _ => false, fun fuel => rfl⟩, fun fuel => ?_⟩
  have : ∀ (b : Pg) (n m : Nat) (s : Qc), b = .done → s.lost = false →
      loop (fun vs s => sub (eval extM m b) [5] [5] ([] ++ vs) s) (extCnd (.val 0)) n [.clb 0] s = none := by
    intro b n m s hb hs
    subst hb
    exact xLoop_none 0 n s hs
  have h := this .done fuel fuel ⟨1, [0], [.ev (.alloc 0), .meas 0 0], false, false, false, false⟩ rfl rfl
  have e : xCirc fuel xLoop [1, 0] = ((loop (fun vs s => sub (eval extM fuel .done) [5] [5] ([] ++ vs) s) (extCnd (.val 0)) fuel [.clb 0]
      ⟨1, [0], [.ev (.alloc 0), .meas 0 0], false, false, false, false⟩).bind fun z => (sets _ [6] z.1).bind fun c' => eval extM fuel .done c' z.2).bind
        fun z => (gets z.1 [6]).bind fun ys => some (ys, z.2) := rfl
  rw [e, h]
  rfl

/-- The parity of a parity: the inner expectation is lost. -/
def xParity : XProg := ⟨[0, 1], .op .create [0] [2] (.op .getq [2, 1] [3] (.op .meas [3] [4]
  (.op (.parity true true) [4] [5] (.op (.parity false true) [5] [6] .done)))), [6]⟩

theorem extract_parity_wrong : ∃ mb : Nat → Bool,
    (xExec mb 1 xParity [1, 0]).map (fun z => z.1.map EVal.toInt) = some [some 1] ∧
    ∃ z, xCirc 1 xParity [1, 0] = some z ∧ z.1 = [.par [0] false] ∧ (runL mb z.2.data Rt.init).mem 0 = some false :=
  ⟨fun _ => false, by decide +kernel, _, rfl, rfl, rfl⟩

/-! ### The way back: post-processing of the results of the circuit -/

/-- If no measurement stands under a condition, the key of a run of the circuit has the outcomes of the measurements in the order of the program, and
    post-processing of the key gives the results of the program.  What is missing: see `extract_post_partial`, `extract_circuit_partial` and
    `extract_nested_wrong`. -/
theorem extract_key_partial {p : XProg} (hp : noConst p.body) {fuel : Nat} {args : List Int} {mb : Nat → Bool} {z z'}
    (h : xExec mb fuel p args = some z) (h' : xCirc fuel p args = some z') (ho : z.2.odd = false) (ho' : z'.2.odd = false)
    (hl : z'.2.lost = false) (hn : z'.2.nest = false) :
    key z'.2 (runL mb z'.2.data Rt.init) = xBits mb z.2.k ∧
    ∃ y, xPost (key z'.2 (runL mb z'.2.data Rt.init)) fuel p args = some y ∧ y.1.map PVal.toInt = z.1.map EVal.toInt := by
  obtain ⟨w, h2, h3⟩ := xRun h h' ho' hl
  obtain ⟨k1, k2, k3⟩ := h3.nest hn
  have hk : key z'.2 (runL mb z'.2.data Rt.init) = xBits mb z.2.k := by
    rw [key, h3.mem, k3, List.map_reverse, List.reverse_reverse, k1, xBits]
    refine List.map_congr_left fun c hc => ?_
    rw [k2 c (List.mem_range.mp hc)]
    rfl
  refine ⟨hk, ?_⟩
  rw [hk]
  obtain ⟨y, y1, y2, _⟩ := extract_post_partial hp h ho (Nat.le_refl _)
  exact ⟨y, y1, y2⟩

/-- A measurement in a branch and one after it: the bit of the branch is put at the other end of the key, so the last result is read from the wrong bit. -/
def xNest : XProg := ⟨[0, 1, 2], .op .create [0] [3] (.op .getq [3, 1] [4] (.op .getq [3, 2] [5] (.op .meas [4] [6]
  (.cond 6 [7] [] (.op .meas [7] [8] .done) [7] [] .done [5] [] (.op .meas [5] [9] .done))))), [6, 9]⟩

theorem extract_nested_wrong : ∃ mb : Nat → Bool,
    (xExec mb 1 xNest [2, 0, 1]).map (fun z => z.1.map EVal.toInt) = some [some 1, some 1] ∧
    (xCirc 1 xNest [2, 0, 1]).bind (fun z => (xPost (key z.2 (runL mb z.2.data Rt.init)) 1 xNest [2, 0, 1]).map fun y => y.1.map PVal.toInt) =
      some [some 0, some 1] :=
  ⟨fun k => k != 1, by decide +kernel, by decide +kernel⟩

/-- What execution does at a conversion: a number becomes a truth value by comparing it with 0, other types keep the number. -/
theorem extract_convert (mb : Nat → Bool) (i : Int) (s : St) :
    execP mb (.conv .bool) [.int i] s = some ([.int (if i = 0 then 0 else 1)], s) ∧
    execP mb (.conv .int) [.int i] s = some ([.int i], s) := ⟨rfl, rfl⟩

/-! ### A concrete case: teleportation, with both corrections under conditions -/

def xTele : XProg := ⟨[0, 1, 2, 3], .op .create [0] [4] (.op .getq [4, 1] [5] (.op .getq [4, 2] [6] (.op .getq [4, 3] [7]
  (.op (.gate "h" 1) [6] [] (.op (.gate "cx" 2) [6, 7] [] (.op (.gate "cx" 2) [5, 6] [] (.op (.gate "h" 1) [5] []
  (.op .meas [5] [8] (.op .meas [6] [9]
  (.cond 9 [20] [] (.op (.gate "x" 1) [20] [] .done) [20] [] .done [7] []
  (.cond 8 [20] [] (.op (.gate "z" 1) [20] [] .done) [20] [] .done [7] []
  (.op .meas [7] [10] (.op (.cls (fun l => match l with | [a, b] => some [a + 2 * b] | _ => none) 1) [8, 9] [11] .done))))))))))))), [10, 11]⟩

example : (xCirc 1 xTele [3, 0, 1, 2]).map (fun z => (z.2.odd, z.2.lost, z.2.nest, z.2.data.length, z.2.clb)) =
    some (false, false, false, 12, [2, 1, 0]) := by decide +kernel

/-- With outcomes 0, 1, 1 the correction `x` is applied, `z` is not. -/
example : (xExec (fun k => k != 0) 1 xTele [3, 0, 1, 2]).map (fun z => (z.2.odd, z.1.map EVal.toInt, z.2.ev)) =
    some (false, [some 1, some 2], [.alloc 0, .alloc 1, .alloc 2, .gate "h" [1] [], .gate "cx" [1, 2] [], .gate "cx" [0, 1] [],
      .gate "h" [0] [], .meas 0, .meas 1, .gate "x" [2] [], .meas 2]) := by decide +kernel

example : (xCirc 1 xTele [3, 0, 1, 2]).map (fun z => (key z.2 (runL (fun k => k != 0) z.2.data Rt.init),
      (runL (fun k => k != 0) z.2.data Rt.init).ev)) =
    some ([false, true, true], [.alloc 0, .alloc 1, .alloc 2, .gate "h" [1] [], .gate "cx" [1, 2] [], .gate "cx" [0, 1] [],
      .gate "h" [0] [], .meas 0, .meas 1, .gate "x" [2] [], .meas 2]) := by decide +kernel

example : (xPost [false, true, true] 1 xTele [3, 0, 1, 2]).map (fun z => z.1.map PVal.toInt) = some [some 1, some 2] := by decide +kernel

end Verif.Props
