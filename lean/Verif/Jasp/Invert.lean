import Verif.Jasp.Prog

/-!
# Inversion of Jasp programs

`jasp/jasp_expression/inv_transform.py`: the classical equations and the allocations are pulled to
the front, the inverted quantum operations follow in reverse order, the deletions come last.
-/

namespace Verif.Jasp

variable {U : Type} [InvolutiveInv U]

/-- The last `_jrange_marker` equation of a loop body: its first argument
    (inv_transform.py:251-268). -/
def findMark : P U → Option Var
  | .done => none
  | .cls _ _ _ r => findMark r
  | .add _ _ _ _ r => findMark r
  | .mark _ u _ r => match findMark r with | some v => some v | none => some u
  | .gate _ _ _ _ r => findMark r
  | .meas _ _ r => findMark r
  | .reset _ r => findMark r
  | .create _ _ r => findMark r
  | .delete _ r => findMark r
  | .call _ _ _ _ _ _ r => findMark r
  | .whl _ _ _ _ _ _ _ _ _ _ _ r => findMark r
  | .cond _ _ _ _ _ _ _ _ _ _ r => findMark r

/-- Exchanging `add_p` and `sub_p` in the last such equation that writes `v`
    (inv_transform.py:270-299). -/
def flipLast (v : Var) : P U → Option (P U)
  | .done => none
  | .cls f i o r => (flipLast v r).map (.cls f i o)
  | .add s o a c r => match flipLast v r with
      | some r' => some (.add s o a c r')
      | none => if o = v then some (.add (!s) o a c r) else none
  | .mark o u t r => (flipLast v r).map (.mark o u t)
  | .gate c u ps qs r => (flipLast v r).map (.gate c u ps qs)
  | .meas o q r => (flipLast v r).map (.meas o q)
  | .reset q r => (flipLast v r).map (.reset q)
  | .create o s r => (flipLast v r).map (.create o s)
  | .delete a r => (flipLast v r).map (.delete a)
  | .call id ji jo b i o r => (flipLast v r).map (.call id ji jo b i o)
  | .whl id ix le pa pb bi bo b k c o r => (flipLast v r).map (.whl id ix le pa pb bi bo b k c o)
  | .cond id p ti tt t fi ft f i o r => (flipLast v r).map (.cond id p ti tt t fi ft f i o)

/-- Exchanging two entries (inv_transform.py:367-371). -/
def swapAt (l : List Var) (a b : Nat) : List Var :=
  match l[a]?, l[b]? with
  | some x, some y => (l.set a y).set b x
  | _, _ => l

/-- Putting the three groups together (inv_transform.py:159-204); without an operation, the program is
    returned as it is (160-162). -/
def assemble (p n o d : P U) : P U :=
  match o with
  | .done => p
  | _ => n.app (o.app d)

/-- The three groups of equations: classical equations and allocations, inverted operations in
    reverse order, deletions (`invert_jaspr`, inv_transform.py:129-164, with `invert_eqn`,
    44-103).  `none`: an exception.  `jit`, `while` and `cond` invert the programs in them; a loop is
    inverted by `invert_loop_body` (239-309) and `invert_loop_eqn` (313-390): the increment of the
    body becomes a decrement, start and threshold are exchanged and the comparison is turned
    round.  Simplifications: the increment is flipped after the inversion of the body instead
    of before it (it is a classical equation, which the inversion does not change), the
    new names of the functions (63-71) and programs with a user-defined inverse (126-127) are left
    out. -/
def inv : P U → Option (P U × P U × P U)
  | .done => some (.done, .done, .done)
  | .cls f i o r => (inv r).map fun z => (.cls f i o z.1, z.2.1, z.2.2)
  | .add s o a c r => (inv r).map fun z => (.add s o a c z.1, z.2.1, z.2.2)
  | .mark o u t r => (inv r).map fun z => (.mark o u t z.1, z.2.1, z.2.2)
  | .gate c u ps qs r => (inv r).map fun z =>
      (z.1, z.2.1.app (.gate c (fun x => (u x)⁻¹) ps qs .done), z.2.2)
  | .meas _ _ _ => none
  | .reset q r => (inv r).map fun z => (.reset q z.1, z.2.1, z.2.2)
  | .create o s r => (inv r).map fun z => (.create o s z.1, z.2.1, z.2.2)
  | .delete a r => (inv r).map fun z => (z.1, z.2.1, .delete a z.2.2)
  | .call id ji jo b i o r => (inv b).bind fun y => (inv r).map fun z =>
      (z.1, z.2.1.app (.call id ji jo (assemble b y.1 y.2.1 y.2.2) i o .done), z.2.2)
  | .whl id ix le pa pb bi bo b k c o r => (inv b).bind fun y => (findMark b).bind fun v =>
      (flipLast v b).bind fun b' => (flipLast v y.1).bind fun n' => (inv r).map fun z =>
      (z.1, z.2.1.app (.whl id ix le pb pa bi bo (assemble b' n' y.2.1 y.2.2) k (swapAt c pa pb) o
        .done), z.2.2)
  | .cond id p ti tt t fi ft f i o r => (inv t).bind fun y => (inv f).bind fun x =>
      (inv r).map fun z =>
      (z.1, z.2.1.app (.cond id p ti tt (assemble t y.1 y.2.1 y.2.2) fi ft
        (assemble f x.1 x.2.1 x.2.2) i o .done), z.2.2)

/-- `Jaspr.inverse` (inv_transform.py:108-225, jasp/jasp_expression/centerclass.py:249-287). -/
def inverse (p : P U) : Option (P U) := (inv p).map fun z => assemble p z.1 z.2.1 z.2.2

/-- The inverse of an operation. -/
def Ev.inv : Ev U → Ev U
  | .gate u cs qs => .gate u⁻¹ cs qs
  | e => e

/-- The variables written by quantum operations with results (`jit`, `while`, `cond`). -/
def P.opOuts : P U → List Var
  | .done => []
  | .cls _ _ _ r => r.opOuts
  | .add _ _ _ _ r => r.opOuts
  | .mark _ _ _ r => r.opOuts
  | .gate _ _ _ _ r => r.opOuts
  | .meas _ _ r => r.opOuts
  | .reset _ r => r.opOuts
  | .create _ _ r => r.opOuts
  | .delete _ r => r.opOuts
  | .call _ _ _ _ _ o r => o ++ r.opOuts
  | .whl _ _ _ _ _ _ _ _ _ _ o r => o ++ r.opOuts
  | .cond _ _ _ _ _ _ _ _ _ o r => o ++ r.opOuts

/-- The results of quantum operations are not used, neither in the program nor as its result. -/
def Unused (live : List Var) (p : P U) : Prop := ∀ v ∈ p.opOuts, v ∉ p.reads ∧ v ∉ live

/-- The body of a `jrange` loop (jasp/program_control/jrange_iterator.py:71-109,
    environments/jiteration_environment.py:240-306): the carried values are the threshold `t`, the
    index `x` and values `ys` that the loop does not change, after `nk` captured constants; `x + 1` (or `x - 1`, for an
    inverted loop) goes through the marker and replaces `x`.  The incremented index is not
    used otherwise, nor is the threshold. -/
def JBody (nk : Nat) (sub : Bool) (bi bo : List Var) (b : P U) : Prop :=
  ∃ (ks ys : List Var) (t x u m : Var) (A C : P U),
    b = A.app (.add sub u x 1 (.mark m u t C)) ∧ ks.length = nk ∧ bi = ks ++ t :: x :: ys ∧ bo = t :: m :: ys ∧
    bi.Nodup ∧ (∀ v ∈ bi, v ∉ b.writes) ∧ findMark C = none ∧ u ≠ m ∧
    (∀ v ∈ [t, u, m], v ∉ A.reads ∧ v ∉ C.reads) ∧ (∀ v ∈ [u, m], v ∉ A.writes ∧ v ∉ C.writes)

/-- Programs that the inversion treats correctly: no resets, no result of a quantum operation
    is used, no variable is overwritten after it was read (single assignment), loops are
    `jrange` loops that carry nothing but the index. -/
def WF : P U → Prop
  | .done => True
  | .cls _ _ _ r => WF r
  | .add _ _ _ _ r => WF r
  | .mark _ _ _ r => WF r
  | .gate _ _ ps qs r => (∀ v ∈ ps ++ qs, v ∉ r.writes) ∧ WF r
  | .meas _ _ _ => True
  | .reset _ _ => False
  | .create _ _ r => WF r
  | .delete a r => a ∉ r.writes ∧ WF r
  | .call _ _ jo b i o r => WF b ∧ Unused jo b ∧ (∀ v ∈ i, v ∉ o ++ r.writes) ∧ WF r
  | .whl _ ix le pa pb bi bo b k c o r => WF b ∧ Unused bo b ∧ (∀ v ∈ k ++ c, v ∉ o ++ r.writes) ∧
      WF r ∧ ix = 1 ∧ le = true ∧
      ((pa = 1 ∧ pb = 0 ∧ JBody k.length false bi bo b) ∨
        (pa = 0 ∧ pb = 1 ∧ JBody k.length true bi bo b))
  | .cond _ q _ tt t _ ft f i o r => WF t ∧ Unused tt t ∧ WF f ∧ Unused ft f ∧
      (∀ v ∈ q :: i, v ∉ o ++ r.writes) ∧ WF r

end Verif.Jasp
