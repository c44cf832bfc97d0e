import Verif.Fourier.Adder
import Mathlib.Data.Rat.Floor

/-!
# Semi-boolean polynomials and their encoding into a register

Models `alg_primitives/arithmetic/SBP_arithmetic.py` and the parts of `qtypes/quantum_float.py` that call it. Angles are
in full turns. Floating point numbers are rationals. A `QuantumFloat` is its register (least significant qubit first),
its exponent and its sign flag.
-/

namespace Verif.Sbp

open Verif.Rev Verif.Fourier

variable {Q : Type} [DecidableEq Q]

/-- `QuantumFloat` (quantum_float.py:349-368). -/
structure QF (Q : Type) where
  reg : List Q
  exp : ℤ
  signed : Bool
deriving DecidableEq, Repr

/-- `QuantumFloat.msize` (quantum_float.py:366). -/
def QF.msize (x : QF Q) : ℕ := x.reg.length - x.signed.toNat

/-- `np.round`: to the nearest integer, halves to even. -/
def roundHE (c : ℚ) : ℤ :=
  let f := c.floor
  if c - f < 1 / 2 then f else if 1 / 2 < c - f then f + 1 else if f % 2 = 0 then f else f + 1

/-- A monomial: its coefficient and its variables, which are qubits. -/
abbrev Mon (Q : Type) := ℚ × List Q

/-- `QuantumFloat.sb_poly` (quantum_float.py:437-473), `m = 0` replaced by the size: the coefficient of each qubit. The
coefficients of the last qubit are collected, as sympy does. -/
def sbPoly (m : ℕ) (x : QF Q) : List (Mon Q) :=
  let m := if m = 0 then x.reg.length else m
  x.reg.zipIdx.map fun q => ((2 : ℚ) ^ x.exp *
    (2 ^ q.2 + if x.signed && q.2 + 1 == x.reg.length then 2 ^ (m + 1) - 2 ^ x.reg.length else 0), [q.1])

/-- Product of two polynomials, multiplied out. Simplification: like terms are not collected. -/
def mulP (p r : List (Mon Q)) : List (Mon Q) := p.flatMap fun a => r.map fun b => (a.1 * b.1, a.2 ++ b.2)

/-- A polynomial in several variables: coefficients and variables (with repetition for powers). -/
abbrev Poly := List (ℚ × List ℕ)

/-- `poly.subs(repl_dic).expand()` (SBP_arithmetic.py:580-582). -/
def substP (sb : ℕ → List (Mon Q)) (p : Poly) : List (Mon Q) :=
  p.flatMap fun a => a.2.foldr (fun v r => mulP (sb v) r) [(a.1, [])]

/-- The loop over the output qubits in `multi_controlled_U_g` (SBP_arithmetic.py:136-163) with `crz_helper` (120-126):
gates and accumulated phase. The rounding of the angle to 11 digits is an exact test here. -/
def mcUgLoop (y : ℤ) (a : Q) : ℕ → List Q → List (FGate Q) × ℚ
  | _, [] => ([], 0)
  | i, q :: qs =>
    let θ : ℚ := Int.fract ((y : ℚ) / 2 ^ (i + 1))
    let r := mcUgLoop y a (i + 1) qs
    if θ = 0 then r
    else ([.cx a q, .ph (-θ / 2) [q], .cx a q, .ph (θ / 2) [q]] ++ r.1, θ / 2 + r.2)

/-- Operations of the encoder: gates, and the multi-controlled X gate up to a relative phase `f` (method `gray_pt`) with
its inverse (`gray_pt_inv`). -/
inductive SOp (Q : Type) where
  | g (gate : FGate Q)
  | mcx (f : St Q → ℂ) (cs : List Q) (t : Q)
  | mcxInv (f : St Q → ℂ) (cs : List Q) (t : Q)

/-- The classical action of a multi-controlled X gate. -/
def flipIf (cs : List Q) (t : Q) (s : St Q) : St Q := upd s t (s t ^^ cs.all s)

noncomputable def SOp.app : SOp Q → (St Q → ℂ) → (St Q → ℂ)
  | .g gate, ψ => gate.app ψ
  | .mcx f cs t, ψ => fun s => f s * ψ (flipIf cs t s)
  | .mcxInv f cs t, ψ => fun s => (f (flipIf cs t s))⁻¹ * ψ (flipIf cs t s)

noncomputable def runS : List (SOp Q) → (St Q → ℂ) → (St Q → ℂ)
  | [], ψ => ψ
  | o :: os, ψ => runS os (o.app ψ)

/-- `multi_controlled_U_g` (SBP_arithmetic.py:70-175, `use_gms=False`). `anc` is the qubit of the ancilla variable, `f`
the relative phase of the phase tolerant gates. -/
def mcUg (f : List Q → St Q → ℂ) (anc : Q) (out : List Q) (cs : List Q) (y : ℤ) : List (SOp Q) :=
  match cs with
  | [c] =>
    let r := mcUgLoop y c 0 out
    (r.1 ++ [FGate.ph r.2 [c]]).map .g
  | cs =>
    let r := mcUgLoop y anc 0 out
    .mcx (f cs) cs anc :: (r.1 ++ [FGate.ph r.2 [anc]]).map .g ++ [.mcxInv (f cs) cs anc]

/-- `U_g` (SBP_arithmetic.py:180-188). -/
def ug (y : ℤ) : ℕ → List Q → List (FGate Q)
  | _, [] => []
  | i, q :: qs =>
    let θ : ℚ := Int.fract ((y : ℚ) / 2 ^ (i + 1))
    (if θ = 0 then [] else [.ph θ [q]]) ++ ug y (i + 1) qs

/-- The encoding of one monomial (SBP_arithmetic.py:243-285, 317-325): rounded coefficient, controls without repetition
(their order by name is not modelled). -/
def encMon (f : List Q → St Q → ℂ) (anc : Q) (out : List Q) (m : Mon Q) : List (SOp Q) :=
  let y := roundHE m.1
  let cs := m.2.dedup
  if cs = [] then (ug y 0 out).map .g else mcUg f anc out cs y

/-- `sb_polynomial_encoder` (SBP_arithmetic.py:195-329, `use_gms=False`); `none` if `QFT` raises. -/
def sbEncode (f : List Q → St Q → ℂ) (d anc : Q) (out : QF Q) (p : List (Mon Q)) (m : ℤ := 1) : Option (List (SOp Q)) :=
  let p := p.map fun a => (a.1 / 2 ^ out.exp, a.2)
  let body := p.flatMap (encMon f anc out.reg)
  if m % 2 = 1 then
    some ((qftInner m false d out.reg.reverse).map .g ++ body ++ (inv (qftInner 1 false d out.reg.reverse)).map .g)
  else none

/-- `polynomial_encoder` (SBP_arithmetic.py:500-585); variable `i` of the polynomial is the `i`-th float of the list.
`none` if it raises. -/
def polyEncode (f : List Q → St Q → ℂ) (d anc : Q) (xs : List (QF Q)) (out : QF Q) (p : Poly) (m : ℤ := 1) :
    Option (List (SOp Q)) :=
  if !out.signed && xs.any (·.signed) then none
  else sbEncode f d anc out (substP (fun i => ((xs[i]?).map (sbPoly out.reg.length)).getD []) p) m

/-- `QuantumFloat.__iadd__` with a `QuantumFloat` (quantum_float.py:674-678). -/
def iadd (f : List Q → St Q → ℂ) (d anc : Q) (x y : QF Q) : Option (List (SOp Q)) := polyEncode f d anc [y] x [(1, [0])]

/-- `QuantumFloat.__isub__` with a `QuantumFloat` (quantum_float.py:709-713). -/
def isub (f : List Q → St Q → ℂ) (d anc : Q) (x y : QF Q) : Option (List (SOp Q)) := polyEncode f d anc [y] x [(-1, [0])]

/-- `QuantumFloat.__iadd__` with a number (quantum_float.py:680-691): raises if the number is not a multiple of the
resolution. -/
def iaddC (f : List Q → St Q → ℂ) (d anc : Q) (x : QF Q) (c : ℚ) : Option (List (SOp Q)) :=
  if (c / 2 ^ x.exp).den = 1 then polyEncode f d anc [] x [(c, [])] else none

/-- `QuantumFloat.__isub__` with a number (quantum_float.py:715-724). -/
def isubC (f : List Q → St Q → ℂ) (d anc : Q) (x : QF Q) (c : ℚ) : Option (List (SOp Q)) :=
  if (c / 2 ^ x.exp).den = 1 then polyEncode f d anc [] x [(-c, [])] else none

/-- `sbp_add` (SBP_arithmetic.py:391-441) with a given output. -/
def sbpAdd (f : List Q → St Q → ℂ) (d anc : Q) (x y out : QF Q) : Option (List (SOp Q)) :=
  sbEncode f d anc out (sbPoly out.msize x ++ sbPoly out.msize y)

/-- `sbp_sub` (SBP_arithmetic.py:444-494) with a given output. -/
def sbpSub (f : List Q → St Q → ℂ) (d anc : Q) (x y out : QF Q) : Option (List (SOp Q)) :=
  sbEncode f d anc out (sbPoly out.msize x ++ (sbPoly out.msize y).map fun a => (-a.1, a.2))

/-- `sbp_mult` (SBP_arithmetic.py:338-388) with a given output. -/
def sbpMult (f : List Q → St Q → ℂ) (d anc : Q) (x y out : QF Q) : Option (List (SOp Q)) :=
  sbEncode f d anc out (mulP (sbPoly out.msize x) (sbPoly out.msize y))

/-- The size, exponent and sign flag chosen by `create_output_qf` (quantum_float.py:1127-1210) for sums: mantissa size,
exponent, sign flag. -/
def outAdd (x y : QF Q) : ℤ × ℤ × Bool :=
  let e := min x.exp y.exp
  let maxSig := max (x.exp + x.msize) (y.exp + y.msize) + 1
  (maxSig - e + 1, e, x.signed || y.signed)

/-- … for differences. -/
def outSub (x y : QF Q) : ℤ × ℤ × Bool :=
  let e := min x.exp y.exp
  let maxSig := max (x.exp + x.msize) (y.exp + y.msize) + 1
  (maxSig - e + 1, e, true)

/-- … for products. -/
def outMul (x y : QF Q) : ℤ × ℤ × Bool :=
  let signed := x.signed || y.signed
  let signed := if x.reg = y.reg && (x.signed && y.signed) then false else signed
  (x.msize + y.msize + (x.signed && y.signed).toNat, x.exp + y.exp, signed)

end Verif.Sbp
