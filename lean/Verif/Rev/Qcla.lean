import Verif.Rev.Incr
import Verif.Rev.GidneyQMain

/-!
# The carry-lookahead adder (alg_primitives/arithmetic/adders/qcla)

`qcla(a, b)` computes every `R`-th carry of `a + b` with a Brent–Kung tree of radix `r` (`R = r ** e`), adds the
blocks of `R` qubits independently of each other and removes the carries. The lists of qubits that the code slices are
index functions here, a slice `l[lo:hi]` is the index range `lo ≤ i < hi`.

Gates are collected in the session data, a list of `Rev.Gate`. Multi-controlled X gates (`hybrid_mcx`, and `mcx` with the
methods gidney and jones) are exact gates (C64; for jones see `jonesSign` below and C68).
`auto_uncompute` is modelled by its ideal effect: the gates on the local variables are repeated in reverse order.
-/

namespace Verif.Rev.Qcla

open Verif.Rev

/-- The qubits: the operands, the list `g` of qq_carry_path.py:258-267 (it contains the qubits of `c` and of
`brent_kung_ancilla`), the `p_group` qubits by layer and position, the control, the copies of the control, the padding
of qq_sum_path.py:149 and the ancillas of the block adders. -/
inductive W where
  | a (i : Nat) | b (i : Nat) | g (i : Nat) | p (l i : Nat) | ctl | par (i : Nat) | pad (i : Nat) | anc (i : Nat)
deriving DecidableEq

variable {Q : Type} [DecidableEq Q]

/-- Controls on 1. -/
def pos (l : List Q) : List (Q × Bool) := l.map fun q => (q, true)

/-- `f lo, …, f (hi - 1)` -/
def idx {β : Type} (f : Nat → β) (lo hi : Nat) : List β := (List.range (hi - lo)).map fun i => f (lo + i)

/-- qq_carry_path.py:35-51 `calc_P_group` for `P[lo:hi]`. -/
def calcP (P : Nat → Q) (lo hi : Nat) (t : Q) : List (Gate Q) := [.mcx (pos (idx P lo hi)) t]

/-- qq_carry_path.py:62-77 `calc_G_group` for `P[lo:hi]`, `G[lo:hi]`. -/
def calcG (P G : Nat → Q) (lo hi : Nat) : List (Gate Q) :=
  (List.range (hi - lo - 1)).map fun i => .mcx (pos (G (lo + i) :: idx P (lo + i + 1) hi)) (G (hi - 1))

/-- qq_carry_path.py:83-116 `propagate_carry` for `P[lo:hi]`, `G[lo:hi]`. -/
def propagate (P G : Nat → Q) (lo hi : Nat) : List (Gate Q) :=
  ((List.range (hi - lo - 1)).reverse).flatMap fun i' =>
    (List.range (i' + 1)).map fun j =>
      .mcx (pos (G (lo + j) :: idx P (lo + j + 1) (lo + i' + 2))) (G (lo + (i' + 1)))

/-- qq_carry_path.py:133-192 `brent_kung_tree`: the gates it tries to append. `n = len(G)`, `k` is `k_out`; the position 0
of `grouped_P` is `None` in the code, here a qubit that no gate uses. The fuel bounds the depth of the recursion. -/
def tree (pw : Nat → Nat → Q) (r : Nat) : Nat → Nat → Nat → (Nat → Q) → (Nat → Q) → Nat → List (Gate Q)
  | 0, _, _, _, _, _ => []
  | f + 1, k, l, P, G, n =>
    if n = 0 then [] else
    (List.range (n / r)).flatMap (fun i =>
      (if i = 0 then [] else calcP P (r * i) (r * (i + 1)) (pw (l + 1) i)) ++ calcG P G (r * i) (r * (i + 1)))
    ++ tree pw r f (k - 1) (l + 1) (pw (l + 1)) (fun i => G (r * i + r - 1)) (n / r)
    ++ (if 0 < k then [] else
      propagate P G 0 (min (r - 1) n)
      ++ (List.range (n / r)).flatMap fun i => propagate P G (r * (i + 1) - 1) (min (r * (i + 2) - 1) n))

/-- The qubits of a gate. -/
def qubits : Gate Q → List Q
  | .mcx cs t => cs.map Prod.fst ++ [t]
  | .land x y t => [x, y, t]
  | .landInv x y t => [x, y, t]

/-- misc/utility.py:1265-1293 `check_if_fresh` for one qubit: it has been allocated in the current session data (`al`)
and no later gate uses it. -/
def fresh (al : Q → Bool) (h : List (Gate Q)) (q : Q) : Bool := al q && h.all fun g => !(qubits g).contains q

/-- qq_carry_path.py:42-46, 66-75, 107-116: a gate is skipped if one of its controls is fresh. -/
def addFresh (al : Q → Bool) (h : List (Gate Q)) : Gate Q → List (Gate Q)
  | .mcx cs t => if cs.any fun c => fresh al h c.1 then h else h ++ [.mcx cs t]
  | g => h ++ [g]

/-- Appending the gates of the tree one after the other. -/
def emit (al : Q → Bool) (h gs : List (Gate Q)) : List (Gate Q) := gs.foldl (addFresh al) h

/-- The effect of uncomputing the variables with the qubits `D`: their gates in reverse order. -/
def uncompute (D : Q → Bool) (h : List (Gate Q)) : List (Gate Q) := (h.filter fun g => D g.tgt).reverse

/-- `int(np.ceil(n / R))` -/
def ceilDiv (n R : Nat) : Nat := (n + R - 1) / R

/-- qq_carry_path.py:247: `len(c)`. -/
def nc (nb R : Nat) : Nat := ceilDiv nb R - 1

/-- qq_carry_path.py:258-264: `c[k]` in the list `g`. -/
def cw (R k : Nat) : W := .g ((k + 1) * R - 1)

/-- The local variables of `calc_carry`: the `p_group` qubits, the copies of the control and the part of `g` that is
not `c`. -/
def garbage (R : Nat) : W → Bool
  | .g i => decide ((i + 1) % R ≠ 0)
  | .p _ _ => true
  | .par _ => true
  | _ => false

/-- The variables that are allocated inside `calc_carry`. -/
def local_ : W → Bool
  | .g _ => true
  | .p _ _ => true
  | _ => false

/-- qq_carry_path.py:303-316 `anc_gate` computes `a and b` from `a` and `a xor b`. -/
def ancGate (x y t : Q) : Gate Q := .mcx [(x, true), (y, false)] t

/-- The circuit inside `anc_gate`. -/
def ancBody (x y t : Q) : List (Gate Q) := [cx x y, .land x y t, cx x y]

/-- qq_carry_path.py:286-288 -/
def qqInit (m : Nat) : List (Gate W) := (List.range m).flatMap fun i => [cx (.a i) (.b i), ancGate (.a i) (.b i) (.g i)]

/-- qq_carry_path.py:296-297 -/
def qqRestore (m : Nat) : List (Gate W) := (List.range m).map fun i => cx (.a i) (.b i)

/-- qq_carry_path.py:293 and the automatic uncomputation. -/
def treeAndBack (r e n : Nat) (h : List (Gate W)) : List (Gate W) :=
  let h1 := emit local_ h (tree W.p r (n + 1) e 0 W.b W.g n)
  h1 ++ uncompute (garbage (r ^ e)) h1

/-- qq_carry_path.py:232-300 `qq_calc_carry`; `none` is the exception of line 141 (raised when the tree is entered). -/
def qqCarry (na nb r e : Nat) : Option (List (Gate W)) :=
  let n := nc nb (r ^ e) * r ^ e
  let m := min n (min na nb)
  if r ≤ 1 then none else some (treeAndBack r e n (qqInit m) ++ qqRestore m)

/-- `len(b[R * j : R * (j + 1)])` -/
def blen (nb R j : Nat) : Nat := min (R * (j + 1)) nb - R * j

/-- `b[R * j : R * (j + 1)]` -/
def bblk (nb R j : Nat) : List W := (List.range (blen nb R j)).map fun i => .b (R * j + i)

/-- `a[R * j : R * (j + 1)]` -/
def ablk (na R j : Nat) : List W := (List.range (blen na R j)).map fun i => .a (R * j + i)

/-- The ancillas of a block adder. -/
def ancs (n : Nat) : List W := (List.range n).map W.anc

/-- The padding of qq_sum_path.py:42-44, 148-150. -/
def pads (n : Nat) : List W := (List.range n).map W.pad

/-- `c[j]` if `j < len(c)`. -/
def cOut (C R j : Nat) : Option W := if j < C then some (cw R j) else none

/-- `c[j - 1]` -/
def cIn (R j : Nat) : Option W := if j = 0 then none else some (cw R (j - 1))

/-- One pass of qq_sum_path.py:116-130. -/
def incBlock (nb C R j : Nat) : List (Gate W) :=
  if blen nb R j = 0 then []
  else linIncr (bblk nb R j) (ancs (blen nb R j + (cOut C R j).toList.length - 1)) (cIn R j) (cOut C R j)

/-- One pass of qq_sum_path.py:133-170. -/
def addBlock (na nb C R i : Nat) : List (Gate W) :=
  if blen na R i = 0 then []
  else gidneyQ (ablk na R i ++ pads (blen nb R i - blen na R i)) (bblk nb R i) []
    (ancs (blen nb R i + (cOut C R i).toList.length - 1)) (cIn R i) (cOut C R i) none

/-- qq_sum_path.py:110-170 `qq_sum_path_direct_uncomputation` for `R ≠ 1`. -/
def qqSumDirect (na nb R : Nat) : List (Gate W) :=
  let C := nc nb R
  (if na ≠ nb then
    ((List.range (nb / R + 2 - ceilDiv na R)).reverse).flatMap fun j => incBlock nb C R (ceilDiv na R + j)
  else [])
  ++ ((List.range (na / R + 1)).reverse).flatMap fun i => addBlock na nb C R i

/-- qq_sum_path.py:25-74 `qq_sum_path` for `R ≠ 1`; `none` is the IndexError of `c[j]` in lines 72 and 74: it occurs
for every nonempty block without a part of `a`, because the last of them has no carry. -/
def qqSum (na nb R : Nat) : Option (List (Gate W)) :=
  let C := nc nb R
  if blen na R C = 0 then none
  else some ((List.range (C + 1)).flatMap fun i =>
    gidneyQ (ablk na R i ++ pads (blen nb R i - blen na R i)) (bblk nb R i) []
      (ancs (blen nb R i - 1)) (cIn R i) none none)

/-- `x(b)` -/
def flipB (nb : Nat) : List (Gate W) := (List.range nb).map fun i => gx (.b i)

/-- qq_qcla_adder.py:41-91 `qq_qcla` for `radix_exponent ≥ 1`. `none` is an exception. The inverse of a circuit of
multi-controlled X gates is the reversed circuit. -/
def qqQcla (na nb r e : Nat) (tdr : Bool) : Option (List (Gate W)) :=
  let R := r ^ e
  if nb < na then none
  else if nb = 1 then some [cx (.a 0) (.b 0)]
  else if nb ≤ R then
    some (gidneyQ ((List.range na).map W.a ++ pads (nb - na)) ((List.range nb).map W.b) [] (ancs (nb - 1)) none none none)
  else (qqCarry na nb r e).bind fun k =>
    if tdr then some (k ++ qqSumDirect na nb R)
    else (qqSum na nb R).map fun s => k ++ s ++ flipB nb ++ k.reverse ++ flipB nb

/-- cq_carry_path.py:286-326: the GENERATE and PROPAGATE values for a classical addend with the bits `x`. The number of ones
below `i` selects the copy of the control. The copies are uncomputed early (line 329) and recomputed for the
uncomputation of `g` (`recompute=True`); here they stay until the end. -/
def cqInit (ctrl : Bool) (x : Nat → Bool) (m : Nat) : List (Gate W) :=
  (List.range m).flatMap fun i => if x i then
    [gx (.b i)] ++
      (if !ctrl then [.mcx [(.b i, false)] (.g i)]
      else match ((List.range i).filter x).length with
        | 0 => [.mcx [(.ctl, true), (.b i, false)] (.g i)]
        | k + 1 => [cx .ctl (.par k), .mcx [(.par k, true), (.b i, false)] (.g i)])
    else []

/-- cq_carry_path.py:338-341 -/
def cqRestore (x : Nat → Bool) (m : Nat) : List (Gate W) := ((List.range m).filter x).map fun i => gx (.b i)

/-- cq_carry_path.py:235-344 `cq_calc_carry` for the bit string `x` of length `na`. -/
def cqCarry (ctrl : Bool) (x : Nat → Bool) (na nb r e : Nat) : Option (List (Gate W)) :=
  let n := nc nb (r ^ e) * r ^ e
  let m := min n (min na nb)
  if r ≤ 1 then none else some (treeAndBack r e n (cqInit ctrl x m) ++ cqRestore x m)

/-- The value of the bits `R * j ≤ i < R * (j + 1)` of a bit string that is padded with zeros (cq_sum_path.py:35-36, 65-66). -/
def xblk (x : Nat → Bool) (nb R j : Nat) : Nat := bv ((List.range (blen nb R j)).map fun i => x (R * j + i))

/-- The control qubit if there is one. -/
def ctlQ (ctrl : Bool) : Option W := if ctrl then some .ctl else none

/-- One pass of cq_sum_path.py:84-104. -/
def cqBlock (ctrl : Bool) (x : Nat → Bool) (nb C R : Nat) (h : List (Gate W)) (i : Nat) : List (Gate W) :=
  let skip := i = 0 ∨ fresh local_ h (cw R (i - 1)) = true
  let ci := if skip then none else some (cw R (i - 1))
  if skip ∧ xblk x nb R i = 0 then h
  else if xblk x nb R i ≠ 0 then
    h ++ gidneyCInt (xblk x nb R i) (bblk nb R i) (ancs (ci.toList.length + blen nb R i + (cOut C R i).toList.length - 1))
      ci (cOut C R i) (ctlQ ctrl)
  else h ++ linIncr (bblk nb R i) (ancs (blen nb R i + (cOut C R i).toList.length - 1)) ci (cOut C R i)

/-- cq_qcla_adder.py:41-94 `cq_qcla` with `t_depth_reduction = True`, for a bit string `x` of length `na` (zero from `na` on);
`none` is an exception. -/
def cqQcla (ctrl : Bool) (x : Nat → Bool) (na nb r e : Nat) : Option (List (Gate W)) :=
  let R := r ^ e
  if nb < na then none
  else if nb = 1 then some (if x 0 then [if ctrl then cx .ctl (.b 0) else gx (.b 0)] else [])
  else if nb ≤ R then
    some (gidneyCInt (bv ((List.range na).map x)) ((List.range nb).map W.b) (ancs (nb - 1)) none none (ctlQ ctrl))
  else (cqCarry ctrl x na nb r e).map fun k => ((List.range (nc nb R + 1)).reverse).foldl (cqBlock ctrl x nb (nc nb R) R) k

/-- One pass of cq_sum_path.py:50-60 (`t_depth_reduction = False`, `R ≠ 1`). For `i = 0` Python reads `c[-1]`, the last
carry. -/
def cqBlockF (ctrl : Bool) (x : Nat → Bool) (nb C R : Nat) (h : List (Gate W)) (i : Nat) : List (Gate W) :=
  let last := if i = 0 then cw R (C - 1) else cw R (i - 1)
  if xblk x nb R i ≠ 0 then
    h ++ gidneyCInt (xblk x nb R i) (bblk nb R i) (ancs (if i = 0 then blen nb R i - 1 else blen nb R i))
      (cIn R i) none (ctlQ ctrl)
  else if fresh local_ h last then h
  else h ++ linIncr (bblk nb R i) (ancs (blen nb R i - 1)) (some last) none

/-- cq_qcla_adder.py:41-94 with `t_depth_reduction = False`, for `len(b) > R`, `R ≠ 1`. -/
def cqQclaF (ctrl : Bool) (x : Nat → Bool) (na nb r e : Nat) : Option (List (Gate W)) :=
  let R := r ^ e
  (cqCarry ctrl x na nb r e).map fun k =>
    (List.range (nc nb R + 1)).foldl (cqBlockF ctrl x nb (nc nb R) R) k ++ flipB nb ++ k.reverse ++ flipB nb

/-- cq_sum_path.py:38-47 (`R = 1`, `t_depth_reduction = False`): `x(b)` flips the whole register for every one of `a`. The
first line `cx(c[:-1], b[1:])` is left out here. -/
def cqSumOne (x : Nat → Bool) (na nb : Nat) : List (Gate W) := ((List.range na).filter x).flatMap fun _ => flipB nb

/-- The gates of the tree with one propagate control use the method jones (lines 72-73 and 113-114); with mid-circuit
measurements it is a Toffoli gate times a CZ gate of its controls (C68). The sign that these CZ gates leave. -/
def jonesSign (l : List (Gate W)) (s : St W) : Bool :=
  match l with
  | [] => false
  | .mcx [(x, true), (y, true)] t :: r =>
    (match t with
      | .g _ => s x && s y
      | _ => false) ^^ jonesSign r (Gate.app (.mcx [(x, true), (y, true)] t) s)
  | g :: r => jonesSign r (g.app s)

end Verif.Rev.Qcla
