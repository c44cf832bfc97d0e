import Verif.Circ.Op
import Mathlib.Tactic.LinearCombination

/-!
Model of `/repo/src/qrisp/circuit/controlled_operations.py` and of the definition circuits built by
`PTControlledOperation.__init__` in `/repo/src/qrisp/circuit/operation.py` for exact (not phase
tolerant) methods.
-/

namespace Verif.Circ

open Verif.Rev (upd)

/-! ### Matrices -/

/-- A matrix from its entries, row by row. -/
def mk (a b c d : ℂ) : M2 := fun i j => match i, j with
  | false, false => a
  | false, true => b
  | true, false => c
  | true, true => d

theorem mk_mul (a b c d a' b' c' d' : ℂ) : mk a b c d * mk a' b' c' d'
    = mk (a * a' + b * c') (a * b' + b * d') (c * a' + d * c') (c * b' + d * d') := by
  ext i j
  rw [Matrix.mul_apply, Fintype.sum_bool]
  cases i <;> cases j <;> simp only [mk] <;> ring

theorem mk_one : (1 : M2) = mk 1 0 0 1 := by
  ext i j; cases i <;> cases j <;> simp [mk]

theorem mk_smul (e a b c d : ℂ) : e • mk a b c d = mk (e * a) (e * b) (e * c) (e * d) := by
  ext i j; cases i <;> cases j <;> simp [mk, Matrix.smul_apply]

theorem mk_congr {a b c d a' b' c' d' : ℂ} (h1 : a = a') (h2 : b = b') (h3 : c = c') (h4 : d = d') :
    mk a b c d = mk a' b' c' d' := by subst h1 h2 h3 h4; rfl

/-- The phase factor of a real angle. -/
noncomputable def ph (a : ℝ) : ℂ := Complex.exp (Complex.I * a)

theorem ph_add (a b : ℝ) : ph (a + b) = ph a * ph b := by
  unfold ph; rw [← Complex.exp_add]; push_cast; congr 1; ring

theorem ph_zero : ph 0 = 1 := by simp [ph]

theorem ph_neg (a : ℝ) : ph (-a) * ph a = 1 := by rw [← ph_add, neg_add_cancel, ph_zero]

theorem ph_ne (a : ℝ) : ph a ≠ 0 := Complex.exp_ne_zero _

theorem ph_pi : ph Real.pi = -1 := by
  unfold ph; rw [mul_comm]; exact Complex.exp_pi_mul_I

theorem ph_half_pi : ph (Real.pi / 2) = Complex.I := by
  unfold ph; push_cast
  rw [mul_comm, Complex.exp_mul_I, Complex.cos_pi_div_two, Complex.sin_pi_div_two]; ring

theorem u3m_mk (θ φ lam g : ℝ) : u3m θ φ lam g
    = ph g • mk (Complex.cos (θ / 2)) (-(ph lam) * Complex.sin (θ / 2)) (ph φ * Complex.sin (θ / 2))
        (ph (φ + lam) * Complex.cos (θ / 2)) := by
  ext i j
  cases i <;> cases j <;> simp [u3m, mk, ph]

theorem pauli_x_mk : Pauli.x.mat = mk 0 1 1 0 := by
  ext i j; cases i <;> cases j <;> rfl
theorem pauli_y_mk : Pauli.y.mat = mk 0 (-Complex.I) Complex.I 0 := by
  ext i j; cases i <;> cases j <;> rfl
theorem pauli_z_mk : Pauli.z.mat = mk 1 0 0 (-1) := by
  ext i j; cases i <;> cases j <;> rfl

/-! ### Named gates, standard_operations.py -/

/-- standard_operations.py:143-158 `PGate`. -/
noncomputable def pG (φ : ℝ) : Op := .u3 "p" 0 0 φ 0
/-- standard_operations.py:190-200 `HGate`. -/
noncomputable def hG : Op := .u3 "h" (Real.pi / 2) 0 Real.pi 0
/-- standard_operations.py:203-218 `RXGate`. -/
noncomputable def rxG (φ : ℝ) : Op := .u3 "rx" φ (-(Real.pi / 2)) (Real.pi / 2) 0
/-- standard_operations.py:221-236 `RYGate`. -/
noncomputable def ryG (φ : ℝ) : Op := .u3 "ry" φ 0 0 0
/-- standard_operations.py:239-254 `RZGate`. -/
noncomputable def rzG (φ : ℝ) : Op := .u3 "rz" 0 φ 0 (-φ / 2)
/-- standard_operations.py:278-293 `GPhaseGate`. -/
noncomputable def gphaseG (φ : ℝ) : Op := .u3 "gphase" 0 0 0 φ
/-- standard_operations.py:317-329 `SGate`. -/
noncomputable def sG : Op := .u3 "s" 0 0 (Real.pi / 2) 0
/-- standard_operations.py:332-344 `TGate`. -/
noncomputable def tG : Op := .u3 "t" 0 0 (Real.pi / 4) 0
/-- quantum_circuit.py `s_dg`: the inverse of `SGate()`. -/
noncomputable def sdgG : Op := .u3 "s_dg" (-0) (-(Real.pi / 2)) (-0) (-0)
/-- quantum_circuit.py `t_dg`: the inverse of `TGate()`. -/
noncomputable def tdgG : Op := .u3 "t_dg" (-0) (-(Real.pi / 4)) (-0) (-0)

/-- The matrix of a phase gate. -/
noncomputable def pm (φ : ℝ) : M2 := mk 1 0 0 (ph φ)
/-- `1/√2`. -/
noncomputable def r2 : ℂ := Complex.cos (Real.pi / 4)
/-- The Hadamard matrix. -/
noncomputable def hm : M2 := mk r2 r2 r2 (-r2)
/-- The matrix of an rz gate. -/
noncomputable def rzm (φ : ℝ) : M2 := mk (ph (-φ / 2)) 0 0 (ph (φ / 2))
/-- The matrix of an ry gate. -/
noncomputable def rym (θ : ℝ) : M2 :=
  mk (Complex.cos (θ / 2)) (-Complex.sin (θ / 2)) (Complex.sin (θ / 2)) (Complex.cos (θ / 2))

theorem r2_sq : r2 * r2 = 1 / 2 := by
  have h := Complex.cos_two_mul ((Real.pi : ℂ) / 4)
  rw [show 2 * ((Real.pi : ℂ) / 4) = (Real.pi : ℂ) / 2 by ring, Complex.cos_pi_div_two] at h
  unfold r2
  linear_combination (-1 / 2 : ℂ) * h

theorem sin_r2 : Complex.sin (Real.pi / 4) = r2 := by
  unfold r2
  have h := Complex.cos_pi_div_two_sub ((Real.pi : ℂ) / 4)
  rw [← h]; congr 1; ring

theorem u3m_p (φ : ℝ) : u3m 0 0 φ 0 = pm φ := by
  rw [u3m_mk, mk_smul]
  refine mk_congr ?_ ?_ ?_ ?_ <;> simp [ph_zero]

theorem u3m_p' (φ : ℝ) : u3m (-0) φ (-0) (-0) = pm φ := by
  rw [u3m_mk, mk_smul]
  refine mk_congr ?_ ?_ ?_ ?_ <;> simp [ph_zero]

theorem u3m_h : u3m (Real.pi / 2) 0 Real.pi 0 = hm := by
  rw [u3m_mk, mk_smul]
  have e : (((Real.pi / 2 : ℝ) : ℂ) / 2) = (Real.pi : ℂ) / 4 := by push_cast; ring
  rw [e, sin_r2]
  refine mk_congr ?_ ?_ ?_ ?_ <;> simp [ph_zero, ph_pi, r2]

theorem u3m_rz (φ : ℝ) : u3m 0 φ 0 (-φ / 2) = rzm φ := by
  rw [u3m_mk, mk_smul]
  refine mk_congr ?_ ?_ ?_ ?_
  · simp
  · simp
  · simp
  · simp only [add_zero, Complex.ofReal_zero, zero_div, Complex.cos_zero, mul_one]
    rw [← ph_add]; congr 1; ring

theorem u3m_ry (θ : ℝ) : u3m θ 0 0 0 = rym θ := by
  rw [u3m_mk, mk_smul]
  refine mk_congr ?_ ?_ ?_ ?_ <;> simp [ph_zero]

theorem hm_hm : hm * hm = 1 := by
  unfold hm
  rw [mk_mul, mk_one]
  have := r2_sq
  refine mk_congr ?_ ?_ ?_ ?_
  · linear_combination 2 * this
  · ring
  · ring
  · linear_combination 2 * this

theorem pm_pm (a b : ℝ) : pm a * pm b = pm (a + b) := by
  unfold pm; rw [mk_mul, ph_add]
  refine mk_congr ?_ ?_ ?_ ?_ <;> ring

theorem pm_zero : pm 0 = 1 := by unfold pm; rw [ph_zero, mk_one]

theorem rzm_rzm (a b : ℝ) : rzm a * rzm b = rzm (a + b) := by
  unfold rzm; rw [mk_mul]
  refine mk_congr ?_ (by ring) (by ring) ?_
  · rw [mul_zero, add_zero, ← ph_add]; congr 1; ring
  · rw [mul_zero, zero_add, ← ph_add]; congr 1; ring

theorem rzm_zero : rzm 0 = 1 := by unfold rzm; rw [mk_one]; simp [ph_zero]

theorem rym_rym (a b : ℝ) : rym a * rym b = rym (a + b) := by
  unfold rym; rw [mk_mul]
  have e : (((a + b : ℝ) : ℂ) / 2) = (a : ℂ) / 2 + (b : ℂ) / 2 := by push_cast; ring
  rw [e, Complex.cos_add, Complex.sin_add]
  refine mk_congr ?_ ?_ ?_ ?_ <;> ring

theorem rym_zero : rym 0 = 1 := by unfold rym; rw [mk_one]; simp

/-- The matrix of the X gate. -/
noncomputable def xm : M2 := mk 0 1 1 0

theorem xm_xm : xm * xm = 1 := by
  unfold xm; rw [mk_mul, mk_one]; refine mk_congr ?_ ?_ ?_ ?_ <;> ring

theorem xm_rzm (a : ℝ) : xm * rzm a * xm = rzm (-a) := by
  unfold xm rzm; rw [mk_mul, mk_mul]
  refine mk_congr ?_ ?_ ?_ ?_
  · rw [neg_neg]; ring
  · ring
  · ring
  · ring

theorem xm_rym (a : ℝ) : xm * rym a * xm = rym (-a) := by
  unfold xm rym; rw [mk_mul, mk_mul]
  have e : (((-a : ℝ) : ℂ) / 2) = -((a : ℂ) / 2) := by push_cast; ring
  rw [e, Complex.cos_neg, Complex.sin_neg]
  refine mk_congr ?_ ?_ ?_ ?_ <;> ring

/-- The ZYZ decomposition of a `U3` gate. -/
theorem u3m_zyz (θ φ lam g : ℝ) :
    u3m θ φ lam g = ph (g + (lam + φ) / 2) • (rzm φ * rym θ * rzm lam) := by
  unfold rzm rym
  rw [u3m_mk, mk_mul, mk_mul, mk_smul, mk_smul]
  have e : ph (g + (lam + φ) / 2) = ph g * ph (lam / 2) * ph (φ / 2) := by
    rw [← ph_add, ← ph_add]; congr 1; ring
  have h1 := ph_neg (φ / 2)
  have h2 := ph_neg (lam / 2)
  have h3 : ph lam = ph (lam / 2) * ph (lam / 2) := by rw [← ph_add]; congr 1; ring
  have h4 : ph φ = ph (φ / 2) * ph (φ / 2) := by rw [← ph_add]; congr 1; ring
  have n1 : -φ / 2 = -(φ / 2) := by ring
  have n2 : -lam / 2 = -(lam / 2) := by ring
  rw [e, n1, n2, ph_add φ lam, h3, h4]
  generalize ph (φ / 2) = F at *
  generalize ph (-(φ / 2)) = F' at *
  generalize ph (lam / 2) = L at *
  generalize ph (-(lam / 2)) = L' at *
  generalize ph g = G at *
  generalize Complex.cos ((θ : ℂ) / 2) = C at *
  generalize Complex.sin ((θ : ℂ) / 2) = S at *
  refine mk_congr ?_ ?_ ?_ ?_
  · linear_combination (-G * C * (L' * L)) * h1 + (-G * C) * h2
  · linear_combination (G * S * L * L) * h1
  · linear_combination (-G * S * F * F) * h2
  · ring

/-! ### Definition circuits of controlled operations -/

/-- Whether all the controls are set. -/
def allOn {Q : Type} (cs : List Q) (b : Q → Bool) : Bool := cs.all fun c => b c

/-- controlled_operations.py:62-64, 216-218: X gates on the controls whose control state is 0. -/
def ctlFlips : List Bool → Nat → List (Op × List Nat)
  | [], _ => []
  | v :: st, i => (if v then [] else [(.pauli .x, [i])]) ++ ctlFlips st (i + 1)

/-- The synthesis gates used by controlled_operations.py: `GraySynthGate(phases)` and
`GraySynthGate(phases, phase_tolerant=True)`. -/
structure Syn where
  gray : List ℝ → Op
  grayPT : List ℝ → Op

/-- The exactly controlled X gate `XGate().control(n)`. -/
def mcxG (n : Nat) : Op := .ctrl (.pauli .x) (List.replicate n true)

/-- controlled_operations.py:189-205: the gate used for the inner controlled X. -/
noncomputable def innerMcx (S : Syn) (n : Nat) : Op :=
  if n > 1 then .gate "gray_pt_mcx" (n + 1)
    [(hG, [n]), (S.grayPT (List.replicate (2 ^ (n + 1) - 1) 0 ++ [Real.pi]), List.range (n + 1)),
      (hG, [n])]
  else mcxG 1

open Classical in
/-- controlled_operations.py:66-213: the part of `multi_controlled_u3_circ` between the X gates, for a
`U3Gate` with `n` controls and an exact method. -/
noncomputable def u3Core (S : Syn) (nm : String) (θ φ lam g : ℝ) (n : Nat) : List (Op × List Nat) :=
  let all := List.range (n + 1)
  let zeros (k : Nat) : List ℝ := List.replicate k 0
  if nm ∈ ["p", "t", "s", "t_dg", "s_dg"] then
    [(S.gray (zeros (2 ^ (n + 1) - 1) ++ [lam + φ]), all)]
  else if nm = "rz" then
    [(S.gray (zeros (2 ^ (n + 1) - 2) ++ [-(lam + φ) / 2, (lam + φ) / 2]), all)]
  else if nm ∈ ["rx", "sx", "sx_dg"] then
    [(hG, [n]), (S.gray (zeros (2 ^ (n + 1) - 2) ++ [-θ / 2, θ / 2]), all), (hG, [n])]
  else if nm = "ry" then
    [(sG, [n]), (hG, [n]), (S.gray (zeros (2 ^ (n + 1) - 2) ++ [θ / 2, -θ / 2]), all), (hG, [n]),
      (sdgG, [n])]
  else if φ = 0 ∧ lam = 0 ∧ θ = 0 ∧ g = 0 then []
  else if φ = 0 ∧ lam = 0 ∧ θ = 0 then [(S.gray (zeros (2 ^ n - 1) ++ [g]), List.range n)]
  else if nm = "h" then
    [(sG, [n]), (hG, [n]), (tG, [n]), (mcxG n, all), (tdgG, [n]), (hG, [n]), (sdgG, [n])]
  else
    [(S.gray (zeros (2 ^ n - 1) ++ [g + (lam + φ) / 2]), List.range n),
      (.gate "A" 1 [(rzG lam, [0]), (ryG (θ / 2), [0])], [n]),
      (innerMcx S n, all),
      (.gate "B" 1 [(ryG (-θ / 2), [0]), (rzG (-(lam + φ) / 2), [0])], [n]),
      ((innerMcx S n).inv, all),
      (.gate "C" 1 [(rzG ((φ - lam) / 2), [0])], [n])]

/-- controlled_operations.py:136-147: the same for the Pauli gates. The X gate becomes `multi_cx`,
modelled by its specification (the controlled X). -/
noncomputable def pauliCore (p : Pauli) (n : Nat) : List (Op × List Nat) :=
  match p with
  | .y => [(sG, [n]), (mcxG n, List.range (n + 1)), (sdgG, [n])]
  | .z => [(hG, [n]), (mcxG n, List.range (n + 1)), (hG, [n])]
  | .x => [(mcxG n, List.range (n + 1))]

/-- operation.py:675-693: definition of a controlled `gphase` with parameter `g`. -/
noncomputable def gphaseDef (g : ℝ) (st : List Bool) : List (Op × List Nat) :=
  let n := st.length
  let flip : List (Op × List Nat) := if st.head? = some false then [(.pauli .x, [n - 1])] else []
  let temp : Op := if n > 1 then .ctrl (pG g) st.tail else pG g
  flip ++ [(temp, List.range n)] ++ flip

/-- controlled_operations.py:243-253 `fredkin_qc`. -/
def fredkinDef (st : List Bool) : List (Op × List Nat) :=
  let n := st.length
  [(.ctrl (.pauli .x) [true], [n + 1, n]), (.ctrl (.pauli .x) (st ++ [true]), List.range (n + 2)),
    (.ctrl (.pauli .x) [true], [n + 1, n])]

/-- operation.py:661-673, 826-840: `op.control(n, ctrl_state)` for an exact method; controls of a
(possibly phase tolerant) controlled operation are merged. -/
def mkCtrl (o : Op) (st : List Bool) : Op :=
  match o with
  | .ctrl b st' => .ctrl b (st ++ st')
  | .pt b st' _ => .ctrl b (st ++ st')
  | o => .ctrl o st

/-- controlled_operations.py:24-50 `multi_controlled_circuit`: the controls are the qubits
`0 … len(st)-1`, the qubits of the circuit follow. -/
def ctlCircuit (st : List Bool) : List (Op × List Nat) → List (Op × List Nat)
  | [] => []
  | (.alloc, is) :: r => (.alloc, is.map (· + st.length)) :: ctlCircuit st r
  | (.dealloc, is) :: r => (.dealloc, is.map (· + st.length)) :: ctlCircuit st r
  | (o, is) :: r =>
    (mkCtrl o st, List.range st.length ++ is.map (· + st.length)) :: ctlCircuit st r

/-- operation.py:675-759: the definition circuit of the controlled version of an operation that is not
itself controlled; `none` when there is none (lines 713-725: elementary cx, cy, cz; line 759: exception;
a composite operation named "gphase" has no parameter, line 681). -/
noncomputable def ctrlDef (S : Syn) (o : Op) (st : List Bool) : Option (List (Op × List Nat)) :=
  match o with
  | .u3 nm θ φ lam g =>
    if nm = "gphase" then some (gphaseDef g st)
    else some (ctlFlips st 0 ++ u3Core S nm θ φ lam g st.length ++ ctlFlips st 0)
  | .pauli p =>
    if st = [true] then none
    else some (ctlFlips st 0 ++ pauliCore p st.length ++ ctlFlips st 0)
  | .swap => some (fredkinDef st)
  | .gate nm _ body =>
    if nm = "gphase" then none
    else if nm = "swap" then some (fredkinDef st)
    else some (ctlCircuit st body)
  | _ => none

/-! ### Semantics of the pieces -/

variable {Q : Type} [DecidableEq Q]

theorem app1_x (q : Q) (ψ : Amp Q) : app1 Pauli.x.mat q ψ = fun b => ψ (upd b q (!(b q))) := by
  funext b
  simp only [app1, mux, Pauli.mat]
  cases b q <;> simp

/-- Flip the controls whose control state is 0. -/
def flipOn : List Q → List Bool → (Q → Bool) → (Q → Bool)
  | c :: cs, v :: st, b =>
    let b := flipOn cs st b
    if v then b else upd b c (!(b c))
  | _, _, b => b

theorem flipOn_out {cs : List Q} {q : Q} (h : q ∉ cs) (st : List Bool) (b : Q → Bool) :
    flipOn cs st b q = b q := by
  induction cs generalizing st with
  | nil => rfl
  | cons c cs ih =>
    match st with
    | [] => rfl
    | v :: st =>
      have h1 : q ≠ c := fun e => h (by simp [e])
      have h2 := ih (fun e => h (by simp [e])) st
      cases v <;> simp [flipOn, upd, h1, h2]

theorem flipOn_upd {cs : List Q} {q : Q} (h : q ∉ cs) (st : List Bool) (b : Q → Bool) (w : Bool) :
    flipOn cs st (upd b q w) = upd (flipOn cs st b) q w := by
  induction cs generalizing st with
  | nil => rfl
  | cons c cs ih =>
    match st with
    | [] => rfl
    | v :: st =>
      have h1 : c ≠ q := fun e => h (by simp [e])
      have h2 := ih (fun e => h (by simp [e])) st
      cases v
      · simp only [flipOn, h2, Bool.false_eq_true, if_false]
        funext r
        simp only [upd]
        by_cases e : r = c
        · subst e; simp [h1]
        · simp [e]
      · simp only [flipOn, h2, if_true]

theorem flipOn_flipOn {cs : List Q} (h : cs.Nodup) (st : List Bool) (b : Q → Bool) :
    flipOn cs st (flipOn cs st b) = b := by
  induction cs generalizing st b with
  | nil => rfl
  | cons c cs ih =>
    match st with
    | [] => rfl
    | v :: st =>
      obtain ⟨h1, h2⟩ := List.nodup_cons.1 h
      cases v
      · simp only [flipOn, Bool.false_eq_true, if_false, flipOn_upd h1, ih h2]
        funext r
        simp only [upd]
        by_cases e : r = c
        · subst e; simp [flipOn_out h1]
        · simp [e]
      · simp only [flipOn, if_true, ih h2]

theorem allOn_flipOn {cs : List Q} (h : cs.Nodup) (st : List Bool) (hl : st.length = cs.length)
    (b : Q → Bool) : allOn cs (flipOn cs st b) = ctlMatch cs st b := by
  have key : ∀ (l : List Q) (c : Q) (w : Bool) (b : Q → Bool), c ∉ l → allOn l (upd b c w) = allOn l b := by
    intro l c w b hc
    unfold allOn
    rw [Bool.eq_iff_iff]
    simp only [List.all_eq_true]
    refine forall₂_congr fun q hq => ?_
    have : q ≠ c := fun e => hc (e ▸ hq)
    simp [upd, this]
  induction cs generalizing st with
  | nil => rfl
  | cons c cs ih =>
    match st, hl with
    | v :: st, hl =>
      obtain ⟨h1, h2⟩ := List.nodup_cons.1 h
      have := ih h2 st (by simpa using hl)
      have hb := flipOn_out h1 st b
      simp only [ctlMatch, ← this]
      cases v
      · simp only [flipOn, Bool.false_eq_true, if_false]
        change (_ && allOn cs _) = _
        rw [key cs c _ _ h1]
        simp [upd, hb]
      · simp only [flipOn, if_true]
        change (_ && allOn cs _) = _
        simp [hb]

theorem pick_one {qs : List Q} {i : Nat} {q : Q} (h : qs[i]? = some q) : pick qs [i] = [q] := by
  simp [pick, h]

theorem pick_range_append (cs ts : List Q) : pick (cs ++ ts) (List.range cs.length) = cs := by
  unfold pick
  apply List.ext_getElem?
  intro i
  induction cs generalizing i with
  | nil => simp
  | cons c cs ih =>
    rw [List.length_cons, List.range_succ_eq_map, List.filterMap_cons]
    simp only [List.cons_append, List.length_cons, List.getElem?_cons_zero]
    match i with
    | 0 => rfl
    | i + 1 =>
      rw [List.getElem?_cons_succ, List.getElem?_cons_succ, ← ih i, List.filterMap_map]
      rfl

theorem pick_range (qs : List Q) : pick qs (List.range qs.length) = qs := by
  have := pick_range_append qs []
  rwa [List.append_nil] at this

theorem pick_shift (cs ts : List Q) (is : List Nat) :
    pick (cs ++ ts) (is.map (· + cs.length)) = pick ts is := by
  unfold pick
  rw [List.filterMap_map]
  apply List.filterMap_congr
  intro i _
  simp only [Function.comp]
  rw [List.getElem?_append_right (by omega)]
  congr 1; omega

theorem denBody_flips (pre : List Q) (cs : List Q) (suf : List Q) (st : List Bool)
    (hl : st.length = cs.length) (ψ : Amp Q) :
    denBody (ctlFlips st pre.length) (pre ++ (cs ++ suf)) ψ = fun b => ψ (flipOn cs st b) := by
  induction cs generalizing pre st ψ with
  | nil =>
    have : st = [] := by simpa using hl
    subst this
    simp [ctlFlips, denBody, flipOn]
  | cons c cs ih =>
    match st, hl with
    | v :: st, hl =>
      have e := ih (pre ++ [c]) st (by simpa using hl)
      have e' : pre ++ [c] ++ (cs ++ suf) = pre ++ (c :: cs ++ suf) := by simp
      rw [e', show (pre ++ [c]).length = pre.length + 1 by simp] at e
      have hq : (pre ++ (c :: cs ++ suf))[pre.length]? = some c := by
        rw [List.getElem?_append_right le_rfl]; simp
      cases v
      · simp only [ctlFlips, Bool.false_eq_true, if_false, List.singleton_append, denBody, den,
          pick_one hq, on1]
        rw [e, app1_x]
        funext b
        simp only [flipOn, Bool.false_eq_true, if_false]
      · simp only [ctlFlips, if_true, List.nil_append]
        rw [e]
        funext b
        simp only [flipOn, if_true]

/-- Conjugation of a multiplexed gate by the flips. -/
theorem flips_conj {cs : List Q} {t : Q} (hnd : (cs ++ [t]).Nodup) (st : List Bool)
    (hl : st.length = cs.length) (U : M2) (core : List (Op × List Nat))
    (hcore : ∀ ψ, denBody core (cs ++ [t]) ψ = mux (fun b => if allOn cs b then U else 1) t ψ)
    (ψ : Amp Q) :
    denBody (ctlFlips st 0 ++ core ++ ctlFlips st 0) (cs ++ [t]) ψ
      = ctl (ctlMatch cs st) (app1 U t) ψ := by
  have hcs := (List.nodup_append.1 hnd).1
  have ht : t ∉ cs := fun h => (List.nodup_append.1 hnd).2.2 t h t (by simp) rfl
  have hf : ∀ ψ : Amp Q, denBody (ctlFlips st 0) (cs ++ [t]) ψ = fun b => ψ (flipOn cs st b) :=
    fun ψ => denBody_flips [] cs [t] st hl ψ
  rw [denBody_append, denBody_append, hf, hcore, hf, ctl_app1]
  funext b
  simp only [mux, allOn_flipOn hcs st hl, flipOn_upd ht, flipOn_flipOn hcs, flipOn_out ht]

end Verif.Circ
