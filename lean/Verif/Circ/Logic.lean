import Verif.Circ.GrayInst

/-!
Model of the synthesis of truth tables: `gray_logic_synth` of
`/repo/src/qrisp/alg_primitives/logic_synthesis/gray_synthesis.py` and `pprm` of
`/repo/src/qrisp/alg_primitives/logic_synthesis/pprm_synthesis.py`.

A truth table is the list of its columns (truth_tables.py:64-73 `n_rep`), a column the list of its
`2 ^ n` entries. The circuits act on the input qubits `0 … n-1` and the output qubits `n, n+1, …`.
-/

namespace Verif.Circ

open Verif.Rev (upd)

/-! ### Gray synthesis -/

/-- gray_synthesis.py:524-533: phase π where output and table entry are one, bit order reversed. -/
noncomputable def colPhases (n : Nat) (col : List Bool) : List ℝ :=
  (List.range (2 ^ (n + 1))).map fun i =>
    (List.replicate (2 ^ n) 0 ++ col.map fun v : Bool => if v then Real.pi else 0).getD (revIdx (n + 1) i) 0

/-- gray_synthesis.py:513-545 `gray_logic_synth_single_qb` with the output qubit `out`. -/
noncomputable def logicSingle (pt : Bool) (n : Nat) (col : List Bool) (out : Nat) : List (Op × List Nat) :=
  [(hG, [out]), (graySynth pt (colPhases n col), List.range n ++ [out]), (hG, [out])]

/-- gray_synthesis.py:564-571: the residual phases, indexed by the row of the table. -/
noncomputable def residual (n : Nat) (cols : List (List Bool)) : List ℝ :=
  (List.range (2 ^ n)).map fun x =>
    (cols.map fun col => ((if col.getD x false then 1 else 0) - 1 / 2) * (Real.pi / 2)).sum

/-- gray_synthesis.py:548-587 `gray_logic_synth`: one column is synthesised exactly (`phase_tolerant`
is not passed on, line 558); otherwise all columns phase tolerantly, followed by the residual phases
on the input register. `parallelize_qc` (line 578) keeps the operator and is left out. -/
noncomputable def grayLogic (pt : Bool) (n : Nat) (cols : List (List Bool)) : List (Op × List Nat) :=
  match cols with
  | [col] => logicSingle false n col n
  | _ => (List.range cols.length).flatMap (fun i => logicSingle true n (cols.getD i []) (n + i)) ++
      if pt then [] else [(graySynth false (residual n cols), List.range n)]

/-! ### Reed-Muller synthesis -/

/-- Polynomials over GF(2) before reduction: a list of monomials, a monomial is the set of its
variables as a bit mask. Product with `x_j` or `x_j + 1`. -/
def mulLit (P : List Nat) (j : Nat) (v : Bool) : List Nat :=
  if v then P.map (· ||| 2 ^ j) else P.map (· ||| 2 ^ j) ++ P

/-- truth_tables.py:385-395: the product of the literals of row `i` (`int_as_array(i)[j]` is the bit
`n - 1 - j` and belongs to `coeff[-j - 1]`, the variable `x_{n-1-j}`). -/
def rowPoly (n i : Nat) : List Nat :=
  (List.range n).reverse.foldl (fun P j => mulLit P j (i.testBit j)) [0]

/-- truth_tables.py:385-395: the sum over the rows with entry one. -/
def tablePoly (n : Nat) (col : List Bool) : List Nat :=
  ((List.range (2 ^ n)).filter fun i => col.getD i false).flatMap (rowPoly n)

/-- truth_tables.py:399 reduction modulo 2 (`sp.Poly(..., domain = GF(2))`). -/
def reduced (n : Nat) (P : List Nat) : List Nat :=
  (List.range (2 ^ n)).filter fun m => P.count m % 2 == 1

/-- The variables of a monomial. -/
def maskVars (n m : Nat) : List Nat := (List.range n).filter fun j => m.testBit j

/-- pprm_synthesis.py:38-73: the gate of one monomial. One variable: `cx`; several: the phase tolerant
truth table gate of their product, or a multi-controlled X; none: `x`. -/
noncomputable def monoGate (pt : Bool) (n out m : Nat) : List (Op × List Nat) :=
  let vs := maskVars n m
  match vs with
  | [] => [(.pauli .x, [out])]
  | [v] => [(.ctrl (.pauli .x) [true], [v, out])]
  | _ =>
    if pt then
      [(.gate "logic_synth" (vs.length + 1)
          (grayLogic true vs.length [List.replicate (2 ^ vs.length - 1) false ++ [true]]), vs ++ [out])]
    else [(mcxG vs.length, vs ++ [out])]

/-- pprm_synthesis.py:24-75 `pprm_synth`: the monomials in the order `ms` of sympy. -/
noncomputable def pprmSynth (pt : Bool) (n out : Nat) (ms : List Nat) : List (Op × List Nat) :=
  ms.flatMap (monoGate pt n out)

/-- pprm_synthesis.py:78-81 `pprm`; `ord col` are the monomials of the column in the order of sympy. -/
noncomputable def pprm (pt : Bool) (n : Nat) (ord : List Bool → List Nat) (cols : List (List Bool)) :
    List (Op × List Nat) :=
  (List.range cols.length).flatMap fun i => pprmSynth pt n (n + i) (ord (cols.getD i []))

/-! ### Specification -/

section
variable {Q : Type} [DecidableEq Q]

/-- The number in a register, first qubit least significant. -/
def regNat (b : Q → Bool) : List Q → Nat
  | [] => 0
  | q :: r => (b q).toNat + 2 * regNat b r

/-- Flip the output qubits according to the row selected by the input register. -/
def xorOut (b : Q → Bool) (x : Nat) : List Q → List (List Bool) → (Q → Bool)
  | q :: qs, col :: cols => xorOut (upd b q (b q ^^ col.getD x false)) x qs cols
  | _, _ => b

/-! ### Semantics of the pieces -/

theorem regNat_leV (qs : List Q) (A : Nat → Q) (hA : ∀ k < qs.length, qs[k]? = some (A k)) (b : Q → Bool) :
    regNat b qs = leV qs.length fun k => b (A k) := by
  induction qs generalizing A with
  | nil => simp [regNat, leV]
  | cons q qs ih =>
    rw [List.length_cons, leV_succ_low, regNat]
    have h0 := hA 0 (by simp)
    have : q = A 0 := by simpa using h0
    rw [ih (fun k => A (k + 1)) fun k hk => by
      have := hA (k + 1) (by simpa using hk)
      simpa using this]
    rw [this]
    omega

theorem regNat_lt (b : Q → Bool) (qs : List Q) : regNat b qs < 2 ^ qs.length := by
  induction qs with
  | nil => simp [regNat]
  | cons q qs ih =>
    rw [regNat, List.length_cons, Nat.pow_succ]
    have := Bool.toNat_le (b q)
    omega

theorem regNat_congr {b c : Q → Bool} {qs : List Q} (h : ∀ q ∈ qs, b q = c q) : regNat b qs = regNat c qs := by
  induction qs with
  | nil => rfl
  | cons q qs ih =>
    rw [regNat, regNat, h q (by simp), ih fun q hq => h q (by simp [hq])]

theorem regNat_upd {b : Q → Bool} {qs : List Q} {q : Q} (h : q ∉ qs) (v : Bool) :
    regNat (upd b q v) qs = regNat b qs :=
  regNat_congr fun q' hq' => by
    have : q' ≠ q := fun e => h (e ▸ hq')
    simp [upd, this]

theorem leV_snoc (n : Nat) (f : Nat → Bool) : leV (n + 1) f = leV n f + (f n).toNat * 2 ^ n := by
  simp [leV]
  cases f n <;> simp

theorem revIdx_revIdx {n i : Nat} (hi : i < 2 ^ n) : revIdx n (revIdx n i) = i := by
  apply Nat.eq_of_testBit_eq
  intro k
  by_cases hk : k < n
  · rw [revIdx_eq, leV_testBit hk, revIdx_eq, leV_testBit (by omega)]
    congr 1; omega
  · have h1 : (revIdx n (revIdx n i)).testBit k = false :=
      Nat.testBit_lt_two_pow (lt_of_lt_of_le (revIdx_lt _ _) (Nat.pow_le_pow_right (by omega) (by omega)))
    have h2 : i.testBit k = false :=
      Nat.testBit_lt_two_pow (lt_of_lt_of_le hi (Nat.pow_le_pow_right (by omega) (by omega)))
    rw [h1, h2]

/-- Flipping `q` according to `f`, with phase `d`. -/
theorem h_diag_h (q : Q) (D : (Q → Bool) → ℂ) (f : (Q → Bool) → Bool) (hD : ∀ b v, D (upd b q v) = D b)
    (hf : ∀ b v, f (upd b q v) = f b) (ψ : Amp Q) :
    app1 hm q (diag (fun b => D b * if f b && b q then -1 else 1) (app1 hm q ψ))
      = fun b => D b * ψ (upd b q (b q ^^ f b)) := by
  have r := r2_sq
  funext b
  have key : ∀ x y : ℂ, ∀ d e : ℂ, r2 * (d * (r2 * x + r2 * y)) + r2 * (e * (r2 * x - r2 * y))
      = (r2 * r2) * ((d + e) * x + (d - e) * y) := by intros; ring
  have key' : ∀ x y : ℂ, ∀ d e : ℂ, r2 * (d * (r2 * x + r2 * y)) - r2 * (e * (r2 * x - r2 * y))
      = (r2 * r2) * ((d - e) * x + (d + e) * y) := by intros; ring
  cases hb : b q <;> cases hfb : f b <;>
    simp only [app1, mux, diag, hm, mk, upd_same, upd_upd, hD, hf, hb, hfb, Bool.false_and, Bool.and_false,
      Bool.and_true, Bool.true_and, if_true, Bool.false_eq_true, if_false, mul_one, mul_neg, neg_mul,
      Bool.false_bne, Bool.true_bne, Bool.not_true, Bool.not_false, Bool.xor_false, Bool.xor_true,
      ← sub_eq_add_neg]
  · have := key (ψ (upd b q false)) (ψ (upd b q true)) (D b) (D b)
    rw [this, r]; ring
  · have := key (ψ (upd b q false)) (ψ (upd b q true)) (D b) (-D b)
    rw [neg_mul, mul_neg] at this
    rw [sub_eq_add_neg]
    first
    | (rw [this, r]; ring)
    | (simp only [← sub_eq_add_neg] at *; rw [this, r]; ring)
  · have := key' (ψ (upd b q false)) (ψ (upd b q true)) (D b) (D b)
    rw [this, r]; ring
  · have := key' (ψ (upd b q false)) (ψ (upd b q true)) (D b) (-D b)
    rw [neg_mul, mul_neg] at this
    first
    | (rw [this, r]; ring)
    | (simp only [sub_neg_eq_add] at *; rw [this, r]; ring)

end

/-! ### Spectra of tables -/

/-- For every most significant bit the smallest parity (with that bit) correlated with `g` has at most
two ones. -/
def SmallWht (n : Nat) (g : Nat → ℝ) : Prop :=
  ∀ o < n, ∀ p < 2 ^ n, Nat.log2 p = o → p ≠ 0 → wht n g p ≠ 0 →
    (∀ p' < p, Nat.log2 p' = o → p' ≠ 0 → wht n g p' = 0) → p = 2 ^ o ∨ ∃ c < o, p = 2 ^ o + 2 ^ c

/-- A column as a real function of the row. -/
def colR (col : List Bool) (x : Nat) : ℝ := if col.getD x false then 1 else 0

theorem colPhases_length (n : Nat) (col : List Bool) : (colPhases n col).length = 2 ^ (n + 1) := by
  simp [colPhases]

theorem colPhases_getD {n : Nat} {col : List Bool} (hc : col.length = 2 ^ n) {x : Nat} (hx : x < 2 ^ n)
    (v : Bool) : (colPhases n col).getD (revIdx (n + 1) (x + v.toNat * 2 ^ n)) 0
      = Real.pi * (v.toNat * colR col x) := by
  have hp : 2 ^ (n + 1) = 2 ^ n + 2 ^ n := by rw [Nat.pow_succ]; omega
  have hlt : x + v.toNat * 2 ^ n < 2 ^ (n + 1) := by cases v <;> simp <;> omega
  have h1 : revIdx (n + 1) (x + v.toNat * 2 ^ n) < 2 ^ (n + 1) := revIdx_lt _ _
  unfold colPhases
  rw [List.getD_eq_getElem?_getD, List.getElem?_map, List.getElem?_range h1]
  simp only [Option.map_some, Option.getD_some]
  rw [revIdx_revIdx hlt]
  cases v
  · simp only [Bool.toNat_false, Nat.zero_mul, Nat.add_zero, Nat.cast_zero, zero_mul, mul_zero]
    rw [List.getD_eq_getElem?_getD, List.getElem?_append_left (by simpa using hx)]
    simp [hx]
  · simp only [Bool.toNat_true, Nat.one_mul, Nat.cast_one, one_mul]
    rw [List.getD_eq_getElem?_getD, List.getElem?_append_right (by simp)]
    simp only [List.length_replicate, Nat.add_sub_cancel, List.getElem?_map]
    rw [colR, List.getD_eq_getElem?_getD, List.getElem?_eq_getElem (by omega)]
    simp only [Option.map_some, Option.getD_some]
    cases col[x] <;> simp

theorem colPhases_zero {n : Nat} {col : List Bool} (hc : col.length = 2 ^ n) : (colPhases n col).getD 0 0 = 0 := by
  have := colPhases_getD hc (Nat.two_pow_pos n) false
  simpa [revIdx_zero] using this

theorem spec_col {n : Nat} {col : List Bool} (hc : col.length = 2 ^ n) {p : Nat} (hp : p < 2 ^ (n + 1))
    (h0 : p ≠ 0) : specOf (n + 1) (colPhases n col) p
      = sgB (p.testBit n) * (Real.pi * wht n (colR col) p) * (2 / 2 ^ (n + 1)) := by
  unfold specOf
  rw [spectrum_ne _ hp h0, wht_succ]
  have e0 : wht n (fun i => (colPhases n col).getD (revIdx (n + 1) i) 0) p = 0 := by
    have : wht n (fun i => (colPhases n col).getD (revIdx (n + 1) i) 0) p = wht n (fun i => 0 * i) p :=
      wht_congr (fun x hx => by
        have := colPhases_getD hc hx false
        simpa using this) p
    rw [this, wht_smul, zero_mul]
  have e1 : wht n (fun i => (colPhases n col).getD (revIdx (n + 1) (2 ^ n + i)) 0) p
      = wht n (fun i => Real.pi * colR col i) p :=
    wht_congr (fun x hx => by
      have := colPhases_getD hc hx true
      simpa [Nat.add_comm] using this) p
  rw [e0, e1, wht_smul, zero_add]

theorem wht_col0 (n : Nat) (a : Nat → ℝ) : wht n a 0 = ∑ x ∈ Finset.range (2 ^ n), a x := by
  unfold wht
  refine Finset.sum_congr rfl fun x _ => ?_
  unfold sg
  rw [parB_zero]; simp [sgB]

theorem wht_col_zero (n : Nat) (col : List Bool) : wht n (colR col) 0
    = ∑ x ∈ Finset.range (2 ^ n), colR col x := by
  unfold wht
  refine Finset.sum_congr rfl fun x _ => ?_
  unfold sg
  rw [parB_zero]; simp [sgB]

theorem wht_col_pos {n : Nat} {col : List Bool} {p : Nat} (h : wht n (colR col) p ≠ 0) :
    wht n (colR col) 0 ≠ 0 := by
  intro h0
  rw [wht_col_zero, Finset.sum_eq_zero_iff_of_nonneg (fun x _ => by unfold colR; split <;> simp)] at h0
  refine h ?_
  unfold wht
  exact Finset.sum_eq_zero fun x hx => by rw [h0 x hx, mul_zero]

/-- The parity operators containing the output qubit are never a problem. -/
theorem col_top {n : Nat} {col : List Bool} (hc : col.length = 2 ^ n) :
    MinOK n (grp (n + 1) (specOf (n + 1) (colPhases n col)) n) := by
  intro p hp hmin
  left
  obtain ⟨h1, h2, h3⟩ := mem_grp.1 hp
  have hp0 : p ≠ 0 := by
    intro e; subst e
    exact h2 (by simp [specOf, spectrum, setA])
  have hb := log2_bounds h3 hp0
  rw [spec_col hc h1 hp0] at h2
  have hw : wht n (colR col) p ≠ 0 := fun e => h2 (by rw [e]; ring)
  have h20 : (2 : Nat) ^ n ≠ 0 := by positivity
  have hlt : 2 ^ n < 2 ^ (n + 1) := Nat.pow_lt_pow_right (by omega) (by omega)
  have := hmin (2 ^ n) (mem_grp.2 ⟨hlt, ?_, Nat.log2_two_pow⟩)
  · omega
  · rw [spec_col hc hlt h20]
    have e : wht n (colR col) (2 ^ n) = wht n (colR col) 0 := wht_high n _ (p := 0)
    rw [e]
    have : (2 : ℝ) / 2 ^ (n + 1) ≠ 0 := by positivity
    exact mul_ne_zero (mul_ne_zero (sgB_ne _) (mul_ne_zero Real.pi_ne_zero (wht_col_pos hw))) this

theorem col_all {n : Nat} {col : List Bool} (hc : col.length = 2 ^ n) (hS : SmallWht n (colR col)) :
    SpecOK (n + 1) (specOf (n + 1) (colPhases n col)) := by
  intro o ho
  by_cases hon : o = n
  · subst hon; exact col_top hc
  intro p hp hmin
  obtain ⟨h1, h2, h3⟩ := mem_grp.1 hp
  have hp0 : p ≠ 0 := by
    intro e; subst e
    exact h2 (by simp [specOf, spectrum, setA])
  have hb := log2_bounds h3 hp0
  have hle : 2 ^ (o + 1) ≤ 2 ^ n := Nat.pow_le_pow_right (by omega) (by omega)
  have hlt : 2 ^ n < 2 ^ (n + 1) := Nat.pow_lt_pow_right (by omega) (by omega)
  have hne : ∀ p' < 2 ^ n, p' ≠ 0 → (specOf (n + 1) (colPhases n col) p' ≠ 0 ↔ wht n (colR col) p' ≠ 0) := by
    intro p' hp' h0
    rw [spec_col hc (by omega) h0]
    have : (2 : ℝ) / 2 ^ (n + 1) ≠ 0 := by positivity
    constructor
    · intro h e; exact h (by rw [e]; ring)
    · intro h
      exact mul_ne_zero (mul_ne_zero (sgB_ne _) (mul_ne_zero Real.pi_ne_zero h)) this
  refine hS o (by omega) p (by omega) h3 hp0 ((hne p (by omega) hp0).1 h2) fun p' hlt' hl h0 => ?_
  by_contra hc'
  have := hmin p' (mem_grp.2 ⟨by omega, (hne p' (by omega) h0).2 hc', hl⟩)
  omega

/-! ### One column -/

section
variable {Q : Type} [DecidableEq Q]

theorem ph_col (f v : Bool) : ph (Real.pi * (v.toNat * if f then 1 else 0)) = if f && v then -1 else 1 := by
  cases f <;> cases v <;> simp [ph_zero, ph_pi]

theorem regNat_snoc (b : Q → Bool) (qs : List Q) (q : Q) :
    regNat b (qs ++ [q]) = regNat b qs + (b q).toNat * 2 ^ qs.length := by
  induction qs with
  | nil => simp [regNat]
  | cons a qs ih =>
    simp only [List.cons_append, regNat, ih, List.length_cons, Nat.pow_succ]
    ring

theorem col_exact {I : List Q} {q : Q} (hnd : (I ++ [q]).Nodup) {col : List Bool}
    (hc : col.length = 2 ^ I.length) (hS : SmallWht I.length (colR col)) :
    den (graySynth false (colPhases I.length col)) (I ++ [q])
      = diag fun b => (1 : ℂ) * if col.getD (regNat b I) false && b q then -1 else 1 := by
  have hlen : (I ++ [q]).length = I.length + 1 := by simp
  rw [graySynth_den _ (I ++ [q]) hnd (by rw [colPhases_length, hlen]) (by rw [hlen]; exact col_all hc hS)]
  congr 1
  funext b
  obtain ⟨A, hA, -⟩ := qubits_fun (I ++ [q]) hnd (by simp)
  rw [← beVal_rev _ A hA, ← regNat_leV _ A hA, regNat_snoc, hlen, colPhases_getD hc (regNat_lt b I),
    colPhases_zero hc, sub_zero, colR, ph_col, one_mul]

theorem col_pt {I : List Q} {q : Q} (hnd : (I ++ [q]).Nodup) {col : List Bool}
    (hc : col.length = 2 ^ I.length) :
    den (graySynth true (colPhases I.length col)) (I ++ [q])
      = diag fun b => ph (-(Real.pi / 2 * (colR col (regNat b I) - colR col 0))) *
          if col.getD (regNat b I) false && b q then -1 else 1 := by
  have hlen : (I ++ [q]).length = I.length + 1 := by simp
  obtain ⟨A, hA, inj⟩ := qubits_fun (I ++ [q]) hnd (by simp)
  have hAI : ∀ k < I.length, I[k]? = some (A k) := by
    intro k hk
    have := hA k (by rw [hlen]; omega)
    rwa [List.getElem?_append_left hk] at this
  have hv : ∀ b, leV (I.length + 1) (fun k => b (A k)) = regNat b I + (b q).toNat * 2 ^ I.length := by
    intro b
    have := regNat_leV _ A hA b
    rw [hlen, regNat_snoc] at this
    exact this.symm
  rw [hlen] at hA inj
  funext ψ b
  unfold graySynth
  rw [colPhases_length, Nat.log2_two_pow]
  simp only [den]
  rw [grayBody_pt_den (Nat.succ_pos _) hA inj (fun i => (colPhases I.length col).getD i 0) (col_top hc)]
  simp only [diag]
  congr 1
  change Phi (I.length + 1) A (specOf (I.length + 1) (colPhases I.length col)) (fun p =>
    if p < 2 ^ I.length then specOf (I.length + 1) (colPhases I.length col) p else 0) b = _
  rw [← Phi_trans (specOf (I.length + 1) (colPhases I.length col)) (fun _ => 0)]
  congr 1
  · unfold Phi
    congr 1
    have hx := regNat_lt b I
    rw [← phase_sum I.length (fun i => Real.pi / 2 * colR col i) (regNat b I) hx |>.trans (mul_sub _ _ _).symm,
      Nat.pow_succ, Nat.mul_two, Finset.sum_range_add, ← Finset.sum_neg_distrib]
    have z : ∑ x ∈ Finset.range (2 ^ I.length), -((0 : ℝ) - if 2 ^ I.length + x < 2 ^ I.length then
        specOf (I.length + 1) (colPhases I.length col) (2 ^ I.length + x) else 0) *
          bv (parB (I.length + 1) (2 ^ I.length + x) fun k => b (A k)) = 0 :=
      Finset.sum_eq_zero fun x _ => by rw [if_neg (by omega)]; simp
    rw [z, add_zero]
    refine Finset.sum_congr rfl fun p hp => ?_
    have hp := Finset.mem_range.1 hp
    beta_reduce
    rw [if_pos hp, parB_low (Nat.le_succ _) hp]
    have e1 : parB I.length p (fun k => b (A k)) = parB I.length p (regNat b I).testBit := by
      rw [regNat_leV I A hAI]
      exact parB_congr fun k hk => by rw [leV_testBit hk]
    rw [e1]
    by_cases h0 : p = 0
    · subst h0
      rw [parB_zero]; simp [bv]
    · rw [spec_col hc (by rw [Nat.pow_succ]; omega) h0, spectrum_ne _ hp h0, wht_smul,
        Nat.testBit_lt_two_pow hp]
      have : (2 : ℝ) ^ I.length ≠ 0 := by positivity
      simp only [sgB, pow_succ]
      field_simp
      ring
  · have := Phi_full (n := I.length + 1) A (fun i => (colPhases I.length col).getD i 0) b
    refine this.trans ?_
    rw [hv, colPhases_getD hc (regNat_lt b I), colPhases_zero hc, sub_zero, colR, ph_col]

theorem pick_append (qs : List Q) (a b : List Nat) : pick qs (a ++ b) = pick qs a ++ pick qs b := by
  simp [pick]

theorem denBody_append' (a b : List (Op × List Nat)) (qs : List Q) (ψ : Amp Q) :
    denBody (a ++ b) qs ψ = denBody b qs (denBody a qs ψ) := by
  induction a generalizing ψ with
  | nil => rfl
  | cons x a ih => obtain ⟨o, is⟩ := x; simp only [List.cons_append, denBody, ih]

/-- The phase left by the phase tolerant synthesis. -/
noncomputable def ptPhase (pt : Bool) (col : List Bool) (x : Nat) : ℂ :=
  if pt then ph (-(Real.pi / 2 * (colR col x - colR col 0))) else 1

theorem logicSingle_den (pt : Bool) {qs I : List Q} {q : Q} {out : Nat} (hI : pick qs (List.range I.length) = I)
    (hq : qs[out]? = some q) (hnd : (I ++ [q]).Nodup) {col : List Bool} (hc : col.length = 2 ^ I.length)
    (hS : pt = false → SmallWht I.length (colR col)) (ψ : Amp Q) :
    denBody (logicSingle pt I.length col out) qs ψ
      = fun b => ptPhase pt col (regNat b I) * ψ (upd b q (b q ^^ col.getD (regNat b I) false)) := by
  have hqI : q ∉ I := fun h => by
    have := List.nodup_append'.1 hnd
    exact this.2.2 h (by simp)
  unfold logicSingle
  simp only [denBody]
  rw [pick_append, hI, pick_one hq]
  have hh : ∀ φ : Amp Q, den hG [q] φ = app1 hm q φ := by
    intro φ; simp only [hG, den, on1, u3m_h]
  rw [hh, hh]
  have hR : ∀ b v, regNat (upd b q v) I = regNat b I := fun b v => regNat_upd hqI v
  have key := h_diag_h q (fun b => ptPhase pt col (regNat b I)) (fun b => col.getD (regNat b I) false)
    (fun b v => by rw [hR]) (fun b v => by rw [hR]) ψ
  cases pt
  · rw [col_exact hnd hc (hS rfl)]
    exact key
  · rw [col_pt hnd hc]
    exact key

/-! ### Several columns -/

theorem xorOut_upd {O : List Q} {q : Q} (h : q ∉ O) (b : Q → Bool) (x : Nat) (cols : List (List Bool)) (v : Bool) :
    xorOut (upd b q v) x O cols = upd (xorOut b x O cols) q v := by
  induction O generalizing b cols with
  | nil => simp [xorOut]
  | cons o O ih =>
    cases cols with
    | nil => simp [xorOut]
    | cons col cols =>
      have h1 : q ≠ o := fun e => h (by simp [e])
      simp only [xorOut]
      rw [← ih (fun hm => h (by simp [hm]))]
      congr 1
      funext z
      by_cases hz : z = o
      · subst hz
        simp [upd, Ne.symm h1]
      · by_cases hz' : z = q
        · subst hz'; simp [upd, hz]
        · simp [upd, hz, hz']

theorem xorOut_out {O : List Q} {q : Q} (h : q ∉ O) (b : Q → Bool) (x : Nat) (cols : List (List Bool)) :
    xorOut b x O cols q = b q := by
  induction O generalizing b cols with
  | nil => simp [xorOut]
  | cons o O ih =>
    cases cols with
    | nil => simp [xorOut]
    | cons col cols =>
      have h1 : q ≠ o := fun e => h (by simp [e])
      simp only [xorOut]
      rw [ih fun hm => h (by simp [hm])]
      simp [upd, h1]

theorem xorOut_reg {I O : List Q} (h : (I ++ O).Nodup) (b : Q → Bool) (x : Nat) (cols : List (List Bool)) :
    regNat (xorOut b x O cols) I = regNat b I :=
  regNat_congr fun _ hq => xorOut_out (fun ho => (List.nodup_append'.1 h).2.2 hq ho) _ _ _

/-- A sequence of circuits, the `i`-th flipping the `i`-th output according to the `i`-th column. -/
theorem columns_den {qs I : List Q} (B : List Bool → Nat → List (Op × List Nat)) (D : List Bool → Nat → ℂ)
    (cols : List (List Bool)) (hB : ∀ col ∈ cols, ∀ q out, q ∉ I → qs[out]? = some q → ∀ ψ : Amp Q,
      denBody (B col out) qs ψ
        = fun b => D col (regNat b I) * ψ (upd b q (b q ^^ col.getD (regNat b I) false)))
    (O : List Q) (k : Nat) (hO : ∀ i (h : i < O.length), qs[k + i]? = some O[i]) (hnd : (I ++ O).Nodup)
    (hl : cols.length = O.length) (ψ : Amp Q) :
    denBody ((List.range cols.length).flatMap fun i => B (cols.getD i []) (k + i)) qs ψ
      = fun b => (cols.map fun col => D col (regNat b I)).prod * ψ (xorOut b (regNat b I) O cols) := by
  induction cols generalizing O k ψ with
  | nil => funext b; simp [denBody, xorOut]
  | cons col cols ih =>
    cases O with
    | nil => simp at hl
    | cons q O =>
      have hn := List.nodup_append'.1 hnd
      have hqI : q ∉ I := fun h => hn.2.2 h (by simp)
      have hqO : q ∉ O := (List.nodup_cons.1 hn.2.1).1
      have hnd' : (I ++ O).Nodup := List.nodup_append'.2
        ⟨hn.1, (List.nodup_cons.1 hn.2.1).2, fun a ha hb => hn.2.2 ha (by simp [hb])⟩
      rw [List.length_cons, List.range_succ_eq_map, List.flatMap_cons, List.flatMap_map, denBody_append']
      have e : ∀ i, B ((col :: cols).getD (Nat.succ i) []) (k + Nat.succ i) = B (cols.getD i []) (k + 1 + i) := by
        intro i
        rw [show k + Nat.succ i = k + 1 + i by omega]; simp
      simp only [e]
      have h0 : (col :: cols).getD 0 [] = col := rfl
      rw [h0, hB col (by simp) q (k + 0) hqI (hO 0 (by simp)) ψ,
        ih (fun c hc => hB c (by simp [hc])) O (k + 1) (fun i h => by
          have := hO (i + 1) (by simpa using h)
          rw [show k + 1 + i = k + (i + 1) by omega]; simpa using this) hnd' (by simpa using hl)]
      funext b
      rw [xorOut_reg hnd', xorOut_out hqO, ← xorOut_upd hqO, List.map_cons, List.prod_cons]
      simp only [xorOut]
      ring

theorem residual_length (n : Nat) (cols : List (List Bool)) : (residual n cols).length = 2 ^ n := by
  simp [residual]

/-- The number of ones in row `x`, up to scale and constant the residual phase. -/
def rowSum (cols : List (List Bool)) (x : Nat) : ℝ := (cols.map fun col => colR col x).sum

theorem residual_getD {n x : Nat} (hx : x < 2 ^ n) (cols : List (List Bool)) :
    (residual n cols).getD x 0 = Real.pi / 2 * rowSum cols x - cols.length * (Real.pi / 4) := by
  unfold residual rowSum
  rw [List.getD_eq_getElem?_getD, List.getElem?_map, List.getElem?_range hx]
  simp only [Option.map_some, Option.getD_some]
  induction cols with
  | nil => simp
  | cons col cols ih =>
    simp only [List.map_cons, List.sum_cons, ih, List.length_cons, colR]
    push_cast
    ring

theorem residual_spec {n : Nat} {cols : List (List Bool)}
    (hS : SmallWht n fun x => rowSum cols (revIdx n x)) : SpecOK n (specOf n (residual n cols)) := by
  have hne : ∀ p < 2 ^ n, p ≠ 0 →
      specOf n (residual n cols) p = Real.pi / 2 * wht n (fun x => rowSum cols (revIdx n x)) p * (2 / 2 ^ n) := by
    intro p hp h0
    unfold specOf
    rw [spectrum_ne _ hp h0]
    have e : wht n (fun i => (residual n cols).getD (revIdx n i) 0) p
        = wht n (fun x => Real.pi / 2 * rowSum cols (revIdx n x) + (-(cols.length * (Real.pi / 4))) * 1) p :=
      wht_congr (fun x _ => by rw [residual_getD (revIdx_lt _ _)]; ring) p
    have z : wht n (fun _ => (1 : ℝ)) p = 0 := by
      have hw := wht_wht n (fun x => if x = p then (1 : ℝ) else 0) 0 (Nat.two_pow_pos n)
      rw [if_neg (Ne.symm h0), mul_zero] at hw
      have hd : ∀ q, wht n (fun x => if x = p then (1 : ℝ) else 0) q = sg n q p := by
        intro q
        unfold wht
        simp [Finset.sum_ite_eq', hp]
      rw [wht_col0] at hw
      have hs : ∀ x ∈ Finset.range (2 ^ n), wht n (fun x => if x = p then (1 : ℝ) else 0) x = sg n p x * 1 := by
        intro x _
        rw [hd, mul_one]
        unfold sg; congr 1; exact parB_congr fun k _ => Bool.and_comm _ _
      rw [Finset.sum_congr rfl hs] at hw
      exact hw
    rw [e, wht_add, wht_smul, wht_smul, z]
    ring
  have h00 : specOf n (residual n cols) 0 = 0 := by simp [specOf, spectrum, setA]
  intro o ho p hp hmin
  obtain ⟨h1, h2, h3⟩ := mem_grp.1 hp
  have hp0 : p ≠ 0 := fun e => h2 (by rw [e, h00])
  have hiff : ∀ p < 2 ^ n, p ≠ 0 → (specOf n (residual n cols) p ≠ 0 ↔
      wht n (fun x => rowSum cols (revIdx n x)) p ≠ 0) := by
    intro p hp h0
    rw [hne p hp h0]
    have : (2 : ℝ) / 2 ^ n ≠ 0 := by positivity
    have hpi : Real.pi / 2 ≠ 0 := by positivity
    constructor
    · intro h e; exact h (by rw [e]; ring)
    · intro h; exact mul_ne_zero (mul_ne_zero hpi h) this
  refine hS o ho p h1 h3 hp0 ((hiff p h1 hp0).1 h2) fun p' hlt hl h0 => ?_
  by_contra hc
  have := hmin p' (mem_grp.2 ⟨by omega, (hiff p' (by omega) h0).2 hc, hl⟩)
  omega

theorem residual_den {I : List Q} (hnd : I.Nodup) {cols : List (List Bool)}
    (hS : SmallWht I.length fun x => rowSum cols (revIdx I.length x)) (ψ : Amp Q) :
    den (graySynth false (residual I.length cols)) I ψ = fun b =>
      ph (Real.pi / 2 * (rowSum cols (revIdx I.length (regNat b I)) - rowSum cols 0)) * ψ b := by
  rw [graySynth_den _ I hnd (residual_length _ _) (residual_spec hS)]
  funext b
  simp only [diag]
  congr 2
  have e : beVal I b = revIdx I.length (regNat b I) := by
    by_cases hne : I = []
    · subst hne; simp [beVal, regNat, revIdx]
    · obtain ⟨A, hA, -⟩ := qubits_fun I hnd hne
      rw [← beVal_rev I A hA, regNat_leV I A hA]
  rw [e, residual_getD (revIdx_lt _ _), residual_getD (Nat.two_pow_pos _)]
  ring

theorem ptPhase_prod (cols : List (List Bool)) (x : Nat) :
    (cols.map fun col => ptPhase true col x).prod = ph (-(Real.pi / 2 * (rowSum cols x - rowSum cols 0))) := by
  unfold rowSum
  induction cols with
  | nil => simp [ph_zero]
  | cons col cols ih =>
    simp only [List.map_cons, List.prod_cons, List.sum_cons, ih]
    simp only [ptPhase, if_true]
    rw [← ph_add]
    congr 1; ring

theorem pick_left (I O : List Q) : pick (I ++ O) (List.range I.length) = I := pick_range_append I O

theorem getElem_out (I O : List Q) (i : Nat) (h : i < O.length) : (I ++ O)[I.length + i]? = some O[i] := by
  rw [List.getElem?_append_right (by omega)]
  simp [h]

/-- One column: exact. -/
theorem grayLogic_one (pt : Bool) {I : List Q} {q : Q} (hnd : (I ++ [q]).Nodup) {col : List Bool}
    (hc : col.length = 2 ^ I.length) (hS : SmallWht I.length (colR col)) (ψ : Amp Q) :
    denBody (grayLogic pt I.length [col]) (I ++ [q]) ψ
      = fun b => ψ (upd b q (b q ^^ col.getD (regNat b I) false)) := by
  unfold grayLogic
  rw [logicSingle_den false (pick_left I [q]) (by simp) hnd hc (fun _ => hS)]
  simp [ptPhase]

theorem flat_pt {I O : List Q} (hnd : (I ++ O).Nodup) {cols : List (List Bool)}
    (hc : ∀ col ∈ cols, col.length = 2 ^ I.length) (hl : cols.length = O.length) (ψ : Amp Q) :
    denBody ((List.range cols.length).flatMap (fun i => logicSingle true I.length (cols.getD i []) (I.length + i)))
      (I ++ O) ψ = fun b => ph (-(Real.pi / 2 * (rowSum cols (regNat b I) - rowSum cols 0))) *
        ψ (xorOut b (regNat b I) O cols) := by
  have hI := (List.nodup_append'.1 hnd).1
  rw [columns_den (I := I) (logicSingle true I.length) (ptPhase true) cols (fun col hm q out hq ho ψ => by
    refine logicSingle_den true (pick_left I O) ho ?_ (hc col hm) (by simp) ψ
    exact List.nodup_append'.2 ⟨hI, by simp, fun a ha hb => hq (by rw [List.mem_singleton.1 hb] at ha; exact ha)⟩)
    O I.length (fun i h => getElem_out I O i h) hnd hl]
  funext b
  rw [ptPhase_prod]

theorem grayLogic_many {I O : List Q} (hnd : (I ++ O).Nodup) {cols : List (List Bool)}
    (hc : ∀ col ∈ cols, col.length = 2 ^ I.length) (hl : cols.length = O.length) (h1 : cols.length ≠ 1)
    (pt : Bool) (hS : pt = false → SmallWht I.length fun x => rowSum cols (revIdx I.length x)) (ψ : Amp Q) :
    denBody (grayLogic pt I.length cols) (I ++ O) ψ = fun b =>
      ph (Real.pi / 2 * ((if pt then rowSum cols 0 else rowSum cols (revIdx I.length (regNat b I)))
        - rowSum cols (regNat b I))) * ψ (xorOut b (regNat b I) O cols) := by
  have e : grayLogic pt I.length cols
      = (List.range cols.length).flatMap (fun i => logicSingle true I.length (cols.getD i []) (I.length + i)) ++
      if pt then [] else [(graySynth false (residual I.length cols), List.range I.length)] := by
    unfold grayLogic
    split
    · simp at h1
    · rfl
  rw [e, denBody_append', flat_pt hnd hc hl]
  cases pt
  · simp only [Bool.false_eq_true, if_false, denBody, pick_left]
    rw [residual_den (List.nodup_append'.1 hnd).1 (hS rfl)]
    funext b
    rw [← mul_assoc, ← ph_add]
    congr 2; ring
  · simp only [if_true, denBody]
    funext b
    congr 2; ring

end

end Verif.Circ
