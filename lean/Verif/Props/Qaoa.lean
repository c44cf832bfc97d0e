import Verif.Qaoa.Mixers

/-!
# C117–C120: QAOA

Cost operators, classical cost functions, feasibility and the portfolio problem.
-/

namespace Verif.Props

open Verif.Rev (St upd)
open Verif.Fourier (upd_upd)
open Verif.Sbp Verif.Qaoa

/-! ### C117: the cost operators apply the phase of the cost function -/

/-- Number of cut edges. -/
def cutSize (E : List (ℕ × ℕ)) (s : ℕ → Bool) : ℕ := E.countP fun e => s e.1 != s e.2

/-- **C117** MaxCut: the amplitude of `s` is multiplied by `e^{-iγ(|E| - 2·cut(s))}`, i.e. up to a common factor by
`e^{-2iγ·cost}` with `cost = -cut`. Graphs of another size than the register are rejected. -/
theorem C117_maxcut (nodes : ℕ) (E : List (ℕ × ℕ)) (hE : ∀ e ∈ E, e.1 ≠ e.2) (n : ℕ) (gamma : ℝ) :
    (nodes ≠ n → maxcutOp nodes E n gamma = none) ∧
    (nodes = n → ∃ c, maxcutOp nodes E n gamma = some c ∧ Diag c fun s => -gamma * ((E.length : ℝ) - 2 * (cutSize E s : ℝ))) := by
  unfold maxcutOp
  refine ⟨fun h => if_pos h, fun h => ⟨_, if_neg (not_not.mpr h), ?_⟩⟩
  refine (Diag.flatMap E _ (fun e s => -(2 * gamma) / 2 * (zv (s e.1) * zv (s e.2))) fun e he => diag_rzz (2 * gamma) (hE e he)).congr fun s => ?_
  clear hE
  unfold cutSize
  induction E with
  | nil => simp
  | cons e E ih =>
    rw [List.map_cons, List.sum_cons, ← ih, List.countP_cons, List.length_cons]
    push_cast
    unfold zv
    cases s e.1 <;> cases s e.2 <;> simp <;> ring

/-- **C117** QUBO: for every matrix (symmetric or not) the amplitude of `x` is multiplied by `e^{-iγ'·xᵀQx}`,
`γ' = γ/√‖Q‖`, including the global phase. -/
theorem C117_qubo (n : ℕ) (A : ℕ → ℕ → ℝ) (gamma : ℝ) (ψ : St ℕ → ℂ) (l : List Bool) :
    run (quboOp n A gamma) ψ (fun i => l.getD i false) =
      ei (-(gamma / Real.sqrt (Real.sqrt (∑ i ∈ Finset.range n, ∑ j ∈ Finset.range n, A i j ^ 2))) * quboObj n A l) * ψ (fun i => l.getD i false) :=
  diag_qubo n A gamma ψ _

/-- **C117** E3Lin2: the phase is `γ·cost` up to the constant `γm/2`, with `cost = -(number of satisfied equations)`. -/
theorem C117_e3lin2 (cl : List Clause3) (h : ∀ c ∈ cl, c.1.1 ≠ c.1.2.1 ∧ c.1.2.1 ≠ c.1.2.2) (gamma : ℝ) :
    Diag (e3Op cl gamma) fun s => gamma * (cl.length : ℝ) / 2 + gamma * -((cl.countP (sat3 s) : ℕ) : ℝ) := by
  unfold e3Op
  refine (Diag.flatMap cl _ (fun c s => -gamma / 2 * (if sat3 s c then 1 else -1)) fun c hc => diag_e3 (h c hc).1 (h c hc).2 gamma).congr fun s => ?_
  clear h
  induction cl with
  | nil => simp
  | cons c cl ih =>
    rw [List.map_cons, List.sum_cons, ← ih, List.countP_cons, List.length_cons]
    push_cast
    by_cases hs : sat3 s c = true
    · simp only [hs, if_true]; push_cast; ring
    · simp only [hs, Bool.false_eq_true, if_false]; push_cast; ring

/-- **C117** MaxSat: the phase is `γ·cost`, `cost = -(number of satisfied clauses)`, for every way of collecting the
terms of the polynomials that keeps their values. -/
theorem C117_maxsat (norm : List (Mon ℕ) → List (Mon ℕ)) (hn : ∀ p s, evalQ (norm p) s = evalQ p s) (cl : List (List ℤ)) (gamma : ℝ) :
    Diag (maxsatOp norm cl gamma) fun s => gamma * -((cl.countP fun c => c.any (litSat s) : ℕ) : ℝ) := by
  unfold maxsatOp
  refine (Diag.flatMap cl _ (fun c s => gamma * -(if c.any (litSat s) then 1 else 0)) fun c _ => (diag_sbPhase _ gamma).congr fun s => ?_).congr fun s => ?_
  · rw [hn, evalQ_clause]
    by_cases hc : c.any (litSat s) = true <;> simp [hc]
  · induction cl with
    | nil => simp
    | cons c cl ih =>
      rw [List.map_cons, List.sum_cons, ← ih, List.countP_cons]
      by_cases hc : c.any (litSat s) = true <;> simp [hc]
      ring

/-- **C117** Colouring, binary encoding: the phase is `2γ` for every edge whose ends have the same colour. -/
theorem C117_colour_binary (k : ℕ) (E : List (ℕ × ℕ)) (hE : ∀ e ∈ E, e.1 ≠ e.2) (gamma : ℝ) :
    Diag (colorOp false k E gamma) fun s => 2 * gamma * ((E.countP fun e => decide (∀ i < k, s (e.1, i) = s (e.2, i)) : ℕ) : ℝ) := by
  unfold colorOp
  refine (Diag.flatMap E _ (fun e s => if ∀ i < k, s (e.1, i) = s (e.2, i) then 2 * gamma else 0) fun e he => diag_phaseIfEq_bin (hE e he) k gamma).congr fun s => ?_
  clear hE
  induction E with
  | nil => simp
  | cons e E ih =>
    rw [List.map_cons, List.sum_cons, ← ih, List.countP_cons]
    by_cases hc : ∀ i < k, s (e.1, i) = s (e.2, i)
    · rw [if_pos hc, decide_eq_true hc]; push_cast; simp; ring
    · rw [if_neg hc, decide_eq_false hc]; simp

/-- **C117** Colouring, one-hot encoding: on colourings the phase is `2γ` for every edge whose ends have the same colour. -/
theorem C117_colour_onehot (k : ℕ) (E : List (ℕ × ℕ)) (gamma : ℝ) (col : ℕ → ℕ) (hcol : ∀ v, col v < k) (ψ : St (ℕ × ℕ) → ℂ) :
    run (colorOp true k E gamma) ψ (fun q => decide (col q.1 = q.2)) =
      ei (2 * gamma * ((E.countP fun e => decide (col e.1 = col e.2) : ℕ) : ℝ)) * ψ (fun q => decide (col q.1 = q.2)) := by
  unfold colorOp
  have h := Diag.flatMap E _ (fun e s => 2 * gamma * (((Finset.range k).filter fun i => s (e.1, i) = true ∧ s (e.2, i) = true).card : ℝ))
    (fun e _ => diag_phaseIfEq_hot k e.1 e.2 gamma) ψ (fun q => decide (col q.1 = q.2))
  rw [h]
  congr 2
  beta_reduce
  clear h
  induction E with
  | nil => simp
  | cons e E ih =>
    rw [List.map_cons, List.sum_cons, ih, List.countP_cons]
    have hcard : ((Finset.range k).filter fun i => decide (col e.1 = i) = true ∧ decide (col e.2 = i) = true).card = if col e.1 = col e.2 then 1 else 0 := by
      by_cases hc : col e.1 = col e.2
      · rw [if_pos hc, Finset.card_eq_one]
        refine ⟨col e.1, Finset.ext fun i => ?_⟩
        rw [Finset.mem_filter, Finset.mem_range, Finset.mem_singleton, decide_eq_true_iff, decide_eq_true_iff, ← hc]
        exact ⟨fun h => h.2.1.symm, fun h => ⟨h ▸ hcol _, h.symm, h.symm⟩⟩
      · rw [if_neg hc, Finset.card_eq_zero]
        refine Finset.filter_eq_empty_iff.mpr fun i _ hi => hc ?_
        rw [decide_eq_true_iff, decide_eq_true_iff] at hi
        rw [hi.1, hi.2]
    rw [hcard]
    by_cases hc : col e.1 = col e.2
    · simp [hc]; ring
    · simp [hc]

/-- **C117** Independent set, clique, set packing and set cover use `RZ_mixer`: the phase is `γ·(-|S|)` up to the
constant `γn/2`. -/
theorem C117_rz (n : ℕ) (gamma : ℝ) :
    Diag (rzMixer n gamma) fun s => gamma * (n : ℝ) / 2 + gamma * -(((Finset.range n).filter fun i => s i = true).card : ℝ) :=
  (diag_rzMixer n gamma).congr fun s => by rw [sum_zv]; ring

/-- **C117** `app_sb_phase_polynomial`: the phase is `t·P(bits)`. -/
theorem C117_sb_polynomial {Q : Type} [DecidableEq Q] (p : List (Mon Q)) (t : ℝ) : Diag (sbPhase p t) fun s => t * ((evalQ p s : ℚ) : ℝ) :=
  diag_sbPhase p t

/-- **C117** `app_phase_polynomial`: on quantum floats with values `x₁, …` (signed or not) the phase is `t·P(x₁, …)`. -/
theorem C117_polynomial {Q : Type} [DecidableEq Q] (norm : List (Mon Q) → List (Mon Q)) (hn : ∀ p s, evalQ (norm p) s = evalQ p s)
    (symbols : ℕ) (xs : List (QF Q)) (hx : ∀ x ∈ xs, x.reg ≠ []) (p : Poly) (t : ℝ) :
    (symbols ≠ xs.length → phasePoly norm symbols xs p t = none) ∧
    (symbols = xs.length → ∃ c, phasePoly norm symbols xs p t = some c ∧
      Diag c fun s => t * ((polyVal p fun v => ((xs[v]?).map fun x => qval x s).getD 0 : ℚ) : ℝ)) := by
  unfold phasePoly
  refine ⟨fun h => if_pos h, fun h => ⟨_, if_neg (not_not.mpr h), (diag_sbPhase _ t).congr fun s => ?_⟩⟩
  rw [hn, evalQ_substP]
  congr 2
  have : (fun v : ℕ => evalQ (((xs[v]?).map sbPolyS).getD []) s) = fun v => ((xs[v]?).map fun x => qval x s).getD 0 := by
    funext v
    cases hv : xs[v]? with
    | none => rfl
    | some x => exact evalQ_sbPolyS (hx x (List.mem_of_getElem? hv)) s
  rw [this]

/-- A triangle: two of the three edges are cut. -/
example : cutSize [(0, 1), (1, 2), (0, 2)] (fun i => i == 1) = 2 := by decide

/-! ### C118: the classical cost functions are expectation values -/

/-- **C118** MaxCut: `none` without outcomes; on at most 32 qubits the expectation value of `-cut`. -/
theorem C118_maxcut (E : List (ℕ × ℕ)) (counts : List (List Bool × ℝ)) (h32 : ∀ c ∈ counts, c.1.length ≤ 32) :
    maxcutCost E counts = if counts = [] then none else some ((counts.map fun c => -(cutSize E (fun i => c.1.getD i false) : ℝ) * c.2).sum) := by
  unfold maxcutCost
  by_cases h0 : counts = []
  · rw [if_pos h0, if_pos h0]
  · rw [if_neg h0, if_neg h0, if_neg]
    · congr 2
      refine List.map_congr_left fun c _ => ?_
      rw [maxcutObj_eq]
      simp only [strInt_testBit, cutSize]
      push_cast
      rfl
    · rw [List.any_eq_true]
      rintro ⟨c, hc, hd⟩
      rw [decide_eq_true_iff] at hd
      have := strInt_lt c.1
      have : 2 ^ c.1.length ≤ 2 ^ 32 := Nat.pow_le_pow_right (by norm_num) (h32 c hc)
      omega

/-- **C118** MaxCut while tracing: correct on 32 qubits … -/
theorem C118_maxcut_tracing (E : List (ℕ × ℕ)) (x : ℕ) (hx : x < 2 ^ 32) : cutComputer x E = -(cutSize E x.testBit : ℤ) := cutComputer_eq hx E

/-- … but not beyond: the only edge is cut and the cost is 0. Outside tracing an exception is raised. -/
theorem C118_maxcut_limit : cutComputer (2 ^ 32) [(0, 32)] = 0 ∧ cutSize [(0, 32)] (2 ^ 32).testBit = 1 ∧
    maxcutCost [(0, 32)] [(List.replicate 32 false ++ [true], 1)] = none := by
  refine ⟨by decide, by decide, ?_⟩
  unfold maxcutCost
  rw [if_neg (by simp), if_pos (by decide)]

/-- **C118** MaxSat. -/
theorem C118_maxsat (cl : List (List ℤ)) (res : List (List Bool × ℝ)) :
    maxsatCost cl res = (res.map fun r => -((cl.countP fun c => c.any (litSat fun k => r.1.getD k false) : ℕ) : ℝ) * r.2).sum := maxsatCost_eq cl res

/-- **C118** E3Lin2. -/
theorem C118_e3lin2 (cl : List Clause3) (res : List (List Bool × ℝ)) :
    e3Cost cl res = (res.map fun r => -((cl.countP (sat3 fun k => r.1.getD k false) : ℕ) : ℝ) * r.2).sum := e3Cost_eq cl res

/-- **C118** Colouring: the objective of an outcome is `-4^(number of properly coloured edges)`. -/
theorem C118_colour {L : Type} [DecidableEq L] (c : ℕ → L) (E : List (ℕ × ℕ)) :
    mkcsObj c E = -(4 : ℤ) ^ (E.countP fun e => decide (c e.1 ≠ c e.2)) := by
  unfold mkcsObj; rw [mkcs_aux, one_mul]

/-- **C118** Independent set (also clique and set packing, by their graphs). -/
theorem C118_mis (E : List (ℕ × ℕ)) (hE : ∀ e ∈ E, e.1 ≠ e.2) (res : List (List Bool × ℝ)) :
    misCost E res = (res.map fun r => r.2 * (by classical exact if Indep E (fun i => r.1.getD i false) then -((indices r.1).length : ℝ) else 0)).sum :=
  misCost_eq hE res

/-- **C118** Set cover: what is computed. An outcome which is not a cover adds `len(sets)` with weight 1 instead of its
probability (minSetCover.py:87). -/
theorem C118_cover_partial (sets : List (List ℕ)) (univ : List ℕ) (res : List (List Bool × ℝ))
    (hfeas : ∀ r ∈ res, 0 < (indices r.1).length ∧ ((indices r.1).flatMap fun i => sets.getD i []).toFinset = univ.toFinset) :
    coverCost sets univ res = (res.map fun r => r.2 * ((indices r.1).length : ℝ)).sum := by
  rw [coverCost_eq]
  exact congrArg _ (List.map_congr_left fun r hr => if_pos (hfeas r hr))

/-- The full statement fails: an outcome without a cover of probability `p` adds `len(sets)` whatever `p` is. -/
theorem C118_cover_fails (p : ℝ) : coverCost [[0]] [0] [([true], 1 - p), ([false], p)] = (1 - p) * 1 + 1 := by
  rw [coverCost_eq]
  rw [List.map_cons, List.map_cons, List.map_nil, List.sum_cons, List.sum_cons, List.sum_nil, 
    if_pos (show 0 < (indices [true]).length ∧ ((indices [true]).flatMap fun i => [[0]].getD i []).toFinset = [0].toFinset by decide),
    if_neg (show ¬(0 < (indices [false]).length ∧ ((indices [false]).flatMap fun i => [[0]].getD i []).toFinset = [0].toFinset) by decide)]
  show (1 - p) * ((indices [true]).length : ℝ) + (([[0]] : List (List ℕ)).length + 0) = _
  rw [show (indices [true]).length = 1 from by decide]
  norm_num

/-! ### C119: feasibility is preserved -/

/-- **C119** Independent set: at every depth, for all angles, every possible outcome is an independent set. -/
theorem C119_mis (E : List (ℕ × ℕ)) (hE : ∀ e ∈ E, e.1 ≠ e.2) (n depth : ℕ) (theta : ℕ → ℝ) (s : St ℕ)
    (hs : run (qaoa [] (rzMixer n) (misMixer E n) depth theta) zeroSt s ≠ 0) : Indep E s := by
  refine keeps_qaoa (fun g => (diag_rzMixer n g).keeps) (keeps_mis hE n) depth theta ?_ s hs
  intro t ht e _ he
  simp only [run, zeroSt] at ht
  have h0 : t = fun _ => false := by
    by_contra hcon
    exact ht (if_neg hcon)
  rw [h0] at he
  simp at he

/-- **C119** Clique: every possible outcome is a clique of the graph. -/
theorem C119_clique (E : List (ℕ × ℕ)) (n depth : ℕ) (theta : ℕ → ℝ) (s : St ℕ)
    (hs : run (qaoa [] (rzMixer n) (misMixer (complement n E) n) depth theta) zeroSt s ≠ 0) : Clique n E s :=
  indep_complement.mp (C119_mis _ (fun _ he => Nat.ne_of_lt (mem_complement.mp he).2.2.1) n depth theta s hs)

/-- **C119** Set packing: every possible outcome consists of pairwise disjoint sets. -/
theorem C119_packing (sets : List (List ℕ)) (n depth : ℕ) (theta : ℕ → ℝ) (s : St ℕ)
    (hs : run (qaoa [] (rzMixer n) (misMixer (packEdges sets) n) depth theta) zeroSt s ≠ 0) : Packing sets s :=
  indep_pack.mp (C119_mis _ (fun _ he => Nat.ne_of_lt (mem_packEdges.mp he).2.2.1) n depth theta s hs)

/-- **C119** Colouring with one-hot encoding: started from any colouring, every possible outcome gives each node exactly
one of the `k` colours. -/
theorem C119_colouring (E : List (ℕ × ℕ)) (N k depth : ℕ) (theta : ℕ → ℝ) (ψ : St (ℕ × ℕ) → ℂ) (hψ : ∀ s, ψ s ≠ 0 → OneHot N k s) (s : St (ℕ × ℕ))
    (hs : run (qaoa [] (colorOp true k E) (applyXY N k) depth theta) ψ s ≠ 0) : OneHot N k s := by
  refine keeps_qaoa (fun g => ?_) (keeps_applyXY N k) depth theta (init := []) hψ s hs
  exact Keeps.flatMap _ _ fun e _ => (diag_phaseIfEq_hot k e.1 e.2 g).keeps

/-- **C119** `xxyy(phi, 0)`, by its definition, mixes `01` and `10` by the angle `phi/2` and leaves `00` and `11` alone. -/
theorem C119_xxyy {Q : Type} [DecidableEq Q] {a b : Q} (hab : a ≠ b) (phi : ℝ) (ψ : St Q → ℂ) (s : St Q) :
    run (xxyy phi 0 a b) ψ s = if s a = s b then ψ s
      else (Real.cos (phi / 2) : ℂ) * ψ s - Complex.I * Real.sin (phi / 2) * ψ (upd (upd s a (s b)) b (s a)) := run_xxyy hab phi ψ s

/-- **C119** The XY mixer keeps the number of ones. -/
theorem C119_xy_weight {Q : Type} [DecidableEq Q] (q : ℕ → Q) (hq : Function.Injective q) (k w : ℕ) (beta : ℝ) (c : List (QG Q)) (hc : xyMixer q k beta = some c)
    (ψ : St Q → ℂ) (hψ : ∀ s, ψ s ≠ 0 → wt q k s = w) (s : St Q) (hs : run c ψ s ≠ 0) : wt q k s = w :=
  keeps_xyMixer (P := fun s => wt q k s = w) hq hc (fun i hi j hj hij s hs h => by rw [← h, wt_swap hq hi hj hij s hs]) ψ hψ s hs

/-- **C119** Set cover: if every element lies in at least two sets, every possible outcome is a cover. -/
theorem C119_cover_partial (sets : List (List ℕ)) (univ : List ℕ)
    (h2 : ∀ x ∈ univ, ∀ i < sets.length, ∃ k < sets.length, k ≠ i ∧ x ∈ sets.getD k [])
    (hne : ∀ x ∈ univ, ∃ i < sets.length, x ∈ sets.getD i []) (depth : ℕ) (theta : ℕ → ℝ) (s : St ℕ)
    (hs : run (qaoa (xAll sets.length) (rzMixer sets.length) (coverMixer sets sets.length) depth theta) zeroSt s ≠ 0) : Covers sets univ s := by
  refine keeps_qaoa (fun g => (diag_rzMixer _ g).keeps) (keeps_cover h2 _) depth theta ?_ s hs
  rw [run_xAll]
  intro t ht x hx
  have h0 : t = fun i => decide (i < sets.length) := by
    by_contra hcon
    exact ht (if_neg hcon)
  obtain ⟨i, hi, hxi⟩ := hne x hx
  exact ⟨i, hi, by rw [h0]; simpa using hi, hxi⟩

/-- The full statement fails: with one set, after one layer the empty selection has the amplitude `-i·sin(β/2)` up to
a phase, though it covers nothing. -/
theorem C119_cover_fails (theta : ℕ → ℝ) (hβ : Real.sin (theta 1 / 2) ≠ 0) :
    run (qaoa (xAll 1) (rzMixer 1) (coverMixer [[0]] 1) 1 theta) zeroSt (fun _ => false) ≠ 0 ∧ ¬Covers [[0]] [0] (fun _ => false) := by
  constructor
  · unfold qaoa
    rw [run_append, run_xAll]
    show run (rzMixer 1 (theta 0) ++ coverMixer [[0]] 1 (theta 1)) _ _ ≠ 0
    rw [run_append]
    have hd := diag_rzMixer 1 (theta 0)
    have hrun : ∀ φ : St ℕ → ℂ, run (coverMixer [[0]] 1 (theta 1)) φ (fun _ => false) =
        (Real.cos (theta 1 / 2) : ℂ) * φ (upd (fun _ => false) 0 false) + -Complex.I * Real.sin (theta 1 / 2) * φ (upd (fun _ => false) 0 true) := by
      intro φ
      simp only [coverMixer, crxMixer, List.range_one, List.map_cons, List.map_nil, run, QG.app]
      rw [if_pos (by decide)]
      simp [app1, rxG]
    rw [hrun, hd, hd]
    have e1 : upd (fun _ => false) 0 false ≠ fun i : ℕ => decide (i < 1) := fun h => by simpa using congrFun h 0
    have e2 : upd (fun _ => false) 0 true = fun i : ℕ => decide (i < 1) := by
      funext i
      by_cases hi : i = 0
      · subst hi; simp
      · rw [Rev.upd_ne hi]; simp [hi]
    rw [if_neg e1, if_pos e2, mul_zero, mul_zero, zero_add, mul_one]
    exact mul_ne_zero (mul_ne_zero (neg_ne_zero.mpr Complex.I_ne_zero) (Complex.ofReal_ne_zero.mpr hβ)) (ei_ne _)
  · intro h
    obtain ⟨i, _, hi, _⟩ := h 0 (by simp)
    cases hi

/-- Two triangles sharing an edge: {0, 3} is independent, {0, 1} is not. -/
example : Indep [(0, 1), (0, 2), (1, 2), (1, 3), (2, 3)] (fun i => i == 0 || i == 3) ∧
    ¬Indep [(0, 1), (0, 2), (1, 2), (1, 3), (2, 3)] (fun i => i == 0 || i == 1) := by
  constructor
  · intro e he; fin_cases he <;> decide
  · intro h; exact h (0, 1) (by simp) (by decide)

/-- The mixer does move: on two nodes without an edge the first layer reaches `{0}`. -/
example (theta : ℕ → ℝ) (hβ : Real.sin (theta 1 / 2) ≠ 0) : run (qaoa [] (rzMixer 1) (misMixer [] 1) 1 theta) zeroSt (upd (fun _ => false) 0 true) ≠ 0 := by
  unfold qaoa
  show run (rzMixer 1 (theta 0) ++ misMixer [] 1 (theta 1)) zeroSt _ ≠ 0
  rw [run_append]
  have hd := diag_rzMixer 1 (theta 0)
  simp only [misMixer, crxMixer, List.range_one, List.map_cons, List.map_nil]
  rw [show ∀ φ : St ℕ → ℂ, run [QG.cg1 (misPred [] 0) (rxG (theta 1)) 0] φ = app1 (rxG (theta 1)) 0 φ from fun φ => rfl]
  unfold app1
  rw [Rev.upd_same, upd_upd, upd_upd, hd, hd]
  have e1 : upd (fun _ => false) 0 true ≠ fun _ : ℕ => false := fun h => by simpa using congrFun h 0
  have e2 : upd (fun _ => false) 0 false = fun _ : ℕ => false := by
    funext i
    by_cases hi : i = 0
    · subst hi; simp
    · rw [Rev.upd_ne hi]
  have z1 : (zeroSt (upd (fun _ => false) 0 true) : ℂ) = 0 := if_neg e1
  have z2 : (zeroSt (upd (fun _ => false) 0 false) : ℂ) = 1 := if_pos e2
  rw [z1, z2, mul_zero, mul_zero, add_zero, mul_one]
  refine mul_ne_zero ?_ (ei_ne _)
  simp only [rxG]
  exact mul_ne_zero (neg_ne_zero.mpr Complex.I_ne_zero) (Complex.ofReal_ne_zero.mpr hβ)

/-! ### C120: the portfolio problem -/

/-- The phase of the portfolio operator. -/
theorem C120_phase (n : ℕ) (old : ℕ → ℤ) (rr : ℝ) (cov : ℕ → ℕ → ℝ) (ret : ℕ → ℝ) (tc gamma : ℝ) :
    Diag (portfolioOp n old rr cov ret tc gamma) fun s =>
      (∑ i ∈ Finset.range n, ((∑ j ∈ Finset.range n, gamma * cov i j / 8 * rr * (zv (s (1, i)) * zv (s (0, j)) + zv (s (0, i)) * zv (s (1, j)) -
          (if i = j then 2 * (zv (s (1, i)) + zv (s (0, i))) else zv (s (1, i)) * zv (s (1, j)) + zv (s (0, i)) * zv (s (0, j))))) -
        gamma * ret i * (1 - rr) / 4 * (zv (s (1, i)) - zv (s (0, i))))) -
      ∑ i ∈ Finset.range n, gamma * tc / 8 * ((Int.xor (1 - old i) (2 - old i) : ℤ) * (zv (s (1, i)) + zv (s (0, i))) +
        (Int.xor (2 * old i) (2 - 1) : ℤ) * (zv (s (1, i)) * zv (s (0, i)))) := by
  have h10 : ∀ i j, ((1, i) : ℕ × ℕ) ≠ (0, j) := fun i j h => by simpa using (Prod.mk.inj h).1
  have hA : ∀ i j, Diag ((rzz (-(gamma * cov i j / 4 * rr)) (1, i) (0, j) ++ rzz (-(gamma * cov i j / 4 * rr)) (0, i) (1, j)) ++
      if i = j then [rz (2 * (gamma * cov i j / 4 * rr)) (1, i), rz (2 * (gamma * cov i j / 4 * rr)) (0, i)]
      else rzz (gamma * cov i j / 4 * rr) (1, i) (1, j) ++ rzz (gamma * cov i j / 4 * rr) (0, i) (0, j))
      fun s => gamma * cov i j / 8 * rr * (zv (s (1, i)) * zv (s (0, j)) + zv (s (0, i)) * zv (s (1, j)) -
          (if i = j then 2 * (zv (s (1, i)) + zv (s (0, i))) else zv (s (1, i)) * zv (s (1, j)) + zv (s (0, i)) * zv (s (0, j)))) := by
    intro i j
    have h1 := Diag.append (diag_rzz (-(gamma * cov i j / 4 * rr)) (h10 i j)) (diag_rzz (-(gamma * cov i j / 4 * rr)) (h10 j i).symm)
    by_cases hij : i = j
    · simp only [if_pos hij]
      exact (h1.append (Diag.cons (diag_rz _ _) (diag_rz _ _))).congr fun s => by ring
    · simp only [if_neg hij]
      have e1 : ∀ u : ℕ, ((u, i) : ℕ × ℕ) ≠ (u, j) := fun u h => hij (Prod.mk.inj h).2
      exact (h1.append (Diag.append (diag_rzz _ (e1 1)) (diag_rzz _ (e1 0)))).congr fun s => by ring
  have hB : ∀ i, Diag _ _ := fun i => (Diag.flatMap (List.range n) _ _ fun j _ => hA i j).append
    (Diag.cons (diag_rz (gamma * ret i * (1 - rr) / 2) (1, i)) (diag_rz (-(gamma * ret i * (1 - rr) / 2)) (0, i)))
  have hC : ∀ i, Diag _ _ := fun i => (Diag.cons (diag_rz (gamma * (tc / 4) * (Int.xor (1 - old i) (2 - old i) : ℤ)) ((1, i) : ℕ × ℕ))
    (diag_rz (gamma * (tc / 4) * (Int.xor (1 - old i) (2 - old i) : ℤ)) (0, i))).append
    (diag_rzz (gamma * (tc / 4) * (Int.xor (2 * old i) (2 - 1) : ℤ)) (h10 i i))
  refine ((Diag.flatMap (List.range n) _ _ fun i _ => hB i).append (Diag.flatMap (List.range n) _ _ fun i _ => hC i)).congr fun s => ?_
  simp only [sum_map_range]
  rw [sub_eq_add_neg, ← Finset.sum_neg_distrib]
  congr 1
  · refine Finset.sum_congr rfl fun i _ => ?_
    ring
  · refine Finset.sum_congr rfl fun i _ => ?_
    ring

/-- **C120** Without trading costs and without variances (`cov[i][i] = 0`) the phase is `γ/2·cost` on every outcome. -/
theorem C120_portfolio_partial (n : ℕ) (old : ℕ → ℤ) (rr : ℝ) (cov : ℕ → ℕ → ℝ) (ret : ℕ → ℝ) (gamma : ℝ) (hcov : ∀ i, cov i i = 0) :
    Diag (portfolioOp n old rr cov ret 0 gamma) fun s => gamma / 2 * portfolioObj n old rr cov ret 0 s := by
  refine (C120_phase n old rr cov ret 0 gamma).congr fun s => ?_
  have hk : ∀ i, (portfolioKey s i : ℝ) = (zv (s (1, i)) - zv (s (0, i))) / 2 := by
    intro i
    unfold portfolioKey zv
    rcases Bool.eq_false_or_eq_true (s (0, i)) with h0 | h0 <;> rcases Bool.eq_false_or_eq_true (s (1, i)) with h1 | h1 <;> simp [h0, h1] <;> norm_num
  unfold portfolioObj
  simp only [hk, ite_self, Finset.sum_const_zero, add_zero, mul_zero, zero_div, zero_mul, sub_zero]
  rw [mul_neg, mul_add, Finset.mul_sum, Finset.mul_sum, ← Finset.sum_add_distrib, ← Finset.sum_neg_distrib]
  refine Finset.sum_congr rfl fun i _ => ?_
  rw [neg_add, sub_eq_add_neg]
  congr 1
  · rw [Finset.mul_sum, ← Finset.sum_neg_distrib]
    refine Finset.sum_congr rfl fun j _ => ?_
    by_cases hij : i = j
    · subst hij; rw [hcov]; ring
    · rw [if_neg hij]; ring
  · ring

/-- The full statement fails: holding nothing is represented by the outcomes `(0, 0)` and `(1, 1)`, with equal cost but
phases that differ, because of the trading costs (`^` is not a power in Python) and because of the variances. -/
theorem C120_portfolio_fails (rr cov ret tc gamma : ℝ) :
    let s0 : St (ℕ × ℕ) := fun _ => false
    let s1 : St (ℕ × ℕ) := fun q => decide (q.2 = 0)
    portfolioObj 1 (fun _ => 0) rr (fun _ _ => cov) (fun _ => ret) tc s0 = portfolioObj 1 (fun _ => 0) rr (fun _ _ => cov) (fun _ => ret) tc s1 ∧
    ∃ f : St (ℕ × ℕ) → ℝ, Diag (portfolioOp 1 (fun _ => 0) rr (fun _ _ => cov) (fun _ => ret) tc gamma) f ∧
      f s1 - f s0 = gamma * (rr * cov + 3 / 2 * tc) := by
  intro s0 s1
  have hx1 : Int.xor (1 - 0) (2 - 0) = 3 := by decide
  refine ⟨by simp [portfolioObj, portfolioKey, s0, s1], _, C120_phase 1 (fun _ => 0) rr (fun _ _ => cov) (fun _ => ret) tc gamma, ?_⟩
  simp only [Finset.range_one, Finset.sum_singleton, s0, s1, zv, hx1]
  norm_num
  ring

/-- Cost operator and mixer applied alternately, with the angles paired up. -/
noncomputable def layers {Q : Type} [DecidableEq Q] (cost mixer : ℝ → List (QG Q)) : List (ℝ × ℝ) → (St Q → ℂ) → St Q → ℂ
  | [], ψ => ψ
  | (g, b) :: r, ψ => layers cost mixer r (run (mixer b) (run (cost g) ψ))

/-- The first half of the parameters are the angles of the cost operators, the second half those of the mixers, each in
the order of the layers. -/
theorem C119_layers {Q : Type} [DecidableEq Q] (init : List (QG Q)) (cost mixer : ℝ → List (QG Q)) (γ β : List ℝ) (h : γ.length = β.length) (ψ : St Q → ℂ) :
    run (qaoa init cost mixer γ.length fun i => (γ ++ β).getD i 0) ψ = layers cost mixer (γ.zip β) (run init ψ) := by
  have key : ∀ (γ β : List ℝ), γ.length = β.length → ∀ φ : St Q → ℂ,
      run ((List.range γ.length).flatMap fun i => cost (γ.getD i 0) ++ mixer (β.getD i 0)) φ = layers cost mixer (γ.zip β) φ := by
    intro γ
    induction γ with
    | nil => intro β _ φ; rfl
    | cons g γ ih =>
      intro β hl φ
      match β with
      | b :: β =>
        rw [List.length_cons, List.range_succ_eq_map, List.flatMap_cons, List.flatMap_map, run_append, run_append]
        exact ih β (by simpa using hl) _
  unfold qaoa
  rw [run_append, ← key γ β h]
  congr 1
  rw [List.flatMap_def, List.flatMap_def]
  congr 1
  refine List.map_congr_left fun i hi => ?_
  have hi := List.mem_range.1 hi
  dsimp only
  rw [List.getD_append _ _ _ _ hi, List.getD_append_right _ _ _ _ (by omega), Nat.add_sub_cancel]

end Verif.Props
