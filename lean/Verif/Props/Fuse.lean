import Verif.Circ.FusePass
import Mathlib.Analysis.SpecialFunctions.Trigonometric.Bounds

/-!
Property theorems for the pass fuse_adjacents (C122).
-/

namespace Verif.Props

open Verif.Circ Verif.Fuse

variable {Q C K : Type} [DecidableEq Q] [DecidableEq C]

/-- The pass terminates without an error and preserves the operator of a unitary circuit exactly, including its global
phase; the result again consists of library gates. `c` contains the transpiler, the comparison of two unitaries and the
topological sort; the comparison is idealised to accept equal unitaries only. -/
theorem C122_unitary_partial (c : Cfg) (hc : c.OK) (k n : Nat) (hn : n ≠ 0) (qc : List (Op × List Nat)) (hw : WFBody n qc)
    (hs : StdBody qc) : ∃ out, fusePass c k qc = some out ∧ WFBody n out ∧ StdBody out ∧
      ∀ (Q : Type) [DecidableEq Q] (qs : List Q) (ψ : Amp Q), qs.Nodup → qs.length = n → denBody out qs ψ = denBody qc qs ψ := by
  obtain ⟨out, h1, h2, h3⟩ := fusePass_ok hc k hn ⟨hw, hs⟩
  exact ⟨out, h1, h2.1, h2.2, h3⟩

/-- With measurements and classical bits, for every topological order of the graph: the circuits have the same effect on
all density operators. -/
theorem C122_circuit_partial (c : Cfg) (hc : c.OK) (k : Nat) (I : Interp Q C K) (qs : List Q) (cs : List C) (hq : qs.Nodup)
    (hcs : cs.Nodup) (hn : qs.length ≠ 0) (data : List (COp K × List Nat × List Nat))
    (hd : ∀ j ∈ data, j.2.1.Nodup ∧ j.2.2.Nodup ∧ okC qs.length j) :
    ∃ s, fuseCirc c k data = some s ∧ (∃ ord, Topo s ord) ∧ ∀ ord, Topo s ord → ∀ Ψ,
      cdenBody I (emitG (cSig K) mkC s ord) qs cs Ψ = cdenBody I data qs cs Ψ :=
  fuseCirc_ok hc k I hq hcs hn hd

/-- The fusion of two operations: the product of the two is the result times the recorded global phase. -/
theorem C122_rules (c : Cfg) (hc : c.OK) (k : Nat) (a b : Op) (r : Option Op × ℝ) (ha : Good a) (hb : Good b)
    (hab : a.arity = b.arity) (h : fuseOps c.near c.hasDef (via c k) a b = some r) : Rep a b r :=
  fuseOps_ok hc (via_ok hc k) ha hb hab h

open Classical in
/-- The simplest choice of the parts that are not modelled. -/
noncomputable def plain : Cfg where
  T _ b := b
  near a b := decide (a = b)
  isId _ := false
  hasDef _ := false
  topo s := if h : Nonempty {ord // Topo s ord} then h.some.1 else []

theorem plain_ok : plain.OK where
  good := fun _ _ _ h => h
  den := fun _ _ _ _ _ _ _ _ _ _ => rfl
  near := fun a b h _ Q _ qs ψ _ _ => by
    have : a = b := by simpa [plain] using h
    rw [this]
  isId := fun m h => by simp [plain] at h
  topo := fun s h => by
    obtain ⟨ord, ho⟩ := h
    have h : Nonempty {ord // Topo s ord} := ⟨⟨ord, ho⟩⟩
    have : plain.topo s = h.some.1 := by
      unfold plain
      exact dif_pos h
    rw [this]
    exact h.some.2

/-- `rz(1) · p(2) = e^{-i/2} p(3)`. -/
example : fuseOps plain.near plain.hasDef (via plain 3) (rzG 1) (pG 2) = some (some (pG 3), -1 / 2) := by
  have h1 : fuseSwap (rzG 1) (pG 2) = none := by simp [fuseSwap, rzG, pG, Op.name]
  have h2 : fuseParam (rzG 1) (pG 2) = some (some (pG 3), -1 / 2) := by
    simp only [fuseParam, rzG, pG, Op.name, Op.params, Op.gp]
    norm_num
    decide
  simp [fuseOps, h1, h2]

/-- `swap · cx` becomes two CX gates. -/
example : fuseOps plain.near plain.hasDef (via plain 3) .swap cxG = some (some (.gate "circuit" 2 halfCx), 0) := by
  simp [fuseOps, fuseSwap, cxG, Op.name, ctlPrefix, toGate, halfCx, dropAlloc]

/-- A circuit to which the theorem applies. -/
example : ∃ out, fusePass plain 2 [(.swap, [0, 1]), (cxG, [1, 0]), (rzG 1, [0]), (pG 2, [0])] = some out ∧
    ∀ ψ : Amp Nat, denBody out [5, 7] ψ = denBody [(.swap, [0, 1]), (cxG, [1, 0]), (rzG 1, [0]), (pG 2, [0])] [5, 7] ψ := by
  obtain ⟨out, h1, _, _, h2⟩ := C122_unitary_partial plain plain_ok 2 2 (by decide) [(.swap, [0, 1]), (cxG, [1, 0]), (rzG 1, [0]), (pG 2, [0])]
    (by simp [WFBody, cxG, rzG, pG, Op.WF, Op.arity])
    (by simp only [StdBody, std_cx, std_rz, std_p, and_true]; simp only [Op.Std])
  exact ⟨out, h1, fun ψ => h2 Nat [5, 7] ψ (by decide) rfl⟩

/-! ### Errors -/

/-- The two instructions are the whole circuit and are fused. -/
theorem two_fused {F : Rule (Op × List Nat)} {x y z : Op × List Nat} {g : ℝ} (hx : x.2 = [0, 1]) (hy : y.2 = [0, 1])
    (hF : F x y = some (some z, g)) : ∃ s, fuseLoop bSig F 0 [x, y] init = some s ∧ s.alive = [0] ∧ s.data 0 = some z ∧ s.g = g := by
  simp [fuseLoop, fuseStep, link, linkQ, bSig, hx, hy, hF, init, put, putE, rewire, remove]

/-- The two instructions are the whole circuit and cancel. -/
theorem two_cancel {F : Rule (Op × List Nat)} {x y : Op × List Nat} {g : ℝ} (hx : x.2 = [0]) (hy : y.2 = [0])
    (hF : F x y = some (none, g)) : ∃ s, fuseLoop bSig F 0 [x, y] init = some s ∧ s.alive = [] ∧ s.g = g := by
  simp [fuseLoop, fuseStep, link, linkQ, bSig, hx, hy, hF, init, put, putE, rewire, remove]

/-- A NOT controlled on the state 0 is called `cx`, too: after a swap the pass replaces it by the CX gates that fit the
ordinary one, whatever the unmodelled parts. -/
theorem C122_ctrl_state_wrong (c : Cfg) (k : Nat) :
    WFBody 2 [(.swap, [0, 1]), (.ctrl (.pauli .x) [false], [0, 1])] ∧
    ∃ s, fuseLoop bSig (rule c.near c.hasDef (via c k)) 0 [(.swap, [0, 1]), (.ctrl (.pauli .x) [false], [0, 1])] init = some s ∧
      ∀ ord, Topo s ord → ∃ ψ : Amp Bool, denBody (emitG bSig mkG s ord) [false, true] ψ
        ≠ denBody [(.swap, [0, 1]), (.ctrl (.pauli .x) [false], [0, 1])] [false, true] ψ := by
  refine ⟨by simp [WFBody, Op.WF, Op.arity], ?_⟩
  have hF : rule c.near c.hasDef (via c k) (.swap, [0, 1]) (.ctrl (.pauli .x) [false], [0, 1])
      = some (some (toGate 2 halfCx, [0, 1]), 0) := by
    simp [rule, resolve, fuseOps, fuseSwap, Op.name, ctlPrefix, symNames]
  obtain ⟨s, e, h1, h2, h3⟩ := two_fused (x := (.swap, [0, 1])) (y := (.ctrl (.pauli .x) [false], [0, 1])) rfl rfl hF
  refine ⟨s, e, fun ord ho => ⟨fun b => if b false = false ∧ b true = false then 1 else 0, ?_⟩⟩
  have ho' : ord = [0] := List.perm_singleton.1 (h1 ▸ ho.perm)
  subst ho'
  have hout : emitG bSig mkG s [0] = [(toGate 2 halfCx, [0, 1])] := by
    simp [emitG, h2, h3, bSig, gsum, toGate, Op.name]
  rw [hout]
  intro h
  have := congrFun h (fun _ => false)
  simp [denBody, den, toGate, halfCx, dropAlloc, pick, swapAmp, cxG, ctl, ctlMatch, on1, app1, mux, Pauli.mat, Verif.Rev.upd] at this

/-- The comparison of the pass on single qubit gates: `np.linalg.norm(unitary_a - unitary_b) <= 1e-4` (line 432). -/
noncomputable def nearTol (a b : Op) : Bool := match a.mat1, b.mat1 with
  | some m, some m' => decide (∑ i, ∑ j, ‖m i j - m' i j‖ ^ 2 ≤ ((1 : ℝ) / 10000) ^ 2)
  | _, _ => false

/-- With that comparison, two equal small rotations cancel. -/
theorem C122_tolerance_wrong (c : Cfg) (hn : c.near = nearTol) (k : Nat) :
    ∃ u : Op, u.Std ∧ WFBody 1 [(u, [0]), (u, [0])] ∧
    ∃ s, fuseLoop bSig (rule c.near c.hasDef (via c k)) 0 [(u, [0]), (u, [0])] init = some s ∧
      ∀ ord, Topo s ord → ∃ ψ : Amp Unit, denBody (emitG bSig mkG s ord) [()] ψ ≠ denBody [(u, [0]), (u, [0])] [()] ψ := by
  obtain ⟨ε, hε, hε'⟩ : ∃ ε : ℝ, 0 < ε ∧ ε ≤ 1 / 100000 := ⟨1 / 100000, by norm_num, le_refl _⟩
  have hs : (Op.u3 "u3" 0 0 ε 0).Std := by
    simp only [Op.Std]
    exact named_of (by simp [Op.name, special])
  have hnear : nearTol (Op.u3 "u3" 0 0 ε 0).inv (Op.u3 "u3" 0 0 ε 0) = true := by
    simp only [nearTol, Op.inv, Op.mat1, decide_eq_true_eq]
    have e1 : u3m (-0) (-ε) (-0) (-0) = mk 1 0 0 (ph (-ε)) := by
      rw [neg_zero, u3m_diag, ph_zero, add_zero, one_mul]
    have e2 : u3m 0 0 ε 0 = mk 1 0 0 (ph ε) := by
      rw [u3m_diag, ph_zero, zero_add, one_mul]
    rw [e1, e2]
    simp only [Fintype.sum_bool, mk, sub_self, norm_zero]
    have hd : ph (-ε) - ph ε = ((-(2 * Real.sin ε) : ℝ) : ℂ) * Complex.I := by
      rw [ph_neg_cos, ph_cos]; push_cast; ring
    rw [hd, norm_mul, Complex.norm_I, mul_one, Complex.norm_real, Real.norm_eq_abs, abs_neg]
    have h1 : Real.sin ε ≤ ε := Real.sin_le (by linarith)
    have h2 : 0 ≤ Real.sin ε := Real.sin_nonneg_of_nonneg_of_le_pi (by linarith) (by linarith [Real.two_le_pi])
    rw [abs_of_nonneg (by linarith)]
    nlinarith
  refine ⟨.u3 "u3" 0 0 ε 0, hs, by simp [WFBody, Op.WF, Op.arity], ?_⟩
  have hF : rule c.near c.hasDef (via c k) (.u3 "u3" 0 0 ε 0, [0]) (.u3 "u3" 0 0 ε 0, [0])
      = some (none, 0) := by
    have hsw : fuseSwap (.u3 "u3" 0 0 ε 0) (.u3 "u3" 0 0 ε 0) = none := by simp [fuseSwap, Op.name]
    have hpa : fuseParam (.u3 "u3" 0 0 ε 0) (.u3 "u3" 0 0 ε 0) = none := by simp [fuseParam, Op.name]
    have hct : fuseCtrl (via c k) (.u3 "u3" 0 0 ε 0) (.u3 "u3" 0 0 ε 0) = none := rfl
    have hiv : invCheck c.near (.u3 "u3" 0 0 ε 0) (.u3 "u3" 0 0 ε 0) = true := by
      unfold invCheck
      rw [hn, hnear]
      simp [Op.inv, Op.name, u3InvName, Op.arity]
      decide +kernel
    simp [rule, resolve, Op.name, symNames, fuseOps, hsw, hpa, hct, hiv]
  obtain ⟨s, e, h1, h2⟩ := two_cancel (x := (.u3 "u3" 0 0 ε 0, [0])) (y := (.u3 "u3" 0 0 ε 0, [0])) rfl rfl hF
  refine ⟨s, e, fun ord ho => ⟨fun b => if b () = true then 1 else 0, ?_⟩⟩
  have ho' : ord = [] := List.perm_nil.1 (h1 ▸ ho.perm)
  subst ho'
  have hout : emitG bSig mkG s [] = [] := by simp [emitG, h2, gsum]
  rw [hout]
  intro h
  have h3 := congrFun h (fun _ => true)
  have e2 : u3m 0 0 ε 0 = mk 1 0 0 (ph ε) := by
    rw [u3m_diag, ph_zero, zero_add, one_mul]
  simp only [denBody, den, pick, e2] at h3
  simp [on1, app1, mux, mk, Verif.Rev.upd] at h3
  have h4 : (ph ε * ph ε).im = 0 := by
    have : ph ε * ph ε = 1 := by simpa using h3.symm
    rw [this]; rfl
  have h5 : (ph (ε + ε)).im = Real.sin (ε + ε) := by
    unfold ph
    rw [mul_comm, Complex.exp_ofReal_mul_I_im]
  rw [← ph_add, h5] at h4
  have := Real.sin_pos_of_pos_of_lt_pi (x := ε + ε) (by linarith) (by linarith [Real.two_le_pi])
  linarith

end Verif.Props
