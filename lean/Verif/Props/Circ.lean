import Verif.Circ.GrayInst
import Mathlib.Tactic.IntervalCases

/-!
Property theorems C21, C25, C46: inverse circuits, controlled operations, phase synthesis.

Specification vocabulary: `Amp Q` are the amplitude functions on basis states `Q → Bool`; `den`,
`denBody` the operators of operations and circuits; `ctl` the controlled version of an operator (apply
it to the part of the state matching the control condition); `ctlMatch cs st` "the qubits `cs` have the
values `st`"; `diag d` multiplication of the amplitude of `b` with `d b`; `ph x = exp (i x)`; `beVal`
the index of a basis state, first qubit most significant; `wht` the Walsh-Hadamard transform.
-/

namespace Verif.Props

open Verif.Circ
open Verif.Rev (upd)

variable {Q : Type} [DecidableEq Q]

/-! ### C21 -/

/-- A circuit followed by its inverse is the identity. -/
theorem C21_inverse_after (n : Nat) (body : List (Op × List Nat)) (qs : List Q) (hw : WFBody n body)
    (hnd : qs.Nodup) (ψ : Amp Q) : denBody (body ++ invBody body) qs ψ = ψ := by
  rw [denBody_append]
  exact denBody_inv_left body n qs ψ hw hnd

/-- The inverse of a circuit followed by the circuit is the identity. -/
theorem C21_inverse_before (n : Nat) (body : List (Op × List Nat)) (qs : List Q) (hw : WFBody n body)
    (hnd : qs.Nodup) (ψ : Amp Q) : denBody (invBody body ++ body) qs ψ = ψ := by
  rw [denBody_append]
  exact denBody_inv_right body n qs ψ hw hnd

/-- The inverse is well formed again. -/
theorem C21_inverse_wf (n : Nat) (body : List (Op × List Nat)) (hw : WFBody n body) :
    WFBody n (invBody body) := WFBody_inv body n hw

/-- A controlled gate with a nested composite gate inside. -/
example (θ : ℝ) (ψ : Amp Nat) :
    let inner : Op := .gate "g" 2 [(ryG θ, [1]), (.swap, [0, 1]), (pG θ, [0])]
    let body : List (Op × List Nat) := [(hG, [2]), (.ctrl inner [true, false], [2, 0, 3, 1])]
    denBody (body ++ invBody body) [10, 20, 30, 40] ψ = ψ := by
  refine C21_inverse_after 4 _ _ ?_ (by decide) ψ
  simp [WFBody, Op.WF, Op.arity, hG, ryG, pG]

/-! ### C25 -/

/-- The definition circuit of a controlled operation applies the base operation exactly where the
controls match the control state. Missing (see the theorems below): controlled `gphase` gates whose
control state is not constant, Y with more than one control or a control state 0, composite gates
called "swap", composite gates containing phase tolerant operations. -/
theorem C25_control_partial (o : Op) (st : List Bool) (hst : st ≠ []) (hok : CtlOK o st)
    (body : List (Op × List Nat)) (hd : ctrlDef graySyn o st = some body) (cs ts : List Q)
    (hnd : (cs ++ ts).Nodup) (hcs : cs.length = st.length) (hts : ts.length = o.arity) (ψ : Amp Q) :
    denBody body (cs ++ ts) ψ = ctl (ctlMatch cs st) (den o ts) ψ := by
  rw [ctrlDef_gray o st hst hok body hd (cs ++ ts) hnd (by simp; omega)]
  have e1 : List.take st.length (cs ++ ts) = cs := by rw [← hcs]; simp
  have e2 : List.drop st.length (cs ++ ts) = ts := by rw [← hcs]; simp
  simp only [den, e1, e2]

/-- RY controlled on "the first qubit is 1, the second is 0". -/
example (θ : ℝ) (ψ : Amp Nat) : ∃ body, ctrlDef graySyn (ryG θ) [true, false] = some body ∧
    denBody body ([5, 6] ++ [7]) ψ = ctl (ctlMatch [5, 6] [true, false]) (den (ryG θ) [7]) ψ := by
  refine ⟨_, rfl, C25_control_partial (Q := Nat) (ryG θ) [true, false] (by simp) ?_ _ rfl [5, 6] [7] (by decide) rfl
    rfl ψ⟩
  simp [CtlOK, NameOK, ryG]

/-- Controlled `gphase` with control state "10" puts the phase on the state "01" instead. -/
theorem C25_gphase_wrong : ∃ (body : List (Op × List Nat)) (ψ : Amp Nat),
    ctrlDef graySyn (gphaseG Real.pi) [true, false] = some body ∧
    denBody body [0, 1, 2] ψ ≠ ctl (ctlMatch [0, 1] [true, false]) (den (gphaseG Real.pi) [2]) ψ := by
  refine ⟨gphaseDef Real.pi [true, false], fun _ => 1, by simp [ctrlDef, gphaseG], fun h => ?_⟩
  have hs := gphase_sound (Q := Nat) (cs := [0, 1]) (t := 2) (by decide) [true, false] rfl (by simp) Real.pi
    (fun _ => 1)
  have h := hs.symm.trans h
  have h := congrFun h (fun q => q == 1)
  simp [diag, ctlMatch, ctl, ph_pi] at h
  norm_num at h

/-- Y with two controls is the controlled `-Y`. -/
theorem C25_multi_y_wrong : ∃ (body : List (Op × List Nat)) (ψ : Amp Nat),
    ctrlDef graySyn (.pauli .y) [true, true] = some body ∧
    denBody body [0, 1, 2] ψ ≠ ctl (ctlMatch [0, 1] [true, true]) (den (.pauli .y) [2]) ψ := by
  refine ⟨_, fun _ => 1, rfl, fun h => ?_⟩
  have hs := ctrlY_def (Q := Nat) graySyn [true, true] (by simp) _ rfl (cs := [0, 1]) (t := 2) (by decide) rfl
    (fun _ => 1)
  have h := hs.symm.trans h
  have h := congrFun h (fun _ => true)
  have neg : ∀ (M : M2) i j, (-M) i j = -(M i j) := fun M i j => rfl
  simp [ctlMatch, ctl, app1, mux, neg, den, on1] at h
  simp [Pauli.mat] at h
  have := congrArg Complex.im h
  norm_num at this

/-- The control of a composite gate called "swap" swaps its two qubits, whatever the gate does. -/
theorem C25_swap_name_wrong : ∃ (body : List (Op × List Nat)) (ψ : Amp Nat),
    ctrlDef graySyn (.gate "swap" 2 []) [true] = some body ∧
    denBody body [0, 1, 2] ψ ≠ ctl (ctlMatch [0] [true]) (den (.gate "swap" 2 []) [1, 2]) ψ := by
  refine ⟨fredkinDef [true], fun b => if b 1 then 1 else 0, by simp [ctrlDef], fun h => ?_⟩
  have hs := fredkin_sound (Q := Nat) (cs := [0]) (p := 1) (q := 2) (by decide) [true] rfl
    (fun b => if b 1 then 1 else 0)
  have h := hs.symm.trans h
  have h := congrFun h (fun q => q == 0 || q == 1)
  simp [ctlMatch, ctl, den, denBody, swapAmp, upd] at h

/-! ### C46 -/

/-- The phases of the qubit states, index bit `k` belonging to the `k`-th qubit. -/
noncomputable def lePhase (n : Nat) (t : List ℝ) (x : Nat) : ℝ := t.getD (revIdx n x) 0

/-- Of the parities with most significant bit `o` that contribute to the phases, the smallest has at most
two ones. -/
def SmallParity (n : Nat) (t : List ℝ) (o : Nat) : Prop :=
  ∀ p < 2 ^ n, Nat.log2 p = o → p ≠ 0 → wht n (lePhase n t) p ≠ 0 →
    (∀ p' < p, Nat.log2 p' = o → p' ≠ 0 → wht n (lePhase n t) p' = 0) →
    p = 2 ^ o ∨ ∃ c < o, p = 2 ^ o + 2 ^ c

/-- For every most significant bit the smallest parity with a contribution has at most two ones. -/
def SmallParities (n : Nat) (t : List ℝ) : Prop := ∀ o < n, SmallParity n t o

theorem small_min {n : Nat} {t : List ℝ} {o : Nat} (h : SmallParity n t o) :
    MinOK o (grp n (specOf n t) o) := by
  intro p hp hmin
  obtain ⟨h1, h2, h3⟩ := mem_grp.1 hp
  have h00 : specOf n t 0 = 0 := by simp [specOf, Circ.spectrum, setA]
  have hne : ∀ p < 2 ^ n, p ≠ 0 → (specOf n t p ≠ 0 ↔ wht n (lePhase n t) p ≠ 0) := by
    intro p hp h0
    have : (2 : ℝ) / 2 ^ n ≠ 0 := by positivity
    unfold specOf
    rw [spectrum_ne _ hp h0]
    exact mul_ne_zero_iff_right this
  have hp0 : p ≠ 0 := fun e => h2 (by rw [e, h00])
  refine h p h1 h3 hp0 ((hne p h1 hp0).1 h2) fun p' hlt hl h0 => ?_
  by_contra hc
  have := hmin p' (mem_grp.2 ⟨by omega, (hne p' (by omega) h0).2 hc, hl⟩)
  omega

theorem small_spec {n : Nat} {t : List ℝ} (h : SmallParities n t) : SpecOK n (specOf n t) :=
  fun o ho => small_min (h o ho)

/-- The fast Walsh-Hadamard transform computes the transform. -/
theorem C46_fwht (n : Nat) (a : Nat → ℝ) (p : Nat) (hp : p < 2 ^ n) :
    fwht (2 ^ n) a p = ∑ x ∈ Finset.range (2 ^ n), sg n p x * a x := fwht_spec n a p hp

/-- The synthesised circuit multiplies every basis state with the requested phase (relative to the
phase of the all zero state). Missing: phases for which the smallest contributing parity of some
most significant bit has three or more ones, where it is false (`C46_parity7_wrong`). -/
theorem C46_gray_partial (t : List ℝ) (qs : List Q) (hnd : qs.Nodup) (ht : t.length = 2 ^ qs.length)
    (hS : SmallParities qs.length t) (ψ : Amp Q) (b : Q → Bool) :
    den (graySynth false t) qs ψ b = ph (t.getD (beVal qs b) 0 - t.getD 0 0) * ψ b :=
  congrFun (congrFun (graySynth_den t qs hnd ht (small_spec hS)) ψ) b

/-- The phase tolerant circuit does the same up to a phase not depending on the last qubit. Missing:
phases for which the smallest contributing parity with the last qubit has three or more ones. -/
theorem C46_gray_pt_partial (t : List ℝ) (cs : List Q) (q : Q) (hnd : (cs ++ [q]).Nodup)
    (ht : t.length = 2 ^ (cs.length + 1)) (hS : SmallParity (cs.length + 1) t cs.length) :
    ∃ D : (Q → Bool) → ℂ, (∀ b v, D (upd b q v) = D b) ∧ (∀ b, D b ≠ 0) ∧
      ∀ ψ b, den (graySynth true t) (cs ++ [q]) ψ b
        = D b * ph (t.getD (beVal (cs ++ [q]) b) 0 - t.getD 0 0) * ψ b := by
  obtain ⟨D, h1, h2, h3⟩ := graySynth_pt_den t cs q hnd ht (small_min hS)
  exact ⟨D, h1, h2, fun ψ b => congrFun (congrFun h3 ψ) b⟩

/-- One or two qubits: all phases are synthesised. -/
theorem C46_gray_two_qubits (t : List ℝ) (qs : List Q) (hnd : qs.Nodup) (ht : t.length = 2 ^ qs.length)
    (h2 : qs.length ≤ 2) (ψ : Amp Q) (b : Q → Bool) :
    den (graySynth false t) qs ψ b = ph (t.getD (beVal qs b) 0 - t.getD 0 0) * ψ b := by
  refine C46_gray_partial t qs hnd ht ?_ ψ b
  intro o ho p hp hl hp0 _ _
  have hb := log2_bounds hl hp0
  have : o = 0 ∨ o = 1 := by omega
  rcases this with rfl | rfl
  · left; omega
  · rcases Nat.lt_or_ge p 3 with h | h
    · left; omega
    · right; exact ⟨0, by omega, by omega⟩

example (x y z : ℝ) (ψ : Amp Nat) (b : Nat → Bool) (h0 : b 4 = true) (h1 : b 9 = false) :
    den (graySynth false [0, x, y, z]) [4, 9] ψ b = ph y * ψ b := by
  rw [C46_gray_two_qubits _ _ (by decide) rfl (by simp)]
  simp [beVal, h0, h1]

/-- Phase 1 on the odd parity states of three qubits. -/
noncomputable def par7 : List ℝ := [0, 1, 1, 0, 1, 0, 0, 1]

theorem par7_spec : ∀ p < 8, specOf 3 par7 p = if p = 7 then -1 else 0 := by
  intro p hp
  have r : ∀ x < 8, par7.getD (revIdx 3 x) 0 = if x = 1 ∨ x = 2 ∨ x = 4 ∨ x = 7 then 1 else 0 := by
    intro x hx
    have e : ∀ x < 8, revIdx 3 x = [0, 4, 2, 6, 1, 5, 3, 7].getD x 0 := by decide
    rw [e x hx]
    interval_cases x <;> simp [par7]
  by_cases h0 : p = 0
  · subst h0; simp [specOf, Circ.spectrum, setA]
  · unfold specOf
    rw [spectrum_ne (n := 3) _ (by simpa using hp) h0, wht_congr (n := 3) r]
    unfold wht sg
    simp only [show (2 : ℕ) ^ 3 = 8 from rfl, Finset.sum_range_succ, Finset.sum_range_zero]
    have h1 : 1 ≤ p := by omega
    clear h0
    interval_cases p <;> simp [parB, sgB, Nat.testBit, Nat.shiftRight_eq_div_pow] <;> norm_num

theorem par7_body : grayBody false 3 (fun i => par7.getD i 0)
    = [(.ctrl (.pauli .x) [true], [0, 2]), (pG (-(-1)), [2]), (.ctrl (.pauli .x) [true], [1, 2]),
       (.ctrl (.pauli .x) [true], [0, 2])] := by
  have hs : ∀ p < 8, Circ.spectrum 3 (fun i => par7.getD (revIdx 3 i) 0) p = if p = 7 then -1 else 0 := par7_spec
  unfold grayBody
  simp only
  generalize Circ.spectrum 3 (fun i => par7.getD (revIdx 3 i) 0) = s at hs
  have hloc : locations 3 s = [7] := by
    unfold locations
    have : ((List.range (2 ^ 3)).filter fun i => decide (s i ≠ 0)) = [7] := by
      have e : ∀ i ∈ List.range (2 ^ 3), (decide (s i ≠ 0)) = decide (i = 7) := by
        intro i hi
        rw [hs i (by simpa using hi)]
        by_cases h : i = 7 <;> simp [h]
      rw [List.filter_congr e]
      decide
    rw [this]
    rfl
  rw [hloc]
  have ht : travSteps 3 [7] = [(2, 2, 4), (0, 2, 7), (1, 2, 5), (0, 2, 4)] := by decide
  rw [ht]
  have s4 : s 4 = 0 := by rw [hs 4 (by omega)]; simp
  have s5 : s 5 = 0 := by rw [hs 5 (by omega)]; simp
  have s7 : s 7 = -1 := by rw [hs 7 (by omega)]; simp
  simp [emit, setA, s4, s5, s7]

/-- If only the parity of three qubits carries a phase, the circuit is not even diagonal. -/
theorem C46_parity7_wrong : ∃ (t : List ℝ) (ψ : Amp Nat) (b : Nat → Bool), t.length = 2 ^ 3 ∧
    den (graySynth false t) [0, 1, 2] ψ b ≠ ph (t.getD (beVal [0, 1, 2] b) 0 - t.getD 0 0) * ψ b := by
  refine ⟨par7, fun b => if b 2 then 1 else 0, fun q => q == 1, rfl, ?_⟩
  have hl : Nat.log2 par7.length = 3 := by decide
  have hA : ∀ k < 3, ([0, 1, 2] : List Nat)[k]? = some k := by decide
  unfold graySynth
  rw [hl]
  simp only [den]
  rw [par7_body]
  simp only [denBody]
  rw [denc hA (by omega) (by omega), denp hA (by omega), denc hA (by omega) (by omega),
    denc hA (by omega) (by omega)]
  simp [upd, bv, ph]

end Verif.Props
