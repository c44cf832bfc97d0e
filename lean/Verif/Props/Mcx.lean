import Verif.Mcx.Balauca
import Verif.Mcx.Khattar
import Verif.Mcx.Hybrid
import Verif.Mcx.Lib
import Verif.Mcx.Yong
import Mathlib.Analysis.Real.Sqrt
import Mathlib.Analysis.Complex.Basic

/-!
# Properties C61–C68: multi-controlled gates
-/

namespace Verif.Props

open Verif.Rev Verif.Mcx

variable {Q : Type} [DecidableEq Q] {G : Type} [CommGroup G]

/-- Specification: every control has its control state. -/
def ctrlOk (c : Nat → Q) (N : Nat) (cst : Nat → Bool) (s : St Q) : Bool := decide (∀ i, i < N → s (c i) = cst i)

theorem matches_ctrlOk (c : Nat → Q) (N : Nat) (cst : Nat → Bool) (s : St Q) : matches' c N cst s = ctrlOk c N cst s := by
  unfold matches' ctrlOk
  rw [Bool.eq_iff_iff, List.all_eq_true, decide_eq_true_iff]
  simp

/-- Specification: all controls of a list have their control state. -/
def ctrlOkL (ps : List (Q × Bool)) (s : St Q) : Bool := decide (∀ p ∈ ps, s p.1 = p.2)

theorem allMatch_ctrlOkL (ps : List (Q × Bool)) (s : St Q) : allMatch ps s = ctrlOkL ps s := by
  unfold allMatch ctrlOkL
  rw [Bool.eq_iff_iff, List.all_eq_true, decide_eq_true_iff]
  simp

/-- Amplitudes of the basis states. -/
noncomputable def e8 : Root8 ℂ where
  w := (((Real.sqrt 2)⁻¹ : ℝ) : ℂ) * (1 + Complex.I)
  r := (((Real.sqrt 2)⁻¹ : ℝ) : ℂ)
  w4 := by
    have h : ((((Real.sqrt 2)⁻¹ : ℝ) : ℂ)) ^ 2 = 1 / 2 := by
      rw [← Complex.ofReal_pow, inv_pow, Real.sq_sqrt (by norm_num)]; norm_num
    have hI := Complex.I_sq
    linear_combination (1 + Complex.I) ^ 4 * (((((Real.sqrt 2)⁻¹ : ℝ) : ℂ)) ^ 2 + 1 / 2) * h +
      (1 / 4) * (Complex.I ^ 2 + 4 * Complex.I + 5) * hI
  r2 := by
    rw [← Complex.ofReal_pow, inv_pow, Real.sq_sqrt (by norm_num)]; norm_num

theorem e8_sum : 1 + e8.w ^ 2 = 2 * e8.r * e8.w := by
  have h : ((((Real.sqrt 2)⁻¹ : ℝ) : ℂ)) ^ 2 = 1 / 2 := by
    rw [← Complex.ofReal_pow, inv_pow, Real.sq_sqrt (by norm_num)]; norm_num
  have hI := Complex.I_sq
  show 1 + ((((Real.sqrt 2)⁻¹ : ℝ) : ℂ) * (1 + Complex.I)) ^ 2 = 2 * (((Real.sqrt 2)⁻¹ : ℝ) : ℂ) *
    ((((Real.sqrt 2)⁻¹ : ℝ) : ℂ) * (1 + Complex.I))
  linear_combination ((1 + Complex.I) ^ 2 - 2 * (1 + Complex.I)) * h + (1 / 2) * hI

/-! ### C61: `jasp_balauca_mcx`, `jasp_balauca_mcp` -/

/-- C61: for every number of controls, control state and choice of the phases of the phase tolerant gates,
`jasp_balauca_mcx` flips the target exactly when the controls match, leaves no phase and returns the ancillas to 0. -/
theorem C61_jasp_balauca_mcx (φ : List Bool → Bool → G) {c a : Nat → Q} {t : Q} {N : Nat} (hN : 1 ≤ N)
    (hl : Layout c a t N (balSize N)) (cst : Nat → Bool) (s : St Q) (g : G)
    (hz : ∀ j, j < balSize N → s (a j) = false) :
    exec φ (jaspBalaucaMcx c a t N cst) (s, g) = some (upd s t (s t ^^ ctrlOk c N cst s), g) := by
  rw [jaspBalaucaMcx_exec φ hN hl cst s g hz, matches_ctrlOk]

/-- C61: `jasp_balauca_mcp` multiplies the phase exactly when the controls match and changes no qubit. -/
theorem C61_jasp_balauca_mcp (φ : List Bool → Bool → G) (z : G) {c a : Nat → Q} {t : Q} {N : Nat} (hN : 1 ≤ N)
    (hl : Layout c a t N (balSizeP N)) (cst : Nat → Bool) (s : St Q) (g : G)
    (hz : ∀ j, j < balSizeP N → s (a j) = false) (ht0 : s t = false) :
    exec φ (jaspBalaucaMcp z c a t N cst) (s, g) = some (s, if ctrlOk c N cst s then g * z else g) := by
  rw [jaspBalaucaMcp_exec φ z hN hl cst s g hz ht0, matches_ctrlOk]

/-! ### C62, C63: `khattar_mcp`, `khattar_mcx` -/

/-- C62: `khattar_mcp` with any number of controls. -/
theorem C62_khattar_mcp (φ : List Bool → Bool → G) (z : G) {c : Nat → Q} {anc t : Q} {N : Nat} (hN : 1 ≤ N)
    (hl : Layout1 c anc t N) (cst : Nat → Bool) (s : St Q) (g : G) (hz : s anc = false) (ht0 : s t = false) :
    exec φ (khattarMcp z c anc t N cst) (s, g) = some (s, if ctrlOk c N cst s then g * z else g) := by
  rw [khattarMcp_exec φ z hN hl cst s g hz ht0, matches_ctrlOk]

/-- C63 (partial: four controls missing): `khattar_mcx` is exact, with no relative phase. The full statement drops
`N ≠ 4`; it is false, see `C63_khattar_four_phase`. -/
theorem C63_khattar_mcx_partial (φ : List Bool → Bool → G) {c : Nat → Q} {anc t : Q} {N : Nat} (hN : 1 ≤ N) (h4 : N ≠ 4)
    (hl : Layout1 c anc t N) (cst : Nat → Bool) (s : St Q) (g : G) (hz : s anc = false) :
    exec φ (khattarMcx c anc t N cst) (s, g) = some (upd s t (s t ^^ ctrlOk c N cst s), g) := by
  rw [khattarMcx_exec φ hN hl cst s g hz, matches_ctrlOk]
  unfold khattarPhase
  rw [if_neg h4, mul_one]

/-- C63: for every number of controls the basis states are right. -/
theorem C63_khattar_mcx_basis (φ : List Bool → Bool → G) {c : Nat → Q} {anc t : Q} {N : Nat} (hN : 1 ≤ N)
    (hl : Layout1 c anc t N) (cst : Nat → Bool) (s : St Q) (g : G) (hz : s anc = false) :
    ∃ g', exec φ (khattarMcx c anc t N cst) (s, g) = some (upd s t (s t ^^ ctrlOk c N cst s), g') := by
  rw [khattarMcx_exec φ hN hl cst s g hz, matches_ctrlOk]
  exact ⟨_, rfl⟩

/-- The phase of the Margolus gate, which `method="gray_pt"` uses for two controls; see `C67_margolus`. -/
def margolusPhase : List Bool → Bool → ℤˣ
  | [true, false], true => -1
  | _, _ => 1

/-- C63, negation for four controls: with the Margolus phase, states whose second control does not match while exactly
one of the third and fourth does get the phase −1; the others get none. -/
theorem C63_khattar_four_phase {c : Nat → Q} {anc t : Q} (hl : Layout1 c anc t 4) (cst : Nat → Bool) (s : St Q)
    (hz : s anc = false) :
    exec margolusPhase (khattarMcx c anc t 4 cst) (s, 1) = some (upd s t (s t ^^ ctrlOk c 4 cst s),
      if s (c 1) ≠ cst 1 ∧ ¬ (s (c 2) = cst 2 ↔ s (c 3) = cst 3) then -1 else 1) := by
  rw [khattarMcx_exec margolusPhase (by omega) hl cst s 1 hz, matches_ctrlOk]
  congr 2
  unfold khattarPhase
  rw [if_pos rfl, one_mul]
  have key : ∀ a b x y z w p q : Bool, cca4Phase margolusPhase (a == b) (x == y) (z == w) (p == q) =
      if x ≠ y ∧ ¬ (z = w ↔ p = q) then -1 else 1 := by decide +kernel
  exact key _ _ _ _ _ _ _ _

/-! ### C64, C65: `hybrid_mcx`, `balauca_mcx`, `balauca_mcp` -/

/-- C64: `hybrid_mcx` without dirty ancillas: for every list of controls with control states, any number of clean
ancillas, with and without mid-circuit measurements. -/
theorem C64_hybrid_mcx (φ : List Bool → Bool → G) (a : Nat → Q) (mcm : Bool) (k : Option Nat) {ps : List (Q × Bool)}
    {t : Q} (hn : (ps.map Prod.fst).Nodup) (ht : t ∉ ps.map Prod.fst) (hf : Fresh a 0 (t :: ps.map Prod.fst)) (s : St Q)
    (g : G) (hz : ∀ j, s (a j) = false) :
    exec φ (hybridMcx a mcm none k ps t) (s, g) = some (upd s t (s t ^^ ctrlOkL ps s), g) := by
  rw [← allMatch_ctrlOkL]
  exact hybridGo_mcx φ a mcm t ps.length k ps 0 hn ht hf s g fun j _ => hz j

/-- C65 (partial: one control missing): `balauca_mcp` multiplies the phase exactly when the controls match. The full
statement has `1 ≤ ps.length`; it is false, see `C65_balauca_mcp_one`. -/
theorem C65_balauca_mcp_partial (φ : List Bool → Bool → G) (z : G) (a : Nat → Q) {ps : List (Q × Bool)} {t : Q}
    (h2 : 2 ≤ ps.length) (hn : (ps.map Prod.fst).Nodup) (ht : t ∉ ps.map Prod.fst)
    (hf : Fresh a 0 (t :: ps.map Prod.fst)) (s : St Q) (g : G) (hz : ∀ j, s (a j) = false) (h0 : s t = false) :
    exec φ (hybridMcx a true (some z) none ps t) (s, g) = some (s, if ctrlOkL ps s then g * z else g) := by
  rw [← allMatch_ctrlOkL]
  exact hybridGo_mcp φ z a t ps.length ps 0 (by omega) h2 hn ht hf s g (fun j _ => hz j) h0

/-- C65, negation for one control: no phase is applied at all. -/
theorem C65_balauca_mcp_one (φ : List Bool → Bool → G) (z : G) (a : Nat → Q) {q t : Q} (s : St Q) (g : G)
    (h0 : s t = false) : exec φ (hybridMcx a true (some z) none [(q, true)] t) (s, g) = some (s, g) := by
  have hb : (hybridMcx a true (some z) none [(q, true)] t : List (PGate Q G)) = [.cph z [q, t]] := by
    simp [hybridMcx, hybridGo, hybridBase, ctl, flipZero]
  rw [hb]
  simp [Mcx.exec, PGate.exec, allOn, h0]

/-! ### C66: `yong_mcx` -/

/-- C66: on all amplitude functions `yong_mcx` is the multi-controlled X with control state, whatever the ancilla
holds. -/
theorem C66_yong_mcx {ps : List (Q × Bool)} {t anc : Q} (h2 : 2 ≤ ps.length) (hn : (ps.map Prod.fst).Nodup)
    (ht : t ∉ ps.map Prod.fst) (ha : anc ∉ ps.map Prod.fst) (hat : anc ≠ t) (ψ : St Q → ℂ) (s : St Q) :
    run e8 (yongMcx ps t anc) ψ s = ψ (upd s t (s t ^^ ctrlOkL ps s)) := by
  rw [yongMcx_run e8 ⟨hn, ht, ha, hat⟩ h2 ψ, mcxOp, allMatch_ctrlOkL]

/-! ### C67, C68: circuit library -/

theorem r2' : e8.r ^ 2 = 1 / 2 := by have := e8.r2; linear_combination (1 / 2) * this

section
variable {q : Nat → Q}

/-- C67: `toffoli_qc` is the Toffoli gate. -/
theorem C67_toffoli (hq : ∀ i j, i < 3 → j < 3 → q i = q j → i = j) (ψ : St Q → ℂ) (s : St Q) :
    run e8 (toffoliQc.map (AGate.map q)) ψ s = ψ (upd s (q 2) (s (q 2) ^^ (s (q 0) && s (q 1)))) := by
  rw [run_local e8 hq toffoli_checks (by omega) ψ (by simp) s]
  show e8.r ^ 2 * ((e8.w ^ 0 + (e8.w ^ 0 + 0)) * ψ (upd s (q 2) (s (q 2) ^^ (s (q 0) && s (q 1))))) = _
  rw [r2']; ring

/-- C67: `margolus_qc` is the Toffoli gate up to the phase −1 where the first control and the target are 1 and the
second control is 0. -/
theorem C67_margolus (hq : ∀ i j, i < 3 → j < 3 → q i = q j → i = j) (ψ : St Q → ℂ) (s : St Q) :
    run e8 (margolusQc.map (AGate.map q)) ψ s =
      (((margolusPhase [s (q 0), s (q 1)] (s (q 2)) : ℤˣ) : ℤ) : ℂ) *
        ψ (upd s (q 2) (s (q 2) ^^ (s (q 0) && s (q 1)))) := by
  rw [run_local e8 hq margolus_checks (by omega) ψ (by simp) s]
  show e8.r ^ 2 * (((if (s (q 0) && !s (q 1) && s (q 2)) = true then [4, 4] else [0, 0]).map fun k => e8.w ^ k).sum *
    ψ (upd s (q 2) (s (q 2) ^^ (s (q 0) && s (q 1))))) = _
  rw [r2']
  generalize ψ _ = x
  have h4 := e8.w4
  cases s (q 0) <;> cases s (q 1) <;> cases s (q 2) <;> simp [margolusPhase, h4] <;> ring

/-- The phase of the Maslov gate. -/
noncomputable def maslovPhase (x0 x1 x2 t : Bool) : ℂ :=
  if x0 && x1 then (if x2 then (if t then -1 else 1) else (if t then -Complex.I else Complex.I)) else 1

theorem e8_w2 : e8.w ^ 2 = Complex.I := by
  have h := r2'
  have hI := Complex.I_sq
  show (e8.r * (1 + Complex.I)) ^ 2 = _
  linear_combination (1 + Complex.I) ^ 2 * h + (1 / 2) * hI

/-- C67: `maslov_qc` is the three-controlled X gate up to the phase `maslovPhase` of controls and output target. -/
theorem C67_maslov (hq : ∀ i j, i < 4 → j < 4 → q i = q j → i = j) (ψ : St Q → ℂ) (s : St Q) :
    run e8 (maslovQc.map (AGate.map q)) ψ s = maslovPhase (s (q 0)) (s (q 1)) (s (q 2)) (s (q 3)) *
      ψ (upd s (q 3) (s (q 3) ^^ (s (q 0) && s (q 1) && s (q 2)))) := by
  rw [run_local e8 hq maslov_checks (by omega) ψ (by simp) s]
  show e8.r ^ 4 * (((List.replicate 4 (maslovK (s (q 0)) (s (q 1)) (s (q 2)) (s (q 3)))).map fun k => e8.w ^ k).sum *
    ψ (upd s (q 3) (s (q 3) ^^ (s (q 0) && s (q 1) && s (q 2))))) = _
  have h2 := e8_w2
  have h4 := e8.w4
  have h6 : e8.w ^ 6 = -Complex.I := by rw [show e8.w ^ 6 = e8.w ^ 4 * e8.w ^ 2 by ring, h4, h2]; ring
  have hr : e8.r ^ 4 = 1 / 4 := by rw [show e8.r ^ 4 = (e8.r ^ 2) ^ 2 by ring, r2']; ring
  rw [hr]
  generalize ψ _ = x
  cases s (q 0) <;> cases s (q 1) <;> cases s (q 2) <;> cases s (q 3) <;>
    simp [maslovPhase, maslovK, h2, h4, h6] <;> ring

/-- C67: `gidney_qc` computes the logical AND into a target in state 0. -/
theorem C67_gidney (hq : ∀ i j, i < 3 → j < 3 → q i = q j → i = j) (ψ : St Q → ℂ)
    (h0 : ∀ s, s (q 2) = true → ψ s = 0) (s : St Q) :
    run e8 (gidneyQc.map (AGate.map q)) ψ s = ψ (upd s (q 2) (s (q 2) ^^ (s (q 0) && s (q 1)))) := by
  rw [run_local e8 hq gidney_checks (by omega) ψ (fun s h => h0 s (by simpa [vals] using h)) s]
  show e8.r ^ 2 * ((e8.w ^ 0 + (e8.w ^ 0 + 0)) * ψ (upd s (q 2) (s (q 2) ^^ (s (q 0) && s (q 1))))) = _
  rw [r2']; ring

/-- C67: `gidney_qc_inv` uncomputes the logical AND; each measurement outcome has amplitude `1/√2` and gives the same
state. -/
theorem C67_gidney_inv (b : Bool) (hq : ∀ i j, i < 3 → j < 3 → q i = q j → i = j) (ψ : St Q → ℂ)
    (h0 : ∀ s, s (q 2) ≠ (s (q 0) && s (q 1)) → ψ s = 0) (s : St Q) :
    run e8 ((gidneyQcInv b).map (AGate.map q)) ψ s =
      e8.r * ψ (upd s (q 2) (s (q 2) ^^ (s (q 0) && s (q 1)))) := by
  rw [run_local e8 hq (gidneyInv_checks b) (by omega) ψ (fun s h => h0 s ?_) s]
  · show e8.r ^ scales (gidneyQcInv b) * ((e8.w ^ 0 + 0) * ψ (upd s (q 2) (s (q 2) ^^ (s (q 0) && s (q 1))))) = _
    have : scales (gidneyQcInv b) = 1 := by cases b <;> rfl
    rw [this]; ring
  · replace h : (s (q 2) == (s (q 0) && s (q 1))) = false := h
    simpa using h

/-- C67: `amy_toffoli_qc` is the Toffoli gate when its ancilla is 0. -/
theorem C67_amy (hq : ∀ i j, i < 4 → j < 4 → q i = q j → i = j) (ψ : St Q → ℂ)
    (h0 : ∀ s, s (q 3) = true → ψ s = 0) (s : St Q) :
    run e8 (amyQc.map (AGate.map q)) ψ s = ψ (upd s (q 2) (s (q 2) ^^ (s (q 0) && s (q 1)))) := by
  rw [run_local e8 hq amy_checks (by omega) ψ (fun s h => h0 s (by simpa [vals] using h)) s]
  show e8.r ^ 2 * ((e8.w ^ 0 + (e8.w ^ 0 + 0)) * ψ (upd s (q 2) (s (q 2) ^^ (s (q 0) && s (q 1))))) = _
  rw [r2']; ring

/-- C67: `gidney_CCCX` is the three-controlled X gate when its ancilla is 0, up to a global phase; each outcome has
amplitude of absolute value `1/√2`. -/
theorem C67_gidney_CCCX (b : Bool) (hq : ∀ i j, i < 5 → j < 5 → q i = q j → i = j) (ψ : St Q → ℂ)
    (h0 : ∀ s, s (q 4) = true → ψ s = 0) (s : St Q) :
    run e8 ((cccxQc b).map (AGate.map q)) ψ s =
      e8.r * e8.w * ψ (upd s (q 3) (s (q 3) ^^ (s (q 0) && s (q 1) && s (q 2)))) := by
  rw [run_local e8 hq (cccx_checks b) (by omega) ψ (fun s h => h0 s (by simpa [vals] using h)) s]
  show e8.r ^ scales (cccxQc b) * ((e8.w ^ 0 + (e8.w ^ 0 + (e8.w ^ 2 + (e8.w ^ 2 + 0)))) *
    ψ (upd s (q 3) (s (q 3) ^^ (s (q 0) && s (q 1) && s (q 2))))) = _
  have : scales (cccxQc b) = 4 := by cases b <;> rfl
  rw [this]
  have h := e8_sum
  have h2 := r2'
  generalize ψ _ = x
  linear_combination (2 * e8.r ^ 4 * x) * h + 4 * e8.r * e8.w * x * (e8.r ^ 2 + 1 / 2) * h2

/-- C68 (partial: the phase is wrong): `jones_toffoli_qc` maps every basis state to the one the Toffoli gate maps it
to, for both measurement outcomes, but with the phase −1 whenever both controls are 1. The full statement has the factor
1 instead; it is false, see `C68_jones_not_toffoli`. -/
theorem C68_jones_partial (b : Bool) (hq : ∀ i j, i < 5 → j < 5 → q i = q j → i = j) (ψ : St Q → ℂ)
    (h0 : ∀ s, s (q 3) = true ∨ s (q 4) = true → ψ s = 0) (s : St Q) :
    run e8 ((jonesQc b).map (AGate.map q)) ψ s =
      e8.r * ((if s (q 0) && s (q 1) then -1 else 1) * ψ (upd s (q 2) (s (q 2) ^^ (s (q 0) && s (q 1))))) := by
  rw [run_local e8 hq (jones_checks b) (by omega) ψ (fun s h => h0 s ?_) s]
  · show e8.r ^ scales (jonesQc b) * (((if (s (q 0) && s (q 1)) = true then [4, 4] else [0, 0]).map
      fun k => e8.w ^ k).sum * ψ (upd s (q 2) (s (q 2) ^^ (s (q 0) && s (q 1))))) = _
    have : scales (jonesQc b) = 3 := by cases b <;> rfl
    rw [this]
    have h2 := r2'
    have h4 := e8.w4
    generalize ψ _ = x
    cases s (q 0) && s (q 1)
    · simp
      linear_combination 2 * e8.r * x * h2
    · simp [h4]
      linear_combination -2 * e8.r * x * h2
  · replace h : (!s (q 3) && !s (q 4)) = false := h
    cases h3 : s (q 3)
    · right; simpa [h3] using h
    · left; rfl

/-- C68, negation: on an equal superposition of `|00⟩` and `|11⟩` of the controls no factor makes the result the one of
the Toffoli gate. -/
theorem C68_jones_not_toffoli (b : Bool) : ∃ ψ : St Nat → ℂ, (∀ s, s 3 = true ∨ s 4 = true → ψ s = 0) ∧
    ¬ ∃ z : ℂ, ∀ s, run e8 ((jonesQc b).map (AGate.map id)) ψ s = z * ψ (upd s 2 (s 2 ^^ (s 0 && s 1))) := by
  refine ⟨fun s => if s 3 || s 4 then 0 else 1, fun s h => ?_, ?_⟩
  · rcases h with h | h <;> simp [h]
  · rintro ⟨z, hz⟩
    have hq : ∀ i j : Nat, i < 5 → j < 5 → id i = id j → i = j := fun i j _ _ h => h
    have hr : e8.r ≠ 0 := fun h => by have := r2'; rw [h] at this; norm_num at this
    have h := fun s => (C68_jones_partial b hq (fun s => if s 3 || s 4 then 0 else 1)
      (fun s h => by rcases h with h | h <;> simp_all) s).symm.trans (hz s)
    have h1 := h fun _ => false
    have h2 := h fun i => decide (i < 3)
    simp [upd] at h1 h2
    rw [← h1] at h2
    have : (2 : ℂ) * e8.r = 0 := by linear_combination -h2
    rcases mul_eq_zero.1 this with h | h
    · norm_num at h
    · exact hr h

end

/-! ### Examples -/

/-- Five controls with control state 10110 on one clean ancilla. -/
example (φ : List Bool → Bool → ℤˣ) : exec φ (khattarMcx (fun i => i) 5 6 5 (fun i => i = 0 ∨ i = 2 ∨ i = 3))
    ((fun i => decide (i = 0 ∨ i = 2 ∨ i = 3) : St Nat), 1) =
      some (upd (fun i => decide (i = 0 ∨ i = 2 ∨ i = 3)) 6 true, 1) := by
  rw [C63_khattar_mcx_partial φ (by omega) (by omega) ⟨fun _ _ _ _ h => h, fun i h => by omega, fun i h => by omega,
    by omega⟩ _ _ _ (by rfl)]
  rfl

/-- Six controls, two ancillas allowed, the target flips. -/
example (φ : List Bool → Bool → ℤˣ) (s : St Nat) (hz : ∀ j, s (j + 7) = false) (h : ∀ i, i < 6 → s i = true) :
    exec φ (hybridMcx (· + 7) false none (some 2) [(0, true), (1, true), (2, true), (3, true), (4, true), (5, true)] 6)
      (s, 1) = some (upd s 6 (!s 6), 1) := by
  rw [C64_hybrid_mcx φ (· + 7) false (some 2) (by decide) (by decide) ⟨fun i j _ _ h => by simpa using h,
    fun j _ => by simp⟩ s 1 hz]
  have : ctrlOkL [(0, true), (1, true), (2, true), (3, true), (4, true), (5, true)] s = true := by
    unfold ctrlOkL
    simp [h]
  rw [this, Bool.xor_true]

/-- Four controls with control state 1101 and a dirty ancilla. -/
example (ψ : St Nat → ℂ) (s : St Nat) (h0 : s 0 = true) (h1 : s 1 = true) (h2 : s 2 = false) (h3 : s 3 = true) :
    run e8 (yongMcx [(0, true), (1, true), (2, false), (3, true)] 4 5) ψ s = ψ (upd s 4 (!s 4)) := by
  rw [C66_yong_mcx (by decide) (by decide) (by decide) (by decide) (by decide)]
  have : ctrlOkL [(0, true), (1, true), (2, false), (3, true)] s = true := by
    unfold ctrlOkL
    simp [h0, h1, h2, h3]
  rw [this, Bool.xor_true]

/-- The circuit of the previous example has more than one recursion level. -/
example : 20 ≤ (yongMcx [(0, true), (1, true), (2, false), (3, true)] 4 5).length := by decide +kernel

example : (margolusPhase [true, false] true, margolusPhase [true, true] true) = (-1, 1) := rfl

end Verif.Props
