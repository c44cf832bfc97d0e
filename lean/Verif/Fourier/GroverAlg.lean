import Verif.Fourier.Grover
import Mathlib.Analysis.SpecialFunctions.Trigonometric.Inverse
import Mathlib.Analysis.SpecialFunctions.Trigonometric.Bounds
import Mathlib.Algebra.Order.Round

/-!
# Grover's algorithm

Model of `algorithms/grover/grover_tools.py`.
-/

namespace Verif.Fourier

open Verif.Rev

variable {Q : Type} [DecidableEq Q]

/-! ### Model -/

/-- `h` on every qubit: the default state function of `diffuser` (grover_tools.py:114-120). -/
def hLayer (reg : List Q) : List (FGate Q) := reg.map FGate.h

/-- `diffuser` (grover_tools.py:47-122) on the qubits `qs ++ [q]`; the phase is given in turns. -/
noncomputable def diffuser (θ : ℝ) (qs : List Q) (q : Q) : (St Q → ℂ) → St Q → ℂ := reflection (hLayer (qs ++ [q])) θ qs q

/-- The loop of `grovers_alg` (grover_tools.py:434-454): the oracle multiplies the winner states by the phase. -/
noncomputable def groverLoop (g : St Q → Bool) (θ : ℝ) (qs : List Q) (q : Q) : ℕ → (St Q → ℂ) → St Q → ℂ
  | 0, ψ => ψ
  | k + 1, ψ => groverLoop g θ qs q k (diffuser θ qs q fun s => (if g s then E θ else 1) * ψ s)

/-- `iterations` of the exact algorithm (grover_tools.py:418-420). -/
noncomputable def exactIter (N W : ℕ) : ℤ := ⌈Real.pi / (4 * Real.arcsin (Real.sqrt (W / N))) - 1 / 2⌉

/-- `phi` of the exact algorithm (grover_tools.py:422), in radians. -/
noncomputable def exactPhase (N W : ℕ) (it : ℤ) : ℝ :=
  2 * Real.arcsin (Real.sin (Real.pi / (4 * ((it : ℝ) - 1) + 6)) * Real.sqrt (N / W))

/-- `iterations` by default (grover_tools.py:424-426).  `np.round` differs from `round` at halves only; these do not occur, `π` being
transcendental. -/
noncomputable def defaultIter (N W : ℕ) : ℤ := round (Real.pi / 4 * Real.sqrt (N / W))

/-- `grovers_alg` (grover_tools.py:226-454) on the qubits `qs ++ [q]` in the state 0; `none` is the exception. -/
noncomputable def groversAlg (g : St Q → Bool) (qs : List Q) (q : Q) (iterations : Option ℤ) (winners : Option ℕ) (exact : Bool) :
    Option (St Q → ℂ) :=
  if exact && winners.isNone then none
  else
    let W := winners.getD 1
    let N := 2 ^ (qs ++ [q]).length
    let it := if exact then exactIter N W else iterations.getD (defaultIter N W)
    let θ := if exact then exactPhase N W it / (2 * Real.pi) else 1 / 2
    some (groverLoop g θ qs q it.toNat (run (hLayer (qs ++ [q])) (zeroOn (qs ++ [q]))))

/-- The string of the control states in `tag_state` for labels with the encodings `v` (grover_tools.py:199-208), with the qubits;
`none` is the exception of `bin_rep` (misc/utility.py:40-47). -/
def tagBits : List (List Q × ℕ) → Option (List (Q × Bool))
  | [] => some []
  | (reg, v) :: l => if 2 ^ reg.length ≤ v then none else (tagBits l).map fun r => (reg.zipIdx.map fun p => (p.1, v.testBit p.2)) ++ r

/-- `mcp`/`mcz` with a string as control state. -/
noncomputable def mcpS (θ : ℝ) (cs : List (Q × Bool)) (ψ : St Q → ℂ) : St Q → ℂ := fun s => (if cs.all fun c => s c.1 == c.2 then E θ else 1) * ψ s

/-- `tag_state` (grover_tools.py:193-223): the last qubit is treated by X gates; `none` is an exception. -/
noncomputable def tagState (θ : ℝ) (l : List (List Q × ℕ)) (ψ : St Q → ℂ) : Option (St Q → ℂ) :=
  match tagBits l with
  | none => none
  | some bits => match bits.getLast? with
    | none => none
    | some last =>
      let ψ := if last.2 then ψ else xOp last.1 ψ
      let ψ := mcpS θ (bits.dropLast ++ [(last.1, true)]) ψ
      some (if last.2 then ψ else xOp last.1 ψ)

/-! ### The uniform superposition -/

theorem run_hLayer : ∀ {reg : List Q}, reg.Nodup → ∀ s, run (hLayer reg) (zeroOn reg) s = rt ^ reg.length
  | [], _, s => by simp [hLayer, run, zeroOn]
  | q :: reg, h, s => by
    rw [List.nodup_cons] at h
    have h0 : (FGate.h q).app (zeroOn (q :: reg)) = fun s => (rt - 1) * zeroOn reg s + zeroOn reg s := by
      funext s
      have hz : ∀ v, (reg.all fun c => !upd s q v c) = reg.all fun c => !s c := fun v => all_upd h.1 s v
      simp only [FGate.app, zeroOn, List.all_cons, upd_same, hz]
      cases s q <;> cases (reg.all fun c => !s c) <;> simp
    show run (FGate.h q :: hLayer reg) _ s = _
    rw [run_cons, h0, run_lin (fun _ => rt - 1) (hLayer reg) (fun _ _ _ _ _ _ => rfl)]
    beta_reduce
    rw [run_hLayer h.2, List.length_cons, pow_succ]
    ring

/-- The number of winner states. -/
def Winners (g : St Q → Bool) (reg : List Q) (W : ℕ) : Prop := ∀ s, sumOver reg (fun s => if g s then 1 else 0) s = W

theorem sumOver_one' : ∀ (reg : List Q) (s : St Q), sumOver reg (fun _ => 1) s = 2 ^ reg.length
  | [], s => by simp [sumOver]
  | q :: reg, s => by rw [sumOver, sumOver_one' reg, sumOver_one' reg, List.length_cons, pow_succ]; ring

/-- The constant amplitude. -/
noncomputable def unif (reg : List Q) : St Q → ℂ := fun _ => rt ^ reg.length

theorem rt_norm (n : ℕ) : (starRingEnd ℂ) (rt ^ n) * rt ^ n * 2 ^ n = 1 := by
  rw [map_pow, conj_rt, ← mul_pow, ← mul_pow, ← pow_two, rt_sq]
  norm_num

theorem sum_scaled {g : St Q → Bool} {reg : List Q} {W : ℕ} (hW : Winners g reg W) (a b : ℂ) (s : St Q) :
    sumOver reg (fun s => if g s then a else b) s = a * W + b * (2 ^ reg.length - W) := by
  have e : (fun s => if g s then a else b) = fun s : St Q => (a - b) * (if g s then 1 else 0) + b * 1 := by
    funext s
    cases g s <;> simp
  rw [e, sumOver_add, sumOver_smul, sumOver_smul, hW, sumOver_one']
  ring

theorem ip_unif {g : St Q → Bool} {reg : List Q} {W : ℕ} (hW : Winners g reg W) (a b : ℂ) (s : St Q) :
    ip reg (unif reg) (scaled g a b (unif reg)) s = a * (W / 2 ^ reg.length) + b * (1 - W / 2 ^ reg.length) := by
  have h2 : (2 : ℂ) ^ reg.length ≠ 0 := pow_ne_zero _ two_ne_zero
  have e : (fun s => (starRingEnd ℂ) (unif reg s) * scaled g a b (unif reg) s) =
      fun s => ((starRingEnd ℂ) (rt ^ reg.length) * rt ^ reg.length) * (if g s then a else b) := by
    funext s
    unfold scaled unif
    ring
  unfold ip
  rw [e, sumOver_smul, sum_scaled hW]
  have h := rt_norm reg.length
  field_simp
  linear_combination (a * W + b * (2 ^ reg.length - W)) * h

/-- The factors of the winner states and of the others after one iteration. -/
noncomputable def gstep (x e : ℂ) (p : ℂ × ℂ) : ℂ × ℂ :=
  ((1 - e) * (e * p.1 * x + p.2 * (1 - x)) - e * p.1, (1 - e) * (e * p.1 * x + p.2 * (1 - x)) - p.2)

theorem grover_step {g : St Q → Bool} {qs : List Q} {q : Q} (hn : (qs ++ [q]).Nodup) {W : ℕ} (hW : Winners g (qs ++ [q]) W) (θ : ℝ) (a b : ℂ) :
    diffuser θ qs q (fun s => (if g s then E θ else 1) * scaled g a b (unif (qs ++ [q])) s) =
      scaled g (gstep (W / 2 ^ (qs ++ [q]).length) (E θ) (a, b)).1 (gstep (W / 2 ^ (qs ++ [q]).length) (E θ) (a, b)).2 (unif (qs ++ [q])) := by
  have hwf : ∀ x ∈ hLayer (qs ++ [q]), FGate.wf x := by
    intro x hx
    obtain ⟨y, _, rfl⟩ := List.mem_map.mp hx
    trivial
  have hin : ∀ x ∈ hLayer (qs ++ [q]), ∀ y ∈ x.qubits, y ∈ qs ++ [q] := by
    intro x hx y hy
    obtain ⟨z, hz, rfl⟩ := List.mem_map.mp hx
    rw [show y = z from List.mem_singleton.mp hy]
    exact hz
  have hu : run (hLayer (qs ++ [q])) (zeroOn (qs ++ [q])) = unif (qs ++ [q]) := funext fun s => run_hLayer hn s
  have e1 : (fun s => (if g s then E θ else 1) * scaled g a b (unif (qs ++ [q])) s) = scaled g (E θ * a) b (unif (qs ++ [q])) := by
    funext s
    unfold scaled
    cases g s <;> simp <;> ring
  funext s
  unfold diffuser
  rw [e1, reflection_eq hwf θ hn hin, hu, ip_unif hW]
  unfold scaled gstep
  cases g s <;> simp
  all_goals ring

theorem grover_loop {g : St Q → Bool} {qs : List Q} {q : Q} (hn : (qs ++ [q]).Nodup) {W : ℕ} (hW : Winners g (qs ++ [q]) W) (θ : ℝ) :
    ∀ (k : ℕ) (p : ℂ × ℂ), groverLoop g θ qs q k (scaled g p.1 p.2 (unif (qs ++ [q]))) =
      scaled g ((gstep (W / 2 ^ (qs ++ [q]).length) (E θ))^[k] p).1 ((gstep (W / 2 ^ (qs ++ [q]).length) (E θ))^[k] p).2 (unif (qs ++ [q]))
  | 0, _ => rfl
  | k + 1, p => by rw [groverLoop, grover_step hn hW, grover_loop hn hW θ k, Function.iterate_succ_apply]

/-! ### The recurrence -/

/-- Cayley-Hamilton for the second factor. -/
theorem gstep_rec (x e : ℂ) (p : ℂ × ℂ) :
    (gstep x e (gstep x e p)).2 = -(2 * e + (e - 1) ^ 2 * x) * (gstep x e p).2 - e ^ 2 * p.2 := by
  unfold gstep
  dsimp only
  ring

theorem E_sin (φ : ℝ) : (E (φ / (2 * Real.pi)) - 1) ^ 2 = -4 * E (φ / (2 * Real.pi)) * ((Real.sin (φ / 2) ^ 2 : ℝ) : ℂ) := by
  have hpi : (Real.pi : ℂ) ≠ 0 := by exact_mod_cast Real.pi_ne_zero
  have e1 : E (φ / (2 * Real.pi)) = Complex.exp (φ * Complex.I) := by
    unfold E
    congr 1
    push_cast
    field_simp
  have h1 : Complex.exp (φ * Complex.I) = Complex.cos φ + Complex.sin φ * Complex.I := Complex.exp_mul_I _
  have hc : Complex.cos φ = 1 - 2 * Complex.sin (φ / 2) ^ 2 := by
    have : Complex.cos φ = Complex.cos (2 * (φ / 2)) := by congr 1; ring
    rw [this, Complex.cos_two_mul, Complex.cos_sq']
    ring
  have hcs := Complex.sin_sq_add_cos_sq φ
  rw [e1, h1]
  push_cast
  have hs2 : Complex.sin (φ / 2) ^ 2 = (1 - Complex.cos φ) / 2 := by rw [hc]; ring
  rw [hs2]
  have hI : Complex.I ^ 2 = -1 := Complex.I_sq
  linear_combination (-1 : ℂ) * hcs + Complex.sin (φ : ℂ) ^ 2 * hI

/-- The factor of the other states after `k` iterations. -/
theorem gstep_snd {x φ α : ℝ} (hα : Real.sin α ^ 2 = Real.sin (φ / 2) ^ 2 * x) (hc : Real.cos α ≠ 0) : ∀ k : ℕ,
    ((gstep x (E (φ / (2 * Real.pi))))^[k] (1, 1)).2 = (-E (φ / (2 * Real.pi))) ^ k * ((Real.cos ((2 * k + 1) * α) / Real.cos α : ℝ) : ℂ) := by
  have hE := E_sin φ
  set e := E (φ / (2 * Real.pi))
  have hcC : ((Real.cos α : ℝ) : ℂ) ≠ 0 := by exact_mod_cast hc
  have hT : (2 * e + (e - 1) ^ 2 * x) = e * ((2 * Real.cos (2 * α) : ℝ) : ℂ) := by
    rw [hE]
    have : (2 * Real.cos (2 * α) : ℝ) = 2 - 4 * (Real.sin (φ / 2) ^ 2 * x) := by
      rw [← hα, Real.cos_two_mul, Real.cos_sq']
      ring
    rw [this]
    push_cast
    ring
  intro k
  induction k using Nat.twoStepInduction with
  | zero =>
    have : Real.cos ((2 * ((0 : ℕ) : ℝ) + 1) * α) / Real.cos α = 1 := by
      rw [Nat.cast_zero, mul_zero, zero_add, one_mul, div_self hc]
    rw [this]
    simp
  | one =>
    rw [Function.iterate_one]
    have h3 : Real.cos ((2 * ((1 : ℕ) : ℝ) + 1) * α) / Real.cos α = 1 - 4 * Real.sin α ^ 2 := by
      rw [show (2 * ((1 : ℕ) : ℝ) + 1) * α = 3 * α by push_cast; ring, Real.cos_three_mul, Real.sin_sq]
      field_simp
      ring
    rw [h3, hα]
    unfold gstep
    dsimp only
    push_cast
    push_cast at hE
    linear_combination (-(x : ℂ)) * hE
  | more k ih1 ih2 =>
    rw [Function.iterate_succ_apply', Function.iterate_succ_apply', gstep_rec, ← Function.iterate_succ_apply' (gstep x e), hT, ih1, ih2]
    have hcos : Real.cos ((2 * ((k + 2 : ℕ) : ℝ) + 1) * α) =
        2 * Real.cos (2 * α) * Real.cos ((2 * ((k + 1 : ℕ) : ℝ) + 1) * α) - Real.cos ((2 * (k : ℝ) + 1) * α) := by
      have h1 : (2 * ((k + 2 : ℕ) : ℝ) + 1) * α = (2 * ((k + 1 : ℕ) : ℝ) + 1) * α + 2 * α := by push_cast; ring
      have h2 : (2 * (k : ℝ) + 1) * α = (2 * ((k + 1 : ℕ) : ℝ) + 1) * α - 2 * α := by push_cast; ring
      rw [h1, h2, Real.cos_add, Real.cos_sub]
      ring
    rw [hcos, pow_succ, pow_succ]
    push_cast
    field_simp
    ring

/-- The squared norm is kept. -/
theorem gstep_norm (x θ : ℝ) (p : ℂ × ℂ) :
    x * Complex.normSq (gstep x (E θ) p).1 + (1 - x) * Complex.normSq (gstep x (E θ) p).2 = x * Complex.normSq p.1 + (1 - x) * Complex.normSq p.2 := by
  have hc : ∀ z : ℂ, ((Complex.normSq z : ℝ) : ℂ) = (starRingEnd ℂ) z * z := fun z => Complex.normSq_eq_conj_mul_self
  have key : ((x * Complex.normSq (gstep x (E θ) p).1 + (1 - x) * Complex.normSq (gstep x (E θ) p).2 : ℝ) : ℂ) =
      ((x * Complex.normSq p.1 + (1 - x) * Complex.normSq p.2 : ℝ) : ℂ) := by
    push_cast
    rw [hc, hc, hc, hc]
    unfold gstep
    dsimp only
    simp only [map_sub, map_mul, map_add, map_one, Complex.conj_ofReal]
    have he := conj_E_mul θ
    generalize (starRingEnd ℂ) (E θ) = f at he ⊢
    generalize (starRingEnd ℂ) p.1 = a at he ⊢
    generalize (starRingEnd ℂ) p.2 = b at he ⊢
    generalize E θ = e at he ⊢
    generalize p.1 = c
    generalize p.2 = d
    linear_combination ((f * a * x + b * (1 - x)) * (e * c * x + d * (1 - x)) + x * a * c) * he
  exact_mod_cast key

theorem gstep_norm_iter (x θ : ℝ) (k : ℕ) :
    x * Complex.normSq ((gstep x (E θ))^[k] (1, 1)).1 + (1 - x) * Complex.normSq ((gstep x (E θ))^[k] (1, 1)).2 = 1 := by
  induction k with
  | zero => simp
  | succ k ih => rw [Function.iterate_succ_apply', gstep_norm, ih]

end Verif.Fourier
