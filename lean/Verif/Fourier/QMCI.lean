import Verif.Fourier.QAE

/-!
# Monte Carlo integration

Model of `algorithms/qmci.py`.
-/

namespace Verif.Fourier

open Verif.Rev

variable {Q : Type} [DecidableEq Q]

/-! ### Model -/

/-- An unsigned quantum float: its qubits and its exponent. -/
structure Axis (Q : Type) where
  qs : List Q
  exp : ℤ

/-- The number in the register. -/
noncomputable def Axis.value (a : Axis Q) (s : St Q) : ℝ := valL a.qs s * 2 ^ a.exp

/-- All qubits of a list of registers. -/
def axesQ (xs : List (Axis Q)) : List Q := xs.flatMap Axis.qs

/-- `V0` (qmci.py:96-98). -/
noncomputable def volume (l : List (Axis Q)) : ℝ := (l.map fun a => (2 : ℝ) ^ ((a.qs.length : ℤ) + a.exp)).prod

/-- `state_function` (qmci.py:102-112): the distribution `D` on the `x` registers, `h` on the `y` register and the flip of the target
where `y < f(x)`. -/
noncomputable def qmciState (D : List (FGate Q)) (F : List ℝ → ℝ) (xs : List (Axis Q)) (y : Axis Q) (tar : Q) (ψ : St Q → ℂ) : St Q → ℂ := by
  classical exact
    let ψ := run D ψ
    let ψ := run (hLayer y.qs) ψ
    fun s => ψ (upd s tar (s tar ^^ decide (y.value s < F (xs.map fun a => a.value s))))

/-- `uniform` (qmci.py:22-24), the default distribution. -/
def uniformD (xs : List (Axis Q)) : List (FGate Q) := xs.flatMap fun a => hLayer a.qs

/-- `V` for the estimate `a` of `IQAE` (qmci.py:116-117). -/
noncomputable def qmciValue (xs : List (Axis Q)) (y : Axis Q) (a : ℝ) : ℝ := volume (xs ++ [y]) * a

/-- The list of arguments in a call of `QMCI`, each with its size and its exponent, if the type has one: the loop over `arg.exponent`
(qmci.py:96-98) and `qargs.append(QuantumBool())` (qmci.py:100).  The result is the list of the caller after the call, or the exception. -/
def qmciArgs (qargs : List (ℕ × Option ℤ)) : Option (List (ℕ × Option ℤ)) :=
  if qargs.all fun a => a.2.isSome then some (qargs ++ [(1, none)]) else none

/-! ### Lemmas -/

/-- The number of values of the `y` register below `f`. -/
noncomputable def level (n : ℕ) (e : ℤ) (f : ℝ) : ℕ := min (2 ^ n) ⌈f / 2 ^ e⌉₊

theorem count_below (n : ℕ) (e : ℤ) (f : ℝ) (p : ℕ → Prop) [DecidablePred p] (hp : ∀ Y, p Y ↔ (Y : ℝ) * 2 ^ e < f) :
    ∑ Y ∈ Finset.range (2 ^ n), (if p Y then (1 : ℂ) else 0) = level n e f := by
  have hu : (0 : ℝ) < 2 ^ e := by positivity
  rw [← Finset.sum_filter, Finset.sum_const, nsmul_eq_mul, mul_one]
  congr 1
  have : (Finset.range (2 ^ n)).filter p = Finset.range (level n e f) := by
    ext Y
    rw [Finset.mem_filter, Finset.mem_range, Finset.mem_range, hp, level, lt_min_iff, Nat.lt_ceil, lt_div_iff₀ hu]
  rw [this, Finset.card_range]

theorem zeroOn_append (l l' : List Q) (s : St Q) : zeroOn (l ++ l') s = zeroOn l s * zeroOn l' s := by
  unfold zeroOn
  rw [List.all_append]
  cases (l.all fun c => !s c) <;> cases (l'.all fun c => !s c) <;> simp

theorem run_smul (A : List (FGate Q)) (K φ : St Q → ℂ) (hK : ∀ g ∈ A, ∀ x ∈ g.qubits, ∀ s v, K (upd s x v) = K s) :
    run A (fun s => K s * φ s) = fun s => K s * run A φ s := by
  have h0 : run A (fun _ => 0) = fun _ => 0 := by
    have h := run_additive A (fun _ => 0) (fun _ => 0)
    simp only [add_zero] at h
    funext s
    exact left_eq_add.mp (congrFun h s)
  have h := run_lin K A hK φ (fun _ => 0)
  rw [h0] at h
  simpa using h

section
variable {D : List (FGate Q)} {xs : List (Axis Q)} {y : Axis Q} {tar : Q}
  (hn : (axesQ xs ++ (y.qs ++ [tar])).Nodup) (hD : ∀ g ∈ D, ∀ x ∈ g.qubits, x ∈ axesQ xs) (F : List ℝ → ℝ)
include hn hD

theorem qmci_run (s : St Q) : run (hLayer y.qs) (run D (zeroOn (axesQ xs ++ (y.qs ++ [tar])))) s =
    run D (zeroOn (axesQ xs)) s * zeroOn [tar] s * rt ^ y.qs.length := by
  rw [List.nodup_append] at hn
  obtain ⟨h1, h2, h3⟩ := hn
  rw [List.nodup_append] at h2
  have e1 : zeroOn (axesQ xs ++ (y.qs ++ [tar])) = fun s => zeroOn (y.qs ++ [tar]) s * zeroOn (axesQ xs) s := by
    funext s
    rw [zeroOn_append, mul_comm]
  rw [e1, run_smul D _ _ fun g hg x hx s v => zeroOn_indep (fun h => h3 x (hD g hg x hx) x h rfl) s v]
  have e2 : (fun s => zeroOn (y.qs ++ [tar]) s * run D (zeroOn (axesQ xs)) s) =
      fun s => (run D (zeroOn (axesQ xs)) s * zeroOn [tar] s) * zeroOn y.qs s := by
    funext s
    rw [zeroOn_append]
    ring
  rw [e2, run_smul (hLayer y.qs)]
  · beta_reduce
    rw [run_hLayer h2.1]
  · intro g hg x hx s v
    obtain ⟨z, hz, rfl⟩ := List.mem_map.mp hg
    have hxz : x = z := List.mem_singleton.mp hx
    subst hxz
    rw [zeroOn_indep (fun h => h2.2.2 x hz x h rfl), run_indep (fun g hg h => h3 x (hD g hg x h) x (List.mem_append_left _ hz) rfl)
      (fun s v => zeroOn_indep (fun h => h3 x h x (List.mem_append_left _ hz) rfl) s v)]

omit hD in
theorem value_out {l : List Q} {a : Axis Q} {s s' : St Q} (h : ∀ x, x ∉ l → s' x = s x) (hd : ∀ x ∈ a.qs, x ∉ l) : a.value s' = a.value s := by
  unfold Axis.value
  rw [valL_congr fun x hx => h x (hd x hx)]

theorem qmci_prob (s : St Q) :
    ip (axesQ xs ++ (y.qs ++ [tar])) (fun s => if s tar then qmciState D F xs y tar (zeroOn (axesQ xs ++ (y.qs ++ [tar]))) s else 0)
        (fun s => if s tar then qmciState D F xs y tar (zeroOn (axesQ xs ++ (y.qs ++ [tar]))) s else 0) s =
      sumOver (axesQ xs) (fun s => ((‖run D (zeroOn (axesQ xs)) s‖ ^ 2 *
        (level y.qs.length y.exp (F (xs.map fun a => a.value s)) / 2 ^ y.qs.length) : ℝ) : ℂ)) s := by
  classical
  have hn' := hn
  rw [List.nodup_append] at hn'
  obtain ⟨h1, h2, h3⟩ := hn'
  rw [List.nodup_append] at h2
  have hty : tar ∉ y.qs := fun h => h2.2.2 tar h tar (List.mem_singleton.mpr rfl) rfl
  have htx : tar ∉ axesQ xs := fun h => h3 tar h tar (List.mem_append_right _ (List.mem_singleton.mpr rfl)) rfl
  have hψt : ∀ s v, run D (zeroOn (axesQ xs)) (upd s tar v) = run D (zeroOn (axesQ xs)) s :=
    run_indep (fun g hg h => htx (hD g hg tar h)) (fun s v => zeroOn_indep htx s v)
  unfold ip
  rw [sumOver_append]
  refine congrFun (congrArg _ (funext fun s => ?_)) s
  rw [sumOver_append]
  -- the target
  have ht : ∀ s, sumOver [tar] (fun s =>
      (starRingEnd ℂ) (if s tar then qmciState D F xs y tar (zeroOn (axesQ xs ++ (y.qs ++ [tar]))) s else 0) *
        (if s tar then qmciState D F xs y tar (zeroOn (axesQ xs ++ (y.qs ++ [tar]))) s else 0)) s =
      ((‖run D (zeroOn (axesQ xs)) s‖ ^ 2 / 2 ^ y.qs.length : ℝ) : ℂ) * (if y.value s < F (xs.map fun a => a.value s) then 1 else 0) := by
    intro s
    have hv : ∀ v, y.value (upd s tar v) = y.value s := fun v => value_out hn (l := [tar]) (fun x hx => by
      rw [List.mem_singleton] at hx; exact upd_ne hx) (fun x hx h => hty (by rw [List.mem_singleton] at h; exact h ▸ hx))
    have hx : ∀ v, (xs.map fun a => a.value (upd s tar v)) = xs.map fun a => a.value s := fun v => List.map_congr_left fun a ha =>
      value_out hn (l := [tar]) (fun x hx => by rw [List.mem_singleton] at hx; exact upd_ne hx)
        (fun x hx h => htx (by rw [List.mem_singleton] at h; exact List.mem_flatMap.mpr ⟨a, ha, h ▸ hx⟩))
    simp only [sumOver, upd_same, Bool.false_eq_true, if_false, mul_zero, zero_add, if_true]
    unfold qmciState
    simp only [upd_same, upd_upd, hv, hx, qmci_run hn hD, hψt]
    have hrt : rt ^ y.qs.length * rt ^ y.qs.length = 1 / 2 ^ y.qs.length := rt_pow_sq _
    by_cases hc : y.value s < F (xs.map fun a => a.value s)
    · simp only [hc, decide_true, if_true, Bool.xor_self, zeroOn, upd_same, List.all_cons, List.all_nil, Bool.not_false, Bool.and_self, mul_one]
      rw [map_mul, map_pow, conj_rt]
      push_cast
      rw [← Complex.conj_mul']
      linear_combination ((starRingEnd ℂ) (run D (zeroOn (axesQ xs)) s) * run D (zeroOn (axesQ xs)) s) * hrt
    · simp [hc, zeroOn, upd_same]
  rw [show sumOver [tar] _ = _ from funext ht]
  -- the values of `y`
  have hy : ∀ s', (∀ x, x ∉ y.qs → s' x = s x) →
      ((‖run D (zeroOn (axesQ xs)) s'‖ ^ 2 / 2 ^ y.qs.length : ℝ) : ℂ) * (if y.value s' < F (xs.map fun a => a.value s') then (1 : ℂ) else 0) =
      ((‖run D (zeroOn (axesQ xs)) s‖ ^ 2 / 2 ^ y.qs.length : ℝ) : ℂ) *
        (fun Y : ℕ => if (Y : ℝ) * 2 ^ y.exp < F (xs.map fun a => a.value s) then (1 : ℂ) else 0) (valL y.qs s') := by
    intro s' hs'
    have hxv : (xs.map fun a => a.value s') = xs.map fun a => a.value s := List.map_congr_left fun a ha =>
      value_out hn hs' fun x hx h => h3 x (List.mem_flatMap.mpr ⟨a, ha, hx⟩) x (List.mem_append_left _ h) rfl
    have hψ : run D (zeroOn (axesQ xs)) s' = run D (zeroOn (axesQ xs)) s := by
      have key : ∀ (l : List Q), (∀ x ∈ l, x ∉ axesQ xs) → ∀ s s' : St Q, (∀ x, x ∉ l → s' x = s x) →
          run D (zeroOn (axesQ xs)) s' = run D (zeroOn (axesQ xs)) s := by
        intro l
        induction l with
        | nil => intro _ s s' h; rw [show s' = s from funext fun x => h x (by simp)]
        | cons z l ih =>
          intro hl s s' h
          rw [← run_indep (x := z) (fun g hg h => hl z List.mem_cons_self (hD g hg z h))
            (fun s v => zeroOn_indep (hl z List.mem_cons_self) s v) s (s' z)]
          refine ih (fun x hx => hl x (List.mem_cons_of_mem _ hx)) _ _ fun x hx => ?_
          by_cases e : x = z
          · subst e; rw [upd_same]
          · rw [upd_ne e]; exact h x (by simp [e, hx])
      exact key y.qs (fun x hx h => h3 x h x (List.mem_append_left _ hx) rfl) s s' hs'
    rw [hxv, hψ]
    rfl
  rw [sumOver_congr_out hy, sumOver_smul, sumOver_val h2.1 (fun Y : ℕ => if (Y : ℝ) * 2 ^ y.exp < F (xs.map fun a => a.value s) then (1 : ℂ) else 0),
    count_below _ _ _ (fun Y : ℕ => (Y : ℝ) * 2 ^ y.exp < F (xs.map fun a => a.value s)) (fun _ => Iff.rfl)]
  push_cast
  ring

end

end Verif.Fourier
