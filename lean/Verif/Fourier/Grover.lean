import Verif.Fourier.QPE

/-!
# Reflections and amplitude amplification

Model of `alg_primitives/reflection.py` and `alg_primitives/amplitude_amplification.py`.
-/

set_option linter.unusedSectionVars false

namespace Verif.Fourier

open Verif.Rev

variable {Q : Type} [DecidableEq Q]

/-! ### Model -/

/-- `x(q)`. -/
def xOp (q : Q) (ψ : St Q → ℂ) : St Q → ℂ := fun s => ψ (upd s q (!s q))

/-- `mcx(cs, t, ctrl_state=0)`. -/
def mcx0Op (cs : List Q) (t : Q) (ψ : St Q → ℂ) : St Q → ℂ := fun s => ψ (upd s t (s t ^^ cs.all fun c => !s c))

/-- `mcp(θ, cs, ctrl_state=0)`. -/
noncomputable def mcp0Op (θ : ℝ) (cs : List Q) (ψ : St Q → ℂ) : St Q → ℂ :=
  fun s => (if cs.all fun c => !s c then E θ else 1) * ψ s

/-- `inner_reflection` (reflection.py:192-208) on the qubits `qs ++ [q]`; the phase is given in turns. -/
noncomputable def innerReflection (θ : ℝ) (qs : List Q) (q : Q) (ψ : St Q → ℂ) : St Q → ℂ :=
  if θ = 1 / 2 then
    let ψ := xOp q ψ
    let ψ := if qs = [] then (FGate.ph (1 / 2) [q]).app ψ
      else (FGate.h q).app (mcx0Op qs q ((FGate.h q).app ψ))
    xOp q ψ
  else mcp0Op θ (qs ++ [q]) ψ

/-- `reflection` (reflection.py:42-221): `A` is the circuit of the state function; at the end `gphase(π)`. -/
noncomputable def reflection (A : List (FGate Q)) (θ : ℝ) (qs : List Q) (q : Q) (ψ : St Q → ℂ) : St Q → ℂ :=
  fun s => -run A (innerReflection θ qs q (run (inv A) ψ)) s

/-- `amplitude_amplification` (amplitude_amplification.py:27-150): `iter` times the oracle, which multiplies the
amplitudes by `o`, and the reflection. -/
noncomputable def amplify (A : List (FGate Q)) (o : St Q → ℂ) (qs : List Q) (q : Q) :
    ℕ → (St Q → ℂ) → St Q → ℂ
  | 0, ψ => ψ
  | k + 1, ψ => amplify A o qs q k (reflection A (1 / 2) qs q fun s => o s * ψ s)

/-! ### The reflection -/

theorem all_upd {qs : List Q} {q : Q} (h : q ∉ qs) (s : St Q) (v : Bool) :
    (qs.all fun c => !upd s q v c) = qs.all fun c => !s c := by
  rw [Bool.eq_iff_iff, List.all_eq_true, List.all_eq_true]
  refine forall₂_congr fun x hx => ?_
  have hne : x ≠ q := fun e => h (e ▸ hx)
  rw [upd_ne hne]

theorem innerReflection_eq (θ : ℝ) {qs : List Q} {q : Q} (hq : q ∉ qs) (ψ : St Q → ℂ) :
    innerReflection θ qs q ψ = fun s => (if (qs ++ [q]).all fun c => !s c then E θ else 1) * ψ s := by
  unfold innerReflection
  by_cases hθ : θ = 1 / 2
  · rw [if_pos hθ]
    have hE : E θ = -1 := by rw [hθ, ← E_half]
    have hE' : E (((1 / 2 : ℚ)) : ℝ) = -1 := by rw [← hE, hθ]; congr 1; push_cast; rfl
    funext s
    rw [hE]
    by_cases hqs : qs = []
    · subst hqs
      rw [if_pos rfl]
      simp only [xOp, app_ph, upd_upd, upd_same, Bool.not_not, upd_self, List.nil_append, List.all_cons, List.all_nil,
        Bool.and_true, hE']
    · rw [if_neg hqs]
      simp only [xOp, FGate.app, mcx0Op, upd_upd, upd_same, all_upd hq, List.all_append, List.all_cons, List.all_nil,
        Bool.and_true]
      have hrt : rt * rt = 1 / 2 := by rw [← pow_two, rt_sq]
      have hs : upd s q (s q) = s := upd_self s q
      cases ha : qs.all fun c => !s c <;> cases hv : s q <;> rw [hv] at hs <;> simp [hs]
      all_goals first
        | linear_combination (2 * ψ s) * hrt
        | linear_combination (-2 * ψ s) * hrt
  · rw [if_neg hθ]
    rfl

/-! ### Unitarity -/

/-- Sum over all assignments of the qubits. -/
noncomputable def sumOver : List Q → (St Q → ℂ) → St Q → ℂ
  | [], f, s => f s
  | q :: qs, f, s => sumOver qs f (upd s q false) + sumOver qs f (upd s q true)

theorem sumOver_perm {l l' : List Q} (h : l.Perm l') (hn : l.Nodup) (f : St Q → ℂ) : sumOver l f = sumOver l' f := by
  induction h with
  | nil => rfl
  | cons x _ ih =>
    funext s
    rw [List.nodup_cons] at hn
    rw [sumOver, sumOver, ih hn.2]
  | swap x y l =>
    have hxy : x ≠ y := fun e => by rw [List.nodup_cons] at hn; exact hn.1 (e ▸ List.mem_cons_self)
    funext s
    simp only [sumOver]
    rw [upd_comm (Ne.symm hxy) false false, upd_comm (Ne.symm hxy) false true, upd_comm (Ne.symm hxy) true false,
      upd_comm (Ne.symm hxy) true true]
    ring
  | trans h1 _ ih1 ih2 => rw [ih1 hn, ih2 (h1.nodup_iff.1 hn)]

theorem sumOver_congr {qs : List Q} {f g : St Q → ℂ} (h : ∀ s, f s = g s) : sumOver qs f = sumOver qs g := by
  rw [show f = g from funext h]

/-- Same sums over one qubit give the same sums. -/
theorem sumOver_one {qs : List Q} (hn : qs.Nodup) {q : Q} (hq : q ∈ qs) {f g : St Q → ℂ}
    (h : ∀ s, f (upd s q false) + f (upd s q true) = g (upd s q false) + g (upd s q true)) :
    sumOver qs f = sumOver qs g := by
  have hp : qs.Perm (qs.erase q ++ [q]) := (List.perm_cons_erase hq).trans (List.perm_append_singleton q _).symm
  rw [sumOver_perm hp hn, sumOver_perm hp hn]
  have : ∀ (l : List Q), sumOver (l ++ [q]) f = sumOver (l ++ [q]) g := by
    intro l
    induction l with
    | nil => funext s; exact h s
    | cons x l ih => funext s; rw [List.cons_append, sumOver, sumOver, ih]
  exact this _

/-- Inner product on the register `qs`. -/
noncomputable def ip (qs : List Q) (φ ψ : St Q → ℂ) : St Q → ℂ := sumOver qs fun s => (starRingEnd ℂ) (φ s) * ψ s

/-- The qubits of a gate. -/
def FGate.qubits : FGate Q → List Q
  | .h t => [t]
  | .cx c t => [c, t]
  | .swap a b => [a, b]
  | .ph _ cs => cs

theorem conj_rt : (starRingEnd ℂ) rt = rt := by
  unfold rt
  simp

theorem conj_E_mul (θ : ℝ) : (starRingEnd ℂ) (E θ) * E θ = 1 := by
  have : (starRingEnd ℂ) (E θ) = E (-θ) := by
    unfold E
    rw [← Complex.exp_conj]
    congr 1
    simp only [map_mul, Complex.conj_I, Complex.conj_ofReal, map_ofNat]
    push_cast
    ring
  rw [this, E_neg]

theorem swap_cx {a b : Q} (h : a ≠ b) (ψ : St Q → ℂ) :
    (FGate.swap a b).app ψ = (FGate.cx a b).app ((FGate.cx b a).app ((FGate.cx a b).app ψ)) := by
  funext s
  simp only [FGate.app]
  congr 1
  funext x
  unfold swapSt
  by_cases hb : x = b
  · subst hb
    simp only [upd_same, upd_ne h, upd_ne (Ne.symm h)]
    cases s a <;> cases s x <;> rfl
  · by_cases ha : x = a
    · subst ha
      simp only [upd_same, upd_ne h, upd_ne (Ne.symm h)]
      cases s x <;> cases s b <;> rfl
    · simp only [upd_ne ha, upd_ne hb]

theorem ip_cx {qs : List Q} (hn : qs.Nodup) {c t : Q} (hct : c ≠ t) (ht : t ∈ qs) (φ ψ : St Q → ℂ) :
    ip qs ((FGate.cx c t).app φ) ((FGate.cx c t).app ψ) = ip qs φ ψ := by
  refine sumOver_one hn ht fun s => ?_
  simp only [FGate.app, upd_same, upd_upd, upd_ne hct]
  cases s c <;> simp
  ring

theorem ip_gate {qs : List Q} (hn : qs.Nodup) (g : FGate Q) (hw : g.wf) (hg : ∀ x ∈ g.qubits, x ∈ qs) (φ ψ : St Q → ℂ) :
    ip qs (g.app φ) (g.app ψ) = ip qs φ ψ := by
  unfold ip
  cases g with
  | h t =>
    refine sumOver_one hn (hg t List.mem_cons_self) fun s => ?_
    have hrt : rt * rt = 1 / 2 := by rw [← pow_two, rt_sq]
    simp only [FGate.app, upd_same, upd_upd, map_mul, map_add, conj_rt]
    simp
    generalize (starRingEnd ℂ) (φ (upd s t false)) = a
    generalize (starRingEnd ℂ) (φ (upd s t true)) = b
    generalize ψ (upd s t false) = c
    generalize ψ (upd s t true) = e
    linear_combination (2 * (a * c + b * e)) * hrt
  | cx c t =>
    exact ip_cx hn hw (hg t (by simp [FGate.qubits])) φ ψ
  | swap a b =>
    by_cases hab : a = b
    · subst hab
      have : ∀ s : St Q, swapSt s a a = s := fun s => by rw [swapSt, upd_upd, upd_self]
      simp only [FGate.app, this]
    · have ha := hg a (by simp [FGate.qubits])
      have hb := hg b (by simp [FGate.qubits])
      have := ip_cx hn hab hb
      have h2 := ip_cx hn (Ne.symm hab) ha
      rw [swap_cx hab, swap_cx hab]
      exact (this _ _).trans ((h2 _ _).trans (this _ _))
  | ph θ cs =>
    refine sumOver_congr fun s => ?_
    rw [app_ph, app_ph, map_mul]
    have : (starRingEnd ℂ) (if cs.all s then E θ else 1) * (if cs.all s then E θ else 1) = 1 := by
      split
      · exact conj_E_mul _
      · simp
    linear_combination ((starRingEnd ℂ) (φ s) * ψ s) * this

theorem ip_run {qs : List Q} (hn : qs.Nodup) : ∀ (A : List (FGate Q)), (∀ g ∈ A, g.wf) →
    (∀ g ∈ A, ∀ x ∈ g.qubits, x ∈ qs) → ∀ φ ψ : St Q → ℂ, ip qs (run A φ) (run A ψ) = ip qs φ ψ := by
  intro A
  induction A with
  | nil => intro _ _ φ ψ; rfl
  | cons g A ih =>
    intro hw hA φ ψ
    rw [run_cons, run_cons, ih (fun x hx => hw x (List.mem_cons_of_mem _ hx)) (fun x hx => hA x (List.mem_cons_of_mem _ hx)),
      ip_gate hn g (hw g List.mem_cons_self) (hA g List.mem_cons_self)]

/-! ### Linearity -/

theorem app_lin (g : FGate Q) (K : St Q → ℂ) (hK : ∀ x ∈ g.qubits, ∀ s v, K (upd s x v) = K s) (φ ψ : St Q → ℂ) :
    g.app (fun s => K s * φ s + ψ s) = fun s => K s * g.app φ s + g.app ψ s := by
  funext s
  cases g with
  | h t =>
    have := hK t List.mem_cons_self
    simp only [FGate.app, this]
    ring
  | cx c t =>
    have := hK t (by simp [FGate.qubits])
    simp only [FGate.app, this]
  | swap a b =>
    have h1 := hK a (by simp [FGate.qubits])
    have h2 := hK b (by simp [FGate.qubits])
    simp only [FGate.app, swapSt, h1, h2]
  | ph θ cs =>
    simp only [FGate.app]
    ring

theorem run_lin (K : St Q → ℂ) : ∀ (A : List (FGate Q)), (∀ g ∈ A, ∀ x ∈ g.qubits, ∀ s v, K (upd s x v) = K s) →
    ∀ φ ψ : St Q → ℂ, run A (fun s => K s * φ s + ψ s) = fun s => K s * run A φ s + run A ψ s := by
  intro A
  induction A with
  | nil => intro _ φ ψ; rfl
  | cons g A ih =>
    intro h φ ψ
    rw [run_cons, app_lin g K (h g List.mem_cons_self), ih (fun x hx => h x (List.mem_cons_of_mem _ hx))]
    rfl

/-- Whether the register is zero. -/
noncomputable def zeroOn (reg : List Q) : St Q → ℂ := fun s => if reg.all fun c => !s c then 1 else 0

theorem sumOver_upd {qs : List Q} (hn : qs.Nodup) {q : Q} (hq : q ∈ qs) (f : St Q → ℂ) (s : St Q) (v : Bool) :
    sumOver qs f (upd s q v) = sumOver qs f s := by
  rw [sumOver_perm (List.perm_cons_erase hq) hn]
  simp only [sumOver, upd_upd]

theorem sumOver_zero : ∀ (qs : List Q), qs.Nodup → ∀ (f : St Q → ℂ) (s : St Q), (qs.all fun c => !s c) = true →
    sumOver qs (fun s => zeroOn qs s * f s) s = f s := by
  intro qs
  induction qs with
  | nil => intro _ f s _; simp [sumOver, zeroOn]
  | cons q qs ih =>
    intro hn f s hs
    rw [List.nodup_cons] at hn
    rw [List.all_cons, Bool.and_eq_true] at hs
    have hq : s q = false := by simpa using hs.1
    have hzs : ∀ (l : List Q), q ∉ l → ∀ (c : ℂ) (f : St Q → ℂ) (s : St Q), (∀ s, s q = true → f s = 0) → s q = true →
        sumOver l f s = 0 := by
      intro l
      induction l with
      | nil => intro _ c f s h hs; exact h s hs
      | cons x l ihl =>
        intro hx c f s h hs
        rw [List.mem_cons, not_or] at hx
        rw [sumOver, ihl hx.2 c f _ h (by rw [upd_ne hx.1]; exact hs), ihl hx.2 c f _ h (by rw [upd_ne hx.1]; exact hs),
          add_zero]
    rw [sumOver, hzs qs hn.1 0 _ (upd s q true) (fun s h => by simp [zeroOn, h]) (upd_same _ _ _), add_zero]
    have hs' : upd s q false = s := by rw [← hq, upd_self]
    rw [hs']
    have := ih hn.2 (fun s => (if s q then 0 else 1) * f s) s hs.2
    rw [hq] at this
    simp only [Bool.false_eq_true, if_false, one_mul] at this
    refine Eq.trans (congrFun (sumOver_congr fun s => ?_) s) this
    unfold zeroOn
    rw [List.all_cons]
    cases s q <;> simp

theorem zeroOn_conj (reg : List Q) (s : St Q) : (starRingEnd ℂ) (zeroOn reg s) = zeroOn reg s := by
  unfold zeroOn
  split <;> simp

theorem ip_upd {qs : List Q} (hn : qs.Nodup) {q : Q} (hq : q ∈ qs) (φ ψ : St Q → ℂ) (s : St Q) (v : Bool) :
    ip qs φ ψ (upd s q v) = ip qs φ ψ s := sumOver_upd hn hq _ s v

/-- Any reflection, in terms of the state preparation. -/
theorem reflection_run {A : List (FGate Q)} (hw : ∀ g ∈ A, g.wf) (θ : ℝ) {qs : List Q} {q : Q} (hq : q ∉ qs)
    (χ : St Q → ℂ) : reflection A θ qs q (run A χ) =
      fun s => -run A (fun s => (if (qs ++ [q]).all fun c => !s c then E θ else 1) * χ s) s := by
  unfold reflection
  rw [(run_inv A hw χ).1, innerReflection_eq θ hq]

/-- The reflection on the whole register. -/
theorem reflection_eq {A : List (FGate Q)} (hw : ∀ g ∈ A, g.wf) (θ : ℝ) {qs : List Q} {q : Q} (hn : (qs ++ [q]).Nodup)
    (hA : ∀ g ∈ A, ∀ x ∈ g.qubits, x ∈ qs ++ [q]) (ψ : St Q → ℂ) (s : St Q) :
    reflection A θ qs q ψ s =
      (1 - E θ) * ip (qs ++ [q]) (run A (zeroOn (qs ++ [q]))) ψ s * run A (zeroOn (qs ++ [q])) s - ψ s := by
  have hq : q ∉ qs := fun h => by
    rw [List.nodup_append] at hn
    exact hn.2.2 q h q (List.mem_singleton.2 rfl) rfl
  obtain ⟨χ, hχ⟩ : ∃ χ, χ = run (inv A) ψ := ⟨_, rfl⟩
  have hψ : run A χ = ψ := by rw [hχ, (run_inv A hw ψ).2]
  rw [← hψ, reflection_run hw θ hq, ip_run hn A hw hA]
  have hstate : (fun s => (if (qs ++ [q]).all fun c => !s c then E θ else 1) * χ s) =
      fun s => (E θ - 1) * ip (qs ++ [q]) (zeroOn (qs ++ [q])) χ s * zeroOn (qs ++ [q]) s + χ s := by
    funext s
    by_cases hz : ((qs ++ [q]).all fun c => !s c) = true
    · have : ip (qs ++ [q]) (zeroOn (qs ++ [q])) χ s = χ s := by
        unfold ip
        simp only [zeroOn_conj]
        exact sumOver_zero _ hn χ s hz
      rw [this, if_pos hz, zeroOn, if_pos hz]
      ring
    · rw [if_neg hz, zeroOn, if_neg hz]
      ring
  rw [hstate, run_lin (fun s => (E θ - 1) * ip (qs ++ [q]) (zeroOn (qs ++ [q])) χ s) A
    (fun g hg x hx s v => by rw [ip_upd hn (hA g hg x hx)])]
  ring

theorem sumOver_add (qs : List Q) (f g : St Q → ℂ) (s : St Q) :
    sumOver qs (fun s => f s + g s) s = sumOver qs f s + sumOver qs g s := by
  induction qs generalizing s with
  | nil => rfl
  | cons q qs ih => simp only [sumOver, ih]; ring

theorem sumOver_smul (qs : List Q) (c : ℂ) (f : St Q → ℂ) (s : St Q) :
    sumOver qs (fun s => c * f s) s = c * sumOver qs f s := by
  induction qs generalizing s with
  | nil => rfl
  | cons q qs ih => simp only [sumOver, ih]; ring

/-- The state with the amplitudes of the good states scaled by `a`, the others by `b`. -/
noncomputable def scaled (g : St Q → Bool) (a b : ℂ) (ψ : St Q → ℂ) : St Q → ℂ := fun s => (if g s then a else b) * ψ s

theorem amplify_spec {A : List (FGate Q)} (hw : ∀ g ∈ A, g.wf) {qs : List Q} {q : Q} (hn : (qs ++ [q]).Nodup)
    (hA : ∀ g ∈ A, ∀ x ∈ g.qubits, x ∈ qs ++ [q]) (g : St Q → Bool) {t : ℝ} (hs0 : Real.sin t ≠ 0) (hc0 : Real.cos t ≠ 0)
    (hg : ∀ s, ip (qs ++ [q]) (scaled g 1 0 (run A (zeroOn (qs ++ [q])))) (scaled g 1 0 (run A (zeroOn (qs ++ [q])))) s =
      ((Real.sin t ^ 2 : ℝ) : ℂ)) : ∀ (k j : ℕ),
    amplify A (fun s => if g s then -1 else 1) qs q k
        (scaled g ((Real.sin ((2 * j + 1) * t) / Real.sin t : ℝ)) ((Real.cos ((2 * j + 1) * t) / Real.cos t : ℝ))
          (run A (zeroOn (qs ++ [q])))) =
      scaled g ((Real.sin ((2 * (j + k) + 1) * t) / Real.sin t : ℝ)) ((Real.cos ((2 * (j + k) + 1) * t) / Real.cos t : ℝ))
        (run A (zeroOn (qs ++ [q]))) := by
  obtain ⟨ψ0, hψ0⟩ : ∃ ψ0, ψ0 = run A (zeroOn (qs ++ [q])) := ⟨_, rfl⟩
  rw [← hψ0] at hg ⊢
  have hone : ∀ s, ip (qs ++ [q]) ψ0 ψ0 s = 1 := fun s => by
    rw [hψ0, ip_run hn A hw hA]
    have h1 : ∀ s, ((qs ++ [q]).all fun c => !s c) = true → ip (qs ++ [q]) (zeroOn (qs ++ [q])) (zeroOn (qs ++ [q])) s = 1 :=
      fun s hz => by
        unfold ip
        simp only [zeroOn_conj]
        rw [sumOver_zero _ hn _ s hz, zeroOn, if_pos hz]
    have h2 : ∀ (l : List Q) (s : St Q), (∀ x ∈ l, x ∈ qs ++ [q]) → ∃ s', (∀ x ∈ l, s' x = false) ∧
        (∀ x, x ∉ l → s' x = s x) ∧ ip (qs ++ [q]) (zeroOn (qs ++ [q])) (zeroOn (qs ++ [q])) s' =
          ip (qs ++ [q]) (zeroOn (qs ++ [q])) (zeroOn (qs ++ [q])) s := by
      intro l
      induction l with
      | nil => intro s _; exact ⟨s, by simp, fun _ _ => rfl, rfl⟩
      | cons x l ih =>
        intro s h
        obtain ⟨s', h1, h2, h3⟩ := ih s fun y hy => h y (List.mem_cons_of_mem _ hy)
        refine ⟨upd s' x false, fun y hy => ?_, fun y hy => ?_, ?_⟩
        · by_cases e : y = x
          · subst e; exact upd_same _ _ _
          · rw [upd_ne e]; exact h1 y ((List.mem_cons.1 hy).resolve_left e)
        · rw [List.mem_cons, not_or] at hy
          rw [upd_ne hy.1, h2 y hy.2]
        · rw [ip_upd hn (h x List.mem_cons_self), h3]
    obtain ⟨s', h3, _, h4⟩ := h2 (qs ++ [q]) s (fun _ h => h)
    rw [← h4, h1 s' (List.all_eq_true.2 fun x hx => by rw [h3 x hx]; rfl)]
  have hsplit : ∀ (a b : ℂ) s, ip (qs ++ [q]) ψ0 (scaled g a b ψ0) s =
      a * ((Real.sin t ^ 2 : ℝ) : ℂ) + b * (1 - ((Real.sin t ^ 2 : ℝ) : ℂ)) := fun a b s => by
    have e1 : ip (qs ++ [q]) ψ0 (scaled g a b ψ0) s = (a - b) * ip (qs ++ [q]) (scaled g 1 0 ψ0) (scaled g 1 0 ψ0) s +
        b * ip (qs ++ [q]) ψ0 ψ0 s := by
      unfold ip
      rw [← sumOver_smul, ← sumOver_smul, ← sumOver_add]
      refine congrFun (sumOver_congr fun s => ?_) s
      unfold scaled
      cases g s <;> simp <;> ring
    rw [e1, hg, hone]
    ring
  intro k
  induction k with
  | zero => intro j; rw [Nat.cast_zero, add_zero]; rfl
  | succ k ih =>
    intro j
    have hst : reflection A (1 / 2) qs q (fun s => (if g s then -1 else 1) *
        scaled g ((Real.sin ((2 * j + 1) * t) / Real.sin t : ℝ)) ((Real.cos ((2 * j + 1) * t) / Real.cos t : ℝ)) ψ0 s) =
        scaled g ((Real.sin ((2 * (j + 1 : ℕ) + 1) * t) / Real.sin t : ℝ))
          ((Real.cos ((2 * (j + 1 : ℕ) + 1) * t) / Real.cos t : ℝ)) ψ0 := by
      funext s
      rw [reflection_eq hw _ hn hA, ← hψ0]
      have e2 : (fun s => (if g s then (-1 : ℂ) else 1) *
          scaled g ((Real.sin ((2 * j + 1) * t) / Real.sin t : ℝ)) ((Real.cos ((2 * j + 1) * t) / Real.cos t : ℝ)) ψ0 s) =
          scaled g (-(Real.sin ((2 * j + 1) * t) / Real.sin t : ℝ)) ((Real.cos ((2 * j + 1) * t) / Real.cos t : ℝ)) ψ0 := by
        funext s
        unfold scaled
        cases g s <;> simp
      have e3 := congrFun e2 s
      rw [e2, hsplit, e3]
      have hE : E (1 / 2) = -1 := E_half
      rw [hE]
      have hm : (2 * ((j + 1 : ℕ) : ℝ) + 1) * t = (2 * j + 1) * t + 2 * t := by push_cast; ring
      have hkey : -(Real.sin ((2 * j + 1) * t) / Real.sin t) * Real.sin t ^ 2 +
          (Real.cos ((2 * j + 1) * t) / Real.cos t) * (1 - Real.sin t ^ 2) = Real.cos ((2 * j + 1) * t + t) := by
        rw [← Real.cos_sq', Real.cos_add]
        field_simp
        ring
      have hkeyC := congrArg (fun x : ℝ => (x : ℂ)) hkey
      push_cast at hkeyC
      have ha : 2 * Real.cos ((2 * j + 1) * t + t) + Real.sin ((2 * j + 1) * t) / Real.sin t =
          Real.sin ((2 * j + 1) * t + 2 * t) / Real.sin t := by
        rw [eq_div_iff hs0, Real.cos_add, Real.sin_add, Real.sin_two_mul, Real.cos_two_mul]
        field_simp
        have := Real.sin_sq_add_cos_sq t
        linear_combination (-2 * Real.sin ((2 * j + 1) * t)) * this
      have hb : 2 * Real.cos ((2 * j + 1) * t + t) - Real.cos ((2 * j + 1) * t) / Real.cos t =
          Real.cos ((2 * j + 1) * t + 2 * t) / Real.cos t := by
        rw [eq_div_iff hc0, Real.cos_add, Real.cos_add, Real.sin_two_mul, Real.cos_two_mul]
        field_simp
        ring
      have haC := congrArg (fun x : ℝ => (x : ℂ)) ha
      have hbC := congrArg (fun x : ℝ => (x : ℂ)) hb
      push_cast at haC hbC
      rw [hm]
      unfold scaled
      push_cast
      rw [hkeyC]
      cases g s
      · simp only [Bool.false_eq_true, if_false]
        linear_combination (ψ0 s) * hbC
      · simp only [if_true]
        linear_combination (ψ0 s) * haC
    rw [amplify, hst, ih (j + 1)]
    have hjk : (2 * (((j + 1 : ℕ) : ℝ) + k) + 1) = 2 * (j + ((k + 1 : ℕ) : ℝ)) + 1 := by push_cast; ring
    rw [hjk]

end Verif.Fourier
