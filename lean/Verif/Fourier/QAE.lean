import Verif.Fourier.GroverAlg
import Verif.Fourier.QaeBound

/-!
# Amplitude estimation and counting

Model of `alg_primitives/qae.py` and `algorithms/quantum_counting.py`.
-/

namespace Verif.Fourier

open Verif.Rev

variable {Q : Type} [DecidableEq Q]

/-! ### Model -/

/-- `QAE` (qae.py:192-217): the state function, then phase estimation of the amplitude amplification with `iter_spec`, with the
result in `reg`.  The oracle multiplies the amplitudes by `o`. -/
noncomputable def qae (d : Q) (A : List (FGate Q)) (o : St Q → ℂ) (qs : List Q) (q : Q) (reg : List Q) (ψ : St Q → ℂ) : St Q → ℂ :=
  qpe d (amplify A o qs q) reg (run A ψ)

/-- `grover_operator` (quantum_counting.py:68-71). -/
noncomputable def groverOperator (o : St Q → ℂ) (qs : List Q) (q : Q) (ψ : St Q → ℂ) : St Q → ℂ := diffuser (1 / 2) qs q fun s => o s * ψ s

/-- The circuit of `quantum_counting` (quantum_counting.py:68-74). -/
noncomputable def countingCircuit (d : Q) (o : St Q → ℂ) (qs : List Q) (q : Q) (reg : List Q) (ψ : St Q → ℂ) : St Q → ℂ :=
  qpe d (fun k => (groverOperator o qs q)^[k]) reg (run (hLayer (qs ++ [q])) ψ)

/-- The value of `quantum_counting` for the measured integer `Y` (quantum_counting.py:83-87); the result register has the exponent
`-precision`, so that `mes_res` is `Y / 2^precision`. -/
noncomputable def countingValue (size precision Y : ℕ) : ℝ := 2 ^ size * Real.sin (Y / 2 ^ precision * Real.pi) ^ 2

/-! ### Linearity -/

/-- Additive operators. -/
def Additive' (U : (St Q → ℂ) → St Q → ℂ) : Prop := ∀ φ ψ, U (fun s => φ s + ψ s) = fun s => U φ s + U ψ s

theorem run_additive (A : List (FGate Q)) : Additive' (run A) := fun φ ψ => by
  have := run_lin (fun _ => 1) A (fun _ _ _ _ _ _ => rfl) φ ψ
  simpa using this

theorem qpeLoop_additive {Uit : ℕ → (St Q → ℂ) → St Q → ℂ} (hU : ∀ k, Additive' (Uit k)) : ∀ (reg : List Q) (i : ℕ),
    Additive' (qpeLoop Uit i reg)
  | [], _, _, _ => rfl
  | q :: reg, i, φ, ψ => by
    have h1 : ctrlU q (Uit (2 ^ i)) (fun s => φ s + ψ s) = fun s => ctrlU q (Uit (2 ^ i)) φ s + ctrlU q (Uit (2 ^ i)) ψ s := by
      funext s
      unfold ctrlU
      dsimp only
      rw [hU]
      split <;> rfl
    rw [qpeLoop, h1, qpeLoop_additive hU reg (i + 1)]
    rfl

theorem qpe_additive (d : Q) {Uit : ℕ → (St Q → ℂ) → St Q → ℂ} (hU : ∀ k, Additive' (Uit k)) (reg : List Q) : Additive' (qpe d Uit reg) :=
  fun φ ψ => by
    unfold qpe
    rw [run_additive, qpeLoop_additive hU, run_additive]

theorem sumOver_mul_out : ∀ {qs : List Q} {f : St Q → ℂ}, (∀ x ∈ qs, ∀ s v, f (upd s x v) = f s) → ∀ (h : St Q → ℂ) (s : St Q),
    sumOver qs (fun s => f s * h s) s = f s * sumOver qs h s
  | [], _, _, _, _ => rfl
  | q :: qs, f, hf, h, s => by
    have h1 : ∀ x ∈ qs, ∀ s v, f (upd s x v) = f s := fun x hx => hf x (List.mem_cons_of_mem _ hx)
    have h2 := hf q List.mem_cons_self
    rw [sumOver, sumOver, sumOver_mul_out h1, sumOver_mul_out h1, h2, h2]
    ring

theorem ip_mul_out {qs : List Q} {f : St Q → ℂ} (hf : ∀ x ∈ qs, ∀ s v, f (upd s x v) = f s) (φ ψ : St Q → ℂ) (s : St Q) :
    ip qs φ (fun s => f s * ψ s) s = f s * ip qs φ ψ s := by
  unfold ip
  rw [← sumOver_mul_out hf]
  exact congrFun (sumOver_congr fun s => by ring) s

section
variable {A : List (FGate Q)} (hw : ∀ g ∈ A, g.wf) {qs : List Q} {q : Q} (hn : (qs ++ [q]).Nodup)
  (hA : ∀ g ∈ A, ∀ x ∈ g.qubits, x ∈ qs ++ [q])
include hw hn hA

theorem amplify_additive (o : St Q → ℂ) : ∀ k, Additive' (amplify A o qs q k)
  | 0, _, _ => rfl
  | k + 1, φ, ψ => by
    have h1 : (reflection A (1 / 2) qs q fun s => o s * (φ s + ψ s)) =
        fun s => (reflection A (1 / 2) qs q fun s => o s * φ s) s + (reflection A (1 / 2) qs q fun s => o s * ψ s) s := by
      funext s
      rw [reflection_eq hw _ hn hA, reflection_eq hw _ hn hA, reflection_eq hw _ hn hA]
      have : ip (qs ++ [q]) (run A (zeroOn (qs ++ [q]))) (fun s => o s * (φ s + ψ s)) s =
          ip (qs ++ [q]) (run A (zeroOn (qs ++ [q]))) (fun s => o s * φ s) s +
            ip (qs ++ [q]) (run A (zeroOn (qs ++ [q]))) (fun s => o s * ψ s) s := by
        unfold ip
        rw [← sumOver_add]
        exact congrFun (sumOver_congr fun s => by ring) s
      rw [this]
      ring
    rw [amplify, h1, amplify_additive o k]
    rfl

theorem amplify_acts {reg : List Q} (hd : ∀ x ∈ qs ++ [q], x ∉ reg) (o : St Q → ℂ) : ∀ k, ActsOutside reg (amplify A o qs q k)
  | 0, _, _, _ => rfl
  | k + 1, f, hf, ψ => by
    have hf' : ∀ x ∈ qs ++ [q], ∀ s v, f (upd s x v) = f s := fun x hx s v => hf _ _ fun y hy => by
      have : y ≠ x := fun e => hd x hx (e ▸ hy)
      rw [upd_ne this]
    have h1 : (reflection A (1 / 2) qs q fun s => o s * (f s * ψ s)) = fun s => f s * (reflection A (1 / 2) qs q fun s => o s * ψ s) s := by
      funext s
      have e : (fun s => o s * (f s * ψ s)) = fun s => f s * (o s * ψ s) := by funext s; ring
      rw [e, reflection_eq hw _ hn hA, reflection_eq hw _ hn hA, ip_mul_out hf']
      ring
    rw [amplify, h1, amplify_acts hd o k f hf]
    rfl

theorem amplify_eigen {reg : List Q} (hd : ∀ x ∈ qs ++ [q], x ∉ reg) (o : St Q → ℂ) {φ : St Q → ℂ} {θ : ℝ}
    (h : amplify A o qs q 1 φ = fun s => E θ * φ s) : ∀ k : ℕ, amplify A o qs q k φ = fun s => E (k * θ) * φ s
  | 0 => by funext s; simp [amplify, E_zero]
  | k + 1 => by
    have h1 : (reflection A (1 / 2) qs q fun s => o s * φ s) = fun s => E θ * φ s := h
    rw [amplify, h1, amplify_acts hw hn hA hd o k (fun _ => E θ) (fun _ _ _ => rfl), amplify_eigen hd o h k]
    funext s
    have : ((k + 1 : ℕ) : ℝ) * θ = θ + k * θ := by push_cast; ring
    rw [this, E_add]
    ring

end

/-! ### The prepared state -/

theorem app_indep {x : Q} (g : FGate Q) (hx : x ∉ g.qubits) {ψ : St Q → ℂ} (hψ : ∀ s v, ψ (upd s x v) = ψ s) (s : St Q) (v : Bool) :
    g.app ψ (upd s x v) = g.app ψ s := by
  cases g with
  | h t =>
    have ht : t ≠ x := fun e => hx (by simp [FGate.qubits, e])
    simp only [FGate.app, upd_ne ht, upd_comm ht.symm, hψ]
  | cx c t =>
    have hc : c ≠ x := fun e => hx (by simp [FGate.qubits, e])
    have ht : t ≠ x := fun e => hx (by simp [FGate.qubits, e])
    simp only [FGate.app, upd_ne ht, upd_ne hc, upd_comm ht.symm, hψ]
  | swap a b =>
    have ha : a ≠ x := fun e => hx (by simp [FGate.qubits, e])
    have hb : b ≠ x := fun e => hx (by simp [FGate.qubits, e])
    simp only [FGate.app, swapSt, upd_ne ha, upd_ne hb, upd_comm ha.symm, upd_comm hb.symm, hψ]
  | ph θ cs =>
    have : cs.all (upd s x v) = cs.all s := by
      rw [Bool.eq_iff_iff, List.all_eq_true, List.all_eq_true]
      refine forall₂_congr fun y hy => ?_
      have hne : y ≠ x := fun e => hx (e ▸ hy)
      rw [upd_ne hne]
    rw [app_ph, app_ph, this, hψ]

theorem run_indep {x : Q} : ∀ {A : List (FGate Q)}, (∀ g ∈ A, x ∉ g.qubits) → ∀ {ψ : St Q → ℂ}, (∀ s v, ψ (upd s x v) = ψ s) →
    ∀ s v, run A ψ (upd s x v) = run A ψ s
  | [], _, _, hψ => hψ
  | g :: A, hA, ψ, hψ => by
    rw [run_cons]
    exact run_indep (fun g' h => hA g' (List.mem_cons_of_mem _ h)) (app_indep g (hA g List.mem_cons_self) hψ)

theorem zeroOn_indep {x : Q} {reg : List Q} (h : x ∉ reg) (s : St Q) (v : Bool) : zeroOn reg (upd s x v) = zeroOn reg s := by
  unfold zeroOn
  rw [all_upd h]

/-- The sum of the squares at a place is at least the square there. -/
theorem ip_self_ge : ∀ (l : List Q) (f : St Q → ℂ) (s : St Q), ∃ r : ℝ, ip l f f s = r ∧ ‖f s‖ ^ 2 ≤ r
  | [], f, s => ⟨‖f s‖ ^ 2, by
      show (starRingEnd ℂ) (f s) * f s = _
      rw [Complex.conj_mul']
      push_cast
      rfl, le_refl _⟩
  | q :: l, f, s => by
    obtain ⟨a, ha, ha'⟩ := ip_self_ge l f (upd s q false)
    obtain ⟨b, hb, hb'⟩ := ip_self_ge l f (upd s q true)
    refine ⟨a + b, ?_, ?_⟩
    · show ip l f f (upd s q false) + ip l f f (upd s q true) = _
      rw [ha, hb]; push_cast; rfl
    · have h1 := sq_nonneg ‖f (upd s q false)‖
      have h2 := sq_nonneg ‖f (upd s q true)‖
      have hs : upd s q (s q) = s := upd_self s q
      cases h : s q <;> rw [h] at hs
      · rw [hs] at ha'; linarith
      · rw [hs] at hb'; linarith

section
variable {A : List (FGate Q)} (hw : ∀ g ∈ A, g.wf) {qs : List Q} {q : Q} (hn : (qs ++ [q]).Nodup)
  (hA : ∀ g ∈ A, ∀ x ∈ g.qubits, x ∈ qs ++ [q])
include hw hn hA

theorem prep_norm (s : St Q) : ip (qs ++ [q]) (run A (zeroOn (qs ++ [q]))) (run A (zeroOn (qs ++ [q]))) s = 1 := by
  rw [ip_run hn A hw hA]
  have h1 : ∀ s, ((qs ++ [q]).all fun c => !s c) = true → ip (qs ++ [q]) (zeroOn (qs ++ [q])) (zeroOn (qs ++ [q])) s = 1 :=
    fun s hz => by
      unfold ip
      simp only [zeroOn_conj]
      rw [sumOver_zero _ hn _ s hz, zeroOn, if_pos hz]
  have h2 : ∀ (l : List Q) (s : St Q), (∀ x ∈ l, x ∈ qs ++ [q]) → ∃ s', (∀ x ∈ l, s' x = false) ∧
      ip (qs ++ [q]) (zeroOn (qs ++ [q])) (zeroOn (qs ++ [q])) s' = ip (qs ++ [q]) (zeroOn (qs ++ [q])) (zeroOn (qs ++ [q])) s := by
    intro l
    induction l with
    | nil => intro s _; exact ⟨s, by simp, rfl⟩
    | cons x l ih =>
      intro s h
      obtain ⟨s', h1, h3⟩ := ih s fun y hy => h y (List.mem_cons_of_mem _ hy)
      refine ⟨upd s' x false, fun y hy => ?_, ?_⟩
      · by_cases e : y = x
        · subst e; exact upd_same _ _ _
        · rw [upd_ne e]; exact h1 y ((List.mem_cons.1 hy).resolve_left e)
      · rw [ip_upd hn (h x List.mem_cons_self), h3]
  obtain ⟨s', h3, h4⟩ := h2 (qs ++ [q]) s (fun _ h => h)
  rw [← h4, h1 s' (List.all_eq_true.2 fun x hx => by rw [h3 x hx]; rfl)]

variable {g : St Q → Bool} {x : ℝ}
  (hg : ∀ s, ip (qs ++ [q]) (scaled g 1 0 (run A (zeroOn (qs ++ [q])))) (scaled g 1 0 (run A (zeroOn (qs ++ [q])))) s = (x : ℂ))
include hg

theorem prep_split (a b : ℂ) (s : St Q) : ip (qs ++ [q]) (run A (zeroOn (qs ++ [q]))) (scaled g a b (run A (zeroOn (qs ++ [q])))) s =
    a * x + b * (1 - x) := by
  have e1 : ip (qs ++ [q]) (run A (zeroOn (qs ++ [q]))) (scaled g a b (run A (zeroOn (qs ++ [q])))) s =
      (a - b) * ip (qs ++ [q]) (scaled g 1 0 (run A (zeroOn (qs ++ [q])))) (scaled g 1 0 (run A (zeroOn (qs ++ [q])))) s +
      b * ip (qs ++ [q]) (run A (zeroOn (qs ++ [q]))) (run A (zeroOn (qs ++ [q]))) s := by
    unfold ip
    rw [← sumOver_smul, ← sumOver_smul, ← sumOver_add]
    refine congrFun (sumOver_congr fun s => ?_) s
    unfold scaled
    cases g s <;> simp <;> ring
  rw [e1, hg, prep_norm hw hn hA]
  ring

theorem prep_scaled_norm (a b : ℂ) (s : St Q) :
    ip (qs ++ [q]) (scaled g a b (run A (zeroOn (qs ++ [q])))) (scaled g a b (run A (zeroOn (qs ++ [q])))) s =
      ((‖a‖ ^ 2 * x + ‖b‖ ^ 2 * (1 - x) : ℝ) : ℂ) := by
  have e1 : ip (qs ++ [q]) (scaled g a b (run A (zeroOn (qs ++ [q])))) (scaled g a b (run A (zeroOn (qs ++ [q])))) s =
      ip (qs ++ [q]) (run A (zeroOn (qs ++ [q]))) (scaled g ((starRingEnd ℂ) a * a) ((starRingEnd ℂ) b * b) (run A (zeroOn (qs ++ [q])))) s := by
    unfold ip
    refine congrFun (sumOver_congr fun s => ?_) s
    unfold scaled
    cases g s <;> simp <;> ring
  rw [e1, prep_split hw hn hA hg, Complex.conj_mul', Complex.conj_mul']
  push_cast
  rfl

theorem prep_range : 0 ≤ x ∧ x ≤ 1 := by
  have h1 := hg fun _ => false
  obtain ⟨r, h2, h3⟩ := ip_self_ge (qs ++ [q]) (scaled g 1 0 (run A (zeroOn (qs ++ [q])))) fun _ => false
  rw [h1] at h2
  have e : x = r := by exact_mod_cast h2
  have h4 := prep_scaled_norm hw hn hA hg 0 1 fun _ => false
  obtain ⟨r', h5, h6⟩ := ip_self_ge (qs ++ [q]) (scaled g 0 1 (run A (zeroOn (qs ++ [q])))) fun _ => false
  rw [h4] at h5
  have e' : ‖(0 : ℂ)‖ ^ 2 * x + ‖(1 : ℂ)‖ ^ 2 * (1 - x) = r' := by exact_mod_cast h5
  rw [norm_zero, norm_one] at e'
  exact ⟨by rw [e]; exact le_trans (sq_nonneg _) h3, by have := le_trans (sq_nonneg _) h6; linarith⟩

theorem amplify_one (a b : ℂ) : amplify A (fun s => if g s then -1 else 1) qs q 1 (scaled g a b (run A (zeroOn (qs ++ [q])))) =
    scaled g (2 * (-a * x + b * (1 - x)) + a) (2 * (-a * x + b * (1 - x)) - b) (run A (zeroOn (qs ++ [q]))) := by
  funext s
  have e2 : (fun s => (if g s then (-1 : ℂ) else 1) * scaled g a b (run A (zeroOn (qs ++ [q]))) s) =
      scaled g (-a) b (run A (zeroOn (qs ++ [q]))) := by
    funext s
    unfold scaled
    cases g s <;> simp
  show reflection A (1 / 2) qs q (fun s => (if g s then (-1 : ℂ) else 1) * scaled g a b (run A (zeroOn (qs ++ [q]))) s) s = _
  rw [e2, reflection_eq hw _ hn hA, prep_split hw hn hA hg, E_half]
  unfold scaled
  cases g s <;> simp <;> ring

end

theorem norm_E (θ : ℝ) : ‖E θ‖ = 1 := by
  have h := conj_E_mul θ
  rw [Complex.conj_mul'] at h
  have h1 : ‖E θ‖ ^ 2 = 1 := by exact_mod_cast h
  nlinarith [norm_nonneg (E θ)]

theorem E_turn (t : ℝ) : E (t / (2 * Real.pi)) = Real.cos t + Real.sin t * Complex.I := by
  have hpi := Real.pi_ne_zero
  unfold E
  have : (2 * (Real.pi : ℂ) * ((t / (2 * Real.pi) : ℝ) : ℂ) * Complex.I) = (t : ℂ) * Complex.I := by
    have : (Real.pi : ℂ) ≠ 0 := by exact_mod_cast hpi
    push_cast
    field_simp
  rw [this, Complex.exp_mul_I, Complex.ofReal_cos, Complex.ofReal_sin]

theorem E_turn2 (t : ℝ) : E (t / Real.pi) = (Real.cos t + Real.sin t * Complex.I) ^ 2 := by
  have hpi := Real.pi_ne_zero
  have : t / Real.pi = t / (2 * Real.pi) + t / (2 * Real.pi) := by field_simp; ring
  rw [this, E_add, E_turn, pow_two]

/-- One of the two eigenvectors. -/
noncomputable def eig (A : List (FGate Q)) (reg : List Q) (g : St Q → Bool) (t : ℝ) : St Q → ℂ :=
  scaled g ((Real.cos t + Real.sin t * Complex.I) / (2 * Complex.I * Real.sin t)) ((Real.cos t + Real.sin t * Complex.I) / (2 * Real.cos t))
    (run A (zeroOn reg))

section
variable {A : List (FGate Q)} (hw : ∀ g ∈ A, g.wf) {qs : List Q} {q : Q} (hn : (qs ++ [q]).Nodup)
  (hA : ∀ g ∈ A, ∀ x ∈ g.qubits, x ∈ qs ++ [q]) {g : St Q → Bool}
include hw hn hA

theorem eig_one {t : ℝ} (hs0 : Real.sin t ≠ 0) (hc0 : Real.cos t ≠ 0) (hg : ∀ s, ip (qs ++ [q]) (scaled g 1 0 (run A (zeroOn (qs ++ [q]))))
      (scaled g 1 0 (run A (zeroOn (qs ++ [q])))) s = ((Real.sin t ^ 2 : ℝ) : ℂ)) :
    amplify A (fun s => if g s then -1 else 1) qs q 1 (eig A (qs ++ [q]) g t) = fun s => E (t / Real.pi) * eig A (qs ++ [q]) g t s := by
  unfold eig
  rw [amplify_one hw hn hA hg, E_turn2]
  funext s
  have hS : ((Real.sin t : ℝ) : ℂ) ≠ 0 := by exact_mod_cast hs0
  have hC : ((Real.cos t : ℝ) : ℂ) ≠ 0 := by exact_mod_cast hc0
  have h1 : ((Real.sin t : ℝ) : ℂ) ^ 2 + ((Real.cos t : ℝ) : ℂ) ^ 2 = 1 := by exact_mod_cast Real.sin_sq_add_cos_sq t
  have hI := Complex.I_sq
  unfold scaled
  rw [← mul_assoc]
  congr 1
  push_cast at *
  generalize Complex.sin t = S at *
  generalize Complex.cos t = C at *
  have hI0 := Complex.I_ne_zero
  have hx : (1 : ℂ) - S ^ 2 = C ^ 2 := by linear_combination -h1
  rw [hx]
  cases g s
  · simp only [Bool.false_eq_true, if_false]
    field_simp
    linear_combination (C + S * Complex.I) * (-2 * C * S - S ^ 2 * Complex.I) * hI + (C + S * Complex.I) * Complex.I * h1
  · simp only [if_true]
    field_simp
    linear_combination (C + S * Complex.I) * (-S ^ 2) * hI - (C + S * Complex.I) * h1

omit hw hn hA in
theorem eig_sum {t : ℝ} (hs0 : Real.sin t ≠ 0) (hc0 : Real.cos t ≠ 0) (reg : List Q) (a b : ℂ) (s : St Q) :
    a * eig A reg g t s + b * eig A reg g (-t) s =
      scaled g ((a * (Real.cos t + Real.sin t * Complex.I) - b * (Real.cos t - Real.sin t * Complex.I)) / (2 * Complex.I * Real.sin t))
        ((a * (Real.cos t + Real.sin t * Complex.I) + b * (Real.cos t - Real.sin t * Complex.I)) / (2 * Real.cos t)) (run A (zeroOn reg)) s := by
  have hS : ((Real.sin t : ℝ) : ℂ) ≠ 0 := by exact_mod_cast hs0
  have hC : ((Real.cos t : ℝ) : ℂ) ≠ 0 := by exact_mod_cast hc0
  have hI0 := Complex.I_ne_zero
  unfold eig scaled
  rw [Real.cos_neg, Real.sin_neg]
  push_cast at *
  generalize Complex.sin t = S at *
  generalize Complex.cos t = C at *
  cases g s
  · simp only [Bool.false_eq_true, if_false]
    field_simp
    ring
  · simp only [if_true]
    field_simp
    ring

omit hw hn hA in
theorem eig_start {t : ℝ} (hs0 : Real.sin t ≠ 0) (hc0 : Real.cos t ≠ 0) (reg : List Q) (s : St Q) :
    run A (zeroOn reg) s = eig A reg g t s + eig A reg g (-t) s := by
  have h := eig_sum (A := A) (g := g) hs0 hc0 reg 1 1 s
  rw [one_mul, one_mul] at h
  rw [h]
  have hS : ((Real.sin t : ℝ) : ℂ) ≠ 0 := by exact_mod_cast hs0
  have hC : ((Real.cos t : ℝ) : ℂ) ≠ 0 := by exact_mod_cast hc0
  have hI0 := Complex.I_ne_zero
  have h1 : (1 * ((Real.cos t : ℂ) + Real.sin t * Complex.I) - 1 * (Real.cos t - Real.sin t * Complex.I)) / (2 * Complex.I * Real.sin t) = 1 := by
    rw [div_eq_one_iff_eq (by exact mul_ne_zero (mul_ne_zero two_ne_zero hI0) hS)]
    ring
  have h2 : (1 * ((Real.cos t : ℂ) + Real.sin t * Complex.I) + 1 * (Real.cos t - Real.sin t * Complex.I)) / (2 * Real.cos t) = 1 := by
    rw [div_eq_one_iff_eq (by exact mul_ne_zero two_ne_zero hC)]
    ring
  rw [h1, h2]
  unfold scaled
  cases g s <;> simp

theorem prep_zero {a b : ℂ} {x : ℝ} (hg : ∀ s, ip (qs ++ [q]) (scaled g 1 0 (run A (zeroOn (qs ++ [q]))))
      (scaled g 1 0 (run A (zeroOn (qs ++ [q])))) s = (x : ℂ)) (h : ‖a‖ ^ 2 * x + ‖b‖ ^ 2 * (1 - x) = 0) (s : St Q) :
    scaled g a b (run A (zeroOn (qs ++ [q]))) s = 0 := by
  obtain ⟨r, h2, h3⟩ := ip_self_ge (qs ++ [q]) (scaled g a b (run A (zeroOn (qs ++ [q])))) s
  rw [prep_scaled_norm hw hn hA hg, h] at h2
  have e : (0 : ℝ) = r := by exact_mod_cast h2
  rw [← e] at h3
  have := sq_nonneg ‖scaled g a b (run A (zeroOn (qs ++ [q]))) s‖
  have h4 : ‖scaled g a b (run A (zeroOn (qs ++ [q]))) s‖ ^ 2 = 0 := le_antisymm h3 this
  exact norm_eq_zero.mp (pow_eq_zero_iff two_ne_zero |>.mp h4)

/-- If the good part has the probability 0 or 1, the prepared state is an eigenvector. -/
theorem eig_special {t : ℝ} (h0 : Real.sin t = 0 ∨ Real.cos t = 0) (hg : ∀ s, ip (qs ++ [q]) (scaled g 1 0 (run A (zeroOn (qs ++ [q]))))
      (scaled g 1 0 (run A (zeroOn (qs ++ [q])))) s = ((Real.sin t ^ 2 : ℝ) : ℂ)) :
    amplify A (fun s => if g s then -1 else 1) qs q 1 (run A (zeroOn (qs ++ [q]))) = fun s => E (t / Real.pi) * run A (zeroOn (qs ++ [q])) s := by
  have h1 := Real.sin_sq_add_cos_sq t
  have e : run A (zeroOn (qs ++ [q])) = scaled g 1 1 (run A (zeroOn (qs ++ [q]))) := by
    funext s
    unfold scaled
    cases g s <;> simp
  have h2 := amplify_one hw hn hA hg 1 1
  rw [← e] at h2
  rw [h2, E_turn2]
  funext s
  rcases h0 with h0 | h0
  · have hc : Real.cos t ^ 2 = 1 := by rw [h0] at h1; linarith
    have hcC : ((Real.cos t : ℝ) : ℂ) ^ 2 = 1 := by exact_mod_cast hc
    have hz := prep_zero hw hn hA (a := 1) (b := 0) hg (by rw [h0]; simp) s
    rw [h0]
    simp only [Complex.ofReal_zero, zero_mul, add_zero, hcC]
    unfold scaled at hz ⊢
    cases h : g s
    · simp; ring
    · rw [h] at hz
      simp only [if_true, one_mul] at hz
      rw [hz]; simp
  · have hs : Real.sin t ^ 2 = 1 := by rw [h0] at h1; linarith
    have hsC : ((Real.sin t : ℝ) : ℂ) ^ 2 = 1 := by exact_mod_cast hs
    have hz := prep_zero hw hn hA (a := 0) (b := 1) hg (by rw [hs]; simp) s
    rw [h0, hs]
    simp only [Complex.ofReal_zero, zero_add, mul_pow, hsC, Complex.I_sq]
    unfold scaled at hz ⊢
    cases h : g s
    · rw [h] at hz
      simp only [Bool.false_eq_true, if_false, one_mul] at hz
      rw [hz]; simp
    · simp
      ring

end

/-! ### Sums over the register -/

theorem sumOver_append : ∀ (l l' : List Q) (f : St Q → ℂ) (s : St Q), sumOver (l ++ l') f s = sumOver l (sumOver l' f) s
  | [], _, _, _ => rfl
  | q :: l, l', f, s => by rw [List.cons_append, sumOver, sumOver, sumOver_append l, sumOver_append l]

theorem sumOver_congr_out : ∀ {l : List Q} {f h : St Q → ℂ} {s : St Q}, (∀ s', (∀ x, x ∉ l → s' x = s x) → f s' = h s') →
    sumOver l f s = sumOver l h s
  | [], _, _, s, H => H s fun _ _ => rfl
  | q :: l, f, h, s, H => by
    rw [sumOver, sumOver]
    have key : ∀ v, sumOver l f (upd s q v) = sumOver l h (upd s q v) := fun v => sumOver_congr_out fun s' hs' => H s' fun x hx => by
      rw [List.mem_cons, not_or] at hx
      rw [hs' x hx.2, upd_ne hx.1]
    rw [key, key]

theorem sum_two (F : ℕ → ℂ) : ∀ m, ∑ Y ∈ Finset.range (2 * m), F Y = ∑ Y ∈ Finset.range m, (F (2 * Y) + F (1 + 2 * Y))
  | 0 => rfl
  | m + 1 => by
    rw [show 2 * (m + 1) = 2 * m + 1 + 1 by ring, Finset.sum_range_succ, Finset.sum_range_succ, sum_two F m, Finset.sum_range_succ,
      add_comm 1 (2 * m)]
    ring

theorem sumOver_val : ∀ {reg : List Q}, reg.Nodup → ∀ (F : ℕ → ℂ) (s : St Q),
    sumOver reg (fun s => F (valL reg s)) s = ∑ Y ∈ Finset.range (2 ^ reg.length), F Y
  | [], _, F, s => by simp [sumOver, valL]
  | q :: reg, h, F, s => by
    rw [List.nodup_cons] at h
    have key : ∀ v : Bool, sumOver reg (fun s => F (valL (q :: reg) s)) (upd s q v) =
        ∑ Y ∈ Finset.range (2 ^ reg.length), F (v.toNat + 2 * Y) := fun v => by
      rw [← sumOver_val h.2 (fun Y => F (v.toNat + 2 * Y)) (upd s q v)]
      refine sumOver_congr_out fun s' hs' => ?_
      rw [valL, hs' q h.1, upd_same]
    rw [sumOver, key, key, List.length_cons, pow_succ, mul_comm (2 ^ reg.length) 2, sum_two, ← Finset.sum_add_distrib]
    refine Finset.sum_congr rfl fun Y _ => ?_
    simp

end Verif.Fourier
