import Verif.Circ.Prx

/-!
C153: converting a circuit to PRX gates (convert_to_prx.py).  The operator of the circuit changes by a sign at most; the sign
is lost if a gate that is dropped is the negative of the identity.
-/

namespace Verif.Props

open Verif.Circ

variable {Q : Type} [DecidableEq Q]

/-! ### Specification -/

/-- The circuit has no classically controlled gates. -/
def Plain (c : List PI) : Prop := ∀ x ∈ c, ∃ o is, x = PI.op o is

open Classical in
/-- The gates whose sign the pass loses: rotations by 2π (mod 4π) with opposite phases, and otherwise gates with θ = π
(mod 4π); X and Y among them. -/
def SignLost : PI → Prop
  | .op (.u3 _ θ φ lam _) _ => if lam + φ = 0 then ∃ k : ℤ, θ = 2 * Real.pi + 4 * Real.pi * k
      else ∃ k : ℤ, θ = Real.pi + 4 * Real.pi * k
  | .op (.pauli .x) _ => True
  | .op (.pauli .y) _ => True
  | _ => False

open Classical in
/-- The number of these gates. -/
noncomputable def lostCount (c : List PI) : Nat := c.countP fun x => decide (SignLost x)

/-- A gate that the result may contain: a PRX gate, possibly under classical control, the global phase, or an operation that
is not a single qubit gate. -/
def Allowed : PI → Prop
  | .op o _ => (∃ α β, o = prxG α β) ∨ (∃ g, o = gphaseG g) ∨ ¬ ((∃ nm θ φ lam g, o = .u3 nm θ φ lam g) ∨ ∃ p, o = .pauli p)
  | .cl o _ _ _ => (∃ α β, o = prxG α β) ∨ ¬ ((∃ nm θ φ lam g, o = .u3 nm θ φ lam g) ∨ ∃ p, o = .pauli p)

/-! ### Lemmas -/

theorem prxSgn_spec {o : Op} {is : List Nat} {a : ℝ × ℝ × ℝ} {M : M2} (h : u3Of o = some (a, M)) [Decidable (SignLost (.op o is))] :
    prxSgn a = if SignLost (.op o is) then -1 else 1 := by
  have hp := Real.pi_pos
  unfold prxSgn
  congr 1
  apply propext
  unfold u3Of at h
  split at h
  · rename_i nm θ φ lam g _
    cases h
    simp only [prxAlpha, SignLost]
    by_cases hz : lam + φ = 0
    · simp only [if_pos hz]
    · simp only [if_neg hz]
      constructor <;> rintro ⟨k, e⟩ <;> exact ⟨k, by linarith⟩
  · cases h
    simp only [prxAlpha, SignLost, add_zero, if_neg hp.ne', iff_true]
    exact ⟨0, by push_cast; ring⟩
  · cases h
    simp only [prxAlpha, SignLost, add_halves, if_neg hp.ne', iff_true]
    exact ⟨0, by push_cast; ring⟩
  · cases h
    simp only [prxAlpha, SignLost, add_zero, if_neg hp.ne', iff_false]
    rintro ⟨k, e⟩
    have : (0 : ℝ) + 1 = 2 + 4 * k := mul_left_cancel₀ hp.ne' (by linarith)
    have : (0 : ℤ) + 1 = 2 + 4 * k := by exact_mod_cast this
    omega
  · exact absurd h (by simp)

theorem not_lost {o : Op} {is : List Nat} (h : u3Of o = none) : ¬ SignLost (.op o is) := by
  unfold u3Of at h
  split at h
  · exact absurd h (by simp)
  · exact absurd h (by simp)
  · exact absurd h (by simp)
  · exact absurd h (by simp)
  · rename_i h1 h2 h3 h4
    cases o with
    | u3 nm θ φ lam g => exact absurd rfl (h1 nm θ φ lam g)
    | pauli p =>
      cases p
      · exact absurd rfl h2
      · exact absurd rfl h3
      · exact absurd rfl h4
    | _ => exact id

theorem prxLost_count {c : List PI} (h : Plain c) : prxLost c = (-1) ^ lostCount c := by
  classical
  induction c with
  | nil => rfl
  | cons x r ih =>
    have ih := ih (fun y hy => h y (by simp [hy]))
    obtain ⟨o, is, rfl⟩ := h x (by simp)
    unfold lostCount at ih ⊢
    simp only [prxLost, ih, List.countP_cons, decide_eq_true_eq]
    cases hu : u3Of o with
    | none => simp [not_lost hu]
    | some a =>
      obtain ⟨a, M⟩ := a
      simp only [prxSgn_spec (is := is) hu]
      split <;> simp [pow_succ]

theorem prxLoop_total {c : List PI} (h : Plain c) : ∃ a, prxLoop c = some a := by
  induction c with
  | nil => exact ⟨_, rfl⟩
  | cons x r ih =>
    obtain ⟨b, hb⟩ := ih (fun y hy => h y (by simp [hy]))
    obtain ⟨o, is, rfl⟩ := h x (by simp)
    simp only [prxLoop, prxStep, hb]
    cases u3Of o <;> simp

theorem conv_sound (v : Nat → Bool) {n : Nat} {qs : List Q} (hq : qs.length = n) (hn : 0 < n) (c : List PI) (hc : ∀ x ∈ c, x.WF n)
    {out : List PI} (h : convPrx n c = some out) :
    ∃ w : ℂ, ‖w‖ = 1 ∧ ((∀ o st is cs, PI.cl o st is cs ∉ c) → w = prxLost c) ∧
      ∀ ψ : Amp Q, denI v qs out ψ = w • denI v qs c ψ := by
  simp only [convPrx, Option.map_eq_some_iff] at h
  obtain ⟨a, ha, rfl⟩ := h
  obtain ⟨w, hw, hl, hd⟩ := prxLoop_sound v hq c hc a ha
  refine ⟨w, hw, hl, fun ψ => ?_⟩
  rw [← hd, denI_append]
  by_cases hm : mod2pi a.2 = 0
  · have : ph a.2 = 1 := by rw [← ph_mod2pi, hm, ph_zero]
    simp [hm, this, denI]
  · have hp : (pick qs [0]).length = 1 := pick_single hq rfl (by simpa using hn)
    have e : u3m 0 0 0 (mod2pi a.2) = ph a.2 • (1 : M2) := by
      rw [u3m_mk, ph_mod2pi, mk_one]
      congr 1
      refine mk_congr ?_ ?_ ?_ ?_ <;> simp [ph_zero]
    simp only [ne_eq, hm, not_false_eq_true, hn, and_self, if_true, denI, gphaseG, den, e]
    rw [on1_smul _ _ hp, on1_one]

/-! ### C153 -/

/-- For every circuit the result acts like the circuit, up to the sign -1 for each gate of `SignLost`. -/
theorem prx_sign (v : Nat → Bool) {n : Nat} {qs : List Q} (hq : qs.length = n) (hn : 0 < n) (c : List PI) (hc : ∀ x ∈ c, x.WF n)
    (hp : Plain c) : ∃ out, convPrx n c = some out ∧
      ∀ ψ : Amp Q, denI v qs out ψ = (-1 : ℂ) ^ lostCount c • denI v qs c ψ := by
  obtain ⟨a, ha⟩ := prxLoop_total hp
  have h : ∃ out, convPrx n c = some out := by
    unfold convPrx; rw [ha]; exact ⟨_, rfl⟩
  obtain ⟨out, h⟩ := h
  obtain ⟨w, -, hl, hd⟩ := conv_sound v hq hn c hc h
  refine ⟨out, h, fun ψ => ?_⟩
  rw [hd, hl, prxLost_count hp]
  intro o st is cs hm
  obtain ⟨o', is', e⟩ := hp _ hm
  exact absurd e (by simp)

/-- The unitary is kept exactly ("The unitary must match exactly", test_convert_to_prx.py:60) if the circuit has no gate of
`SignLost`.  Missing: circuits with an odd number of them, see `prx_x_wrong`. -/
theorem prx_exact_partial (v : Nat → Bool) {n : Nat} {qs : List Q} (hq : qs.length = n) (hn : 0 < n) (c : List PI)
    (hc : ∀ x ∈ c, x.WF n) (hp : Plain c) (hs : ∀ x ∈ c, ¬ SignLost x) :
    ∃ out, convPrx n c = some out ∧ ∀ ψ : Amp Q, denI v qs out ψ = denI v qs c ψ := by
  classical
  obtain ⟨out, h, hd⟩ := prx_sign v hq hn c hc hp
  refine ⟨out, h, fun ψ => ?_⟩
  have : lostCount c = 0 := List.countP_eq_zero.mpr fun x hx => by simpa using hs x hx
  rw [hd, this, pow_zero, one_smul]

/-- With classical control: for every value of the bits the result acts like the circuit up to a phase that does not depend
on the state, if the pass does not fail. -/
theorem prx_controlled_partial (v : Nat → Bool) {n : Nat} {qs : List Q} (hq : qs.length = n) (hn : 0 < n) (c : List PI)
    (hc : ∀ x ∈ c, x.WF n) {out : List PI} (h : convPrx n c = some out) :
    ∃ w : ℂ, ‖w‖ = 1 ∧ ∀ ψ : Amp Q, denI v qs out ψ = w • denI v qs c ψ := by
  obtain ⟨w, hw, -, hd⟩ := conv_sound v hq hn c hc h
  exact ⟨w, hw, hd⟩

theorem u3Of_some {o : Op} (h : u3Of o = none) : ¬ ((∃ nm θ φ lam g, o = .u3 nm θ φ lam g) ∨ ∃ p, o = .pauli p) := by
  rintro (⟨nm, θ, φ, lam, g, rfl⟩ | ⟨p, rfl⟩)
  · simp [u3Of] at h
  · cases p <;> simp [u3Of] at h

theorem prxLoop_allowed {c : List PI} : ∀ a, prxLoop c = some a → ∀ x ∈ a.1, Allowed x := by
  classical
  induction c with
  | nil => intro a h; simp only [prxLoop, Option.some.injEq] at h; subst h; simp
  | cons x r ih =>
    intro a h
    simp only [prxLoop, Option.bind_eq_some_iff, Option.map_eq_some_iff] at h
    obtain ⟨a, ha, b, hb, rfl⟩ := h
    intro y hy
    rcases List.mem_append.mp hy with hy | hy
    · cases x with
      | op o is =>
        simp only [prxStep] at ha
        split at ha
        · rename_i hu
          cases ha
          simp only [List.mem_singleton] at hy
          subst hy
          exact Or.inr (Or.inr (u3Of_some hu))
        · cases ha
          obtain ⟨p, -, rfl⟩ := List.mem_map.mp hy
          exact Or.inl ⟨_, _, rfl⟩
      | cl o st is cs =>
        simp only [prxStep] at ha
        split at ha
        · rename_i hu
          cases ha
          simp only [List.mem_singleton] at hy
          subst hy
          exact Or.inr (u3Of_some hu)
        · rename_i a' M hu
          by_cases hne : ((prxKept (prxParts a')).map fun p => PI.cl (prxG p.1 p.2) st is
              (if a'.2.2 + a'.2.1 = 0 then [] else cs)) ≠ [] ∧ (if a'.2.2 + a'.2.1 = 0 then [] else cs).length ≠ st.length
          · rw [if_pos hne] at ha; exact absurd ha (by simp)
          · rw [if_neg hne] at ha
            cases ha
            obtain ⟨p, -, rfl⟩ := List.mem_map.mp hy
            exact Or.inl ⟨_, _, rfl⟩
    · exact ih b hb y hy

/-- No other single qubit gates than PRX gates are left, besides the global phase. -/
theorem prx_only (n : Nat) (c : List PI) {out : List PI} (h : convPrx n c = some out) : ∀ x ∈ out, Allowed x := by
  simp only [convPrx, Option.map_eq_some_iff] at h
  obtain ⟨a, ha, rfl⟩ := h
  intro x hx
  rcases List.mem_append.mp hx with hx | hx
  · exact prxLoop_allowed a ha x hx
  · split at hx
    · simp only [List.mem_singleton] at hx
      subst hx
      exact Or.inr (Or.inl ⟨_, rfl⟩)
    · simp at hx

/-- A PRX gate is the rotation around x between two opposite rotations around z (convert_to_prx.py:21, 34). -/
theorem prx_gate_def (α β : ℝ) (qs : List Q) (h : qs.length = 1) (ψ : Amp Q) :
    den (prxG α β) qs ψ = den (rzG β) qs (den (rxG α) qs (den (rzG (-β)) qs ψ)) := by
  have e : u3m α (β - Real.pi / 2) (Real.pi / 2 - β) 0 =
      u3m 0 β 0 (-β / 2) * (u3m α (-(Real.pi / 2)) (Real.pi / 2) 0 * u3m 0 (-β) 0 (- -β / 2)) := by
    rw [u3m_rz, u3m_rz, u3m_mk, u3m_mk]
    unfold rzm
    rw [mk_smul, mk_smul, mk_mul, mk_mul]
    have e1 : ph (-β / 2) * ph (- -β / 2) = 1 := by rw [← ph_add, show -β / 2 + - -β / 2 = 0 by ring, ph_zero]
    have e2 : ph (-β / 2) * ph (-β / 2) = ph (-β) := by rw [← ph_add]; congr 1; ring
    have e3 : ph (β / 2) * ph (- -β / 2) = ph β := by rw [← ph_add]; congr 1; ring
    have e4 : ph (β / 2) * ph (-β / 2) = 1 := by rw [← ph_add, show β / 2 + -β / 2 = 0 by ring, ph_zero]
    have e5 : ph (Real.pi / 2 - β) = ph (Real.pi / 2) * ph (-β) := by rw [← ph_add]; congr 1
    have e6 : ph (β - Real.pi / 2) = ph (-(Real.pi / 2)) * ph β := by rw [← ph_add]; congr 1; ring
    rw [show β - Real.pi / 2 + (Real.pi / 2 - β) = 0 by ring, show -(Real.pi / 2) + Real.pi / 2 = 0 by ring, e5, e6]
    simp only [ph_zero, one_mul, mul_zero, zero_mul, add_zero, zero_add]
    refine mk_congr ?_ ?_ ?_ ?_
    · linear_combination (-Complex.cos (α / 2)) * e1
    · linear_combination (ph (Real.pi / 2) * Complex.sin (α / 2)) * e2
    · linear_combination (-(ph (-(Real.pi / 2)) * Complex.sin (α / 2))) * e3
    · linear_combination (-Complex.cos (α / 2)) * e4
  simp only [prxG, rzG, rxG, den]
  rw [on1_mul _ _ (by omega), on1_mul _ _ (by omega), mul_assoc, ← e]

/-- convert_to_prx.py:46-58 `PRXGate.inverse`: `PRXGate(-alpha, beta)` undoes `PRXGate(alpha, beta)`. -/
theorem prx_gate_inverse (α β : ℝ) (qs : List Q) (h : qs.length = 1) (ψ : Amp Q) :
    den (prxG (-α) β) qs (den (prxG α β) qs ψ) = ψ := by
  simp only [prxG, den]
  rw [on1_mul _ _ (by omega)]
  have : u3m (-α) (β - Real.pi / 2) (Real.pi / 2 - β) 0 * u3m α (β - Real.pi / 2) (Real.pi / 2 - β) 0 = 1 := by
    rw [u3m_mk, u3m_mk, mk_smul, mk_smul, mk_mul, mk_one]
    have e1 : ph (Real.pi / 2 - β) * ph (β - Real.pi / 2) = 1 := by
      rw [← ph_add, show Real.pi / 2 - β + (β - Real.pi / 2) = 0 by ring, ph_zero]
    have hcs := Complex.sin_sq_add_cos_sq ((α : ℂ) / 2)
    have hc : Complex.cos (((-α : ℝ) : ℂ) / 2) = Complex.cos (α / 2) := by
      rw [← Complex.cos_neg]; congr 1; push_cast; ring
    have hs : Complex.sin (((-α : ℝ) : ℂ) / 2) = -Complex.sin (α / 2) := by
      rw [← Complex.sin_neg]; congr 1; push_cast; ring
    rw [show β - Real.pi / 2 + (Real.pi / 2 - β) = 0 by ring, hc, hs]
    simp only [ph_zero, one_mul]
    refine mk_congr ?_ ?_ ?_ ?_
    · linear_combination hcs + Complex.sin (α / 2) ^ 2 * e1
    · ring
    · ring
    · linear_combination hcs + Complex.sin (α / 2) ^ 2 * e1
  rw [this, on1_one]

/-- The circuit with a single X gate becomes -X. -/
theorem prx_x_wrong (v : Nat → Bool) : ∃ out, convPrx 1 [.op (.pauli .x) [0]] = some out ∧
    (∀ ψ : Amp Nat, denI v [7] out ψ = -denI v [7] [.op (.pauli .x) [0]] ψ) ∧
    ∃ ψ : Amp Nat, denI v [7] out ψ ≠ denI v [7] [.op (.pauli .x) [0]] ψ := by
  classical
  obtain ⟨out, h, hd⟩ := prx_sign (Q := Nat) v (qs := [7]) rfl (by decide) [.op (.pauli .x) [0]]
    (by intro x hx; simp only [List.mem_singleton] at hx; subst hx; exact ⟨rfl, by simp⟩)
    (by intro x hx; simp only [List.mem_singleton] at hx; exact ⟨_, _, hx⟩)
  have hl : lostCount [.op (.pauli .x) [0]] = 1 := by
    unfold lostCount
    rw [List.countP_cons_of_pos (by exact decide_eq_true trivial), List.countP_nil]
  have hd' : ∀ ψ : Amp Nat, denI v [7] out ψ = -denI v [7] [.op (.pauli .x) [0]] ψ := by
    intro ψ; rw [hd, hl, pow_one, neg_one_smul]
  refine ⟨out, h, hd', fun _ => 1, ?_⟩
  rw [hd']
  intro e
  have := congrFun e (fun _ => false)
  simp only [denI, den, pick, List.filterMap_cons, List.filterMap_nil, on1, Pi.neg_apply] at this
  simp only [List.getElem?_cons_zero, app1_x] at this
  norm_num at this

open Classical in
/-- A classically controlled rotation around x makes the pass fail. -/
theorem prx_controlled_error (n : Nat) (θ : ℝ) (h : mod2pi θ ≠ 0) :
    convPrx n [.cl (rxG θ) [true] [0] [0]] = none := by
  have hz : Real.pi / 2 + -(Real.pi / 2) = 0 := by ring
  simp [convPrx, prxLoop, prxStep, rxG, u3Of, prxParts, prxKept, h]

/-! ### A concrete case: H becomes two gates and a phase -/

example (v : Nat → Bool) (ψ : Amp Nat) : ∃ out, convPrx 2 [.op hG [0], .op (.ctrl (.pauli .x) [true]) [0, 1]] = some out ∧
    denI v [5, 9] out ψ = denI v [5, 9] [.op hG [0], .op (.ctrl (.pauli .x) [true]) [0, 1]] ψ := by
  obtain ⟨out, h, hd⟩ := prx_exact_partial (Q := Nat) v (qs := [5, 9]) rfl (by decide) [.op hG [0], .op (.ctrl (.pauli .x) [true]) [0, 1]]
    (by
      intro x hx
      simp only [List.mem_cons, List.not_mem_nil, or_false] at hx
      rcases hx with rfl | rfl
      · exact ⟨rfl, by simp⟩
      · exact ⟨rfl, by simp⟩)
    (by
      intro x hx
      simp only [List.mem_cons, List.not_mem_nil, or_false] at hx
      rcases hx with rfl | rfl <;> exact ⟨_, _, rfl⟩)
    (by
      intro x hx
      have hp := Real.pi_pos
      simp only [List.mem_cons, List.not_mem_nil, or_false] at hx
      rcases hx with rfl | rfl
      · simp only [hG, SignLost, add_zero, if_neg hp.ne']
        rintro ⟨k, e⟩
        have : (1 : ℝ) = 2 + 8 * k := mul_left_cancel₀ hp.ne' (by linarith)
        have : (1 : ℤ) = 2 + 8 * k := by exact_mod_cast this
        omega
      · exact id)
  exact ⟨out, h, hd ψ⟩

end Verif.Props
