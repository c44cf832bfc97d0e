import Verif.Circ.Inter
import Verif.Circ.Unitary
import Mathlib.Analysis.SpecialFunctions.Trigonometric.Inverse

/-!
`unbalanced_w_state` (alg_primitives/unbalanced_w_state.py:29-151).
The qubit `qv[i]` is the number `i`; all larger numbers are other qubits.
-/

namespace Verif.Circ

open Verif.Rev (upd upd_same upd_ne)

/-- A list of instructions applied one after the other (`QuantumCircuit.append`). -/
noncomputable def runOps {Q : Type} [DecidableEq Q] : List (Op × List Q) → Amp Q → Amp Q
  | [], ψ => ψ
  | (o, qs) :: r, ψ => runOps r (den o qs ψ)

theorem runOps_append {Q : Type} [DecidableEq Q] (l m : List (Op × List Q)) (ψ : Amp Q) :
    runOps (l ++ m) ψ = runOps m (runOps l ψ) := by
  induction l generalizing ψ with
  | nil => rfl
  | cons x r ih => obtain ⟨o, qs⟩ := x; exact ih _

/-- unbalanced_w_state.py:106-108: `a / norm`. -/
noncomputable def wNormed (n : Nat) (a : Nat → ℂ) (i : Nat) : ℂ := a i / (Real.sqrt (∑ j ∈ Finset.range n, ‖a j‖ ^ 2) : ℝ)

/-- unbalanced_w_state.py:124-125: the square root of the reversed cumulative sum of `|a_j|²`. -/
noncomputable def wRem (n : Nat) (a : Nat → ℂ) (i : Nat) : ℝ := Real.sqrt (∑ j ∈ Finset.Ico i n, ‖wNormed n a j‖ ^ 2)

/-- unbalanced_w_state.py:128-133: the ratio, `1` where the remainder does not exceed `1e-15`. -/
noncomputable def wRatio (n : Nat) (a : Nat → ℂ) (i : Nat) : ℝ :=
  if wRem n a i > 1 / 10 ^ 15 then ‖wNormed n a i‖ / wRem n a i else 1

/-- unbalanced_w_state.py:136: `2 * arccos(clip(ratio, -1, 1))`. -/
noncomputable def wTheta (n : Nat) (a : Nat → ℂ) (i : Nat) : ℝ := 2 * Real.arccos (max (-1) (min (wRatio n a i) 1))

/-- unbalanced_w_state.py:142-148: the loop over the chain. -/
noncomputable def wLoop (n : Nat) (a : Nat → ℂ) : Nat → List (Op × List Nat)
  | 0 => []
  | i + 1 => wLoop n a i ++ [(xxyyG (wTheta n a i) (Real.pi / 2), [i, i + 1]), (pG (Complex.arg (wNormed n a i)), [i])]

/-- unbalanced_w_state.py:29-151 outside of tracing mode.  `size` is `len(qv)`, `a` the list of amplitudes.
`none` is the `ValueError`.  The computations on floats are done exactly. -/
noncomputable def wState (size : Nat) (a : List ℂ) : Option (List (Op × List Nat)) :=
  if size ≠ a.length then none
  else if Real.sqrt (∑ j ∈ Finset.range a.length, ‖a.getD j 0‖ ^ 2) < 1 / 10 ^ 15 then none
  else if a.length = 1 then some [(.pauli .x, [0]), (pG (Complex.arg (wNormed 1 (a.getD · 0) 0)), [0])]
  else some ((.pauli .x, [0]) :: (wLoop a.length (a.getD · 0) (a.length - 1) ++
    [(pG (Complex.arg (wNormed a.length (a.getD · 0) (a.length - 1))), [a.length - 1])]))

/-! ### The space of states with one excitation -/

/-- Exactly the qubit `j` of the first `n` is set. -/
def One (n : Nat) (c : Nat → Bool) (j : Nat) : Prop := ∀ k < n, c k = decide (k = j)

instance (n : Nat) (c : Nat → Bool) (j : Nat) : Decidable (One n c j) := inferInstanceAs (Decidable (∀ k < n, _))

/-- The configuration with the first `n` qubits cleared. -/
def clr (n : Nat) (c : Nat → Bool) : Nat → Bool := fun k => if k < n then false else c k

/-- The state with weight `w j` on the excitation at `j`. -/
noncomputable def exc (n : Nat) (w : Nat → ℂ) (ψ : Amp Nat) : Amp Nat := fun c =>
  ∑ j ∈ Finset.range n, if One n c j then w j * ψ (clr n c) else 0

theorem one_unique {n : Nat} {c : Nat → Bool} {i j : Nat} (hi : i < n) (h : One n c i) (h' : One n c j) : i = j := by
  have := (h i hi).symm.trans (h' i hi)
  simpa using this

theorem exc_one {n : Nat} {c : Nat → Bool} {j : Nat} (hj : j < n) (h : One n c j) (w : Nat → ℂ) (ψ : Amp Nat) :
    exc n w ψ c = w j * ψ (clr n c) := by
  unfold exc
  rw [Finset.sum_eq_single j, if_pos h]
  · intro i _ hne
    exact if_neg fun h' => hne (one_unique hj h h').symm
  · intro hn
    exact absurd (Finset.mem_range.mpr hj) hn

theorem exc_none {n : Nat} {c : Nat → Bool} (h : ∀ j < n, ¬ One n c j) (w : Nat → ℂ) (ψ : Amp Nat) : exc n w ψ c = 0 := by
  unfold exc
  refine Finset.sum_eq_zero fun j hj => if_neg (h j (Finset.mem_range.mp hj))

theorem exc_congr {n : Nat} {w w' : Nat → ℂ} (h : ∀ j < n, w j = w' j) (ψ : Amp Nat) : exc n w ψ = exc n w' ψ := by
  funext c
  unfold exc
  refine Finset.sum_congr rfl fun j hj => ?_
  rw [h j (Finset.mem_range.mp hj)]

theorem clr_upd {n : Nat} {c : Nat → Bool} {k : Nat} (hk : k < n) (b : Bool) : clr n (upd c k b) = clr n c := by
  funext z
  unfold clr
  by_cases hz : z < n
  · rw [if_pos hz, if_pos hz]
  · rw [if_neg hz, if_neg hz, upd_ne (by omega)]

/-- Two adjacent bits exchanged. -/
theorem one_swap {n : Nat} {c : Nat → Bool} {i : Nat} (hi : i + 1 < n) (h1 : c i = true) (h2 : c (i + 1) = false) :
    One n c i ↔ One n (upd (upd c i false) (i + 1) true) (i + 1) := by
  constructor
  · intro h k hk
    by_cases e1 : k = i + 1
    · subst e1; rw [upd_same]; simp
    · rw [upd_ne e1]
      by_cases e2 : k = i
      · subst e2; rw [upd_same]; simp
      · rw [upd_ne e2, h k hk]; simp [e1, e2]
  · intro h k hk
    by_cases e1 : k = i + 1
    · subst e1; rw [h2]; simp
    · by_cases e2 : k = i
      · subst e2; rw [h1]; simp
      · have := h k hk
        rw [upd_ne e1, upd_ne e2] at this
        rw [this]; simp [e1, e2]

theorem one_swap' {n : Nat} {c : Nat → Bool} {i : Nat} (hi : i + 1 < n) (h1 : c i = false) (h2 : c (i + 1) = true) :
    One n c (i + 1) ↔ One n (upd (upd c i true) (i + 1) false) i := by
  have h := one_swap (n := n) (c := upd (upd c i true) (i + 1) false) hi (by rw [upd_ne (by omega), upd_same]) (upd_same _ _ _)
  rw [h]
  have e : upd (upd (upd (upd c i true) (i + 1) false) i false) (i + 1) true = c := by
    funext k
    by_cases e1 : k = i + 1
    · subst e1; rw [upd_same, h2]
    · rw [upd_ne e1]
      by_cases e2 : k = i
      · subst e2; rw [upd_same, h1]
      · rw [upd_ne e2, upd_ne e1, upd_ne e2]
  rw [e]

/-- The action of `xxyy` on amplitudes. -/
theorem xxyy_apply {Q : Type} [DecidableEq Q] {a b : Q} (hab : a ≠ b) (φ β : ℝ) (ψ : Amp Q) (c : Q → Bool) :
    den (xxyyG φ β) [a, b] ψ c = if c a = c b then ψ c else
      Complex.cos (φ / 2) * ψ c - Complex.I * Complex.sin (φ / 2) * ph (if c a then -β else β) * ψ (upd (upd c a (c b)) b (c a)) := by
  rw [den_xxyy hab, app2_eq]
  have hself : ∀ x y, c a = x → c b = y → upd (upd c a x) b y = c := by
    intro x y hx hy
    funext z
    by_cases e1 : z = b
    · subst e1; rw [upd_same, hy]
    · rw [upd_ne e1]
      by_cases e2 : z = a
      · subst e2; rw [upd_same, hx]
      · rw [upd_ne e2]
  cases h1 : c a <;> cases h2 : c b <;> rw [hself _ _ h1 h2] <;> simp [xxyyM] <;> ring

theorem xxyy_exc {n i : Nat} (hi : i + 1 < n) (θ : ℝ) (w : Nat → ℂ) (ψ : Amp Nat) :
    den (xxyyG θ (Real.pi / 2)) [i, i + 1] (exc n w ψ) =
      exc n (fun j => if j = i then Complex.cos (θ / 2) * w i - Complex.sin (θ / 2) * w (i + 1)
        else if j = i + 1 then Complex.sin (θ / 2) * w i + Complex.cos (θ / 2) * w (i + 1) else w j) ψ := by
  funext c
  rw [xxyy_apply (by omega)]
  have hI := Complex.I_mul_I
  cases h1 : c i <;> cases h2 : c (i + 1)
  · rw [if_pos rfl]
    by_cases h : ∃ j < n, One n c j
    · obtain ⟨j, hj, ho⟩ := h
      have n1 : j ≠ i := by rintro rfl; have := ho j hj; rw [h1] at this; simp at this
      have n2 : j ≠ i + 1 := by rintro rfl; have := ho _ hj; rw [h2] at this; simp at this
      rw [exc_one hj ho, exc_one hj ho, if_neg n1, if_neg n2]
    · have h' : ∀ j < n, ¬ One n c j := fun j hj ho => h ⟨j, hj, ho⟩
      rw [exc_none h', exc_none h']
  · rw [if_neg (by decide), if_neg (by decide), ph_half_pi]
    have hc := one_swap' hi h1 h2
    by_cases ho : One n c (i + 1)
    · rw [exc_one hi ho, exc_one hi ho, exc_one (by omega) (hc.mp ho), clr_upd (by omega), clr_upd (by omega), if_neg (by omega), if_pos rfl]
      linear_combination (-(Complex.sin (θ / 2) * w i * ψ (clr n c))) * hI
    · have h' : ∀ j < n, ¬ One n c j := by
        intro j hj ho'
        have := ho' (i + 1) hi
        rw [h2] at this
        have e : i + 1 = j := by simpa using this.symm
        subst e; exact ho ho'
      have h'' : ∀ j < n, ¬ One n (upd (upd c i true) (i + 1) false) j := by
        intro j hj ho'
        have := ho' i (by omega)
        rw [upd_ne (by omega), upd_same] at this
        have e : i = j := by simpa using this.symm
        subst e; exact ho (hc.mpr ho')
      rw [exc_none h', exc_none h', exc_none h'']; ring
  · rw [if_neg (by decide), if_pos rfl, ph_neg_half_pi]
    have hc := one_swap hi h1 h2
    by_cases ho : One n c i
    · rw [exc_one (by omega) ho, exc_one (by omega) ho, exc_one (by omega) (hc.mp ho), clr_upd (by omega), clr_upd (by omega), if_pos rfl]
      linear_combination (Complex.sin (θ / 2) * w (i + 1) * ψ (clr n c)) * hI
    · have h' : ∀ j < n, ¬ One n c j := by
        intro j hj ho'
        have := ho' i (by omega)
        rw [h1] at this
        have e : i = j := by simpa using this.symm
        subst e; exact ho ho'
      have h'' : ∀ j < n, ¬ One n (upd (upd c i false) (i + 1) true) j := by
        intro j hj ho'
        have := ho' (i + 1) (by omega)
        rw [upd_same] at this
        have e : i + 1 = j := by simpa using this.symm
        subst e; exact ho (hc.mpr ho')
      rw [exc_none h', exc_none h', exc_none h'']; ring
  · rw [if_pos rfl]
    have h' : ∀ j < n, ¬ One n c j := by
      intro j hj ho
      have a1 := ho i (by omega)
      have a2 := ho (i + 1) hi
      rw [h1] at a1; rw [h2] at a2
      have b1 : i = j := by simpa using a1.symm
      have b2 : i + 1 = j := by simpa using a2.symm
      omega
    rw [exc_none h', exc_none h']

theorem den_p {Q : Type} [DecidableEq Q] (φ : ℝ) (a : Q) (ψ : Amp Q) (c : Q → Bool) :
    den (pG φ) [a] ψ c = if c a then ph φ * ψ c else ψ c := by
  have e : den (pG φ) [a] ψ = app1 (pm φ) a ψ := by rw [← u3m_p]; rfl
  rw [e]
  have hself : ∀ x, c a = x → upd c a x = c := by
    intro x hx
    funext z
    by_cases e2 : z = a
    · subst e2; rw [upd_same, hx]
    · rw [upd_ne e2]
  unfold app1 mux pm
  cases h : c a <;> simp [mk, hself _ h]

theorem p_exc {n i : Nat} (hi : i < n) (φ : ℝ) (w : Nat → ℂ) (ψ : Amp Nat) :
    den (pG φ) [i] (exc n w ψ) = exc n (fun j => if j = i then ph φ * w i else w j) ψ := by
  funext c
  rw [den_p]
  by_cases h : ∃ j < n, One n c j
  · obtain ⟨j, hj, ho⟩ := h
    rw [exc_one hj ho, exc_one hj ho, ho i hi]
    by_cases e : i = j
    · subst e; simp; ring
    · simp [e, Ne.symm e]
  · have h' : ∀ j < n, ¬ One n c j := fun j hj ho => h ⟨j, hj, ho⟩
    rw [exc_none h', exc_none h']; simp

/-- The first `n` qubits of the state are in `|0…0⟩`. -/
def Fresh (n : Nat) (ψ : Amp Nat) : Prop := ∀ c, (∃ k < n, c k = true) → ψ c = 0

theorem x_exc {n : Nat} (hn : 0 < n) {ψ : Amp Nat} (hψ : Fresh n ψ) :
    den (.pauli .x) [0] ψ = exc n (fun j => if j = 0 then 1 else 0) ψ := by
  funext c
  have e : den (.pauli .x) [0] ψ c = ψ (upd c 0 (!c 0)) := by
    show app1 Pauli.x.mat 0 ψ c = _
    rw [pauli_x_mk]
    unfold app1 mux
    cases h : c 0 <;> simp [mk]
  rw [e]
  by_cases h : ∃ j < n, One n c j
  · obtain ⟨j, hj, ho⟩ := h
    rw [exc_one hj ho]
    by_cases h0 : j = 0
    · subst h0
      rw [if_pos rfl, one_mul, ho 0 hn]
      congr 1
      funext z
      unfold clr
      by_cases hz : z = 0
      · subst hz; rw [upd_same, if_pos hn]; simp
      · rw [upd_ne hz]
        by_cases hzn : z < n
        · rw [if_pos hzn, ho z hzn]; simp [hz]
        · rw [if_neg hzn]
    · rw [if_neg h0, zero_mul]
      exact hψ _ ⟨j, hj, by rw [upd_ne h0, ho j hj]; simp⟩
  · have h' : ∀ j < n, ¬ One n c j := fun j hj ho => h ⟨j, hj, ho⟩
    rw [exc_none h']
    refine hψ _ ?_
    by_contra hno
    refine h' 0 hn fun k hk => ?_
    by_cases hk0 : k = 0
    · subst hk0
      cases hc : c 0
      · exact absurd ⟨0, hn, by rw [upd_same, hc]; rfl⟩ hno
      · simp
    · cases hc : c k
      · simp [hk0]
      · exact absurd ⟨k, hk, by rw [upd_ne hk0, hc]⟩ hno

/-! ### The angles -/

theorem wRem_nonneg (n : Nat) (a : Nat → ℂ) (i : Nat) : 0 ≤ wRem n a i := Real.sqrt_nonneg _

theorem wRem_sq (n : Nat) (a : Nat → ℂ) (i : Nat) : wRem n a i ^ 2 = ∑ j ∈ Finset.Ico i n, ‖wNormed n a j‖ ^ 2 :=
  Real.sq_sqrt (Finset.sum_nonneg fun _ _ => sq_nonneg _)

theorem wRem_step {n i : Nat} (hi : i < n) (a : Nat → ℂ) : wRem n a i ^ 2 = ‖wNormed n a i‖ ^ 2 + wRem n a (i + 1) ^ 2 := by
  rw [wRem_sq, wRem_sq, Finset.sum_eq_sum_Ico_succ_bot hi]

theorem norm_ofReal_sqrt (x : ℝ) : ‖((Real.sqrt x : ℝ) : ℂ)‖ = Real.sqrt x := by
  rw [Complex.norm_real, Real.norm_of_nonneg (Real.sqrt_nonneg x)]

theorem wRem_zero {n : Nat} {a : Nat → ℂ} (h : 0 < Real.sqrt (∑ j ∈ Finset.range n, ‖a j‖ ^ 2)) : wRem n a 0 = 1 := by
  have hs := Real.sqrt_pos.mp h
  unfold wRem
  rw [Real.sqrt_eq_one, ← Finset.range_eq_Ico]
  unfold wNormed
  simp only [norm_div, norm_ofReal_sqrt, div_pow, Real.sq_sqrt hs.le]
  simp only [div_eq_mul_inv]
  rw [← Finset.sum_mul, mul_inv_cancel₀ hs.ne']

/-- The two factors of a step. -/
theorem wTheta_step {n i : Nat} (hi : i < n) (a : Nat → ℂ) (hr : wRem n a i = 0 ∨ wRem n a i > 1 / 10 ^ 15) :
    Real.cos (wTheta n a i / 2) * wRem n a i = ‖wNormed n a i‖ ∧ Real.sin (wTheta n a i / 2) * wRem n a i = wRem n a (i + 1) := by
  have hstep := wRem_step hi a
  have h1 := wRem_nonneg n a i
  have h2 := wRem_nonneg n a (i + 1)
  have h3 := norm_nonneg (wNormed n a i)
  rcases hr with h0 | hp
  · rw [h0] at hstep ⊢
    have e1 : ‖wNormed n a i‖ = 0 := by nlinarith
    have e2 : wRem n a (i + 1) = 0 := by nlinarith
    rw [e1, e2]; simp
  · have hpos : 0 < wRem n a i := lt_trans (by positivity) hp
    have hle : ‖wNormed n a i‖ ≤ wRem n a i := by
      refine abs_le_of_sq_le_sq' ?_ h1 |>.2
      rw [hstep]; nlinarith
    have hratio : wRatio n a i = ‖wNormed n a i‖ / wRem n a i := if_pos hp
    have r0 : 0 ≤ wRatio n a i := by rw [hratio]; positivity
    have r1 : wRatio n a i ≤ 1 := by rw [hratio]; exact (div_le_one hpos).mpr hle
    have ht : wTheta n a i / 2 = Real.arccos (wRatio n a i) := by
      unfold wTheta
      rw [min_eq_left r1, max_eq_right (by linarith)]; ring
    rw [ht, Real.cos_arccos (by linarith) r1, Real.sin_arccos]
    refine ⟨by rw [hratio]; field_simp, ?_⟩
    have hsq : 1 - wRatio n a i ^ 2 = (wRem n a (i + 1) / wRem n a i) ^ 2 := by
      rw [hratio, div_pow, div_pow, eq_div_iff (by positivity)]
      field_simp
      linarith
    rw [hsq, Real.sqrt_sq (by positivity)]
    field_simp

theorem wLoop_exc {n : Nat} (a : Nat → ℂ) {ψ : Amp Nat} (hr : ∀ i < n, wRem n a i = 0 ∨ wRem n a i > 1 / 10 ^ 15) :
    ∀ k, k < n → runOps (wLoop n a k) (exc n (fun j => if j = 0 then ((wRem n a 0 : ℝ) : ℂ) else 0) ψ) =
      exc n (fun j => if j < k then wNormed n a j else if j = k then ((wRem n a k : ℝ) : ℂ) else 0) ψ
  | 0, _ => by
    refine exc_congr (fun j _ => ?_) ψ
    rw [if_neg (Nat.not_lt_zero j)]
  | k + 1, hk => by
    have ih := wLoop_exc a (ψ := ψ) hr k (by omega)
    have hst := wTheta_step (n := n) (i := k) (by omega) a (hr k (by omega))
    have hc := congrArg (Complex.ofReal) hst.1
    have hs := congrArg (Complex.ofReal) hst.2
    rw [Complex.ofReal_mul, Complex.ofReal_cos, Complex.ofReal_div] at hc
    rw [Complex.ofReal_mul, Complex.ofReal_sin, Complex.ofReal_div] at hs
    have harg := ph_arg (wNormed n a k)
    unfold wLoop
    rw [runOps_append, ih]
    simp only [runOps]
    rw [xxyy_exc hk, p_exc (by omega)]
    refine exc_congr (fun j hj => ?_) ψ
    by_cases e1 : j = k
    · subst e1
      rw [if_pos rfl, if_pos rfl, if_neg (lt_irrefl j), if_pos rfl, if_neg (by omega), if_neg (by omega), if_pos (by omega), mul_zero, sub_zero]
      refine Eq.trans ?_ harg
      rw [← hc]
      push_cast
      ring
    · rw [if_neg e1, if_neg e1]
      by_cases e2 : j = k + 1
      · subst e2
        rw [if_pos rfl, if_neg (lt_irrefl k), if_pos rfl, if_neg (by omega), if_neg (by omega), if_neg (by omega), if_pos rfl, mul_zero, add_zero, ← hs]
        push_cast
        ring
      · rw [if_neg e2]
        by_cases e3 : j < k
        · rw [if_pos e3, if_pos (by omega)]
        · rw [if_neg e3, if_neg e1, if_neg (by omega), if_neg e2]

/-- The state that is prepared. -/
theorem wState_exc {a : List ℂ} {ops : List (Op × List Nat)} {size : Nat} (h : wState size a = some ops)
    (hr : ∀ i < a.length, wRem a.length (a.getD · 0) i = 0 ∨ wRem a.length (a.getD · 0) i > 1 / 10 ^ 15) {ψ : Amp Nat}
    (hψ : Fresh a.length ψ) : size = a.length ∧ runOps ops ψ = exc a.length (wNormed a.length (a.getD · 0)) ψ := by
  unfold wState at h
  by_cases h1 : size ≠ a.length
  · rw [if_pos h1] at h; cases h
  rw [if_neg h1] at h
  by_cases h2 : Real.sqrt (∑ j ∈ Finset.range a.length, ‖a.getD j 0‖ ^ 2) < 1 / 10 ^ 15
  · rw [if_pos h2] at h; cases h
  rw [if_neg h2] at h
  refine ⟨not_not.mp h1, ?_⟩
  have hpos : 0 < Real.sqrt (∑ j ∈ Finset.range a.length, ‖a.getD j 0‖ ^ 2) := lt_of_lt_of_le (by positivity) (not_lt.mp h2)
  have hn : 0 < a.length := by
    rcases Nat.eq_zero_or_pos a.length with h0 | h0
    · rw [h0] at hpos; simp at hpos
    · exact h0
  have hr0 := wRem_zero (a := (a.getD · 0)) hpos
  have hlast : ∀ i, i + 1 = a.length → wRem a.length (a.getD · 0) i = ‖wNormed a.length (a.getD · 0) i‖ := by
    intro i hi
    have h1 := wRem_sq a.length (a.getD · 0) i
    rw [show Finset.Ico i a.length = {i} by rw [← hi]; exact Nat.Ico_succ_singleton i, Finset.sum_singleton] at h1
    exact (pow_left_inj₀ (wRem_nonneg _ _ _) (norm_nonneg _) (by decide)).mp h1
  by_cases h3 : a.length = 1
  · rw [if_pos h3] at h
    obtain rfl := Option.some.inj h
    have hl := hlast 0 (by omega)
    rw [hr0] at hl
    have harg := ph_arg (wNormed a.length (a.getD · 0) 0)
    simp only [runOps]
    rw [x_exc hn hψ, p_exc hn]
    refine exc_congr (fun j hj => ?_) ψ
    have : j = 0 := by omega
    subst this
    rw [← hl, Complex.ofReal_one, one_mul] at harg
    rw [if_pos rfl, if_pos rfl, mul_one, ← h3]
    exact harg
  · rw [if_neg h3] at h
    obtain rfl := Option.some.inj h
    have hl := hlast (a.length - 1) (by omega)
    have harg := ph_arg (wNormed a.length (a.getD · 0) (a.length - 1))
    have hloop := wLoop_exc (a.getD · 0) (ψ := ψ) hr (a.length - 1) (by omega)
    show runOps (wLoop a.length (a.getD · 0) (a.length - 1) ++ _) (den (.pauli .x) [0] ψ) = _
    rw [x_exc hn hψ, runOps_append]
    rw [hr0, Complex.ofReal_one] at hloop
    rw [hloop]
    simp only [runOps]
    rw [p_exc (by omega)]
    refine exc_congr (fun j hj => ?_) ψ
    by_cases e : j = a.length - 1
    · subst e
      rw [if_pos rfl, if_neg (lt_irrefl _), if_pos rfl, hl, mul_comm]
      exact harg
    · rw [if_neg e, if_pos (by omega)]

end Verif.Circ
