import Verif.Circ.Phases

/-!
C154: global phases of a circuit.  `_collect_gphases` keeps the operator if the circuit has another instruction; the circuit
of `gray_synth_toffoli` is the Toffoli gate times a fixed global phase, for all control states and in all circuits.
-/

namespace Verif.Props

open Verif.Circ
open Verif.Rev (upd)

variable {Q : Type} [DecidableEq Q]

/-! ### Specification -/

/-- A global phase gate. -/
def IsGphase (x : PI) : Prop := ∃ θ φ lam g is, x = PI.op (.u3 "gphase" θ φ lam g) is

/-- The qubits of an instruction. -/
def qubitsOf : PI → List Nat
  | .op _ is => is
  | .cl _ _ is _ => is

/-- A Toffoli gate with some control state. -/
def IsToffoli (x : PI) : Prop := ∃ s0 s1 is, x = PI.op (.ctrl (.pauli .x) [s0, s1]) is

/-! ### Lemmas -/

theorem gphOf_kept {x : PI} (hg : ¬ IsGphase x) (hn : ∀ n b is, x ≠ .op (.gate "gphase" n b) is) : gphOf x = some none := by
  cases x with
  | cl => rfl
  | op o is =>
    cases o with
    | u3 nm θ φ lam g =>
      have : nm ≠ "gphase" := fun e => hg ⟨θ, φ, lam, g, is, by rw [e]⟩
      simp [gphOf, this]
    | gate nm n b =>
      have : nm ≠ "gphase" := fun e => hn n b is (by rw [e])
      simp [gphOf, this]
    | _ => rfl

theorem collect_total {c : List PI} (hn : ∀ x ∈ c, ∀ n b is, x ≠ .op (.gate "gphase" n b) is) :
    ∀ s, ∃ t, collectLoop c s = some t := by
  classical
  induction c with
  | nil => intro s; exact ⟨s, rfl⟩
  | cons x r ih =>
    intro ⟨p, kept, an⟩
    have ih := ih (fun y hy => hn y (by simp [hy]))
    by_cases hg : IsGphase x
    · obtain ⟨θ, φ, lam, g, is, rfl⟩ := hg
      simp only [collectLoop, gphOf, if_true]
      exact ih _
    · simp only [collectLoop, gphOf_kept hg (hn x (by simp))]
      exact ih _

theorem anchorOf_ne {x : PI} (h : qubitsOf x ≠ []) : anchorOf x ≠ none := by
  cases x with
  | op o is => intro e; exact h (List.head?_eq_none_iff.mp e)
  | cl o st is cs => intro e; exact h (List.head?_eq_none_iff.mp e)

/-! ### C154 -/

/-- Collecting the global phases keeps the operator exactly, if some instruction that acts on a qubit is not a global phase. -/
theorem collect_exact_partial (v : Nat → Bool) {n : Nat} {qs : List Q} (hq : qs.length = n) (c : List PI) (hc : ∀ x ∈ c, x.WF n)
    (hg : ∀ x ∈ c, x.Gph) (hn : ∀ x ∈ c, ∀ n b is, x ≠ .op (.gate "gphase" n b) is)
    (ha : ∃ x ∈ c, ¬ IsGphase x ∧ qubitsOf x ≠ []) :
    ∃ out, collectGph c = some out ∧ ∀ ψ : Amp Q, denI v qs out ψ = denI v qs c ψ := by
  obtain ⟨s, hs⟩ := collect_total hn (0, [], none)
  refine ⟨_, by rw [collectGph, hs]; rfl, fun ψ => ?_⟩
  obtain ⟨h1, h2⟩ := collectLoop_sound v hq c hc hg 0 [] none s hs (by simp)
  obtain ⟨x, hx, hx1, hx2⟩ := ha
  have h3 : s.2.2 ≠ none := collectLoop_anchor c 0 [] none s hs
    (Or.inr ⟨x, hx, gphOf_kept hx1 (hn x hx), anchorOf_ne hx2⟩)
  obtain ⟨q, hq'⟩ := Option.ne_none_iff_exists'.mp h3
  have h2 := h2 ψ
  rw [ph_zero, one_smul, List.nil_append] at h2
  rw [denI_append, ← h2, hq']
  by_cases hm : mod2pi s.1 = 0
  · simp [hm, mod2pi_ph hm, denI]
  · have hp : (pick qs [q]).length = 1 := pick_single hq rfl (by simpa using h1 q hq')
    simp only [ne_eq, hm, not_false_eq_true, if_true, denI, gphaseG, den, u3m_gph]
    rw [on1_smul _ _ hp, on1_one, ph_mod2pi]

/-- In every circuit the operator is kept up to a global phase. -/
theorem collect_phase (v : Nat → Bool) {n : Nat} {qs : List Q} (hq : qs.length = n) (c : List PI) (hc : ∀ x ∈ c, x.WF n)
    (hg : ∀ x ∈ c, x.Gph) (hn : ∀ x ∈ c, ∀ n b is, x ≠ .op (.gate "gphase" n b) is) :
    ∃ (out : List PI) (w : ℂ), collectGph c = some out ∧ ‖w‖ = 1 ∧ ∀ ψ : Amp Q, denI v qs out ψ = w • denI v qs c ψ := by
  obtain ⟨s, hs⟩ := collect_total hn (0, [], none)
  obtain ⟨h1, h2⟩ := collectLoop_sound v hq c hc hg 0 [] none s hs (by simp)
  simp only [ph_zero, one_smul, List.nil_append] at h2
  cases hq' : s.2.2 with
  | none =>
    refine ⟨_, ph (-s.1), by rw [collectGph, hs]; rfl, norm_ph _, fun ψ => ?_⟩
    rw [denI_append, hq', ← h2, smul_smul, ph_neg, one_smul]
    rfl
  | some q =>
    refine ⟨_, 1, by rw [collectGph, hs]; rfl, by simp, fun ψ => ?_⟩
    rw [denI_append, ← h2, hq', one_smul]
    by_cases hm : mod2pi s.1 = 0
    · simp [hm, mod2pi_ph hm, denI]
    · have hp : (pick qs [q]).length = 1 := pick_single hq rfl (by simpa using h1 q hq')
      simp only [ne_eq, hm, not_false_eq_true, if_true, denI, gphaseG, den, u3m_gph]
      rw [on1_smul _ _ hp, on1_one, ph_mod2pi]

open Classical in
/-- At most one global phase gate is left, the last instruction; the other instructions stay as they are, in their order. -/
theorem collect_one (c : List PI) {out : List PI} (h : collectGph c = some out) :
    ∃ tail, out = (c.filter fun x => decide (¬ IsGphase x)) ++ tail ∧ (tail = [] ∨ ∃ g q, tail = [.op (gphaseG g) [q]]) := by
  have loop : ∀ c p kept an s, collectLoop c (p, kept, an) = some s → s.2.1 = kept ++ c.filter fun x => decide (¬ IsGphase x) := by
    intro c
    induction c with
    | nil => intro p kept an s h; simp only [collectLoop, Option.some.injEq] at h; subst h; simp
    | cons x r ih =>
      intro p kept an s h
      simp only [collectLoop, Option.bind_eq_some_iff] at h
      obtain ⟨g, e, h⟩ := h
      cases g with
      | some g =>
        have : IsGphase x := by
          by_contra hg
          cases x with
          | cl => simp [gphOf] at e
          | op o is =>
            cases o with
            | u3 nm θ φ lam g' =>
              have : nm ≠ "gphase" := fun e => hg ⟨θ, φ, lam, g', is, by rw [e]⟩
              simp [gphOf, this] at e
            | gate nm n b => simp only [gphOf] at e; split at e <;> simp at e
            | _ => simp [gphOf] at e
        rw [ih _ _ _ _ h, List.filter_cons_of_neg (by simpa using this)]
      | none =>
        have : ¬ IsGphase x := by
          rintro ⟨θ, φ, lam, g, is, rfl⟩
          simp [gphOf] at e
        rw [ih _ _ _ _ h, List.filter_cons_of_pos (by simpa using this)]
        simp
  simp only [collectGph, Option.map_eq_some_iff] at h
  obtain ⟨s, hs, rfl⟩ := h
  refine ⟨_, by rw [loop c _ _ _ _ hs, List.nil_append], ?_⟩
  cases s.2.2 with
  | none => left; rfl
  | some q =>
    dsimp only
    split
    · exact Or.inr ⟨_, _, rfl⟩
    · left; rfl

/-- A circuit that is only the global phase -1 becomes the empty circuit. -/
theorem collect_lost (v : Nat → Bool) : collectGph [.op (gphaseG Real.pi) [0]] = some [] ∧
    (∀ ψ : Amp Nat, denI v [3] [.op (gphaseG Real.pi) [0]] ψ = -denI v [3] [] ψ) := by
  refine ⟨by simp [collectGph, collectLoop, gphOf, gphaseG], fun ψ => ?_⟩
  simp only [denI, gphaseG, den, u3m_gph]
  rw [on1_smul _ _ rfl, on1_one, ph_pi, neg_one_smul]

open Classical in
/-- Replacing the Toffoli gates multiplies the circuit by the eighth part of π for each of them, whatever the control states. -/
theorem gray_phase (v : Nat → Bool) {n : Nat} {qs : List Q} (hq : qs.length = n) (hd : qs.Nodup) (c : List PI)
    (hc : ∀ x ∈ c, x.WF n) (hi : ∀ x ∈ c, (qubitsOf x).Nodup) (ψ : Amp Q) :
    denI v qs (grayPass c) ψ = ph (c.countP (fun x => decide (IsToffoli x)) * (Real.pi / 8)) • denI v qs c ψ := by
  induction c generalizing ψ with
  | nil => simp [grayPass, denI, ph_zero]
  | cons x r ih =>
    have ih := fun ψ => ih (fun y hy => hc y (by simp [hy])) (fun y hy => hi y (by simp [hy])) ψ
    have hx := hc x (by simp)
    have hxi := hi x (by simp)
    by_cases ht : IsToffoli x
    · obtain ⟨s0, s1, is, rfl⟩ := id ht
      have hl : is.length = 3 := hx.1
      obtain ⟨i, j, k, rfl⟩ := List.length_eq_three.mp hl
      have hi1 : i < qs.length := by rw [hq]; exact hx.2 i (by simp)
      have hj1 : j < qs.length := by rw [hq]; exact hx.2 j (by simp)
      have hk1 : k < qs.length := by rw [hq]; exact hx.2 k (by simp)
      have hp : pick qs [i, j, k] = [qs[i], qs[j], qs[k]] := by
        simp [pick, hi1, hj1, hk1]
      simp only [qubitsOf, List.nodup_cons, List.mem_cons, List.not_mem_nil, or_false, not_or] at hxi
      have e1 : qs[i] ≠ qs[j] := fun e => hxi.1.1 ((hd.getElem_inj_iff).mp e)
      have e2 : qs[i] ≠ qs[k] := fun e => hxi.1.2 ((hd.getElem_inj_iff).mp e)
      have e3 : qs[j] ≠ qs[k] := fun e => hxi.2.1 ((hd.getElem_inj_iff).mp e)
      rw [List.countP_cons_of_pos (by simpa using ht)]
      have hstep : grayPass (.op (.ctrl (.pauli .x) [s0, s1]) [i, j, k] :: r) =
          .op (.gate "2cx" 3 (ctrlWrap grayTof [s0, s1])) [i, j, k] :: grayPass r := rfl
      rw [hstep]
      simp only [denI, den.eq_7, hp]
      rw [grayWrap_sound e1 e2 e3, ih, denI_smul, smul_smul, ← ph_add]
      congr 2
      push_cast; ring
    · rw [List.countP_cons_of_neg (by simpa using ht)]
      have hstep : grayPass (x :: r) = x :: grayPass r := by
        simp only [grayPass, List.map_cons, List.cons.injEq, and_true]
        split
        · rename_i st is
          split
          · rename_i hl
            obtain ⟨s0, s1, rfl⟩ := List.length_eq_two.mp hl
            exact absurd ⟨s0, s1, is, rfl⟩ ht
          · rfl
        · rfl
      rw [hstep]
      cases x <;> simp only [denI, ih]

/-! ### Concrete cases -/

/-- Two phases around an X gate become one. -/
example (v : Nat → Bool) (ψ : Amp Nat) : ∃ out, collectGph [.op (gphaseG 1) [0], .op (.pauli .x) [1], .op (gphaseG 2) [1]] = some out ∧
    denI v [4, 6] out ψ = denI v [4, 6] [.op (gphaseG 1) [0], .op (.pauli .x) [1], .op (gphaseG 2) [1]] ψ := by
  obtain ⟨out, h, hd⟩ := collect_exact_partial (Q := Nat) v (qs := [4, 6]) rfl
    [.op (gphaseG 1) [0], .op (.pauli .x) [1], .op (gphaseG 2) [1]]
    (by
      intro x hx
      simp only [List.mem_cons, List.not_mem_nil, or_false] at hx
      rcases hx with rfl | rfl | rfl <;> exact ⟨rfl, by simp⟩)
    (by
      intro x hx
      simp only [List.mem_cons, List.not_mem_nil, or_false] at hx
      rcases hx with rfl | rfl | rfl <;> simp [PI.Gph, gphaseG])
    (by
      intro x hx n b is
      simp only [List.mem_cons, List.not_mem_nil, or_false] at hx
      rcases hx with rfl | rfl | rfl <;> simp [gphaseG])
    ⟨.op (.pauli .x) [1], by simp, by rintro ⟨θ, φ, lam, g, is, e⟩; simp at e, by simp [qubitsOf]⟩
  exact ⟨out, h, hd ψ⟩

end Verif.Props
