import Verif.Circ.Prx

/-!
Model of `_collect_gphases` (/repo/src/qrisp/circuit/pass_management/passes/decompose.py:30-57) and of `gray_synth_toffoli`
(/repo/src/qrisp/circuit/pass_management/passes/gray_synth_toffoli.py).

Simplified: angles are exact reals, no symbolic angles.
-/

namespace Verif.Circ

open Verif.Rev (upd)

/-! ### Collecting the global phases -/

/-- decompose.py:40-41 `instr.op.name == "gphase"` and `instr.op.params[0]` (operation.py:475-476: the global phase).
`none`: an exception; a composite operation has no parameter. -/
def gphOf : PI → Option (Option ℝ)
  | .op (.u3 nm _ _ _ g) _ => some (if nm = "gphase" then some g else none)
  | .op (.gate nm _ _) _ => if nm = "gphase" then none else some none
  | _ => some none

/-- decompose.py:44-45: the first qubit of an instruction that has one. -/
def anchorOf : PI → Option Nat
  | .op _ is => is.head?
  | .cl _ _ is _ => is.head?

/-- decompose.py:35-45: the sum of the phases, the other instructions, the last of the first qubits. -/
noncomputable def collectLoop : List PI → ℝ × List PI × Option Nat → Option (ℝ × List PI × Option Nat)
  | [], s => some s
  | x :: r, (p, kept, an) => (gphOf x).bind fun g => match g with
    | some g => collectLoop r (p + g, kept, an)
    | none => collectLoop r (p, kept ++ [x], (anchorOf x).or an)

open Classical in
/-- decompose.py:47-57: the kept instructions, then the phase on the anchor. -/
noncomputable def collectGph (c : List PI) : Option (List PI) := (collectLoop c (0, [], none)).map fun s =>
  s.2.1 ++ match s.2.2 with
    | none => []
    | some q => if mod2pi s.1 ≠ 0 then [.op (gphaseG (mod2pi s.1)) [q]] else []

/-! ### The Toffoli circuit -/

/-- standard_operations.py:394-416 `RZZGate`. -/
noncomputable def rzzBody (φ : ℝ) : List (Op × List Nat) :=
  [(mcxG 1, [0, 1]), (gphaseG (-φ / 2), [0]), (pG φ, [1]), (mcxG 1, [0, 1])]

/-- gray_synth_toffoli.py:36-52 `_get_gray_toffoli_qc`. -/
noncomputable def grayTof : List (Op × List Nat) :=
  [(tG, [0]), (tG, [1]), (hG, [2]), (tG, [2]), (mcxG 1, [1, 2]), (tdgG, [2]), (mcxG 1, [0, 2]), (tG, [2]), (mcxG 1, [1, 2]),
   (tdgG, [2]), (mcxG 1, [0, 2]), (hG, [2]), (.gate "rzz" 2 (rzzBody (-Real.pi / 4)), [0, 1])]

/-- mcx_algs/circuit_library.py:21-27 `ctrl_state_wrap`: X gates around the circuit where the control state is 0. -/
def ctrlWrap (body : List (Op × List Nat)) (st : List Bool) : List (Op × List Nat) :=
  (st.zipIdx).foldl (fun b p => if p.1 then b else (.pauli .x, [p.2]) :: b ++ [(.pauli .x, [p.2])]) body

/-- gray_synth_toffoli.py:81 (`is_toffoli`), 162-180, followed by the decomposition of the Toffoli gates: each is replaced by its new definition. -/
noncomputable def grayPass (c : List PI) : List PI := c.map fun x => match x with
  | .op (.ctrl (.pauli .x) st) is => if st.length = 2 then .op (.gate "2cx" 3 (ctrlWrap grayTof st)) is else x
  | x => x

/-! ### Lemmas -/

variable {Q : Type} [DecidableEq Q]

theorem mod2pi_ph {x : ℝ} (h : mod2pi x = 0) : ph x = 1 := by rw [← ph_mod2pi, h, ph_zero]

theorem u3m_gph (g : ℝ) : u3m 0 0 0 g = ph g • (1 : M2) := by
  rw [u3m_mk, mk_one]
  congr 1
  refine mk_congr ?_ ?_ ?_ ?_ <;> simp [ph_zero]

/-- Gates named gphase are global phases. -/
def PI.Gph : PI → Prop
  | .op (.u3 nm θ φ lam _) _ => nm = "gphase" → θ = 0 ∧ φ = 0 ∧ lam = 0
  | _ => True

theorem gphOf_some {x : PI} {g : ℝ} (h : gphOf x = some (some g)) (hg : x.Gph) : ∃ nm is, x = .op (.u3 nm 0 0 0 g) is := by
  cases x with
  | cl => simp [gphOf] at h
  | op o is =>
    cases o with
    | u3 nm θ φ lam g' =>
      simp only [gphOf, Option.some.injEq] at h
      split at h
      · rename_i hn
        cases h
        obtain ⟨rfl, rfl, rfl⟩ := hg hn
        exact ⟨nm, is, rfl⟩
      · exact absurd h (by simp)
    | gate nm n b => simp only [gphOf] at h; split at h <;> simp at h
    | _ => simp [gphOf] at h

theorem collectLoop_sound (v : Nat → Bool) {n : Nat} {qs : List Q} (hn : qs.length = n) (c : List PI) (hc : ∀ x ∈ c, x.WF n)
    (hg : ∀ x ∈ c, x.Gph) : ∀ p kept an s, collectLoop c (p, kept, an) = some s → (∀ q, an = some q → q < n) →
      (∀ q, s.2.2 = some q → q < n) ∧
      ∀ ψ : Amp Q, ph s.1 • denI v qs s.2.1 ψ = ph p • denI v qs (kept ++ c) ψ := by
  induction c with
  | nil => intro p kept an s h ha; simp only [collectLoop, Option.some.injEq] at h; subst h; exact ⟨ha, fun ψ => by simp⟩
  | cons x r ih =>
    intro p kept an s h ha
    have ih := ih (fun y hy => hc y (by simp [hy])) (fun y hy => hg y (by simp [hy]))
    have hx := hc x (by simp)
    simp only [collectLoop, Option.bind_eq_some_iff] at h
    obtain ⟨g, e, h⟩ := h
    cases g with
    | some g =>
      obtain ⟨i1, i2⟩ := ih _ _ _ _ h ha
      refine ⟨i1, fun ψ => ?_⟩
      obtain ⟨nm, is, rfl⟩ := gphOf_some e (hg _ (by simp))
      have hp : (pick qs is).length = 1 := pick_single hn hx.1 hx.2
      rw [i2, denI_append, denI_append]
      simp only [denI, den, u3m_gph]
      rw [on1_smul _ _ hp, on1_one, denI_smul, smul_smul, ph_add]
    | none =>
      obtain ⟨i1, i2⟩ := ih _ _ _ _ h (by
        intro q hq
        rcases Option.or_eq_some_iff.mp hq with hq | ⟨-, hq⟩
        · cases x with
          | op o is => exact hx.2 q (List.mem_of_mem_head? hq)
          | cl o st is cs => exact hx.2.1 q (List.mem_of_mem_head? hq)
        · exact ha q hq)
      exact ⟨i1, fun ψ => by rw [i2]; simp⟩

theorem collectLoop_anchor (c : List PI) : ∀ p kept an s, collectLoop c (p, kept, an) = some s →
    (an ≠ none ∨ ∃ x ∈ c, gphOf x = some none ∧ anchorOf x ≠ none) → s.2.2 ≠ none := by
  induction c with
  | nil =>
    intro p kept an s h ha
    simp only [collectLoop, Option.some.injEq] at h
    subst h
    rcases ha with ha | ⟨x, hx, -⟩
    · exact ha
    · simp at hx
  | cons x r ih =>
    intro p kept an s h ha
    simp only [collectLoop, Option.bind_eq_some_iff] at h
    obtain ⟨g, e, h⟩ := h
    cases g with
    | some g =>
      refine ih _ _ _ _ h ?_
      rcases ha with ha | ⟨y, hy, h1, h2⟩
      · exact Or.inl ha
      · rcases List.mem_cons.mp hy with rfl | hy
        · rw [e] at h1; exact absurd h1 (by simp)
        · exact Or.inr ⟨y, hy, h1, h2⟩
    | none =>
      refine ih _ _ _ _ h ?_
      rcases ha with ha | ⟨y, hy, h1, h2⟩
      · left; intro h0; exact ha (by simpa using (Option.or_eq_none_iff.mp h0).2)
      · rcases List.mem_cons.mp hy with rfl | hy
        · left; intro h0; exact h2 (Option.or_eq_none_iff.mp h0).1
        · exact Or.inr ⟨y, hy, h1, h2⟩

/-! ### The Toffoli circuit computes a Toffoli gate -/

theorem app1_pm (a : ℝ) (q : Q) (ψ : Amp Q) : app1 (pm a) q ψ = fun b => (if b q then ph a else 1) * ψ b := by
  funext b
  simp only [app1, mux, pm, mk]
  have : upd b q (b q) = b := by funext x; simp only [upd]; split <;> simp_all
  cases h : b q <;> rw [h] at this <;> simp [this]

theorem app1_hm (q : Q) (ψ : Amp Q) : app1 hm q ψ = fun b => r2 * (ψ (upd b q false) + (if b q then -1 else 1) * ψ (upd b q true)) := by
  funext b
  simp only [app1, mux, hm, mk]
  cases b q <;> simp <;> ring

theorem den_cx1 {x y : Q} (ψ : Amp Q) : den (mcxG 1) [x, y] ψ = fun b => ψ (upd b y (b y ^^ b x)) := by
  funext b
  have hu : upd b y (b y) = b := by funext z; simp only [upd]; split <;> simp_all
  simp only [mcxG, den, List.replicate, List.length_cons, List.length_nil, List.take, List.drop, ctl, ctlMatch, on1, app1_x]
  cases h : b x <;> simp [hu]

/-- The phase polynomial of the Toffoli gate. -/
theorem tof_phase (x y z : Bool) :
    (if x then ph (Real.pi / 4) else 1) * (if y then ph (Real.pi / 4) else 1) * (if z then ph (Real.pi / 4) else 1) *
      (if z ^^ y then ph (-(Real.pi / 4)) else 1) * (if (z ^^ y) ^^ x then ph (Real.pi / 4) else 1) *
      (if z ^^ x then ph (-(Real.pi / 4)) else 1) * (if y ^^ x then ph (-(Real.pi / 4)) else 1) =
    if x && y && z then -1 else 1 := by
  have e1 : ph (-(Real.pi / 4)) * ph (Real.pi / 4) = 1 := ph_neg _
  have e2 : ph (Real.pi / 4) * ph (Real.pi / 4) * ph (Real.pi / 4) * ph (Real.pi / 4) = -1 := by
    rw [← ph_add, ← ph_add, ← ph_add, ← ph_pi]; congr 1; ring
  generalize ph (-(Real.pi / 4)) = f at *
  generalize ph (Real.pi / 4) = e at *
  cases x <;> cases y <;> cases z <;> simp only [Bool.false_xor, Bool.xor_false,
    Bool.and_true, Bool.and_false, Bool.xor_self, Bool.false_eq_true, if_true, if_false, mul_one, one_mul]
  · linear_combination (e * f + 1) * e1
  · linear_combination (e * f + 1) * e1
  · linear_combination (e * f + 1) * e1
  · linear_combination (e * f + 1) * e1
  · linear_combination (e * f + 1) * e1
  · linear_combination (e * f + 1) * e1
  · linear_combination e2

theorem den_t (q : Q) (ψ : Amp Q) : den tG [q] ψ = fun b => (if b q then ph (Real.pi / 4) else 1) * ψ b := by
  simp only [tG, den, u3m_p, on1, app1_pm]

theorem den_tdg (q : Q) (ψ : Amp Q) : den tdgG [q] ψ = fun b => (if b q then ph (-(Real.pi / 4)) else 1) * ψ b := by
  simp only [tdgG, den, u3m_p', on1, app1_pm]

theorem den_h1 (q : Q) (ψ : Amp Q) :
    den hG [q] ψ = fun b => r2 * (ψ (upd b q false) + (if b q then -1 else 1) * ψ (upd b q true)) := by
  simp only [hG, den, u3m_h, on1, app1_hm]

theorem den_rzzG {x y : Q} (hxy : x ≠ y) (φ : ℝ) (ψ : Amp Q) :
    den (.gate "rzz" 2 (rzzBody φ)) [x, y] ψ = fun b => ph (-φ / 2) * (if b y ^^ b x then ph φ else 1) * ψ b := by
  have hp : ∀ a b : Q, pick [a, b] [0] = [a] ∧ pick [a, b] [1] = [b] ∧ pick [a, b] [0, 1] = [a, b] := fun a b => ⟨rfl, rfl, rfl⟩
  simp only [den, rzzBody, denBody, (hp x y).1, (hp x y).2.1, (hp x y).2.2, den_cx1, gphaseG, pG, u3m_gph, u3m_p, on1, app1_pm]
  funext b
  simp only [Verif.Rev.upd_same, Verif.Rev.upd_ne hxy]
  have hs : ∀ χ : Amp Q, app1 (ph (-φ / 2) • (1 : M2)) x χ = ph (-φ / 2) • χ := fun χ => by
    have := on1_smul (ph (-φ / 2)) 1 (qs := [x]) rfl χ
    simp only [on1, app1_one] at this
    exact this
  have hu : upd (upd b y (b y ^^ b x)) y ((b y ^^ b x) ^^ b x) = b := by
    funext z
    simp only [upd]
    split
    · simp_all
    · rfl
  rw [hs]
  simp only [Pi.smul_apply, smul_eq_mul, Verif.Rev.upd_same, Verif.Rev.upd_ne hxy, hu]
  ring

/-- The circuit is a Toffoli gate times a global phase of π/8. -/
theorem grayTof_sound {x y z : Q} (hxy : x ≠ y) (hxz : x ≠ z) (hyz : y ≠ z) (ψ : Amp Q) :
    denBody grayTof [x, y, z] ψ = fun b => ph (Real.pi / 8) * ψ (upd b z (b z ^^ (b x && b y))) := by
  have hp0 : pick [x, y, z] [0] = [x] := rfl
  have hp1 : pick [x, y, z] [1] = [y] := rfl
  have hp2 : pick [x, y, z] [2] = [z] := rfl
  have hp01 : pick [x, y, z] [0, 1] = [x, y] := rfl
  have hp02 : pick [x, y, z] [0, 2] = [x, z] := rfl
  have hp12 : pick [x, y, z] [1, 2] = [y, z] := rfl
  have uu : ∀ (b : Q → Bool) (u w : Bool), upd (upd b z u) z w = upd b z w := by
    intro b u w; funext q; simp only [upd]; split <;> rfl
  have us : ∀ b : Q → Bool, upd b z (b z) = b := by
    intro b; funext q; simp only [upd]; split <;> simp_all
  simp only [grayTof, denBody, hp0, hp1, hp2, hp01, hp02, hp12, den_t, den_tdg, den_h1, den_cx1, den_rzzG hxy]
  funext b
  simp only [Verif.Rev.upd_same, Verif.Rev.upd_ne hxz, Verif.Rev.upd_ne hyz, Verif.Rev.upd_ne hxy, uu]
  have eg : ph (-(-Real.pi / 4) / 2) = ph (Real.pi / 8) := by congr 1; ring
  have en : ph (-Real.pi / 4) = ph (-(Real.pi / 4)) := by congr 1; ring
  rw [eg, en]
  have t0 := tof_phase (b x) (b y) false
  have t1 := tof_phase (b x) (b y) true
  have hr := r2_sq
  generalize ph (-(Real.pi / 4)) = f at *
  generalize ph (Real.pi / 4) = e at *
  generalize ph (Real.pi / 8) = g at *
  generalize b x = bx at *
  generalize b y = by' at *
  generalize b z = bz at *
  cases bz <;> cases bx <;> cases by' <;>
    simp only [Bool.false_xor, Bool.xor_false, Bool.and_true, Bool.and_false, Bool.xor_self, Bool.false_eq_true, if_true, if_false,
      mul_one, one_mul] at t0 t1 ⊢
  · linear_combination (g * r2 * r2 * (ψ (upd b z false) - ψ (upd b z true))) * t1 + (2 * g * ψ (upd b z false)) * hr
  · linear_combination (g * r2 * r2 * (ψ (upd b z false) + ψ (upd b z true))) * t0 + (g * r2 * r2 * (ψ (upd b z false) - ψ (upd b z true))) * t1 + (2 * g * ψ (upd b z false)) * hr
  · linear_combination (g * r2 * r2 * (ψ (upd b z false) + ψ (upd b z true))) * t0 + (g * r2 * r2 * (ψ (upd b z false) - ψ (upd b z true))) * t1 + (2 * g * ψ (upd b z false)) * hr
  · linear_combination (g * r2 * r2 * (ψ (upd b z false) + ψ (upd b z true))) * t0 + (g * r2 * r2 * (ψ (upd b z false) - ψ (upd b z true))) * t1 + (2 * g * ψ (upd b z true)) * hr
  · linear_combination (-(g * r2 * r2 * (ψ (upd b z false) - ψ (upd b z true)))) * t1 + (2 * g * ψ (upd b z true)) * hr
  · linear_combination (g * r2 * r2 * (ψ (upd b z false) + ψ (upd b z true))) * t0 - (g * r2 * r2 * (ψ (upd b z false) - ψ (upd b z true))) * t1 + (2 * g * ψ (upd b z true)) * hr
  · linear_combination (g * r2 * r2 * (ψ (upd b z false) + ψ (upd b z true))) * t0 - (g * r2 * r2 * (ψ (upd b z false) - ψ (upd b z true))) * t1 + (2 * g * ψ (upd b z true)) * hr
  · linear_combination (g * r2 * r2 * (ψ (upd b z false) + ψ (upd b z true))) * t0 - (g * r2 * r2 * (ψ (upd b z false) - ψ (upd b z true))) * t1 + (2 * g * ψ (upd b z false)) * hr

theorem den_x (q : Q) (ψ : Amp Q) : den (.pauli .x) [q] ψ = fun b => ψ (upd b q (!(b q))) := by
  simp only [den, on1, app1_x]

/-- With the X gates of the control state. -/
theorem grayWrap_sound {x y z : Q} (hxy : x ≠ y) (hxz : x ≠ z) (hyz : y ≠ z) (s0 s1 : Bool) (ψ : Amp Q) :
    denBody (ctrlWrap grayTof [s0, s1]) [x, y, z] ψ = ph (Real.pi / 8) • den (.ctrl (.pauli .x) [s0, s1]) [x, y, z] ψ := by
  have hp0 : pick [x, y, z] [0] = [x] := rfl
  have hp1 : pick [x, y, z] [1] = [y] := rfl
  have hR : den (.ctrl (.pauli .x) [s0, s1]) [x, y, z] ψ = fun b => ψ (upd b z (b z ^^ ((b x == s0) && (b y == s1)))) := by
    funext b
    have hu : upd b z (b z) = b := by funext q; simp only [upd]; split <;> simp_all
    simp only [den, List.length_cons, List.length_nil, List.take, List.drop, ctl, ctlMatch, on1, app1_x]
    cases (b x == s0) <;> cases (b y == s1) <;> simp [hu]
  rw [hR]
  cases s0 <;> cases s1 <;>
    simp only [ctrlWrap, List.zipIdx_cons, List.zipIdx_nil, List.foldl_cons, List.foldl_nil, if_true, if_false, Bool.false_eq_true,
      Nat.zero_add, List.cons_append, denBody, denBody_append, hp0, hp1, den_x, grayTof_sound hxy hxz hyz] <;>
    funext b <;>
    simp only [Pi.smul_apply, smul_eq_mul, Verif.Rev.upd_same, Verif.Rev.upd_ne hxy, Verif.Rev.upd_ne hxy.symm, Verif.Rev.upd_ne hxz,
      Verif.Rev.upd_ne hxz.symm, Verif.Rev.upd_ne hyz, Verif.Rev.upd_ne hyz.symm] <;>
    congr 2 <;> funext q <;> simp only [upd]
  all_goals
    by_cases h1 : q = x
    · subst h1; simp [hxy, hxz]
    · by_cases h2 : q = y
      · subst h2; simp [hyz, h1]
      · by_cases h3 : q = z
        · subst h3; cases b x <;> cases b y <;> simp [*]
        · simp [h1, h2, h3]

end Verif.Circ
