import Verif.Ham.Simulate
import Verif.Oper.Measure

/-! C95: the simulation of a diagonal term. -/

namespace Verif.Props

open Verif.Oper Verif.Circ Verif.Ham
open Verif.Rev (upd)

/-- The eigenvalue of a diagonal term at a basis state. -/
def eigT (t : Term) (c : HQ → Bool) : ℚ := (t.map fun q => facVal q.2 (c (.qv q.1))).prod

/-- The factors of the diagonal case (operators/qubit/qubit_term.py:254). -/
def DiagT (t : Term) : Prop := ∀ q ∈ t, q.2 = .I ∨ q.2 = .Z ∨ q.2 = .P0 ∨ q.2 = .P1

/-- The ancillas are in state 0. -/
def CleanH (ψ : Amp HQ) : Prop := ∀ c, (c .hs = true ∨ ∃ i, c (.anc i) = true) → ψ c = 0

/-- The phases of the logical AND have modulus 1. -/
def UnitH (χ : HQ × Bool → HQ × Bool → HQ → (HQ → Bool) → ℂ) : Prop := ∀ a b t c, star (χ a b t c) * χ a b t c = 1

theorem eigT_eq {t : Term} (hd : DiagT t) (c : HQ → Bool) :
    ((eigT t c : ℚ) : ℝ) = if allMatch (projQ false t) c then sgn (par (zIdx t) c) else 0 := by
  induction t with
  | nil => simp [eigT, allMatch, projQ, projIdx, zIdx, par, sgn]
  | cons q t ih =>
    have ih := ih fun x hx => hd x (List.mem_cons_of_mem _ hx)
    obtain ⟨k, f⟩ := q
    have e1 : eigT ((k, f) :: t) c = facVal f (c (.qv k)) * eigT t c := by simp [eigT]
    rw [e1, Rat.cast_mul, ih]
    have hf : f = .I ∨ f = .Z ∨ f = .P0 ∨ f = .P1 := hd (k, f) List.mem_cons_self
    rcases hf with rfl | rfl | rfl | rfl
    · have a1 : projQ false ((k, .I) :: t) = projQ false t := by simp [projQ, projIdx]
      have a2 : zIdx ((k, .I) :: t) = zIdx t := by simp [zIdx]
      rw [a1, a2]; simp [facVal]
    · have a1 : projQ false ((k, .Z) :: t) = projQ false t := by simp [projQ, projIdx]
      have a2 : par (zIdx ((k, .Z) :: t)) c = (c (.qv k) ^^ par (zIdx t) c) := by simp [zIdx, par]
      rw [a1, a2]
      unfold sgn
      cases allMatch (projQ false t) c <;> cases c (.qv k) <;> cases par (zIdx t) c <;> simp [facVal]
    · have a1 : projQ false ((k, .P0) :: t) = (.qv k, false) :: projQ false t := by simp [projQ, projIdx]
      have a2 : zIdx ((k, .P0) :: t) = zIdx t := by simp [zIdx]
      have a3 : allMatch ((.qv k, false) :: projQ false t) c = ((c (.qv k) == false) && allMatch (projQ false t) c) := rfl
      rw [a1, a2, a3]
      cases allMatch (projQ false t) c <;> cases c (.qv k) <;> simp [facVal]
    · have a1 : projQ false ((k, .P1) :: t) = (.qv k, true) :: projQ false t := by simp [projQ, projIdx]
      have a2 : zIdx ((k, .P1) :: t) = zIdx t := by simp [zIdx]
      have a3 : allMatch ((.qv k, true) :: projQ false t) c = ((c (.qv k) == true) && allMatch (projQ false t) c) := rfl
      rw [a1, a2, a3]
      cases allMatch (projQ false t) c <;> cases c (.qv k) <;> simp [facVal]

theorem projQ_match (ctrl : Bool) (t : Term) (c : HQ → Bool) :
    allMatch (projQ ctrl t) c = ((!ctrl || c .ctrl) && allMatch (projQ false t) c) := by
  cases ctrl
  · simp
  · have : projQ true t = (.ctrl, true) :: projQ false t := by simp [projQ]
    rw [this]
    simp [allMatch]

theorem projQ_qubit {ctrl : Bool} {t : Term} {q : HQ × Bool} (h : q ∈ projQ ctrl t) :
    q.1 = .ctrl ∨ ∃ k, q.1 = .qv k ∧ ∃ f, (f = .P0 ∨ f = .P1) ∧ (k, f) ∈ t := by
  rcases List.mem_append.mp h with h | h
  · cases ctrl
    · simp at h
    · left; simp at h; rw [h]
  · right
    obtain ⟨x, hx, rfl⟩ := List.mem_map.mp h
    obtain ⟨y, hy, rfl⟩ := List.mem_map.mp hx
    have := List.mem_filter.mp hy
    exact ⟨y.1, rfl, y.2, by simpa using this.2, this.1⟩

theorem zIdx_mem {t : Term} {k : Nat} (h : k ∈ zIdx t) : (k, Fac.Z) ∈ t := by
  obtain ⟨x, hx, rfl⟩ := List.mem_map.mp h
  have := List.mem_filter.mp hx
  have e : x.2 = .Z := by simpa using this.2
  rw [← e]; exact this.1

theorem zIdx_nodup {t : Term} (h : t.keys.Nodup) : (zIdx t).Nodup := by
  unfold zIdx
  have : ((t.filter fun q => q.2 = .Z).map Prod.fst).Sublist (t.map Prod.fst) := (List.filter_sublist).map _
  exact List.Nodup.sublist this h

theorem key_unique {t : Term} (h : t.keys.Nodup) {k : Nat} {f g : Fac} (hf : (k, f) ∈ t) (hg : (k, g) ∈ t) : f = g := by
  induction t with
  | nil => simp at hf
  | cons x t ih =>
    have h' : (x.1 :: Term.keys t).Nodup := h
    obtain ⟨h1, h2⟩ := List.nodup_cons.mp h'
    have hk : ∀ g : Fac, (x.1, g) ∉ t := fun g hg => h1 (List.mem_map.mpr ⟨_, hg, rfl⟩)
    rcases List.mem_cons.mp hf with rfl | hf' <;> rcases List.mem_cons.mp hg with hg' | hg'
    · exact (Prod.mk.inj hg').2.symm
    · exact (hk _ hg').elim
    · subst hg'; exact (hk _ hf').elim
    · exact ih h2 hf' hg'

/-- C95: simulating a diagonal term `T` with coefficient `x` multiplies the amplitude of every basis state by `exp(-i·x·λ)` with the
eigenvalue `λ` of `T` there — with a control qubit only where it is set — and leaves the ancillas clean. -/
theorem C95_simulate {χ : HQ × Bool → HQ × Bool → HQ → (HQ → Bool) → ℂ} (hχ : UnitH χ) (ctrl : Bool) (x : ℝ) {t : Term} (hd : DiagT t)
    (hn : t.keys.Nodup) {ψ : Amp HQ} (hψ : CleanH ψ) :
    ∃ l, simulate false ctrl x t = some l ∧ ∀ c, runH χ l ψ c = ph (if !ctrl || c .ctrl then -(x * (eigT t c : ℝ)) else 0) * ψ c := by
  have hval : ∀ c, (if !ctrl || c .ctrl then -(x * (eigT t c : ℝ)) else 0) =
      if allMatch (projQ ctrl t) c then -(x * sgn (par (zIdx t) c)) else 0 := by
    intro c
    rw [projQ_match, eigT_eq hd]
    cases (!ctrl || c .ctrl) <;> cases allMatch (projQ false t) c <;> simp
  simp only [hval]
  have hpz : ∀ q ∈ projQ ctrl t, ∀ i ∈ zIdx t, q.1 ≠ .qv i := by
    intro q hq i hi e
    rcases projQ_qubit hq with h | ⟨k, h, f, hf, hm⟩
    · rw [h] at e; cases e
    · rw [h] at e
      injection e with e
      subst e
      have := key_unique hn hm (zIdx_mem hi)
      rcases hf with rfl | rfl <;> cases this
  unfold simulate
  rcases hz : (zIdx t).getLast? with _ | a
  · have hz0 : zIdx t = [] := List.getLast?_eq_none_iff.mp hz
    rw [hz0]
    rcases hp : projQ ctrl t with _ | ⟨⟨q, b⟩, _ | ⟨r, ps⟩⟩
    · refine ⟨_, rfl, fun c => ?_⟩
      show Circ.den (gphaseG (-x)) [_] ψ c = _
      rw [gphase_apply]
      simp [allMatch, par, sgn]
    · cases b
      · refine ⟨_, rfl, fun c => ?_⟩
        show Circ.den (gphaseG (-x)) [q] (Circ.den (pG x) [q] ψ) c = _
        rw [gphase_apply, den_p]
        cases h : c q <;> simp [allMatch, par, sgn, h, ← mul_assoc, ← ph_add]
      · refine ⟨_, rfl, fun c => ?_⟩
        show Circ.den (pG (-x)) [q] ψ c = _
        rw [den_p]
        cases h : c q <;> simp [allMatch, par, sgn, h, ph_zero]
    · refine ⟨[.mcp (-x) ((q, b) :: r :: ps)], by cases b <;> rfl, fun c => ?_⟩
      show (if allMatch ((q, b) :: r :: ps) c then ph (-x) * ψ c else ψ c) = _
      cases allMatch ((q, b) :: r :: ps) c <;> simp [par, sgn, ph_zero]
  · obtain ⟨zs, hzs⟩ : ∃ zs, zIdx t = zs ++ [a] := List.getLast?_eq_some_iff.mp hz
    have hdl : (zIdx t).dropLast = zs := by rw [hzs]; simp
    have hnd := zIdx_nodup hn
    rw [hzs] at hnd
    have haz : a ∉ zs := fun h => (List.nodup_append.mp hnd).2.2 a h a (by simp) rfl
    have hmem : ∀ i ∈ a :: zs, i ∈ zIdx t := by
      intro i hi
      rw [hzs]
      rcases List.mem_cons.mp hi with rfl | hi
      · simp
      · simp [hi]
    rw [hdl, hzs]
    rcases hp : projQ ctrl t with _ | ⟨⟨q, b⟩, _ | ⟨r, ps⟩⟩
    · refine ⟨_, rfl, fun c => ?_⟩
      rw [body_diag hχ x haz ψ c]
      simp [allMatch]
    · refine ⟨_, rfl, fun c => ?_⟩
      rw [body_diag_ctrl hχ x haz (h := q) (fun i hi => hpz (q, b) (by rw [hp]; simp) i (hmem i hi)) (!b) ψ c]
      cases b <;> cases h : c q <;> simp [allMatch, h]
    · set red := (q, b) :: r :: ps with hred
      have hlen : red.length = ps.length + 2 := rfl
      have hquse : ∀ y ∈ red, y.1 ≠ .hs ∧ ∀ i, y.1 ≠ .anc i := by
        intro y hy
        rcases projQ_qubit (ctrl := ctrl) (t := t) (q := y) (by rw [hp]; exact hy) with h | ⟨k, h, _⟩ <;> rw [h] <;>
          exact ⟨nofun, fun _ => nofun⟩
      have hfl : ((List.range (red.length - 1)).map HQ.anc).length = red.length - 1 := by simp
      have hs : ∀ c : HQ → Bool, c .hs = false → (∀ i, c (.anc i) = false) →
          ∃ V, semi false .hs red ((List.range (red.length - 1)).map .anc) = some V ∧ (∀ o ∈ V, IsCl o) ∧
            (∀ z, z ≠ .hs → z ∉ (List.range (red.length - 1)).map HQ.anc → clH V c z = c z) ∧ clH V c .hs = allMatch red c :=
        fun c h1 h2 => semi_spec .hs red.length red _ c rfl (by omega) (by rw [hfl]; omega)
          (List.nodup_range.map fun i j e => by injection e)
          (fun o ho y hy => by obtain ⟨i, _, rfl⟩ := List.mem_map.mp ho; exact (hquse y hy).2 i)
          (fun y hy => (hquse y hy).1) (fun h => by obtain ⟨i, _, e⟩ := List.mem_map.mp h; cases e)
          (fun o ho => by obtain ⟨i, _, rfl⟩ := List.mem_map.mp ho; exact h2 i) h1
      obtain ⟨V, v1, v2, _⟩ := hs (fun _ => false) rfl fun _ => rfl
      have hdiag := conj_diag hχ v2 (body_diag_ctrl hχ x haz (h := .hs) (fun i _ e => by cases e) false)
      refine ⟨conjH V (bodyH x zs a (some .hs) false), by show Option.map _ (semi false .hs red _) = _; rw [v1]; rfl, fun c => ?_⟩
      rw [hdiag ψ c]
      by_cases hc : c .hs = true ∨ ∃ i, c (.anc i) = true
      · rw [hψ c hc, mul_zero, mul_zero]
      · rw [not_or] at hc
        have h1 : c .hs = false := by simpa using hc.1
        have h2 : ∀ i, c (.anc i) = false := fun i => by
          have := hc.2
          rw [not_exists] at this
          simpa using this i
        obtain ⟨V', w1, w2, w3, w4⟩ := hs c h1 h2
        have : V' = V := by rw [v1] at w1; exact (Option.some.inj w1).symm
        subst this
        have hpar : par (zs ++ [a]) (clH V' c) = par (zs ++ [a]) c := by
          have hq : ∀ i, clH V' c (.qv i) = c (.qv i) := fun i =>
            w3 _ (fun e => by cases e) (fun h => by obtain ⟨j, _, e⟩ := List.mem_map.mp h; cases e)
          have : ∀ l, par l (clH V' c) = par l c := by
            intro l
            induction l with
            | nil => rfl
            | cons i l ihl => show (clH V' c (.qv i) ^^ par l _) = (c (.qv i) ^^ par l c); rw [ihl, hq]
          exact this _
        beta_reduce
        rw [w4, hpar, Bool.xor_false]

/-- The eigenvalue is the diagonal entry of the matrix of the term. -/
theorem C95_eigenvalue (n : Nat) {t : Term} (hd : DiagT t) (hn : t.keys.Nodup) (hlt : ∀ k ∈ t.keys, k < n) (c : HQ → Bool) :
    tmat n t (fun k => c (.qv k)) (fun k => c (.qv k)) = ((eigT t c : ℚ) : ℂ) := by
  have hget : ∀ k, t.get k = .I ∨ t.get k = .Z ∨ t.get k = .P0 ∨ t.get k = .P1 := by
    intro k
    clear hn hlt
    induction t with
    | nil => left; rfl
    | cons x t ih =>
      obtain ⟨j, f⟩ := x
      by_cases h : j = k
      · subst h
        have : Term.get ((j, f) :: t) j = f := by simp [Term.get]
        rw [this]; exact hd (j, f) List.mem_cons_self
      · have : Term.get ((j, f) :: t) k = Term.get t k := by simp [Term.get, List.lookup_cons, beq_eq_false_iff_ne.mpr (Ne.symm h)]
        rw [this]; exact ih fun x hx => hd x (List.mem_cons_of_mem _ hx)
  rw [tmat_diag hget, if_pos rfl]
  congr 1
  clear hget hd
  induction t with
  | nil => simp [eigT, Term.get, facVal]
  | cons x t ih =>
    obtain ⟨j, f⟩ := x
    have hn' : (j :: Term.keys t).Nodup := hn
    obtain ⟨h1, h2⟩ := List.nodup_cons.mp hn'
    have hj : j < n := hlt j List.mem_cons_self
    have e : eigT ((j, f) :: t) c = facVal f (c (.qv j)) * eigT t c := by simp [eigT]
    rw [e, ← ih h2 fun k hk => hlt k (List.mem_cons_of_mem _ hk)]
    rw [← Finset.mul_prod_erase _ _ (Finset.mem_univ (⟨j, hj⟩ : Fin n)), ← Finset.mul_prod_erase _ _ (Finset.mem_univ (⟨j, hj⟩ : Fin n))]
    have hg1 : Term.get ((j, f) :: t) j = f := by simp [Term.get]
    have hg2 : Term.get t j = .I := get_notin h1
    have hg3 : ∀ k ∈ Finset.univ.erase (⟨j, hj⟩ : Fin n), facVal (Term.get ((j, f) :: t) k) (c (.qv k)) = facVal (Term.get t k) (c (.qv k)) := by
      intro k hk
      have : (k : Nat) ≠ j := fun e => (Finset.mem_erase.mp hk).1 (Fin.ext e)
      congr 1
      simp [Term.get, List.lookup_cons, beq_eq_false_iff_ne.mpr this]
    rw [Finset.prod_congr rfl hg3]
    simp only [hg1, hg2]
    simp [facVal]

/-- C95: in tracing mode the last logical AND ignores the control state: `P0(0)·P0(1)·Z(2)` is not simulated.  The state `|000⟩` with
eigenvalue 1 keeps its amplitude. -/
theorem C95_traced_wrong {χ : HQ × Bool → HQ × Bool → HQ → (HQ → Bool) → ℂ} (hχ : UnitH χ) (x : ℝ) (ψ : Amp HQ) :
    ∃ l, simulate true false x [(0, .P0), (1, .P0), (2, .Z)] = some l ∧ eigT [(0, .P0), (1, .P0), (2, .Z)] (fun _ => false) = 1 ∧
      runH χ l ψ (fun _ => false) = ψ (fun _ => false) := by
  have hV : ∀ o ∈ [HOp.land (.qv 0, true) (.qv 1, true) .hs], IsCl o := by
    intro o ho
    rw [List.mem_singleton] at ho
    subst ho
    exact ⟨nofun, nofun⟩
  have hdiag := conj_diag hχ hV (body_diag_ctrl hχ x (zs := []) (a := 2) (by simp) (h := .hs) (fun i _ e => by cases e) false)
  refine ⟨conjH [.land (.qv 0, true) (.qv 1, true) .hs] (bodyH x [] 2 (some .hs) false), ?_, by decide +kernel, ?_⟩
  · simp [simulate, zIdx, projQ, projIdx, semi]
  · rw [hdiag]
    have : clH [HOp.land (.qv 0, true) (.qv 1, true) .hs] (fun _ => false) .hs = false := by decide
    beta_reduce
    rw [this]
    simp [ph_zero]

/-- C95: with a control qubit, one projector and a Z factor, the two ancilla variables that were allocated are never deleted. -/
theorem C95_leak (k j : Nat) (f : Fac) (hf : f = .P0 ∨ f = .P1) : leaks true [(k, f), (j, .Z)] = true ∧ leaks false [(k, f), (j, .Z)] = false := by
  rcases hf with rfl | rfl <;> simp [leaks, zIdx, projQ, projIdx]

example : eigT [(0, .P1), (1, .P0), (2, .Z), (3, .Z)] (fun q => q = .qv 0 ∨ q = .qv 3) = -1 := by decide +kernel

end Verif.Props
