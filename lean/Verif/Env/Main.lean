import Verif.Env.Bounds

/-!
Correctness of compiled nested environments.
-/

namespace Verif.Env

variable {G K : Type} {P : Par G K}

/-- Computing a truth value into a clean qubit. -/
theorem select {θ : B → ℂ} {F : B → Bool} {a : Nat} {W : E} (hF : ∀ b, F (flip a b) = F b)
    (hW : D (fun b => b a) * W = 0) :
    D (fun b => b a) * ((dg θ * when F (X a)) * W) = (dg θ * when F (X a)) * (D F * W) := by
  have hX : D (fun b => b a) * X a = X a * D fun b => !b a := by
    rw [X_D]
    simp only [flip_at, Bool.not_not]
  have h1 : D (fun b => b a) * (when F (X a) * W) = D F * X a * W := by
    unfold when
    rw [add_mul, mul_add, ← mul_assoc (D fun b => b a) (D (fun b => !F b)), (D_comm (fun b => b a) (fun b => !F b)).eq,
      mul_assoc (D fun b => !F b), hW, mul_zero, add_zero, ← mul_assoc, ← mul_assoc, (D_comm (fun b => b a) F).eq,
      mul_assoc (D F), hX, D_not, mul_assoc, mul_assoc (X a), sub_mul, hW, sub_zero, one_mul, mul_assoc]
  have h2 : when F (X a) * (D F * W) = D F * X a * W := by
    unfold when
    rw [← mul_assoc, add_mul, D_not_mul, add_zero, mul_assoc (D F), (X_D_comm hF).eq, ← mul_assoc (D F), D_sq]
  rw [mul_assoc, mul_assoc, h2, ← mul_assoc, (show Commute (D fun b => b a) (dg θ) from dg_comm _ _).eq, mul_assoc, h1]

/-- The same for an inverted environment. -/
theorem select_pol {V Z : E} {F : B → Bool} {a : Nat} (i : Bool)
    (h : D (fun b => b a) * (V * Z) = (V * Z) * D F) :
    D (fun b => b a == !i) * (V * Z) = (V * Z) * D fun b => F b ^^ i := by
  cases i
  · simpa using h
  · have := not_nat h
    simpa using this

/-- In a nested environment with one control qubit, the control qubit is one where the truth value is. -/
def Good (c : Ctx) (I : B → Bool) (p : Prog G K) : Prop :=
  noConj p ∨ c.user = none ∨ ∃ u, c.user = some u ∧ ∀ b, I b = true → (b c.ctv == c.pol) = true → b u = true

/-- What the proof needs from a plan; `I` holds for the truth value and the control qubit. -/
structure PlanOK (P : Par G K) (N m : Nat) (pl : Plan G K) (T I : B → Bool) (body : Prog G K) (fl : Bool) : Prop where
  inv : run P pl.post * run P pl.pre = 1
  sel : D (fun b => b pl.c.ctv == pl.c.pol) * (run P pl.pre * Clean N m) = (run P pl.pre * Clean N m) * D T
  cl : Clean N pl.next * (run P pl.pre * Clean N m) = run P pl.pre * Clean N m
  comm : Comm P (run P pl.pre) body
  commI : Comm P (D I) body
  good : Good pl.c I body
  impI : D I * (run P pl.pre * Clean N m) = run P pl.pre * Clean N m
  top : fl = true → I = fun _ => true

theorem cl_of_bd (hP : P.OK) {n N m m' : Nat} {cx : Option Ctx} {l : List (OpI G K)} (hm : n ≤ m) (hm' : m ≤ m')
    (hc : ∀ c, cx = some c → c.ctv < m) (h : ∀ o ∈ l, Bd P n cx m m' o) :
    Clean N m' * (run P l * Clean N m) = run P l * Clean N m := by
  have : Commute (run P l) (Clean N m') := by
    refine clean_local fun q hq => run_local hP l ?_
    intro o ho hmem
    rcases (h o ho).2 q hmem with h | ⟨c, h1, h2⟩ | h
    · omega
    · have := hc c h1; omega
    · omega
  rw [← mul_assoc, ← this.eq, mul_assoc, clean_clean hm']

theorem comm_when {F : B → Bool} {a : Nat} {p : Prog G K} (h1 : Comm P (D F) p) (h1' : Comm P (D fun b => !F b) p)
    (h2 : Comm P (X a) p) : Comm P (when F (X a)) p := comm_add p (comm_mul p h1 h2) h1'

theorem matches_snoc {qs : List Nat} {st : List Bool} (h : st.length = qs.length) (c : Nat) (v : Bool) (b : B) :
    matches' (qs ++ [c]) (st ++ [v]) b = ((b c == v) && matches' qs st b) := by
  unfold matches'
  rw [List.zip_append h.symm, List.all_append]
  simp [Bool.and_comm]

theorem Dep.not {L : List Nat} {F : B → Bool} (h : Dep L F) : Dep L fun b => !F b :=
  fun b c hbc => by dsimp only; rw [h b c hbc]

/-- The condition of a control environment in its context. -/
def condIn (cx : Option Ctx) (T : B → Bool) : B → Bool :=
  match cx with
  | none => T
  | some c => fun b => (b c.ctv == c.pol) && T b

theorem planOK_ctrl (hP : P.OK) {n N : Nat} {cx : Option Ctx} {e : Option (Bool × Bool)} {S : List Nat} {m : Nat} {qs st i}
    {body r : Prog G K} (hw : WF P n e S (.ctrl qs st i body r)) (hr : Rel P n cx e (.ctrl qs st i body r) m) (hm : n ≤ m)
    (hN : (planCtrl cx qs st i m : Plan G K).next ≤ N) :
    ∃ I, PlanOK P N m (planCtrl cx qs st i m) (condIn cx fun b => matches' qs st b ^^ i) I body e.isNone := by
  have hB := planB_ctrl hw hr hm
  have hcl := cl_of_bd (N := N) hP hm hB.next (fun c => rel_ctv hr) fun o ho => hB.ops o (.inl ho)
  rcases planCtrl_cases (G := G) (K := K) cx qs st i m with ⟨rfl, q, v, rfl, rfl, h, hp⟩ | ⟨h, hp, hu⟩
  · rw [h] at hcl ⊢
    refine ⟨fun _ => true, by simp [run], ?_, hcl, one_comm body, by rw [D_true]; exact one_comm body, .inr (.inl rfl),
      by rw [D_true, one_mul], fun _ => rfl⟩
    simp only [run, one_mul, condIn, matches', List.zip_cons_cons, List.zip_nil_right, List.all_cons, List.all_nil,
      Bool.and_true]
    rw [← (clean_D N m _).eq]
    congr 2
    funext b
    cases b q <;> cases v <;> cases i <;> rfl
  · rw [h] at hcl hN hB ⊢
    have hok := (hB.ops (.mcx (ctrls cx qs st).1 (ctrls cx qs st).2 m false) (.inl (by simp))).1
    have hF := (matches_dep (ctrls cx qs st).1 (ctrls cx qs st).2).flip hok
    have hQ : ∀ q ∈ (ctrls cx qs st).1, q ∈ S ++ qs ∨ avoid P q body := by
      intro q hq
      rcases cx with _ | c
      · exact .inl (List.mem_append_right _ hq)
      · rcases List.mem_append.1 hq with hq | hq
        · exact .inl (List.mem_append_right _ hq)
        · simp at hq
          subst hq
          rcases e with _ | e
          · simp [Rel] at hr
          · exact .inr hr.2.2.1.2.1
    have hsel : D (fun b => b m == !i) * (run P [(.mcx (ctrls cx qs st).1 (ctrls cx qs st).2 m false : OpI G K)] * Clean N m) =
        run P [(.mcx (ctrls cx qs st).1 (ctrls cx qs st).2 m false : OpI G K)] * Clean N m *
          D (condIn cx fun b => matches' qs st b ^^ i) := by
      have hk := clean_kill (N := N) (m := m) (a := m) le_rfl (by simp at hN; omega)
      have hs := select (θ := P.th (ctrls cx qs st).1 (ctrls cx qs st).2) hF hk
      rw [← (clean_D N m _).eq, ← mul_assoc (dg _ * _) (Clean N m)] at hs
      have := select_pol i hs
      have hc : (fun b => matches' (ctrls cx qs st).1 (ctrls cx qs st).2 b ^^ i) = condIn cx fun b => matches' qs st b ^^ i := by
        rcases cx with _ | c
        · rfl
        · rcases e with _ | e
          · simp [Rel] at hr
          · obtain rfl : i = false := by simpa using hw.2.2.2.1
            funext b
            simp [ctrls, condIn, matches_snoc hw.2.1]
      rw [hc] at this
      simpa [run, op] using this
    have hI : ∃ I, Comm P (D I) body ∧ Good (⟨m, !i, userOf qs⟩ : Ctx) I body ∧
        D I * (run P [(.mcx (ctrls cx qs st).1 (ctrls cx qs st).2 m false : OpI G K)] * Clean N m) =
          run P [(.mcx (ctrls cx qs st).1 (ctrls cx qs st).2 m false : OpI G K)] * Clean N m ∧
        (e.isNone = true → I = fun _ => true) := by
      have triv : Good (⟨m, !i, userOf qs⟩ : Ctx) (fun _ => true) body → ∃ I, Comm P (D I) body ∧
          Good (⟨m, !i, userOf qs⟩ : Ctx) I body ∧
          D I * (run P [(.mcx (ctrls cx qs st).1 (ctrls cx qs st).2 m false : OpI G K)] * Clean N m) =
            run P [(.mcx (ctrls cx qs st).1 (ctrls cx qs st).2 m false : OpI G K)] * Clean N m ∧
          (e.isNone = true → I = fun _ => true) := fun hg =>
        ⟨fun _ => true, by rw [D_true]; exact one_comm body, hg, by rw [D_true, one_mul], fun _ => rfl⟩
      rcases hcu : userOf qs with _ | q
      · exact hcu ▸ triv (.inr (.inl hcu))
      · have hqs := userOf_some hcu
        rcases cx with _ | c
        · simp [hw.2.1, hcu] at hu
        rcases e with _ | e
        · simp [Rel] at hr
        have hst : st = [true] ∨ noConj body := by
          have := (hw.2.2.2.2.1 q hqs).2
          simpa using this
        rcases hst with hst | hst
        swap
        · exact hcu ▸ triv (.inl hst)
        obtain rfl : i = false := by simpa using hw.2.2.2.1
        subst hqs hst
        have hqm : q ≠ m := by have := hw.2.2.1 q (by simp); omega
        have hwb := hw.2.2.2.2.2.1
        refine ⟨fun b => !(b m) || b q, ?_, ?_, ?_, by simp⟩
        · refine comm_D (L := [m, q]) hP (fun b c h => ?_) hwb ?_
          · rw [h m (by simp), h q (by simp)]
          · intro a ha
            simp at ha
            rcases ha with rfl | rfl
            · exact .inr (wf_avoid hm body hwb)
            · exact .inr (hw.2.2.2.2.1 a rfl).1
        · refine .inr (.inr ⟨q, rfl, fun b h1 h2 => ?_⟩)
          simp at h2
          simpa [h2] using h1
        · set V := run P [(.mcx (ctrls (some c) [q] [true]).1 (ctrls (some c) [q] [true]).2 m false : OpI G K)] with hV
          have hVq : Commute V (D fun b => !b q) := by
            have : Commute V (D fun b => b q) := by
              simp only [hV, run, op, one_mul, Bool.false_eq_true, if_false]
              exact (dg_bit_comm _ _).mul_left (when_bit_comm (X_bit_comm hqm))
            rw [D_not]
            exact (Commute.one_right _).sub_right this
          have e1 : D (fun b => !(b m) || b q) = 1 - (D fun b => !b q) * D fun b => b m := by
            rw [D_mul, ← D_not]
            congr 1
            funext b
            cases b m <;> cases b q <;> rfl
          have e2 : (D fun b => !b q) * ((D fun b => b m) * (V * Clean N m)) = 0 := by
            have hs : (D fun b => b m) * (V * Clean N m) = V * Clean N m * D (condIn (some c) fun b => matches' [q] [true] b ^^ false) := by
              simpa using hsel
            rw [hs, ← mul_assoc, ← mul_assoc, ← hVq.eq, mul_assoc V, ← (clean_D N m _).eq, ← mul_assoc V, mul_assoc, D_mul]
            have : (fun b : B => !b q && condIn (some c) (fun b => matches' [q] [true] b ^^ false) b) = fun _ => false := by
              funext b
              cases h : b q <;> simp [condIn, matches', h]
            rw [this, D_false, mul_zero]
          rw [e1, sub_mul, one_mul, mul_assoc, e2, sub_zero]
    obtain ⟨I, hI1, hI2, hI3, hI4⟩ := hI
    refine ⟨I, ?_, hsel, hcl, ?_, hI1, hI2, hI3, hI4⟩
    · have := (op_inv hP _ hok).1
      simpa [run, OpI.inv] using this
    · have hd := matches_dep (ctrls cx qs st).1 (ctrls cx qs st).2
      have hwb := hw.2.2.2.2.2.1
      have : Comm P (dg (P.th (ctrls cx qs st).1 (ctrls cx qs st).2) * when (matches' (ctrls cx qs st).1 (ctrls cx qs st).2) (X m)) body :=
        comm_mul body (comm_dg hP (hP.th_dep _ _) body hwb hQ)
          (comm_when (comm_D hP hd hwb hQ) (comm_D hP hd.not hwb hQ) (comm_X hP body (wf_avoid hm body hwb)))
      simpa [run, op] using this

theorem planOK_cond (hP : P.OK) {n N : Nat} {cx : Option Ctx} {e : Option (Bool × Bool)} {S : List Nat} {m : Nat} {k : K}
    {body r : Prog G K} (hw : WF P n e S (.cond k body r)) (hr : Rel P n cx e (.cond k body r) m) (hm : n ≤ m)
    (hN : (planCond cx k m : Plan G K).next ≤ N) :
    PlanOK P N m (planCond cx k m) (condIn cx (P.pred k)) (fun _ => true) body e.isNone := by
  have hB := planB_cond hw hr hm
  have hcl := cl_of_bd (N := N) hP hm hB.next (fun c => rel_ctv hr) fun o ho => hB.ops o (.inl ho)
  have hx : ∀ a, n ≤ a → a ∉ P.args k := fun a ha h => absurd (hw.1 a h) (by omega)
  have hwb := hw.2.2.1
  have hQ : ∀ q ∈ P.args k, q ∈ S ++ P.args k ∨ avoid P q body := fun q hq => .inl (List.mem_append_right _ hq)
  have hce : ∀ a, n ≤ a → Comm P (when (P.pred k) (X a)) body := fun a ha =>
    comm_when (comm_D hP (hP.dep k) hwb hQ) (comm_D hP (hP.dep k).not hwb hQ) (comm_X hP body (wf_avoid ha body hwb))
  have hse : ∀ a W, n ≤ a → D (fun b => b a) * W = 0 →
      D (fun b => b a) * (when (P.pred k) (X a) * W) = when (P.pred k) (X a) * (D (P.pred k) * W) := by
    intro a W ha hW
    have := select (θ := fun _ => 1) ((hP.dep k).flip (hx a ha)) hW
    simpa [dg_one] using this
  rcases cx with _ | c
  · refine ⟨?_, ?_, hcl, ?_, by rw [D_true]; exact one_comm body, .inr (.inl rfl), by rw [D_true, one_mul], fun _ => rfl⟩
    · have := when_X_sq ((hP.dep k).flip (hx m hm))
      simpa [planCond, run, op] using this
    · have hk := clean_kill (N := N) (m := m) (a := m) le_rfl (by simp [planCond] at hN; omega)
      have hs := hse m _ hm hk
      rw [← (clean_D N m _).eq, ← mul_assoc (when _ _) (Clean N m)] at hs
      simpa [planCond, run, op, condIn] using hs
    · simpa [planCond, run, op] using hce m hm
  · have hcm := rel_ctv hr rfl
    have hpol : c.pol = true ∧ avoid P c.ctv body ∧ c.ctv ∉ P.args k := by
      rcases e with _ | e
      · simp [Rel] at hr
      · have : e.1 = true := by simpa using hw.2.1
        exact ⟨hr.1.trans this, hr.2.2.1.2.1, hr.2.2.1.1⟩
    have hN' : m + 2 ≤ N := hN
    have hok : OpOK P (.mcx [c.ctv, m + 1] [true, true] m false) :=
      (hB.ops _ (.inl (by simp [planCond]))).1
    have hd := matches_dep [c.ctv, m + 1] [true, true]
    have hQ' : ∀ q ∈ [c.ctv, m + 1], q ∈ S ++ P.args k ∨ avoid P q body := by
      intro q hq
      simp at hq
      rcases hq with rfl | rfl
      · exact .inr hpol.2.1
      · exact .inr (wf_avoid (by omega) body hwb)
    refine ⟨?_, ?_, hcl, ?_, by rw [D_true]; exact one_comm body, .inr (.inl rfl), by rw [D_true, one_mul], fun _ => rfl⟩
    · have h1 := (op_inv hP _ hok).1
      have h2 : op P (.eval k (m + 1) true) * op P (.eval k (m + 1) false) = 1 :=
        when_X_sq ((hP.dep k).flip (hx (m + 1) (by omega)))
      show (1 * op P (.eval k (m + 1) true) * op P (.mcx [c.ctv, m + 1] [true, true] m true)) *
        (1 * op P (.mcx [c.ctv, m + 1] [true, true] m false) * op P (.eval k (m + 1) false)) = 1
      rw [one_mul, one_mul, mul_assoc, ← mul_assoc (op P (.mcx _ _ _ _)) (op P (.mcx _ _ _ _))]
      have h3 : op P (.mcx [c.ctv, m + 1] [true, true] m true) * op P (.mcx [c.ctv, m + 1] [true, true] m false) = 1 := h1
      rw [h3, one_mul, h2]
    · set V1 := when (P.pred k) (X (m + 1)) with hV1
      have hk := clean_kill (N := N) (m := m) (a := m) le_rfl (by omega)
      have hk1 := clean_kill (N := N) (m := m) (a := m + 1) (by omega) (by omega)
      have hs1 := hse (m + 1) _ (by omega) hk1
      have c1 : ∀ q, q ≠ m + 1 → Commute V1 (D fun b => b q) := fun q hq => when_bit_comm (X_bit_comm hq)
      have hW : D (fun b => b m) * (V1 * Clean N m) = 0 := by
        rw [← mul_assoc, ← (c1 m (by omega)).eq, mul_assoc, hk, mul_zero]
      have hs := select (θ := P.th [c.ctv, m + 1] [true, true]) (hd.flip hok) hW
      have hF : D (matches' [c.ctv, m + 1] [true, true]) = D (fun b => b c.ctv) * D fun b => b (m + 1) := by
        rw [D_mul]
        congr 1
        funext b
        simp [matches']
      have hs2 : D (matches' [c.ctv, m + 1] [true, true]) * (V1 * Clean N m) =
          V1 * Clean N m * D fun b => b c.ctv && P.pred k b := by
        rw [hF, mul_assoc, hs1, ← mul_assoc, ← (c1 c.ctv (by omega)).eq, mul_assoc, ← mul_assoc (D _) (D _), D_mul,
          ← (clean_D N m _).eq, mul_assoc]
      rw [hs2] at hs
      have e1 : run P (planCond (some c) k m : Plan G K).pre =
          (dg (P.th [c.ctv, m + 1] [true, true]) * when (matches' [c.ctv, m + 1] [true, true]) (X m)) * V1 := by
        simp [planCond, run, op, hV1]
      have e2 : condIn (some c) (P.pred k) = fun b => b c.ctv && P.pred k b := by
        funext b; simp [condIn, hpol.1]
      have e3 : (fun b : B => b (planCond (some c) k m : Plan G K).c.ctv == (planCond (some c) k m : Plan G K).c.pol) = fun b => b m := by
        funext b; simp [planCond]
      rw [e1, e2, e3, mul_assoc, hs]
      simp only [mul_assoc]
    · have : Comm P (dg (P.th [c.ctv, m + 1] [true, true]) * when (matches' [c.ctv, m + 1] [true, true]) (X m)) body :=
        comm_mul body (comm_dg hP (hP.th_dep _ _) body hwb hQ')
          (comm_when (comm_D hP hd hwb hQ') (comm_D hP hd.not hwb hQ') (comm_X hP body (wf_avoid hm body hwb)))
      have := comm_mul body this (hce (m + 1) (by omega))
      simpa [planCond, run, op] using this

/-- One operation after another. -/
theorem seq {R1 R2 A1 A2 Z Z2 : E} (h1 : R1 * Z = A1 * Z) (hA : Commute A1 Z) (hz : Z2 * Z = Z) (h2 : R2 * Z2 = A2 * Z2) :
    R2 * R1 * Z = A2 * A1 * Z := by
  have : A1 * Z = Z2 * (A1 * Z) := by rw [hA.eq, ← mul_assoc, hz]
  rw [mul_assoc, h1, this, ← mul_assoc, h2, mul_assoc, ← this, mul_assoc]

/-- X or nothing. -/
noncomputable def Xp (c : Nat) (β : Bool) : E := if β then X c else 1

theorem Xp_sq (c : Nat) (β : Bool) : Xp c β * Xp c β = 1 := by
  cases β <;> simp [Xp, X_sq]

theorem odd_cons (c : Nat) (o : Bool × OpI G K) (l : List (Bool × OpI G K)) : odd c (o :: l) = (isX c o ^^ odd c l) := by
  unfold odd
  by_cases h : isX c o
  · rw [List.filter_cons_of_pos h, h, List.length_cons]
    rcases Nat.mod_two_eq_zero_or_one (List.filter (isX c) l).length with h | h <;> simp [Nat.add_mod, h]
  · rw [List.filter_cons_of_neg h]
    simp [h]

theorem odd_append_of {c : Nat} {l l' : List (Bool × OpI G K)} (h : ∀ o ∈ l, isX c o = false) : odd c (l ++ l') = odd c l' := by
  induction l with
  | nil => rfl
  | cons o l ih => rw [List.cons_append, odd_cons, h o (by simp), ih fun o ho => h o (by simp [ho])]; simp

theorem wrapAll_append (c : Ctx) (s : List Nat) (l l' : List (Bool × OpI G K)) :
    wrapAll P c s (l ++ l') = wrapAll P c s l ++ wrapAll P c s l' := List.map_append

theorem wrapAll_true (c : Ctx) (s : List Nat) (l : List (OpI G K)) : wrapAll P c s (l.map (true, ·)) = l := by
  simp [wrapAll, Function.comp_def]

theorem run_closing (c : Nat) (l : List (Bool × OpI G K)) : run P (closing c l) = Xp c (odd c l) := by
  unfold closing Xp
  split <;> simp [run, op]

/-- A whole environment. -/
theorem chunk {n N m : Nat} (hP : P.OK) {e S} {pl : Plan G K} {T : B → Bool} {body : Prog G K} (hw : WF P n e S body) (hm : n ≤ m)
    {I : B → Bool} {fl : Bool} (h : PlanOK P N m pl T I body fl) {x : List (Bool × OpI G K) × List Nat × Nat}
    (hx : run P (wrapAll P pl.c x.2.1 x.1) * (D I * Clean N pl.next) =
      Xp pl.c.ctv (odd pl.c.ctv x.1) * sem P (fun b => b pl.c.ctv == pl.c.pol) body * (D I * Clean N pl.next)) :
    run P (pl.pre ++ content P pl.c x ++ pl.post) * Clean N m = sem P T body * Clean N m := by
  have h1 : run P (content P pl.c x) * (D I * Clean N pl.next) =
      sem P (fun b => b pl.c.ctv == pl.c.pol) body * (D I * Clean N pl.next) := by
    rw [content, run_append, run_closing, mul_assoc, hx, ← mul_assoc, ← mul_assoc (Xp _ _) (Xp _ _), Xp_sq, one_mul]
  have hcz := comm_clean (N := N) hP hm hw
  have hc := comm_mul body h.comm hcz
  have hcl : D I * Clean N pl.next * (run P pl.pre * Clean N m) = run P pl.pre * Clean N m := by
    rw [mul_assoc, h.cl, h.impI]
  rw [run_append, run_append, mul_assoc, mul_assoc, ← hcl, ← mul_assoc (run P (content P pl.c x)), h1, mul_assoc (sem P _ _), hcl,
    sem_nat body hc h.sel, ← mul_assoc, ← mul_assoc, h.inv, one_mul]
  exact (sem_comm hcz (clean_D N m T)).eq

/-- The inverse of a piece of the circuit. -/
theorem undo_eq {R R' M M' Z : E} (h : R * Z = M * Z) (hR : R' * R = 1) (hM : M * M' = 1) (hZ : Commute M' Z) :
    R' * Z = M' * Z := by
  calc R' * Z = R' * (M * M') * Z := by rw [hM, mul_one]
    _ = R' * (M * Z) * M' := by simp only [mul_assoc]; rw [hZ.eq]
    _ = Z * M' := by rw [← h, ← mul_assoc, hR, one_mul]
    _ = M' * Z := hZ.eq.symm

theorem inverse_spec {S : E} (h : IsUnit S) : S * Ring.inverse S = 1 := Ring.mul_inverse_cancel S h

theorem comm_bit (hP : P.OK) {n : Nat} {c : Nat} {v : Bool} {p : Prog G K} {e S} (h : WF P n e S p) (ha : avoid P c p) :
    Comm P (D fun b => b c == v) p :=
  comm_D hP (bit_dep c v) h (by simpa using .inr ha)

theorem phase_when (φ : ℝ) (q : Nat) : op P (.p φ q : OpI G K) = when (fun b => b q == true) (Complex.exp (φ * Complex.I) • 1) := by
  simp only [op, when]
  rw [← dg_smul, D, D, dg_mul, dg_add]
  congr 1
  funext b
  cases b q <;> simp

theorem zc {A : E} {I : B → Bool} {N m : Nat} (h1 : Commute A (D I)) (h2 : Commute A (Clean N m)) :
    Commute A (D I * Clean N m) := h1.mul_right h2

theorem zz {I : B → Bool} {N m k : Nat} (h : m ≤ k) : D I * Clean N k * (D I * Clean N m) = D I * Clean N m := by
  rw [mul_assoc, ← mul_assoc (Clean N k), (clean_D N k I).eq, mul_assoc (D I) (Clean N k), clean_clean h, ← mul_assoc, D_sq]

theorem lift_I {R A : E} {I : B → Bool} {N m : Nat} (h : R * Clean N m = A * Clean N m) :
    R * (D I * Clean N m) = A * (D I * Clean N m) := by
  rw [← (clean_D N m I).eq, ← mul_assoc, h, mul_assoc]

theorem prodG_append (l l' : List G) : prodG P (l ++ l') = prodG P l' * prodG P l := by
  induction l with
  | nil => simp [prodG]
  | cons g l ih => simp [prodG, ih, mul_assoc]

theorem prodG_inv (hP : P.OK) (l : List G) : prodG P (l.reverse.map P.ginv) = Ring.inverse (prodG P l) := by
  have h : prodG P (l.reverse.map P.ginv) * prodG P l = 1 := by
    induction l with
    | nil => simp [prodG]
    | cons g l ih =>
      rw [List.reverse_cons, List.map_append, prodG_append]
      simp only [List.map_cons, List.map_nil, prodG, one_mul]
      rw [mul_assoc, ← mul_assoc (prodG P _) (prodG P l), ih, one_mul, hP.inv1]
  calc prodG P (l.reverse.map P.ginv) = prodG P (l.reverse.map P.ginv) * (prodG P l * Ring.inverse (prodG P l)) := by
        rw [inverse_spec (prodG_unit hP l), mul_one]
    _ = Ring.inverse (prodG P l) := by rw [← mul_assoc, h, one_mul]

theorem run_map {T : B → Bool} (f : G → OpI G K) (l : List G) (h : ∀ g ∈ l, op P (f g) = when T (P.mat g))
    (hc : ∀ g ∈ l, Commute (D T) (P.mat g)) : run P (l.map f) = when T (prodG P l) := by
  induction l with
  | nil => simp [run, prodG, when_one]
  | cons g l ih =>
    simp only [List.map_cons, run, prodG]
    rw [ih (fun g hg => h g (by simp [hg])) fun g hg => hc g (by simp [hg]), h g (by simp),
      when_mul (prodG_comm l fun g hg => hc g (by simp [hg]))]

/-- Conjugation only needs to control the body. -/
theorem conj_when {Q : B → Bool} {U U' V : E} (hc : Commute (D Q) U') (hU : U' * U = 1) :
    U' * when Q V * U = when Q (U' * V * U) := by
  unfold when
  have hc' : Commute (D fun b => !Q b) U' := by
    rw [D_not]; exact (Commute.one_left _).sub_left hc
  rw [mul_add, add_mul, ← mul_assoc, ← hc.eq, ← hc'.eq, mul_assoc (D fun b => !Q b), hU, mul_one]
  simp only [mul_assoc]

/-- A control qubit that is one anyway. -/
theorem when_imp {Q S I : B → Bool} {V : E} (h : ∀ b, I b = true → Q b = true → S b = true) (hV : Commute (D I) V) :
    when (fun b => Q b && S b) V * D I = when Q V * D I := by
  have h1 : D (fun b => Q b && S b) * D I = D Q * D I := by
    rw [D_mul, D_mul]
    congr 1
    funext b
    have := h b
    cases hi : I b <;> cases hq : Q b <;> simp_all
  unfold when
  rw [add_mul, add_mul, mul_assoc, ← hV.eq, ← mul_assoc, h1, mul_assoc (D Q) V, ← hV.eq, ← mul_assoc, D_not, D_not, sub_mul, h1,
    sub_mul]

theorem conj_run (hP : P.OK) {n : Nat} {c : Ctx} {e : Bool × Bool} {S : List Nat} {m : Nat} {s' : List Nat} {I : B → Bool}
    {us vs : List G} {r : Prog G K} (hw : WF P n (some e) S (.conj us vs r)) (hr : Rel P n (some c) (some e) (.conj us vs r) m)
    (hs' : ∀ a ∈ s', n ≤ a ∧ a ≠ c.ctv) (hI : Comm P (D I) (.conj us vs r)) (hgood : Good c I (.conj us vs r)) :
    run P (wrapAll P c s' ((conjOps P (some c) us vs).map (false, ·))) * D I =
      when (fun b => b c.ctv == c.pol) (Ring.inverse (prodG P us) * prodG P vs * prodG P us) * D I := by
  set Q : B → Bool := fun b => b c.ctv == c.pol with hQdef
  have hwr : wrapAll P c s' ((conjOps P (some c) us vs).map (false, ·)) = (conjOps P (some c) us vs).map (wrap P c s') := by
    simp [wrapAll, Function.comp_def]
  rw [hwr, conjOps, List.map_append, List.map_append, run_append, run_append, List.map_map (g := wrap P c s') (l := us), List.map_map (g := wrap P c s') (l := vs),
    List.map_map (g := wrap P c s') (l := List.map P.ginv _)]
  simp only [Function.comp_def]
  have hsup : ∀ g ∈ us ++ vs, ∀ q ∈ P.supp g, q ∉ s' ∧ q ≠ c.ctv := by
    intro g hg q hq
    refine ⟨fun h => ?_, ?_⟩
    · have := (hs' q h).1
      have := (hw.1 g hg).1 q hq
      omega
    · rintro rfl
      exact hr.2.2.1.1 g hg hq
  have hinv : ∀ g ∈ us.reverse.map P.ginv, ∃ u ∈ us, g = P.ginv u := by
    intro g hg
    obtain ⟨u, hu, rfl⟩ := List.mem_map.1 hg
    exact ⟨u, by simpa using hu, rfl⟩
  have hsup' : ∀ g ∈ us.reverse.map P.ginv, ∀ q ∈ P.supp g, q ∉ s' ∧ q ≠ c.ctv := by
    intro g hg
    obtain ⟨u, hu, rfl⟩ := hinv g hg
    rw [hP.supp_inv]
    exact hsup u (by simp [hu])
  have hctv : c.ctv ∉ s' := fun h => (hs' _ h).2 rfl
  have hcQ : ∀ g, (∀ q ∈ P.supp g, q ∉ s' ∧ q ≠ c.ctv) → Commute (D Q) (P.mat g) := fun g hg =>
    (bit_comm c.pol (hP.locZ g c.ctv fun h => (hg _ h).2 rfl)).symm
  have hone : ∀ g : G, Commute (D fun _ => true) (P.mat g) := fun g => by rw [D_true]; exact Commute.one_left _
  have hUU : Ring.inverse (prodG P us) * prodG P us = 1 := Ring.inverse_mul_cancel _ (prodG_unit hP us)
  have hQU := prodG_comm us fun g hg => hcQ g (hsup g (by simp [hg]))
  have hQV := prodG_comm vs fun g hg => hcQ g (hsup g (by simp [hg]))
  rcases hgood with hg | hg | ⟨u, hcu, himp⟩
  · exact hg.elim
  · have hqd : c.user.getD c.ctv = c.ctv := by rw [hg]; rfl
    rw [hqd]
    have hU : ∀ g, (∀ q ∈ P.supp g, q ∉ s' ∧ q ≠ c.ctv) →
        op P (wrap P c s' (.cus c.ctv (.gate g))) = when (fun _ => true) (P.mat g) := by
      intro g hg
      have hX : X c.ctv * P.mat g * X c.ctv = P.mat g := by
        rw [← (hP.locX g c.ctv fun h => (hg _ h).2 rfl).eq, mul_assoc, X_sq, mul_one]
      have h1 : ¬ ((OpI.cus c.ctv (.gate g) : OpI G K).qubits P).any (fun q => s'.contains q) = true := by
        simp [OpI.qubits, hctv]
        exact fun q hq => (hg q hq).1
      have h2 : ((OpI.cus c.ctv (.gate g) : OpI G K).qubits P).contains c.ctv = true := by simp [OpI.qubits]
      rw [wrap, if_neg h1, if_pos h2, when_true]
      split
      · rfl
      · exact hX
    have hV : ∀ g, (∀ q ∈ P.supp g, q ∉ s' ∧ q ≠ c.ctv) →
        op P (wrap P c s' (.ctl c.ctv true (.gate g))) = when Q (P.mat g) := by
      intro g hg
      have h1 : ¬ ((OpI.ctl c.ctv true (.gate g) : OpI G K).qubits P).any (fun q => s'.contains q) = true := by
        simp [OpI.qubits, hctv]
        exact fun q hq => (hg q hq).1
      have h2 : ((OpI.ctl c.ctv true (.gate g) : OpI G K).qubits P).contains c.ctv = true := by simp [OpI.qubits]
      rw [wrap, if_neg h1, if_pos h2]
      cases hp : c.pol
      · have hX : D (fun b : B => b c.ctv == false) * X c.ctv = X c.ctv * D fun b => b c.ctv == true := by
          rw [X_D]
          congr 2
          funext b
          rw [flip_at]
          cases b c.ctv <;> rfl
        have := when_nat hX (hP.locX g c.ctv fun h => (hg _ h).2 rfl).symm
        simp only [plain, Bool.or_false, Bool.false_eq_true, if_false, op, hQdef, hp]
        rw [← this, mul_assoc, X_sq, mul_one]
      · simp [plain, op, hQdef, hp]
    rw [run_map (T := fun _ => true) _ us (fun g hg => hU g (hsup g (by simp [hg]))) fun g _ => hone g,
      run_map (T := Q) _ vs (fun g hg => hV g (hsup g (by simp [hg]))) fun g hg => hcQ g (hsup g (by simp [hg])),
      run_map (T := fun _ => true) _ _ (fun g hg => hU g (hsup' g hg)) fun g _ => hone g, when_true, when_true, prodG_inv hP,
      ← mul_assoc, conj_when (ringInverse_commute hQU) hUU]
  · have hqd : c.user.getD c.ctv = u := by rw [hcu]; rfl
    obtain ⟨hun, hua, hnc⟩ := hr.2.2.2 u hcu
    have hus : u ∉ s' ∧ u ≠ c.ctv := ⟨fun h => by have := (hs' u h).1; omega, by omega⟩
    rw [hqd]
    have hU : ∀ g, (∀ q ∈ P.supp g, q ∉ s' ∧ q ≠ c.ctv) → op P (wrap P c s' (.cus u (.gate g))) = when Q (P.mat g) := by
      intro g hg
      have h1 : ¬ ((OpI.cus u (.gate g) : OpI G K).qubits P).any (fun q => s'.contains q) = true := by
        simp [OpI.qubits, hus.1]
        exact fun q hq => (hg q hq).1
      have h2 : ¬ ((OpI.cus u (.gate g) : OpI G K).qubits P).contains c.ctv = true := by
        simp [OpI.qubits]
        exact ⟨fun h => hus.2 h.symm, fun h => (hg _ h).2 rfl⟩
      rw [wrap, if_neg h1, if_neg h2]
      rfl
    have hV : ∀ g, (∀ q ∈ P.supp g, q ∉ s' ∧ q ≠ c.ctv) →
        op P (wrap P c s' (.ctl u true (.gate g))) = when (fun b => Q b && (b u == true)) (P.mat g) := by
      intro g hg
      have h1 : ¬ ((OpI.ctl u true (.gate g) : OpI G K).qubits P).any (fun q => s'.contains q) = true := by
        simp [OpI.qubits, hus.1]
        exact fun q hq => (hg q hq).1
      have h2 : ¬ ((OpI.ctl u true (.gate g) : OpI G K).qubits P).contains c.ctv = true := by
        simp [OpI.qubits]
        exact ⟨fun h => hus.2 h.symm, fun h => (hg _ h).2 rfl⟩
      rw [wrap, if_neg h1, if_neg h2, ← when_when]
      rfl
    have hcu2 : ∀ g ∈ vs, Commute (D fun b => Q b && (b u == true)) (P.mat g) := by
      intro g hg
      rw [← D_mul]
      exact (hcQ g (hsup g (by simp [hg]))).mul_left (bit_comm true (hP.locZ g u (hua.1 g (by simp [hg])))).symm
    have hIU := prodG_comm us fun g hg => hI.1 g (by simp [hg])
    have hIV := prodG_comm vs fun g hg => hI.1 g (by simp [hg])
    rw [run_map (T := Q) _ us (fun g hg => hU g (hsup g (by simp [hg]))) fun g hg => hcQ g (hsup g (by simp [hg])),
      run_map (T := fun b => Q b && (b u == true)) _ vs (fun g hg => hV g (hsup g (by simp [hg]))) hcu2,
      run_map (T := Q) _ _ (fun g hg => hU g (hsup' g hg)) fun g hg => hcQ g (hsup' g hg), prodG_inv hP,
      mul_assoc, mul_assoc, ← (Commute.when (D_comm _ _) hIU : Commute (D I) (when Q (prodG P us))).eq,
      ← mul_assoc (when (fun b => Q b && (b u == true)) _),
      when_imp (fun b h1 h2 => by simpa using himp b h1 h2) hIV, mul_assoc,
      (Commute.when (D_comm _ _) hIU : Commute (D I) (when Q (prodG P us))).eq, ← mul_assoc, ← mul_assoc,
      when_mul (((ringInverse_commute hQU)).mul_right hQV), when_mul (ringInverse_commute hQU)]

/-- Inside of an environment. -/
theorem main_some (hP : P.OK) {n N : Nat} (p : Prog G K) : ∀ {c : Ctx} {e S m s'} {I : B → Bool}, WF P n (some e) S p →
    Rel P n (some c) (some e) p m → n ≤ m → (comp P (some c) p m).2.2 ≤ N → (∀ a ∈ (comp P (some c) p m).2.1, a ∈ s') →
    (∀ a ∈ s', n ≤ a ∧ a ≠ c.ctv) → Comm P (D I) p → Good c I p → (e.2 = true → I = fun _ => true) →
    run P (wrapAll P c s' (comp P (some c) p m).1) * (D I * Clean N m) =
      Xp c.ctv (odd c.ctv (comp P (some c) p m).1) * sem P (fun b => b c.ctv == c.pol) p * (D I * Clean N m) := by
  induction p with
  | done => intro c e S m s' I _ _ _ _ _ _ _ _ _; simp [comp, wrapAll, run, odd, Xp, sem]
  | gate g r ih =>
    intro c e S m s' I hw hr hm hN hs hs' hI hg ht
    have hg' : wrap P c s' (.gate g) = .ctl c.ctv c.pol (.gate g) := by
      unfold wrap
      rw [if_neg, if_neg]
      · simp [OpI.qubits]; exact hr.2.2.1.1
      · simp [OpI.qubits]
        intro q hq h
        have := (hs' q h).1
        have := hw.1 q hq
        omega
    have h := ih (c := c) (m := m) hw.2.2 (rel_le hr le_rfl fun c h => h.2) hm hN hs hs' hI.2 hg ht
    have h1 : op P (wrap P c s' (.gate g)) * (D I * Clean N m) = when (fun b => b c.ctv == c.pol) (P.mat g) * (D I * Clean N m) := by
      rw [hg']; rfl
    have hcm : Commute (when (fun b => b c.ctv == c.pol) (P.mat g)) (D I * Clean N m) :=
      zc (Commute.when (D_comm _ _) hI.1).symm (Commute.when (clean_D N m _) (comm_clean (N := N) hP hm hw).1).symm
    have := seq h1 hcm (zz le_rfl) h
    simp only [comp, odd_cons, isX, Bool.false_xor, sem]
    rw [← mul_assoc]
    exact this
  | flip r ih =>
    intro c e S m s' I hw hr hm hN hs hs' hI hg ht
    have h := ih (c := c) (m := m) hw.2 (rel_le hr le_rfl fun c h => h) hm hN hs hs' hI hg ht
    have hg' : wrap P c s' (.x c.ctv : OpI G K) = .x c.ctv := by
      unfold wrap
      split
      · rfl
      · rw [if_pos (by simp [OpI.qubits])]
        simp [plain]
    have h1 : op P (wrap P c s' (.x c.ctv : OpI G K)) * (D I * Clean N m) = X c.ctv * (D I * Clean N m) := by rw [hg']; rfl
    have hIt : I = fun _ => true := ht (by simpa using hw.1)
    have hcm : Commute (X c.ctv) (D I * Clean N m) :=
      zc (by rw [hIt, D_true]; exact Commute.one_right _) (clean_X hr.2.1).symm
    have := seq h1 hcm (zz le_rfl) h
    have hX : D (fun b => b c.ctv == c.pol) * X c.ctv = X c.ctv * D fun b => !(b c.ctv == c.pol) := by
      rw [X_D]
      congr 2
      funext b
      rw [flip_at]
      cases b c.ctv <;> cases c.pol <;> rfl
    simp only [comp, sem, Option.map_some, Option.toList_some, List.cons_append, List.nil_append, odd_cons]
    rw [mul_assoc (Xp _ _), sem_nat r (comm_X hP r hr.2.2.1) hX, ← mul_assoc (Xp _ _)] at this
    have hodd : ∀ β, Xp c.ctv β * X c.ctv = Xp c.ctv (isX c.ctv (false, (.x c.ctv : OpI G K)) ^^ β) := by
      intro β
      cases β <;> simp [Xp, isX, X_sq]
    rw [hodd] at this
    exact this
  | phase φ r ih =>
    intro c e S m s' I hw hr hm hN hs hs' hI hg ht
    have h := ih (c := c) (m := m) hw.2 (rel_le hr le_rfl fun c h => h) hm hN hs hs' hI hg ht
    have hg' : wrap P c s' (.p φ c.ctv : OpI G K) = .p φ c.ctv := by
      unfold wrap
      split
      · rfl
      · rw [if_pos (by simp [OpI.qubits])]
        simp [plain]
    have hpol : c.pol = true := hr.1.trans (by simpa using hw.1)
    have h1 : op P (wrap P c s' (.p φ c.ctv : OpI G K)) * (D I * Clean N m) =
        when (fun b => b c.ctv == c.pol) (Complex.exp (φ * Complex.I) • 1) * (D I * Clean N m) := by rw [hg', phase_when, hpol]
    have hcm : Commute (when (fun b => b c.ctv == c.pol) (Complex.exp (φ * Complex.I) • 1)) (D I * Clean N m) :=
      zc (Commute.when (D_comm _ _) ((Commute.one_right _).smul_right _)).symm
        (Commute.when (clean_D N m _) ((Commute.one_right _).smul_right _)).symm
    have := seq h1 hcm (zz le_rfl) h
    simp only [comp, sem, Option.map_some, Option.toList_some, List.cons_append, List.nil_append, odd_cons, isX, Bool.false_xor]
    rw [← mul_assoc]
    exact this
  | rzt φ r ih => intro c e S m s' I hw; exact hw.elim
  | ctrl qs st i body r ihb ihr =>
    intro c e S m s' I hw hr hm hN hs hs' hI hg ht
    have hp := planB_ctrl hw hr hm
    have hwb := hw.2.2.2.2.2.1
    have hwr := hw.2.2.2.2.2.2
    have hx := compB hP body hwb (planB_rel hp) (by have := hp.next; omega)
    have h1 := hp.next
    have h2 := hx.le
    have hrr : Rel P n (some c) (some e) r _ := rel_le hr (le_trans h1 h2) fun c h => h.2.2
    have hy := compB hP r hwr hrr (by omega)
    have h3 := hy.le
    simp only [comp] at hN hs ⊢
    obtain ⟨J, hpo⟩ := planOK_ctrl (N := N) hP hw hr hm (by omega)
    have hb := ihb hwb (planB_rel hp) (by omega) (by omega) (fun a h => h)
      (fun a ha => by have := hx.subs rfl a ha; have := hp.ctv; omega) hpo.commI hpo.good hpo.top
    have hch := lift_I (I := I) (chunk hP hwb hm hpo hb)
    have hy := ihr (c := c) hwr hrr (by omega) hN (fun a ha => hs a (by simp [ha])) hs' hI.2.2 hg ht
    have hcz := comm_clean (N := N) hP hm hwb
    have hsa : sem P (condIn (some c) fun b => matches' qs st b ^^ i) body =
        when (fun b => b c.ctv == c.pol) (sem P (fun b => matches' qs st b ^^ i) body) :=
      sem_and body hwb (comm_bit hP hwb hr.2.2.1.2.1)
    rw [hsa] at hch
    have hcm : Commute (when (fun b => b c.ctv == c.pol) (sem P (fun b => matches' qs st b ^^ i) body)) (D I * Clean N m) :=
      zc (Commute.when (D_comm _ _) (sem_comm hI.2.1 (D_comm _ _))).symm
        (Commute.when (clean_D N m _) (sem_comm hcz (clean_D N m _))).symm
    have := seq hch hcm (zz (le_trans h1 h2)) hy
    rw [wrapAll_append, wrapAll_true, run_append, odd_append_of (by simp [isX])]
    simp only [sem]
    rw [← mul_assoc]
    exact this
  | cond k body r ihb ihr =>
    intro c e S m s' I hw hr hm hN hs hs' hI hg ht
    have hp := planB_cond hw hr hm
    have hwb := hw.2.2.1
    have hwr := hw.2.2.2
    have hx := compB hP body hwb (planB_rel hp) (by have := hp.next; omega)
    have h1 := hp.next
    have h2 := hx.le
    have hrr : Rel P n (some c) (some e) r _ := rel_le hr (le_trans h1 h2) fun c h => h.2.2
    have hy := compB hP r hwr hrr (by omega)
    have h3 := hy.le
    simp only [comp] at hN hs ⊢
    have hpo := planOK_cond (N := N) hP hw hr hm (by omega)
    have hb := ihb hwb (planB_rel hp) (by omega) (by omega) (fun a h => h)
      (fun a ha => by have := hx.subs rfl a ha; have := hp.ctv; omega) hpo.commI hpo.good hpo.top
    have hch := lift_I (I := I) (chunk hP hwb hm hpo hb)
    have hy := ihr (c := c) hwr hrr (by omega) hN (fun a ha => hs a (by simp [ha])) hs' hI.2.2 hg ht
    have hcz := comm_clean (N := N) hP hm hwb
    have hsa : sem P (condIn (some c) (P.pred k)) body = when (fun b => b c.ctv == c.pol) (sem P (P.pred k) body) :=
      sem_and body hwb (comm_bit hP hwb hr.2.2.1.2.1)
    rw [hsa] at hch
    have hcm : Commute (when (fun b => b c.ctv == c.pol) (sem P (P.pred k) body)) (D I * Clean N m) :=
      zc (Commute.when (D_comm _ _) (sem_comm hI.2.1 (D_comm _ _))).symm
        (Commute.when (clean_D N m _) (sem_comm hcz (clean_D N m _))).symm
    have := seq hch hcm (zz (le_trans h1 h2)) hy
    rw [wrapAll_append, wrapAll_true, run_append, odd_append_of (by simp [isX])]
    simp only [sem]
    rw [← mul_assoc]
    exact this
  | undo body r ihb ihr =>
    intro c e S m s' I hw hr hm hN hs hs' hI hg ht
    have hwb := hw.2.1
    have hnc : noCond body := by simpa using hw.1
    have hrb : Rel P n (some c) (some (e.1, false)) body m := rel_undo (rel_le hr le_rfl fun c h => h.1)
    have hx := compB hP body hwb hrb hm
    have h2 := hx.le
    have hrr : Rel P n (some c) (some e) r _ := rel_le hr h2 fun c h => h.2
    have hy := compB hP r hw.2.2 hrr (by omega)
    have h3 := hy.le
    simp only [comp] at hN hs ⊢
    have hgb : Good c I body := hg.imp_left fun h => h.1
    have hgr : Good c I r := hg.imp_left fun h => h.2
    have hb := ihb (c := c) hwb hrb hm (by omega) (fun a ha => hs a (by simp [ha])) hs' hI.1 hgb (by simp)
    have hnx := hx.noX e.1 rfl
    rw [odd_noX hnx] at hb
    have hsa : sem P (fun b => b c.ctv == c.pol) body =
        when (fun b => b c.ctv == c.pol) (sem P (fun _ => true) body) := by
      have := sem_and (T := fun _ => true) body hwb (comm_bit (v := c.pol) hP hwb hr.2.2.1.1)
      simpa using this
    have hb' : run P (wrapAll P c s' (comp P (some c) body m).1) * (D I * Clean N m) =
        when (fun b => b c.ctv == c.pol) (sem P (fun _ => true) body) * (D I * Clean N m) := by
      rw [← hsa]; simpa [Xp] using hb
    have hl : wrapAll P c s' ((comp P (some c) body m).1.reverse.map fun o => (false, o.2.inv P)) =
        (wrapAll P c s' (comp P (some c) body m).1).reverse.map (·.inv P) := by
      simp only [wrapAll, List.map_map, ← List.map_reverse]
      refine List.map_congr_left ?_
      intro o ho
      have ho := List.mem_reverse.1 ho
      simp only [Function.comp, Bool.false_eq_true, if_false]
      rw [wrap_inv hP]
      split
      · rename_i hf
        obtain ⟨q, hq1, hq2⟩ := hx.touch rfl hnc o ho hf
        unfold wrap
        rw [if_pos]
        simp only [List.any_eq_true, List.contains_iff_mem]
        exact ⟨q, hq1, hs q (by simp [hq2])⟩
      · rfl
    have hinv := run_inv hP (wrapAll P c s' (comp P (some c) body m).1) fun o ho => (wrapAll_bd hx.bd o ho).1
    have hS1 : IsUnit (sem P (fun _ => true) body) := sem_unit hP body hwb (by rw [D_true]; exact one_comm body)
    have hcz := comm_clean (N := N) hP hm hwb
    have hcQ := comm_bit (v := c.pol) hP hwb hr.2.2.1.1
    have hMM : when (fun b => b c.ctv == c.pol) (sem P (fun _ => true) body) *
        when (fun b => b c.ctv == c.pol) (Ring.inverse (sem P (fun _ => true) body)) = 1 := by
      rw [← when_mul (sem_comm hcQ (D_comm _ _)), inverse_spec hS1, when_one]
    have hcm : Commute (when (fun b => b c.ctv == c.pol) (Ring.inverse (sem P (fun _ => true) body))) (D I * Clean N m) :=
      zc (Commute.when (D_comm _ _) (ringInverse_commute (sem_comm hI.1 (D_comm _ _)))).symm (Commute.when (clean_D N m _) (ringInverse_commute (sem_comm hcz (clean_D N m _)))).symm
    have hu := undo_eq hb' hinv hMM hcm
    rw [← hl] at hu
    have hy := ihr (c := c) hw.2.2 hrr (by omega) hN (fun a ha => hs a (by simp [ha])) hs' hI.2 hgr ht
    have := seq hu hcm (zz h2) hy
    have hno : ∀ o ∈ (comp P (some c) body m).1.reverse.map fun o => (false, o.2.inv P), isX c.ctv o = false := by
      intro o ho
      obtain ⟨y, hy, rfl⟩ := List.mem_map.1 ho
      have h5 := hnx y (List.mem_reverse.1 hy)
      cases hy2 : y.2 with
      | x a => exact absurd hy2 (h5 a)
      | _ => simp [OpI.inv, isX]
    rw [wrapAll_append, run_append, odd_append_of hno]
    simp only [sem]
    rw [← mul_assoc]
    exact this
  | conj us vs r ih =>
    intro c e S m s' I hw hr hm hN hs hs' hI hg ht
    have hgr : Good c I r := hg.elim (fun h => h.elim) .inr
    have h := ih (c := c) (m := m) hw.2 (rel_le hr le_rfl fun c h => h.2) hm hN hs hs' hI.2 hgr ht
    have h1 := conj_run hP hw hr hs' hI hg
    have h1' : run P (wrapAll P c s' ((conjOps P (some c) us vs).map (false, ·))) * (D I * Clean N m) =
        when (fun b => b c.ctv == c.pol) (Ring.inverse (prodG P us) * prodG P vs * prodG P us) * (D I * Clean N m) := by
      rw [← mul_assoc, h1, mul_assoc]
    have hcm : Commute (when (fun b => b c.ctv == c.pol) (Ring.inverse (prodG P us) * prodG P vs * prodG P us)) (D I * Clean N m) :=
      zc (Commute.when (D_comm _ _) (conj_comm hI.1)).symm (Commute.when (clean_D N m _) (conj_comm (comm_clean (N := N) hP hm hw).1)).symm
    have := seq h1' hcm (zz le_rfl) h
    simp only [comp]
    rw [wrapAll_append, run_append, odd_append_of (by
      intro o ho
      obtain ⟨y, hy, rfl⟩ := List.mem_map.1 ho
      have := (conj_bd hP (m := m) (m' := m) hw hr y hy).2
      cases y with
      | x a => exact absurd rfl (this a)
      | _ => rfl)]
    simp only [sem]
    rw [← mul_assoc]
    exact this

/-- Outside of all environments. -/
theorem main_none (hP : P.OK) {n N : Nat} (p : Prog G K) : ∀ {S m}, WF P n none S p → n ≤ m → (comp P none p m).2.2 ≤ N →
    run P (compile P p m) * Clean N m = sem P (fun _ => true) p * Clean N m := by
  induction p with
  | done => intros; simp [compile, comp, run, sem]
  | gate g r ih =>
    intro S m hw hm hN
    have h := ih (m := m) hw.2.2 hm hN
    have hcm : Commute (P.mat g) (Clean N m) := (comm_clean (N := N) hP hm hw).1.symm
    have := seq (R1 := P.mat g) rfl hcm (clean_clean le_rfl) h
    simpa [compile, comp, run, sem, when_true, op] using this
  | flip r ih => intro S m hw; simp [WF] at hw
  | phase φ r ih => intro S m hw; simp [WF] at hw
  | rzt φ r ih => intro S m hw; simp [WF] at hw
  | ctrl qs st i body r ihb ihr =>
    intro S m hw hm hN
    have hr : Rel P n none none (.ctrl qs st i body r) m := trivial
    have hp := planB_ctrl hw hr hm
    have hwb := hw.2.2.2.2.2.1
    have hwr := hw.2.2.2.2.2.2
    have hx := compB hP body hwb (planB_rel hp) (by have := hp.next; omega)
    have h1 := hp.next
    have h2 := hx.le
    have hy := compB (cx := none) (m := (comp P (some (planCtrl none qs st i m : Plan G K).c) body (planCtrl none qs st i m : Plan G K).next).2.2)
      hP r hwr trivial (by omega)
    have h3 := hy.le
    simp only [comp] at hN
    obtain ⟨J, hpo⟩ := planOK_ctrl (N := N) hP hw hr hm (by omega)
    have hb := main_some (N := N) hP body hwb (planB_rel hp) (by omega) (by omega) (fun a h => h)
      (fun a ha => by have := hx.subs rfl a ha; have := hp.ctv; omega) hpo.commI hpo.good hpo.top
    have hch := chunk hP hwb hm hpo hb
    have hy := ihr hwr (by omega) hN
    have hcz := comm_clean (N := N) hP hm hwb
    have := seq hch (sem_comm hcz (clean_D N m _)).symm (clean_clean (le_trans h1 h2)) hy
    simp only [compile, comp, List.map_append, List.map_map, run_append, sem, when_true] at this ⊢
    simpa [Function.comp_def, condIn] using this
  | cond k body r ihb ihr =>
    intro S m hw hm hN
    have hr : Rel P n none none (.cond k body r) m := trivial
    have hp := planB_cond hw hr hm
    have hwb := hw.2.2.1
    have hwr := hw.2.2.2
    have hx := compB hP body hwb (planB_rel hp) (by have := hp.next; omega)
    have h1 := hp.next
    have h2 := hx.le
    have hy := compB (cx := none) (m := (comp P (some (planCond none k m : Plan G K).c) body (planCond none k m : Plan G K).next).2.2)
      hP r hwr trivial (by omega)
    have h3 := hy.le
    simp only [comp] at hN
    have hpo := planOK_cond (N := N) hP hw hr hm (by omega)
    have hb := main_some (N := N) hP body hwb (planB_rel hp) (by omega) (by omega) (fun a h => h)
      (fun a ha => by have := hx.subs rfl a ha; have := hp.ctv; omega) hpo.commI hpo.good hpo.top
    have hch := chunk hP hwb hm hpo hb
    have hy := ihr hwr (by omega) hN
    have hcz := comm_clean (N := N) hP hm hwb
    have := seq hch (sem_comm hcz (clean_D N m _)).symm (clean_clean (le_trans h1 h2)) hy
    simp only [compile, comp, List.map_append, List.map_map, run_append, sem, when_true] at this ⊢
    simpa [Function.comp_def, condIn] using this
  | undo body r ihb ihr =>
    intro S m hw hm hN
    have hwb : WF P n none S body := hw.2.1
    have hx := compB (cx := none) (m := m) hP body hwb trivial hm
    have h2 := hx.le
    have hy := compB (cx := none) (m := (comp P none body m).2.2) hP r hw.2.2 trivial (by omega)
    have h3 := hy.le
    simp only [comp] at hN
    have hb := ihb hwb hm (by omega)
    have hinv := run_inv hP (compile P body m) fun o ho => by
      obtain ⟨y, hy, rfl⟩ := List.mem_map.1 ho
      exact (hx.bd y hy).1
    have hS1 : IsUnit (sem P (fun _ => true) body) := sem_unit hP body hwb (by rw [D_true]; exact one_comm body)
    have hcz := comm_clean (N := N) hP hm hwb
    have hcm : Commute (Ring.inverse (sem P (fun _ => true) body)) (Clean N m) :=
      (ringInverse_commute (sem_comm hcz (clean_D N m _))).symm
    have hu := undo_eq hb hinv (inverse_spec hS1) hcm
    have hy := ihr hw.2.2 (by omega) hN
    have := seq hu hcm (clean_clean h2) hy
    simp only [compile, comp, List.map_append, List.map_map, run_append, sem, when_true] at this ⊢
    simpa [Function.comp_def, List.map_reverse] using this
  | conj us vs r ih =>
    intro S m hw hm hN
    have h := ih (m := m) hw.2 hm hN
    have hcm : Commute (Ring.inverse (prodG P us) * prodG P vs * prodG P us) (Clean N m) :=
      (conj_comm (comm_clean (N := N) hP hm hw).1).symm
    have hrun : run P (conjOps P none us vs) = Ring.inverse (prodG P us) * prodG P vs * prodG P us := by
      have hone : ∀ l : List G, ∀ g ∈ l, Commute (D fun _ => true) (P.mat g) := fun l g _ => by
        rw [D_true]; exact Commute.one_left _
      have hop : ∀ l : List G, ∀ g ∈ l, op P (.gate g : OpI G K) = when (fun _ => true) (P.mat g) := fun l g _ => by
        rw [when_true]; rfl
      rw [conjOps, run_append, run_append, run_map _ _ (hop _) (hone _), run_map _ _ (hop _) (hone _), run_map _ _ (hop _) (hone _),
        when_true, when_true, when_true, prodG_inv hP, mul_assoc]
    have := seq (R1 := run P (conjOps P none us vs)) (by rw [hrun]) hcm (clean_clean le_rfl) h
    simp only [compile, comp, List.map_append, List.map_map, run_append, sem, when_true] at this ⊢
    simpa [Function.comp_def] using this

end Verif.Env
