import Verif.Jasp.Prog

/-!
# Control of Jasp programs

`jasp/jasp_expression/control_transform.py`: every gate of the program, also inside calls, loops
and branches, gets one more control; several controls are first combined in an auxiliary qubit.
-/

namespace Verif.Jasp

variable {U : Type}

/-- `control_jaspr` with `control_eqn` (control_transform.py:93-264) for the control qubit variable
    `c`, which becomes the first argument of the called programs too.  The test for measurements
    (247) compares with the name `measure`, but the name of the primitive is `jasp.measure`
    (jasp/primitives/quantum_primitive.py:22-25), so it never applies. -/
def ctl (c : Var) : P U → P U
  | .done => .done
  | .cls f i o r => .cls f i o (ctl c r)
  | .add s o a k r => .add s o a k (ctl c r)
  | .mark o u t r => .mark o u t (ctl c r)
  | .gate cst u ps qs r => .gate (true :: cst) u ps (c :: qs) (ctl c r)
  | .meas o q r => .meas o q (ctl c r)
  | .reset q r => .reset q (ctl c r)
  | .create o s r => .create o s (ctl c r)
  | .delete a r => .delete a (ctl c r)
  | .call id ji jo b i o r => .call id (c :: ji) jo (ctl c b) (c :: i) o (ctl c r)
  | .whl id ix le pa pb bi bo b k cs o r =>
      .whl id ix le pa pb (c :: bi) bo (ctl c b) (c :: k) cs o (ctl c r)
  | .cond id p ti tt t fi ft f i o r =>
      .cond id p (c :: ti) tt (ctl c t) (c :: fi) ft (ctl c f) (c :: i) o (ctl c r)

/-- The new variable does not occur in the program. -/
def Fresh (c : Var) : P U → Prop
  | .done => True
  | .cls _ i o r => c ∉ i ∧ c ∉ o ∧ Fresh c r
  | .add _ o a _ r => c ≠ o ∧ c ≠ a ∧ Fresh c r
  | .mark o u _ r => c ≠ o ∧ c ≠ u ∧ Fresh c r
  | .gate _ _ ps qs r => c ∉ ps ∧ c ∉ qs ∧ Fresh c r
  | .meas o q r => c ≠ o ∧ c ≠ q ∧ Fresh c r
  | .reset q r => c ≠ q ∧ Fresh c r
  | .create o s r => c ≠ o ∧ c ≠ s ∧ Fresh c r
  | .delete a r => c ≠ a ∧ Fresh c r
  | .call _ ji jo b i o r => c ∉ ji ∧ c ∉ jo ∧ Fresh c b ∧ c ∉ i ∧ c ∉ o ∧ Fresh c r
  | .whl _ _ _ _ _ bi bo b k cs o r => c ∉ bi ∧ c ∉ bo ∧ Fresh c b ∧ c ∉ k ∧ c ∉ cs ∧ c ∉ o ∧ Fresh c r
  | .cond _ p ti tt t fi ft f i o r => c ≠ p ∧ c ∉ ti ∧ c ∉ tt ∧ Fresh c t ∧ c ∉ fi ∧ c ∉ ft ∧
      Fresh c f ∧ c ∉ i ∧ c ∉ o ∧ Fresh c r

/-- One more control for a gate. -/
def addCtrl (q : Qubit) : Ev U → Ev U
  | .gate u cs qs => .gate u ((q, true) :: cs) qs
  | e => e

/-- The variables apart from `c` agree, and `c` is the qubit `q`. -/
def Ext (c : Var) (q : Qubit) (Γ Γ' : Ctx) : Prop :=
  (∀ v, v ≠ c → Γ v = Γ' v) ∧ Γ' c = some (.qb q)

theorem Ext.set {c : Var} {q : Qubit} {Γ Γ' : Ctx} (h : Ext c q Γ Γ') {o : Var} (ho : c ≠ o)
    (x : Val) : Ext c q (Γ.set o x) (Γ'.set o x) := by
  refine ⟨fun v hv => ?_, ?_⟩
  · simp only [Ctx.set]; split <;> [rfl; exact h.1 v hv]
  · simp only [Ctx.set, if_neg ho]; exact h.2

theorem Ext.gets {c : Var} {q : Qubit} {Γ Γ' : Ctx} (h : Ext c q Γ Γ') {vs : List Var}
    (hv : c ∉ vs) : gets Γ' vs = gets Γ vs :=
  gets_congr (fun v hm => (h.1 v (fun e => hv (e ▸ hm))).symm)

theorem Ext.sets {c : Var} {q : Qubit} {Γ Γ' : Ctx} (h : Ext c q Γ Γ') {vs : List Var}
    {xs : List Val} (hv : c ∉ vs) {d : Ctx} (hs : sets Γ vs xs = some d) :
    ∃ d', sets Γ' vs xs = some d' ∧ Ext c q d d' := by
  obtain ⟨d', h1, h2⟩ := sets_congr (X := fun v => v = c) (c' := Γ') h.1 hs
  exact ⟨d', h1, h2, by rw [sets_frame h1 c hv, h.2]⟩

/-- Entering a called program with the control as first argument. -/
theorem ext_enter {c : Var} {q : Qubit} {ji : List Var} {xs : List Val} (hv : c ∉ ji) {d : Ctx}
    (hs : sets (fun _ => none) ji xs = some d) :
    ∃ d', sets (fun _ => none) (c :: ji) (.qb q :: xs) = some d' ∧ Ext c q d d' := by
  simp only [Verif.Jasp.sets]
  obtain ⟨d', h1, h2⟩ := sets_congr (X := fun v => v = c)
    (c' := (Ctx.set (fun _ => none) c (.qb q))) (fun v hv => by simp [Ctx.set, hv]) hs
  exact ⟨d', h1, h2, by rw [sets_frame h1 c hv]; simp [Ctx.set]⟩

theorem gateEv_ctl {cst : List Bool} {u : List Int → U} {xs bs : List Val} {e : Ev U} (q : Qubit)
    (h : gateEv cst u xs bs = some e) :
    gateEv (true :: cst) u xs (.qb q :: bs) = some (addCtrl q e) := by
  simp only [gateEv, Option.bind_eq_some_iff] at h
  obtain ⟨ys, h1, qs, h2, h3⟩ := h
  split at h3
  · rename_i hl
    simp only [Option.some.injEq] at h3
    subst h3
    simp only [gateEv, h1, allM, Val.toQb, Option.bind_some, h2, List.length_cons,
      Nat.add_le_add_iff_right, if_pos hl, List.take_succ_cons, List.zip_cons_cons,
      List.drop_succ_cons, addCtrl]
  · simp at h3

variable {orc : List Int → Var → Int} {fuel : Nat}

theorem loop_ctl {F G : List Val → Option (List Val × List (Ev U))} {cf : List Val → Option Bool}
    {q : Qubit} (H : ∀ vs r, F vs = some r → G vs = some (r.1, r.2.map (addCtrl q))) :
    ∀ n vs r, loop F cf n vs = some r → loop G cf n vs = some (r.1, r.2.map (addCtrl q)) := by
  intro n
  induction n with
  | zero => intro vs r h; simp [loop] at h
  | succ n ih =>
    intro vs r h
    simp only [loop, Option.bind_eq_some_iff] at h
    obtain ⟨b, hb, h⟩ := h
    cases b with
    | false =>
      simp only [Bool.false_eq_true, if_false, Option.some.injEq] at h
      subst h
      simp [loop, hb]
    | true =>
      simp only [if_true, Option.bind_eq_some_iff, Option.some.injEq] at h
      obtain ⟨r1, h1, r2, h2, rfl⟩ := h
      simp only [loop, hb, Option.bind_some, if_true, H vs r1 h1, ih r1.1 r2 h2]
      simp

/-- The controlled program executes the same operations, the gates with one more control. -/
theorem eval_ctl {c : Var} {q : Qubit} : ∀ {p : P U} {path : List Int} {Γ Γ' : Ctx}
    {z : Ctx × List (Ev U)}, Fresh c p → Ext c q Γ Γ' → eval orc fuel p path Γ = some z →
    ∃ d, eval orc fuel (ctl c p) path Γ' = some (d, z.2.map (addCtrl q)) ∧ Ext c q z.1 d := by
  intro p
  induction p with
  | done =>
    intro path Γ Γ' z _ hx he
    simp only [eval, Option.some.injEq] at he
    subst he; exact ⟨Γ', rfl, hx⟩
  | cls f i o r ih =>
    intro path Γ Γ' z hf hx he
    simp only [eval, Option.bind_eq_some_iff] at he
    obtain ⟨xs, h1, ys, h2, c1, h3, h4⟩ := he
    obtain ⟨c1', h3', hc⟩ := hx.sets hf.2.1 h3
    obtain ⟨d, h5, h6⟩ := ih hf.2.2 hc h4
    exact ⟨d, by simp only [ctl, eval, hx.gets hf.1, h1, Option.bind_some, h2, h3', h5], h6⟩
  | add s o a k r ih =>
    intro path Γ Γ' z hf hx he
    simp only [eval, Option.bind_eq_some_iff] at he
    obtain ⟨x, h1, y, h2, h4⟩ := he
    obtain ⟨d, h5, h6⟩ := ih hf.2.2 (hx.set hf.1 _) h4
    exact ⟨d, by simp only [ctl, eval, ← hx.1 a (Ne.symm hf.2.1), h1, Option.bind_some, h2, h5], h6⟩
  | mark o u t r ih =>
    intro path Γ Γ' z hf hx he
    simp only [eval, Option.bind_eq_some_iff] at he
    obtain ⟨x, h1, h4⟩ := he
    obtain ⟨d, h5, h6⟩ := ih hf.2.2 (hx.set hf.1 _) h4
    exact ⟨d, by simp only [ctl, eval, ← hx.1 u (Ne.symm hf.2.1), h1, Option.bind_some, h5], h6⟩
  | gate cst u ps qs r ih =>
    intro path Γ Γ' z hf hx he
    simp only [eval, Option.bind_eq_some_iff, Option.some.injEq] at he
    obtain ⟨xs, h1, bs, h2, e, h3, z', h4, rfl⟩ := he
    obtain ⟨d, h5, h6⟩ := ih hf.2.2 hx h4
    refine ⟨d, ?_, h6⟩
    simp only [ctl, eval, hx.gets hf.1, h1, Option.bind_some, gets, hx.2, hx.gets hf.2.1, h2,
      gateEv_ctl q h3, h5, List.map_cons]
  | meas o a r ih =>
    intro path Γ Γ' z hf hx he
    simp only [eval, Option.bind_eq_some_iff, Option.some.injEq] at he
    obtain ⟨x, h1, y, h2, z', h4, rfl⟩ := he
    obtain ⟨d, h5, h6⟩ := ih hf.2.2 (hx.set hf.1 _) h4
    exact ⟨d, by simp only [ctl, eval, ← hx.1 a (Ne.symm hf.2.1), h1, Option.bind_some, h2, h5,
      List.map_cons, addCtrl], h6⟩
  | reset a r ih =>
    intro path Γ Γ' z hf hx he
    simp only [eval, Option.bind_eq_some_iff, Option.some.injEq] at he
    obtain ⟨x, h1, y, h2, z', h4, rfl⟩ := he
    obtain ⟨d, h5, h6⟩ := ih hf.2 hx h4
    exact ⟨d, by simp only [ctl, eval, ← hx.1 a (Ne.symm hf.1), h1, Option.bind_some, h2, h5,
      List.map_cons, addCtrl], h6⟩
  | create o a r ih =>
    intro path Γ Γ' z hf hx he
    simp only [eval, Option.bind_eq_some_iff, Option.some.injEq] at he
    obtain ⟨x, h1, y, h2, z', h4, rfl⟩ := he
    obtain ⟨d, h5, h6⟩ := ih hf.2.2 (hx.set hf.1 _) h4
    exact ⟨d, by simp only [ctl, eval, ← hx.1 a (Ne.symm hf.2.1), h1, Option.bind_some, h2, h5,
      List.map_cons, addCtrl], h6⟩
  | delete a r ih =>
    intro path Γ Γ' z hf hx he
    simp only [eval, Option.bind_eq_some_iff, Option.some.injEq] at he
    obtain ⟨x, h1, y, h2, z', h4, rfl⟩ := he
    obtain ⟨d, h5, h6⟩ := ih hf.2 hx h4
    exact ⟨d, by simp only [ctl, eval, ← hx.1 a (Ne.symm hf.1), h1, Option.bind_some, h2, h5,
      List.map_cons, addCtrl], h6⟩
  | call id ji jo b i o r ihb ih =>
    intro path Γ Γ' z hf hx he
    simp only [eval, Option.bind_eq_some_iff, Option.some.injEq] at he
    obtain ⟨xs, h1, c0, h2, z0, h3, ys, h4, c1, h5, z', h6, rfl⟩ := he
    obtain ⟨f1, f2, f3, f4, f5, f6⟩ := hf
    obtain ⟨c0', h2', hc0⟩ := ext_enter (q := q) f1 h2
    obtain ⟨d0, h3', hd0⟩ := ihb f3 hc0 h3
    obtain ⟨c1', h5', hc1⟩ := hx.sets f5 h5
    obtain ⟨d, h7, h8⟩ := ih f6 hc1 h6
    refine ⟨d, ?_, h8⟩
    simp only [ctl, eval]
    rw [show gets Γ' (c :: i) = some (.qb q :: xs) by
      simp only [gets, hx.2, hx.gets f4, h1, Option.bind_some]]
    simp only [Option.bind_some, h2', h3', hd0.gets f2, h4, h5', h7, List.map_append]
  | whl id ix le pa pb bi bo b k cs o r ihb ih =>
    intro path Γ Γ' z hf hx he
    simp only [eval, Option.bind_eq_some_iff, Option.some.injEq] at he
    obtain ⟨ks, h1, xs, h2, z0, h3, c1, h5, z', h6, rfl⟩ := he
    obtain ⟨f1, f2, f3, f4, f5, f6, f7⟩ := hf
    obtain ⟨c1', h5', hc1⟩ := hx.sets f6 h5
    obtain ⟨d, h7, h8⟩ := ih f7 hc1 h6
    refine ⟨d, ?_, h8⟩
    simp only [ctl, eval]
    rw [show gets Γ' (c :: k) = some (.qb q :: ks) by
      simp only [gets, hx.2, hx.gets f4, h1, Option.bind_some], hx.gets f5, h2]
    simp only [Option.bind_some]
    rw [loop_ctl (q := q) (fun vs r hr => by
      simp only [Option.bind_eq_some_iff, Option.some.injEq] at hr
      obtain ⟨i, g1, j, g2, c0, g3, zb, g4, ys, g5, rfl⟩ := hr
      obtain ⟨c0', g3', hc0⟩ := ext_enter (q := q) f1 g3
      obtain ⟨d0, g4', hd0⟩ := ihb f3 hc0 g4
      simp only [g1, g2, Option.bind_some, List.cons_append, g3', g4', hd0.gets f2, g5]) fuel xs z0 h3]
    simp only [Option.bind_some, h5', h7, List.map_append]
  | cond id p ti tt t fi ft f i o r iht ihf ih =>
    intro path Γ Γ' z hf hx he
    simp only [eval, Option.bind_eq_some_iff, Option.some.injEq] at he
    obtain ⟨x, h0, n, h0', xs, h1, z0, h3, c1, h5, z', h6, rfl⟩ := he
    obtain ⟨f0, f1, f2, f3, f4, f5, f6, f7, f8, f9⟩ := hf
    obtain ⟨c1', h5', hc1⟩ := hx.sets f8 h5
    obtain ⟨d, h7, h8⟩ := ih f9 hc1 h6
    refine ⟨d, ?_, h8⟩
    simp only [ctl, eval]
    rw [← hx.1 p (Ne.symm f0), h0, show gets Γ' (c :: i) = some (.qb q :: xs) by
      simp only [gets, hx.2, hx.gets f7, h1, Option.bind_some]]
    simp only [Option.bind_some, h0']
    have hbr : (if n = 0 then (sets (fun _ => none) (c :: fi) (.qb q :: xs)).bind fun c0 =>
            (eval orc fuel (ctl c f) (0 :: (id : Int) :: path) c0).bind fun z =>
              (gets z.1 ft).bind fun ys => some (ys, z.2)
        else (sets (fun _ => none) (c :: ti) (.qb q :: xs)).bind fun c0 =>
            (eval orc fuel (ctl c t) (1 :: (id : Int) :: path) c0).bind fun z =>
              (gets z.1 tt).bind fun ys => some (ys, z.2)) = some (z0.1, z0.2.map (addCtrl q)) := by
      by_cases hn : n = 0
      · rw [if_pos hn] at h3 ⊢
        simp only [Option.bind_eq_some_iff, Option.some.injEq] at h3
        obtain ⟨c0, g1, zb, g2, ys, g3, rfl⟩ := h3
        obtain ⟨c0', g1', hc0⟩ := ext_enter (q := q) f4 g1
        obtain ⟨d0, g2', hd0⟩ := ihf f6 hc0 g2
        simp only [g1', Option.bind_some, g2', hd0.gets f5, g3]
      · rw [if_neg hn] at h3 ⊢
        simp only [Option.bind_eq_some_iff, Option.some.injEq] at h3
        obtain ⟨c0, g1, zb, g2, ys, g3, rfl⟩ := h3
        obtain ⟨c0', g1', hc0⟩ := ext_enter (q := q) f1 g1
        obtain ⟨d0, g2', hd0⟩ := iht f3 hc0 g2
        simp only [g1', Option.bind_some, g2', hd0.gets f2, g3]
    rw [hbr]
    simp only [Option.bind_some, h5', h7, List.map_append]

/-- `multi_control_jaspr` / `exec_multi_controlled_jaspr` (control_transform.py:267-337) for the control
    qubits `cv` and the states `cs` (one letter of `ctrl_state` per control): one control is
    flipped around the program if its state is 0; several controls are written to an auxiliary
    `QuantumBool` (array `a`, its qubit `g`) which controls the program.  `x` is the X gate. -/
def multiCtl (x : U) (cs : List Bool) (cv : List Var) (s a g : Var) (p : P U) : P U :=
  match cv with
  | [c] =>
      let flip : P U := if cs = [false] then .gate [] (fun _ => x) [] [c] .done else .done
      flip.app ((ctl c p).app flip)
  | _ =>
      .cls (fun _ => some [.int 1]) [] [s] (.create a s (.cls (fun
          | [.arr (q :: _)] => some [.qb q]
          | _ => none) [a] [g]
        (.gate cs (fun _ => x) [] (cv ++ [g]) ((ctl g p).app
          (.gate cs (fun _ => x) [] (cv ++ [g]) (.delete a .done))))))

/-- The control states for an integer `ctrl_state` in `Jaspr.control` (jasp/jasp_expression/centerclass.py:346-350)
    and `ControlledJaspr.control` (control_transform.py:59-63): the binary digits, highest first. -/
def jaspCtrlState (n k : Nat) : List Bool := (List.range n).map fun j => k.testBit (n - 1 - j)

/-- The control states for an integer in `ControlEnvironment` (environments/control_environment.py:72-76)
    and `Operation.control` (circuit/operation.py:645-648): lowest digit first. -/
def envCtrlState (n k : Nat) : List Bool := (List.range n).map fun j => k.testBit j

end Verif.Jasp
