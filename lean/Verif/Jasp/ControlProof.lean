import Verif.Jasp.Control

/-!
# Several controls: execution with control qubits in classical states
-/

namespace Verif.Jasp

variable {U : Type} [DecidableEq U]

/-- Execution of a trace in which the qubits `C` are in classical states `σ`: a gate is executed only if its controls
    among `C` have the values for which it is active, and then only its other controls remain; the gate `x` on a qubit of
    `C` without other controls flips its value; a new qubit is 0.  The result is the final
    state of `C` and the operations executed on the other qubits. -/
def runC (x : U) (C : List Qubit) : (Qubit → Bool) → List (Ev U) → (Qubit → Bool) × List (Ev U)
  | σ, [] => (σ, [])
  | σ, .gate u cs qs :: l =>
      if (cs.filter fun c => decide (c.1 ∈ C)).all fun c => σ c.1 == c.2 then
        match qs with
        | [t] =>
            if t ∈ C ∧ u = x ∧ (cs.filter fun c => decide (c.1 ∉ C)) = [] then
              runC x C (fun q => if q = t then !σ q else σ q) l
            else ((runC x C σ l).1, .gate u (cs.filter fun c => decide (c.1 ∉ C)) qs :: (runC x C σ l).2)
        | _ => ((runC x C σ l).1, .gate u (cs.filter fun c => decide (c.1 ∉ C)) qs :: (runC x C σ l).2)
      else runC x C σ l
  | σ, .create qs :: l =>
      let r := runC x C (fun q => if q ∈ qs then false else σ q) l
      (r.1, if qs.any fun q => decide (q ∈ C) then r.2 else .create qs :: r.2)
  | σ, .delete qs :: l =>
      let r := runC x C σ l
      (r.1, if qs.any fun q => decide (q ∈ C) then r.2 else .delete qs :: r.2)
  | σ, .meas qs :: l => ((runC x C σ l).1, .meas qs :: (runC x C σ l).2)
  | σ, .reset qs :: l => ((runC x C σ l).1, .reset qs :: (runC x C σ l).2)

/-- The qubits of an operation. -/
def Ev.qubits : Ev U → List Qubit
  | .gate _ cs qs => cs.map (·.1) ++ qs
  | .meas qs => qs
  | .reset qs => qs
  | .create qs => qs
  | .delete qs => qs

/-- The operations of a trace concern qubits outside of `C`. -/
def Outside (C : List Qubit) (l : List (Ev U)) : Prop :=
  ∀ e ∈ l, ∀ q ∈ e.qubits, q ∉ C

omit [DecidableEq U] in
theorem filter_in_nil {C : List Qubit} {cs : List (Qubit × Bool)} (h : ∀ c ∈ cs, c.1 ∉ C) :
    (cs.filter fun c => decide (c.1 ∈ C)) = [] := by
  rw [List.filter_eq_nil_iff]; intro c hc; simpa using h c hc

omit [DecidableEq U] in
theorem filter_out_self {C : List Qubit} {cs : List (Qubit × Bool)} (h : ∀ c ∈ cs, c.1 ∉ C) :
    (cs.filter fun c => decide (c.1 ∉ C)) = cs := by
  rw [List.filter_eq_self]; intro c hc; simpa using h c hc

omit [DecidableEq U] in
theorem not_any {C qs : List Qubit} (h : ∀ q ∈ qs, q ∉ C) :
    (qs.any fun q => decide (q ∈ C)) = false := by
  simpa using h

omit [DecidableEq U] in
theorem others_cons_gate (u : U) (cs : List (Qubit × Bool)) (qs : List Qubit) (l : List (Ev U)) :
    others (.gate u cs qs :: l) = others l := rfl

/-- Running operations that have the classical qubit `g` as an additional control, followed by others. -/
theorem runC_ctl {x : U} {C : List Qubit} {g : Qubit} (hg : g ∈ C) : ∀ {l : List (Ev U)} {σ : Qubit → Bool} {k : List (Ev U)},
    Outside C l →
    ∃ σ' : Qubit → Bool, (∀ q ∈ C, σ' q = σ q) ∧
      runC x C σ (l.map (addCtrl g) ++ k) = ((runC x C σ' k).1, (if σ g then l else others l) ++ (runC x C σ' k).2) := by
  intro l
  induction l with
  | nil => intro σ k _; exact ⟨σ, fun _ _ => rfl, by simp [others]⟩
  | cons e l ih =>
    intro σ k ho
    have ho' : Outside C l := fun e he => ho e (by simp [he])
    have hq := ho e (by simp)
    cases e with
    | gate u cs qs =>
      obtain ⟨σ', hs, hr⟩ := ih (σ := σ) (k := k) ho'
      refine ⟨σ', hs, ?_⟩
      have hcs : ∀ c ∈ cs, c.1 ∉ C := fun c hc => hq c.1 (by
        simp only [Ev.qubits, List.mem_append, List.mem_map]; exact Or.inl ⟨c, hc, rfl⟩)
      have hqs : ∀ q ∈ qs, q ∉ C := fun q h => hq q (by simp [Ev.qubits, h])
      have h1 : (((g, true) :: cs).filter fun c => decide (c.1 ∈ C)) = [(g, true)] := by
        rw [List.filter_cons_of_pos (by simpa using hg), filter_in_nil hcs]
      have h2 : (((g, true) :: cs).filter fun c => decide (c.1 ∉ C)) = cs := by
        rw [List.filter_cons_of_neg (by simpa using hg), filter_out_self hcs]
      simp only [List.map_cons, addCtrl, List.cons_append, runC, h1, h2, List.all_cons, List.all_nil,
        Bool.and_true]
      cases hb : σ g with
      | false =>
        simp only [hb, Bool.false_eq_true, if_false, others_cons_gate] at hr ⊢
        exact hr
      | true =>
        simp only [hb, if_true] at hr ⊢
        match qs with
        | [t] =>
          have : t ∉ C := hqs t (by simp)
          simp [this, hr]
        | [] => simp [hr]
        | _ :: _ :: _ => simp [hr]
    | meas qs =>
      obtain ⟨σ', hs, hr⟩ := ih (σ := σ) (k := k) ho'
      refine ⟨σ', hs, ?_⟩
      simp only [List.map_cons, addCtrl, List.cons_append, runC, hr]
      cases σ g <;> simp [others]
    | reset qs =>
      obtain ⟨σ', hs, hr⟩ := ih (σ := σ) (k := k) ho'
      refine ⟨σ', hs, ?_⟩
      simp only [List.map_cons, addCtrl, List.cons_append, runC, hr]
      cases σ g <;> simp [others]
    | create qs =>
      have hσ : ∀ q ∈ C, (if q ∈ qs then false else σ q) = σ q := fun q hqC =>
        if_neg (fun h => hq q h hqC)
      obtain ⟨σ', hs, hr⟩ := ih (σ := fun q => if q ∈ qs then false else σ q) (k := k) ho'
      refine ⟨σ', fun q h => (hs q h).trans (hσ q h), ?_⟩
      have h3 : (qs.any fun q => decide (q ∈ C)) = false := not_any hq
      simp only [List.map_cons, addCtrl, List.cons_append, runC, hr, h3, hσ g hg]
      cases σ g <;> simp [others]
    | delete qs =>
      obtain ⟨σ', hs, hr⟩ := ih (σ := σ) (k := k) ho'
      refine ⟨σ', hs, ?_⟩
      have h3 : (qs.any fun q => decide (q ∈ C)) = false := not_any hq
      simp only [List.map_cons, addCtrl, List.cons_append, runC, hr, h3]
      cases σ g <;> simp [others]

/-- The controls of a gate whose control qubits are all classical. -/
theorem runC_mcx {x : U} {C : List Qubit} {t : Qubit} (ht : t ∈ C) {σ : Qubit → Bool}
    {cs : List (Qubit × Bool)} (hcs : ∀ c ∈ cs, c.1 ∈ C) (l : List (Ev U)) :
    runC x C σ (.gate x cs [t] :: l) =
      runC x C (fun q => if q = t then xor (σ q) (cs.all fun c => σ c.1 == c.2) else σ q) l := by
  have h1 : (cs.filter fun c => decide (c.1 ∈ C)) = cs := by
    rw [List.filter_eq_self]; intro c hc; simpa using hcs c hc
  have h2 : (cs.filter fun c => decide (c.1 ∉ C)) = [] := by
    rw [List.filter_eq_nil_iff]; intro c hc; simpa using hcs c hc
  simp only [runC, h1, h2]
  cases (cs.all fun c => σ c.1 == c.2) with
  | true => simp [ht]
  | false => simp

omit [DecidableEq U] in
theorem gets_append {c : Ctx} {vs ws : List Var} {xs ys : List Val} (h1 : gets c vs = some xs)
    (h2 : gets c ws = some ys) : gets c (vs ++ ws) = some (xs ++ ys) := by
  induction vs generalizing xs with
  | nil => simp only [gets, Option.some.injEq] at h1; subst h1; exact h2
  | cons v vs ih =>
    simp only [gets, Option.bind_eq_some_iff, Option.some.injEq] at h1
    obtain ⟨x, hx, xs', hxs, rfl⟩ := h1
    simp only [List.cons_append, gets, hx, ih hxs, Option.bind_some]

omit [DecidableEq U] in
theorem allM_toQb (qs : List Qubit) : allM Val.toQb (qs.map Val.qb) = some qs := by
  induction qs with
  | nil => rfl
  | cons q qs ih => simp [allM, Val.toQb, ih]

omit [DecidableEq U] in
/-- The event of the multi-controlled X. -/
theorem gateEv_mcx (x : U) {cs : List Bool} {Q : List Qubit} (hl : Q.length = cs.length) (t : Qubit) :
    gateEv cs (fun _ => x) [] ((Q ++ [t]).map Val.qb) = some (.gate x (Q.zip cs) [t]) := by
  simp only [gateEv, allM, Option.bind_some, allM_toQb]
  rw [if_pos (by simp; omega)]
  simp [← hl]

variable {orc : List Int → Var → Int} {fuel : Nat}

omit [DecidableEq U] in
theorem Ext.of_set {c : Var} {q : Qubit} {Γ : Ctx} : Ext c q Γ (Γ.set c (.qb q)) :=
  ⟨fun v hv => by simp [Ctx.set, hv], by simp [Ctx.set]⟩

omit [DecidableEq U] in
theorem Fresh.not_mem {c : Var} : ∀ {p : P U}, Fresh c p → c ∉ p.reads ∧ c ∉ p.writes := by
  intro p
  induction p <;> simp_all [Fresh, P.reads, P.writes]

omit [DecidableEq U] in
theorem ctl_writes (c : Var) : ∀ p : P U, (ctl c p).writes = p.writes := by
  intro p
  induction p <;> simp_all [ctl, P.writes]

/-- The auxiliary variables. -/
def auxOf (s a g v : Var) : Prop := v = s ∨ v = a ∨ v = g

theorem all_congr_zip {Q : List Qubit} {cs : List Bool} {σ τ : Qubit → Bool} (h : ∀ q ∈ Q, σ q = τ q) :
    ((Q.zip cs).all fun c => σ c.1 == c.2) = ((Q.zip cs).all fun c => τ c.1 == c.2) := by
  rw [Bool.eq_iff_iff, List.all_eq_true, List.all_eq_true]
  exact forall₂_congr fun c hc => by rw [h c.1 (List.of_mem_zip (a := c.1) (b := c.2) hc).1]

theorem runC_one {x : U} {q : Qubit} {b : Bool} {C : List Qubit} (hq : q ∈ C) {l : List (Ev U)}
    (ho : Outside C l) (σ : Qubit → Bool) :
    (runC x C σ ((if b then [] else [.gate x [] [q]]) ++ (l.map (addCtrl q) ++
      (if b then [] else [.gate x [] [q]])))).2 = (if σ q == b then l else others l) ∧
    (∀ q' ∈ C, (runC x C σ ((if b then [] else [.gate x [] [q]]) ++ (l.map (addCtrl q) ++
      (if b then [] else [.gate x [] [q]])))).1 q' = σ q') := by
  cases b with
  | true =>
    obtain ⟨σ', h1, h2⟩ := runC_ctl (x := x) hq (l := l) (σ := σ) (k := []) ho
    simp only [if_true, List.nil_append, h2, runC]
    refine ⟨by cases σ q <;> simp, h1⟩
  | false =>
    simp only [Bool.false_eq_true, if_false, List.singleton_append]
    rw [runC_mcx hq (by simp)]
    obtain ⟨σ', h1, h2⟩ := runC_ctl (x := x) hq (l := l)
      (σ := fun q' => if q' = q then xor (σ q') true else σ q') (k := [.gate x [] [q]]) ho
    simp only [List.all_nil, h2]
    rw [runC_mcx hq (by simp)]
    simp only [runC, if_true, List.append_nil]
    refine ⟨by cases σ q <;> simp, fun q' hq' => ?_⟩
    simp only [h1 q' hq']
    by_cases h : q' = q <;> simp [h]

theorem runC_create {x : U} {t : Qubit} {Q : List Qubit} (σ : Qubit → Bool) (l : List (Ev U)) :
    runC x (t :: Q) σ (.create [t] :: l) =
      runC x (t :: Q) (fun q => if q ∈ [t] then false else σ q) l := by
  simp [runC]

theorem runC_many {x : U} {Q : List Qubit} {cs : List Bool} {t : Qubit} (ht : t ∉ Q) {l : List (Ev U)}
    (ho : Outside (t :: Q) l) (σ : Qubit → Bool) (r) (hr : runC x (t :: Q) σ (.create [t] :: .gate x (Q.zip cs) [t] ::
      (l.map (addCtrl t) ++ [.gate x (Q.zip cs) [t], .delete [t]])) = r) :
    r.2 = (if (Q.zip cs).all fun c => σ c.1 == c.2 then l else others l) ∧
    (∀ q ∈ Q, r.1 q = σ q) ∧ r.1 t = false := by
  subst hr
  have hz : ∀ c ∈ Q.zip cs, c.1 ∈ t :: Q := fun c hc =>
    List.mem_cons_of_mem _ (List.of_mem_zip (a := c.1) (b := c.2) hc).1
  have hne : ∀ q ∈ Q, q ≠ t := fun q hq e => ht (e ▸ hq)
  rw [runC_create, runC_mcx (by simp) hz]
  set m := (Q.zip cs).all fun c => σ c.1 == c.2 with hm
  have e0 : ((Q.zip cs).all fun c => (if c.1 ∈ [t] then false else σ c.1) == c.2) = m :=
    all_congr_zip (σ := fun q => if q ∈ [t] then false else σ q) (τ := σ)
      (fun q hq => by simp [hne q hq])
  simp only [e0]
  obtain ⟨σ', h1, h2⟩ := runC_ctl (x := x) (g := t) (C := t :: Q) (by simp) (l := l)
    (σ := fun q => if q = t then xor (if q ∈ [t] then false else σ q) m else if q ∈ [t] then false else σ q)
    (k := [.gate x (Q.zip cs) [t], .delete [t]]) ho
  rw [h2, runC_mcx (by simp) hz]
  have hσ : ∀ q ∈ Q, σ' q = σ q := fun q hq => by rw [h1 q (by simp [hq])]; simp [hne q hq]
  have ht' : σ' t = m := by rw [h1 t (by simp)]; simp
  have e1 : ((Q.zip cs).all fun c => σ' c.1 == c.2) = m := all_congr_zip hσ
  simp only [e1, runC]
  refine ⟨by simp, fun q hq => by simp [hne q hq, hσ q hq], by simp [ht']⟩

/-- The controlled program with any number of controls and any states: it runs, the other
    variables are as without control, the operations are executed exactly if all controls
    have their states, and the controls and the auxiliary qubit are as before. -/
theorem eval_multiCtl {x : U} {cs : List Bool} {cv : List Var} {s a g : Var} {p : P U}
    {path : List Int} {Γ : Ctx} {z : Ctx × List (Ev U)} {Q : List Qubit}
    (he : eval orc fuel p path Γ = some z) (hQ : gets Γ cv = some (Q.map Val.qb))
    (hl : Q.length = cs.length) (hcv : ∀ c ∈ cv, Fresh c p ∧ c ≠ s ∧ c ≠ a ∧ c ≠ g)
    (hs : Fresh s p) (ha : Fresh a p) (hg : Fresh g p) (hsa : s ≠ a) (hsg : s ≠ g) (hag : a ≠ g)
    (hanc : Qubit.fresh path a 0 ∉ Q) :
    ∃ d tr, eval orc fuel (multiCtl x cs cv s a g p) path Γ = some (d, tr) ∧
      (∀ v, ¬ auxOf s a g v → d v = z.1 v) ∧
      ∀ σ : Qubit → Bool, Outside (Qubit.fresh path a 0 :: Q) z.2 →
        (runC x (Qubit.fresh path a 0 :: Q) σ tr).2 =
          (if (Q.zip cs).all fun c => σ c.1 == c.2 then z.2 else others z.2) ∧
        (∀ q ∈ Q, (runC x (Qubit.fresh path a 0 :: Q) σ tr).1 q = σ q) ∧
        (cv.length ≠ 1 → (runC x (Qubit.fresh path a 0 :: Q) σ tr).1 (Qubit.fresh path a 0) = false) := by
  by_cases h1 : ∃ c, cv = [c]
  · obtain ⟨c, rfl⟩ := h1
    simp only [gets, Option.bind_eq_some_iff, Option.some.injEq] at hQ
    obtain ⟨v, hv, _, rfl, hq⟩ := hQ
    match Q, hq with
    | [q], hq =>
    simp only [List.map_cons, List.map_nil, List.cons.injEq, and_true] at hq
    subst hq
    match cs, hl with
    | [b], _ =>
    obtain ⟨d, h2, h3⟩ := eval_ctl (hcv c (by simp)).1 (⟨fun _ _ => rfl, hv⟩ : Ext c q Γ Γ) he
    have hflip : ∀ Δ : Ctx, Δ c = some (.qb q) → eval orc fuel (if [b] = [false] then
        (.gate [] (fun _ => x) [] [c] .done : P U) else .done) path Δ =
          some (Δ, if b then [] else [.gate x [] [q]]) := by
      intro Δ hΔ
      cases b <;> simp [eval, gets, hΔ, gateEv, allM, Val.toQb]
    refine ⟨d, (if b then [] else [.gate x [] [q]]) ++ (z.2.map (addCtrl q) ++
        (if b then [] else [.gate x [] [q]])), ?_, ?_, fun σ ho => ?_⟩
    · simp only [multiCtl, eval_app, hflip Γ hv, Option.bind_some, h2, hflip d h3.2]
    · intro v _
      by_cases hvc : v = c
      · subst hvc
        rw [h3.2, eval_frame he v (hcv v (by simp)).1.not_mem.2, hv]
      · exact (h3.1 v hvc).symm
    · obtain ⟨g1, g2⟩ := runC_one (x := x) (b := b) (q := q) (C := Qubit.fresh path a 0 :: [q]) (by simp) ho σ
      refine ⟨?_, fun q' hq' => g2 q' (List.mem_cons_of_mem _ hq'), fun h => absurd rfl h⟩
      rw [g1]; simp
  · have hm : multiCtl x cs cv s a g p = .cls (fun _ => some [.int 1]) [] [s] (.create a s (.cls (fun
          | [.arr (q :: _)] => some [.qb q]
          | _ => none) [a] [g]
        (.gate cs (fun _ => x) [] (cv ++ [g]) ((ctl g p).app
          (.gate cs (fun _ => x) [] (cv ++ [g]) (.delete a .done)))))) := by
      unfold multiCtl
      split
      · rename_i c; exact absurd ⟨c, rfl⟩ h1
      · rfl
    set t := Qubit.fresh path a 0 with ht
    let Γ1 : Ctx := ((Γ.set s (.int 1)).set a (.arr [t])).set g (.qb t)
    have hoff : ∀ v, ¬ auxOf s a g v → Γ v = Γ1 v := by
      intro v hv
      simp only [auxOf, not_or] at hv
      simp [Γ1, Ctx.set, hv.1, hv.2.1, hv.2.2]
    obtain ⟨d1, h2, h3⟩ := eval_congr hoff (fun v hv hx => by
      rcases hx with rfl | rfl | rfl
      · exact hs.not_mem.1 hv
      · exact ha.not_mem.1 hv
      · exact hg.not_mem.1 hv) he
    obtain ⟨d, h4, h5⟩ := eval_ctl hg (⟨fun _ _ => rfl, by simp [Γ1, Ctx.set]⟩ : Ext g t Γ1 Γ1) h2
    have hQ1 : gets Γ1 cv = some (Q.map Val.qb) := by
      rw [← hQ]
      exact (gets_congr fun v hv => hoff v (by
        have := hcv v hv
        simp [auxOf, this.2.1, this.2.2.1, this.2.2.2])).symm
    have hfr : ∀ v, v ∉ p.writes → d v = Γ1 v := fun v hv =>
      eval_frame h4 v (by rwa [ctl_writes])
    have hQd : gets d cv = some (Q.map Val.qb) := by
      rw [← hQ1]; exact gets_congr fun v hv => hfr v (hcv v hv).1.not_mem.2
    have hga : ∀ Δ : Ctx, gets Δ cv = some (Q.map Val.qb) → Δ g = some (.qb t) →
        gets Δ (cv ++ [g]) = some ((Q ++ [t]).map Val.qb) := fun Δ e1 e2 => by
      rw [List.map_append]
      exact gets_append e1 (by simp [gets, e2])
    have had : d a = some (.arr [t]) := by
      rw [hfr a ha.not_mem.2]; simp [Γ1, Ctx.set, hag]
    refine ⟨d, .create [t] :: .gate x (Q.zip cs) [t] ::
      (z.2.map (addCtrl t) ++ [.gate x (Q.zip cs) [t], .delete [t]]), ?_, ?_, fun σ ho => ?_⟩
    · have e1 : ((Γ.set s (.int 1)).set a (.arr [t])) a = some (.arr [t]) := by simp [Ctx.set]
      have e2 : gets (((Γ.set s (.int 1)).set a (.arr [t])).set g (.qb t)) (cv ++ [g]) = _ :=
        hga Γ1 hQ1 (by simp [Γ1, Ctx.set])
      have e3 : (Γ.set s (.int 1)) s = some (.int 1) := by simp [Ctx.set]
      have e4 : (List.map (Qubit.fresh path a) (List.range (1 : Int).toNat)) = [t] := rfl
      rw [hm]
      simp only [eval, gets, sets, Option.bind_some, e3, Val.toInt, e4, e1, e2, gateEv_mcx x hl t, eval_app]
      simp only [show ((Γ.set s (.int 1)).set a (.arr [t])).set g (.qb t) = Γ1 from rfl, h4, Option.bind_some,
        hga d hQd h5.2, gateEv_mcx x hl t, had, Val.toQbs]
    · intro v hv
      rw [h3 v hv]
      refine (h5.1 v ?_).symm
      rintro rfl; exact hv (Or.inr (Or.inr rfl))
    · obtain ⟨g1, g2, g3⟩ := runC_many (x := x) (cs := cs) hanc ho σ _ rfl
      exact ⟨g1, g2, fun _ => g3⟩

end Verif.Jasp
