import Verif.Sim.MultiMain

/-!
The deferred measurements: main induction over the instructions.
-/

namespace Verif.Sim

open Verif.Env (B E D X dg Dep)

/-- What the rest of the circuit may do with a pending operation. -/
def Good (pm : List Gate → Nat → Bool) (t : List Ins) : Pnd → Prop
  | .mclr q c => ∀ x ∈ t, q ∉ x.qubits ∧ ∀ q', x ≠ .measure q' c
  | .clr q => ∀ x ∈ t, q ∉ x.qubits
  | .pend q c => ∀ x ∈ t, c ∉ x.clbits ∧ (q ∈ x.qubits → ∃ gs, ((∃ qs, x = .gate qs gs) ∨ ∃ qs cs st, x = .cif qs gs cs st) ∧ pm gs q = true)

theorem Good.mono {pm : List Gate → Nat → Bool} {t t' : List Ins} {p : Pnd} (h : Good pm t p) (hs : ∀ x ∈ t', x ∈ t) : Good pm t' p := by
  cases p with
  | mclr q c => exact fun x hx => h x (hs x hx)
  | clr q => exact fun x hx => h x (hs x hx)
  | pend q c => exact fun x hx => h x (hs x hx)

/-- The state of the loop. -/
structure MI (pm : List Gate → Nat → Bool) (n : Nat) (C : List Nat) (t : List Ins) (M : List Pnd) (s : Mv) : Prop where
  n_le : n ≤ s.nq
  clean : ∀ q, s.nq ≤ q → Clean0 q (appAll s.out init)
  lt : ∀ p ∈ M, p.q < s.nq
  nodupq : (M.map Pnd.q).Nodup
  nodupc : ((allOf M).map (·.1)).Nodup
  good : ∀ p ∈ M, Good pm t p
  dic : s.dic = dicOf M
  meas : s.meas = pendOf M
  cl : ∀ c, c ∈ C ↔ c ∈ (allOf M).map (·.1) ∨ c ∈ measured t

theorem appAll_append (a b : List Ins) (ψ : B → ℂ) : appAll (a ++ b) ψ = appAll b (appAll a ψ) := by simp [appAll, List.foldl_append]

theorem appAll_dis (l : List Nat) (ψ : B → ℂ) : appAll (l.map .dis) ψ = ψ := by
  induction l with
  | nil => rfl
  | cons q l ih => simpa [appAll, app] using ih

theorem exec_snoc (l : List Ins) (i : Ins) (t : List Ins) (s : Multiset Br) : exec (i :: t) (exec l s) = exec t (exec (l ++ [i]) s) := by
  rw [exec_append, exec_cons]
  rfl

theorem mem_pIns {M : List Pnd} {x : Ins} (h : x ∈ pIns M) : ∃ p ∈ M, x.WF ∧ x.qubits = [p.q] ∧
    ∀ c ∈ x.clbits, c ∈ (allOf M).map (·.1) := by
  obtain ⟨p, hp, hx⟩ := List.mem_flatMap.1 h
  refine ⟨p, hp, ?_⟩
  have hm : ∀ q c, (p = .mclr q c ∨ p = .pend q c) → c ∈ (allOf M).map (·.1) := by
    intro q c h
    refine List.mem_map.2 ⟨(c, q), mem_allOf.2 ?_, rfl⟩
    rcases h with rfl | rfl
    · exact Or.inl hp
    · exact Or.inr hp
  cases p with
  | mclr q c =>
    simp [Pnd.ins] at hx
    rcases hx with rfl | rfl
    · exact ⟨trivial, rfl, fun d hd => by simp [Ins.clbits] at hd; rw [hd]; exact hm q c (Or.inl rfl)⟩
    · exact ⟨trivial, rfl, by simp [Ins.clbits]⟩
  | clr q =>
    simp [Pnd.ins] at hx
    subst hx
    exact ⟨trivial, rfl, by simp [Ins.clbits]⟩
  | pend q c =>
    simp [Pnd.ins] at hx
    subst hx
    exact ⟨trivial, rfl, fun d hd => by simp [Ins.clbits] at hd; rw [hd]; exact hm q c (Or.inr rfl)⟩

/-- A measurement or reset on a qubit without pending operations. -/
theorem front_pIns {M : List Pnd} {i : Ins} (hi : i.WF) {q : Nat} (hq : i.qubits = [q]) (h1 : q ∉ M.map Pnd.q)
    (h2 : ∀ c ∈ i.clbits, c ∉ (allOf M).map (·.1)) (s : Multiset Br) : exec (pIns M ++ [i]) s = exec (i :: pIns M) s := by
  have := exec_front hi (A := pIns M) (fun a ha => by
    obtain ⟨p, hp, hw, hqa, hc⟩ := mem_pIns ha
    refine ⟨hw, fun x hx hx' => ?_, fun c hc1 hc2 => h2 c hc2 (hc c hc1)⟩
    rw [hqa] at hx
    rw [hq] at hx'
    simp at hx hx'
    subst hx
    exact h1 (List.mem_map.2 ⟨p, hp, hx'⟩)) [] s
  rw [this, List.append_nil]

theorem not_pending {pm : List Gate → Nat → Bool} {t : List Ins} {M : List Pnd} {i : Ins} {q : Nat} (hg : ∀ p ∈ M, Good pm (i :: t) p)
    (hq : q ∈ i.qubits) (hi : (∃ c, i = .measure q c) ∨ i = .reset q) : q ∉ M.map Pnd.q := by
  intro hm
  obtain ⟨p, hp, rfl⟩ := List.mem_map.1 hm
  have := hg p hp
  cases p with
  | mclr q c => exact (this i (by simp)).1 hq
  | clr q => exact this i (by simp) hq
  | pend q c =>
    obtain ⟨gs, h, _⟩ := (this i (by simp)).2 hq
    rcases hi with ⟨c', rfl⟩ | rfl <;> rcases h with ⟨qs, h⟩ | ⟨qs, cs, st, h⟩ <;> cases h

theorem not_clbit {pm : List Gate → Nat → Bool} {t : List Ins} {M : List Pnd} {q c : Nat} (hg : ∀ p ∈ M, Good pm (.measure q c :: t) p) :
    c ∉ (allOf M).map (·.1) := by
  intro hm
  obtain ⟨⟨c', q'⟩, hx, rfl⟩ := List.mem_map.1 hm
  rcases mem_allOf.1 hx with h | h
  · exact (hg _ h (.measure q c') (by simp)).2 q rfl
  · exact (hg _ h (.measure q c') (by simp)).1 (by simp [Ins.clbits])

/-! ### Control qubits -/

theorem ctrls_ok (dic : List (Nat × Nat)) (cs : List Nat) : ∀ (st : List Bool) (nq : Nat),
    nq ≤ (ctrls dic (cs.zip st) nq).2.1 ∧
    (∀ q ∈ (ctrls dic (cs.zip st) nq).1, q < (ctrls dic (cs.zip st) nq).2.1 ∨ ∃ c, (c, q) ∈ dic) ∧
    ((ctrls dic (cs.zip st) nq).2.2 = true → ∀ b : B, (∀ q, nq ≤ q → b q = false) →
      ctlT (ctrls dic (cs.zip st) nq).1 st b = (cs.zip st).all fun x => val dic (fun _ => false) b x.1 == x.2) ∧
    ((ctrls dic (cs.zip st) nq).2.2 = false → ∀ b : B, ((cs.zip st).all fun x => val dic (fun _ => false) b x.1 == x.2) = false) := by
  induction cs with
  | nil => intro st nq; simp [ctrls, ctlT]
  | cons c cs ih =>
    intro st nq
    cases st with
    | nil => simp [ctrls, ctlT]
    | cons w st =>
      simp only [List.zip_cons_cons, ctrls]
      cases hl : dic.lookup c with
      | some qb =>
        obtain ⟨h1, h2, h3, h4⟩ := ih st nq
        have hv : ∀ b, val dic (fun _ => false) b c = b qb := fun b => by simp [val, hl]
        refine ⟨h1, fun q hq => ?_, fun h b hb => ?_, fun h b => ?_⟩
        · rcases List.mem_cons.1 hq with rfl | hq
          · exact Or.inr ⟨c, lookup_mem hl⟩
          · exact h2 q hq
        · have := h3 h b hb
          simp only [ctlT, List.zip_cons_cons, List.all_cons] at this ⊢
          rw [this, hv]
        · rw [List.all_cons, h4 h b, Bool.and_false]
      | none =>
        have hv : ∀ b, val dic (fun _ => false) b c = false := fun b => by simp [val, hl]
        cases w with
        | true =>
          refine ⟨by simp, by simp, by simp, fun _ b => ?_⟩
          rw [List.all_cons, hv]
          rfl
        | false =>
          obtain ⟨h1, h2, h3, h4⟩ := ih st (nq + 1)
          refine ⟨by simp; omega, fun q hq => ?_, fun h b hb => ?_, fun h b => ?_⟩
          · simp only [Bool.false_eq_true, if_false] at hq ⊢
            rcases List.mem_cons.1 hq with rfl | hq
            · exact Or.inl (by omega)
            · exact h2 q hq
          · simp only [Bool.false_eq_true, if_false] at h ⊢
            have := h3 h b fun q hq => hb q (by omega)
            simp only [ctlT, List.zip_cons_cons, List.all_cons] at this ⊢
            rw [this, hv, hb nq (Nat.le_refl _)]
          · simp only [Bool.false_eq_true, if_false] at h
            rw [List.all_cons, h4 h b, Bool.and_false]

/-! ### One instruction -/

theorem dicSet_new {c q : Nat} {dic : List (Nat × Nat)} (h : c ∉ dic.map (·.1)) : dicSet c q dic = (c, q) :: dic := by
  unfold dicSet
  congr 1
  refine List.filter_eq_self.2 fun x hx => ?_
  simp only [decide_eq_true_eq]
  rintro rfl
  exact h (List.mem_map.2 ⟨x, hx, rfl⟩)

theorem dicOf_sub {M : List Pnd} {c : Nat} (h : c ∉ (allOf M).map (·.1)) : c ∉ (dicOf M).map (·.1) := by
  intro hm
  obtain ⟨⟨c', q⟩, hx, rfl⟩ := List.mem_map.1 hm
  exact h (List.mem_map.2 ⟨(c', q), mem_allOf.2 (Or.inl (mem_dicOf.1 hx)), rfl⟩)

theorem pIns_cons (p : Pnd) (M : List Pnd) : pIns (p :: M) = p.ins ++ pIns M := by simp [pIns]

theorem pIns_snoc (M : List Pnd) (p : Pnd) : pIns (M ++ [p]) = pIns M ++ p.ins := by simp [pIns]

theorem allOf_append (a b : List Pnd) : allOf (a ++ b) = allOf a ++ allOf b := by simp [allOf]

theorem nodup_snoc {α : Type} {l : List α} {a : α} (h : l.Nodup) (ha : a ∉ l) : (l ++ [a]).Nodup := by
  rw [List.nodup_append]
  refine ⟨h, by simp, fun x hx y hy e => ?_⟩
  rw [List.mem_singleton] at hy
  subst hy
  subst e
  exact ha hx

theorem cx_ext (a b : Nat) (h : a ≠ b) : (cxG a b).op = prodG [cxG a b] := by simp [prodG]

/-- The state after the operations on a new qubit. -/
theorem clean_cx {m q a : Nat} {ψ : B → ℂ} (hc : ∀ p, m ≤ p → Clean0 p ψ) (hq : q < m + 1) (ha : a < m + 1) :
    ∀ p, m + 1 ≤ p → Clean0 p ((cxG q a).op ψ) := fun p hp =>
  loc_clean (cxG q a).loc (by simp [cxG]; omega) (hc p (by omega))

/-- The replacement of a pending operation by another one. -/
theorem pnd_replace {p p' : Pnd} {L : List Ins} {k : Cl} {ψ ψ' : B → ℂ} (hc : ∀ v, p.cl v k = p'.cl v k) (ho : ∀ v, p.op v ψ = p'.op v ψ') :
    Eqv (exec (p.ins ++ L) {(k, ψ)}) (exec (p'.ins ++ L) {(k, ψ')}) := by
  refine Eqv.trans (pnd_exec p L k ψ) (Eqv.trans (Eqv.of_eq ?_) (pnd_exec p' L k ψ').symm)
  rw [hc, hc, ho, ho]

theorem reset_step {M : List Pnd} {q a : Nat} (hq : q ∉ M.map Pnd.q) (ha : q ≠ a) {ψ : B → ℂ} (hc : Clean0 a ψ) (k : Cl) :
    Eqv (exec (pIns M ++ [.reset q]) {(k, ψ)}) (exec (pIns (.clr a :: M)) {(k, (cxG a q).op ((cxG q a).op ψ))}) := by
  rw [front_pIns (i := .reset q) trivial rfl hq (by simp [Ins.clbits]), pIns_cons]
  exact pnd_replace (p := .clr q) (p' := .clr a) (fun _ => rfl) fun v => (reset_new ha hc v).symm

theorem measure_step {M : List Pnd} {q a c : Nat} (hq : q ∉ M.map Pnd.q) (hc : c ∉ (allOf M).map (·.1)) (ha : q ≠ a) {ψ : B → ℂ}
    (hcl : Clean0 a ψ) (k : Cl) :
    Eqv (exec (pIns M ++ [.measure q c]) {(k, ψ)}) (exec (pIns (.mclr a c :: M)) {(k, (cxG q a).op ψ)}) := by
  rw [front_pIns (i := .measure q c) trivial rfl hq (by simpa [Ins.clbits] using hc), pIns_cons]
  exact pnd_replace (p := .pend q c) (p' := .mclr a c) (fun _ => rfl) fun v => (measure_new ha hcl v).symm

theorem measure_reset_step {M : List Pnd} {q a c : Nat} (hq : q ∉ M.map Pnd.q) (hc : c ∉ (allOf M).map (·.1)) (ha : q ≠ a) {ψ : B → ℂ}
    (hcl : Clean0 a ψ) (k : Cl) :
    Eqv (exec (pIns M ++ [.measure q c] ++ [.reset q]) {(k, ψ)})
      (exec (pIns (.mclr a c :: M)) {(k, (cxG a q).op ((cxG q a).op ψ))}) := by
  have hcomm : exec (pIns M ++ [.measure q c] ++ [.reset q]) {(k, ψ)} = exec ((Pnd.mclr q c).ins ++ pIns M) {(k, ψ)} := by
    rw [exec_append, front_pIns (i := .measure q c) trivial rfl hq (by simpa [Ins.clbits] using hc), exec_cons _ (pIns M), ← exec_append,
      front_pIns (i := .reset q) trivial rfl hq (by simp [Ins.clbits])]
    rfl
  rw [hcomm, pIns_cons]
  exact pnd_replace (p := .mclr q c) (p' := .mclr a c) (fun _ => rfl) fun v => (reset_new ha hcl v).symm

set_option maxHeartbeats 800000 in
theorem mv_ok {pm : List Gate → Nat → Bool} (hpm : PermSound pm) (n : Nat) (C : List Nat) : ∀ (fuel : Nat) (t : List Ins) (s : Mv) (M : List Pnd),
    t.length ≤ fuel → MOk pm n t → MI pm n C t M s →
    ∃ M', MI pm n C [] M' (mv pm fuel t s) ∧
      Eqv (exec t (exec (pIns M) {(fun _ => false, appAll s.out init)}))
        (exec (pIns M') {(fun _ => false, appAll (mv pm fuel t s).out init)}) := by
  intro fuel
  induction fuel with
  | zero =>
    intro t s M hl _ h
    have : t = [] := by simpa using hl
    subst this
    exact ⟨M, by simpa [mv] using h, by simpa [mv, exec_nil] using Eqv.rfl⟩
  | succ fuel ih =>
    intro t s M hl hok h
    cases t with
    | nil => exact ⟨M, by simpa [mv] using h, by simpa [mv, exec_nil] using Eqv.rfl⟩
    | cons i t =>
      have hlt : t.length ≤ fuel := by simpa using hl
      have hgt : ∀ p ∈ M, Good pm t p := fun p hp => (h.good p hp).mono fun x hx => by simp [hx]
      have hokt : MOk pm n t := hok.2.2
      have hi := hok.1
      cases i with
      | dis q =>
        obtain ⟨M', h1, h2⟩ := ih t { s with out := s.out ++ [.dis q] } M hlt hokt
          { h with clean := by simpa [appAll_append, appAll, app] using h.clean, good := hgt, cl := by simpa [measured] using h.cl }
        refine ⟨M', by simpa [mv] using h1, ?_⟩
        have e : exec (.dis q :: t) (exec (pIns M) {(fun _ => false, appAll s.out init)}) =
            exec t (exec (pIns M) {(fun _ => false, appAll (s.out ++ [.dis q]) init)}) := by
          rw [exec_cons]
          congr 1
          have : ∀ s : Multiset Br, s.bind (step (.dis q)) = s := by
            intro s
            conv_rhs => rw [← Multiset.map_id s]
            rw [← Multiset.bind_singleton]
            exact Multiset.bind_congr fun x _ => by simp [step, alts]
          rw [this]
          simp [appAll_append, appAll, app]
        rw [e]
        simpa [mv] using h2
      | gate qs gs =>
        have hw : Loc qs (prodG gs) := loc_prodG hi.1
        have happ : appAll (s.out ++ [.gate qs gs]) init = prodG gs (appAll s.out init) := by simp [appAll_append, appAll, app]
        obtain ⟨M', h1, h2⟩ := ih t { s with out := s.out ++ [.gate qs gs] } M hlt hokt
          { h with
            clean := fun q hq => by
              show Clean0 q (appAll (s.out ++ [.gate qs gs]) init)
              rw [happ]
              refine loc_clean hw (fun hm => ?_) (h.clean q hq)
              have := hi.2 q hm
              have := h.n_le
              have : s.nq ≤ q := hq
              omega
            good := hgt
            cl := by simpa [measured] using h.cl }
        refine ⟨M', by simpa [mv] using h1, ?_⟩
        rw [exec_snoc]
        refine Eqv.trans (Eqv.exec ?_ t) (by simpa [mv] using h2)
        have hstep : step (.gate qs gs) = step (.cif qs gs [] []) := by
          funext x
          simp [step, alts, cmatch]
        have he : exec (pIns M ++ [.gate qs gs]) {(fun _ => false, appAll s.out init)} =
            exec (pIns M ++ [.cif qs gs [] []]) {(fun _ => false, appAll s.out init)} := by
          rw [exec_append, exec_append, exec_cons, exec_cons, hstep]
        rw [he]
        have := cif_before qs gs [] [] hw M (fun p hp => by
          have hg := h.good p hp
          cases p with
          | mclr q c => exact (hg (.gate qs gs) (by simp)).1
          | clr q => exact hg (.gate qs gs) (by simp)
          | pend q c =>
            refine ⟨by simp, ?_⟩
            by_cases hq : q ∈ qs
            · obtain ⟨gs', hx, hpmq⟩ := (hg (.gate qs gs) (by simp)).2 hq
              rcases hx with ⟨qs', e⟩ | ⟨qs', cs', st', e⟩
              · cases e
                exact hpm gs q hpmq
              · cases e
            · exact loc_commute hw (loc_D (S := [q]) fun b c h => h q (by simp)) fun x hx => by
                simp
                rintro rfl
                exact hq hx) h.nodupq h.nodupc (fun _ => false) (appAll s.out init)
        have hT : condT M [] [] (fun _ => false) = fun _ => true := by
          funext b
          simp [condT]
        rw [hT, Env.when_true] at this
        show Eqv _ (exec (pIns M) {(fun _ => false, appAll (s.out ++ [.gate qs gs]) init)})
        rw [happ]
        exact this
      | cif qs gs cs st =>
        have hw : Loc qs (prodG gs) := loc_prodG hi.1
        obtain ⟨c1, c2, c3, c4⟩ := ctrls_ok s.dic cs st s.nq
        have hmv : mv pm (fuel + 1) (.cif qs gs cs st :: t) s = mv pm fuel t { s with
            out := s.out ++ (if (ctrls s.dic (cs.zip st) s.nq).2.2 then [.gate ((ctrls s.dic (cs.zip st) s.nq).1 ++ qs)
              [ctlG (ctrls s.dic (cs.zip st) s.nq).1 st gs]] else []) ++ (ctrls s.dic (cs.zip st) s.nq).1.map .dis,
            nq := (ctrls s.dic (cs.zip st) s.nq).2.1 } := rfl
        rw [hmv]
        generalize ctrls s.dic (cs.zip st) s.nq = r at *
        have happ : appAll (s.out ++ (if r.2.2 then [.gate (r.1 ++ qs) [ctlG r.1 st gs]] else []) ++ r.1.map .dis) init =
            Env.when (condT M cs st fun _ => false) (prodG gs) (appAll s.out init) := by
          rw [appAll_append, appAll_append, appAll_dis]
          have hcond : ∀ b, condT M cs st (fun _ => false) b = (cs.zip st).all fun x => val s.dic (fun _ => false) b x.1 == x.2 := by
            intro b
            rw [h.dic]
            rfl
          cases hr : r.2.2 with
          | true =>
            simp only [if_true]
            have : appAll [.gate (r.1 ++ qs) [ctlG r.1 st gs]] (appAll s.out init) =
                Env.when (ctlT r.1 st) (prodG gs) (appAll s.out init) := by simp [appAll, app, prodG, ctlG]
            rw [this]
            refine when_ctl fun b hb => ?_
            rw [hcond]
            refine c3 hr b fun q hq => ?_
            cases hbq : b q
            · rfl
            · exfalso
              have hn := h.n_le
              have hqn : q ∉ qs := fun hm => by have := hi.2 q hm; omega
              rcases hb with hb | hb
              · exact hb (h.clean q hq b hbq)
              · exact hb (loc_clean hw hqn (h.clean q hq) b hbq)
          | false =>
            simp only [Bool.false_eq_true, if_false]
            have : condT M cs st (fun _ => false) = fun _ => false := by
              funext b
              rw [hcond]
              exact c4 hr b
            rw [this, Env.when_false]
            rfl
        have hclean : ∀ q, r.2.1 ≤ q → Clean0 q (Env.when (condT M cs st fun _ => false) (prodG gs) (appAll s.out init)) := by
          intro q hq
          have hn := h.n_le
          have hqn : q ∉ qs := fun hm => by have := hi.2 q hm; omega
          have h0 := h.clean q (by omega)
          have h1 := loc_clean hw hqn h0
          intro b hb
          show (if condT M cs st (fun _ => false) b then (1 : ℂ) else 0) * prodG gs (appAll s.out init) b +
            (if !condT M cs st (fun _ => false) b then (1 : ℂ) else 0) * appAll s.out init b = 0
          rw [h0 b hb, h1 b hb]
          simp
        obtain ⟨M', h1, h2⟩ := ih t { s with
            out := s.out ++ (if r.2.2 then [.gate (r.1 ++ qs) [ctlG r.1 st gs]] else []) ++ r.1.map .dis, nq := r.2.1 } M hlt hokt
          { h with
            n_le := h.n_le.trans c1
            clean := fun q hq => by
              show Clean0 q (appAll (s.out ++ (if r.2.2 then [.gate (r.1 ++ qs) [ctlG r.1 st gs]] else []) ++ r.1.map .dis) init)
              rw [happ]
              exact hclean q hq
            lt := fun p hp => Nat.lt_of_lt_of_le (h.lt p hp) c1
            good := hgt
            cl := by simpa [measured] using h.cl }
        refine ⟨M', h1, ?_⟩
        rw [exec_snoc]
        refine Eqv.trans (Eqv.exec ?_ t) h2
        have := cif_before qs gs cs st hw M (fun p hp => by
          have hg := h.good p hp
          cases p with
          | mclr q c => exact (hg (.cif qs gs cs st) (by simp)).1
          | clr q => exact hg (.cif qs gs cs st) (by simp)
          | pend q c =>
            refine ⟨(hg (.cif qs gs cs st) (by simp)).1, ?_⟩
            by_cases hq : q ∈ qs
            · obtain ⟨gs', hx, hpmq⟩ := (hg (.cif qs gs cs st) (by simp)).2 hq
              rcases hx with ⟨qs', e⟩ | ⟨qs', cs', st', e⟩
              · cases e
              · cases e
                exact hpm gs q hpmq
            · exact loc_commute hw (loc_D (S := [q]) fun b c h => h q (by simp)) fun x hx => by
                simp
                rintro rfl
                exact hq hx) h.nodupq h.nodupc (fun _ => false) (appAll s.out init)
        show Eqv _ (exec (pIns M) {(fun _ => false,
          appAll (s.out ++ (if r.2.2 then [.gate (r.1 ++ qs) [ctlG r.1 st gs]] else []) ++ r.1.map .dis) init)})
        rw [happ]
        exact this
      | reset q =>
        have hq := hi.2 q (by simp [Ins.qubits])
        have hnq := not_pending (q := q) h.good (by simp [Ins.qubits]) (Or.inr rfl)
        have hn := h.n_le
        by_cases hb : t.any (fun x => decide (q ∈ x.qubits) && !x.perm pm q) = true
        · -- a new qubit
          have hmv : mv pm (fuel + 1) (.reset q :: t) s = mv pm fuel t { s with
              out := s.out ++ [.dis q, .gate [q, s.nq] [cxG q s.nq], .gate [s.nq, q] [cxG s.nq q], .dis s.nq], nq := s.nq + 1 } := by
            simp only [mv, if_pos hb]
          rw [hmv]
          have happ : appAll (s.out ++ [.dis q, .gate [q, s.nq] [cxG q s.nq], .gate [s.nq, q] [cxG s.nq q], .dis s.nq]) init =
              (cxG s.nq q).op ((cxG q s.nq).op (appAll s.out init)) := by
            rw [appAll_append]
            simp [appAll, app, prodG]
          obtain ⟨M', h1, h2⟩ := ih t { s with
              out := s.out ++ [.dis q, .gate [q, s.nq] [cxG q s.nq], .gate [s.nq, q] [cxG s.nq q], .dis s.nq], nq := s.nq + 1 }
            (.clr s.nq :: M) hlt hokt
            { n_le := by show n ≤ s.nq + 1; omega
              clean := by
                show ∀ p, s.nq + 1 ≤ p → Clean0 p (appAll (s.out ++ [.dis q, .gate [q, s.nq] [cxG q s.nq], .gate [s.nq, q] [cxG s.nq q], .dis s.nq]) init)
                intro p hp
                rw [happ]
                exact loc_clean (cxG s.nq q).loc (by simp [cxG]; omega) (clean_cx h.clean (by omega) (by omega) p hp)
              lt := fun p hp => by
                show p.q < s.nq + 1
                rcases List.mem_cons.1 hp with rfl | hp
                · simp [Pnd.q]
                · have := h.lt p hp; omega
              nodupq := by
                rw [List.map_cons, List.nodup_cons]
                refine ⟨fun hm => ?_, h.nodupq⟩
                obtain ⟨p, hp, e⟩ := List.mem_map.1 hm
                have := h.lt p hp
                have : p.q = s.nq := e
                omega
              nodupc := h.nodupc
              good := fun p hp => by
                rcases List.mem_cons.1 hp with rfl | hp
                · intro x hx hm
                  have := (mok_mem hokt x hx).2 s.nq hm
                  omega
                · exact hgt p hp
              dic := h.dic
              meas := h.meas
              cl := by simpa [measured, allOf] using h.cl }
          refine ⟨M', h1, ?_⟩
          rw [exec_snoc]
          dsimp only at h2
          rw [happ] at h2
          exact Eqv.trans (Eqv.exec (reset_step hnq (by omega) (h.clean _ (Nat.le_refl _)) _) t) h2
        · -- nothing happens with the qubit any more
          have hmv : mv pm (fuel + 1) (.reset q :: t) s = mv pm fuel t { s with out := s.out ++ [.dis q] } := by
            simp only [mv, if_neg hb]
          rw [hmv]
          have hlast : ∀ x ∈ t, q ∉ x.qubits := by
            rcases hok.2.1 with ⟨x, hx, h1, h2⟩ | hc
            · refine absurd (List.any_eq_true.2 ⟨x, hx, ?_⟩) hb
              simp [h1, h2]
            · exact hc
          have happ : appAll (s.out ++ [.dis q]) init = appAll s.out init := by simp [appAll_append, appAll, app]
          obtain ⟨M', h1, h2⟩ := ih t { s with out := s.out ++ [.dis q] } (M ++ [.clr q]) hlt hokt
            { n_le := h.n_le
              clean := by
                show ∀ p, s.nq ≤ p → Clean0 p (appAll (s.out ++ [.dis q]) init)
                rw [happ]
                exact h.clean
              lt := fun p hp => by
                rcases List.mem_append.1 hp with hp | hp
                · exact h.lt p hp
                · rw [List.mem_singleton] at hp
                  subst hp
                  show q < s.nq
                  omega
              nodupq := by
                rw [List.map_append]
                exact nodup_snoc h.nodupq hnq
              nodupc := by
                have : allOf (M ++ [.clr q]) = allOf M := by simp [allOf]
                rw [this]
                exact h.nodupc
              good := fun p hp => by
                rcases List.mem_append.1 hp with hp | hp
                · exact hgt p hp
                · rw [List.mem_singleton] at hp
                  subst hp
                  exact hlast
              dic := by simpa [dicOf] using h.dic
              meas := by simpa [pendOf] using h.meas
              cl := by simpa [measured, allOf] using h.cl }
          refine ⟨M', h1, ?_⟩
          rw [exec_snoc]
          dsimp only at h2
          rw [happ, pIns_snoc] at h2
          exact h2
      | measure q c =>
        have hq := hi.2 q (by simp [Ins.qubits])
        have hnq := not_pending (q := q) h.good (by simp [Ins.qubits]) (Or.inl ⟨c, rfl⟩)
        have hnc := not_clbit h.good
        have hn := h.n_le
        have hfresh : s.nq ∉ M.map Pnd.q := fun hm => by
          obtain ⟨p, hp, e⟩ := List.mem_map.1 hm
          have := h.lt p hp
          have : p.q = s.nq := e
          omega
        have hcond : (∀ q', .measure q' c ∉ t) ∧ _ := hok.2.1
        have hdic : dicSet c s.nq s.dic = dicOf (.mclr s.nq c :: M) := by
          rw [h.dic, dicSet_new (dicOf_sub hnc)]
          rfl
        have hdics : ∀ d (t' : List Ins), (∀ e, e ∈ measured (.measure q c :: t) ↔ e = c ∨ e ∈ measured t') →
            (d ∈ C ↔ d ∈ (allOf (.mclr s.nq c :: M)).map (·.1) ∨ d ∈ measured t') := by
          intro d t' ht'
          rw [h.cl d, ht' d]
          show _ ↔ d ∈ c :: (allOf M).map (·.1) ∨ _
          rw [List.mem_cons]
          tauto
        cases hlk : look pm q c t with
        | none =>
          have hmv : mv pm (fuel + 1) (.measure q c :: t) s =
              mv pm fuel t { s with out := s.out ++ [.dis q], meas := s.meas ++ [(q, c)] } := by
            simp only [mv, hlk]
          rw [hmv]
          have happ : appAll (s.out ++ [.dis q]) init = appAll s.out init := by simp [appAll_append, appAll, app]
          have hln := look_none hlk
          obtain ⟨M', h1, h2⟩ := ih t { s with out := s.out ++ [.dis q], meas := s.meas ++ [(q, c)] } (M ++ [.pend q c]) hlt hokt
            { n_le := h.n_le
              clean := by
                show ∀ p, s.nq ≤ p → Clean0 p (appAll (s.out ++ [.dis q]) init)
                rw [happ]
                exact h.clean
              lt := fun p hp => by
                rcases List.mem_append.1 hp with hp | hp
                · exact h.lt p hp
                · rw [List.mem_singleton] at hp
                  subst hp
                  show q < s.nq
                  omega
              nodupq := by
                rw [List.map_append]
                exact nodup_snoc h.nodupq hnq
              nodupc := by
                rw [allOf_append, List.map_append]
                exact nodup_snoc h.nodupc hnc
              good := fun p hp => by
                rcases List.mem_append.1 hp with hp | hp
                · exact hgt p hp
                · rw [List.mem_singleton] at hp
                  subst hp
                  intro x hx
                  obtain ⟨l1, l2, l3⟩ := hln x hx
                  refine ⟨l1, fun hqx => ?_⟩
                  obtain ⟨l4, l5⟩ := l2 hqx
                  cases x with
                  | gate qs gs => exact ⟨gs, Or.inl ⟨qs, rfl⟩, l5⟩
                  | cif qs gs cs st => exact ⟨gs, Or.inr ⟨qs, cs, st, rfl⟩, l5⟩
                  | measure q' c' =>
                    simp [Ins.qubits] at hqx
                    simp [Ins.measures, hqx] at l3
                  | reset q' => simp [Ins.isReset] at l4
                  | dis q' => simp [Ins.perm] at l5
              dic := by simpa [dicOf] using h.dic
              meas := by simp [pendOf, h.meas]
              cl := fun d => by
                rw [h.cl d, allOf_append, List.map_append, List.mem_append]
                have : measured (.measure q c :: t) = c :: measured t := rfl
                have h' : (allOf [.pend q c]).map (·.1) = [c] := rfl
                rw [this, List.mem_cons, h', List.mem_singleton]
                tauto }
          refine ⟨M', h1, ?_⟩
          rw [exec_snoc]
          dsimp only at h2
          rw [happ, pIns_snoc] at h2
          exact h2
        | some o =>
          cases o with
          | none =>
            have hmv : mv pm (fuel + 1) (.measure q c :: t) s = mv pm fuel t { s with
                out := s.out ++ [.gate [q, s.nq] [cxG q s.nq]], dic := dicSet c s.nq s.dic, nq := s.nq + 1 } := by
              simp only [mv, hlk]
            rw [hmv]
            have happ : appAll (s.out ++ [.gate [q, s.nq] [cxG q s.nq]]) init = (cxG q s.nq).op (appAll s.out init) := by
              rw [appAll_append]
              simp [appAll, app, prodG]
            obtain ⟨M', h1, h2⟩ := ih t { s with
                out := s.out ++ [.gate [q, s.nq] [cxG q s.nq]], dic := dicSet c s.nq s.dic, nq := s.nq + 1 }
              (.mclr s.nq c :: M) hlt hokt
              { n_le := by show n ≤ s.nq + 1; omega
                clean := by
                  show ∀ p, s.nq + 1 ≤ p → Clean0 p (appAll (s.out ++ [.gate [q, s.nq] [cxG q s.nq]]) init)
                  rw [happ]
                  exact clean_cx h.clean (by omega) (by omega)
                lt := fun p hp => by
                  show p.q < s.nq + 1
                  rcases List.mem_cons.1 hp with rfl | hp
                  · simp [Pnd.q]
                  · have := h.lt p hp; omega
                nodupq := by
                  rw [List.map_cons, List.nodup_cons]
                  exact ⟨hfresh, h.nodupq⟩
                nodupc := by
                  show (c :: (allOf M).map (·.1)).Nodup
                  exact List.nodup_cons.2 ⟨hnc, h.nodupc⟩
                good := fun p hp => by
                  rcases List.mem_cons.1 hp with rfl | hp
                  · intro x hx
                    refine ⟨fun hm => ?_, fun q' e => hcond.1 q' (e ▸ hx)⟩
                    have := (mok_mem hokt x hx).2 s.nq hm
                    omega
                  · exact hgt p hp
                dic := hdic
                meas := h.meas
                cl := fun d => hdics d t fun e => by
                  show e ∈ c :: measured t ↔ _
                  rw [List.mem_cons] }
            refine ⟨M', h1, ?_⟩
            rw [exec_snoc]
            dsimp only at h2
            rw [happ] at h2
            exact Eqv.trans (Eqv.exec (measure_step hnq hnc (by omega) (h.clean _ (Nat.le_refl _)) _) t) h2
          | some t' =>
            obtain ⟨D1, D2, e1, e2, e3⟩ := look_reset hlk (hok.2.1.2 (look_some hlk))
            have hmv : mv pm (fuel + 1) (.measure q c :: t) s = mv pm fuel t' { s with
                out := s.out ++ [.gate [q, s.nq] [cxG q s.nq], .gate [s.nq, q] [cxG s.nq q], .dis q],
                dic := dicSet c s.nq s.dic, nq := s.nq + 1 } := by
              simp only [mv, hlk]
            rw [hmv]
            have hsub : ∀ x ∈ t', x ∈ t := by
              intro x hx
              rw [e2] at hx
              rw [e1]
              rcases List.mem_append.1 hx with hx | hx <;> simp [hx]
            have hokt' : MOk pm n t' := by
              rw [e2]
              rw [e1] at hokt
              exact mok_remove D1 e3 hokt
            have happ : appAll (s.out ++ [.gate [q, s.nq] [cxG q s.nq], .gate [s.nq, q] [cxG s.nq q], .dis q]) init =
                (cxG s.nq q).op ((cxG q s.nq).op (appAll s.out init)) := by
              rw [appAll_append]
              simp [appAll, app, prodG]
            have hmeas : measured t = measured t' := by
              rw [e1, e2]
              simp [measured]
            obtain ⟨M', h1, h2⟩ := ih t' { s with
                out := s.out ++ [.gate [q, s.nq] [cxG q s.nq], .gate [s.nq, q] [cxG s.nq q], .dis q],
                dic := dicSet c s.nq s.dic, nq := s.nq + 1 }
              (.mclr s.nq c :: M) (by
                rw [e2]
                rw [e1] at hlt
                simp at hlt ⊢
                omega) hokt'
              { n_le := by show n ≤ s.nq + 1; omega
                clean := by
                  show ∀ p, s.nq + 1 ≤ p → Clean0 p (appAll (s.out ++ [.gate [q, s.nq] [cxG q s.nq], .gate [s.nq, q] [cxG s.nq q], .dis q]) init)
                  intro p hp
                  rw [happ]
                  exact loc_clean (cxG s.nq q).loc (by simp [cxG]; omega) (clean_cx h.clean (by omega) (by omega) p hp)
                lt := fun p hp => by
                  show p.q < s.nq + 1
                  rcases List.mem_cons.1 hp with rfl | hp
                  · simp [Pnd.q]
                  · have := h.lt p hp; omega
                nodupq := by
                  rw [List.map_cons, List.nodup_cons]
                  exact ⟨hfresh, h.nodupq⟩
                nodupc := by
                  show (c :: (allOf M).map (·.1)).Nodup
                  exact List.nodup_cons.2 ⟨hnc, h.nodupc⟩
                good := fun p hp => by
                  rcases List.mem_cons.1 hp with rfl | hp
                  · intro x hx
                    refine ⟨fun hm => ?_, fun q' e => hcond.1 q' (e ▸ hsub x hx)⟩
                    have := (mok_mem hokt x (hsub x hx)).2 s.nq hm
                    omega
                  · exact (hgt p hp).mono hsub
                dic := hdic
                meas := h.meas
                cl := fun d => hdics d t' fun e => by
                  show e ∈ c :: measured t ↔ _
                  rw [List.mem_cons, hmeas] }
            refine ⟨M', h1, ?_⟩
            have hfr : exec (.measure q c :: t) (exec (pIns M) {(fun _ => false, appAll s.out init)}) =
                exec t' (exec (pIns M ++ [.measure q c] ++ [.reset q]) {(fun _ => false, appAll s.out init)}) := by
              rw [exec_snoc, e1, exec_front (i := .reset q) trivial fun a ha => ⟨(mok_mem hokt a (by rw [e1]; simp [ha])).1,
                fun x hx hx' => by
                  simp [Ins.qubits] at hx'
                  subst hx'
                  exact e3 a ha hx, fun c _ hc => by simp [Ins.clbits] at hc⟩, ← e2, exec_snoc]
            rw [hfr]
            dsimp only at h2
            rw [happ] at h2
            exact Eqv.trans (Eqv.exec (measure_reset_step hnq hnc (by omega) (h.clean _ (Nat.le_refl _)) _) t') h2

/-- The distribution of the simulator is the distribution of the circuit. -/
theorem multiverse_ok {pm : List Gate → Nat → Bool} (hpm : PermSound pm) (n : Nat) (data : List Ins) (h : MOk pm n data) (v : Cl) :
    simProb (multiverse pm n data) v = prob n data v := by
  obtain ⟨M, h1, h2⟩ := mv_ok hpm n (measured data) data.length data ⟨[], [], [], n⟩ [] (Nat.le_refl _) h
    ⟨Nat.le_refl _, fun q _ => init_clean q, by simp, by simp, by simp [allOf], by simp, rfl, rfl, by simp [allOf]⟩
  generalize hs : mv pm data.length data ⟨[], [], [], n⟩ = s at *
  have hexec : exec data (exec (pIns []) {(fun _ => false, appAll [] init)}) = exec data {(fun _ => false, init)} := rfl
  rw [hexec] at h2
  have hcl := exec_clean data (mok_mem h) {(fun _ => false, init)} (by
    intro x hx q _
    rw [Multiset.mem_singleton] at hx
    subst hx
    exact init_clean q)
  have hprob : prob n data v = ((exec data {(fun _ => false, init)}).map (FW s.nq (measured data) v)).sum := by
    unfold prob
    congr 1
    refine Multiset.map_congr rfl fun x hx => ?_
    unfold FW
    rw [nrm_clean h1.n_le (hcl x hx)]
  rw [hprob, h2 _ (FW_zero _ _ _), final_sum _ _ _ _ h1.nodupq h1.nodupc h1.lt]
  have hsim : simProb (multiverse pm n data) v = W s.nq (fun b => (pendOf M ++ (dicOf M).map fun x => (x.2, x.1)).all fun x => b x.1 == v x.2)
      (appAll s.out init) := by
    unfold simProb multiverse W
    rw [hs]
    simp only [h1.meas, h1.dic]
  rw [hsim]
  congr 1
  funext b
  rw [Bool.eq_iff_iff]
  unfold finT
  rw [List.all_eq_true, List.all_eq_true]
  have hlook : ∀ c q, (c, q) ∈ allOf M → val (allOf M) (fun _ => false) b c = b q := by
    intro c q hm
    have : (allOf M).lookup c = some q := by
      have hnd := h1.nodupc
      revert hnd hm
      generalize allOf M = l
      intro hm hnd
      induction l with
      | nil => simp at hm
      | cons x l ih =>
        obtain ⟨a, p⟩ := x
        have hnd' := List.nodup_cons.1 (by simpa using hnd : (a :: l.map (·.1)).Nodup)
        rcases List.mem_cons.1 hm with e | e
        · cases e
          simp
        · have : c ≠ a := by
            rintro rfl
            exact hnd'.1 (List.mem_map.2 ⟨_, e, rfl⟩)
          have hb : (c == a) = false := by simpa using this
          rw [List.lookup_cons, hb]
          exact ih e hnd'.2
    simp [val, this]
  constructor
  · intro hall c hc
    rcases (h1.cl c).1 hc with hm | hm
    · obtain ⟨⟨c', q⟩, hx, rfl⟩ := List.mem_map.1 hm
      rw [hlook _ _ hx]
      refine hall (q, c') ?_
      rcases mem_allOf.1 hx with hy | hy
      · exact List.mem_append_right _ (List.mem_map.2 ⟨_, mem_dicOf.2 hy, rfl⟩)
      · exact List.mem_append_left _ (List.mem_filterMap.2 ⟨_, hy, rfl⟩)
    · simp [measured] at hm
  · rintro hall ⟨q, c⟩ hx
    have hm : (c, q) ∈ allOf M := by
      rcases List.mem_append.1 hx with hx | hx
      · obtain ⟨p, hp, e⟩ := List.mem_filterMap.1 hx
        cases p <;> simp at e
        obtain ⟨rfl, rfl⟩ := e
        exact mem_allOf.2 (Or.inr hp)
      · obtain ⟨⟨c', q'⟩, hy, e⟩ := List.mem_map.1 hx
        simp at e
        obtain ⟨rfl, rfl⟩ := e
        exact mem_allOf.2 (Or.inl (mem_dicOf.1 hy))
    have := hall c ((h1.cl c).2 (Or.inl (List.mem_map.2 ⟨_, hm, rfl⟩)))
    rw [hlook _ _ hm] at this
    exact this

end Verif.Sim
