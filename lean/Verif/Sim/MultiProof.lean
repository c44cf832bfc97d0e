import Verif.Sim.Multi
import Mathlib.Algebra.Order.BigOperators.Group.Multiset

/-!
Proof that the deferred measurements give the same distribution.
-/

namespace Verif.Sim

open Verif.Env (B E D X dg Dep)

/-! ### Equality up to branches with amplitude zero -/

/-- The same weights, for all weights that vanish for the amplitude zero. -/
def Eqv (s s' : Multiset Br) : Prop := ∀ F : Br → ℝ, (∀ k, F (k, 0) = 0) → (s.map F).sum = (s'.map F).sum

theorem Eqv.rfl {s : Multiset Br} : Eqv s s := fun _ _ => Eq.refl _

theorem Eqv.of_eq {s s' : Multiset Br} (h : s = s') : Eqv s s' := h ▸ Eqv.rfl

theorem Eqv.trans {a b c : Multiset Br} (h : Eqv a b) (h' : Eqv b c) : Eqv a c := fun F hF => (h F hF).trans (h' F hF)

theorem Eqv.symm {a b : Multiset Br} (h : Eqv a b) : Eqv b a := fun F hF => (h F hF).symm

theorem Eqv.add {a b c d : Multiset Br} (h : Eqv a b) (h' : Eqv c d) : Eqv (a + c) (b + d) := fun F hF => by
  simp only [Multiset.map_add, Multiset.sum_add, h F hF, h' F hF]

theorem sum_bind (s : Multiset Br) (f : Br → Multiset Br) (F : Br → ℝ) :
    ((s.bind f).map F).sum = (s.map fun x => ((f x).map F).sum).sum := by
  rw [Multiset.map_bind, Multiset.sum_bind]

theorem step_zero (i : Ins) (k : Cl) (F : Br → ℝ) (hF : ∀ k, F (k, 0) = 0) : ((step i (k, 0)).map F).sum = 0 := by
  unfold step
  rw [Multiset.map_map]
  refine Multiset.sum_eq_zero fun y hy => ?_
  obtain ⟨a, _, rfl⟩ := Multiset.mem_map.1 hy
  show F (a.1 k, a.2 k 0) = 0
  rw [map_zero]
  exact hF _

theorem Eqv.exec {s s' : Multiset Br} (h : Eqv s s') (l : List Ins) : Eqv (exec l s) (exec l s') := by
  induction l generalizing s s' with
  | nil => exact h
  | cons i l ih =>
    rw [exec_cons, exec_cons]
    refine ih fun F hF => ?_
    rw [sum_bind, sum_bind]
    exact h _ fun k => step_zero i k F hF

theorem exec_add (l : List Ins) (a b : Multiset Br) : exec l (a + b) = exec l a + exec l b := by
  induction l generalizing a b with
  | nil => rfl
  | cons i l ih => rw [exec_cons, exec_cons, exec_cons, Multiset.add_bind, ih]

/-! ### Pending operations -/

/-- Operations that have been deferred: a new qubit that holds a measurement outcome (it is measured and cleared), a qubit
that is reset, a qubit that is measured at the end. -/
inductive Pnd where
  | mclr (q c : Nat)
  | clr (q : Nat)
  | pend (q c : Nat)

def Pnd.q : Pnd → Nat
  | .mclr q _ => q
  | .clr q => q
  | .pend q _ => q

def Pnd.ins : Pnd → List Ins
  | .mclr q c => [.measure q c, .reset q]
  | .clr q => [.reset q]
  | .pend q c => [.measure q c]

def Pnd.cl (v : Bool) (k : Cl) : Pnd → Cl
  | .mclr _ c => setc c v k
  | .clr _ => k
  | .pend _ c => setc c v k

/-- Project onto a value and clear the qubit. -/
noncomputable def clear (q : Nat) (v : Bool) : E := if v then X q * P q true else P q false

noncomputable def Pnd.op (v : Bool) : Pnd → E
  | .mclr q _ => clear q v
  | .clr q => clear q v
  | .pend q _ => P q v

def pIns (M : List Pnd) : List Ins := M.flatMap Pnd.ins

theorem P_sq (q : Nat) (v : Bool) : P q v * P q v = P q v := Env.D_sq _

theorem P_P (q : Nat) (v : Bool) : P q (!v) * P q v = 0 := by
  unfold P
  rw [Env.D_mul, ← Env.D_false]
  congr 1
  funext b
  cases b q <;> cases v <;> rfl

theorem apply_mul (M N : E) (ψ : B → ℂ) : M (N ψ) = (M * N) ψ := rfl

/-- What a pending operation does. -/
theorem pnd_exec (p : Pnd) (l : List Ins) (k : Cl) (ψ : B → ℂ) :
    Eqv (exec (p.ins ++ l) {(k, ψ)}) (exec l {(p.cl false k, p.op false ψ)} + exec l {(p.cl true k, p.op true ψ)}) := by
  have two : ∀ (k1 k2 : Cl) (ψ1 ψ2 : B → ℂ), exec l {(k1, ψ1)} + exec l {(k2, ψ2)} = exec l ({(k1, ψ1)} + {(k2, ψ2)}) :=
    fun _ _ _ _ => (exec_add _ _ _).symm
  rw [two, exec_append]
  refine Eqv.exec ?_ l
  cases p with
  | clr q =>
    refine Eqv.of_eq ?_
    simp [Pnd.ins, exec, step, alts, Pnd.cl, Pnd.op, clear]
    rfl
  | pend q c =>
    refine Eqv.of_eq ?_
    simp [Pnd.ins, exec, step, alts, Pnd.cl, Pnd.op]
    rfl
  | mclr q c =>
    intro F hF
    have e1 : P q false (P q true ψ) = 0 := by rw [apply_mul, show P q false * P q true = 0 from P_P q true]; rfl
    have e2 : P q true (P q false ψ) = 0 := by rw [apply_mul, show P q true * P q false = 0 from P_P q false]; rfl
    have e3 : ∀ v, P q v (P q v ψ) = P q v ψ := fun v => by rw [apply_mul, P_sq]
    have e4 : (X q * P q true) (P q false ψ) = 0 := by
      show X q (P q true (P q false ψ)) = 0
      rw [e2, map_zero]
    have e5 : (X q * P q true) (P q true ψ) = (X q * P q true) ψ := by
      show X q (P q true (P q true ψ)) = X q (P q true ψ)
      rw [e3]
    have h1 : exec (Pnd.mclr q c).ins {(k, ψ)} = {(setc c false k, P q false (P q false ψ)),
        (setc c false k, (X q * P q true) (P q false ψ)), (setc c true k, P q false (P q true ψ)),
        (setc c true k, (X q * P q true) (P q true ψ))} := by
      simp [Pnd.ins, exec, step, alts]
      rfl
    rw [h1, e1, e3, e4, e5]
    simp [hF, Pnd.cl, Pnd.op, clear]

/-- The value of a classical bit when the pending qubits in `dic` are read. -/
def val (dic : List (Nat × Nat)) (k : Cl) (b : B) (c : Nat) : Bool := ((dic.lookup c).map b).getD (k c)

/-- The measured and cleared qubits. -/
def dicOf (M : List Pnd) : List (Nat × Nat) := M.filterMap fun p => match p with
  | .mclr q c => some (c, q)
  | _ => none

/-- The final measurements. -/
def pendOf (M : List Pnd) : List (Nat × Nat) := M.filterMap fun p => match p with
  | .pend q c => some (q, c)
  | _ => none

/-- All classical bits with their qubits. -/
def allOf (M : List Pnd) : List (Nat × Nat) := M.filterMap fun p => match p with
  | .mclr q c => some (c, q)
  | .pend q c => some (c, q)
  | _ => none

/-- The condition of a classically controlled operation. -/
def condT (M : List Pnd) (cs : List Nat) (st : List Bool) (k : Cl) (b : B) : Bool :=
  (cs.zip st).all fun x => val (dicOf M) k b x.1 == x.2

theorem lookup_mem {l : List (Nat × Nat)} {c q : Nat} (h : l.lookup c = some q) : (c, q) ∈ l := by
  induction l with
  | nil => simp at h
  | cons x l ih =>
    obtain ⟨a, b⟩ := x
    rw [List.lookup_cons] at h
    by_cases e : c = a
    · subst e
      simp at h
      subst h
      simp
    · have : (c == a) = false := by simpa using e
      rw [this] at h
      simp [ih h]

theorem lookup_none {l : List (Nat × Nat)} {c : Nat} (h : ∀ q, (c, q) ∉ l) : l.lookup c = none := by
  cases hl : l.lookup c with
  | none => rfl
  | some q => exact absurd (lookup_mem hl) (h q)

theorem mem_dicOf {M : List Pnd} {c q : Nat} : (c, q) ∈ dicOf M ↔ .mclr q c ∈ M := by
  unfold dicOf
  rw [List.mem_filterMap]
  constructor
  · rintro ⟨p, hp, h⟩
    cases p <;> simp at h
    obtain ⟨rfl, rfl⟩ := h
    exact hp
  · intro h
    exact ⟨_, h, rfl⟩

theorem mem_allOf {M : List Pnd} {c q : Nat} : (c, q) ∈ allOf M ↔ .mclr q c ∈ M ∨ .pend q c ∈ M := by
  unfold allOf
  rw [List.mem_filterMap]
  constructor
  · rintro ⟨p, hp, h⟩
    cases p <;> simp at h
    · obtain ⟨rfl, rfl⟩ := h
      exact Or.inl hp
    · obtain ⟨rfl, rfl⟩ := h
      exact Or.inr hp
  · rintro (h | h)
    · exact ⟨_, h, rfl⟩
    · exact ⟨_, h, rfl⟩

theorem val_flip {dic : List (Nat × Nat)} {k : Cl} {b : B} {c q : Nat} (h : ∀ c, (c, q) ∉ dic) :
    val dic k (Env.flip q b) c = val dic k b c := by
  unfold val
  cases hl : dic.lookup c with
  | none => rfl
  | some p =>
    have : p ≠ q := by rintro rfl; exact h c (lookup_mem hl)
    simp [Env.flip, this]

theorem condT_flip {M : List Pnd} {cs : List Nat} {st : List Bool} {k : Cl} {b : B} {q : Nat} (h : ∀ c, .mclr q c ∉ M) :
    condT M cs st k (Env.flip q b) = condT M cs st k b := by
  unfold condT
  have : ∀ c, val (dicOf M) k (Env.flip q b) c = val (dicOf M) k b c := fun c => val_flip fun c' hc => h c' (mem_dicOf.1 hc)
  simp only [this]

theorem condT_mclr {M : List Pnd} {cs : List Nat} {st : List Bool} {k : Cl} {b : B} {q c : Nat} {v : Bool}
    (h : ∀ q', .mclr q' c ∉ M) (hb : b q = v) : condT (.mclr q c :: M) cs st k b = condT M cs st (setc c v k) b := by
  unfold condT
  have : ∀ a, val (dicOf (.mclr q c :: M)) k b a = val (dicOf M) (setc c v k) b a := by
    intro a
    unfold val
    by_cases e : a = c
    · subst e
      have h1 : (dicOf (.mclr q a :: M)).lookup a = some q := by simp [dicOf]
      have h2 : (dicOf M).lookup a = none := lookup_none fun q' hc => h q' (mem_dicOf.1 hc)
      rw [h1, h2]
      simp [setc, hb]
    · have h1 : (dicOf (.mclr q c :: M)).lookup a = (dicOf M).lookup a := by
        have : (a == c) = false := by simpa using e
        simp [dicOf, List.lookup_cons, this]
      rw [h1]
      simp [setc, e]
  simp only [this]

theorem condT_setc {M : List Pnd} {cs : List Nat} {st : List Bool} {k : Cl} {b : B} {c : Nat} {v : Bool} (h : c ∉ cs) :
    condT M cs st (setc c v k) b = condT M cs st k b := by
  unfold condT
  rw [Bool.eq_iff_iff, List.all_eq_true, List.all_eq_true]
  refine forall_congr' fun x => forall_congr' fun hx => ?_
  have : x.1 ≠ c := by rintro rfl; exact h (List.of_mem_zip hx).1
  have e : val (dicOf M) (setc c v k) b x.1 = val (dicOf M) k b x.1 := by
    unfold val
    simp [setc, this]
  rw [e]

/-! ### Operators and predicates -/

theorem P_dep (q : Nat) (v : Bool) {T T' : B → Bool} (h : ∀ b : B, b q = v → T b = T' b) : P q v * D T = P q v * D T' := by
  unfold P
  rw [Env.D_mul, Env.D_mul]
  congr 1
  funext b
  by_cases hb : b q = v
  · simp [h b hb]
  · have : (b q == v) = false := by simpa using hb
    simp [this]

theorem P_D_comm (q : Nat) (v : Bool) (T : B → Bool) : D T * P q v = P q v * D T := by
  unfold P
  exact (Env.D_comm _ _).eq

theorem clear_nat {q : Nat} {v : Bool} {T T' : B → Bool} (h : ∀ b : B, b q = v → T b = T' b) (hf : ∀ b, T' (Env.flip q b) = T' b) :
    D T' * clear q v = clear q v * D T := by
  have key : ∀ v, (∀ b : B, b q = v → T b = T' b) → D T' * P q v = P q v * D T := fun v h => by rw [P_D_comm, P_dep q v h]
  unfold clear
  cases v
  · simpa using key false h
  · have hx : D T' * X q = X q * D T' := (Env.X_D_comm hf).eq.symm
    simp only [if_true]
    rw [← mul_assoc, hx, mul_assoc, key true h, mul_assoc]

theorem clear_comm {q : Nat} {v : Bool} {G : E} (h1 : Commute (X q) G) (h2 : ∀ v, Commute (P q v) G) : Commute (clear q v) G := by
  unfold clear
  cases v
  · simpa using h2 false
  · simpa using Commute.mul_left h1 (h2 true)

theorem P_comm_of {q : Nat} {G : E} (h : Commute G (D fun b => b q)) (v : Bool) : Commute (P q v) G := by
  have : P q v = if v then D (fun b => b q) else 1 - D (fun b => b q) := by
    unfold P
    cases v
    · rw [if_neg (by decide), ← Env.D_not]
      congr 1
      funext b
      cases b q <;> rfl
    · rw [if_pos rfl]
      congr 1
      funext b
      cases b q <;> rfl
  rw [this]
  split
  · exact h.symm
  · exact ((Commute.one_right G).sub_right h).symm

theorem loc_comm_X {S : List Nat} {G : E} (h : Loc S G) {q : Nat} (hq : q ∉ S) : Commute (X q) G :=
  loc_commute (loc_X q) h (by simp [hq])

theorem loc_comm_P {S : List Nat} {G : E} (h : Loc S G) {q : Nat} (hq : q ∉ S) (v : Bool) : Commute (P q v) G :=
  loc_commute (loc_P q v) h (by simp [hq])

/-! ### A classically controlled operation moves before the pending operations -/

/-- What a classically controlled operation on the gates `gs` may find pending. -/
def CifOk (S : List Nat) (G : E) (cs : List Nat) : Pnd → Prop
  | .mclr q _ => q ∉ S
  | .clr q => q ∉ S
  | .pend q c => c ∉ cs ∧ Commute G (D fun b => b q)

theorem clOf_nodup_cons {p : Pnd} {M : List Pnd} (h : ((allOf (p :: M)).map (·.1)).Nodup) : ((allOf M).map (·.1)).Nodup := by
  cases p
  · exact (List.nodup_cons.1 (show (_ :: (allOf M).map (·.1)).Nodup from h)).2
  · simpa [allOf] using h
  · exact (List.nodup_cons.1 (show (_ :: (allOf M).map (·.1)).Nodup from h)).2

theorem cif_before (qs : List Nat) (gs : List Gate) (cs : List Nat) (st : List Bool) {S : List Nat} (hS : Loc S (prodG gs)) (M : List Pnd) :
    (∀ p ∈ M, CifOk S (prodG gs) cs p) → (M.map Pnd.q).Nodup → ((allOf M).map (·.1)).Nodup → ∀ (k : Cl) (ψ : B → ℂ),
    Eqv (exec (pIns M ++ [.cif qs gs cs st]) {(k, ψ)}) (exec (pIns M) {(k, Env.when (condT M cs st k) (prodG gs) ψ)}) := by
  induction M with
  | nil =>
    intro _ _ _ k ψ
    refine Eqv.of_eq ?_
    have e : condT [] cs st k = fun _ => cmatch cs st k := by
      funext b
      rfl
    rw [e]
    simp only [pIns, List.flatMap_nil, List.nil_append, exec_cons, exec_nil, Multiset.singleton_bind, step, alts]
    cases hm : cmatch cs st k
    · simp [Env.when_false, hm]
    · simp [Env.when_true, hm]
  | cons p M ih =>
    intro h hn hc k ψ
    have hp := h p (by simp)
    have hn' := List.nodup_cons.1 (by simpa using hn : (p.q :: M.map Pnd.q).Nodup)
    have e : ∀ l, pIns (p :: M) ++ l = p.ins ++ (pIns M ++ l) := fun l => by simp [pIns]
    have e' : pIns (p :: M) = p.ins ++ pIns M := by simp [pIns]
    rw [e, e']
    have hq : ∀ c, .mclr p.q c ∉ M := fun c hm => hn'.1 (List.mem_map.2 ⟨_, hm, rfl⟩)
    -- the operators
    have key : ∀ v, Env.when (condT M cs st (p.cl v k)) (prodG gs) * p.op v = p.op v * Env.when (condT (p :: M) cs st k) (prodG gs) := by
      intro v
      cases p with
      | mclr q c =>
        have hcM : ∀ q', .mclr q' c ∉ M := by
          intro q' hm
          have := (List.nodup_cons.1 (show (c :: (allOf M).map (·.1)).Nodup from hc)).1
          refine this ?_
          have : (c, q') ∈ allOf M := mem_allOf.2 (Or.inl hm)
          exact List.mem_map.2 ⟨(c, q'), this, rfl⟩
        refine Env.when_nat (clear_nat (fun b hb => condT_mclr hcM hb) fun b => condT_flip hq) ?_
        exact clear_comm (loc_comm_X hS hp) (loc_comm_P hS hp)
      | clr q =>
        have hd : condT (.clr q :: M) cs st k = condT M cs st k := by
          funext b
          simp [condT, dicOf]
        rw [hd]
        exact Env.when_nat (clear_nat (fun b _ => rfl) fun b => condT_flip hq) (clear_comm (loc_comm_X hS hp) (loc_comm_P hS hp))
      | pend q c =>
        have hd : condT (.pend q c :: M) cs st k = condT M cs st k := by
          funext b
          simp [condT, dicOf]
        have hd' : condT M cs st (setc c v k) = condT M cs st k := by
          funext b
          exact condT_setc hp.1
        rw [hd]
        show Env.when (condT M cs st (setc c v k)) (prodG gs) * P q v = P q v * _
        rw [hd']
        exact Env.when_nat (P_D_comm _ _ _) (P_comm_of hp.2 v)
    have ih' := ih (fun x hx => h x (by simp [hx])) hn'.2 (clOf_nodup_cons hc)
    refine (pnd_exec p _ k ψ).trans (Eqv.trans ?_ (pnd_exec p _ k _).symm)
    have kk : ∀ v, p.op v (Env.when (condT (p :: M) cs st k) (prodG gs) ψ) =
        Env.when (condT M cs st (p.cl v k)) (prodG gs) (p.op v ψ) := fun v => by rw [apply_mul, ← key v]; rfl
    rw [kk, kk]
    exact (ih' _ _).add (ih' _ _)

/-! ### Measurements and resets on new qubits -/

/-- Zero on the states in which the qubit is one. -/
def Clean0 (q : Nat) (ψ : B → ℂ) : Prop := ∀ b : B, b q = true → ψ b = 0

theorem cx_apply (a b : Nat) (ψ : B → ℂ) (x : B) : (cxG a b).op ψ x = if x a then ψ (Env.flip b x) else ψ x := by
  show (D (fun x => x a) * X b + D fun x => !x a) ψ x = _
  show (if x a then (1 : ℂ) else 0) * ψ (Env.flip b x) + (if !x a then (1 : ℂ) else 0) * ψ x = _
  cases x a <;> simp

theorem P_apply (q : Nat) (v : Bool) (ψ : B → ℂ) (x : B) : P q v ψ x = if x q = v then ψ x else 0 := by
  show (if (x q == v) = true then (1 : ℂ) else 0) * ψ x = _
  by_cases h : x q = v <;> simp [h]

theorem X_apply (q : Nat) (ψ : B → ℂ) (x : B) : X q ψ x = ψ (Env.flip q x) := rfl

theorem clear_apply (q : Nat) (v : Bool) (ψ : B → ℂ) (x : B) :
    clear q v ψ x = if x q = false then ψ (if v then Env.flip q x else x) else 0 := by
  unfold clear
  cases v
  · simp [P_apply]
  · show X q (P q true ψ) x = _
    rw [X_apply, P_apply, Env.flip_at]
    cases x q <;> simp

theorem measure_new {q a : Nat} (ha : q ≠ a) {ψ : B → ℂ} (hc : Clean0 a ψ) (v : Bool) :
    clear a v ((cxG q a).op ψ) = P q v ψ := by
  funext b
  rw [clear_apply, P_apply]
  have hq : ∀ b : B, Env.flip a b q = b q := fun b => Env.flip_other ha b
  cases hb : b a
  · simp only [if_true]
    cases v
    · simp only [Bool.false_eq_true, if_false]
      rw [cx_apply]
      cases hx : b q
      · simp
      · simp only [if_true, Bool.true_eq_false, if_false]
        exact hc _ (by rw [Env.flip_at, hb]; rfl)
    · simp only [if_true]
      rw [cx_apply, hq, Env.flip_flip]
      cases hx : b q
      · simp only [Bool.false_eq_true, if_false]
        exact hc _ (by rw [Env.flip_at, hb]; rfl)
      · simp
  · simp only [Bool.true_eq_false, if_false]
    split
    · exact (hc b hb).symm
    · rfl

theorem reset_new {q a : Nat} (ha : q ≠ a) {ψ : B → ℂ} (hc : Clean0 a ψ) (v : Bool) :
    clear a v ((cxG a q).op ((cxG q a).op ψ)) = clear q v ψ := by
  funext b
  rw [clear_apply, clear_apply]
  have hq : ∀ b : B, Env.flip a b q = b q := fun b => Env.flip_other ha b
  have haq : ∀ b : B, Env.flip q b a = b a := fun b => Env.flip_other (Ne.symm ha) b
  have hsw : ∀ b : B, Env.flip a (Env.flip q (Env.flip a b)) = Env.flip q b := by
    intro b
    funext p
    unfold Env.flip
    split_ifs <;> simp_all
  cases hb : b a
  · simp only [if_true]
    cases v
    · simp only [Bool.false_eq_true, if_false]
      rw [cx_apply, hb, if_neg (by simp), cx_apply]
      cases hx : b q
      · simp
      · simp only [if_true, Bool.true_eq_false, if_false]
        exact hc _ (by rw [Env.flip_at, hb]; rfl)
    · simp only [if_true]
      rw [cx_apply, Env.flip_at, hb, if_pos (by rfl), cx_apply, Env.flip_at, hq, hsw]
      cases hx : b q
      · simp
      · simp only [Bool.not_true, Bool.false_eq_true, if_false, Bool.true_eq_false]
        refine hc _ ?_
        rw [haq, Env.flip_at, hb]
        rfl
  · simp only [Bool.true_eq_false, if_false]
    split
    · refine (hc _ ?_).symm
      split
      · rw [haq]; exact hb
      · exact hb
    · rfl

theorem loc_clean {S : List Nat} {M : E} (h : Loc S M) {q : Nat} (hq : q ∉ S) {ψ : B → ℂ} (hc : Clean0 q ψ) : Clean0 q (M ψ) := by
  obtain ⟨ι, _, k, x, _, _, hM⟩ := h
  intro b hb
  rw [hM]
  refine Finset.sum_eq_zero fun i _ => ?_
  rw [hc _ (by simp [over, hq, hb]), mul_zero]

/-- The controlled operation on control qubits, some of which are new. -/
theorem when_ctl {T T' : B → Bool} {G : E} {ψ : B → ℂ} (h : ∀ b, ψ b ≠ 0 ∨ G ψ b ≠ 0 → T b = T' b) :
    Env.when T G ψ = Env.when T' G ψ := by
  funext b
  show (if T b then (1 : ℂ) else 0) * G ψ b + (if !T b then (1 : ℂ) else 0) * ψ b =
    (if T' b then (1 : ℂ) else 0) * G ψ b + (if !T' b then (1 : ℂ) else 0) * ψ b
  by_cases h1 : ψ b ≠ 0 ∨ G ψ b ≠ 0
  · rw [h b h1]
  · rw [not_or, not_not, not_not] at h1
    rw [h1.1, h1.2]
    simp

end Verif.Sim
