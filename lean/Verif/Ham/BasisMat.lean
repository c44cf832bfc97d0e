import Verif.Ham.Basis

/-!
The matrices of the basis change and the analysis of its loops.
-/

namespace Verif.Ham

open Verif.Oper Verif.Circ
open Verif.Rev (upd)

/-- The matrix of a gate on `n` qubits. -/
noncomputable def gmat (n : Nat) : BG → MatN n
  | .h j => gate1 n hm j
  | .sxdg j => gate1 n sxm j
  | .cx a j => if h : a < n ∧ j < n then permM (cxB ⟨a, h.1⟩ ⟨j, h.2⟩) else 1

/-- The matrix of the inverse gate. -/
noncomputable def gmatI (n : Nat) : BG → MatN n
  | .h j => gate1 n hm j
  | .sxdg j => gate1 n sxm' j
  | .cx a j => if h : a < n ∧ j < n then permM (cxB ⟨a, h.1⟩ ⟨j, h.2⟩) else 1

/-- The matrix of a list of gates, the first gate on the right. -/
noncomputable def gmatL (n : Nat) : List BG → MatN n
  | [] => 1
  | g :: gs => gmatL n gs * gmat n g

/-- The matrix of the inverse. -/
noncomputable def gmatIL (n : Nat) : List BG → MatN n
  | [] => 1
  | g :: gs => gmatI n g * gmatIL n gs

/-- The qubits of a gate exist and are different. -/
def BG.ok (n : Nat) : BG → Prop
  | .h j => j < n
  | .sxdg j => j < n
  | .cx a j => a < n ∧ j < n ∧ a ≠ j

theorem gmatL_append (n : Nat) (a b : List BG) : gmatL n (a ++ b) = gmatL n b * gmatL n a := by
  induction a with
  | nil => rw [List.nil_append]; show _ = gmatL n b * 1; rw [mul_one]
  | cons g a ih => show gmatL n (a ++ b) * gmat n g = gmatL n b * (gmatL n a * gmat n g); rw [ih, mul_assoc]

theorem gate1_mul (n : Nat) (U V : M2) (j : Nat) : gate1 n U j * gate1 n V j = gate1 n (U * V) j := by
  unfold gate1
  rw [tensor_mul]
  congr 1
  funext k
  by_cases h : (k : Nat) = j
  · rw [h, slot_self, slot_self, slot_self]
  · rw [slot_ne _ h, slot_ne _ h, slot_ne _ h, one_mul]

theorem tensor_one (n : Nat) : (tensor fun _ : Fin n => (1 : M2)) = 1 := by
  ext b c
  by_cases h : b = c
  · subst h
    rw [Matrix.one_apply_eq]
    exact Finset.prod_eq_one fun k _ => Matrix.one_apply_eq _
  · rw [Matrix.one_apply_ne h]
    obtain ⟨k, hk⟩ := Function.ne_iff.1 h
    exact Finset.prod_eq_zero (Finset.mem_univ k) (Matrix.one_apply_ne hk)

theorem gate1_one (n : Nat) (j : Nat) : gate1 n 1 j = 1 := by
  unfold gate1
  rw [← tensor_one]
  congr 1
  funext k
  unfold slot
  split <;> rfl

theorem permM_mul {n : Nat} (w v : (Fin n → Bool) → Fin n → Bool) : permM w * permM v = permM fun b => w (v b) := by
  ext b c
  rw [Matrix.mul_apply]
  unfold permM
  rw [Finset.sum_eq_single (v c)]
  · rw [if_pos rfl, mul_one]
  · intro x _ hx
    rw [if_neg hx, mul_zero]
  · intro h; exact absurd (Finset.mem_univ _) h

theorem permM_id {n : Nat} : permM (fun b : Fin n → Bool => b) = 1 := by
  ext b c
  unfold permM
  by_cases h : b = c
  · rw [if_pos h, h, Matrix.one_apply_eq]
  · rw [if_neg h, Matrix.one_apply_ne h]

theorem gmatI_mul {n : Nat} {g : BG} (h : g.ok n) : gmatI n g * gmat n g = 1 := by
  cases g with
  | h j => show gate1 n hm j * gate1 n hm j = 1; rw [gate1_mul, hm_hm', gate1_one]
  | sxdg j => show gate1 n sxm' j * gate1 n sxm j = 1; rw [gate1_mul, sxm_sxm', gate1_one]
  | cx a j =>
    have h' : a < n ∧ j < n := ⟨h.1, h.2.1⟩
    show (if h : a < n ∧ j < n then permM (cxB (⟨a, h.1⟩ : Fin n) ⟨j, h.2⟩) else 1) *
      (if h : a < n ∧ j < n then permM (cxB (⟨a, h.1⟩ : Fin n) ⟨j, h.2⟩) else 1) = 1
    rw [dif_pos h', permM_mul]
    have : (fun b => cxB (⟨a, h'.1⟩ : Fin n) ⟨j, h'.2⟩ (cxB ⟨a, h'.1⟩ ⟨j, h'.2⟩ b)) = fun b => b :=
      funext fun b => cxB_cxB (fun e => h.2.2 (congrArg Fin.val e)) b
    rw [this, permM_id]

theorem gmatIL_mul {n : Nat} {gs : List BG} (h : ∀ g ∈ gs, g.ok n) : gmatIL n gs * gmatL n gs = 1 := by
  induction gs with
  | nil => show (1 : MatN n) * 1 = 1; rw [one_mul]
  | cons g gs ih =>
    have ih := ih fun x hx => h x (List.mem_cons_of_mem _ hx)
    show gmatI n g * gmatIL n gs * (gmatL n gs * gmat n g) = 1
    rw [mul_assoc, ← mul_assoc (gmatIL n gs), ih, one_mul, gmatI_mul (h g List.mem_cons_self)]

theorem den_actM {n : Nat} {g : BG} (h : g.ok n) (ψ : Amp HQ) : Circ.den g.op.1 g.op.2 ψ = actM (gmat n g) ψ := by
  cases g with
  | h j => show Circ.den hG [.qv j] ψ = _; rw [den_h, app1_actM hm h]; rfl
  | sxdg j => show Circ.den sxdgFn [.qv j] ψ = _; rw [den_sxdgFn, app1_actM sxm h]; rfl
  | cx a j =>
    show Circ.den cxG [.qv a, .qv j] ψ = actM (if h : a < n ∧ j < n then permM (cxB (⟨a, h.1⟩ : Fin n) ⟨j, h.2⟩) else 1) ψ
    rw [dif_pos ⟨h.1, h.2.1⟩, cx_actM h.1 h.2.1 h.2.2]

theorem den_inv_actM {n : Nat} {g : BG} (h : g.ok n) (ψ : Amp HQ) : Circ.den g.op.1.inv g.op.2 ψ = actM (gmatI n g) ψ := by
  cases g with
  | h j =>
    have e : Circ.den hG.inv [.qv j] ψ = app1 hm (.qv j) ψ := by
      show app1 (u3m (-(Real.pi / 2)) (-Real.pi) (-0) (-0)) (HQ.qv j) ψ = _
      rw [neg_zero, u3m_h']
    show Circ.den hG.inv [.qv j] ψ = _
    rw [e, app1_actM hm h]; rfl
  | sxdg j => show Circ.den sxdgFn.inv [.qv j] ψ = _; rw [den_sxdgFn_inv, app1_actM sxm' h]; rfl
  | cx a j =>
    show Circ.den cxG.inv [.qv a, .qv j] ψ = actM (if h : a < n ∧ j < n then permM (cxB (⟨a, h.1⟩ : Fin n) ⟨j, h.2⟩) else 1) ψ
    rw [dif_pos ⟨h.1, h.2.1⟩, ← cx_actM h.1 h.2.1 h.2.2]
    rfl

theorem runB_actM {n : Nat} {gs : List BG} (h : ∀ g ∈ gs, g.ok n) (ψ : Amp HQ) : runB gs ψ = actM (gmatL n gs) ψ := by
  induction gs generalizing ψ with
  | nil => exact (actM_one ψ).symm
  | cons g gs ih =>
    show runB gs (Circ.den g.op.1 g.op.2 ψ) = actM (gmatL n gs * gmat n g) ψ
    rw [ih (fun x hx => h x (List.mem_cons_of_mem _ hx)), den_actM (h g List.mem_cons_self), actM_mul]

theorem runBinv_actM {n : Nat} {gs : List BG} (h : ∀ g ∈ gs, g.ok n) (ψ : Amp HQ) : runBinv gs ψ = actM (gmatIL n gs) ψ := by
  induction gs with
  | nil => exact (actM_one ψ).symm
  | cons g gs ih =>
    show Circ.den g.op.1.inv g.op.2 (runBinv gs ψ) = actM (gmatI n g * gmatIL n gs) ψ
    rw [ih (fun x hx => h x (List.mem_cons_of_mem _ hx)), den_inv_actM (h g List.mem_cons_self), actM_mul]

/-! ### Groups of terms -/

/-- Terms that commute qubit-wise and have ladder factors on the same qubits. -/
structure Grp (n : Nat) (ts : List Term) : Prop where
  wf : ∀ t ∈ ts, t.WF
  noI : ∀ t ∈ ts, NoI t
  lt : ∀ t ∈ ts, ∀ k ∈ t.keys, k < n
  comm : ∀ s ∈ ts, ∀ t ∈ ts, ∀ k, table (s.get k) (t.get k) = table (t.get k) (s.get k)
  lad : ∀ s ∈ ts, ∀ t ∈ ts, ∀ k, isLad (s.get k) = isLad (t.get k)

/-- The basis gate of a qubit. -/
noncomputable def bm : Option Fac → M2
  | some .X => hm
  | some .Y => sxm
  | _ => 1

/-- The entries of `basis_dict` are Pauli factors of the group. -/
def Bok (ts : List Term) (b : Nat → Option Fac) : Prop := ∀ j f, b j = some f → isPauli f = true ∧ ∃ t ∈ ts, t.get j = f

theorem noI_get {t : Term} (h : NoI t) {k : Nat} {f : Fac} (hl : List.lookup k t = some f) : f ≠ .I := h (k, f) (mem_of_lookup hl)

theorem pauli_comm (f g : Fac) (hf : isPauli f = true) (hg : isPauli g = true) (h : table f g = table g f) : f = g := by
  revert f g; decide +kernel

theorem pauli_proj (f g : Fac) (hf : isPauli f = true) (hg : isProj g = true) (h : table f g = table g f) : f = .Z := by
  revert f g; decide +kernel

theorem fac_cases (f : Fac) (h : f ≠ .I) : isPauli f = true ∨ isProj f = true ∨ isLad f = true := by
  revert f; decide +kernel

theorem gmatL_single (n : Nat) (g : BG) : gmatL n [g] = gmat n g := by show 1 * gmat n g = _; rw [one_mul]

/-- The matrix of the gates for a Pauli factor. -/
theorem gatesOf_mat (n : Nat) {f : Fac} {j : Nat} : gmatL n (gatesOf f j) = gate1 n (bm (some f)) j := by
  unfold gatesOf
  by_cases h1 : f = .X
  · subst h1; rw [if_pos rfl, gmatL_single]; rfl
  · rw [if_neg h1]
    by_cases h2 : f = .Y
    · subst h2; rw [if_pos rfl, gmatL_single]; rfl
    · rw [if_neg h2]
      show 1 = gate1 n (bm (some f)) j
      have : bm (some f) = 1 := by cases f <;> first | rfl | exact absurd rfl h1 | exact absurd rfl h2
      rw [this, gate1_one]

theorem gatesOf_ok {n : Nat} {f : Fac} {j : Nat} (hj : j < n) : ∀ g ∈ gatesOf f j, g.ok n := by
  intro g hg
  unfold gatesOf at hg
  split at hg
  · rw [List.mem_singleton] at hg; subst hg; exact hj
  · split at hg
    · rw [List.mem_singleton] at hg; subst hg; exact hj
    · simp at hg

/-- The state of the first loop is consistent. -/
structure Ok1 (n : Nat) (ts : List Term) (b : Nat → Option Fac) (g : List BG) : Prop where
  bok : Bok ts b
  ok : ∀ x ∈ g, x.ok n
  mat : gmatL n g = tensor fun k : Fin n => bm (b k)

theorem step1_spec {n : Nat} {ts : List Term} (hG : Grp n ts) {t : Term} (ht : t ∈ ts) {s : B1} (hs : Ok1 n ts s.basis s.gates) (j : Nat) :
    ∃ s', step1 t s j = some s' ∧ Ok1 n ts s'.basis s'.gates ∧ (∀ i f, s.basis i = some f → s'.basis i = some f) ∧
      (isPauli (t.get j) = true → s'.basis j = some (t.get j) ∧ s'.nd.get j = .Z) ∧
      (∀ i, s.nd.get i = .Z → s'.nd.get i = .Z) ∧ (∀ i, t.get i = .I → s'.nd.get i = s.nd.get i) := by
  unfold step1
  rcases hl : List.lookup j t with _ | f
  · have hI : t.get j = .I := by simp [Term.get, hl]
    exact ⟨s, rfl, hs, fun _ _ h => h, (fun h => by rw [hI] at h; cases h), fun _ h => h, fun _ _ => rfl⟩
  · have hf : t.get j = f := lookup_get hl
    have hfI : f ≠ .I := noI_get (hG.noI t ht) hl
    have hset : ∀ i, (tset s.nd j .Z).get i = if i = j then .Z else s.nd.get i := fun i => get_tset _ _ _ _
    have hz : ∀ i, s.nd.get i = .Z → (tset s.nd j .Z).get i = .Z := by
      intro i h
      rw [hset]
      split
      · rfl
      · exact h
    have hi : ∀ i, t.get i = .I → (tset s.nd j .Z).get i = s.nd.get i := by
      intro i h
      rw [hset, if_neg]
      intro e
      rw [e, hf] at h
      exact hfI h
    dsimp only
    rcases hb : s.basis j with _ | g
    · dsimp only
      by_cases hp : isPauli f = true
      · rw [if_pos hp]
        have hj : j < n := hG.lt t ht j (by
          by_contra hk
          rw [get_notin hk] at hf
          exact hfI hf.symm)
        refine ⟨_, rfl, ⟨?_, ?_, ?_⟩, ?_, ?_, hz, hi⟩
        · intro i x hx
          dsimp only at hx
          split at hx
          · rename_i e; cases hx; exact ⟨hp, t, ht, e ▸ hf⟩
          · exact hs.bok i x hx
        · intro x hx
          rcases List.mem_append.mp hx with hx | hx
          · exact hs.ok x hx
          · exact gatesOf_ok hj x hx
        · dsimp only
          rw [gmatL_append, hs.mat, gatesOf_mat]
          unfold gate1
          rw [tensor_mul]
          congr 1
          funext k
          by_cases e : (k : Nat) = j
          · rw [e, slot_self, if_pos rfl, hb]
            show bm (some f) * 1 = _
            rw [mul_one]
          · rw [slot_ne _ e, if_neg e, one_mul]
        · intro i x hx
          dsimp only
          rw [if_neg, hx]
          intro e
          rw [e, hb] at hx; cases hx
        · intro _
          dsimp only
          exact ⟨by rw [if_pos rfl, hf], by rw [hset, if_pos rfl]⟩
      · rw [if_neg hp]
        exact ⟨s, rfl, hs, fun _ _ h => h, (fun h => by rw [hf] at h; exact absurd h hp), fun _ h => h, fun _ _ => rfl⟩
    · dsimp only
      obtain ⟨hg, u, hu, hug⟩ := hs.bok j g hb
      have hcomm : table g f = table f g := by
        have := hG.comm u hu t ht j
        rw [hug, hf] at this; exact this
      have hcond : ¬ (g ≠ f ∧ ¬ (g = .Z ∨ g = .P0 ∨ g = .P1)) := by
        rintro ⟨h1, h2⟩
        rcases fac_cases f hfI with h | h | h
        · exact h1 (pauli_comm g f hg h hcomm)
        · exact h2 (Or.inl (pauli_proj g f hg h hcomm))
        · have := hG.lad u hu t ht j
          rw [hug, hf, h] at this
          revert hg this
          cases g <;> decide
      rw [if_neg hcond]
      refine ⟨_, rfl, hs, fun _ _ h => h, ?_, hz, hi⟩
      intro hp
      rw [hf] at hp
      have := pauli_comm g f hg hp hcomm
      exact ⟨by rw [hf, ← this]; exact hb, by rw [hset, if_pos rfl]⟩

theorem loop1_spec {n : Nat} {ts : List Term} (hG : Grp n ts) {t : Term} (ht : t ∈ ts) : ∀ (js : List Nat) (s : B1), Ok1 n ts s.basis s.gates →
    ∃ s', loop1 t js s = some s' ∧ Ok1 n ts s'.basis s'.gates ∧ (∀ i f, s.basis i = some f → s'.basis i = some f) ∧
      (∀ j ∈ js, isPauli (t.get j) = true → s'.basis j = some (t.get j) ∧ s'.nd.get j = .Z) ∧
      (∀ i, s.nd.get i = .Z → s'.nd.get i = .Z) ∧ (∀ i, t.get i = .I → s'.nd.get i = s.nd.get i)
  | [], s, hs => ⟨s, rfl, hs, fun _ _ h => h, (fun _ h => by simp at h), fun _ h => h, fun _ _ => rfl⟩
  | j :: js, s, hs => by
    obtain ⟨s1, a1, a2, a3, a4, a5, a6⟩ := step1_spec hG ht hs j
    obtain ⟨s2, b1, b2, b3, b4, b5, b6⟩ := loop1_spec hG ht js s1 a2
    refine ⟨s2, by unfold loop1; rw [a1]; exact b1, b2, fun i f h => b3 i f (a3 i f h), ?_, fun i h => b5 i (a5 i h), fun i h => (b6 i h).trans (a6 i h)⟩
    intro i hi hp
    rcases List.mem_cons.mp hi with rfl | hi
    · exact ⟨b3 _ _ (a4 hp).1, b5 _ (a4 hp).2⟩
    · exact b4 i hi hp

/-- What the first loop leaves in the new dictionaries. -/
def NdOk (t nd : Term) : Prop := (∀ k, isPauli (t.get k) = true → nd.get k = .Z) ∧ ∀ k, t.get k = .I → nd.get k = .I

theorem phase1_spec {n m : Nat} {D : List Term} (hG : Grp n D) (hm : ∀ t ∈ D, ∀ k ∈ t.keys, k < m) : ∀ (ts : List Term) (b : Nat → Option Fac) (g : List BG),
    (∀ t ∈ ts, t ∈ D) → Ok1 n D b g → ∃ r bF, phase1 m ts b g = some r ∧ Ok1 n D bF r.1 ∧ (∀ i f, b i = some f → bF i = some f) ∧
      (∀ t ∈ ts, ∀ k, isPauli (t.get k) = true → bF k = some (t.get k)) ∧ List.Forall₂ NdOk ts r.2
  | [], b, g, _, hb => ⟨(g, []), b, rfl, hb, fun _ _ h => h, (fun _ h => by simp at h), List.Forall₂.nil⟩
  | t :: ts, b, g, hsub, hb => by
    obtain ⟨s, a1, a2, a3, a4, a5, a6⟩ := loop1_spec hG (hsub t List.mem_cons_self) (List.range m) ⟨b, g, []⟩ hb
    obtain ⟨r, bF, b1, b2, b3, b4, b5⟩ := phase1_spec hG hm ts s.basis s.gates (fun x hx => hsub x (List.mem_cons_of_mem _ hx)) a2
    have hin : ∀ k, isPauli (t.get k) = true → k ∈ List.range m := by
      intro k hk
      rw [List.mem_range]
      apply hm t (hsub t List.mem_cons_self)
      by_contra h
      rw [get_notin h] at hk
      cases hk
    refine ⟨(r.1, s.nd :: r.2), bF, by unfold phase1; rw [a1]; dsimp only; rw [b1], b2, fun i f h => b3 i f (a3 i f h), ?_, ?_⟩
    · intro u hu k hk
      rcases List.mem_cons.mp hu with rfl | hu
      · exact b3 _ _ (a4 k (hin k hk) hk).1
      · exact b4 u hu k hk
    · refine List.Forall₂.cons ⟨fun k hk => (a4 k (hin k hk) hk).2, fun k hk => ?_⟩ b5
      rw [a6 k hk]; rfl

/-! ### The ladder loop -/

/-- The factors of the new term; `a` is the anchor. -/
def nf (a : Option (Nat × Fac)) (k : Nat) (f : Fac) : Fac :=
  if isPauli f then .Z else if isLad f then (match a with
    | some a => if k = a.1 then .Z else ladFac a.2 f
    | none => f) else f

/-- The new term of a term with the dictionary of the first loop. -/
def newTerm (t nd : Term) : Term := addProj (addLadders nd (ladders t)) t

theorem get_newTerm {t nd : Term} (hw : t.WF) (hn : NdOk t nd) (k : Nat) : (newTerm t nd).get k = nf (ladders t).getLast? k (t.get k) := by
  unfold newTerm
  rw [get_addProj hw]
  have hlad : ∀ k, isLad (t.get k) = false → (addLadders nd (ladders t)).get k = nd.get k := by
    intro k hk
    unfold addLadders
    rcases hl : (ladders t).getLast? with _ | a
    · rfl
    · obtain ⟨L, hL⟩ := List.getLast?_eq_some_iff.mp hl
      have hnd : ((ladders t).map Prod.fst).Nodup := ladders_nodup hw
      rw [hL] at hnd
      have hkm : ∀ p ∈ ladders t, p.1 ≠ k := by
        intro p hp e
        obtain ⟨h1, h2⟩ := (mem_ladders hw).mp hp
        rw [e] at h1; rw [h1, h2] at hk; cases hk
      dsimp only
      rw [hL, List.dropLast_concat, get_foldl_tset, get_tset]
      · have h1 : List.lookup k (L.map fun p => (p.1, ladFac a.2 p.2)) = none := by
          apply lookup_none
          unfold Term.keys
          rw [List.map_map]
          intro h
          obtain ⟨p, hp, e⟩ := List.mem_map.mp h
          exact hkm p (by rw [hL]; exact List.mem_append_left _ hp) e
        have h2 : k ≠ a.1 := fun e => hkm a (by rw [hL]; simp) e.symm
        rw [h1, if_neg h2]; rfl
      · rw [List.map_map]
        have := hnd
        rw [List.map_append] at this
        exact (List.nodup_append.mp this).1
  unfold nf
  rcases hp : isPauli (t.get k) with _ | _
  · rcases hj : isProj (t.get k) with _ | _
    · rw [if_neg Bool.false_ne_true, if_neg Bool.false_ne_true]
      rcases hd : isLad (t.get k) with _ | _
      · rw [if_neg Bool.false_ne_true, hlad k hd]
        have hI : t.get k = .I := by
          revert hp hj hd
          cases t.get k <;> decide
        rw [hn.2 k hI, hI]
      · rw [if_pos rfl]
        have hmem : (k, t.get k) ∈ ladders t := (mem_ladders hw).mpr ⟨rfl, hd⟩
        have hnd : ((ladders t).map Prod.fst).Nodup := ladders_nodup hw
        unfold addLadders
        rcases hl : (ladders t).getLast? with _ | a
        · rw [List.getLast?_eq_none_iff.mp hl] at hmem; simp at hmem
        · obtain ⟨L, hL⟩ := List.getLast?_eq_some_iff.mp hl
          rw [hL] at hnd hmem
          dsimp only
          rw [hL, List.dropLast_concat, get_foldl_tset, get_tset]
          · rw [List.map_append, List.nodup_append] at hnd
            have haL : a.1 ∉ L.map Prod.fst := fun h => hnd.2.2 a.1 h a.1 (by simp) rfl
            by_cases e : k = a.1
            · rw [if_pos e, if_pos e]
              have : List.lookup k (L.map fun p => (p.1, ladFac a.2 p.2)) = none := by
                apply lookup_none
                unfold Term.keys
                rw [List.map_map, e]
                exact haL
              rw [this]; rfl
            · rw [if_neg e, if_neg e]
              have hkL : (k, t.get k) ∈ L := by
                rcases List.mem_append.mp hmem with h | h
                · exact h
                · rw [List.mem_singleton] at h
                  exact absurd (congrArg Prod.fst h) e
              have hlk : List.lookup k (L.map fun p => (p.1, ladFac a.2 p.2)) = some (ladFac a.2 (t.get k)) := by
                apply (lookup_mem ?_).mpr
                · exact List.mem_map.mpr ⟨(k, t.get k), hkL, rfl⟩
                · unfold Term.WF Term.keys
                  rw [List.map_map]
                  exact hnd.1
              rw [hlk]; rfl
          · rw [List.map_map]
            rw [List.map_append, List.nodup_append] at hnd
            exact hnd.1
    · rw [if_pos rfl, if_neg Bool.false_ne_true]
      have : isLad (t.get k) = false := by
        revert hj
        cases t.get k <;> decide
      rw [this, if_neg Bool.false_ne_true]
  · rw [if_pos rfl]
    have h1 : isProj (t.get k) = false := by
      revert hp
      cases t.get k <;> decide
    have h2 : isLad (t.get k) = false := by
      revert hp
      cases t.get k <;> decide
    rw [h1, if_neg Bool.false_ne_true, hlad k h2, hn.1 k hp]

theorem grp_ladders {n : Nat} {D : List Term} (hG : Grp n D) {s t : Term} (hs : s ∈ D) (ht : t ∈ D) : ladders s = ladders t := by
  apply ladders_eq (hG.wf s hs) (hG.wf t ht)
  intro k hk
  have h1 := hG.lad s hs t ht k
  have h2 := hG.comm s hs t ht k
  have h3 : isLad (s.get k) = true ∧ isLad (t.get k) = true := by
    rcases hk with h | h
    · exact ⟨h, h1 ▸ h⟩
    · exact ⟨h1.symm ▸ h, h⟩
  revert h2 h3
  generalize s.get k = f
  generalize t.get k = g
  revert f g
  decide +kernel

theorem nf_inj (a : Option (Nat × Fac)) (k : Nat) {f g : Fac} (hc : table f g = table g f) (hl : isLad f = isLad g) (h : nf a k f = nf a k g) : f = g := by
  have hlad : ∀ f g : Fac, isLad f = true → isLad g = true → table f g = table g f → f = g := by decide +kernel
  have hother : ∀ f g : Fac, isLad f = false → isLad g = false → table f g = table g f →
      (if isPauli f then .Z else f) = (if isPauli g then .Z else g) → f = g := by decide +kernel
  rcases e : isLad f with _ | _
  · have e' : isLad g = false := hl ▸ e
    unfold nf at h
    rw [e, e', if_neg Bool.false_ne_true, if_neg Bool.false_ne_true] at h
    exact hother f g e e' hc h
  · exact hlad f g e (hl ▸ e) hc

theorem dset_new {R : Type} {d : QOp R} {t : Term} {v : R} (h : dmem d t = false) : dset d t v = d ++ [(t, v)] := by
  induction d with
  | nil => rfl
  | cons p d ih =>
    obtain ⟨s, c⟩ := p
    have h' : (keyEq s t || dmem d t) = false := h
    rw [Bool.or_eq_false_iff] at h'
    unfold dset
    rw [if_neg (by rw [h'.1]; exact Bool.false_ne_true), ih h'.2]
    rfl

theorem dmem_append {R : Type} (d e : QOp R) (t : Term) : dmem (d ++ e) t = (dmem d t || dmem e t) := by
  induction d with
  | nil => simp [dmem]
  | cons p d ih =>
    obtain ⟨s, c⟩ := p
    show (keyEq s t || dmem (d ++ e) t) = ((keyEq s t || dmem d t) || dmem e t)
    rw [ih, Bool.or_assoc]

theorem dmem_false {R : Type} {d : QOp R} {t : Term} : dmem d t = false ↔ ∀ p ∈ d, keyEq p.1 t = false := by
  induction d with
  | nil => simp [dmem]
  | cons p d ih =>
    obtain ⟨s, c⟩ := p
    show (keyEq s t || dmem d t) = false ↔ _
    rw [Bool.or_eq_false_iff, ih]
    simp

/-- The factor of the ladder terms. -/
noncomputable def pref (L : List (Nat × Fac)) : ℂ := if L = [] then 1 else 1 / 2

/-- The new items. -/
noncomputable def newItem (L : List (Nat × Fac)) (x : (Term × ℂ) × Term) : Term × ℂ := (newTerm x.1.1 x.2, pref L * x.1.2)

theorem checkSets_self {I : List Nat} (h : I ≠ []) : checkSets I [I] = .seen := by
  obtain ⟨i, r, rfl⟩ := List.exists_cons_of_ne_nil h
  unfold checkSets
  rw [if_pos, if_pos]
  · simp
    exact fun x hx => Or.inr hx
  · simp

theorem phase2_spec {n : Nat} {D : List Term} (hG : Grp n D) (L : List (Nat × Fac)) (hL : ∀ t ∈ D, ladders t = L) :
    ∀ (r : List ((Term × ℂ) × Term)) (P : List (List Nat)) (g : List BG) (d : QOp ℂ), (∀ x ∈ r, x.1.1 ∈ D ∧ NdOk x.1.1 x.2) →
    (P = [] ∨ P = [L.map Prod.fst]) → (r.map (newItem L)).Pairwise (fun p q => keyEq p.1 q.1 = false) →
    (∀ p ∈ d, ∀ q ∈ r.map (newItem L), keyEq p.1 q.1 = false) →
    phase2 r P g d = some (g ++ (if P = [] ∧ r ≠ [] then ladGates L else []), d ++ r.map (newItem L))
  | [], P, g, d, _, _, _, _ => by simp [phase2]
  | ((t, c), nd) :: r, P, g, d, hr, hP, hpw, hd => by
    obtain ⟨h1, h2⟩ := hr _ List.mem_cons_self
    have hLt := hL t h1
    rw [List.map_cons, List.pairwise_cons] at hpw
    have hr' : ∀ x ∈ r, x.1.1 ∈ D ∧ NdOk x.1.1 x.2 := fun x hx => hr x (List.mem_cons_of_mem _ hx)
    have hnew : ∀ v, dset d (newTerm t nd) v = d ++ [(newTerm t nd, v)] := fun v =>
      dset_new (dmem_false.mpr fun p hp => hd p hp (newItem L ((t, c), nd)) (by simp))
    have hd' : ∀ v, ∀ p ∈ d ++ [(newTerm t nd, v)], ∀ q ∈ r.map (newItem L), keyEq p.1 q.1 = false := by
      intro v p hp q hq
      rcases List.mem_append.mp hp with hp | hp
      · exact hd p hp q (by rw [List.map_cons]; exact List.mem_cons_of_mem _ hq)
      · rw [List.mem_singleton] at hp; subst hp; exact hpw.1 q hq
    unfold phase2
    rw [hLt]
    by_cases hLn : L = []
    · rw [if_pos hLn]
      have e : addProj nd t = newTerm t nd := by
        unfold newTerm
        rw [hLt, hLn]; rfl
      rw [e, hnew, phase2_spec hG L hL r P g _ hr' hP hpw.2 (hd' c)]
      have e2 : ladGates L = [] := by rw [hLn]; rfl
      rw [e2]
      simp [newItem, pref, hLn]
    · rw [if_neg hLn]
      have e : addProj (addLadders nd L) t = newTerm t nd := by unfold newTerm; rw [hLt]
      have hpref : pref L = 1 / 2 := if_neg hLn
      have hmap : L.map Prod.fst ≠ [] := by simpa using hLn
      rcases hP with rfl | rfl
      · show phase2 r [L.map Prod.fst] (g ++ ladGates L) (dset d (addProj (addLadders nd L) t) (1 / 2 * c)) = _
        rw [e, hnew, phase2_spec hG L hL r _ _ _ hr' (Or.inr rfl) hpw.2 (hd' _)]
        simp [newItem, hpref]
      · rw [checkSets_self hmap]
        dsimp only
        rw [e, hnew, phase2_spec hG L hL r _ _ _ hr' (Or.inr rfl) hpw.2 (hd' _)]
        simp [newItem, hpref]

end Verif.Ham
