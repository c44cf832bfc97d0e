import Verif.Jasp.ExtractSim

/-!
# The circuit of a program does what the program does
-/

namespace Verif.Jasp.Xt

/-- What the construction keeps. -/
structure GX (x y : Qc) : Prop where
  odd : x.odd = true → y.odd = true
  lost : x.lost = true → y.lost = true
  nq : x.nq ≤ y.nq
  clb : x.clb.length ≤ y.clb.length
  nest : x.nest = true → y.nest = true

theorem GX.refl (x : Qc) : GX x x := ⟨id, id, Nat.le_refl _, Nat.le_refl _, id⟩

theorem GX.trans {x y z : Qc} (h : GX x y) (h' : GX y z) : GX x z :=
  ⟨fun a => h'.odd (h.odd a), fun a => h'.lost (h.lost a), Nat.le_trans h.nq h'.nq, Nat.le_trans h.clb h'.clb, fun a => h'.nest (h.nest a)⟩

theorem GX.noOdd {x y : Qc} (h : GX x y) (hy : y.odd = false) : x.odd = false := by
  cases hx : x.odd with
  | false => rfl
  | true => rw [h.odd hx] at hy; cases hy

theorem GX.noLost {x y : Qc} (h : GX x y) (hy : y.lost = false) : x.lost = false := by
  cases hx : x.lost with
  | false => rfl
  | true => rw [h.lost hx] at hy; cases hy

theorem gx_measL : ∀ (l : List Nat) (x : Qc), GX x (l.foldl measQ x)
  | [], x => GX.refl x
  | q :: l, x => by
    refine GX.trans (y := measQ x q) ⟨id, id, Nat.le_refl _, ?_, id⟩ (gx_measL l _)
    simp [measQ]

theorem gx_quant {p xs x z} (h : quantX p xs x = some z) : GX x z.2 := by
  unfold quantX at h
  split at h <;> simp only [Option.bind_eq_some_iff, Option.some.injEq, reduceCtorEq] at h
  · subst h; exact ⟨id, id, Nat.le_add_right _ _, Nat.le_refl _, id⟩
  · obtain ⟨q, _, h⟩ := h; subst h; exact GX.refl _
  · subst h; exact GX.refl _
  · obtain ⟨q, _, h⟩ := h; subst h; exact GX.refl _
  · subst h; exact GX.refl _
  · obtain ⟨q, _, ps, _, h⟩ := h; subst h; exact ⟨id, id, Nat.le_refl _, Nat.le_refl _, id⟩
  · subst h; exact gx_measL [_] _
  · subst h; exact gx_measL _ _
  · subst h; exact ⟨id, id, Nat.le_refl _, Nat.le_refl _, id⟩
  · subst h; exact ⟨id, id, Nat.le_refl _, Nat.le_refl _, id⟩
  · subst h; exact ⟨id, id, Nat.le_refl _, Nat.le_refl _, id⟩

theorem gx_prim {p xs x z} (h : extP p xs x = some z) : GX x z.2 := by
  unfold extP at h
  split at h
  · split at h
    · simp only [Option.some.injEq] at h; subst h; exact GX.refl _
    · simp only [Option.bind_eq_some_iff] at h
      obtain ⟨ys, _, zs, _, h⟩ := h
      split at h
      · simp only [Option.some.injEq] at h; subst h; exact GX.refl _
      · simp at h
  · split at h
    · unfold convX at h
      split at h <;> (try split at h) <;> simp only [Option.some.injEq, reduceCtorEq] at h <;> subst h <;>
        first | exact GX.refl _ | exact ⟨fun a => by simp [a], id, Nat.le_refl _, Nat.le_refl _, id⟩
    · simp at h
  · unfold parityX at h
    split at h
    · simp only [Option.some.injEq] at h; subst h; exact GX.refl _
    · simp only [Option.some.injEq] at h; subst h
      exact ⟨fun a => by simp [a], id, Nat.le_refl _, Nat.le_refl _, id⟩
  · split at h
    · simp only [Option.some.injEq] at h; subst h
      exact ⟨id, fun a => by simp [a], Nat.le_refl _, Nat.le_refl _, id⟩
    · exact gx_quant h

theorem gx_cnd {c xs x z} (h : extCnd c xs x = some z) : GX x z.2 := by
  unfold extCnd at h
  split at h
  · simp only [Option.bind_eq_some_iff] at h
    obtain ⟨y, _, h⟩ := h
    split at h <;> simp only [Option.some.injEq, reduceCtorEq] at h <;> subst h <;>
      first | exact GX.refl _ | exact ⟨fun _ => rfl, id, Nat.le_refl _, Nat.le_refl _, id⟩
  · simp only [Option.bind_eq_some_iff, Option.some.injEq] at h
    obtain ⟨y, _, h⟩ := h
    subst h; exact GX.refl _

theorem ext_branch_none {x s} (h : extM.branch x s = some none) : (∃ c, x = .clb c) ∧ s.lost = false := by
  cases x with
  | int n =>
    simp only at h
    split_ifs at h <;> simp at h
  | clb c =>
    simp only at h
    cases hs : s.lost with
    | false => exact ⟨⟨c, rfl⟩, rfl⟩
    | true => simp [hs] at h
  | clist l => simp at h
  | par cs e => simp at h
  | proc => simp at h
  | qb q => simp at h
  | arr l => simp at h

theorem leave_clb (c : Nat) (b : Bool) {s t : Qc} (h : s.clb.length ≤ t.clb.length) : (leaveX (.clb c) b s t).clb.length = t.clb.length := by
  simp only [leaveX, List.length_append, List.length_map, List.length_range]
  omega

theorem gx_leave (c : Nat) (b : Bool) {s t : Qc} (h : GX (extM.enter s) t) : GX s (leaveX (.clb c) b s t) where
  odd a := by simp only [leaveX, h.odd a, Bool.true_or]
  lost a := by simpa only [leaveX] using a
  nq := h.nq
  clb := by rw [leave_clb (s := s) c b h.clb]; exact h.clb
  nest a := by simp only [leaveX, a, Bool.true_or]

theorem gx_eval {fuel : Nat} {p : Pg} {c s z} (h : eval extM fuel p c s = some z) : GX s z.2 := by
  refine eval_rel (M := extM) (R := GX) GX.refl GX.trans gx_prim gx_cnd (fun {x b s t} hb ht => ?_) (fun {x b s t} hb => ?_) fuel h
  · obtain ⟨⟨c, rfl⟩, _⟩ := ext_branch_none hb
    exact gx_leave c b ht
  · obtain ⟨⟨c, rfl⟩, hl⟩ := ext_branch_none hb
    simp only [leaveX, hl]
    rfl

/-! ### Conditional operations -/

theorem rs_enter {mb r0 w s x} (h : RS mb r0 w s x) : RS mb (runL mb x.data r0) w s (extM.enter x) where
  k := h.k
  mem := h.mem
  ev := h.ev
  len := h.len
  nodup := h.nodup
  bound := h.bound
  fresh := h.fresh
  perm := h.perm
  nest := h.nest

theorem run_cif {mb : Nat → Bool} {x : Qc} {c : Nat} {b : Bool} {t : Qc} {r0 : Rt} :
    runL mb (leaveX (.clb c) b x t).data r0 =
      if ((runL mb x.data r0).mem c).getD false = b then runL mb t.data (runL mb x.data r0) else runL mb x.data r0 := by
  simp only [leaveX, runL_append]
  cases t.data with
  | nil => simp [runL]
  | cons i m => simp only [runL, runI]

theorem perm_more {l : List Nat} (h : l.Perm (List.range l.length)) (n : Nat) :
    (l ++ (List.range n).map (l.length + ·)).Perm (List.range (l ++ (List.range n).map (l.length + ·)).length) := by
  rw [List.length_append, List.length_map, List.length_range, List.range_add]
  exact h.append_right _

theorem leave_nest {c : Nat} {b : Bool} {x t : Qc} (h : (leaveX (.clb c) b x t).nest = false) :
    x.nest = false ∧ t.nest = false ∧ t.clb.length = x.clb.length ∧ (leaveX (.clb c) b x t).clb = x.clb := by
  simp only [leaveX, Bool.or_eq_false_iff, decide_eq_false_iff_not, not_not] at h
  refine ⟨h.1.1, h.1.2, h.2, ?_⟩
  simp [leaveX, h.2]

/-- A branch that is not taken. -/
theorem rs_skip {mb r0 w s x} (h : RS mb r0 w s x) {c : Nat} {b v : Bool} (hc : Bit w c v) (hv : v ≠ b) {t : Qc} (ht : GX (extM.enter x) t) :
    RS mb r0 w s (leaveX (.clb c) b x t) := by
  have hrun : runL mb (leaveX (.clb c) b x t).data r0 = runL mb x.data r0 := by
    rw [run_cif, h.mem, show w.mem c = some v from hc, if_neg (by simpa using hv)]
  constructor
  · rw [hrun]; exact h.k
  · rw [hrun]; exact h.mem
  · rw [hrun]; exact h.ev
  · exact h.len
  · exact h.nodup
  · exact fun q hq => Nat.lt_of_lt_of_le (h.bound q hq) ht.nq
  · intro d hd
    rw [leave_clb (s := x) c b ht.clb] at hd
    exact h.fresh d (Nat.le_trans ht.clb hd)
  · exact perm_more h.perm _
  · intro hn
    obtain ⟨h1, _, _, h4⟩ := leave_nest hn
    rw [h4]
    exact h.nest h1

/-- A branch that is taken. -/
theorem rs_take {mb r0 w s x} (h : RS mb r0 w s x) {c : Nat} {b : Bool} (hc : Bit w c b) {t : Qc} (ht : GX (extM.enter x) t) {w' s'}
    (h' : RS mb (runL mb x.data r0) w' s' t) : RS mb r0 w' s' (leaveX (.clb c) b x t) := by
  have hrun : runL mb (leaveX (.clb c) b x t).data r0 = runL mb t.data (runL mb x.data r0) := by
    rw [run_cif, h.mem, show w.mem c = some b from hc, if_pos (by simp)]
  constructor
  · rw [hrun]; exact h'.k
  · rw [hrun]; exact h'.mem
  · rw [hrun]; exact h'.ev
  · exact h'.len
  · exact h'.nodup
  · exact h'.bound
  · intro d hd
    rw [leave_clb (s := x) c b ht.clb] at hd
    exact h'.fresh d hd
  · exact perm_more h.perm _
  · intro hn
    obtain ⟨h1, h2, h3, h4⟩ := leave_nest hn
    obtain ⟨k1, k2, _⟩ := h'.nest h2
    rw [h4, ← h3]
    exact ⟨k1, k2, by rw [h3]; exact (h.nest h1).2.2⟩

/-! ### Programs -/

theorem ext_cnd {mb w c xs ys s x z z'} (h : List.Forall₂ (XR w) xs ys) (h1 : (execM mb).cnd c xs s = some z) (h2 : extCnd c ys x = some z')
    (ho : z'.2.odd = false) : z.2 = s ∧ z'.2 = x ∧ z'.1 = z.1 := by
  simp only [Option.bind_eq_some_iff, Option.some.injEq] at h1
  obtain ⟨b, h1, rfl⟩ := h1
  cases c with
  | val i =>
    simp only [extCnd, Option.bind_eq_some_iff] at h2
    obtain ⟨y, hy, h2⟩ := h2
    cases y <;> simp only [Option.some.injEq, reduceCtorEq] at h2 <;> subst h2 <;> simp only [reduceCtorEq] at ho
    refine ⟨rfl, rfl, ?_⟩
    simp only [cndInts, Option.bind_eq_some_iff, Option.some.injEq] at h1
    obtain ⟨_, k1, n, rfl, rfl⟩ := h1
    have := cnd_ints h k1 (by rw [List.getElem?_map, hy]; rfl)
    rw [this]
  | fn f pos =>
    simp only [extCnd, cndInts, Option.bind_eq_some_iff, Option.some.injEq] at h1 h2
    obtain ⟨is, k1, k2⟩ := h1
    obtain ⟨b', ⟨js, k3, k4⟩, rfl⟩ := h2
    rw [cnd_pos h k1 k3, k2, Option.some.injEq] at k4
    exact ⟨rfl, rfl, k4.symm⟩

theorem rc_sets {V V' : Type} {RV : V → V' → Prop} {vs xs ys} {c : Ctx V} {c' : Ctx V'} {d d'} (h : RC RV c c') (hx : List.Forall₂ RV xs ys)
    (h1 : sets c vs xs = some d) (h2 : sets c' vs ys = some d') : RC RV d d' := by
  obtain ⟨e, h3, h4⟩ := RC.sets h hx h1
  rw [h2, Option.some.injEq] at h3
  exact h3 ▸ h4

theorem rc_gets {V V' : Type} {RV : V → V' → Prop} {vs xs ys} {c : Ctx V} {c' : Ctx V'} (h : RC RV c c')
    (h1 : gets c vs = some xs) (h2 : gets c' vs = some ys) : List.Forall₂ RV xs ys := by
  obtain ⟨e, h3, h4⟩ := RC.gets h h1
  rw [h2, Option.some.injEq] at h3
  exact h3 ▸ h4

def Fol (mb : Nat → Bool) (fuel : Nat) (p : Pg) : Prop := ∀ {r0 w c c' s x z z'}, RC (XR w) c c' → RS mb r0 w s x →
  eval (execM mb) fuel p c s = some z → eval extM fuel p c' x = some z' → z'.2.odd = false → z'.2.lost = false →
  ∃ w', w.le w' ∧ RC (XR w') z.1 z'.1 ∧ RS mb r0 w' z.2 z'.2

theorem fol_sub {mb fuel b} (hb : Fol mb fuel b) {vi vo : List Var} {r0 w xs ys s x z z'} (hx : List.Forall₂ (XR w) xs ys)
    (hs : RS mb r0 w s x) (h : sub (eval (execM mb) fuel b) vi vo xs s = some z) (h' : sub (eval extM fuel b) vi vo ys x = some z')
    (ho : z'.2.odd = false) (hl : z'.2.lost = false) : Ok mb r0 w z z' := by
  obtain ⟨c0, u, h1, h2, h3, h4⟩ := sub_some h
  obtain ⟨c0', u', k1, k2, k3, k4⟩ := sub_some h'
  obtain ⟨w', m1, m2, m3⟩ := hb (rc_sets RC.none hx h1 k1) hs h2 k2 (k4 ▸ ho) (k4 ▸ hl)
  exact ⟨w', m1, rc_gets m2 h3 k3, h4 ▸ k4 ▸ m3⟩

theorem gx_sub {fuel b} {vi vo : List Var} {ys x z'} (h : sub (eval extM fuel b) vi vo ys x = some z') : GX x z'.2 := by
  obtain ⟨_, u, _, h2, _, h4⟩ := sub_some h
  exact h4 ▸ gx_eval h2

theorem fol_loop {mb fuel b} (hb : Fol mb fuel b) {cn : Cnd} {vi vo : List Var} : ∀ {n r0 w kv kv' xs ys s x z z'},
    List.Forall₂ (XR w) kv kv' → List.Forall₂ (XR w) xs ys → RS mb r0 w s x →
    loop (fun vs s => sub (eval (execM mb) fuel b) vi vo (kv ++ vs) s) ((execM mb).cnd cn) n xs s = some z →
    loop (fun vs s => sub (eval extM fuel b) vi vo (kv' ++ vs) s) (extCnd cn) n ys x = some z' →
    z'.2.odd = false → z'.2.lost = false → Ok mb r0 w z z' := by
  intro n
  induction n with
  | zero => intro r0 w kv kv' xs ys s x z z' _ _ _ h; simp [loop] at h
  | succ n ih =>
    intro r0 w kv kv' xs ys s x z z' hk hx hs h h' ho hl
    simp only [loop, Option.bind_eq_some_iff] at h h'
    obtain ⟨t, h1, h⟩ := h
    obtain ⟨t', h1', h'⟩ := h'
    by_cases hb' : t'.1 = true
    · rw [if_pos hb'] at h'
      simp only [Option.bind_eq_some_iff] at h'
      obtain ⟨r', k2', k3'⟩ := h'
      have g1 : GX r'.2 z'.2 := loop_rel (R := GX) GX.refl GX.trans (fun hz => gx_sub hz) gx_cnd k3'
      have g2 : GX t'.2 r'.2 := gx_sub k2'
      obtain ⟨e1, e2, e3⟩ := ext_cnd (mb := mb) hx (Option.bind_eq_some_iff.mpr h1) h1' (g2.noOdd (g1.noOdd ho))
      rw [e3] at hb'
      rw [if_pos hb'] at h
      simp only [Option.bind_eq_some_iff] at h
      obtain ⟨r, k2, k3⟩ := h
      rw [e1] at k2
      rw [e2] at k2'
      obtain ⟨w1, m1, m2, m3⟩ := fol_sub hb (forall2_append hk hx) hs k2 k2' (g1.noOdd ho) (g1.noLost hl)
      obtain ⟨w2, q1, q2, q3⟩ := ih (forall2_mono (XR.mono m1) hk) m2 m3 (by simpa only [Option.bind_eq_some_iff] using k3) k3' ho hl
      exact ⟨w2, World.le_trans m1 q1, q2, q3⟩
    · rw [if_neg hb', Option.some.injEq] at h'
      subst h'
      obtain ⟨e1, e2, e3⟩ := ext_cnd (mb := mb) hx (Option.bind_eq_some_iff.mpr h1) h1' ho
      rw [e3] at hb'
      rw [if_neg hb', Option.some.injEq] at h
      subst h
      refine ⟨w, w.le_refl, hx, ?_⟩
      simp only [e1, e2]
      exact hs

theorem ext_eval {mb : Nat → Bool} {fuel : Nat} : ∀ p : Pg, Fol mb fuel p := by
  intro p
  induction p with
  | done =>
    intro r0 w c c' s x z z' hc hs h h' _ _
    simp only [eval, Option.some.injEq] at h h'
    subst h; subst h'
    exact ⟨w, w.le_refl, hc, hs⟩
  | op p i o r ih =>
    intro r0 w c c' s x z z' hc hs h h' ho hl
    simp only [eval, Option.bind_eq_some_iff] at h h'
    obtain ⟨xs, k1, u, k2, d, k3, k4⟩ := h
    obtain ⟨xs', k1', u', k2', d', k3', k4'⟩ := h'
    have g := gx_eval k4'
    obtain ⟨w1, m1, m2, m3⟩ := ext_prim (rc_gets hc k1 k1') hs k2 k2' (g.noOdd ho) (g.noLost hl)
    obtain ⟨w2, q1, q2, q3⟩ := ih (rc_sets (hc.mono (XR.mono m1)) m2 k3 k3') m3 k4 k4' ho hl
    exact ⟨w2, World.le_trans m1 q1, q2, q3⟩
  | call jc kc ji jo b i o r ihb ih =>
    intro r0 w c c' s x z z' hc hs h h' ho hl
    simp only [eval, Option.bind_eq_some_iff] at h h'
    obtain ⟨xs, k1, u, k2, d, k3, k4⟩ := h
    obtain ⟨xs', k1', u', k2', d', k3', k4'⟩ := h'
    have g := gx_eval k4'
    obtain ⟨w1, m1, m2, m3⟩ := fol_sub ihb (forall2_append (xr_map w kc) (rc_gets hc k1 k1')) hs k2 k2' (g.noOdd ho) (g.noLost hl)
    obtain ⟨w2, q1, q2, q3⟩ := ih (rc_sets (hc.mono (XR.mono m1)) m2 k3 k3') m3 k4 k4' ho hl
    exact ⟨w2, World.le_trans m1 q1, q2, q3⟩
  | whl cn bi bo b ks cs o r ihb ih =>
    intro r0 w c c' s x z z' hc hs h h' ho hl
    simp only [eval, Option.bind_eq_some_iff] at h h'
    obtain ⟨kv, k0, xs, k1, u, k2, d, k3, k4⟩ := h
    obtain ⟨kv', k0', xs', k1', u', k2', d', k3', k4'⟩ := h'
    have g := gx_eval k4'
    obtain ⟨w1, m1, m2, m3⟩ := fol_loop ihb (rc_gets hc k0 k0') (rc_gets hc k1 k1') hs k2 k2' (g.noOdd ho) (g.noLost hl)
    obtain ⟨w2, q1, q2, q3⟩ := ih (rc_sets (hc.mono (XR.mono m1)) m2 k3 k3') m3 k4 k4' ho hl
    exact ⟨w2, World.le_trans m1 q1, q2, q3⟩
  | cond p ti tt t fi ft f i o r iht ihf ih =>
    intro r0 w c c' s x z z' hc hs h h' ho hl
    simp only [eval, Option.bind_eq_some_iff] at h h'
    obtain ⟨v, k0, xs, k1, b, kb, h⟩ := h
    obtain ⟨v', k0', xs', k1', b', kb', h'⟩ := h'
    obtain ⟨v'', e1, hv⟩ := hc p v k0
    rw [k0', Option.some.injEq] at e1
    subst e1
    have hx := rc_gets hc k1 k1'
    have hkb := exec_branch (mb := mb) (s := s) kb
    have hsame : b' = b → ∃ w', w.le w' ∧ RC (XR w') z.1 z'.1 ∧ RS mb r0 w' z.2 z'.2 := by
      rintro rfl
      rcases hkb with ⟨rfl, rfl⟩ | ⟨rfl, rfl⟩
      · simp only [Option.bind_eq_some_iff] at h h'
        obtain ⟨u, k2, d, k3, k4⟩ := h
        obtain ⟨u', k2', d', k3', k4'⟩ := h'
        have g := gx_eval k4'
        obtain ⟨w1, m1, m2, m3⟩ := fol_sub ihf hx hs k2 k2' (g.noOdd ho) (g.noLost hl)
        obtain ⟨w2, q1, q2, q3⟩ := ih (rc_sets (hc.mono (XR.mono m1)) m2 k3 k3') m3 k4 k4' ho hl
        exact ⟨w2, World.le_trans m1 q1, q2, q3⟩
      · simp only [Option.bind_eq_some_iff] at h h'
        obtain ⟨u, k2, d, k3, k4⟩ := h
        obtain ⟨u', k2', d', k3', k4'⟩ := h'
        have g := gx_eval k4'
        obtain ⟨w1, m1, m2, m3⟩ := fol_sub iht hx hs k2 k2' (g.noOdd ho) (g.noLost hl)
        obtain ⟨w2, q1, q2, q3⟩ := ih (rc_sets (hc.mono (XR.mono m1)) m2 k3 k3') m3 k4 k4' ho hl
        exact ⟨w2, World.le_trans m1 q1, q2, q3⟩
    cases hv with
    | int n =>
      refine hsame ?_
      simp only at kb kb'
      rw [kb, Option.some.injEq] at kb'
      exact kb'.symm
    | clb hbit =>
      rename_i cb bv
      simp only at kb'
      have hlx : x.lost = false := by
        cases hx : x.lost with
        | false => rfl
        | true => simp [hx] at kb'
      rw [hlx, if_neg (by simp), Option.some.injEq] at kb'
      subst kb'
      by_cases ho' : o = []
      · simp only [if_pos ho', Option.bind_eq_some_iff] at h'
        obtain ⟨uf, f1, ut, t1, k4'⟩ := h'
        have g := gx_eval k4'
        have gt := gx_sub t1
        have gf := gx_sub f1
        have o2 := g.noOdd ho
        simp only [leaveX, Bool.or_eq_false_iff] at o2
        have o1 := gt.noOdd o2.1
        simp only [leaveX, Bool.or_eq_false_iff] at o1
        subst ho'
        rcases hkb with ⟨hn, rfl⟩ | ⟨hn, rfl⟩
        · have hbv : bv = false := by cases bv <;> simp [b2i] at hn ⊢
          subst hbv
          simp only [Option.bind_eq_some_iff] at h
          obtain ⟨u, k2, d, k3, k4⟩ := h
          have hd : d = c := by
            cases hu : u.1 with
            | nil => rw [hu] at k3; simp only [sets, Option.some.injEq] at k3; exact k3.symm
            | cons => rw [hu] at k3; simp [sets] at k3
          subst hd
          obtain ⟨w1, m1, m2, m3⟩ := fol_sub ihf hx (rs_enter hs) k2 f1 o1.1 o1.2
          have m4 := rs_skip (b := true) (rs_take hs hbit gf m3) (hbit.mono m1) (by simp) gt
          obtain ⟨w2, q1, q2, q3⟩ := ih (hc.mono (XR.mono m1)) m4 k4 k4' ho hl
          exact ⟨w2, World.le_trans m1 q1, q2, q3⟩
        · have hbv : bv = true := by cases bv <;> simp [b2i] at hn ⊢
          subst hbv
          simp only [Option.bind_eq_some_iff] at h
          obtain ⟨u, k2, d, k3, k4⟩ := h
          have hd : d = c := by
            cases hu : u.1 with
            | nil => rw [hu] at k3; simp only [sets, Option.some.injEq] at k3; exact k3.symm
            | cons => rw [hu] at k3; simp [sets] at k3
          subst hd
          have m0 := rs_skip (b := false) hs hbit (by simp) gf
          obtain ⟨w1, m1, m2, m3⟩ := fol_sub iht hx (rs_enter m0) k2 t1 o2.1 o2.2
          obtain ⟨w2, q1, q2, q3⟩ := ih (hc.mono (XR.mono m1)) (rs_take m0 hbit gt m3) k4 k4' ho hl
          exact ⟨w2, World.le_trans m1 q1, q2, q3⟩
      · simp [if_neg ho'] at h'
    | clist hl' => simp at kb'
    | par e h1 h2 => simp at kb'
    | proc i => simp at kb'
    | qb hq => simp at kb'
    | qproc q => simp at kb'
    | arr hq => simp at kb'
    | aproc q => simp at kb'

end Verif.Jasp.Xt
