import Verif.Jasp.Extract

/-!
# Interpretations of programs: relations along an evaluation, and related interpretations
-/

namespace Verif.Jasp.Xt

theorem sub_some {V S : Type} {ev : Ctx V → S → Option (Ctx V × S)} {vi vo : List Var} {xs : List V} {s : S} {z}
    (h : sub ev vi vo xs s = some z) :
    ∃ c0 w, sets (fun _ => none) vi xs = some c0 ∧ ev c0 s = some w ∧ gets w.1 vo = some z.1 ∧ w.2 = z.2 := by
  simp only [sub, Option.bind_eq_some_iff, Option.some.injEq] at h
  obtain ⟨c0, h1, w, h2, ys, h3, rfl⟩ := h
  exact ⟨c0, w, h1, h2, h3, rfl⟩

theorem sub_eq {V S : Type} {ev : Ctx V → S → Option (Ctx V × S)} {vi vo : List Var} {xs : List V} {s : S} {c0 w ys}
    (h1 : sets (fun _ => none) vi xs = some c0) (h2 : ev c0 s = some w) (h3 : gets w.1 vo = some ys) :
    sub ev vi vo xs s = some (ys, w.2) := by
  simp only [sub, h1, h2, h3, Option.bind_some]

theorem loop_rel {α σ : Type} {R : σ → σ → Prop} (hr : ∀ s, R s s) (ht : ∀ {a b c}, R a b → R b c → R a c)
    {body : α → σ → Option (α × σ)} {c : α → σ → Option (Bool × σ)} (hb : ∀ {x s z}, body x s = some z → R s z.2)
    (hc : ∀ {x s z}, c x s = some z → R s z.2) : ∀ {fuel x s z}, loop body c fuel x s = some z → R s z.2 := by
  intro fuel
  induction fuel with
  | zero => intro x s z h; simp [loop] at h
  | succ n ih =>
    intro x s z h
    simp only [loop, Option.bind_eq_some_iff] at h
    obtain ⟨b, h1, h⟩ := h
    by_cases hx : b.1 = true
    · rw [if_pos hx] at h
      simp only [Option.bind_eq_some_iff] at h
      obtain ⟨r, h2, h⟩ := h
      exact ht (hc h1) (ht (hb h2) (ih h))
    · rw [if_neg hx] at h
      simp only [Option.some.injEq] at h
      subst h
      exact hc h1

/-- A relation that is reflexive and transitive and holds along each step holds along an evaluation. -/
theorem eval_rel {M : Mach} {R : M.S → M.S → Prop} (hr : ∀ s, R s s) (ht : ∀ {a b c}, R a b → R b c → R a c)
    (hp : ∀ {p xs s z}, M.prim p xs s = some z → R s z.2) (hc : ∀ {c xs s z}, M.cnd c xs s = some z → R s z.2)
    (hl : ∀ {x b s t}, M.branch x s = some none → R (M.enter s) t → R s (M.leave x b s t))
    (hk : ∀ {x b s t}, M.branch x s = some none → M.branch x (M.leave x b s t) = some none) (fuel : Nat) :
    ∀ {p : Pg} {c : Ctx M.V} {s z}, eval M fuel p c s = some z → R s z.2 := by
  intro p
  induction p with
  | done => intro c s z h; simp only [eval, Option.some.injEq] at h; subst h; exact hr s
  | op p i o r ih =>
    intro c s z h
    simp only [eval, Option.bind_eq_some_iff] at h
    obtain ⟨xs, _, w, h1, c', _, h⟩ := h
    exact ht (hp h1) (ih h)
  | call jc kc ji jo b i o r ihb ih =>
    intro c s z h
    simp only [eval, Option.bind_eq_some_iff] at h
    obtain ⟨xs, _, w, h1, c', _, h⟩ := h
    obtain ⟨_, u, _, h2, _, h3⟩ := sub_some h1
    exact ht (h3 ▸ ihb h2) (ih h)
  | whl cn bi bo b ks cs o r ihb ih =>
    intro c s z h
    simp only [eval, Option.bind_eq_some_iff] at h
    obtain ⟨kv, _, xs, _, w, h1, c', _, h⟩ := h
    refine ht (loop_rel hr ht (fun {x s z} hz => ?_) hc h1) (ih h)
    obtain ⟨_, u, _, h2, _, h3⟩ := sub_some hz
    exact h3 ▸ ihb h2
  | cond p ti tt t fi ft f i o r iht ihf ih =>
    intro c s z h
    simp only [eval, Option.bind_eq_some_iff] at h
    obtain ⟨x, _, xs, _, b, hb, h⟩ := h
    match b, hb, h with
    | some false, hb, h =>
      simp only [Option.bind_eq_some_iff] at h
      obtain ⟨w, h1, c', _, h⟩ := h
      obtain ⟨_, u, _, h2, _, h3⟩ := sub_some h1
      exact ht (h3 ▸ ihf h2) (ih h)
    | some true, hb, h =>
      simp only [Option.bind_eq_some_iff] at h
      obtain ⟨w, h1, c', _, h⟩ := h
      obtain ⟨_, u, _, h2, _, h3⟩ := sub_some h1
      exact ht (h3 ▸ iht h2) (ih h)
    | none, hb, h =>
      by_cases ho : o = []
      · simp only [if_pos ho, Option.bind_eq_some_iff] at h
        obtain ⟨w, h1, w', h2, h⟩ := h
        obtain ⟨_, u, _, h3, _, h4⟩ := sub_some h1
        obtain ⟨_, u', _, h5, _, h6⟩ := sub_some h2
        exact ht (hl hb (h4 ▸ ihf h3)) (ht (hl (hk hb) (h6 ▸ iht h5)) (ih h))
      · simp [if_neg ho] at h

/-! ### Related interpretations -/

variable {I J : Mach}

def RC {V V' : Type} (RV : V → V' → Prop) (c : Ctx V) (c' : Ctx V') : Prop := ∀ v x, c v = some x → ∃ y, c' v = some y ∧ RV x y

theorem RC.set {V V' : Type} {RV : V → V' → Prop} {c : Ctx V} {c' : Ctx V'} (h : RC RV c c') (o : Var) {x y} (hx : RV x y) :
    RC RV (c.set o x) (c'.set o y) := by
  intro v z hz
  simp only [Ctx.set] at hz ⊢
  by_cases hv : v = o
  · rw [if_pos hv, Option.some.injEq] at hz
    subst hz
    rw [if_pos hv]
    exact ⟨y, rfl, hx⟩
  · rw [if_neg hv] at hz
    rw [if_neg hv]
    exact h v z hz

theorem RC.gets {V V' : Type} {RV : V → V' → Prop} {c : Ctx V} {c' : Ctx V'} (h : RC RV c c') : ∀ {vs xs}, gets c vs = some xs →
    ∃ ys, gets c' vs = some ys ∧ List.Forall₂ RV xs ys := by
  intro vs
  induction vs with
  | nil => intro xs hx; simp only [Xt.gets, Option.some.injEq] at hx; subst hx; exact ⟨[], rfl, .nil⟩
  | cons v vs ih =>
    intro xs hx
    simp only [Xt.gets, Option.bind_eq_some_iff, Option.some.injEq] at hx
    obtain ⟨x, h1, xs', h2, rfl⟩ := hx
    obtain ⟨y, h3, h4⟩ := h v x h1
    obtain ⟨ys, h5, h6⟩ := ih h2
    exact ⟨y :: ys, by simp only [Xt.gets, h3, h5, Option.bind_some], .cons h4 h6⟩

theorem RC.sets {V V' : Type} {RV : V → V' → Prop} : ∀ {vs xs ys} {c : Ctx V} {c' : Ctx V'} {d}, RC RV c c' → List.Forall₂ RV xs ys →
    sets c vs xs = some d → ∃ d', sets c' vs ys = some d' ∧ RC RV d d' := by
  intro vs
  induction vs with
  | nil =>
    intro xs ys c c' d h hx hs
    cases hx with
    | nil => simp only [Xt.sets, Option.some.injEq] at hs ⊢; subst hs; exact ⟨c', rfl, h⟩
    | cons => simp [Xt.sets] at hs
  | cons v vs ih =>
    intro xs ys c c' d h hx hs
    cases hx with
    | nil => simp [Xt.sets] at hs
    | cons h1 h2 => exact ih (h.set v h1) h2 hs

theorem RC.none {V V' : Type} {RV : V → V' → Prop} : RC RV (fun _ => none) (fun _ => none) := fun _ _ h => by simp at h

theorem RC.mono {V V' : Type} {RV RV' : V → V' → Prop} (hm : ∀ {x y}, RV x y → RV' x y) {c : Ctx V} {c' : Ctx V'} (h : RC RV c c') :
    RC RV' c c' := by
  intro v x hx
  obtain ⟨y, h1, h2⟩ := h v x hx
  exact ⟨y, h1, hm h2⟩

theorem forall2_append {α β : Type} {R : α → β → Prop} : ∀ {a b c d}, List.Forall₂ R a b → List.Forall₂ R c d →
    List.Forall₂ R (a ++ c) (b ++ d) := by
  intro a b c d h1 h2
  induction h1 with
  | nil => exact h2
  | cons h _ ih => exact .cons h ih

theorem forall2_mono {α β : Type} {R R' : α → β → Prop} (hm : ∀ {x y}, R x y → R' x y) {a b} (h : List.Forall₂ R a b) :
    List.Forall₂ R' a b := by
  induction h with
  | nil => exact .nil
  | cons h _ ih => exact .cons (hm h) ih

/-- Calls without constants, in the whole program. -/
def noConst : Pg → Prop
  | .done => True
  | .op _ _ _ r => noConst r
  | .call _ kc _ _ b _ _ r => kc = [] ∧ noConst b ∧ noConst r
  | .whl _ _ _ b _ _ _ r => noConst b ∧ noConst r
  | .cond _ _ _ t _ _ f _ _ r => noConst t ∧ noConst f ∧ noConst r

theorem loop_sim {α β σ τ : Type} {RX : α → β → Prop} {RS : σ → τ → Prop} {G : σ → Prop} {F : α → σ → Option (α × σ)}
    {F' : β → τ → Option (β × τ)} {c : α → σ → Option (Bool × σ)} {c' : β → τ → Option (Bool × τ)}
    (hG : ∀ {x s z}, F x s = some z → G z.2 → G s) (hGc : ∀ {x s z}, c x s = some z → G z.2 → G s)
    (hF : ∀ {x y s t z}, RX x y → RS s t → F x s = some z → G z.2 → ∃ z', F' y t = some z' ∧ RX z.1 z'.1 ∧ RS z.2 z'.2)
    (hc : ∀ {x y s t z}, RX x y → RS s t → c x s = some z → ∃ t', c' y t = some (z.1, t') ∧ RS z.2 t') :
    ∀ {fuel x y s t z}, RX x y → RS s t → loop F c fuel x s = some z → G z.2 →
      ∃ z', loop F' c' fuel y t = some z' ∧ RX z.1 z'.1 ∧ RS z.2 z'.2 := by
  intro fuel
  induction fuel with
  | zero => intro x y s t z _ _ h _; simp [loop] at h
  | succ n ih =>
    intro x y s t z hx hs h hg
    simp only [loop, Option.bind_eq_some_iff] at h
    obtain ⟨b, h1, h⟩ := h
    obtain ⟨t', h2, h3⟩ := hc hx hs h1
    by_cases hb : b.1 = true
    · rw [if_pos hb] at h
      simp only [Option.bind_eq_some_iff] at h
      obtain ⟨r, h4, h5⟩ := h
      have hg1 : G r.2 := by
        have : ∀ {fuel x s z}, loop F c fuel x s = some z → G z.2 → G s := by
          intro f
          induction f with
          | zero => intro x s z h; simp [loop] at h
          | succ m ihm =>
            intro x s z h hg
            simp only [loop, Option.bind_eq_some_iff] at h
            obtain ⟨b, k1, h⟩ := h
            by_cases hb : b.1 = true
            · rw [if_pos hb] at h
              simp only [Option.bind_eq_some_iff] at h
              obtain ⟨r, k2, k3⟩ := h
              exact hGc k1 (hG k2 (ihm k3 hg))
            · rw [if_neg hb] at h
              simp only [Option.some.injEq] at h
              subst h
              exact hGc k1 hg
        exact this h5 hg
      obtain ⟨r', k1, k2, k3⟩ := hF hx h3 h4 hg1
      obtain ⟨z', k4, k5, k6⟩ := ih k2 k3 h5 hg
      refine ⟨z', ?_, k5, k6⟩
      simp only [loop, h2, Option.bind_some, hb, if_true, k1, k4]
    · rw [if_neg hb] at h
      simp only [Option.some.injEq] at h
      subst h
      refine ⟨(y, t'), ?_, hx, h3⟩
      simp only [loop, h2, Option.bind_some]
      rw [if_neg hb]

/-- Two interpretations that never turn a condition into conditional operations. -/
theorem eval_sim {RV : I.V → J.V → Prop} {RS : I.S → J.S → Prop} {G : I.S → Prop} (fuel : Nat)
    (hG : ∀ {p : Pg} {c s z}, eval I fuel p c s = some z → G z.2 → G s)
    (hGc : ∀ {c xs s z}, I.cnd c xs s = some z → G z.2 → G s)
    (hp : ∀ {p xs xs' s s' z}, List.Forall₂ RV xs xs' → RS s s' → I.prim p xs s = some z → G z.2 →
      ∃ z', J.prim p xs' s' = some z' ∧ List.Forall₂ RV z.1 z'.1 ∧ RS z.2 z'.2)
    (hc : ∀ {c xs xs' s s' z}, List.Forall₂ RV xs xs' → RS s s' → I.cnd c xs s = some z →
      ∃ t', J.cnd c xs' s' = some (z.1, t') ∧ RS z.2 t')
    (hb : ∀ {x x' s s' b}, RV x x' → RS s s' → I.branch x s = some b → b.isSome ∧ J.branch x' s' = some b)
    (ha : ∀ {xs xs'}, List.Forall₂ RV xs xs' → List.Forall₂ RV (I.args [] xs) (J.args [] xs')) :
    ∀ {p : Pg} {c : Ctx I.V} {c' : Ctx J.V} {s s' z}, noConst p → RC RV c c' → RS s s' → eval I fuel p c s = some z → G z.2 →
      ∃ z', eval J fuel p c' s' = some z' ∧ RC RV z.1 z'.1 ∧ RS z.2 z'.2 := by
  have hsub : ∀ {b : Pg} {vi vo : List Var} {xs xs' s s' z},
      (∀ {c : Ctx I.V} {c' : Ctx J.V} {s s' z}, RC RV c c' → RS s s' → eval I fuel b c s = some z → G z.2 →
        ∃ z', eval J fuel b c' s' = some z' ∧ RC RV z.1 z'.1 ∧ RS z.2 z'.2) →
      List.Forall₂ RV xs xs' → RS s s' → sub (eval I fuel b) vi vo xs s = some z → G z.2 →
      ∃ z', sub (eval J fuel b) vi vo xs' s' = some z' ∧ List.Forall₂ RV z.1 z'.1 ∧ RS z.2 z'.2 := by
    intro b vi vo xs xs' s s' z ih hx hs h hg
    obtain ⟨c0, w, h1, h2, h3, h4⟩ := sub_some h
    obtain ⟨c0', k1, k2⟩ := RC.sets RC.none hx h1
    obtain ⟨w', k3, k4, k5⟩ := ih k2 hs h2 (h4 ▸ hg)
    obtain ⟨ys, k6, k7⟩ := k4.gets h3
    exact ⟨(ys, w'.2), sub_eq k1 k3 k6, k7, h4 ▸ k5⟩
  intro p
  induction p with
  | done => intro c c' s s' z _ h1 h2 h _; simp only [eval, Option.some.injEq] at h; subst h; exact ⟨(c', s'), rfl, h1, h2⟩
  | op p i o r ih =>
    intro c c' s s' z hn h1 h2 h hg
    simp only [eval, Option.bind_eq_some_iff] at h
    obtain ⟨xs, k1, w, k2, d, k3, k4⟩ := h
    obtain ⟨xs', m1, m2⟩ := h1.gets k1
    obtain ⟨w', m3, m4, m5⟩ := hp m2 h2 k2 (hG k4 hg)
    obtain ⟨d', m6, m7⟩ := h1.sets m4 k3
    obtain ⟨z', m8, m9⟩ := ih hn m7 m5 k4 hg
    exact ⟨z', by simp only [eval, m1, m3, m6, m8, Option.bind_some], m9⟩
  | call jc kc ji jo b i o r ihb ih =>
    intro c c' s s' z hn h1 h2 h hg
    obtain ⟨rfl, hnb, hn⟩ := hn
    simp only [eval, Option.bind_eq_some_iff] at h
    obtain ⟨xs, k1, w, k2, d, k3, k4⟩ := h
    obtain ⟨xs', m1, m2⟩ := h1.gets k1
    obtain ⟨w', m3, m4, m5⟩ := hsub (ihb hnb) (ha m2) h2 k2 (hG k4 hg)
    obtain ⟨d', m6, m7⟩ := h1.sets m4 k3
    obtain ⟨z', m8, m9⟩ := ih hn m7 m5 k4 hg
    refine ⟨z', ?_, m9⟩
    simp only [eval, m1, List.map_nil, m3, m6, m8, Option.bind_some]
  | whl cn bi bo b ks cs o r ihb ih =>
    intro c c' s s' z hn h1 h2 h hg
    simp only [eval, Option.bind_eq_some_iff] at h
    obtain ⟨kv, k0, xs, k1, w, k2, d, k3, k4⟩ := h
    obtain ⟨kv', m0, m0'⟩ := h1.gets k0
    obtain ⟨xs', m1, m2⟩ := h1.gets k1
    obtain ⟨w', m3, m4, m5⟩ := loop_sim (RX := List.Forall₂ RV) (RS := RS) (G := G)
      (F' := fun vs s => sub (eval J fuel b) bi bo (kv' ++ vs) s) (c' := J.cnd cn)
      (fun {x s z} hz hg => by obtain ⟨_, u, _, q1, _, q2⟩ := sub_some hz; exact hG q1 (q2 ▸ hg)) hGc
      (fun hx hs hz hg => hsub (ihb hn.1) (forall2_append m0' hx) hs hz hg) hc m2 h2 k2 (hG k4 hg)
    obtain ⟨d', m6, m7⟩ := h1.sets m4 k3
    obtain ⟨z', m8, m9⟩ := ih hn.2 m7 m5 k4 hg
    exact ⟨z', by simp only [eval, m0, m1, m3, m6, m8, Option.bind_some], m9⟩
  | cond p ti tt t fi ft f i o r iht ihf ih =>
    intro c c' s s' z hn h1 h2 h hg
    simp only [eval, Option.bind_eq_some_iff] at h
    obtain ⟨x, k0, xs, k1, b, kb, h⟩ := h
    obtain ⟨x', m0, m0'⟩ := h1 p x k0
    obtain ⟨xs', m1, m2⟩ := h1.gets k1
    obtain ⟨hbs, hb'⟩ := hb m0' h2 kb
    match b, kb, hbs, hb', h with
    | some false, kb, _, hb', h =>
      simp only [Option.bind_eq_some_iff] at h
      obtain ⟨w, k2, d, k3, k4⟩ := h
      obtain ⟨w', m3, m4, m5⟩ := hsub (ihf hn.2.1) m2 h2 k2 (hG k4 hg)
      obtain ⟨d', m6, m7⟩ := h1.sets m4 k3
      obtain ⟨z', m8, m9⟩ := ih hn.2.2 m7 m5 k4 hg
      exact ⟨z', by simp only [eval, m0, m1, hb', m3, m6, m8, Option.bind_some], m9⟩
    | some true, kb, _, hb', h =>
      simp only [Option.bind_eq_some_iff] at h
      obtain ⟨w, k2, d, k3, k4⟩ := h
      obtain ⟨w', m3, m4, m5⟩ := hsub (iht hn.1) m2 h2 k2 (hG k4 hg)
      obtain ⟨d', m6, m7⟩ := h1.sets m4 k3
      obtain ⟨z', m8, m9⟩ := ih hn.2.2 m7 m5 k4 hg
      exact ⟨z', by simp only [eval, m0, m1, hb', m3, m6, m8, Option.bind_some], m9⟩

end Verif.Jasp.Xt
