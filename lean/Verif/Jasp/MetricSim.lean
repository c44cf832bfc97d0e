import Verif.Jasp.Metric

/-!
# Two sets of handlers that are related

`WSim` is a relation between the values of two sets of handlers that may depend on a growing state of knowledge (`W`, e.g. the places of the qubits created so
far); `Sim` is one that does not.
-/

namespace Verif.Jasp.Met

/-- Relations between the values of two sets of handlers that the handlers respect. -/
structure WSim (I J : Interp) where
  W : Type
  le : W → W → Prop
  refl : ∀ w, le w w
  trans : ∀ {u v w}, le u v → le v w → le u w
  RQ : W → I.Q → J.Q → Prop
  RA : W → I.A → J.A → Prop
  RS : W → I.S → J.S → Prop
  monoQ : ∀ {w w' q q'}, le w w' → RQ w q q' → RQ w' q q'
  monoA : ∀ {w w' a a'}, le w w' → RA w a a' → RA w' a a'
  create : ∀ {w n s s' z}, RS w s s' → I.create n s = some z →
    ∃ w' z', le w w' ∧ J.create n s' = some z' ∧ RA w' z.1 z'.1 ∧ RS w' z.2 z'.2
  getq : ∀ {w a a' i q}, RA w a a' → I.getq a i = some q → ∃ q', J.getq a' i = some q' ∧ RQ w q q'
  size : ∀ {w a a'}, RA w a a' → J.size a' = I.size a
  fuse : ∀ {w x y x' y' z}, Sum.LiftRel (RQ w) (RA w) x x' → Sum.LiftRel (RQ w) (RA w) y y' → I.fuse x y = some z →
    ∃ z', J.fuse x' y' = some z' ∧ RA w z z'
  slice : ∀ {w a a' i j z}, RA w a a' → I.slice a i j = some z → ∃ z', J.slice a' i j = some z' ∧ RA w z z'
  gate : ∀ {w g qs qs' s s' t}, List.Forall₂ (RQ w) qs qs' → RS w s s' → I.gate g qs s = some t →
    ∃ t', J.gate g qs' s' = some t' ∧ RS w t t'
  meas1 : ∀ {w q q' k s s' z}, RQ w q q' → RS w s s' → I.meas1 q k s = some z →
    ∃ t', J.meas1 q' k s' = some (z.1, t') ∧ RS w z.2 t'
  measA : ∀ {w a a' k s s' z}, RA w a a' → RS w s s' → I.measA a k s = some z →
    ∃ t', J.measA a' k s' = some (z.1, t') ∧ RS w z.2 t'
  reset : ∀ {w x x' s s' t}, Sum.LiftRel (RQ w) (RA w) x x' → RS w s s' → I.reset x s = some t →
    ∃ t', J.reset x' s' = some t' ∧ RS w t t'
  delete : ∀ {w x x' s s' t}, RA w x x' → RS w s s' → I.delete x s = some t →
    ∃ t', J.delete x' s' = some t' ∧ RS w t t'

variable {I J : Interp} (M : WSim I J)

inductive WRV (w : M.W) : Val I.Q I.A → Val J.Q J.A → Prop where
  | int (i : Int) : WRV w (.int i) (.int i)
  | qb {q q'} : M.RQ w q q' → WRV w (.qb q) (.qb q')
  | arr {a a'} : M.RA w a a' → WRV w (.arr a) (.arr a')

def WRC (w : M.W) (c : Ctx I) (c' : Ctx J) : Prop := ∀ v x, c v = some x → ∃ y, c' v = some y ∧ WRV M w x y

variable {M} {w : M.W}

theorem WRV.mono {w w' : M.W} (h : M.le w w') {x y} (hx : WRV M w x y) : WRV M w' x y := by
  cases hx with
  | int i => exact .int i
  | qb hq => exact .qb (M.monoQ h hq)
  | arr ha => exact .arr (M.monoA h ha)

theorem WRC.mono {w w' : M.W} (h : M.le w w') {c : Ctx I} {c' : Ctx J} (hc : WRC M w c c') : WRC M w' c c' := by
  intro v x hx
  obtain ⟨y, h1, h2⟩ := hc v x hx
  exact ⟨y, h1, h2.mono h⟩

theorem wrv_mono_list {w w' : M.W} (h : M.le w w') {xs ys} (hx : List.Forall₂ (WRV M w) xs ys) :
    List.Forall₂ (WRV M w') xs ys := by
  induction hx with
  | nil => exact .nil
  | cons h1 _ ih => exact .cons (h1.mono h) ih

theorem WRC.set {c : Ctx I} {c' : Ctx J} (h : WRC M w c c') (o : Var) {x y} (hx : WRV M w x y) :
    WRC M w (c.set o x) (c'.set o y) := by
  intro v z hz
  simp only [Ctx.set] at hz ⊢
  split at hz
  · simp only [Option.some.injEq] at hz; subst hz
    rename_i hv; rw [if_pos hv]; exact ⟨y, rfl, hx⟩
  · rename_i hv; rw [if_neg hv]; exact h v z hz

theorem WRC.gets {c : Ctx I} {c' : Ctx J} (h : WRC M w c c') : ∀ {vs xs}, gets c vs = some xs →
    ∃ ys, gets c' vs = some ys ∧ List.Forall₂ (WRV M w) xs ys := by
  intro vs
  induction vs with
  | nil => intro xs hx; simp only [Met.gets, Option.some.injEq] at hx; subst hx; exact ⟨[], rfl, .nil⟩
  | cons v vs ih =>
    intro xs hx
    simp only [Met.gets, Option.bind_eq_some_iff, Option.some.injEq] at hx
    obtain ⟨x, h1, xs', h2, rfl⟩ := hx
    obtain ⟨y, h3, h4⟩ := h v x h1
    obtain ⟨ys, h5, h6⟩ := ih h2
    exact ⟨y :: ys, by simp only [Met.gets, h3, h5, Option.bind_some], .cons h4 h6⟩

theorem WRC.sets : ∀ {vs xs ys} {c : Ctx I} {c' : Ctx J} {d}, WRC M w c c' → List.Forall₂ (WRV M w) xs ys →
    sets c vs xs = some d → ∃ d', sets c' vs ys = some d' ∧ WRC M w d d' := by
  intro vs
  induction vs with
  | nil =>
    intro xs ys c c' d h hx hs
    cases hx with
    | nil => simp only [Met.sets, Option.some.injEq] at hs ⊢; subst hs; exact ⟨c', rfl, h⟩
    | cons => simp [Met.sets] at hs
  | cons v vs ih =>
    intro xs ys c c' d h hx hs
    cases hx with
    | nil => simp [Met.sets] at hs
    | cons h1 h2 => exact ih (h.set v h1) h2 hs

theorem WRC.none : WRC M w (fun _ => none) (fun _ => none) := fun _ _ h => by simp at h

theorem rv_ints {xs ys} (h : List.Forall₂ (WRV M w) xs ys) : ys.map Val.toInt = xs.map Val.toInt := by
  induction h with
  | nil => rfl
  | cons h1 _ ih =>
    simp only [List.map_cons, ih, List.cons.injEq, and_true]
    cases h1 <;> rfl

theorem rv_allInt {xs ys} (h : List.Forall₂ (WRV M w) xs ys) : allM Val.toInt ys = allM Val.toInt xs := by
  induction h with
  | nil => rfl
  | cons h1 _ ih => simp only [allM, ih]; cases h1 <;> rfl

theorem rv_allQb {xs ys} (h : List.Forall₂ (WRV M w) xs ys) : ∀ {qs}, allM Val.toQb xs = some qs →
    ∃ qs', allM Val.toQb ys = some qs' ∧ List.Forall₂ (M.RQ w) qs qs' := by
  induction h with
  | nil => intro qs hq; simp only [allM, Option.some.injEq] at hq; subst hq; exact ⟨[], rfl, .nil⟩
  | cons h1 _ ih =>
    intro qs hq
    simp only [allM, Option.bind_eq_some_iff, Option.some.injEq] at hq
    obtain ⟨q, e1, qs1, e2, rfl⟩ := hq
    obtain ⟨qs', e3, e4⟩ := ih e2
    cases h1 with
    | int => simp [Val.toQb] at e1
    | arr => simp [Val.toQb] at e1
    | qb hq =>
      simp only [Val.toQb, Option.some.injEq] at e1; subst e1
      exact ⟨_ :: qs', by simp only [allM, Val.toQb, e3, Option.bind_some], .cons hq e4⟩

theorem rv_map_int (zs : List Int) : List.Forall₂ (WRV M w) (zs.map .int) (zs.map .int) := by
  induction zs with
  | nil => exact .nil
  | cons z zs ih => exact .cons (.int z) ih

theorem rv_toInt {x y} (h : WRV M w x y) : y.toInt = x.toInt := by cases h <;> rfl

theorem rv_toArr {x y a} (h : WRV M w x y) (ha : x.toArr = some a) : ∃ a', y.toArr = some a' ∧ (M.RA w) a a' := by
  cases h with
  | arr h => simp only [Val.toArr, Option.some.injEq] at ha; subst ha; exact ⟨_, rfl, h⟩
  | int => simp [Val.toArr] at ha
  | qb => simp [Val.toArr] at ha

theorem rv_toEither {x y a} (h : WRV M w x y) (ha : x.toEither = some a) :
    ∃ a', y.toEither = some a' ∧ Sum.LiftRel (M.RQ w) (M.RA w) a a' := by
  cases h with
  | arr h => simp only [Val.toEither, Option.some.injEq] at ha; subst ha; exact ⟨_, rfl, .inr h⟩
  | int => simp [Val.toEither] at ha
  | qb h => simp only [Val.toEither, Option.some.injEq] at ha; subst ha; exact ⟨_, rfl, .inl h⟩

theorem loop_sim {α β σ τ : Type} {RX : M.W → α → β → Prop} {RT : M.W → σ → τ → Prop} {F : α → σ → Option (α × σ)}
    {G : β → τ → Option (β × τ)} {cf : α → Option Bool} {cg : β → Option Bool}
    (hc : ∀ {w x y}, RX w x y → cg y = cf x) : ∀ {n w x y s t z},
    (∀ {w' x y s t z}, M.le w w' → RX w' x y → RT w' s t → F x s = some z →
      ∃ w'' z', M.le w' w'' ∧ G y t = some z' ∧ RX w'' z.1 z'.1 ∧ RT w'' z.2 z'.2) →
    RX w x y → RT w s t → loop F cf n x s = some z →
      ∃ w' z', M.le w w' ∧ loop G cg n y t = some z' ∧ RX w' z.1 z'.1 ∧ RT w' z.2 z'.2 := by
  intro n
  induction n with
  | zero => intro w x y s t z _ _ _ h; simp [loop] at h
  | succ n ih =>
    intro w x y s t z hF hx hs h
    simp only [loop, Option.bind_eq_some_iff] at h
    obtain ⟨b, hb, h⟩ := h
    cases b with
    | false =>
      simp only [Bool.false_eq_true, if_false, Option.some.injEq] at h; subst h
      exact ⟨w, (y, t), M.refl w, by simp [loop, hc hx, hb], hx, hs⟩
    | true =>
      simp only [if_true, Option.bind_eq_some_iff] at h
      obtain ⟨r, h1, h2⟩ := h
      obtain ⟨w1, r', h0, h3, h4, h5⟩ := hF (M.refl w) hx hs h1
      obtain ⟨w2, z', g0, h6, h7⟩ := ih (fun hle => hF (M.trans h0 hle)) h4 h5 h2
      exact ⟨w2, z', M.trans h0 g0, by simp [loop, hc hx, hb, h3, h6], h7⟩

variable {fuel : Nat}

/-- Related handlers give related results for every program. -/
theorem eval_wsim : ∀ {p : Pg} {w : M.W} {c : Ctx I} {c' : Ctx J} {k s s' z}, WRC M w c c' → M.RS w s s' →
    eval I fuel p c k s = some z →
    ∃ w' z', M.le w w' ∧ eval J fuel p c' k s' = some z' ∧ WRC M w' z.1 z'.1 ∧ M.RS w' z.2 z'.2 := by
  intro p
  induction p with
  | done =>
    intro w c c' k s s' z hc hs he
    simp only [eval, Option.some.injEq] at he; subst he
    exact ⟨w, (c', s'), M.refl w, rfl, hc, hs⟩
  | cls f i o r ih =>
    intro w c c' k s s' z hc hs he
    simp only [eval, Option.bind_eq_some_iff] at he
    obtain ⟨xs, h1, ys, h2, zs, h3, d, h4, h5⟩ := he
    obtain ⟨xs', g1, g2⟩ := hc.gets h1
    obtain ⟨d', g3, g4⟩ := hc.sets (rv_map_int zs) h4
    obtain ⟨w1, z', l1, g5, g6⟩ := ih g4 hs h5
    exact ⟨w1, z', l1, by simp only [eval, g1, Option.bind_some, rv_allInt g2, h2, h3, g3, g5], g6⟩
  | create o v r ih =>
    intro w c c' k s s' z hc hs he
    simp only [eval, Option.bind_eq_some_iff] at he
    obtain ⟨x, h1, n, h2, y, h3, h5⟩ := he
    obtain ⟨x', g1, g2⟩ := hc v x h1
    obtain ⟨w0, y', l0, g3, g4, g4'⟩ := M.create hs h3
    obtain ⟨w1, z', l1, g5, g6⟩ := ih ((hc.mono l0).set o (.arr g4)) g4' h5
    exact ⟨w1, z', M.trans l0 l1, by simp only [eval, g1, Option.bind_some, rv_toInt g2, h2, g3, g5], g6⟩
  | getq o a v r ih =>
    intro w c c' k s s' z hc hs he
    simp only [eval, Option.bind_eq_some_iff] at he
    obtain ⟨x, h1, a1, h2, y, h3, i, h4, q, h5, h6⟩ := he
    obtain ⟨x', g1, g2⟩ := hc a x h1
    obtain ⟨a1', g3, g4⟩ := rv_toArr g2 h2
    obtain ⟨y', g5, g6⟩ := hc v y h3
    obtain ⟨q', g7, g8⟩ := M.getq g4 h5
    obtain ⟨w1, z', l1, g9, g10⟩ := ih (hc.set o (.qb g8)) hs h6
    exact ⟨w1, z', l1, by simp only [eval, g1, Option.bind_some, g3, g5, rv_toInt g6, h4, g7, g9], g10⟩
  | size o a r ih =>
    intro w c c' k s s' z hc hs he
    simp only [eval, Option.bind_eq_some_iff] at he
    obtain ⟨x, h1, a1, h2, h6⟩ := he
    obtain ⟨x', g1, g2⟩ := hc a x h1
    obtain ⟨a1', g3, g4⟩ := rv_toArr g2 h2
    obtain ⟨w1, z', l1, g9, g10⟩ := ih (hc.set o (.int (I.size a1))) hs h6
    exact ⟨w1, z', l1, by simp only [eval, g1, Option.bind_some, g3, M.size g4, g9], g10⟩
  | fuse o a b r ih =>
    intro w c c' k s s' z hc hs he
    simp only [eval, Option.bind_eq_some_iff] at he
    obtain ⟨x, h1, x1, h2, y, h3, y1, h4, v, h5, h6⟩ := he
    obtain ⟨x', g1, g2⟩ := hc a x h1
    obtain ⟨x1', g3, g4⟩ := rv_toEither g2 h2
    obtain ⟨y', g5, g6⟩ := hc b y h3
    obtain ⟨y1', g7, g8⟩ := rv_toEither g6 h4
    obtain ⟨u', e1, e2⟩ := M.fuse g4 g8 h5
    obtain ⟨w1, z', l1, g9, g10⟩ := ih (hc.set o (.arr e2)) hs h6
    exact ⟨w1, z', l1, by simp only [eval, g1, Option.bind_some, g3, g5, g7, e1, g9], g10⟩
  | slice o a u v r ih =>
    intro w c c' k s s' z hc hs he
    simp only [eval, Option.bind_eq_some_iff] at he
    obtain ⟨x, h1, a1, h2, y, h3, i, h4, y2, h3', j, h4', v', h5, h6⟩ := he
    obtain ⟨x', g1, g2⟩ := hc a x h1
    obtain ⟨a1', g3, g4⟩ := rv_toArr g2 h2
    obtain ⟨y', g5, g6⟩ := hc u y h3
    obtain ⟨y2', g5', g6'⟩ := hc v y2 h3'
    obtain ⟨u', e1, e2⟩ := M.slice g4 h5
    obtain ⟨w1, z', l1, g9, g10⟩ := ih (hc.set o (.arr e2)) hs h6
    exact ⟨w1, z', l1, by simp only [eval, g1, Option.bind_some, g3, g5, rv_toInt g6, h4, g5', rv_toInt g6', h4', e1, g9], g10⟩
  | gate g qs r ih =>
    intro w c c' k s s' z hc hs he
    simp only [eval, Option.bind_eq_some_iff] at he
    obtain ⟨xs, h1, bs, h2, t, h3, h4⟩ := he
    obtain ⟨xs', g1, g2⟩ := hc.gets h1
    obtain ⟨bs', g3, g4⟩ := rv_allQb g2 h2
    obtain ⟨t', g5, g6⟩ := M.gate g4 hs h3
    obtain ⟨w1, z', l1, g9, g10⟩ := ih hc g6 h4
    exact ⟨w1, z', l1, by simp only [eval, g1, Option.bind_some, g3, g5, g9], g10⟩
  | meas o q r ih =>
    intro w c c' k s s' z hc hs he
    simp only [eval, Option.bind_eq_some_iff] at he
    obtain ⟨x, h1, h2⟩ := he
    obtain ⟨x', g1, g2⟩ := hc q x h1
    cases g2 with
    | int => simp at h2
    | qb hq =>
      simp only [Option.bind_eq_some_iff] at h2
      obtain ⟨v, h3, h4⟩ := h2
      obtain ⟨t', g3, g4⟩ := M.meas1 hq hs h3
      obtain ⟨w1, z', l1, g9, g10⟩ := ih (hc.set o (.int v.1)) g4 h4
      exact ⟨w1, z', l1, by simp only [eval, g1, Option.bind_some, g3, g9], g10⟩
    | arr ha =>
      simp only [Option.bind_eq_some_iff] at h2
      obtain ⟨v, h3, h4⟩ := h2
      obtain ⟨t', g3, g4⟩ := M.measA ha hs h3
      obtain ⟨w1, z', l1, g9, g10⟩ := ih (hc.set o (.int v.1)) g4 h4
      exact ⟨w1, z', l1, by simp only [eval, g1, Option.bind_some, g3, M.size ha, g9], g10⟩
  | reset q r ih =>
    intro w c c' k s s' z hc hs he
    simp only [eval, Option.bind_eq_some_iff] at he
    obtain ⟨x, h1, x1, h2, t, h3, h4⟩ := he
    obtain ⟨x', g1, g2⟩ := hc q x h1
    obtain ⟨x1', g3, g4⟩ := rv_toEither g2 h2
    obtain ⟨t', g5, g6⟩ := M.reset g4 hs h3
    obtain ⟨w1, z', l1, g9, g10⟩ := ih hc g6 h4
    exact ⟨w1, z', l1, by simp only [eval, g1, Option.bind_some, g3, g5, g9], g10⟩
  | delete a r ih =>
    intro w c c' k s s' z hc hs he
    simp only [eval, Option.bind_eq_some_iff] at he
    obtain ⟨x, h1, x1, h2, t, h3, h4⟩ := he
    obtain ⟨x', g1, g2⟩ := hc a x h1
    obtain ⟨x1', g3, g4⟩ := rv_toArr g2 h2
    obtain ⟨t', g5, g6⟩ := M.delete g4 hs h3
    obtain ⟨w1, z', l1, g9, g10⟩ := ih hc g6 h4
    exact ⟨w1, z', l1, by simp only [eval, g1, Option.bind_some, g3, g5, g9], g10⟩
  | call ji jo b i o r ihb ih =>
    intro w c c' k s s' z hc hs he
    simp only [eval, Option.bind_eq_some_iff] at he
    obtain ⟨xs, h1, c0, h2, v, h3, ys, h4, d, h5, h6⟩ := he
    obtain ⟨xs', g1, g2⟩ := hc.gets h1
    obtain ⟨c0', g3, g4⟩ := WRC.none.sets g2 h2
    obtain ⟨w0, v', l0, g5, g6, g6'⟩ := ihb g4 hs h3
    obtain ⟨ys', g7, g8⟩ := g6.gets h4
    obtain ⟨d', e1, e2⟩ := (hc.mono l0).sets g8 h5
    obtain ⟨w1, z', l1, g9, g10⟩ := ih e2 g6' h6
    exact ⟨w1, z', M.trans l0 l1, by simp only [eval, g1, Option.bind_some, g3, g5, g7, e1, g9], g10⟩
  | whl cn bi bo b ks cs o r ihb ih =>
    intro w c c' k s s' z hc hs he
    simp only [eval, Option.bind_eq_some_iff] at he
    obtain ⟨kv, h1, xs, h2, v, h3, d, h5, h6⟩ := he
    obtain ⟨kv', g1, g2⟩ := hc.gets h1
    obtain ⟨xs', g3, g4⟩ := hc.gets h2
    have hF : ∀ {w1 x y s t z}, M.le w w1 → List.Forall₂ (WRV M w1) x y → M.RS w1 s t →
        ((sets (fun _ => none) bi (kv ++ x)).bind fun c0 => (eval I fuel b c0 0 s).bind fun z =>
          (gets z.1 bo).bind fun ys => some (ys, z.2)) = some z →
        ∃ w2 z', M.le w1 w2 ∧ ((sets (fun _ => none) bi (kv' ++ y)).bind fun c0 => (eval J fuel b c0 0 t).bind fun z =>
          (gets z.1 bo).bind fun ys => some (ys, z.2)) = some z' ∧ List.Forall₂ (WRV M w2) z.1 z'.1 ∧ M.RS w2 z.2 z'.2 := by
      intro w1 x y s t z hle hx hst hz
      simp only [Option.bind_eq_some_iff, Option.some.injEq] at hz
      obtain ⟨c0, e1, v, e2, ys, e3, rfl⟩ := hz
      obtain ⟨c0', e4, e5⟩ := WRC.none.sets (List.rel_append (wrv_mono_list hle g2) hx) e1
      obtain ⟨w2, v', l2, e6, e7, e8⟩ := ihb e5 hst e2
      obtain ⟨ys', e9, e10⟩ := e7.gets e3
      exact ⟨w2, (ys', v'.2), l2, by simp only [e4, Option.bind_some, e6, e9], e10, e8⟩
    obtain ⟨w0, v', l0, g5, g6, g6'⟩ := loop_sim (M := M) (RX := fun w => List.Forall₂ (WRV M w)) (RT := M.RS)
      (cg := fun vs => cn (vs.map Val.toInt)) (cf := fun vs => cn (vs.map Val.toInt))
      (fun h => by rw [rv_ints h]) hF g4 hs h3
    obtain ⟨d', e1, e2⟩ := (hc.mono l0).sets g6 h5
    obtain ⟨w1, z', l1, g9, g10⟩ := ih e2 g6' h6
    exact ⟨w1, z', M.trans l0 l1, by simp only [eval, g1, Option.bind_some, g3, g5, e1, g9], g10⟩
  | cond p ti tt t fi ft f i o r iht ihf ih =>
    intro w c c' k s s' z hc hs he
    simp only [eval, Option.bind_eq_some_iff] at he
    obtain ⟨x, h0, n, h0', xs, h1, v, h3, d, h5, h6⟩ := he
    obtain ⟨x', g0, g0'⟩ := hc p x h0
    obtain ⟨xs', g1, g2⟩ := hc.gets h1
    have hbr : ∃ w0 v', M.le w w0 ∧ (if n = 0 then (sets (fun _ => none) fi xs').bind fun c0 => (eval J fuel f c0 0 s').bind fun z =>
            (gets z.1 ft).bind fun ys => some (ys, z.2)
        else (sets (fun _ => none) ti xs').bind fun c0 => (eval J fuel t c0 0 s').bind fun z =>
            (gets z.1 tt).bind fun ys => some (ys, z.2)) = some v' ∧ List.Forall₂ (WRV M w0) v.1 v'.1 ∧ M.RS w0 v.2 v'.2 := by
      by_cases hn : n = 0
      · rw [if_pos hn] at h3
        simp only [Option.bind_eq_some_iff, Option.some.injEq] at h3
        obtain ⟨c0, e1, v, e2, ys, e3, rfl⟩ := h3
        obtain ⟨c0', e4, e5⟩ := WRC.none.sets g2 e1
        obtain ⟨w0, v', l0, e6, e7, e8⟩ := ihf e5 hs e2
        obtain ⟨ys', e9, e10⟩ := e7.gets e3
        exact ⟨w0, (ys', v'.2), l0, by rw [if_pos hn]; simp only [e4, Option.bind_some, e6, e9], e10, e8⟩
      · rw [if_neg hn] at h3
        simp only [Option.bind_eq_some_iff, Option.some.injEq] at h3
        obtain ⟨c0, e1, v, e2, ys, e3, rfl⟩ := h3
        obtain ⟨c0', e4, e5⟩ := WRC.none.sets g2 e1
        obtain ⟨w0, v', l0, e6, e7, e8⟩ := iht e5 hs e2
        obtain ⟨ys', e9, e10⟩ := e7.gets e3
        exact ⟨w0, (ys', v'.2), l0, by rw [if_neg hn]; simp only [e4, Option.bind_some, e6, e9], e10, e8⟩
    obtain ⟨w0, v', l0, g5, g6, g6'⟩ := hbr
    obtain ⟨d', e1, e2⟩ := (hc.mono l0).sets g6 h5
    obtain ⟨w1, z', l1, g9, g10⟩ := ih e2 g6' h6
    refine ⟨w1, z', M.trans l0 l1, ?_, g10⟩
    simp only [eval, g0, Option.bind_some, rv_toInt g0', h0', g1]
    rw [g5]
    simp only [Option.bind_some, e1, g9]

/-- A relation that does not depend on anything. -/
structure Sim (I J : Interp) where
  RQ : I.Q → J.Q → Prop
  RA : I.A → J.A → Prop
  RS : I.S → J.S → Prop
  create : ∀ {n s s' z}, RS s s' → I.create n s = some z → ∃ z', J.create n s' = some z' ∧ RA z.1 z'.1 ∧ RS z.2 z'.2
  getq : ∀ {a a' i q}, RA a a' → I.getq a i = some q → ∃ q', J.getq a' i = some q' ∧ RQ q q'
  size : ∀ {a a'}, RA a a' → J.size a' = I.size a
  fuse : ∀ {x y x' y' z}, Sum.LiftRel RQ RA x x' → Sum.LiftRel RQ RA y y' → I.fuse x y = some z →
    ∃ z', J.fuse x' y' = some z' ∧ RA z z'
  slice : ∀ {a a' i j z}, RA a a' → I.slice a i j = some z → ∃ z', J.slice a' i j = some z' ∧ RA z z'
  gate : ∀ {g qs qs' s s' t}, List.Forall₂ RQ qs qs' → RS s s' → I.gate g qs s = some t →
    ∃ t', J.gate g qs' s' = some t' ∧ RS t t'
  meas1 : ∀ {q q' k s s' z}, RQ q q' → RS s s' → I.meas1 q k s = some z →
    ∃ t', J.meas1 q' k s' = some (z.1, t') ∧ RS z.2 t'
  measA : ∀ {a a' k s s' z}, RA a a' → RS s s' → I.measA a k s = some z →
    ∃ t', J.measA a' k s' = some (z.1, t') ∧ RS z.2 t'
  reset : ∀ {x x' s s' t}, Sum.LiftRel RQ RA x x' → RS s s' → I.reset x s = some t →
    ∃ t', J.reset x' s' = some t' ∧ RS t t'
  delete : ∀ {x x' s s' t}, RA x x' → RS s s' → I.delete x s = some t →
    ∃ t', J.delete x' s' = some t' ∧ RS t t'

@[reducible] def Sim.toW (M : Sim I J) : WSim I J where
  W := Unit
  le _ _ := True
  refl _ := trivial
  trans _ _ := trivial
  RQ _ := M.RQ
  RA _ := M.RA
  RS _ := M.RS
  monoQ _ h := h
  monoA _ h := h
  create hs h := by
    obtain ⟨z', h1, h2⟩ := M.create hs h
    exact ⟨(), z', trivial, h1, h2⟩
  getq := M.getq
  size := M.size
  fuse := M.fuse
  slice := M.slice
  gate := M.gate
  meas1 := M.meas1
  measA := M.measA
  reset := M.reset
  delete := M.delete

abbrev RC (M : Sim I J) (c : Ctx I) (c' : Ctx J) : Prop := WRC M.toW () c c'

theorem eval_sim {M : Sim I J} {p : Pg} {c : Ctx I} {c' : Ctx J} {k s s' z} (hc : RC M c c') (hs : M.RS s s')
    (he : eval I fuel p c k s = some z) : ∃ z', eval J fuel p c' k s' = some z' ∧ RC M z.1 z'.1 ∧ M.RS z.2 z'.2 := by
  obtain ⟨_, z', _, h1, h2, h3⟩ := eval_wsim (M := M.toW) hc hs he
  exact ⟨z', h1, h2, h3⟩

end Verif.Jasp.Met
