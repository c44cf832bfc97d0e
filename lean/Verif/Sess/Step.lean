import Verif.Sess.Inv

/-!
# Operations keep the invariant
-/

namespace Verif.Sess

section
variable {w w' : World} {born : List Nat} {log : List Instr} {L : List (Nat × Nat)}

/-- What merging does not change. -/
structure Same (w w' : World) : Prop where
  nS : w'.nS = w.nS
  nV : w'.nV = w.nV
  size : ∀ v, (w'.qv v).size = (w.qv v).size
  alive : ∀ v, (w'.qv v).alive = (w.qv v).alive
  user : ∀ v, (w'.qv v).user = (w.qv v).user
  root : ∀ s t, w.root s = w.root t → w'.root s = w'.root t

theorem Same.refl (w : World) : Same w w := ⟨rfl, rfl, fun _ => rfl, fun _ => rfl, fun _ => rfl, fun _ _ h => h⟩

theorem Same.trans {a b c : World} (h1 : Same a b) (h2 : Same b c) : Same a c :=
  ⟨h2.nS.trans h1.nS, h2.nV.trans h1.nV, fun v => (h2.size v).trans (h1.size v), fun v => (h2.alive v).trans (h1.alive v),
    fun v => (h2.user v).trans (h1.user v), fun s t h => h2.root s t (h1.root s t h)⟩

theorem Inv.relink {L' : List (Nat × Nat)} (hi : Inv w born log L) (h : Tells w.root L') : Inv w born log L' :=
  { hi with tells := h }

theorem Inv.mergeInner (hi : Inv w born log L) {a b : Nat} (ha : a < w.nS) (hb : b < w.nS)
    (h : mergeInner w a b = some w') : Inv w' born log (L ++ [(a, b)]) ∧ Same w w' := by
  by_cases hne : w.root a = w.root b
  · rw [Verif.Sess.mergeInner, if_pos hne] at h
    obtain rfl := Option.some.inj h
    refine ⟨hi.relink (hi.tells.link a b fun s => ?_), .refl _⟩
    split
    · rename_i h1; rw [h1, hne]
    · rfl
  · obtain ⟨h1, h2⟩ := mergeInner_eq hi a b hne
    by_cases hc : NoClash w (w.root a) (w.root b)
    · rw [h1 hc] at h
      obtain rfl := Option.some.inj h
      refine ⟨hi.merge (hi.root_parent a) (hi.root_parent b) (hi.root_lt ha) (hi.root_lt hb) hne hc rfl rfl, ?_⟩
      refine ⟨rfl, rfl, fun v => ?_, fun v => ?_, fun v => ?_, fun s t hst => ?_⟩
      · simp only [afterMerge]
        split <;> exact (mergedQv_rest w _ _ v).2.2.1
      · simp only [afterMerge]
        split <;> exact (mergedQv_rest w _ _ v).2.2.2.2
      · simp only [afterMerge]
        split <;> exact (mergedQv_rest w _ _ v).1
      · have := (afterMerge_root hi (hi.root_parent a) (hi.root_parent b) (hi.root_lt ha) (hi.root_lt hb) hne
          (mergedQv w (w.root a) (w.root b))).2.1
        rw [this, this, hst]
    · rw [h2 hc] at h
      cases h

theorem Inv.mergeFold {hd : Nat} : ∀ (l : List Nat) {w w' : World} {L : List (Nat × Nat)}, Inv w born log L → hd < w.nS →
    (∀ s ∈ l, s < w.nS) → l.foldlM (fun w s => Verif.Sess.mergeInner w hd s) w = some w' →
    Inv w' born log (L ++ l.map fun s => (hd, s)) ∧ Same w w'
  | [], w, w', L, hi, _, _, h => by
      obtain rfl := Option.some.inj (h : some w = some w')
      exact ⟨by simpa using hi, .refl _⟩
  | s :: l, w, w', L, hi, hh, hs, h => by
      rw [List.foldlM_cons] at h
      obtain ⟨w1, h1, h2⟩ := Option.bind_eq_some_iff.1 h
      obtain ⟨i1, s1⟩ := hi.mergeInner hh (hs s (by simp)) h1
      obtain ⟨i2, s2⟩ := Inv.mergeFold l i1 (s1.nS ▸ hh) (fun t ht => s1.nS ▸ hs t (by simp [ht])) h2
      exact ⟨by simpa using i2, s1.trans s2⟩

/-- `multi_session_merge` links all its sessions. -/
theorem Inv.multiMerge (hi : Inv w born log L) {l : List Nat} (hl : ∀ s ∈ l, s < w.nS)
    (h : multiMerge w l = some w') : Inv w' born log (L ++ star l) ∧ Same w w' := by
  unfold Verif.Sess.multiMerge at h
  have hp := List.perm_insertionSort (fun a b => (w.look b).data.length ≤ (w.look a).data.length) l
  generalize (l.insertionSort fun a b => (w.look b).data.length ≤ (w.look a).data.length) = m at h hp
  cases m with
  | nil =>
    obtain rfl := Option.some.inj h
    rw [List.nil_perm.1 hp]
    exact ⟨by simpa [star] using hi, .refl _⟩
  | cons hd t =>
    have hm : ∀ s ∈ hd :: t, s < w.nS := fun s hs => hl s (hp.mem_iff.1 hs)
    obtain ⟨i1, s1⟩ := Inv.mergeFold (hd :: t) hi (hm hd (by simp)) hm h
    refine ⟨i1.relink (i1.tells.congr ?_ ?_), s1⟩
    · intro p hpm
      rcases List.mem_append.1 hpm with h1 | h1
      · exact .rel _ _ (List.mem_append_left _ h1)
      · obtain ⟨s, hs, rfl⟩ := List.mem_map.1 h1
        cases l with
        | nil => exact absurd (hp.mem_iff.1 hs) (by simp)
        | cons x u =>
          have key : ∀ s ∈ x :: u, Relation.EqvGen (fun a b => (a, b) ∈ L ++ star (x :: u)) x s := by
            intro s hs
            rcases List.mem_cons.1 hs with rfl | hs
            · exact .refl _
            · exact .rel _ _ (List.mem_append_right _ (List.mem_map_of_mem (f := fun u => (x, u)) hs))
          exact .trans _ _ _ (.symm _ _ (key hd (hp.mem_iff.1 (by simp)))) (key s (hp.mem_iff.1 hs))
    · intro p hpm
      rcases List.mem_append.1 hpm with h1 | h1
      · exact .rel _ _ (List.mem_append_left _ h1)
      · cases l with
        | nil => simp [star] at h1
        | cons x u =>
          obtain ⟨s, hs, rfl⟩ := List.mem_map.1 h1
          have key : ∀ s ∈ hd :: t, Relation.EqvGen (fun a b => (a, b) ∈ L ++ (hd :: t).map fun s => (hd, s)) hd s :=
            fun s hs => .rel _ _ (List.mem_append_right _ (List.mem_map_of_mem (f := fun u => (hd, u)) hs))
          exact .trans _ _ _ (.symm _ _ (key x (hp.mem_iff.2 (by simp)))) (key s (hp.mem_iff.2 (by simp [hs])))

/-- Session `r` receives instruction `i`. -/
def pushed (w : World) (r : Nat) (i : Instr) : World :=
  { w with sess := upd w.sess r { w.sess r with data := (w.sess r).data ++ [i] } }

theorem pushed_sess (w : World) (r : Nat) (i : Instr) (t : Nat) : ((pushed w r i).sess t).qvs = (w.sess t).qvs ∧
    ((pushed w r i).sess t).del = (w.sess t).del ∧ ((pushed w r i).sess t).qubits = (w.sess t).qubits ∧
    ((pushed w r i).sess t).shadows = (w.sess t).shadows ∧ ((pushed w r i).sess t).all = (w.sess t).all ∧
    ((pushed w r i).sess t).data = (w.sess t).data ++ if t = r then [i] else [] := by
  unfold pushed upd Sess.all
  by_cases h : t = r
  · subst h; simp
  · simp [h]

/-- Appending an instruction. -/
theorem Inv.push (hi : Inv w born log L) {r : Nat} (hr : w.parent r = none) {i : Instr} (hn : i.qubits ≠ [])
    (hq : ∀ b ∈ i.qubits, b.1 < w.nV ∧ w.root (w.qv b.1).home = r) : Inv (pushed w r i) born (log ++ [i]) L :=
  { bornLen := hi.bornLen
    par := hi.par
    shad := fun t ht s => by rw [(pushed_sess w r i t).2.2.2.1]; exact hi.shad t ht s
    home := hi.home
    time := hi.time
    all := fun t ht v => by rw [(pushed_sess w r i t).2.2.2.2.1]; exact hi.all t ht v
    names := fun t ht => by rw [(pushed_sess w r i t).2.2.2.2.1]; exact hi.names t ht
    live := fun t ht => by rw [(pushed_sess w r i t).1]; exact hi.live t ht
    alive := fun v hv => by rw [(pushed_sess w r i _).1]; exact hi.alive v hv
    qubits := fun t ht => by rw [(pushed_sess w r i t).2.2.1]; exact hi.qubits t ht
    logged := fun j hj => by
      rcases List.mem_append.1 hj with h | h
      · exact hi.logged j h
      · obtain rfl := List.mem_singleton.1 h
        exact ⟨hn, r, hq⟩
    data := fun t ht => by
      rw [(pushed_sess w r i t).2.2.2.2.2, List.filter_append]
      have h1 : on (pushed w r i) t = on w t := rfl
      rw [h1]
      refine (hi.data t ht).append ?_
      have h2 : on w t i = decide (r = t) := by
        rw [Bool.eq_iff_iff]
        simp only [on, List.any_eq_true, decide_eq_true_eq]
        constructor
        · rintro ⟨b, hb, h⟩
          exact (hq b hb).2.symm.trans h
        · intro h
          obtain ⟨b, hb⟩ := List.exists_mem_of_ne_nil _ hn
          exact ⟨b, hb, (hq b hb).2.trans h⟩
      by_cases h : t = r
      · subst h
        simp only [if_true, List.filter_cons, h2, decide_true, List.filter_nil]
        exact .refl _
      · simp only [h, if_false, List.filter_cons, h2, Ne.symm h, decide_false, List.filter_nil, Bool.false_eq_true]
        exact .refl _
    tells := hi.tells }

/-- `append` of an instruction on at least one qubit. -/
theorem Inv.append (hi : Inv w born log L) {op : String} {qs : List Qubit} (hn : qs ≠ []) (hq : ∀ b ∈ qs, b.1 < w.nV)
    (h : append w op qs = some w') :
    Inv w' born (log ++ [⟨op, qs⟩]) (L ++ star (qs.map fun b => born.getD b.1 0)) ∧ Same w w' := by
  cases qs with
  | nil => exact absurd rfl hn
  | cons b bs =>
    simp only [Verif.Sess.append] at h
    split at h
    · cases h
    · split at h
      · cases h
      · rename_i w1 hm
        obtain rfl := Option.some.inj h
        have hlt : ∀ s ∈ (b :: bs).map (fun c => (w.qv c.1).home) ++ [(w.qv b.1).home], s < w.nS := by
          intro s hs
          rcases List.mem_append.1 hs with h | h
          · obtain ⟨c, hc, rfl⟩ := List.mem_map.1 h
            exact (hi.home _ (hq c hc)).1
          · rw [List.mem_singleton.1 h]
            exact (hi.home _ (hq b (by simp))).1
        obtain ⟨i1, s1⟩ := hi.multiMerge hlt hm
        have hborn : ∀ c ∈ b :: bs, Relation.EqvGen (fun x y => (x, y) ∈ L) (w.qv c.1).home (born.getD c.1 0) :=
          fun c hc => (hi.tells _ _).1 (hi.home _ (hq c hc)).2
        have i2 : Inv w1 born log (L ++ star ((b :: bs).map fun b => born.getD b.1 0)) := by
          refine i1.relink (i1.tells.congr ?_ ?_)
          · intro p hp
            rcases List.mem_append.1 hp with h1 | h1
            · exact .rel _ _ (List.mem_append_left _ h1)
            · have h2 : ∃ c ∈ b :: bs, p = ((w.qv b.1).home, (w.qv c.1).home) := by
                simp only [star, List.map_cons, List.cons_append, List.mem_map, List.mem_append, List.mem_singleton] at h1
                obtain ⟨s, (⟨c, hc, rfl⟩ | rfl), rfl⟩ := h1
                · exact ⟨c, by simp [hc], rfl⟩
                · exact ⟨b, by simp, rfl⟩
              obtain ⟨c, hc, rfl⟩ := h2
              refine .trans _ _ _ (eqv_append (hborn b (by simp))) (.trans _ _ _ ?_ (.symm _ _ (eqv_append (hborn c hc))))
              rcases List.mem_cons.1 hc with rfl | hc
              · exact .refl _
              · exact .rel _ _ (List.mem_append_right _ (List.mem_map_of_mem (f := fun u => (born.getD b.1 0, u))
                  (List.mem_map_of_mem (f := fun b : Qubit => born.getD b.1 0) hc)))
          · intro p hp
            rcases List.mem_append.1 hp with h1 | h1
            · exact .rel _ _ (List.mem_append_left _ h1)
            · obtain ⟨s, hs, rfl⟩ := List.mem_map.1 h1
              obtain ⟨c, hc, rfl⟩ := List.mem_map.1 hs
              refine .trans _ _ _ (.symm _ _ (eqv_append (hborn b (by simp)))) (.trans _ _ _ ?_
                (eqv_append (hborn c (by simp [hc]))))
              refine .rel _ _ (List.mem_append_right _ ?_)
              simp only [star, List.map_cons, List.cons_append, List.mem_map, List.mem_append]
              exact ⟨_, .inl ⟨c, hc, rfl⟩, rfl⟩
        refine ⟨i2.push (i2.root_parent _) (by simp) ?_, ⟨s1.nS, s1.nV, s1.size, s1.alive, s1.user, s1.root⟩⟩
        intro c hc
        have hc1 : c.1 < w1.nV := s1.nV ▸ hq c hc
        refine ⟨hc1, ?_⟩
        rw [(i2.home _ hc1).2, s1.root _ _ (hi.home _ (hq b (by simp))).2]
        refine (i2.tells _ _).2 ?_
        rcases List.mem_cons.1 hc with rfl | hc
        · exact .refl _
        · exact .symm _ _ (.rel _ _ (List.mem_append_right _ (List.mem_map_of_mem (f := fun u => (born.getD b.1 0, u))
            (List.mem_map_of_mem (f := fun b : Qubit => born.getD b.1 0) hc))))

/-- A new session. -/
theorem newSession_root (hi : Inv w born log L) : (newSession w).root = w.root := by
  funext s
  have hp : ∀ s r, (newSession w).parent s = some r →
      s < (newSession w).nS ∧ r < (newSession w).nS ∧ (newSession w).parent r = none := by
    intro s r h
    obtain ⟨h1, h2, h3⟩ := hi.par s r h
    exact ⟨by show s < w.nS + 1; omega, by show r < w.nS + 1; omega, h3⟩
  rw [root_of hp, hi.root]
  rfl

theorem Inv.newSession (hi : Inv w born log L) : Inv (newSession w) born log L := by
  have hr := newSession_root hi
  exact
  { bornLen := hi.bornLen
    par := fun s r h => by
      obtain ⟨h1, h2, h3⟩ := hi.par s r h
      exact ⟨by show s < w.nS + 1; omega, by show r < w.nS + 1; omega, h3⟩
    shad := hi.shad
    home := fun v hv => by
      rw [hr]
      exact ⟨by have := (hi.home v hv).1; show (w.qv v).home < w.nS + 1; omega, (hi.home v hv).2⟩
    time := hi.time
    all := by rw [hr]; exact hi.all
    names := hi.names
    live := hi.live
    alive := by rw [hr]; exact hi.alive
    qubits := by rw [hr]; exact hi.qubits
    logged := by rw [hr]; exact hi.logged
    data := fun r h => by
      have : on (Verif.Sess.newSession w) r = on w r := by
        funext i
        simp only [on, hr]
        rfl
      rw [this]
      exact hi.data r h
    tells := by rw [hr]; exact hi.tells }

/-- Registering a variable. -/
theorem Inv.register (hi : Inv w born log L) {s : Nat} (hs : s < w.nS) {name : Name} {user : Bool} {size : Nat}
    (h : register w s name user size = some w') :
    Inv w' (born ++ [s]) (log ++ each "qb_alloc" w.nV size) L ∧ w'.nS = w.nS ∧ w'.nV = w.nV + 1 ∧
      (∀ v, v < w.nV → w'.qv v = w.qv v) ∧
      w'.qv w.nV = { name := name, user := user, time := w.nV, size := size, home := s, alive := true } ∧
      w'.root = w.root ∧ name ∉ w.names s := by
  unfold Verif.Sess.register at h
  split at h
  · cases h
  rename_i hname
  dsimp only at h
  have hr := hi.root_parent s
  have hW := (Option.some.inj h).symm
  clear h
  have hnS : w'.nS = w.nS := by rw [hW]
  have hnV : w'.nV = w.nV + 1 := by rw [hW]
  have hpar : w'.parent = w.parent := by rw [hW]
  have hroot : w'.root = w.root := by
    funext t
    unfold World.root
    rw [hpar, hnS]
  have hq1 : ∀ v, v ≠ w.nV → w'.qv v = w.qv v := by
    intro v hv
    rw [hW]
    simp [upd, hv]
  have hq2 : w'.qv w.nV = { name := name, user := user, time := w.nV, size := size, home := s, alive := true } := by
    rw [hW]
    simp [upd]
  have hsess : ∀ t, (w'.sess t).qvs = (w.sess t).qvs ++ (if t = w.root s then [w.nV] else []) ∧
      (w'.sess t).del = (w.sess t).del ∧ (w'.sess t).shadows = (w.sess t).shadows ∧
      (w'.sess t).qubits = (w.sess t).qubits ++ (if t = w.root s then (List.range size).map fun k => (w.nV, k) else []) ∧
      (w'.sess t).data = (w.sess t).data ++ (if t = w.root s then each "qb_alloc" w.nV size else []) := by
    intro t
    rw [hW]
    by_cases e : t = w.root s
    · subst e
      simp [upd, each, Function.comp_def]
    · simp [upd, e]
  clear hW
  have hborn : ∀ v, v < w.nV → (born ++ [s]).getD v 0 = born.getD v 0 := by
    intro v hv
    rw [List.getD_append]
    rw [hi.bornLen]; exact hv
  have hbornN : (born ++ [s]).getD w.nV 0 = s := by
    rw [List.getD_append_right _ _ _ _ (by rw [hi.bornLen])]
    simp [hi.bornLen]
  have hlt : ∀ v, v < w'.nV ↔ v < w.nV ∨ v = w.nV := by
    intro v
    rw [hnV]
    omega
  have hall : ∀ t, w.parent t = none → ∀ v, v ∈ (w'.sess t).all ↔ v ∈ (w.sess t).all ∨ (t = w.root s ∧ v = w.nV) := by
    intro t _ v
    simp only [Sess.all, hsess t, List.mem_append]
    split
    · simp_all; tauto
    · simp_all
  have hperm : ∀ t, (w'.sess t).all.Perm ((w.sess t).all ++ if t = w.root s then [w.nV] else []) := by
    intro t
    simp only [Sess.all, hsess t, List.append_assoc]
    exact List.Perm.append_left _ List.perm_append_comm
  refine ⟨?_, hnS, hnV, fun v hv => hq1 v (by omega), hq2, hroot, hname⟩
  refine
    { bornLen := by rw [List.length_append, hi.bornLen, hnV]; rfl
      par := by rw [hpar, hnS]; exact hi.par
      shad := fun t ht u => by
        rw [hpar] at ht ⊢
        rw [(hsess t).2.2.1]
        exact hi.shad t ht u
      home := ?_
      time := ?_
      all := ?_
      names := ?_
      live := ?_
      alive := ?_
      qubits := ?_
      logged := ?_
      data := ?_
      tells := by rw [hroot]; exact hi.tells }
  · intro v hv
    rw [hroot, hnS]
    rcases (hlt v).1 hv with h | rfl
    · rw [hq1 v (by omega), hborn v h]
      exact hi.home v h
    · rw [hq2, hbornN]
      exact ⟨hs, rfl⟩
  · intro v hv
    rcases (hlt v).1 hv with h | rfl
    · rw [hq1 v (by omega)]
      exact hi.time v h
    · rw [hq2]
  · intro t ht v
    rw [hpar] at ht
    rw [hall t ht, hi.all t ht, hlt, hroot]
    by_cases e : v = w.nV
    · subst e
      rw [hq2]
      simp only [Nat.lt_irrefl, false_and, and_true, false_or, or_true, true_and]
      exact eq_comm
    · rw [hq1 v e]
      simp [e]
  · intro t ht
    rw [hpar] at ht
    rw [((hperm t).map _).nodup_iff, List.map_append]
    have h1 : ((w.sess t).all.map fun v => (w'.qv v).name) = (w.sess t).all.map fun v => (w.qv v).name := by
      apply List.map_congr_left
      intro v hv
      rw [hq1 v (by have := ((hi.all t ht v).1 hv).1; omega)]
    rw [h1]
    split
    · rename_i e
      rw [List.map_cons, hq2, List.map_nil]
      refine List.Nodup.append (hi.names t ht) (List.nodup_singleton _) ?_
      intro x hx hx2
      rw [List.mem_singleton] at hx2
      apply hname
      unfold World.names World.look
      rw [← e]
      exact (show x = name from hx2) ▸ hx
    · simpa using hi.names t ht
  · intro t ht
    rw [hpar] at ht
    rw [(hsess t).1]
    split
    · refine List.pairwise_append.2 ⟨hi.live t ht, List.pairwise_singleton _ _, ?_⟩
      intro a ha b hb
      rw [List.mem_singleton.1 hb]
      exact ((hi.all t ht a).1 (List.mem_append_left _ ha)).1
    · simpa using hi.live t ht
  · intro v hv
    rw [hroot]
    rcases (hlt v).1 hv with h | rfl
    · rw [hq1 v (by omega), hi.alive v h, (hsess _).1, List.mem_append]
      constructor
      · exact .inl
      · rintro (h2 | h2)
        · exact h2
        · split at h2
          · have := List.mem_singleton.1 h2
            omega
          · simp at h2
    · rw [hq2]
      simp [(hsess _).1]
  · intro t ht
    rw [hpar] at ht
    rw [(hsess t).2.2.2.1, hi.qubits t ht, hnV, List.range_succ, List.filter_append, List.flatMap_append, hroot]
    congr 1
    · have h1 : ((List.range w.nV).filter fun v => decide (w.root (w'.qv v).home = t)) =
          (List.range w.nV).filter fun v => decide (w.root (w.qv v).home = t) := by
        apply List.filter_congr
        intro v hv
        rw [hq1 v (by have := List.mem_range.1 hv; omega)]
      rw [h1]
      have h2 : ∀ v ∈ ((List.range w.nV).filter fun v => decide (w.root (w.qv v).home = t)), reg w.qv v = reg w'.qv v := by
        intro v hv
        have := List.mem_range.1 (List.mem_filter.1 hv).1
        unfold reg
        rw [hq1 v (by omega)]
      rw [List.flatMap_def, List.flatMap_def, List.map_congr_left h2]
    · by_cases e : t = w.root s
      · subst e
        simp [hq2, reg]
      · simp [hq2, e, Ne.symm e]
  · intro i him
    rw [hroot]
    rcases List.mem_append.1 him with h | h
    · obtain ⟨hn, r, hq⟩ := hi.logged i h
      refine ⟨hn, r, fun b hb => ?_⟩
      obtain ⟨a1, a2⟩ := hq b hb
      rw [hq1 _ (by omega)]
      exact ⟨by rw [hnV]; omega, a2⟩
    · simp only [each, List.mem_map, List.mem_range] at h
      obtain ⟨k, hk, rfl⟩ := h
      refine ⟨by simp, w.root s, fun b hb => ?_⟩
      rw [List.mem_singleton.1 hb]
      exact ⟨by rw [hnV]; exact Nat.lt_succ_self _, by rw [hq2]⟩
  · intro t ht
    rw [hpar] at ht
    rw [(hsess t).2.2.2.2, List.filter_append]
    have h1 : log.filter (on w' t) = log.filter (on w t) := by
      apply List.filter_congr
      intro i him
      obtain ⟨_, r, hq⟩ := hi.logged i him
      unfold on
      rw [hroot, Bool.eq_iff_iff]
      simp only [List.any_eq_true, decide_eq_true_eq]
      constructor
      · rintro ⟨b, hb, h⟩
        rw [hq1 _ (by have := (hq b hb).1; omega)] at h
        exact ⟨b, hb, h⟩
      · rintro ⟨b, hb, h⟩
        refine ⟨b, hb, ?_⟩
        rw [hq1 _ (by have := (hq b hb).1; omega)]
        exact h
    rw [h1]
    refine (hi.data t ht).append ?_
    have h2 : ∀ i ∈ each "qb_alloc" w.nV size, on w' t i = decide (w.root s = t) := by
      intro i him
      simp only [each, List.mem_map, List.mem_range] at him
      obtain ⟨k, hk, rfl⟩ := him
      simp [on, hroot, hq2]
    by_cases e : t = w.root s
    · rw [if_pos e, List.filter_eq_self.2 (fun i him => by rw [h2 i him]; simp [e])]
      exact .refl _
    · rw [if_neg e, List.filter_eq_nil_iff.2 (fun i him => by rw [h2 i him]; simp [Ne.symm e])]
      exact .refl _

end

end Verif.Sess
