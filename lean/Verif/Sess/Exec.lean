import Verif.Sess.Step

/-!
# Programs keep the invariant
-/

namespace Verif.Sess

section
variable {w w' : World} {born : List Nat} {log : List Instr} {L : List (Nat × Nat)}

theorem merge_self (w : World) (h : Nat) : ∀ (l : List Nat), (∀ s ∈ l, s = h) →
    l.foldlM (fun w s => mergeInner w h s) w = some w
  | [], _ => rfl
  | s :: l, hs => by
      obtain rfl := hs s (by simp)
      rw [List.foldlM_cons, mergeInner, if_pos rfl]
      exact merge_self w s l fun t ht => hs t (by simp [ht])

/-- Deallocation of one qubit. -/
theorem append_dealloc (w : World) (b : Qubit) (ha : (w.qv b.1).alive = true) :
    append w "qb_dealloc" [b] = some (pushed w (w.root (w.qv b.1).home) ⟨"qb_dealloc", [b]⟩) := by
  simp only [append, List.any_cons, ha, Bool.not_true, List.any_nil, Bool.or_self, Bool.false_eq_true, and_false, if_false,
    List.map_cons, List.map_nil, List.cons_append, List.nil_append]
  have hm : multiMerge w [(w.qv b.1).home, (w.qv b.1).home] = some w := by
    unfold multiMerge
    have hp := List.perm_insertionSort
      (fun a b => (w.look b).data.length ≤ (w.look a).data.length) [(w.qv b.1).home, (w.qv b.1).home]
    generalize ([(w.qv b.1).home, (w.qv b.1).home].insertionSort
      fun a b => (w.look b).data.length ≤ (w.look a).data.length) = m at hp
    have hall : ∀ s ∈ m, s = (w.qv b.1).home := fun s hs => by simpa using hp.mem_iff.1 hs
    cases m with
    | nil => rfl
    | cons h t =>
      refine merge_self w h _ fun s hs => (hall s hs).trans (hall h (by simp)).symm
  rw [hm]
  rfl

/-- Deallocation of several qubits of one variable. -/
theorem deallocs (v : Nat) : ∀ (ks : List Nat) {w : World} {log : List Instr}, Inv w born log L → v < w.nV →
    (w.qv v).alive = true → ∃ w', (ks.map fun k => (v, k)).foldlM (fun w b => append w "qb_dealloc" [b]) w = some w' ∧
      Inv w' born (log ++ ks.map fun k => ⟨"qb_dealloc", [(v, k)]⟩) L ∧ w'.nS = w.nS ∧ w'.nV = w.nV ∧ w'.qv = w.qv ∧
      w'.parent = w.parent ∧ (∀ t, (w'.sess t).qvs = (w.sess t).qvs ∧ (w'.sess t).del = (w.sess t).del)
  | [], w, log, hi, _, _ => ⟨w, rfl, by simpa using hi, rfl, rfl, rfl, rfl, fun _ => ⟨rfl, rfl⟩⟩
  | k :: ks, w, log, hi, hv, ha => by
      have h1 := append_dealloc w (v, k) ha
      have i1 : Inv (pushed w (w.root (w.qv v).home) ⟨"qb_dealloc", [(v, k)]⟩) born (log ++ [⟨"qb_dealloc", [(v, k)]⟩]) L :=
        hi.push (hi.root_parent _) (by simp) fun b hb => by
          rw [List.mem_singleton.1 hb]
          exact ⟨hv, rfl⟩
      obtain ⟨w', h2, i2, a1, a2, a3, a4, a5⟩ := deallocs v ks i1 hv ha
      refine ⟨w', ?_, by simpa using i2, a1, a2, a3, a4, fun t => ?_⟩
      · rw [List.map_cons, List.foldlM_cons, h1]
        exact h2
      · have := pushed_sess w (w.root (w.qv v).home) ⟨"qb_dealloc", [(v, k)]⟩ t
        exact ⟨(a5 t).1.trans this.1, (a5 t).2.trans this.2.1⟩

/-- Deleting a variable: it must be alive; its qubits are deallocated. -/
theorem Inv.delete (hi : Inv w born log L) {v : Nat} (hv : v < w.nV) :
    ((w.qv v).alive = false → delete w v = none) ∧
    ((w.qv v).alive = true → ∃ w', delete w v = some w' ∧ Inv w' born (log ++ each "qb_dealloc" v (w.qv v).size) L ∧
      w'.nS = w.nS ∧ w'.nV = w.nV ∧ (∀ u, w'.qv u = if u = v then { w.qv v with alive := false } else w.qv u)) := by
  have hr := hi.root_parent (w.qv v).home
  have hvall : v ∈ (w.sess (w.root (w.qv v).home)).all := (hi.all _ hr v).2 ⟨hv, rfl⟩
  constructor
  · intro ha
    unfold Verif.Sess.delete
    dsimp only
    rw [if_neg]
    intro hm
    obtain ⟨u, hu, hun⟩ := List.mem_map.1 hm
    have := List.inj_on_of_nodup_map (hi.names _ hr) (List.mem_append_left _ hu) hvall hun
    rw [this] at hu
    rw [(hi.alive v hv).2 hu] at ha
    cases ha
  · intro ha
    have hlive := (hi.alive v hv).1 ha
    obtain ⟨w1, h1, i1, b1, b2, b3, b4, b5⟩ := deallocs v (List.range (w.qv v).size) hi hv ha
    unfold Verif.Sess.delete
    dsimp only
    rw [if_pos (List.mem_map_of_mem (f := fun u => (w.qv u).name) hlive)]
    have h1' : (reg w.qv v).foldlM (fun w b => Verif.Sess.append w "qb_dealloc" [b]) w = some w1 := h1
    rw [h1']
    dsimp only
    refine ⟨_, rfl, ?_, b1, b2, ?_⟩
    swap
    · intro u
      simp only [upd, b3]
    have hroot : w1.root = w.root := by
      funext t
      unfold World.root
      rw [b4, b1]
    have hr1 : w1.parent (w.root (w.qv v).home) = none := by rw [b4]; exact hr
    rw [hroot]
    generalize hR : w.root (w.qv v).home = r at *
    have hlive1 : v ∈ (w1.sess r).qvs := by rw [(b5 r).1]; exact hlive
    have hnm : ((w1.sess r).qvs.map fun u => (w1.qv u).name).Nodup := by
      have := i1.names r hr1
      unfold Sess.all at this
      rw [List.map_append] at this
      exact this.of_append_left
    have hidx : ((w1.sess r).qvs.map fun u => (w1.qv u).name).idxOf (w1.qv v).name < (w1.sess r).qvs.length := by
      have := List.idxOf_lt_length_of_mem (List.mem_map_of_mem (f := fun u => (w1.qv u).name) hlive1)
      simpa using this
    have hget : (w1.sess r).qvs[((w1.sess r).qvs.map fun u => (w1.qv u).name).idxOf (w1.qv v).name] = v := by
      have := idxOf_eq (f := fun u => (w1.qv u).name) hnm hlive1
      rwa [List.getD_eq_getElem _ _ hidx] at this
    have herase : (w1.sess r).qvs.eraseIdx (((w1.sess r).qvs.map fun u => (w1.qv u).name).idxOf (w1.qv v).name) =
        (w1.sess r).qvs.erase v := by
      have hnd : (w1.sess r).qvs.Nodup := List.Nodup.of_map _ hnm
      have := hnd.idxOf_getElem _ hidx
      rw [hget] at this
      exact (List.erase_eq_eraseIdx_of_idxOf this).symm
    rw [herase]
    have hperm : ((w1.sess r).qvs.erase v ++ ((w1.sess r).del ++ [v])).Perm (w1.sess r).all := by
      refine List.Perm.trans ?_ ((List.perm_cons_erase hlive1).symm.append_right _)
      rw [← List.append_assoc]
      exact (List.perm_append_singleton _ _)
    generalize hW : ({ w1 with qv := upd w1.qv v _, sess := _ } : World) = W
    have hq : ∀ u, (W.qv u).name = (w1.qv u).name ∧ (W.qv u).user = (w1.qv u).user ∧ (W.qv u).time = (w1.qv u).time ∧
        (W.qv u).size = (w1.qv u).size ∧ (W.qv u).home = (w1.qv u).home := by
      intro u
      rw [← hW]
      by_cases e : u = v
      · subst e; simp [upd]
      · simp [upd, e]
    have halive : ∀ u, (W.qv u).alive = if u = v then false else (w1.qv u).alive := by
      intro u
      rw [← hW]
      by_cases e : u = v
      · subst e; simp [upd]
      · simp [upd, e]
    have hsr : (W.sess r).qvs = (w1.sess r).qvs.erase v ∧ (W.sess r).del = (w1.sess r).del ++ [v] := by
      rw [← hW]; simp [upd]
    have hso : ∀ t, t ≠ r → W.sess t = w1.sess t := by
      intro t ht
      rw [← hW]; simp [upd, ht]
    have hsame : ∀ t, (W.sess t).shadows = (w1.sess t).shadows ∧ (W.sess t).qubits = (w1.sess t).qubits ∧
        (W.sess t).data = (w1.sess t).data := by
      intro t
      rw [← hW]
      by_cases e : t = r
      · subst e; simp [upd]
      · simp [upd, e]
    have hrootW : W.root = w1.root := by rw [← hW]; rfl
    have hparW : W.parent = w1.parent := by rw [← hW]
    have hnSW : W.nS = w1.nS := by rw [← hW]
    have hnVW : W.nV = w1.nV := by rw [← hW]
    clear hW
    have hpermt : ∀ t, (W.sess t).all.Perm (w1.sess t).all := by
      intro t
      by_cases e : t = r
      · subst e
        unfold Sess.all at hperm ⊢
        rw [hsr.1, hsr.2]
        exact hperm
      · rw [hso t e]
    have hclsv : w1.root (w1.qv v).home = r := by rw [hroot, b3]; exact hR
    have hon : ∀ t, on W t = on w1 t := by
      intro t
      funext i
      simp only [on, hrootW, (hq _).2.2.2.2]
    exact
    { bornLen := i1.bornLen.trans hnVW.symm
      par := by rw [hparW, hnSW]; exact i1.par
      shad := fun t ht u => by
        rw [hparW] at ht ⊢
        rw [(hsame t).1]
        exact i1.shad t ht u
      home := fun u hu => by
        rw [hnVW] at hu
        rw [hrootW, hnSW, (hq u).2.2.2.2]
        exact i1.home u hu
      time := fun u hu => by
        rw [hnVW] at hu
        rw [(hq u).2.2.1]
        exact i1.time u hu
      all := fun t ht u => by
        rw [hparW] at ht
        rw [(hpermt t).mem_iff, i1.all t ht, hnVW, hrootW, (hq u).2.2.2.2]
      names := fun t ht => by
        rw [hparW] at ht
        rw [((hpermt t).map _).nodup_iff]
        have : (fun v => (W.qv v).name) = fun v => (w1.qv v).name := funext fun u => (hq u).1
        rw [this]
        exact i1.names t ht
      live := fun t ht => by
        rw [hparW] at ht
        by_cases e : t = r
        · subst e
          rw [hsr.1]
          exact (i1.live t ht).sublist List.erase_sublist
        · rw [hso t e]
          exact i1.live t ht
      alive := fun u hu => by
        rw [hnVW] at hu
        rw [hrootW, (hq u).2.2.2.2, halive]
        by_cases e : u = v
        · subst e
          rw [hclsv, hsr.1]
          have hnd : (w1.sess r).qvs.Nodup := List.Nodup.of_map _ hnm
          simp [hnd.mem_erase_iff]
        · rw [if_neg e, i1.alive u hu]
          by_cases e2 : w1.root (w1.qv u).home = r
          · rw [e2, hsr.1, List.mem_erase_of_ne e]
          · rw [hso _ e2]
      qubits := fun t ht => by
        rw [hparW] at ht
        have : reg W.qv = reg w1.qv := reg_congr fun u => (hq u).2.2.2.1
        rw [(hsame t).2.1, i1.qubits t ht, hnVW, this]
        simp only [hrootW, (hq _).2.2.2.2]
      logged := fun i him => by
        obtain ⟨hn, t, ht⟩ := i1.logged i him
        refine ⟨hn, t, fun b hb => ?_⟩
        rw [hnVW, hrootW, (hq _).2.2.2.2]
        exact ht b hb
      data := fun t ht => by
        rw [hparW] at ht
        rw [(hsame t).2.2, hon]
        exact i1.data t ht
      tells := by rw [hrootW]; exact i1.tells }

/-- Only the flags of names differ. -/
theorem Inv.flags (hi : Inv w born log L) (f : Nat → Bool) :
    Inv { w with qv := fun v => { w.qv v with user := f v } } born log L :=
  { bornLen := hi.bornLen
    par := hi.par
    shad := hi.shad
    home := hi.home
    time := hi.time
    all := hi.all
    names := hi.names
    live := hi.live
    alive := hi.alive
    qubits := hi.qubits
    logged := hi.logged
    data := hi.data
    tells := hi.tells }

/-- The state of the sessions agrees with the record. -/
structure Agree (w : World) (h : Hist) : Prop where
  inv : Inv w h.born h.log h.links
  nS : h.nS = w.nS
  sizes : h.size.length = w.nV
  size : ∀ v, v < w.nV → h.size.getD v 0 = (w.qv v).size
  dead : (∀ v ∈ h.dead, v < w.nV) ∧ ∀ v, v < w.nV → ((w.qv v).alive = true ↔ v ∉ h.dead)

theorem agree_start : Agree {} {} := by
  refine ⟨?_, rfl, rfl, fun v hv => absurd hv (Nat.not_lt_zero v), by simp, fun v hv => absurd hv (Nat.not_lt_zero v)⟩
  exact
  { bornLen := rfl
    par := fun s r h => by cases h
    shad := fun r _ s => by simp
    home := fun v hv => absurd hv (Nat.not_lt_zero v)
    time := fun v hv => absurd hv (Nat.not_lt_zero v)
    all := fun r _ v => by simp [Sess.all]
    names := fun r _ => by simp [Sess.all]
    live := fun r _ => by simp
    alive := fun v hv => absurd hv (Nat.not_lt_zero v)
    qubits := fun r _ => by simp
    logged := fun i hi => by simp at hi
    data := fun r _ => .refl _
    tells := fun s t => by
      constructor
      · intro h
        have : s = t := h
        rw [this]
        exact .refl _
      · intro h
        induction h with
        | rel x y h => simp at h
        | refl x => rfl
        | symm x y _ ih => exact ih.symm
        | trans x y z _ _ h1 h2 => exact h1.trans h2 }

theorem agree_register {h : Hist} (ha : Agree w h) {s : Nat} (hs : s < w.nS) {name : Name} {user : Bool} {size : Nat}
    (hr : register w s name user size = some w') : Agree w' (h.newVar s size) := by
  obtain ⟨i1, a1, a2, a3, a4, _⟩ := ha.inv.register hs hr
  refine ⟨?_, ha.nS.trans a1.symm, ?_, ?_, ?_, ?_⟩
  · unfold Hist.newVar
    rw [ha.inv.bornLen]
    exact i1
  · simp [Hist.newVar, ha.sizes, a2]
  · intro v hv
    rw [a2] at hv
    by_cases e : v = w.nV
    · subst e
      rw [a4]
      simp only [Hist.newVar]
      rw [List.getD_append_right _ _ _ _ (by rw [ha.sizes])]
      simp [ha.sizes]
    · have hv' : v < w.nV := by omega
      rw [a3 v hv', ← ha.size v hv']
      simp only [Hist.newVar]
      rw [List.getD_append]
      rw [ha.sizes]; exact hv'
  · intro v hv
    rw [a2]
    exact Nat.lt_succ_of_lt (ha.dead.1 v hv)
  · intro v hv
    rw [a2] at hv
    by_cases e : v = w.nV
    · subst e
      rw [a4]
      simp only [true_iff]
      exact fun h2 => Nat.lt_irrefl _ (ha.dead.1 _ h2)
    · have hv' : v < w.nV := by omega
      rw [a3 v hv']
      exact ha.dead.2 v hv'

theorem agree_create {h : Hist} (ha : Agree w h) {s : Nat} (hs : s < w.nS) {name : Name} {star : Bool} {size : Nat}
    (hr : create w s name star size = some w') : Agree w' (h.newVar s size) := by
  unfold create at hr
  split at hr
  · split at hr
    · split at hr
      · cases hr
      · exact agree_register ha hs hr
    · exact agree_register ha hs hr
  · exact agree_register ha hs hr

theorem agree_session {h : Hist} (ha : Agree w h) : Agree (newSession w) { h with nS := h.nS + 1 } :=
  ⟨ha.inv.newSession, by show h.nS + 1 = w.nS + 1; rw [ha.nS], ha.sizes, ha.size, ha.dead⟩

/-- One operation. -/
theorem agree_step {h : Hist} (ha : Agree w h) {o : Op} (he : exec w o = some w') : Agree w' (record h o) := by
  cases o with
  | session =>
    obtain rfl := Option.some.inj he
    exact agree_session ha
  | var s name star size =>
    cases s with
    | none =>
      have : Agree w' (({ h with nS := h.nS + 1 } : Hist).newVar w.nS size) :=
        agree_create (agree_session ha) (Nat.lt_succ_self w.nS) he
      rw [← ha.nS] at this
      exact this
    | some s =>
      simp only [exec] at he
      split at he
      · exact agree_create ha (by assumption) he
      · cases he
  | dup v name =>
    simp only [exec] at he
    split at he
    · rename_i hv
      have key : ∀ x user w2, register (newSession w) w.nS x user (w.qv v).size = some w2 →
          Agree w2 (({ h with nS := h.nS + 1 } : Hist).newVar h.nS (h.size.getD v 0)) := by
        intro x user w2 hr
        rw [ha.size v hv, ha.nS]
        have := agree_register (agree_session ha) (Nat.lt_succ_self w.nS) hr
        rw [ha.nS] at this
        exact this
      unfold duplicate at he
      cases name with
      | none => exact key _ _ _ he
      | given x => exact key _ _ _ he
      | star x =>
        obtain ⟨w2, h2, rfl⟩ := Option.map_eq_some_iff.1 he
        have := key _ _ _ h2
        have h3 : ({ w2 with qv := upd w2.qv v { w2.qv v with user := false } } : World) =
            { w2 with qv := fun u => { w2.qv u with user := if u = v then false else (w2.qv u).user } } := by
          congr 1
          funext u
          unfold upd
          split
          · rename_i e; rw [e]
          · rfl
        rw [h3]
        exact ⟨this.inv.flags _, this.nS, this.sizes, this.size, this.dead⟩
    · cases he
  | gate op qs =>
    simp only [exec] at he
    split at he
    · rename_i hq
      cases qs with
      | nil =>
        obtain rfl := Option.some.inj he
        exact ha
      | cons b bs =>
        obtain ⟨i1, s1⟩ := ha.inv.append (by simp) (fun c hc => (hq c hc).1) he
        exact ⟨i1, ha.nS.trans s1.nS.symm, ha.sizes.trans s1.nV.symm, fun v hv => by
          rw [s1.nV] at hv
          rw [s1.size]
          exact ha.size v hv, by rw [s1.nV]; exact ha.dead.1, fun v hv => by
          rw [s1.nV] at hv
          rw [s1.alive]
          exact ha.dead.2 v hv⟩
    · cases he
  | delete v =>
    simp only [exec] at he
    split at he
    · rename_i hv
      obtain ⟨h1, h2⟩ := ha.inv.delete hv
      cases hal : (w.qv v).alive with
      | false => rw [h1 hal] at he; cases he
      | true =>
        obtain ⟨w2, e2, i2, a1, a2, a3⟩ := h2 hal
        obtain rfl := Option.some.inj (e2.symm.trans he)
        refine ⟨?_, ha.nS.trans a1.symm, ha.sizes.trans a2.symm, fun u hu => ?_, fun u hu => ?_, fun u hu => ?_⟩
        · show Inv w2 h.born (h.log ++ each "qb_dealloc" v (h.size.getD v 0)) h.links
          rw [ha.size v hv]
          exact i2
        · rw [a2] at hu
          rw [a3]
          show h.size.getD u 0 = _
          rw [ha.size u hu]
          split
          · rename_i e; rw [e]
          · rfl
        · rw [a2]
          rcases List.mem_append.1 (hu : u ∈ h.dead ++ [v]) with h3 | h3
          · exact ha.dead.1 u h3
          · rw [List.mem_singleton.1 h3]; exact hv
        · rw [a2] at hu
          rw [a3]
          show _ ↔ u ∉ h.dead ++ [v]
          by_cases e : u = v
          · subst e; simp
          · simp only [e, if_false, List.mem_append, List.mem_singleton, or_false]
            exact ha.dead.2 u hu
    · cases he
  | merge l =>
    simp only [exec] at he
    split at he
    · rename_i hl
      obtain ⟨i1, s1⟩ := ha.inv.multiMerge hl he
      exact ⟨i1, ha.nS.trans s1.nS.symm, ha.sizes.trans s1.nV.symm, fun v hv => by
          rw [s1.nV] at hv
          rw [s1.size]
          exact ha.size v hv, by rw [s1.nV]; exact ha.dead.1, fun v hv => by
          rw [s1.nV] at hv
          rw [s1.alive]
          exact ha.dead.2 v hv⟩
    · cases he

theorem agree_all : ∀ (ops : List Op) {w w' : World} {h : Hist}, Agree w h → ops.foldlM exec w = some w' →
    Agree w' (ops.foldl record h)
  | [], w, w', h, ha, he => by
      obtain rfl := Option.some.inj (he : some w = some w')
      exact ha
  | o :: ops, w, w', h, ha, he => by
      rw [List.foldlM_cons] at he
      obtain ⟨w1, h1, h2⟩ := Option.bind_eq_some_iff.1 he
      exact agree_all ops (agree_step ha h1) h2

theorem agree (ops : List Op) (he : execAll ops = some w) : Agree w (history ops) := agree_all ops agree_start he

end

end Verif.Sess
