import Verif.Sess.Names
import Verif.Sess.Trace
import Mathlib.Data.List.Sort

/-!
# The invariant of sessions, and merging
-/

namespace Verif.Sess

/-- Instruction `i` acts on the variables of root `r`. -/
def on (w : World) (r : Nat) (i : Instr) : Bool := i.qubits.any fun b => decide (w.root (w.qv b.1).home = r)

/-- What holds between operations. -/
structure Inv (w : World) (born : List Nat) (log : List Instr) (L : List (Nat × Nat)) : Prop where
  bornLen : born.length = w.nV
  par : ∀ s r, w.parent s = some r → s < w.nS ∧ r < w.nS ∧ w.parent r = none
  shad : ∀ r, w.parent r = none → ∀ s, s ∈ (w.sess r).shadows ↔ w.parent s = some r
  home : ∀ v, v < w.nV → (w.qv v).home < w.nS ∧ w.root (w.qv v).home = w.root (born.getD v 0)
  time : ∀ v, v < w.nV → (w.qv v).time = v
  all : ∀ r, w.parent r = none → ∀ v, v ∈ (w.sess r).all ↔ v < w.nV ∧ w.root (w.qv v).home = r
  names : ∀ r, w.parent r = none → ((w.sess r).all.map fun v => (w.qv v).name).Nodup
  live : ∀ r, w.parent r = none → (w.sess r).qvs.Pairwise (· < ·)
  alive : ∀ v, v < w.nV → ((w.qv v).alive = true ↔ v ∈ (w.sess (w.root (w.qv v).home)).qvs)
  qubits : ∀ r, w.parent r = none →
    (w.sess r).qubits = ((List.range w.nV).filter fun v => decide (w.root (w.qv v).home = r)).flatMap (reg w.qv)
  logged : ∀ i ∈ log, i.qubits ≠ [] ∧ ∃ r, ∀ b ∈ i.qubits, b.1 < w.nV ∧ w.root (w.qv b.1).home = r
  data : ∀ r, w.parent r = none → Commutes (w.sess r).data (log.filter (on w r))
  tells : Tells w.root L

section
variable {w : World} {born : List Nat} {log : List Instr} {L : List (Nat × Nat)}

theorem root_of (hp : ∀ s r, w.parent s = some r → s < w.nS ∧ r < w.nS ∧ w.parent r = none) (s : Nat) :
    w.root s = (w.parent s).getD s := by
  unfold World.root
  cases h : w.parent s with
  | none =>
    cases w.nS with
    | zero => rfl
    | succ n => simp [rootLoop, h]
  | some r =>
    obtain ⟨h1, _, h3⟩ := hp s r h
    obtain ⟨n, hn⟩ : ∃ n, w.nS = n + 1 := ⟨w.nS - 1, by omega⟩
    rw [hn]
    simp only [rootLoop, h, Option.getD_some]
    cases n with
    | zero => rfl
    | succ m => simp [rootLoop, h3]

theorem Inv.root (hi : Inv w born log L) (s : Nat) : w.root s = (w.parent s).getD s := root_of hi.par s

theorem Inv.root_parent (hi : Inv w born log L) (s : Nat) : w.parent (w.root s) = none := by
  rw [hi.root]
  cases h : w.parent s with
  | none => exact h
  | some r => exact (hi.par s r h).2.2

theorem Inv.root_lt (hi : Inv w born log L) {s : Nat} (hs : s < w.nS) : w.root s < w.nS := by
  rw [hi.root]
  cases h : w.parent s with
  | none => exact hs
  | some r => exact (hi.par s r h).2.1

theorem Inv.root_self (hi : Inv w born log L) {r : Nat} (hr : w.parent r = none) : w.root r = r := by
  rw [hi.root, hr]
  rfl

theorem Inv.root_root (hi : Inv w born log L) (s : Nat) : w.root (w.root s) = w.root s :=
  hi.root_self (hi.root_parent s)

/-- Sorted lists of numbers with the same members are equal. -/
theorem sorted_eq {l m : List Nat} (hl : l.Pairwise (· < ·)) (hm : m.Pairwise (· < ·)) (h : ∀ v, v ∈ l ↔ v ∈ m) :
    l = m := by
  have h1 : l.Nodup := hl.imp fun h => by omega
  have h2 : m.Nodup := hm.imp fun h => by omega
  exact ((List.perm_ext_iff_of_nodup h1 h2).2 h).eq_of_pairwise (fun a b _ _ h3 h4 => by omega) hl hm

theorem byTime_mem (q : Nat → Qv) (l : List Nat) (v : Nat) : v ∈ byTime q l ↔ v ∈ l :=
  (List.perm_insertionSort _ l).mem_iff

theorem byTime_sorted {q : Nat → Qv} {l : List Nat} (hn : l.Nodup) (ht : ∀ v ∈ l, (q v).time = v) :
    (byTime q l).Pairwise (· < ·) := by
  have h1 : (byTime q l).Pairwise fun a b => (q a).time ≤ (q b).time :=
    @List.pairwise_insertionSort _ (fun a b => (q a).time ≤ (q b).time) _ ⟨fun a b => Nat.le_total _ _⟩
      ⟨fun a b c h1 h2 => Nat.le_trans h1 h2⟩ l
  have h2 : (byTime q l).Nodup := (List.perm_insertionSort _ l).nodup_iff.2 hn
  have h3 := h1.and h2
  refine h3.imp_of_mem ?_
  intro a b ha hb hab
  have h4 := ht a ((byTime_mem q l a).1 ha)
  have h5 := ht b ((byTime_mem q l b).1 hb)
  have h6 := hab.1
  have h7 := hab.2
  rw [h4, h5] at h6
  omega

theorem mem_reg {q : Nat → Qv} {v : Nat} {b : Qubit} : b ∈ reg q v ↔ b.1 = v ∧ b.2 < (q v).size := by
  simp only [reg, List.mem_map, List.mem_range]
  constructor
  · rintro ⟨k, hk, rfl⟩
    exact ⟨rfl, hk⟩
  · rintro ⟨rfl, h⟩
    exact ⟨b.2, h, rfl⟩

/-- The result of merging two different sessions. -/
def afterMerge (w : World) (q : Nat → Qv) (r0 r1 : Nat) : World :=
  { w with
    sess := upd w.sess r0 (joined q (w.sess r0) (w.sess r1) r1)
    parent := fun t => if t ∈ (joined q (w.sess r0) (w.sess r1) r1).shadows then some r0 else w.parent t
    qv := fun v => if v ∈ (w.sess r1).all then { q v with home := r0 } else q v }

/-- Names that are given twice belong to one variable chosen by the user at most. -/
def NoClash (w : World) (r0 r1 : Nat) : Prop :=
  ¬∃ u ∈ (w.sess r0).all, ∃ v ∈ (w.sess r1).all,
    (w.qv u).name = (w.qv v).name ∧ (w.qv u).user = true ∧ (w.qv v).user = true

/-- The variables after a merge, before the sessions are adjusted. -/
noncomputable def mergedQv (w : World) (r0 r1 : Nat) : Nat → Qv :=
  renamed w.qv (w.sess r0).all (w.sess r1).all (common w.qv (w.sess r0).all (w.sess r1).all)

theorem losers (hi : Inv w born log L) {r0 r1 : Nat} (h0 : w.parent r0 = none) (h1 : w.parent r1 = none) 
    (hc : NoClash w r0 r1) : resolve w.qv (w.sess r0).all (w.sess r1).all = some (mergedQv w r0 r1) ∧
      ∀ x ∈ common w.qv (w.sess r0).all (w.sess r1).all, ∃ v, loser w.qv (w.sess r0).all (w.sess r1).all x = some v := by
  have : ∀ x ∈ common w.qv (w.sess r0).all (w.sess r1).all,
      ∃ v, loser w.qv (w.sess r0).all (w.sess r1).all x = some v := by
    intro x hx
    cases hl : loser w.qv (w.sess r0).all (w.sess r1).all x with
    | some v => exact ⟨v, rfl⟩
    | none =>
      exfalso
      obtain ⟨⟨u, hu, hux⟩, ⟨v, hv, hvx⟩⟩ := mem_common.1 hx
      have hn := victim_none.1 hl
      have hu2 := idxOf_eq (hi.names r0 h0) hu
      have hv2 := idxOf_eq (hi.names r1 h1) hv
      rw [hux] at hu2
      rw [hvx] at hv2
      rw [hu2, hv2] at hn
      exact hc ⟨u, hu, v, hv, hux.trans hvx.symm, hn⟩
  exact ⟨resolve_some (hi.names r0 h0) this, this⟩

theorem mergedQv_rest (w : World) (r0 r1 v : Nat) : 
    (mergedQv w r0 r1 v).user = (w.qv v).user ∧ (mergedQv w r0 r1 v).time = (w.qv v).time ∧
    (mergedQv w r0 r1 v).size = (w.qv v).size ∧ (mergedQv w r0 r1 v).home = (w.qv v).home ∧
    (mergedQv w r0 r1 v).alive = (w.qv v).alive := by
  unfold mergedQv
  rw [renamed_rest]
  exact ⟨rfl, rfl, rfl, rfl, rfl⟩

theorem reg_congr {q q' : Nat → Qv} (h : ∀ v, (q v).size = (q' v).size) : reg q = reg q' := by
  funext v
  simp [reg, h]

theorem not_both (hi : Inv w born log L) {r0 r1 : Nat} (h0 : w.parent r0 = none) (h1 : w.parent r1 = none)
    (hne : r0 ≠ r1) {v : Nat} (hv : v ∈ (w.sess r0).all) : v ∉ (w.sess r1).all := fun h =>
  hne (((hi.all r0 h0 v).1 hv).2.symm.trans ((hi.all r1 h1 v).1 h).2)

/-- `merge_sessions_inner` in closed form. -/
theorem mergeInner_eq (hi : Inv w born log L) (a b : Nat) (hne : w.root a ≠ w.root b) :
    (NoClash w (w.root a) (w.root b) →
      mergeInner w a b = some (afterMerge w (mergedQv w (w.root a) (w.root b)) (w.root a) (w.root b))) ∧
    (¬NoClash w (w.root a) (w.root b) → mergeInner w a b = none) := by
  have h0 := hi.root_parent a
  have h1 := hi.root_parent b
  constructor
  · intro hc
    obtain ⟨hr, hl⟩ := losers hi h0 h1 hc
    unfold mergeInner
    rw [if_neg hne]
    dsimp only
    rw [hr]
    dsimp only
    rw [if_neg]
    · rfl
    · intro hid
      simp only [List.any_eq_true, List.mem_map, decide_eq_true_eq] at hid
      obtain ⟨x, ⟨c, hcq, rfl⟩, ⟨d, hd, hcd⟩⟩ := hid
      rw [hi.qubits _ h0] at hcq
      rw [hi.qubits _ h1] at hd
      simp only [List.mem_flatMap, List.mem_filter, List.mem_range, decide_eq_true_eq, mem_reg] at hcq hd
      obtain ⟨u, ⟨hu1, hu2⟩, hu3, _⟩ := hcq
      obtain ⟨v, ⟨hv1, hv2⟩, hv3, _⟩ := hd
      have hn := (ident_inj hcd).1
      rw [hu3, hv3] at hn
      have := renamed_inj (hi.names _ h0) (hi.names _ h1) hl (u := v) (v := u)
        (.inr ((hi.all _ h1 v).2 ⟨hv1, hv2⟩)) (.inl ((hi.all _ h0 u).2 ⟨hu1, hu2⟩)) hn
      rw [this] at hv2
      exact hne (hu2.symm.trans hv2)
  · intro hc
    have := (resolve_none (hi.names _ h0) (hi.names _ h1)).2 (not_not.1 hc)
    unfold mergeInner
    rw [if_neg hne]
    dsimp only
    rw [this]

theorem mem_joined {q : Nat → Qv} {s0 s1 : Sess} {r1 v : Nat} : v ∈ (joined q s0 s1 r1).all ↔ v ∈ s0.all ∨ v ∈ s1.all := by
  simp only [Sess.all, joined, List.mem_append, byTime_mem, List.mem_reverse]
  tauto

theorem joined_perm (q : Nat → Qv) (s0 s1 : Sess) (r1 : Nat) : (joined q s0 s1 r1).all.Perm (s0.all ++ s1.all) := by
  have h1 : (byTime q (s0.qvs ++ s1.qvs.reverse)).Perm (s0.qvs ++ s1.qvs) :=
    (List.perm_insertionSort _ _).trans (List.Perm.append_left _ (List.reverse_perm _))
  refine (h1.append_right (s0.del ++ s1.del)).trans ?_
  simp only [Sess.all, List.append_assoc]
  refine List.Perm.append_left _ ?_
  rw [← List.append_assoc, ← List.append_assoc]
  exact List.perm_append_comm.append_right _

theorem afterMerge_root (hi : Inv w born log L) {r0 r1 : Nat} (h0 : w.parent r0 = none) (h1 : w.parent r1 = none)
    (hlt0 : r0 < w.nS) (hlt1 : r1 < w.nS) (hne : r0 ≠ r1) (q : Nat → Qv) :
    (∀ s r, (afterMerge w q r0 r1).parent s = some r → s < w.nS ∧ r < w.nS ∧ (afterMerge w q r0 r1).parent r = none) ∧
    (∀ s, (afterMerge w q r0 r1).root s = if w.root s = r1 then r0 else w.root s) ∧
    (∀ r, (afterMerge w q r0 r1).parent r = none ↔ w.parent r = none ∧ r ≠ r1) := by
  have hsh : ∀ t, t ∈ (joined q (w.sess r0) (w.sess r1) r1).shadows ↔ w.parent t = some r0 ∨ w.parent t = some r1 ∨ t = r1 := by
    intro t
    simp only [joined, List.mem_append, List.mem_singleton, hi.shad r0 h0, hi.shad r1 h1, or_assoc]
  have hpar : ∀ t, (afterMerge w q r0 r1).parent t =
      if w.parent t = some r0 ∨ w.parent t = some r1 ∨ t = r1 then some r0 else w.parent t := by
    intro t
    show (if t ∈ (joined q (w.sess r0) (w.sess r1) r1).shadows then some r0 else w.parent t) = _
    simp only [hsh]
  have hnone : ∀ r, (afterMerge w q r0 r1).parent r = none ↔ w.parent r = none ∧ r ≠ r1 := by
    intro r
    rw [hpar]
    split
    · rename_i h
      simp only [reduceCtorEq, false_iff, not_and, not_not]
      intro h2
      rw [h2] at h
      simpa using h
    · rename_i h
      simp only [not_or] at h
      simp [h.2.2]
  have hp : ∀ s r, (afterMerge w q r0 r1).parent s = some r →
      s < w.nS ∧ r < w.nS ∧ (afterMerge w q r0 r1).parent r = none := by
    intro s r h
    rw [hpar] at h
    split at h
    · rename_i hs
      obtain rfl := Option.some.inj h
      refine ⟨?_, hlt0, (hnone r0).2 ⟨h0, hne⟩⟩
      rcases hs with hs | hs | hs
      · exact (hi.par _ _ hs).1
      · exact (hi.par _ _ hs).1
      · exact hs ▸ hlt1
    · rename_i hs
      simp only [not_or] at hs
      obtain ⟨a1, a2, a3⟩ := hi.par _ _ h
      exact ⟨a1, a2, (hnone r).2 ⟨a3, fun e => hs.2.1 (e ▸ h)⟩⟩
  refine ⟨hp, fun s => ?_, hnone⟩
  rw [root_of (w := afterMerge w q r0 r1) hp, hpar, hi.root]
  cases hs : w.parent s with
  | none =>
    simp only [reduceCtorEq, false_or, Option.getD_none]
    split <;> rfl
  | some r =>
    have hr1 : s ≠ r1 := fun e => by rw [e, h1] at hs; cases hs
    simp only [Option.some.injEq, hr1, or_false, Option.getD_some]
    by_cases e0 : r = r0
    · subst e0
      simp [hne]
    · by_cases e1 : r = r1
      · subst e1
        simp
      · simp [e0, e1]

/-- Merging keeps the invariant. -/
theorem Inv.merge (hi : Inv w born log L) {r0 r1 : Nat} (h0 : w.parent r0 = none) (h1 : w.parent r1 = none)
    (hlt0 : r0 < w.nS) (hlt1 : r1 < w.nS) (hne : r0 ≠ r1) (hc : NoClash w r0 r1) {a b : Nat} (ha : w.root a = r0)
    (hb : w.root b = r1) : Inv (afterMerge w (mergedQv w r0 r1) r0 r1) born log (L ++ [(a, b)]) := by
  obtain ⟨hp, hroot, hnone⟩ := afterMerge_root hi h0 h1 hlt0 hlt1 hne (mergedQv w r0 r1)
  obtain ⟨hres, hl⟩ := losers hi h0 h1 hc
  generalize hW : afterMerge w (mergedQv w r0 r1) r0 r1 = W at *
  have hnS : W.nS = w.nS := by rw [← hW]; rfl
  have hnV : W.nV = w.nV := by rw [← hW]; rfl
  have hs0 : W.sess r0 = joined (mergedQv w r0 r1) (w.sess r0) (w.sess r1) r1 := by
    rw [← hW]; simp [afterMerge, upd]
  have hsr : ∀ r, r ≠ r0 → W.sess r = w.sess r := by
    intro r hr
    rw [← hW]; simp [afterMerge, upd, hr]
  have hqv : ∀ v, W.qv v = if v ∈ (w.sess r1).all then { mergedQv w r0 r1 v with home := r0 } else mergedQv w r0 r1 v := by
    intro v
    rw [← hW]; rfl
  have hname : ∀ v, (W.qv v).name = (mergedQv w r0 r1 v).name := by
    intro v; rw [hqv]; split <;> rfl
  have htime : ∀ v, (W.qv v).time = (w.qv v).time := by
    intro v; rw [hqv]; split <;> exact (mergedQv_rest w r0 r1 v).2.1
  have hsize : ∀ v, (W.qv v).size = (w.qv v).size := by
    intro v; rw [hqv]; split <;> exact (mergedQv_rest w r0 r1 v).2.2.1
  have halive : ∀ v, (W.qv v).alive = (w.qv v).alive := by
    intro v; rw [hqv]; split <;> exact (mergedQv_rest w r0 r1 v).2.2.2.2
  have hhome : ∀ v, (W.qv v).home = if v ∈ (w.sess r1).all then r0 else (w.qv v).home := by
    intro v; rw [hqv]; split
    · rfl
    · exact (mergedQv_rest w r0 r1 v).2.2.2.1
  -- the class of a variable
  have hcls : ∀ v, v < w.nV → W.root (W.qv v).home = if w.root (w.qv v).home = r1 then r0 else w.root (w.qv v).home := by
    intro v hv
    rw [hhome]
    split
    · rename_i hm
      rw [hroot, hi.root_self h0, if_neg hne, if_pos ((hi.all r1 h1 v).1 hm).2]
    · rw [hroot]
  have hreg : reg W.qv = reg w.qv := reg_congr hsize
  have hunch : ∀ v, v ∉ (w.sess r0).all → v ∉ (w.sess r1).all → mergedQv w r0 r1 v = w.qv v := by
    intro v hv0 hv1
    unfold mergedQv renamed
    rw [if_neg]
    rintro ⟨hm, hls⟩
    obtain ⟨⟨u, hu, hux⟩, ⟨u', hu', hux'⟩⟩ := mem_common.1 hm
    rcases (loser_mem (by rw [← hux]; exact List.mem_map_of_mem (f := fun v => (w.qv v).name) hu)
      (by rw [← hux']; exact List.mem_map_of_mem (f := fun v => (w.qv v).name) hu') hls).1 with h | h
    · exact hv0 h
    · exact hv1 h
  have hall : ∀ r, W.parent r = none → ∀ v, v ∈ (W.sess r).all ↔ v < w.nV ∧ W.root (W.qv v).home = r := by
    intro r hr v
    obtain ⟨hr1, hr2⟩ := (hnone r).1 hr
    by_cases hr0 : r = r0
    · subst hr0
      rw [hs0, mem_joined, hi.all _ h0, hi.all _ h1]
      constructor
      · rintro (⟨hv, he⟩ | ⟨hv, he⟩)
        · refine ⟨hv, ?_⟩
          rw [hcls v hv, he, if_neg hne]
        · refine ⟨hv, ?_⟩
          rw [hcls v hv, he, if_pos rfl]
      · rintro ⟨hv, he⟩
        rw [hcls v hv] at he
        split at he
        · rename_i h; exact .inr ⟨hv, h⟩
        · exact .inl ⟨hv, he⟩
    · rw [hsr r hr0, hi.all r hr1]
      constructor
      · rintro ⟨hv, he⟩
        refine ⟨hv, ?_⟩
        rw [hcls v hv, he, if_neg hr2]
      · rintro ⟨hv, he⟩
        rw [hcls v hv] at he
        split at he
        · exact absurd he.symm hr0
        · exact ⟨hv, he⟩
  have hnd0 : (w.sess r0).all.Nodup := List.Nodup.of_map _ (hi.names r0 h0)
  have hnd1 : (w.sess r1).all.Nodup := List.Nodup.of_map _ (hi.names r1 h1)
  have hnd : ((w.sess r0).all ++ (w.sess r1).all).Nodup := by
    rw [List.nodup_append]
    refine ⟨hnd0, hnd1, fun u hu v hv e => ?_⟩
    subst e
    exact not_both hi h0 h1 hne hu hv
  have htm : ∀ v ∈ (w.sess r0).all ++ (w.sess r1).all, (mergedQv w r0 r1 v).time = v := by
    intro v hv
    rw [(mergedQv_rest w r0 r1 v).2.1]
    rcases List.mem_append.1 hv with h | h
    · exact hi.time v ((hi.all r0 h0 v).1 h).1
    · exact hi.time v ((hi.all r1 h1 v).1 h).1
  refine
    { bornLen := hi.bornLen.trans hnV.symm
      par := by rw [hnS]; exact hp
      shad := ?_
      home := ?_
      time := ?_
      all := by rw [hnV]; exact hall
      names := ?_
      live := ?_
      alive := ?_
      qubits := ?_
      logged := ?_
      data := ?_
      tells := ?_ }
  · -- shad
    intro r hr s
    obtain ⟨hr1, hr2⟩ := (hnone r).1 hr
    have hps : W.parent s = if s ∈ (joined (mergedQv w r0 r1) (w.sess r0) (w.sess r1) r1).shadows then some r0
        else w.parent s := by
      rw [← hW]; rfl
    by_cases hr0 : r = r0
    · subst hr0
      rw [hs0, hps]
      split
      · simp_all
      · rename_i hn
        simp only [hn, false_iff]
        intro h
        apply hn
        simp [joined, (hi.shad r h0 s).2 h]
    · rw [hsr r hr0, hps, hi.shad r hr1]
      split
      · rename_i hm
        simp only [joined, List.mem_append, List.mem_singleton, hi.shad r0 h0, hi.shad r1 h1] at hm
        constructor
        · intro h
          rw [h] at hm
          rcases hm with (hm | hm) | hm
          · exact absurd (Option.some.inj hm) hr0
          · exact absurd (Option.some.inj hm) hr2
          · rw [hm, h1] at h
            cases h
        · intro h
          exact absurd (Option.some.inj h).symm hr0
      · rfl
  · -- home
    intro v hv
    rw [hnV] at hv
    obtain ⟨a1, a2⟩ := hi.home v hv
    refine ⟨?_, ?_⟩
    · rw [hhome, hnS]
      split
      · exact hlt0
      · exact a1
    · rw [hcls v hv, hroot, a2]
  · intro v hv
    rw [htime]
    exact hi.time v (hnV ▸ hv)
  · -- names
    intro r hr
    obtain ⟨hr1, hr2⟩ := (hnone r).1 hr
    by_cases hr0 : r = r0
    · subst hr0
      rw [hs0]
      have hmm : (joined (mergedQv w r r1) (w.sess r) (w.sess r1) r1).all.Nodup := (joined_perm _ _ _ _).nodup_iff.2 hnd
      refine List.Nodup.map_on ?_ hmm
      intro u hu v hv h
      rw [hname, hname] at h
      exact renamed_inj (hi.names _ h0) (hi.names _ h1) hl (mem_joined.1 hu) (mem_joined.1 hv) h
    · rw [hsr r hr0]
      have : ((w.sess r).all.map fun v => (W.qv v).name) = (w.sess r).all.map fun v => (w.qv v).name := by
        apply List.map_congr_left
        intro v hv
        rw [hname, hunch v (fun h => not_both hi hr1 h0 hr0 hv h) (fun h => not_both hi hr1 h1 hr2 hv h)]
      rw [this]
      exact hi.names r hr1
  · -- live
    intro r hr
    obtain ⟨hr1, hr2⟩ := (hnone r).1 hr
    by_cases hr0 : r = r0
    · subst hr0
      rw [hs0]
      refine byTime_sorted ?_ ?_
      · have h2 : ((w.sess r).qvs ++ (w.sess r1).qvs).Nodup := by
          refine List.Nodup.sublist ?_ hnd
          simp only [Sess.all, List.append_assoc]
          exact List.Sublist.append_left ((List.sublist_append_left _ _).trans (List.sublist_append_right _ _)) _
        exact (List.Perm.append_left _ (List.reverse_perm _)).nodup_iff.2 h2
      · intro v hv
        apply htm
        simp only [List.mem_append, List.mem_reverse, Sess.all] at hv ⊢
        tauto
    · rw [hsr r hr0]
      exact hi.live r hr1
  · -- alive
    intro v hv
    rw [hnV] at hv
    rw [halive, hi.alive v hv, hcls v hv]
    by_cases e1 : w.root (w.qv v).home = r1
    · rw [if_pos e1, hs0, e1]
      simp only [joined, byTime_mem, List.mem_append, List.mem_reverse]
      constructor
      · exact .inr
      · rintro (h | h)
        · exact absurd (not_both hi h0 h1 hne (List.mem_append_left _ h))
            (not_not.2 ((hi.all r1 h1 v).2 ⟨hv, e1⟩))
        · exact h
    · rw [if_neg e1]
      by_cases e0 : w.root (w.qv v).home = r0
      · rw [e0, hs0]
        simp only [joined, byTime_mem, List.mem_append, List.mem_reverse]
        constructor
        · exact .inl
        · rintro (h | h)
          · exact h
          · exact absurd ((hi.all r1 h1 v).1 (List.mem_append_left _ h)).2 e1
      · rw [hsr _ e0]
  · -- qubits
    intro r hr
    obtain ⟨hr1, hr2⟩ := (hnone r).1 hr
    rw [hnV, hreg]
    have hfil : ∀ r, ((List.range w.nV).filter fun v => decide (W.root (W.qv v).home = r)).Pairwise (· < ·) :=
      fun r => List.pairwise_lt_range.filter _
    by_cases hr0 : r = r0
    · subst hr0
      have hsort : byTime (mergedQv w r r1) ((w.sess r).qvs ++ (w.sess r1).qvs.reverse ++ ((w.sess r).del ++ (w.sess r1).del))
          = (List.range w.nV).filter fun v => decide (W.root (W.qv v).home = r) := by
        have hperm : ((w.sess r).qvs ++ (w.sess r1).qvs.reverse ++ ((w.sess r).del ++ (w.sess r1).del)).Perm
            ((w.sess r).all ++ (w.sess r1).all) := by
          refine ((List.perm_insertionSort (fun a b => (mergedQv w r r1 a).time ≤ (mergedQv w r r1 b).time) _).symm.append_right _).trans
            (joined_perm (mergedQv w r r1) (w.sess r) (w.sess r1) r1)
        refine sorted_eq (byTime_sorted (hperm.nodup_iff.2 hnd) fun v hv => htm v (hperm.mem_iff.1 hv)) (hfil r) ?_
        intro v
        rw [byTime_mem, hperm.mem_iff, List.mem_filter, List.mem_range, decide_eq_true_eq, ← hall r hr, hs0, mem_joined,
          List.mem_append]
      have hq2 : reg (mergedQv w r r1) = reg w.qv := reg_congr fun v => (mergedQv_rest w r r1 v).2.2.1
      rw [hs0]
      simp only [joined]
      rw [hsort, hq2]
      convert List.append_nil _ using 2
      rw [List.filter_eq_nil_iff]
      intro c hcm
      simp only [decide_eq_true_eq, not_not]
      have : ∃ v, (v ∈ (w.sess r).all ∨ v ∈ (w.sess r1).all) ∧ c ∈ reg w.qv v := by
        rcases List.mem_append.1 hcm with h | h
        · rw [hi.qubits r h0] at h
          obtain ⟨v, hv, hcv⟩ := List.mem_flatMap.1 h
          simp only [List.mem_filter, List.mem_range, decide_eq_true_eq] at hv
          exact ⟨v, .inl ((hi.all r h0 v).2 hv), hcv⟩
        · rw [hi.qubits r1 h1] at h
          obtain ⟨v, hv, hcv⟩ := List.mem_flatMap.1 h
          simp only [List.mem_filter, List.mem_range, decide_eq_true_eq] at hv
          exact ⟨v, .inr ((hi.all r1 h1 v).2 hv), hcv⟩
      obtain ⟨v, hv, hcv⟩ := this
      have := (hall r hr v).1 (by rw [hs0]; exact mem_joined.2 hv)
      exact List.mem_flatMap.2 ⟨v, List.mem_filter.2 ⟨List.mem_range.2 this.1, by simpa using this.2⟩, hcv⟩
    · rw [hsr r hr0, hi.qubits r hr1]
      congr 1
      apply List.filter_congr
      intro v hv
      rw [List.mem_range] at hv
      have := hall r hr v
      rw [hsr r hr0, hi.all r hr1] at this
      simp only [hv, true_and] at this
      simp [this]
  · -- log
    intro i him
    obtain ⟨hn, r, hr⟩ := hi.logged i him
    refine ⟨hn, if r = r1 then r0 else r, fun b hb => ?_⟩
    obtain ⟨h2, h3⟩ := hr b hb
    refine ⟨hnV ▸ h2, ?_⟩
    rw [hcls _ h2, h3]
  · -- data
    intro r hr
    obtain ⟨hr1, hr2⟩ := (hnone r).1 hr
    have hon : ∀ i ∈ log, on W r i = if r = r0 then on w r0 i || on w r1 i else on w r i := by
      intro i him
      obtain ⟨hn, r', hr'⟩ := hi.logged i him
      have e1 : ∀ t, on w t i = decide (r' = t) := by
        intro t
        rw [Bool.eq_iff_iff]
        simp only [on, List.any_eq_true, decide_eq_true_eq]
        constructor
        · rintro ⟨b, hb, h⟩
          exact (hr' b hb).2.symm.trans h
        · intro h
          obtain ⟨b, hb⟩ := List.exists_mem_of_ne_nil _ hn
          exact ⟨b, hb, (hr' b hb).2.trans h⟩
      have e2 : on W r i = decide ((if r' = r1 then r0 else r') = r) := by
        rw [Bool.eq_iff_iff]
        simp only [on, List.any_eq_true, decide_eq_true_eq]
        constructor
        · rintro ⟨b, hb, h⟩
          rw [hcls _ (hr' b hb).1, (hr' b hb).2] at h
          exact h
        · intro h
          obtain ⟨b, hb⟩ := List.exists_mem_of_ne_nil _ hn
          exact ⟨b, hb, by rw [hcls _ (hr' b hb).1, (hr' b hb).2, h]⟩
      rw [e2, e1, e1, e1]
      by_cases hr0 : r = r0
      · subst hr0
        by_cases e : r' = r1 <;> simp [e]
      · by_cases e : r' = r1
        · subst e
          simp [hr0, Ne.symm hr0, Ne.symm hr2]
        · simp [hr0, e]
    by_cases hr0 : r = r0
    · subst hr0
      rw [hs0]
      have hfe : log.filter (on W r) = log.filter fun i => on w r i || on w r1 i := by
        apply List.filter_congr
        intro i him
        rw [hon i him, if_pos rfl]
      rw [hfe]
      refine ((hi.data r h0).append (hi.data r1 h1)).trans (Commutes.split _ _ _ ?_ ?_)
      · rintro i him ⟨a1, a2⟩
        obtain ⟨hn, r', hr'⟩ := hi.logged i him
        simp only [on, List.any_eq_true, decide_eq_true_eq] at a1 a2
        obtain ⟨b, hb, hb2⟩ := a1
        obtain ⟨c, hc', hc2⟩ := a2
        exact hne (hb2.symm.trans ((hr' b hb).2.trans ((hr' c hc').2.symm.trans hc2)))
      · intro i him j hjm a1 a2 c hci hcj
        obtain ⟨_, ri, hri⟩ := hi.logged i him
        obtain ⟨_, rj, hrj⟩ := hi.logged j hjm
        simp only [on, List.any_eq_true, decide_eq_true_eq] at a1 a2
        obtain ⟨b, hb, hb2⟩ := a1
        obtain ⟨d, hd, hd2⟩ := a2
        exact hne (hb2.symm.trans ((hri b hb).2.trans ((hri c hci).2.symm.trans ((hrj c hcj).2.trans
          ((hrj d hd).2.symm.trans hd2)))))
    · rw [hsr r hr0]
      have hfe : log.filter (on W r) = log.filter (on w r) := by
        apply List.filter_congr
        intro i him
        rw [hon i him, if_neg hr0]
      rw [hfe]
      exact hi.data r hr1
  · exact hi.tells.link a b fun s => by rw [hroot, ha, hb]

end

end Verif.Sess
