import Verif.Sess.Exec

/-!
# C139: merging quantum sessions

A program creates sessions and variables, applies gates, deletes variables and merges sessions (`Op`); `execAll` runs it and `history` only writes down what
happened: where the variables were created, the instructions in the order they were given, and which sessions were brought together (`Linked` is the
equivalence they generate).
-/

namespace Verif.Props
open Verif.Sess

/-- Variable `v` belongs to session `s`: it was created in a session that is linked with `s`. -/
def sIn (h : Hist) (s v : Nat) : Prop := v < h.born.length ∧ h.Linked (h.born.getD v 0) s

theorem sIn_iff {w : World} {h : Hist} (ha : Agree w h) (s v : Nat) :
    sIn h s v ↔ v < w.nV ∧ w.root (w.qv v).home = w.root s := by
  unfold sIn Hist.Linked
  rw [ha.inv.bornLen, ← ha.inv.tells]
  constructor
  · rintro ⟨h1, h2⟩
    exact ⟨h1, (ha.inv.home v h1).2.trans h2⟩
  · rintro ⟨h1, h2⟩
    exact ⟨h1, (ha.inv.home v h1).2.symm.trans h2⟩

theorem sIn_all {w : World} {h : Hist} (ha : Agree w h) (s v : Nat) : v ∈ (w.look s).all ↔ sIn h s v := by
  rw [sIn_iff ha]
  exact ha.inv.all _ (ha.inv.root_parent s) v

/-- Two sessions share their circuit exactly if they were brought together. -/
theorem session_merged {ops : List Op} {w : World} (he : execAll ops = some w) (s t : Nat) :
    w.root s = w.root t ↔ (history ops).Linked s t := (agree ops he).inv.tells s t

open Classical in
/-- The circuit of a session has all instructions that were given for its variables; it differs from the order in which they were given
    by exchanging neighbouring instructions on different qubits. -/
theorem session_circuit {ops : List Op} {w : World} (he : execAll ops = some w) (s : Nat) :
    Commutes (w.look s).data ((history ops).log.filter fun i => decide (∃ b ∈ i.qubits, sIn (history ops) s b.1)) := by
  have ha := agree ops he
  have := ha.inv.data _ (ha.inv.root_parent s)
  have h2 : (history ops).log.filter (fun i => decide (∃ b ∈ i.qubits, sIn (history ops) s b.1)) =
      (history ops).log.filter (on w (w.root s)) := by
    apply List.filter_congr
    intro i hi
    obtain ⟨_, r, hr⟩ := ha.inv.logged i hi
    rw [Bool.eq_iff_iff]
    simp only [on, List.any_eq_true, decide_eq_true_eq, sIn_iff ha]
    constructor
    · rintro ⟨b, hb, _, h⟩
      exact ⟨b, hb, h⟩
    · rintro ⟨b, hb, h⟩
      exact ⟨b, hb, (hr b hb).1, h⟩
  rw [h2]
  exact this

/-- The instructions on each qubit of a session are exactly those that were given, in the same order. -/
theorem session_qubit_order {ops : List Op} {w : World} (he : execAll ops = some w) (s : Nat) (b : Qubit)
    (hb : sIn (history ops) s b.1) : ((w.look s).data.filter fun i => decide (b ∈ i.qubits)) =
      (history ops).log.filter fun i => decide (b ∈ i.qubits) := by
  rw [(session_circuit he s).onQubit b, List.filter_filter]
  apply List.filter_congr
  intro i _
  rw [Bool.eq_iff_iff]
  simp only [Bool.and_eq_true, decide_eq_true_eq]
  exact ⟨fun h => h.1, fun h => ⟨h, b, h, hb⟩⟩

/-- Every instruction acts on variables of one session only. -/
theorem session_instruction {ops : List Op} {w : World} (he : execAll ops = some w) (s : Nat) (i : Instr)
    (hi : i ∈ (w.look s).data) : i.qubits ≠ [] ∧ ∀ b ∈ i.qubits, sIn (history ops) s b.1 := by
  have ha := agree ops he
  have hm := (session_circuit he s).perm.mem_iff.1 hi
  simp only [List.mem_filter, decide_eq_true_eq] at hm
  obtain ⟨h1, c, hc, hcs⟩ := hm
  obtain ⟨hn, r, hr⟩ := ha.inv.logged i h1
  refine ⟨hn, fun b hb => ?_⟩
  rw [sIn_iff ha] at hcs ⊢
  exact ⟨(hr b hb).1, (hr b hb).2.trans ((hr c hc).2.symm.trans hcs.2)⟩

open Classical in
/-- The qubits of a session are those of its variables, also of the deleted ones, in the order of creation. -/
theorem session_qubits {ops : List Op} {w : World} (he : execAll ops = some w) (s : Nat) :
    (w.look s).qubits = ((List.range (history ops).born.length).filter fun v => decide (sIn (history ops) s v)).flatMap
      fun v => (List.range ((history ops).size.getD v 0)).map fun k => (v, k) := by
  have ha := agree ops he
  have h1 := ha.inv.qubits _ (ha.inv.root_parent s)
  have h2 : (w.look s).qubits = (w.sess (w.root s)).qubits := rfl
  rw [h2, h1, ha.inv.bornLen]
  have h3 : ((List.range w.nV).filter fun v => decide (w.root (w.qv v).home = w.root s)) =
      (List.range w.nV).filter fun v => decide (sIn (history ops) s v) := by
    apply List.filter_congr
    intro v hv
    rw [Bool.eq_iff_iff]
    simp only [decide_eq_true_eq, sIn_iff ha]
    exact ⟨fun h => ⟨List.mem_range.1 hv, h⟩, fun h => h.2⟩
  rw [h3, List.flatMap_def, List.flatMap_def]
  congr 1
  apply List.map_congr_left
  intro v hv
  have := List.mem_range.1 (List.mem_filter.1 hv).1
  rw [ha.size v this]
  rfl

open Classical in
/-- The variables of a session that are not deleted are listed in the order of creation. -/
theorem session_variables {ops : List Op} {w : World} (he : execAll ops = some w) (s : Nat) :
    (w.look s).qvs = (List.range (history ops).born.length).filter
      fun v => decide (sIn (history ops) s v ∧ v ∉ (history ops).dead) := by
  have ha := agree ops he
  have hr := ha.inv.root_parent s
  refine sorted_eq (ha.inv.live _ hr) (List.pairwise_lt_range.filter _) fun v => ?_
  rw [List.mem_filter, decide_eq_true_eq, List.mem_range, ha.inv.bornLen]
  constructor
  · intro hv
    have h1 := (sIn_all ha s v).1 (List.mem_append_left _ hv)
    have h2 := (sIn_iff ha s v).1 h1
    refine ⟨h2.1, h1, (ha.dead.2 v h2.1).1 ((ha.inv.alive v h2.1).2 ?_)⟩
    rw [h2.2]
    exact hv
  · rintro ⟨hv, h1, h2⟩
    have h3 := (ha.inv.alive v hv).1 ((ha.dead.2 v hv).2 h2)
    rw [((sIn_iff ha s v).1 h1).2] at h3
    exact h3

/-- Variables of a session have different names, also deleted ones. -/
theorem session_names {ops : List Op} {w : World} (he : execAll ops = some w) (s u v : Nat)
    (hu : sIn (history ops) s u) (hv : sIn (history ops) s v) (h : (w.qv u).name = (w.qv v).name) : u = v := by
  have ha := agree ops he
  exact List.inj_on_of_nodup_map (ha.inv.names _ (ha.inv.root_parent s)) ((sIn_all ha s u).2 hu) ((sIn_all ha s v).2 hv) h

/-- The qubits of a session have different identifiers. -/
theorem session_identifiers {ops : List Op} {w : World} (he : execAll ops = some w) (s : Nat) (b c : Qubit)
    (hb : b ∈ (w.look s).qubits) (hc : c ∈ (w.look s).qubits) (h : ident w.qv b = ident w.qv c) : b = c := by
  rw [session_qubits he] at hb hc
  simp only [List.mem_flatMap, List.mem_filter, decide_eq_true_eq, List.mem_map] at hb hc
  obtain ⟨u, ⟨_, hu⟩, j, _, rfl⟩ := hb
  obtain ⟨v, ⟨_, hv⟩, k, _, rfl⟩ := hc
  obtain ⟨h1, h2⟩ := ident_inj h
  rw [session_names he s u v hu hv h1, show j = k from h2]

/-- Merging two sessions raises an exception exactly if they are different and have variables with the same name given by the user. -/
theorem session_error {ops : List Op} {w : World} (he : execAll ops = some w) (a b : Nat) :
    mergeInner w a b = none ↔ ¬(history ops).Linked a b ∧ ∃ u v, sIn (history ops) a u ∧ sIn (history ops) b v ∧
      (w.qv u).name = (w.qv v).name ∧ (w.qv u).user = true ∧ (w.qv v).user = true := by
  have ha := agree ops he
  rw [← session_merged he]
  by_cases hne : w.root a = w.root b
  · simp [mergeInner, hne]
  · obtain ⟨h1, h2⟩ := mergeInner_eq ha.inv a b hne
    by_cases hc : NoClash w (w.root a) (w.root b)
    · rw [h1 hc]
      simp only [reduceCtorEq, false_iff, not_and]
      rintro _ ⟨u, v, hu, hv, h⟩
      exact hc ⟨u, (sIn_all ha a u).2 hu, v, (sIn_all ha b v).2 hv, h⟩
    · rw [h2 hc]
      simp only [true_iff]
      obtain ⟨u, hu, v, hv, h⟩ := not_not.1 hc
      exact ⟨hne, u, v, (sIn_all ha a u).1 hu, (sIn_all ha b v).1 hv, h⟩

/-- A merge changes only names, by appending `_k` to the first free name; one of two equal names is kept. -/
theorem session_rename {ops : List Op} {w w' : World} (he : execAll ops = some w) {a b : Nat}
    (hm : mergeInner w a b = some w') (v : Nat) (hc : (w'.qv v).name ≠ (w.qv v).name) :
    (∃ k, 1 ≤ k ∧ (w'.qv v).name = suffixed (w.qv v).name k ∧
      (∀ u, sIn (history ops) a u ∨ sIn (history ops) b u → (w.qv u).name ≠ suffixed (w.qv v).name k) ∧
      ∀ j, 1 ≤ j → j < k → ∃ u, (sIn (history ops) a u ∨ sIn (history ops) b u) ∧ (w.qv u).name = suffixed (w.qv v).name j) ∧
    ∃ u, ((sIn (history ops) a u ∧ sIn (history ops) b v) ∨ (sIn (history ops) b u ∧ sIn (history ops) a v)) ∧
      (w.qv u).name = (w.qv v).name ∧ (w'.qv u).name = (w.qv u).name := by
  have ha := agree ops he
  have ha0 := ha.inv.root_parent a
  have hb0 := ha.inv.root_parent b
  by_cases hne : w.root a = w.root b
  · rw [mergeInner, if_pos hne] at hm
    obtain rfl := Option.some.inj hm
    exact absurd rfl hc
  · obtain ⟨h1, h2⟩ := mergeInner_eq ha.inv a b hne
    have hcl : NoClash w (w.root a) (w.root b) := by
      by_contra hcl
      rw [h2 hcl] at hm
      cases hm
    rw [h1 hcl] at hm
    obtain rfl := Option.some.inj hm
    have hname : ∀ v, ((afterMerge w (mergedQv w (w.root a) (w.root b)) (w.root a) (w.root b)).qv v).name =
        (mergedQv w (w.root a) (w.root b) v).name := by
      intro v
      simp only [afterMerge]
      split <;> rfl
    simp only [hname] at hc ⊢
    have hv : (w.qv v).name ∈ common w.qv (w.sess (w.root a)).all (w.sess (w.root b)).all ∧
        loser w.qv (w.sess (w.root a)).all (w.sess (w.root b)).all (w.qv v).name = some v := by
      by_contra hn
      apply hc
      unfold mergedQv renamed
      rw [if_neg hn]
    have hnew : (mergedQv w (w.root a) (w.root b) v).name = (fresh 1 (((w.sess (w.root a)).all.map fun v => (w.qv v).name) ++
        (w.sess (w.root b)).all.map fun v => (w.qv v).name) (w.qv v).name).getD [] := by
      unfold mergedQv renamed
      rw [if_pos hv]
    constructor
    · obtain ⟨k, hk1, hk2, hk3, hk4⟩ := fresh_some 1 (((w.sess (w.root a)).all.map fun v => (w.qv v).name) ++
        (w.sess (w.root b)).all.map fun v => (w.qv v).name) (w.qv v).name
      refine ⟨k, hk1, by rw [hnew, hk2]; rfl, fun u hu e => hk3 ?_, fun j hj1 hj2 => ?_⟩
      · rw [← e]
        rcases hu with hu | hu
        · exact List.mem_append_left _ (List.mem_map_of_mem (f := fun v => (w.qv v).name) ((sIn_all ha a u).2 hu))
        · exact List.mem_append_right _ (List.mem_map_of_mem (f := fun v => (w.qv v).name) ((sIn_all ha b u).2 hu))
      · rcases List.mem_append.1 (hk4 j hj1 hj2) with h | h
        · obtain ⟨u, hu, e⟩ := List.mem_map.1 h
          exact ⟨u, .inl ((sIn_all ha a u).1 hu), e⟩
        · obtain ⟨u, hu, e⟩ := List.mem_map.1 h
          exact ⟨u, .inr ((sIn_all ha b u).1 hu), e⟩
    · obtain ⟨⟨u0, hu0, e0⟩, ⟨u1, hu1, e1⟩⟩ := mem_common.1 hv.1
      have hls := hv.2
      have h0 : (w.sess (w.root a)).all.getD (((w.sess (w.root a)).all.map fun v => (w.qv v).name).idxOf (w.qv v).name) 0 = u0 := by
        have := idxOf_eq (ha.inv.names _ ha0) hu0
        rw [e0] at this
        exact this
      have h1 : (w.sess (w.root b)).all.getD (((w.sess (w.root b)).all.map fun v => (w.qv v).name).idxOf (w.qv v).name) 0 = u1 := by
        have := idxOf_eq (ha.inv.names _ hb0) hu1
        rw [e1] at this
        exact this
      have hcase := victim_cases hls
      rw [h0, h1] at hcase
      have hdiff : u0 ≠ u1 := fun e => not_both ha.inv ha0 hb0 hne hu0 (e ▸ hu1)
      have keep : ∀ u, (w.qv u).name = (w.qv v).name → u ≠ v →
          (mergedQv w (w.root a) (w.root b) u).name = (w.qv u).name := by
        intro u e hu
        unfold mergedQv renamed
        rw [if_neg]
        rintro ⟨_, h⟩
        rw [e] at h
        exact hu (Option.some.inj (h.symm.trans hls))
      rcases hcase with e | e
      · subst e
        exact ⟨u1, .inr ⟨(sIn_all ha b u1).1 hu1, (sIn_all ha a v).1 hu0⟩, e1, keep u1 e1 (Ne.symm hdiff)⟩
      · subst e
        exact ⟨u0, .inl ⟨(sIn_all ha a u0).1 hu0, (sIn_all ha b v).1 hu1⟩, e0, keep u0 e0 hdiff⟩

/-- A name given by the user is kept if every variable of the other session with this name was created later.
    Missing: variables created earlier (`session_user_name`). -/
theorem session_user_name_partial {ops : List Op} {w w' : World} (he : execAll ops = some w) {a b : Nat}
    (hm : mergeInner w a b = some w') (v : Nat) (hu : (w.qv v).user = true)
    (hl : ∀ u, (w.qv u).name = (w.qv v).name → sIn (history ops) b u → v ≤ u) : (w'.qv v).name = (w.qv v).name := by
  have ha := agree ops he
  have ha0 := ha.inv.root_parent a
  have hb0 := ha.inv.root_parent b
  by_cases hne : w.root a = w.root b
  · rw [mergeInner, if_pos hne] at hm
    obtain rfl := Option.some.inj hm
    rfl
  · obtain ⟨h1, h2⟩ := mergeInner_eq ha.inv a b hne
    have hcl : NoClash w (w.root a) (w.root b) := by
      by_contra hcl
      rw [h2 hcl] at hm
      cases hm
    rw [h1 hcl] at hm
    obtain rfl := Option.some.inj hm
    have hname : ((afterMerge w (mergedQv w (w.root a) (w.root b)) (w.root a) (w.root b)).qv v).name =
        (mergedQv w (w.root a) (w.root b) v).name := by
      simp only [afterMerge]
      split <;> rfl
    rw [hname]
    unfold mergedQv renamed
    rw [if_neg]
    rintro ⟨hm, hls⟩
    obtain ⟨⟨u0, hu0, e0⟩, ⟨u1, hu1, e1⟩⟩ := mem_common.1 hm
    have h0 : (w.sess (w.root a)).all.getD (((w.sess (w.root a)).all.map fun v => (w.qv v).name).idxOf (w.qv v).name) 0 = u0 := by
      have := idxOf_eq (ha.inv.names _ ha0) hu0
      rw [e0] at this
      exact this
    have h1 : (w.sess (w.root b)).all.getD (((w.sess (w.root b)).all.map fun v => (w.qv v).name).idxOf (w.qv v).name) 0 = u1 := by
      have := idxOf_eq (ha.inv.names _ hb0) hu1
      rw [e1] at this
      exact this
    have hdiff : u0 ≠ u1 := fun e => not_both ha.inv ha0 hb0 hne hu0 (e ▸ hu1)
    unfold loser at hls
    rw [h0, h1] at hls
    have h2 := (ha.inv.all _ ha0 u0).1 hu0
    have h3 := (ha.inv.all _ hb0 u1).1 hu1
    unfold victim at hls
    rw [ha.inv.time u0 h2.1, ha.inv.time u1 h3.1] at hls
    split at hls
    · split at hls
      · cases hls
      · rename_i h
        rw [Option.some.inj hls] at h
        exact h hu
    · rename_i hn1
      split at hls
      · rename_i hlt
        rw [if_pos (by simpa using hn1)] at hls
        obtain rfl := Option.some.inj hls
        have := hl u1 e1 ((sIn_all ha b u1).1 hu1)
        omega
      · rw [Option.some.inj hls] at hn1
        exact hn1 hu

/-- A name given by the user is changed: the variable named `x*` was created first, the other variable has the name `x` and its session
    has more instructions. -/
theorem session_user_name :
    ((execAll [.var none ['x'] true 1, .var none ['x'] false 2, .gate "cx" [(0, 0), (1, 0)]]).map fun w =>
      ((w.qv 0).name, (w.qv 1).name, (w.qv 1).user)) = some (['x'], ['x', '_', '1'], true) ∧
    ((execAll [.var none ['x'] true 2, .var none ['x'] false 1, .gate "cx" [(0, 0), (1, 0)]]).map fun w =>
      ((w.qv 0).name, (w.qv 1).name, (w.qv 1).user)) = some (['x', '_', '1'], ['x'], true) := by
  decide +kernel

/-- `duplicate(name="y*")` of a variable whose name was given by the user: the name of the duplicate counts as given by the user, so that a
    merge with another `y` raises an exception, and the name of the original may be changed. -/
theorem session_duplicate :
    ((execAll [.var none ['x'] false 1, .dup 0 (.star ['y'])]).map fun w => ((w.qv 0).user, (w.qv 1).user)) =
      some (false, true) ∧
    (execAll [.var none ['x'] false 1, .dup 0 (.star ['y']), .var none ['y'] false 1]).isSome ∧
    execAll [.var none ['x'] false 1, .dup 0 (.star ['y']), .var none ['y'] false 1, .merge [1, 2]] = none ∧
    ((execAll [.var none ['x'] false 1, .dup 0 (.star ['y']), .var none ['x'] false 1, .merge [0, 2]]).map fun w =>
      (w.qv 0).name) = some ['x', '_', '1'] := by
  decide +kernel

/-- A variable with a name ending with `*` can be created in every session; another name must not be used in it. -/
theorem session_create {ops : List Op} {w : World} (he : execAll ops = some w) (s : Nat) (name : Name) (size : Nat) :
    (∃ w', create w s name true size = some w') ∧
    (create w s name false size = none ↔ ∃ u, sIn (history ops) s u ∧ (w.qv u).name = name) := by
  have ha := agree ops he
  have hnames : ∀ x, x ∈ w.names s ↔ ∃ u, sIn (history ops) s u ∧ (w.qv u).name = x := by
    intro x
    unfold World.names
    simp only [List.mem_map, sIn_all ha]
  constructor
  · unfold create
    rw [if_pos rfl]
    split
    · obtain ⟨k, _, h1, h2, _⟩ := fresh_some w.nV (w.names s) name
      rw [h1]
      unfold register
      exact ⟨_, if_neg h2⟩
    · rename_i h
      unfold register
      exact ⟨_, if_neg h⟩
  · rw [← hnames]
    unfold create register
    rw [if_neg (by simp)]
    split <;> simp_all

/-- Gates on deleted variables raise an exception; a variable can be deleted exactly once. -/
theorem session_deleted {ops : List Op} {w : World} (he : execAll ops = some w) (v : Nat) (hv : v < (history ops).born.length) :
    (v ∈ (history ops).dead → ∀ op qs, op ≠ "qb_alloc" → op ≠ "barrier" → (∃ k, (v, k) ∈ qs) → exec w (.gate op qs) = none) ∧
    (exec w (.delete v) = none ↔ v ∈ (history ops).dead) := by
  have ha := agree ops he
  rw [ha.inv.bornLen] at hv
  have hd : v ∈ (history ops).dead ↔ (w.qv v).alive = false := by
    rw [← not_iff_not, ← ha.dead.2 v hv]
    simp
  rw [hd]
  constructor
  · rintro hdead op qs h1 h2 ⟨k, hk⟩
    simp only [exec]
    split
    · cases qs with
      | nil => simp at hk
      | cons b bs =>
        simp only [append]
        rw [if_pos]
        exact ⟨h1, h2, List.any_eq_true.2 ⟨(v, k), hk, by simp [hdead]⟩⟩
    · rfl
  · simp only [exec, if_pos hv]
    obtain ⟨h1, h2⟩ := ha.inv.delete hv
    constructor
    · intro h
      cases hal : (w.qv v).alive with
      | false => rfl
      | true =>
        obtain ⟨w', e, _⟩ := h2 hal
        rw [e] at h
        cases h
    · exact h1

/-- Three variables in three sessions; instructions on different qubits are exchanged by the merge. -/
example : (execAll [.var none ['a'] false 1, .var none ['b'] false 1, .gate "x" [(0, 0)], .gate "y" [(1, 0)], .gate "z" [(1, 0)],
    .gate "cx" [(0, 0), (1, 0)]]).map (fun w => (w.look 0).data.map (·.op)) =
    some ["qb_alloc", "y", "z", "qb_alloc", "x", "cx"] := by decide +kernel

example : (history [.var none ['a'] false 1, .var none ['b'] false 1, .gate "x" [(0, 0)], .gate "y" [(1, 0)], .gate "z" [(1, 0)],
    .gate "cx" [(0, 0), (1, 0)]]).log.map (·.op) = ["qb_alloc", "qb_alloc", "x", "y", "z", "cx"] := by decide +kernel

end Verif.Props
