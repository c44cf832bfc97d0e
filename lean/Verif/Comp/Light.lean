import Verif.Comp.Topo
import Mathlib.Data.List.TakeWhile

/-!
# Light cone reduction

Model of `permeability/qc_transformations/light_cone_reduction.py`. Instructions are compared by object identity
there; the label of an instruction carries its identity here, so lists of instructions have no repetitions.
-/

namespace Verif.Comp

variable {L : Type} [DecidableEq L]

/-- light_cone_reduction.py:70-76: what follows the last intended measurement. Without one the loop ends with
index 0. -/
def afterLast (isMeas : Instr L → Bool) (l : List (Instr L)) : List (Instr L) :=
  if l.any isMeas then (l.reverse.takeWhile fun i => !isMeas i).reverse else l.drop 1

/-- light_cone_reduction.py:87-100: the instructions of deallocation nodes and of their ancestors. -/
def needed (d : Dag L) : List (Instr L) :=
  let ins := fun p => (d.nodes[d.at p]?).bind NK.ins
  let N := d.stay.length
  (List.range N).filterMap fun p =>
    if (List.range N).any fun r => ((ins r).map fun i => decide (i.kind = .dealloc)).getD false && ancestors N d.adjP r p
    then ins p else none

/-- light_cone_reduction.py:34-116 `lightcone_reduction`; `meas` are the measurements inserted in lines 38-39. -/
def lightcone (isMeas : Instr L → Bool) (data meas : List (Instr L)) : Option (List (Instr L)) := do
  let d ← dagOf (data ++ meas)
  let new := emit d.nodes ((topologicalSort d isMeas fun _ => true).map d.at)
  let red := afterLast isMeas new
  let d2 ← dagOf red
  let redundant := red.filter fun i => !(needed d2).contains i
  some (new.filter fun i => !isMeas i && !redundant.contains i)

/-! ### Correctness -/

theorem afterLast_spec {isMeas : Instr L → Bool} {l : List (Instr L)} (h : l.any isMeas = true) :
    ∃ H m, l = (H ++ [m]) ++ afterLast isMeas l ∧ isMeas m = true ∧ ∀ i ∈ afterLast isMeas l, isMeas i = false := by
  unfold afterLast
  rw [if_pos h]
  have hd : (l.reverse.dropWhile fun i => !isMeas i) ≠ [] := by
    intro e
    rw [List.dropWhile_eq_nil_iff] at e
    obtain ⟨x, hx, hm⟩ := List.any_eq_true.1 h
    have := e x (by simpa using hx)
    simp [hm] at this
  obtain ⟨m, t, e⟩ := List.exists_cons_of_ne_nil hd
  have hm : isMeas m = true := by
    have := List.head_dropWhile_not (p := fun i => !isMeas i) hd
    simp only [e, List.head_cons] at this
    simpa using this
  refine ⟨t.reverse, m, ?_, hm, ?_⟩
  · have := List.takeWhile_append_dropWhile (p := fun i => !isMeas i) (l := l.reverse)
    rw [e] at this
    have h2 := congrArg List.reverse this
    rw [List.reverse_reverse, List.reverse_append, List.reverse_cons] at h2
    exact h2.symm
  · intro i hi
    have := List.mem_takeWhile_imp (List.mem_reverse.1 hi)
    simpa using this

/-- Needed instructions: those from which a deallocation can be reached; if one instruction depends on an earlier
one and is needed, the earlier one is needed. -/
theorem needed_closed {d : Dag L} {data : List (Instr L)} (h : Made d data) {a b : Instr L}
    (hn : data.Nodup) (hk : kept d.nodes = data)
    (hs : [a, b].Sublist data) (hd : ¬ Indep a b) (hb : b ∈ needed d) : a ∈ needed d := by
  unfold needed at hb ⊢
  simp only at hb ⊢
  obtain ⟨p, hp, hp2⟩ := List.mem_filterMap.1 hb
  rw [List.mem_range] at hp
  by_cases hany : ((List.range d.stay.length).any fun r =>
      (((d.nodes[d.at r]?).bind NK.ins).map fun i => decide (i.kind = .dealloc)).getD false &&
      ancestors d.stay.length d.adjP r p) = true
  · rw [if_pos hany] at hp2
    rw [← hk, ← emit_stay, ← map_at_range d] at hs
    obtain ⟨v, w, h1, h2, h3⟩ := pair_filterMap hs
    obtain ⟨l', h4, h5⟩ := List.sublist_map_iff.1 h1
    match l', h5 with
    | [x, y], h5 =>
      simp only [List.map_cons, List.map_nil, List.cons.injEq, and_true] at h5
      obtain ⟨rfl, rfl⟩ := h5
      have hlt : x < y := by
        have := List.Pairwise.sublist h4 List.pairwise_lt_range
        simpa using this
      have hy : y < d.stay.length := List.mem_range.1 (h4.subset (by simp))
      have hx : x < d.stay.length := by omega
      obtain ⟨ka, ka1, ka2⟩ := Option.bind_eq_some_iff.1 h2
      obtain ⟨kb, kb1, kb2⟩ := Option.bind_eq_some_iff.1 h3
      obtain ⟨r', hr1, hr2, hr3⟩ := preach_of_reach (h.dep ((at_lt hx hy).2 hlt) ka1 kb1 ka2 kb2 hd) hx rfl
      have e1 : r' = y := at_inj hr1 hy hr2
      subst e1
      -- the instruction sits at one position only
      have e2 : p = r' := by
        by_contra hne
        have hnd : (emit d.nodes d.stay).Nodup := by rw [emit_stay, hk]; exact hn
        rw [← map_at_range d] at hnd
        have two : ∀ p r, p < r → r < d.stay.length → (d.nodes[d.at p]?).bind NK.ins = some b →
            (d.nodes[d.at r]?).bind NK.ins = some b → False := by
          intro p r hpr hr e1 e2
          have hs2 : [p, r].Sublist (List.range d.stay.length) :=
            sorted_pair List.pairwise_lt_range (List.mem_range.2 (by omega)) (List.mem_range.2 hr) hpr
          have := pair_emit (f := fun v => (d.nodes[v]?).bind NK.ins) (hs2.map d.at) e1 e2
          have := hnd.sublist this
          simp at this
        rcases Nat.lt_or_gt_of_ne hne with hlt' | hlt'
        · exact two p r' hlt' hy hp2 h3
        · exact two r' p hlt' hp h3 hp2
      subst e2
      refine List.mem_filterMap.2 ⟨x, List.mem_range.2 hx, ?_⟩
      obtain ⟨r, hr, hr5⟩ := List.any_eq_true.1 hany
      rw [Bool.and_eq_true] at hr5
      rw [List.mem_range] at hr
      have hanc : ancestors d.stay.length d.adjP r x = true :=
        (ancestors_spec (fun u v _ hv => adjP_lt hv) h.acycP hr x).2
          (hr3.trans ((ancestors_spec (fun u v _ hv => adjP_lt hv) h.acycP hr p).1 hr5.2))
      rw [if_pos (List.any_eq_true.2 ⟨r, List.mem_range.2 hr, by rw [hr5.1, hanc]; rfl⟩)]
      exact h2
  · rw [if_neg hany] at hp2
    cases hp2

theorem needed_dealloc {d : Dag L} {data : List (Instr L)} (h : Made d data) (hk : kept d.nodes = data)
    {i : Instr L} (hi : i ∈ data) (hd : i.kind = .dealloc) : i ∈ needed d := by
  rw [← hk, ← emit_stay, ← map_at_range d] at hi
  obtain ⟨v, hv, e⟩ := List.mem_filterMap.1 hi
  obtain ⟨p, hp, rfl⟩ := List.mem_map.1 hv
  rw [List.mem_range] at hp
  unfold needed
  simp only
  refine List.mem_filterMap.2 ⟨p, List.mem_range.2 hp, ?_⟩
  rw [if_pos (List.any_eq_true.2 ⟨p, List.mem_range.2 hp, ?_⟩)]
  · exact e
  · rw [e, (ancestors_spec (fun u v _ hv => adjP_lt hv) h.acycP hp p).2 .refl]
    simp [hd]

theorem pair_left {α : Type} {a b : α} {l r : List α} (hn : (l ++ r).Nodup) (h : [a, b].Sublist (l ++ r))
    (hb : b ∈ l) : [a, b].Sublist l := by
  obtain ⟨l1, l2, h12, h1, h2⟩ := List.sublist_append_iff.1 h
  have hbr : b ∉ r := fun hm => (List.nodup_append.1 hn).2.2 b hb b hm rfl
  match l1, l2, h12 with
  | [], _, h12 =>
    simp only [List.nil_append] at h12
    subst h12
    exact absurd (h2.subset (by simp)) hbr
  | [x], l2, h12 =>
    simp only [List.singleton_append, List.cons.injEq] at h12
    obtain ⟨_, rfl⟩ := h12
    exact absurd (h2.subset (by simp)) hbr
  | x :: y :: l1, l2, h12 =>
    simp only [List.cons_append, List.cons.injEq] at h12
    obtain ⟨rfl, rfl, h3⟩ := h12
    have : l1 = [] := by
      cases l1 with
      | nil => rfl
      | cons z l1 => simp at h3
    subst this
    exact h1

theorem pair_mem_left {α : Type} {a b : α} {l r : List α} (hn : (l ++ r).Nodup) (h : [a, b].Sublist (l ++ r))
    (hb : b ∈ l) : a ∈ l := (pair_left hn h hb).subset (by simp)

theorem pair_right {α : Type} {a b : α} {l r : List α} (hn : (l ++ r).Nodup) (h : [a, b].Sublist (l ++ r))
    (ha : a ∈ r) : [a, b].Sublist r := by
  obtain ⟨l1, l2, h12, h1, h2⟩ := List.sublist_append_iff.1 h
  have hal : a ∉ l := fun hm => (List.nodup_append.1 hn).2.2 a hm a ha rfl
  match l1, h12 with
  | [], h12 =>
    simp only [List.nil_append] at h12
    subst h12
    exact h2
  | x :: l1, h12 =>
    simp only [List.cons_append, List.cons.injEq] at h12
    obtain ⟨rfl, _⟩ := h12
    exact absurd (h1.subset (by simp)) hal

theorem pair_filter {α : Type} {a b : α} {l : List α} {p : α → Bool} (h : [a, b].Sublist l) (ha : p a = true)
    (hb : p b = true) : [a, b].Sublist (l.filter p) := by
  have := h.filter p
  simpa [List.filter_cons, ha, hb] using this

/-- What light cone reduction does to a circuit: it splits the instructions into those it keeps and those it
removes, and running the kept ones, the measurements and then the removed ones is running the circuit. -/
theorem lightcone_split {isMeas : Instr L → Bool} {data meas out : List (Instr L)}
    (ho : ∀ i ∈ data ++ meas, InsOK i) (hn : (data ++ meas).Nodup) (hna : NoDupAlloc (data ++ meas))
    (hdm : ∀ i ∈ data, isMeas i = false) (hmm : ∀ i ∈ meas, isMeas i = true) (hne : meas ≠ [])
    (h : lightcone isMeas data meas = some out) :
    ∃ R, (out ++ R).Perm data ∧ (∀ i ∈ R, i.kind ≠ .dealloc) ∧
      ∀ {σ : Type} (I : Interp L σ) (s : σ),
        runI I.act (data ++ meas) s = runI I.act (out ++ meas ++ R) s := by
  unfold lightcone at h
  simp only [Option.bind_eq_bind, Option.bind_eq_some_iff, Option.some.injEq] at h
  obtain ⟨d, hd, d2, hd2, hout⟩ := h
  have hm : Made d (data ++ meas) := ⟨ho, hd⟩
  have hkept := hm.kept.2.2 hna
  obtain ⟨t1, t2⟩ := topologicalSort_spec hm isMeas fun _ => true
  obtain ⟨s1, s2⟩ := hm.sorted t1 t2
  have hnewok : ∀ i ∈ emit d.nodes ((topologicalSort d isMeas fun _ => true).map d.at), InsOK i := emit_ok hm _
  generalize hnew : emit d.nodes ((topologicalSort d isMeas fun _ => true).map d.at) = new at *
  rw [hkept] at s1 s2
  have hnn : new.Nodup := s1.nodup_iff.2 hn
  have hany : new.any isMeas = true := by
    obtain ⟨m, t, e⟩ := List.exists_cons_of_ne_nil hne
    exact List.any_eq_true.2 ⟨m, s1.mem_iff.2 (by rw [e]; simp), hmm m (by rw [e]; simp)⟩
  obtain ⟨H, m, e1, hmeas, hred⟩ := afterLast_spec hany
  generalize hR : afterLast isMeas new = red at *
  have hm2 : Made d2 red := ⟨fun i hi => hnewok i (by rw [e1]; exact List.mem_append_right _ hi), hd2⟩
  have hrn : red.Nodup := by
    rw [e1] at hnn
    exact (List.nodup_append.1 hnn).2.1
  have hra : NoDupAlloc red := by
    have h1 : NoDupAlloc new := by
      unfold NoDupAlloc at hna ⊢
      refine (s1.pairwise_iff ?_).2 hna
      intro a b h ha hb e
      exact h hb ha e.symm
    rw [e1] at h1
    exact (List.pairwise_append.1 h1).2.1
  have hk2 := hm2.kept.2.2 hra
  set rd := red.filter (fun i => !(needed d2).contains i) with hrd
  have hrdm : ∀ i, i ∈ rd ↔ i ∈ red ∧ i ∉ needed d2 := by
    intro i
    rw [hrd, List.mem_filter]
    simp
  have hrdf : ∀ i ∈ rd, isMeas i = false := fun i hi => hred i ((hrdm i).1 hi).1
  -- membership
  have hmemnew : ∀ i, i ∈ new ↔ i ∈ data ∨ i ∈ meas := fun i => by rw [s1.mem_iff, List.mem_append]
  have houtm : ∀ i, i ∈ out ↔ i ∈ data ∧ i ∉ rd := by
    intro i
    rw [← hout, List.mem_filter]
    simp only [Bool.and_eq_true, Bool.not_eq_true', List.contains_eq_mem, decide_eq_false_iff_not]
    constructor
    · rintro ⟨h1, h2, h3⟩
      rcases (hmemnew i).1 h1 with h1 | h1
      · exact ⟨h1, h3⟩
      · rw [hmm i h1] at h2; cases h2
    · rintro ⟨h1, h2⟩
      exact ⟨(hmemnew i).2 (Or.inl h1), hdm i h1, h2⟩
  have hrdd : ∀ i ∈ rd, i ∈ data := by
    intro i hi
    have : i ∈ new := by rw [e1]; exact List.mem_append_right _ ((hrdm i).1 hi).1
    rcases (hmemnew i).1 this with h | h
    · exact h
    · have := hmm i h; rw [hrdf i hi] at this; cases this
  have hon : out.Nodup := by rw [← hout]; exact hnn.filter _
  have hrdn : rd.Nodup := hrn.filter _
  have hdn : data.Nodup := (List.nodup_append.1 hn).1
  have hmn : meas.Nodup := (List.nodup_append.1 hn).2.1
  have hdisj : ∀ i ∈ data, i ∉ meas := fun i h1 h2 => (List.nodup_append.1 hn).2.2 i h1 i h2 rfl
  have hperm : (out ++ rd).Perm data := by
    refine (List.perm_ext_iff_of_nodup ?_ hdn).2 ?_
    · refine List.nodup_append.2 ⟨hon, hrdn, ?_⟩
      rintro a ha b hb rfl
      exact ((houtm a).1 ha).2 hb
    · intro i
      rw [List.mem_append, houtm]
      constructor
      · rintro (⟨h, _⟩ | h)
        · exact h
        · exact hrdd i h
      · intro h
        by_cases hi : i ∈ rd
        · exact Or.inr hi
        · exact Or.inl ⟨h, hi⟩
  refine ⟨rd, hperm, ?_, ?_⟩
  · intro i hi hk
    obtain ⟨h1, h2⟩ := (hrdm i).1 hi
    exact h2 (needed_dealloc hm2 hk2 h1 hk)
  intro σ I s
  have key := run_reorder I (fun i : Instr L => some i) (out ++ meas ++ rd) (data ++ meas) (by
      rw [List.append_assoc]
      have : (out ++ (meas ++ rd)).Perm (out ++ (rd ++ meas)) := List.perm_append_comm.append_left _
      refine this.trans ?_
      rw [← List.append_assoc]
      exact hperm.append_right _) hn (by
    intro a b i j hs hi hj hd
    simp only [Option.some.injEq] at hi hj
    subst hi hj
    have hnewab := s2 a b hs hd
    have hmema : a ∈ data ++ meas := hs.subset (by simp)
    have hmemb : b ∈ data ++ meas := hs.subset (by simp)
    -- an instruction that is removed does not come before one that is kept
    have nobad : a ∈ rd → b ∈ rd := by
      intro ha
      obtain ⟨ha1, ha2⟩ := (hrdm a).1 ha
      rw [e1] at hnewab hnn
      have hr := pair_right hnn hnewab ha1
      refine (hrdm b).2 ⟨hr.subset (by simp), fun hb => ?_⟩
      exact ha2 (needed_closed hm2 hrn hk2 hr hd hb)
    rcases List.mem_append.1 hmemb with hb | hb
    · have ha : a ∈ data := pair_mem_left hn hs hb
      by_cases hbr : b ∈ rd
      · by_cases har : a ∈ rd
        · have : [a, b].Sublist rd := by
            rw [e1] at hnewab hnn
            refine pair_filter (pair_right hnn hnewab ((hrdm a).1 har).1) ?_ ?_
            · simpa using ((hrdm a).1 har).2
            · simpa using ((hrdm b).1 hbr).2
          exact this.trans (List.sublist_append_right _ _)
        · have hao : a ∈ out ++ meas := List.mem_append_left _ ((houtm a).2 ⟨ha, har⟩)
          exact List.Sublist.append (List.singleton_sublist.2 hao) (List.singleton_sublist.2 hbr)
      · have har : a ∉ rd := fun h => hbr (nobad h)
        have : [a, b].Sublist out := by
          rw [← hout]
          refine pair_filter hnewab ?_ ?_
          · simp [hdm a ha, har]
          · simp [hdm b hb, hbr]
        exact (this.trans (List.sublist_append_left out meas)).trans (List.sublist_append_left _ rd)
    · rcases List.mem_append.1 hmema with ha | ha
      · have har : a ∉ rd := fun h => by
          have := hrdf b (nobad h)
          rw [hmm b hb] at this
          cases this
        have hao : a ∈ out := (houtm a).2 ⟨ha, har⟩
        exact (List.Sublist.append (List.singleton_sublist.2 hao) (List.singleton_sublist.2 hb)).trans
          (List.sublist_append_left _ rd)
      · exact (((pair_right hn hs ha).trans (List.sublist_append_right out meas))).trans
          (List.sublist_append_left _ rd)) s
  simpa using key.symm

end Verif.Comp
