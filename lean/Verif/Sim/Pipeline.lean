import Verif.Sim.MultiLoop

/-!
The whole way of a circuit through the simulator (simulator/simulator.py:44-157, circuit_preprocessing.py:840-852) for at
most 45 qubits: grouping, reordering, the end of the circuit after the last measurement, deferred measurements.
-/

namespace Verif.Sim

open Verif.Env (B E D X dg Dep)

/-! ### Code -/

def Ins.isMeasure : Ins → Bool
  | .measure _ _ => true
  | _ => false

/-- simulator/circuit_preprocessing.py:466-491, the number of measurements. -/
def countMeasure (l : List Ins) : Nat := l.countP Ins.isMeasure

/-- simulator/simulator.py:82-90: the circuit ends after the last measurement; `k` is `measurement_counter`. -/
def cutGo (amount : Nat) : Nat → List Ins → List Ins
  | _, [] => []
  | k, x :: t =>
    let k' := if x.isMeasure then k + 1 else k
    if k' = amount then [x] else x :: cutGo amount k' t

/-- simulator/simulator.py:72-103 and circuit_preprocessing.py:840-852 for at most 45 qubits; `tp` gives the topological
order of a circuit (`networkx.topological_sort`), `none` is an error. -/
noncomputable def preprocess (pm : List Gate → Nat → Bool) (tp : List Ins → Nat → Nat) (n : Nat) (data : List Ins) :
    Option (List Ins × List (Nat × Nat) × Nat) :=
  (reorder n (tp (groupQc n data)) (groupQc n data)).map fun r => multiverse pm n (cutGo (countMeasure data) 0 r)

/-! ### Conditions -/

/-- Conditions on two instructions in this order: nothing happens with a qubit after its reset, a measured qubit is not
reset, a classical bit is written once. -/
def Seq (i j : Ins) : Prop :=
  (∀ q, i = .reset q → q ∉ j.qubits) ∧ (∀ q c, i = .measure q c → j ≠ .reset q) ∧ ∀ q c q', i = .measure q c → j ≠ .measure q' c

/-- The gates of an instruction. -/
def Ins.allGates : Ins → List Gate
  | .gate _ gs => gs
  | .cif _ gs _ _ => gs
  | _ => []

/-- A gate keeps the norm of the states of `n` qubits. -/
def Iso (n : Nat) (g : Gate) : Prop := ∀ ψ : B → ℂ, (∀ q, n ≤ q → Clean0 q ψ) → nrm n (g.op ψ) = nrm n ψ

/-- Conditions on a circuit with `n` qubits. -/
structure POk (n : Nat) (data : List Ins) : Prop where
  ins : ∀ i ∈ data, i.WF ∧ i.qubits ≠ [] ∧ (∀ q ∈ i.qubits, q < n) ∧ (i.neg = true → ∃ k, i.qubits = [k])
  iso : ∀ i ∈ data, ∀ g ∈ i.allGates, Iso n g
  seq : data.Pairwise Seq

theorem pok_gok {n : Nat} {data : List Ins} (h : POk n data) : GOk n data := fun i hi =>
  ⟨(h.ins i hi).1, (h.ins i hi).2.2.1, (h.ins i hi).2.2.2⟩

theorem POk.sublist {n : Nat} {l data : List Ins} (h : POk n data) (hs : l.Sublist data) : POk n l :=
  ⟨fun i hi => h.ins i (hs.subset hi), fun i hi => h.iso i (hs.subset hi), h.seq.sublist hs⟩

/-! ### Grouping -/

theorem neg_of_mem_filter {l l' : List Ins} (h : l.filter Ins.neg = l'.filter Ins.neg) {x : Ins} (hx : x ∈ l) (hn : x.neg = true) : x ∈ l' := by
  have : x ∈ l'.filter Ins.neg := h ▸ List.mem_filter.2 ⟨hx, hn⟩
  exact (List.mem_filter.1 this).1

theorem groupLoop_pok {jit : Bool} {n depth : Nat} : ∀ (fuel : Nat) (data : List Ins), data.length ≤ fuel → POk n data →
    POk n (groupLoop jit n depth fuel data) := by
  intro fuel
  induction fuel with
  | zero =>
    intro data hl h
    have : data = [] := by simpa using hl
    subst this
    simpa [groupLoop] using h
  | succ fuel ih =>
    intro data hl h
    cases data with
    | nil => simpa [groupLoop] using h
    | cons i t =>
      by_cases hn : i.neg = true
      · have ht : POk n t := h.sublist (List.sublist_cons_self _ _)
        have hr := ih t (by simpa using hl) ht
        obtain ⟨_, h2, h3⟩ := groupLoop_ok (jit := jit) (depth := depth) fuel t (by simpa using hl) (pok_gok ht)
        have e : groupLoop jit n depth (fuel + 1) (i :: t) = i :: groupLoop jit n depth fuel t := by simp [groupLoop, hn]
        rw [e]
        have hseq := List.pairwise_cons.1 h.seq
        refine ⟨fun x hx => ?_, fun x hx => ?_, List.pairwise_cons.2 ⟨fun x hx => ⟨?_, ?_, ?_⟩, hr.seq⟩⟩
        · rcases List.mem_cons.1 hx with rfl | hx
          · exact h.ins _ (by simp)
          · exact hr.ins x hx
        · rcases List.mem_cons.1 hx with rfl | hx
          · exact h.iso _ (by simp)
          · exact hr.iso x hx
        · intro q hi hq
          obtain ⟨y, hy, hqy⟩ := (h3 x hx).2 q hq
          exact (hseq.1 y hy).1 q hi hqy
        · rintro q c hi rfl
          exact (hseq.1 _ (neg_of_mem_filter h2 hx rfl)).2.1 q c hi rfl
        · rintro q c q' hi rfl
          exact (hseq.1 _ (neg_of_mem_filter h2 hx rfl)).2.2 q c q' hi rfl
      · have hn' : i.neg = false := by simpa using hn
        obtain ⟨sel, s1, s2, s3, s4, s5, s6⟩ := findGroup_ok (jit := jit) (depth := depth) (pok_gok h) hn'
        obtain ⟨_, _, g3⟩ := groupLoop_ok (jit := jit) (depth := depth) (fuel + 1) (i :: t) hl (pok_gok h)
        have e : groupLoop jit n depth (fuel + 1) (i :: t) = getInstruction (i :: t) (findGroup jit n depth i (i :: t)) ::
            groupLoop jit n depth fuel (deleteIdx (i :: t) (findGroup jit n depth i (i :: t)).1) := by
          simp [groupLoop, hn]
        rw [e] at g3 ⊢
        generalize findGroup jit n depth i (i :: t) = o at *
        have hlen : (deleteIdx (i :: t) o.1).length < (i :: t).length := by
          obtain ⟨x, l, rfl⟩ := List.exists_cons_of_ne_nil s2
          cases ho : o.1 with
          | nil => simp [ho] at s1
          | cons j js =>
            rw [ho] at s1
            simp only [List.map_cons, List.cons.injEq] at s1
            exact deleteIdx_length (by simp) (List.getElem?_eq_some_iff.1 s1.1).1
        have hr := ih (deleteIdx (i :: t) o.1) (by simp only [List.length_cons] at hlen hl; omega)
          (h.sublist (deleteIdx_sublist (i :: t) o.1))
        refine ⟨fun x hx => ?_, fun x hx => ?_, List.pairwise_cons.2 ⟨fun x hx => ⟨?_, ?_, ?_⟩, hr.seq⟩⟩
        · rcases List.mem_cons.1 hx with rfl | hx
          · refine ⟨(g3 _ (by simp)).1, ?_, fun q hq => ?_, by simp [getInstruction, Ins.neg]⟩
            · obtain ⟨y, l, rfl⟩ := List.exists_cons_of_ne_nil s2
              obtain ⟨a, _, b⟩ := s3 y (by simp)
              obtain ⟨q, hq⟩ := List.exists_mem_of_ne_nil _ (h.ins y a).2.1
              exact List.ne_nil_of_mem (b q hq)
            · obtain ⟨y, hy, hq⟩ := (g3 _ (by simp)).2 q hq
              exact (h.ins y hy).2.2.1 q hq
          · exact hr.ins x hx
        · rcases List.mem_cons.1 hx with rfl | hx
          · intro g hg
            obtain ⟨j, _, hj⟩ := List.mem_flatMap.1 hg
            cases hd : (i :: t)[j]? with
            | none => rw [hd] at hj; simp at hj
            | some y =>
              rw [hd] at hj
              refine h.iso y (List.mem_of_getElem? hd) g ?_
              cases y <;> simp [Ins.gates] at hj
              simpa [Ins.allGates] using hj
          · exact hr.iso x hx
        · intro q hi; cases hi
        · intro q c hi; cases hi
        · intro q c q' hi; cases hi

theorem groupLoop_count {jit : Bool} {n depth : Nat} {fuel : Nat} {data : List Ins} (hl : data.length ≤ fuel) (h : GOk n data) :
    countMeasure (groupLoop jit n depth fuel data) = countMeasure data := by
  have key : ∀ l : List Ins, countMeasure l = countMeasure (l.filter Ins.neg) := by
    intro l
    induction l with
    | nil => rfl
    | cons x l ih =>
      cases x <;> simp_all [countMeasure, Ins.isMeasure, Ins.neg, List.countP_cons, List.filter_cons]
  rw [key, (groupLoop_ok fuel data hl h).2.1, ← key]

/-! ### Reordering -/

theorem seq_of_ind {i j : Ins} (h : Ind i j) : Seq i j := by
  refine ⟨?_, ?_, ?_⟩
  · rintro q rfl
    exact h.1 q (by simp [Ins.qubits])
  · rintro q c rfl rfl
    exact h.1 q (by simp [Ins.qubits]) (by simp [Ins.qubits])
  · rintro q c q' rfl rfl
    exact h.2 c (by simp [Ins.clbits]) (by simp [Ins.clbits])

theorem pair_unique {l : List Nat} (h : l.Nodup) {a b : Nat} (h1 : [a, b].Sublist l) (h2 : [b, a].Sublist l) : a = b := by
  induction l with
  | nil => simp at h1
  | cons x l ih =>
    have hx := List.nodup_cons.1 h
    rcases List.sublist_cons_iff.1 h1 with h3 | ⟨r, h3, h4⟩
    · rcases List.sublist_cons_iff.1 h2 with h5 | ⟨r', h5, h6⟩
      · exact ih hx.2 h3 h5
      · have : b = x := by injection h5
        subst this
        exact absurd (h3.subset (by simp)) hx.1
    · have ha : a = x := by injection h3
      subst ha
      rcases List.sublist_cons_iff.1 h2 with h5 | ⟨r', h5, h6⟩
      · exact absurd (h5.subset (by simp)) hx.1
      · injection h5 with h7 h8
        exact h7.symm

theorem reorder_pok {n : Nat} {tp : Nat → Nat} {data : List Ins} (ht : TopOk n tp data) (h : POk n data) :
    ∃ out, reorder n tp data = some out ∧ out.Perm data ∧ (∀ s, exec out s = exec data s) ∧ POk n out := by
  have hd : ∀ i ∈ data, i.qubits ≠ [] ∧ ∀ q ∈ i.qubits, q < n := fun i hi => ⟨(h.ins i hi).2.1, (h.ins i hi).2.2.1⟩
  obtain ⟨l, h1, h2, h3⟩ := reorder_order ht hd
  obtain ⟨out, o1, o2, o3⟩ := reorder_ok ht hd fun i hi => (h.ins i hi).1
  have e : out = l.map fun v => data.getD v (.dis 0) := by
    rw [h1] at o1
    exact (Option.some.inj o1).symm
  refine ⟨out, o1, o2, o3, fun i hi => h.ins i (o2.subset hi), fun i hi => h.iso i (o2.subset hi), ?_⟩
  rw [e, List.pairwise_map]
  have hnd : l.Nodup := h2.nodup_iff.2 List.nodup_range
  refine List.pairwise_iff_forall_sublist.2 fun {a b} hab => ?_
  have ha : a < data.length := List.mem_range.1 (h2.subset (hab.subset (by simp)))
  have hb : b < data.length := List.mem_range.1 (h2.subset (hab.subset (by simp)))
  have hne : a ≠ b := by
    rintro rfl
    have := hnd.sublist hab
    simp at this
  by_cases hi : Ind (data.getD a (.dis 0)) (data.getD b (.dis 0))
  · exact seq_of_ind hi
  · rcases Nat.lt_or_ge a b with hlt | hge
    · have := List.pairwise_iff_getElem.1 h.seq a b ha hb hlt
      simpa [List.getD, List.getElem?_eq_getElem ha, List.getElem?_eq_getElem hb] using this
    · exfalso
      have hba := h3 b a (by omega) ha fun hc => hi hc.symm
      exact hne (pair_unique hnd hab hba)

/-! ### The end of the circuit -/

theorem cutGo_ok {amount : Nat} : ∀ (l : List Ins) (k : Nat), k < amount → k + countMeasure l = amount →
    ∃ r, l = cutGo amount k l ++ r ∧ ∀ x ∈ r, x.isMeasure = false := by
  intro l
  induction l with
  | nil => intro k h1 h2; simp [countMeasure] at h2; omega
  | cons x t ih =>
    intro k h1 h2
    have hc : countMeasure (x :: t) = countMeasure t + if x.isMeasure then 1 else 0 := by simp [countMeasure, List.countP_cons]
    rw [hc] at h2
    by_cases hk : (if x.isMeasure then k + 1 else k) = amount
    · refine ⟨t, by simp [cutGo, hk], fun y hy => ?_⟩
      have h0 : countMeasure t = 0 := by
        split at hk <;> split at h2 <;> simp_all <;> omega
      unfold countMeasure at h0
      rw [List.countP_eq_zero] at h0
      simpa using h0 y hy
    · obtain ⟨r, h3, h4⟩ := ih (if x.isMeasure then k + 1 else k) (by
        split at hk <;> split at h2 <;> simp_all <;> omega) (by
        split at hk <;> split at h2 <;> simp_all <;> omega)
      refine ⟨r, ?_, h4⟩
      simp only [cutGo, if_neg hk, List.cons_append]
      rw [← h3]

theorem prodG_iso {n : Nat} {gs : List Gate} (h : ∀ g ∈ gs, Iso n g ∧ ∀ q ∈ g.qs, q < n) {ψ : B → ℂ} (hc : ∀ q, n ≤ q → Clean0 q ψ) :
    nrm n (prodG gs ψ) = nrm n ψ := by
  induction gs generalizing ψ with
  | nil => rfl
  | cons g gs ih =>
    show nrm n (prodG gs (g.op ψ)) = _
    rw [ih (fun x hx => h x (by simp [hx])) fun q hq => loc_clean g.loc (fun hm => by
      have := (h g (by simp)).2 q hm
      omega) (hc q hq)]
    exact (h g (by simp)).1 ψ hc

theorem step_sum {n : Nat} {C : List Nat} {v : Cl} {i : Ins} (hw : i.WF) (hq : ∀ q ∈ i.qubits, q < n) (hg : ∀ g ∈ i.allGates, Iso n g)
    (hm : i.isMeasure = false) {x : Br} (hx : ∀ q, n ≤ q → Clean0 q x.2) : ((step i x).map (FW n C v)).sum = FW n C v x := by
  cases i with
  | measure q c => simp [Ins.isMeasure] at hm
  | dis q => simp [step, alts]
  | gate qs gs =>
    have := prodG_iso (n := n) (gs := gs) (fun g hg' => ⟨hg g hg', fun q hq' => hq q (hw g hg' q hq')⟩) hx
    simp [step, alts, FW, this]
  | cif qs gs cs st =>
    have := prodG_iso (n := n) (gs := gs) (fun g hg' => ⟨hg g hg', fun q hq' => hq q (hw g hg' q hq')⟩) hx
    by_cases hc : cmatch cs st x.1 = true <;> simp [step, alts, FW, this, hc]
  | reset q =>
    have hqn := hq q (by simp [Ins.qubits])
    have h1 := W_clear hqn false (T := fun _ => true) (fun _ => rfl) x.2
    have h2 := W_clear hqn true (T := fun _ => true) (fun _ => rfl) x.2
    have h3 := W_add n (T := fun _ => true) (T0 := fun _ => true) (T1 := fun _ => true) (q := q) (fun _ _ => rfl) (fun _ _ => rfl) x.2
    rw [W_true] at h1 h2 h3
    have e1 : (fun b : B => true && (b q == false)) = fun b => true && !b q := by
      funext b
      cases b q <;> rfl
    have e2 : (fun b : B => true && (b q == true)) = fun b => true && b q := by
      funext b
      cases b q <;> rfl
    rw [e1] at h1
    rw [e2] at h2
    have hs : nrm n (P q false x.2) + nrm n ((X q * P q true) x.2) = nrm n x.2 := by
      rw [← h3, ← h1, ← h2]
      simp [clear]
    by_cases hc : C.all (fun c => x.1 c == v c) = true
    · have : ((step (.reset q) x).map (FW n C v)).sum = FW n C v (x.1, P q false x.2) + FW n C v (x.1, (X q * P q true) x.2) := by
        simp [step, alts]
      rw [this]
      unfold FW
      simp only [if_pos hc]
      exact hs
    · have : ((step (.reset q) x).map (FW n C v)).sum = FW n C v (x.1, P q false x.2) + FW n C v (x.1, (X q * P q true) x.2) := by
        simp [step, alts]
      rw [this]
      unfold FW
      simp only [if_neg hc, add_zero]

theorem exec_sum {n : Nat} {C : List Nat} {v : Cl} : ∀ (l : List Ins), (∀ i ∈ l, i.WF ∧ (∀ q ∈ i.qubits, q < n) ∧ (∀ g ∈ i.allGates, Iso n g) ∧
    i.isMeasure = false) → ∀ s : Multiset Br, (∀ x ∈ s, ∀ q, n ≤ q → Clean0 q x.2) → ((exec l s).map (FW n C v)).sum = (s.map (FW n C v)).sum := by
  intro l
  induction l with
  | nil => intro _ s _; rfl
  | cons i l ih =>
    intro h s hs
    have hcl := exec_clean [i] (fun x hx => by
      rw [List.mem_singleton] at hx
      subst hx
      exact ⟨(h x (by simp)).1, (h x (by simp)).2.1⟩) s hs
    rw [exec_cons, ih (fun x hx => h x (by simp [hx])) (s.bind (step i)) hcl, Multiset.map_bind, Multiset.sum_bind]
    congr 1
    obtain ⟨a, b, c, d⟩ := h i (by simp)
    exact Multiset.map_congr rfl fun x hx => step_sum a b c d (hs x hx)

theorem prob_cut {n : Nat} {l r : List Ins} (h : POk n (l ++ r)) (hr : ∀ x ∈ r, x.isMeasure = false) (v : Cl) :
    prob n (l ++ r) v = prob n l v := by
  have hm : measured (l ++ r) = measured l := by
    have : measured r = [] := by
      unfold measured
      rw [List.filterMap_eq_nil_iff]
      intro x hx
      have := hr x hx
      cases x <;> simp_all [Ins.isMeasure]
    unfold measured at this ⊢
    rw [List.filterMap_append, this, List.append_nil]
  unfold prob
  rw [hm, exec_append]
  refine exec_sum (C := measured l) r (fun i hi => ?_) _ ?_
  · have := h.ins i (by simp [hi])
    exact ⟨this.1, this.2.2.1, h.iso i (by simp [hi]), hr i hi⟩
  · refine exec_clean l (fun i hi => ?_) _ ?_
    · have := h.ins i (by simp [hi])
      exact ⟨this.1, this.2.2.1⟩
    · intro x hx q _
      rw [Multiset.mem_singleton] at hx
      subst hx
      exact init_clean q

/-! ### All steps -/

theorem pok_mok {pm : List Gate → Nat → Bool} {n : Nat} {l : List Ins} (h : POk n l) : MOk pm n l := by
  induction l with
  | nil => trivial
  | cons i t ih =>
    have hs := List.pairwise_cons.1 h.seq
    refine ⟨⟨(h.ins i (by simp)).1, (h.ins i (by simp)).2.2.1⟩, ?_, ih (h.sublist (List.sublist_cons_self _ _))⟩
    cases i with
    | measure q c =>
      refine ⟨fun q' hm => (hs.1 _ hm).2.2 q c q' rfl rfl, fun hm => absurd rfl ((hs.1 _ hm).2.1 q c rfl)⟩
    | reset q => exact Or.inr fun x hx => (hs.1 x hx).1 q rfl
    | gate _ _ => trivial
    | dis _ => trivial
    | cif _ _ _ _ => trivial

theorem prob_congr {n : Nat} {l l' : List Ins} (he : ∀ s, exec l s = exec l' s) (hm : ∀ c, c ∈ measured l ↔ c ∈ measured l') (v : Cl) :
    prob n l v = prob n l' v := by
  unfold prob
  rw [he]
  congr 1
  refine Multiset.map_congr rfl fun x _ => ?_
  have : (measured l).all (fun c => x.1 c == v c) = (measured l').all fun c => x.1 c == v c := by
    rw [Bool.eq_iff_iff, List.all_eq_true, List.all_eq_true]
    exact forall_congr' fun c => by rw [hm c]
  rw [this]

theorem mem_measured {l : List Ins} {c : Nat} : c ∈ measured l ↔ ∃ q, .measure q c ∈ l := by
  unfold measured
  rw [List.mem_filterMap]
  constructor
  · rintro ⟨x, hx, e⟩
    cases x <;> simp at e
    subst e
    exact ⟨_, hx⟩
  · rintro ⟨q, hq⟩
    exact ⟨_, hq, rfl⟩

theorem preprocess_ok {pm : List Gate → Nat → Bool} (hpm : PermSound pm) {tp : List Ins → Nat → Nat} {n : Nat}
    (ht : ∀ l, TopOk n (tp l) l) {data : List Ins} (h : POk n data) (hm : countMeasure data ≠ 0) :
    ∃ r, preprocess pm tp n data = some r ∧ ∀ v, simProb r v = prob n data v := by
  have hg := groupLoop_pok (jit := decide (n < 63)) (depth := recursionParameter n + 12) data.length data (Nat.le_refl _) h
  obtain ⟨g1, g2, _⟩ := groupLoop_ok (jit := decide (n < 63)) (depth := recursionParameter n + 12) data.length data (Nat.le_refl _) (pok_gok h)
  have gc := groupLoop_count (jit := decide (n < 63)) (depth := recursionParameter n + 12) (Nat.le_refl _) (pok_gok h)
  have e : groupQc n data = groupLoop (decide (n < 63)) n (recursionParameter n + 12) data.length data := rfl
  rw [← e] at hg g1 g2 gc
  obtain ⟨out, o1, o2, o3, o4⟩ := reorder_pok (ht _) hg
  have hcount : countMeasure out = countMeasure data := by
    rw [← gc]
    exact o2.countP_eq _
  obtain ⟨r, c1, c2⟩ := cutGo_ok (amount := countMeasure data) out 0 (by omega) (by omega)
  refine ⟨_, by unfold preprocess; rw [o1]; rfl, fun v => ?_⟩
  have hcut : POk n (cutGo (countMeasure data) 0 out) := o4.sublist (by
    conv_rhs => rw [c1]
    exact List.sublist_append_left _ _)
  rw [multiverse_ok hpm n _ (pok_mok hcut) v, ← prob_cut (r := r) (by rw [← c1]; exact o4) c2 v, ← c1]
  refine prob_congr (fun s => by rw [o3, g1]) (fun c => ?_) v
  rw [mem_measured, mem_measured]
  constructor
  · rintro ⟨q, hq⟩
    exact ⟨q, neg_of_mem_filter g2 (o2.subset hq) rfl⟩
  · rintro ⟨q, hq⟩
    exact ⟨q, o2.symm.subset (neg_of_mem_filter g2.symm hq rfl)⟩

end Verif.Sim
