import Mathlib.Data.List.Chain
import Verif.Jasp.MetricProof

/-!
# The depth metric is the length of the longest chain of gates
-/

namespace Verif.Jasp.Met

/-- Two gates share a qubit. -/
def Shares (g h : List Nat) : Prop := ∃ q ∈ g, q ∈ h

/-- The depth of a list of gates: the length of the longest sequence of them in which neighbours share a qubit. -/
def IsDepth (gs : List (List Nat)) (D : Nat) : Prop :=
  (∀ c : List (List Nat), c.Sublist gs → c.IsChain Shares → c.length ≤ D) ∧ ∃ c : List (List Nat), c.Sublist gs ∧ c.IsChain Shares ∧ c.length = D

def mx0 (l : List Nat) : Nat := l.foldr max 0

def dStep (f : Nat → Nat) (g : List Nat) : Nat → Nat := fun q => if q ∈ g then mx0 (g.map f) + 1 else f q

/-- The depth of every qubit. -/
def dAt (gs : List (List Nat)) : Nat → Nat := gs.foldl dStep (fun _ => 0)

/-- The depth. -/
def dCur (gs : List (List Nat)) : Nat := (gs.foldl (fun (z : (Nat → Nat) × Nat) g =>
  (dStep z.1 g, max z.2 (mx0 (g.map z.1) + 1))) ((fun _ => 0), 0)).2

theorem dAt_snoc (gs g) : dAt (gs ++ [g]) = dStep (dAt gs) g := by simp [dAt]

theorem dCur_fst (gs : List (List Nat)) : (gs.foldl (fun (z : (Nat → Nat) × Nat) g =>
    (dStep z.1 g, max z.2 (mx0 (g.map z.1) + 1))) ((fun _ => 0), 0)).1 = dAt gs := by
  induction gs using List.reverseRecOn with
  | nil => rfl
  | append_singleton gs g ih => rw [dAt_snoc, List.foldl_append]; simp only [List.foldl_cons, List.foldl_nil, ih]

theorem dCur_snoc (gs g) : dCur (gs ++ [g]) = max (dCur gs) (mx0 (g.map (dAt gs)) + 1) := by
  unfold dCur
  rw [List.foldl_append]
  simp only [List.foldl_cons, List.foldl_nil, dCur_fst]

theorem le_mx0 {l : List Nat} {x : Nat} (h : x ∈ l) : x ≤ mx0 l := by
  induction l with
  | nil => simp at h
  | cons y l ih =>
    simp only [mx0, List.foldr_cons]
    rcases List.mem_cons.1 h with rfl | h
    · exact le_max_left _ _
    · exact le_trans (ih h) (le_max_right _ _)

theorem mx0_mem {l : List Nat} (h : l ≠ []) : mx0 l ∈ l := by
  induction l with
  | nil => exact absurd rfl h
  | cons y l ih =>
    simp only [mx0, List.foldr_cons]
    by_cases hl : l = []
    · subst hl; simp
    · have := ih hl
      simp only [mx0] at this
      rcases le_total y (l.foldr max 0) with e | e
      · rw [max_eq_right e]; exact List.mem_cons_of_mem _ this
      · rw [max_eq_left e]; simp

theorem sublist_snoc {c gs : List (List Nat)} {g} (h : c.Sublist (gs ++ [g])) :
    c.Sublist gs ∨ ∃ c', c = c' ++ [g] ∧ c'.Sublist gs := by
  obtain ⟨c1, c2, rfl, h1, h2⟩ := List.sublist_append_iff.1 h
  rcases List.sublist_singleton.1 h2 with rfl | rfl
  · left; simpa using h1
  · right; exact ⟨c1, rfl, h1⟩

theorem isChain_snoc {c : List (List Nat)} {g} :
    (c ++ [g]).IsChain Shares ↔ c.IsChain Shares ∧ ∀ h, c.getLast? = some h → Shares h g := by
  rw [List.isChain_append]
  simp

/-- The depth of a qubit is the longest chain that ends at it. -/
theorem dAt_spec (gs : List (List Nat)) (hne : ∀ g ∈ gs, g ≠ []) (q : Nat) :
    (∀ (c : List (List Nat)) (h : List Nat), c.Sublist gs → c.IsChain Shares → c.getLast? = some h → q ∈ h → c.length ≤ dAt gs q) ∧
    (dAt gs q = 0 ∨ ∃ (c : List (List Nat)) (h : List Nat), c.Sublist gs ∧ c.IsChain Shares ∧ c.getLast? = some h ∧ q ∈ h ∧ c.length = dAt gs q) := by
  induction gs using List.reverseRecOn generalizing q with
  | nil =>
    refine ⟨fun c h hc _ hl _ => ?_, Or.inl rfl⟩
    have : c = [] := by simpa using hc
    subst this; simp at hl
  | append_singleton gs g ih =>
    have ih := fun q => ih (fun g hg => hne g (by simp [hg])) q
    have hg : g ≠ [] := hne g (by simp)
    rw [dAt_snoc]
    refine ⟨fun c h hc hch hl hq => ?_, ?_⟩
    · rcases sublist_snoc hc with hc | ⟨c', rfl, hc'⟩
      · have := (ih q).1 c h hc hch hl hq
        simp only [dStep]
        split
        · rename_i hqg
          have := le_mx0 (List.mem_map_of_mem (f := dAt gs) hqg)
          omega
        · exact this
      · simp only [List.getLast?_append, List.getLast?_singleton, Option.some_or, Option.some.injEq] at hl
        subst hl
        obtain ⟨h1, h2⟩ := isChain_snoc.1 hch
        simp only [dStep, if_pos hq, List.length_append, List.length_singleton]
        rcases List.eq_nil_or_concat c' with rfl | ⟨c1, h', rfl⟩
        · simp
        · obtain ⟨p, hp1, hp2⟩ := h2 h' (by simp)
          have e1 := (ih p).1 _ h' hc' h1 (by simp) hp1
          have e2 := le_mx0 (List.mem_map_of_mem (f := dAt gs) hp2)
          omega
    · simp only [dStep]
      split
      · rename_i hqg
        right
        obtain ⟨p, hp, hpm⟩ := List.mem_map.1 (mx0_mem (l := g.map (dAt gs)) (by simpa using hg))
        rcases (ih p).2 with h0 | ⟨c, h, h1, h2, h3, h4, h5⟩
        · refine ⟨[g], g, by simp, by simp, by simp, hqg, ?_⟩
          rw [← hpm, h0]; rfl
        · refine ⟨c ++ [g], g, List.Sublist.append h1 (List.Sublist.refl _), ?_, by simp, hqg, ?_⟩
          · rw [isChain_snoc]
            refine ⟨h2, fun h' hh => ?_⟩
            rw [h3] at hh; simp only [Option.some.injEq] at hh; subst hh
            exact ⟨p, h4, hp⟩
          · simp [h5, hpm]
      · rcases (ih q).2 with h0 | ⟨c, h, h1, h2⟩
        · left; exact h0
        · right; exact ⟨c, h, h1.trans (List.sublist_append_left _ _), h2⟩

/-- The running maximum is the depth. -/
theorem dCur_spec (gs : List (List Nat)) (hne : ∀ g ∈ gs, g ≠ []) : IsDepth gs (dCur gs) := by
  induction gs using List.reverseRecOn with
  | nil =>
    refine ⟨fun c hc _ => ?_, [], by simp, by simp, rfl⟩
    have : c = [] := by simpa using hc
    subst this; simp
  | append_singleton gs g ih =>
    have hne' : ∀ g ∈ gs, g ≠ [] := fun g hg => hne g (by simp [hg])
    have ih := ih hne'
    obtain ⟨q, hq⟩ := List.exists_mem_of_ne_nil g (hne g (by simp))
    have hd := dAt_spec (gs ++ [g]) hne q
    have e : dAt (gs ++ [g]) q = mx0 (g.map (dAt gs)) + 1 := by rw [dAt_snoc]; simp [dStep, hq]
    rw [e] at hd
    rw [dCur_snoc]
    refine ⟨fun c hc hch => ?_, ?_⟩
    · rcases sublist_snoc hc with hc' | ⟨c', rfl, hc'⟩
      · exact le_trans (ih.1 c hc' hch) (le_max_left _ _)
      · exact le_trans (hd.1 _ g hc hch (by simp) hq) (le_max_right _ _)
    · rcases le_total (dCur gs) (mx0 (g.map (dAt gs)) + 1) with h | h
      · rw [max_eq_right h]
        rcases hd.2 with h0 | ⟨c, _, h1, h2, _, _, h5⟩
        · omega
        · exact ⟨c, h1, h2, h5⟩
      · rw [max_eq_left h]
        obtain ⟨c, h1, h2, h3⟩ := ih.2
        exact ⟨c, h1.trans (List.sublist_append_left _ _), h2, h3⟩

/-- The gates of an execution, without gates on no qubits. -/
def gateQs : List Ev → List (List Nat)
  | [] => []
  | .gate _ qs :: r => if qs = [] then gateQs r else qs :: gateQs r
  | _ :: r => gateQs r

theorem gateQs_append (l m : List Ev) : gateQs (l ++ m) = gateQs l ++ gateQs m := by
  induction l with
  | nil => rfl
  | cons e l ih =>
    cases e with
    | gate n qs => simp only [List.cons_append, gateQs, ih]; split <;> simp
    | create => simpa [gateQs] using ih
    | delete => simpa [gateQs] using ih
    | meas => simpa [gateQs] using ih

theorem gateQs_ne (l : List Ev) : ∀ g ∈ gateQs l, g ≠ [] := by
  induction l with
  | nil => simp [gateQs]
  | cons e l ih =>
    cases e with
    | gate n qs =>
      simp only [gateQs]
      split
      · exact ih
      · rename_i h
        intro g hg
        rcases List.mem_cons.1 hg with rfl | hg
        · exact h
        · exact ih g hg
    | create => simpa [gateQs] using ih
    | delete => simpa [gateQs] using ih
    | meas => simpa [gateQs] using ih

/-- The state of the metric after some gates. -/
def Tracks (mx : Nat) (d : Dp) (gs : List (List Nat)) : Prop :=
  d.dep.length = mx ∧ (∀ q < mx, d.dep[q]? = some (dAt gs q : Int)) ∧ d.cur = (dCur gs : Int)

theorem setAll_get {ids : List Nat} {e : Int} : ∀ {l : List Int} {q : Nat}, q < l.length →
    (setAll l (ids.map (fun (i : Nat) => (i : Int))) e)[q]? = (if q ∈ ids then some e else l[q]?) ∧
    (setAll l (ids.map (fun (i : Nat) => (i : Int))) e).length = l.length := by
  induction ids with
  | nil => intro l q _; simp [setAll]
  | cons i ids ih =>
    intro l q hq
    have hs : setAll l ((i :: ids).map (fun (i : Nat) => (i : Int))) e =
        setAll (l.set i e) (ids.map (fun (i : Nat) => (i : Int))) e := by
      simp [setAll]
    rw [hs]
    obtain ⟨h1, h2⟩ := ih (l := l.set i e) (q := q) (by simpa using hq)
    refine ⟨?_, by simpa using h2⟩
    rw [h1]
    by_cases h : q ∈ ids
    · simp [h]
    · by_cases hi : q = i
      · subst hi; simp [h, hq]
      · have : i ≠ q := fun e => hi e.symm
        simp [h, hi, this]

theorem maxL_mx0 {l : List Nat} (h : l ≠ []) : maxL (l.map (fun (i : Nat) => (i : Int))) = (mx0 l : Int) := by
  induction l with
  | nil => exact absurd rfl h
  | cons x l ih =>
    cases l with
    | nil => simp [maxL, mx0]
    | cons y l =>
      have := ih (by simp)
      simp only [List.map_cons] at this ⊢
      rw [maxL, this]
      · simp only [mx0, List.foldr_cons]; omega
      · simp

theorem Tracks.apply1 {mx : Nat} {d : Dp} {gs : List (List Nat)} (h : Tracks mx d gs) {g : List Nat} (hg : g ≠ [])
    (hb : ∀ q ∈ g, q < mx) : Tracks mx (apply1 d (g.map (fun (i : Nat) => (i : Int)))) (gs ++ [g]) := by
  obtain ⟨h1, h2, h3⟩ := h
  have he : maxL ((g.map (fun (i : Nat) => (i : Int))).map (takeAt d.dep)) = (mx0 (g.map (dAt gs)) : Int) := by
    rw [← maxL_mx0 (by simpa using hg)]
    congr 1
    rw [List.map_map, List.map_map]
    refine List.map_congr_left fun q hq => ?_
    have := h2 q (hb q hq)
    simp [takeAt, List.getD, this]
  refine ⟨?_, fun q hq => ?_, ?_⟩
  · by_cases hm : 0 < mx
    · exact ((setAll_get (by omega : 0 < d.dep.length)).2).trans h1
    · obtain ⟨q, hq⟩ := List.exists_mem_of_ne_nil g hg
      exact absurd (hb q hq) (by omega)
  · simp only [Met.apply1, he]
    rw [(setAll_get (by omega)).1, dAt_snoc, dStep]
    split
    · simp
    · exact h2 q hq
  · simp only [Met.apply1, he, h3, dCur_snoc]
    omega

/-- Executions that the depth metric treats correctly: no negative indices, at most `mx` qubits. -/
def depthGuard (mx : Nat) : Guard where
  getq _ i := decide (0 ≤ i)
  slice _ _ _ := true
  fuse x y := decide ((eitherQs x).length + (eitherQs y).length ≤ mx)
  create n k := decide (0 ≤ n ∧ k + n.toNat ≤ mx)

theorem gat_get {l : List Int} {i : Nat} {x : Int} (h : l[i]? = some x) : gat l i = x := by
  obtain ⟨hi, hx⟩ := List.getElem?_eq_some_iff.1 h
  have : (min (max (i : Int) 0) (l.length - 1)).toNat = i := by omega
  simp only [gat, if_neg (show ¬ ((i : Int) < 0) by omega), this, List.getD, h, Option.getD_some]

/-- A table contains the numbers of the qubits of an array. -/
def Tab (mx : Nat) (l : List Nat) (h : List Int × Int) : Prop :=
  h.2 = (l.length : Int) ∧ l.length ≤ mx ∧ (∀ q ∈ l, q < mx) ∧ ∀ (i : Nat) (q : Nat), l[i]? = some q → h.1[i]? = some (q : Int)

theorem tab_handle {mx : Nat} {x : Nat ⊕ List Nat} {x' : Int ⊕ (List Int × Int)} (hm : (eitherQs x).length ≤ mx)
    (h : Sum.LiftRel (fun (q : Nat) (q' : Int) => q' = (q : Int) ∧ q < mx) (Tab mx) x x') : Tab mx (eitherQs x) (handle x') := by
  cases h with
  | inl h =>
    obtain ⟨rfl, h⟩ := h
    refine ⟨rfl, hm, by simpa [eitherQs] using h, fun i q hq => ?_⟩
    cases i with
    | zero => simp [eitherQs] at hq; subst hq; simp [handle]
    | succ i => simp [eitherQs] at hq
  | inr h => exact h

theorem pySlice_get (l : List Nat) (s t : Int) (i q : Nat) (h : (pySlice l s t)[i]? = some q) :
    l[pyBound l.length s + i]? = some q ∧ pyBound l.length s + i < pyBound l.length t := by
  simp only [pySlice, List.getElem?_drop, List.getElem?_take] at h
  split at h
  · rename_i h1; exact ⟨h, h1⟩
  · simp at h

theorem allM_rel {α β γ : Type} {R : β → γ → Prop} {f : α → Option β} {g : α → Option γ}
    (h : ∀ a b, f a = some b → ∃ c, g a = some c ∧ R b c) : ∀ {l bs}, allM f l = some bs →
    ∃ cs, allM g l = some cs ∧ List.Forall₂ R bs cs := by
  intro l
  induction l with
  | nil => intro bs hb; simp only [allM, Option.some.injEq] at hb; subst hb; exact ⟨[], rfl, .nil⟩
  | cons a l ih =>
    intro bs hb
    simp only [allM, Option.bind_eq_some_iff, Option.some.injEq] at hb
    obtain ⟨b, h1, bs', h2, rfl⟩ := hb
    obtain ⟨c, h3, h4⟩ := h a b h1
    obtain ⟨cs, h5, h6⟩ := ih h2
    exact ⟨c :: cs, by simp only [allM, h3, h5, Option.bind_some], .cons h4 h6⟩

theorem forall_get {mx : Nat} {qs : List Nat} {qs' : List Int}
    (h : List.Forall₂ (fun (q : Nat) (q' : Int) => q' = (q : Int) ∧ q < mx) qs qs') :
    qs' = qs.map (fun (i : Nat) => (i : Int)) ∧ ∀ q ∈ qs, q < mx := by
  induction h with
  | nil => simp
  | cons h _ ih =>
    obtain ⟨rfl, h⟩ := h
    refine ⟨by rw [ih.1]; rfl, fun q hq => ?_⟩
    rcases List.mem_cons.1 hq with rfl | hq
    · exact h
    · exact ih.2 q hq

theorem gate_tracks {mx : Nat} {qs : List Nat} {qs' : List Int}
    (hq : List.Forall₂ (fun (q : Nat) (q' : Int) => q' = (q : Int) ∧ q < mx) qs qs') :
    ∀ {ops : List (String × List Nat)} {l : List Ev} {d : Dp} {gs : List (List Nat)},
    allM (fun o : String × List Nat => (allM (fun i => qs[i]?) o.2).map (Ev.gate o.1)) ops = some l → Tracks mx d gs →
    ∃ ls, allM (fun o : String × List Nat => allM (fun i => qs'[i]?) o.2) ops = some ls ∧
      Tracks mx (ls.foldl (fun s ids => if ids = [] then s else apply1 s ids) d) (gs ++ gateQs l) ∧
      (ls.foldl (fun s ids => if ids = [] then s else apply1 s ids) d).prev = d.prev ∧
      (ls.foldl (fun s ids => if ids = [] then s else apply1 s ids) d).bad = d.bad := by
  intro ops
  induction ops with
  | nil =>
    intro l d gs h ht
    simp only [allM, Option.some.injEq] at h; subst h
    exact ⟨[], rfl, by simpa [gateQs] using ht, rfl, rfl⟩
  | cons o ops ih =>
    intro l d gs h ht
    simp only [allM, Option.bind_eq_some_iff, Option.map_eq_some_iff, Option.some.injEq] at h
    obtain ⟨e, ⟨g, h1, rfl⟩, l', h2, rfl⟩ := h
    obtain ⟨g', h3, h4⟩ := allM_rel (R := fun (q : Nat) (q' : Int) => q' = (q : Int) ∧ q < mx)
      (g := fun i => qs'[i]?) (fun i q hi => by
        obtain ⟨e1, e2⟩ := forall_get hq
        refine ⟨(q : Int), ?_, rfl, e2 q (List.mem_of_getElem? hi)⟩
        rw [e1, List.getElem?_map, hi]; rfl) h1
    obtain ⟨rfl, hb⟩ := forall_get h4
    by_cases hg : g = []
    · subst hg
      obtain ⟨ls, g1, g2⟩ := ih h2 ht
      exact ⟨[] :: ls, by simp only [allM, h3, g1, Option.bind_some, List.map_nil], by simpa [gateQs] using g2⟩
    · obtain ⟨ls, g1, g2, g3, g4⟩ := ih h2 (ht.apply1 hg hb)
      refine ⟨g.map (fun (i : Nat) => (i : Int)) :: ls, by simp only [allM, h3, g1, Option.bind_some], ?_⟩
      simp only [List.foldl_cons, List.map_eq_nil_iff, hg, if_false, gateQs]
      refine ⟨by simpa using g2, g3.trans rfl, g4.trans rfl⟩

/-- The depth metric follows the execution. -/
def simDepth (mb : Int → Bool) (mx : Nat) {len : Int → Nat} (hlen : ∀ n : Int, 0 ≤ n → n ≤ mx → n.toNat ≤ len n) :
    Sim (exact (depthGuard mx) mb false) (depthI mb mx len) where
  RQ q q' := q' = (q : Int) ∧ q < mx
  RA := Tab mx
  RS s d := d.prev = (s.next : Int) ∧ s.next ≤ mx ∧ d.bad = false ∧ Tracks mx d (gateQs s.ev)
  create := by
    rintro n s s' z ⟨h1, h2, h3, h4⟩ h
    obtain ⟨hn, h⟩ := guarded h
    simp only [depthGuard, decide_eq_true_eq] at hn
    simp only [Option.some.injEq] at h; subst h
    refine ⟨_, rfl, ⟨?_, ?_, ?_, ?_⟩, ?_, ?_, ?_, ?_⟩
    · simp; omega
    · simp; omega
    · intro q hq
      simp only [List.mem_map, List.mem_range] at hq
      obtain ⟨i, hi, rfl⟩ := hq
      omega
    · intro i q hq
      simp only [List.getElem?_map, Option.map_eq_some_iff] at hq ⊢
      obtain ⟨j, hj, rfl⟩ := hq
      obtain ⟨hj1, hj2⟩ := List.getElem?_eq_some_iff.1 hj
      simp only [List.length_range, List.getElem_range] at hj1 hj2
      subst hj2
      have := hlen n hn.1 (by omega)
      refine ⟨i, List.getElem?_eq_some_iff.2 ⟨by simp; omega, by simp⟩, by rw [h1]; push_cast; rfl⟩
    · simp only [h1]; push_cast; omega
    · simp only; omega
    · simp only [h3, h1, Bool.false_or, decide_eq_false_iff_not]; omega
    · simp only [gateQs_append, gateQs, List.append_nil]; exact h4
  getq := by
    rintro l h i q ⟨h1, h2, h3, h4⟩ hq
    obtain ⟨hg, hq⟩ := guarded hq
    simp only [depthGuard, decide_eq_true_eq] at hg
    simp only [pyIdx, if_pos hg] at hq
    refine ⟨_, rfl, ?_, h3 q (List.mem_of_getElem? hq)⟩
    have := gat_get (h4 _ q hq)
    rwa [Int.toNat_of_nonneg hg] at this
  size := by rintro l h hh; exact hh.1
  fuse := by
    rintro x y x' y' z hx hy h
    obtain ⟨hg, h⟩ := guarded h
    simp only [depthGuard, decide_eq_true_eq] at hg
    simp only [Option.some.injEq] at h; subst h
    obtain ⟨a1, a2, a3, a4⟩ := tab_handle (by omega) hx
    obtain ⟨b1, b2, b3, b4⟩ := tab_handle (by omega) hy
    have hsz : min ((handle x').2 + (handle y').2) (mx : Int) = ((eitherQs x ++ eitherQs y).length : Int) := by
      rw [a1, b1, List.length_append]; push_cast; omega
    refine ⟨_, rfl, hsz, by simpa using hg, ?_, ?_⟩
    · intro q hq
      rcases List.mem_append.1 hq with hq | hq
      · exact a3 q hq
      · exact b3 q hq
    · intro i q hq
      obtain ⟨hi, _⟩ := List.getElem?_eq_some_iff.1 hq
      have hl : (eitherQs x ++ eitherQs y).length ≤ len (min ((handle x').2 + (handle y').2) (mx : Int)) := by
        rw [hsz]
        exact hlen _ (Int.natCast_nonneg _) (by simp; omega)
      rw [List.getElem?_map, List.getElem?_range (Nat.lt_of_lt_of_le hi hl), Option.map_some]
      congr 1
      split
      · rename_i hlt
        rw [a1] at hlt
        rw [List.getElem?_append_left (by omega)] at hq
        rw [show min (max (i : Int) 0) (max ((handle x').2 - 1) 0) = (i : Int) by rw [a1]; omega]
        exact gat_get (a4 i q hq)
      · rename_i hlt
        rw [a1] at hlt
        simp only [List.length_append] at hi
        rw [List.getElem?_append_right (by omega)] at hq
        rw [show min (max ((i : Int) - (handle x').2) 0) (max ((handle y').2 - 1) 0) = ((i - (eitherQs x).length : Nat) : Int) by
          rw [a1, b1]; omega]
        exact gat_get (b4 _ q hq)
  slice := by
    rintro l h s t z ⟨h1, h2, h3, h4⟩ hz
    simp only [depthGuard, if_true, Option.some.injEq] at hz; subst hz
    have hlen' : (pySlice l s t).length = pyBound l.length t - pyBound l.length s := by
      have : pyBound l.length t ≤ l.length := by simp only [pyBound]; split <;> omega
      simp only [pySlice, List.length_drop, List.length_take]; omega
    set s' : Int := max (if s < 0 then s + h.2 else s) 0 with hs'
    set t' : Int := max (min (if t < 0 then t + h.2 else t) h.2) s' with ht'
    have hsz : t' - s' = ((pySlice l s t).length : Int) := by
      rw [hlen', ht', hs', h1]
      simp only [pyBound]
      split <;> split <;> split <;> split <;> omega
    have hbs : pyBound l.length s < l.length → s' = (pyBound l.length s : Int) := by
      rw [hs', h1]
      simp only [pyBound]
      split <;> split <;> omega
    have hbt : pyBound l.length t ≤ l.length := by simp only [pyBound]; split <;> omega
    refine ⟨_, rfl, hsz, by rw [hlen']; omega, ?_, ?_⟩
    · intro q hq
      exact h3 q (List.mem_of_mem_take (List.mem_of_mem_drop hq))
    · intro i q hq
      obtain ⟨hi, _⟩ := List.getElem?_eq_some_iff.1 hq
      obtain ⟨e1, e2⟩ := pySlice_get l s t i q hq
      have hl := hlen (t' - s') (by omega) (by rw [hsz, hlen']; omega)
      show ((List.range (len (t' - s'))).map fun (i : Nat) => gat h.1 (s' + i))[i]? = _
      rw [List.getElem?_map, List.getElem?_range (by omega), Option.map_some]
      congr 1
      rw [hbs (by omega), show ((pyBound l.length s : Int) + (i : Int)) = ((pyBound l.length s + i : Nat) : Int) by push_cast; rfl]
      exact gat_get (h4 _ q e1)
  gate := by
    rintro g qs qs' s s' t hq ⟨h1, h2, h3, h4⟩ h
    simp only [elems, Option.map_eq_some_iff] at h
    obtain ⟨l, hl, rfl⟩ := h
    obtain ⟨ls, e1, e2, e3, e4⟩ := gate_tracks hq hl h4
    refine ⟨_, by simp only [e1, Option.map_some], e3.trans h1, h2, e4.trans h3, ?_⟩
    rw [gateQs_append]; exact e2
  meas1 := by
    rintro q q' k s s' z _ hs h
    simp only [Option.some.injEq] at h; subst h
    refine ⟨s', by simp, ?_⟩
    simp only [gateQs_append, gateQs, List.append_nil]; exact hs
  measA := by
    rintro a a' k s s' z ha hs h
    simp only [Option.some.injEq] at h; subst h
    refine ⟨s', ?_, ?_⟩
    · have : a'.2.toNat = a.length := by rw [ha.1]; simp
      simp [this]
    · simp only [gateQs_append, gateQs, List.append_nil]; exact hs
  reset := by
    rintro x x' s s' t _ hs h
    simp only [Option.some.injEq] at h; subst h
    exact ⟨s', rfl, hs⟩
  delete := by
    rintro a a' s s' t _ hs h
    simp only [Option.some.injEq] at h; subst h
    refine ⟨s', rfl, ?_⟩
    simp only [gateQs_append, gateQs, List.append_nil]; exact hs

end Verif.Jasp.Met
