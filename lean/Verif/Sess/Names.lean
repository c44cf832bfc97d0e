import Verif.Sess.Model
import Std.Data.String.ToNat
import Mathlib.Data.List.Nodup
import Mathlib.Data.List.GetD
import Mathlib.Data.List.Perm.Subperm

/-!
# Lemmas on names of variables
-/

namespace Verif.Sess

theorem digits_inj {a b : Nat} (h : Nat.toDigits 10 a = Nat.toDigits 10 b) : a = b := by
  apply Nat.repr_injective
  simp only [Nat.repr, h]

theorem digits_ne {a : Nat} {c : Char} (hc : c.isDigit = false) : c ∉ Nat.toDigits 10 a := fun h => by
  have := Nat.isDigit_of_mem_toDigits (by omega) (by omega) h
  rw [hc] at this
  cases this

/-- A separator that does not occur in the last parts splits uniquely. -/
theorem sep_inj {c : Char} : ∀ {x y d e : List Char}, c ∉ d → c ∉ e → x ++ c :: d = y ++ c :: e → x = y ∧ d = e
  | [], [], d, e, _, _, h => ⟨rfl, (List.cons.inj h).2⟩
  | [], a :: y, d, e, hd, _, h => by
      obtain ⟨rfl, h2⟩ := List.cons.inj h
      exact absurd (h2 ▸ (by simp : c ∈ y ++ c :: e)) hd
  | a :: x, [], d, e, _, he, h => by
      obtain ⟨rfl, h2⟩ := List.cons.inj h
      exact absurd (h2 ▸ (by simp : a ∈ x ++ a :: d)) he
  | a :: x, b :: y, d, e, hd, he, h => by
      obtain ⟨rfl, h2⟩ := List.cons.inj h
      obtain ⟨rfl, h3⟩ := sep_inj hd he h2
      exact ⟨rfl, h3⟩

theorem suffixed_inj {x y : Name} {j k : Nat} (h : suffixed x j = suffixed y k) : x = y ∧ j = k := by
  obtain ⟨h1, h2⟩ := sep_inj (digits_ne (by decide)) (digits_ne (by decide)) h
  exact ⟨h1, digits_inj h2⟩

/-- A free name is found. -/
theorem fresh_some (a : Nat) (used : List Name) (x : Name) :
    ∃ k, a ≤ k ∧ fresh a used x = some (suffixed x k) ∧ suffixed x k ∉ used ∧
      ∀ j, a ≤ j → j < k → suffixed x j ∈ used := by
  cases hf : fresh a used x with
  | none =>
    exfalso
    simp only [fresh, List.find?_eq_none, List.mem_map, List.mem_range, decide_not, Bool.not_eq_eq_eq_not,
      Bool.not_true, decide_eq_false_iff_not, Decidable.not_not, forall_exists_index, and_imp] at hf
    have hn : ((List.range (used.length + 1)).map fun k => suffixed x (a + k)).Nodup := by
      apply List.Nodup.map _ List.nodup_range
      intro j k h
      have := (suffixed_inj h).2
      omega
    have hs : ((List.range (used.length + 1)).map fun k => suffixed x (a + k)) ⊆ used := by
      intro y hy
      obtain ⟨k, hk, rfl⟩ := List.mem_map.1 hy
      have := hf _ k (List.mem_range.1 hk) rfl
      simpa using this
    have := (hn.subperm hs).length_le
    simp only [List.length_map, List.length_range] at this
    omega
  | some y =>
    simp only [fresh] at hf
    rw [List.find?_eq_some_iff_getElem] at hf
    obtain ⟨h1, i, hi, h2, h3⟩ := hf
    simp only [List.length_map, List.length_range] at hi
    simp only [List.getElem_map, List.getElem_range] at h2
    refine ⟨a + i, by omega, by rw [h2], by rw [h2]; simpa using h1, fun j h4 h5 => ?_⟩
    have := h3 (j - a) (by omega)
    simp only [List.getElem_map, List.getElem_range] at this
    rw [show a + (j - a) = j by omega] at this
    simpa using this

theorem idxOf_spec {l : List Nat} {f : Nat → Name} {x : Name} (hx : x ∈ l.map f) :
    l.getD ((l.map f).idxOf x) 0 ∈ l ∧ f (l.getD ((l.map f).idxOf x) 0) = x := by
  have h1 := List.idxOf_lt_length_of_mem hx
  have h2 : (l.map f).idxOf x < l.length := by simpa using h1
  rw [List.getD_eq_getElem _ _ h2]
  refine ⟨List.getElem_mem h2, ?_⟩
  have := List.getElem_idxOf h1
  rw [List.getElem_map] at this
  exact this

theorem idxOf_eq {l : List Nat} {f : Nat → Name} (hn : (l.map f).Nodup) {v : Nat} (hv : v ∈ l) :
    l.getD ((l.map f).idxOf (f v)) 0 = v := by
  obtain ⟨h1, h2⟩ := idxOf_spec (List.mem_map_of_mem (f := f) hv)
  exact List.inj_on_of_nodup_map hn h1 hv h2

/-- The variable that loses the name `x` when `l0` and `l1` come together. -/
def loser (q : Nat → Qv) (l0 l1 : List Nat) (x : Name) : Option Nat :=
  victim q (l0.getD ((l0.map fun v => (q v).name).idxOf x) 0) (l1.getD ((l1.map fun v => (q v).name).idxOf x) 0)

open Classical in
/-- The variables after the names in `P` are resolved. -/
noncomputable def renamed (q : Nat → Qv) (l0 l1 : List Nat) (P : List Name) (v : Nat) : Qv :=
  if (q v).name ∈ P ∧ loser q l0 l1 (q v).name = some v then
    { q v with name := (fresh 1 ((l0.map fun v => (q v).name) ++ l1.map fun v => (q v).name) (q v).name).getD [] }
  else q v

theorem victim_cases {q : Nat → Qv} {v0 v1 v : Nat} (h : victim q v0 v1 = some v) : v = v0 ∨ v = v1 := by
  unfold victim at h
  split at h
  · split at h
    · cases h
    · exact .inl (Option.some.inj h).symm
  · split at h
    · split at h
      · exact .inl (Option.some.inj h).symm
      · exact .inr (Option.some.inj h).symm
    · exact .inr (Option.some.inj h).symm

theorem victim_none {q : Nat → Qv} {v0 v1 : Nat} : victim q v0 v1 = none ↔ (q v0).user = true ∧ (q v1).user = true := by
  unfold victim
  constructor
  · intro h
    split at h
    · split at h
      · exact ⟨by assumption, by assumption⟩
      · cases h
    · split at h
      · split at h <;> cases h
      · cases h
  · rintro ⟨h1, h2⟩
    simp [h1, h2]

theorem victim_congr {q q' : Nat → Qv} (hu : ∀ v, (q v).user = (q' v).user) (ht : ∀ v, (q v).time = (q' v).time)
    (v0 v1 : Nat) : victim q v0 v1 = victim q' v0 v1 := by
  simp only [victim, hu, ht]

theorem renamed_rest (q : Nat → Qv) (l0 l1 : List Nat) (P : List Name) (v : Nat) :
    renamed q l0 l1 P v = { q v with name := (renamed q l0 l1 P v).name } := by
  unfold renamed
  split <;> rfl

theorem loser_mem {q : Nat → Qv} {l0 l1 : List Nat} {x : Name} (h0 : x ∈ l0.map fun v => (q v).name)
    (h1 : x ∈ l1.map fun v => (q v).name) {v : Nat} (h : loser q l0 l1 x = some v) :
    (v ∈ l0 ∨ v ∈ l1) ∧ (q v).name = x := by
  rcases victim_cases h with h | h
  · have := idxOf_spec h0
    rw [← h] at this
    exact ⟨.inl this.1, this.2⟩
  · have := idxOf_spec h1
    rw [← h] at this
    exact ⟨.inr this.1, this.2⟩

theorem resolve_loop (q : Nat → Qv) (l0 l1 : List Nat) :
    ∀ (N P : List Name), (P ++ N).Nodup → (∀ x ∈ N, x ∈ l0.map fun v => (q v).name) →
      (∀ x ∈ N, x ∈ l1.map fun v => (q v).name) → 
      (∀ x ∈ N, ∃ v, loser q l0 l1 x = some v) →
      N.foldlM (resolveOne l0 l1 (l0.map fun v => (q v).name) (l1.map fun v => (q v).name)) (renamed q l0 l1 P)
        = some (renamed q l0 l1 (P ++ N))
  | [], P, _, _, _, _ => by simp
  | x :: N, P, hn, h0, h1, hl => by
      obtain ⟨v, hv⟩ := hl x (by simp)
      obtain ⟨hm, hx⟩ := loser_mem (h0 x (by simp)) (h1 x (by simp)) hv
      have hxP : x ∉ P := fun h => (List.nodup_append.1 hn).2.2 x h x (by simp) rfl
      have hv' : victim (renamed q l0 l1 P) (l0.getD ((l0.map fun v => (q v).name).idxOf x) 0)
          (l1.getD ((l1.map fun v => (q v).name).idxOf x) 0) = some v := by
        rw [victim_congr (q' := q)]
        · exact hv
        · intro u; rw [renamed_rest]
        · intro u; rw [renamed_rest]
      have hr : renamed q l0 l1 P v = q v := by
        unfold renamed
        rw [if_neg (fun h => hxP (hx ▸ h.1))]
      obtain ⟨k, _, hk, _⟩ := fresh_some 1 ((l0.map fun v => (q v).name) ++ l1.map fun v => (q v).name) x
      have hstep : resolveOne l0 l1 (l0.map fun v => (q v).name) (l1.map fun v => (q v).name) (renamed q l0 l1 P) x
          = some (renamed q l0 l1 (P ++ [x])) := by
        simp only [resolveOne, hv', hr, hx, hk, Option.bind_eq_bind, Option.bind_some, Option.pure_def, Option.some.injEq]
        funext u
        unfold upd
        by_cases hu : u = v
        · subst hu
          rw [if_pos rfl]
          unfold renamed
          rw [if_pos ⟨by simp [hx], by rw [hx]; exact hv⟩, hx, hk]
          rfl
        · rw [if_neg hu]
          unfold renamed
          by_cases hP : (q u).name ∈ P
          · simp [hP]
          · rw [if_neg (fun h => hP h.1), if_neg]
            rintro ⟨h2, h3⟩
            have : (q u).name = x := by simpa [hP] using h2
            rw [this] at h3
            exact hu (Option.some.inj (h3.symm.trans hv))
      rw [List.foldlM_cons, hstep]
      have := resolve_loop q l0 l1 N (P ++ [x]) (by simpa using hn) (fun y hy => h0 y (by simp [hy]))
        (fun y hy => h1 y (by simp [hy])) (fun y hy => hl y (by simp [hy]))
      simpa using this

/-- The common names. -/
def common (q : Nat → Qv) (l0 l1 : List Nat) : List Name :=
  (l0.map fun v => (q v).name).filter fun x => decide (x ∈ l1.map fun v => (q v).name)

theorem mem_common {q : Nat → Qv} {l0 l1 : List Nat} {x : Name} :
    x ∈ common q l0 l1 ↔ (∃ u ∈ l0, (q u).name = x) ∧ ∃ v ∈ l1, (q v).name = x := by
  simp [common]

theorem renamed_nil (q : Nat → Qv) (l0 l1 : List Nat) : renamed q l0 l1 [] = q := by
  funext v
  simp [renamed]

theorem resolve_some {q : Nat → Qv} {l0 l1 : List Nat} (h0 : (l0.map fun v => (q v).name).Nodup)
    (hl : ∀ x ∈ common q l0 l1, ∃ v, loser q l0 l1 x = some v) :
    resolve q l0 l1 = some (renamed q l0 l1 (common q l0 l1)) := by
  have := resolve_loop q l0 l1 (common q l0 l1) [] (by simpa [common] using h0.filter _)
    (fun x hx => by have := (mem_common.1 hx).1; simpa using this)
    (fun x hx => by have := (mem_common.1 hx).2; simpa using this) hl
  rw [renamed_nil] at this
  exact this

theorem foldlM_none {α β : Type} (f : β → α → Option β) :
    ∀ (l : List α) (b : β) (I : β → Prop), I b → (∀ b a b', I b → f b a = some b' → I b') →
      (∃ a ∈ l, ∀ b, I b → f b a = none) → l.foldlM f b = none
  | [], b, I, _, _, ⟨a, ha, _⟩ => by simp at ha
  | x :: l, b, I, hb, hs, ⟨a, ha, hn⟩ => by
      rw [List.foldlM_cons]
      cases hx : f b x with
      | none => rfl
      | some b' =>
        rcases List.mem_cons.1 ha with rfl | h
        · rw [hn b hb] at hx
          cases hx
        · exact foldlM_none f l b' I (hs b x b' hb hx) hs ⟨a, h, hn⟩

theorem resolveOne_keeps {l0 l1 : List Nat} {n0 n1 : List Name} {q q' : Nat → Qv} {x : Name}
    (h : resolveOne l0 l1 n0 n1 q x = some q') (v : Nat) : (q' v).user = (q v).user ∧ (q' v).time = (q v).time := by
  simp only [resolveOne, Option.bind_eq_bind, Option.bind_eq_some_iff, Option.pure_def, Option.some.injEq] at h
  obtain ⟨u, _, y, _, rfl⟩ := h
  unfold upd
  split
  · subst_vars; exact ⟨rfl, rfl⟩
  · exact ⟨rfl, rfl⟩

/-- The exception: two variables with the same name given by the user. -/
theorem resolve_none {q : Nat → Qv} {l0 l1 : List Nat} (h0 : (l0.map fun v => (q v).name).Nodup)
    (h1 : (l1.map fun v => (q v).name).Nodup) :
    resolve q l0 l1 = none ↔ ∃ u ∈ l0, ∃ v ∈ l1, (q u).name = (q v).name ∧ (q u).user = true ∧ (q v).user = true := by
  constructor
  · intro h
    by_contra hc
    have : ∀ x ∈ common q l0 l1, ∃ v, loser q l0 l1 x = some v := by
      intro x hx
      cases hl : loser q l0 l1 x with
      | some v => exact ⟨v, rfl⟩
      | none =>
        exfalso
        obtain ⟨⟨u, hu, hux⟩, ⟨v, hv, hvx⟩⟩ := mem_common.1 hx
        have := victim_none.1 hl
        obtain ⟨a1, a2⟩ := idxOf_spec (List.mem_map_of_mem (f := fun v => (q v).name) hu)
        obtain ⟨b1, b2⟩ := idxOf_spec (List.mem_map_of_mem (f := fun v => (q v).name) hv)
        simp only [hux, hvx] at a1 a2 b1 b2
        exact hc ⟨_, a1, _, b1, a2.trans b2.symm, this⟩
    rw [resolve_some h0 this] at h
    cases h
  · rintro ⟨u, hu, v, hv, hn, hu1, hv1⟩
    unfold resolve
    refine foldlM_none _ _ _ (fun q' => ∀ w, (q' w).user = (q w).user) (fun _ => rfl) ?_ ⟨(q u).name, ?_, ?_⟩
    · intro b a b' hb hf w
      rw [(resolveOne_keeps hf w).1, hb]
    · exact mem_common.2 ⟨⟨u, hu, rfl⟩, ⟨v, hv, hn.symm⟩⟩
    · intro b hb
      have hu2 : l0.getD ((l0.map fun v => (q v).name).idxOf (q u).name) 0 = u := idxOf_eq h0 hu
      have hv2 : l1.getD ((l1.map fun v => (q v).name).idxOf (q u).name) 0 = v := by
        rw [hn]; exact idxOf_eq h1 hv
      have : victim b u v = none := victim_none.2 ⟨by rw [hb, hu1], by rw [hb, hv1]⟩
      simp only [resolveOne, hu2, hv2, this]
      rfl

/-- After `resolve` the names differ. -/
theorem renamed_inj {q : Nat → Qv} {l0 l1 : List Nat} (h0 : (l0.map fun v => (q v).name).Nodup)
    (h1 : (l1.map fun v => (q v).name).Nodup) (hl : ∀ x ∈ common q l0 l1, ∃ v, loser q l0 l1 x = some v) {u v : Nat}
    (hu : u ∈ l0 ∨ u ∈ l1) (hv : v ∈ l0 ∨ v ∈ l1)
    (h : (renamed q l0 l1 (common q l0 l1) u).name = (renamed q l0 l1 (common q l0 l1) v).name) : u = v := by
  have hused : ∀ w, (w ∈ l0 ∨ w ∈ l1) → (q w).name ∈ (l0.map fun v => (q v).name) ++ l1.map fun v => (q v).name := by
    rintro w (hw | hw)
    · exact List.mem_append_left _ (List.mem_map_of_mem (f := fun v => (q v).name) hw)
    · exact List.mem_append_right _ (List.mem_map_of_mem (f := fun v => (q v).name) hw)
  unfold renamed at h
  split at h
  · rename_i hu1
    obtain ⟨j, _, hj, hj2, _⟩ := fresh_some 1 ((l0.map fun v => (q v).name) ++ l1.map fun v => (q v).name) (q u).name
    rw [hj] at h
    split at h
    · rename_i hv1
      obtain ⟨k, _, hk, hk2, _⟩ := fresh_some 1 ((l0.map fun v => (q v).name) ++ l1.map fun v => (q v).name) (q v).name
      rw [hk] at h
      have := (suffixed_inj h).1
      exact Option.some.inj (hu1.2.symm.trans (this ▸ hv1.2))
    · exact absurd ((show suffixed (q u).name j = (q v).name from h) ▸ hused v hv) hj2
  · rename_i hu1
    split at h
    · rename_i hv1
      obtain ⟨k, _, hk, hk2, _⟩ := fresh_some 1 ((l0.map fun v => (q v).name) ++ l1.map fun v => (q v).name) (q v).name
      rw [hk] at h
      exact absurd ((show (q u).name = suffixed (q v).name k from h) ▸ hused u hu) hk2
    · rename_i hv1
      by_contra hne
      have key : ∀ a b : Nat, a ∈ l0 → b ∈ l1 → (q a).name = (q b).name →
          ¬((q a).name ∈ common q l0 l1 ∧ loser q l0 l1 (q a).name = some a) →
          ¬((q b).name ∈ common q l0 l1 ∧ loser q l0 l1 (q b).name = some b) → False := by
        intro a b ha hb hab h2 h3
        have hc : (q a).name ∈ common q l0 l1 := mem_common.2 ⟨⟨a, ha, rfl⟩, ⟨b, hb, hab.symm⟩⟩
        obtain ⟨c, hcl⟩ := hl _ hc
        have ha2 : l0.getD ((l0.map fun v => (q v).name).idxOf (q a).name) 0 = a := idxOf_eq h0 ha
        have hb2 : l1.getD ((l1.map fun v => (q v).name).idxOf (q a).name) 0 = b := by
          rw [hab]; exact idxOf_eq h1 hb
        have := victim_cases hcl
        rw [ha2, hb2] at this
        rcases this with rfl | rfl
        · exact h2 ⟨hc, hcl⟩
        · exact h3 ⟨hab ▸ hc, hab ▸ hcl⟩
      rcases hu with hu | hu <;> rcases hv with hv | hv
      · exact hne (List.inj_on_of_nodup_map h0 hu hv h)
      · exact key u v hu hv h hu1 hv1
      · exact key v u hv hu h.symm hv1 hu1
      · exact hne (List.inj_on_of_nodup_map h1 hu hv h)

theorem ident_inj {q : Nat → Qv} {b c : Qubit} (h : ident q b = ident q c) : (q b.1).name = (q c.1).name ∧ b.2 = c.2 := by
  obtain ⟨h1, h2⟩ := sep_inj (digits_ne (by decide)) (digits_ne (by decide)) h
  exact ⟨h1, digits_inj h2⟩

end Verif.Sess
