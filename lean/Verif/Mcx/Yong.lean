import Verif.Mcx.Amp

/-!
# Recursive multi-controlled X with one dirty ancilla

Model of `alg_primitives/mcx_algs/yong.py`.
-/

set_option linter.unusedSectionVars false

namespace Verif.Mcx

open Verif.Rev

variable {Q : Type} [DecidableEq Q] {R : Type} [CommRing R]

/-- `yong_mcx` (yong.py:24-83) with control state all ones and the ancilla given. Two controls use the exact `gray`
gate (yong.py:33-35), one or no control raises an `IndexError` or never ends, and is not reached: the result is the
empty circuit. `fuel` bounds the recursion; `ins.length` is enough. -/
def yong : Nat → List Q → Q → Q → List (AGate Q)
  | 0, _, _, _ => []
  | fuel + 1, ins, t, anc =>
    if ins.length < 2 then []
    else if ins.length = 2 then [.mcx ins t]
    else
      let k1 := ins.drop (ins.length / 2)
      let k2 := ins.take (ins.length / 2)
      [.h t] ++ yong fuel k1 anc (k2.getLast?.getD t) ++ [.dg 2 [anc]] ++
      yong fuel (k2 ++ [t]) anc (k1.getLast?.getD t) ++ [.dg 6 [anc]] ++
      ainv ([.dg 2 [anc]] ++ yong fuel (k2 ++ [t]) anc (k1.head?.getD t) ++ [.dg 6 [anc]] ++
        yong fuel k1 anc (k2.head?.getD t)) ++ [.h t]

/-- yong.py:37-39 and 81-83: X on the controls with control state 0. -/
def yongFlips (ps : List (Q × Bool)) : List (AGate Q) := (ps.filter fun p => !p.2).map fun p => .mcx [] p.1

/-- `yong_mcx` as called from `mcx(…, method = "yong")`. -/
def yongMcx (ps : List (Q × Bool)) (t anc : Q) : List (AGate Q) :=
  yongFlips ps ++ yong ps.length (ps.map Prod.fst) t anc ++ yongFlips ps

theorem ainv_append (A B : List (AGate Q)) : ainv (A ++ B) = ainv B ++ ainv A := by
  unfold ainv; rw [List.map_append, List.reverse_append]

theorem allOn_append (A B : List Q) (s : St Q) : allOn (A ++ B) s = (allOn A s && allOn B s) := by
  unfold allOn; rw [List.all_append]

/-- The phase kick: X^f S X^g S† twice on the ancilla is the phase −1 when both `f` and `g` hold. -/
theorem kick (e : Root8 R) {k1 g : List Q} {a : Q} (h1 : a ∉ k1) (hg : a ∉ g) (ψ : St Q → R) (s : St Q) :
    let U := fun χ : St Q → R => (AGate.dg 6 [a]).app e ((AGate.mcx g a).app e ((AGate.dg 2 [a]).app e
      ((AGate.mcx k1 a).app e χ)))
    U (U ψ) s = (if allOn k1 s && allOn g s then -1 else 1) * ψ s := by
  have hw4 := e.w4
  have hsing : ∀ s : St Q, allOn [a] s = s a := fun s => by simp [allOn]
  simp only [AGate.app, hsing, allOn_upd h1, allOn_upd hg, upd_same]
  have hupd : ∀ (s : St Q) b c, upd (upd s a b) a c = upd s a c := fun s b c => by
    funext x; by_cases hx : x = a
    · subst hx; rw [upd_same, upd_same]
    · rw [upd_ne hx, upd_ne hx, upd_ne hx]
  have hself : ∀ (b : Bool), s a = b → upd s a b = s := fun b hb => by
    funext x; by_cases hx : x = a
    · subst hx; rw [upd_same, hb]
    · rw [upd_ne hx]
  have h8 : e.w ^ 6 * e.w ^ 2 = 1 := by rw [← pow_add]; exact e.w8
  have h88 : e.w ^ 2 * e.w ^ 2 = -1 := by rw [← pow_add]; exact e.w4
  have h66 : e.w ^ 6 * e.w ^ 6 = -1 := by
    rw [← pow_add, show (6 + 6 : Nat) = 8 + 4 from rfl, pow_add, e.w8, e.w4, one_mul]
  simp only [hupd]
  cases hf : allOn k1 s <;> cases hgg : allOn g s <;> cases ha : s a <;>
    simp [hself _ ha, ← mul_assoc, h8, h88, h66, mul_comm (e.w ^ 2) (e.w ^ 6)]

/-- H on the target around a phase −1 on target and controls is a controlled X. -/
theorem hConj (e : Root8 R) {t : Q} {f : St Q → Bool} (hf : ∀ s b, f (upd s t b) = f s) (ψ : St Q → R) :
    (AGate.h t).app e (fun s => (if f s && s t then -1 else 1) * (AGate.h t).app e ψ s) =
      fun s => ψ (upd s t (s t ^^ f s)) := by
  have h2 := e.r2
  funext s
  have hupd : ∀ b c, upd (upd s t b) t c = upd s t c := fun b c => by
    funext x; by_cases hx : x = t
    · subst hx; rw [upd_same, upd_same]
    · rw [upd_ne hx, upd_ne hx, upd_ne hx]
  simp only [AGate.app, hf, upd_same, hupd]
  cases hfs : f s <;> cases hs : s t <;> simp
  · linear_combination ψ (upd s t false) * h2
  · linear_combination ψ (upd s t true) * h2
  · linear_combination ψ (upd s t true) * h2
  · linear_combination ψ (upd s t false) * h2

theorem app_mcx_self (e : Root8 R) {cs : List Q} {t : Q} (h : t ∉ cs) (ψ : St Q → R) :
    (AGate.mcx cs t).app e ((AGate.mcx cs t).app e ψ) = ψ :=
  (app_inv e (.mcx cs t) h ψ).1

/-- Layout of a call: target and ancilla outside the inputs and different, inputs distinct. -/
structure YLay (ins : List Q) (t anc : Q) : Prop where
  nodup : ins.Nodup
  ht : t ∉ ins
  ha : anc ∉ ins
  hat : anc ≠ t

theorem take_drop_disj {ins : List Q} (h : ins.Nodup) (m : Nat) {x : Q} (h1 : x ∈ ins.take m) : x ∉ ins.drop m := by
  have := List.take_append_drop m ins
  rw [← this, List.nodup_append] at h
  exact fun h2 => h.2.2 x h1 x h2 rfl

theorem yong_spec (e : Root8 R) : ∀ (fuel : Nat) (ins : List Q) (t anc : Q), YLay ins t anc → 2 ≤ ins.length →
    ins.length ≤ fuel →
    (∀ g ∈ yong fuel ins t anc, g.uwf) ∧ ∀ ψ : St Q → R, run e (yong fuel ins t anc) ψ = (AGate.mcx ins t).app e ψ := by
  intro fuel
  induction fuel with
  | zero => intro ins t anc _ h2 hf; omega
  | succ fuel ih =>
    intro ins t anc hL h2 hf
    unfold yong
    rw [if_neg (by omega)]
    by_cases h : ins.length = 2
    · rw [if_pos h]
      refine ⟨fun g hg => ?_, fun ψ => rfl⟩
      rw [List.mem_singleton] at hg
      subst hg
      exact hL.ht
    · rw [if_neg h]
      obtain ⟨k1, hk1⟩ : ∃ k, k = ins.drop (ins.length / 2) := ⟨_, rfl⟩
      obtain ⟨k2, hk2⟩ : ∃ k, k = ins.take (ins.length / 2) := ⟨_, rfl⟩
      simp only [← hk1, ← hk2]
      have hl1 : k1.length = ins.length - ins.length / 2 := by rw [hk1, List.length_drop]
      have hl2 : k2.length = ins.length / 2 := by rw [hk2, List.length_take]; omega
      have hm1 : ∀ x ∈ k1, x ∈ ins := fun x hx => List.mem_of_mem_drop (hk1 ▸ hx)
      have hm2 : ∀ x ∈ k2, x ∈ ins := fun x hx => List.mem_of_mem_take (hk2 ▸ hx)
      have hd : ∀ x ∈ k2, x ∉ k1 := fun x hx => by
        rw [hk1]; rw [hk2] at hx; exact take_drop_disj hL.nodup _ hx
      have hn1 : k1.Nodup := by rw [hk1]; exact hL.nodup.sublist (List.drop_sublist _ _)
      have hn2 : (k2 ++ [t]).Nodup := by
        rw [List.nodup_append]
        refine ⟨by rw [hk2]; exact hL.nodup.sublist (List.take_sublist _ _), by simp, fun x hx y hy => ?_⟩
        rw [List.mem_singleton] at hy
        subst hy
        exact fun e => hL.ht (e ▸ hm2 x hx)
      have ha1 : anc ∉ k1 := fun hx => hL.ha (hm1 _ hx)
      have ha2 : anc ∉ k2 ++ [t] := by
        rw [List.mem_append, List.mem_singleton]
        rintro (hx | hx)
        · exact hL.ha (hm2 _ hx)
        · exact hL.hat hx
      have A : ∀ b ∈ k2, (∀ g ∈ yong fuel k1 anc b, g.uwf) ∧
          ∀ ψ : St Q → R, run e (yong fuel k1 anc b) ψ = (AGate.mcx k1 anc).app e ψ := fun b hb =>
        ih k1 anc b ⟨hn1, ha1, hd b hb, fun e => hL.ha (e ▸ hm2 b hb)⟩ (by omega) (by omega)
      have B : ∀ b ∈ k1, (∀ g ∈ yong fuel (k2 ++ [t]) anc b, g.uwf) ∧
          ∀ ψ : St Q → R, run e (yong fuel (k2 ++ [t]) anc b) ψ = (AGate.mcx (k2 ++ [t]) anc).app e ψ := fun b hb =>
        ih (k2 ++ [t]) anc b ⟨hn2, ha2, by
          rw [List.mem_append, List.mem_singleton]
          rintro (hx | hx)
          · exact hd b hx hb
          · exact hL.ht (hx ▸ hm1 b hb), fun e => hL.ha (e ▸ hm1 b hb)⟩ (by simp; omega) (by simp; omega)
      have hlast : ∀ {k : List Q}, k ≠ [] → k.getLast?.getD t ∈ k := fun {k} hk => by
        rw [List.getLast?_eq_some_getLast hk]; exact List.getLast_mem hk
      have hhead : ∀ {k : List Q}, k ≠ [] → k.head?.getD t ∈ k := fun {k} hk => by
        cases k with
        | nil => exact absurd rfl hk
        | cons a l => simp
      have hne1 : k1 ≠ [] := fun h => by rw [h] at hl1; simp at hl1; omega
      have hne2 : k2 ≠ [] := fun h => by rw [h] at hl2; simp at hl2; omega
      obtain ⟨wA1, rA1⟩ := A _ (hlast hne2)
      obtain ⟨wA2, rA2⟩ := A _ (hhead hne2)
      obtain ⟨wB1, rB1⟩ := B _ (hlast hne1)
      obtain ⟨wB2, rB2⟩ := B _ (hhead hne1)
      have iA2 := run_ainv_of_self e wA2 (app_mcx_self e ha1) rA2
      have iB2 := run_ainv_of_self e wB2 (app_mcx_self e ha2) rB2
      have hinvwf : ∀ {l : List (AGate Q)}, (∀ g ∈ l, g.uwf) → ∀ g ∈ ainv l, g.uwf := by
        intro l hl g hg
        unfold ainv at hg
        rw [List.mem_reverse, List.mem_map] at hg
        obtain ⟨g', hg', rfl⟩ := hg
        have := hl g' hg'
        cases g' <;> exact this
      have w1 : ∀ {g : AGate Q}, g.uwf → ∀ g' ∈ [g], g'.uwf := fun h g' hg' => by
        rw [List.mem_singleton] at hg'; rw [hg']; exact h
      have wap : ∀ {l l' : List (AGate Q)}, (∀ g ∈ l, g.uwf) → (∀ g ∈ l', g.uwf) → ∀ g ∈ l ++ l', g.uwf :=
        fun h h' g hg => (List.mem_append.1 hg).elim (h g) (h' g)
      refine ⟨wap (wap (wap (wap (wap (wap (w1 trivial) wA1) (w1 trivial)) wB1) (w1 trivial))
        (hinvwf (wap (wap (wap (w1 trivial) wB2) (w1 trivial)) wA2))) (w1 trivial), fun ψ => ?_⟩
      have iS : ∀ ψ : St Q → R, run e (ainv [AGate.dg 6 [anc]]) ψ = (AGate.dg 2 [anc]).app e ψ := fun ψ => by
        have h42 : e.w ^ 42 = e.w ^ 2 := by
          rw [show (42 : Nat) = 8 * 5 + 2 from rfl, pow_add, pow_mul, e.w8, one_pow, one_mul]
        simp [ainv, AGate.inv, run, AGate.app, h42]
      have iS' : ∀ ψ : St Q → R, run e (ainv [AGate.dg 2 [anc]]) ψ = (AGate.dg 6 [anc]).app e ψ := fun ψ => by
        have h42 : e.w ^ 14 = e.w ^ 6 := by
          rw [show (14 : Nat) = 8 * 1 + 6 from rfl, pow_add, pow_mul, e.w8, one_pow, one_mul]
        simp [ainv, AGate.inv, run, AGate.app, h42]
      have r1 : ∀ (g : AGate Q) (ψ : St Q → R), run e [g] ψ = g.app e ψ := fun _ _ => rfl
      simp only [ainv_append, run_append, rA1, rB1, iA2, iB2, iS, iS', r1]
      have hkick := funext (kick e ha1 ha2 ((AGate.h t).app e ψ))
      dsimp only at hkick
      rw [hkick]
      have hsplit : ∀ s : St Q, (allOn k1 s && allOn (k2 ++ [t]) s) = (allOn ins s && s t) := fun s => by
        rw [allOn_append]
        conv_rhs => rw [← List.take_append_drop (ins.length / 2) ins, allOn_append, ← hk1, ← hk2]
        have : allOn [t] s = s t := by simp [allOn]
        rw [this]
        cases allOn k1 s <;> cases allOn k2 s <;> cases s t <;> rfl
      simp only [hsplit]
      exact hConj e (fun s b => allOn_upd hL.ht) ψ

theorem yongFlips_run (e : Root8 R) : ∀ (ps : List (Q × Bool)), (ps.map Prod.fst).Nodup → ∀ (ψ : St Q → R) (s : St Q),
    run e (yongFlips ps) ψ s = ψ (fun x => if x ∈ (ps.filter fun p => !p.2).map Prod.fst then !s x else s x) := by
  intro ps
  induction ps with
  | nil => intro _ ψ s; simp [yongFlips, run]
  | cons p ps ih =>
    intro hn ψ s
    rw [List.map_cons, List.nodup_cons] at hn
    obtain ⟨q, b⟩ := p
    cases b with
    | true =>
      have := ih hn.2 ψ s
      simpa [yongFlips] using this
    | false =>
      have hz : q ∉ (ps.filter fun p => !p.2).map Prod.fst := fun h => by
        rw [List.mem_map] at h
        obtain ⟨a, ha, hq⟩ := h
        exact hn.1 (List.mem_map.2 ⟨a, (List.mem_filter.1 ha).1, hq⟩)
      have h0 : yongFlips ((q, false) :: ps) = AGate.mcx [] q :: yongFlips ps := by simp [yongFlips]
      rw [h0, run, ih hn.2]
      have h1 : (((q, false) :: ps).filter fun p => !p.2).map Prod.fst = q :: (ps.filter fun p => !p.2).map Prod.fst := by
        simp
      rw [h1]
      simp only [AGate.app]
      congr 1
      funext x
      by_cases hx : x = q
      · subst hx
        rw [upd_same, if_neg hz, if_pos (List.mem_cons_self)]
        simp [allOn]
      · rw [upd_ne hx]
        simp [hx]

/-- `yong_mcx` is the multi-controlled X with the control state, whatever the ancilla holds. -/
theorem yongMcx_run (e : Root8 R) {ps : List (Q × Bool)} {t anc : Q} (hL : YLay (ps.map Prod.fst) t anc)
    (h2 : 2 ≤ ps.length) (ψ : St Q → R) : run e (yongMcx ps t anc) ψ = mcxOp ps t ψ := by
  have hy := (yong_spec e ps.length (ps.map Prod.fst) t anc hL (by simpa using h2) (by simp)).2
  unfold yongMcx
  rw [run_append, run_append, hy]
  funext s
  rw [yongFlips_run e ps hL.nodup]
  simp only [AGate.app]
  rw [yongFlips_run e ps hL.nodup, mcxOp]
  have hz : ∀ x, x ∈ (ps.filter fun p => !p.2).map Prod.fst → x ∈ ps.map Prod.fst := fun x h => by
    rw [List.mem_map] at h ⊢
    obtain ⟨a, ha, hq⟩ := h
    exact ⟨a, (List.mem_filter.1 ha).1, hq⟩
  have hall : allOn (ps.map Prod.fst) (fun x => if x ∈ (ps.filter fun p => !p.2).map Prod.fst then !s x else s x) =
      allMatch ps s := by
    unfold allOn allMatch
    rw [List.all_map, Bool.eq_iff_iff, List.all_eq_true, List.all_eq_true]
    refine forall₂_congr fun p hp => ?_
    rw [← Bool.eq_iff_iff]
    obtain ⟨q, b⟩ := p
    have huniq : q ∈ (ps.filter fun p => !p.2).map Prod.fst ↔ b = false := by
      constructor
      · intro h
        rw [List.mem_map] at h
        obtain ⟨a, ha, hq⟩ := h
        have := List.inj_on_of_nodup_map hL.nodup (List.mem_filter.1 ha).1 hp hq
        rw [this] at ha
        simpa using (List.mem_filter.1 ha).2
      · intro h
        exact List.mem_map.2 ⟨(q, b), List.mem_filter.2 ⟨hp, by simp [h]⟩, rfl⟩
    simp only [Function.comp]
    by_cases hb : q ∈ (ps.filter fun p => !p.2).map Prod.fst
    · rw [if_pos hb, huniq.1 hb]; cases s q <;> rfl
    · rw [if_neg hb]
      have : b = true := by
        cases b
        · exact absurd (huniq.2 rfl) hb
        · rfl
      rw [this]; cases s q <;> rfl
  rw [hall]
  congr 1
  funext x
  by_cases hx : x = t
  · subst hx
    have hnt : x ∉ (ps.filter fun p => !p.2).map Prod.fst := fun h => hL.ht (hz _ h)
    rw [if_neg hnt, upd_same, upd_same, if_neg hnt]
  · rw [upd_ne hx]
    by_cases hm : x ∈ (ps.filter fun p => !p.2).map Prod.fst
    · rw [if_pos hm, upd_ne hx, if_pos hm, Bool.not_not]
    · rw [if_neg hm, upd_ne hx, if_neg hm]

end Verif.Mcx
