import Verif.Rev.GidneyQ
import Mathlib.Data.List.Count
import Mathlib.Data.List.Perm.Basic

set_option linter.unusedSectionVars false
set_option linter.unusedSimpArgs false

namespace Verif.Rev

variable {Q : Type} [DecidableEq Q]

/-- A position-wise zip of three registers. -/
theorem zip3_lists (b a d : List Q) (h1 : b.length = d.length) (h2 : d.length ≤ a.length) :
    fst3 (b.zip (a.zip d)) = b ∧ snd3 (b.zip (a.zip d)) = a.take d.length
      ∧ trd3 (b.zip (a.zip d)) = d ∧ (b.zip (a.zip d)).length = b.length
      ∧ ((b.zip (a.zip d)).flatMap (fun t => [t.1, t.2.1, t.2.2])).Perm
          (b ++ (a.take d.length ++ d)) := by
  induction b generalizing a d with
  | nil =>
    have : d = [] := List.length_eq_zero_iff.1 h1.symm
    subst this; simp [fst3, snd3, trd3]
  | cons x b ih =>
    cases d with
    | nil => simp at h1
    | cons z d =>
      cases a with
      | nil => simp at h2
      | cons y a =>
        obtain ⟨i1, i2, i3, i4, i5⟩ := ih a d (by simpa using h1) (by simpa using h2)
        simp only [List.zip_cons_cons, List.length_cons, List.take_succ_cons]
        refine ⟨?_, ?_, ?_, ?_, ?_⟩
        · simp only [fst3, List.map_cons] at i1 ⊢; rw [i1]
        · simp only [snd3, List.map_cons] at i2 ⊢; rw [i2]
        · simp only [trd3, List.map_cons] at i3 ⊢; rw [i3]
        · rw [i4]
        · rw [List.perm_iff_count] at i5 ⊢
          intro q
          have := i5 q
          simp only [List.flatMap_cons, List.count_append, List.count_cons, List.count_nil,
            List.cons_append, List.nil_append] at this ⊢
          omega

/-- Split a sum over a register with an extra top qubit. -/
theorem top_split (b : List Q) (o : Q) (s s' : St Q) (T : Nat) (hT : T < 2 * 2 ^ b.length)
    (h : regVal (b ++ [o]) s' = (T + 2 ^ b.length * (s o).toNat) % 2 ^ (b.length + 1)) :
    regVal b s' = T % 2 ^ b.length ∧ s' o = (s o ^^ decide (2 ^ b.length ≤ T)) := by
  rw [regVal_append, regVal_cons, regVal_nil, Nat.mul_zero, Nat.add_zero, pow_succ] at h
  have hl := regVal_lt b s'
  have hp : 0 < 2 ^ b.length := by positivity
  generalize 2 ^ b.length = P at *
  generalize regVal b s' = V at *
  by_cases hc : P ≤ T
  · have e : T = (T - P) + P := by omega
    have hm : T % P = T - P := by
      rw [e, Nat.add_mod_right, Nat.mod_eq_of_lt (by omega)]; omega
    rw [hm]
    cases hs : s o <;> cases hs' : s' o <;> simp only [hs, hs', Bool.toNat_true, Bool.toNat_false,
      Nat.mul_one, Nat.mul_zero, Nat.add_zero] at h ⊢
    · rw [Nat.mod_eq_of_lt (by omega)] at h; omega
    · rw [Nat.mod_eq_of_lt (by omega)] at h; simp [hc]; omega
    · rw [Nat.mod_eq_sub_mod (by omega), Nat.mod_eq_of_lt (by omega)] at h; simp [hc]; omega
    · rw [Nat.mod_eq_sub_mod (by omega), Nat.mod_eq_of_lt (by omega)] at h; omega
  · rw [Nat.mod_eq_of_lt (by omega : T < P)]
    cases hs : s o <;> cases hs' : s' o <;> simp only [hs, hs', Bool.toNat_true, Bool.toNat_false,
      Nat.mul_one, Nat.mul_zero, Nat.add_zero] at h ⊢
    · rw [Nat.mod_eq_of_lt (by omega)] at h; simp [hc]; omega
    · rw [Nat.mod_eq_of_lt (by omega)] at h; omega
    · rw [Nat.mod_eq_of_lt (by omega)] at h; omega
    · rw [Nat.mod_eq_of_lt (by omega)] at h; simp [hc]; omega

theorem gqFull_spec' (ts : List (Q × Q × Q)) (ctrl cIn : Option Q) (a0 b0 d0 btop : Q)
    (atop : Option Q) (s : St Q)
    (hnd : (cIn.toList ++ a0 :: b0 :: d0 :: (ts.flatMap (fun t => [t.1, t.2.1, t.2.2])
      ++ (btop :: (atop.toList ++ ctrl.toList)))).Nodup)
    (hd : s d0 = false) (hz : ∀ q ∈ trd3 ts, s q = false) :
    let G := gqPre cIn a0 b0 d0 ++ gqCore ctrl d0 ts btop atop ++ gqPost ctrl cIn a0 b0 d0
      ++ gqFinal ctrl a0 b0
    let s' := run G s
    (ctrlOn ctrl s = true → regVal (b0 :: (fst3 ts ++ [btop])) s' =
        (regVal (b0 :: (fst3 ts ++ [btop])) s + regVal (a0 :: (snd3 ts ++ atop.toList)) s
          + (optBit cIn s).toNat) % 2 ^ (ts.length + 2))
    ∧ (ctrlOn ctrl s = false → ∀ q, s' q = s q)
    ∧ (∀ q, q ≠ b0 → q ∉ fst3 ts → q ≠ btop → s' q = s q)
    ∧ (ctrl = none → ok G s) := by
  rw [List.nodup_append] at hnd
  obtain ⟨-, hnd, hdis⟩ := hnd
  simp only [List.nodup_cons, List.mem_cons, not_or] at hnd
  obtain ⟨⟨hab, had, hA⟩, ⟨hbd, hB⟩, hD, hR⟩ := hnd
  refine gqFull_spec ts ctrl cIn a0 b0 d0 btop atop s (List.nodup_cons.2 ⟨hD, hR⟩) hA hB
    (Ne.symm hab) hbd had ?_ hd hz
  rintro c rfl
  have h := fun v hv => hdis c (by simp) v hv
  refine ⟨h _ (by simp), h _ (by simp), h _ (by simp), ?_, h _ (by simp)⟩
  intro hm
  obtain ⟨p, hp, hpk⟩ := List.mem_map.1 hm
  refine h c ?_ rfl
  simp only [List.mem_cons, List.mem_append, List.mem_flatMap]
  exact .inr (.inr (.inr (.inl ⟨p, hp, by simp [hpk]⟩)))

theorem gidneyQ_spec (a b ext anc : List Q) (cIn cOut ctrl : Option Q) (s : St Q)
    (hnd : (b ++ a ++ ext ++ anc ++ cIn.toList ++ cOut.toList ++ ctrl.toList).Nodup)
    (hb : b ≠ [])
    (hext : ext.length = b.length - a.length)
    (hanc : anc.length + 1 = b.length + cOut.toList.length)
    (hz : ∀ q ∈ ext, s q = false) (hza : ∀ q ∈ anc, s q = false) :
    let G := gidneyQ a b ext anc cIn cOut ctrl
    let s' := run G s
    let T := regVal a s % 2 ^ b.length + regVal b s + (optBit cIn s).toNat
    (ctrlOn ctrl s = true → regVal b s' = T % 2 ^ b.length
        ∧ ∀ o, cOut = some o → s' o = (s o ^^ decide (2 ^ b.length ≤ T)))
    ∧ (ctrlOn ctrl s = false → ∀ q, s' q = s q)
    ∧ (∀ q, q ∉ b → (∀ o, cOut = some o → q ≠ o) → s' q = s q)
    ∧ (ctrl = none → ok G s) := by
  set aq := a.take b.length ++ ext with haq
  have hlen : aq.length = b.length := by
    rw [haq, List.length_append, List.length_take, hext]; omega
  have hnd1 : (b ++ aq ++ anc ++ cIn.toList ++ cOut.toList ++ ctrl.toList).Nodup := by
    refine hnd.sublist ?_
    rw [haq]
    refine List.Sublist.append (List.Sublist.append (List.Sublist.append (List.Sublist.append
      ?_ (.refl _)) (.refl _)) (.refl _)) (.refl _)
    rw [List.append_assoc b a ext]
    exact (List.Sublist.refl _).append ((List.take_sublist _ _).append (.refl _))
  have hval : regVal aq s = regVal a s % 2 ^ b.length := by
    rw [haq]; exact regVal_take_pad a ext s b.length hz
  clear_value aq
  clear hnd
  obtain ⟨b0, b1, rfl⟩ := List.exists_cons_of_ne_nil hb
  obtain ⟨a0, a1, rfl⟩ : ∃ a0 a1, aq = a0 :: a1 := by
    cases aq with
    | nil => simp at hlen
    | cons x l => exact ⟨x, l, rfl⟩
  have hlen' : a1.length = b1.length := by simpa using hlen
  simp only
  rw [← hval]
  have hTlt : regVal (a0 :: a1) s + regVal (b0 :: b1) s + (optBit cIn s).toNat
      < 2 * 2 ^ (b0 :: b1).length := by
    have h1 := regVal_lt (a0 :: a1) s
    have h2 := regVal_lt (b0 :: b1) s
    have h3 := Bool.toNat_le (optBit cIn s)
    rw [List.length_cons, hlen'] at h1
    rw [List.length_cons] at h2 ⊢
    omega
  cases hco : cOut with
  | none =>
    subst hco
    rcases List.eq_nil_or_concat b1 with rfl | ⟨bm, bt, rfl⟩
    · -- n = 1
      have : a1 = [] := List.length_eq_zero_iff.1 (by simpa using hlen')
      subst this
      have hG : gidneyQ a [b0] ext anc cIn none ctrl =
          gqOne ctrl cIn b0 ++ gqFinal ctrl a0 b0 := by
        simp only [gidneyQ, ← haq]
        simp
      rw [hG]
      have hx : ∀ q ∈ cIn.toList ++ ctrl.toList ++ [a0], q ≠ b0 := by
        rintro q hq rfl
        simp only [List.cons_append, List.nil_append, List.nodup_cons, List.mem_cons,
          List.mem_append, not_or] at hnd1 hq
        rcases hq with (hq | hq) | hq
        · exact hnd1.1.2.1.1.2 hq
        · exact hnd1.1.2.2 hq
        · exact hnd1.1.1 (by simpa using hq)
      have ha0 := hx a0 (by simp)
      have fin : ∀ q, run (gqOne ctrl cIn b0 ++ gqFinal ctrl a0 b0) s q =
          if q = b0 then (s b0 ^^ (ctrlOn ctrl s && (s a0 ^^ optBit cIn s))) else s q := by
        intro q
        cases cIn with
        | none =>
          cases ctrl with
          | none => by_cases h : q = b0 <;> simp [gqOne, gqFinal, Gate.app, fire, upd_apply, h]
          | some k => by_cases h : q = b0 <;> simp [gqOne, gqFinal, Gate.app, fire, upd_apply, h]
        | some c =>
          have hc := hx c (by simp)
          cases ctrl with
          | none =>
            by_cases h : q = b0
            · simp [gqOne, gqFinal, Gate.app, fire, upd_apply, h, ha0]
              cases s c <;> cases s b0 <;> cases s a0 <;> rfl
            · simp [gqOne, gqFinal, Gate.app, fire, upd_apply, h]
          | some k =>
            have hk := hx k (by simp)
            by_cases h : q = b0
            · simp [gqOne, gqFinal, Gate.app, fire, upd_apply, h, ha0, hk]
              cases s c <;> cases s b0 <;> cases s a0 <;> cases s k <;> rfl
            · simp [gqOne, gqFinal, Gate.app, fire, upd_apply, h]
      refine ⟨?_, ?_, ?_, ?_⟩
      · intro h
        refine ⟨?_, by simp⟩
        simp only [regVal_cons, regVal_nil, fin, h, List.length_cons, List.length_nil]
        generalize s a0 = x; generalize s b0 = y; generalize optBit cIn s = z
        cases x <;> cases y <;> cases z <;> rfl
      · intro h q
        rw [fin, h]; split_ifs with g
        · rw [g]; simp
        · rfl
      · intro q hq _
        rw [fin, if_neg (by simpa using hq)]
      · rintro rfl
        cases cIn <;> simp [gqOne, gqFinal, Gate.ok]
    · -- n ≥ 2, no carry out
      rw [List.concat_eq_append] at *
      rcases List.eq_nil_or_concat a1 with rfl | ⟨am, at', rfl⟩
      · simp at hlen'
      rw [List.concat_eq_append] at *
      have hlam : am.length = bm.length := by simpa using hlen'
      obtain ⟨d0, d1, rfl⟩ : ∃ x l, anc = x :: l := by
        cases anc with
        | nil => simp at hanc
        | cons x l => exact ⟨x, l, rfl⟩
      have hd1 : d1.length = bm.length := by simp at hanc; omega
      obtain ⟨z1, z2, z3, z4, z5⟩ := zip3_lists bm (am ++ [at']) d1 hd1.symm (by simp; omega)
      rw [hd1, ← hlam, List.take_left' rfl] at z2 z5
      have hG : gidneyQ a (b0 :: (bm ++ [bt])) ext (d0 :: d1) cIn none ctrl =
          gqPre cIn a0 b0 d0 ++ gqCore ctrl d0 (bm.zip ((am ++ [at']).zip d1)) bt (some at')
            ++ gqPost ctrl cIn a0 b0 d0 ++ gqFinal ctrl a0 b0 := by
        simp only [gidneyQ, ← haq, gqCarryChain]
        simp
      rw [hG]
      have hperm : (cIn.toList ++ a0 :: b0 :: d0 ::
          ((bm.zip ((am ++ [at']).zip d1)).flatMap (fun t => [t.1, t.2.1, t.2.2])
          ++ (bt :: ((some at').toList ++ ctrl.toList)))).Nodup := by
        refine (List.Perm.nodup_iff ?_).1 hnd1
        rw [List.perm_iff_count] at z5 ⊢
        intro q
        have := z5 q
        simp only [List.count_append, List.count_cons, List.count_nil, Option.toList_some,
          Option.toList_none] at this ⊢
        omega
      obtain ⟨hon, hoff, hfr, hok⟩ := gqFull_spec' (bm.zip ((am ++ [at']).zip d1)) ctrl cIn a0 b0
        d0 bt (some at') s hperm (hza d0 (by simp))
        (by rw [z3]; intro q hq; exact hza q (by simp [hq]))
      rw [z1, z2, z4] at hon
      rw [z1] at hfr
      refine ⟨?_, hoff, ?_, hok⟩
      · intro h
        refine ⟨?_, by simp⟩
        rw [hon h]
        simp only [Option.toList_some, List.length_cons, List.length_append, List.length_nil]
        congr 1
        omega
      · intro q hq _
        simp only [List.mem_cons, List.mem_append, not_or, List.not_mem_nil, or_false] at hq
        exact hfr q hq.1 hq.2.1 hq.2.2
  | some o =>
    subst hco
    obtain ⟨d0, d1, rfl⟩ : ∃ x l, anc = x :: l := by
      cases anc with
      | nil => simp at hanc
      | cons x l => exact ⟨x, l, rfl⟩
    have hd1 : d1.length = b1.length := by simp at hanc; omega
    obtain ⟨z1, z2, z3, z4, z5⟩ := zip3_lists b1 a1 d1 hd1.symm (by omega)
    rw [hd1, ← hlen', List.take_length] at z2 z5
    have hG : gidneyQ a (b0 :: b1) ext (d0 :: d1) cIn (some o) ctrl =
        gqPre cIn a0 b0 d0 ++ gqCore ctrl d0 (b1.zip (a1.zip d1)) o none
          ++ gqPost ctrl cIn a0 b0 d0 ++ gqFinal ctrl a0 b0 := by
      simp only [gidneyQ, ← haq, gqCarryChain]
      simp
    rw [hG]
    have hperm : (cIn.toList ++ a0 :: b0 :: d0 ::
        ((b1.zip (a1.zip d1)).flatMap (fun t => [t.1, t.2.1, t.2.2])
        ++ (o :: ((none : Option Q).toList ++ ctrl.toList)))).Nodup := by
      refine (List.Perm.nodup_iff ?_).1 hnd1
      rw [List.perm_iff_count] at z5 ⊢
      intro q
      have := z5 q
      simp only [List.count_append, List.count_cons, List.count_nil, Option.toList_some,
        Option.toList_none] at this ⊢
      omega
    obtain ⟨hon, hoff, hfr, hok⟩ := gqFull_spec' (b1.zip (a1.zip d1)) ctrl cIn a0 b0
      d0 o none s hperm (hza d0 (by simp)) (by rw [z3]; intro q hq; exact hza q (by simp [hq]))
    rw [z1, z2, z4] at hon
    rw [z1] at hfr
    refine ⟨?_, hoff, ?_, hok⟩
    · intro h
      have h1 := hon h
      have h2 := top_split (b0 :: b1) o s _ _ hTlt (by
        rw [List.cons_append, h1, ← List.cons_append, regVal_append, List.length_cons,
          Option.toList_none, List.append_nil, regVal_cons o, regVal_nil]
        congr 1
        ring)
      refine ⟨h2.1, ?_⟩
      rintro o' ho
      cases ho
      exact h2.2
    · intro q hq ho
      simp only [List.mem_cons, not_or] at hq
      exact hfr q hq.1 hq.2 (ho o rfl)

end Verif.Rev
