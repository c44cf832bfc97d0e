import Verif.Oper.ToPauli

/-!
Error bounds of the Pauli expansion.
-/

namespace Verif.Oper

open Matrix

variable {n : Nat}

/-! ### Predicates on all terms -/

theorem all_dset {Q : Term → Prop} {d : QOp ℂ} (hd : ∀ p ∈ d, Q p.1) {t : Term} (ht : Q t) (v : ℂ) : ∀ p ∈ dset d t v, Q p.1 := by
  intro p hp
  rcases mem_dset hp with h | ⟨c, h⟩
  · rw [h]; exact ht
  · exact hd (p.1, c) h

theorem all_ddel {Q : Term → Prop} {d : QOp ℂ} (hd : ∀ p ∈ d, Q p.1) (t : Term) : ∀ p ∈ ddel d t, Q p.1 := by
  induction d with
  | nil => simp [ddel]
  | cons q d ih =>
    obtain ⟨s, c⟩ := q
    simp only [ddel]
    split
    · exact fun p hp => hd p (List.mem_cons_of_mem _ hp)
    · intro p hp
      rcases List.mem_cons.1 hp with h | h
      · rw [h]; exact hd (s, c) (by simp)
      · exact ih (fun p hp => hd p (List.mem_cons_of_mem _ hp)) p h

theorem all_foldl {Q : Term → Prop} (small : ℂ → Bool) {b : QOp ℂ} (hb : ∀ p ∈ b, Q p.1) {d : QOp ℂ} (hd : ∀ p ∈ d, Q p.1) :
    ∀ p ∈ b.foldl (addTo small) d, Q p.1 := by
  induction b generalizing d with
  | nil => exact hd
  | cons q b ih =>
    refine ih (fun p hp => hb p (List.mem_cons_of_mem _ hp)) ?_
    simp only [addTo]
    split
    · exact all_ddel (all_dset hd (hb q (by simp)) _) _
    · exact all_dset hd (hb q (by simp)) _

theorem all_mulQ {Q : Term → Prop} (small : ℂ → Bool) (ord : Term → Term → List Nat) {a b : QOp ℂ}
    (h : ∀ p ∈ a, ∀ q ∈ b, Q (mulT (ord p.1 q.1) p.1 q.1).1) : ∀ p ∈ mulQ small toC ord a b, Q p.1 := by
  intro p hp
  have hp' := (List.mem_filter.1 hp).1
  have gen : ∀ (l d : QOp ℂ), (∀ p ∈ l, Q p.1) → (∀ p ∈ d, Q p.1) → ∀ p ∈ l.foldl accTo d, Q p.1 := by
    intro l
    induction l with
    | nil => exact fun d _ hd => hd
    | cons q l ih =>
      intro d hl hd
      exact ih _ (fun p hp => hl p (List.mem_cons_of_mem _ hp)) (all_dset hd (hl q (by simp)) _)
  refine gen _ _ ?_ (by simp) p hp'
  intro q hq
  obtain ⟨r, hr, hq⟩ := List.mem_flatMap.1 hq
  obtain ⟨s, hs, rfl⟩ := List.mem_map.1 hq
  exact h r hr s hs

/-! ### Pauli terms -/

/-- A Pauli factor. -/
def isP (f : Fac) : Prop := f = .X ∨ f = .Y ∨ f = .Z

instance : DecidablePred isP := fun f => by unfold isP; infer_instance

/-- A Pauli term on n qubits. -/
def PT (n : Nat) (t : Term) : Prop := (∀ k ∈ t.keys, k < n) ∧ ∀ p ∈ t, isP p.2

theorem lookup_mem' {t : Term} {k : Nat} {f : Fac} (h : List.lookup k t = some f) : (k, f) ∈ t := by
  induction t with
  | nil => simp at h
  | cons p t ih =>
    obtain ⟨k', g⟩ := p
    rw [List.lookup_cons] at h
    by_cases hk : k = k'
    · subst hk; simp at h; simp [h]
    · have hb : (k == k') = false := by simpa using hk
      rw [hb] at h
      exact List.mem_cons_of_mem _ (ih h)

theorem PT.get {t : Term} (h : PT n t) (k : Nat) : t.get k = .I ∨ isP (t.get k) := by
  rw [Term.get]
  rcases hl : List.lookup k t with _ | f
  · left; rfl
  · right; exact h.2 _ (lookup_mem' hl)

theorem mulT_PT {ord : Term → Term → List Nat} (ho : OrdOK ord) {a b : Term} (ha : PT n a) (hb : PT n b) : PT n (mulT (ord a b) a b).1 := by
  refine ⟨fun k hk => ?_, ?_⟩
  · rcases ((ho a b).2 k).1 (mulT_keys (ho a b) k hk) with h | h
    · exact ha.1 k h
    · exact hb.1 k h
  · have ht : ∀ f g, (f = .I ∨ isP f) → (g = .I ∨ isP g) → ((table f g).1 = .I ∨ isP (table f g).1) := by decide +kernel
    have gen : ∀ (ks : List Nat) (res : Term) (co : GI), (∀ p ∈ res, isP p.2) → ∀ p ∈ (mulLoop a b ks res co).1, isP p.2 := by
      intro ks
      induction ks with
      | nil => exact fun res co h => h
      | cons k ks ih =>
        intro res co h
        simp only [mulLoop]
        split_ifs with h1 h2
        · simp
        · refine ih _ _ ?_
          intro p hp
          rcases List.mem_append.1 hp with hp | hp
          · exact h p hp
          · rw [List.mem_singleton.1 hp]
            exact (ht _ _ (ha.get k) (hb.get k)).resolve_left h2
        · exact ih _ _ h
    exact gen _ _ _ (by simp)

theorem PT_nil : PT n [] := ⟨by simp [Term.keys], by simp⟩

theorem facP_PT {k : Nat} (hk : k < n) (f : Fac) : ∀ p ∈ facP k f, PT n p.1 := by
  have h1 : ∀ g, isP g → PT n [(k, g)] := fun g hg => ⟨by simp [Term.keys, hk], by simpa using hg⟩
  have hX := h1 .X (by decide)
  have hY := h1 .Y (by decide)
  have hZ := h1 .Z (by decide)
  cases f <;> simp [facP, hX, hY, hZ, PT_nil]

theorem facP_length (k : Nat) (f : Fac) : (facP k f).length ≤ 2 := by cases f <;> simp [facP]

theorem PT.below {d : QOp ℂ} (h : ∀ p ∈ d, PT n p.1) : Below n d := fun p hp => (h p hp).1

theorem num_PT (x : ℂ) : ∀ p ∈ ([([], x)] : QOp ℂ), PT n p.1 := by simp [PT_nil]

theorem tmat_snoc {t : Term} {k : Nat} (h : k ∉ t.keys) (f : Fac) : tmat n (t ++ [(k, f)]) = tmat n t * tmat n [(k, f)] := by
  rw [tmat, tmat, tmat, tensor_mul]
  congr 1; funext j
  rw [get_append]
  by_cases hj : (j : Nat) = k
  · rw [hj, if_neg h, get_notin h, mat_I, one_mul]
  · have e : Term.get [(k, f)] j = .I := get_notin (by simpa [Term.keys] using hj)
    rw [e, mat_I, mul_one]
    split
    · rfl
    · next hn => rw [get_notin hn, mat_I]

theorem tmat_I {t : Term} (h : ∀ p ∈ t, p.2 = .I) : tmat n t = 1 := by
  rw [← tmat_nil, tmat, tmat]
  congr 1; funext j
  congr 1
  rw [Term.get]
  rcases hl : List.lookup (j : Nat) t with _ | f
  · rfl
  · rw [Option.getD_some]; exact h _ (lookup_mem' hl)

/-! ### `to_pauli` of a term -/

section
variable {small : ℂ → Bool} {ε : ℝ} (hε : 0 ≤ ε) (hs : ∀ v, small v = true → ‖v‖ ≤ ε) {ord : Term → Term → List Nat} (ho : OrdOK ord)
include hε hs ho

theorem toPauliT_near {t : Term} (hw : t.WF) (hlt : ∀ k ∈ t.keys, k < n) :
    match toPauliT small ord t with
    | .inl x => x = 1 ∧ tmat n t = 1
    | .inr r => (∀ p ∈ r, PT n p.1) ∧ r.length ≤ 2 ^ t.length ∧ Near (2 ^ (t.length + 1) * ε) (omat id n r) (tmat n t) := by
  have gen : ∀ (l done : Term) (s : ℂ ⊕ QOp ℂ), (done ++ l).WF → (∀ k ∈ Term.keys l, k < n) →
      (match s with
        | .inl x => x = 1 ∧ ∀ p ∈ done, p.2 = .I
        | .inr r => (∀ p ∈ r, PT n p.1) ∧ r.length ≤ 2 ^ done.length ∧ Near (2 ^ (done.length + 1) * ε) (omat id n r) (tmat n done)) →
      (match l.foldl (stepP small ord) s with
        | .inl x => x = 1 ∧ ∀ p ∈ done ++ l, p.2 = .I
        | .inr r => (∀ p ∈ r, PT n p.1) ∧ r.length ≤ 2 ^ (done ++ l).length ∧
            Near (2 ^ ((done ++ l).length + 1) * ε) (omat id n r) (tmat n (done ++ l))) := by
    intro l
    induction l with
    | nil => intro done s _ _ h; simpa using h
    | cons q l ih =>
      intro done s hw hlt h
      obtain ⟨k, f⟩ := q
      have hk : k < n := hlt k (by simp [Term.keys])
      have hkd : k ∉ Term.keys done := by
        simp only [Term.WF, Term.keys, List.map_append, List.map_cons] at hw
        intro hm
        exact (List.nodup_append.1 hw).2.2 k hm k (by simp) rfl
      rw [List.foldl_cons, show done ++ (k, f) :: l = (done ++ [(k, f)]) ++ l by simp]
      refine ih _ _ (by simpa using hw) (fun j hj => hlt j (by simp only [Term.keys, List.map_cons, List.mem_cons] at hj ⊢; exact Or.inr hj)) ?_
      have hp2 : ∀ m : ℕ, (0 : ℝ) ≤ 2 ^ m * ε := fun m => by positivity
      have hlen : (done ++ [(k, f)]).length = done.length + 1 := by simp
      by_cases hf : f = .I
      · subst hf
        have e1 : tmat n (done ++ [(k, Fac.I)]) = tmat n done := by
          rw [tmat_snoc hkd, tmat_I (t := [(k, Fac.I)]) (by simp), mul_one]
        rw [stepP.eq_def, if_pos rfl, e1]
        rcases s with x | r
        · refine ⟨h.1, ?_⟩
          intro p hp
          rcases List.mem_append.1 hp with hp | hp
          · exact h.2 p hp
          · rw [List.mem_singleton.1 hp]
        · obtain ⟨h1, h2, h3⟩ := h
          refine ⟨h1, ?_, ?_⟩
          · rw [hlen]; exact h2.trans (Nat.pow_le_pow_right (by norm_num) (by omega))
          · rw [hlen]; refine h3.mono ?_
            rw [pow_succ 2 (done.length + 1)]; have := hp2 (done.length + 1); nlinarith
      · rw [stepP.eq_def, if_neg hf]
        rcases s with x | r
        · obtain ⟨rfl, h2⟩ := h
          simp only
          have hn := near_mulQ (n := n) hε hs ho (PT.below (facP_PT hk f)) (PT.below (num_PT (1 : ℂ)))
          rw [omat_num, one_smul, mul_one, facP_sound hk] at hn
          have hle := length_mulQ small ord (facP k f) [([], 1)]
          have h2' := facP_length k f
          refine ⟨all_mulQ _ _ fun p hp q hq => mulT_PT ho (facP_PT hk f p hp) (num_PT (1 : ℂ) q hq), ?_, ?_⟩
          · rw [hlen]
            refine hle.trans ?_
            have : 2 ^ 1 ≤ 2 ^ (done.length + 1) := Nat.pow_le_pow_right (by norm_num) (by omega)
            simpa using h2'.trans this
          · rw [tmat_snoc hkd, tmat_I h2, one_mul, hlen]
            refine hn.mono (mul_le_mul_of_nonneg_right ?_ hε)
            have h3 : (2 : ℝ) ^ 1 ≤ 2 ^ (done.length + 1 + 1) := pow_le_pow_right₀ (by norm_num) (by omega)
            have h4 : (((facP k f).length * ([([], (1 : ℂ))] : QOp ℂ).length : ℕ) : ℝ) ≤ 2 := by
              have : (facP k f).length * ([([], (1 : ℂ))] : QOp ℂ).length ≤ 2 := by simpa using h2'
              exact_mod_cast this
            linarith
        · obtain ⟨h1, h2, h3⟩ := h
          simp only
          have hn := near_mulQ (n := n) hε hs ho (PT.below h1) (PT.below (facP_PT hk f))
          rw [facP_sound hk] at hn
          have hle := length_mulQ small ord r (facP k f)
          have h2' := facP_length k f
          have hlen2 : r.length * (facP k f).length ≤ 2 ^ (done.length + 1) := by
            rw [pow_succ]; exact Nat.mul_le_mul h2 h2'
          refine ⟨all_mulQ _ _ fun p hp q hq => mulT_PT ho (h1 p hp) (facP_PT hk f q hq), ?_, ?_⟩
          · rw [hlen]; exact hle.trans hlen2
          · rw [tmat_snoc hkd, hlen]
            refine (hn.trans (h3.mul_tmat (hp2 _) _)).mono ?_
            have : ((r.length * (facP k f).length : ℕ) : ℝ) ≤ 2 ^ (done.length + 1) := by exact_mod_cast hlen2
            have := mul_le_mul_of_nonneg_right this hε
            rw [pow_succ 2 (done.length + 1)]; linarith
  have := gen t [] (.inl 1) (by simpa using hw) hlt ⟨rfl, by simp⟩
  rw [List.nil_append] at this
  rw [toPauliT]
  rcases hh : t.foldl (stepP small ord) (.inl 1) with x | r
  · rw [hh] at this; exact ⟨this.1, tmat_I this.2⟩
  · rw [hh] at this; exact this

omit hε hs ho in
theorem wf_length {t : Term} (hw : t.WF) (hlt : ∀ k ∈ t.keys, k < n) : t.length ≤ n := by
  have h1 : t.keys ⊆ List.range n := fun k hk => List.mem_range.2 (hlt k hk)
  have := (List.subperm_of_subset hw h1).length_le
  simpa [Term.keys] using this

/-- The multiple of one expanded term. -/
theorem mul_num_near {q : QOp ℂ} (hq : ∀ p ∈ q, PT n p.1) {e : ℝ} {M : MatN n} (h : Near e (omat id n q) M) (c : ℂ) :
    (∀ p ∈ mulQ small toC ord q [([], c)], PT n p.1) ∧ (mulQ small toC ord q [([], c)]).length ≤ q.length ∧
      Near (q.length * ε + ‖c‖ * e) (omat id n (mulQ small toC ord q [([], c)])) (c • M) := by
  have hn := near_mulQ (n := n) hε hs ho (PT.below hq) (PT.below (num_PT c))
  rw [omat_num, mul_smul_comm, mul_one] at hn
  refine ⟨all_mulQ _ _ fun p hp r hr => mulT_PT ho (hq p hp) (num_PT c r hr), by simpa using length_mulQ small ord q [([], c)], ?_⟩
  have := hn.trans (h.smul c)
  simpa using this

omit hε hs ho in
theorem omat_num_dset (r : QOp ℂ) (v : ℂ) : omat id n (dset r [] (dget r [] + v)) = omat id n r + v • 1 := by
  have := omat_dset (RingHom.id ℂ) n r [] (dget r [] + v)
  rw [tmat_nil, add_sub_cancel_left] at this
  exact this

/-- The state of the accumulation is near a matrix. -/
def St (n : Nat) (e : ℝ) (M : MatN n) : ℂ ⊕ QOp ℂ → Prop
  | .inl x => Near e (x • (1 : MatN n)) M
  | .inr r => (∀ p ∈ r, PT n p.1) ∧ Near e (omat id n r) M

omit hε hs ho in
theorem St.mono {e e' : ℝ} (h : e ≤ e') {M : MatN n} {s : ℂ ⊕ QOp ℂ} (hs : St n e M s) : St n e' M s := by
  rcases s with x | r
  · exact Near.mono hs h
  · exact ⟨hs.1, Near.mono hs.2 h⟩

theorem accP_near {s : ℂ ⊕ QOp ℂ} {M : MatN n} {e : ℝ} (he : 0 ≤ e) (h : St n e M s) {t : Term} (hw : t.WF) (hlt : ∀ k ∈ t.keys, k < n) (c : ℂ) :
    St n (e + (2 ^ (n + 1) * ‖c‖ + (2 ^ (n + 1) + 1)) * ε) (M + c • tmat n t) (accP small ord s (t, c)) := by
  have hT := toPauliT_near (n := n) hε hs ho hw hlt
  have hlen := wf_length (n := n) hw hlt
  have hpow : ((2 : ℝ) ^ t.length) ≤ 2 ^ n := pow_le_pow_right₀ (by norm_num) hlen
  have hpowR : (2 : ℝ) ^ (t.length + 1) ≤ 2 ^ (n + 1) := pow_le_pow_right₀ (by norm_num) (by omega)
  have hc := norm_nonneg c
  have hb : e ≤ e + (2 ^ (n + 1) * ‖c‖ + (2 ^ (n + 1) + 1)) * ε := by
    have : (0 : ℝ) ≤ (2 ^ (n + 1) * ‖c‖ + (2 ^ (n + 1) + 1)) * ε := by positivity
    linarith
  unfold accP
  rcases hq : toPauliT small ord t with y | q
  · rw [hq] at hT
    obtain ⟨rfl, h2⟩ := hT
    rcases s with x | r
    · refine St.mono hb ?_
      show Near e ((x + c * 1) • (1 : MatN n)) _
      rw [mul_one, add_smul, h2]
      have := Near.add h (Near.refl (le_refl 0) (c • (1 : MatN n)))
      rwa [add_zero] at this
    · refine St.mono hb ⟨all_dset h.1 PT_nil _, ?_⟩
      rw [omat_num_dset, mul_one, h2]
      have := Near.add h.2 (Near.refl (le_refl 0) (c • (1 : MatN n)))
      rwa [add_zero] at this
  · rw [hq] at hT
    obtain ⟨h1, h2, h3⟩ := hT
    obtain ⟨g1, g2, g3⟩ := mul_num_near hε hs ho h1 h3 c
    set u := mulQ small toC ord q [([], c)] with hu
    have hq2 : (q.length : ℝ) ≤ 2 ^ n := le_trans (by exact_mod_cast h2) hpow
    have hu2 : (u.length : ℝ) ≤ 2 ^ n := le_trans (by exact_mod_cast g2) hq2
    have a1 : (q.length : ℝ) * ε ≤ 2 ^ n * ε := mul_le_mul_of_nonneg_right hq2 hε
    have a2 : (u.length : ℝ) * ε ≤ 2 ^ n * ε := mul_le_mul_of_nonneg_right hu2 hε
    have a3 : ‖c‖ * (2 ^ (t.length + 1) * ε) ≤ ‖c‖ * (2 ^ (n + 1) * ε) := mul_le_mul_of_nonneg_left (mul_le_mul_of_nonneg_right hpowR hε) hc
    have e2 : (2 : ℝ) ^ (n + 1) = 2 ^ n * 2 := pow_succ _ _
    rcases s with x | r
    · refine ⟨all_foldl _ (num_PT x) (all_foldl _ g1 (by simp)), ?_⟩
      have f1 := near_foldl (RingHom.id ℂ) n hε hs u []
      have f2 := near_foldl (RingHom.id ℂ) n hε hs [([], x)] (u.foldl (addTo small) [])
      have f3 := f2.trans (f1.add (Near.refl (le_refl 0) (omat (RingHom.id ℂ) n [([], x)])))
      rw [omat_nil, zero_add] at f3
      have e4 : omat (RingHom.id ℂ) n [([], x)] = x • 1 := omat_num x
      rw [e4] at f3
      have f4 := f3.trans (Near.add g3 h)
      rw [add_comm (c • tmat n t)] at f4
      refine f4.mono ?_
      simp only [List.length_singleton, Nat.cast_one]
      rw [e2] at a3 ⊢
      nlinarith
    · refine ⟨all_foldl _ g1 h.1, ?_⟩
      have f1 := near_foldl (RingHom.id ℂ) n hε hs u r
      have f4 := f1.trans (Near.add h.2 g3)
      refine f4.mono ?_
      rw [e2] at a3 ⊢
      nlinarith

theorem toPauliQ_near {d : QOp ℂ} (hd : ∀ p ∈ d, p.1.WF ∧ ∀ k ∈ p.1.keys, k < n) :
    (∀ p ∈ toPauliQ small ord d, PT n p.1) ∧
      Near ((2 ^ (n + 1) * l1 d + d.length * (2 ^ (n + 1) + 1)) * ε) (omat id n (toPauliQ small ord d)) (omat id n d) := by
  have gen : ∀ (l : QOp ℂ) (s : ℂ ⊕ QOp ℂ) (M : MatN n) (e : ℝ), 0 ≤ e → (∀ p ∈ l, p.1.WF ∧ ∀ k ∈ p.1.keys, k < n) → St n e M s →
      St n (e + (2 ^ (n + 1) * l1 l + l.length * (2 ^ (n + 1) + 1)) * ε) (M + omat id n l) (l.foldl (accP small ord) s) := by
    intro l
    induction l with
    | nil => intro s M e he _ h; simpa [l1, omat_nil] using h
    | cons q l ih =>
      intro s M e he hl h
      obtain ⟨t, c⟩ := q
      obtain ⟨hw, hlt⟩ := hl (t, c) (by simp)
      rw [List.foldl_cons]
      have h1 := accP_near hε hs ho he h hw hlt c
      have h2 := ih _ _ _ (by positivity) (fun p hp => hl p (List.mem_cons_of_mem _ hp)) h1
      rw [omat_cons, ← add_assoc, l1_cons, List.length_cons]
      refine h2.mono (le_of_eq ?_)
      push_cast; ring
  have h := gen d (.inl 0) 0 0 le_rfl hd (by rw [St, zero_smul]; exact Near.refl le_rfl _)
  rw [zero_add, zero_add] at h
  rw [toPauliQ.eq_def]
  rcases hh : d.foldl (accP small ord) (.inl 0) with x | r
  · rw [hh] at h
    refine ⟨num_PT x, ?_⟩
    show Near _ (omat id n [([], x)]) _
    rw [omat_num]; exact h
  · rw [hh] at h; exact h

/-- `hermitize`. -/
theorem hermitizeQ_near {d : QOp ℂ} (hw : DWF d) (hI : ∀ p ∈ d, NoI p.1) (hb : Below n d) :
    (∀ p ∈ hermitizeQ small ord d, p.1.WF ∧ ∀ k ∈ p.1.keys, k < n) ∧ (hermitizeQ small ord d).length ≤ 2 * d.length ∧
      l1 (hermitizeQ small ord d) ≤ l1 d ∧
      Near (3 * d.length * ε) (omat id n (hermitizeQ small ord d)) ((1 / 2 : ℂ) • (omat id n d + (omat id n d)ᴴ)) := by
  have ha := adjQ_eq (conj := star) hw hI
  have hal : (adjQ star d).length = d.length := by rw [ha, List.length_map]
  have hal1 : l1 (adjQ star d) = l1 d := by
    rw [ha, l1, l1, List.map_map]; congr 2; funext p; simp
  have hab : Below n (adjQ star d) := by
    rw [ha]
    intro p hp k hk
    obtain ⟨q, hq, rfl⟩ := List.mem_map.1 hp
    rw [adjT_map (hI q hq)] at hk
    refine hb q hq k ?_
    simpa [Term.keys] using hk
  have hsum : Below n (addQ small d (adjQ star d)) := all_foldl (Q := fun t => ∀ k ∈ t.keys, k < n) small hab (all_foldl (Q := fun t => ∀ k ∈ t.keys, k < n) small hb (by simp))
  have hsl : (addQ small d (adjQ star d)).length ≤ 2 * d.length := by
    have h1 := length_foldl small (adjQ star d) (d.foldl (addTo small) [])
    have h2 := length_foldl small d []
    rw [addQ]; simp at h2; omega
  have hs1 : l1 (addQ small d (adjQ star d)) ≤ 2 * l1 d := by
    have h1 := l1_foldl small (adjQ star d) (d.foldl (addTo small) [])
    have h2 := l1_foldl small d []
    rw [addQ]
    have h0 : l1 ([] : QOp ℂ) = 0 := by simp [l1]
    rw [hal1] at h1; linarith
  have hnb : Below n ([([], 1 / 2)] : QOp ℂ) := PT.below (num_PT _)
  refine ⟨?_, ?_, ?_, ?_⟩
  · intro p hp
    refine ⟨?_, below_mulQ ho hsum hnb p hp⟩
    exact all_mulQ (Q := Term.WF) small ord (fun p _ q _ => (mulT_wf (ho _ _)).1) p hp
  · have := length_mulQ small ord (addQ small d (adjQ star d)) [([], 1 / 2)]
    simp only [List.length_singleton, mul_one] at this
    exact this.trans hsl
  · have h1 := l1_mulQ small ord (addQ small d (adjQ star d)) [([], 1 / 2)]
    have h2 : l1 ([([], 1 / 2)] : QOp ℂ) = 1 / 2 := by simp [l1]
    rw [h2] at h1
    exact h1.trans (by linarith)
  · have f1 := near_foldl (RingHom.id ℂ) n hε hs d []
    have f2 := near_foldl (RingHom.id ℂ) n hε hs (adjQ star d) (d.foldl (addTo small) [])
    have f3 := f2.trans (f1.add (Near.refl (le_refl 0) (omat (RingHom.id ℂ) n (adjQ star d))))
    rw [omat_nil, zero_add] at f3
    have e4 : omat (RingHom.id ℂ) n (adjQ star d) = (omat id n d)ᴴ := omat_adjQ (φ := id) (conj := star) (fun _ => rfl) hw hI
    rw [e4] at f3
    have hn := near_mulQ (n := n) hε hs ho hsum hnb
    rw [omat_num, mul_smul_comm, mul_one] at hn
    refine (hn.trans (f3.smul (1 / 2))).mono ?_
    have h2 : ((addQ small d (adjQ star d)).length : ℝ) ≤ 2 * d.length := by exact_mod_cast hsl
    have h3 := mul_le_mul_of_nonneg_right h2 hε
    rw [hal]
    have h4 : ‖(1 / 2 : ℂ)‖ = 1 / 2 := by norm_num
    rw [h4]
    simp only [List.length_singleton, mul_one]
    linarith

/-- The error of the Pauli expansion of the Hermitian part. -/
theorem pauli_herm_near {d : QOp ℂ} (hw : DWF d) (hI : ∀ p ∈ d, NoI p.1) (hb : Below n d) :
    (∀ p ∈ toPauliQ small ord (hermitizeQ small ord d), PT n p.1) ∧
      Near ((2 ^ (n + 1) * (l1 d + 2 * d.length) + 5 * d.length) * ε) (omat id n (toPauliQ small ord (hermitizeQ small ord d)))
        ((1 / 2 : ℂ) • (omat id n d + (omat id n d)ᴴ)) := by
  obtain ⟨h1, h2, h3, h4⟩ := hermitizeQ_near hε hs ho hw hI hb
  obtain ⟨h5, h6⟩ := toPauliQ_near hε hs ho h1
  refine ⟨h5, (h6.trans h4).mono ?_⟩
  have h2' : ((hermitizeQ small ord d).length : ℝ) ≤ 2 * d.length := by exact_mod_cast h2
  have h7 := mul_le_mul_of_nonneg_right h2' (show (0 : ℝ) ≤ (2 ^ (n + 1) + 1) * ε by positivity)
  have h8 := mul_le_mul_of_nonneg_left h3 (show (0 : ℝ) ≤ 2 ^ (n + 1) * ε by positivity)
  nlinarith

end

end Verif.Oper
