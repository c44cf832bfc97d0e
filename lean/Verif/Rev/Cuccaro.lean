import Verif.Rev.Basic

/-!
Model of `cuccaro_adder` (`alg_primitives/arithmetic/adders/cuccaro_adder.py` 88-202).
-/

set_option linter.unusedSectionVars false
set_option linter.unusedSimpArgs false

namespace Verif.Rev

variable {Q : Type} [DecidableEq Q]

/-- cuccaro_adder.py 143-151: `cx(a[i], b[i]); cx(a[i], c); mcx([c, b[i]], a[i])` where `c` is
`ancilla[0]` for `i = 0` and `a[i-1]` otherwise. -/
def maj (c b a : Q) : List (Gate Q) := [cx a b, cx a c, ccx c b a]

/-- cuccaro_adder.py 163-168 and 171-176 (no control). -/
def uma (c b a : Q) : List (Gate Q) :=
  [gx b, cx c b, ccx c b a, gx b, cx a c, cx a b]

/-- cuccaro_adder.py 184-187 and 190-193 (with control). -/
def umaCtrl (ctrl c b a : Q) : List (Gate Q) :=
  [ccx c b a, ccx ctrl c b, cx a c, cx a b]

/-- cuccaro_adder.py 157, 178: the case distinction on `ctrl`. -/
def umaOpt (ctrl : Option Q) (c b a : Q) : List (Gate Q) :=
  match ctrl with
  | none => uma c b a
  | some k => umaCtrl k c b a

/-- The triples `(c, b[i], a[i])` visited by the loops: `c` is the previous `a` qubit. -/
def chain : Q → List (Q × Q) → List (Q × Q × Q)
  | _, [] => []
  | c, (b, a) :: r => (c, b, a) :: chain a r

/-- The qubit `a[-1]` after the chain. -/
def lastA : Q → List (Q × Q) → Q
  | c, [] => c
  | _, (_, a) :: r => lastA a r

/-- cuccaro_adder.py 143-193 on registers of equal length. `anc` is `ancilla[0]`; the other
qubits of the register `ancilla` (130) are never touched and left out. -/
def cuccaroCore (anc : Q) (ba : List (Q × Q)) (cOut ctrl : Option Q) : List (Gate Q) :=
  (chain anc ba).flatMap (fun t => maj t.1 t.2.1 t.2.2)
  ++ (match cOut with
      | some o => [cx (lastA anc ba) o]
      | none => [])
  ++ (chain anc ba).reverse.flatMap (fun t => umaOpt ctrl t.1 t.2.1 t.2.2)

/-- cuccaro_adder.py 115-202. `ext` are the extension qubits (120-122), fresh and zero; `a` is
truncated to the length of `b` (116-117). -/
def cuccaroAdder (a b ext : List Q) (anc : Q) (cIn cOut ctrl : Option Q) : List (Gate Q) :=
  let a' := a.take b.length ++ ext
  (match cIn with
    | some c => [cx c anc]
    | none => [])
  ++ cuccaroCore anc (b.zip a') cOut ctrl
  ++ (match cIn with
    | some c => [cx c anc]
    | none => [])

/-! ### Lemmas -/

theorem maj_run (c b a : Q) (s : St Q) (hcb : c ≠ b) (hca : c ≠ a) (hba : b ≠ a) :
    run (maj c b a) s = upd (upd (upd s b (s b ^^ s a)) c (s c ^^ s a)) a
      (s a ^^ ((s c ^^ s a) && (s b ^^ s a))) := by
  simp [maj, Gate.app, fire, hcb, hca, hba, hcb.symm, hca.symm, hba.symm]

theorem uma_run (c b a : Q) (s : St Q) (hcb : c ≠ b) (hca : c ≠ a) (hba : b ≠ a) (q : Q) :
    run (uma c b a) s q =
      let a' := s a ^^ (s c && (!s b ^^ s c))
      if q = a then a' else if q = c then s c ^^ a' else
      if q = b then s b ^^ s c ^^ a' else s q := by
  simp only [uma, run_cons, run_nil, Gate.app, fire, List.all_cons, List.all_nil, upd_apply,
    hcb, hca, hba, hcb.symm, hca.symm, hba.symm, if_true, if_false]
  by_cases h1 : q = a
  · subst h1; simp [hba.symm, hca.symm, hcb.symm]
  · by_cases h2 : q = c
    · subst h2; simp [hcb, h1]
    · by_cases h3 : q = b
      · subst h3; simp [h1, h2]
      · simp [h1, h2, h3]

theorem umaCtrl_run (k c b a : Q) (s : St Q) (hcb : c ≠ b) (hca : c ≠ a) (hba : b ≠ a)
    (hkc : k ≠ c) (hkb : k ≠ b) (hka : k ≠ a) (q : Q) :
    run (umaCtrl k c b a) s q =
      let a' := s a ^^ (s c && s b)
      if q = a then a' else if q = c then s c ^^ a' else
      if q = b then s b ^^ (s k && s c) ^^ a' else s q := by
  simp only [umaCtrl, run_cons, run_nil, Gate.app, fire, List.all_cons, List.all_nil, upd_apply,
    hcb, hca, hba, hcb.symm, hca.symm, hba.symm, hkc, hkb, hka, if_true, if_false]
  by_cases h1 : q = a
  · subst h1; simp [hba.symm, hca.symm, hcb.symm]
  · by_cases h2 : q = c
    · subst h2; simp [hcb, h1]
    · by_cases h3 : q = b
      · subst h3; simp [h1, h2]
      · simp [h1, h2, h3]

/-- Effective carry semantics: full adder on the lists of bits. -/
theorem cuccaroCore_spec (ba : List (Q × Q)) (anc : Q) (cOut ctrl : Option Q) (s : St Q)
    (hnd : (anc :: (ba.flatMap (fun p => [p.1, p.2]) ++ cOut.toList ++ ctrl.toList)).Nodup) :
    let s' := run (cuccaroCore anc ba cOut ctrl) s
    ∃ carry : Bool,
      regVal (ba.map Prod.fst) s + regVal (ba.map Prod.snd) s + (s anc).toNat
        = (regVal (ba.map Prod.fst) s + regVal (ba.map Prod.snd) s + (s anc).toNat) % 2 ^ ba.length
          + 2 ^ ba.length * carry.toNat
      ∧ (ctrlOn ctrl s = true → regVal (ba.map Prod.fst) s' =
          (regVal (ba.map Prod.fst) s + regVal (ba.map Prod.snd) s + (s anc).toNat)
            % 2 ^ ba.length)
      ∧ (ctrlOn ctrl s = false → ∀ q ∈ ba.map Prod.fst, s' q = s q)
      ∧ (∀ o, cOut = some o → s' o = (s o ^^ carry))
      ∧ (∀ q, q ∉ ba.map Prod.fst → (∀ o, cOut = some o → q ≠ o) → s' q = s q) := by
  induction ba generalizing anc s with
  | nil =>
    refine ⟨s anc, by simp [Nat.mod_one], ?_⟩
    cases cOut with
    | none => simp [cuccaroCore, chain, Nat.mod_one]
    | some o =>
      simp only [cuccaroCore, chain, lastA]
      simp [Gate.app, fire, Nat.mod_one]
      intro q hq; exact upd_ne hq
  | cons p r ih =>
    obtain ⟨b, a⟩ := p
    have hcore : cuccaroCore anc ((b, a) :: r) cOut ctrl =
        maj anc b a ++ cuccaroCore a r cOut ctrl ++
          umaOpt ctrl anc b a := by
      simp only [cuccaroCore, chain, lastA, List.flatMap_cons, List.reverse_cons,
        List.flatMap_append, List.flatMap_nil, List.append_nil, List.append_assoc]
    simp only [List.flatMap_cons, List.cons_append, List.nil_append, List.nodup_cons,
      List.mem_cons, not_or, List.append_assoc] at hnd
    obtain ⟨⟨hcb, hca, hcr⟩, ⟨hba, hbr⟩, har, hr⟩ := hnd
    have hnd' : (a :: (r.flatMap (fun p => [p.1, p.2]) ++ cOut.toList ++ ctrl.toList)).Nodup := by
      rw [List.nodup_cons, List.append_assoc]; exact ⟨har, hr⟩
    set s1 := run (maj anc b a) s with hs1
    have hs1' := maj_run anc b a s hcb hca hba
    rw [← hs1] at hs1'
    obtain ⟨cy, hcy, hon, hoff, hco, hfr⟩ := ih a s1 hnd'
    set s2 := run (cuccaroCore a r cOut ctrl) s1 with hs2
    -- values in s1
    have e1 : s1 anc = (s anc ^^ s a) := by rw [hs1']; simp [hca, hcb]
    have e2 : s1 b = (s b ^^ s a) := by rw [hs1']; simp [hba, Ne.symm hcb]
    have e3 : s1 a = (s a ^^ ((s anc ^^ s a) && (s b ^^ s a))) := by rw [hs1']; simp
    have e4 : ∀ q, q ≠ anc → q ≠ b → q ≠ a → s1 q = s q := by
      intro q h1 h2 h3; rw [hs1']; simp [h1, h2, h3]
    have memfst : ∀ q ∈ r.map Prod.fst, q ∈ r.flatMap (fun p => [p.1, p.2]) := by
      intro q hq
      obtain ⟨p, hp, rfl⟩ := List.mem_map.1 hq
      exact List.mem_flatMap.2 ⟨p, hp, by simp⟩
    have memsnd : ∀ q ∈ r.map Prod.snd, q ∈ r.flatMap (fun p => [p.1, p.2]) := by
      intro q hq
      obtain ⟨p, hp, rfl⟩ := List.mem_map.1 hq
      exact List.mem_flatMap.2 ⟨p, hp, by simp⟩
    have inr : ∀ q, q ∈ r.flatMap (fun p => [p.1, p.2]) → q ≠ anc ∧ q ≠ b ∧ q ≠ a := by
      intro q hq
      refine ⟨?_, ?_, ?_⟩ <;> rintro rfl
      · exact hcr (by simp only [List.mem_append]; tauto)
      · exact hbr (by simp only [List.mem_append]; tauto)
      · exact har (by simp only [List.mem_append]; tauto)
    have inco : ∀ o, cOut = some o → o ≠ anc ∧ o ≠ b ∧ o ≠ a := by
      rintro o rfl
      refine ⟨?_, ?_, ?_⟩ <;> rintro rfl
      · exact hcr (by simp)
      · exact hbr (by simp)
      · exact har (by simp)
    have inctrl : ∀ k, ctrl = some k → k ≠ anc ∧ k ≠ b ∧ k ≠ a := by
      rintro o rfl
      refine ⟨?_, ?_, ?_⟩ <;> rintro rfl
      · exact hcr (by simp)
      · exact hbr (by simp)
      · exact har (by simp)
    have v1 : regVal (r.map Prod.fst) s1 = regVal (r.map Prod.fst) s := by
      apply regVal_congr; intro q hq
      obtain ⟨h1, h2, h3⟩ := inr q (memfst q hq); exact e4 q h1 h2 h3
    have v2 : regVal (r.map Prod.snd) s1 = regVal (r.map Prod.snd) s := by
      apply regVal_congr; intro q hq
      obtain ⟨h1, h2, h3⟩ := inr q (memsnd q hq); exact e4 q h1 h2 h3
    -- frame for anc, b, a through the inner circuit
    have fr : ∀ q, q = anc ∨ q = b ∨ q = a → s2 q = s1 q := by
      intro q hq
      apply hfr
      · intro hm
        obtain ⟨h1, h2, h3⟩ := inr q (memfst q hm); tauto
      · rintro o ho rfl
        obtain ⟨h1, h2, h3⟩ := inco q ho; tauto
    -- value of the control inside
    have hctl : ctrlOn ctrl s1 =
        ctrlOn ctrl s := by
      cases hc : ctrl with
      | none => rfl
      | some k => obtain ⟨h1, h2, h3⟩ := inctrl k hc; exact e4 k h1 h2 h3
    have hctl2 : ∀ k, ctrl = some k → s2 k = s k := by
      intro k hk
      obtain ⟨h1, h2, h3⟩ := inctrl k hk
      rw [hfr, e4 k h1 h2 h3]
      · intro hm
        have h4 := memfst k hm
        subst hk
        rw [List.nodup_append, List.nodup_append] at hr
        exact hr.2.2 k h4 k (by simp) rfl
      · rintro o ho rfl
        subst hk; subst ho
        rw [List.nodup_append] at hr
        simp at hr
    simp only at hcy hon hoff hco hfr ⊢
    rw [hctl] at hon hoff
    -- final state
    have fin : ∀ q, run (cuccaroCore anc ((b, a) :: r) cOut ctrl) s q =
        if q = a then s a else if q = anc then s anc else if q = b then
          (s b ^^ (ctrlOn ctrl s && (s a ^^ s anc)))
        else s2 q := by
      intro q
      rw [hcore, run_append, run_append, ← hs1, ← hs2]
      cases hc : ctrl with
      | none =>
        simp only [umaOpt, ctrlOn]
        rw [uma_run anc b a s2 hcb hca hba, fr a (by simp), fr b (by simp), fr anc (by simp),
          e1, e2, e3]
        generalize s a = x; generalize s b = y; generalize s anc = z
        simp only
        split_ifs <;> first | rfl | (cases x <;> cases y <;> cases z <;> rfl)
      | some k =>
        obtain ⟨h1, h2, h3⟩ := inctrl k hc
        simp only [umaOpt, ctrlOn]
        rw [umaCtrl_run k anc b a s2 hcb hca hba h1 h2 h3, fr a (by simp), fr b (by simp),
          fr anc (by simp), e1, e2, e3, hctl2 k hc]
        generalize s a = x; generalize s b = y; generalize s anc = z; generalize s k = w
        simp only
        split_ifs <;> first | rfl | (cases x <;> cases y <;> cases z <;> cases w <;> rfl)
    -- register r after
    have vr : ∀ q ∈ r.map Prod.fst,
        run (cuccaroCore anc ((b, a) :: r) cOut ctrl) s q = s2 q := by
      intro q hq
      obtain ⟨h1, h2, h3⟩ := inr q (memfst q hq)
      rw [fin]; simp [h1, h2, h3]
    have key : (s b).toNat + (s a).toNat + (s anc).toNat =
        (s b ^^ (s a ^^ s anc)).toNat + 2 * (s1 a).toNat := by
      rw [e3]; cases s a <;> cases s b <;> cases s anc <;> rfl
    rw [v1, v2] at hcy hon
    have hlt := Nat.mod_lt (regVal (r.map Prod.fst) s + regVal (r.map Prod.snd) s + (s1 a).toNat)
      (show 2 ^ r.length > 0 by positivity)
    set M := (regVal (r.map Prod.fst) s + regVal (r.map Prod.snd) s + (s1 a).toNat) % 2 ^ r.length
      with hM
    set x := (s b ^^ (s a ^^ s anc)) with hx
    have hxl := Bool.toNat_le x
    have tot : regVal (((b, a) :: r).map Prod.fst) s + regVal (((b, a) :: r).map Prod.snd) s
        + (s anc).toNat = (x.toNat + 2 * M) + 2 ^ (r.length + 1) * cy.toNat := by
      simp only [List.map_cons, regVal_cons]
      have : 2 ^ (r.length + 1) * cy.toNat = 2 * (2 ^ r.length * cy.toNat) := by
        rw [pow_succ]; ring
      rw [this]; omega
    have tmod : (regVal (((b, a) :: r).map Prod.fst) s + regVal (((b, a) :: r).map Prod.snd) s
        + (s anc).toNat) % 2 ^ ((b, a) :: r).length = x.toNat + 2 * M := by
      rw [tot, List.length_cons, Nat.add_mul_mod_self_left, Nat.mod_eq_of_lt]
      rw [pow_succ]; omega
    refine ⟨cy, ?_, ?_, ?_, ?_, ?_⟩
    · rw [tmod, tot, List.length_cons]
    · intro h
      rw [tmod, List.map_cons, regVal_cons, regVal_congr vr, hon h, fin b, h]
      simp [hba, Ne.symm hcb, hx]
    · intro h q hq
      rw [List.map_cons, List.mem_cons] at hq
      rcases hq with rfl | hq
      · rw [fin, h]; simp [hba, Ne.symm hcb]
      · rw [vr q hq, hoff h q hq]
        obtain ⟨h1, h2, h3⟩ := inr q (memfst q hq); exact e4 q h1 h2 h3
    · intro o ho
      obtain ⟨h1, h2, h3⟩ := inco o ho
      rw [fin, if_neg h3, if_neg h1, if_neg h2, hco o ho, e4 o h1 h2 h3]
    · intro q hq ho
      rw [List.map_cons, List.mem_cons, not_or] at hq
      obtain ⟨hqb, hq⟩ := hq
      rw [fin]
      split_ifs with g1 g2
      · rw [g1]
      · rw [g2]
      · rw [hfr q hq ho, e4 q g2 hqb g1]

theorem regVal_zip_fst (b a : List Q) (h : b.length ≤ a.length) :
    (b.zip a).map Prod.fst = b := List.map_fst_zip h

theorem regVal_zip_snd (b a : List Q) (h : a.length ≤ b.length) :
    (b.zip a).map Prod.snd = a := List.map_snd_zip h

/-- Membership in the flattened zip. -/
theorem mem_flat_zip {b a : List Q} {q : Q}
    (h : q ∈ (b.zip a).flatMap (fun p => [p.1, p.2])) : q ∈ b ∨ q ∈ a := by
  obtain ⟨p, hp, hq⟩ := List.mem_flatMap.1 h
  have := List.of_mem_zip hp
  simp at hq
  rcases hq with rfl | rfl
  · exact .inl this.1
  · exact .inr this.2

theorem nodup_flat_zip {b a : List Q} (h : (b ++ a).Nodup) :
    ((b.zip a).flatMap (fun p => [p.1, p.2])).Nodup := by
  induction b generalizing a with
  | nil => simp
  | cons x b ih =>
    cases a with
    | nil => simp
    | cons y a =>
      have h' := h
      simp only [List.cons_append, List.nodup_cons, List.mem_append, List.mem_cons, not_or,
        List.nodup_append] at h
      obtain ⟨⟨hxb, hxy, hxa⟩, hb, ⟨hya, ha⟩, hd⟩ := h
      simp only [List.zip_cons_cons, List.flatMap_cons, List.cons_append, List.nil_append,
        List.nodup_cons, List.mem_cons, not_or]
      refine ⟨⟨hxy, fun hm => ?_⟩, fun hm => ?_, ih ?_⟩
      · rcases mem_flat_zip hm with h | h
        · exact hxb h
        · exact hxa h
      · rcases mem_flat_zip hm with h | h
        · exact hd y h y (by simp) rfl
        · exact hya h
      · rw [List.nodup_append]
        exact ⟨hb, ha, fun u hu v hv => hd u hu v (by simp [hv])⟩

theorem cuccaroAdder_spec (a b ext : List Q) (anc : Q) (cIn cOut ctrl : Option Q) (s : St Q)
    (hnd : (anc :: (b ++ (a ++ ext) ++ cOut.toList ++ ctrl.toList ++ cIn.toList)).Nodup)
    (hext : ext.length = b.length - a.length)
    (hanc : s anc = false) (hz : ∀ q ∈ ext, s q = false) :
    let s' := run (cuccaroAdder a b ext anc cIn cOut ctrl) s
    let T := regVal a s % 2 ^ b.length + regVal b s + (optBit cIn s).toNat
    (ctrlOn ctrl s = true → regVal b s' = T % 2 ^ b.length)
      ∧ (ctrlOn ctrl s = false → ∀ q ∈ b, s' q = s q)
      ∧ (∀ o, cOut = some o → s' o = (s o ^^ decide (2 ^ b.length ≤ T)))
      ∧ (∀ q, q ∉ b → (∀ o, cOut = some o → q ≠ o) → s' q = s q) := by
  -- split the nodup hypothesis
  set a' := a.take b.length ++ ext with ha'
  have hlen : a'.length = b.length := by
    rw [ha', List.length_append, List.length_take, hext]; omega
  have hsub : a' ⊆ a ++ ext := by
    intro q hq
    rw [ha', List.mem_append] at hq
    rw [List.mem_append]
    exact hq.imp_left (fun h => List.mem_of_mem_take h)
  have hsl : a'.Sublist (a ++ ext) := (List.take_sublist _ _).append (List.Sublist.refl _)
  have hnd2 := hnd
  rw [List.nodup_cons] at hnd2
  obtain ⟨hancn, hnd3⟩ := hnd2
  have hnd4 : ((b ++ (a ++ ext) ++ cOut.toList ++ ctrl.toList)).Nodup :=
    (List.nodup_append.1 hnd3).1
  have hcore : (anc :: ((b.zip a').flatMap (fun p => [p.1, p.2]) ++ cOut.toList
      ++ ctrl.toList)).Nodup := by
    have h1 : ((b.zip a').flatMap (fun p => [p.1, p.2])).Nodup := by
      apply nodup_flat_zip
      have : (b ++ (a ++ ext)).Nodup :=
        (List.nodup_append.1 (List.nodup_append.1 hnd4).1).1
      exact this.sublist ((List.Sublist.refl _).append hsl)
    have hmem : ∀ q ∈ (b.zip a').flatMap (fun p => [p.1, p.2]), q ∈ b ++ (a ++ ext) := by
      intro q hq
      rcases mem_flat_zip hq with h | h
      · exact List.mem_append_left _ h
      · exact List.mem_append_right _ (hsub h)
    rw [List.nodup_cons]
    rw [List.nodup_append, List.nodup_append] at hnd4
    constructor
    · intro hm
      apply hancn
      simp only [List.mem_append] at hm ⊢
      rcases hm with (h | h) | h
      · have := hmem _ h
        simp only [List.mem_append] at this
        tauto
      · tauto
      · tauto
    · rw [List.nodup_append, List.nodup_append]
      refine ⟨⟨h1, hnd4.1.2.1, fun u hu v hv => hnd4.1.2.2 u (hmem u hu) v hv⟩, hnd4.2.1, ?_⟩
      intro u hu v hv
      apply hnd4.2.2 u _ v hv
      rw [List.mem_append] at hu ⊢
      exact hu.imp_left (hmem u)
  have hcin : ∀ c, cIn = some c → c ≠ anc ∧ c ∉ b ∧ (∀ o, cOut = some o → c ≠ o)
      ∧ (∀ o, ctrl = some o → c ≠ o) := by
    rintro c rfl
    rw [List.nodup_append] at hnd3
    refine ⟨?_, ?_, ?_, ?_⟩
    · rintro rfl; exact hancn (by simp)
    · intro h; exact hnd3.2.2 c (by simp [h]) c (by simp) rfl
    · rintro o rfl rfl; exact hnd3.2.2 c (by simp) c (by simp) rfl
    · rintro o rfl rfl; exact hnd3.2.2 c (by simp) c (by simp) rfl
  have hancb : anc ∉ b := fun h => hancn (by simp [h])
  have hanca : anc ∉ a ++ ext := fun h => hancn (by
    rw [List.mem_append] at h; simp only [List.mem_append]; tauto)
  have hanco : ∀ o, cOut = some o → anc ≠ o := by
    rintro o rfl rfl; exact hancn (by simp)
  have hanck : ∀ o, ctrl = some o → o ≠ anc := by
    rintro o rfl rfl; exact hancn (by simp)
  -- state after the carry-in
  set s0 := run (match cIn with | some c => [cx c anc] | none => []) s with hs0
  have h0 : s0 = upd s anc (optBit cIn s) := by
    rw [hs0]
    cases cIn with
    | none => funext q; by_cases h : q = anc
              · subst h; simp [hanc]
              · simp [h]
    | some c => simp [Gate.app, fire, hanc]
  obtain ⟨cy, hcy, hon, hoff, hco, hfr⟩ := cuccaroCore_spec (b.zip a') anc cOut ctrl s0 hcore
  have hf := regVal_zip_fst b a' hlen.ge
  have hs := regVal_zip_snd b a' hlen.le
  have hzl : (b.zip a').length = b.length := by simp [hlen]
  rw [hf, hs, hzl] at hcy
  rw [hf, hs, hzl] at hon
  rw [hf] at hoff hfr
  set s1 := run (cuccaroCore anc (b.zip a') cOut ctrl) s0 with hs1
  have vb : regVal b s0 = regVal b s := by
    apply regVal_congr; intro q hq; rw [h0, upd_ne]; rintro rfl; exact hancb hq
  have va : regVal a' s0 = regVal a s % 2 ^ b.length := by
    rw [← regVal_take_pad a ext s b.length hz, ← ha']
    apply regVal_congr; intro q hq; rw [h0, upd_ne]; rintro rfl; exact hanca (hsub hq)
  have vanc : s0 anc = optBit cIn s := by rw [h0, upd_same]
  have vctrl : ctrlOn ctrl s0 = ctrlOn ctrl s := by
    cases hk : ctrl with
    | none => rfl
    | some k => simp only [ctrlOn_some]; rw [h0, upd_ne (hanck k hk)]
  rw [va, vb, vanc] at hcy hon
  rw [vctrl] at hon hoff
  have fin : ∀ q, run (cuccaroAdder a b ext anc cIn cOut ctrl) s q =
      if q = anc then false else s1 q := by
    intro q
    have : run (cuccaroAdder a b ext anc cIn cOut ctrl) s =
        run (match cIn with | some c => [cx c anc] | none => []) s1 := by
      simp only [cuccaroAdder, run_append]; rfl
    rw [this]
    have e1 : s1 anc = optBit cIn s := by
      rw [hfr anc hancb hanco, vanc]
    cases hc : cIn with
    | none =>
      simp only [run_nil]
      split_ifs with g
      · rw [g, e1, hc]; rfl
      · rfl
    | some c =>
      obtain ⟨k1, k2, k3, k4⟩ := hcin c hc
      have e2 : s1 c = s c := by rw [hfr c k2 k3, h0, upd_ne k1]
      simp only [run_cons, run_nil, Gate.app, fire, List.all_cons, List.all_nil]
      rw [upd_apply, e1, e2, hc]
      simp
  have T1 : regVal a s % 2 ^ b.length + regVal b s = regVal b s + regVal a s % 2 ^ b.length :=
    Nat.add_comm _ _
  have carry_eq : cy = decide (2 ^ b.length ≤
      regVal a s % 2 ^ b.length + regVal b s + (optBit cIn s).toNat) := by
    rw [T1]
    have hlt := Nat.mod_lt (regVal b s + regVal a s % 2 ^ b.length + (optBit cIn s).toNat)
      (show 2 ^ b.length > 0 by positivity)
    cases cy
    · simp only [Bool.toNat_false, mul_zero, add_zero] at hcy
      symm; rw [decide_eq_false_iff_not]; omega
    · simp only [Bool.toNat_true, mul_one] at hcy
      symm; rw [decide_eq_true_iff]; omega
  have notanc : ∀ q ∈ b, q ≠ anc := by rintro q hq rfl; exact hancb hq
  refine ⟨?_, ?_, ?_, ?_⟩
  · intro h
    rw [T1, ← hon h]
    apply regVal_congr
    intro q hq
    rw [fin, if_neg (notanc q hq)]
  · intro h q hq
    rw [fin, if_neg (notanc q hq), hoff h q hq, h0, upd_ne (notanc q hq)]
  · intro o ho
    rw [fin, if_neg (hanco o ho).symm, hco o ho, carry_eq, h0, upd_ne (hanco o ho).symm]
  · intro q hq ho
    rw [fin]
    split_ifs with g
    · rw [g, hanc]
    · rw [hfr q hq ho, h0, upd_ne g]

end Verif.Rev
