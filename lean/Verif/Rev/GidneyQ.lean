import Verif.Rev.Basic

/-!
Model of the quantum-quantum path of `gidney_adder`
(`alg_primitives/arithmetic/adders/gidney_adder.py` 208-321 and 451-505).
-/

set_option linter.unusedSectionVars false
set_option linter.unusedSimpArgs false

namespace Verif.Rev

variable {Q : Type} [DecidableEq Q]

/-- gidney_adder.py 251-262, one iteration of the forward sweep: `c = gidney_anc[i-1]`,
`b = b_qbs[i]`, `a = a_qbs[i]`, `d = gidney_anc[i]`. -/
def gqFwd (c b a d : Q) : List (Gate Q) := [cx c b, cx c a, .land a b d, cx c d]

/-- gidney_adder.py 286-299, one iteration of the reverse sweep. -/
def gqBwd (ctrl : Option Q) (c b a d : Q) : List (Gate Q) :=
  [cx c d, .landInv a b d] ++
    match ctrl with
    | some k => [.land k a b, cx c a, cx c b]
    | none => [cx c a, cx a b]

/-- gidney_adder.py 266-281: the most significant position. `last = gidney_anc[n-2]`,
`btop = b_qbs[n-1]`, `atop = a_qbs[n-1]` when there is no carry-out. -/
def gqTop (ctrl : Option Q) (last btop : Q) (atop : Option Q) : List (Gate Q) :=
  match ctrl with
  | some k => .land k last btop :: atop.toList.map (fun a => .land k a btop)
  | none => cx last btop :: atop.toList.map (fun a => cx a btop)

/-- The tuples visited by the sweeps. -/
def gqChain : Q → List (Q × Q × Q) → List (Q × Q × Q × Q)
  | _, [] => []
  | c, (b, a, d) :: r => (c, b, a, d) :: gqChain d r

def gqLast : Q → List (Q × Q × Q) → Q
  | c, [] => c
  | _, (_, _, d) :: r => gqLast d r

/-- gidney_adder.py 250-299: forward sweep, top, reverse sweep. -/
def gqCore (ctrl : Option Q) (c : Q) (ts : List (Q × Q × Q)) (btop : Q) (atop : Option Q) :
    List (Gate Q) :=
  (gqChain c ts).flatMap (fun t => gqFwd t.1 t.2.1 t.2.2.1 t.2.2.2)
  ++ gqTop ctrl (gqLast c ts) btop atop
  ++ (gqChain c ts).reverse.flatMap (fun t => gqBwd ctrl t.1 t.2.1 t.2.2.1 t.2.2.2)

/-- gidney_adder.py 236-242: bit 0 carry setup. -/
def gqPre (cIn : Option Q) (a b d : Q) : List (Gate Q) :=
  match cIn with
  | some c => [cx c b, cx c a, .land a b d, cx c d]
  | none => [.land a b d]

/-- gidney_adder.py 302-321: clean-up of bit 0. -/
def gqPost (ctrl cIn : Option Q) (a b d : Q) : List (Gate Q) :=
  match cIn with
  | some c => [cx c d, .landInv a b d] ++
      (match ctrl with
        | some k => [.land k c d, cx d b, .landInv k c d, cx c b]
        | none => [])
      ++ [cx c a]
  | none => [.landInv a b d]

/-- gidney_adder.py 208-321 -/
def gqCarryChain (anc a b : List Q) (cIn cOut ctrl : Option Q) : List (Gate Q) :=
  match a, b, anc with
  | a0 :: a1, b0 :: b1, d0 :: d1 =>
    match b1.getLast? with
    | some btop =>
      gqPre cIn a0 b0 d0
      ++ gqCore ctrl d0 (b1.dropLast.zip (a1.zip d1)) btop
          (if cOut.isNone then a1.getLast? else none)
      ++ gqPost ctrl cIn a0 b0 d0
    | none => []
  | _, _, _ => []

/-- gidney_adder.py 500-503: final sum of the least significant bit. -/
def gqFinal (ctrl : Option Q) (a0 b0 : Q) : List (Gate Q) :=
  match ctrl with
  | some k => [.land k a0 b0]
  | none => [cx a0 b0]

/-- gidney_adder.py 484-489: carry-in of a single-qubit addition. -/
def gqOne (ctrl cIn : Option Q) (b0 : Q) : List (Gate Q) :=
  match cIn, ctrl with
  | some c, some k => [.land k c b0]
  | some c, none => [cx c b0]
  | none, _ => []

/-- gidney_adder.py 451-505: quantum path. `ext` is the fresh register `a_ext`, `anc` the fresh
register `gidney_anc` with `n - 1` qubits. -/
def gidneyQ (a b ext anc : List Q) (cIn cOut ctrl : Option Q) : List (Gate Q) :=
  match a.take b.length ++ ext, b ++ cOut.toList with
  | a0 :: a1, b0 :: b1 =>
    (if b1.length + 1 ≤ 1 then gqOne ctrl cIn b0
     else gqCarryChain anc (a0 :: a1) (b0 :: b1) cIn cOut ctrl)
    ++ gqFinal ctrl a0 b0
  | _, _ => []

/-! ### Lemmas -/

theorem gqFwd_run (c b a d : Q) (s : St Q) (hcb : c ≠ b) (hca : c ≠ a) (hcd : c ≠ d)
    (hba : b ≠ a) (hbd : b ≠ d) (had : a ≠ d) (hd : s d = false) :
    run (gqFwd c b a d) s = upd (upd (upd s b (s b ^^ s c)) a (s a ^^ s c)) d
      (((s a ^^ s c) && (s b ^^ s c)) ^^ s c) ∧ ok (gqFwd c b a d) s := by
  constructor
  · funext q
    simp only [gqFwd, run_cons, run_nil, Gate.app, fire, List.all_cons, List.all_nil, upd_apply,
      hcb, hca, hcd, hba, hbd, had, hba.symm, hbd.symm, had.symm, if_true, if_false, hd]
    by_cases h1 : q = d
    · simp [h1]
    · simp [h1]
  · simp [gqFwd, Gate.ok, Gate.app, fire, upd_apply, hba, hbd, had, hba.symm, hbd.symm,
      had.symm, hd]

theorem gqBwd_run (ctrl : Option Q) (c b a d : Q) (s : St Q) (hcb : c ≠ b) (hca : c ≠ a)
    (hcd : c ≠ d) (hba : b ≠ a) (hbd : b ≠ d) (had : a ≠ d)
    (hk : ∀ k, ctrl = some k → k ≠ c ∧ k ≠ b ∧ k ≠ a ∧ k ≠ d) (q : Q) :
    run (gqBwd ctrl c b a d) s q =
      if q = d then (s d ^^ s c ^^ (s a && s b))
      else if q = a then (s a ^^ s c)
      else if q = b then (s b ^^ (ctrlOn ctrl s && s a) ^^ s c)
      else s q := by
  cases ctrl with
  | none =>
    simp only [gqBwd, List.cons_append, List.nil_append, run_cons, run_nil, Gate.app, fire,
      List.all_cons, List.all_nil, upd_apply,
      hcb, hca, hcd, hba, hbd, had, hcb.symm, hca.symm, hcd.symm, hba.symm, hbd.symm, had.symm,
      if_true, if_false]
    by_cases h1 : q = d
    · subst h1; simp [had.symm, hbd.symm]
    · by_cases h2 : q = a
      · subst h2; simp [hba.symm, h1]
      · by_cases h3 : q = b
        · subst h3; simp [h1, h2]
        · simp [h1, h2, h3]
  | some k =>
    obtain ⟨h1, h2, h3, h4⟩ := hk k rfl
    simp only [gqBwd, List.cons_append, List.nil_append, run_cons, run_nil, Gate.app, fire,
      List.all_cons, List.all_nil, upd_apply, h1, h2, h3, h4,
      hcb, hca, hcd, hba, hbd, had, hcb.symm, hca.symm, hcd.symm, hba.symm, hbd.symm, had.symm,
      if_true, if_false]
    by_cases g1 : q = d
    · subst g1; simp [had.symm, hbd.symm]
    · by_cases g2 : q = a
      · subst g2; simp [hba.symm, g1]
      · by_cases g3 : q = b
        · subst g3; simp [g1, g2]
        · simp [g1, g2, g3]

theorem gqBwd_ok (c b a d : Q) (s : St Q) (hcd : c ≠ d) (hbd : b ≠ d) (had : a ≠ d)
    (h : s d = ((s a && s b) ^^ s c)) : ok (gqBwd none c b a d) s := by
  simp [gqBwd, Gate.ok, Gate.app, fire, upd_apply, hbd, had, hcd, h]

/-- Top position: bits. -/
theorem gqTop_run (ctrl : Option Q) (last btop : Q) (atop : Option Q) (s : St Q)
    (ha : ∀ a, atop = some a → a ≠ btop)
    (hk : ∀ k, ctrl = some k → k ≠ btop) (q : Q) :
    run (gqTop ctrl last btop atop) s q =
      if q = btop then (s btop ^^ (ctrlOn ctrl s && (s last ^^ optBit atop s))) else s q := by
  cases ctrl with
  | none =>
    cases atop with
    | none => by_cases h : q = btop <;> simp [gqTop, Gate.app, fire, upd_apply, h]
    | some a =>
      have := ha a rfl
      by_cases h : q = btop <;> simp [gqTop, Gate.app, fire, upd_apply, h, this]
  | some k =>
    have hkk := hk k rfl
    cases atop with
    | none => by_cases h : q = btop <;> simp [gqTop, Gate.app, fire, upd_apply, h]
    | some a =>
      have := ha a rfl
      by_cases h : q = btop
      · simp [gqTop, Gate.app, fire, upd_apply, h, this, hkk]
        cases s k <;> simp
      · simp [gqTop, Gate.app, fire, upd_apply, h, this]

theorem gqTop_ok (last btop : Q) (atop : Option Q) (s : St Q) :
    ok (gqTop none last btop atop) s := by
  cases atop <;> simp [gqTop, Gate.ok]

def fst3 (ts : List (Q × Q × Q)) : List Q := ts.map (fun t => t.1)
def snd3 (ts : List (Q × Q × Q)) : List Q := ts.map (fun t => t.2.1)
def trd3 (ts : List (Q × Q × Q)) : List Q := ts.map (fun t => t.2.2)

theorem gqCore_spec (ts : List (Q × Q × Q)) (ctrl : Option Q) (c btop : Q) (atop : Option Q)
    (s : St Q)
    (hnd : (c :: (ts.flatMap (fun t => [t.1, t.2.1, t.2.2]) ++ (btop :: (atop.toList
      ++ ctrl.toList)))).Nodup)
    (hz : ∀ q ∈ trd3 ts, s q = false) :
    let s' := run (gqCore ctrl c ts btop atop) s
    (ctrlOn ctrl s = true → regVal (fst3 ts ++ [btop]) s' =
        (regVal (fst3 ts ++ [btop]) s + regVal (snd3 ts ++ atop.toList) s + (s c).toNat)
          % 2 ^ (ts.length + 1))
    ∧ (ctrlOn ctrl s = false → ∀ q, s' q = s q)
    ∧ (∀ q, q ∉ fst3 ts → q ≠ btop → s' q = s q)
    ∧ (ctrl = none → ok (gqCore ctrl c ts btop atop) s) := by
  induction ts generalizing c s with
  | nil =>
    simp only [List.flatMap_nil, List.nil_append, List.nodup_cons, List.mem_cons, not_or,
      List.mem_append] at hnd
    obtain ⟨⟨hcb, hca, hck⟩, ⟨hba, hbk⟩, hr⟩ := hnd
    have ha : ∀ a, atop = some a → a ≠ btop := by rintro a rfl rfl; exact hba (by simp)
    have hk : ∀ k, ctrl = some k → k ≠ btop := by rintro a rfl rfl; exact hbk (by simp)
    have fin : ∀ q, run (gqCore ctrl c [] btop atop) s q =
      if q = btop then (s btop ^^ (ctrlOn ctrl s && (s c ^^ optBit atop s))) else s q := by
      intro q
      have : gqCore ctrl c [] btop atop = gqTop ctrl c btop atop := by
        simp [gqCore, gqChain, gqLast]
      rw [this, gqTop_run ctrl c btop atop s ha hk]
    refine ⟨?_, ?_, ?_, ?_⟩
    · intro h
      simp only [fst3, snd3, List.map_nil, List.nil_append, regVal_cons, regVal_nil, fin, h]
      cases atop with
      | none =>
        simp only [optBit_none, if_true, Option.toList_none, regVal_nil, List.length_nil]
        cases s btop <;> cases s c <;> rfl
      | some a =>
        simp only [optBit_some, if_true, Option.toList_some, regVal_nil, regVal_cons,
          List.length_nil]
        cases s btop <;> cases s c <;> cases s a <;> rfl
    · intro h q
      simp only [fin, h]
      split_ifs with g
      · subst g; simp
      · rfl
    · intro q _ h; simp only [fin]; rw [if_neg h]
    · rintro rfl
      simp only [gqCore, gqChain, gqLast, List.flatMap_nil, List.nil_append, List.reverse_nil,
        List.append_nil]
      exact gqTop_ok _ _ _ _
  | cons t r ih =>
    obtain ⟨b, a, d⟩ := t
    have hcore : gqCore ctrl c ((b, a, d) :: r) btop atop =
        gqFwd c b a d ++ gqCore ctrl d r btop atop ++ gqBwd ctrl c b a d := by
      simp only [gqCore, gqChain, gqLast, List.flatMap_cons, List.reverse_cons,
        List.flatMap_append, List.flatMap_nil, List.append_nil, List.append_assoc]
    simp only [List.flatMap_cons, List.cons_append, List.nil_append, List.nodup_cons,
      List.mem_cons, not_or, List.append_assoc] at hnd
    obtain ⟨⟨hcb, hca, hcd, hcr⟩, ⟨hba, hbd, hbr⟩, ⟨had, har⟩, hdr, hr⟩ := hnd
    have hnd' : (d :: (r.flatMap (fun t => [t.1, t.2.1, t.2.2]) ++ (btop :: (atop.toList
      ++ ctrl.toList)))).Nodup := List.nodup_cons.2 ⟨hdr, hr⟩
    have hd0 : s d = false := hz d (by simp [trd3])
    obtain ⟨hf, hfok⟩ := gqFwd_run c b a d s hcb hca hcd hba hbd had hd0
    set s1 := run (gqFwd c b a d) s with hs1
    -- the rest of the qubits
    set R := r.flatMap (fun t => [t.1, t.2.1, t.2.2]) ++ (btop :: (atop.toList ++ ctrl.toList))
      with hR
    have notR : ∀ q ∈ R, q ≠ c ∧ q ≠ b ∧ q ≠ a ∧ q ≠ d := by
      intro q hq
      refine ⟨?_, ?_, ?_, ?_⟩ <;> rintro rfl <;> contradiction
    have m1 : ∀ q ∈ fst3 r, q ∈ R := by
      intro q hq
      obtain ⟨p, hp, rfl⟩ := List.mem_map.1 hq
      exact List.mem_append_left _ (List.mem_flatMap.2 ⟨p, hp, by simp⟩)
    have m2 : ∀ q ∈ snd3 r, q ∈ R := by
      intro q hq
      obtain ⟨p, hp, rfl⟩ := List.mem_map.1 hq
      exact List.mem_append_left _ (List.mem_flatMap.2 ⟨p, hp, by simp⟩)
    have m3 : ∀ q ∈ trd3 r, q ∈ R := by
      intro q hq
      obtain ⟨p, hp, rfl⟩ := List.mem_map.1 hq
      exact List.mem_append_left _ (List.mem_flatMap.2 ⟨p, hp, by simp⟩)
    have m4 : btop ∈ R := by simp [hR]
    have m5 : ∀ q ∈ atop.toList, q ∈ R := by
      intro q hq; rw [hR]; simp only [List.mem_append, List.mem_cons]; tauto
    have m6 : ∀ q ∈ ctrl.toList, q ∈ R := by
      intro q hq; rw [hR]; simp only [List.mem_append, List.mem_cons]; tauto
    have e0 : ∀ q ∈ R, s1 q = s q := by
      intro q hq
      obtain ⟨h1, h2, h3, h4⟩ := notR q hq
      rw [hf]; simp [h1, h2, h3, h4]
    have ec : s1 c = s c := by rw [hf]; simp [hcb, hca, hcd]
    have eb : s1 b = (s b ^^ s c) := by rw [hf]; simp [hba, hbd]
    have ea : s1 a = (s a ^^ s c) := by rw [hf]; simp [had]
    have ed : s1 d = (((s a ^^ s c) && (s b ^^ s c)) ^^ s c) := by rw [hf]; simp
    have eo : ∀ q, q ≠ b → q ≠ a → q ≠ d → s1 q = s q := by
      intro q h1 h2 h3; rw [hf]; simp [h1, h2, h3]
    obtain ⟨hon, hoff, hfr, hok⟩ := ih d s1 hnd' (by
      intro q hq; rw [e0 q (m3 q hq)]; exact hz q (by simp [trd3] at hq ⊢; tauto))
    set s2 := run (gqCore ctrl d r btop atop) s1 with hs2
    have fr : ∀ q, q ∉ R → s2 q = s1 q := by
      intro q hq
      apply hfr
      · intro hm; exact hq (m1 q hm)
      · rintro rfl; exact hq m4
    have fc := fr c hcr
    have fb := fr b hbr
    have fa := fr a har
    have fd := fr d hdr
    have hctl : ctrlOn ctrl s1 = ctrlOn ctrl s := by
      cases ctrl with
      | none => rfl
      | some k => exact e0 k (m6 k (by simp))
    have hk : ∀ k, ctrl = some k → k ≠ c ∧ k ≠ b ∧ k ≠ a ∧ k ≠ d := by
      rintro k rfl; exact notR k (m6 k (by simp))
    have hk2 : ∀ k, ctrl = some k → s2 k = s k := by
      rintro k rfl
      rw [hfr, e0 k (m6 k (by simp))]
      · intro hm
        rw [hR, List.nodup_append] at hr
        obtain ⟨p, hp, hpk⟩ := List.mem_map.1 hm
        exact hr.2.2 k (List.mem_flatMap.2 ⟨p, hp, by simp [hpk]⟩) k (by simp) rfl
      · rintro rfl
        rw [hR, List.nodup_append] at hr
        have := hr.2.1
        rw [List.nodup_cons] at this
        exact this.1 (by simp)
    have fin : ∀ q, run (gqCore ctrl c ((b, a, d) :: r) btop atop) s q =
        if q = d then false else if q = a then s a else if q = b then
          (s b ^^ (ctrlOn ctrl s && (s a ^^ s c))) else s2 q := by
      intro q
      rw [hcore, run_append, run_append, ← hs1, ← hs2,
        gqBwd_run ctrl c b a d s2 hcb hca hcd hba hbd had hk, fc, fb, fa, fd, ec, eb, ea, ed]
      cases hc : ctrl with
      | none =>
        simp only [ctrlOn_none]
        generalize s a = x; generalize s b = y; generalize s c = z
        split_ifs <;> first | rfl | (cases x <;> cases y <;> cases z <;> rfl)
      | some k =>
        simp only [ctrlOn_some, hk2 k hc]
        generalize s a = x; generalize s b = y; generalize s c = z; generalize s k = w
        split_ifs <;> first | rfl | (cases x <;> cases y <;> cases z <;> cases w <;> rfl)
    rw [hctl] at hon hoff
    refine ⟨?_, ?_, ?_, ?_⟩
    · intro h
      have hon' := hon h
      have v1 : regVal (fst3 r ++ [btop]) s1 = regVal (fst3 r ++ [btop]) s := by
        apply regVal_congr; intro q hq
        apply e0; rw [List.mem_append] at hq
        rcases hq with hq | hq
        · exact m1 q hq
        · simp at hq; subst hq; exact m4
      have v2 : regVal (snd3 r ++ atop.toList) s1 = regVal (snd3 r ++ atop.toList) s := by
        apply regVal_congr; intro q hq
        apply e0; rw [List.mem_append] at hq
        rcases hq with hq | hq
        · exact m2 q hq
        · exact m5 q hq
      have v3 : regVal (fst3 r ++ [btop]) (run (gqCore ctrl c ((b, a, d) :: r) btop atop) s)
          = regVal (fst3 r ++ [btop]) s2 := by
        apply regVal_congr; intro q hq
        have : q ∈ R := by
          rw [List.mem_append] at hq
          rcases hq with hq | hq
          · exact m1 q hq
          · simp at hq; subst hq; exact m4
        obtain ⟨h1, h2, h3, h4⟩ := notR q this
        rw [fin, if_neg h4, if_neg h3, if_neg h2]
      rw [v1, v2] at hon'
      have key : (s b).toNat + (s a).toNat + (s c).toNat =
          (s b ^^ (s a ^^ s c)).toNat + 2 * (s1 d).toNat := by
        rw [ed]; cases s a <;> cases s b <;> cases s c <;> rfl
      show regVal (b :: (fst3 r ++ [btop])) _ = (regVal (b :: (fst3 r ++ [btop])) s +
        regVal (a :: (snd3 r ++ atop.toList)) s + (s c).toNat) % _
      rw [regVal_cons, v3, hon', fin b, h, regVal_cons, regVal_cons, List.length_cons]
      simp only [hbd, hba, if_true, if_false, Bool.true_and]
      set B := regVal (fst3 r ++ [btop]) s
      set A := regVal (snd3 r ++ atop.toList) s
      have e : (s b).toNat + 2 * B + ((s a).toNat + 2 * A) + (s c).toNat =
          (s b ^^ (s a ^^ s c)).toNat + 2 * (B + A + (s1 d).toNat) := by omega
      rw [e, pow_succ' 2 (r.length + 1)]
      rw [mod_step (Bool.toNat_le _) (by positivity)]
    · intro h q
      have hoff' := hoff h
      rw [fin, hoff' q, h]
      split_ifs with g1 g2 g3
      · rw [g1, hd0]
      · rw [g2]
      · rw [g3]; simp
      · exact eo q g3 g2 g1
    · intro q hq hbt
      simp only [fst3, List.map_cons, List.mem_cons, not_or] at hq
      rw [fin]
      split_ifs with g1 g2 g3
      · rw [g1, hd0]
      · rw [g2]
      · exact absurd g3 hq.1
      · rw [hfr q hq.2 hbt, eo q g3 g2 g1]
    · intro hc
      have hok' := hok hc
      rw [hcore, ok_append, ok_append, run_append, ← hs1, ← hs2]
      refine ⟨⟨hfok, hok'⟩, ?_⟩
      subst hc
      apply gqBwd_ok c b a d s2 hcd hbd had
      rw [fc, fb, fa, fd, ec, eb, ea, ed]

theorem gqPre_run (cIn : Option Q) (a b d : Q) (s : St Q) (hba : b ≠ a) (hbd : b ≠ d)
    (had : a ≠ d) (hc : ∀ c, cIn = some c → c ≠ a ∧ c ≠ b ∧ c ≠ d) (hd : s d = false) :
    run (gqPre cIn a b d) s = upd (upd (upd s b (s b ^^ optBit cIn s)) a (s a ^^ optBit cIn s)) d
      (((s a ^^ optBit cIn s) && (s b ^^ optBit cIn s)) ^^ optBit cIn s)
    ∧ ok (gqPre cIn a b d) s := by
  cases cIn with
  | none =>
    refine ⟨?_, ?_⟩
    · funext q
      by_cases h1 : q = d
      · simp [gqPre, Gate.app, h1, hd]
      · by_cases h2 : q = a
        · subst h2; simp [gqPre, Gate.app, h1]
        · by_cases h3 : q = b
          · subst h3; simp [gqPre, Gate.app, h1, h2]
          · simp [gqPre, Gate.app, h1, h2, h3]
    · simp [gqPre, Gate.ok, hd]
  | some c =>
    obtain ⟨h1, h2, h3⟩ := hc c rfl
    exact gqFwd_run c b a d s h2 h1 h3 hba hbd had hd

theorem gqPost_run (ctrl cIn : Option Q) (a b d : Q) (s : St Q) (hba : b ≠ a) (hbd : b ≠ d)
    (had : a ≠ d) (hc : ∀ c, cIn = some c → c ≠ a ∧ c ≠ b ∧ c ≠ d)
    (hk : ∀ k, ctrl = some k → k ≠ a ∧ k ≠ b ∧ k ≠ d)
    (h : s d = ((s a && s b) ^^ optBit cIn s)) :
    (∀ q, run (gqPost ctrl cIn a b d ++ gqFinal ctrl a b) s q =
      if q = d then false else if q = a then (s a ^^ optBit cIn s)
      else if q = b then (s b ^^ optBit cIn s ^^ (ctrlOn ctrl s && optBit cIn s)
        ^^ (ctrlOn ctrl s && (s a ^^ optBit cIn s)))
      else s q)
    ∧ (ctrl = none → ok (gqPost ctrl cIn a b d ++ gqFinal ctrl a b) s) := by
  constructor
  · intro q
    cases cIn with
    | none =>
      simp only [optBit_none, Bool.xor_false] at h
      cases ctrl with
      | none =>
        by_cases h1 : q = d
        · subst h1; simp [gqPost, gqFinal, Gate.app, fire, upd_apply, hbd.symm, h]
        · by_cases h2 : q = a
          · subst h2; simp [gqPost, gqFinal, Gate.app, fire, upd_apply, hba.symm, h1]
          · by_cases h3 : q = b
            · subst h3; simp [gqPost, gqFinal, Gate.app, fire, upd_apply, h1, h2, had]
            · simp [gqPost, gqFinal, Gate.app, fire, upd_apply, h1, h2, h3]
      | some k =>
        obtain ⟨k1, k2, k3⟩ := hk k rfl
        by_cases h1 : q = d
        · subst h1; simp [gqPost, gqFinal, Gate.app, fire, upd_apply, hbd.symm, h]
        · by_cases h2 : q = a
          · subst h2; simp [gqPost, gqFinal, Gate.app, fire, upd_apply, hba.symm, h1]
          · by_cases h3 : q = b
            · subst h3; simp [gqPost, gqFinal, Gate.app, fire, upd_apply, h1, h2, had, k3]
            · simp [gqPost, gqFinal, Gate.app, fire, upd_apply, h1, h2, h3]
    | some c =>
      obtain ⟨c1, c2, c3⟩ := hc c rfl
      simp only [optBit_some] at h
      cases ctrl with
      | none =>
        by_cases h1 : q = d
        · subst h1
          simp [gqPost, gqFinal, Gate.app, fire, upd_apply, hbd.symm, had.symm, had, hbd, h]
        · by_cases h2 : q = a
          · subst h2
            simp [gqPost, gqFinal, Gate.app, fire, upd_apply, hba.symm, h1, c1, c2, c3]
          · by_cases h3 : q = b
            · subst h3
              simp [gqPost, gqFinal, Gate.app, fire, upd_apply, h1, h2, had, c1, c2, c3]
            · simp [gqPost, gqFinal, Gate.app, fire, upd_apply, h1, h2, h3]
      | some k =>
        obtain ⟨k1, k2, k3⟩ := hk k rfl
        by_cases h1 : q = d
        · subst h1
          simp [gqPost, gqFinal, Gate.app, fire, upd_apply, hbd.symm, had.symm, had, hbd, h,
            c1, c2, c3, k1, k2, k3]
        · by_cases h2 : q = a
          · subst h2
            simp [gqPost, gqFinal, Gate.app, fire, upd_apply, hba.symm, h1, c1, c2, c3, k1, k2, k3]
          · by_cases h3 : q = b
            · subst h3
              simp [gqPost, gqFinal, Gate.app, fire, upd_apply, h1, h2, had, c1, c2, c3,
                k1, k2, k3, h, hba.symm]
              cases s q <;> cases s a <;> cases s c <;> cases s k <;> rfl
            · simp [gqPost, gqFinal, Gate.app, fire, upd_apply, h1, h2, h3]
  · rintro rfl
    cases cIn with
    | none => simp [gqPost, gqFinal, Gate.ok, h]
    | some c =>
      obtain ⟨c1, c2, c3⟩ := hc c rfl
      simp only [optBit_some] at h
      simp [gqPost, gqFinal, Gate.ok, Gate.app, fire, upd_apply, h, had, hbd, c3]

/-- Chain with at least two positions, including the final sum. -/
theorem gqFull_spec (ts : List (Q × Q × Q)) (ctrl cIn : Option Q) (a0 b0 d0 btop : Q)
    (atop : Option Q) (s : St Q)
    (hnd : (d0 :: (ts.flatMap (fun t => [t.1, t.2.1, t.2.2]) ++ (btop :: (atop.toList
      ++ ctrl.toList)))).Nodup)
    (hA : a0 ∉ ts.flatMap (fun t => [t.1, t.2.1, t.2.2]) ++ (btop :: (atop.toList
      ++ ctrl.toList)))
    (hB : b0 ∉ ts.flatMap (fun t => [t.1, t.2.1, t.2.2]) ++ (btop :: (atop.toList
      ++ ctrl.toList)))
    (hba : b0 ≠ a0) (hbd : b0 ≠ d0) (had : a0 ≠ d0)
    (hC : ∀ c, cIn = some c → c ≠ a0 ∧ c ≠ b0 ∧ c ≠ d0 ∧ c ∉ fst3 ts ∧ c ≠ btop)
    (hd : s d0 = false)
    (hz : ∀ q ∈ trd3 ts, s q = false) :
    let G := gqPre cIn a0 b0 d0 ++ gqCore ctrl d0 ts btop atop ++ gqPost ctrl cIn a0 b0 d0
      ++ gqFinal ctrl a0 b0
    let s' := run G s
    (ctrlOn ctrl s = true → regVal (b0 :: (fst3 ts ++ [btop])) s' =
        (regVal (b0 :: (fst3 ts ++ [btop])) s + regVal (a0 :: (snd3 ts ++ atop.toList)) s
          + (optBit cIn s).toNat) % 2 ^ (ts.length + 2))
    ∧ (ctrlOn ctrl s = false → ∀ q, s' q = s q)
    ∧ (∀ q, q ≠ b0 → q ∉ fst3 ts → q ≠ btop → s' q = s q)
    ∧ (ctrl = none → ok G s) := by
  have hnd0 := hnd
  rw [List.nodup_cons] at hnd0
  obtain ⟨hD, hRn⟩ := hnd0
  set R := ts.flatMap (fun t => [t.1, t.2.1, t.2.2]) ++ (btop :: (atop.toList ++ ctrl.toList))
    with hR
  have m1 : ∀ q ∈ fst3 ts, q ∈ R := by
    intro q hq
    obtain ⟨p, hp, rfl⟩ := List.mem_map.1 hq
    exact List.mem_append_left _ (List.mem_flatMap.2 ⟨p, hp, by simp⟩)
  have m2 : ∀ q ∈ snd3 ts, q ∈ R := by
    intro q hq
    obtain ⟨p, hp, rfl⟩ := List.mem_map.1 hq
    exact List.mem_append_left _ (List.mem_flatMap.2 ⟨p, hp, by simp⟩)
  have m3 : ∀ q ∈ trd3 ts, q ∈ R := by
    intro q hq
    obtain ⟨p, hp, rfl⟩ := List.mem_map.1 hq
    exact List.mem_append_left _ (List.mem_flatMap.2 ⟨p, hp, by simp⟩)
  have m4 : btop ∈ R := by simp [hR]
  have m5 : ∀ q ∈ atop.toList, q ∈ R := by
    intro q hq; rw [hR]; simp only [List.mem_append, List.mem_cons]; tauto
  have m6 : ∀ q ∈ ctrl.toList, q ∈ R := by
    intro q hq; rw [hR]; simp only [List.mem_append, List.mem_cons]; tauto
  have notR : ∀ q ∈ R, q ≠ a0 ∧ q ≠ b0 ∧ q ≠ d0 := by
    intro q hq
    refine ⟨?_, ?_, ?_⟩ <;> rintro rfl <;> contradiction
  have hC' : ∀ c, cIn = some c → c ≠ a0 ∧ c ≠ b0 ∧ c ≠ d0 := fun c hc =>
    ⟨(hC c hc).1, (hC c hc).2.1, (hC c hc).2.2.1⟩
  obtain ⟨hp, hpok⟩ := gqPre_run cIn a0 b0 d0 s hba hbd had hC' hd
  set s1 := run (gqPre cIn a0 b0 d0) s with hs1
  have e0 : ∀ q, q ≠ a0 → q ≠ b0 → q ≠ d0 → s1 q = s q := by
    intro q h1 h2 h3; rw [hp]; simp [h1, h2, h3]
  have eR : ∀ q ∈ R, s1 q = s q := fun q hq => e0 q (notR q hq).1 (notR q hq).2.1 (notR q hq).2.2
  have eb : s1 b0 = (s b0 ^^ optBit cIn s) := by rw [hp]; simp [hba, hbd]
  have ea : s1 a0 = (s a0 ^^ optBit cIn s) := by rw [hp]; simp [had]
  have ed : s1 d0 = (((s a0 ^^ optBit cIn s) && (s b0 ^^ optBit cIn s)) ^^ optBit cIn s) := by
    rw [hp]; simp
  obtain ⟨hon, hoff, hfr, hok⟩ := gqCore_spec ts ctrl d0 btop atop s1 hnd
    (fun q hq => by rw [eR q (m3 q hq)]; exact hz q hq)
  set s2 := run (gqCore ctrl d0 ts btop atop) s1 with hs2
  have fr : ∀ q, q ∉ R → s2 q = s1 q := by
    intro q hq
    apply hfr
    · intro hm; exact hq (m1 q hm)
    · rintro rfl; exact hq m4
  have fa := fr a0 hA
  have fb := fr b0 hB
  have fd := fr d0 hD
  have hctl : ctrlOn ctrl s1 = ctrlOn ctrl s := by
    cases ctrl with
    | none => rfl
    | some k => exact eR k (m6 k (by simp))
  have hk : ∀ k, ctrl = some k → k ≠ a0 ∧ k ≠ b0 ∧ k ≠ d0 := by
    rintro k rfl; exact notR k (m6 k (by simp))
  have hctl2 : ctrlOn ctrl s2 = ctrlOn ctrl s := by
    cases hc : ctrl with
    | none => rfl
    | some k =>
      subst hc
      simp only [ctrlOn_some]
      rw [hfr, eR k (m6 k (by simp))]
      · intro hm
        rw [hR, List.nodup_append] at hRn
        obtain ⟨p, hp, hpk⟩ := List.mem_map.1 hm
        exact hRn.2.2 k (List.mem_flatMap.2 ⟨p, hp, by simp [hpk]⟩) k (by simp) rfl
      · rintro rfl
        rw [hR, List.nodup_append] at hRn
        have := hRn.2.1
        rw [List.nodup_cons] at this
        exact this.1 (by simp)
  have hcin1 : optBit cIn s1 = optBit cIn s := by
    cases hc : cIn with
    | none => rfl
    | some c => obtain ⟨c1, c2, c3⟩ := hC' c hc; exact e0 c c1 c2 c3
  have hcin2 : optBit cIn s2 = optBit cIn s := by
    cases hc : cIn with
    | none => rfl
    | some c =>
      obtain ⟨c1, c2, c3, c4, c5⟩ := hC c hc
      simp only [optBit_some]
      rw [hfr c c4 c5, e0 c c1 c2 c3]
  have hd2 : s2 d0 = ((s2 a0 && s2 b0) ^^ optBit cIn s2) := by
    rw [fa, fb, fd, hcin2, ea, eb, ed]
  obtain ⟨hpost, hpostok⟩ := gqPost_run ctrl cIn a0 b0 d0 s2 hba hbd had hC' hk hd2
  have fin : ∀ q, run (gqPre cIn a0 b0 d0 ++ gqCore ctrl d0 ts btop atop
      ++ gqPost ctrl cIn a0 b0 d0 ++ gqFinal ctrl a0 b0) s q =
      if q = d0 then false else if q = a0 then s a0 else if q = b0 then
        (s b0 ^^ (ctrlOn ctrl s && (s a0 ^^ optBit cIn s))) else s2 q := by
    intro q
    rw [List.append_assoc, run_append, run_append (gqPre cIn a0 b0 d0), ← hs1, ← hs2, hpost, fa, fb, hcin2, hctl2,
      ea, eb]
    generalize s a0 = x; generalize s b0 = y; generalize optBit cIn s = z
    generalize ctrlOn ctrl s = w
    split_ifs <;> first | rfl | (cases x <;> cases y <;> cases z <;> cases w <;> rfl)
  rw [hctl] at hon hoff
  refine ⟨?_, ?_, ?_, ?_⟩
  · intro h
    have hon' := hon h
    have memB : ∀ q ∈ fst3 ts ++ [btop], q ∈ R := by
      intro q hq
      rw [List.mem_append] at hq
      rcases hq with hq | hq
      · exact m1 q hq
      · simp at hq; subst hq; exact m4
    have memA : ∀ q ∈ snd3 ts ++ atop.toList, q ∈ R := by
      intro q hq
      rw [List.mem_append] at hq
      rcases hq with hq | hq
      · exact m2 q hq
      · exact m5 q hq
    rw [regVal_congr (fun q hq => eR q (memB q hq)),
      regVal_congr (fun q hq => eR q (memA q hq))] at hon'
    rw [regVal_cons, regVal_cons, regVal_cons, fin b0]
    have v3 : regVal (fst3 ts ++ [btop]) (run (gqPre cIn a0 b0 d0 ++ gqCore ctrl d0 ts btop atop
      ++ gqPost ctrl cIn a0 b0 d0 ++ gqFinal ctrl a0 b0) s) = regVal (fst3 ts ++ [btop]) s2 := by
      apply regVal_congr; intro q hq
      obtain ⟨h1, h2, h3⟩ := notR q (memB q hq)
      rw [fin, if_neg h3, if_neg h1, if_neg h2]
    rw [v3, hon', h]
    simp only [hbd, hba, if_true, if_false, Bool.true_and]
    have key : (s b0).toNat + (s a0).toNat + (optBit cIn s).toNat =
        (s b0 ^^ (s a0 ^^ optBit cIn s)).toNat + 2 * (s1 d0).toNat := by
      rw [ed]; cases s a0 <;> cases s b0 <;> cases optBit cIn s <;> rfl
    set B := regVal (fst3 ts ++ [btop]) s
    set A := regVal (snd3 ts ++ atop.toList) s
    have e : (s b0).toNat + 2 * B + ((s a0).toNat + 2 * A) + (optBit cIn s).toNat =
        (s b0 ^^ (s a0 ^^ optBit cIn s)).toNat + 2 * (B + A + (s1 d0).toNat) := by omega
    rw [e, show ts.length + 2 = (ts.length + 1) + 1 from rfl, pow_succ' 2 (ts.length + 1),
      mod_step (Bool.toNat_le _) (by positivity)]
  · intro h q
    have hoff' := hoff h
    rw [fin, hoff' q, h]
    split_ifs with g1 g2 g3
    · rw [g1, hd]
    · rw [g2]
    · rw [g3]; simp
    · exact e0 q g2 g3 g1
  · intro q hqb hq hbt
    rw [fin]
    split_ifs with g1 g2
    · rw [g1, hd]
    · rw [g2]
    · rw [hfr q hq hbt, e0 q g2 hqb g1]
  · intro hc
    rw [List.append_assoc, ok_append, ok_append, run_append, ← hs1, ← hs2]
    exact ⟨⟨hpok, hok hc⟩, hpostok hc⟩

end Verif.Rev
