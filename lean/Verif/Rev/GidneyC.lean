import Verif.Rev.GidneyQMain

/-!
Model of the classical-quantum path of `gidney_adder`
(`alg_primitives/arithmetic/adders/gidney_adder.py` 128-205 and 390-449).
-/

set_option linter.unusedSectionVars false
set_option linter.unusedSimpArgs false

namespace Verif.Rev

variable {Q : Type} [DecidableEq Q]

/-- gidney_adder.py 109-125 `_apply_x_bit`, guarded by a classical bit (`with control(bit)`). -/
def xbit (bit : Bool) (ctrl : Option Q) (t : Q) : List (Gate Q) :=
  if bit then
    match ctrl with
    | some k => [cx k t]
    | none => [gx t]
  else []

/-- gidney_adder.py 162-176: one step of the forward sweep; `c = gidney_anc[i-1]`,
`b = b_qbs[i]`, `d = gidney_anc[i]`, `ai` the classical bit. -/
def gcFwd (ctrl : Option Q) (c b : Q) (ai : Bool) (d : Q) : List (Gate Q) :=
  [cx c b] ++ xbit ai ctrl c ++ [.land c b d] ++ xbit ai ctrl c ++ [cx c d]

/-- gidney_adder.py 187-198: one step of the reverse sweep. -/
def gcBwd (ctrl : Option Q) (c b : Q) (ai : Bool) (d : Q) : List (Gate Q) :=
  [cx c d] ++ xbit ai ctrl c ++ [.landInv c b d] ++ xbit ai ctrl c

def gcChain : Q → List (Q × Bool × Q) → List (Q × Q × Bool × Q)
  | _, [] => []
  | c, (b, a, d) :: r => (c, b, a, d) :: gcChain d r

def gcLast : Q → List (Q × Bool × Q) → Q
  | c, [] => c
  | _, (_, _, d) :: r => gcLast d r

/-- gidney_adder.py 160-198: forward sweep, most significant position, reverse sweep. -/
def gcCore (ctrl : Option Q) (c : Q) (ts : List (Q × Bool × Q)) (btop : Q) : List (Gate Q) :=
  (gcChain c ts).flatMap (fun t => gcFwd ctrl t.1 t.2.1 t.2.2.1 t.2.2.2)
  ++ [cx (gcLast c ts) btop]
  ++ (gcChain c ts).reverse.flatMap (fun t => gcBwd ctrl t.1 t.2.1 t.2.2.1 t.2.2.2)

/-- gidney_adder.py 149-155: seed of the carry. -/
def gcPre (ctrl : Option Q) (b0 : Q) (a0 : Bool) (d0 : Q) : List (Gate Q) :=
  if a0 then
    match ctrl with
    | some k => [.land k b0 d0]
    | none => [cx b0 d0]
  else []

/-- gidney_adder.py 201-205: clean-up of the seed. -/
def gcPost (ctrl : Option Q) (b0 : Q) (a0 : Bool) (d0 : Q) : List (Gate Q) :=
  if a0 then
    match ctrl with
    | some k => [.landInv k b0 d0]
    | none => [cx b0 d0]
  else []

/-- Bit `i` of the addend, gidney_adder.py 82-106 `_extract_bit`, for `i < n`. -/
def bitsOf (aInt n : Nat) : List Bool := (List.range n).map (fun i => aInt.testBit i)

/-- gidney_adder.py 128-205 for `n ≥ 2`. -/
def gcCarryChain (ctrl : Option Q) (anc bq : List Q) (bits : List Bool) : List (Gate Q) :=
  match bq, bits, anc with
  | b0 :: b1, a0 :: a1, d0 :: d1 =>
    match b1.getLast? with
    | some btop =>
      gcPre ctrl b0 a0 d0 ++ gcCore ctrl d0 (b1.dropLast.zip (a1.zip d1)) btop
        ++ gcPost ctrl b0 a0 d0
    | none => []
  | _, _, _ => []

/-- gidney_adder.py 444-448: the final XOR layer. -/
def gcXor (ctrl : Option Q) (ps : List (Q × Bool)) : List (Gate Q) :=
  ps.flatMap (fun p => xbit p.2 ctrl p.1)

/-- gidney_adder.py 415-449; `aInt0` is the addend after the optional clamp of line 402. -/
def gidneyC (aInt0 : Nat) (b anc : List Q) (cIn cOut ctrl : Option Q) : List (Gate Q) :=
  let bq := cIn.toList ++ b ++ cOut.toList
  let aInt := if cIn.isSome then aInt0 * 2 + 1 else aInt0
  let bits := bitsOf aInt bq.length
  (if 1 < bq.length then gcCarryChain ctrl anc bq bits else [])
  ++ gcXor ctrl ((bq.zip bits).drop (if cIn.isSome then 1 else 0))

/-- gidney_adder.py 401-402: `a = int(a) % (1 << len(b))` for concrete integers. -/
def gidneyCInt (a : Int) (b anc : List Q) (cIn cOut ctrl : Option Q) : List (Gate Q) :=
  gidneyC (a % (2 ^ b.length : Int)).toNat b anc cIn cOut ctrl

/-! ### Lemmas -/

/-- Little-endian value of a list of bits. -/
def bv : List Bool → Nat
  | [] => 0
  | x :: l => x.toNat + 2 * bv l

theorem regVal_eq_bv (l : List Q) (s : St Q) : regVal l s = bv (l.map s) := by
  induction l with
  | nil => rfl
  | cons q l ih => simp [regVal, bv, ih]

theorem bv_lt (l : List Bool) : bv l < 2 ^ l.length := by
  induction l with
  | nil => simp [bv]
  | cons x l ih =>
    have := Bool.toNat_le x
    rw [bv, List.length_cons, pow_succ]; omega

theorem bitsOf_succ (a n : Nat) : bitsOf a (n + 1) = a.testBit 0 :: bitsOf (a / 2) n := by
  simp only [bitsOf, List.range_succ_eq_map, List.map_cons, List.map_map]
  congr 1
  apply List.map_congr_left
  intro i _
  simp [Nat.testBit_succ]

theorem bitsOf_length (a n : Nat) : (bitsOf a n).length = n := by simp [bitsOf]

theorem bv_bitsOf (a n : Nat) : bv (bitsOf a n) = a % 2 ^ n := by
  induction n generalizing a with
  | zero => simp [bitsOf, bv, Nat.mod_one]
  | succ n ih =>
    rw [bitsOf_succ, bv, ih, pow_succ']
    have h : (a.testBit 0).toNat = a % 2 := by
      rw [Nat.testBit_zero]
      rcases Nat.mod_two_eq_zero_or_one a with h | h <;> simp [h]
    rw [h]
    have h2 := mod_step (x := a % 2) (Z := a / 2) (P := 2 ^ n) (by omega) (by positivity)
    rw [← h2]
    congr 1
    omega

theorem bv_map_and_true (l : List Bool) : bv (l.map (fun x => true && x)) = bv l := by simp

theorem bv_map_false (l : List Bool) : bv (l.map (fun x => false && x)) = 0 := by
  induction l with
  | nil => rfl
  | cons x l ih => simp only [List.map_cons, bv, ih]; rfl

theorem xbit_run (bit : Bool) (ctrl : Option Q) (t : Q) (s : St Q) :
    run (xbit bit ctrl t) s = upd s t (s t ^^ (ctrlOn ctrl s && bit)) := by
  cases bit
  · funext q
    by_cases h : q = t <;> simp [xbit, upd_apply, h]
  · cases ctrl with
    | none => simp [xbit, Gate.app, fire]
    | some k => simp [xbit, Gate.app, fire]

theorem xbit_ok (bit : Bool) (ctrl : Option Q) (t : Q) (s : St Q) : ok (xbit bit ctrl t) s := by
  cases bit <;> cases ctrl <;> simp [xbit, Gate.ok]

theorem ctrlOn_upd (ctrl : Option Q) (s : St Q) (q : Q) (v : Bool)
    (h : ∀ k, ctrl = some k → k ≠ q) : ctrlOn ctrl (upd s q v) = ctrlOn ctrl s := by
  cases ctrl with
  | none => rfl
  | some k => simp [h k rfl]

theorem gcFwd_run (ctrl : Option Q) (c b : Q) (ai : Bool) (d : Q) (s : St Q)
    (hcb : c ≠ b) (hcd : c ≠ d) (hbd : b ≠ d)
    (hk : ∀ k, ctrl = some k → k ≠ c ∧ k ≠ b ∧ k ≠ d) (hd : s d = false) :
    run (gcFwd ctrl c b ai d) s = upd (upd s b (s b ^^ s c)) d
      (((s c ^^ (ctrlOn ctrl s && ai)) && (s b ^^ s c)) ^^ s c)
    ∧ ok (gcFwd ctrl c b ai d) s := by
  have k1 : ∀ k, ctrl = some k → k ≠ c := fun k h => (hk k h).1
  have k2 : ∀ k, ctrl = some k → k ≠ b := fun k h => (hk k h).2.1
  have k3 : ∀ k, ctrl = some k → k ≠ d := fun k h => (hk k h).2.2
  constructor
  · funext q
    simp only [gcFwd, run_append, run_cons, run_nil, xbit_run, Gate.app, fire, List.all_cons,
      List.all_nil, ctrlOn_upd _ _ _ _ k1, ctrlOn_upd _ _ _ _ k2, ctrlOn_upd _ _ _ _ k3,
      upd_apply, hcb, hcd, hbd, hcb.symm, hcd.symm, hbd.symm, if_true, if_false, hd]
    by_cases h1 : q = d
    · subst h1; simp [hcd.symm]
    · by_cases h2 : q = b
      · subst h2; simp [h1, hcb.symm]
      · by_cases h3 : q = c
        · subst h3; simp [h1, h2]
        · simp [h1, h2, h3]
  · simp only [gcFwd, ok_append, xbit_ok, ok_cons, ok_nil, Gate.ok, run_append, run_cons, run_nil,
      xbit_run, Gate.app, upd_apply, hbd.symm, hcd.symm, if_false, hd, and_true, true_and]

theorem gcBwd_run (ctrl : Option Q) (c b : Q) (ai : Bool) (d : Q) (s : St Q)
    (hcb : c ≠ b) (hcd : c ≠ d) (hbd : b ≠ d)
    (hk : ∀ k, ctrl = some k → k ≠ c ∧ k ≠ b ∧ k ≠ d)
    (h : s d = (((s c ^^ (ctrlOn ctrl s && ai)) && s b) ^^ s c)) :
    run (gcBwd ctrl c b ai d) s = upd s d false ∧ ok (gcBwd ctrl c b ai d) s := by
  have k1 : ∀ k, ctrl = some k → k ≠ c := fun k h => (hk k h).1
  have k2 : ∀ k, ctrl = some k → k ≠ b := fun k h => (hk k h).2.1
  have k3 : ∀ k, ctrl = some k → k ≠ d := fun k h => (hk k h).2.2
  constructor
  · funext q
    simp only [gcBwd, run_append, run_cons, run_nil, xbit_run, Gate.app, fire, List.all_cons,
      List.all_nil, ctrlOn_upd _ _ _ _ k1, ctrlOn_upd _ _ _ _ k2, ctrlOn_upd _ _ _ _ k3,
      upd_apply, hcb, hcd, hbd, hcb.symm, hcd.symm, hbd.symm, if_true, if_false, h]
    by_cases h1 : q = d
    · subst h1; simp [hcd.symm]
    · by_cases h3 : q = c
      · subst h3; simp [h1]
      · simp [h1, h3]
  · simp only [gcBwd, ok_append, xbit_ok, ok_cons, ok_nil, Gate.ok, run_append, run_cons, run_nil,
      xbit_run, Gate.app, upd_apply, hbd, hcd, hcb, hcb.symm, hbd.symm, hcd.symm, if_true,
      if_false, and_true, true_and, ctrlOn_upd _ _ _ _ k3, fire, List.all_cons, List.all_nil, h]
    cases s c <;> cases s b <;> cases ctrlOn ctrl s <;> cases ai <;> rfl

def cfst (ts : List (Q × Bool × Q)) : List Q := ts.map (fun t => t.1)
def csnd (ts : List (Q × Bool × Q)) : List Bool := ts.map (fun t => t.2.1)
def ctrd (ts : List (Q × Bool × Q)) : List Q := ts.map (fun t => t.2.2)

theorem gcCore_spec (ts : List (Q × Bool × Q)) (ctrl : Option Q) (c btop : Q) (at' : Bool)
    (s : St Q)
    (hnd : (c :: (ts.flatMap (fun t => [t.1, t.2.2]) ++ (btop :: ctrl.toList))).Nodup)
    (hz : ∀ q ∈ ctrd ts, s q = false) :
    let s' := run (gcCore ctrl c ts btop) s
    bv (List.zipWith xor ((cfst ts ++ [btop]).map s')
          ((csnd ts ++ [at']).map (fun x => ctrlOn ctrl s && x)))
      = (regVal (cfst ts ++ [btop]) s + bv ((csnd ts ++ [at']).map (fun x => ctrlOn ctrl s && x))
          + (s c).toNat) % 2 ^ (ts.length + 1)
    ∧ (∀ q, q ∉ cfst ts → q ≠ btop → s' q = s q)
    ∧ ok (gcCore ctrl c ts btop) s := by
  induction ts generalizing c s with
  | nil =>
    simp only [List.flatMap_nil, List.nil_append, List.nodup_cons, List.mem_cons, not_or] at hnd
    obtain ⟨⟨hcb, hck⟩, hbk, hr⟩ := hnd
    refine ⟨?_, ?_, ?_⟩
    · simp only [gcCore, gcChain, gcLast, cfst, csnd, List.map_nil, List.flatMap_nil,
        List.nil_append, List.reverse_nil, List.append_nil, run_cons, run_nil, Gate.app, fire,
        List.all_cons, List.all_nil, List.map_cons, List.zipWith_cons_cons, upd_same, bv,
        regVal_cons, regVal_nil, List.zipWith_nil_left, List.length_nil]
      cases s btop <;> cases s c <;> cases at' <;> cases ctrlOn ctrl s <;> rfl
    · intro q _ hq
      simp [gcCore, gcChain, gcLast, Gate.app, hq]
    · simp [gcCore, gcChain, gcLast, Gate.ok]
  | cons t r ih =>
    obtain ⟨b, a, d⟩ := t
    have hcore : gcCore ctrl c ((b, a, d) :: r) btop =
        gcFwd ctrl c b a d ++ gcCore ctrl d r btop ++ gcBwd ctrl c b a d := by
      simp only [gcCore, gcChain, gcLast, List.flatMap_cons, List.reverse_cons,
        List.flatMap_append, List.flatMap_nil, List.append_nil, List.append_assoc]
    simp only [List.flatMap_cons, List.cons_append, List.nil_append, List.nodup_cons,
      List.mem_cons, not_or, List.append_assoc] at hnd
    obtain ⟨⟨hcb, hcd, hcr⟩, ⟨hbd, hbr⟩, hdr, hr⟩ := hnd
    have hd0 : s d = false := hz d (by simp [ctrd])
    set R := r.flatMap (fun t => [t.1, t.2.2]) ++ (btop :: ctrl.toList) with hR
    have notR : ∀ q ∈ R, q ≠ c ∧ q ≠ b ∧ q ≠ d := by
      intro q hq
      refine ⟨?_, ?_, ?_⟩ <;> rintro rfl <;> contradiction
    have m1 : ∀ q ∈ cfst r, q ∈ R := by
      intro q hq
      obtain ⟨p, hp, rfl⟩ := List.mem_map.1 hq
      exact List.mem_append_left _ (List.mem_flatMap.2 ⟨p, hp, by simp⟩)
    have m3 : ∀ q ∈ ctrd r, q ∈ R := by
      intro q hq
      obtain ⟨p, hp, rfl⟩ := List.mem_map.1 hq
      exact List.mem_append_left _ (List.mem_flatMap.2 ⟨p, hp, by simp⟩)
    have m4 : btop ∈ R := by simp [hR]
    have m6 : ∀ q ∈ ctrl.toList, q ∈ R := by
      intro q hq; rw [hR]; simp only [List.mem_append, List.mem_cons]; tauto
    have hk : ∀ k, ctrl = some k → k ≠ c ∧ k ≠ b ∧ k ≠ d := by
      rintro k rfl; exact notR k (m6 k (by simp))
    obtain ⟨hf, hfok⟩ := gcFwd_run ctrl c b a d s hcb hcd hbd hk hd0
    set s1 := run (gcFwd ctrl c b a d) s with hs1
    have eo : ∀ q, q ≠ b → q ≠ d → s1 q = s q := by
      intro q h1 h2; rw [hf]; simp [h1, h2]
    have e0 : ∀ q ∈ R, s1 q = s q := fun q hq => eo q (notR q hq).2.1 (notR q hq).2.2
    have ec : s1 c = s c := eo c hcb hcd
    have eb : s1 b = (s b ^^ s c) := by rw [hf]; simp [hbd]
    have ed : s1 d = (((s c ^^ (ctrlOn ctrl s && a)) && (s b ^^ s c)) ^^ s c) := by
      rw [hf]; simp
    have hctl : ctrlOn ctrl s1 = ctrlOn ctrl s := by
      cases ctrl with
      | none => rfl
      | some k => exact e0 k (m6 k (by simp))
    obtain ⟨hv, hfr, hok⟩ := ih d s1 (List.nodup_cons.2 ⟨hdr, hr⟩) (by
      intro q hq; rw [e0 q (m3 q hq)]; exact hz q (List.mem_cons_of_mem _ hq))
    set s2 := run (gcCore ctrl d r btop) s1 with hs2
    have fr : ∀ q, q ∉ R → s2 q = s1 q := by
      intro q hq
      apply hfr
      · intro hm; exact hq (m1 q hm)
      · rintro rfl; exact hq m4
    have fc := fr c hcr
    have fb := fr b hbr
    have fd := fr d hdr
    have hctl2 : ctrlOn ctrl s2 = ctrlOn ctrl s := by
      cases hc : ctrl with
      | none => rfl
      | some k =>
        subst hc
        simp only [ctrlOn_some]
        rw [hfr, e0 k (m6 k (by simp))]
        · intro hm
          rw [hR, List.nodup_append] at hr
          obtain ⟨p, hp, hpk⟩ := List.mem_map.1 hm
          exact hr.2.2 k (List.mem_flatMap.2 ⟨p, hp, by simp [hpk]⟩) k (by simp) rfl
        · rintro rfl
          rw [hR, List.nodup_append] at hr
          have := hr.2.1
          rw [List.nodup_cons] at this
          exact this.1 (by simp)
    obtain ⟨hb, hbok⟩ := gcBwd_run ctrl c b a d s2 hcb hcd hbd hk (by
      rw [fc, fb, fd, hctl2, ec, eb, ed])
    have fin : run (gcCore ctrl c ((b, a, d) :: r) btop) s = upd s2 d false := by
      rw [hcore, run_append, run_append, ← hs1, ← hs2, hb]
    refine ⟨?_, ?_, ?_⟩
    · have memB : ∀ q ∈ cfst r ++ [btop], q ∈ R := by
        intro q hq
        rw [List.mem_append] at hq
        rcases hq with hq | hq
        · exact m1 q hq
        · simp at hq; subst hq; exact m4
      rw [regVal_congr (fun q hq => e0 q (memB q hq)), hctl] at hv
      show bv (List.zipWith xor ((b :: (cfst r ++ [btop])).map _)
        ((a :: (csnd r ++ [at'])).map _)) = (regVal (b :: (cfst r ++ [btop])) s
          + bv ((a :: (csnd r ++ [at'])).map _) + (s c).toNat) % _
      have v3 : (cfst r ++ [btop]).map (run (gcCore ctrl c ((b, a, d) :: r) btop) s)
          = (cfst r ++ [btop]).map s2 := by
        apply List.map_congr_left
        intro q hq
        rw [fin, upd_ne (notR q (memB q hq)).2.2]
      simp only [List.map_cons, List.zipWith_cons_cons, bv, regVal_cons, List.length_cons]
      rw [v3, hv, fin, upd_ne hbd, fb, eb]
      set B := regVal (cfst r ++ [btop]) s
      set A := bv ((csnd r ++ [at']).map (fun x => ctrlOn ctrl s && x))
      have key : (s b).toNat + (ctrlOn ctrl s && a).toNat + (s c).toNat =
          (s b ^^ s c ^^ (ctrlOn ctrl s && a)).toNat + 2 * (s1 d).toNat := by
        rw [ed]; cases s b <;> cases s c <;> cases (ctrlOn ctrl s && a) <;> rfl
      have e : (s b).toNat + 2 * B + ((ctrlOn ctrl s && a).toNat + 2 * A) + (s c).toNat =
          (s b ^^ s c ^^ (ctrlOn ctrl s && a)).toNat + 2 * (B + A + (s1 d).toNat) := by omega
      rw [e, pow_succ' 2 (r.length + 1), mod_step (Bool.toNat_le _) (by positivity)]
    · intro q hq hbt
      simp only [cfst, List.map_cons, List.mem_cons, not_or] at hq
      rw [fin]
      by_cases g : q = d
      · subst g; rw [upd_same, hd0]
      · rw [upd_ne g, hfr q hq.2 hbt, eo q hq.1 g]
    · rw [hcore, ok_append, ok_append, run_append, ← hs1, ← hs2]
      exact ⟨⟨hfok, hok⟩, hbok⟩

/-- The XOR layer. -/
theorem gcXor_run (ctrl : Option Q) (ps : List (Q × Bool)) (s : St Q)
    (hnd : (ps.map Prod.fst).Nodup) (hk : ∀ k, ctrl = some k → k ∉ ps.map Prod.fst) :
    (ps.map Prod.fst).map (run (gcXor ctrl ps) s) =
      List.zipWith xor ((ps.map Prod.fst).map s)
        ((ps.map Prod.snd).map (fun x => ctrlOn ctrl s && x))
    ∧ (∀ q, q ∉ ps.map Prod.fst → run (gcXor ctrl ps) s q = s q)
    ∧ ok (gcXor ctrl ps) s := by
  induction ps generalizing s with
  | nil => simp [gcXor]
  | cons p r ih =>
    obtain ⟨t, a⟩ := p
    simp only [List.map_cons, List.nodup_cons] at hnd
    have hk' : ∀ k, ctrl = some k → k ≠ t := by
      rintro k h rfl; exact hk k h (by simp)
    set s1 := upd s t (s t ^^ (ctrlOn ctrl s && a)) with hs1
    have hrun : run (gcXor ctrl ((t, a) :: r)) s = run (gcXor ctrl r) s1 := by
      simp only [gcXor, List.flatMap_cons, run_append, xbit_run]; rfl
    obtain ⟨i1, i2, i3⟩ := ih s1 hnd.2 (fun k h hm => hk k h (List.mem_cons_of_mem _ hm))
    have hctl : ctrlOn ctrl s1 = ctrlOn ctrl s := ctrlOn_upd _ _ _ _ hk'
    rw [hrun]
    refine ⟨?_, ?_, ?_⟩
    · simp only [List.map_cons, List.zipWith_cons_cons]
      rw [i1, i2 t hnd.1, hctl, hs1, upd_same]
      congr 2
      apply List.map_congr_left
      intro q hq
      apply upd_ne
      rintro rfl; exact hnd.1 hq
    · intro q hq
      simp only [List.map_cons, List.mem_cons, not_or] at hq
      rw [i2 q hq.2, hs1, upd_ne hq.1]
    · simp only [gcXor, List.flatMap_cons, ok_append, xbit_ok, true_and, xbit_run]
      exact i3

/-- Position-wise zip of a register, a list of bits and a register. -/
theorem czip_lists (b : List Q) (a : List Bool) (d : List Q) (h1 : b.length = d.length)
    (h2 : d.length ≤ a.length) :
    cfst (b.zip (a.zip d)) = b ∧ csnd (b.zip (a.zip d)) = a.take d.length
      ∧ ctrd (b.zip (a.zip d)) = d ∧ (b.zip (a.zip d)).length = b.length
      ∧ ((b.zip (a.zip d)).flatMap (fun t => [t.1, t.2.2])).Perm (b ++ d) := by
  induction b generalizing a d with
  | nil =>
    have : d = [] := List.length_eq_zero_iff.1 h1.symm
    subst this; simp [cfst, csnd, ctrd]
  | cons x b ih =>
    cases d with
    | nil => simp at h1
    | cons z d =>
      cases a with
      | nil => simp at h2
      | cons y a =>
        obtain ⟨i1, i2, i3, i4, i5⟩ := ih a d (by simpa using h1) (by simpa using h2)
        simp only [List.zip_cons_cons, List.length_cons, List.take_succ_cons]
        refine ⟨?_, ?_, ?_, ?_, ?_⟩
        · simp only [cfst, List.map_cons] at i1 ⊢; rw [i1]
        · simp only [csnd, List.map_cons] at i2 ⊢; rw [i2]
        · simp only [ctrd, List.map_cons] at i3 ⊢; rw [i3]
        · rw [i4]
        · rw [List.perm_iff_count] at i5 ⊢
          intro q
          have := i5 q
          simp only [List.flatMap_cons, List.count_append, List.count_cons, List.count_nil,
            List.cons_append, List.nil_append] at this ⊢
          omega

/-- The whole carry chain for at least two positions. -/
theorem gcCarryChain_spec (ctrl : Option Q) (anc : List Q) (b0 : Q) (b1 : List Q) (a0 : Bool)
    (a1 : List Bool) (s : St Q)
    (hnd : ((b0 :: b1) ++ anc ++ ctrl.toList).Nodup) (hb1 : b1 ≠ [])
    (ha1 : a1.length = b1.length) (hanc : anc.length = b1.length)
    (hz : ∀ q ∈ anc, s q = false) :
    let G := gcCarryChain ctrl anc (b0 :: b1) (a0 :: a1)
    let s' := run G s
    bv (List.zipWith xor (b1.map s') (a1.map (fun x => ctrlOn ctrl s && x)))
      = (regVal b1 s + bv (a1.map (fun x => ctrlOn ctrl s && x))
          + (s b0 && (ctrlOn ctrl s && a0)).toNat) % 2 ^ b1.length
    ∧ (∀ q, q ∉ b1 → s' q = s q)
    ∧ ok G s := by
  rcases List.eq_nil_or_concat b1 with rfl | ⟨bm, bt, rfl⟩
  · exact absurd rfl hb1
  rcases List.eq_nil_or_concat a1 with rfl | ⟨am, at', rfl⟩
  · simp at ha1
  rw [List.concat_eq_append] at *
  rw [List.concat_eq_append] at *
  obtain ⟨d0, d1, rfl⟩ : ∃ x l, anc = x :: l := by
    cases anc with
    | nil => simp at hanc
    | cons x l => exact ⟨x, l, rfl⟩
  have hlam : am.length = bm.length := by simpa using ha1
  have hd1 : d1.length = bm.length := by simpa using hanc
  obtain ⟨z1, z2, z3, z4, z5⟩ := czip_lists bm (am ++ [at']) d1 hd1.symm (by simp; omega)
  rw [hd1, ← hlam, List.take_left' rfl] at z2
  have hG : gcCarryChain ctrl (d0 :: d1) (b0 :: (bm ++ [bt])) (a0 :: (am ++ [at'])) =
      gcPre ctrl b0 a0 d0 ++ gcCore ctrl d0 (bm.zip ((am ++ [at']).zip d1)) bt
        ++ gcPost ctrl b0 a0 d0 := by
    simp [gcCarryChain]
  rw [hG]
  have hn1 : (b0 :: d0 :: ((bm.zip ((am ++ [at']).zip d1)).flatMap (fun t => [t.1, t.2.2])
      ++ (bt :: ctrl.toList))).Nodup := by
    refine (List.Perm.nodup_iff ?_).1 hnd
    rw [List.perm_iff_count] at z5 ⊢
    intro q
    have := z5 q
    simp only [List.count_append, List.count_cons, List.count_nil] at this ⊢
    omega
  have hbd : b0 ≠ d0 := by
    intro h; rw [List.nodup_cons] at hn1; exact hn1.1 (by simp [h])
  have hb0 : b0 ∉ bm ++ [bt] := by
    intro h
    simp only [List.cons_append, List.nodup_cons, List.mem_append] at hnd h
    tauto
  have hkk : ∀ k, ctrl = some k → k ≠ b0 ∧ k ≠ d0 ∧ k ∉ bm ++ [bt] := by
    rintro k rfl
    rw [List.nodup_append] at hnd
    have h := fun v hv => hnd.2.2 v hv k (by simp)
    refine ⟨(h b0 (by simp)).symm, (h d0 (by simp)).symm, fun hm => h k ?_ rfl⟩
    simp only [List.mem_append, List.mem_cons] at hm ⊢; tauto
  have hd0n : d0 ∉ bm ++ [bt] := by
    intro hm
    rw [List.nodup_append, List.nodup_append] at hnd
    refine hnd.1.2.2 d0 ?_ d0 (by simp) rfl
    simp only [List.mem_append, List.mem_cons] at hm ⊢; tauto
  have hdz := hz d0 (by simp)
  -- seed
  have hpre : run (gcPre ctrl b0 a0 d0) s = upd s d0 (s b0 && (ctrlOn ctrl s && a0))
      ∧ ok (gcPre ctrl b0 a0 d0) s := by
    cases a0
    · refine ⟨?_, by simp [gcPre]⟩
      funext q
      by_cases h : q = d0 <;> simp [gcPre, h, hdz]
    · cases ctrl with
      | none => simp [gcPre, Gate.app, fire, hdz, Gate.ok]
      | some k => simp [gcPre, Gate.app, fire, hdz, Gate.ok, Bool.and_comm]
  obtain ⟨hp, hpok⟩ := hpre
  set s1 := run (gcPre ctrl b0 a0 d0) s with hs1
  have e0 : ∀ q, q ≠ d0 → s1 q = s q := by intro q h; rw [hp, upd_ne h]
  have ed : s1 d0 = (s b0 && (ctrlOn ctrl s && a0)) := by rw [hp, upd_same]
  have hctl : ctrlOn ctrl s1 = ctrlOn ctrl s := by
    cases hc : ctrl with
    | none => rfl
    | some k => exact e0 k (hkk k hc).2.1
  obtain ⟨hv, hfr, hok⟩ := gcCore_spec (bm.zip ((am ++ [at']).zip d1)) ctrl d0 bt at' s1
    (List.nodup_cons.1 hn1).2 (by
      rw [z3]; intro q hq
      rw [e0 q]
      · exact hz q (by simp [hq])
      · rintro rfl
        rw [List.nodup_append, List.nodup_append] at hnd
        exact (List.nodup_cons.1 hnd.1.2.1).1 hq)
  rw [z1, z2, z4, hctl, ed] at hv
  rw [z1] at hfr
  set s2 := run (gcCore ctrl d0 (bm.zip ((am ++ [at']).zip d1)) bt) s1 with hs2
  have fr : ∀ q, q ∉ bm ++ [bt] → s2 q = s1 q := by
    intro q hq
    simp only [List.mem_append, List.mem_singleton, not_or] at hq
    exact hfr q hq.1 hq.2
  have hctl2 : ctrlOn ctrl s2 = ctrlOn ctrl s := by
    cases hc : ctrl with
    | none => rfl
    | some k =>
      show s2 k = s k
      rw [fr k (hkk k hc).2.2, e0 k (hkk k hc).2.1]
  have hpost : run (gcPost ctrl b0 a0 d0) s2 = upd s2 d0 false
      ∧ ok (gcPost ctrl b0 a0 d0) s2 := by
    have f1 : s2 d0 = (s b0 && (ctrlOn ctrl s && a0)) := by rw [fr d0 hd0n, ed]
    have f2 : s2 b0 = s b0 := by rw [fr b0 hb0, e0 b0 hbd]
    cases a0
    · refine ⟨?_, by simp [gcPost]⟩
      funext q
      by_cases h : q = d0
      · subst h; simp [gcPost, f1]
      · simp [gcPost, h]
    · cases ctrl with
      | none => simp [gcPost, Gate.app, fire, Gate.ok, f1, f2]
      | some k =>
        have f3 : s2 k = s k := hctl2
        simp [gcPost, Gate.app, fire, Gate.ok, f1, f2, f3, Bool.and_comm]
  have fin : run (gcPre ctrl b0 a0 d0 ++ gcCore ctrl d0 (bm.zip ((am ++ [at']).zip d1)) bt
        ++ gcPost ctrl b0 a0 d0) s = upd s2 d0 false := by
    rw [run_append, run_append, ← hs1, ← hs2, hpost.1]
  refine ⟨?_, ?_, ?_⟩
  · have h1 : (bm ++ [bt]).map (run (gcPre ctrl b0 a0 d0 ++ gcCore ctrl d0
        (bm.zip ((am ++ [at']).zip d1)) bt ++ gcPost ctrl b0 a0 d0) s) = (bm ++ [bt]).map s2 := by
      apply List.map_congr_left
      intro q hq
      rw [fin, upd_ne]; rintro rfl; exact hd0n hq
    rw [h1, hv]
    have h2 : regVal (bm ++ [bt]) s1 = regVal (bm ++ [bt]) s := by
      apply regVal_congr; intro q hq; apply e0; rintro rfl; exact hd0n hq
    rw [h2]
    simp
  · intro q hq
    rw [fin]
    by_cases h : q = d0
    · rw [h, upd_same, hdz]
    · rw [upd_ne h, fr q hq, e0 q h]
  · rw [ok_append, ok_append, run_append, ← hs1, ← hs2]
    exact ⟨⟨hpok, hok⟩, hpost.2⟩

/-- Value of the register after the XOR layer. -/
theorem gcXor_val (ctrl : Option Q) (qs : List Q) (bits : List Bool) (s : St Q)
    (hl : bits.length = qs.length)
    (hnd : qs.Nodup) (hk : ∀ k, ctrl = some k → k ∉ qs) :
    regVal qs (run (gcXor ctrl (qs.zip bits)) s) =
      bv (List.zipWith xor (qs.map s) (bits.map (fun x => ctrlOn ctrl s && x)))
    ∧ (∀ q, q ∉ qs → run (gcXor ctrl (qs.zip bits)) s q = s q)
    ∧ ok (gcXor ctrl (qs.zip bits)) s := by
  have h1 : (qs.zip bits).map Prod.fst = qs := List.map_fst_zip hl.ge
  have h2 : (qs.zip bits).map Prod.snd = bits := List.map_snd_zip hl.le
  have := gcXor_run ctrl (qs.zip bits) s (by rw [h1]; exact hnd) (by rw [h1]; exact hk)
  rw [h1, h2] at this
  rw [regVal_eq_bv]
  exact ⟨by rw [this.1], this.2⟩

/-- Classical path: the register `b` extended by the carry-out is incremented by
`a + c_in` if the control is on. -/
theorem gidneyC_spec (a : Nat) (b anc : List Q) (cIn cOut ctrl : Option Q) (s : St Q)
    (hnd : (cIn.toList ++ b ++ cOut.toList ++ anc ++ ctrl.toList).Nodup)
    (hb : b ≠ [])
    (hanc : anc.length + 1 = cIn.toList.length + b.length + cOut.toList.length)
    (hz : ∀ q ∈ anc, s q = false) :
    let G := gidneyC a b anc cIn cOut ctrl
    let s' := run G s
    let B := b ++ cOut.toList
    regVal B s' = (regVal B s + (if ctrlOn ctrl s then a + (optBit cIn s).toNat else 0))
        % 2 ^ B.length
    ∧ (∀ q, q ∉ B → s' q = s q)
    ∧ ok G s := by
  set B := b ++ cOut.toList with hB
  have hBne : B ≠ [] := by rw [hB]; simp [hb]
  have hnd' : (cIn.toList ++ B ++ anc ++ ctrl.toList).Nodup := by
    rw [hB, ← List.append_assoc]; exact hnd
  have hBnd : B.Nodup := by
    rw [List.nodup_append, List.nodup_append, List.nodup_append] at hnd'; exact hnd'.1.1.2.1
  have hkB : ∀ k, ctrl = some k → k ∉ B := by
    rintro k rfl hm
    rw [List.nodup_append] at hnd'
    exact hnd'.2.2 k (by simp [hm]) k (by simp) rfl
  have mask : ∀ (n m : Nat), bv ((bitsOf n m).map (fun x => ctrlOn ctrl s && x)) =
      if ctrlOn ctrl s then n % 2 ^ m else 0 := by
    intro n m
    cases ctrlOn ctrl s
    · simpa using bv_map_false (bitsOf n m)
    · simpa using bv_bitsOf n m
  cases hci : cIn with
  | some c =>
    subst hci
    have hlen1 : 1 < (c :: B).length := by
      cases hB' : B with
      | nil => exact absurd hB' hBne
      | cons x l => simp
    have hG : gidneyC a b anc (some c) cOut ctrl =
        gcCarryChain ctrl anc (c :: B) (true :: bitsOf a B.length)
          ++ gcXor ctrl (B.zip (bitsOf a B.length)) := by
      simp only [gidneyC, Option.toList_some, List.cons_append, List.nil_append, ← hB,
        Option.isSome_some, if_true]
      rw [if_pos hlen1, List.length_cons, bitsOf_succ]
      have e1 : (a * 2 + 1).testBit 0 = true := by simp [Nat.testBit_zero]
      have e2 : (a * 2 + 1) / 2 = a := by omega
      rw [e1, e2]
      simp
    obtain ⟨h1, h2, h3⟩ := gcCarryChain_spec ctrl anc c B true (bitsOf a B.length) s
      (by simpa using hnd') hBne (bitsOf_length _ _) (by rw [hB, List.length_append]; simp at hanc; omega) hz
    set s1 := run (gcCarryChain ctrl anc (c :: B) (true :: bitsOf a B.length)) s with hs1
    obtain ⟨g1, g2, g3⟩ := gcXor_val ctrl B (bitsOf a B.length) s1 (bitsOf_length _ _) hBnd hkB
    have hctl : ctrlOn ctrl s1 = ctrlOn ctrl s := by
      cases hc : ctrl with
      | none => rfl
      | some k => exact h2 k (hkB k hc)
    rw [hctl] at g1
    simp only [hG, run_append, ← hs1]
    refine ⟨?_, ?_, ?_⟩
    · rw [g1, h1, mask]
      cases ctrlOn ctrl s
      · simp
      · simp only [if_true, Bool.and_true, optBit_some]
        rw [add_mod_mid, Nat.add_assoc]
    · intro q hq; rw [g2 q hq, h2 q hq]
    · rw [ok_append]; exact ⟨h3, g3⟩
  | none =>
    subst hci
    obtain ⟨b0, b1, hB1⟩ := List.exists_cons_of_ne_nil hBne
    have hlB : B.length = b1.length + 1 := by rw [hB1]; rfl
    have hG : gidneyC a b anc none cOut ctrl =
        (if 1 < B.length then gcCarryChain ctrl anc (b0 :: b1)
          (a.testBit 0 :: bitsOf (a / 2) b1.length) else [])
          ++ gcXor ctrl (B.zip (bitsOf a B.length)) := by
      simp only [gidneyC, Option.toList_none, List.nil_append, ← hB, Option.isSome_none,
        Bool.false_eq_true, if_false, List.drop_zero]
      have : bitsOf a B.length = a.testBit 0 :: bitsOf (a / 2) b1.length := by
        rw [hlB, bitsOf_succ]
      rw [← this, ← hB1]
    have hmain : ∃ s1, run (if 1 < B.length then gcCarryChain ctrl anc (b0 :: b1)
          (a.testBit 0 :: bitsOf (a / 2) b1.length) else []) s = s1
        ∧ bv (List.zipWith xor (b1.map s1) ((bitsOf (a / 2) b1.length).map
            (fun x => ctrlOn ctrl s && x)))
          = (regVal b1 s + bv ((bitsOf (a / 2) b1.length).map (fun x => ctrlOn ctrl s && x))
              + (s b0 && (ctrlOn ctrl s && a.testBit 0)).toNat) % 2 ^ b1.length
        ∧ (∀ q, q ∉ b1 → s1 q = s q)
        ∧ ok (if 1 < B.length then gcCarryChain ctrl anc (b0 :: b1)
          (a.testBit 0 :: bitsOf (a / 2) b1.length) else []) s := by
      by_cases hb1 : b1 = []
      · subst hb1
        refine ⟨s, ?_, ?_, fun _ _ => rfl, ?_⟩
        · rw [hlB]; simp
        · simp [bv, Nat.mod_one]
        · rw [hlB]; simp
      · have hlt : 1 < B.length := by
          rw [hlB]; have := List.length_pos_iff.2 hb1; omega
        rw [if_pos hlt]
        refine ⟨_, rfl, gcCarryChain_spec ctrl anc b0 b1 (a.testBit 0) (bitsOf (a / 2) b1.length) s
          ?_ hb1 (bitsOf_length _ _) ?_ hz⟩
        · rw [← hB1]; simpa using hnd'
        · rw [hB, List.length_append] at hlB
          simp only [Option.toList_none, List.length_nil] at hanc
          omega
    obtain ⟨s1, e1, h1, h2, h3⟩ := hmain
    obtain ⟨g1, g2, g3⟩ := gcXor_val ctrl B (bitsOf a B.length) s1 (bitsOf_length _ _) hBnd hkB
    have hctl : ctrlOn ctrl s1 = ctrlOn ctrl s := by
      cases hc : ctrl with
      | none => rfl
      | some k =>
        refine h2 k (fun hm => hkB k hc ?_)
        rw [hB1]; simp [hm]
    have hb0 : b0 ∉ b1 := by rw [hB1, List.nodup_cons] at hBnd; exact hBnd.1
    rw [hctl] at g1
    simp only [hG, run_append, e1]
    refine ⟨?_, ?_, ?_⟩
    · rw [g1]
      have hbits : bitsOf a B.length = a.testBit 0 :: bitsOf (a / 2) b1.length := by
        rw [hlB, bitsOf_succ]
      rw [hbits, hB1]
      simp only [List.map_cons, List.zipWith_cons_cons, bv, regVal_cons, List.length_cons]
      rw [h1, h2 b0 hb0, mask]
      have ha : (a.testBit 0).toNat = a % 2 := by
        rw [Nat.testBit_zero]
        rcases Nat.mod_two_eq_zero_or_one a with h | h <;> simp [h]
      cases ctrlOn ctrl s
      · simp only [Bool.false_and, Bool.xor_false, Bool.and_false, Bool.toNat_false,
          Bool.false_eq_true, if_false, Nat.add_zero]
        rw [pow_succ' 2 b1.length, mod_step (Bool.toNat_le _) (by positivity)]
      · simp only [Bool.true_and, if_true, optBit_none, Bool.toNat_false, Nat.add_zero]
        have key : (s b0).toNat + a % 2 =
            (s b0 ^^ a.testBit 0).toNat + 2 * (s b0 && a.testBit 0).toNat := by
          rw [← ha]; cases s b0 <;> cases a.testBit 0 <;> rfl
        have e : (s b0).toNat + 2 * regVal b1 s + a =
            (s b0 ^^ a.testBit 0).toNat + 2 * (regVal b1 s + a / 2
              + (s b0 && a.testBit 0).toNat) := by omega
        rw [e, pow_succ' 2 b1.length, mod_step (Bool.toNat_le _) (by positivity)]
        congr 2
        rw [add_mod_mid]
    · intro q hq
      rw [g2 q hq, h2 q]
      intro hm; apply hq; rw [hB1]; simp [hm]
    · rw [ok_append, e1]; exact ⟨h3, g3⟩

end Verif.Rev
