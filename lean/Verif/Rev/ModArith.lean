import Verif.Rev.Reg

/-!
Modular addition and unsigned comparison
(`modular_arithmetic/modular_qft_addition.py` `mod_adder`, `jasp_arithmetic/jasp_mod_adder.py`,
`uint_clifford_t_comparisons.py`), for an arbitrary in-place adder.
-/

set_option linter.unusedSectionVars false
set_option linter.unusedSimpArgs false

namespace Verif.Rev

variable {Q : Type} [DecidableEq Q]

/-- The first operand of `inpl_adder`: a classical integer or a register. -/
inductive Addend (Q : Type)
  | cl (a : Int)
  | q (a : List Q)

def Addend.regs : Addend Q → List Q
  | .cl _ => []
  | .q a => a

/-- The integer denoted by an addend in a basis state. -/
def Addend.val : Addend Q → St Q → Int
  | .cl a, _ => a
  | .q a, s => regVal a s

/-- `inpl_adder(a, b)`. -/
def Adder.go (A : Adder Q) : Addend Q → List Q → St Q → St Q
  | .cl a => A.add a
  | .q a => A.addQ a

/-- `with invert(): inpl_adder(a, b)`. -/
def Adder.goInv (A : Adder Q) : Addend Q → List Q → St Q → St Q
  | .cl a => A.inv a
  | .q a => A.invQ a

/-- `if isinstance(a, int): a = a % modulus`. -/
def Addend.reduce (a : Addend Q) (N : Int) : Addend Q :=
  match a with
  | .cl a => .cl (a % N)
  | .q a => .q a

/-- jasp_mod_adder.py 36-64 and modular_qft_addition.py 104-132: the two functions run the same
statements on a register `b ++ [sign]`; in `jasp_mod_adder` the caller supplies the sign qubit as
`b[-1]`, in `mod_adder` it is a fresh qubit. `red` is `reduction_not_necessary`. -/
def modAdderBody (A : Adder Q) (a : Addend Q) (b : List Q) (sign red : Q) (N : Int)
    (ctrl : Option Q) (s : St Q) : St Q :=
  let B := b ++ [sign]
  let s := ctlOpt ctrl (A.go a B) s
  let s := A.inv N B s
  let s := cxS sign red s
  let s := ctl red (A.add N B) s
  let s := ctlOpt ctrl (A.goInv a B) s
  let s := cxS sign red s
  let s := xS red s
  ctlOpt ctrl (A.go a B) s

/-- modular_qft_addition.py 91-135 `mod_adder`. -/
def modAdder (A : Adder Q) (a : Addend Q) (b : List Q) (sign red : Q) (N : Int)
    (ctrl : Option Q) (s : St Q) : St Q :=
  modAdderBody A (a.reduce N) b sign red N ctrl s

theorem go_eq {A : Adder Q} (hA : A.Correct) (a : Addend Q) (b : List Q) (s : St Q)
    (h : (a.regs ++ b).Nodup) : A.go a b s = addC (a.val s) b s := by
  cases a with
  | cl a => exact hA.add_eq a b s (by simpa [Addend.regs] using h)
  | q a => exact hA.addQ_eq a b s h

theorem goInv_eq {A : Adder Q} (hA : A.Correct) (a : Addend Q) (b : List Q) (s : St Q)
    (h : (a.regs ++ b).Nodup) : A.goInv a b s = addC (-(a.val s)) b s := by
  cases a with
  | cl a => exact hA.inv_eq a b s (by simpa [Addend.regs] using h)
  | q a => exact hA.invQ_eq a b s h

theorem val_congr {a : Addend Q} {s t : St Q} (h : ∀ q ∈ a.regs, s q = t q) : a.val s = a.val t := by
  cases a with
  | cl a => rfl
  | q a => exact congrArg Nat.cast (regVal_congr (l := a) h)

/-- The invariant form of a state during the modular adder: register value `v`, helper bit `r`,
everything else as in `s₀`. -/
theorem modAdderBody_spec {A : Adder Q} (hA : A.Correct) (a : Addend Q) (b : List Q) (sign red : Q)
    (N : Nat) (ctrl : Option Q) (s : St Q)
    (hnd : (red :: (a.regs ++ (b ++ [sign]))).Nodup)
    (hctrl : ∀ k, ctrl = some k → k ∉ b ++ [sign] ∧ k ≠ red)
    (ha0 : 0 ≤ a.val s) (haN : a.val s < N)
    (hN : N ≤ 2 ^ b.length) (hb : regVal b s < N) (hs : s sign = false) (hr : s red = false) :
    let s' := modAdderBody A a b sign red N ctrl s
    (regVal b s' : Int) = ((if ctrlOn ctrl s then a.val s else 0) + regVal b s) % N
    ∧ s' sign = false ∧ s' red = false ∧ ∀ q, q ∉ b → s' q = s q := by
  set B := b ++ [sign] with hB
  rw [List.nodup_cons] at hnd
  obtain ⟨hred, hnd1⟩ := hnd
  have hBn : B.Nodup := (List.nodup_append.1 hnd1).2.1
  have hdis : ∀ q ∈ a.regs, q ∉ B := fun q hq hq' => (List.nodup_append.1 hnd1).2.2 q hq q hq' rfl
  have hredB : red ∉ B := fun h => hred (List.mem_append_right _ h)
  have hreda : red ∉ a.regs := fun h => hred (List.mem_append_left _ h)
  have hsB : sign ∈ B := by simp [hB]
  have hsr : sign ≠ red := fun h => hredB (h ▸ hsB)
  set on := ctrlOn ctrl s with hon
  set av : Int := if on then a.val s else 0 with hav
  have hav0 : 0 ≤ av := by rw [hav]; split_ifs <;> omega
  have havN : av < N := by rw [hav]; split_ifs <;> omega
  -- generic facts about states that agree with `s` outside `B` and `red`
  have kon : ∀ t : St Q, (∀ q, q ∉ B → q ≠ red → t q = s q) → ctrlOn ctrl t = on := by
    intro t ht
    cases ctrl with
    | none => rfl
    | some k =>
      obtain ⟨h1, h2⟩ := hctrl k rfl
      exact ht k h1 h2
  have kav : ∀ t : St Q, (∀ q, q ∉ B → q ≠ red → t q = s q) → a.val t = a.val s := by
    intro t ht
    apply val_congr
    intro q hq
    exact ht q (hdis q hq) (fun h => hreda (h ▸ hq))
  have stepAdd : ∀ t : St Q, (∀ q, q ∉ B → q ≠ red → t q = s q) →
      ctlOpt ctrl (A.go a B) t = addC av B t := by
    intro t ht
    unfold ctlOpt
    rw [kon t ht, hav]
    split_ifs
    · rw [go_eq hA _ _ _ hnd1, kav t ht]
    · rw [addC_zero _ _ hBn]
  have stepSub : ∀ t : St Q, (∀ q, q ∉ B → q ≠ red → t q = s q) →
      ctlOpt ctrl (A.goInv a B) t = addC (-av) B t := by
    intro t ht
    unfold ctlOpt
    rw [kon t ht, hav]
    split_ifs
    · rw [goInv_eq hA _ _ _ hnd1, kav t ht]
    · rw [neg_zero, addC_zero _ _ hBn]
  have frAdd : ∀ (c : Int) (t : St Q), (∀ q, q ∉ B → q ≠ red → t q = s q) →
      (∀ q, q ∉ B → q ≠ red → addC c B t q = s q) := by
    intro c t ht q h1 h2; rw [addC_frame _ _ _ _ h1, ht q h1 h2]
  have frUpd : ∀ (v : Bool) (t : St Q), (∀ q, q ∉ B → q ≠ red → t q = s q) →
      (∀ q, q ∉ B → q ≠ red → upd t red v q = s q) := by
    intro c t ht q h1 h2; rw [upd_ne h2, ht q h1 h2]
  have vUpd : ∀ (v : Bool) (t : St Q), regVal B (upd t red v) = regVal B t := by
    intro v t; apply regVal_congr; intro q hq; rw [upd_ne]; rintro rfl; exact hredB hq
  have hlenB : B.length = b.length + 1 := by simp [hB]
  set P : Int := 2 ^ b.length with hP
  have hNP : (N : Int) ≤ P := by rw [hP]; exact_mod_cast hN
  have hN0 : 0 < N := by omega
  have h2P : (2 : Int) ^ B.length = 2 * P := by rw [hlenB, pow_succ, hP]; ring
  have vB0 : (regVal B s : Int) = regVal b s := by
    rw [hB, regVal_append]; simp [hs]
  have signIff : ∀ t : St Q, t sign = decide (P ≤ (regVal B t : Int)) := by
    intro t
    rw [top_iff b sign t, hP]
    congr 1
    rw [hB]
    norm_cast
  -- step through the statements
  have f0 : ∀ q, q ∉ B → q ≠ red → s q = s q := fun _ _ _ => rfl
  set s1 := addC av B s with hs1
  have f1 := frAdd av s f0
  rw [← hs1] at f1
  have r1 : s1 red = false := by rw [hs1, addC_frame _ _ _ _ hredB, hr]
  set s2 := addC (-N) B s1 with hs2
  have f2 := frAdd (-N) s1 f1
  rw [← hs2] at f2
  have r2 : s2 red = false := by rw [hs2, addC_frame _ _ _ _ hredB, r1]
  set bv' : Int := (regVal b s : Int) with hbv
  have hbN : bv' < N := by rw [hbv]; exact_mod_cast hb
  have hb0 : 0 ≤ bv' := by rw [hbv]; positivity
  have v2 : (regVal B s2 : Int) = (av + bv' - N) % (2 * P) := by
    rw [hs2, hs1, addC_addC _ _ _ _ hBn, regVal_addC _ _ _ hBn, h2P, vB0]
    congr 1; ring
  have hcase : (av + bv' < N ∧ s2 sign = true) ∨ (N ≤ av + bv' ∧ s2 sign = false) := by
    rw [signIff s2, v2]
    by_cases h : av + bv' < N
    · left
      refine ⟨h, ?_⟩
      have : (av + bv' - N) % (2 * P) = av + bv' - N + 2 * P := by
        rw [← Int.add_emod_right]
        exact Int.emod_eq_of_lt (by omega) (by omega)
      rw [this, decide_eq_true_eq]; omega
    · right
      refine ⟨by omega, ?_⟩
      have : (av + bv' - N) % (2 * P) = av + bv' - N := Int.emod_eq_of_lt (by omega) (by omega)
      rw [this, decide_eq_false_iff_not]; omega
  set r : Bool := s2 sign with hrdef
  set s3 := upd s2 red r with hs3
  have e3 : cxS sign red s2 = s3 := by rw [cxS, r2, hs3]; simp; rfl
  have f3 := frUpd r s2 f2
  rw [← hs3] at f3
  have r3 : s3 red = r := by rw [hs3, upd_same]
  set m : Int := (av + bv') % N with hm
  have hm' : m = if r then av + bv' else av + bv' - N := by
    rcases hcase with ⟨h, hr'⟩ | ⟨h, hr'⟩
    · rw [hr', if_pos rfl, hm, Int.emod_eq_of_lt (by omega) h]
    · rw [hr', if_neg (by simp), hm, ← Int.sub_emod_right, Int.emod_eq_of_lt (by omega) (by omega)]
  have hm0 : 0 ≤ m := Int.emod_nonneg _ (by omega)
  have hmN : m < N := Int.emod_lt_of_pos _ (by omega)
  set s4 := addC (if r then (N : Int) else 0) B s3 with hs4
  have e4 : ctl red (A.add N B) s3 = s4 := by
    unfold ctl
    rw [r3, hs4]
    split_ifs
    · rw [hA.add_eq _ _ _ hBn]
    · rw [addC_zero _ _ hBn]
  have f4 := frAdd (if r then (N : Int) else 0) s3 f3
  rw [← hs4] at f4
  have r4 : s4 red = r := by rw [hs4, addC_frame _ _ _ _ hredB, r3]
  have v4 : (regVal B s4 : Int) = m := by
    rw [hs4, regVal_addC _ _ _ hBn, h2P, hs3, vUpd, v2, Int.add_emod_emod]
    have : (if r then (N : Int) else 0) + (av + bv' - N) = m := by
      rw [hm']; split_ifs <;> ring
    rw [this, Int.emod_eq_of_lt hm0 (by omega)]
  set s5 := addC (-av) B s4 with hs5
  have f5 := frAdd (-av) s4 f4
  rw [← hs5] at f5
  have r5 : s5 red = r := by rw [hs5, addC_frame _ _ _ _ hredB, r4]
  have v5 : (regVal B s5 : Int) = (m - av) % (2 * P) := by
    rw [hs5, regVal_addC _ _ _ hBn, h2P, v4]; congr 1; ring
  have g5 : s5 sign = !r := by
    rw [signIff s5, v5]
    rcases hcase with ⟨h, hr'⟩ | ⟨h, hr'⟩
    · have : m - av = bv' := by rw [hm', hr', if_pos rfl]; ring
      rw [hr', this, Int.emod_eq_of_lt hb0 (by omega)]
      simp; omega
    · have : m - av = bv' - N := by rw [hm', hr', if_neg (by simp)]; ring
      rw [hr', this, ← Int.add_emod_right, Int.emod_eq_of_lt (by omega) (by omega)]
      simp; omega
  set s6 := upd s5 red false with hs6
  have e6 : xS red (cxS sign red s5) = s6 := by
    funext q
    by_cases h : q = red
    · subst h; simp [xS, cxS, hs6, r5, g5]
    · simp [xS, cxS, hs6, upd_ne h]
  have f6 := frUpd false s5 f5
  rw [← hs6] at f6
  set s7 := addC av B s6 with hs7
  have e7 : modAdderBody A a b sign red N ctrl s = s7 := by
    unfold modAdderBody
    simp only [← hB]
    rw [stepAdd s f0, ← hs1, hA.inv_eq _ _ _ hBn, ← hs2, e3, e4, stepSub s4 f4, ← hs5, e6,
      stepAdd s6 f6]
  have v7 : (regVal B s7 : Int) = m := by
    rw [hs7, regVal_addC _ _ _ hBn, h2P, hs6, vUpd, v5, Int.add_emod_emod]
    have : av + (m - av) = m := by ring
    rw [this, Int.emod_eq_of_lt hm0 (by omega)]
  have g7 : s7 sign = false := by
    rw [signIff s7, v7]; simp; omega
  have hfinal : modAdderBody A a b sign red (N : Int) ctrl s = s7 := e7
  intro s'
  have hs' : s' = s7 := e7
  rw [hs']
  have r7 : s7 red = false := by rw [hs7, addC_frame _ _ _ _ hredB, hs6, upd_same]
  refine ⟨?_, g7, r7, ?_⟩
  · have : (regVal B s7 : Int) = regVal b s7 := by rw [hB, regVal_append]; simp [g7]
    rw [← this, v7]
  · intro q hq
    by_cases h1 : q = sign
    · rw [h1, g7, hs]
    · by_cases h2 : q = red
      · rw [h2, r7, hr]
      · have hqB : q ∉ B := by simp [hB, hq, h1]
        exact frAdd av s6 f6 q hqB h2

/-! ### Unsigned comparison -/

/-- `with conjugate(inv_adder)(x, l + [anc]): cx(anc, res)`. -/
def cmpCore (A : Adder Q) (x : Addend Q) (l : List Q) (anc res : Q) (s : St Q) : St Q :=
  A.go x (l ++ [anc]) (cxS anc res (A.goInv x (l ++ [anc]) s))

/-- uint_clifford_t_comparisons.py 25-39. `temp` are the `max(0, b.size - a.size)` fresh qubits. -/
def uintQQLess (A : Adder Q) (a b temp : List Q) (anc res : Q) (s : St Q) : St Q :=
  cmpCore A (.q b) (a ++ temp) anc res s

/-- uint_clifford_t_comparisons.py 42-58. -/
def uintCQLess (A : Adder Q) (a : Int) (b : List Q) (anc res : Q) (s : St Q) : St Q :=
  let s := if a < 0 then xS res s else s
  if 0 ≤ a ∧ a < 2 ^ b.length - 1 then xS res (cmpCore A (.cl (a + 1)) b anc res s) else s

/-- uint_clifford_t_comparisons.py 61-75. -/
def uintQCLess (A : Adder Q) (a : List Q) (b : Int) (anc res : Q) (s : St Q) : St Q :=
  let s := if b > 2 ^ a.length then xS res s else s
  if 0 ≤ b ∧ b ≤ 2 ^ a.length then cmpCore A (.cl b) a anc res s else s

theorem cmpCore_spec {A : Adder Q} (hA : A.Correct) (x : Addend Q) (l : List Q) (anc res : Q)
    (s : St Q) (hnd : (res :: (x.regs ++ (l ++ [anc]))).Nodup) (hz : s anc = false)
    (hx0 : 0 ≤ x.val s) (hx1 : x.val s ≤ 2 ^ l.length) :
    cmpCore A x l anc res s = upd s res (s res ^^ decide ((regVal l s : Int) < x.val s)) := by
  set B := l ++ [anc] with hB
  rw [List.nodup_cons] at hnd
  obtain ⟨hred, hnd1⟩ := hnd
  have hBn : B.Nodup := (List.nodup_append.1 hnd1).2.1
  have hdis : ∀ q ∈ x.regs, q ∉ B := fun q hq hq' => (List.nodup_append.1 hnd1).2.2 q hq q hq' rfl
  have hrB : res ∉ B := fun h => hred (List.mem_append_right _ h)
  have hrx : res ∉ x.regs := fun h => hred (List.mem_append_left _ h)
  have hlenB : B.length = l.length + 1 := by simp [hB]
  set P : Int := 2 ^ l.length with hP
  have h2P : (2 : Int) ^ B.length = 2 * P := by rw [hlenB, pow_succ, hP]; ring
  set v := x.val s with hv
  set t := addC (-v) B s with ht
  have vB0 : (regVal B s : Int) = regVal l s := by
    rw [hB, regVal_append]; simp [hz]
  have hlt : (regVal l s : Int) < P := by rw [hP]; exact_mod_cast regVal_lt l s
  have hge : (0 : Int) ≤ regVal l s := by positivity
  have tanc : t anc = decide ((regVal l s : Int) < v) := by
    have h1 : t anc = decide (P ≤ (regVal B t : Int)) := by
      rw [top_iff l anc t, hP]; congr 1; rw [hB]; norm_cast
    rw [h1, ht, regVal_addC _ _ _ hBn, vB0, h2P, decide_eq_decide]
    by_cases h : (regVal l s : Int) < v
    · have : (-v + (regVal l s : Int)) % (2 * P) = -v + regVal l s + 2 * P := by
        rw [← Int.add_emod_right]; exact Int.emod_eq_of_lt (by omega) (by omega)
      rw [this]; omega
    · rw [Int.emod_eq_of_lt (by omega) (by omega)]; omega
  have e1 : A.goInv x B s = t := goInv_eq hA _ _ _ hnd1
  have tres : t res = s res := addC_frame _ _ _ _ hrB
  have tval : ∀ u, x.val (upd t res u) = v := by
    intro u
    rw [hv]
    apply val_congr
    intro q hq
    rw [upd_ne (by rintro rfl; exact hrx hq), ht, addC_frame _ _ _ _ (hdis q hq)]
  unfold cmpCore
  rw [← hB, e1, cxS, tres, tanc, go_eq hA _ _ _ hnd1, tval]
  apply st_ext (l := B)
  · have e : ∀ (w : St Q) u, regVal B (upd w res u) = regVal B w := by
      intro w u; apply regVal_congr; intro q hq; rw [upd_ne (by rintro rfl; exact hrB hq)]
    zify
    rw [regVal_addC _ _ _ hBn, e, e, ht, regVal_addC _ _ _ hBn, Int.add_emod_emod,
      add_neg_cancel_left, Int.emod_eq_of_lt (by positivity)]
    exact_mod_cast regVal_lt B s
  · intro q hq
    rw [addC_frame _ _ _ _ hq]
    by_cases h : q = res
    · subst h; simp
    · rw [upd_ne h, upd_ne h, ht, addC_frame _ _ _ _ hq]

end Verif.Rev
