import Verif.Rev.ModArith
import Mathlib.Tactic.LinearCombination
import Mathlib.Data.Int.ModEq

/-!
Multiplication circuits over an arbitrary in-place adder
(`ripple_mult.py`, `jasp_arithmetic/jasp_multiplyers.py`, `jasp_arithmetic/jasp_montgomery.py`).
-/

set_option linter.unusedSectionVars false
set_option linter.unusedSimpArgs false

namespace Verif.Rev

variable {Q : Type} [DecidableEq Q]

/-! ### Register lemmas -/

theorem drop_nodup {l : List Q} (h : l.Nodup) (k : Nat) : (l.drop k).Nodup :=
  h.sublist (List.drop_sublist k l)

theorem take_disj_drop {l : List Q} (h : l.Nodup) (k : Nat) : ∀ q ∈ l.take k, q ∉ l.drop k := by
  rw [← List.take_append_drop k l, List.nodup_append] at h
  intro q h1 h2
  exact h.2.2 q h1 q h2 rfl

/-- Adding to a suffix is adding a shifted constant to the whole register. -/
theorem addC_drop (c : Int) (l : List Q) (k : Nat) (s : St Q) (h : l.Nodup) (hk : k ≤ l.length) :
    addC c (l.drop k) s = addC (c * 2 ^ k) l s := by
  apply st_ext (l := l)
  · zify
    rw [regVal_addC _ _ _ h, regVal_split l k _ hk, regVal_split l k s hk]
    rw [regVal_addC_disj _ _ _ _ (take_disj_drop h k)]
    push_cast
    rw [regVal_addC _ _ _ (drop_nodup h k), List.length_drop]
    have hpow : (2 : Int) ^ l.length = 2 ^ k * 2 ^ (l.length - k) := by
      rw [← pow_add]; congr 1; omega
    set x : Int := (regVal (l.take k) s : Int)
    set y : Int := (regVal (l.drop k) s : Int)
    have hx : x < 2 ^ k := by
      have := regVal_lt (l.take k) s
      rw [List.length_take, Nat.min_eq_left hk] at this
      have h2 : ((regVal (l.take k) s : Nat) : Int) < ((2 ^ k : Nat) : Int) := by exact_mod_cast this
      push_cast at h2
      exact h2
    have hx0 : 0 ≤ x := by positivity
    set P : Int := 2 ^ k
    set R : Int := 2 ^ (l.length - k)
    have hR : 0 < R := by positivity
    have hP : 0 < P := by positivity
    rw [hpow]
    have e : c * P + (x + P * y) = x + P * ((c + y) % R) + P * R * ((c + y) / R) := by
      have := Int.mul_ediv_add_emod (c + y) R
      linear_combination (-P) * this
    have g1 := Int.emod_nonneg (c + y) hR.ne'
    have g2 := Int.emod_lt_of_pos (c + y) hR
    rw [e, Int.add_mul_emod_self_left, Int.emod_eq_of_lt (a := x + P * ((c + y) % R))]
    · positivity
    · nlinarith
  · intro q hq
    rw [addC_frame _ _ _ _ hq, addC_frame _ _ _ _ (fun h => hq (List.mem_of_mem_drop h))]

/-- `x(l)` on a whole register. -/
def notReg (l : List Q) (s : St Q) : St Q := run (l.map gx) s

/-- `cx(k, l)` with a single control and a whole register as target. -/
def cxReg (k : Q) (l : List Q) (s : St Q) : St Q := run (l.map (cx k)) s

theorem notReg_apply (l : List Q) (s : St Q) (h : l.Nodup) (q : Q) :
    notReg l s q = if q ∈ l then !(s q) else s q := by
  unfold notReg
  induction l generalizing s with
  | nil => simp
  | cons x l ih =>
    rw [List.nodup_cons] at h
    rw [List.map_cons, run_cons, ih _ h.2]
    by_cases hq : q = x
    · subst hq; simp [h.1, Gate.app, fire]
    · simp [hq, Gate.app, fire, upd_ne hq]

theorem cxReg_eq (k : Q) (l : List Q) (s : St Q) (h : l.Nodup) (hk : k ∉ l) :
    cxReg k l s = if s k then notReg l s else s := by
  funext q
  have : ∀ (l : List Q) (s : St Q), l.Nodup → k ∉ l →
      run (l.map (cx k)) s q = if q ∈ l then (s q ^^ s k) else s q := by
    intro l
    induction l with
    | nil => simp
    | cons x l ih =>
      intro s h hk
      rw [List.nodup_cons] at h
      simp only [List.mem_cons, not_or] at hk
      rw [List.map_cons, run_cons, ih _ h.2 hk.2]
      by_cases hq : q = x
      · subst hq; simp [h.1, Gate.app, fire, upd_ne hk.1]
      · simp [hq, Gate.app, fire, upd_ne hq, upd_ne hk.1]
  unfold cxReg
  rw [this l s h hk]
  cases hs : s k
  · simp
  · simp [notReg_apply l s h]

theorem notReg_frame (l : List Q) (s : St Q) (h : l.Nodup) (q : Q) (hq : q ∉ l) :
    notReg l s q = s q := by rw [notReg_apply l s h, if_neg hq]

theorem regVal_notReg (l : List Q) (s : St Q) (h : l.Nodup) :
    (regVal l (notReg l s) : Int) = 2 ^ l.length - 1 - regVal l s := by
  have : ∀ (l : List Q) (s t : St Q), (∀ q ∈ l, t q = !(s q)) →
      regVal l t + regVal l s + 1 = 2 ^ l.length := by
    intro l s t
    induction l with
    | nil => simp
    | cons x l ih =>
      intro h
      have i := ih (fun q hq => h q (by simp [hq]))
      rw [regVal_cons, regVal_cons, h x (by simp), List.length_cons, pow_succ]
      cases s x <;> simp <;> omega
  have := this l s (notReg l s) (fun q hq => by rw [notReg_apply l s h, if_pos hq])
  zify at this
  linarith

theorem notReg_notReg (l : List Q) (s : St Q) (h : l.Nodup) : notReg l (notReg l s) = s := by
  funext q
  rw [notReg_apply _ _ h, notReg_apply _ _ h]
  split_ifs <;> simp

/-- Adding between two complements subtracts. -/
theorem notReg_addC (a : Int) (l : List Q) (s : St Q) (h : l.Nodup) :
    addC a l (notReg l s) = notReg l (addC (-a) l s) := by
  apply st_ext (l := l)
  · zify
    rw [regVal_addC _ _ _ h, regVal_notReg _ _ h, regVal_notReg _ _ h, regVal_addC _ _ _ h]
    set P : Int := 2 ^ l.length
    have hP : 0 < P := by positivity
    set v : Int := (regVal l s : Int)
    have e : a + (P - 1 - v) = (P - 1 - (-a + v) % P) + P * (-((-a + v) / P)) := by
      have := Int.mul_ediv_add_emod (-a + v) P
      linarith
    have h1 := Int.emod_nonneg (-a + v) hP.ne'
    have h2 := Int.emod_lt_of_pos (-a + v) hP
    rw [e, Int.add_mul_emod_self_left, Int.emod_eq_of_lt (by omega) (by omega)]
  · intro q hq
    rw [addC_frame _ _ _ _ hq, notReg_frame _ _ h _ hq, notReg_frame _ _ h _ hq,
      addC_frame _ _ _ _ hq]

theorem addC_congr_mod (a b : Int) (l : List Q) (s : St Q) (h : l.Nodup)
    (hab : a ≡ b [ZMOD 2 ^ l.length]) : addC a l s = addC b l s := by
  apply st_ext (l := l)
  · zify
    rw [regVal_addC _ _ _ h, regVal_addC _ _ _ h]
    exact hab.add_right _
  · intro q hq; rw [addC_frame _ _ _ _ hq, addC_frame _ _ _ _ hq]

/-- Controlled constant additions into one register, `for (k, c): with control(k): add(c, b)`. -/
theorem foldl_ctl_addC (ts : List (Q × Int)) (b : List Q) (s : St Q) (hb : b.Nodup)
    (hk : ∀ t ∈ ts, t.1 ∉ b) :
    ts.foldl (fun s t => ctl t.1 (addC t.2 b) s) s =
      addC ((ts.map (fun t => if s t.1 then t.2 else 0)).sum) b s := by
  induction ts generalizing s with
  | nil => simp [addC_zero _ _ hb]
  | cons t ts ih =>
    rw [List.foldl_cons, ctl_addC _ _ _ _ hb, ih _ (fun t ht => hk t (by simp [ht])),
      addC_addC _ _ _ _ hb, List.map_cons, List.sum_cons, add_comm]
    have : ∀ u ∈ ts, (if addC (if s t.1 then t.2 else 0) b s u.1 = true then u.2 else 0) =
        if s u.1 = true then u.2 else 0 := by
      intro u hu
      rw [addC_frame _ _ _ _ (hk u (by simp [hu]))]
    rw [List.map_congr_left this]

/-! ### ripple_mult.py -/

/-- ripple_mult.py 65-71 `inpl_q_int_mult` (odd `c`): positions `k-1, …, 0` in descending order. -/
def inplMultLoop (A : Adder Q) (op : List Q) (c : Int) : Nat → St Q → St Q
  | 0, s => s
  | k + 1, s =>
    match op[k]? with
    | some q => inplMultLoop A op c k (ctl q (A.add (c / 2) (op.drop (k + 1))) s)
    | none => s

/-- `none` is the exception for even integers. -/
def inplQIntMult (A : Adder Q) (op : List Q) (c : Int) (s : St Q) : Option (St Q) :=
  if c % 2 = 0 then none else some (inplMultLoop A op c (op.length - 1) s)

theorem regVal_bit (l : List Q) (k : Nat) (q : Q) (s : St Q) (h : l[k]? = some q) :
    regVal l s % 2 ^ (k + 1) = regVal l s % 2 ^ k + 2 ^ k * (s q).toNat := by
  have hk : k < l.length := (List.getElem?_eq_some_iff.1 h).1
  rw [← regVal_take, ← regVal_take, List.take_add_one, h, regVal_append, List.length_take,
    Nat.min_eq_left hk.le]
  simp

theorem inplMultLoop_spec {A : Adder Q} (hA : A.Correct) (op : List Q) (c : Int) (hc : c % 2 = 1)
    (hnd : op.Nodup) (k : Nat) (hk : k < op.length) (s : St Q) :
    inplMultLoop A op c k s = addC ((c - 1) * (regVal op s % 2 ^ k : Nat)) op s := by
  induction k generalizing s with
  | zero => simp [inplMultLoop, Nat.mod_one, addC_zero _ _ hnd]
  | succ k ih =>
    obtain ⟨q, hq⟩ : ∃ q, op[k]? = some q := ⟨_, List.getElem?_eq_getElem (by omega)⟩
    have hstep : ctl q (A.add (c / 2) (op.drop (k + 1))) s =
        addC ((c - 1) * (2 ^ k * (s q).toNat : Nat)) op s := by
      have hn := drop_nodup hnd (k + 1)
      have hc2 : c - 1 = 2 * (c / 2) := by omega
      unfold ctl
      rw [hA.add_eq _ _ _ hn]
      split_ifs with g
      · rw [addC_drop _ _ _ _ hnd hk.le, g, hc2, pow_succ]
        congr 1
        push_cast
        simp only [Bool.toNat_true, Nat.cast_one]
        ring
      · have g' : s q = false := by simpa using g
        rw [g']; simp [addC_zero _ _ hnd]
    rw [inplMultLoop, hq]
    simp only
    rw [hstep, ih (by omega), addC_addC _ _ _ _ hnd]
    have hlow : regVal op (addC ((c - 1) * (2 ^ k * (s q).toNat : Nat)) op s) % 2 ^ k =
        regVal op s % 2 ^ k := by
      zify
      rw [regVal_addC _ _ _ hnd]
      push_cast
      have hdvd : (2 : Int) ^ k ∣ 2 ^ op.length := pow_dvd_pow 2 (by omega)
      rw [Int.emod_emod_of_dvd _ hdvd]
      have : (c - 1) * (2 ^ k * ((s q).toNat : Int)) + (regVal op s : Int) =
          (regVal op s : Int) + 2 ^ k * ((c - 1) * (s q).toNat) := by ring
      rw [this, Int.add_mul_emod_self_left]
    rw [hlow, regVal_bit op k q s hq]
    congr 1
    push_cast
    ring

/-- ripple_mult.py 45-59: the common part of `q_int_mult` after `s` was initialised. `x` is
`factor_1` (the list of the remaining factor qubits with their position), `y` is `factor_2`. -/
def qIntMultLoop (A : Adder Q) (y S : List Q) : Nat → List Q → St Q → St Q
  | _, [], s => s
  | i, [x], s => cxReg x S (A.addQ (y.take (S.length - i)) (S.drop i) s)
  | i, x :: x' :: r, s =>
    let s := A.addQ (y.take (S.length - i)) (S.drop i) s
    let s := cxS x x' s
    let s := cxReg x' S s
    let s := cxS x x' s
    qIntMultLoop A y S (i + 1) (x' :: r) s

/-- ripple_mult.py 45-59. -/
def qIntMultCore (A : Adder Q) (x y S : List Q) (s : St Q) : St Q :=
  match x with
  | [] => s
  | x0 :: r =>
    let s := notReg S s
    let s := A.addQ y S s
    let s := cxReg x0 S s
    let s := qIntMultLoop A y S 0 (x0 :: r) s
    notReg S s

/-- ripple_mult.py 37-38: `for i: cx(factor_2[i], s[i + 1 + n])`. -/
def cxPairs (y t : List Q) (s : St Q) : St Q := run ((y.zip t).map fun p => cx p.1 p.2) s

/-- ripple_mult.py 23-62 with `target_qf = None`. `S` is the fresh register of
`factor_1.size + factor_2.size + 1` qubits; the result is read from `S.drop 1` (`s.reduce(s[0])`).
The swap of the factors (line 25) and the signedness check are in `qIntMult`. -/
def qIntMultFresh (A : Adder Q) (x y S : List Q) (s : St Q) : St Q :=
  qIntMultCore A x y S (cxPairs y (S.drop x.length) s)

/-- ripple_mult.py 23-62 with a target: `S` is the target extended by one qubit at the bottom. -/
def qIntMultTarget (A : Adder Q) (x y S : List Q) (s : St Q) : St Q :=
  qIntMultCore A x y S (A.addQ (y.take (S.length - x.length)) (S.drop x.length) s)

/-- ripple_mult.py 25-29: the longer factor becomes `factor_1`; `none` for signed factors. -/
def qIntMult (A : Adder Q) (x y : List Q) (signedX signedY : Bool) (S : List Q) (s : St Q) :
    Option (St Q) :=
  if signedX || signedY then none
  else some (if x.length < y.length then qIntMultFresh A y x S s else qIntMultFresh A x y S s)

/-- `±` according to a bit. -/
def sgn (b : Bool) : Int := if b then 1 else -1

/-- Flag representation: the register holds `v` if the flag is set, its complement otherwise. -/
def flagSt (f : Bool) (S : List Q) (s : St Q) : St Q := if f then s else notReg S s

theorem flagSt_frame (f : Bool) (S : List Q) (s : St Q) (h : S.Nodup) (q : Q) (hq : q ∉ S) :
    flagSt f S s q = s q := by
  unfold flagSt; split_ifs
  · rfl
  · exact notReg_frame _ _ h _ hq

theorem flagSt_addC (f : Bool) (a : Int) (S : List Q) (s : St Q) (h : S.Nodup) :
    addC a S (flagSt f S s) = flagSt f S (addC (sgn f * a) S s) := by
  cases f
  · simp only [flagSt, sgn, Bool.false_eq_true, if_false]
    rw [notReg_addC _ _ _ h]; simp
  · simp [flagSt, sgn]

theorem flagSt_cxReg (f g : Bool) (k : Q) (S : List Q) (s t : St Q) (h : S.Nodup) (hk : k ∉ S)
    (ht : t = flagSt f S s) (hg : t k = (f ^^ g)) : cxReg k S t = flagSt g S s := by
  rw [cxReg_eq _ _ _ h hk, hg, ht]
  cases f <;> cases g <;> simp [flagSt, notReg_notReg _ _ h]

theorem upd_comm_notReg (S : List Q) (s : St Q) (h : S.Nodup) (q : Q) (v : Bool) (hq : q ∉ S) :
    upd (notReg S s) q v = notReg S (upd s q v) := by
  funext p
  by_cases hp : p = q
  · subst hp; rw [upd_same, notReg_frame _ _ h _ hq, upd_same]
  · rw [upd_ne hp, notReg_apply _ _ h, notReg_apply _ _ h, upd_ne hp]

/-- value of a list of bits with signs, weights `2^i, 2^(i+1), …` -/
def sgnSum (s : St Q) : Nat → List Q → Int
  | _, [] => 0
  | i, x :: r => sgn (s x) * 2 ^ i + sgnSum s (i + 1) r

theorem sgnSum_eq (s : St Q) (i : Nat) (x : List Q) :
    sgnSum s i x = 2 ^ i * (2 * (regVal x s : Int) - 2 ^ x.length + 1) := by
  induction x generalizing i with
  | nil => simp [sgnSum]
  | cons q r ih =>
    rw [sgnSum, ih, regVal_cons, List.length_cons]
    cases s q <;> simp [sgn] <;> ring

theorem sgnSum_congr (s t : St Q) (i : Nat) (x : List Q) (h : ∀ q ∈ x, s q = t q) :
    sgnSum s i x = sgnSum t i x := by
  rw [sgnSum_eq, sgnSum_eq, regVal_congr h]

theorem addQ_take {A : Adder Q} (hA : A.Correct) (y S : List Q) (i : Nat) (s : St Q)
    (hnd : (y ++ S).Nodup) (hi : i ≤ S.length) :
    A.addQ (y.take (S.length - i)) (S.drop i) s = addC (regVal y s * 2 ^ i) S s := by
  have hS : S.Nodup := (List.nodup_append.1 hnd).2.1
  rw [hA.addQ_eq _ _ _ (hnd.sublist (List.Sublist.append (List.take_sublist _ _)
    (List.drop_sublist _ _))), addC_drop _ _ _ _ hS hi]
  apply addC_congr_mod _ _ _ _ hS
  have hpow : (2 : Int) ^ S.length = 2 ^ (S.length - i) * 2 ^ i := by
    rw [← pow_add]; congr 1; omega
  rw [hpow]
  apply Int.ModEq.mul_right'
  rw [regVal_take]
  push_cast
  exact Int.mod_modEq _ _

theorem qIntMultLoop_spec {A : Adder Q} (hA : A.Correct) (y S : List Q) (x0 : Q) (xr : List Q)
    (i : Nat) (s t : St Q) (hi : i + (xr.length + 1) ≤ S.length)
    (hnd : (x0 :: xr ++ (y ++ S)).Nodup) (ht : t = flagSt (s x0) S s) :
    qIntMultLoop A y S i (x0 :: xr) t =
      notReg S (addC (sgnSum s i (x0 :: xr) * regVal y s) S s) := by
  induction xr generalizing x0 i s t with
  | nil =>
    have hyS : (y ++ S).Nodup := (List.nodup_append.1 hnd).2.1
    have hS : S.Nodup := (List.nodup_append.1 hyS).2.1
    have hdis : ∀ q ∈ y, q ∉ S := fun q hq hq' => (List.nodup_append.1 hyS).2.2 q hq q hq' rfl
    have hx0 : x0 ∉ S := by
      intro h; exact (List.nodup_append.1 hnd).2.2 x0 (by simp) x0 (by simp [h]) rfl
    have hy : regVal y t = regVal y s := by
      apply regVal_congr; intro q hq; rw [ht, flagSt_frame _ _ _ hS _ (hdis q hq)]
    rw [qIntMultLoop, addQ_take hA y S i t hyS (by omega), hy, ht, flagSt_addC _ _ _ _ hS]
    rw [flagSt_cxReg (s x0) false x0 S _ _ hS hx0 rfl]
    · simp only [flagSt, Bool.false_eq_true, if_false, sgnSum]
      congr 2; ring
    · rw [flagSt_frame _ _ _ hS _ hx0, addC_frame _ _ _ _ hx0]; simp
  | cons x' r ih =>
    have hyS : (y ++ S).Nodup := (List.nodup_append.1 hnd).2.1
    have hS : S.Nodup := (List.nodup_append.1 hyS).2.1
    have hdis : ∀ q ∈ y, q ∉ S := fun q hq hq' => (List.nodup_append.1 hyS).2.2 q hq q hq' rfl
    have hxd : ∀ q ∈ x0 :: x' :: r, q ∉ y ∧ q ∉ S := by
      intro q hq
      constructor
      · intro h; exact (List.nodup_append.1 hnd).2.2 q hq q (by simp [h]) rfl
      · intro h; exact (List.nodup_append.1 hnd).2.2 q hq q (by simp [h]) rfl
    have hx0 := (hxd x0 (by simp)).2
    have hx' := (hxd x' (by simp)).2
    have hne : x0 ≠ x' := by
      have := (List.nodup_append.1 hnd).1
      intro h; subst h; simp at this
    have hy : regVal y t = regVal y s := by
      apply regVal_congr; intro q hq; rw [ht, flagSt_frame _ _ _ hS _ (hdis q hq)]
    set w := sgn (s x0) * (regVal y s * 2 ^ i) with hw
    set s1 := addC w S s with hs1
    have fr1 : ∀ q, q ∉ S → s1 q = s q := fun q hq => addC_frame _ _ _ _ hq
    have e1 : A.addQ (y.take (S.length - i)) (S.drop i) t = flagSt (s x0) S s1 := by
      rw [addQ_take hA y S i t hyS (by omega), hy, ht, flagSt_addC _ _ _ _ hS]
    have e2 : cxS x0 x' (cxReg x' S (cxS x0 x' (flagSt (s x0) S s1))) = flagSt (s1 x') S s1 := by
      have g1 : cxS x0 x' (flagSt (s x0) S s1) = flagSt (s x0) S (upd s1 x' (s1 x' ^^ s x0)) := by
        rw [cxS, flagSt_frame _ _ _ hS _ hx', flagSt_frame _ _ _ hS _ hx0, fr1 x0 hx0]
        cases s x0
        · simp only [flagSt, Bool.false_eq_true, if_false]
          rw [upd_comm_notReg _ _ hS _ _ hx']
        · simp [flagSt]
      rw [flagSt_cxReg (s x0) (s1 x') x' S _ _ hS hx' g1]
      · rw [cxS, flagSt_frame _ _ _ hS _ hx', flagSt_frame _ _ _ hS _ hx0, upd_same,
          upd_ne hne, fr1 x0 hx0]
        have hu : ∀ u : St Q, upd (upd u x' (s1 x' ^^ s x0)) x' (s1 x' ^^ s x0 ^^ s x0) =
            upd u x' (s1 x') := by
          intro u; funext p
          by_cases hp : p = x'
          · subst hp; simp
          · simp [upd_ne hp]
        have hus : upd s1 x' (s1 x') = s1 := by
          funext p
          by_cases hp : p = x'
          · subst hp; simp
          · simp [upd_ne hp]
        unfold flagSt
        split_ifs
        · rw [hu, hus]
        · rw [upd_comm_notReg _ _ hS _ _ hx', hu, hus]
      · rw [g1, flagSt_frame _ _ _ hS _ hx', upd_same, Bool.xor_comm]
    rw [qIntMultLoop]
    rw [e1, e2, ih x' (i + 1) s1 _ (by simp at hi ⊢; omega) (List.nodup_cons.1 hnd).2 rfl]
    have hy1 : regVal y s1 = regVal y s := regVal_congr (fun q hq => fr1 q (hdis q hq))
    have hsum : sgnSum s1 (i + 1) (x' :: r) = sgnSum s (i + 1) (x' :: r) :=
      sgnSum_congr _ _ _ _ (fun q hq => fr1 q (hxd q (by simp [hq])).2)
    rw [hy1, hsum, hs1, addC_addC _ _ _ _ hS, hw]
    congr 2
    simp only [sgnSum]
    ring

/-- Core of the sign alternating multiplication: `v ↦ v + (2 x - 2^|x|) y` where the initial value
supplies `2^|x| y`. -/
theorem qIntMultCore_spec {A : Adder Q} (hA : A.Correct) (x y S : List Q) (s : St Q)
    (hx : x ≠ []) (hlen : x.length ≤ S.length) (hnd : (x ++ (y ++ S)).Nodup) :
    qIntMultCore A x y S s =
      addC ((2 * (regVal x s : Int) - 2 ^ x.length) * regVal y s) S s := by
  obtain ⟨x0, r, rfl⟩ : ∃ a l, x = a :: l := by
    cases x with
    | nil => exact absurd rfl hx
    | cons a l => exact ⟨a, l, rfl⟩
  have hyS : (y ++ S).Nodup := (List.nodup_append.1 hnd).2.1
  have hS : S.Nodup := (List.nodup_append.1 hyS).2.1
  have hdis : ∀ q ∈ y, q ∉ S := fun q hq hq' => (List.nodup_append.1 hyS).2.2 q hq q hq' rfl
  have hxS : ∀ q ∈ x0 :: r, q ∉ S := by
    intro q hq h; exact (List.nodup_append.1 hnd).2.2 q hq q (by simp [h]) rfl
  have hy : regVal y (notReg S s) = regVal y s :=
    regVal_congr (fun q hq => notReg_frame _ _ hS _ (hdis q hq))
  set s1 := addC (-(regVal y s : Int)) S s with hs1
  have fr1 : ∀ q, q ∉ S → s1 q = s q := fun q hq => addC_frame _ _ _ _ hq
  have e1 : A.addQ y S (notReg S s) = flagSt false S s1 := by
    rw [hA.addQ_eq _ _ _ hyS, hy, notReg_addC _ _ _ hS]; simp [flagSt, hs1]
  have e2 : cxReg x0 S (flagSt false S s1) = flagSt (s1 x0) S s1 := by
    rw [flagSt_cxReg false (s1 x0) x0 S s1 _ hS (hxS x0 (by simp)) rfl]
    rw [flagSt_frame _ _ _ hS _ (hxS x0 (by simp))]; simp
  unfold qIntMultCore
  simp only
  rw [e1, e2, qIntMultLoop_spec hA y S x0 r 0 s1 _ (by simpa using hlen) hnd rfl,
    notReg_notReg _ _ hS, hs1, addC_addC _ _ _ _ hS, ← hs1]
  have hy1 : regVal y s1 = regVal y s := regVal_congr (fun q hq => fr1 q (hdis q hq))
  rw [hy1, sgnSum_congr s1 s 0 _ (fun q hq => fr1 q (hxS q hq)), sgnSum_eq]
  congr 1
  ring

theorem cxPairs_spec (y t : List Q) (s : St Q) (hlen : y.length ≤ t.length)
    (hnd : (y ++ t).Nodup) (hz : ∀ q ∈ t, s q = false) :
    regVal t (cxPairs y t s) = regVal y s ∧ ∀ q, q ∉ t → cxPairs y t s q = s q := by
  induction y generalizing t s with
  | nil => exact ⟨by simp [cxPairs, regVal_zero hz], by simp [cxPairs]⟩
  | cons a y ih =>
    cases t with
    | nil => simp at hlen
    | cons b t =>
      have hnd' : (y ++ t).Nodup := hnd.sublist
        (List.Sublist.append (List.sublist_cons_self _ _) (List.sublist_cons_self _ _))
      have hn := hnd
      rw [List.nodup_append] at hn
      obtain ⟨n1, n2, n3⟩ := hn
      have hab : a ≠ b := n3 a (by simp) b (by simp)
      have hby : b ∉ y := fun h => n3 b (by simp [h]) b (by simp) rfl
      have hbt : b ∉ t := (List.nodup_cons.1 n2).1
      set s1 := upd s b (s b ^^ s a) with hs1
      have hcx : cxPairs (a :: y) (b :: t) s = cxPairs y t s1 := by
        simp [cxPairs, Gate.app, fire, hs1]
      obtain ⟨i1, i2⟩ := ih t s1 (by simpa using hlen) hnd' (by
        intro q hq; rw [hs1, upd_ne (by rintro rfl; exact hbt hq)]; exact hz q (by simp [hq]))
      rw [hcx]
      constructor
      · rw [regVal_cons, regVal_cons, i1, i2 b hbt, hs1, upd_same, hz b (by simp), Bool.false_xor]
        congr 2
        apply regVal_congr
        intro q hq
        rw [upd_ne]; rintro rfl; exact hby hq
      · intro q hq
        simp only [List.mem_cons, not_or] at hq
        rw [i2 q hq.2, hs1, upd_ne hq.1]

/-! ### jasp_multiplyers.py -/

/-- The slice `S[i : i + w]`. -/
def slice (S : List Q) (i w : Nat) : List Q := (S.drop i).take w

theorem slice_sublist (S : List Q) (i w : Nat) : (slice S i w).Sublist S :=
  (List.take_sublist _ _).trans (List.drop_sublist _ _)

/-- Adding into a window without overflow is adding to the whole register. -/
theorem addC_slice (c i w : Nat) (S : List Q) (s : St Q) (h : S.Nodup) (hw : i + w ≤ S.length)
    (hov : regVal (slice S i w) s + c < 2 ^ w) :
    addC c (slice S i w) s = addC (c * 2 ^ i) S s := by
  have hsl : (slice S i w).Nodup := h.sublist (slice_sublist S i w)
  have hlen : (slice S i w).length = w := by simp [slice]; omega
  have hsplit : ∀ t : St Q, regVal S t =
      regVal (S.take i) t + 2 ^ i * (regVal (slice S i w) t + 2 ^ w * regVal (S.drop (i + w)) t) := by
    intro t
    rw [regVal_split S i t (by omega), regVal_split (S.drop i) w t (by simp; omega),
      List.drop_drop]
    rfl
  have d1 : ∀ q ∈ S.take i, q ∉ slice S i w := by
    intro q hq hq'
    exact take_disj_drop h i q hq (List.mem_of_mem_take hq')
  have d2 : ∀ q ∈ S.drop (i + w), q ∉ slice S i w := by
    intro q hq hq'
    rw [← List.drop_drop] at hq
    exact take_disj_drop (drop_nodup h i) w q hq' hq
  have hv : (regVal (slice S i w) (addC c (slice S i w) s)) = regVal (slice S i w) s + c := by
    zify
    rw [regVal_addC _ _ _ hsl, hlen, Int.emod_eq_of_lt (by positivity)]
    · ring
    · have : ((regVal (slice S i w) s + c : Nat) : Int) < ((2 ^ w : Nat) : Int) := by
        exact_mod_cast hov
      push_cast at this; linarith
  apply st_ext (l := S)
  · have h1 := hsplit (addC c (slice S i w) s)
    rw [hv, regVal_addC_disj _ _ _ _ d1, regVal_addC_disj _ _ _ _ d2] at h1
    have h2 := hsplit s
    have h3 : regVal S (addC c (slice S i w) s) = regVal S s + c * 2 ^ i := by
      rw [h1, h2]; ring
    have h4 := regVal_lt S (addC c (slice S i w) s)
    zify
    rw [regVal_addC _ _ _ h, Int.emod_eq_of_lt (by positivity)]
    · rw [h3]; push_cast; ring
    · rw [h3] at h4
      have : ((regVal S s + c * 2 ^ i : Nat) : Int) < ((2 ^ S.length : Nat) : Int) := by
        exact_mod_cast h4
      push_cast at this; linarith
  · intro q hq
    rw [addC_frame _ _ _ _ hq, addC_frame _ _ _ _ (fun hm => hq ((slice_sublist S i w).subset hm))]

/-- jasp_multiplyers.py 30-32, remaining qubits of `b` from position `i` on. -/
def ctlMultLoop (A : Adder Q) (a S : List Q) : Nat → List Q → St Q → St Q
  | _, [], s => s
  | i, q :: r, s =>
    ctlMultLoop A a S (i + 1) r (ctl q (A.addQ a (slice S i (a.length + 1))) s)

/-- jasp_multiplyers.py 26-34 `jasp_controlling_multiplyer`; `S` is the fresh output register. -/
def ctlMult (A : Adder Q) (a b S : List Q) (s : St Q) : St Q := ctlMultLoop A a S 0 b s

/-- jasp_multiplyers.py 43-49. -/
def squareLoop (A : Adder Q) (a S : List Q) (temp : Q) : Nat → List Q → St Q → St Q
  | _, [], s => s
  | i, q :: r, s =>
    let s := cxS q temp s
    let s := ctl temp (A.addQ a (slice S i (a.length + 1))) s
    let s := cxS q temp s
    squareLoop A a S temp (i + 1) r s

/-- jasp_multiplyers.py 38-53 `jasp_squaring`. -/
def squaring (A : Adder Q) (a S : List Q) (temp : Q) (s : St Q) : St Q :=
  squareLoop A a S temp 0 a s

/-- One step: the partial product stays below `2^(i + |a|)`, so the window does not overflow. -/
theorem mult_step (a S : List Q) (i : Nat) (s : St Q) (hS : S.Nodup)
    (hlen : i + (a.length + 1) ≤ S.length) (m : Nat) (hm : m < 2 ^ i)
    (hv : regVal S s = regVal a s * m) :
    addC (regVal a s) (slice S i (a.length + 1)) s = addC ((regVal a s * 2 ^ i : Nat)) S s := by
  rw [addC_slice _ _ _ _ _ hS hlen]
  · push_cast; rfl
  · have h1 : regVal (slice S i (a.length + 1)) s ≤ regVal S s / 2 ^ i := by
      have e := regVal_split S i s (by omega)
      have lt := regVal_lt (S.take i) s
      rw [List.length_take, Nat.min_eq_left (by omega)] at lt
      have e2 : regVal S s / 2 ^ i = regVal (S.drop i) s := by
        rw [e, Nat.add_mul_div_left _ _ (by positivity), Nat.div_eq_of_lt lt, Nat.zero_add]
      rw [e2, slice, regVal_take]
      exact Nat.mod_le _ _
    have h2 : regVal S s / 2 ^ i ≤ regVal a s := by
      rw [hv]
      calc regVal a s * m / 2 ^ i ≤ regVal a s * 2 ^ i / 2 ^ i :=
            Nat.div_le_div_right (Nat.mul_le_mul_left _ hm.le)
        _ = regVal a s := Nat.mul_div_cancel _ (by positivity)
    have h3 := regVal_lt a s
    rw [pow_succ]; omega

theorem ctlMultLoop_spec {A : Adder Q} (hA : A.Correct) (a S : List Q) (i : Nat) (b : List Q)
    (s : St Q) (hnd : (a ++ S).Nodup) (hb : ∀ q ∈ b, q ∉ S)
    (hlen : i + b.length + a.length ≤ S.length) (m : Nat) (hm : m < 2 ^ i)
    (hv : regVal S s = regVal a s * m) :
    regVal S (ctlMultLoop A a S i b s) = regVal a s * (m + 2 ^ i * regVal b s)
    ∧ ∀ q, q ∉ S → ctlMultLoop A a S i b s q = s q := by
  have hS : S.Nodup := (List.nodup_append.1 hnd).2.1
  have hdis : ∀ q ∈ a, q ∉ S := fun q hq hq' => (List.nodup_append.1 hnd).2.2 q hq q hq' rfl
  induction b generalizing i s m with
  | nil => exact ⟨by simp [ctlMultLoop, hv], fun q _ => rfl⟩
  | cons q r ih =>
    rw [ctlMultLoop]
    set c := (if s q then regVal a s * 2 ^ i else 0 : Nat) with hc
    have hstep : ctl q (A.addQ a (slice S i (a.length + 1))) s = addC (c : Nat) S s := by
      unfold ctl
      rw [hA.addQ_eq _ _ _ (hnd.sublist (List.Sublist.append (List.Sublist.refl _)
        (slice_sublist _ _ _)))]
      rw [hc]
      split_ifs
      · exact mult_step a S i s hS (by simp at hlen; omega) m hm hv
      · simp [addC_zero _ _ hS]
    rw [hstep]
    set s1 := addC (c : Nat) S s with hs1
    have fr : ∀ p, p ∉ S → s1 p = s p := fun p hp => addC_frame _ _ _ _ hp
    have ha : regVal a s1 = regVal a s := regVal_congr (fun p hp => fr p (hdis p hp))
    set m' := m + 2 ^ i * (s q).toNat with hm'
    have hm'lt : m' < 2 ^ (i + 1) := by
      have := Nat.mul_le_mul_left (2 ^ i) (Bool.toNat_le (s q))
      rw [hm', pow_succ]; omega
    have hv1 : regVal S s1 = regVal a s1 * m' := by
      have hcv : c = regVal a s * (2 ^ i * (s q).toNat) := by
        rw [hc]; cases s q
        · simp
        · simp only [if_true, Bool.toNat_true, Nat.mul_one]
      have hlt : regVal S s + c < 2 ^ S.length := by
        rw [hv, hcv, ← Nat.mul_add, ← hm']
        have h1 := regVal_lt a s
        calc regVal a s * m' ≤ regVal a s * 2 ^ (i + 1) := Nat.mul_le_mul_left _ hm'lt.le
          _ < 2 ^ a.length * 2 ^ (i + 1) := Nat.mul_lt_mul_of_pos_right h1 (by positivity)
          _ = 2 ^ (a.length + (i + 1)) := by rw [← pow_add]
          _ ≤ 2 ^ S.length := Nat.pow_le_pow_right (by norm_num) (by simp at hlen; omega)
      rw [ha]
      zify
      rw [hs1, regVal_addC _ _ _ hS, Int.emod_eq_of_lt (by positivity)]
      · rw [hcv, hv, hm']; push_cast; ring
      · have : ((regVal S s + c : Nat) : Int) < ((2 ^ S.length : Nat) : Int) := by
          exact_mod_cast hlt
        push_cast at this; linarith
    obtain ⟨i1, i2⟩ := ih (i + 1) s1 (fun p hp => hb p (by simp [hp])) (by simp at hlen; omega) m'
      hm'lt hv1
    constructor
    · have hr : regVal r s1 = regVal r s := regVal_congr (fun p hp => fr p (hb p (by simp [hp])))
      rw [i1, ha, hr, regVal_cons, hm', pow_succ]
      ring
    · intro p hp; rw [i2 p hp, fr p hp]

theorem squareLoop_spec {A : Adder Q} (hA : A.Correct) (a S : List Q) (temp : Q) (i : Nat)
    (b : List Q) (s : St Q) (hnd : (a ++ S).Nodup) (hb : ∀ q ∈ b, q ∉ S ∧ q ≠ temp)
    (ht : temp ∉ a ∧ temp ∉ S) (hz : s temp = false) :
    squareLoop A a S temp i b s = ctlMultLoop A a S i b s := by
  have hS : S.Nodup := (List.nodup_append.1 hnd).2.1
  have hdis : ∀ q ∈ a, q ∉ S := fun q hq hq' => (List.nodup_append.1 hnd).2.2 q hq q hq' rfl
  induction b generalizing i s with
  | nil => rfl
  | cons q r ih =>
    have hq := hb q (by simp)
    set W := slice S i (a.length + 1) with hW
    have hWS : ∀ p, p ∉ S → p ∉ W := fun p hp h => hp ((slice_sublist _ _ _).subset h)
    have hWn : W.Nodup := hS.sublist (slice_sublist _ _ _)
    have haW : (a ++ W).Nodup := hnd.sublist (List.Sublist.append (List.Sublist.refl _)
        (slice_sublist _ _ _))
    have hstep : cxS q temp (ctl temp (A.addQ a W) (cxS q temp s)) = ctl q (A.addQ a W) s := by
      have e1 : cxS q temp s = upd s temp (s q) := by rw [cxS, hz, Bool.false_xor]
      have e2 : regVal a (upd s temp (s q)) = regVal a s :=
        regVal_congr (fun p hp => upd_ne (by rintro rfl; exact ht.1 hp))
      have e3 : ∀ v, regVal W (upd s temp v) = regVal W s := fun v =>
        regVal_congr (fun p hp => upd_ne (by rintro rfl; exact hWS _ ht.2 hp))
      rw [e1]
      unfold ctl
      rw [upd_same, hA.addQ_eq _ _ _ haW, hA.addQ_eq _ _ _ haW, e2]
      cases hsq : s q
      · simp only [Bool.false_eq_true, if_false]
        funext p
        by_cases hp : p = temp
        · subst hp; simp [cxS, hz, upd_ne hq.2, hsq]
        · simp [cxS, upd_ne hp]
      · simp only [if_true]
        have hqW := hWS q hq.1
        have htW := hWS temp ht.2
        apply st_ext (l := W)
        · have : ∀ (t : St Q) v, regVal W (upd t temp v) = regVal W t := fun t v =>
            regVal_congr (fun p hp => upd_ne (by rintro rfl; exact htW hp))
          zify
          rw [cxS, this, regVal_addC _ _ _ hWn, regVal_addC _ _ _ hWn, this]
        · intro p hp
          rw [addC_frame _ _ _ _ hp, cxS]
          by_cases hpt : p = temp
          · subst hpt
            rw [upd_same, addC_frame _ _ _ _ hp, addC_frame _ _ _ _ hqW, upd_same, upd_ne hq.2,
              hsq, hz]
            rfl
          · rw [upd_ne hpt, addC_frame _ _ _ _ hp, upd_ne hpt]
    rw [squareLoop, ctlMultLoop]
    simp only [← hW]
    rw [hstep]
    apply ih
    · exact fun p hp => hb p (by simp [hp])
    · unfold ctl
      split_ifs
      · rw [hA.addQ_frame _ _ _ _ haW (hWS _ ht.2), hz]
      · exact hz

/-- jasp_multiplyers.py 90-101: positions `i ≥ 1` of `factor_1`, the additions are at offset
`i - 1`. -/
def jaspMultLoop (A : Adder Q) (y S : List Q) : Nat → List Q → St Q → St Q
  | _, [], s => s
  | i, [x], s => cxReg x S (A.addQ (y.take (S.length - (i + 1))) (S.drop i) s)
  | i, x :: x' :: r, s =>
    let s := A.addQ (y.take (S.length - (i + 1))) (S.drop i) s
    let s := cxS x x' s
    let s := cxReg x' S s
    let s := cxS x x' s
    jaspMultLoop A y S (i + 1) (x' :: r) s

/-- jasp_multiplyers.py 57-105 `jasp_multiplyer`; `S` is the fresh output register of
`factor_1.size + factor_2.size` qubits. -/
def jaspMult (A : Adder Q) (x y S : List Q) (s : St Q) : St Q :=
  match x, y with
  | [x0], y => ctl x0 (cxPairs y S) s
  | x, [y0] => ctl y0 (cxPairs x S) s
  | x0 :: x1 :: r, y =>
    let s := cxPairs y (S.drop (r.length + 1)) s
    let s := notReg S s
    let s := if s x0 then s else A.addQ y S s
    let s := cxReg x1 S s
    let s := jaspMultLoop A y S 0 (x1 :: r) s
    notReg S s
  | [], _ => s

theorem jaspMultLoop_eq {A : Adder Q} (y S : List Q) (i : Nat) (x : List Q)
    (s : St Q) (hlen : i + x.length + y.length ≤ S.length) (hx : ∀ q ∈ x, q ∉ y) :
    jaspMultLoop A y S i x s = qIntMultLoop A y S i x s := by
  induction x generalizing i s with
  | nil => rfl
  | cons q r ih =>
    have h1 : y.take (S.length - (i + 1)) = y.take (S.length - i) := by
      rw [List.take_of_length_le, List.take_of_length_le] <;> simp at hlen <;> omega
    cases r with
    | nil => rw [jaspMultLoop, qIntMultLoop, h1]
    | cons q' r =>
      rw [jaspMultLoop, qIntMultLoop]
      simp only [h1]
      exact ih _ _ (by simp at hlen ⊢; omega) (fun p hp => hx p (by simp [hp]))

/-- `jasp_multiplyer` computes the product. -/
theorem jaspMult_spec {A : Adder Q} (hA : A.Correct) (x y S : List Q) (s : St Q)
    (hx : x ≠ []) (hy : y ≠ []) (hnd : (x ++ (y ++ S)).Nodup)
    (hlen : S.length = x.length + y.length) (hz : ∀ q ∈ S, s q = false) :
    regVal S (jaspMult A x y S s) = regVal x s * regVal y s
    ∧ ∀ q, q ∉ S → jaspMult A x y S s q = s q := by
  have hyS : (y ++ S).Nodup := (List.nodup_append.1 hnd).2.1
  have hS : S.Nodup := (List.nodup_append.1 hyS).2.1
  have hydis : ∀ q ∈ y, q ∉ S := fun q hq hq' => (List.nodup_append.1 hyS).2.2 q hq q hq' rfl
  have hxS' : (x ++ S).Nodup := hnd.sublist (List.Sublist.append_left (List.sublist_append_right _ _) x)
  have hxdis : ∀ q ∈ x, q ∉ S := fun q hq hq' => (List.nodup_append.1 hxS').2.2 q hq q hq' rfl
  have hxy : ∀ q ∈ x, q ∉ y := by
    intro q hq h; exact (List.nodup_append.1 hnd).2.2 q hq q (by simp [h]) rfl
  obtain ⟨x0, xr, rfl⟩ : ∃ a l, x = a :: l := by
    cases x with
    | nil => exact absurd rfl hx
    | cons a l => exact ⟨a, l, rfl⟩
  cases xr with
  | nil =>
    have e : jaspMult A [x0] y S s = ctl x0 (cxPairs y S) s := by
      cases y <;> rfl
    rw [e]
    unfold ctl
    obtain ⟨c1, c2⟩ := cxPairs_spec y S s (by omega) hyS hz
    cases h0 : s x0
    · simp [h0, regVal_zero hz]
    · simp [h0, c1]; exact c2
  | cons x1 r =>
    obtain ⟨y0, yr, rfl⟩ : ∃ a l, y = a :: l := by
      cases y with
      | nil => exact absurd rfl hy
      | cons a l => exact ⟨a, l, rfl⟩
    cases yr with
    | nil =>
      have e : jaspMult A (x0 :: x1 :: r) [y0] S s = ctl y0 (cxPairs (x0 :: x1 :: r) S) s := rfl
      rw [e]
      unfold ctl
      obtain ⟨c1, c2⟩ := cxPairs_spec (x0 :: x1 :: r) S s (by omega) hxS' hz
      have hv : regVal [y0] s = (s y0).toNat := by simp
      rw [hv]
      cases h0 : s y0
      · rw [if_neg (by simp)]; simp [regVal_zero hz]
      · rw [if_pos rfl, c1]; refine ⟨by simp, c2⟩
    | cons y1 yr =>
      set y := y0 :: y1 :: yr with hyd
      set n := r.length + 1 with hn
      have hlen' : S.length = n + 1 + y.length := by rw [hlen]; simp [hn]
      -- initial copy
      have hsub : (S.drop n).Sublist S := List.drop_sublist _ _
      obtain ⟨c1, c2⟩ := cxPairs_spec y (S.drop n) s (by rw [List.length_drop]; omega)
        (hyS.sublist (List.Sublist.append_left hsub y)) (fun q hq => hz q (hsub.mem hq))
      set s1 := cxPairs y (S.drop n) s with hs1
      have v1 : regVal S s1 = 2 ^ n * regVal y s := by
        rw [regVal_split S n s1 (by omega), c1,
          regVal_congr (t := s) (fun q hq => c2 q (take_disj_drop hS n q hq)),
          regVal_zero (fun q hq => hz q (List.mem_of_mem_take hq)), zero_add]
      have f1 : ∀ q, q ∉ S → s1 q = s q := fun q hq => c2 q (fun h => hq (hsub.mem h))
      have hx1 : x1 ∉ S := hxdis x1 (by simp)
      have hx0 : x0 ∉ S := hxdis x0 (by simp)
      have hy1 : regVal y s1 = regVal y s := regVal_congr (fun q hq => f1 q (hydis q hq))
      -- the conditional addition
      set a : Int := if s x0 then 0 else -(regVal y s : Int) with ha
      set s2 := addC a S s1 with hs2
      have f2 : ∀ q, q ∉ S → s2 q = s q := fun q hq => by rw [hs2, addC_frame _ _ _ _ hq, f1 q hq]
      have hyn : regVal y (notReg S s1) = regVal y s :=
        (regVal_congr (fun q hq => notReg_frame _ _ hS _ (hydis q hq))).trans hy1
      have e2 : (if notReg S s1 x0 then notReg S s1 else A.addQ y S (notReg S s1))
          = flagSt false S s2 := by
        rw [notReg_frame _ _ hS _ hx0, f1 x0 hx0]
        cases h0 : s x0
        · simp only [Bool.false_eq_true, if_false]
          rw [hA.addQ_eq _ _ _ hyS, hyn, notReg_addC _ _ _ hS]
          simp [flagSt, hs2, ha, h0]
        · simp only [if_true]
          simp [flagSt, hs2, ha, h0, addC_zero _ _ hS]
      have e3 : cxReg x1 S (flagSt false S s2) = flagSt (s2 x1) S s2 := by
        rw [flagSt_cxReg false (s2 x1) x1 S s2 _ hS hx1 rfl]
        rw [flagSt_frame _ _ _ hS _ hx1]; simp
      have hnd' : (x1 :: r ++ (y ++ S)).Nodup := (List.nodup_cons.1 hnd).2
      have hfin : jaspMult A (x0 :: x1 :: r) y S s
          = notReg S (jaspMultLoop A y S 0 (x1 :: r) (cxReg x1 S
            (if notReg S s1 x0 then notReg S s1 else A.addQ y S (notReg S s1)))) := rfl
      rw [hfin, e2, e3, jaspMultLoop_eq y S 0 (x1 :: r) _ (by simp; omega)
          (fun q hq => hxy q (List.mem_cons_of_mem _ hq)),
        qIntMultLoop_spec hA y S x1 r 0 s2 _ (by omega) hnd' rfl, notReg_notReg _ _ hS]
      have hy2 : regVal y s2 = regVal y s := regVal_congr (fun q hq => f2 q (hydis q hq))
      rw [hy2, sgnSum_congr s2 s 0 _ (fun q hq => f2 q (hxdis q (List.mem_cons_of_mem _ hq))),
        hs2, addC_addC _ _ _ _ hS]
      refine ⟨?_, fun q hq => by rw [addC_frame _ _ _ _ hq, f1 q hq]⟩
      zify
      rw [regVal_addC _ _ _ hS, v1, sgnSum_eq, ha]
      have hlt : regVal (x0 :: x1 :: r) s * regVal y s < 2 ^ S.length := by
        rw [hlen, pow_add]
        exact Nat.mul_lt_mul'' (regVal_lt _ _) (regVal_lt _ _)
      have hlt' : ((regVal (x0 :: x1 :: r) s : Int) * regVal y s) < 2 ^ S.length := by
        exact_mod_cast hlt
      have hval : ((regVal (x0 :: x1 :: r) s : Nat) : Int)
          = (s x0).toNat + 2 * regVal (x1 :: r) s := by rw [regVal_cons]; push_cast; ring
      rw [← Int.emod_eq_of_lt (by positivity) hlt']
      congr 1
      rw [hval]
      push_cast
      rw [List.length_cons, ← hn]
      cases s x0 <;> simp <;> ring

end Verif.Rev
