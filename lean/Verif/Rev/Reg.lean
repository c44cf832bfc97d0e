import Verif.Rev.Cuccaro
import Verif.Rev.GidneyC

/-!
Register level operations on basis states and the interface of in-place adders.

Modular addition, comparison, multiplication and Montgomery reduction in Qrisp take the in-place
adder as an argument (`inpl_adder`). They are modelled over an arbitrary `Adder`, which is required
to satisfy `Adder.Correct`. `Verif/Rev/Cuccaro` and `Verif/Rev/GidneyC` show the law for two adders of
the library.
-/

set_option linter.unusedSectionVars false
set_option linter.unusedSimpArgs false

namespace Verif.Rev

variable {Q : Type} [DecidableEq Q]

/-- Write the low bits of `v` into register `l`. -/
def setReg : List Q → Nat → St Q → St Q
  | [], _, s => s
  | q :: l, v, s => setReg l (v / 2) (upd s q (v % 2 == 1))

theorem setReg_frame (l : List Q) (v : Nat) (s : St Q) (q : Q) (h : q ∉ l) :
    setReg l v s q = s q := by
  induction l generalizing v s with
  | nil => rfl
  | cons x l ih =>
    simp only [List.mem_cons, not_or] at h
    rw [setReg, ih _ _ h.2, upd_ne h.1]

theorem regVal_setReg (l : List Q) (v : Nat) (s : St Q) (hnd : l.Nodup) :
    regVal l (setReg l v s) = v % 2 ^ l.length := by
  induction l generalizing v s with
  | nil => simp [Nat.mod_one]
  | cons x l ih =>
    rw [List.nodup_cons] at hnd
    rw [setReg, regVal_cons, ih _ _ hnd.2, setReg_frame _ _ _ _ hnd.1, upd_same, List.length_cons,
      pow_succ', Nat.mod_mul]
    congr 1
    rcases Nat.mod_two_eq_zero_or_one v with h | h <;> simp [h]

/-- Two states that agree on the value of a register and outside of it are equal. -/
theorem st_ext {l : List Q} {s t : St Q} (h : regVal l s = regVal l t)
    (hf : ∀ q, q ∉ l → s q = t q) : s = t := by
  funext q
  by_cases hq : q ∈ l
  · exact regVal_inj h q hq
  · exact hf q hq

/-- Ideal in-place addition of an integer modulo `2^n`. -/
def addC (a : Int) (b : List Q) (s : St Q) : St Q :=
  setReg b ((a + regVal b s) % 2 ^ b.length).toNat s

theorem addC_frame (a : Int) (b : List Q) (s : St Q) (q : Q) (h : q ∉ b) : addC a b s q = s q :=
  setReg_frame _ _ _ _ h

theorem regVal_addC (a : Int) (b : List Q) (s : St Q) (h : b.Nodup) :
    (regVal b (addC a b s) : Int) = (a + regVal b s) % 2 ^ b.length := by
  rw [addC, regVal_setReg _ _ _ h]
  have h1 : (0 : Int) ≤ (a + regVal b s) % 2 ^ b.length := Int.emod_nonneg _ (by positivity)
  have h2 : (a + regVal b s) % (2 : Int) ^ b.length < 2 ^ b.length :=
    Int.emod_lt_of_pos _ (by positivity)
  rw [Nat.mod_eq_of_lt]
  · exact Int.toNat_of_nonneg h1
  · zify; rw [Int.toNat_of_nonneg h1]; exact h2

theorem regVal_addC_disj (a : Int) (b r : List Q) (s : St Q) (h : ∀ q ∈ r, q ∉ b) :
    regVal r (addC a b s) = regVal r s :=
  regVal_congr (fun q hq => addC_frame _ _ _ _ (h q hq))

/-- An in-place adder together with its inverse (`with invert(): inpl_adder(a, b)`), for a classical
and for a quantum first operand. -/
structure Adder (Q : Type) where
  add : Int → List Q → St Q → St Q
  inv : Int → List Q → St Q → St Q
  addQ : List Q → List Q → St Q → St Q
  invQ : List Q → List Q → St Q → St Q

/-- What is required of `inpl_adder`: `b := a + b mod 2^n`, all other qubits are unchanged, and
`invert` gives a right inverse. -/
structure Adder.Correct (A : Adder Q) : Prop where
  add_val : ∀ a b s, b.Nodup → (regVal b (A.add a b s) : Int) = (a + regVal b s) % 2 ^ b.length
  add_frame : ∀ a b s q, b.Nodup → q ∉ b → A.add a b s q = s q
  add_inv : ∀ a b s, b.Nodup → A.add a b (A.inv a b s) = s
  addQ_val : ∀ a b s, (a ++ b).Nodup →
    regVal b (A.addQ a b s) = (regVal a s + regVal b s) % 2 ^ b.length
  addQ_frame : ∀ a b s q, (a ++ b).Nodup → q ∉ b → A.addQ a b s q = s q
  addQ_inv : ∀ a b s, (a ++ b).Nodup → A.addQ a b (A.invQ a b s) = s

variable {A : Adder Q}

theorem Adder.Correct.add_eq (hA : A.Correct) (a : Int) (b : List Q) (s : St Q) (h : b.Nodup) :
    A.add a b s = addC a b s := by
  apply st_ext (l := b)
  · have := hA.add_val a b s h
    rw [← regVal_addC a b s h] at this
    exact_mod_cast this
  · intro q hq; rw [hA.add_frame _ _ _ _ h hq, addC_frame _ _ _ _ hq]

theorem addC_addC (a c : Int) (b : List Q) (s : St Q) (h : b.Nodup) :
    addC a b (addC c b s) = addC (a + c) b s := by
  apply st_ext (l := b)
  · zify
    rw [regVal_addC _ _ _ h, regVal_addC _ _ _ h, regVal_addC _ _ _ h, Int.add_emod_emod, add_assoc]
  · intro q hq; rw [addC_frame _ _ _ _ hq, addC_frame _ _ _ _ hq, addC_frame _ _ _ _ hq]

theorem addC_zero (b : List Q) (s : St Q) (h : b.Nodup) : addC 0 b s = s := by
  apply st_ext (l := b)
  · zify
    rw [regVal_addC _ _ _ h, zero_add, Int.emod_eq_of_lt (by positivity)]
    exact_mod_cast regVal_lt b s
  · intro q hq; rw [addC_frame _ _ _ _ hq]

theorem Adder.Correct.inv_eq (hA : A.Correct) (a : Int) (b : List Q) (s : St Q) (h : b.Nodup) :
    A.inv a b s = addC (-a) b s := by
  have := hA.add_inv a b s h
  rw [hA.add_eq _ _ _ h] at this
  conv_rhs => rw [← this]
  rw [addC_addC _ _ _ _ h, neg_add_cancel, addC_zero _ _ h]

theorem Adder.Correct.addQ_eq (hA : A.Correct) (a b : List Q) (s : St Q) (h : (a ++ b).Nodup) :
    A.addQ a b s = addC (regVal a s) b s := by
  have hb : b.Nodup := (List.nodup_append.1 h).2.1
  apply st_ext (l := b)
  · zify
    rw [hA.addQ_val _ _ _ h, regVal_addC _ _ _ hb]
    push_cast; rfl
  · intro q hq; rw [hA.addQ_frame _ _ _ _ h hq, addC_frame _ _ _ _ hq]

theorem Adder.Correct.invQ_eq (hA : A.Correct) (a b : List Q) (s : St Q) (h : (a ++ b).Nodup) :
    A.invQ a b s = addC (-(regVal a s)) b s := by
  have hb : b.Nodup := (List.nodup_append.1 h).2.1
  have := hA.addQ_inv a b s h
  rw [hA.addQ_eq _ _ _ h] at this
  have hd : ∀ q ∈ a, q ∉ b := fun q hq hq' => (List.nodup_append.1 h).2.2 q hq q hq' rfl
  have e : regVal a (A.invQ a b s) = regVal a s := by
    conv_rhs => rw [← this]
    rw [regVal_addC_disj _ _ _ _ hd]
  conv_rhs => rw [← this]
  rw [regVal_addC_disj _ _ _ _ hd, addC_addC _ _ _ _ hb, neg_add_cancel, addC_zero _ _ hb]

/-- The ideal adder; it shows that `Adder.Correct` is satisfiable. -/
def idealAdder (Q : Type) [DecidableEq Q] : Adder Q where
  add := addC
  inv a := addC (-a)
  addQ a b s := addC (regVal a s) b s
  invQ a b s := addC (-(regVal a s)) b s

theorem idealAdder_correct : (idealAdder Q).Correct where
  add_val a b s h := regVal_addC a b s h
  add_frame a b s q _ h := addC_frame a b s q h
  add_inv a b s h := by
    show addC _ _ (addC _ _ _) = s
    rw [addC_addC _ _ _ _ h, add_neg_cancel, addC_zero _ _ h]
  addQ_val a b s h := by
    have := regVal_addC (regVal a s) b s (List.nodup_append.1 h).2.1
    show regVal b (addC _ _ _) = _
    zify
    rw [this]
  addQ_frame a b s q _ h := addC_frame _ b s q h
  addQ_inv a b s h := by
    have hb : b.Nodup := (List.nodup_append.1 h).2.1
    have hd : ∀ q ∈ a, q ∉ b := fun q hq hq' => (List.nodup_append.1 h).2.2 q hq q hq' rfl
    show addC (regVal a (addC _ b s)) b (addC _ b s) = s
    rw [regVal_addC_disj _ _ _ _ hd, addC_addC _ _ _ _ hb, add_neg_cancel, addC_zero _ _ hb]

/-- The Gidney adder with integer addend is the ideal adder on states with clean ancillas. -/
theorem gidneyCInt_eq_addC (a : Int) (b anc : List Q) (s : St Q) (hb : b ≠ [])
    (hnd : (b ++ anc).Nodup) (hanc : anc.length + 1 = b.length) (hz : ∀ q ∈ anc, s q = false) :
    run (gidneyCInt a b anc none none none) s = addC a b s := by
  have hpos : (0 : Int) < 2 ^ b.length := by positivity
  obtain ⟨m, hm⟩ : ∃ m : Nat, (a % (2 ^ b.length : Int)) = m :=
    ⟨_, (Int.toNat_of_nonneg (Int.emod_nonneg a hpos.ne')).symm⟩
  have hG : gidneyCInt a b anc none none none = gidneyC m b anc none none none := by
    simp [gidneyCInt, hm]
  obtain ⟨h1, h2, -⟩ := gidneyC_spec m b anc none none none s (by simpa using hnd) hb
    (by simpa using hanc) hz
  rw [hG]
  apply st_ext (l := b)
  · zify
    rw [regVal_addC _ _ _ (List.nodup_append.1 hnd).1]
    simp only [Option.toList_none, List.append_nil, ctrlOn_none, optBit_none, if_true,
      Bool.toNat_false, Nat.add_zero] at h1
    rw [h1]
    push_cast
    rw [← hm, Int.add_emod_emod, add_comm]
  · intro q hq
    rw [addC_frame _ _ _ _ hq]
    exact h2 q (by simpa using hq)

/-- `with control(k): …` on basis states. -/
def ctl (k : Q) (f : St Q → St Q) (s : St Q) : St Q := if s k then f s else s

/-- `if ctrl is None: … else: with control(ctrl): …`. -/
def ctlOpt (k : Option Q) (f : St Q → St Q) (s : St Q) : St Q := if ctrlOn k s then f s else s

theorem ctl_addC (k : Q) (a : Int) (b : List Q) (s : St Q) (h : b.Nodup) :
    ctl k (addC a b) s = addC (if s k then a else 0) b s := by
  unfold ctl; split_ifs <;> simp [addC_zero _ _ h]

theorem ctlOpt_addC (k : Option Q) (a : Int) (b : List Q) (s : St Q) (h : b.Nodup) :
    ctlOpt k (addC a b) s = addC (if ctrlOn k s then a else 0) b s := by
  unfold ctlOpt; split_ifs <;> simp [addC_zero _ _ h]

/-- CNOT and X as state functions. -/
def cxS (c t : Q) (s : St Q) : St Q := upd s t (s t ^^ s c)
def xS (t : Q) (s : St Q) : St Q := upd s t (!(s t))

/-- The top qubit of a register is set iff its value is at least half the range. -/
theorem top_iff (l : List Q) (t : Q) (s : St Q) :
    s t = decide (2 ^ l.length ≤ regVal (l ++ [t]) s) := by
  rw [regVal_append]
  have := regVal_lt l s
  cases h : s t
  · simp [h]; omega
  · simp [h]

theorem regVal_split (l : List Q) (k : Nat) (s : St Q) (h : k ≤ l.length) :
    regVal l s = regVal (l.take k) s + 2 ^ k * regVal (l.drop k) s := by
  conv_lhs => rw [← List.take_append_drop k l]
  rw [regVal_append, List.length_take, Nat.min_eq_left h]

end Verif.Rev
