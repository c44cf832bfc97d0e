import Verif.Sbp.Thapliyal

/-!
# In-place addition with the ripple-carry adder

Models `inpl_add` (adders/ripple_carry_adder.py:32-208).
-/

set_option linter.unusedSectionVars false

namespace Verif.Sbp

open Verif.Rev Verif.Fourier Verif.Iter

variable {Q : Type} [DecidableEq Q]

/-- `mshape[1]`: the significance above the mantissa (quantum_float.py, `mshape = (exponent, exponent + msize)`). -/
def QF.top (x : QF Q) : ℤ := x.exp + x.msize

/-- `l[i:j]` for `0 ≤ i`, `0 ≤ j`. -/
def slice (l : List Q) (i j : ℤ) : List Q := (l.take j.toNat).drop i.toNat

/-- The ancillas that augment the second float (ripple_carry_adder.py:128-133). -/
def addExt (anc : List Q) (x y : QF Q) : List Q :=
  if y.top < x.top then anc.take (x.top - y.top - y.signed.toNat).toNat else []

/-- `qubit_list_1` (ripple_carry_adder.py:136-139, 157, 171-172). -/
def addList1 (d : Q) (x y : QF Q) : List Q :=
  slice x.reg (max x.exp y.exp - x.exp) (x.top - x.exp) ++ if x.signed then [x.reg.getLastD d] else []

/-- `qubit_list_2` (ripple_carry_adder.py:141-147, 158, 171-178). -/
def addList2 (d : Q) (anc : List Q) (anc2 : Q) (x y : QF Q) : List Q :=
  slice (y.reg ++ addExt anc x y) (max x.exp y.exp - y.exp)
    (if y.top < x.top then (y.reg ++ addExt anc x y).length else x.top - y.exp) ++
  if x.signed then [if y.signed then y.reg.getLastD d else anc2] else []

/-- Copies of the sign (ripple_carry_adder.py:183-185, 197-200). -/
def addCopy (d : Q) (anc : List Q) (x y : QF Q) : List (TOp Q) :=
  if y.signed then (addExt anc x y).map (.cx (y.reg.getLastD d)) else []

/-- `inpl_add(x, y)` (ripple_carry_adder.py:32-208); `none` if it raises (also an IndexError or the minimum of an empty
range). `anc`, `anc2` are the ancillas it requests. -/
def inplAdd (igR igO : Bool) (d : Q) (anc : List Q) (anc2 : Q) (x y : QF Q) : Option (List (TOp Q)) :=
  if igR = false ∧ y.exp < x.exp then none
  else if igO = false ∧ x.top < y.top then none
  else if min x.top y.top < max x.exp y.exp then none
  else if y.signed = true ∧ x.signed = false then none
  else
    match (addList1 d x y).getLast?, (addList2 d anc anc2 x y).getLast? with
    | some o1, some o2 =>
      (thapliyal (addList2 d anc anc2 x y).dropLast (addList1 d x y).dropLast o1).map fun os =>
        addCopy d anc x y ++ os ++ [.cx o2 o1] ++ addCopy d anc x y
    | _, _ => none

/-! ### Registers -/

theorem valL_drop (s : St Q) : ∀ (l : List Q) (u : ℕ), valL (l.drop u) s = valL l s / 2 ^ u := by
  intro l
  induction l with
  | nil => intro u; simp [valL]
  | cons q l ih =>
    intro u
    rcases u with _ | u
    · simp
    · rw [List.drop_succ_cons, ih, valL, pow_succ', ← Nat.div_div_eq_div_mul]
      congr 1
      cases s q <;> simp <;> omega

theorem valL_take (s : St Q) : ∀ (l : List Q) (u : ℕ), valL (l.take u) s = valL l s % 2 ^ u := by
  intro l
  induction l with
  | nil => intro u; simp [valL]
  | cons q l ih =>
    intro u
    rcases u with _ | u
    · simp [valL, Nat.mod_one]
    · rw [List.take_succ_cons, valL, ih, valL, pow_succ', Nat.mod_mul]
      congr 1
      · cases s q <;> simp <;> omega
      · congr 2
        cases s q <;> simp <;> omega

theorem valL_const {v : Bool} {s : St Q} : ∀ {l : List Q}, (∀ q ∈ l, s q = v) → valL l s = v.toNat * (2 ^ l.length - 1) := by
  intro l
  induction l with
  | nil => intro _; simp [valL]
  | cons q l ih =>
    intro h
    rw [valL, ih fun q hq => h q (by simp [hq]), h q (by simp), List.length_cons, pow_succ]
    have := Nat.one_le_two_pow (n := l.length)
    cases v <;> simp; omega

theorem run_copy {c : Q} : ∀ {ts : List Q}, ts.Nodup → c ∉ ts → ∀ s : St Q,
    (∀ q, q ∉ ts → Rev.run ((ts.map (TOp.cx c)).flatMap TOp.rev) s q = s q) ∧
    ∀ q ∈ ts, Rev.run ((ts.map (TOp.cx c)).flatMap TOp.rev) s q = (s q ^^ s c) := by
  intro ts
  induction ts with
  | nil => intro _ _ s; exact ⟨fun _ _ => rfl, fun q h => (List.not_mem_nil h).elim⟩
  | cons t ts ih =>
    intro hn hc s
    obtain ⟨hn1, hn2⟩ := List.nodup_cons.1 hn
    have hct : c ≠ t := fun e => hc (by simp [e])
    have e : Rev.run (((t :: ts).map (TOp.cx c)).flatMap TOp.rev) s =
        Rev.run ((ts.map (TOp.cx c)).flatMap TOp.rev) (upd s t (s t ^^ s c)) := by
      rw [List.map_cons, List.flatMap_cons, Rev.run_append]
      congr 1
      show upd s t (s t ^^ fire [(c, true)] s) = _
      simp [fire]
    obtain ⟨h1, h2⟩ := ih hn2 (fun h => hc (by simp [h])) (upd s t (s t ^^ s c))
    rw [e]
    refine ⟨fun q hq => ?_, fun q hq => ?_⟩
    · rw [h1 q (fun h => hq (by simp [h])), upd_ne (fun e => hq (by simp [e]))]
    · rcases List.mem_cons.1 hq with rfl | hq
      · rw [h1 _ hn1, upd_same]
      · rw [h2 q hq, upd_ne hct, upd_ne (fun e : q = t => hn1 (e ▸ hq))]

/-- The two lists of qubits are added. -/
theorem addLists_spec {l1 l2 : List Q} {o1 o2 : Q} (hl : l2.length = l1.length) (h2 : 2 ≤ l1.length)
    (hn : (o1 :: (l2 ++ l1)).Nodup) (h3 : o2 ∉ l1) (h4 : o2 ≠ o1) :
    ∃ os, thapliyal l2 l1 o1 = some os ∧ (∀ o ∈ os, o.wf) ∧ ∀ s,
      (∀ q, q ∉ l1 ++ [o1] → Rev.run ((os ++ [TOp.cx o2 o1]).flatMap TOp.rev) s q = s q) ∧
      ∃ j : ℤ, (valL (l1 ++ [o1]) (Rev.run ((os ++ [TOp.cx o2 o1]).flatMap TOp.rev) s) : ℤ) =
        valL (l1 ++ [o1]) s + valL (l2 ++ [o2]) s + 2 ^ (l1.length + 1) * j := by
  obtain ⟨os, hos, hwf, hs⟩ := thapliyal_spec hl (by omega) hn
  refine ⟨os, hos, hwf, fun s => ?_⟩
  obtain ⟨hf, hv⟩ := hs s
  have hrun : Rev.run ((os ++ [TOp.cx o2 o1]).flatMap TOp.rev) s =
      upd (Rev.run (os.flatMap TOp.rev) s) o1 (Rev.run (os.flatMap TOp.rev) s o1 ^^ s o2) := by
    rw [List.flatMap_append, Rev.run_append, List.flatMap_singleton]
    show upd _ o1 (_ ^^ fire [(o2, true)] _) = _
    simp [fire, hf o2 h3 h4]
  have ho : o1 ∉ l1 := fun h => (List.nodup_cons.1 hn).1 (List.mem_append_right _ h)
  rw [hrun]
  refine ⟨fun q hq => ?_, ?_⟩
  · rw [List.mem_append, List.mem_singleton, not_or] at hq
    rw [upd_ne hq.2, hf q hq.1 hq.2]
  · set t := Rev.run (os.flatMap TOp.rev) s with ht
    rw [valL_append, valL_append, valL_append, valL_congr (s' := t) (fun q hq => upd_ne (fun e : q = o1 => ho (e ▸ hq))), hl]
    simp only [valL, upd_same]
    rw [hl] at hv
    have hv' : (valL l1 t : ℤ) + 2 ^ l1.length * ((t o1 ^^ s o1).toNat : ℤ) = valL l2 s + valL l1 s := by exact_mod_cast hv
    rw [pow_succ]
    cases h5 : t o1 <;> cases h6 : s o1 <;> cases h7 : s o2 <;> rw [h5, h6] at hv' <;> push_cast <;> simp at hv' ⊢
    · exact ⟨0, by linarith⟩
    · exact ⟨0, by linarith⟩
    · exact ⟨-1, by linarith⟩
    · exact ⟨-1, by linarith⟩
    · exact ⟨0, by linarith⟩
    · exact ⟨-1, by linarith⟩
    · exact ⟨0, by linarith⟩
    · exact ⟨-1, by linarith⟩

/-! ### The windows -/

/-- The cases in which the adder is right: no exception, no bits beyond a signed target, and a window of at least three
bits (with the sign). -/
structure AddFits (igR igO : Bool) (x y : QF Q) : Prop where
  rnd : igR = true ∨ x.exp ≤ y.exp
  over : y.top ≤ x.top ∨ (igO = true ∧ x.signed = false)
  sgn : y.signed = true → x.signed = true
  xne : x.signed = true → x.reg ≠ []
  yne : y.signed = true → y.reg ≠ []
  win : max x.exp y.exp + 3 ≤ x.top + x.signed.toNat
  low : max x.exp y.exp ≤ y.top

theorem reg_split (d : Q) {x : QF Q} (hs : x.signed = true) (h : x.reg ≠ []) :
    x.reg = x.reg.dropLast ++ [x.reg.getLastD d] ∧ x.msize = x.reg.dropLast.length ∧ x.reg.length = x.msize + 1 := by
  have hl := List.length_pos_iff.2 h
  refine ⟨?_, ?_, ?_⟩
  · conv_lhs => rw [← List.dropLast_append_getLast h]
    rw [List.getLastD_eq_getLast?, List.getLast?_eq_getLast_of_ne_nil h]; rfl
  · unfold QF.msize; rw [hs, List.length_dropLast]; rfl
  · unfold QF.msize; rw [hs]; simp; omega

theorem msize_unsigned {x : QF Q} (hs : x.signed = false) : x.msize = x.reg.length := by
  unfold QF.msize; rw [hs]; rfl

theorem addList1_eq (d : Q) {igR igO : Bool} {x y : QF Q} (h : AddFits igR igO x y) :
    addList1 d x y = x.reg.drop (y.exp - x.exp).toNat ∧ (y.exp - x.exp).toNat + 3 ≤ x.reg.length := by
  have hw := h.win
  unfold addList1 slice QF.top at *
  cases hs : x.signed
  · have hm := msize_unsigned hs
    rw [hs] at hw
    simp only [Bool.toNat_false] at hw
    have e1 : (max x.exp y.exp - x.exp).toNat = (y.exp - x.exp).toNat := by omega
    have e2 : (x.exp + x.msize - x.exp).toNat = x.reg.length := by omega
    rw [e1, e2, List.take_length]
    simp
    omega
  · obtain ⟨h1, h2, h3⟩ := reg_split d hs (h.xne hs)
    rw [hs] at hw
    simp only [Bool.toNat_true] at hw
    have e1 : (max x.exp y.exp - x.exp).toNat = (y.exp - x.exp).toNat := by omega
    have e2 : (x.exp + x.msize - x.exp).toNat = x.reg.dropLast.length := by omega
    rw [e1, e2]
    refine ⟨?_, by omega⟩
    conv_lhs => rw [h1]
    rw [List.take_left' (by simp), if_pos rfl]
    conv_rhs => rw [h1]
    rw [List.drop_append_of_le_length (by omega)]
    simp

theorem ediv_split (V σ m u : ℕ) (h : u ≤ m) : ((V : ℤ) - σ * 2 ^ m) / 2 ^ u = (V / 2 ^ u : ℕ) - σ * 2 ^ (m - u) := by
  have e : (2 : ℤ) ^ m = 2 ^ u * 2 ^ (m - u) := by rw [← pow_add]; congr 1; omega
  rw [e, show (V : ℤ) - σ * (2 ^ u * 2 ^ (m - u)) = V + (2 ^ u) * (-(σ * 2 ^ (m - u))) by ring,
    Int.add_mul_ediv_left _ _ (by positivity)]
  push_cast
  ring

theorem ival_split {y : QF Q} (hs : y.signed = true) {Y : List Q} {σ : Q} (h : y.reg = Y ++ [σ]) (s : St Q) :
    ival y s = valL Y s - ((s σ).toNat : ℤ) * 2 ^ Y.length := by
  have : y.reg.map s = Y.map s ++ [s σ] := by rw [h]; simp
  rw [ival_signed hs this, valL_bits, List.length_map]
  cases s σ <;> simp

/-- The second list: length, qubits, and value. -/
def List2Ok (d : Q) (anc : List Q) (anc2 : Q) (x y : QF Q) (W : List Q) : Prop :=
  W.length + (y.exp - x.exp).toNat = x.reg.length ∧ List.Sublist W.dropLast (y.reg ++ anc ++ [anc2]) ∧
  (∀ q ∈ W, q ∈ y.reg ++ anc ++ [anc2]) ∧
  ∀ s : St Q, s anc2 = false → (∀ q ∈ addExt anc x y, s q = (y.signed && s (y.reg.getLastD d))) →
    ∃ j : ℤ, (valL W s : ℤ) = ival y s / 2 ^ (x.exp - y.exp).toNat + 2 ^ W.length * j

theorem addExt_sub (anc : List Q) (x y : QF Q) : List.Sublist (addExt anc x y) anc := by
  unfold addExt
  split
  · exact List.take_sublist _ _
  · exact List.nil_sublist _

theorem addList2_unsigned (d : Q) {igR igO : Bool} {anc : List Q} {anc2 : Q} {x y : QF Q} (h : AddFits igR igO x y)
    (hanc : (x.top - y.top).toNat ≤ anc.length) (hy : y.signed = false) :
    List2Ok d anc anc2 x y (addList2 d anc anc2 x y) := by
  have hw := h.win
  have hlow := h.low
  have hm := msize_unsigned hy
  have hov := h.over
  have hxl : x.reg.length = x.msize + x.signed.toNat := by
    cases hs : x.signed
    · rw [msize_unsigned hs]; rfl
    · exact (reg_split d hs (h.xne hs)).2.2
  have e1 : (max x.exp y.exp - y.exp).toNat = (x.exp - y.exp).toNat := by omega
  unfold List2Ok addList2 slice
  by_cases hlt : y.top < x.top
  · have hE : (addExt anc x y).length = (x.top - y.top).toNat := by
      unfold addExt
      rw [if_pos hlt, hy, List.length_take]
      simp only [Bool.toNat_false]
      omega
    have hsub := addExt_sub anc x y
    rw [if_pos hlt, e1, Int.toNat_natCast, List.take_length, List.drop_append_of_le_length (by unfold QF.top at *; omega), hy]
    simp only [Bool.false_eq_true, if_false]
    have hS : List.Sublist (y.reg.drop (x.exp - y.exp).toNat ++ addExt anc x y) (y.reg ++ anc) :=
      List.Sublist.append (List.drop_sublist _ _) hsub
    have hS2 : List.Sublist (y.reg.drop (x.exp - y.exp).toNat ++ addExt anc x y ++ (if x.signed = true then [anc2] else []))
        (y.reg ++ anc ++ [anc2]) := by
      refine List.Sublist.append hS ?_
      by_cases hs : x.signed = true
      · rw [if_pos hs]
      · rw [if_neg hs]; exact List.nil_sublist _
    refine ⟨?_, (List.dropLast_sublist _).trans hS2, fun q hq => hS2.subset hq, fun s h0 hext => ⟨0, ?_⟩⟩
    · rw [List.length_append, List.length_append, List.length_drop, hE]
      unfold QF.top at *
      cases hs : x.signed <;> rw [hs] at hxl <;> simp at hxl ⊢ <;> omega
    · rw [valL_append, valL_append, valL_const (v := false) (l := addExt anc x y) (fun q hq => by rw [hext q hq]; rfl),
        valL_const (v := false) (l := if x.signed = true then [anc2] else []) (fun q hq => by
          cases hs : x.signed <;> rw [hs] at hq <;> simp at hq; rw [hq, h0]),
        valL_drop, ival_unsigned hy, ← valL_bits]
      simp
  · have hE : addExt anc x y = [] := by unfold addExt; rw [if_neg hlt]
    rw [if_neg hlt, e1, hE, List.append_nil, hy]
    simp only [Bool.false_eq_true, if_false]
    have hS2 : List.Sublist (((y.reg.take (x.top - y.exp).toNat).drop (x.exp - y.exp).toNat) ++ (if x.signed = true then [anc2] else []))
        (y.reg ++ anc ++ [anc2]) := by
      rw [List.append_assoc]
      refine List.Sublist.append ((List.drop_sublist _ _).trans (List.take_sublist _ _)) ?_
      by_cases hs : x.signed = true
      · rw [if_pos hs]; exact List.sublist_append_right _ _
      · rw [if_neg hs]; exact List.nil_sublist _
    refine ⟨?_, (List.dropLast_sublist _).trans hS2, fun q hq => hS2.subset hq, fun s h0 hext => ?_⟩
    · rw [List.length_append, List.length_drop, List.length_take]
      unfold QF.top at *
      cases hs : x.signed <;> rw [hs] at hxl hw <;> simp at hxl hw ⊢ <;> omega
    · rw [valL_append, valL_const (v := false) (l := if x.signed = true then [anc2] else []) (fun q hq => by
          cases hs : x.signed <;> rw [hs] at hq <;> simp at hq; rw [hq, h0]),
        valL_drop, valL_take, ival_unsigned hy, ← valL_bits]
      have hge : (x.exp - y.exp).toNat ≤ (x.top - y.exp).toNat := by unfold QF.top at *; omega
      have e3 : (2 : ℕ) ^ (x.top - y.exp).toNat = 2 ^ (x.exp - y.exp).toNat * 2 ^ ((x.top - y.exp).toNat - (x.exp - y.exp).toNat) := by
        rw [← pow_add]; congr 1; omega
      rw [e3, Nat.mod_mul_right_div_self]
      cases hs : x.signed
      · refine ⟨-((valL y.reg s / 2 ^ (x.exp - y.exp).toNat / 2 ^ ((x.top - y.exp).toNat - (x.exp - y.exp).toNat) : ℕ) : ℤ), ?_⟩
        have e4 : ((y.reg.take (x.top - y.exp).toNat).drop (x.exp - y.exp).toNat).length =
            (x.top - y.exp).toNat - (x.exp - y.exp).toNat := by
          rw [List.length_drop, List.length_take]
          unfold QF.top at *
          omega
        simp only [Bool.false_eq_true, if_false, List.append_nil, e4, Bool.toNat_false, Nat.zero_mul, Nat.mul_zero, Nat.add_zero]
        have := Nat.mod_add_div (valL y.reg s / 2 ^ (x.exp - y.exp).toNat) (2 ^ ((x.top - y.exp).toNat - (x.exp - y.exp).toNat))
        zify at this
        push_cast
        linarith
      · refine ⟨0, ?_⟩
        have hv := valL_lt y.reg s
        have e5 : valL y.reg s / 2 ^ (x.exp - y.exp).toNat % 2 ^ ((x.top - y.exp).toNat - (x.exp - y.exp).toNat) =
            valL y.reg s / 2 ^ (x.exp - y.exp).toNat := by
          apply Nat.mod_eq_of_lt
          rw [Nat.div_lt_iff_lt_mul (by positivity), ← pow_add]
          refine lt_of_lt_of_eq hv ?_
          congr 1
          rcases hov with hov | hov
          · unfold QF.top at *; omega
          · rw [hs] at hov; cases hov.2
        rw [e5]
        simp

theorem addList2_signed (d : Q) {igR igO : Bool} {anc : List Q} {anc2 : Q} {x y : QF Q} (h : AddFits igR igO x y)
    (hanc : (x.top - y.top).toNat ≤ anc.length) (hy : y.signed = true) :
    List2Ok d anc anc2 x y (addList2 d anc anc2 x y) := by
  have hw := h.win
  have hlow := h.low
  have hov := h.over
  have hx := h.sgn hy
  obtain ⟨hy1, hy2, hy3⟩ := reg_split d hy (h.yne hy)
  obtain ⟨-, -, hx3⟩ := reg_split d hx (h.xne hx)
  rw [hx] at hov hw
  simp only [Bool.true_eq_false, and_false, or_false] at hov
  simp only [Bool.toNat_true] at hw
  have e1 : (max x.exp y.exp - y.exp).toNat = (x.exp - y.exp).toNat := by omega
  have hu : (x.exp - y.exp).toNat ≤ y.reg.dropLast.length := by unfold QF.top at *; omega
  have hσ : y.reg.getLastD d ∈ y.reg := by rw [hy1]; simp
  have hEl : (addExt anc x y).length + y.msize + y.exp + (if y.top < x.top then 1 else 0) = x.exp + x.msize := by
    unfold addExt
    by_cases hlt : y.top < x.top
    · rw [if_pos hlt, if_pos hlt, hy, List.length_take]
      simp only [Bool.toNat_true]
      unfold QF.top at *
      omega
    · rw [if_neg hlt, if_neg hlt]
      unfold QF.top at *
      simp
      omega
  -- the list is the mantissa followed by copies of the sign
  have hlist : ∃ E : List Q, addList2 d anc anc2 x y = y.reg.dropLast.drop (x.exp - y.exp).toNat ++ E ++ [y.reg.getLastD d] ∧
      (E = [] ∧ addExt anc x y = [] ∧ x.top = y.top ∨ E = [y.reg.getLastD d] ++ addExt anc x y ∧ y.top < x.top) := by
    unfold addList2 slice
    by_cases hlt : y.top < x.top
    · refine ⟨[y.reg.getLastD d] ++ addExt anc x y, ?_, Or.inr ⟨rfl, hlt⟩⟩
      rw [if_pos hlt, e1, Int.toNat_natCast, List.take_length, if_pos hx, if_pos hy]
      congr 1
      conv_lhs => rw [hy1]
      rw [List.append_assoc, List.drop_append_of_le_length hu]
    · have hE : addExt anc x y = [] := by unfold addExt; rw [if_neg hlt]
      refine ⟨[], ?_, Or.inl ⟨rfl, hE, by omega⟩⟩
      rw [if_neg hlt, e1, hE, List.append_nil, List.append_nil, if_pos hx, if_pos hy]
      congr 1
      have e2 : (x.top - y.exp).toNat = y.reg.dropLast.length := by unfold QF.top at *; omega
      rw [e2]
      conv_lhs => rw [hy1]
      rw [List.take_left' (by simp)]
  obtain ⟨E, hl, hE⟩ := hlist
  rw [hl]
  have hsub : List.Sublist (y.reg.dropLast.drop (x.exp - y.exp).toNat ++ E) (y.reg ++ anc ++ [anc2]) := by
    refine List.Sublist.trans ?_ (List.sublist_append_left _ _)
    rcases hE with ⟨rfl, -, -⟩ | ⟨rfl, -⟩
    · rw [List.append_nil]
      exact ((List.drop_sublist _ _).trans (List.dropLast_sublist _)).trans (List.sublist_append_left _ _)
    · rw [← List.append_assoc]
      refine List.Sublist.append ?_ (addExt_sub anc x y)
      conv_rhs => rw [hy1]
      exact List.Sublist.append (List.drop_sublist _ _) (List.Sublist.refl _)
  have hElen : E.length + y.msize + y.exp = x.exp + x.msize := by
    rcases hE with ⟨rfl, h1, h2⟩ | ⟨rfl, h2⟩
    · unfold QF.top at *; simp; omega
    · rw [if_pos h2] at hEl
      rw [List.length_append, List.length_singleton]
      push_cast
      omega
  refine ⟨?_, ?_, ?_, ?_⟩
  · rw [List.length_append, List.length_append, List.length_drop, List.length_singleton]
    unfold QF.top at *
    omega
  · rw [List.dropLast_concat]; exact hsub
  · intro q hq
    rcases List.mem_append.1 hq with hq | hq
    · exact hsub.subset hq
    · rw [List.mem_singleton.1 hq]
      exact List.mem_append_left _ (List.mem_append_left _ hσ)
  · intro s h0 hext
    rw [hy, Bool.true_and] at hext
    have hEv : ∀ q ∈ E ++ [y.reg.getLastD d], s q = s (y.reg.getLastD d) := by
      intro q hq
      rcases List.mem_append.1 hq with hq | hq
      · rcases hE with ⟨rfl, -, -⟩ | ⟨rfl, -⟩
        · exact (List.not_mem_nil hq).elim
        · rcases List.mem_append.1 hq with hq | hq
          · rw [List.mem_singleton.1 hq]
          · exact hext q hq
      · rw [List.mem_singleton.1 hq]
    refine ⟨((s (y.reg.getLastD d)).toNat : ℤ), ?_⟩
    rw [List.append_assoc, valL_append, valL_const hEv, valL_drop, ival_split hy hy1, ediv_split _ _ _ _ hu,
      show (y.reg.dropLast.drop (x.exp - y.exp).toNat ++ (E ++ [y.reg.getLastD d])).length =
        (y.reg.dropLast.length - (x.exp - y.exp).toNat) + (E ++ [y.reg.getLastD d]).length by
        rw [List.length_append, List.length_drop], List.length_drop]
    generalize (E ++ [y.reg.getLastD d]).length = r
    have h1 := Nat.one_le_two_pow (n := r)
    rw [pow_add]
    push_cast [Nat.cast_sub h1]
    ring

theorem addList2_ok (d : Q) {igR igO : Bool} {anc : List Q} {anc2 : Q} {x y : QF Q} (h : AddFits igR igO x y)
    (hanc : (x.top - y.top).toNat ≤ anc.length) : List2Ok d anc anc2 x y (addList2 d anc anc2 x y) := by
  cases hy : y.signed
  · exact addList2_unsigned d h hanc hy
  · exact addList2_signed d h hanc hy

/-- `inpl_add` adds the second float, cut off below the resolution of the first one, modulo the size of the first one. -/
theorem inplAdd_spec (d : Q) {igR igO : Bool} {anc : List Q} {anc2 : Q} {x y : QF Q} (h : AddFits igR igO x y)
    (hanc : (x.top - y.top).toNat ≤ anc.length) (hn : (x.reg ++ (y.reg ++ anc ++ [anc2])).Nodup) :
    ∃ os, inplAdd igR igO d anc anc2 x y = some os ∧ (∀ o ∈ os, o.wf) ∧
      ∀ s, (∀ q ∈ anc ++ [anc2], s q = false) →
        (∀ q, q ∉ x.reg → Rev.run (os.flatMap TOp.rev) s q = s q) ∧
        ∃ j : ℤ, (valL x.reg (Rev.run (os.flatMap TOp.rev) s) : ℤ) = valL x.reg s +
          ival y s / 2 ^ (x.exp - y.exp).toNat * 2 ^ (y.exp - x.exp).toNat + 2 ^ x.reg.length * j := by
  obtain ⟨h1, hlen1⟩ := addList1_eq d h
  obtain ⟨hlen2, hsub2, hmem2, hval2⟩ := addList2_ok d (anc2 := anc2) h hanc
  obtain ⟨hnx, hny, hdis⟩ := List.nodup_append.1 hn
  set w := (y.exp - x.exp).toNat with hw
  set W := addList2 d anc anc2 x y with hW
  -- the two lists
  have hne1 : x.reg.drop w ≠ [] := by
    intro e
    have := congrArg List.length e
    rw [List.length_drop] at this
    simp at this
    omega
  have hne2 : W ≠ [] := by
    intro e
    rw [e] at hlen2
    simp at hlen2
    omega
  obtain ⟨l1, o1, hl1⟩ : ∃ l o, x.reg.drop w = l ++ [o] := ⟨_, _, (List.dropLast_append_getLast hne1).symm⟩
  obtain ⟨l2, o2, hl2⟩ : ∃ l o, W = l ++ [o] := ⟨_, _, (List.dropLast_append_getLast hne2).symm⟩
  have hxl : l1.length + 1 + w = x.reg.length := by
    have := congrArg List.length hl1
    rw [List.length_drop, List.length_append, List.length_singleton] at this
    omega
  have hll : l2.length = l1.length := by
    rw [hl2, List.length_append, List.length_singleton] at hlen2
    omega
  have hx1 : ∀ q ∈ l1 ++ [o1], q ∈ x.reg := fun q hq => List.mem_of_mem_drop (hl1 ▸ hq)
  have hnd1 : (l1 ++ [o1]).Nodup := hl1 ▸ hnx.sublist (List.drop_sublist _ _)
  rw [hl2, List.dropLast_concat] at hsub2
  have hnd2 : l2.Nodup := hny.sublist hsub2
  have hap : ∀ q ∈ l1 ++ [o1], ∀ r ∈ y.reg ++ anc ++ [anc2], q ≠ r := fun q hq r hr => hdis q (hx1 q hq) r hr
  have ho2 : o2 ∈ y.reg ++ anc ++ [anc2] := hmem2 o2 (by rw [hl2]; simp)
  have hnd : (o1 :: (l2 ++ l1)).Nodup := by
    rw [List.nodup_cons, List.nodup_append]
    refine ⟨fun hm => ?_, hnd2, (List.nodup_append.1 hnd1).1, fun a ha b hb e => hap b (by simp [hb]) a (hsub2.subset ha) e.symm⟩
    rcases List.mem_append.1 hm with hm | hm
    · exact hap o1 (by simp) o1 (hsub2.subset hm) rfl
    · exact (List.nodup_append.1 hnd1).2.2 o1 hm o1 (by simp) rfl
  obtain ⟨os, hos, hwf, hrun⟩ := addLists_spec (o2 := o2) hll (by omega) hnd
    (fun hm => hap o2 (by simp [hm]) o2 ho2 rfl) (fun e => hap o1 (by simp) o2 ho2 e.symm)
  have hcode : inplAdd igR igO d anc anc2 x y = some (addCopy d anc x y ++ os ++ [.cx o2 o1] ++ addCopy d anc x y) := by
    unfold inplAdd
    have hrnd := h.rnd
    have hov := h.over
    have hlow := h.low
    have hwin := h.win
    rw [if_neg (by rintro ⟨h1, h2⟩; rcases hrnd with h3 | h3; rw [h1] at h3; cases h3; omega),
      if_neg (by rintro ⟨h1, h2⟩; rcases hov with h3 | h3; omega; rw [h1] at h3; cases h3.1),
      if_neg (by cases hs : x.signed <;> rw [hs] at hwin <;> simp at hwin <;> omega),
      if_neg (by rintro ⟨h1, h2⟩; rw [h.sgn h1] at h2; cases h2), h1, hl1, ← hW, hl2]
    simp only [List.getLast?_append, List.getLast?_singleton, Option.some_or, List.dropLast_concat, hos, Option.map_some]
  -- the copies of the sign
  have hcopy : ∃ E : List Q, addCopy d anc x y = E.map (TOp.cx (y.reg.getLastD d)) ∧ List.Sublist E anc ∧
      (y.signed = true → E = addExt anc x y) ∧ (y.signed = false → E = []) := by
    unfold addCopy
    by_cases hy : y.signed = true
    · exact ⟨_, by rw [if_pos hy], addExt_sub anc x y, fun _ => rfl, fun h => by rw [h] at hy; cases hy⟩
    · exact ⟨[], by rw [if_neg hy]; rfl, List.nil_sublist _, fun h => absurd h hy, fun _ => rfl⟩
  obtain ⟨E, hE1, hE2, hE3, hE4⟩ := hcopy
  have hσ : E ≠ [] → y.reg.getLastD d ∈ y.reg := by
    intro hne
    cases hy : y.signed
    · exact absurd (hE4 hy) hne
    · rw [(reg_split d hy (h.yne hy)).1]; simp
  have hna : ((y.reg ++ anc) ++ [anc2]).Nodup := hny
  have hEn : E.Nodup := ((List.nodup_append.1 (List.nodup_append.1 hna).1).2.1).sublist hE2
  have hσE : y.reg.getLastD d ∉ E := by
    intro hm
    exact (List.nodup_append.1 (List.nodup_append.1 hna).1).2.2 _ (hσ (List.ne_nil_of_mem hm)) _ (hE2.subset hm) rfl
  have hEo : ∀ q ∈ E, q ∉ l1 ++ [o1] := fun q hq hq' =>
    hap q hq' q (List.mem_append_left _ (List.mem_append_right _ (hE2.subset hq))) rfl
  refine ⟨_, hcode, ?_, fun s hs => ?_⟩
  · intro o ho
    have hc : ∀ o ∈ addCopy d anc x y, o.wf := by
      rw [hE1]
      intro o ho
      obtain ⟨t, ht, rfl⟩ := List.mem_map.1 ho
      exact fun e => hσE (e ▸ ht)
    rw [List.mem_append, List.mem_append, List.mem_append, List.mem_singleton] at ho
    rcases ho with ((ho | ho) | rfl) | ho
    · exact hc o ho
    · exact hwf o ho
    · exact fun e => hap o1 (by simp) o2 ho2 e.symm
    · exact hc o ho
  · have hrs : Rev.run ((addCopy d anc x y ++ os ++ [TOp.cx o2 o1] ++ addCopy d anc x y).flatMap TOp.rev) s =
        Rev.run ((E.map (TOp.cx (y.reg.getLastD d))).flatMap TOp.rev)
          (Rev.run ((os ++ [TOp.cx o2 o1]).flatMap TOp.rev)
            (Rev.run ((E.map (TOp.cx (y.reg.getLastD d))).flatMap TOp.rev) s)) := by
      rw [hE1, List.flatMap_append, List.append_assoc, List.flatMap_append, Rev.run_append, Rev.run_append]
    rw [hrs]
    obtain ⟨c1, c2⟩ := run_copy hEn hσE s
    set s1 := Rev.run ((E.map (TOp.cx (y.reg.getLastD d))).flatMap TOp.rev) s with hs1
    obtain ⟨r1, j, r2⟩ := hrun s1
    set s2 := Rev.run ((os ++ [TOp.cx o2 o1]).flatMap TOp.rev) s1 with hs2
    obtain ⟨c3, c4⟩ := run_copy hEn hσE s2
    set s3 := Rev.run ((E.map (TOp.cx (y.reg.getLastD d))).flatMap TOp.rev) s2 with hs3
    have hEx : ∀ q ∈ x.reg, q ∉ E := fun q hq hq' =>
      hdis q hq q (List.mem_append_left _ (List.mem_append_right _ (hE2.subset hq'))) rfl
    have hEz : ∀ q ∈ E, s q = false := fun q hq => hs q (List.mem_append_left _ (hE2.subset hq))
    have hframe : ∀ q, q ∉ l1 ++ [o1] → s3 q = s q := by
      intro q hq
      by_cases hqE : q ∈ E
      · have hne := List.ne_nil_of_mem hqE
        have hσ' : y.reg.getLastD d ∉ l1 ++ [o1] := fun hm => hap _ hm _ (List.mem_append_left _ (List.mem_append_left _ (hσ hne))) rfl
        rw [c4 q hqE, r1 q hq, r1 _ hσ', c2 q hqE, c1 _ hσE, Bool.xor_assoc, Bool.xor_self, Bool.xor_false]
      · rw [c3 q hqE, r1 q hq, c1 q hqE]
    refine ⟨fun q hq => hframe q (fun hm => hq (hx1 q hm)), ?_⟩
    have hyE : ∀ q ∈ y.reg, s1 q = s q := fun q hq => c1 q (fun hm =>
      (List.nodup_append.1 (List.nodup_append.1 hna).1).2.2 q hq q (hE2.subset hm) rfl)
    have hi : ival y s1 = ival y s := by
      unfold ival
      rw [valL_congr hyE]
    obtain ⟨j2, hj2⟩ := hval2 s1 (by
        rw [c1 anc2 (fun hm => (List.nodup_append.1 hna).2.2 anc2 (List.mem_append_right _ (hE2.subset hm)) anc2 (by simp) rfl)]
        exact hs anc2 (by simp)) (by
      intro q hq
      cases hy : y.signed
      · have hqa : q ∈ anc := (addExt_sub anc x y).subset hq
        rw [c1 q (by rw [hE4 hy]; simp), hs q (List.mem_append_left _ hqa)]
        rfl
      · rw [← hE3 hy] at hq
        rw [c2 q hq, hEz q hq, c1 _ hσE]
        simp)
    rw [hi, hl2] at hj2
    have hx2 : ∀ t : St Q, (valL x.reg t : ℤ) = valL (x.reg.take w) t + 2 ^ w * valL (l1 ++ [o1]) t := by
      intro t
      conv_lhs => rw [← List.take_append_drop w x.reg, hl1]
      rw [valL_append, List.length_take, Nat.min_eq_left (by omega)]
      push_cast
      ring
    have hv3 : valL (l1 ++ [o1]) s3 = valL (l1 ++ [o1]) s2 := valL_congr fun q hq => c3 q (hEx q (hx1 q hq))
    have hv1 : valL (l1 ++ [o1]) s1 = valL (l1 ++ [o1]) s := valL_congr fun q hq => c1 q (hEx q (hx1 q hq))
    have hvt : valL (x.reg.take w) s3 = valL (x.reg.take w) s := valL_congr fun q hq => hframe q fun hm => by
      have hnx' : (x.reg.take w ++ (l1 ++ [o1])).Nodup := by rw [← hl1, List.take_append_drop]; exact hnx
      exact (List.nodup_append.1 hnx').2.2 q hq q hm rfl
    refine ⟨j2 + j, ?_⟩
    rw [hx2 s3, hx2 s, hv3, r2, hv1, hvt, hj2, ← hxl, pow_add _ (l1.length + 1) w]
    simp only [List.length_append, List.length_singleton, hll]
    ring

end Verif.Sbp
