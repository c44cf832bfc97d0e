import Verif.Circ.FuseMat
import Verif.Comp.Fuse

/-!
Model of the fusion rules of `circuit/pass_management/passes/fuse_adjacents.py` on operations.
-/

namespace Verif.Circ

open Verif.Rev (upd)
open Classical

/-! ### What names stand for -/

/-- The operation has the arity and the operator of `t`. -/
def Means (o t : Op) : Prop := o.arity = t.arity ∧ ∀ (Q : Type) [DecidableEq Q] (qs : List Q) (ψ : Amp Q),
  qs.Nodup → qs.length = t.arity → den o qs ψ = den t qs ψ

/-- The names of library gates stand for the library gates: the pass decides by names. -/
structure Named (o : Op) : Prop where
  cx : o.name = "cx" → Means o cxG
  cz : o.name = "cz" → Means o czG
  swap : o.name = "swap" → Means o .swap
  rzz : o.name = "rzz" → ∃ θ, Means o (rzzG θ)
  cp : o.name = "cp" → ∃ φ lam, o = cpO φ lam
  rz : o.name = "rz" → ∃ φ lam, o = .u3 "rz" 0 φ lam (-(φ + lam) / 2)
  p : o.name = "p" → ∃ φ lam, o = .u3 "p" 0 φ lam 0
  rx : o.name = "rx" → ∃ θ, o = rxG θ
  ry : o.name = "ry" → ∃ θ, o = ryG θ
  gphase : o.name = "gphase" → ∃ g, o = gphaseG g

mutual
/-- Every operation, at every level, bears the name of a library gate only if it is that gate, and acts on at least
one qubit. -/
def Op.Std : Op → Prop
  | .gate nm n body => Named (.gate nm n body) ∧ n ≠ 0 ∧ StdBody body
  | .ctrl b st => Named (.ctrl b st) ∧ b.Std
  | .pt b st body => Named (.pt b st body) ∧ b.Std ∧ StdBody body
  | .barrier n => n ≠ 0
  | .u3 nm θ φ lam g => Named (.u3 nm θ φ lam g)
  | .pauli _ => True
  | .alloc => True
  | .dealloc => True
  | .swap => True
/-- The same for all instructions of a circuit. -/
def StdBody : List (Op × List Nat) → Prop
  | [] => True
  | (o, _) :: r => o.Std ∧ StdBody r
end

/-- The names looked at by the rules. -/
def special : List String := ["cx", "cz", "swap", "rzz", "cp", "rz", "p", "rx", "ry", "gphase"]

theorem named_of {o : Op} (h : o.name ∉ special) : Named o := by
  simp only [special, List.mem_cons, List.not_mem_nil, or_false, not_or] at h
  obtain ⟨h1, h2, h3, h4, h5, h6, h7, h8, h9, h10⟩ := h
  exact ⟨fun h => absurd h h1, fun h => absurd h h2, fun h => absurd h h3, fun h => absurd h h4, fun h => absurd h h5,
    fun h => absurd h h6, fun h => absurd h h7, fun h => absurd h h8, fun h => absurd h h9, fun h => absurd h h10⟩

theorem Means.refl (o : Op) : Means o o := ⟨rfl, fun _ _ _ _ _ _ => rfl⟩

theorem named_swap : Named .swap := by
  constructor <;> intro h <;> simp [Op.name] at h
  exact Means.refl _

theorem Op.Std.named : ∀ {o : Op}, o.Std → Named o
  | .gate .., h => by simp only [Op.Std] at h; exact h.1
  | .ctrl .., h => by simp only [Op.Std] at h; exact h.1
  | .pt .., h => by simp only [Op.Std] at h; exact h.1
  | .barrier _, _ => named_of (by simp [Op.name, special])
  | .u3 .., h => by simp only [Op.Std] at h; exact h
  | .pauli p, _ => named_of (by cases p <;> simp [Op.name, special])
  | .alloc, _ => named_of (by simp [Op.name, special])
  | .dealloc, _ => named_of (by simp [Op.name, special])
  | .swap, _ => named_swap

theorem Op.Std.arity : ∀ {o : Op}, o.Std → o.arity ≠ 0
  | .gate .., h => by simp only [Op.Std] at h; exact h.2.1
  | .ctrl b st, h => by
    simp only [Op.Std] at h
    have := Op.Std.arity h.2
    simp only [Op.arity]; omega
  | .pt b st _, h => by
    simp only [Op.Std] at h
    have := Op.Std.arity h.2.1
    simp only [Op.arity]; omega
  | .barrier _, h => by simpa only [Op.Std, Op.arity] using h
  | .u3 .., _ => by simp [Op.arity]
  | .pauli _, _ => by simp [Op.arity]
  | .alloc, _ => by simp [Op.arity]
  | .dealloc, _ => by simp [Op.arity]
  | .swap, _ => by simp [Op.arity]

theorem stdBody_iff {b : List (Op × List Nat)} : StdBody b ↔ ∀ j ∈ b, j.1.Std := by
  induction b with
  | nil => simp [StdBody]
  | cons x r ih => obtain ⟨o, is⟩ := x; simp [StdBody, ih]

theorem wfBody_iff {n : Nat} {b : List (Op × List Nat)} :
    WFBody n b ↔ ∀ j ∈ b, j.1.WF ∧ j.2.Nodup ∧ (∀ i ∈ j.2, i < n) ∧ j.2.length = j.1.arity := by
  induction b with
  | nil => simp [WFBody]
  | cons x r ih => obtain ⟨o, is⟩ := x; simp only [WFBody, ih, List.forall_mem_cons]; tauto

/-! ### The rules -/

/-- `params[0]` of an `rzz` gate, which the model of operations does not keep: the angle of the definition, or, if
another pass has rewritten the definition, an angle with the same operator. -/
noncomputable def par2 (o : Op) : ℝ :=
  if h : ∃ θ, o = rzzG θ then h.choose else if h : ∃ θ, Means o (rzzG θ) then h.choose else 0

/-- operation.py:440-487 (`U3Gate`), 681, 826-840 (controlled operations): the attribute `params`. Only `rzz` is kept
among the composite gates. -/
noncomputable def Op.params : Op → List ℝ
  | .u3 nm θ φ lam g =>
    if nm = "p" ∨ nm = "rz" then [lam + φ]
    else if nm = "rx" ∨ nm = "ry" then [θ]
    else if nm = "gphase" then [g]
    else if nm ∈ ["h", "sx", "sx_dg", "s", "s_dg", "t", "t_dg"] then []
    else [θ, φ, lam]
  | .ctrl b _ => b.params
  | .pt b _ _ => b.params
  | .gate nm n body => if nm = "rzz" then [par2 (.gate nm n body)] else []
  | _ => []

/-- The attribute `global_phase` of a `U3Gate`. -/
def Op.gp : Op → ℝ
  | .u3 _ _ _ _ g => g
  | _ => 0

/-- quantum_circuit.py:398-411 `to_gate`; the number in the name is left out. -/
def toGate (n : Nat) (body : List (Op × List Nat)) : Op := .gate "circuit" n (dropAlloc body)

/-- fuse_adjacents.py:91-184 `_fuse_swap_with_neighbour`. -/
noncomputable def fuseSwap (a b : Op) : Option Op :=
  (if a.name = "swap" then
    if b.name = "cx" then some (toGate 2 halfCx)
    else if b.name = "rzz" then some (toGate 2 (halfRzz (b.params.headD 0)))
    else if b.name = "cp" then some (toGate 2 (halfCp (b.params.headD 0)))
    else none
  else none) <|>
  (if b.name = "swap" then
    if a.name = "cx" then some (toGate 2 halfCx')
    else if a.name = "rzz" then some (toGate 2 (halfRzz (a.params.headD 0)))
    else if a.name = "cp" then some (toGate 2 (halfCp (a.params.headD 0)))
    else if a.name = "cz" then some (toGate 2 halfCz)
    else none
  else none)

/-- fuse_adjacents.py:187-266 `_fuse_parameterized_1q`; `none` inside stands for `_FUSION_CANCEL`, the number is
added to `gphase_array`. -/
noncomputable def fuseParam (a b : Op) : Option (Option Op × ℝ) :=
  if a.params = [] then none else
  let s := (a.params ++ b.params).sum
  let out := fun o : Op => if s = 0 then none else some o
  if a.name = "rz" ∧ b.name = "rz" then some (out (rzG s), 0)
  else if a.name = "rz" ∧ b.name = "p" then some (out (pG s), a.gp)
  else if a.name = "p" ∧ b.name = "rz" then some (out (pG s), b.gp)
  else if a.name = "p" ∧ b.name = "p" then some (out (pG s), 0)
  else if a.name = b.name then
    if a.name = "rx" then some (out (rxG s), 0)
    else if a.name = "ry" then some (out (ryG s), 0)
    else if a.name = "gphase" then some (some (gphaseG (a.gp + b.gp)), 0)
    else none
  else none

/-- fuse_adjacents.py:303-345 `_fuse_controlled_ops`, and the test at 488; `via` is `_fuse_via_transpile`. -/
noncomputable def fuseCtrl (via : Op → Op → Option (Option Op)) : Op → Op → Option (Option Op)
  | .ctrl x st, .ctrl y st' => if st = st' then (via x y).map (·.map (.ctrl · st)) else none
  | _, _ => none

/-- fuse_adjacents.py:387-438 `_check_inverse_cancel`; `near` is the comparison of the unitaries. -/
noncomputable def invCheck (near : Op → Op → Bool) (a b : Op) : Bool :=
  decide (a.inv.name = b.name) && !a.name.endsWith "alloc" && decide (a.inv.arity ≤ 4) && decide (b.arity ≤ 4) && near a.inv b

/-- fuse_adjacents.py:446-514 `_fuse_operations` (without `GidneyLogicalAND`, an operation with a classical bit). -/
noncomputable def fuseOps (near : Op → Op → Bool) (hasDef : Op → Bool) (via : Op → Op → Option (Option Op)) (a b : Op) :
    Option (Option Op × ℝ) :=
  (fuseSwap a b).map (fun o => (some o, 0)) <|>
  fuseParam a b <|>
  (fuseCtrl via a b).map (fun r => (r, 0)) <|>
  (if invCheck near a b then some (none, 0) else none) <|>
  (if hasDef a || hasDef b then (via a b).map (fun r => (r, 0)) else none)

/-- fuse_adjacents.py:522 `_SYMMETRIC_GATES`. -/
def symNames : List String := ["cz", "swap", "cp", "rzz"]

/-- fuse_adjacents.py:525-569 `_resolve_qubit_order`, for lists of the same length. -/
def resolve (a b : Op) (qa qb : List Nat) : Option (List Nat) :=
  if a.name ∈ symNames ∨ b.name ∈ symNames then
    if (∀ q ∈ qa, q ∈ qb) ∧ (∀ q ∈ qb, q ∈ qa) then
      some (if a.name ∈ symNames ∧ b.name ∉ symNames then qb else qa)
    else none
  else if qa = qb then some qa else none

/-- fuse_adjacents.py:572-604 `_fuse_instructions` on unitary instructions. -/
noncomputable def rule (near : Op → Op → Bool) (hasDef : Op → Bool) (via : Op → Op → Option (Option Op))
    (x y : Op × List Nat) : Option (Option (Op × List Nat) × ℝ) :=
  if x.2.length ≠ y.2.length then none
  else (resolve x.1 y.1 x.2 y.2).bind fun qs =>
    (fuseOps near hasDef via x.1 y.1).map fun r => (r.1.map fun o => (o, qs), r.2)

/-! ### Soundness of the rules -/

/-- Well-formed and named as in the library. -/
def Good (o : Op) : Prop := o.WF ∧ o.Std

/-- The operator of a result of fusion: the identity for a cancellation. -/
noncomputable def denO {Q : Type} [DecidableEq Q] : Option Op → List Q → Amp Q → Amp Q
  | none, _, ψ => ψ
  | some o, qs, ψ => den o qs ψ

/-- `r` does what `a` and then `b` do, up to the recorded global phase. -/
def Rep (a b : Op) (r : Option Op × ℝ) : Prop :=
  (∀ o, r.1 = some o → Good o ∧ o.arity = a.arity) ∧
  ∀ (Q : Type) [DecidableEq Q] (qs : List Q) (ψ : Amp Q), qs.Nodup → qs.length = a.arity →
    den b qs (den a qs ψ) = ph r.2 • denO r.1 qs ψ

theorem par2_spec {o : Op} (h : ∃ θ, Means o (rzzG θ)) : Means o (rzzG (par2 o)) := by
  unfold par2
  by_cases h1 : ∃ θ, o = rzzG θ
  · rw [dif_pos h1]
    have := h1.choose_spec
    rw [← this]
    exact Means.refl _
  · rw [dif_neg h1, dif_pos h]
    exact h.choose_spec

theorem params_rzz {o : Op} (hn : o.name = "rzz") (hN : Named o) (hg : ∃ n b, o = .gate "rzz" n b) :
    Means o (rzzG (o.params.headD 0)) := by
  obtain ⟨n, b, rfl⟩ := hg
  simp only [Op.params, if_true, List.headD_cons]
  exact par2_spec (hN.rzz hn)

theorem den_toGate {Q : Type} [DecidableEq Q] (n : Nat) (body : List (Op × List Nat)) (qs : List Q) (ψ : Amp Q) :
    den (toGate n body) qs ψ = denBody body qs ψ := by
  simp only [toGate, den, denBody_dropAlloc]

theorem dropAlloc_mem {b : List (Op × List Nat)} {j : Op × List Nat} (h : j ∈ dropAlloc b) : j ∈ b := by
  induction b using dropAlloc.induct with
  | case1 => simp [dropAlloc] at h
  | case2 is r ih => simp only [dropAlloc] at h; simp [ih h]
  | case3 is r ih => simp only [dropAlloc] at h; simp [ih h]
  | case4 x r h1 h2 ih =>
    rw [dropAlloc] at h
    · rcases List.mem_cons.1 h with rfl | h
      · simp
      · simp [ih h]
    · exact h1
    · exact h2

theorem good_toGate {n : Nat} {body : List (Op × List Nat)} (hn : n ≠ 0) (hw : WFBody n body) (hs : StdBody body) :
    Good (toGate n body) := by
  unfold toGate Good
  simp only [Op.WF, Op.Std]
  refine ⟨wfBody_iff.2 fun j hj => wfBody_iff.1 hw j (dropAlloc_mem hj), named_of (by simp [Op.name, special]), hn,
    stdBody_iff.2 fun j hj => stdBody_iff.1 hs j (dropAlloc_mem hj)⟩

theorem named_u3 {nm : String} {θ φ lam g : ℝ} (h : nm ∉ special) : Named (.u3 nm θ φ lam g) := named_of h

theorem std_cx : cxG.Std := by
  simp only [cxG, Op.Std, and_true]
  constructor <;> intro h <;> simp [Op.name, ctlPrefix] at h
  exact Means.refl _

theorem std_rz (φ : ℝ) : (rzG φ).Std := by
  simp only [rzG, Op.Std]
  constructor <;> intro h <;> simp [Op.name] at h
  exact ⟨φ, 0, by simp⟩

theorem std_p (φ : ℝ) : (pG φ).Std := by
  simp only [pG, Op.Std]
  constructor <;> intro h <;> simp [Op.name] at h
  exact ⟨0, φ, by simp⟩

theorem std_rx (φ : ℝ) : (rxG φ).Std := by
  simp only [rxG, Op.Std]
  constructor <;> intro h <;> simp [Op.name] at h
  exact ⟨φ, rfl⟩

theorem std_ry (φ : ℝ) : (ryG φ).Std := by
  simp only [ryG, Op.Std]
  constructor <;> intro h <;> simp [Op.name] at h
  exact ⟨φ, rfl⟩

theorem std_gphase (φ : ℝ) : (gphaseG φ).Std := by
  simp only [gphaseG, Op.Std]
  constructor <;> intro h <;> simp [Op.name] at h
  exact ⟨φ, rfl⟩

theorem std_h : hG.Std := by
  simp only [hG, Op.Std]
  exact named_of (by simp [Op.name, special])

theorem good_half {body : List (Op × List Nat)} (h : body = halfCx ∨ body = halfCx' ∨ body = halfCz ∨
    ∃ θ, body = halfRzz θ ∨ body = halfCp θ) : Good (toGate 2 body) := by
  have hp := std_p
  have hr := std_rz
  rcases h with rfl | rfl | rfl | ⟨θ, rfl | rfl⟩ <;> refine good_toGate (by decide) ?_ ?_
  all_goals first
    | (simp [halfCx, halfCx', halfCz, halfRzz, halfCp, WFBody, cxG, hG, rzG, pG, Op.WF, Op.arity]; done)
    | (simp only [halfCx, halfCx', halfCz, halfRzz, halfCp, StdBody, std_cx, std_h, hp, hr, and_self])

theorem two {Q : Type} {qs : List Q} (hnd : qs.Nodup) (hl : qs.length = 2) : ∃ a b, a ≠ b ∧ qs = [a, b] := by
  match qs, hl with
  | [a, b], _ => exact ⟨a, b, by simpa using hnd, rfl⟩

/-- The shape of all rules for swap gates. -/
theorem rep_swap {a b ta tb : Op} {body : List (Op × List Nat)} (ha : Means a ta) (hb : Means b tb) (h2 : ta.arity = 2)
    (h2' : tb.arity = 2) (hgood : Good (toGate 2 body))
    (h : ∀ (Q : Type) [DecidableEq Q] (p q : Q) (ψ : Amp Q), p ≠ q → den tb [p, q] (den ta [p, q] ψ) = denBody body [p, q] ψ) :
    Rep a b (some (toGate 2 body), 0) := by
  have har : a.arity = 2 := ha.1.trans h2
  refine ⟨fun o ho => ?_, fun Q _ qs ψ hnd hl => ?_⟩
  · injection ho with ho
    subst ho
    exact ⟨hgood, by rw [har]; rfl⟩
  · rw [har] at hl
    dsimp only
    rw [ph_zero, one_smul, ha.2 Q qs ψ hnd (by rw [h2, hl]), hb.2 Q qs _ hnd (by rw [h2', hl]), denO, den_toGate]
    obtain ⟨p, q, hpq, rfl⟩ := two hnd hl
    exact h Q p q ψ hpq

theorem cp_params (φ lam : ℝ) : (cpO φ lam).params.headD 0 = φ + lam := by
  simp [cpO, Op.params, add_comm]

theorem ctlPrefix_c (n : Nat) (s : String) : 'c' ∈ (ctlPrefix n ++ s).toList := by
  unfold ctlPrefix
  split <;> simp

/-- Only a composite gate is called `rzz`. -/
theorem rzz_gate {o : Op} (hN : Named o) (hn : o.name = "rzz") : ∃ n b, o = .gate "rzz" n b := by
  cases o with
  | gate nm n b => simp only [Op.name] at hn; subst hn; exact ⟨n, b, rfl⟩
  | u3 nm θ φ lam g =>
    obtain ⟨t, h, _⟩ := hN.rzz hn
    simp [Op.arity, rzzG] at h
  | pauli p => cases p <;> simp [Op.name] at hn
  | alloc => simp [Op.name] at hn
  | dealloc => simp [Op.name] at hn
  | barrier n => simp [Op.name] at hn
  | swap => simp [Op.name] at hn
  | ctrl b st =>
    exfalso
    simp only [Op.name] at hn
    have := ctlPrefix_c st.length b.name
    rw [hn] at this
    simp at this
  | pt b st body =>
    exfalso
    have h1 : ∀ s : String, 'c' ∈ s.toList → s ≠ "rzz" := by
      rintro s h rfl
      simp at h
    refine h1 _ ?_ hn
    have h2 : ∀ s : String, 'c' ∈ ("pt" ++ ctlPrefix st.length ++ s).toList := by
      intro s
      have := ctlPrefix_c st.length s
      simp only [String.toList_append, List.mem_append] at this ⊢
      tauto
    have h3 : ∀ s : String, 'c' ∈ ("c" ++ s).toList := by intro s; simp
    cases b <;> simp only [Op.name] <;> first | exact h2 _ | skip
    split
    · exact h3 _
    · exact h2 _

theorem orElse_some {α : Type} {x y : Option α} {v : α} (h : (x <|> y) = some v) : x = some v ∨ y = some v := by
  cases x with
  | none => exact Or.inr (by simpa using h)
  | some w => exact Or.inl (by simpa using h)

theorem fuseSwap_ok {a b o : Op} (ha : Good a) (hb : Good b) (h : fuseSwap a b = some o) : Rep a b (some o, 0) := by
  have na := ha.2.named
  have nb := hb.2.named
  unfold fuseSwap at h
  rcases orElse_some h with h | h
  · split at h
    · rename_i hs
      have ms := na.swap hs
      split at h
      · rename_i hc
        cases h
        exact rep_swap ms (nb.cx hc) rfl rfl (good_half (by simp)) fun Q _ p q ψ hpq => swap_cx hpq ψ
      split at h
      · rename_i hc
        cases h
        exact rep_swap ms (params_rzz hc nb (rzz_gate nb hc)) rfl rfl (good_half (Or.inr (Or.inr (Or.inr ⟨_, Or.inl rfl⟩))))
          fun Q _ p q ψ hpq => swap_rzz hpq _ ψ
      split at h
      · rename_i hc
        cases h
        obtain ⟨φ, lam, rfl⟩ := nb.cp hc
        rw [cp_params]
        exact rep_swap ms (Means.refl _) rfl rfl (good_half (Or.inr (Or.inr (Or.inr ⟨_, Or.inr rfl⟩))))
          fun Q _ p q ψ hpq => swap_cp hpq _ _ ψ
      · cases h
    · cases h
  · split at h
    · rename_i hs
      have ms := nb.swap hs
      split at h
      · rename_i hc
        cases h
        exact rep_swap (na.cx hc) ms rfl rfl (good_half (by simp)) fun Q _ p q ψ hpq => cx_swap hpq ψ
      split at h
      · rename_i hc
        cases h
        exact rep_swap (params_rzz hc na (rzz_gate na hc)) ms rfl rfl (good_half (Or.inr (Or.inr (Or.inr ⟨_, Or.inl rfl⟩))))
          fun Q _ p q ψ hpq => rzz_swap hpq _ ψ
      split at h
      · rename_i hc
        cases h
        obtain ⟨φ, lam, rfl⟩ := na.cp hc
        rw [cp_params]
        exact rep_swap (Means.refl _) ms rfl rfl (good_half (Or.inr (Or.inr (Or.inr ⟨_, Or.inr rfl⟩))))
          fun Q _ p q ψ hpq => cp_swap hpq _ _ ψ
      split at h
      · rename_i hc
        cases h
        exact rep_swap (na.cz hc) ms rfl rfl (good_half (by simp)) fun Q _ p q ψ hpq => cz_swap hpq ψ
      · cases h
    · cases h

/-- The shape of the rules for rotations. -/
theorem rep_rot {n1 n2 n3 : String} {t1 p1 l1 g1 t2 p2 l2 g2 t3 p3 l3 g3 s g : ℝ}
    (hm : u3m t2 p2 l2 g2 * u3m t1 p1 l1 g1 = ph g • u3m t3 p3 l3 g3) (hs : s = 0 → u3m t3 p3 l3 g3 = 1)
    (hgood : (Op.u3 n3 t3 p3 l3 g3).Std) :
    Rep (.u3 n1 t1 p1 l1 g1) (.u3 n2 t2 p2 l2 g2) (if s = 0 then none else some (.u3 n3 t3 p3 l3 g3), g) := by
  refine ⟨fun o ho => ?_, fun Q _ qs ψ hnd hl => ?_⟩
  · dsimp only at ho
    split at ho
    · cases ho
    · cases ho
      exact ⟨⟨by simp [Op.WF], hgood⟩, rfl⟩
  · have hl' : qs.length = 1 := hl
    simp only [den]
    rw [on1_mul _ _ (le_of_eq hl'), hm, on1_ph _ _ hl']
    by_cases h0 : s = 0
    · rw [if_pos h0, hs h0, on1_one]
      rfl
    · rw [if_neg h0]
      simp only [denO, den]

theorem fuseParam_ok {a b : Op} {r : Option Op × ℝ} (ha : Good a) (hb : Good b) (h : fuseParam a b = some r) : Rep a b r := by
  have na := ha.2.named
  have nb := hb.2.named
  unfold fuseParam at h
  split at h
  · cases h
  dsimp only at h
  split at h
  · rename_i hn
    cases h
    obtain ⟨φ, lam, rfl⟩ := na.rz hn.1
    obtain ⟨φ', lam', rfl⟩ := nb.rz hn.2
    refine rep_rot ?_ (fun h0 => ?_) (std_rz _)
    · simp only [Op.params, u3m_diag, mk_mul, ph_zero, one_smul, true_or, or_true, if_true, List.cons_append, List.nil_append, List.sum_cons, List.sum_nil]
      refine mk_congr ?_ ?_ ?_ ?_
      · rw [← ph_add]; simp only [add_zero, mul_zero]; congr 1; ring
      · simp
      · simp
      · simp only [mul_zero, zero_add, ← ph_add]; congr 1; ring
    · rw [h0, u3m_diag, mk_one]
      simp [ph_zero]
  split at h
  · rename_i hn
    cases h
    obtain ⟨φ, lam, rfl⟩ := na.rz hn.1
    obtain ⟨φ', lam', rfl⟩ := nb.p hn.2
    refine rep_rot ?_ (fun h0 => ?_) (std_p _)
    · simp only [Op.params, Op.gp, u3m_diag, mk_mul, mk_smul, ph_zero, true_or, or_true, if_true, List.cons_append, List.nil_append, List.sum_cons, List.sum_nil]
      refine mk_congr ?_ ?_ ?_ ?_
      · simp
      · simp
      · simp
      · simp only [mul_zero, zero_add, one_mul, ← ph_add]; congr 1; ring
    · rw [h0, u3m_diag, mk_one]
      simp [ph_zero]
  split at h
  · rename_i hn
    cases h
    obtain ⟨φ, lam, rfl⟩ := na.p hn.1
    obtain ⟨φ', lam', rfl⟩ := nb.rz hn.2
    refine rep_rot ?_ (fun h0 => ?_) (std_p _)
    · simp only [Op.params, Op.gp, u3m_diag, mk_mul, mk_smul, ph_zero, true_or, or_true, if_true, List.cons_append, List.nil_append, List.sum_cons, List.sum_nil]
      refine mk_congr ?_ ?_ ?_ ?_
      · simp
      · simp
      · simp
      · simp only [mul_zero, zero_add, one_mul, ← ph_add]; congr 1; ring
    · rw [h0, u3m_diag, mk_one]
      simp [ph_zero]
  split at h
  · rename_i hn
    cases h
    obtain ⟨φ, lam, rfl⟩ := na.p hn.1
    obtain ⟨φ', lam', rfl⟩ := nb.p hn.2
    refine rep_rot ?_ (fun h0 => ?_) (std_p _)
    · simp only [Op.params, u3m_diag, mk_mul, mk_smul, ph_zero, true_or, or_true, if_true, List.cons_append, List.nil_append, List.sum_cons, List.sum_nil]
      refine mk_congr ?_ ?_ ?_ ?_
      · simp
      · simp
      · simp
      · simp only [mul_zero, zero_add, one_mul, ← ph_add]; congr 1; ring
    · rw [h0, u3m_diag, mk_one]
      simp [ph_zero]
  split at h
  · rename_i he
    split at h
    · rename_i hn
      cases h
      obtain ⟨t, rfl⟩ := na.rx hn
      obtain ⟨t', rfl⟩ := nb.rx (he ▸ hn)
      refine rep_rot ?_ (fun h0 => ?_) (std_rx _)
      · rw [rx_mul, ph_zero, one_smul]
        simp [Op.params, rxG]
      · rw [h0]; exact u3m_zero_rx
    split at h
    · rename_i hn
      cases h
      obtain ⟨t, rfl⟩ := na.ry hn
      obtain ⟨t', rfl⟩ := nb.ry (he ▸ hn)
      refine rep_rot ?_ (fun h0 => ?_) (std_ry _)
      · rw [ry_mul, ph_zero, one_smul]
        simp [Op.params, ryG]
      · rw [h0]; exact u3m_zero_ry
    split at h
    · rename_i hn
      cases h
      obtain ⟨t, rfl⟩ := na.gphase hn
      obtain ⟨t', rfl⟩ := nb.gphase (he ▸ hn)
      have := rep_rot (n1 := "gphase") (n2 := "gphase") (n3 := "gphase") (t1 := 0) (p1 := 0) (l1 := 0) (g1 := t) (t2 := 0) (p2 := 0) (l2 := 0)
        (g2 := t') (t3 := 0) (p3 := 0) (l3 := 0) (g3 := t + t') (s := 1) (g := 0) (by
          simp only [u3m_diag, mk_mul, mk_smul, ph_zero]
          refine mk_congr ?_ ?_ ?_ ?_ <;> simp [ph_zero, ph_add, mul_comm]) (by simp) (std_gphase _)
      rw [if_neg one_ne_zero] at this
      exact this
    · cases h
  · cases h

theorem fuseCtrl_ok {via : Op → Op → Option (Option Op)} {a b : Op} {r : Option Op}
    (hv : ∀ x y r, Good x → Good y → x.arity = y.arity → via x y = some r → Rep x y (r, 0) ∧ ∀ o, r = some o → o.name = "circuit")
    (ha : Good a) (hb : Good b) (hab : a.arity = b.arity) (h : fuseCtrl via a b = some r) : Rep a b (r, 0) := by
  unfold fuseCtrl at h
  split at h
  · rename_i x st y st'
    split at h
    · rename_i hst
      subst hst
      obtain ⟨v, hv1, rfl⟩ := Option.map_eq_some_iff.1 h
      have gx : Good x := ⟨by have := ha.1; simpa only [Op.WF] using this, by have := ha.2; simp only [Op.Std] at this; exact this.2⟩
      have gy : Good y := ⟨by have := hb.1; simpa only [Op.WF] using this, by have := hb.2; simp only [Op.Std] at this; exact this.2⟩
      simp only [Op.arity, Nat.add_left_cancel_iff] at hab
      obtain ⟨⟨h1, h2⟩, h3⟩ := hv x y v gx gy hab hv1
      refine ⟨fun o ho => ?_, fun Q _ qs ψ hnd hl => ?_⟩
      · dsimp only at ho
        obtain ⟨w, rfl, rfl⟩ := Option.map_eq_some_iff.1 ho
        obtain ⟨g1, g2⟩ := h1 w rfl
        refine ⟨⟨by simp only [Op.WF]; exact g1.1, ?_⟩, by simp only [Op.arity, g2]⟩
        simp only [Op.Std]
        refine ⟨named_of ?_, g1.2⟩
        simp only [Op.name]
        rw [h3 w rfl]
        intro hm
        have hlen : 7 ≤ (ctlPrefix st.length ++ "circuit").length := by
          rw [String.length_append]
          have : "circuit".length = 7 := rfl
          omega
        have : ∀ s ∈ special, s.length ≤ 6 := by decide
        have := this _ hm
        omega
      · simp only [Op.arity] at hl
        have hnd' : (qs.drop st.length).Nodup := hnd.sublist (List.drop_sublist _ _)
        have hl' : (qs.drop st.length).length = x.arity := by simp; omega
        have hctl : Disjoint (supp (qs.take st.length)) (supp (qs.drop st.length)) := by
          refine supp_disjoint ?_
          have := List.nodup_append.1 (by rw [List.take_append_drop]; exact hnd : (qs.take st.length ++ qs.drop st.length).Nodup)
          exact fun q h1 h2 => this.2.2 q h1 q h2 rfl
        have hcomp := fun φ => h2 Q (qs.drop st.length) φ hnd' hl'
        dsimp only at hcomp ⊢
        rw [ph_zero, one_smul]
        simp only [den]
        rw [ctl_comp (den_loc y (qs.drop st.length)) (fun b c h => ctlMatch_agree _ _ fun q hq => h q (fun hq' =>
          Set.disjoint_left.1 hctl hq hq')) ψ]
        have hfun : (fun φ => den y (qs.drop st.length) (den x (qs.drop st.length) φ)) = fun φ => denO v (qs.drop st.length) φ := by
          funext φ
          rw [hcomp φ, ph_zero, one_smul]
        rw [hfun]
        cases v with
        | none => exact ctl_id _ _
        | some w => simp only [Option.map_some, denO, den]
    · cases h
  · cases h

end Verif.Circ
