import Verif.Circ.FuseOps

/-!
Model of `circuit/pass_management/passes/fuse_adjacents.py`: the pass with its recursion through
`_fuse_via_transpile`, and its soundness.
-/

namespace Verif.Circ

open Verif.Rev (upd)
open Verif.Fuse (Sig Sem Sound DSt Topo fuseLoop emitG runS)
open Classical

/-! ### The pass -/

/-- The parts of the pass that are not modelled: `T` is `qc.transpile()` for a circuit with the given number of qubits,
`near` the comparison of two unitaries (line 432), `isId` the test of combine_single_qubit_gates, `hasDef` whether an
operation has a definition, `topo` is `nx.topological_sort`. -/
structure Cfg where
  T : Nat → List (Op × List Nat) → List (Op × List Nat)
  near : Op → Op → Bool
  isId : M2 → Bool
  hasDef : Op → Bool
  topo : DSt (Op × List Nat) → List Nat

/-- What the graph algorithm looks at. -/
noncomputable def bSig : Sig (Op × List Nat) where
  qs j := j.2
  cs _ := []
  gph j := if j.1.name = "gphase" then some j.1.gp else none

/-- fuse_adjacents.py:727: `qc_new.gphase(t, qc_new.qubits[0])`. -/
noncomputable def mkG (t : ℝ) : Op × List Nat := (gphaseG t, [0])

/-- fuse_adjacents.py:738-915 `fuse_adjacents` on a unitary circuit, for a given `_fuse_via_transpile`. -/
noncomputable def passWith (c : Cfg) (via : Op → Op → Option (Option Op)) (qc : List (Op × List Nat)) :
    Option (List (Op × List Nat)) :=
  (fuseLoop bSig (rule c.near c.hasDef via) 0 qc Fuse.init).map fun s => emitG bSig mkG s (c.topo s)

/-- quantum_circuit.py:992-1001 `count_ops`: two circuits have the same counts if the lists of the names are
permutations of each other. -/
def opNames (qc : List (Op × List Nat)) : List String :=
  (qc.map fun j => j.1.name).filter fun s => s ≠ "qb_alloc" ∧ s ≠ "qb_dealloc"

/-- fuse_adjacents.py:348-384 `_fuse_via_transpile`; the first argument bounds the depth of the recursion. -/
noncomputable def via (c : Cfg) : Nat → Op → Op → Option (Option Op)
  | 0, _, _ => none
  | k + 1, a, b =>
    let qc := c.T a.arity [(a, List.range a.arity), (b, List.range a.arity)]
    (passWith c (via c k) qc).bind fun qc1 =>
      let qc2 := fuse opSig c.isId a.arity (combineMap c.isId qc1)
      if (opNames qc).Perm (opNames qc2) then none
      else if qc2 = [] then some none
      else some (some (toGate a.arity qc2))

/-- The pass. -/
noncomputable def fusePass (c : Cfg) (k : Nat) (qc : List (Op × List Nat)) : Option (List (Op × List Nat)) :=
  passWith c (via c k) qc

/-! ### Conditions -/

/-- Good instructions on registered qubits. -/
def GoodBody (n : Nat) (b : List (Op × List Nat)) : Prop := WFBody n b ∧ StdBody b

/-- What is assumed of the parts that are not modelled: transpilation preserves the operator and yields good circuits,
the tests accept equal matrices only, the sort returns a topological order. -/
structure Cfg.OK (c : Cfg) : Prop where
  good : ∀ n b, n ≠ 0 → GoodBody n b → GoodBody n (c.T n b)
  den : ∀ n b, n ≠ 0 → GoodBody n b → ∀ (Q : Type) [DecidableEq Q] (qs : List Q) (ψ : Amp Q), qs.Nodup → qs.length = n →
    denBody (c.T n b) qs ψ = denBody b qs ψ
  near : ∀ a b, c.near a b = true → a.arity = b.arity → ∀ (Q : Type) [DecidableEq Q] (qs : List Q) (ψ : Amp Q),
    qs.Nodup → qs.length = a.arity → Circ.den a qs ψ = Circ.den b qs ψ
  isId : ∀ m, c.isId m = true → m = 1
  topo : ∀ s, (∃ ord, Topo s ord) → Topo s (c.topo s)

/-- A good instruction. -/
def okJ (n : Nat) (j : Op × List Nat) : Prop := Good j.1 ∧ j.2.Nodup ∧ (∀ i ∈ j.2, i < n) ∧ j.2.length = j.1.arity

theorem goodBody_iff {n : Nat} {b : List (Op × List Nat)} : GoodBody n b ↔ ∀ j ∈ b, okJ n j := by
  unfold GoodBody
  rw [wfBody_iff, stdBody_iff]
  constructor
  · rintro ⟨h1, h2⟩ j hj
    obtain ⟨a, b, c, d⟩ := h1 j hj
    exact ⟨⟨a, h2 j hj⟩, b, c, d⟩
  · intro h
    exact ⟨fun j hj => ⟨(h j hj).1.1, (h j hj).2⟩, fun j hj => (h j hj).1.2⟩

/-! ### The dispatcher -/

theorem fuseOps_ok {c : Cfg} (hc : c.OK) {v : Op → Op → Option (Option Op)}
    (hv : ∀ x y r, Good x → Good y → x.arity = y.arity → v x y = some r → Rep x y (r, 0) ∧ ∀ o, r = some o → o.name = "circuit")
    {a b : Op} {r : Option Op × ℝ} (ha : Good a) (hb : Good b) (hab : a.arity = b.arity)
    (h : fuseOps c.near c.hasDef v a b = some r) : Rep a b r := by
  unfold fuseOps at h
  rcases orElse_some h with h | h
  · obtain ⟨o, ho, rfl⟩ := Option.map_eq_some_iff.1 h
    exact fuseSwap_ok ha hb ho
  rcases orElse_some h with h | h
  · exact fuseParam_ok ha hb h
  rcases orElse_some h with h | h
  · obtain ⟨o, ho, rfl⟩ := Option.map_eq_some_iff.1 h
    exact fuseCtrl_ok hv ha hb hab ho
  rcases orElse_some h with h | h
  · split at h
    · rename_i hi
      cases h
      refine ⟨fun o ho => (by cases ho), fun Q _ qs ψ hnd hl => ?_⟩
      simp only [invCheck, Bool.and_eq_true] at hi
      have hd := hc.near _ _ hi.2 (by rw [arity_inv, hab])
      rw [← hd Q qs _ hnd (by rw [arity_inv, hl]), den_inv_left a qs ψ ha.1 hnd, ph_zero, one_smul]
      rfl
    · cases h
  · split at h
    · obtain ⟨o, ho, rfl⟩ := Option.map_eq_some_iff.1 h
      exact (hv _ _ _ ha hb hab ho).1
    · cases h

/-! ### Symmetric gates -/

theorem sym_arity {o : Op} (hN : Named o) (h : o.name ∈ symNames) : o.arity = 2 := by
  simp only [symNames, List.mem_cons, List.not_mem_nil, or_false] at h
  rcases h with h | h | h | h
  · exact (hN.cz h).1
  · exact (hN.swap h).1
  · obtain ⟨φ, lam, rfl⟩ := hN.cp h; rfl
  · obtain ⟨t, ht⟩ := hN.rzz h; exact ht.1

theorem sym_den {o : Op} (hN : Named o) (h : o.name ∈ symNames) {Q : Type} [DecidableEq Q] {a b : Q} (hab : a ≠ b)
    (ψ : Amp Q) : den o [b, a] ψ = den o [a, b] ψ := by
  have n1 : [a, b].Nodup := by simpa using hab
  have n2 : [b, a].Nodup := by simpa using Ne.symm hab
  simp only [symNames, List.mem_cons, List.not_mem_nil, or_false] at h
  rcases h with h | h | h | h
  · have := (hN.cz h).2 Q
    rw [this [b, a] ψ n2 rfl, this [a, b] ψ n1 rfl, cz_sym hab]
  · have := (hN.swap h).2 Q
    rw [this [b, a] ψ n2 rfl, this [a, b] ψ n1 rfl, swap_sym hab]
  · obtain ⟨φ, lam, rfl⟩ := hN.cp h
    exact cp_sym hab _ _ ψ
  · obtain ⟨t, ht⟩ := hN.rzz h
    have := ht.2 Q
    rw [this [b, a] ψ n2 rfl, this [a, b] ψ n1 rfl, rzz_sym hab]

theorem sym_pick {o : Op} (hN : Named o) (h : o.name ∈ symNames) {Q : Type} [DecidableEq Q] {qs : List Q} (hnd : qs.Nodup)
    {is is' : List Nat} (h1 : is.Nodup) (hl : is.length = 2) (hl' : is'.length = 2) (hlt : ∀ i ∈ is, i < qs.length)
    (hs : ∀ i, i ∈ is ↔ i ∈ is') (ψ : Amp Q) : den o (pick qs is) ψ = den o (pick qs is') ψ := by
  obtain ⟨i, j, hij, rfl⟩ := two h1 hl
  match is', hl' with
  | [k, l], _ =>
    have hi := (hs i).1 (by simp)
    have hj := (hs j).1 (by simp)
    simp only [List.mem_cons, List.not_mem_nil, or_false] at hi hj
    have e : ∀ x y, x ∈ [i, j] → y ∈ [i, j] → pick qs [x, y] = [qs[x]?.getD (qs[i]'(hlt i (by simp))), qs[y]?.getD (qs[i]'(hlt i (by simp)))] := by
      intro x y hx hy
      have := hlt x hx
      have := hlt y hy
      simp [pick, *]
    rcases hi with rfl | rfl <;> rcases hj with rfl | rfl
    · exact absurd rfl hij
    · rfl
    · rw [e i j (by simp) (by simp), e j i (by simp) (by simp)]
      refine (sym_den hN h ?_ ψ).symm
      have hi := hlt i (by simp)
      have hj := hlt j (by simp)
      simp only [hi, hj, List.getElem?_eq_getElem, Option.getD_some]
      intro he
      exact hij ((List.Nodup.getElem_inj_iff hnd).1 he)
    · exact absurd rfl hij

/-! ### The pure state semantics -/

/-- Instructions act on the state of the qubits `qs`. -/
noncomputable def pureSem {Q : Type} [DecidableEq Q] {qs : List Q} (hnd : qs.Nodup) : Sem bSig (Amp Q) where
  act j ψ := den j.1 (pick qs j.2) ψ
  ph t ψ := ph t • ψ
  comm a b h _ ψ := (Loc.comm (supp_disjoint (pick_far hnd h)) (den_loc a.1 _) (den_loc b.1 _) ψ).symm
  ph_zero ψ := by rw [ph_zero, one_smul]
  ph_add g h ψ := by rw [ph_add, mul_smul]
  ph_act g a ψ := den_smul _ _ _ _

theorem runS_den {Q : Type} [DecidableEq Q] {qs : List Q} (hnd : qs.Nodup) (b : List (Op × List Nat)) (ψ : Amp Q) :
    runS (pureSem hnd).act b ψ = denBody b qs ψ := by
  induction b generalizing ψ with
  | nil => rfl
  | cons x r ih => exact ih _

theorem den_gphase {Q : Type} [DecidableEq Q] (t : ℝ) {qs : List Q} (h : qs.length = 1) (ψ : Amp Q) :
    den (gphaseG t) qs ψ = ph t • ψ := by
  have : u3m 0 0 0 t = ph t • (1 : M2) := by
    rw [u3m_diag, mk_one, mk_smul]
    refine mk_congr ?_ ?_ ?_ ?_ <;> simp [ph_zero]
  simp only [gphaseG, den]
  rw [this, on1_ph _ _ h, on1_one]

/-- The rule for instructions on good instructions, once for all semantics. -/
theorem rule_ok {c : Cfg} (hc : c.OK) {v : Op → Op → Option (Option Op)}
    (hv : ∀ x y r, Good x → Good y → x.arity = y.arity → v x y = some r → Rep x y (r, 0) ∧ ∀ o, r = some o → o.name = "circuit")
    {n : Nat} {x y : Op × List Nat} {r : Option (Op × List Nat) × ℝ} (hx : okJ n x) (hy : okJ n y)
    (h : rule c.near c.hasDef v x y = some r) :
    (∀ q, q ∈ x.2 ↔ q ∈ y.2) ∧ (∀ z, r.1 = some z → okJ n z ∧ ∀ q, q ∈ z.2 ↔ q ∈ x.2) ∧
    ∀ (Q : Type) [DecidableEq Q] (qs : List Q) (ψ : Amp Q), qs.Nodup → qs.length = n →
      den y.1 (pick qs y.2) (den x.1 (pick qs x.2) ψ) = ph r.2 • (r.1.elim ψ fun z => den z.1 (pick qs z.2) ψ) := by
  obtain ⟨gx, ndx, ltx, lx⟩ := hx
  obtain ⟨gy, ndy, lty, ly⟩ := hy
  unfold rule at h
  split at h
  · cases h
  rename_i hlen
  push Not at hlen
  obtain ⟨is, hr, h⟩ := Option.bind_eq_some_iff.1 h
  obtain ⟨w, hw, rfl⟩ := Option.map_eq_some_iff.1 h
  have har : x.1.arity = y.1.arity := by rw [← lx, ← ly, hlen]
  obtain ⟨r1, r2⟩ := fuseOps_ok hc hv gx gy har hw
  -- the common qubits
  have key : is.Nodup ∧ (∀ q, q ∈ is ↔ q ∈ x.2) ∧ (∀ q, q ∈ x.2 ↔ q ∈ y.2) ∧ is.length = x.1.arity ∧
      ∀ (Q : Type) [DecidableEq Q] (qs : List Q) (ψ : Amp Q), qs.Nodup → qs.length = n →
        den x.1 (pick qs x.2) ψ = den x.1 (pick qs is) ψ ∧ den y.1 (pick qs y.2) ψ = den y.1 (pick qs is) ψ := by
    unfold resolve at hr
    split at hr
    · split at hr
      · rename_i hsym hset
        have hset' : ∀ q, q ∈ x.2 ↔ q ∈ y.2 := fun q => ⟨hset.1 q, hset.2 q⟩
        have ha2 : x.1.arity = 2 := by
          rcases hsym with h | h
          · exact sym_arity gx.2.named h
          · rw [har]; exact sym_arity gy.2.named h
        have lx2 : x.2.length = 2 := by rw [lx, ha2]
        have ly2 : y.2.length = 2 := by rw [← hlen, lx2]
        cases hr
        split
        · rename_i hs
          refine ⟨ndy, fun q => (hset' q).symm, hset', by rw [ly2, ha2], fun Q _ qs ψ hnd hl => ⟨?_, rfl⟩⟩
          exact sym_pick gx.2.named hs.1 hnd ndx lx2 ly2 (by rw [hl]; exact ltx) hset' ψ
        · rename_i hs
          refine ⟨ndx, fun q => Iff.rfl, hset', lx, fun Q _ qs ψ hnd hl => ⟨rfl, ?_⟩⟩
          have hb : y.1.name ∈ symNames := by
            rcases hsym with h | h
            · by_contra hb
              exact hs ⟨h, hb⟩
            · exact h
          exact sym_pick gy.2.named hb hnd ndy ly2 lx2 (by rw [hl]; exact lty) (fun q => (hset' q).symm) ψ
      · cases hr
    · split at hr
      · rename_i he
        cases hr
        exact ⟨ndx, fun q => Iff.rfl, fun q => by rw [he], lx, fun Q _ qs ψ hnd hl => ⟨rfl, by rw [he]⟩⟩
      · cases hr
  obtain ⟨k1, k2, k3, k4, k5⟩ := key
  refine ⟨k3, fun z hz => ?_, fun Q _ qs ψ hnd hl => ?_⟩
  · dsimp only at hz
    obtain ⟨o, ho, rfl⟩ := Option.map_eq_some_iff.1 hz
    obtain ⟨g1, g2⟩ := r1 o ho
    exact ⟨⟨g1, k1, fun i hi => ltx i ((k2 i).1 hi), by rw [k4, g2]⟩, k2⟩
  · have hltis : ∀ i ∈ is, i < qs.length := fun i hi => by rw [hl]; exact ltx i ((k2 i).1 hi)
    rw [(k5 Q qs ψ hnd hl).1, (k5 Q qs _ hnd hl).2, r2 Q (pick qs is) ψ (pick_nodup hnd k1) (by rw [pick_len hltis, k4])]
    congr 1
    cases w.1 <;> rfl

theorem pure_sound {c : Cfg} (hc : c.OK) {v : Op → Op → Option (Option Op)}
    (hv : ∀ x y r, Good x → Good y → x.arity = y.arity → v x y = some r → Rep x y (r, 0) ∧ ∀ o, r = some o → o.name = "circuit")
    {Q : Type} [DecidableEq Q] {qs : List Q} (hnd : qs.Nodup) :
    Sound bSig (pureSem hnd) (okJ qs.length) (rule c.near c.hasDef v) where
  cs := fun _ _ _ _ _ _ => ⟨rfl, rfl⟩
  qs := fun a b r ha hb h _ q hq => ((rule_ok hc hv ha hb h).1 q).1 hq
  fused := fun a b r g ha hb h _ => by
    obtain ⟨h1, h2, h3⟩ := rule_ok hc hv ha hb h
    obtain ⟨g1, g2⟩ := h2 r rfl
    exact ⟨g1, g1.2.1, rfl, g2, fun ψ => h3 Q qs ψ hnd rfl⟩
  cancel := fun a b g ha hb h _ ψ => (rule_ok hc hv ha hb h).2.2 Q qs ψ hnd rfl
  gph := fun a g ha hg ψ => by
    simp only [bSig] at hg
    split at hg
    · rename_i hn
      cases hg
      obtain ⟨o, is⟩ := a
      obtain ⟨t, rfl⟩ := ha.1.2.named.gphase hn
      refine den_gphase t ?_ ψ
      rw [pick_len ha.2.2.1]
      exact ha.2.2.2
    · cases hg

/-! ### The pass combine_single_qubit_gates keeps circuits good -/

theorem flushOne_mem {J : Type} {F : FuseSig J} {isId : M2 → Bool} {l : List (J × M2)} {q : Nat} {j : J}
    (h : j ∈ flushOne F isId l q) : (∃ m, j = F.emit q m) ∨ ∃ x ∈ l, j = x.1 := by
  unfold flushOne at h
  split at h
  · simp at h
  · split at h
    · simp at h
    · rename_i x _
      exact Or.inr ⟨x, by simp, by simpa using h⟩
  · split at h
    · simp at h
    · exact Or.inl ⟨_, by simpa using h⟩

theorem flushL_mem {J : Type} {F : FuseSig J} {isId : M2 → Bool} {P : J → Prop} : ∀ (l : List Nat) (st : Stacks J),
    (∀ q ∈ l, ∀ m, P (F.emit q m)) → (∀ q, ∀ x ∈ st q, P x.1) →
    (∀ j ∈ (flushL F isId l st).1, P j) ∧ ∀ q, ∀ x ∈ (flushL F isId l st).2 q, P x.1
  | [], st, _, h2 => ⟨by simp [flushL], h2⟩
  | q :: r, st, h1, h2 => by
    obtain ⟨a, b⟩ := flushL_mem (isId := isId) r (clear st q) (fun p hp => h1 p (by simp [hp])) (fun p x hx => by
      unfold clear at hx
      split at hx
      · simp at hx
      · exact h2 p x hx)
    refine ⟨fun j hj => ?_, b⟩
    simp only [flushL, List.mem_append] at hj
    rcases hj with hj | hj
    · rcases flushOne_mem hj with ⟨m, rfl⟩ | ⟨x, hx, rfl⟩
      · exact h1 q (by simp) m
      · exact h2 q x hx
    · exact a j hj

theorem fuseGo_mem {J : Type} {F : FuseSig J} {isId : M2 → Bool} {n : Nat} {P : J → Prop} (hP : ∀ q < n, ∀ m, P (F.emit q m)) :
    ∀ (data : List J) (st : Stacks J), (∀ j ∈ data, P j ∧ ∀ q ∈ F.qubits j, q < n) → (∀ q, ∀ x ∈ st q, P x.1) →
    ∀ j ∈ fuseGo F isId n data st, P j
  | [], st, _, h2 => (flushL_mem _ _ (fun q hq => hP q (List.mem_range.1 hq)) h2).1
  | j :: r, st, h1, h2 => by
    intro k hk
    simp only [fuseGo] at hk
    split at hk
    · rename_i q m _
      refine fuseGo_mem hP r _ (fun j hj => h1 j (by simp [hj])) (fun p x hx => ?_) k hk
      split at hx
      · rcases List.mem_cons.1 hx with rfl | hx
        · exact (h1 j (by simp)).1
        · exact h2 p x hx
      · exact h2 p x hx
    · obtain ⟨a, b⟩ := flushL_mem (isId := isId) (F.qubits j) st (fun q hq => hP q ((h1 j (by simp)).2 q hq)) h2
      simp only [List.mem_append, List.mem_cons] at hk
      rcases hk with hk | rfl | hk
      · exact a k hk
      · exact (h1 k (by simp)).1
      · exact fuseGo_mem hP r _ (fun j hj => h1 j (by simp [hj])) b k hk

theorem okJ_unitary {n q : Nat} (hq : q < n) (m : M2) : okJ n (unitaryG m, [q]) := by
  refine ⟨⟨by simp [unitaryG, Op.WF], ?_⟩, by simp, by simpa using hq, rfl⟩
  simp only [unitaryG, Op.Std]
  exact named_of (by simp [Op.name, special])

theorem fuse_good {isId : M2 → Bool} {n : Nat} {b : List (Op × List Nat)} (h : GoodBody n b) : GoodBody n (fuse opSig isId n b) := by
  rw [goodBody_iff] at h ⊢
  exact fuseGo_mem (P := okJ n) (fun q hq m => okJ_unitary hq m) b _ (fun j hj => ⟨h j hj, (h j hj).2.2.1⟩) (by simp)

theorem named_transfer {o o' : Op} (hN : Named o) (hn : o'.name = o.name) (ha : o'.arity = o.arity)
    (hd : ∀ (Q : Type) [DecidableEq Q] (qs : List Q) (ψ : Amp Q), qs.Nodup → qs.length = o.arity → den o' qs ψ = den o qs ψ)
    (hs : (∃ φ lam, o = cpO φ lam) ∨ (∃ nm θ φ lam g, o = .u3 nm θ φ lam g) → o' = o) : Named o' := by
  have hm : ∀ t, Means o t → Means o' t := fun t h => ⟨ha.trans h.1, fun Q _ qs ψ h1 h2 =>
    (hd Q qs ψ h1 (h2.trans h.1.symm)).trans (h.2 Q qs ψ h1 h2)⟩
  refine ⟨fun h => hm _ (hN.cx (hn ▸ h)), fun h => hm _ (hN.cz (hn ▸ h)), fun h => hm _ (hN.swap (hn ▸ h)), fun h => ?_,
    fun h => ?_, fun h => ?_, fun h => ?_, fun h => ?_, fun h => ?_, fun h => ?_⟩ <;> rw [hn] at h
  · obtain ⟨t, ht⟩ := hN.rzz h; exact ⟨t, hm _ ht⟩
  · obtain ⟨φ, lam, e⟩ := hN.cp h; exact ⟨φ, lam, (hs (Or.inl ⟨_, _, e⟩)).trans e⟩
  · obtain ⟨φ, lam, e⟩ := hN.rz h; exact ⟨φ, lam, (hs (Or.inr ⟨_, _, _, _, _, e⟩)).trans e⟩
  · obtain ⟨φ, lam, e⟩ := hN.p h; exact ⟨φ, lam, (hs (Or.inr ⟨_, _, _, _, _, e⟩)).trans e⟩
  · obtain ⟨t, e⟩ := hN.rx h; exact ⟨t, (hs (Or.inr ⟨_, _, _, _, _, e⟩)).trans e⟩
  · obtain ⟨t, e⟩ := hN.ry h; exact ⟨t, (hs (Or.inr ⟨_, _, _, _, _, e⟩)).trans e⟩
  · obtain ⟨t, e⟩ := hN.gphase h; exact ⟨t, (hs (Or.inr ⟨_, _, _, _, _, e⟩)).trans e⟩

theorem good_swapGate : Good (.gate "swap" 2 swapDef) := by
  refine ⟨by simp [swapDef, Op.WF, WFBody, cxG, Op.arity], ?_⟩
  simp only [Op.Std]
  refine ⟨named_transfer named_swap rfl rfl (fun Q _ qs ψ hnd hl => ?_) ?_, by decide, by simp only [swapDef, StdBody, std_cx, and_self]⟩
  · obtain ⟨a, b, hab, rfl⟩ := two hnd hl
    have := swap_id hab ψ
    rw [← this]
    simp only [den, swapDef, denBody, runU]
    rfl
  · rintro (⟨φ, lam, e⟩ | ⟨nm, θ, φ, lam, g, e⟩)
    · simp [cpO] at e
    · simp at e

/-- The new base operation of a controlled operation. -/
theorem asBase_good {o b : Op} (ho : Good o) (hb : Good b) (hn : o.name = b.name) (ha : o.arity = b.arity) :
    Good (asBase o b) ∧ (asBase o b).name = b.name ∧ (asBase o b).arity = b.arity := by
  cases o with
  | gate nm n body =>
    simp only [asBase]
    obtain ⟨h1, h2⟩ := ho
    simp only [Op.WF, Op.Std] at h1 h2
    refine ⟨⟨?_, ?_⟩, hn, ha⟩
    · simp only [Op.WF]
      exact wfBody_iff.2 fun j hj => wfBody_iff.1 h1 j (dropAlloc_mem hj)
    · simp only [Op.Std]
      refine ⟨named_transfer h2.1 rfl rfl (fun Q _ qs ψ _ _ => by simp only [den, denBody_dropAlloc]) ?_, h2.2.1,
        stdBody_iff.2 fun j hj => stdBody_iff.1 h2.2.2 j (dropAlloc_mem hj)⟩
      rintro (⟨φ, lam, e⟩ | ⟨nm, θ, φ, lam, g, e⟩)
      · simp [cpO] at e
      · simp at e
  | swap => exact ⟨good_swapGate, hn, ha⟩
  | u3 => exact ⟨hb, rfl, rfl⟩
  | pauli => exact ⟨hb, rfl, rfl⟩
  | alloc => exact ⟨hb, rfl, rfl⟩
  | dealloc => exact ⟨hb, rfl, rfl⟩
  | barrier => exact ⟨hb, rfl, rfl⟩
  | ctrl => exact ⟨hb, rfl, rfl⟩
  | pt => exact ⟨hb, rfl, rfl⟩

mutual
theorem combineOp_good {isId : M2 → Bool} (hid : ∀ m, isId m = true → m = 1) : ∀ o : Op, Good o →
    Good (combineOp isId o) ∧ (combineOp isId o).name = o.name ∧ (combineOp isId o).arity = o.arity
  | .gate nm n body, h => by
    have hw := h.1
    have hs := h.2
    have hsnd : ∀ (Q : Type) [DecidableEq Q] (qs : List Q) (ψ : Amp Q), qs.Nodup → qs.length = n →
        den (combineOp isId (.gate nm n body)) qs ψ = den (.gate nm n body) qs ψ :=
      fun Q _ qs ψ hnd hl => combineOp_sound hid _ hw qs ψ hnd hl
    simp only [Op.WF, Op.Std] at hw hs
    simp only [combineOp] at hsnd ⊢
    obtain ⟨g1, g2⟩ := fuse_good (isId := isId) (combineMap_good hid n body ⟨hw, hs.2.2⟩)
    refine ⟨⟨by simpa only [Op.WF] using g1, ?_⟩, rfl, rfl⟩
    simp only [Op.Std]
    refine ⟨named_transfer hs.1 rfl rfl hsnd ?_, hs.2.1, g2⟩
    rintro (⟨φ, lam, e⟩ | ⟨nm, θ, φ, lam, g, e⟩)
    · simp [cpO] at e
    · simp at e
  | .pt b st body, h => by
    have hw := h.1
    have hs := h.2
    have hsnd : ∀ (Q : Type) [DecidableEq Q] (qs : List Q) (ψ : Amp Q), qs.Nodup → qs.length = (Op.pt b st body).arity →
        den (combineOp isId (.pt b st body)) qs ψ = den (.pt b st body) qs ψ :=
      fun Q _ qs ψ hnd hl => combineOp_sound hid _ hw qs ψ hnd hl
    simp only [Op.WF, Op.Std] at hw hs
    simp only [combineOp] at hsnd ⊢
    obtain ⟨g1, g2⟩ := fuse_good (isId := isId) (combineMap_good hid _ body ⟨hw.2, hs.2.2⟩)
    refine ⟨⟨by simp only [Op.WF]; exact ⟨hw.1, g1⟩, ?_⟩, rfl, rfl⟩
    simp only [Op.Std]
    refine ⟨named_transfer hs.1 rfl rfl hsnd ?_, hs.2.1, g2⟩
    rintro (⟨φ, lam, e⟩ | ⟨nm, θ, φ, lam, g, e⟩)
    · simp [cpO] at e
    · simp at e
  | .ctrl b st, h => by
    have hw := h.1
    have hs := h.2
    have hsnd : ∀ (Q : Type) [DecidableEq Q] (qs : List Q) (ψ : Amp Q), qs.Nodup → qs.length = (Op.ctrl b st).arity →
        den (combineOp isId (.ctrl b st)) qs ψ = den (.ctrl b st) qs ψ :=
      fun Q _ qs ψ hnd hl => combineOp_sound hid _ hw qs ψ hnd hl
    simp only [Op.WF, Op.Std] at hw hs
    simp only [combineOp] at hsnd ⊢
    obtain ⟨g1, g2, g3⟩ := combineOp_good hid b ⟨hw, hs.2⟩
    obtain ⟨k1, k2, k3⟩ := asBase_good g1 ⟨hw, hs.2⟩ g2 g3
    refine ⟨⟨by simp only [Op.WF]; exact k1.1, ?_⟩, by simp only [Op.name, k2], by simp only [Op.arity, k3]⟩
    simp only [Op.Std]
    refine ⟨named_transfer hs.1 (by simp only [Op.name, k2]) (by simp only [Op.arity, k3]) hsnd ?_, k1.2⟩
    rintro (⟨φ, lam, e⟩ | ⟨nm, θ, φ, lam, g, e⟩)
    · simp only [cpO, Op.ctrl.injEq] at e
      obtain ⟨rfl, rfl⟩ := e
      simp only [combineOp, asBase]
    · simp at e
  | .u3 .., h => ⟨by simpa only [combineOp] using h, by simp only [combineOp], by simp only [combineOp]⟩
  | .pauli _, h => ⟨by simpa only [combineOp] using h, by simp only [combineOp], by simp only [combineOp]⟩
  | .alloc, h => ⟨by simpa only [combineOp] using h, by simp only [combineOp], by simp only [combineOp]⟩
  | .dealloc, h => ⟨by simpa only [combineOp] using h, by simp only [combineOp], by simp only [combineOp]⟩
  | .barrier _, h => ⟨by simpa only [combineOp] using h, by simp only [combineOp], by simp only [combineOp]⟩
  | .swap, h => ⟨by simpa only [combineOp] using h, by simp only [combineOp], by simp only [combineOp]⟩
theorem combineMap_good {isId : M2 → Bool} (hid : ∀ m, isId m = true → m = 1) (n : Nat) : ∀ body : List (Op × List Nat),
    GoodBody n body → GoodBody n (combineMap isId body)
  | [], _ => by simp [combineMap, GoodBody, WFBody, StdBody]
  | (o, is) :: r, h => by
    obtain ⟨h1, h2⟩ := h
    simp only [WFBody, StdBody] at h1 h2
    obtain ⟨w1, w2, w3, w4, w5⟩ := h1
    obtain ⟨g1, g2, g3⟩ := combineOp_good hid o ⟨w1, h2.1⟩
    obtain ⟨r1, r2⟩ := combineMap_good hid n r ⟨w5, h2.2⟩
    simp only [combineMap, GoodBody, WFBody, StdBody]
    exact ⟨⟨g1.1, w2, w3, by rw [w4, g3], r1⟩, g1.2, r2⟩
end

/-! ### The pass -/

/-- The specification of `_fuse_via_transpile`. -/
def ViaOK (v : Op → Op → Option (Option Op)) : Prop :=
  ∀ x y r, Good x → Good y → x.arity = y.arity → v x y = some r → Rep x y (r, 0) ∧ ∀ o, r = some o → o.name = "circuit"

theorem passWith_ok {c : Cfg} (hc : c.OK) {v : Op → Op → Option (Option Op)} (hv : ViaOK v) {n : Nat} (hn : n ≠ 0)
    {qc : List (Op × List Nat)} (hq : GoodBody n qc) :
    ∃ out, passWith c v qc = some out ∧ GoodBody n out ∧
      ∀ (Q : Type) [DecidableEq Q] (qs : List Q) (ψ : Amp Q), qs.Nodup → qs.length = n → denBody out qs ψ = denBody qc qs ψ := by
  rw [goodBody_iff] at hq
  have hmk : ∀ {Q : Type} [DecidableEq Q] {qs : List Q} (hnd : qs.Nodup), qs.length = n → ∀ t ψ,
      (pureSem hnd).act (mkG t) ψ = (pureSem hnd).ph t ψ := by
    intro Q _ qs hnd hl t ψ
    refine den_gphase t ?_ ψ
    rw [pick_len (by
      intro i hi
      simp only [mkG, List.mem_singleton] at hi
      omega)]
    rfl
  have run : ∀ {Q : Type} [DecidableEq Q] {qs : List Q} (hnd : qs.Nodup), qs.length = n →
      ∃ s, fuseLoop bSig (rule c.near c.hasDef v) 0 qc Fuse.init = some s ∧ Fuse.Inv bSig (okJ n) qc.length s ∧
        ∀ ord, Topo s ord → ∀ ψ, denBody (emitG bSig mkG s ord) qs ψ = denBody qc qs ψ := by
    intro Q _ qs hnd hl
    have hs := pure_sound hc hv hnd
    rw [hl] at hs
    obtain ⟨s, e, i, m⟩ := Fuse.fuse_sound (pureSem hnd) hs mkG (hmk hnd hl) qc
      (fun x hx => ⟨(hq x hx).2.1, List.nodup_nil, hq x hx⟩)
    exact ⟨s, e, i, fun ord ho ψ => by rw [← runS_den hnd, ← runS_den hnd]; exact m ord ho ψ⟩
  obtain ⟨s, e, i, _⟩ := run (List.nodup_range (n := n)) (by simp)
  have ht := hc.topo s ⟨_, Fuse.topo_alive i⟩
  refine ⟨emitG bSig mkG s (c.topo s), by simp only [passWith, e, Option.map_some], ?_, fun Q _ qs ψ hnd hl => ?_⟩
  · rw [goodBody_iff]
    intro x hx
    rcases Fuse.emit_fit i ht mkG x hx with h | ⟨t, rfl⟩
    · exact h.2
    · exact ⟨⟨by simp [mkG, gphaseG, Op.WF], std_gphase t⟩, by simp [mkG], by simp only [mkG, List.mem_singleton, forall_eq]; omega, rfl⟩
  · obtain ⟨s', e', _, m⟩ := run hnd hl
    rw [e] at e'
    injection e' with e'
    subst e'
    exact m _ ht ψ

theorem via_ok {c : Cfg} (hc : c.OK) : ∀ k, ViaOK (via c k)
  | 0 => fun x y r _ _ _ h => by simp [via] at h
  | k + 1 => by
    intro a b r ha hb hab h
    have ih := via_ok hc k
    have hn := ha.2.arity
    have hg : GoodBody a.arity [(a, List.range a.arity), (b, List.range a.arity)] := by
      rw [goodBody_iff]
      intro j hj
      simp only [List.mem_cons, List.not_mem_nil, or_false] at hj
      rcases hj with rfl | rfl
      · exact ⟨ha, List.nodup_range, fun i hi => List.mem_range.1 hi, by simp⟩
      · exact ⟨hb, List.nodup_range, fun i hi => List.mem_range.1 hi, by simp [hab]⟩
    have hT := hc.good _ _ hn hg
    obtain ⟨qc1, e1, g1, d1⟩ := passWith_ok hc ih hn hT
    have g2 := combineMap_good hc.isId _ _ g1
    have g3 := fuse_good (isId := c.isId) g2
    have hden : ∀ (Q : Type) [DecidableEq Q] (qs : List Q) (ψ : Amp Q), qs.Nodup → qs.length = a.arity →
        denBody (fuse opSig c.isId a.arity (combineMap c.isId qc1)) qs ψ = den b qs (den a qs ψ) := by
      intro Q _ qs ψ hnd hl
      have h1 := fuse_sound (opSig_sem a.arity hnd) hc.isId (combineMap c.isId qc1) (combineMap_lt qc1 g1.1)
        (fun j hj q m h => combineMap_lt qc1 g1.1 j hj q (opSig_single_mem j q m h)) ψ
      rw [← denBody_runJ, ← denBody_runJ] at h1
      rw [h1, combineMap_sound hc.isId _ qc1 g1.1 qs ψ hnd hl, d1 Q qs ψ hnd hl, hc.den _ _ hn hg Q qs ψ hnd hl]
      simp only [denBody]
      rw [← hl, pick_range]
    simp only [via, e1, Option.bind_some] at h
    split at h
    · cases h
    split at h
    · rename_i hnil
      cases h
      refine ⟨⟨fun o ho => (by cases ho), fun Q _ qs ψ hnd hl => ?_⟩, fun o ho => (by cases ho)⟩
      rw [← hden Q qs ψ hnd hl, hnil, ph_zero, one_smul]
      simp only [denBody, denO]
    · cases h
      refine ⟨⟨fun o ho => ?_, fun Q _ qs ψ hnd hl => ?_⟩, fun o ho => ?_⟩
      · cases ho
        exact ⟨good_toGate hn g3.1 g3.2, rfl⟩
      · rw [← hden Q qs ψ hnd hl, ph_zero, one_smul]
        simp only [denO, den_toGate]
      · cases ho
        rfl

/-- The pass preserves the operator exactly, including the global phase, and keeps circuits good. -/
theorem fusePass_ok {c : Cfg} (hc : c.OK) (k : Nat) {n : Nat} (hn : n ≠ 0) {qc : List (Op × List Nat)} (hq : GoodBody n qc) :
    ∃ out, fusePass c k qc = some out ∧ GoodBody n out ∧
      ∀ (Q : Type) [DecidableEq Q] (qs : List Q) (ψ : Amp Q), qs.Nodup → qs.length = n → denBody out qs ψ = denBody qc qs ψ :=
  passWith_ok hc (via_ok hc k) hn hq

/-! ### Circuits with measurements and classical bits -/

variable {Q C K : Type} [DecidableEq Q] [DecidableEq C]

/-- The same signature for instructions with classical bits. -/
noncomputable def cSig (K : Type) : Sig (COp K × List Nat × List Nat) where
  qs j := j.2.1
  cs j := j.2.2
  gph j := match j.1 with
    | .uni o => if o.name = "gphase" then some o.gp else none
    | _ => none

/-- fuse_adjacents.py:572-604 `_fuse_instructions`: operations that are not unitary (measurements, resets, classically
controlled operations, line 592) are not fused. Composite operations containing such, operations with unbound parameters
and `GidneyLogicalAND` are left alone here, whereas the code may fuse them. -/
noncomputable def crule (c : Cfg) (v : Op → Op → Option (Option Op)) : Fuse.Rule (COp K × List Nat × List Nat)
  | (.uni a, qa, _), (.uni b, qb, _) =>
    (rule c.near c.hasDef v (a, qa) (b, qb)).map fun r => (r.1.map fun z => (.uni z.1, z.2, []), r.2)
  | _, _ => none

/-- fuse_adjacents.py:727. -/
noncomputable def mkC (t : ℝ) : COp K × List Nat × List Nat := (.uni (gphaseG t), [0], [])

/-- fuse_adjacents.py:738-915 `fuse_adjacents`: the graph. -/
noncomputable def fuseCirc (c : Cfg) (k : Nat) (data : List (COp K × List Nat × List Nat)) :
    Option (DSt (COp K × List Nat × List Nat)) := fuseLoop (cSig K) (crule c (via c k)) 0 data Fuse.init

/-- Good instructions: distinct bits, and unitary operations as above, without classical bits. -/
def okC (n : Nat) (j : COp K × List Nat × List Nat) : Prop := match j.1 with
  | .uni o => okJ n (o, j.2.1) ∧ j.2.2 = []
  | _ => True

theorem lift_phase (g : ℝ) {S : Set Q} {T : Amp Q → Amp Q} (hT : Loc S T) (Ψ : Amp (Wire Q C)) : lift (fun ψ => ph g • T ψ) Ψ = lift T Ψ := by
  have hc : (starRingEnd ℂ) (ph g) * ph g = 1 := by
    have : (starRingEnd ℂ) (ph g) = ph (-g) := by
      unfold ph
      rw [← Complex.exp_conj]
      simp
    rw [this, ph_neg]
  funext b
  simp only [lift, rowLift, colLift, Pi.smul_apply, smul_eq_mul, map_mul]
  have : (fun r => (starRingEnd ℂ) (ph g) * (starRingEnd ℂ) (T (fun r_1 => (starRingEnd ℂ) (Ψ (setCol (setRow b r) r_1))) (colOf (setRow b r))))
      = (starRingEnd ℂ) (ph g) • fun r => (starRingEnd ℂ) (T (fun r_1 => (starRingEnd ℂ) (Ψ (setCol (setRow b r) r_1))) (colOf (setRow b r))) := rfl
  rw [this, hT.smul, Pi.smul_apply, smul_eq_mul, ← mul_assoc, mul_comm (ph g), hc, one_mul]

/-- Instructions act on density operators. -/
noncomputable def chanSem (I : Interp Q C K) {qs : List Q} {cs : List C} (hq : qs.Nodup) (hc : cs.Nodup) :
    Sem (cSig K) (Amp (Wire Q C)) where
  act j Ψ := cden I j.1 (pick qs j.2.1) (pick cs j.2.2) Ψ
  ph _ Ψ := Ψ
  comm a b h h' Ψ := (cden_comm I a.1 b.1 (pick_far hq h) (pick_far hc h') Ψ).symm
  ph_zero _ := rfl
  ph_add _ _ _ := rfl
  ph_act _ _ _ := rfl

theorem runS_cden (I : Interp Q C K) {qs : List Q} {cs : List C} (hq : qs.Nodup) (hc : cs.Nodup)
    (b : List (COp K × List Nat × List Nat)) (Ψ : Amp (Wire Q C)) :
    runS (chanSem I hq hc).act b Ψ = cdenBody I b qs cs Ψ := by
  induction b generalizing Ψ with
  | nil => rfl
  | cons x r ih => exact ih _

theorem chan_sound {c : Cfg} (hc : c.OK) {v : Op → Op → Option (Option Op)} (hv : ViaOK v) (I : Interp Q C K) {qs : List Q}
    {cs : List C} (hq : qs.Nodup) (hcs : cs.Nodup) :
    Sound (cSig K) (chanSem I hq hcs) (okC qs.length) (crule c v) := by
  have unfoldRule : ∀ a b r, crule c v a b = some r → ∃ x qx cx y qy cy w, a = (.uni x, qx, cx) ∧ b = (.uni y, qy, cy) ∧
      rule c.near c.hasDef v (x, qx) (y, qy) = some w ∧ r = (w.1.map fun z => ((COp.uni z.1 : COp K), z.2, ([] : List Nat)), w.2) := by
    intro a b r h
    unfold crule at h
    split at h
    · obtain ⟨w, hw, rfl⟩ := Option.map_eq_some_iff.1 h
      exact ⟨_, _, _, _, _, _, w, rfl, rfl, hw, rfl⟩
    · cases h
  have act2 : ∀ (x y : Op) (qx qy : List Nat) (Ψ : Amp (Wire Q C)), lift (den y (pick qs qy)) (lift (den x (pick qs qx)) Ψ)
      = lift (fun ψ => den y (pick qs qy) (den x (pick qs qx) ψ)) Ψ := fun x y qx qy Ψ =>
    lift_comp (S := supp qs) ((den_loc _ _).mono (pick_subset qs qy)) ((den_loc _ _).mono (pick_subset qs qx)) Ψ
  refine ⟨?_, ?_, ?_, ?_, ?_⟩
  · intro a b r ha hb h
    obtain ⟨x, qx, cx, y, qy, cy, w, rfl, rfl, hw, rfl⟩ := unfoldRule a b r h
    exact ⟨ha.2, hb.2⟩
  · intro a b r ha hb h _ q hq
    obtain ⟨x, qx, cx, y, qy, cy, w, rfl, rfl, hw, rfl⟩ := unfoldRule a b r h
    exact ((rule_ok hc hv ha.1 hb.1 hw).1 q).1 hq
  · intro a b r g ha hb h _
    obtain ⟨x, qx, cx, y, qy, cy, w, rfl, rfl, hw, e⟩ := unfoldRule a b _ h
    obtain ⟨h1, h2, h3⟩ := rule_ok hc hv ha.1 hb.1 hw
    injection e with e1 e2
    obtain ⟨z, hz, rfl⟩ := Option.map_eq_some_iff.1 e1.symm
    obtain ⟨g1, g2⟩ := h2 z hz
    refine ⟨⟨g1, rfl⟩, g1.2.1, rfl, g2, fun Ψ => ?_⟩
    show cden I _ _ _ (cden I _ _ _ Ψ) = cden I _ _ _ Ψ
    simp only [cden]
    rw [act2]
    rw [lift_congr (U := fun ψ => ph w.2 • den z.1 (pick qs z.2) ψ) (fun ψ => by rw [h3 Q qs ψ hq rfl, hz]; rfl) Ψ,
      lift_phase _ (den_loc _ _)]
  · intro a b g ha hb h _ Ψ
    obtain ⟨x, qx, cx, y, qy, cy, w, rfl, rfl, hw, e⟩ := unfoldRule a b _ h
    obtain ⟨h1, h2, h3⟩ := rule_ok hc hv ha.1 hb.1 hw
    injection e with e1 e2
    have hz : w.1 = none := Option.map_eq_none_iff.1 e1.symm
    show cden I _ _ _ (cden I _ _ _ Ψ) = Ψ
    simp only [cden]
    rw [act2]
    rw [lift_congr (U := fun ψ => ph w.2 • ψ) (fun ψ => by rw [h3 Q qs ψ hq rfl, hz]; rfl) Ψ]
    exact (lift_phase w.2 (Loc.id ∅) Ψ).trans (lift_id Ψ)
  · intro a g ha hg Ψ
    obtain ⟨o, is, js⟩ := a
    cases o with
    | uni o =>
      simp only [cSig] at hg
      split at hg
      · rename_i hn
        obtain ⟨t, rfl⟩ := ha.1.1.2.named.gphase hn
        show cden I _ _ _ Ψ = Ψ
        simp only [cden]
        have hl : (pick qs is).length = 1 := by
          rw [pick_len ha.1.2.2.1]
          exact ha.1.2.2.2
        rw [lift_congr (fun ψ => den_gphase t hl ψ) Ψ]
        exact (lift_phase t (Loc.id ∅) Ψ).trans (lift_id Ψ)
      · cases hg
    | prim => simp [cSig] at hg
    | comp => simp [cSig] at hg

/-- The pass preserves the effect of a circuit with measurements, for every topological order. -/
theorem fuseCirc_ok {c : Cfg} (hc : c.OK) (k : Nat) (I : Interp Q C K) {qs : List Q} {cs : List C} (hq : qs.Nodup)
    (hcs : cs.Nodup) (hn : qs.length ≠ 0) {data : List (COp K × List Nat × List Nat)}
    (hd : ∀ j ∈ data, j.2.1.Nodup ∧ j.2.2.Nodup ∧ okC qs.length j) :
    ∃ s, fuseCirc c k data = some s ∧ (∃ ord, Topo s ord) ∧ ∀ ord, Topo s ord → ∀ Ψ,
      cdenBody I (emitG (cSig K) mkC s ord) qs cs Ψ = cdenBody I data qs cs Ψ := by
  obtain ⟨s, e, i, m⟩ := Fuse.fuse_sound (chanSem I hq hcs) (chan_sound hc (via_ok hc k) I hq hcs) mkC (fun t Ψ => by
    show cden I _ _ _ Ψ = Ψ
    simp only [mkC, cden]
    have hl : (pick qs [0]).length = 1 := by
      rw [pick_len (by
        intro i hi
        simp only [List.mem_singleton] at hi
        omega)]
      rfl
    rw [lift_congr (fun ψ => den_gphase t hl ψ) Ψ]
    exact (lift_phase t (Loc.id ∅) Ψ).trans (lift_id Ψ)) data hd
  refine ⟨s, e, ⟨_, Fuse.topo_alive i⟩, fun ord ho Ψ => ?_⟩
  rw [← runS_cden I hq hcs, ← runS_cden I hq hcs]
  exact m ord ho Ψ

end Verif.Circ
