import Verif.Comp.UnqompMain
import Mathlib.Tactic.FinCases

/-!
Property theorems C125: automatic uncomputation.

`matRun` gives the state after a circuit. `cleaned U init F` is the specification: the state in which the qubits `U`
have the values `init` and whose other amplitudes are those of `F`, summed over the values of `U`.
-/

namespace Verif.Props

open Verif.Comp

variable {L : Type} {n : Nat} {P : UPar L}

/-! ### C125 -/

/-- Full statement: the circuit returned for the qubits `U` returns them to their initial values and otherwise has
the effect of the original circuit. It is false, see `C125_mixed`. -/
def C125_full : Prop :=
  ∀ (L : Type) (n : Nat) (P : UPar L) (mat : L → Op n) (srt : Nat → List Edge → Option (List Nat)) (U : List Nat)
    (data out : List (Instr L)), (∀ N E ord, srt N E = some ord → TopoOrder N E ord) →
    (∀ v l a, a ∈ l → a ∈ P.aord v l) → (∀ i ∈ data, InsOK i) → AllocFirst data → Gates mat mat P U data →
    attempt P srt U data = .ok out → ∀ (init : BS n) (ψ : BS n → ℂ),
    (∀ s, ψ s ≠ 0 → ∀ q : Fin n, q.val ∈ U → s q = init q) →
    matRun mat out ψ = cleaned (fun q => q.val ∈ U) init (matRun mat data ψ)

/-- Missing for `C125_full`: no edge of the graph may carry two types. Then, if `uncompute_qc` returns a circuit, its
effect on every state in which the qubits `U` have definite values is that of the original circuit with the
qubits `U` returned to these values. The uncomputed gates may be replaced by phase tolerant ones; `plain` are the
gates without the phases. -/
theorem C125_uncomputed_partial {mat plain : L → Op n} {U : List Nat} {data out : List (Instr L)}
    {srt : Nat → List Edge → Option (List Nat)}
    (hs : ∀ N E ord, srt N E = some ord → TopoOrder N E ord) (hA : ∀ v l a, a ∈ l → a ∈ P.aord v l)
    (ho : ∀ i ∈ data, InsOK i) (hx : ∀ d, dagOf (middle U data) = some d → NoMix d) (ha : AllocFirst data)
    (hg : Gates mat plain P U data) (h : attempt P srt U data = .ok out) (init : BS n) (ψ : BS n → ℂ)
    (hψ : ∀ s, ψ s ≠ 0 → ∀ q : Fin n, q.val ∈ U → s q = init q) :
    matRun mat out ψ = cleaned (fun q => q.val ∈ U) init (matRun plain data ψ) :=
  attempt_run hs hA ho hx ha hg h init ψ hψ

/-- The qubits have their initial values at the end. -/
theorem C125_clean_partial {mat plain : L → Op n} {U : List Nat} {data out : List (Instr L)}
    {srt : Nat → List Edge → Option (List Nat)}
    (hs : ∀ N E ord, srt N E = some ord → TopoOrder N E ord) (hA : ∀ v l a, a ∈ l → a ∈ P.aord v l)
    (ho : ∀ i ∈ data, InsOK i) (hx : ∀ d, dagOf (middle U data) = some d → NoMix d) (ha : AllocFirst data)
    (hg : Gates mat plain P U data) (h : attempt P srt U data = .ok out) (init : BS n) (ψ : BS n → ℂ)
    (hψ : ∀ s, ψ s ≠ 0 → ∀ q : Fin n, q.val ∈ U → s q = init q) (b : BS n) (hb : matRun mat out ψ b ≠ 0) (q : Fin n)
    (hq : q.val ∈ U) : b q = init q := by
  rw [attempt_run hs hA ho hx ha hg h init ψ hψ] at hb
  unfold cleaned at hb
  by_cases hc : ∀ q : Fin n, q.val ∈ U → b q = init q
  · exact hc q hq
  · rw [if_neg hc] at hb
    exact absurd rfl hb

/-- If the original circuit computes a function `f` of the other qubits into `U`, the amplitudes of the other qubits
are kept. -/
theorem C125_function_partial {mat plain : L → Op n} {U : List Nat} {data out : List (Instr L)}
    {srt : Nat → List Edge → Option (List Nat)}
    (hs : ∀ N E ord, srt N E = some ord → TopoOrder N E ord) (hA : ∀ v l a, a ∈ l → a ∈ P.aord v l)
    (ho : ∀ i ∈ data, InsOK i) (hx : ∀ d, dagOf (middle U data) = some d → NoMix d) (ha : AllocFirst data)
    (hg : Gates mat plain P U data) (h : attempt P srt U data = .ok out) (init : BS n) (ψ : BS n → ℂ)
    (hψ : ∀ s, ψ s ≠ 0 → ∀ q : Fin n, q.val ∈ U → s q = init q) (f : BS n → BS n)
    (hf : ∀ b c, (∀ q : Fin n, q.val ∉ U → b q = c q) → f b = f c)
    (hF : ∀ c, matRun plain data ψ c ≠ 0 → ∀ q : Fin n, q.val ∈ U → c q = f c q) (b : BS n)
    (hb : ∀ q : Fin n, q.val ∈ U → b q = init q) :
    matRun mat out ψ b = matRun plain data ψ (fun q => if q.val ∈ U then f b q else b q) := by
  rw [attempt_run hs hA ho hx ha hg h init ψ hψ]
  unfold cleaned
  rw [if_pos hb]
  refine Finset.sum_eq_single (fun q : Fin n => if q.val ∈ U then f b q else b q) ?_ ?_
  · intro c hc hne
    replace hc : ∀ q : Fin n, q.val ∉ U → c q = b q := by simpa using hc
    by_contra h0
    refine hne ?_
    have e : f c = f b := hf c b hc
    funext q
    by_cases hq : q.val ∈ U
    · rw [if_pos hq, hF c h0 q hq, e]
    · rw [if_neg hq, hc q hq]
  · intro hc
    refine absurd ?_ hc
    simp +contextual

/-- Repeated attempts only add qubits that are not allocated; the returned circuit is that of one attempt. -/
theorem C125_attempts {U : List Nat} {data out : List (Instr L)} {srt : Nat → List Edge → Option (List Nat)} {fuel : Nat}
    (h : uncomputeQc P srt fuel U data = some out) :
    ∃ V, (∀ q ∈ V, P.allocated q = false) ∧ attempt P srt (U ++ V) data = .ok out := uncomputeQc_attempt h

/-! ### Controlled not gates as an example -/

/-- Labels: control and target. -/
abbrev CX := Nat × Nat

def cx (c t : Nat) : Instr CX := ⟨.gate, (c, t), [c, t], [.z, .x], []⟩

def al (q : Nat) : Instr CX := ⟨.alloc, (0, 0), [q], [.neutral], []⟩

def de (q : Nat) : Instr CX := ⟨.dealloc, (0, 0), [q], [.neutral], []⟩

/-- `aord` in the order of the list or reversed. -/
def cxPar (r : Bool) : UPar CX :=
  ⟨id, id, (0, 0), fun _ => true, fun _ => true, fun _ l => if r then l.dedup.reverse else l.dedup⟩

/-- The value of a qubit. -/
def bitOf {n : Nat} (b : BS n) (k : Nat) : Bool := if h : k < n then b ⟨k, h⟩ else false

/-- The action on basis states. -/
def cxMap {n : Nat} (l : CX) (b : BS n) : BS n :=
  fun q => if q.val = l.2 ∧ l.1 ≠ l.2 then (b q ^^ bitOf b l.1) else b q

theorem bitOf_flip {n : Nat} (b : BS n) {k : Nat} {q : Fin n} (h : q.val ≠ k) : bitOf (flipAt q b) k = bitOf b k := by
  unfold bitOf
  by_cases h1 : k < n
  · rw [dif_pos h1, dif_pos h1]
    exact flip_other (fun e => h (by rw [← e])) b
  · rw [dif_neg h1, dif_neg h1]

theorem bitOf_cxMap {n : Nat} (l : CX) (b : BS n) : l.1 ≠ l.2 → bitOf (cxMap l b) l.1 = bitOf b l.1 := by
  intro hl
  unfold bitOf
  by_cases h1 : l.1 < n
  · rw [dif_pos h1, dif_pos h1]
    exact if_neg (fun hc => hl hc.1)
  · rw [dif_neg h1, dif_neg h1]

/-- The matrix of a map of basis states. -/
def permMat {n : Nat} (f : BS n → BS n) : Op n := fun c b => if c = f b then 1 else 0

def cxMat {n : Nat} (l : CX) : Op n := permMat (cxMap l)

theorem cxMap_cxMap {n : Nat} (l : CX) (b : BS n) : cxMap l (cxMap l b) = b := by
  funext q
  unfold cxMap
  by_cases h : q.val = l.2 ∧ l.1 ≠ l.2
  · have e := bitOf_cxMap l b h.2
    unfold cxMap at e
    rw [if_pos h, if_pos h, e]
    cases b q <;> cases bitOf b l.1 <;> rfl
  · rw [if_neg h, if_neg h]

theorem perm_commute_Z {n : Nat} (f : BS n → BS n) (q : Fin n) (h : ∀ b, f b q = b q) :
    Commute (permMat f) (pZ q) := by
  rw [commute_Z_iff]
  intro b c hbc
  refine if_neg ?_
  rintro rfl
  exact hbc (h c)

theorem perm_commute_X {n : Nat} (f : BS n → BS n) (q : Fin n) (h : ∀ b, f (flipAt q b) = flipAt q (f b)) :
    Commute (permMat f) (pX q) := by
  show _ * _ = _ * _
  funext b c
  rw [mul_pX, pX_mul]
  have : b = f (flipAt q c) ↔ flipAt q b = f c := by
    rw [h]
    constructor
    · rintro rfl; rw [Comp.flip_flip]
    · intro e; rw [← e, Comp.flip_flip]
  unfold permMat
  simp only [this]

theorem cx_typeOn {c t q : Nat} {u : PT} : (cx c t).typeOn q u ↔ (q = c ∧ u = .z) ∨ (q = t ∧ u = .x) := by
  simp [cx, Instr.typeOn, Instr.qperm, Instr.permAt, List.range_succ]

theorem cx_labelled {n : Nat} {c t : Nat} (hct : c ≠ t) : Labelled (cxMat (n := n)) (cx c t) := by
  refine ⟨rfl, rfl, ?_, ?_, ?_⟩
  · intro q hq
    have hq' : q.val ≠ c ∧ q.val ≠ t := by simpa [cx] using hq
    refine ⟨perm_commute_X _ q ?_, perm_commute_Z _ q ?_⟩
    · intro b
      funext p
      by_cases hp : p = q
      · subst hp
        rw [flip_at]
        simp [cxMap, cx, hq'.2, flip_at]
      · rw [flip_other hp]
        simp only [cxMap, cx, flip_other hp, bitOf_flip b hq'.1]
        rfl
    · intro b
      simp [cxMap, cx, hq'.2]
  · intro q hq
    rcases cx_typeOn.1 hq with ⟨h, _⟩ | ⟨_, h⟩
    · refine perm_commute_Z _ q ?_
      intro b
      have : q.val ≠ t := by rw [h]; exact hct
      simp [cxMap, cx, this]
    · cases h
  · intro q hq
    rcases cx_typeOn.1 hq with ⟨_, h⟩ | ⟨h, _⟩
    · cases h
    · refine perm_commute_X _ q ?_
      intro b
      funext p
      have h2 : bitOf (flipAt q b) c = bitOf b c := bitOf_flip b (by rw [h]; exact hct.symm)
      by_cases hp : p = q
      · subst hp
        rw [flip_at]
        simp only [cxMap, cx, h, hct, ne_eq, not_false_eq_true, and_self, if_true, flip_at, h2]
        simp
      · rw [flip_other hp]
        have hpt : p.val ≠ t := fun e => hp (Fin.ext (e.trans h.symm))
        simp [cxMap, cx, hpt, flip_other hp]

theorem cx_uncomp {n : Nat} {c t : Nat} (r : Bool) (hct : c ≠ t) :
    Uncomp (cxMat (n := n)) cxMat (cxPar r).inv (cxPar r).pt (cx c t) := by
  refine ⟨cx_labelled hct, ⟨⟨cxMap (c, t), cxMap (c, t), cxMap_cxMap _, cxMap_cxMap _⟩, fun _ => 1, by simp,
    fun _ _ => rfl, fun _ _ => rfl⟩, ?_⟩
  have e : (cxMat (c, t) : Op n) * (cxMat (c, t) : Op n) = 1 := by
    apply Matrix.ext
    intro a b
    rw [Matrix.mul_apply, Matrix.one_apply]
    simp only [cxMat, permMat]
    simp [cxMap_cxMap]
  exact e

/-- Circuits of controlled not gates and allocations satisfy the hypotheses on the gates. -/
theorem cx_gates {n : Nat} (r : Bool) (U : List Nat) {data : List (Instr CX)}
    (h : ∀ i ∈ data, i.kind = .gate → ∃ c t, c ≠ t ∧ i = cx c t) : Gates (cxMat (n := n)) cxMat (cxPar r) U data := by
  refine ⟨?_, ?_, ?_, fun _ _ _ _ => rfl⟩
  · intro i hi hk
    obtain ⟨c, t, hct, rfl⟩ := h i hi hk
    exact cx_labelled hct
  · intro i hi hk
    obtain ⟨c, t, hct, rfl⟩ := h i hi hk
    exact cx_labelled hct
  · intro i hi hk _
    obtain ⟨c, t, hct, rfl⟩ := h i hi hk
    exact cx_uncomp r hct

theorem cxPar_aord (r : Bool) : ∀ v l a, a ∈ l → a ∈ (cxPar r).aord v l := by
  intro v l a ha
  cases r <;> simpa [cxPar] using ha

theorem cx_ok {c t : Nat} (hct : c ≠ t) : InsOK (cx c t) := ⟨by simp [cx, hct], by simp [cx]⟩

theorem al_ok (q : Nat) : InsOK (al q) := ⟨by simp [al], by simp [al]⟩

/-- Two ancillas: the value of qubit 0 is copied to 1, then to 2, then to 3. Uncomputing 1 and 2 undoes the copies in
the opposite order. -/
theorem C125_example : attempt (cxPar false) layerSort [1, 2] [al 1, al 2, cx 0 1, cx 1 2, cx 2 3] =
    .ok [al 1, al 2, cx 0 1, cx 1 2, cx 2 3, cx 1 2, de 2, cx 0 1, de 1] := by rfl

/-- Impossible uncomputations raise: the second cx(0,1) would have to come before the change of its control 0 by
cx(3,0), but after the use of qubit 1 in cx(1,3), which comes after cx(3,0). -/
theorem C125_raise :
    attempt (cxPar false) layerSort [1] [al 1, cx 0 1, cx 1 2, cx 3 0, cx 1 3] = .raise := by rfl

/-- **Mixed edges.** `cx(a, x); cx(x, a)` for the ancilla `a`: both qubits of the second gate hang on one edge of the
type of the first, Z, so the gate seems to have no target and is not uncomputed. The ancilla is deallocated with
the value of `x`. -/
theorem C125_mixed_circuit : attempt (cxPar false) layerSort [1] [al 1, cx 1 0, cx 0 1] =
    .ok [al 1, cx 1 0, cx 0 1, de 1] := by rfl

theorem C125_mixed : ¬ C125_full := by
  intro h
  have h1 := h CX 2 (cxPar false) cxMat layerSort [1] [al 1, cx 1 0, cx 0 1] _ layerSort_topo (cxPar_aord false)
    (by
      intro i hi
      simp only [List.mem_cons, List.not_mem_nil, or_false] at hi
      rcases hi with rfl | rfl | rfl
      · exact al_ok 1
      · exact cx_ok (by decide)
      · exact cx_ok (by decide))
    (by unfold AllocFirst; simp [al, cx])
    (cx_gates false _ (by
      intro i hi hk
      simp only [List.mem_cons, List.not_mem_nil, or_false] at hi
      rcases hi with rfl | rfl | rfl
      · cases hk
      · exact ⟨1, 0, by decide, rfl⟩
      · exact ⟨0, 1, by decide, rfl⟩))
    C125_mixed_circuit (fun _ => false) (Pi.single (fun q => decide (q = 0)) 1)
    (by
      intro s hs q hq
      have : s = fun q => decide (q = 0) := by
        by_contra hc
        exact hs (by rw [Pi.single_apply, if_neg hc])
      subst this
      have hq : q.val = 1 := by simpa using hq
      have : q ≠ 0 := by intro e; rw [e] at hq; simp at hq
      simp [this])
  have h2 : ∀ l : List (Instr CX), (∀ i ∈ l, i.kind = .gate → True) → matRun (cxMat (n := 2)) l (Pi.single (fun q => decide (q = 0)) 1) =
      Pi.single (l.foldl (fun s i => if i.kind = .gate then cxMap i.label s else s) (fun q => decide (q = 0))) 1 :=
    fun l _ => matRun_basis cxMap (fun _ _ _ _ _ => rfl) _
  rw [h2 _ (by simp)] at h1
  have h3 := congrFun h1 (fun _ => true)
  have e : ([al 1, cx 1 0, cx 0 1, de 1].foldl (fun s i => if i.kind = .gate then cxMap i.label s else s)
      (fun q => decide (q = 0)) : BS 2) = fun _ => true := by decide
  rw [e, Pi.single_eq_same] at h3
  unfold cleaned at h3
  rw [if_neg (by
    intro hc
    have := hc 1 (by simp)
    cases this)] at h3
  exact one_ne_zero h3

/-- A check for `NoMix`. -/
def noMixB (d : Dag CX) : Bool :=
  d.edges.all fun e => e.qs.all fun q =>
    match d.nodes[e.dst]? with
    | some (.term _) => true
    | some (.op i) => match e.et with
      | .perm t => decide ((q, some t) ∈ i.qperm)
      | .anti => false
    | _ => false

theorem noMix_of {d : Dag CX} (h : noMixB d = true) : NoMix d := by
  intro e he q hq
  have h1 := List.all_eq_true.1 (List.all_eq_true.1 h e he) q hq
  cases hn : d.nodes[e.dst]? with
  | none => rw [hn] at h1; cases h1
  | some k =>
    rw [hn] at h1
    cases k with
    | alloc => cases h1
    | term p => exact Or.inr ⟨p, rfl⟩
    | op i =>
      cases ht : e.et with
      | anti => simp only [ht] at h1; cases h1
      | perm t =>
        simp only [ht] at h1
        have h2 : (q, some t) ∈ i.qperm := of_decide_eq_true h1
        exact Or.inl ⟨t, rfl, _, hn, h2⟩

/-- Edges do not carry two types in `C125_example`, so the theorem applies to it. -/
theorem C125_example_nomix : ∀ d, dagOf (middle [1, 2] [al 1, al 2, cx 0 1, cx 1 2, cx 2 3]) = some d → NoMix d := by
  intro d hd
  refine noMix_of ?_
  have e : (dagOf (middle [1, 2] [al 1, al 2, cx 0 1, cx 1 2, cx 2 3])).all noMixB = true := by decide
  rw [hd] at e
  exact e

/-- The theorem for the example. -/
example (ψ : BS 4 → ℂ) (hψ : ∀ s, ψ s ≠ 0 → ∀ q : Fin 4, q.val ∈ [1, 2] → s q = false) :
    matRun cxMat [al 1, al 2, cx 0 1, cx 1 2, cx 2 3, cx 1 2, de 2, cx 0 1, de 1] ψ =
      cleaned (fun q => q.val ∈ [1, 2]) (fun _ => false) (matRun cxMat [al 1, al 2, cx 0 1, cx 1 2, cx 2 3] ψ) := by
  refine C125_uncomputed_partial layerSort_topo (cxPar_aord false) ?_ C125_example_nomix ?_ (cx_gates false _ ?_)
    C125_example _ _ hψ
  · intro i hi
    simp only [List.mem_cons, List.not_mem_nil, or_false] at hi
    rcases hi with rfl | rfl | rfl | rfl | rfl
    · exact al_ok 1
    · exact al_ok 2
    all_goals exact cx_ok (by decide)
  · unfold AllocFirst; simp [al, cx]
  · intro i hi hk
    simp only [List.mem_cons, List.not_mem_nil, or_false] at hi
    rcases hi with rfl | rfl | rfl | rfl | rfl
    · cases hk
    · cases hk
    all_goals exact ⟨_, _, by decide, rfl⟩

/-- A gate with two neutral targets. -/
def two (a b : Nat) : Instr CX := ⟨.gate, (a, b), [a, b], [.neutral, .neutral], []⟩

/-- **The order of a set decides.** Line 221 iterates over a set of nodes, ordered by their addresses in memory. For the
same circuit one order uncomputes, the other one raises. -/
theorem C125_order :
    attempt (cxPar false) layerSort [1, 2] [al 1, al 2, two 1 2, two 1 2, cx 1 3] =
      .ok [al 1, al 2, two 1 2, two 1 2, cx 1 3, two 1 2, two 1 2, de 2, de 1] ∧
    attempt (cxPar true) layerSort [1, 2] [al 1, al 2, two 1 2, two 1 2, cx 1 3] = .raise := by
  constructor <;> rfl

end Verif.Props
