import Verif.Ham.ActMat
import Verif.Oper.Adjoint
import Verif.Oper.Commute
import Mathlib.Data.List.Sort

/-!
`QubitOperator.change_of_basis` with method "commuting_qw" (operators/qubit/qubit_operator.py:1041-1324).
-/

namespace Verif.Ham

open Verif.Oper Verif.Circ
open Verif.Rev (upd)

/-- The gates of the basis change, on qubits of the quantum argument. -/
inductive BG where
  | h (j : Nat)
  | sxdg (j : Nat)
  | cx (a j : Nat)
deriving DecidableEq, Repr

/-- The operation and the qubits of a gate. -/
noncomputable def BG.op : BG → Op × List HQ
  | .h j => (hG, [.qv j])
  | .sxdg j => (sxdgFn, [.qv j])
  | .cx a j => (cxG, [.qv a, .qv j])

/-- The gates on a state. -/
noncomputable def runB : List BG → Amp HQ → Amp HQ
  | [], ψ => ψ
  | g :: gs, ψ => runB gs (Circ.den g.op.1 g.op.2 ψ)

/-- The inverse of the gates on a state. -/
noncomputable def runBinv : List BG → Amp HQ → Amp HQ
  | [], ψ => ψ
  | g :: gs, ψ => Circ.den g.op.1.inv g.op.2 (runBinv gs ψ)

/-- `factor_dict[k] = f`. -/
def tset : Term → Nat → Fac → Term
  | [], k, f => [(k, f)]
  | (j, g) :: t, k, f => if j = k then (j, f) :: t else (j, g) :: tset t k f

/-- Pauli factors. -/
def isPauli (f : Fac) : Bool := f = .X || f = .Y || f = .Z
/-- Ladder factors. -/
def isLad (f : Fac) : Bool := f = .A || f = .C
/-- Projectors. -/
def isProj (f : Fac) : Bool := f = .P0 || f = .P1

/-- The gates for a Pauli factor (qubit_operator.py:1161-1166). -/
def gatesOf (f : Fac) (j : Nat) : List BG := if f = .X then [.h j] else if f = .Y then [.sxdg j] else []

/-- `basis_dict`, the gates and the new factor dictionary. -/
structure B1 where
  basis : Nat → Option Fac
  gates : List BG
  nd : Term

/-- The body of the loop over the qubits (qubit_operator.py:1137-1168); `none` is a failed assertion. -/
def step1 (t : Term) (s : B1) (j : Nat) : Option B1 :=
  match List.lookup j t with
  | none => some s
  | some f => match s.basis j with
    | some g => if g ≠ f ∧ ¬ (g = .Z ∨ g = .P0 ∨ g = .P1) then none else some ⟨s.basis, s.gates, tset s.nd j .Z⟩
    | none => if isPauli f then some ⟨fun k => if k = j then some f else s.basis k, s.gates ++ gatesOf f j, tset s.nd j .Z⟩ else some s

/-- The loop over the qubits. -/
def loop1 (t : Term) : List Nat → B1 → Option B1
  | [], s => some s
  | j :: js, s => match step1 t s j with
    | none => none
    | some s => loop1 t js s

/-- The loop over the terms (qubit_operator.py:1126-1168). -/
def phase1 (m : Nat) : List Term → (Nat → Option Fac) → List BG → Option (List BG × List Term)
  | [], _, g => some (g, [])
  | t :: ts, b, g => match loop1 t (List.range m) ⟨b, g, []⟩ with
    | none => none
    | some s => match phase1 m ts s.basis s.gates with
      | none => none
      | some r => some (r.1, s.nd :: r.2)

/-- `ladder_operators`, sorted by index (qubit_operator.py:1265-1266). -/
def ladders (t : Term) : List (Nat × Fac) := (t.filter fun p => isLad p.2).insertionSort fun a b => a.1 ≤ b.1

/-- The projector of a ladder factor, depending on the factor of the anchor (qubit_operator.py:1277-1286). -/
def ladFac (anchor f : Fac) : Fac := if anchor = .C then (if f = .A then .P1 else .P0) else (if f = .A then .P0 else .P1)

/-- The new factors of the ladder operators (qubit_operator.py:1271-1286). -/
def addLadders (nd : Term) (l : List (Nat × Fac)) : Term :=
  match l.getLast? with
  | none => nd
  | some a => (l.dropLast.map fun p => (p.1, ladFac a.2 p.2)).foldl (fun nd p => tset nd p.1 p.2) (tset nd a.1 .Z)

/-- The projectors are kept (qubit_operator.py:1313-1315). -/
def addProj (nd t : Term) : Term := (t.filter fun p => isProj p.2).foldl (fun nd p => tset nd p.1 p.2) nd

/-- The outcome of the loop over the processed index sets. -/
inductive Chk where
  | raise | seen | fresh
deriving DecidableEq

/-- The loop over `processed_ladder_index_sets` (qubit_operator.py:1288-1295). -/
def checkSets (I : List Nat) : List (List Nat) → Chk
  | [] => .fresh
  | s :: ss => if s.any fun i => decide (i ∈ I) then (if (s.all fun i => decide (i ∈ I)) && (I.all fun i => decide (i ∈ s)) then .seen else .raise)
    else checkSets I ss

/-- The gates for the ladder operators (qubit_operator.py:1297-1303). -/
def ladGates (l : List (Nat × Fac)) : List BG :=
  match l.getLast? with
  | none => []
  | some a => (l.dropLast.map fun p => BG.cx a.1 p.1) ++ [.h a.1]

/-- The loop of the ladder operators (qubit_operator.py:1258-1322); `none` is the exception. -/
noncomputable def phase2 : List ((Term × ℂ) × Term) → List (List Nat) → List BG → QOp ℂ → Option (List BG × QOp ℂ)
  | [], _, g, d => some (g, d)
  | ((t, c), nd) :: r, P, g, d =>
    if ladders t = [] then phase2 r P g (dset d (addProj nd t) c)
    else match checkSets ((ladders t).map Prod.fst) P with
      | .raise => none
      | .seen => phase2 r P g (dset d (addProj (addLadders nd (ladders t)) t) (1 / 2 * c))
      | .fresh => phase2 r (P ++ [(ladders t).map Prod.fst]) (g ++ ladGates (ladders t)) (dset d (addProj (addLadders nd (ladders t)) t) (1 / 2 * c))

/-- `find_minimal_qubit_amount` (qubit_operator.py:481-485). -/
def minQ {R : Type} (d : QOp R) : Nat := (d.flatMap fun p => p.1.keys).foldl (fun m k => max m (k + 1)) 0

/-- `change_of_basis`. -/
noncomputable def changeBasis (d : QOp ℂ) : Option (List BG × QOp ℂ) :=
  match phase1 (minQ d) (d.map Prod.fst) (fun _ => none) [] with
  | none => none
  | some r => phase2 (d.zip r.2) [] r.1 []

/-! ### Dictionaries -/

theorem get_tset (t : Term) (k j : Nat) (f : Fac) : (tset t k f).get j = if j = k then f else t.get j := by
  induction t with
  | nil =>
    show Term.get [(k, f)] j = _
    by_cases h : j = k
    · subst h; simp [Term.get]
    · have : (j == k) = false := by simpa using h
      simp [Term.get, List.lookup_cons, this, h]
  | cons p t ih =>
    obtain ⟨i, g⟩ := p
    unfold tset
    by_cases h : i = k
    · subst h
      rw [if_pos rfl]
      by_cases e : j = i
      · subst e; simp [Term.get]
      · have : (j == i) = false := by simpa using e
        simp [Term.get, List.lookup_cons, this, e]
    · rw [if_neg h]
      by_cases e : j = i
      · subst e
        rw [if_neg h]
        simp [Term.get]
      · have hb : (j == i) = false := by simpa using e
        have h1 : Term.get ((i, g) :: tset t k f) j = (tset t k f).get j := by simp [Term.get, List.lookup_cons, hb]
        have h2 : Term.get ((i, g) :: t) j = Term.get t j := by simp [Term.get, List.lookup_cons, hb]
        rw [h1, h2, ih]

theorem get_foldl_tset : ∀ (l nd : Term) (j : Nat), (l.map Prod.fst).Nodup →
    (l.foldl (fun nd p => tset nd p.1 p.2) nd).get j = (List.lookup j l).getD (nd.get j)
  | [], nd, j, _ => by simp
  | (k, f) :: l, nd, j, h => by
    rw [List.map_cons, List.nodup_cons] at h
    rw [List.foldl_cons, get_foldl_tset l _ j h.2, get_tset]
    by_cases e : j = k
    · subst e
      have : List.lookup j l = none := lookup_none h.1
      simp [this]
    · have hb : (j == k) = false := by simpa using e
      simp [List.lookup_cons, hb, e]

theorem lookup_get {t : Term} {k : Nat} {f : Fac} (h : List.lookup k t = some f) : t.get k = f := by simp [Term.get, h]

theorem mem_of_lookup {t : Term} {k : Nat} {f : Fac} (h : List.lookup k t = some f) : (k, f) ∈ t := by
  induction t with
  | nil => simp at h
  | cons p t ih =>
    obtain ⟨j, g⟩ := p
    rw [List.lookup_cons] at h
    by_cases e : k = j
    · subst e
      simp only [beq_self_eq_true] at h
      rw [Option.some.inj h]; exact List.mem_cons_self
    · have hb : (k == j) = false := by simpa using e
      rw [hb] at h
      exact List.mem_cons_of_mem _ (ih h)

theorem lookup_filter {t : Term} (hw : t.WF) (P : Fac → Bool) (k : Nat) :
    List.lookup k (t.filter fun p => P p.2) = if P (t.get k) && decide (k ∈ t.keys) then some (t.get k) else none := by
  induction t with
  | nil => simp [Term.keys]
  | cons p t ih =>
    obtain ⟨j, f⟩ := p
    have hw' : (j :: Term.keys t).Nodup := hw
    obtain ⟨h1, h2⟩ := List.nodup_cons.mp hw'
    have ih := ih h2
    by_cases e : k = j
    · subst e
      have hg : Term.get ((k, f) :: t) k = f := by simp [Term.get]
      have hk : k ∈ Term.keys ((k, f) :: t) := by simp [Term.keys]
      rw [hg]
      cases hP : P f
      · rw [List.filter_cons_of_neg (by simpa using hP), ih, if_neg (by simp [h1]), if_neg (by simp)]
      · rw [List.filter_cons_of_pos (by simpa using hP), if_pos (by simp [hk])]
        simp
    · have hb : (k == j) = false := by simpa using e
      have hg : Term.get ((j, f) :: t) k = Term.get t k := by simp [Term.get, List.lookup_cons, hb]
      have hk : k ∈ Term.keys ((j, f) :: t) ↔ k ∈ Term.keys t := by simp [Term.keys, e]
      rw [hg]
      simp only [hk]
      cases hP : P f
      · rw [List.filter_cons_of_neg (by simpa using hP), ih]
      · rw [List.filter_cons_of_pos (by simpa using hP), List.lookup_cons, hb, ih]

theorem get_addProj {t : Term} (hw : t.WF) (nd : Term) (k : Nat) :
    (addProj nd t).get k = if isProj (t.get k) then t.get k else nd.get k := by
  unfold addProj
  rw [get_foldl_tset _ _ _ (List.Nodup.sublist ((List.filter_sublist).map _) hw), lookup_filter hw isProj]
  cases h : isProj (t.get k)
  · simp
  · have : k ∈ t.keys := by
      by_contra hk
      rw [get_notin hk] at h
      cases h
    simp [this]

/-! ### The ladder list -/

theorem ladders_perm (t : Term) : (ladders t).Perm (t.filter fun p => isLad p.2) := List.perm_insertionSort _ _

theorem ladders_nodup {t : Term} (hw : t.WF) : ((ladders t).map Prod.fst).Nodup :=
  ((ladders_perm t).map Prod.fst).nodup_iff.mpr (List.Nodup.sublist ((List.filter_sublist).map _) hw)

theorem mem_ladders {t : Term} (hw : t.WF) {p : Nat × Fac} : p ∈ ladders t ↔ t.get p.1 = p.2 ∧ isLad p.2 = true := by
  rw [(ladders_perm t).mem_iff, List.mem_filter]
  constructor
  · rintro ⟨h1, h2⟩
    exact ⟨lookup_get ((lookup_mem hw).2 h1), h2⟩
  · rintro ⟨h1, h2⟩
    refine ⟨?_, h2⟩
    rcases hl : List.lookup p.1 t with _ | f
    · rw [Term.get, hl] at h1
      have : Fac.I = p.2 := h1
      rw [← this] at h2; cases h2
    · have := lookup_get hl
      rw [h1] at this
      have hm := mem_of_lookup hl
      rw [← this] at hm
      exact hm

/-- Terms with the same ladder factors have the same ladder list. -/
theorem ladders_eq {s t : Term} (hs : s.WF) (ht : t.WF) (h : ∀ k, isLad (s.get k) = true ∨ isLad (t.get k) = true → s.get k = t.get k) :
    ladders s = ladders t := by
  have hmem : ∀ p, p ∈ ladders s ↔ p ∈ ladders t := by
    intro p
    rw [mem_ladders hs, mem_ladders ht]
    constructor
    · rintro ⟨h1, h2⟩
      have := h p.1 (Or.inl (by rw [h1]; exact h2))
      exact ⟨this ▸ h1, h2⟩
    · rintro ⟨h1, h2⟩
      have := h p.1 (Or.inr (by rw [h1]; exact h2))
      exact ⟨this.symm ▸ h1, h2⟩
  have hp : (ladders s).Perm (ladders t) :=
    (List.perm_ext_iff_of_nodup (List.Nodup.of_map _ (ladders_nodup hs)) (List.Nodup.of_map _ (ladders_nodup ht))).mpr hmem
  have hsrt : ∀ t : Term, (ladders t).Pairwise fun a b => a.1 ≤ b.1 := by
    intro t
    haveI : Std.Total (fun a b : Nat × Fac => a.1 ≤ b.1) := ⟨fun a b => Nat.le_total _ _⟩
    haveI : IsTrans (Nat × Fac) (fun a b : Nat × Fac => a.1 ≤ b.1) := ⟨fun a b c => Nat.le_trans⟩
    exact List.pairwise_insertionSort _ _
  refine List.Perm.eq_of_pairwise ?_ (hsrt s) (hsrt t) hp
  intro a b ha hb h1 h2
  have e : a.1 = b.1 := Nat.le_antisymm h1 h2
  have h3 := (mem_ladders ht).mp ((hmem a).mp ha)
  have h4 := (mem_ladders ht).mp hb
  exact Prod.ext e (by rw [← h3.1, ← h4.1, e])

end Verif.Ham
