import Verif.Circ.Op
import Mathlib.Logic.Equiv.Basic
import Mathlib.Algebra.Star.BigOperators

/-!
Semantics of circuits with classical bits. The state of a circuit with qubits `Q` and classical bits
`C` is a density operator for every value of the classical bits: a function of a row index
(`Q → Bool`), a column index (`Q → Bool`) and the classical bits, i.e. an amplitude function over the
wires `Q ⊕ Q ⊕ C`. A unitary acts on rows and, complex conjugated, on columns. Everything else
(measurement, reset, classically controlled operations, …) is an arbitrary linear operator on the
wires belonging to the bits of the instruction.
-/

namespace Verif.Circ

open Verif.Rev (upd)

variable {Q C K : Type} [DecidableEq Q] [DecidableEq C]

/-- Row qubits, column qubits and classical bits. -/
abbrev Wire (Q C : Type) := Q ⊕ Q ⊕ C

/-- The row index of a wire assignment. -/
def rowOf (b : Wire Q C → Bool) : Q → Bool := fun q => b (.inl q)
/-- The column index of a wire assignment. -/
def colOf (b : Wire Q C → Bool) : Q → Bool := fun q => b (.inr (.inl q))
/-- Replace the row index. -/
def setRow (b : Wire Q C → Bool) (r : Q → Bool) : Wire Q C → Bool
  | .inl q => r q
  | w => b w
/-- Replace the column index. -/
def setCol (b : Wire Q C → Bool) (r : Q → Bool) : Wire Q C → Bool
  | .inr (.inl q) => r q
  | w => b w

/-- An operator applied to the rows. -/
def rowLift (T : Amp Q → Amp Q) (Ψ : Amp (Wire Q C)) : Amp (Wire Q C) := fun b =>
  T (fun r => Ψ (setRow b r)) (rowOf b)

/-- The complex conjugated operator applied to the columns. -/
noncomputable def colLift (T : Amp Q → Amp Q) (Ψ : Amp (Wire Q C)) : Amp (Wire Q C) := fun b =>
  (starRingEnd ℂ) (T (fun r => (starRingEnd ℂ) (Ψ (setCol b r))) (colOf b))

/-- The action `ρ ↦ T ρ T†` of a unitary operator `T` on density operators. -/
noncomputable def lift (T : Amp Q → Amp Q) (Ψ : Amp (Wire Q C)) : Amp (Wire Q C) :=
  rowLift T (colLift T Ψ)

/-- The wires belonging to the qubits `qs` and classical bits `cs`. -/
def wsupp (qs : List Q) (cs : List C) : Set (Wire Q C) := fun w => match w with
  | .inl q => q ∈ qs
  | .inr (.inl q) => q ∈ qs
  | .inr (.inr c) => c ∈ cs

/-! ### Lifting respects locality, composition and identity -/

/-- Row part of a wire set. -/
def rowSet (C : Type) (S : Set Q) : Set (Wire Q C) := fun w => match w with
  | .inl q => q ∈ S
  | _ => False
/-- Column part of a wire set. -/
def colSet (C : Type) (S : Set Q) : Set (Wire Q C) := fun w => match w with
  | .inr (.inl q) => q ∈ S
  | _ => False

theorem Loc.rowLift {S : Set Q} {T : Amp Q → Amp Q} (hT : Loc S T) :
    Loc (rowSet C S) (rowLift (C := C) T) := by
  obtain ⟨l, hl⟩ := hT
  refine ⟨l.map fun t => ⟨fun b => t.d (rowOf b), fun b => setRow b (t.f (rowOf b)), ?_, ?_, ?_⟩, ?_⟩
  · intro b c h
    exact t.hd _ _ fun q hq => h (.inl q) hq
  · intro b c h w hw
    match w with
    | .inl q => exact t.hf _ _ (fun q hq => h (.inl q) hq) q hw
    | .inr w => exact absurd hw (fun h => h)
  · intro b w hw
    match w with
    | .inl q => exact t.out _ q hw
    | .inr w => rfl
  · intro Ψ b
    simp only [Circ.rowLift, hl, Term.sum, List.map_map]
    rfl

theorem conj_sum (l : List ℂ) : (starRingEnd ℂ) l.sum = (l.map (starRingEnd ℂ)).sum :=
  map_list_sum (starRingEnd ℂ) l

theorem Loc.colLift {S : Set Q} {T : Amp Q → Amp Q} (hT : Loc S T) :
    Loc (colSet C S) (colLift (C := C) T) := by
  obtain ⟨l, hl⟩ := hT
  refine ⟨l.map fun t => ⟨fun b => (starRingEnd ℂ) (t.d (colOf b)),
    fun b => setCol b (t.f (colOf b)), ?_, ?_, ?_⟩, ?_⟩
  · intro b c h
    exact congrArg _ (t.hd _ _ fun q hq => h (.inr (.inl q)) hq)
  · intro b c h w hw
    match w with
    | .inr (.inl q) => exact t.hf _ _ (fun q hq => h (.inr (.inl q)) hq) q hw
    | .inl w => exact absurd hw (fun h => h)
    | .inr (.inr w) => exact absurd hw (fun h => h)
  · intro b w hw
    match w with
    | .inr (.inl q) => exact t.out _ q hw
    | .inl w => rfl
    | .inr (.inr w) => rfl
  · intro Ψ b
    simp only [Circ.colLift, hl, Term.sum, List.map_map, conj_sum]
    congr 1
    apply List.map_congr_left
    intro t _
    simp only [Function.comp_apply, map_mul, Complex.conj_conj]

theorem row_col_disjoint (S S' : Set Q) : Disjoint (rowSet C S) (colSet C S') := by
  rw [Set.disjoint_left]
  intro w h h'
  match w with
  | .inl _ => exact h'
  | .inr _ => exact h

theorem Loc.lift {qs : List Q} {T : Amp Q → Amp Q} (hT : Loc (supp qs) T) (cs : List C) :
    Loc (wsupp qs cs) (lift (C := C) T) := by
  refine Loc.comp (T := Circ.rowLift T) (U := Circ.colLift T) (hT.rowLift.mono ?_) (hT.colLift.mono ?_)
  · intro w hw
    match w with
    | .inl _ => exact hw
    | .inr _ => exact absurd hw (fun h => h)
  · intro w hw
    match w with
    | .inr (.inl _) => exact hw
    | .inl _ => exact absurd hw (fun h => h)
    | .inr (.inr _) => exact absurd hw (fun h => h)

theorem rowLift_comp (T U : Amp Q → Amp Q) (Ψ : Amp (Wire Q C)) :
    rowLift T (rowLift U Ψ) = rowLift (fun ψ => T (U ψ)) Ψ := by
  funext b
  simp only [rowLift]
  congr 1
  funext r
  have h1 : ∀ r', setRow (setRow b r) r' = setRow b r' := by
    intro r'; funext w; cases w <;> rfl
  have h2 : rowOf (setRow b r) = r := rfl
  simp only [h1, h2]

theorem colLift_comp (T U : Amp Q → Amp Q) (Ψ : Amp (Wire Q C)) :
    colLift T (colLift U Ψ) = colLift (fun ψ => T (U ψ)) Ψ := by
  funext b
  simp only [colLift, Complex.conj_conj]
  congr 2
  funext r
  have h1 : ∀ r', setCol (setCol b r) r' = setCol b r' := by
    intro r'; funext w
    match w with
    | .inl _ => rfl
    | .inr (.inl _) => rfl
    | .inr (.inr _) => rfl
  have h2 : colOf (setCol b r) = r := rfl
  simp only [h1, h2]

theorem lift_comp {S : Set Q} {T U : Amp Q → Amp Q} (hT : Loc S T) (hU : Loc S U)
    (Ψ : Amp (Wire Q C)) : lift T (lift U Ψ) = lift (fun ψ => T (U ψ)) Ψ := by
  simp only [lift]
  rw [← rowLift_comp T U, ← colLift_comp T U]
  rw [← Loc.comm (row_col_disjoint S S) hU.rowLift hT.colLift]

theorem lift_id (Ψ : Amp (Wire Q C)) : lift (fun ψ => ψ) Ψ = Ψ := by
  funext b
  simp only [lift, rowLift, colLift, Complex.conj_conj]
  congr 1
  funext w
  match w with
  | .inl _ => rfl
  | .inr (.inl _) => rfl
  | .inr (.inr _) => rfl

theorem lift_congr {T U : Amp Q → Amp Q} (h : ∀ ψ, T ψ = U ψ) (Ψ : Amp (Wire Q C)) :
    lift T Ψ = lift U Ψ := by
  have : T = U := funext h
  rw [this]

/-! ### Renaming qubits -/

/-- Move the content of every qubit `q` to `σ q`. -/
def permA (σ : Equiv.Perm Q) (ψ : Amp Q) : Amp Q := fun b => ψ (b ∘ σ)

/-- A qubit permutation on wires. -/
def wmap (σ : Equiv.Perm Q) : Wire Q C → Wire Q C
  | .inl q => .inl (σ q)
  | .inr (.inl q) => .inr (.inl (σ q))
  | .inr (.inr c) => .inr (.inr c)

/-- Move the content of every qubit `q` to `σ q`, on density operators. -/
def permW (σ : Equiv.Perm Q) (Ψ : Amp (Wire Q C)) : Amp (Wire Q C) := fun b => Ψ (b ∘ wmap σ)

omit [DecidableEq Q] [DecidableEq C] in
theorem permW_mul (σ τ : Equiv.Perm Q) (Ψ : Amp (Wire Q C)) :
    permW σ (permW τ Ψ) = permW (σ * τ) Ψ := by
  funext b
  simp only [permW]
  congr 1
  funext w
  match w with
  | .inl _ => rfl
  | .inr (.inl _) => rfl
  | .inr (.inr _) => rfl

omit [DecidableEq Q] [DecidableEq C] in
theorem permW_one (Ψ : Amp (Wire Q C)) : permW 1 Ψ = Ψ := by
  funext b
  simp only [permW]
  congr 1
  funext w
  match w with
  | .inl _ => rfl
  | .inr (.inl _) => rfl
  | .inr (.inr _) => rfl

theorem upd_perm (σ : Equiv.Perm Q) (b : Q → Bool) (q : Q) (v : Bool) :
    upd b (σ q) v ∘ σ = upd (b ∘ σ) q v := by
  funext x
  simp [upd]

theorem swapAmp_perm {p q : Q} (ψ : Amp Q) : swapAmp [p, q] ψ = permA (Equiv.swap p q) ψ := by
  funext b
  simp only [swapAmp, permA]
  congr 1
  funext x
  simp only [upd, Function.comp_apply]
  by_cases hq : x = q
  · subst hq; simp
  · by_cases hp : x = p
    · subst hp; simp [hq]
    · simp [hq, hp, Equiv.swap_apply_of_ne_of_ne hp hq]

theorem permA_mul (σ τ : Equiv.Perm Q) (ψ : Amp Q) : permA σ (permA τ ψ) = permA (σ * τ) ψ := rfl

theorem mul_swap_eq (σ : Equiv.Perm Q) (p q : Q) :
    Equiv.swap (σ p) (σ q) * σ = σ * Equiv.swap p q := by
  ext x
  simp only [Equiv.Perm.mul_apply]
  exact (σ.injective.map_swap p q x).symm

theorem pick_map (σ : Q → Q) (qs : List Q) (is : List Nat) :
    pick (qs.map σ) is = (pick qs is).map σ := by
  simp only [pick, List.map_filterMap]
  congr 1
  funext i
  simp [List.getElem?_map]

theorem on1_perm (σ : Equiv.Perm Q) (U : M2) (qs : List Q) (ψ : Amp Q) :
    on1 U (qs.map σ) (permA σ ψ) = permA σ (on1 U qs ψ) := by
  match qs with
  | [] => rfl
  | [q] =>
    funext b
    simp only [List.map_cons, List.map_nil, on1, app1, mux, permA, upd_perm, Function.comp_apply]
  | _ :: _ :: _ => rfl

theorem ctlMatch_perm (σ : Equiv.Perm Q) (cs : List Q) (st : List Bool) (b : Q → Bool) :
    ctlMatch (cs.map σ) st b = ctlMatch cs st (b ∘ σ) := by
  induction cs generalizing st with
  | nil => rfl
  | cons c cs ih =>
    match st with
    | [] => rfl
    | v :: st => simp only [List.map_cons, ctlMatch, ih]; rfl

mutual
/-- Renaming qubits before an operation is renaming them after it. -/
theorem den_perm : ∀ (o : Op) (σ : Equiv.Perm Q) (qs : List Q) (ψ : Amp Q),
    den o (qs.map σ) (permA σ ψ) = permA σ (den o qs ψ)
  | .u3 .., σ, qs, ψ => by simp only [den]; exact on1_perm σ _ qs ψ
  | .pauli _, σ, qs, ψ => by simp only [den]; exact on1_perm σ _ qs ψ
  | .alloc, _, _, _ => by simp only [den]
  | .dealloc, _, _, _ => by simp only [den]
  | .barrier _, _, _, _ => by simp only [den]
  | .swap, σ, qs, ψ => by
    simp only [den]
    match qs with
    | [] => rfl
    | [_] => rfl
    | [p, q] =>
      simp only [List.map_cons, List.map_nil]
      rw [swapAmp_perm, swapAmp_perm, permA_mul, permA_mul, mul_swap_eq]
    | _ :: _ :: _ :: _ => rfl
  | .gate _ _ body, σ, qs, ψ => by
    simp only [den]; exact denBody_perm body σ qs ψ
  | .ctrl o st, σ, qs, ψ => by
    simp only [den]
    funext b
    simp only [ctl, permA]
    rw [← List.map_take, ← List.map_drop, ctlMatch_perm]
    have := den_perm o σ (qs.drop st.length) ψ
    have h2 := congrFun this b
    simp only [permA] at h2
    rw [← h2]
  | .pt _ _ body, σ, qs, ψ => by
    simp only [den]; exact denBody_perm body σ qs ψ
theorem denBody_perm : ∀ (body : List (Op × List Nat)) (σ : Equiv.Perm Q) (qs : List Q) (ψ : Amp Q),
    denBody body (qs.map σ) (permA σ ψ) = permA σ (denBody body qs ψ)
  | [], _, _, _ => by simp only [denBody]
  | (o, is) :: r, σ, qs, ψ => by
    simp only [denBody]
    rw [pick_map, den_perm o σ, denBody_perm r σ]
end

theorem lift_perm {σ : Equiv.Perm Q} {T T' : Amp Q → Amp Q} (h : ∀ ψ, T' (permA σ ψ) = permA σ (T ψ))
    (Ψ : Amp (Wire Q C)) : lift T' (permW σ Ψ) = permW σ (lift T Ψ) := by
  have hr : ∀ Φ : Amp (Wire Q C), rowLift T' (permW σ Φ) = permW σ (rowLift T Φ) := by
    intro Φ
    funext b
    have e : (fun r => permW σ Φ (setRow b r)) = permA σ (fun r => Φ (setRow (b ∘ wmap σ) r)) := by
      funext r
      simp only [permW, permA]
      congr 1
      funext w
      match w with
      | .inl _ => rfl
      | .inr (.inl _) => rfl
      | .inr (.inr _) => rfl
    simp only [rowLift, e, h]
    rfl
  have hc : ∀ Φ : Amp (Wire Q C), colLift T' (permW σ Φ) = permW σ (colLift T Φ) := by
    intro Φ
    funext b
    have e : (fun r => (starRingEnd ℂ) (permW σ Φ (setCol b r)))
        = permA σ (fun r => (starRingEnd ℂ) (Φ (setCol (b ∘ wmap σ) r))) := by
      funext r
      simp only [permW, permA]
      congr 2
      funext w
      match w with
      | .inl _ => rfl
      | .inr (.inl _) => rfl
      | .inr (.inr _) => rfl
    simp only [colLift, e, h]
    rfl
  simp only [lift, hc, hr]

/-- The swap gate moves qubit contents. -/
theorem lift_swap (p q : Q) (Ψ : Amp (Wire Q C)) :
    lift (den .swap [p, q]) Ψ = permW (Equiv.swap p q) Ψ := by
  have hT : den (Q := Q) .swap [p, q] = permA (Equiv.swap p q) := by
    funext ψ; simp only [den]; exact swapAmp_perm ψ
  rw [hT]
  funext b
  simp only [lift, rowLift, colLift, permA, permW, Complex.conj_conj]
  congr 1
  funext w
  match w with
  | .inl _ => rfl
  | .inr (.inl _) => rfl
  | .inr (.inr _) => rfl

/-! ### Names -/

/-- operation.py:835-838: prefix of the name of a controlled operation. -/
def ctlPrefix (n : Nat) : String := if n = 1 then "c" else toString n ++ "c"

/-- The attribute `name` of an operation (operation.py:835-840 for controlled operations, 690-700 and
730-738 for phase tolerant ones). Controlling an already controlled operation is modelled as one
`ctrl`; its name then differs ("ccx" instead of "2cx"), no pass looks at such names. -/
def Op.name : Op → String
  | .u3 nm .. => nm
  | .pauli .x => "x"
  | .pauli .y => "y"
  | .pauli .z => "z"
  | .alloc => "qb_alloc"
  | .dealloc => "qb_dealloc"
  | .barrier _ => "barrier"
  | .swap => "swap"
  | .gate nm _ _ => nm
  | .ctrl b st => ctlPrefix st.length ++ b.name
  | .pt b st _ => match b with
    | .pauli _ => if st = [true] then "c" ++ b.name else "pt" ++ ctlPrefix st.length ++ b.name
    | _ => "pt" ++ ctlPrefix st.length ++ b.name

/-! ### Operations and circuits with classical bits -/

/-- Operations: unitary ones, primitive non-unitary ones (measurement, reset, classically controlled
operations, operations with unbound parameters) and composite ones with `n` qubits containing such. -/
inductive COp (K : Type) where
  | uni (o : Op)
  | prim (name : String) (k : K)
  | comp (name : String) (n : Nat) (body : List (COp K × List Nat × List Nat))

/-- The attribute `name`. -/
def COp.name : COp K → String
  | .uni o => o.name
  | .prim nm _ => nm
  | .comp nm _ _ => nm

/-- instruction.py: an operation with its qubits and classical bits. -/
structure CI (Q C K : Type) where
  op : COp K
  qs : List Q
  cs : List C

/-- An interpretation of the primitive non-unitary operations: linear operators on the wires of the
bits they are applied to, the same one up to renaming for all qubits. -/
structure Interp (Q C K : Type) [DecidableEq Q] [DecidableEq C] where
  f : K → List Q → List C → Amp (Wire Q C) → Amp (Wire Q C)
  loc : ∀ k qs cs, Loc (wsupp qs cs) (f k qs cs)
  nat : ∀ k (σ : Equiv.Perm Q) qs cs Ψ, f k (qs.map σ) cs (permW σ Ψ) = permW σ (f k qs cs Ψ)

mutual
/-- The action of an operation on the state. -/
noncomputable def cden (I : Interp Q C K) : COp K → List Q → List C → Amp (Wire Q C) → Amp (Wire Q C)
  | .uni o, qs, _, Ψ => lift (den o qs) Ψ
  | .prim _ k, qs, cs, Ψ => I.f k qs cs Ψ
  | .comp _ _ body, qs, cs, Ψ => cdenBody I body qs cs Ψ
/-- The action of a definition circuit. -/
noncomputable def cdenBody (I : Interp Q C K) :
    List (COp K × List Nat × List Nat) → List Q → List C → Amp (Wire Q C) → Amp (Wire Q C)
  | [], _, _, Ψ => Ψ
  | (o, is, js) :: r, qs, cs, Ψ => cdenBody I r qs cs (cden I o (pick qs is) (pick cs js) Ψ)
end

/-- The action of a circuit: its instructions in order. -/
noncomputable def crun (I : Interp Q C K) : List (CI Q C K) → Amp (Wire Q C) → Amp (Wire Q C)
  | [], Ψ => Ψ
  | i :: r, Ψ => crun I r (cden I i.op i.qs i.cs Ψ)

theorem crun_append (I : Interp Q C K) (a b : List (CI Q C K)) (Ψ : Amp (Wire Q C)) :
    crun I (a ++ b) Ψ = crun I b (crun I a Ψ) := by
  induction a generalizing Ψ with
  | nil => rfl
  | cons i r ih => exact ih _

theorem wsupp_mono {qs qs' : List Q} {cs cs' : List C} (h : ∀ q ∈ qs, q ∈ qs') (h' : ∀ c ∈ cs, c ∈ cs') :
    wsupp qs cs ⊆ wsupp qs' cs' := by
  intro w hw
  match w with
  | .inl q => exact h q hw
  | .inr (.inl q) => exact h q hw
  | .inr (.inr c) => exact h' c hw

theorem wsupp_disjoint {qs qs' : List Q} {cs cs' : List C} (h : ∀ q ∈ qs, q ∉ qs')
    (h' : ∀ c ∈ cs, c ∉ cs') : Disjoint (wsupp qs cs) (wsupp qs' cs') := by
  rw [Set.disjoint_left]
  intro w hw hw'
  match w with
  | .inl q => exact h q hw hw'
  | .inr (.inl q) => exact h q hw hw'
  | .inr (.inr c) => exact h' c hw hw'

mutual
theorem cden_loc (I : Interp Q C K) : ∀ (o : COp K) (qs : List Q) (cs : List C),
    Loc (wsupp qs cs) (cden I o qs cs)
  | .uni o, qs, cs => by
    have := (den_loc o qs).lift cs
    simpa only [cden] using this
  | .prim _ k, qs, cs => by
    have := I.loc k qs cs
    simpa only [cden] using this
  | .comp _ _ body, qs, cs => by
    have := cdenBody_loc I body qs cs
    simpa only [cden] using this
theorem cdenBody_loc (I : Interp Q C K) : ∀ (body : List (COp K × List Nat × List Nat)) (qs : List Q)
    (cs : List C), Loc (wsupp qs cs) (cdenBody I body qs cs)
  | [], qs, cs => by simp only [cdenBody]; exact Loc.id _
  | (o, is, js) :: r, qs, cs => by
    have h1 := cden_loc I o (pick qs is) (pick cs js)
    have h2 := cdenBody_loc I r qs cs
    simp only [cdenBody]
    exact h2.comp (h1.mono (wsupp_mono (fun q h => pick_subset qs is h) (fun c h => pick_subset cs js h)))
end

mutual
theorem cden_perm (I : Interp Q C K) : ∀ (o : COp K) (σ : Equiv.Perm Q) (qs : List Q) (cs : List C)
    (Ψ : Amp (Wire Q C)), cden I o (qs.map σ) cs (permW σ Ψ) = permW σ (cden I o qs cs Ψ)
  | .uni o, σ, qs, _, Ψ => by
    simp only [cden]
    exact lift_perm (fun ψ => den_perm o σ qs ψ) Ψ
  | .prim _ k, σ, qs, cs, Ψ => by simp only [cden]; exact I.nat k σ qs cs Ψ
  | .comp _ _ body, σ, qs, cs, Ψ => by simp only [cden]; exact cdenBody_perm I body σ qs cs Ψ
theorem cdenBody_perm (I : Interp Q C K) : ∀ (body : List (COp K × List Nat × List Nat))
    (σ : Equiv.Perm Q) (qs : List Q) (cs : List C) (Ψ : Amp (Wire Q C)),
    cdenBody I body (qs.map σ) cs (permW σ Ψ) = permW σ (cdenBody I body qs cs Ψ)
  | [], _, _, _, _ => by simp only [cdenBody]
  | (o, is, js) :: r, σ, qs, cs, Ψ => by
    simp only [cdenBody]
    rw [pick_map, cden_perm I o σ, cdenBody_perm I r σ]
end

/-- Instructions without a common bit commute. -/
theorem cden_comm (I : Interp Q C K) (o o' : COp K) {qs qs' : List Q} {cs cs' : List C}
    (h : ∀ q ∈ qs, q ∉ qs') (h' : ∀ c ∈ cs, c ∉ cs') (Ψ : Amp (Wire Q C)) :
    cden I o qs cs (cden I o' qs' cs' Ψ) = cden I o' qs' cs' (cden I o qs cs Ψ) :=
  Loc.comm (wsupp_disjoint h h') (cden_loc I o qs cs) (cden_loc I o' qs' cs') Ψ

end Verif.Circ
