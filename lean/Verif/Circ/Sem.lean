import Verif.Rev.Basic
import Mathlib.Data.Complex.Basic
import Mathlib.LinearAlgebra.Matrix.Notation
import Mathlib.Data.Fintype.BigOperators

/-!
State vector semantics. A state of a qubit set `Q` is an amplitude function on basis states
`Q → Bool`; a gate is a transformation of amplitude functions.
-/

namespace Verif.Circ

open Verif.Rev (upd)

variable {Q : Type} [DecidableEq Q]

/-- Amplitude functions. -/
abbrev Amp (Q : Type) := (Q → Bool) → ℂ

/-- 2×2 matrices indexed by the bit values. -/
abbrev M2 := Matrix Bool Bool ℂ

/-- A matrix on qubit `q` that may depend on the basis state (multiplexed gate). -/
def mux (M : (Q → Bool) → M2) (q : Q) (ψ : Amp Q) : Amp Q := fun b =>
  M b (b q) false * ψ (upd b q false) + M b (b q) true * ψ (upd b q true)

/-- A single qubit gate with matrix `U` on qubit `q`. -/
def app1 (U : M2) (q : Q) : Amp Q → Amp Q := mux (fun _ => U) q

/-- Control: `T` acts on the basis states satisfying `p`. -/
def ctl (p : (Q → Bool) → Bool) (T : Amp Q → Amp Q) (ψ : Amp Q) : Amp Q := fun b =>
  if p b then T ψ b else ψ b

/-- A diagonal operator. -/
def diag (d : (Q → Bool) → ℂ) (ψ : Amp Q) : Amp Q := fun b => d b * ψ b

/-- The controls `cs` are in the control state `st` (first character belongs to the first qubit). -/
def ctlMatch : List Q → List Bool → (Q → Bool) → Bool
  | [], _, _ => true
  | _ :: _, [], _ => true
  | c :: cs, v :: st, b => (b c == v) && ctlMatch cs st b

/-! ### Agreement of basis states -/

/-- `b` and `c` agree on `S`. -/
def Agree (S : Set Q) (b c : Q → Bool) : Prop := ∀ q ∈ S, b q = c q

/-- A summand `d(b) ψ(f b)` of an operator acting on the qubits `S` only. -/
structure Term (S : Set Q) where
  d : (Q → Bool) → ℂ
  f : (Q → Bool) → (Q → Bool)
  hd : ∀ b c, Agree S b c → d b = d c
  hf : ∀ b c, Agree S b c → Agree S (f b) (f c)
  out : ∀ b q, q ∉ S → f b q = b q

/-- The value of a sum of terms. -/
def Term.sum {S : Set Q} (l : List (Term S)) (ψ : Amp Q) (b : Q → Bool) : ℂ :=
  (l.map fun t => t.d b * ψ (t.f b)).sum

/-- `T` is a linear operator acting on the qubits `S` only. -/
def Loc (S : Set Q) (T : Amp Q → Amp Q) : Prop :=
  ∃ l : List (Term S), ∀ ψ b, T ψ b = Term.sum l ψ b

theorem Agree.mono {S S' : Set Q} (h : S ⊆ S') {b c : Q → Bool} (hb : Agree S' b c) : Agree S b c :=
  fun q hq => hb q (h hq)

/-- Enlarge the support. -/
def Term.mono {S S' : Set Q} (h : S ⊆ S') (t : Term S) : Term S' where
  d := t.d
  f := t.f
  hd b c hb := t.hd b c (hb.mono h)
  hf b c hb q hq := by
    by_cases hqs : q ∈ S
    · exact t.hf b c (hb.mono h) q hqs
    · rw [t.out b q hqs, t.out c q hqs]; exact hb q hq
  out b q hq := t.out b q fun h' => hq (h h')

theorem Loc.mono {S S' : Set Q} (h : S ⊆ S') {T : Amp Q → Amp Q} (hT : Loc S T) : Loc S' T := by
  obtain ⟨l, hl⟩ := hT
  refine ⟨l.map (Term.mono h), fun ψ b => ?_⟩
  rw [hl]
  simp only [Term.sum, List.map_map]
  rfl

theorem Loc.id (S : Set Q) : Loc S (fun ψ => ψ) :=
  ⟨[⟨fun _ => 1, fun b => b, fun _ _ _ => rfl, fun _ _ h => h, fun _ _ _ => rfl⟩],
    fun ψ b => by simp [Term.sum]⟩

/-- A locally acting operator only looks at basis states that agree outside its support. -/
theorem Loc.dep {S : Set Q} {T : Amp Q → Amp Q} (hT : Loc S T) {ψ φ : Amp Q} {b : Q → Bool}
    (h : ∀ c, Agree Sᶜ c b → ψ c = φ c) : T ψ b = T φ b := by
  obtain ⟨l, hl⟩ := hT
  rw [hl, hl]
  unfold Term.sum
  congr 1
  apply List.map_congr_left
  intro t _
  rw [h (t.f b) (fun q hq => t.out b q hq)]

theorem sum_flatMap {α : Type*} (l : List α) (g : α → List ℂ) :
    (l.flatMap g).sum = (l.map fun a => (g a).sum).sum := by
  induction l with
  | nil => rfl
  | cons a l ih => simp [ih]

theorem Loc.comp {S : Set Q} {T U : Amp Q → Amp Q} (hT : Loc S T) (hU : Loc S U) :
    Loc S (fun ψ => T (U ψ)) := by
  obtain ⟨l, hl⟩ := hT
  obtain ⟨m, hm⟩ := hU
  refine ⟨l.flatMap fun t => m.map fun u =>
    ⟨fun b => t.d b * u.d (t.f b), fun b => u.f (t.f b),
      fun b c h => by rw [t.hd b c h, u.hd _ _ (t.hf b c h)],
      fun b c h => u.hf _ _ (t.hf b c h),
      fun b q hq => by rw [u.out _ q hq, t.out b q hq]⟩, fun ψ b => ?_⟩
  change T (U ψ) b = _
  rw [hl]
  simp only [Term.sum, List.map_flatMap, List.map_map, sum_flatMap]
  congr 1
  apply List.map_congr_left
  intro t _
  rw [hm]
  simp only [Term.sum]
  rw [← List.sum_map_mul_left]
  congr 1
  apply List.map_congr_left
  intro u _
  simp [mul_assoc]

/-- Operators acting on disjoint qubits commute. -/
theorem Loc.comm {S S' : Set Q} (hd : Disjoint S S') {T U : Amp Q → Amp Q} (hT : Loc S T)
    (hU : Loc S' U) (ψ : Amp Q) : T (U ψ) = U (T ψ) := by
  obtain ⟨l, hl⟩ := hT
  obtain ⟨m, hm⟩ := hU
  have hn : ∀ q, q ∈ S → q ∉ S' := fun q h h' => Set.disjoint_left.1 hd h h'
  funext b
  rw [hl, hm]
  have e1 : Term.sum l (U ψ) b
      = (l.map fun t => (m.map fun u => t.d b * (u.d b * ψ (u.f (t.f b)))).sum).sum := by
    unfold Term.sum
    congr 1
    apply List.map_congr_left
    intro t _
    rw [hm]
    unfold Term.sum
    rw [← List.sum_map_mul_left]
    congr 1
    apply List.map_congr_left
    intro u _
    rw [u.hd (t.f b) b (fun q hq => t.out b q fun h => hn q h hq)]
  have e2 : Term.sum m (T ψ) b
      = (m.map fun u => (l.map fun t => t.d b * (u.d b * ψ (u.f (t.f b)))).sum).sum := by
    unfold Term.sum
    congr 1
    apply List.map_congr_left
    intro u _
    rw [hl]
    unfold Term.sum
    rw [← List.sum_map_mul_left]
    congr 1
    apply List.map_congr_left
    intro t _
    have hc : u.f (t.f b) = t.f (u.f b) := by
      funext q
      by_cases hq : q ∈ S
      · rw [u.out _ q (hn q hq)]
        exact t.hf b (u.f b) (fun p hp => (u.out b p (hn p hp)).symm) q hq
      · rw [t.out _ q hq]
        by_cases hq' : q ∈ S'
        · exact u.hf (t.f b) b (fun p hp => t.out b p fun h => hn p h hp) q hq'
        · rw [u.out _ q hq', u.out _ q hq', t.out _ q hq]
    rw [t.hd (u.f b) b (fun p hp => u.out b p (hn p hp)), hc]
    ring
  rw [e1, e2]
  clear e1 e2 hl hm
  induction l with
  | nil => simp
  | cons t l ih =>
    simp only [List.map_cons, List.sum_cons, ih]
    rw [← List.sum_map_add]

theorem Loc.add {S : Set Q} {T : Amp Q → Amp Q} (hT : Loc S T) (ψ φ : Amp Q) :
    T (ψ + φ) = T ψ + T φ := by
  obtain ⟨l, hl⟩ := hT
  funext b
  rw [Pi.add_apply, hl, hl, hl]
  unfold Term.sum
  rw [← List.sum_map_add]
  congr 1
  apply List.map_congr_left
  intro t _
  rw [Pi.add_apply]; ring

theorem Loc.smul {S : Set Q} {T : Amp Q → Amp Q} (hT : Loc S T) (a : ℂ) (ψ : Amp Q) :
    T (a • ψ) = a • T ψ := by
  obtain ⟨l, hl⟩ := hT
  funext b
  rw [Pi.smul_apply, hl, hl]
  unfold Term.sum
  rw [smul_eq_mul, ← List.sum_map_mul_left]
  congr 1
  apply List.map_congr_left
  intro t _
  rw [Pi.smul_apply, smul_eq_mul]; ring

/-! ### Locality of the building blocks -/

theorem Loc.mux {S : Set Q} {M : (Q → Bool) → M2} {q : Q} (hq : q ∈ S)
    (hM : ∀ b c, Agree S b c → M b = M c) : Loc S (mux M q) := by
  have hf : ∀ v : Bool, ∀ b c : Q → Bool, Agree S b c → Agree S (upd b q v) (upd c q v) := by
    intro v b c h p hp
    unfold upd
    split
    · rfl
    · exact h p hp
  have hout : ∀ v : Bool, ∀ (b : Q → Bool) p, p ∉ S → upd b q v p = b p := by
    intro v b p hp
    have : p ≠ q := fun e => hp (e ▸ hq)
    simp [upd, this]
  refine ⟨[⟨fun b => M b (b q) false, fun b => upd b q false, fun b c h => by
      rw [hM b c h, h q hq], hf false, hout false⟩,
    ⟨fun b => M b (b q) true, fun b => upd b q true, fun b c h => by
      rw [hM b c h, h q hq], hf true, hout true⟩], fun ψ b => ?_⟩
  simp [Term.sum, Circ.mux]

theorem Loc.app1 (U : M2) (q : Q) : Loc {q} (app1 U q) :=
  Loc.mux (Set.mem_singleton q) fun _ _ _ => rfl

theorem Loc.ctl {S : Set Q} {T : Amp Q → Amp Q} (hT : Loc S T) {p : (Q → Bool) → Bool}
    (hp : ∀ b c, Agree S b c → p b = p c) : Loc S (ctl p T) := by
  obtain ⟨l, hl⟩ := hT
  refine ⟨⟨fun b => if p b then 0 else 1, fun b => b, fun b c h => by rw [hp b c h],
      fun _ _ h => h, fun _ _ _ => rfl⟩ ::
    l.map fun t => ⟨fun b => if p b then t.d b else 0, t.f, fun b c h => by
      rw [hp b c h, t.hd b c h], t.hf, t.out⟩, fun ψ b => ?_⟩
  simp only [Circ.ctl, hl, Term.sum, List.map_cons, List.map_map, List.sum_cons]
  cases hb : p b
  · simp only [Bool.false_eq_true, if_false, one_mul]
    have : ((l.map fun t => (if false = true then t.d b else 0) * ψ (t.f b))).sum = 0 := by
      induction l with
      | nil => rfl
      | cons t l ih => simp
    simp [Function.comp_def, hb]
  · simp [Function.comp_def, hb]

theorem Loc.diag {S : Set Q} {d : (Q → Bool) → ℂ} (hd : ∀ b c, Agree S b c → d b = d c) :
    Loc S (diag d) :=
  ⟨[⟨d, fun b => b, hd, fun _ _ h => h, fun _ _ _ => rfl⟩], fun ψ b => by simp [Term.sum, Circ.diag]⟩

theorem ctlMatch_agree (cs : List Q) (st : List Bool) {b c : Q → Bool}
    (h : ∀ q ∈ cs, b q = c q) : ctlMatch cs st b = ctlMatch cs st c := by
  induction cs generalizing st with
  | nil => rfl
  | cons a cs ih =>
    match st with
    | [] => rfl
    | v :: st =>
      simp only [ctlMatch]
      rw [h a (by simp), ih st fun q hq => h q (by simp [hq])]

/-! ### Composition rules -/

theorem upd_upd (b : Q → Bool) (q : Q) (v w : Bool) : upd (upd b q v) q w = upd b q w := by
  funext p; unfold upd; split <;> rfl

theorem upd_self (b : Q → Bool) (q : Q) : upd b q (b q) = b := by
  funext p; unfold upd; split
  · next h => rw [h]
  · rfl

theorem upd_same (b : Q → Bool) (q : Q) (v : Bool) : upd b q v q = v := by simp [upd]

/-- Multiplexed gates on the same qubit compose by matrix multiplication. -/
theorem mux_mux (M N : (Q → Bool) → M2) (q : Q) (hN : ∀ b v, N (upd b q v) = N b) (ψ : Amp Q) :
    mux M q (mux N q ψ) = mux (fun b => M b * N b) q ψ := by
  funext b
  simp only [mux, hN, upd_same, upd_upd, Matrix.mul_apply, Fintype.sum_bool]
  ring

theorem mux_congr {M N : (Q → Bool) → M2} (q : Q) (h : ∀ b, M b = N b) : mux M q = mux N q := by
  have : M = N := funext h
  rw [this]

theorem mux_one (q : Q) (ψ : Amp Q) : mux (fun _ => 1) q ψ = ψ := by
  funext b
  simp only [mux]
  conv_rhs => rw [← upd_self b q]
  cases b q <;> simp [Matrix.one_apply]

theorem app1_app1 (U V : M2) (q : Q) (ψ : Amp Q) : app1 U q (app1 V q ψ) = app1 (U * V) q ψ :=
  mux_mux _ _ q (fun _ _ => rfl) ψ

theorem app1_one (q : Q) (ψ : Amp Q) : app1 1 q ψ = ψ := mux_one q ψ

/-- A controlled single qubit gate is a multiplexed gate. -/
theorem ctl_app1 (p : (Q → Bool) → Bool) (U : M2) (q : Q) :
    ctl p (app1 U q) = mux (fun b => if p b then U else 1) q := by
  funext ψ b
  simp only [ctl, app1, mux]
  cases p b
  · have := congrFun (mux_one q ψ) b
    simp only [mux] at this
    simp [this]
  · simp

/-- Controls distribute over composition when the control does not look at the target qubits. -/
theorem ctl_comp {S : Set Q} {T U : Amp Q → Amp Q} (hT : Loc S T) {p : (Q → Bool) → Bool}
    (hp : ∀ b c, Agree Sᶜ b c → p b = p c) (ψ : Amp Q) :
    ctl p T (ctl p U ψ) = ctl p (fun ψ => T (U ψ)) ψ := by
  funext b
  unfold ctl
  cases hb : p b
  · simp [hb]
  · simp only [if_true]
    apply hT.dep
    intro c hc
    rw [hp c b hc, hb]
    simp

theorem ctl_id (p : (Q → Bool) → Bool) (ψ : Amp Q) : ctl p (fun ψ => ψ) ψ = ψ := by
  funext b; simp [ctl]

theorem ctl_ctl (p r : (Q → Bool) → Bool) (T : Amp Q → Amp Q) (ψ : Amp Q) :
    ctl p (ctl r T) ψ = ctl (fun b => p b && r b) T ψ := by
  funext b
  unfold ctl
  rcases Bool.eq_false_or_eq_true (p b) with h | h <;>
    rcases Bool.eq_false_or_eq_true (r b) with h' | h' <;> simp [h, h']

theorem diag_diag (d e : (Q → Bool) → ℂ) (ψ : Amp Q) :
    diag d (diag e ψ) = diag (fun b => d b * e b) ψ := by
  funext b; simp [diag, mul_assoc]

end Verif.Circ
