import Mathlib.Data.List.Sort
import Verif.Sbp.Compare

/-!
# Comparisons with classical numbers, and the derived comparisons

Models the rest of `less_than` and `lt`, `gt`, `geq`, `leq` (alg_primitives/arithmetic/comparisons.py). Numbers are
rational: the rounding of float64 is left out (labels of floats with at most 53 mantissa qubits are exact).
-/

set_option linter.unusedSectionVars false

namespace Verif.Sbp

open Verif.Rev Verif.Fourier Verif.Iter Verif.Props

variable {Q : Type} [DecidableEq Q]

/-- An X gate. -/
def xGate (t : Q) : SOp Q := .mcx (fun _ => 1) [] t

/-- The integer of the code `i` (quantum_float.py:370-380). -/
def codeInt (n : ℕ) (signed : Bool) (i : ℕ) : ℤ := if signed && decide (2 ^ n ≤ 2 * i) then i - 2 ^ n else i

/-- The sorted labels (comparisons.py:142-143). -/
def labels (a : QF Q) : List ℚ :=
  ((List.range (2 ^ a.reg.length)).map fun i : ℕ => (codeInt a.reg.length a.signed i : ℚ) * 2 ^ a.exp).insertionSort
    (· ≤ ·)

/-- The search for the next label (comparisons.py:150-153). -/
def nextLabel (c : ℚ) : List ℚ → Option ℚ
  | x :: y :: r => if x < c ∧ c ≤ y then some y else nextLabel c (y :: r)
  | _ => none

/-- `less_than(a, c)` for a number `c` (comparisons.py:141-174). `always_true` is a flip of the new bool,
`always_false` does nothing. -/
def ltNum (f : List Q → St Q → ℂ) (d anc res : Q) (fresh : List Q) (a : QF Q) (c : ℚ) : Option (List (SOp Q)) :=
  if (labels a).getLastD 0 < c then some [xGate res]
  else if c ≤ (labels a).headD 0 then some []
  else ltGate f d anc res fresh a (.num ((nextLabel c (labels a)).getD ((labels a).getLastD 0)))

/-- `less_than(c, b)` for a number `c` (comparisons.py:176-192). -/
def numLt (f : List Q → St Q → ℂ) (d anc res : Q) (fresh : List Q) (c : ℚ) (b : QF Q) : Option (List (SOp Q)) :=
  if b.signed then
    (ltNum f d anc res fresh b (-c - 2 ^ b.exp)).map fun g => b.reg.map xGate ++ g ++ b.reg.map xGate
  else match fresh with
    | [] => none
    | sg :: fresh =>
      let b' : QF Q := { reg := b.reg ++ [sg], exp := b.exp, signed := true }
      (ltNum f d anc res fresh b' (-c - 2 ^ b.exp)).map fun g => b'.reg.map xGate ++ g ++ b'.reg.map xGate

/-- `less_than` (comparisons.py:117-192). `None` for two numbers. -/
def lessThan (f : List Q → St Q → ℂ) (d anc res : Q) (fresh : List Q) : Operand Q → Operand Q → Option (List (SOp Q))
  | .qf a, .qf b => ltGate f d anc res fresh a (.qf b)
  | .qf a, .num c => ltNum f d anc res fresh a c
  | .num c, .qf b => numLt f d anc res fresh c b
  | .num _, .num _ => none

/-- The order comparisons. -/
inductive Cmp where
  | lt | gt | ge | le
deriving DecidableEq, Repr

/-- `lt`, `gt`, `geq`, `leq` (comparisons.py:266-284). -/
def Cmp.gates (f : List Q → St Q → ℂ) (d anc res : Q) (fresh : List Q) (a b : Operand Q) : Cmp → Option (List (SOp Q))
  | .lt => lessThan f d anc res fresh a b
  | .gt => lessThan f d anc res fresh b a
  | .ge => (lessThan f d anc res fresh a b).map fun g => g ++ [xGate res]
  | .le => (lessThan f d anc res fresh b a).map fun g => g ++ [xGate res]

/-! ### X gates -/

theorem mapsTo_x {anc t : Q} (h : anc ≠ t) : MapsTo anc [xGate t] fun s => upd s t (!s t) := by
  intro ψ hψ
  have hstep : ∀ s, runS [xGate t] ψ s = ψ (upd s t (!s t)) := fun s => by
    show 1 * ψ (flipIf [] t s) = _
    rw [one_mul]
    unfold flipIf
    simp
  refine ⟨fun s hs => ?_, fun s => ?_⟩
  · rw [hstep]
    exact hψ _ (by rw [upd_ne h]; exact hs)
  · rw [hstep]
    congr 1
    funext q
    by_cases hq : q = t
    · subst hq; simp [upd_same]
    · rw [upd_ne hq]
      exact upd_ne hq

theorem mapsTo_xs {anc : Q} : ∀ {ts : List Q}, ts.Nodup → anc ∉ ts →
    ∃ step, MapsTo anc (ts.map xGate) step ∧
      ∀ s, (∀ q, q ∉ ts → step s q = s q) ∧ ∀ q ∈ ts, step s q = !s q
  | [], _, _ => ⟨fun s => s, fun ψ hψ => ⟨hψ, fun s => rfl⟩, fun s => ⟨fun _ _ => rfl, by simp⟩⟩
  | t :: ts, hn, ha => by
    obtain ⟨step, M, P⟩ := mapsTo_xs (anc := anc) (List.nodup_cons.1 hn).2 fun h => ha (List.mem_cons_of_mem _ h)
    have M0 := mapsTo_x (anc := anc) (t := t) fun h => ha (h ▸ List.mem_cons_self)
    refine ⟨fun s => step (upd s t (!s t)), MapsTo.append M0 M, fun s => ⟨fun q hq => ?_, fun q hq => ?_⟩⟩
    · rw [List.mem_cons, not_or] at hq
      show step _ q = _
      rw [(P _).1 q hq.2, upd_ne hq.1]
    · show step _ q = _
      rcases List.mem_cons.1 hq with h | h
      · subst h
        rw [(P _).1 q (List.nodup_cons.1 hn).1, upd_same]
      · have hne : q ≠ t := fun e => (List.nodup_cons.1 hn).1 (e ▸ h)
        rw [(P _).2 q h, upd_ne hne]

/-! ### Labels -/

theorem codeInt_range {n : ℕ} {sg : Bool} (h : sg = true → n ≠ 0) {i : ℕ} (hi : i < 2 ^ n) :
    -2 ^ (n - sg.toNat) ≤ codeInt n sg i ∧ codeInt n sg i < 2 ^ (n - sg.toNat) := by
  unfold codeInt
  cases sg
  · simp only [Bool.false_and, Bool.false_eq_true, if_false, Bool.toNat_false, Nat.sub_zero]
    have : (i : ℤ) < 2 ^ n := by exact_mod_cast hi
    constructor <;> omega
  · obtain ⟨m, rfl⟩ := Nat.exists_eq_succ_of_ne_zero (h rfl)
    simp only [Bool.true_and, decide_eq_true_eq, Bool.toNat_true, Nat.succ_eq_add_one, Nat.add_sub_cancel]
    have h1 : (i : ℤ) < 2 ^ (m + 1) := by exact_mod_cast hi
    rw [pow_succ] at *
    by_cases h2 : 2 ^ m * 2 ≤ 2 * i
    · rw [if_pos h2]
      have h3 : (2 : ℤ) ^ m * 2 ≤ 2 * i := by exact_mod_cast h2
      constructor <;> omega
    · rw [if_neg h2]
      have h3 : (2 * i : ℤ) < 2 ^ m * 2 := by exact_mod_cast not_le.1 h2
      constructor <;> omega

theorem mem_labels {a : QF Q} {v : ℚ} :
    v ∈ labels a ↔ ∃ i < 2 ^ a.reg.length, v = (codeInt a.reg.length a.signed i : ℚ) * 2 ^ a.exp := by
  unfold labels
  rw [List.mem_insertionSort, List.mem_map]
  constructor
  · rintro ⟨i, hi, rfl⟩
    exact ⟨i, List.mem_range.1 hi, rfl⟩
  · rintro ⟨i, hi, rfl⟩
    exact ⟨i, List.mem_range.2 hi, rfl⟩

theorem qval_mem_labels (a : QF Q) (s : St Q) : qval a s ∈ labels a := by
  rw [mem_labels]
  refine ⟨valL a.reg s, valL_lt a.reg s, ?_⟩
  unfold qval ival codeInt
  congr 1

theorem labels_sorted (a : QF Q) : (labels a).Pairwise (· ≤ ·) := List.pairwise_insertionSort _ _

theorem nextLabel_spec {c : ℚ} : ∀ {L : List ℚ}, L.Pairwise (· ≤ ·) → L.headD 0 < c → c ≤ L.getLastD 0 → L ≠ [] →
    ∃ y ∈ L, nextLabel c L = some y ∧ ∀ v ∈ L, v < c ↔ v < y
  | [], _, _, _, h => absurd rfl h
  | [x], _, h1, h2, _ => absurd (lt_of_lt_of_le h1 h2) (lt_irrefl _)
  | x :: y :: r, hp, h1, h2, _ => by
    have hp' := List.pairwise_cons.1 hp
    have hp'' := List.pairwise_cons.1 hp'.2
    have h1' : x < c := h1
    unfold nextLabel
    by_cases hc : c ≤ y
    · rw [if_pos ⟨h1', hc⟩]
      refine ⟨y, by simp, rfl, fun v hv => ?_⟩
      rcases List.mem_cons.1 hv with rfl | hv
      · exact ⟨fun _ => lt_of_lt_of_le h1' hc, fun _ => h1'⟩
      · have hy : y ≤ v := by
          rcases List.mem_cons.1 hv with rfl | hv
          · exact le_refl _
          · exact hp''.1 v hv
        exact ⟨fun h => absurd (lt_of_lt_of_le h hc) (not_lt.2 hy), fun h => absurd h (not_lt.2 hy)⟩
    · rw [if_neg fun h => hc h.2]
      have hyc : y < c := not_le.1 hc
      have h2' : c ≤ (y :: r).getLastD 0 := by
        have : (x :: y :: r).getLastD 0 = (y :: r).getLastD 0 := by simp [List.getLastD]
        rwa [this] at h2
      obtain ⟨z, hz, e, hv⟩ := nextLabel_spec hp'.2 hyc h2' (by simp)
      refine ⟨z, List.mem_cons_of_mem _ hz, e, fun v hm => ?_⟩
      rcases List.mem_cons.1 hm with rfl | hm
      · have : v < z := lt_of_le_of_lt (hp'.1 y (by simp)) ((hv y (by simp)).1 hyc)
        exact ⟨fun _ => this, fun _ => h1'⟩
      · exact hv v hm

theorem le_getLastD : ∀ {L : List ℚ}, L.Pairwise (· ≤ ·) → ∀ v ∈ L, v ≤ L.getLastD 0
  | [], _, v, h => absurd h (by simp)
  | [x], _, v, h => by rw [List.mem_singleton.1 h]; exact le_refl _
  | x :: y :: r, hp, v, h => by
    have hp' := List.pairwise_cons.1 hp
    have : (x :: y :: r).getLastD 0 = (y :: r).getLastD 0 := by simp [List.getLastD]
    rw [this]
    rcases List.mem_cons.1 h with rfl | h
    · exact le_trans (hp'.1 y (by simp)) (le_getLastD hp'.2 y (by simp))
    · exact le_getLastD hp'.2 v h

theorem headD_le {L : List ℚ} (hp : L.Pairwise (· ≤ ·)) {v : ℚ} (h : v ∈ L) : L.headD 0 ≤ v := by
  rcases L with _ | ⟨x, L⟩
  · cases h
  · rcases List.mem_cons.1 h with rfl | h
    · exact le_refl _
    · exact (List.pairwise_cons.1 hp).1 v h

/-! ### Comparison with a number -/

theorem ltNum_spec {f : List Q → St Q → ℂ} (hf : ∀ cs s, f cs s ≠ 0) {d anc res : Q} {fresh : List Q} {a : QF Q}
    (hA : (anc :: res :: a.reg ++ fresh).Nodup) (hsa : a.signed = true → a.reg ≠ []) (hfr : 1 ≤ fresh.length) (c : ℚ) :
    ∃ os, ltNum f d anc res fresh a c = some os ∧ ∃ step, MapsTo anc os step ∧
      ∀ s, (∀ q ∈ fresh, s q = false) → s res = false → step s = upd s res (decide (qval a s < c)) := by
  have hs := labels_sorted a
  have hne : labels a ≠ [] := List.ne_nil_of_mem (qval_mem_labels a fun _ => false)
  have har : anc ≠ res := by
    intro h
    exact (List.nodup_cons.1 hA).1 (by rw [h]; simp)
  unfold ltNum
  by_cases h1 : (labels a).getLastD 0 < c
  · rw [if_pos h1]
    refine ⟨_, rfl, _, mapsTo_x har, fun s hz hr => ?_⟩
    have : qval a s < c := lt_of_le_of_lt (le_getLastD hs _ (qval_mem_labels a s)) h1
    rw [hr, decide_eq_true this]
    rfl
  · rw [if_neg h1]
    by_cases h2 : c ≤ (labels a).headD 0
    · rw [if_pos h2]
      refine ⟨_, rfl, fun s => s, fun ψ hψ => ⟨hψ, fun s => rfl⟩, fun s hz hr => ?_⟩
      have : ¬ qval a s < c := not_lt.2 (le_trans h2 (headD_le hs (qval_mem_labels a s)))
      rw [decide_eq_false this]
      funext q
      by_cases hq : q = res
      · subst hq; rw [upd_same]; exact hr
      · rw [upd_ne hq]
    · rw [if_neg h2]
      obtain ⟨y, hy, e, hv⟩ := nextLabel_spec hs (not_le.1 h2) (not_lt.1 h1) hne
      rw [e, Option.getD_some]
      obtain ⟨i, hi, hyi⟩ := mem_labels.1 hy
      have hr := codeInt_range (fun h => by
        intro h0; exact hsa h (List.length_eq_zero_iff.1 h0)) hi
      obtain ⟨os, ho, step, M, P⟩ := ltGate_spec hf (d := d) (b := .num y)
        ⟨hA, fun q hq => by cases hq⟩ hsa (fun _ h => by cases h) (by show 1 + 0 ≤ _; omega)
        (fun c' hc' => by
          cases hc'
          exact ⟨_, hyi, hr.1, hr.2⟩)
      refine ⟨os, ho, step, M, fun s hz hr => ?_⟩
      rw [P s hz hr]
      congr 1
      show decide (qval a s < y) = _
      rw [decide_eq_decide, hv _ (qval_mem_labels a s)]

theorem bitsVal_not : ∀ B : List Bool, (bitsVal (B.map (!·)) : ℤ) = 2 ^ B.length - 1 - bitsVal B
  | [] => by simp [bitsVal]
  | b :: B => by
    have ih := bitsVal_not B
    simp only [List.map_cons, bitsVal, List.length_cons]
    push_cast
    rw [ih]
    cases b <;> simp <;> ring

theorem ival_not {b : QF Q} (hs : b.signed = true) (hne : b.reg ≠ []) {s t : St Q} (h : ∀ q ∈ b.reg, t q = !s q) :
    ival b t = -ival b s - 1 := by
  obtain ⟨B, σ, hB⟩ : ∃ B σ, b.reg.map s = B ++ [σ] := by
    have : b.reg.map s ≠ [] := by simpa using hne
    exact ⟨_, _, (List.dropLast_append_getLast this).symm⟩
  have ht : b.reg.map t = B.map (!·) ++ [!σ] := by
    have : b.reg.map t = (b.reg.map s).map (!·) := by
      rw [List.map_map]; exact List.map_congr_left h
    rw [this, hB, List.map_append]; rfl
  rw [ival_signed hs hB, ival_signed hs ht, bitsVal_not, List.length_map]
  cases σ <;> simp <;> ring

theorem qval_not {b : QF Q} (hs : b.signed = true) (hne : b.reg ≠ []) {s t : St Q} (h : ∀ q ∈ b.reg, t q = !s q) :
    qval b t = -qval b s - 2 ^ b.exp := by
  unfold qval
  rw [ival_not hs hne h]
  push_cast
  ring

theorem numLt_core {f : List Q → St Q → ℂ} (hf : ∀ cs s, f cs s ≠ 0) {d anc res : Q} {fresh : List Q} {b : QF Q}
    (hA : (anc :: res :: b.reg ++ fresh).Nodup) (hs : b.signed = true) (hne : b.reg ≠ []) (hfr : 1 ≤ fresh.length) (c : ℚ) :
    ∃ os, (ltNum f d anc res fresh b (-c - 2 ^ b.exp)).map (fun g => b.reg.map xGate ++ g ++ b.reg.map xGate) = some os ∧
      ∃ step, MapsTo anc os step ∧
      ∀ s, (∀ q ∈ fresh, s q = false) → s res = false → step s = upd s res (decide (c < qval b s)) := by
  obtain ⟨os, ho, step, M, P⟩ := ltNum_spec hf (d := d) hA (fun _ => hne) hfr (-c - 2 ^ b.exp)
  have hA' := hA
  simp only [List.cons_append, List.nodup_cons, List.mem_cons, List.mem_append, not_or, List.nodup_append] at hA'
  obtain ⟨⟨h1, h2, h3⟩, ⟨h4, h5⟩, h6, h7, h8⟩ := hA'
  obtain ⟨st, M1, P1⟩ := mapsTo_xs (anc := anc) h6 h2
  refine ⟨_, by rw [ho]; rfl, _, MapsTo.append (MapsTo.append M1 M) M1, fun s hz hr => ?_⟩
  show st (step (st s)) = _
  rw [P (st s) (fun q hq => by rw [(P1 s).1 q fun h => h8 q h q hq rfl, hz q hq]) (by rw [(P1 s).1 res h4, hr])]
  have hv : (qval b (st s) < -c - 2 ^ b.exp) ↔ c < qval b s := by
    rw [qval_not hs hne (P1 s).2]
    constructor <;> intro h <;> linarith
  rw [decide_eq_decide.2 hv]
  funext q
  by_cases hq : q = res
  · subst hq
    rw [(P1 _).1 q h4, upd_same, upd_same]
  · rw [upd_ne hq]
    by_cases hb : q ∈ b.reg
    · rw [(P1 _).2 q hb, upd_ne hq, (P1 s).2 q hb, Bool.not_not]
    · rw [(P1 _).1 q hb, upd_ne hq, (P1 s).1 q hb]

theorem numLt_spec {f : List Q → St Q → ℂ} (hf : ∀ cs s, f cs s ≠ 0) {d anc res : Q} {fresh : List Q} {b : QF Q}
    (hA : (anc :: res :: b.reg ++ fresh).Nodup) (hsb : b.signed = true → b.reg ≠ []) (hfr : 2 ≤ fresh.length) (c : ℚ) :
    ∃ os, numLt f d anc res fresh c b = some os ∧ ∃ step, MapsTo anc os step ∧
      ∀ s, (∀ q ∈ fresh, s q = false) → s res = false → step s = upd s res (decide (c < qval b s)) := by
  unfold numLt
  by_cases hs : b.signed = true
  · rw [if_pos hs]
    exact numLt_core hf hA hs (hsb hs) (by omega) c
  · rw [if_neg hs]
    rcases fresh with _ | ⟨sg, fresh⟩
    · simp at hfr
    simp only []
    have hA2 : (anc :: res :: (b.reg ++ [sg]) ++ fresh).Nodup := by
      simpa [List.append_assoc] using hA
    obtain ⟨os, ho, step, M, P⟩ := numLt_core hf (d := d) (b := { reg := b.reg ++ [sg], exp := b.exp, signed := true }) hA2 rfl
      (by simp) (by simp only [List.length_cons] at hfr; omega) c
    refine ⟨os, ho, step, M, fun s hz hr => ?_⟩
    rw [P s (fun q hq => hz q (List.mem_cons_of_mem _ hq)) hr]
    have hv : qval { reg := b.reg ++ [sg], exp := b.exp, signed := true } s = qval b s := by
      unfold qval
      rw [ival_signed (B := b.reg.map s) (σ := s sg) rfl (by simp), ival_unsigned (by simpa using hs), hz sg (by simp)]
      simp
    rw [hv]

theorem lessThan_spec {f : List Q → St Q → ℂ} (hf : ∀ cs s, f cs s ≠ 0) {d anc res : Q} {a b : Operand Q}
    (hq : ∀ c e, ¬ (a = .num c ∧ b = .num e))
    (hs : ∀ y, a = .qf y ∨ b = .qf y → y.signed = true → y.reg ≠ []) :
    ∃ N, ∀ fresh, N ≤ fresh.length → (anc :: res :: (a.qubits ++ b.qubits) ++ fresh).Nodup →
      ∃ os, lessThan f d anc res fresh a b = some os ∧ ∃ step, MapsTo anc os step ∧
        ∀ s, (∀ q ∈ fresh, s q = false) → s res = false → step s = upd s res (decide (a.val s < b.val s)) := by
  rcases a with a | c <;> rcases b with b | e
  · refine ⟨addUp a (.qf b) + addLow a (.qf b), fun fresh hfr hn => ?_⟩
    refine ltGate_spec hf ⟨?_, ?_⟩ (hs a (Or.inl rfl)) (fun y h => by cases h; exact hs b (Or.inr rfl)) hfr
      (fun c h => by cases h)
    · refine hn.sublist ?_
      show (anc :: res :: (a.reg ++ fresh)).Sublist (anc :: res :: (a.reg ++ b.reg ++ fresh))
      rw [List.append_assoc]
      exact ((List.sublist_append_right _ _).append_left _ |>.cons_cons _).cons_cons _
    · intro q hq hm
      have hn' : (anc :: res :: (a.reg ++ b.reg) ++ fresh).Nodup := hn
      have hq' : q ∈ b.reg := hq
      simp only [List.cons_append, List.nodup_cons, List.mem_cons, List.mem_append, not_or, List.nodup_append] at hn' hm
      obtain ⟨⟨h1, ⟨h2, h3⟩, h4⟩, ⟨⟨h5, h6⟩, h7⟩, ⟨h8, h9, h10⟩, h11, h12⟩ := hn'
      rcases hm with h | h | h | h
      · exact h3 (h ▸ hq')
      · exact h6 (h ▸ hq')
      · exact h10 q h q hq' rfl
      · exact h12 q (Or.inr hq') q h rfl
  · refine ⟨1, fun fresh hfr hn => ?_⟩
    refine ltNum_spec hf ?_ (hs a (Or.inl rfl)) hfr e
    simpa [Operand.qubits] using hn
  · refine ⟨2, fun fresh hfr hn => ?_⟩
    refine numLt_spec hf ?_ (hs b (Or.inr rfl)) hfr c
    simpa [Operand.qubits] using hn
  · exact absurd ⟨rfl, rfl⟩ (hq c e)

/-- Specification: the comparison of two numbers. -/
def Cmp.holds : Cmp → ℚ → ℚ → Prop
  | .lt, x, y => x < y
  | .gt, x, y => x > y
  | .ge, x, y => x ≥ y
  | .le, x, y => x ≤ y

instance (c : Cmp) (x y : ℚ) : Decidable (c.holds x y) := by
  cases c <;> unfold Cmp.holds <;> infer_instance

theorem upd_not {s : St Q} {q : Q} {v w : Bool} (h : w = !v) : upd (upd s q v) q (!(upd s q v) q) = upd s q w := by
  funext p
  by_cases hp : p = q
  · subst hp; rw [upd_same, upd_same, upd_same, h]
  · rw [upd_ne hp, upd_ne hp, upd_ne hp]

end Verif.Sbp
