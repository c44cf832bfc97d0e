import Verif.Oper.Term
import Mathlib.Data.Nat.Bitwise

/-!
Measurement post-processing (src/qrisp/operators/qubit/qubit_term.py lines 135-194,
src/qrisp/operators/qubit/measurement.py lines 271-307).
-/

namespace Verif.Oper

/-- The variables of the loop of `serialize`. -/
structure Ser where
  z : Nat
  and_ : Nat
  ctrl : Nat
  last : Option Nat

/-- One iteration of the loop of `QubitTerm.serialize` (lines 160-182). -/
def serStep (s : Ser) (p : Nat × Fac) : Ser :=
  let bit := 1 <<< p.1
  match p.2 with
  | .X | .Y | .Z => { s with z := s.z ||| bit }
  | .C => { s with ctrl := s.ctrl ||| bit, last := some bit, and_ := s.and_ ||| bit }
  | .A => { s with last := some bit, and_ := s.and_ ||| bit }
  | .P0 => { s with and_ := s.and_ ||| bit }
  | .P1 => { s with ctrl := s.ctrl ||| bit, and_ := s.and_ ||| bit }
  | .I => s

/-- `QubitTerm.serialize` (lines 135-194): `(z_int, and_int, ctrl_int, contains_ladder)`. -/
def serialize (t : Term) : Nat × Nat × Nat × Bool :=
  let s := t.foldl serStep ⟨0, 0, 0, none⟩
  match s.last with
  | some bit => (s.z ^^^ bit, s.and_ ^^^ bit, s.ctrl, true)
  | none => (s.z, s.and_, s.ctrl, false)

/-- The bit counting loop (measurement.py lines 284-287). -/
def bitCount (m : Nat) : Nat :=
  if h : m = 0 then 0 else (m &&& 1) + bitCount (m >>> 1)
decreasing_by
  rw [Nat.shiftRight_one]; omega

/-- `evaluate_observable` (measurement.py lines 271-307). -/
def evalObs (o : Nat × Nat × Nat × Bool) (x : Nat) : ℚ :=
  let sign := bitCount (o.1 &&& x)
  let pre : ℚ := if o.2.2.2 then 1 / 2 else 1
  if o.2.1 = 0 then pre * (-1) ^ sign
  else if (x ^^^ o.2.2.1) &&& o.2.1 = 0 then pre * (-1) ^ sign
  else 0

/-! ### Specification -/

/-- The last ladder factor of a term in dictionary order. -/
def lastLadder (t : Term) : Option Nat :=
  ((t.filter fun p => p.2 = .A || p.2 = .C).map Prod.fst).getLast?

/-- The value contributed by a factor when the qubit is measured as `v`: Pauli factors count as Z
in the rotated basis, ladder factors other than the last one as projectors. -/
def facVal : Fac → Bool → ℚ
  | .I, _ => 1
  | .X, v | .Y, v | .Z, v => if v then -1 else 1
  | .A, v | .P0, v => if v then 0 else 1
  | .C, v | .P1, v => if v then 1 else 0

/-- The value of qubit `k`: the last ladder factor counts as Z/2. -/
def qubitVal (t : Term) (x : Nat) (k : Nat) : ℚ :=
  if lastLadder t = some k then 1 / 2 * (if x.testBit k then -1 else 1)
  else facVal (t.get k) (x.testBit k)

/-! ### Bits -/

theorem neg_one_bitCount (n m : Nat) (h : m < 2 ^ n) :
    ((-1 : ℚ)) ^ bitCount m = ∏ k : Fin n, if m.testBit k then (-1 : ℚ) else 1 := by
  induction n generalizing m with
  | zero =>
    have : m = 0 := by simpa using h
    subst this; rw [bitCount]; simp
  | succ n ih =>
    rw [Fin.prod_univ_succ]
    have h2 : m >>> 1 < 2 ^ n := by rw [Nat.shiftRight_one]; rw [Nat.pow_succ] at h; omega
    have hs : ∀ k : Nat, m.testBit (k + 1) = (m >>> 1).testBit k := by
      intro k; rw [Nat.testBit_shiftRight, Nat.add_comm]
    have hb : ((-1 : ℚ)) ^ bitCount m = (-1 : ℚ) ^ (m &&& 1) * (-1 : ℚ) ^ bitCount (m >>> 1) := by
      by_cases hm : m = 0
      · subst hm; simp [bitCount]
      · rw [bitCount, dif_neg hm, pow_add]
    rw [hb, ih _ h2]
    congr 1
    · rw [Nat.and_one_is_mod, Fin.val_zero, Nat.testBit_zero]
      rcases Nat.mod_two_eq_zero_or_one m with h | h <;> simp [h]
    · apply Finset.prod_congr rfl; intro k _; rw [Fin.val_succ, hs]

/-- A product of indicator functions. -/
theorem and_zero_iff (n a y : Nat) (ha : a < 2 ^ n) :
    y &&& a = 0 ↔ ∀ k : Fin n, a.testBit k = true → y.testBit k = false := by
  constructor
  · intro h k hk
    have := congrArg (Nat.testBit · k) h
    simp only [Nat.testBit_and, Nat.zero_testBit, hk, Bool.and_true] at this
    exact this
  · intro h
    apply Nat.eq_of_testBit_eq
    intro k
    rw [Nat.testBit_and, Nat.zero_testBit]
    by_cases hk : a.testBit k = true
    · have hkn : k < n := by
        by_contra hge
        rw [Nat.testBit_lt_two_pow (lt_of_lt_of_le ha (Nat.pow_le_pow_right (by omega) (by omega)))]
          at hk
        simp at hk
      rw [h ⟨k, hkn⟩ hk]; rfl
    · rw [Bool.not_eq_true] at hk; rw [hk, Bool.and_false]

/-! ### The loop invariant -/

/-- Bits of the integers of `serialize`. -/
structure SerInv (t : Term) (s : Ser) : Prop where
  z : ∀ k, s.z.testBit k = (t.get k = .X || t.get k = .Y || t.get k = .Z)
  and_ : ∀ k, s.and_.testBit k = (t.get k = .A || t.get k = .C || t.get k = .P0 || t.get k = .P1)
  ctrl : ∀ k, s.ctrl.testBit k = (t.get k = .C || t.get k = .P1)
  last : s.last = (lastLadder t).map fun k => 2 ^ k
  lad : ∀ k, lastLadder t = some k → t.get k = .A ∨ t.get k = .C

theorem get_snoc {t : Term} {p : Nat × Fac} (h : p.1 ∉ t.keys) (k : Nat) :
    Term.get (t ++ [p]) k = if k = p.1 then p.2 else t.get k := by
  obtain ⟨q, f⟩ := p
  simp only at h ⊢
  rw [get_append]
  by_cases hk : k = q
  · subst hk; rw [if_neg h, if_pos rfl]; simp [Term.get, List.lookup_cons]
  · rw [if_neg hk]
    split
    · rfl
    · next hn =>
      have hb : (k == q) = false := by simpa using hk
      rw [get_notin hn]; simp [Term.get, List.lookup_cons, hb]

theorem lastLadder_snoc (t : Term) (p : Nat × Fac) :
    lastLadder (t ++ [p]) = if p.2 = .A ∨ p.2 = .C then some p.1 else lastLadder t := by
  rw [lastLadder, List.filter_append]
  by_cases h : p.2 = .A ∨ p.2 = .C
  · rw [if_pos h, List.filter_cons_of_pos (by simpa using h)]; simp
  · rw [if_neg h, List.filter_cons_of_neg (by simpa using h)]; simp [lastLadder]

theorem serInv (t : Term) (hw : t.WF) : SerInv t (t.foldl serStep ⟨0, 0, 0, none⟩) := by
  induction t using List.reverseRecOn with
  | nil =>
    constructor <;> simp [Term.get, lastLadder]
  | append_singleton t p ih =>
    have hw' : Term.WF t ∧ p.1 ∉ Term.keys t := by
      simp only [Term.WF, Term.keys, List.map_append, List.map_cons, List.map_nil] at hw ⊢
      rw [List.nodup_append] at hw
      refine ⟨hw.1, fun h => hw.2.2 _ h _ (by simp) rfl⟩
    obtain ⟨hz, ha, hc, hl, hla⟩ := ih hw'.1
    rw [List.foldl_append, List.foldl_cons, List.foldl_nil]
    set s := t.foldl serStep ⟨0, 0, 0, none⟩
    have hg := get_snoc hw'.2
    have hgI : Term.get t p.1 = .I := get_notin hw'.2
    obtain ⟨q, f⟩ := p
    simp only at hg hgI hw'
    have hne : ∀ k, lastLadder t = some k → k ≠ q := by
      rintro k hk rfl
      have := hla k hk
      rw [hgI] at this; simp at this
    have key : ∀ (m k : Nat), (m ||| 1 <<< q).testBit k = (m.testBit k || (k = q : Bool)) := by
      intro m k
      rw [Nat.testBit_or, Nat.one_shiftLeft, Nat.testBit_two_pow]
      congr 1
      by_cases h : q = k <;> simp [h, eq_comm]
    constructor
    · intro k
      rw [hg]
      by_cases hk : k = q
      · subst hk
        cases f <;> simp [serStep, key, hz, hgI]
      · cases f <;> simp [serStep, key, hz, hk]
    · intro k
      rw [hg]
      by_cases hk : k = q
      · subst hk
        cases f <;> simp [serStep, key, ha, hgI]
      · cases f <;> simp [serStep, key, ha, hk]
    · intro k
      rw [hg]
      by_cases hk : k = q
      · subst hk
        cases f <;> simp [serStep, key, hc, hgI]
      · cases f <;> simp [serStep, key, hc, hk]
    · rw [lastLadder_snoc]
      cases f <;> simp [serStep, hl, Nat.one_shiftLeft]
    · intro k hk
      rw [lastLadder_snoc] at hk
      rw [hg]
      by_cases h : f = .A ∨ f = .C
      · simp only [h, if_true, Option.some.injEq] at hk
        rw [if_pos hk.symm]; exact h
      · simp only [h, if_false] at hk
        rw [if_neg (hne k hk)]; exact hla k hk

theorem testBit_lt {m n : Nat} (h : ∀ k, m.testBit k = true → k < n) : m < 2 ^ n := by
  by_contra hge
  obtain ⟨i, hi, hb⟩ := Nat.exists_ge_and_testBit_of_ge_two_pow (Nat.not_lt.1 hge)
  have := h i hb
  omega

theorem get_lt {t : Term} {n : Nat} (hlt : ∀ k ∈ t.keys, k < n) {k : Nat} (h : t.get k ≠ .I) :
    k < n := by
  by_contra hk
  exact h (get_notin fun h' => hk (hlt k h'))

/-- `evaluate_observable` of the serialized term is the product of the qubit values. -/
theorem evalObs_serialize {t : Term} (hw : t.WF) {n : Nat} (hlt : ∀ k ∈ t.keys, k < n) (x : Nat) :
    evalObs (serialize t) x = ∏ k : Fin n, qubitVal t x k := by
  obtain ⟨hz, ha, hc, hl, hla⟩ := serInv t hw
  set s := t.foldl serStep ⟨0, 0, 0, none⟩ with hs
  -- the integers after the ladder correction
  obtain ⟨z, a, c, L, hser, hz', ha', hc', hL⟩ : ∃ z a c L, serialize t = (z, a, c, L) ∧
      (∀ k, z.testBit k = ((t.get k = .X || t.get k = .Y || t.get k = .Z) || lastLadder t = some k)) ∧
      (∀ k, a.testBit k = ((t.get k = .A || t.get k = .C || t.get k = .P0 || t.get k = .P1) &&
        !(lastLadder t = some k : Bool))) ∧
      (∀ k, c.testBit k = (t.get k = .C || t.get k = .P1)) ∧
      (L = true ↔ lastLadder t ≠ none) := by
    cases hL : lastLadder t with
    | none =>
      refine ⟨s.z, s.and_, s.ctrl, false, ?_, ?_, ?_, hc, by simp⟩
      · rw [serialize, ← hs, hl, hL]; rfl
      · intro k; rw [hz]; simp
      · intro k; rw [ha]; simp
    | some q =>
      have hq := hla q hL
      have h2 : ∀ k, (2 ^ q).testBit k = (q = k : Bool) := fun k => Nat.testBit_two_pow
      refine ⟨s.z ^^^ 2 ^ q, s.and_ ^^^ 2 ^ q, s.ctrl, true, ?_, ?_, ?_, hc, by simp⟩
      · rw [serialize, ← hs, hl, hL]; rfl
      · intro k
        rw [Nat.testBit_xor, hz, h2]
        by_cases hk : q = k
        · subst hk; rcases hq with h | h <;> simp [h]
        · simp [hk]
      · intro k
        rw [Nat.testBit_xor, ha, h2]
        by_cases hk : q = k
        · subst hk; rcases hq with h | h <;> simp [h]
        · simp [hk]
  have hzlt : z &&& x < 2 ^ n := by
    apply testBit_lt
    intro k hk
    rw [Nat.testBit_and, Bool.and_eq_true, hz'] at hk
    apply get_lt hlt
    intro hI
    have hk1 := hk.1
    simp only [hI, Bool.or_eq_true, decide_eq_true_eq] at hk1
    rcases hk1 with h | h
    · simp at h
    · have := hla k h; rw [hI] at this; simp at this
  have halt : a < 2 ^ n := by
    apply testBit_lt
    intro k hk
    rw [ha'] at hk
    apply get_lt hlt
    intro hI; simp [hI] at hk
  -- the value as one condition
  have hval : evalObs (serialize t) x = if (∀ k : Fin n, a.testBit k = true →
      (x ^^^ c).testBit k = false) then (if L then 1 / 2 else 1) * (-1) ^ bitCount (z &&& x)
      else 0 := by
    rw [hser, evalObs]
    simp only
    by_cases h0 : a = 0
    · rw [if_pos h0, if_pos fun k hk => by rw [h0, Nat.zero_testBit] at hk; simp at hk]
    · rw [if_neg h0]
      by_cases h1 : (x ^^^ c) &&& a = 0
      · rw [if_pos h1, if_pos ((and_zero_iff n a _ halt).1 h1)]
      · rw [if_neg h1, if_neg (mt (and_zero_iff n a _ halt).2 h1)]
  rw [hval]
  -- the factor 1/2 as a product
  have hpre : ((if L then 1 / 2 else 1 : ℚ)) =
      ∏ k : Fin n, if lastLadder t = some (k : Nat) then (1 / 2 : ℚ) else 1 := by
    cases hll : lastLadder t with
    | none =>
      have : L = false := by
        rcases L with _ | _
        · rfl
        · exact absurd hll (hL.1 rfl)
      simp [this]
    | some q =>
      have : L = true := hL.2 (by rw [hll]; simp)
      have hqn : q < n := get_lt hlt (by rcases hla q hll with h | h <;> rw [h] <;> simp)
      rw [this]
      rw [Finset.prod_eq_single (⟨q, hqn⟩ : Fin n)]
      · simp
      · intro k _ hk
        rw [if_neg]
        intro h
        exact hk (Fin.ext (Option.some.inj h).symm)
      · simp
  have hsplit : (∏ k : Fin n, qubitVal t x k) = (∏ k : Fin n,
      (if lastLadder t = some (k : Nat) then (1 / 2 : ℚ) else 1)) *
      (∏ k : Fin n, if (z &&& x).testBit k then (-1 : ℚ) else 1) *
      ∏ k : Fin n, if (a.testBit k = true → (x ^^^ c).testBit k = false) then (1 : ℚ) else 0 := by
    rw [← Finset.prod_mul_distrib, ← Finset.prod_mul_distrib]
    apply Finset.prod_congr rfl
    intro k _
    rw [Nat.testBit_and, hz', ha', Nat.testBit_xor, hc', qubitVal]
    by_cases hk : lastLadder t = some (k : Nat)
    · have := hla _ hk
      rcases this with h | h <;> rcases hx : x.testBit k with _ | _ <;> simp [hk, h]
    · rcases h : t.get k <;> rcases hx : x.testBit k with _ | _ <;> simp [hk, h, facVal]
  rw [hsplit, ← hpre, ← neg_one_bitCount n _ hzlt]
  by_cases hall : ∀ k : Fin n, a.testBit k = true → (x ^^^ c).testBit k = false
  · rw [if_pos hall]
    rw [Finset.prod_congr rfl fun k _ => if_pos (hall k)]
    simp
  · rw [if_neg hall]
    obtain ⟨k, hk⟩ := not_forall.1 hall
    rw [Finset.prod_eq_zero (Finset.mem_univ k) (if_neg hk), mul_zero]

/-- A diagonal term has no off-diagonal matrix elements, and its eigenvalues are the products of
the factor values. -/
theorem tmat_diag {n : Nat} {t : Term} (hd : ∀ k, t.get k = .I ∨ t.get k = .Z ∨ t.get k = .P0 ∨
    t.get k = .P1) (b c : Fin n → Bool) :
    tmat n t b c = if b = c then ((∏ k : Fin n, facVal (t.get k) (b k) : ℚ) : ℂ) else 0 := by
  have hf : ∀ k (u v : Bool), mat (t.get k) u v = if u = v then ((facVal (t.get k) u : ℚ) : ℂ) else 0 := by
    intro k u v
    rcases hd k with h | h | h | h <;> rw [h] <;> cases u <;> cases v <;>
      simp [mat, matG, facVal]
  rw [tmat, tensor]
  by_cases h : b = c
  · subst h
    rw [if_pos rfl, Rat.cast_prod]
    apply Finset.prod_congr rfl; intro k _; rw [hf, if_pos rfl]
  · rw [if_neg h]
    obtain ⟨k, hk⟩ := Function.ne_iff.1 h
    exact Finset.prod_eq_zero (Finset.mem_univ k) (by rw [hf, if_neg hk])

end Verif.Oper
