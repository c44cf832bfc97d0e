import Verif.Sbp.Encode

/-!
# Values of floats and polynomials
-/

namespace Verif.Sbp

open Verif.Rev Verif.Fourier

variable {Q : Type} [DecidableEq Q]

/-- The integer a register stands for (two's complement if signed). -/
def ival (x : QF Q) (s : St Q) : ℤ :=
  if x.signed && decide (2 ^ x.reg.length ≤ 2 * valL x.reg s) then valL x.reg s - 2 ^ x.reg.length else valL x.reg s

/-- The value of a float. -/
def qval (x : QF Q) (s : St Q) : ℚ := ival x s * 2 ^ x.exp

theorem roundHE_int (k : ℤ) : roundHE k = k := by
  unfold roundHE
  have h : (k : ℚ).floor = k := Rat.floor_intCast k
  simp [h]

/-- Value of a polynomial. -/
def evalQ (p : List (Mon Q)) (s : St Q) : ℚ := (p.map fun m => if m.2.all s then m.1 else 0).sum

/-- All coefficients are integer multiples of `u`. -/
def IntMul (u : ℚ) (p : List (Mon Q)) : Prop := ∀ a ∈ p, ∃ k : ℤ, a.1 = u * k

theorem evalQ_append (p r : List (Mon Q)) (s : St Q) : evalQ (p ++ r) s = evalQ p s + evalQ r s := by
  simp [evalQ]

theorem evalQ_cons (a : Mon Q) (r : List (Mon Q)) (s : St Q) :
    evalQ (a :: r) s = (if a.2.all s then a.1 else 0) + evalQ r s := by simp [evalQ]

theorem evalQ_mulP (p r : List (Mon Q)) (s : St Q) : evalQ (mulP p r) s = evalQ p s * evalQ r s := by
  have h1 : ∀ (a : Mon Q) (r : List (Mon Q)), evalQ (r.map fun b => (a.1 * b.1, a.2 ++ b.2)) s =
      (if a.2.all s then a.1 else 0) * evalQ r s := by
    intro a r
    induction r with
    | nil => simp [evalQ]
    | cons b r ih =>
      rw [List.map_cons, evalQ_cons, ih, evalQ_cons]
      simp only [List.all_append]
      by_cases ha : a.2.all s = true <;> by_cases hb : b.2.all s = true <;> simp [ha, hb] <;> ring
  induction p with
  | nil => simp [mulP, evalQ]
  | cons a p ih =>
    have : mulP (a :: p) r = (r.map fun b => (a.1 * b.1, a.2 ++ b.2)) ++ mulP p r := by simp [mulP]
    rw [this, evalQ_append, h1, ih, evalQ_cons]
    ring

theorem IntMul_mulP {u v : ℚ} {p r : List (Mon Q)} (hp : IntMul u p) (hr : IntMul v r) : IntMul (u * v) (mulP p r) := by
  intro x hx
  simp only [mulP, List.mem_flatMap, List.mem_map] at hx
  obtain ⟨a, ha, b, hb, rfl⟩ := hx
  obtain ⟨j, hj⟩ := hp a ha
  obtain ⟨k, hk⟩ := hr b hb
  refine ⟨j * k, ?_⟩
  simp only
  rw [hj, hk]
  push_cast
  ring

theorem IntMul_append {u : ℚ} {p r : List (Mon Q)} (hp : IntMul u p) (hr : IntMul u r) : IntMul u (p ++ r) := by
  intro x hx
  rcases List.mem_append.1 hx with h | h
  · exact hp x h
  · exact hr x h

theorem evalR_eq {p : List (Mon Q)} (hp : IntMul 1 p) (s : St Q) : (evalR p s : ℚ) = evalQ p s := by
  induction p with
  | nil => simp [evalR, evalQ]
  | cons a p ih =>
    obtain ⟨k, hk⟩ := hp a List.mem_cons_self
    rw [one_mul] at hk
    have h := ih fun x hx => hp x (List.mem_cons_of_mem _ hx)
    rw [evalQ_cons, ← h]
    unfold evalR
    rw [List.map_cons, List.sum_cons]
    push_cast
    congr 1
    by_cases ha : a.2.all s = true
    · rw [if_pos ha, if_pos ha, hk, roundHE_int]
    · rw [if_neg ha, if_neg ha]

theorem IntMul_div {u v : ℚ} {p : List (Mon Q)} (hp : IntMul u p) :
    IntMul (u / v) (p.map fun a => (a.1 / v, a.2)) := by
  intro x hx
  obtain ⟨a, ha, rfl⟩ := List.mem_map.1 hx
  obtain ⟨k, hk⟩ := hp a ha
  exact ⟨k, by simp only; rw [hk]; ring⟩

theorem IntMul_of {u : ℚ} {j : ℤ} (h : u = j) {p : List (Mon Q)} (hp : IntMul u p) : IntMul 1 p := by
  intro x hx
  obtain ⟨k, hk⟩ := hp x hx
  exact ⟨j * k, by rw [hk, h]; push_cast; ring⟩

theorem evalQ_div (v : ℚ) (p : List (Mon Q)) (s : St Q) : evalQ (p.map fun a => (a.1 / v, a.2)) s = evalQ p s / v := by
  induction p with
  | nil => simp [evalQ]
  | cons a p ih =>
    rw [List.map_cons, evalQ_cons, evalQ_cons, ih, add_div]
    congr 1
    simp only
    by_cases ha : a.2.all s = true
    · rw [if_pos ha, if_pos ha]
    · rw [if_neg ha, if_neg ha, zero_div]

/-! ### The polynomial of a float -/

/-- The last qubit is 1. -/
def top (x : QF Q) (s : St Q) : Bool := x.signed && decide (2 ^ x.reg.length ≤ 2 * valL x.reg s)

theorem ival_eq (x : QF Q) (s : St Q) : ival x s = valL x.reg s - if top x s then 2 ^ x.reg.length else 0 := by
  unfold ival top
  by_cases h : (x.signed && decide (2 ^ x.reg.length ≤ 2 * valL x.reg s)) = true
  · rw [if_pos h, if_pos h]
  · rw [if_neg h, if_neg h, sub_zero]

theorem evalQ_zipIdx (c : ℚ) (g : ℕ → ℚ) (s : St Q) : ∀ (qs : List Q) (k : ℕ),
    (∀ i, i + 1 < k + qs.length → k ≤ i → g i = 0) →
    evalQ ((qs.zipIdx k).map fun q => (c * (2 ^ q.2 + g q.2), [q.1])) s =
      c * (2 ^ k * valL qs s + if 2 ^ qs.length ≤ 2 * valL qs s then g (k + qs.length - 1) else 0) := by
  intro qs
  induction qs with
  | nil => intro k _; simp [evalQ, valL]
  | cons q qs ih =>
    intro k hg
    rw [List.zipIdx_cons, List.map_cons, evalQ_cons, ih (k + 1) fun i h1 h2 => hg i (by simp; omega) (by omega)]
    rw [valL, List.length_cons]
    cases qs with
    | nil =>
      simp only [List.all_cons, List.all_nil, Bool.and_true, valL, List.length_nil]
      cases s q <;> simp <;> ring
    | cons q' qs =>
      have h0 : g k = 0 := hg k (by simp) (le_refl _)
      have hlt := valL_lt (q' :: qs) s
      have hiff : 2 ^ ((q' :: qs).length + 1) ≤ 2 * ((s q).toNat + 2 * valL (q' :: qs) s) ↔
          2 ^ (q' :: qs).length ≤ 2 * valL (q' :: qs) s := by
        have : 2 ^ ((q' :: qs).length) = 2 * 2 ^ qs.length := by rw [List.length_cons, pow_succ]; ring
        rw [pow_succ, this]
        cases s q <;> simp <;> omega
      have hidx : k + 1 + (q' :: qs).length - 1 = k + ((q' :: qs).length + 1) - 1 := by omega
      simp only [hiff, hidx, List.all_cons, List.all_nil, Bool.and_true, h0]
      generalize (if 2 ^ (q' :: qs).length ≤ 2 * valL (q' :: qs) s then g (k + ((q' :: qs).length + 1) - 1) else 0) = G
      generalize valL (q' :: qs) s = V
      cases s q
      · simp only [Bool.false_eq_true, if_false, Bool.toNat_false]; push_cast; ring
      · simp only [if_true, Bool.toNat_true]; push_cast; ring

theorem evalQ_sbPoly {m : ℕ} (hm : m ≠ 0) (x : QF Q) (s : St Q) :
    evalQ (sbPoly m x) s = 2 ^ x.exp * (ival x s + if top x s then 2 ^ (m + 1) else 0) := by
  unfold sbPoly
  simp only [hm, if_false]
  have h := evalQ_zipIdx (2 ^ x.exp)
    (fun i => if x.signed && i + 1 == x.reg.length then (2 : ℚ) ^ (m + 1) - 2 ^ x.reg.length else 0) s x.reg 0
    (fun i h1 _ => by
      have : (i + 1 == x.reg.length) = false := by rw [beq_eq_false_iff_ne]; omega
      simp [this])
  rw [h, ival_eq]
  congr 1
  unfold top
  cases hs : x.signed
  · simp
  · by_cases hv : 2 ^ x.reg.length ≤ 2 * valL x.reg s
    · have hpos : x.reg.length ≠ 0 := fun h0 => by
        rw [List.length_eq_zero_iff] at h0
        rw [h0] at hv; simp [valL] at hv
      have : (0 + x.reg.length - 1 + 1 == x.reg.length) = true := by rw [beq_iff_eq]; omega
      simp only [hv, this, if_true, Bool.true_and, decide_true]
      push_cast
      ring
    · simp [hv]

theorem IntMul_sbPoly (m : ℕ) (x : QF Q) : IntMul (2 ^ x.exp) (sbPoly m x) := by
  intro a ha
  simp only [sbPoly, List.mem_map] at ha
  obtain ⟨q, _, rfl⟩ := ha
  by_cases h : (x.signed && q.2 + 1 == x.reg.length) = true
  · refine ⟨2 ^ q.2 + (2 ^ ((if m = 0 then x.reg.length else m) + 1) - 2 ^ x.reg.length), ?_⟩
    simp only
    rw [if_pos h]
    push_cast
    rfl
  · refine ⟨2 ^ q.2, ?_⟩
    simp only
    rw [if_neg h]
    push_cast
    ring

/-! ### The value of a substituted polynomial -/

/-- Specification: the value of a polynomial. -/
def polyVal (p : Poly) (v : ℕ → ℚ) : ℚ := (p.map fun a => a.1 * (a.2.map v).prod).sum

/-- The coefficients, in the units of the floats, are multiples of the resolution `u` of the output. -/
def Resolved (p : Poly) (e : ℕ → ℤ) (u : ℤ) : Prop := ∀ a ∈ p, ∃ j : ℤ, a.1 * (a.2.map fun v => (2 : ℚ) ^ e v).prod = j * 2 ^ u

theorem evalQ_substP_mon (sb : ℕ → List (Mon Q)) (s : St Q) (c : ℚ) (vs : List ℕ) :
    evalQ (vs.foldr (fun v r => mulP (sb v) r) [(c, [])]) s = (vs.map fun v => evalQ (sb v) s).prod * c := by
  induction vs with
  | nil => simp [evalQ]
  | cons v vs ih => rw [List.foldr_cons, evalQ_mulP, ih, List.map_cons, List.prod_cons, mul_assoc]

theorem IntMul_mon {sb : ℕ → List (Mon Q)} {u : ℕ → ℚ} (c : ℚ) {vs : List ℕ} (h : ∀ v ∈ vs, IntMul (u v) (sb v)) :
    IntMul ((vs.map u).prod * c) (vs.foldr (fun v r => mulP (sb v) r) [(c, [])]) := by
  induction vs with
  | nil =>
    intro a ha
    rw [List.foldr_nil, List.mem_singleton] at ha
    subst ha
    exact ⟨1, by simp⟩
  | cons v vs ih =>
    rw [List.foldr_cons, List.map_cons, List.prod_cons, mul_assoc]
    exact IntMul_mulP (h v List.mem_cons_self) (ih fun v hv => h v (List.mem_cons_of_mem _ hv))

theorem prod_mod {ι : Type} (M : ℤ) (X b : ι → ℤ) (vs : List ι) :
    ∃ j : ℤ, (vs.map fun v => X v + M * b v).prod = (vs.map X).prod + M * j := by
  induction vs with
  | nil => exact ⟨0, by simp⟩
  | cons v vs ih =>
    obtain ⟨j, hj⟩ := ih
    refine ⟨X v * j + b v * (vs.map X).prod + M * b v * j, ?_⟩
    rw [List.map_cons, List.prod_cons, hj, List.map_cons, List.prod_cons]
    ring

theorem prod_scale {ι : Type} (u X : ι → ℚ) (vs : List ι) : (vs.map fun v => u v * X v).prod = (vs.map u).prod * (vs.map X).prod := by
  induction vs with
  | nil => simp
  | cons v vs ih => simp only [List.map_cons, List.prod_cons, ih]; ring

theorem prod_cast {ι : Type} (X : ι → ℤ) (vs : List ι) : (vs.map fun v => (X v : ℚ)).prod = ((vs.map X).prod : ℤ) := by
  induction vs with
  | nil => simp
  | cons v vs ih => simp only [List.map_cons, List.prod_cons, ih]; push_cast; rfl

/-- The substituted polynomial has the value of the polynomial up to a multiple of `2^{m+1}` resolutions. -/
theorem substP_value {m : ℕ} (hm : m ≠ 0) {sb : ℕ → List (Mon Q)} {x : ℕ → QF Q} {u : ℤ} {p : Poly}
    (hsb : ∀ a ∈ p, ∀ v ∈ a.2, sb v = sbPoly m (x v)) (hres : Resolved p (fun v => (x v).exp) u) (s : St Q) :
    IntMul (2 ^ u) (substP sb p) ∧
      ∃ j : ℤ, evalQ (substP sb p) s = polyVal p (fun v => qval (x v) s) + 2 ^ u * 2 ^ (m + 1) * j := by
  induction p with
  | nil => exact ⟨fun a ha => by simp [substP] at ha, 0, by simp [substP, evalQ, polyVal]⟩
  | cons a p ih =>
    obtain ⟨h1, j, h2⟩ := ih (fun b hb => hsb b (List.mem_cons_of_mem _ hb)) fun b hb => hres b (List.mem_cons_of_mem _ hb)
    obtain ⟨i, hi⟩ := hres a List.mem_cons_self
    have hsa := hsb a List.mem_cons_self
    have hs : substP sb (a :: p) = a.2.foldr (fun v r => mulP (sb v) r) [(a.1, [])] ++ substP sb p := by simp [substP]
    have hu : (2 : ℚ) ^ u ≠ 0 := zpow_ne_zero _ two_ne_zero
    rw [hs]
    refine ⟨IntMul_append ?_ h1, ?_⟩
    · have := IntMul_mon (sb := sb) (u := fun v => (2 : ℚ) ^ (x v).exp) a.1 (vs := a.2)
        (fun v hv => by rw [hsa v hv]; exact IntMul_sbPoly m _)
      intro b hb
      obtain ⟨k, hk⟩ := this b hb
      refine ⟨i * k, ?_⟩
      rw [hk, mul_comm (List.prod _), hi]
      push_cast
      ring
    · obtain ⟨l, hl⟩ := prod_mod (2 ^ (m + 1)) (fun v => ival (x v) s) (fun v => if top (x v) s then 1 else 0) a.2
      refine ⟨i * l + j, ?_⟩
      rw [evalQ_append, h2, evalQ_substP_mon]
      have he : (a.2.map fun v => evalQ (sb v) s) = a.2.map fun v => (2 : ℚ) ^ (x v).exp *
          ((ival (x v) s + 2 ^ (m + 1) * (if top (x v) s then 1 else 0) : ℤ) : ℚ) := by
        refine List.map_congr_left fun v hv => ?_
        rw [hsa v hv, evalQ_sbPoly hm]
        congr 1
        by_cases ht : top (x v) s = true
        · rw [if_pos ht, if_pos ht]; push_cast; ring
        · rw [if_neg ht, if_neg ht]; push_cast; ring
      have hpv : polyVal (a :: p) (fun v => qval (x v) s) =
          a.1 * (a.2.map fun v => qval (x v) s).prod + polyVal p (fun v => qval (x v) s) := by simp [polyVal]
      have hq : (a.2.map fun v => qval (x v) s) = a.2.map fun v => (2 : ℚ) ^ (x v).exp * (ival (x v) s : ℤ) := by
        refine List.map_congr_left fun v _ => ?_
        unfold qval; ring
      rw [hpv, hq, he, prod_scale, prod_scale, prod_cast, prod_cast, hl]
      push_cast
      linear_combination (2 ^ (m + 1) * (l : ℚ)) * hi

/-! ### Values modulo the size of the output -/

theorem ival_mod (x : QF Q) (s : St Q) : ∃ j : ℤ, ival x s = valL x.reg s + 2 ^ x.reg.length * j := by
  rw [ival_eq]
  by_cases h : top x s = true
  · exact ⟨-1, by rw [if_pos h]; ring⟩
  · exact ⟨0, by rw [if_neg h]; ring⟩

/-- What an operation that adds to a register does, in terms of values. -/
theorem mulAdd_qval {out : QF Q} (hn : out.reg.Nodup) (m : ℤ) (a : St Q → ℤ) (s : St Q) :
    ∃ j : ℤ, ival out (mulAdd out.reg.reverse m a s) = m * ival out s + a s + 2 ^ out.reg.length * j := by
  have hv : ∀ s, valM out.reg.reverse s = valL out.reg s := fun s => by rw [← valL_reverse, List.reverse_reverse]
  obtain ⟨i, hi⟩ := ival_mod out (mulAdd out.reg.reverse m a s)
  obtain ⟨k, hk⟩ := ival_mod out s
  have h1 : valL out.reg (mulAdd out.reg.reverse m a s) =
      ((m * valL out.reg s + a s) % (2 ^ out.reg.length : ℕ)).toNat := by
    have hN : (0 : ℤ) < (2 ^ out.reg.length : ℕ) := by positivity
    unfold mulAdd
    rw [hv, ← hv, valM_setM (List.nodup_reverse.2 hn), List.length_reverse]
    refine Nat.mod_eq_of_lt ?_
    have h1 := Int.emod_lt_of_pos (m * valL out.reg s + a s) hN
    have h2 := Int.emod_nonneg (m * valL out.reg s + a s) hN.ne'
    omega
  have hN : (0 : ℤ) < (2 ^ out.reg.length : ℕ) := by positivity
  rw [hi, h1, hk, Int.toNat_of_nonneg (Int.emod_nonneg _ hN.ne')]
  have hd := Int.mul_ediv_add_emod (m * valL out.reg s + a s) (2 ^ out.reg.length : ℕ)
  refine ⟨i - m * k - (m * valL out.reg s + a s) / (2 ^ out.reg.length : ℕ), ?_⟩
  push_cast at hd ⊢
  linear_combination hd

end Verif.Sbp
