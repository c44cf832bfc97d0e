import Verif.Sbp.Arith

/-!
# Properties of the arithmetic of quantum floats

`ival x s` is the integer a register stands for in the basis state `s` (two's complement if the float is signed), `qval x s`
is this integer times the resolution `2^exp`. `polyVal` is the value of a polynomial at rational arguments. A state
is its function of amplitudes; `Clean anc ψ` says that the ancilla is 0. That the operator maps basis state `s` to basis
state `step s`, coherently, is `∀ ψ, run ψ (step s) = ψ s`.
-/

namespace Verif.Props

open Verif.Rev Verif.Fourier Verif.Sbp

/-! ### C76: polynomial encoder -/

section
variable {Q : Type} [DecidableEq Q]

/-- Specification: on states with ancilla 0 the operations map every basis state `s` to `step s`. -/
def MapsTo (anc : Q) (os : List (SOp Q)) (step : St Q → St Q) : Prop :=
  ∀ ψ, Clean anc ψ → Clean anc (runS os ψ) ∧ ∀ s, runS os ψ (step s) = ψ s

/-- The registers involved: no qubit twice in the output, inputs and ancilla apart from the output. -/
structure Apart (anc : Q) (out : QF Q) (xs : List (QF Q)) : Prop where
  nodup : out.reg.Nodup
  anc_out : anc ∉ out.reg
  inputs : ∀ x ∈ xs, ∀ q ∈ x.reg, q ≠ anc ∧ q ∉ out.reg

/-- `polynomial_encoder` adds the value of the polynomial to the output times the factor, modulo the range of the output,
whenever the resolution of the output covers every monomial. -/
theorem C76_polynomial_encoder {f : List Q → St Q → ℂ} (hf : ∀ cs s, f cs s ≠ 0) {d anc : Q} {out : QF Q}
    {xs : List (QF Q)} (hA : Apart anc out xs) (hne : out.reg ≠ []) (hsg : out.signed = true ∨ ∀ x ∈ xs, x.signed = false)
    {p : Poly} (hv : ∀ a ∈ p, ∀ v ∈ a.2, v < xs.length)
    (hres : Resolved p (fun v => ((xs[v]?).getD out).exp) out.exp) {m : ℤ} (hm : m % 2 = 1) :
    ∃ os, polyEncode f d anc xs out p m = some os ∧ ∃ step, MapsTo anc os step ∧
      ∀ s, (∀ q, q ∉ out.reg → step s q = s q) ∧
        ∃ j : ℤ, qval out (step s) = m * qval out s + polyVal p (fun v => qval ((xs[v]?).getD out) s) +
          j * 2 ^ out.reg.length * 2 ^ out.exp := by
  have hc : (!out.signed && xs.any (·.signed)) = false := by
    rcases hsg with h | h
    · rw [h]; rfl
    · have : xs.any (·.signed) = false := by
        rw [List.any_eq_false]
        intro x hx
        simp [h x hx]
      rw [this, Bool.and_false]
  unfold polyEncode
  simp only [hc, Bool.false_eq_true, if_false]
  have hl : out.reg.length ≠ 0 := fun h => hne (List.length_eq_zero_iff.1 h)
  have hsb : ∀ a ∈ p, ∀ v ∈ a.2, ((xs[v]?).map (sbPoly out.reg.length)).getD [] =
      sbPoly out.reg.length ((xs[v]?).getD out) := fun a ha v hva => by
    rw [List.getElem?_eq_getElem (hv a ha v hva)]; rfl
  have hsub := substP_value (u := out.exp) hl hsb hres
  refine sbEncode_value hf hA.nodup hA.anc_out ?_ hm (hsub (fun _ => false)).1 fun s => ?_
  · refine vars_substP (P := fun c => c ≠ anc ∧ c ∉ out.reg) (fun v => ?_) p
    rcases hx : xs[v]? with _ | x
    · intro a ha; cases ha
    · intro a ha c hca
      exact hA.inputs x (List.mem_of_getElem? hx) c (vars_sbPoly _ _ a ha c hca)
  · obtain ⟨j, hj⟩ := (hsub s).2
    refine ⟨2 * j, ?_⟩
    rw [hj, pow_succ]
    push_cast
    ring

/-- The encoder refuses to put signed inputs into an unsigned output, and even factors. -/
theorem C76_encoder_raises (f : List Q → St Q → ℂ) (d anc : Q) (out : QF Q) (xs : List (QF Q)) (p : Poly) (m : ℤ)
    (h : (out.signed = false ∧ ∃ x ∈ xs, x.signed = true) ∨ m % 2 = 0) : polyEncode f d anc xs out p m = none := by
  unfold polyEncode
  by_cases hc : (!out.signed && xs.any (·.signed)) = true
  · rw [if_pos hc]
  · rw [if_neg hc]
    rcases h with ⟨h1, x, hx, h2⟩ | h
    · exact absurd (by rw [h1, Bool.not_false, Bool.true_and, List.any_eq_true]; exact ⟨x, hx, h2⟩) hc
    · unfold sbEncode
      simp only
      rw [if_neg (by omega)]

/-! ### C77: in-place addition and subtraction -/

/-- `x += y` and `x -= y` for floats: the resolution of `x` has to cover that of `y`. -/
theorem C77_inplace {f : List Q → St Q → ℂ} (hf : ∀ cs s, f cs s ≠ 0) {d anc : Q} {x y : QF Q} (hA : Apart anc x [y])
    (hne : x.reg ≠ []) (hsg : x.signed = true ∨ y.signed = false) (he : x.exp ≤ y.exp) :
    (∃ os, iadd f d anc x y = some os ∧ ∃ step, MapsTo anc os step ∧ ∀ s, (∀ q, q ∉ x.reg → step s q = s q) ∧
      ∃ j : ℤ, qval x (step s) = qval x s + qval y s + j * 2 ^ x.reg.length * 2 ^ x.exp) ∧
    ∃ os, isub f d anc x y = some os ∧ ∃ step, MapsTo anc os step ∧ ∀ s, (∀ q, q ∉ x.reg → step s q = s q) ∧
      ∃ j : ℤ, qval x (step s) = qval x s - qval y s + j * 2 ^ x.reg.length * 2 ^ x.exp := by
  have key : ∀ c : ℤ, ∃ os, polyEncode f d anc [y] x [((c : ℚ), [0])] = some os ∧ ∃ step, MapsTo anc os step ∧
      ∀ s, (∀ q, q ∉ x.reg → step s q = s q) ∧
      ∃ j : ℤ, qval x (step s) = qval x s + c * qval y s + j * 2 ^ x.reg.length * 2 ^ x.exp := by
    intro c
    have h := C76_polynomial_encoder hf (d := d) hA hne
      (hsg.imp_right fun h z hz => by rw [List.mem_singleton] at hz; rw [hz]; exact h) (p := [((c : ℚ), [0])])
      (fun a ha v hv => by rw [List.mem_singleton] at ha; subst ha; rw [List.mem_singleton] at hv; subst hv; simp)
      (fun a ha => by
        rw [List.mem_singleton] at ha; subst ha
        refine ⟨c * 2 ^ (y.exp - x.exp).toNat, ?_⟩
        simp only [List.map_cons, List.map_nil, List.prod_cons, List.prod_nil, mul_one]
        show (c : ℚ) * 2 ^ y.exp = _
        rw [zpow_mul_nat he]
        push_cast; ring)
      (m := 1) (by decide)
    obtain ⟨os, h1, step, h2, h3⟩ := h
    refine ⟨os, h1, step, h2, fun s => ⟨(h3 s).1, ?_⟩⟩
    obtain ⟨j, hj⟩ := (h3 s).2
    refine ⟨j, ?_⟩
    rw [hj]
    simp [polyVal]
  constructor
  · obtain ⟨os, h1, step, h2, h3⟩ := key 1
    refine ⟨os, by unfold iadd; exact_mod_cast h1, step, h2, fun s => ⟨(h3 s).1, ?_⟩⟩
    obtain ⟨j, hj⟩ := (h3 s).2
    exact ⟨j, by rw [hj]; push_cast; ring⟩
  · obtain ⟨os, h1, step, h2, h3⟩ := key (-1)
    refine ⟨os, by unfold isub; exact_mod_cast h1, step, h2, fun s => ⟨(h3 s).1, ?_⟩⟩
    obtain ⟨j, hj⟩ := (h3 s).2
    exact ⟨j, by rw [hj]; push_cast; ring⟩

/-- `x += c` and `x -= c` for numbers: carried out if `c` is a multiple of the resolution, refused otherwise. -/
theorem C77_inplace_number {f : List Q → St Q → ℂ} (hf : ∀ cs s, f cs s ≠ 0) {d anc : Q} {x : QF Q}
    (hA : Apart anc x []) (hne : x.reg ≠ []) (c : ℚ) :
    ((∃ k : ℤ, c = k * 2 ^ x.exp) →
      (∃ os, iaddC f d anc x c = some os ∧ ∃ step, MapsTo anc os step ∧ ∀ s, (∀ q, q ∉ x.reg → step s q = s q) ∧
        ∃ j : ℤ, qval x (step s) = qval x s + c + j * 2 ^ x.reg.length * 2 ^ x.exp) ∧
      ∃ os, isubC f d anc x c = some os ∧ ∃ step, MapsTo anc os step ∧ ∀ s, (∀ q, q ∉ x.reg → step s q = s q) ∧
        ∃ j : ℤ, qval x (step s) = qval x s - c + j * 2 ^ x.reg.length * 2 ^ x.exp) ∧
    ((¬ ∃ k : ℤ, c = k * 2 ^ x.exp) → iaddC f d anc x c = none ∧ isubC f d anc x c = none) := by
  have hu : (2 : ℚ) ^ x.exp ≠ 0 := zpow_ne_zero _ two_ne_zero
  have hden : (c / 2 ^ x.exp).den = 1 ↔ ∃ k : ℤ, c = k * 2 ^ x.exp := by
    constructor
    · intro h
      refine ⟨(c / 2 ^ x.exp).num, ?_⟩
      rw [(Rat.den_eq_one_iff _).1 h]
      field_simp
    · rintro ⟨k, rfl⟩
      rw [mul_div_assoc, div_self hu, mul_one]
      exact Rat.den_intCast k
  have key : ∀ b : ℚ, (∃ k : ℤ, b = k * 2 ^ x.exp) → ∃ os, polyEncode f d anc [] x [(b, [])] = some os ∧
      ∃ step, MapsTo anc os step ∧ ∀ s, (∀ q, q ∉ x.reg → step s q = s q) ∧
      ∃ j : ℤ, qval x (step s) = qval x s + b + j * 2 ^ x.reg.length * 2 ^ x.exp := by
    rintro b ⟨k, hk⟩
    have h := C76_polynomial_encoder hf (d := d) hA hne (Or.inr fun z hz => by cases hz) (p := [(b, [])])
      (fun a ha v hv => by rw [List.mem_singleton] at ha; subst ha; cases hv)
      (fun a ha => by
        rw [List.mem_singleton] at ha; subst ha
        refine ⟨k, ?_⟩
        simp [hk])
      (m := 1) (by decide)
    obtain ⟨os, h1, step, h2, h3⟩ := h
    refine ⟨os, h1, step, h2, fun s => ⟨(h3 s).1, ?_⟩⟩
    obtain ⟨j, hj⟩ := (h3 s).2
    refine ⟨j, ?_⟩
    rw [hj]
    simp [polyVal]
  refine ⟨fun hk => ⟨?_, ?_⟩, fun hk => ?_⟩
  · unfold iaddC
    rw [if_pos (hden.2 hk)]
    exact key c hk
  · unfold isubC
    rw [if_pos (hden.2 hk)]
    obtain ⟨k, hk⟩ := hk
    simp only [sub_eq_add_neg]
    exact key (-c) ⟨-k, by rw [hk]; push_cast; ring⟩
  · unfold iaddC isubC
    rw [if_neg fun h => hk (hden.1 h), if_neg fun h => hk (hden.1 h)]
    exact ⟨rfl, rfl⟩

/-! ### C78: sums, differences and products in a new float -/

/-- The output chosen by `create_output_qf`. -/
def HasShape (out : QF Q) (sh : ℤ × ℤ × Bool) : Prop := (out.msize : ℤ) = sh.1 ∧ out.exp = sh.2.1 ∧ out.signed = sh.2.2

theorem bound_max {x y : QF Q} (s : St Q) (hx : x.signed = true → x.reg ≠ []) (hy : y.signed = true → y.reg ≠ []) :
    |qval x s| ≤ 2 ^ max (x.exp + x.msize) (y.exp + y.msize) ∧ |qval y s| ≤ 2 ^ max (x.exp + x.msize) (y.exp + y.msize) := by
  constructor
  · exact (qval_range x s hx).2.2.trans (zpow_le_zpow_right₀ (by norm_num) (le_max_left _ _))
  · exact (qval_range y s hy).2.2.trans (zpow_le_zpow_right₀ (by norm_num) (le_max_right _ _))

/-- `x + y`: no overflow and no rounding, whatever the sizes, exponents and signs. -/
theorem C78_add {f : List Q → St Q → ℂ} (hf : ∀ cs s, f cs s ≠ 0) {d anc : Q} {x y out : QF Q} (hA : Apart anc out [x, y])
    (hx : x.signed = true → x.reg ≠ []) (hy : y.signed = true → y.reg ≠ []) (hs : HasShape out (outAdd x y)) :
    ∃ os, sbpAdd f d anc x y out = some os ∧ ∃ step, MapsTo anc os step ∧
      ∀ s, (∀ q, q ∉ out.reg → step s q = s q) ∧ (ival out s = 0 → qval out (step s) = qval x s + qval y s) := by
  obtain ⟨hs1, hs2, hs3⟩ := hs
  unfold outAdd at hs1 hs2 hs3
  simp only at hs1 hs2 hs3
  have hex : out.exp ≤ x.exp := by rw [hs2]; exact min_le_left _ _
  have hey : out.exp ≤ y.exp := by rw [hs2]; exact min_le_right _ _
  rw [← hs2] at hs1
  have hmax : out.exp + out.msize = max (x.exp + x.msize) (y.exp + y.msize) + 2 := by rw [hs1]; ring
  have hm0 : out.msize ≠ 0 := by
    have : x.exp + x.msize ≤ max (x.exp + (x.msize : ℤ)) (y.exp + y.msize) := le_max_left _ _
    omega
  have hr : out.signed = true → out.reg ≠ [] := fun _ h => hm0 (by unfold QF.msize; rw [h]; simp)
  have h := sbEncode_value hf (d := d) hA.nodup hA.anc_out (p := sbPoly out.msize x ++ sbPoly out.msize y)
    (fun a ha c hc => by
      rcases List.mem_append.1 ha with h | h
      · exact hA.inputs x (by simp) c (vars_sbPoly _ _ a h c hc)
      · exact hA.inputs y (by simp) c (vars_sbPoly _ _ a h c hc))
    (m := 1) (by decide)
    (IntMul_append
      (fun a ha => by
        obtain ⟨k, hk⟩ := IntMul_sbPoly out.msize x a ha
        exact ⟨2 ^ (x.exp - out.exp).toNat * k, by rw [hk, zpow_mul_nat hex]; push_cast; ring⟩)
      (fun a ha => by
        obtain ⟨k, hk⟩ := IntMul_sbPoly out.msize y a ha
        exact ⟨2 ^ (y.exp - out.exp).toNat * k, by rw [hk, zpow_mul_nat hey]; push_cast; ring⟩))
    (V := fun s => qval x s + qval y s)
    (fun s => by
      obtain ⟨i, hi⟩ := evalQ_sbPoly_mod hex hm0 s
      obtain ⟨j, hj⟩ := evalQ_sbPoly_mod hey hm0 s
      exact ⟨i + j, by rw [evalQ_append, hi, hj]; push_cast; ring⟩)
  obtain ⟨os, h1, step, h2, h3⟩ := h
  refine ⟨os, h1, step, h2, fun s => ⟨(h3 s).1, fun h0 => ?_⟩⟩
  obtain ⟨j, hj⟩ := (h3 s).2
  rw [Int.cast_one, one_mul] at hj
  have hK : qval x s + qval y s =
      ((ival x s * 2 ^ (x.exp - out.exp).toNat + ival y s * 2 ^ (y.exp - out.exp).toNat : ℤ) : ℚ) * 2 ^ out.exp := by
    unfold qval
    rw [zpow_mul_nat hex, zpow_mul_nat hey]
    push_cast
    ring
  obtain ⟨b1, b2, b3⟩ := int_bound (n := out.msize) hK
  obtain ⟨m1, m2⟩ := bound_max s hx hy
  have hp : (2 : ℚ) ^ (out.exp + out.msize) = 4 * 2 ^ max (x.exp + (x.msize : ℤ)) (y.exp + y.msize) := by
    rw [hmax, zpow_add₀ two_ne_zero]; norm_num; ring
  have hpos : (0 : ℚ) < 2 ^ max (x.exp + (x.msize : ℤ)) (y.exp + y.msize) := zpow_pos two_pos _
  rw [abs_le] at m1 m2
  refine qval_exact hr hj h0 hK ?_ (b1 (by rw [hp]; linarith))
  cases hsg : out.signed
  · rw [hsg] at hs3
    have hs3 := hs3.symm
    rw [Bool.or_eq_false_iff] at hs3
    have q1 := (qval_range x s hx).1
    have q2 := (qval_range y s hy).1
    rw [hs3.1] at q1
    rw [hs3.2] at q2
    simp only [Bool.false_eq_true, if_false] at q1 q2 ⊢
    exact b3 (by linarith)
  · exact b2 (by rw [hp]; linarith)

/-- `x - y`: no overflow and no rounding. -/
theorem C78_sub {f : List Q → St Q → ℂ} (hf : ∀ cs s, f cs s ≠ 0) {d anc : Q} {x y out : QF Q} (hA : Apart anc out [x, y])
    (hx : x.signed = true → x.reg ≠ []) (hy : y.signed = true → y.reg ≠ []) (hs : HasShape out (outSub x y)) :
    ∃ os, sbpSub f d anc x y out = some os ∧ ∃ step, MapsTo anc os step ∧
      ∀ s, (∀ q, q ∉ out.reg → step s q = s q) ∧ (ival out s = 0 → qval out (step s) = qval x s - qval y s) := by
  obtain ⟨hs1, hs2, hs3⟩ := hs
  unfold outSub at hs1 hs2 hs3
  simp only at hs1 hs2 hs3
  have hex : out.exp ≤ x.exp := by rw [hs2]; exact min_le_left _ _
  have hey : out.exp ≤ y.exp := by rw [hs2]; exact min_le_right _ _
  rw [← hs2] at hs1
  have hmax : out.exp + out.msize = max (x.exp + x.msize) (y.exp + y.msize) + 2 := by rw [hs1]; ring
  have hm0 : out.msize ≠ 0 := by
    have : x.exp + x.msize ≤ max (x.exp + (x.msize : ℤ)) (y.exp + y.msize) := le_max_left _ _
    omega
  have hr : out.signed = true → out.reg ≠ [] := fun _ h => hm0 (by unfold QF.msize; rw [h]; simp)
  have hneg : ∀ (p : List (Mon Q)) (s : St Q), evalQ (p.map fun a => (-a.1, a.2)) s = -evalQ p s := by
    intro p s
    induction p with
    | nil => simp [evalQ]
    | cons a p ih =>
      rw [List.map_cons, evalQ_cons, evalQ_cons, ih, neg_add]
      by_cases h : a.2.all s = true <;> simp [h]
  have h := sbEncode_value hf (d := d) hA.nodup hA.anc_out
    (p := sbPoly out.msize x ++ (sbPoly out.msize y).map fun a => (-a.1, a.2))
    (fun a ha c hc => by
      rcases List.mem_append.1 ha with h | h
      · exact hA.inputs x (by simp) c (vars_sbPoly _ _ a h c hc)
      · obtain ⟨b, hb, rfl⟩ := List.mem_map.1 h
        exact hA.inputs y (by simp) c (vars_sbPoly _ _ b hb c hc))
    (m := 1) (by decide)
    (IntMul_append
      (fun a ha => by
        obtain ⟨k, hk⟩ := IntMul_sbPoly out.msize x a ha
        exact ⟨2 ^ (x.exp - out.exp).toNat * k, by rw [hk, zpow_mul_nat hex]; push_cast; ring⟩)
      (fun a ha => by
        obtain ⟨b, hb, rfl⟩ := List.mem_map.1 ha
        obtain ⟨k, hk⟩ := IntMul_sbPoly out.msize y b hb
        exact ⟨-(2 ^ (y.exp - out.exp).toNat * k), by simp only; rw [hk, zpow_mul_nat hey]; push_cast; ring⟩))
    (V := fun s => qval x s - qval y s)
    (fun s => by
      obtain ⟨i, hi⟩ := evalQ_sbPoly_mod hex hm0 s
      obtain ⟨j, hj⟩ := evalQ_sbPoly_mod hey hm0 s
      exact ⟨i - j, by rw [evalQ_append, hneg, hi, hj]; push_cast; ring⟩)
  obtain ⟨os, h1, step, h2, h3⟩ := h
  refine ⟨os, h1, step, h2, fun s => ⟨(h3 s).1, fun h0 => ?_⟩⟩
  obtain ⟨j, hj⟩ := (h3 s).2
  rw [Int.cast_one, one_mul] at hj
  have hK : qval x s - qval y s =
      ((ival x s * 2 ^ (x.exp - out.exp).toNat - ival y s * 2 ^ (y.exp - out.exp).toNat : ℤ) : ℚ) * 2 ^ out.exp := by
    unfold qval
    rw [zpow_mul_nat hex, zpow_mul_nat hey]
    push_cast
    ring
  obtain ⟨b1, b2, b3⟩ := int_bound (n := out.msize) hK
  obtain ⟨m1, m2⟩ := bound_max s hx hy
  have hp : (2 : ℚ) ^ (out.exp + out.msize) = 4 * 2 ^ max (x.exp + (x.msize : ℤ)) (y.exp + y.msize) := by
    rw [hmax, zpow_add₀ two_ne_zero]; norm_num; ring
  have hpos : (0 : ℚ) < 2 ^ max (x.exp + (x.msize : ℤ)) (y.exp + y.msize) := zpow_pos two_pos _
  rw [abs_le] at m1 m2
  refine qval_exact hr hj h0 hK ?_ (b1 (by rw [hp]; linarith))
  rw [hs3]
  exact b2 (by rw [hp]; linarith)

/-- `x * y` with the polynomial method (used for `x * x`): no overflow and no rounding, including the product of a signed
float with itself, which is put into an unsigned float. -/
theorem C78_mul {f : List Q → St Q → ℂ} (hf : ∀ cs s, f cs s ≠ 0) {d anc : Q} {x y out : QF Q} (hA : Apart anc out [x, y])
    (hx : x.signed = true → x.reg ≠ []) (hy : y.signed = true → y.reg ≠ []) (hs : HasShape out (outMul x y))
    (hm0 : out.msize ≠ 0) (hxy : x.reg = y.reg → x = y) :
    ∃ os, sbpMult f d anc x y out = some os ∧ ∃ step, MapsTo anc os step ∧
      ∀ s, (∀ q, q ∉ out.reg → step s q = s q) ∧ (ival out s = 0 → qval out (step s) = qval x s * qval y s) := by
  obtain ⟨hs1, hs2, hs3⟩ := hs
  unfold outMul at hs1 hs2 hs3
  simp only at hs1 hs2 hs3
  have hr : out.signed = true → out.reg ≠ [] := fun _ h => hm0 (by unfold QF.msize; rw [h]; simp)
  have hu : (2 : ℚ) ^ out.exp = 2 ^ x.exp * 2 ^ y.exp := by rw [hs2, zpow_add₀ two_ne_zero]
  have hle : out.reg.length ≤ out.msize + 1 := by
    unfold QF.msize
    cases out.signed <;> simp <;> omega
  obtain ⟨k, hk⟩ := Nat.exists_eq_add_of_le hle
  have h := sbEncode_value hf (d := d) hA.nodup hA.anc_out (p := mulP (sbPoly out.msize x) (sbPoly out.msize y))
    (vars_mulP (P := fun c => c ≠ anc ∧ c ∉ out.reg)
      (fun a ha c hc => hA.inputs x (by simp) c (vars_sbPoly _ _ a ha c hc))
      (fun a ha c hc => hA.inputs y (by simp) c (vars_sbPoly _ _ a ha c hc)))
    (m := 1) (by decide)
    (by rw [hu]; exact IntMul_mulP (IntMul_sbPoly _ _) (IntMul_sbPoly _ _))
    (V := fun s => qval x s * qval y s)
    (fun s => by
      refine ⟨2 ^ k * ((if top x s then 1 else 0) * ival y s + ival x s * (if top y s then 1 else 0) +
        2 ^ (out.msize + 1) * (if top x s then 1 else 0) * (if top y s then 1 else 0)), ?_⟩
      have hpk : (2 : ℚ) ^ (out.msize + 1) = 2 ^ out.reg.length * 2 ^ k := by rw [hk, pow_add]
      rw [evalQ_mulP, evalQ_sbPoly hm0, evalQ_sbPoly hm0, hu]
      unfold qval
      by_cases h1 : top x s = true <;> by_cases h2 : top y s = true
      · rw [if_pos h1, if_pos h2, if_pos h1, if_pos h2]; push_cast; rw [hpk]; ring
      · rw [if_pos h1, if_neg h2, if_pos h1, if_neg h2]; push_cast; rw [hpk]; ring
      · rw [if_neg h1, if_pos h2, if_neg h1, if_pos h2]; push_cast; rw [hpk]; ring
      · rw [if_neg h1, if_neg h2, if_neg h1, if_neg h2]; push_cast; rw [hpk]; ring)
  obtain ⟨os, h1, step, h2, h3⟩ := h
  refine ⟨os, h1, step, h2, fun s => ⟨(h3 s).1, fun h0 => ?_⟩⟩
  obtain ⟨j, hj⟩ := (h3 s).2
  rw [Int.cast_one, one_mul] at hj
  have hK : qval x s * qval y s = ((ival x s * ival y s : ℤ) : ℚ) * 2 ^ out.exp := by
    unfold qval
    rw [hu]
    push_cast
    ring
  obtain ⟨x1, x2⟩ := ival_range x s hx
  obtain ⟨y1, y2⟩ := ival_range y s hy
  have hms : out.msize = x.msize + y.msize + (x.signed && y.signed).toNat := by exact_mod_cast hs1
  have px : (0 : ℤ) < 2 ^ x.msize := by positivity
  have py : (0 : ℤ) < 2 ^ y.msize := by positivity
  have pxy : (2 : ℤ) ^ (x.msize + y.msize) = 2 ^ x.msize * 2 ^ y.msize := pow_add _ _ _
  refine qval_exact hr hj h0 hK ?_ ?_
  · rw [hs3, hms]
    by_cases hreg : x.reg = y.reg
    · have := hxy hreg
      subst this
      by_cases hsx : x.signed = true
      · simp [hsx, mul_self_nonneg]
      · rw [Bool.not_eq_true] at hsx
        simp [hsx, mul_self_nonneg]
    · simp only [hreg, decide_false, Bool.false_and, Bool.false_eq_true, if_false]
      cases hsx : x.signed <;> cases hsy : y.signed <;> rw [hsx] at x1 <;> rw [hsy] at y1 <;>
        simp only [Bool.false_eq_true, if_false, if_true, Bool.or_false, Bool.or_true, Bool.and_false, Bool.and_true,
          Bool.toNat_false, Bool.toNat_true, add_zero] at x1 y1 ⊢
      · exact mul_nonneg x1 y1
      · rw [pxy]; nlinarith
      · rw [pxy]; nlinarith
      · rw [pow_succ, pxy]; nlinarith
  · rw [hms]
    cases hsx : x.signed <;> cases hsy : y.signed <;> rw [hsx] at x1 <;> rw [hsy] at y1 <;>
      simp only [Bool.false_eq_true, if_false, if_true, Bool.and_false, Bool.and_true, Bool.toNat_false, Bool.toNat_true,
        add_zero] at x1 y1 ⊢
    · rw [pxy]; nlinarith
    · rw [pxy]; nlinarith
    · rw [pxy]; nlinarith
    · rw [pow_succ, pxy]; nlinarith

end

/-! ### C77 fails for operands with a finer resolution -/

/-- `x` of four qubits with resolution 1 and `y` of four qubits with resolution 1/4, both signed. -/
def witX : QF ℕ := ⟨[0, 1, 2, 3], 0, true⟩

def witY : QF ℕ := ⟨[4, 5, 6, 7], -2, true⟩

/-- `y = -1`, `x = 0`. -/
def witS : St ℕ := fun q => q == 6 || q == 7

/-- The claim of C77 with rounding to the resolution of `x`, for any exponents, is false: adding `-1` gives `7`, because the
sign bit of an operand with a finer resolution is not extended far enough. -/
theorem C77_finer_operand_fails : ¬ ∀ (f : List ℕ → St ℕ → ℂ) (_ : ∀ cs s, f cs s ≠ 0) (d anc : ℕ) (x y : QF ℕ),
    Apart anc x [y] → x.reg ≠ [] → (x.signed = true ∨ y.signed = false) →
    ∃ os, iadd f d anc x y = some os ∧ ∃ step, MapsTo anc os step ∧ ∀ s, s anc = false →
      ∃ j : ℤ, |qval x (step s) - (qval x s + qval y s) - j * 2 ^ x.reg.length * 2 ^ x.exp| < 2 ^ x.exp := by
  intro H
  obtain ⟨os, hos, step, hstep, hval⟩ := H (fun _ _ => 1) (fun _ _ => one_ne_zero) 0 8 witX witY
    ⟨by decide, by decide, by decide⟩ (by decide) (Or.inl rfl)
  obtain ⟨j, hj⟩ := hval witS rfl
  have hp : polyEncode (fun _ _ => 1) 0 8 [witY] witX [((1 : ℚ), [0])] = some os := hos
  unfold polyEncode at hp
  rw [if_neg (by decide)] at hp
  set P := substP (fun i => (([witY][i]?).map (sbPoly witX.reg.length)).getD []) [((1 : ℚ), [0])] with hP
  have hPv : P = [((1 / 4 : ℚ), [4]), (1 / 2, [5]), (1, [6]), (6, [7])] := by
    simp [hP, substP, mulP, sbPoly, witX, witY, List.zipIdx]
    norm_num
  have hu := sbEncode_unique (f := fun _ _ => (1 : ℂ)) (fun _ _ => one_ne_zero) (d := 0) (anc := 8) (out := witX) (by decide)
    (by decide) (p := P) (by rw [hPv]; simp [witX]) hp (s := witS) (t := step witS) rfl
    (fun ψ hψ => (hstep ψ hψ).2 witS)
  have hR : evalR (P.map fun a => (a.1 / 2 ^ witX.exp, a.2)) witS = 7 := by
    have r1 : roundHE 1 = 1 := by simpa using roundHE_int 1
    have r6 : roundHE 6 = 6 := by simpa using roundHE_int 6
    rw [hPv]
    simp [evalR, witX, witS, r1, r6]
  have hv : valL witX.reg (step witS) = 7 := by
    rw [hu]
    have h0 : valM witX.reg.reverse witS = 0 := by decide
    unfold mulAdd
    rw [h0, hR, ← List.reverse_reverse witX.reg, valL_reverse, List.reverse_reverse, valM_setM (by decide)]
    decide
  have q1 : qval witX (step witS) = 7 := by
    unfold qval ival
    rw [hv]
    simp [witX]
  have q2 : qval witX witS = 0 := by simp [qval, ival, witX, witS, valL]
  have q3 : qval witY witS = -1 := by
    simp [qval, ival, witY, witS, valL]
    norm_num
  rw [q1, q2, q3] at hj
  have e : (7 : ℚ) - (0 + -1) - j * 2 ^ witX.reg.length * 2 ^ witX.exp = ((8 - 16 * j : ℤ) : ℚ) := by
    simp [witX]
    ring
  rw [e] at hj
  have h1 : |((8 - 16 * j : ℤ) : ℚ)| < 1 := by simpa [witX] using hj
  rw [← Int.cast_abs] at h1
  have h2 : |8 - 16 * j| < 1 := by exact_mod_cast h1
  rw [Int.abs_lt_one_iff] at h2
  omega

/-! ### Examples -/

/-- `x - y*y + 2` into a signed float of five qubits. -/
example (f : List ℕ → St ℕ → ℂ) (hf : ∀ cs s, f cs s ≠ 0) : ∃ os,
    polyEncode f 0 20 [⟨[0, 1, 2], 1, false⟩, ⟨[3, 4], 0, true⟩] ⟨[5, 6, 7, 8, 9], 0, true⟩
      [(1, [0]), (-1, [1, 1]), (2, [])] = some os ∧ ∃ step, MapsTo 20 os step ∧
    ∀ s : St ℕ, valL [0, 1, 2] s = 3 → valL [3, 4] s = 2 → valL [5, 6, 7, 8, 9] s = 0 →
      ∃ j : ℤ, qval ⟨[5, 6, 7, 8, 9], 0, true⟩ (step s) = 4 + j * 32 := by
  obtain ⟨os, h1, step, h2, h3⟩ := C76_polynomial_encoder hf (d := 0) (anc := 20) (out := ⟨[5, 6, 7, 8, 9], 0, true⟩)
    (xs := [⟨[0, 1, 2], 1, false⟩, ⟨[3, 4], 0, true⟩]) ⟨by decide, by decide, by decide⟩ (by decide) (Or.inl rfl)
    (p := [(1, [0]), (-1, [1, 1]), (2, [])]) (by simp)
    (by
      intro a ha
      simp only [List.mem_cons, List.not_mem_nil, or_false] at ha
      rcases ha with rfl | rfl | rfl
      · exact ⟨2, by simp⟩
      · exact ⟨-1, by simp⟩
      · exact ⟨2, by simp⟩) (m := 1) (by decide)
  refine ⟨os, h1, step, h2, fun s a b h0 => ?_⟩
  obtain ⟨j, hj⟩ := (h3 s).2
  refine ⟨j, ?_⟩
  rw [hj]
  simp [polyVal, qval, ival, h0, a, b]
  norm_num

/-- An even factor is refused. -/
example : polyEncode (fun _ _ => 1) 0 20 [⟨[0, 1, 2], 1, false⟩] ⟨[5, 6, 7, 8, 9], 0, true⟩ [(1, [0])] 2 = none :=
  C76_encoder_raises _ _ _ _ _ _ _ (Or.inr rfl)

/-- `x += y` with `x = 3` of 4 qubits and `y = -2`: `1` modulo 16. -/
example (f : List ℕ → St ℕ → ℂ) (hf : ∀ cs s, f cs s ≠ 0) : ∃ os,
    iadd f 0 20 ⟨[0, 1, 2, 3], 0, true⟩ ⟨[4, 5], 1, true⟩ = some os ∧ ∃ step, MapsTo 20 os step ∧
    ∀ s : St ℕ, valL [0, 1, 2, 3] s = 3 → valL [4, 5] s = 3 →
      ∃ j : ℤ, qval ⟨[0, 1, 2, 3], 0, true⟩ (step s) = 1 + j * 16 := by
  obtain ⟨os, h1, step, h2, h3⟩ := (C77_inplace hf (d := 0) (anc := 20) (x := ⟨[0, 1, 2, 3], 0, true⟩)
    (y := ⟨[4, 5], 1, true⟩) ⟨by decide, by decide, by decide⟩ (by decide) (Or.inl rfl) (by decide)).1
  refine ⟨os, h1, step, h2, fun s a b => ?_⟩
  obtain ⟨j, hj⟩ := (h3 s).2
  refine ⟨j, ?_⟩
  rw [hj]
  simp [qval, ival, a, b]
  norm_num

/-- `x += 0.75` is refused for a float with resolution 1/2. -/
example : iaddC (fun _ _ => 1) 0 20 ⟨[0, 1, 2, 3], -1, true⟩ (3 / 4) = none := by
  refine ((C77_inplace_number (fun _ _ => one_ne_zero) ⟨by decide, by decide, by decide⟩ (by decide) _).2 ?_).1
  rintro ⟨k, hk⟩
  have h : (3 : ℚ) = 2 * k := by
    have : (2 : ℚ) ^ (-1 : ℤ) = 1 / 2 := by norm_num
    rw [this] at hk
    linarith
  have : (3 : ℤ) = 2 * k := by exact_mod_cast h
  omega

/-- `-0.5 + 6 = 5.5`, in a float of seven qubits with resolution 1/2. -/
example (f : List ℕ → St ℕ → ℂ) (hf : ∀ cs s, f cs s ≠ 0) : ∃ os,
    sbpAdd f 0 20 ⟨[0, 1], -1, true⟩ ⟨[2, 3], 1, false⟩ ⟨[4, 5, 6, 7, 8, 9, 10], -1, true⟩ = some os ∧
    ∃ step, MapsTo 20 os step ∧
    ∀ s : St ℕ, valL [0, 1] s = 3 → valL [2, 3] s = 3 → valL [4, 5, 6, 7, 8, 9, 10] s = 0 →
      qval ⟨[4, 5, 6, 7, 8, 9, 10], -1, true⟩ (step s) = 11 / 2 := by
  obtain ⟨os, h1, step, h2, h3⟩ := C78_add hf (d := 0) (anc := 20) (x := ⟨[0, 1], -1, true⟩) (y := ⟨[2, 3], 1, false⟩)
    (out := ⟨[4, 5, 6, 7, 8, 9, 10], -1, true⟩) ⟨by decide, by decide, by decide⟩ (by decide) (by decide)
    ⟨by decide, by decide, by decide⟩
  refine ⟨os, h1, step, h2, fun s a b c => ?_⟩
  rw [(h3 s).2 (by simp [ival, c])]
  simp [qval, ival, a, b]
  norm_num

/-- `(-2) * (-2) = 4`: the square of a signed float is unsigned. -/
example (f : List ℕ → St ℕ → ℂ) (hf : ∀ cs s, f cs s ≠ 0) : ∃ os,
    sbpMult f 0 20 ⟨[0, 1], 0, true⟩ ⟨[0, 1], 0, true⟩ ⟨[4, 5, 6], 0, false⟩ = some os ∧ ∃ step, MapsTo 20 os step ∧
    ∀ s : St ℕ, valL [0, 1] s = 2 → valL [4, 5, 6] s = 0 → qval ⟨[4, 5, 6], 0, false⟩ (step s) = 4 := by
  obtain ⟨os, h1, step, h2, h3⟩ := C78_mul hf (d := 0) (anc := 20) (x := ⟨[0, 1], 0, true⟩) (y := ⟨[0, 1], 0, true⟩)
    (out := ⟨[4, 5, 6], 0, false⟩) ⟨by decide, by decide, by decide⟩ (by decide) (by decide)
    ⟨by decide, by decide, by decide⟩ (by decide) (fun _ => rfl)
  refine ⟨os, h1, step, h2, fun s a c => ?_⟩
  rw [(h3 s).2 (by simp [ival, c])]
  simp [qval, ival, a]
  norm_num

end Verif.Props
