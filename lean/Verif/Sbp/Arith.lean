import Verif.Sbp.Value

/-!
# The arithmetic of floats built on the polynomial encoder
-/

namespace Verif.Sbp

open Verif.Rev Verif.Fourier

variable {Q : Type} [DecidableEq Q]

theorem mulAdd_surj {qs : List Q} (hn : qs.Nodup) {m k : ℤ} (hk : (m * k) % (2 ^ qs.length : ℕ) = 1 % (2 ^ qs.length : ℕ))
    {a : St Q → ℤ} (ha : ∀ s X, a (setM qs X s) = a s) (t : St Q) :
    mulAdd qs m a (mulAdd qs k (fun _ => 0) (addBack qs a t)) = t := by
  have hN : (0 : ℤ) < (2 ^ qs.length : ℕ) := by positivity
  have hlt : ∀ z : ℤ, (z % (2 ^ qs.length : ℕ)).toNat < 2 ^ qs.length := fun z => by
    have h1 := Int.emod_lt_of_pos z hN
    have h2 := Int.emod_nonneg z hN.ne'
    omega
  have hcast : ∀ z : ℤ, (((z % (2 ^ qs.length : ℕ)).toNat : ℕ) : ℤ) = z % (2 ^ qs.length : ℕ) := fun z =>
    Int.toNat_of_nonneg (Int.emod_nonneg z hN.ne')
  have h1 : mulAdd qs k (fun _ => 0) (addBack qs a t) =
      setM qs ((k * ((valM qs t : ℤ) - a t)) % (2 ^ qs.length : ℕ)).toNat t := by
    unfold mulAdd addBack
    rw [valM_setM hn, Nat.mod_eq_of_lt (hlt _), setM_setM _ _ _ _ hn, hcast, add_zero, Int.mul_emod,
      Int.emod_emod_of_dvd _ (dvd_refl _), ← Int.mul_emod]
  rw [h1]
  unfold mulAdd
  rw [ha, valM_setM hn, Nat.mod_eq_of_lt (hlt _), setM_setM _ _ _ _ hn, hcast]
  have : (m * ((k * ((valM qs t : ℤ) - a t)) % (2 ^ qs.length : ℕ)) + a t) % (2 ^ qs.length : ℕ) = valM qs t := by
    have hv := valM_lt qs t
    rw [Int.add_emod, Int.mul_emod, Int.emod_emod_of_dvd _ (dvd_refl _), ← Int.mul_emod, ← mul_assoc, Int.mul_emod, hk,
      ← Int.mul_emod, one_mul, ← Int.add_emod, sub_add_cancel, Int.emod_eq_of_lt (by omega) (by omega)]
  rw [this, Int.toNat_natCast, setM_val hn]

/-- The map on basis states is determined by the operator. -/
theorem sbEncode_unique {f : List Q → St Q → ℂ} (hf : ∀ cs s, f cs s ≠ 0) {d anc : Q} {out : QF Q} (hn : out.reg.Nodup)
    (h1 : anc ∉ out.reg) {p : List (Mon Q)} (hp : ∀ a ∈ p, anc ∉ a.2 ∧ ∀ c ∈ a.2, c ∉ out.reg) {m : ℤ}
    {os : List (SOp Q)} (h : sbEncode f d anc out p m = some os) {s t : St Q} (hs : s anc = false)
    (ht : ∀ ψ, Clean anc ψ → runS os ψ t = ψ s) :
    t = mulAdd out.reg.reverse m (evalR (p.map fun a => (a.1 / 2 ^ out.exp, a.2))) s := by
  classical
  have hm : m % 2 = 1 := by
    by_contra hm
    unfold sbEncode at h
    simp only at h
    rw [if_neg hm] at h
    cases h
  obtain ⟨k, hk⟩ := odd_inv hm out.reg.reverse.length
  have ha : ∀ s X, evalR (p.map fun a => (a.1 / 2 ^ out.exp, a.2)) (setM out.reg.reverse X s) =
      evalR (p.map fun a => (a.1 / 2 ^ out.exp, a.2)) s := fun s X => evalR_congr fun m hm c hc =>
    setM_out _ _ _ fun hx => by
      obtain ⟨b, hb, rfl⟩ := List.mem_map.1 hm
      exact (hp b hb).2 c hc (List.mem_reverse.1 hx)
  have hc : Clean anc (fun x => if x = s then (1 : ℂ) else 0) := fun x hx => by
    have : x ≠ s := fun e => by rw [e, hs] at hx; cases hx
    simp [this]
  have h2 := (sbEncode_spec hf hn h1 hp h hc).2
    (mulAdd out.reg.reverse k (fun _ => 0) (addBack out.reg.reverse
      (evalR (p.map fun a => (a.1 / 2 ^ out.exp, a.2))) t))
  rw [mulAdd_surj (List.nodup_reverse.2 hn) hk ha, ht _ hc] at h2
  simp only [if_true] at h2
  by_cases he : mulAdd out.reg.reverse k (fun _ => 0) (addBack out.reg.reverse
      (evalR (p.map fun a => (a.1 / 2 ^ out.exp, a.2))) t) = s
  · rw [← he, mulAdd_surj (List.nodup_reverse.2 hn) hk ha]
  · rw [if_neg he] at h2
    norm_num at h2

/-- Monomials of a product use the variables of the factors. -/
theorem vars_mulP {p r : List (Mon Q)} {P : Q → Prop} (hp : ∀ a ∈ p, ∀ c ∈ a.2, P c) (hr : ∀ a ∈ r, ∀ c ∈ a.2, P c) :
    ∀ a ∈ mulP p r, ∀ c ∈ a.2, P c := by
  intro x hx c hc
  simp only [mulP, List.mem_flatMap, List.mem_map] at hx
  obtain ⟨a, ha, b, hb, rfl⟩ := hx
  rcases List.mem_append.1 hc with h | h
  · exact hp a ha c h
  · exact hr b hb c h

theorem vars_sbPoly (m : ℕ) (x : QF Q) : ∀ a ∈ sbPoly m x, ∀ c ∈ a.2, c ∈ x.reg := by
  intro a ha c hc
  simp only [sbPoly, List.mem_map] at ha
  obtain ⟨q, hq, rfl⟩ := ha
  rw [List.mem_singleton] at hc
  rw [hc]
  exact List.fst_mem_of_mem_zipIdx hq

theorem vars_substP {sb : ℕ → List (Mon Q)} {P : Q → Prop} (h : ∀ v, ∀ a ∈ sb v, ∀ c ∈ a.2, P c) (p : Poly) :
    ∀ a ∈ substP sb p, ∀ c ∈ a.2, P c := by
  intro x hx
  simp only [substP, List.mem_flatMap] at hx
  obtain ⟨a, _, hx⟩ := hx
  have : ∀ vs : List ℕ, ∀ x ∈ vs.foldr (fun v r => mulP (sb v) r) [(a.1, [])], ∀ c ∈ x.2, P c := by
    intro vs
    induction vs with
    | nil =>
      intro x hx c hc
      rw [List.foldr_nil, List.mem_singleton] at hx
      subst hx
      cases hc
    | cons v vs ih => exact vars_mulP (h v) ih
  exact this _ x hx

/-- The effect of an encoding with integer coefficients whose value is `V` up to multiples of the size. -/
theorem sbEncode_value {f : List Q → St Q → ℂ} (hf : ∀ cs s, f cs s ≠ 0) {d anc : Q} {out : QF Q} (hn : out.reg.Nodup)
    (h1 : anc ∉ out.reg) {p : List (Mon Q)} (hp : ∀ a ∈ p, ∀ c ∈ a.2, c ≠ anc ∧ c ∉ out.reg) {m : ℤ} (hm : m % 2 = 1)
    (hi : IntMul (2 ^ out.exp) p) {V : St Q → ℚ}
    (hV : ∀ s, ∃ j : ℤ, evalQ p s = V s + 2 ^ out.exp * 2 ^ out.reg.length * j) :
    ∃ os, sbEncode f d anc out p m = some os ∧ ∃ step : St Q → St Q,
      (∀ ψ, Clean anc ψ → Clean anc (runS os ψ) ∧ ∀ s, runS os ψ (step s) = ψ s) ∧
      ∀ s, (∀ q, q ∉ out.reg → step s q = s q) ∧
        ∃ j : ℤ, qval out (step s) = m * qval out s + V s + j * 2 ^ out.reg.length * 2 ^ out.exp := by
  have he : ∃ os, sbEncode f d anc out p m = some os := by
    unfold sbEncode
    simp only
    rw [if_pos hm]
    exact ⟨_, rfl⟩
  obtain ⟨os, hos⟩ := he
  have hp' : ∀ a ∈ p, anc ∉ a.2 ∧ ∀ c ∈ a.2, c ∉ out.reg := fun a ha =>
    ⟨fun h => (hp a ha anc h).1 rfl, fun c hc => (hp a ha c hc).2⟩
  have hu : (2 : ℚ) ^ out.exp ≠ 0 := zpow_ne_zero _ two_ne_zero
  refine ⟨os, hos, mulAdd out.reg.reverse m (evalR (p.map fun a => (a.1 / 2 ^ out.exp, a.2))),
    fun ψ hψ => sbEncode_spec hf hn h1 hp' hos hψ, fun s => ⟨fun q hq => ?_, ?_⟩⟩
  · exact mulAdd_out _ _ _ _ fun h => hq (List.mem_reverse.1 h)
  · obtain ⟨j, hj⟩ := mulAdd_qval hn m (evalR (p.map fun a => (a.1 / 2 ^ out.exp, a.2))) s
    have h3 : IntMul 1 (p.map fun a => (a.1 / 2 ^ out.exp, a.2)) := by
      have h4 := IntMul_div (v := 2 ^ out.exp) hi
      rw [div_self hu] at h4
      exact h4
    have h5 := evalR_eq h3 s
    rw [evalQ_div] at h5
    obtain ⟨i, hi⟩ := hV s
    rw [hi] at h5
    refine ⟨j + i, ?_⟩
    unfold qval
    rw [hj]
    push_cast
    rw [h5]
    field_simp
    ring

/-! ### Ranges -/

theorem ival_range (x : QF Q) (s : St Q) (hr : x.signed = true → x.reg ≠ []) :
    (if x.signed then -2 ^ x.msize else 0) ≤ ival x s ∧ ival x s < 2 ^ x.msize := by
  have hlt := valL_lt x.reg s
  unfold ival QF.msize
  cases hs : x.signed
  · simp only [Bool.false_and, Bool.false_eq_true, if_false, Bool.toNat_false, Nat.sub_zero]
    exact ⟨Int.natCast_nonneg _, by exact_mod_cast hlt⟩
  · have hne := hr hs
    obtain ⟨k, hk⟩ : ∃ k, x.reg.length = k + 1 := Nat.exists_eq_succ_of_ne_zero fun h => hne (List.length_eq_zero_iff.1 h)
    simp only [Bool.true_and, if_true, Bool.toNat_true, hk, Nat.add_sub_cancel, decide_eq_true_eq]
    rw [hk] at hlt
    have h2 : (2 : ℤ) ^ (k + 1) = 2 * 2 ^ k := by rw [pow_succ]; ring
    have h3 : (2 : ℕ) ^ (k + 1) = 2 * 2 ^ k := by rw [pow_succ]; ring
    have h4 : ((2 ^ k : ℕ) : ℤ) = 2 ^ k := by push_cast; rfl
    by_cases h : 2 ^ (k + 1) ≤ 2 * valL x.reg s
    · rw [if_pos h]; constructor <;> omega
    · rw [if_neg h]; constructor <;> omega

/-- Two integers of the range of a register that differ by a multiple of its size are equal. -/
theorem ival_exact {x : QF Q} {t : St Q} (hr : x.signed = true → x.reg ≠ []) {K j : ℤ}
    (h : ival x t = K + 2 ^ x.reg.length * j) (h1 : (if x.signed then -2 ^ x.msize else 0) ≤ K) (h2 : K < 2 ^ x.msize) :
    ival x t = K := by
  obtain ⟨h3, h4⟩ := ival_range x t hr
  have hsz : (2 : ℤ) ^ x.msize - (if x.signed then -2 ^ x.msize else 0) = 2 ^ x.reg.length := by
    unfold QF.msize
    cases hs : x.signed
    · simp
    · have hne := hr hs
      obtain ⟨k, hk⟩ : ∃ k, x.reg.length = k + 1 :=
        Nat.exists_eq_succ_of_ne_zero fun h => hne (List.length_eq_zero_iff.1 h)
      simp only [if_true, Bool.toNat_true, hk, Nat.add_sub_cancel, pow_succ]; ring
  have hpos : (0 : ℤ) < 2 ^ x.reg.length := by positivity
  have hj : j = 0 := by
    by_contra hj
    rcases lt_or_gt_of_ne hj with h5 | h5
    · have : 2 ^ x.reg.length * j ≤ -2 ^ x.reg.length := by nlinarith
      omega
    · have : 2 ^ x.reg.length * j ≥ 2 ^ x.reg.length := by nlinarith
      omega
  rw [h, hj, mul_zero, add_zero]

end Verif.Sbp

namespace Verif.Sbp

open Verif.Rev Verif.Fourier

variable {Q : Type} [DecidableEq Q]

theorem zpow_mul_nat {e e' : ℤ} (h : e ≤ e') : (2 : ℚ) ^ e' = 2 ^ e * ((2 ^ (e' - e).toNat : ℤ) : ℚ) := by
  have h1 : ((e' - e).toNat : ℤ) = e' - e := Int.toNat_of_nonneg (by omega)
  push_cast
  rw [← zpow_natCast (2 : ℚ) (e' - e).toNat, h1, ← zpow_add₀ two_ne_zero]
  congr 1
  omega

/-- The polynomial of a float, modulo the size of an output of at least its resolution. -/
theorem evalQ_sbPoly_mod {x out : QF Q} (he : out.exp ≤ x.exp) (hm : out.msize ≠ 0) (s : St Q) :
    ∃ j : ℤ, evalQ (sbPoly out.msize x) s = qval x s + 2 ^ out.exp * 2 ^ out.reg.length * j := by
  rw [evalQ_sbPoly hm, zpow_mul_nat he]
  have hle : out.reg.length ≤ out.msize + 1 := by
    unfold QF.msize
    cases out.signed <;> simp <;> omega
  obtain ⟨k, hk⟩ := Nat.exists_eq_add_of_le hle
  rw [hk]
  refine ⟨2 ^ (x.exp - out.exp).toNat * (if top x s then 2 ^ k else 0), ?_⟩
  unfold qval
  rw [zpow_mul_nat he]
  by_cases ht : top x s = true
  · rw [if_pos ht, if_pos ht, pow_add]; push_cast; ring
  · rw [if_neg ht, if_neg ht]; push_cast; ring

theorem qval_exact {out : QF Q} {s t : St Q} (hr : out.signed = true → out.reg ≠ []) {V : ℚ} {K j : ℤ}
    (h : qval out t = qval out s + V + j * 2 ^ out.reg.length * 2 ^ out.exp) (h0 : ival out s = 0)
    (hK : V = K * 2 ^ out.exp) (h1 : (if out.signed then -2 ^ out.msize else 0) ≤ K) (h2 : K < 2 ^ out.msize) :
    qval out t = V := by
  have hu : (2 : ℚ) ^ out.exp ≠ 0 := zpow_ne_zero _ two_ne_zero
  have h3 : ival out t = K + 2 ^ out.reg.length * j := by
    have : ((ival out t : ℤ) : ℚ) = ((K + 2 ^ out.reg.length * j : ℤ) : ℚ) := by
      refine mul_right_cancel₀ hu ?_
      unfold qval at h
      rw [h0, hK] at h
      rw [h]
      push_cast
      ring
    exact_mod_cast this
  unfold qval
  rw [ival_exact hr h3 h1 h2, hK]

/-- Bounds of a value. -/
theorem qval_range (x : QF Q) (s : St Q) (hr : x.signed = true → x.reg ≠ []) :
    (if x.signed then -2 ^ (x.exp + x.msize) else 0) ≤ qval x s ∧ qval x s < 2 ^ (x.exp + x.msize) ∧
      |qval x s| ≤ 2 ^ (x.exp + x.msize) := by
  obtain ⟨h1, h2⟩ := ival_range x s hr
  have hu : (0 : ℚ) < 2 ^ x.exp := zpow_pos two_pos _
  have hp : (2 : ℚ) ^ (x.exp + x.msize) = 2 ^ x.msize * 2 ^ x.exp := by
    rw [zpow_add₀ two_ne_zero, zpow_natCast, mul_comm]
  have h2' : ((ival x s : ℤ) : ℚ) < 2 ^ x.msize := by exact_mod_cast h2
  have hlt : qval x s < 2 ^ (x.exp + x.msize) := by
    rw [hp]; exact mul_lt_mul_of_pos_right h2' hu
  have hge : (if x.signed then -2 ^ (x.exp + x.msize) else 0) ≤ qval x s := by
    unfold qval
    cases hs : x.signed
    · simp only [hs, Bool.false_eq_true, if_false] at h1 ⊢
      exact mul_nonneg (by exact_mod_cast h1) hu.le
    · simp only [hs, if_true] at h1 ⊢
      have h1' : (-2 ^ x.msize : ℚ) ≤ (ival x s : ℤ) := by exact_mod_cast h1
      rw [hp, ← neg_mul]
      exact mul_le_mul_of_nonneg_right h1' hu.le
  refine ⟨hge, hlt, abs_le.2 ⟨?_, hlt.le⟩⟩
  cases hs : x.signed
  · rw [hs] at hge
    simp only [Bool.false_eq_true, if_false] at hge
    have : (0 : ℚ) < 2 ^ (x.exp + x.msize) := zpow_pos two_pos _
    linarith
  · rw [hs] at hge
    exact hge

/-- Integer bounds from value bounds. -/
theorem int_bound {K : ℤ} {n : ℕ} {e : ℤ} {V : ℚ} (hK : V = K * 2 ^ e) :
    (V < 2 ^ (e + n) → K < 2 ^ n) ∧ (-2 ^ (e + n) ≤ V → -2 ^ n ≤ K) ∧ (0 ≤ V → 0 ≤ K) := by
  have hu : (0 : ℚ) < 2 ^ e := zpow_pos two_pos _
  have hp : (2 : ℚ) ^ (e + n) = 2 ^ n * 2 ^ e := by rw [zpow_add₀ two_ne_zero, zpow_natCast, mul_comm]
  rw [hp, hK]
  refine ⟨fun h => ?_, fun h => ?_, fun h => ?_⟩
  · have := lt_of_mul_lt_mul_right h hu.le
    exact_mod_cast this
  · rw [← neg_mul] at h
    have := le_of_mul_le_mul_right h hu
    exact_mod_cast this
  · by_contra hc
    push Not at hc
    have : (K : ℚ) < 0 := by exact_mod_cast hc
    nlinarith

end Verif.Sbp
