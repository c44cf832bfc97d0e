import Verif.Sbp.Basic

/-!
# Correctness of the polynomial encoder
-/

namespace Verif.Sbp

open Verif.Rev Verif.Fourier

variable {Q : Type} [DecidableEq Q]

theorem runS_append (A B : List (SOp Q)) (ψ : St Q → ℂ) : runS (A ++ B) ψ = runS B (runS A ψ) := by
  induction A generalizing ψ with
  | nil => rfl
  | cons g A ih => exact ih _

theorem runS_map (gs : List (FGate Q)) (ψ : St Q → ℂ) : runS (gs.map .g) ψ = Fourier.run gs ψ := by
  induction gs generalizing ψ with
  | nil => rfl
  | cons g A ih => exact ih _

theorem E_fract (x : ℚ) : E ((Int.fract x : ℚ) : ℝ) = E (x : ℝ) := by
  refine E_congr (-⌊x⌋) ?_
  rw [← Int.self_sub_floor]
  push_cast
  ring

theorem app_ph1 (θ : ℚ) (q : Q) (ψ : St Q → ℂ) (s : St Q) : (FGate.ph θ [q]).app ψ s = (if s q then E θ else 1) * ψ s := by
  simp [FGate.app]

/-- One controlled rotation without its phase on the control. -/
theorem run_crz {a q : Q} (h : a ≠ q) (θ : ℚ) (ψ : St Q → ℂ) (s : St Q) :
    Fourier.run [.cx a q, .ph (-θ / 2) [q], .cx a q, .ph (θ / 2) [q]] ψ s =
      (if s a then (if s q then E θ else 1) * E (-(θ / 2 : ℚ) : ℚ) else 1) * ψ s := by
  have hss : upd (upd s q (s q ^^ s a)) q (upd s q (s q ^^ s a) q ^^ upd s q (s q ^^ s a) a) = s := by
    rw [upd_ne h, upd_same, upd_upd, Bool.xor_assoc, Bool.xor_self, Bool.xor_false, upd_self]
  have h1 : E ((θ / 2 : ℚ) : ℝ) = E θ * E (-(θ / 2 : ℚ) : ℚ) := by
    rw [← E_add]; congr 1; push_cast; ring
  have h2 : E ((-θ / 2 : ℚ) : ℝ) = E (-(θ / 2 : ℚ) : ℚ) := by congr 1; push_cast; ring
  have h3 : E ((θ / 2 : ℚ) : ℝ) * E (-(θ / 2 : ℚ) : ℚ) = 1 := by
    rw [← E_add, ← Rat.cast_add, add_neg_cancel, Rat.cast_zero, E_zero]
  show (FGate.ph (θ / 2) [q]).app ((FGate.cx a q).app ((FGate.ph (-θ / 2) [q]).app ((FGate.cx a q).app ψ))) s = _
  rw [app_ph1]
  show _ * ((FGate.ph (-θ / 2) [q]).app ((FGate.cx a q).app ψ)) (upd s q (s q ^^ s a)) = _
  rw [app_ph1, upd_same]
  show _ * (_ * ψ (upd (upd s q (s q ^^ s a)) q (upd s q (s q ^^ s a) q ^^ upd s q (s q ^^ s a) a))) = _
  rw [hss, h2, ← mul_assoc]
  congr 1
  cases s a <;> cases s q <;> simp
  · simpa using h3
  · simpa using h1

theorem run_mcUgLoop (y : ℤ) (a : Q) : ∀ (qs : List Q) (i : ℕ), a ∉ qs → ∀ (ψ : St Q → ℂ) (s : St Q),
    Fourier.run (mcUgLoop y a i qs).1 ψ s = (if s a then E (y * valM qs s / 2 ^ (i + qs.length)) *
      E (-(mcUgLoop y a i qs).2 : ℚ) else 1) * ψ s := by
  intro qs
  induction qs with
  | nil => intro i _ ψ s; simp [mcUgLoop, Fourier.run, valM, E_zero]
  | cons q qs ih =>
    intro i ha ψ s
    rw [List.mem_cons, not_or] at ha
    have hv : ((y * valM (q :: qs) s / 2 ^ (i + (q :: qs).length) : ℝ)) =
        (if s q then (y : ℝ) / 2 ^ (i + 1) else 0) + y * valM qs s / 2 ^ (i + 1 + qs.length) := by
      rw [valM, List.length_cons]
      cases s q
      · simp only [Bool.toNat_false, Bool.false_eq_true, if_false]
        push_cast
        rw [show i + (qs.length + 1) = i + 1 + qs.length by omega]; ring
      · simp only [Bool.toNat_true, if_true]
        push_cast
        rw [show i + (qs.length + 1) = i + 1 + qs.length by omega, pow_add _ (i + 1)]
        field_simp
    have hf := E_fract ((y : ℚ) / 2 ^ (i + 1))
    have hf' : E ((((y : ℚ) / 2 ^ (i + 1) : ℚ)) : ℝ) = E ((y : ℝ) / 2 ^ (i + 1)) := by congr 1; push_cast; ring
    rw [hf'] at hf
    rw [hv, E_add]
    simp only [mcUgLoop]
    by_cases hz : Int.fract ((y : ℚ) / 2 ^ (i + 1)) = 0
    · rw [if_pos hz, ih (i + 1) ha.2]
      rw [hz, Rat.cast_zero, E_zero] at hf
      congr 1
      cases s a
      · rfl
      · simp only [if_true]
        cases s q
        · simp [E_zero]
        · simp [← hf]
    · rw [if_neg hz]
      simp only
      rw [Fourier.run_append, ih (i + 1) ha.2, run_crz ha.1, ← mul_assoc]
      congr 1
      cases s a
      · simp
      · simp only [if_true]
        rw [hf, neg_add, Rat.cast_add, E_add]
        cases s q
        · simp [E_zero]; ring
        · simp; ring

theorem run_mcUgFull (y : ℤ) {a : Q} {qs : List Q} (ha : a ∉ qs) (ψ : St Q → ℂ) (s : St Q) :
    Fourier.run ((mcUgLoop y a 0 qs).1 ++ [.ph (mcUgLoop y a 0 qs).2 [a]]) ψ s =
      (if s a then E (y * valM qs s / 2 ^ qs.length) else 1) * ψ s := by
  rw [Fourier.run_append]
  show (FGate.ph _ [a]).app _ s = _
  rw [app_ph1, run_mcUgLoop y a qs 0 ha, ← mul_assoc]
  congr 1
  cases s a
  · simp
  · simp only [if_true, Nat.zero_add]
    have h := E_neg ((mcUgLoop y a 0 qs).2 : ℝ)
    rw [← Rat.cast_neg] at h
    linear_combination (E (y * valM qs s / 2 ^ qs.length)) * h

theorem run_ug (y : ℤ) : ∀ (qs : List Q) (i : ℕ) (ψ : St Q → ℂ) (s : St Q),
    Fourier.run (ug y i qs) ψ s = E (y * valM qs s / 2 ^ (i + qs.length)) * ψ s := by
  intro qs
  induction qs with
  | nil => intro i ψ s; simp [ug, Fourier.run, valM, E_zero]
  | cons q qs ih =>
    intro i ψ s
    have hv : ((y * valM (q :: qs) s / 2 ^ (i + (q :: qs).length) : ℝ)) =
        (if s q then (y : ℝ) / 2 ^ (i + 1) else 0) + y * valM qs s / 2 ^ (i + 1 + qs.length) := by
      rw [valM, List.length_cons]
      cases s q
      · simp only [Bool.toNat_false, Bool.false_eq_true, if_false]
        push_cast
        rw [show i + (qs.length + 1) = i + 1 + qs.length by omega]; ring
      · simp only [Bool.toNat_true, if_true]
        push_cast
        rw [show i + (qs.length + 1) = i + 1 + qs.length by omega, pow_add _ (i + 1)]
        field_simp
    have hf := E_fract ((y : ℚ) / 2 ^ (i + 1))
    have hf' : E ((((y : ℚ) / 2 ^ (i + 1) : ℚ)) : ℝ) = E ((y : ℝ) / 2 ^ (i + 1)) := by congr 1; push_cast; ring
    rw [hf'] at hf
    rw [hv, E_add]
    simp only [ug]
    rw [Fourier.run_append, ih]
    by_cases hz : Int.fract ((y : ℚ) / 2 ^ (i + 1)) = 0
    · rw [if_pos hz]
      rw [hz, Rat.cast_zero, E_zero] at hf
      show _ * ψ s = _
      cases s q
      · simp [E_zero]
      · simp [← hf]
    · rw [if_neg hz]
      show _ * (FGate.ph _ [q]).app ψ s = _
      rw [app_ph1, hf]
      cases s q
      · simp [E_zero]
      · simp only [if_true]; ring

/-! ### States whose ancilla is 0 -/

/-- The ancilla is 0. -/
def Clean (anc : Q) (ψ : St Q → ℂ) : Prop := ∀ s, s anc = true → ψ s = 0

theorem flipIf_flipIf {cs : List Q} {t : Q} (h : t ∉ cs) (s : St Q) : flipIf cs t (flipIf cs t s) = s := by
  have hall : cs.all (upd s t (s t ^^ cs.all s)) = cs.all s := by
    rw [Bool.eq_iff_iff, List.all_eq_true, List.all_eq_true]
    refine forall₂_congr fun x hx => ?_
    have hne : x ≠ t := fun e => h (e ▸ hx)
    rw [upd_ne hne]
  unfold flipIf
  rw [hall, upd_same, upd_upd, Bool.xor_assoc, Bool.xor_self, Bool.xor_false, upd_self]

/-- The phase of a monomial. -/
noncomputable def monPh (out : List Q) (y : ℤ) (cs : List Q) (s : St Q) : ℂ :=
  if cs.all s then E (y * valM out s / 2 ^ out.length) else 1

theorem runS_mcUg {f : List Q → St Q → ℂ} (hf : ∀ cs s, f cs s ≠ 0) {anc : Q} {out cs : List Q} (h1 : anc ∉ out)
    (h2 : anc ∉ cs) (h3 : ∀ c ∈ cs, c ∉ out) (y : ℤ) {ψ : St Q → ℂ} (hψ : Clean anc ψ) (s : St Q) :
    runS (mcUg f anc out cs y) ψ s = monPh out y cs s * ψ s := by
  have hgen : runS (.mcx (f cs) cs anc ::
      ((mcUgLoop y anc 0 out).1 ++ [FGate.ph (mcUgLoop y anc 0 out).2 [anc]]).map .g ++ [.mcxInv (f cs) cs anc]) ψ s =
        monPh out y cs s * ψ s := by
    rw [List.cons_append]
    show runS _ (fun s => f cs s * ψ (flipIf cs anc s)) s = _
    rw [runS_append, runS_map]
    show (f cs (flipIf cs anc s))⁻¹ * Fourier.run _ _ (flipIf cs anc s) = _
    rw [run_mcUgFull y h1, flipIf_flipIf h2]
    have hv : valM out (flipIf cs anc s) = valM out s := valM_congr fun q hq => by
      have hne : q ≠ anc := fun e => h1 (e ▸ hq)
      exact upd_ne hne
    have ha : flipIf cs anc s anc = (s anc ^^ cs.all s) := upd_same _ _ _
    have hne := hf cs (flipIf cs anc s)
    rw [hv, ha, monPh]
    cases hs : s anc
    · rw [Bool.false_xor]
      field_simp
    · rw [hψ s hs]; simp
  unfold mcUg
  split
  · next c =>
    rw [runS_map, run_mcUgFull y (h3 c List.mem_cons_self), monPh]
    simp
  · exact hgen

theorem clean_mul {anc : Q} {ψ : St Q → ℂ} (h : Clean anc ψ) (c : St Q → ℂ) : Clean anc fun s => c s * ψ s :=
  fun s hs => by show c s * ψ s = 0; rw [h s hs, mul_zero]

theorem all_dedup (cs : List Q) (s : St Q) : cs.dedup.all s = cs.all s := by
  rw [Bool.eq_iff_iff, List.all_eq_true, List.all_eq_true]
  refine forall_congr' fun x => ?_
  rw [List.mem_dedup]

theorem runS_encMon {f : List Q → St Q → ℂ} (hf : ∀ cs s, f cs s ≠ 0) {anc : Q} {out : List Q} (h1 : anc ∉ out)
    (m : Mon Q) (h2 : anc ∉ m.2) (h3 : ∀ c ∈ m.2, c ∉ out) {ψ : St Q → ℂ} (hψ : Clean anc ψ) :
    runS (encMon f anc out m) ψ = fun s => monPh out (roundHE m.1) m.2 s * ψ s := by
  funext s
  have hd := all_dedup m.2 s
  unfold encMon
  simp only
  by_cases hc : m.2.dedup = []
  · rw [if_pos hc, runS_map, run_ug, Nat.zero_add]
    rw [hc] at hd
    have : m.2.all s = true := hd.symm
    rw [monPh, if_pos this]
  · rw [if_neg hc, runS_mcUg hf h1 (fun h => h2 (List.mem_dedup.1 h)) (fun c h => h3 c (List.mem_dedup.1 h)) _ hψ]
    rw [monPh, monPh, hd]

/-- The integer value of a polynomial with rounded coefficients. -/
def evalR (p : List (Mon Q)) (s : St Q) : ℤ := (p.map fun m => if m.2.all s then roundHE m.1 else 0).sum

theorem runS_encMons {f : List Q → St Q → ℂ} (hf : ∀ cs s, f cs s ≠ 0) {anc : Q} {out : List Q} (h1 : anc ∉ out) :
    ∀ (p : List (Mon Q)), (∀ m ∈ p, anc ∉ m.2 ∧ ∀ c ∈ m.2, c ∉ out) → ∀ {ψ : St Q → ℂ}, Clean anc ψ →
    runS (p.flatMap (encMon f anc out)) ψ = fun s => E (evalR p s * valM out s / 2 ^ out.length) * ψ s := by
  intro p
  induction p with
  | nil => intro _ ψ _; funext s; simp [runS, evalR, E_zero]
  | cons m p ih =>
    intro hp ψ hψ
    have hm := hp m List.mem_cons_self
    rw [List.flatMap_cons, runS_append, runS_encMon hf h1 m hm.1 hm.2 hψ,
      ih (fun m h => hp m (List.mem_cons_of_mem _ h)) (clean_mul hψ _)]
    funext s
    rw [← mul_assoc]
    congr 1
    unfold evalR
    rw [List.map_cons, List.sum_cons, Int.cast_add, add_mul, add_div, E_add, mul_comm]
    congr 1
    unfold monPh
    by_cases h : m.2.all s = true
    · rw [if_pos h, if_pos h]
    · rw [if_neg h, if_neg h]; simp [E_zero]

/-! ### The Fourier transform with a factor -/

/-- Specification: register `qs` gets its value times `m` plus `a`. -/
def mulAdd (qs : List Q) (m : ℤ) (a : St Q → ℤ) (s : St Q) : St Q :=
  setM qs ((m * valM qs s + a s) % (2 ^ qs.length : ℕ)).toNat s

theorem odd_inv {m : ℤ} (hm : m % 2 = 1) (n : ℕ) : ∃ k : ℤ, (m * k) % (2 ^ n : ℕ) = 1 % (2 ^ n : ℕ) := by
  have h1 : IsCoprime m 2 := ⟨1, -(m / 2), by omega⟩
  obtain ⟨a, b, h⟩ := h1.pow_right (n := n)
  refine ⟨a, ?_⟩
  push_cast
  rw [← h, mul_comm m a, Int.add_mul_emod_self_right]

theorem fourier_mult {qs : List Q} (hn : qs.Nodup) {m k : ℤ} (hk : (m * k) % (2 ^ qs.length : ℕ) = 1 % (2 ^ qs.length : ℕ))
    {F G : (St Q → ℂ) → St Q → ℂ} {c : ℂ} {Y : St Q → ℕ}
    (hF : ∀ ψ s, F ψ s = c * ∑ X ∈ Finset.range (2 ^ qs.length),
      E (m * (X * (Y s : ℕ)) / 2 ^ qs.length) * ψ (setM qs X s))
    (hG : ∀ ψ s, G ψ s = c * ∑ X ∈ Finset.range (2 ^ qs.length),
      E ((1 : ℤ) * (X * (Y s : ℕ)) / 2 ^ qs.length) * ψ (setM qs X s)) (ψ : St Q → ℂ) :
    F ψ = G fun s => ψ (mulAdd qs k (fun _ => 0) s) := by
  funext s
  rw [hF, hG]
  congr 1
  have hN : (0 : ℤ) < (2 ^ qs.length : ℕ) := by positivity
  have hlt : ∀ z : ℤ, (z % (2 ^ qs.length : ℕ)).toNat < 2 ^ qs.length := fun z => by
    have h1 := Int.emod_lt_of_pos z hN
    have h2 := Int.emod_nonneg z hN.ne'
    omega
  have hcast : ∀ z : ℤ, (((z % (2 ^ qs.length : ℕ)).toNat : ℕ) : ℤ) = z % (2 ^ qs.length : ℕ) := fun z =>
    Int.toNat_of_nonneg (Int.emod_nonneg z hN.ne')
  have hinv : ∀ X : ℕ, X < 2 ^ qs.length → ∀ a b : ℤ, (a * b) % (2 ^ qs.length : ℕ) = 1 % (2 ^ qs.length : ℕ) →
      ((a * (((b * X) % (2 ^ qs.length : ℕ)).toNat : ℕ)) % (2 ^ qs.length : ℕ)).toNat = X := fun X hX a b hab => by
    rw [hcast]
    have : (a * ((b * X) % (2 ^ qs.length : ℕ))) % (2 ^ qs.length : ℕ) = X := by
      rw [Int.mul_emod, Int.emod_emod_of_dvd _ (dvd_refl _), ← Int.mul_emod, ← mul_assoc, Int.mul_emod, hab,
        ← Int.mul_emod, one_mul, Int.emod_eq_of_lt (by omega) (by omega)]
    rw [this, Int.toNat_natCast]
  refine Finset.sum_nbij' (fun X => ((m * X) % (2 ^ qs.length : ℕ)).toNat)
    (fun X => ((k * X) % (2 ^ qs.length : ℕ)).toNat) (fun X _ => Finset.mem_range.2 (hlt _))
    (fun X _ => Finset.mem_range.2 (hlt _)) (fun X hX => ?_) (fun X hX => ?_) (fun X hX => ?_)
  · exact hinv X (Finset.mem_range.1 hX) k m (by rw [mul_comm]; exact hk)
  · exact hinv X (Finset.mem_range.1 hX) m k hk
  · have hX' := Finset.mem_range.1 hX
    have hb : mulAdd qs k (fun _ => 0) (setM qs ((m * X) % (2 ^ qs.length : ℕ)).toNat s) = setM qs X s := by
      unfold mulAdd
      rw [valM_setM hn, Nat.mod_eq_of_lt (hlt _), setM_setM _ _ _ _ hn, add_zero,
        hinv X hX' k m (by rw [mul_comm]; exact hk)]
    rw [hb]
    congr 1
    have hdiv := Int.mul_ediv_add_emod (m * X) (2 ^ qs.length : ℕ)
    have h2 := hcast (m * X)
    generalize ((m * X) % (2 ^ qs.length : ℕ)).toNat = Z at h2 ⊢
    rw [← h2] at hdiv
    refine E_congr (((m * X) / (2 ^ qs.length : ℕ)) * Y s) ?_
    generalize (m * X) / (2 ^ qs.length : ℕ) = j at hdiv ⊢
    have hr : ((2 ^ qs.length : ℕ) : ℝ) * (j : ℝ) + Z = m * X := by exact_mod_cast hdiv
    push_cast at hr ⊢
    field_simp
    linear_combination (-(Y s : ℝ)) * hr

theorem mulAdd_out (qs : List Q) (m : ℤ) (a : St Q → ℤ) (s : St Q) {x : Q} (h : x ∉ qs) : mulAdd qs m a s x = s x :=
  setM_out _ _ _ h

theorem mulAdd_back {qs : List Q} (hn : qs.Nodup) {m k : ℤ} (hk : (m * k) % (2 ^ qs.length : ℕ) = 1 % (2 ^ qs.length : ℕ))
    {a : St Q → ℤ} (ha : ∀ s X, a (setM qs X s) = a s) (s : St Q) :
    mulAdd qs k (fun _ => 0) (addBack qs a (mulAdd qs m a s)) = s := by
  have hN : (0 : ℤ) < (2 ^ qs.length : ℕ) := by positivity
  have hlt : ∀ z : ℤ, (z % (2 ^ qs.length : ℕ)).toNat < 2 ^ qs.length := fun z => by
    have h1 := Int.emod_lt_of_pos z hN
    have h2 := Int.emod_nonneg z hN.ne'
    omega
  have hcast : ∀ z : ℤ, (((z % (2 ^ qs.length : ℕ)).toNat : ℕ) : ℤ) = z % (2 ^ qs.length : ℕ) := fun z =>
    Int.toNat_of_nonneg (Int.emod_nonneg z hN.ne')
  have hb : addBack qs a (mulAdd qs m a s) = setM qs ((m * valM qs s) % (2 ^ qs.length : ℕ)).toNat s := by
    unfold mulAdd addBack
    rw [ha, valM_setM hn, Nat.mod_eq_of_lt (hlt _), setM_setM _ _ _ _ hn, hcast, Int.emod_sub_emod, add_sub_cancel_right]
  rw [hb]
  unfold mulAdd
  rw [valM_setM hn, Nat.mod_eq_of_lt (hlt _), setM_setM _ _ _ _ hn, hcast, add_zero]
  have : (k * ((m * valM qs s) % (2 ^ qs.length : ℕ))) % (2 ^ qs.length : ℕ) = valM qs s := by
    have hv := valM_lt qs s
    rw [Int.mul_emod, Int.emod_emod_of_dvd _ (dvd_refl _), ← Int.mul_emod, ← mul_assoc, Int.mul_emod, mul_comm k, hk,
      ← Int.mul_emod, one_mul, Int.emod_eq_of_lt (by omega) (by omega)]
  rw [this, Int.toNat_natCast, setM_val hn]

theorem evalR_congr {p : List (Mon Q)} {s s' : St Q} (h : ∀ m ∈ p, ∀ c ∈ m.2, s c = s' c) : evalR p s = evalR p s' := by
  unfold evalR
  congr 1
  refine List.map_congr_left fun m hm => ?_
  have : m.2.all s = m.2.all s' := by
    rw [Bool.eq_iff_iff, List.all_eq_true, List.all_eq_true]
    exact forall₂_congr fun c hc => by rw [h m hm c hc]
  rw [this]

/-- The encoder maps every basis state with ancilla 0 to the state whose register holds `m * out + p`. -/
theorem sbEncode_spec {f : List Q → St Q → ℂ} (hf : ∀ cs s, f cs s ≠ 0) {d anc : Q} {out : QF Q} (hn : out.reg.Nodup)
    (h1 : anc ∉ out.reg) {p : List (Mon Q)} (hp : ∀ a ∈ p, anc ∉ a.2 ∧ ∀ c ∈ a.2, c ∉ out.reg) {m : ℤ}
    {os : List (SOp Q)} (h : sbEncode f d anc out p m = some os) {ψ : St Q → ℂ} (hψ : Clean anc ψ) :
    Clean anc (runS os ψ) ∧ ∀ s, runS os ψ
      (mulAdd out.reg.reverse m (evalR (p.map fun a => (a.1 / 2 ^ out.exp, a.2))) s) = ψ s := by
  unfold sbEncode at h
  simp only at h
  by_cases hm : m % 2 = 1
  swap
  · rw [if_neg hm] at h; cases h
  rw [if_pos hm, Option.some.injEq] at h
  subst h
  set p' : List (Mon Q) := p.map fun a => (a.1 / 2 ^ out.exp, a.2) with hp'
  have hp2 : ∀ a ∈ p', anc ∉ a.2 ∧ ∀ c ∈ a.2, c ∉ out.reg := fun a ha => by
    obtain ⟨b, hb, rfl⟩ := List.mem_map.1 ha
    exact hp b hb
  have hr : out.reg.reverse.Nodup := List.nodup_reverse.2 hn
  have ha : ∀ s X, evalR p' (setM out.reg.reverse X s) = evalR p' s := fun s X => evalR_congr fun m hm c hc =>
    setM_out _ _ _ fun hx => (hp2 m hm).2 c hc (List.mem_reverse.1 hx)
  obtain ⟨k, hk⟩ := odd_inv hm out.reg.reverse.length
  have hq : ∀ {m : ℤ}, m % 2 = 1 → ∀ ψ s, Fourier.run (qftInner m false d out.reg.reverse) ψ s =
      rt ^ out.reg.reverse.length * ∑ X ∈ Finset.range (2 ^ out.reg.reverse.length),
        E (m * (X * (valL out.reg.reverse s : ℕ)) / 2 ^ out.reg.reverse.length) * ψ (setM out.reg.reverse X s) :=
    fun hm ψ s => run_qftInner hm hr false d ψ s
  have hclean : Clean anc fun s => ψ (mulAdd out.reg.reverse k (fun _ => 0) s) := fun s hs => by
    refine hψ _ ?_
    rw [mulAdd_out _ _ _ _ (fun hx => h1 (List.mem_reverse.1 hx)), hs]
  have hqc : ∀ {χ : St Q → ℂ}, Clean anc χ → Clean anc (Fourier.run (qftInner 1 false d out.reg.reverse) χ) :=
    fun hχ s hs => by
      rw [hq (by decide)]
      refine mul_eq_zero_of_right _ (Finset.sum_eq_zero fun X _ => ?_)
      rw [hχ _ (by rw [setM_out _ _ _ (fun hx => h1 (List.mem_reverse.1 hx)), hs]), mul_zero]
  have hrun : runS ((qftInner m false d out.reg.reverse).map .g ++ p'.flatMap (encMon f anc out.reg) ++
      (inv (qftInner 1 false d out.reg.reverse)).map .g) ψ =
      fun s => ψ (mulAdd out.reg.reverse k (fun _ => 0) (addBack out.reg.reverse (evalR p') s)) := by
    rw [runS_append, runS_append, runS_map, runS_map,
      fourier_mult hr hk (F := Fourier.run (qftInner m false d out.reg.reverse))
        (G := Fourier.run (qftInner 1 false d out.reg.reverse)) (hq hm) (hq (by decide)),
      runS_encMons hf h1 p' hp2 (hqc hclean)]
    have hs := fourier_shift hr (evalR p') ha (F := Fourier.run (qftInner 1 false d out.reg.reverse))
      (Y := valL out.reg.reverse) (c := rt ^ out.reg.reverse.length) (hq (by decide))
      (fun s => ψ (mulAdd out.reg.reverse k (fun _ => 0) s))
    rw [List.length_reverse] at hs
    simp only [valL_reverse] at hs
    rw [← hs]
    exact (run_inv _ (qftInner_wf 1 false d hr) _).1
  rw [hrun]
  refine ⟨fun s hs => ?_, fun s => ?_⟩
  · refine hψ _ ?_
    have hx : anc ∉ out.reg.reverse := fun hx => h1 (List.mem_reverse.1 hx)
    rw [mulAdd_out _ _ _ _ hx]
    unfold addBack
    rw [setM_out _ _ _ hx, hs]
  · simp only
    rw [mulAdd_back hr hk ha]

end Verif.Sbp
