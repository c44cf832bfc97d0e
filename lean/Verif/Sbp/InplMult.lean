import Verif.Sbp.Arith
import Verif.Iter.Demux

/-!
# In-place multiplication by a number

Models `QFT_inpl_mult`, `inpl_mult` and `quantum_bit_shift` (SBP_arithmetic.py:929-1082).
-/

namespace Verif.Sbp

open Verif.Rev Verif.Fourier Verif.Iter

variable {Q : Type} [DecidableEq Q]

/-- The loop over `k` of the forward part (SBP_arithmetic.py:947-952). -/
def imFwd (m : ℤ) (q : Q) : ℕ → List Q → List (FGate Q)
  | _, [] => []
  | k, [c] => [.ph ((m - 1 : ℤ) / 2 ^ (k + 2)) [c, q]]
  | k, c :: rest => .ph (m / 2 ^ (k + 2)) [c, q] :: imFwd m q (k + 1) rest

/-- The loop over `k` of the backward part (SBP_arithmetic.py:956-958). -/
def imBack (q : Q) : ℕ → List Q → List (FGate Q)
  | _, [] => []
  | _, [_] => []
  | k, c :: rest => imBack q (k + 1) rest ++ [.ph (-1 / 2 ^ (k + 2)) [c, q]]

/-- `QFT_inpl_mult` (SBP_arithmetic.py:929-963) on the reversed register: the loop over `i` and the reversed loop are nested
around each other. -/
def imMult (m : ℤ) : List Q → List (FGate Q)
  | [] => []
  | [_] => []
  | q :: rest => .h q :: imFwd m q 0 rest ++ imMult m rest ++ imBack q 0 rest ++ [.h q]

/-- The decomposition of the factor into a shift and an odd number (SBP_arithmetic.py:1033-1035). -/
def stripTwos : ℕ → ℤ → ℕ × ℤ
  | 0, m => (0, m)
  | f + 1, m => if m % 2 = 0 then ((stripTwos f (m / 2)).1 + 1, (stripTwos f (m / 2)).2) else (0, m)

/-- SBP_arithmetic.py:1018-1035: shift and odd factor. `none` if it raises, and for the factor 0, for which the loop does
not end. -/
def splitFactor (c : ℚ) : Option (ℤ × ℤ) :=
  if c.den ≠ 1 then
    ((List.range 32).find? fun i : ℕ => (2 ^ i * |c|).den = 1).map fun i : ℕ => (-(i : ℤ), (2 ^ i * c).num)
  else if c = 0 then none
  else some ((stripTwos c.num.natAbs c.num).1, (stripTwos c.num.natAbs c.num).2)

/-- `cyclic_shift` of a register. -/
def shiftReg (d : Q) (reg : List Q) (k : ℤ) : Option (List (FGate Q)) :=
  (cyclicShift (List.range reg.length) k).map fun ps => ps.map fun x => .swap (reg.getD x.1 d) (reg.getD x.2 d)

/-- `qf.extend(len(ext), position)`. -/
def extendAt (x : QF Q) (pos : ℕ) (ext : List Q) : QF Q := { x with reg := x.reg.take pos ++ ext ++ x.reg.drop pos }

/-- `quantum_bit_shift` with a number (SBP_arithmetic.py:1068-1082). -/
def bitShift (d : Q) (treat : Bool) (x : QF Q) (bs : ℤ) (ext : List Q) : Option (List (FGate Q) × QF Q) :=
  let x' :=
    if treat then
      if 0 < bs then (if x.signed then extendAt x (x.reg.length - 1) ext else extendAt x x.reg.length ext)
      else { extendAt x 0 ext with exp := x.exp + bs }
    else x
  (shiftReg d (if x'.signed then x'.reg.dropLast else x'.reg) bs).map fun g => (g, x')

/-- `inpl_mult` (SBP_arithmetic.py:966-1051); `fresh` are the qubits handed out by `extend`. The result are the gates and
the float afterwards, `none` if it raises. -/
def inplMult (d : Q) (c : ℚ) (treat : Bool) (x : QF Q) (fresh : List Q) : Option (List (FGate Q) × QF Q) :=
  if c < 0 ∧ x.signed = false then none
  else
    (splitFactor c).bind fun (bs, m) =>
      let e := if m ≠ 1 ∧ treat then Nat.clog 2 m.natAbs else 0
      let ext1 := fresh.take e
      let ext2 := (fresh.drop e).take bs.natAbs
      let x1 := extendAt x (x.reg.length - 1) ext1
      let g1 := if x.signed then ext1.map (.cx (x1.reg.getLastD d)) else []
      let g2 := if m ≠ 1 then imMult m x1.reg.reverse else []
      (bitShift d treat x1 bs (if treat then ext2 else [])).map fun (g3, x2) =>
        let g4 := if treat ∧ bs < 0 ∧ x.signed then
          (x2.reg.dropLast.drop (x2.reg.dropLast.length - bs.natAbs)).map (.cx (x2.reg.getLastD d)) else []
        (g1 ++ g2 ++ g3 ++ g4, x2)

/-! ### The multiplication -/

/-- The phase that is left out in the backward part. -/
noncomputable def lastPh (q : Q) (k : ℕ) (rest : List Q) (s : St Q) : ℂ :=
  match rest.getLast? with
  | some c => if s c && s q then E (1 / 2 ^ (k + 1 + rest.length)) else 1
  | none => 1

theorem run_imFwd (m : ℤ) (q : Q) : ∀ (rest : List Q) (k : ℕ) (ψ : St Q → ℂ) (s : St Q),
    lastPh q k rest s * Fourier.run (imFwd m q k rest) ψ s = Fourier.run (cps m q k rest) ψ s := by
  intro rest
  induction rest with
  | nil => intro k ψ s; simp [lastPh, imFwd, cps]
  | cons c rest ih =>
    intro k ψ s
    rcases rest with _ | ⟨c', rest⟩
    · have hE : E (1 / 2 ^ (k + 1 + 1) : ℝ) * E ((((m - 1 : ℤ) / 2 ^ (k + 2) : ℚ) : ℚ) : ℝ) =
          E (((m / 2 ^ (k + 2) : ℚ) : ℚ) : ℝ) := by
        rw [← E_add]
        congr 1
        push_cast
        ring
      show _ * (FGate.ph _ [c, q]).app ψ s = (FGate.ph _ [c, q]).app ψ s
      rw [app_ph, app_ph]
      simp only [lastPh, List.getLast?_singleton, List.length_singleton, List.all_cons, List.all_nil, Bool.and_true]
      by_cases h : (s c && s q) = true
      · simp only [h, if_true]
        rw [← mul_assoc, hE]
      · simp only [h, Bool.false_eq_true, if_false]
        ring
    · have h1 : lastPh q k (c :: c' :: rest) s = lastPh q (k + 1) (c' :: rest) s := by
        simp only [lastPh, List.getLast?_cons_cons, List.length_cons]
        rw [show k + 1 + (rest.length + 1 + 1) = k + 1 + 1 + (rest.length + 1) by ring]
      show _ * Fourier.run (imFwd m q (k + 1) (c' :: rest)) ((FGate.ph _ [c, q]).app ψ) s =
        Fourier.run (cps m q (k + 1) (c' :: rest)) ((FGate.ph _ [c, q]).app ψ) s
      rw [h1]
      exact ih (k + 1) _ s

theorem lastPh_ne (q : Q) (k : ℕ) (rest : List Q) (s : St Q) : lastPh q k rest s ≠ 0 := by
  unfold lastPh
  rcases rest.getLast? with _ | c
  · exact one_ne_zero
  · by_cases h : (s c && s q) = true
    · simp only [h, if_true]; exact E_ne _
    · simp only [h, Bool.false_eq_true, if_false]; exact one_ne_zero

theorem run_imBack (q : Q) : ∀ (rest : List Q) (k : ℕ) (ψ : St Q → ℂ) (s : St Q),
    Fourier.run (imBack q k rest) ψ s = lastPh q k rest s * ((if s q then E (-frac s k rest) else 1) * ψ s) := by
  intro rest
  induction rest with
  | nil => intro k ψ s; simp [lastPh, imBack, Fourier.run, frac, E_zero]
  | cons c rest ih =>
    intro k ψ s
    rcases rest with _ | ⟨c', rest⟩
    · simp only [imBack, Fourier.run, lastPh, List.getLast?_singleton, List.length_singleton, frac, add_zero]
      cases hc : s c <;> cases hq : s q <;> simp [E_zero]
      have h2 : E (2 ^ (k + 1 + 1) : ℝ)⁻¹ * E (-(2 ^ (k + 2) : ℝ)⁻¹) = 1 := by
        rw [mul_comm, E_neg]
      rw [← mul_assoc, h2, one_mul]
    · have h1 : lastPh q k (c :: c' :: rest) s = lastPh q (k + 1) (c' :: rest) s := by
        simp only [lastPh, List.getLast?_cons_cons, List.length_cons]
        rw [show k + 1 + (rest.length + 1 + 1) = k + 1 + 1 + (rest.length + 1) by ring]
      have hdef : imBack q k (c :: c' :: rest) = imBack q (k + 1) (c' :: rest) ++ [.ph (-1 / 2 ^ (k + 2)) [c, q]] := rfl
      have hfr : frac s k (c :: c' :: rest) = (s c).toNat / 2 ^ (k + 2) + frac s (k + 1) (c' :: rest) := rfl
      rw [hdef, Fourier.run_append]
      show (FGate.ph _ [c, q]).app _ s = _
      rw [app_ph, ih, h1, hfr]
      generalize frac s (k + 1) (c' :: rest) = F
      generalize lastPh q (k + 1) (c' :: rest) s = L
      have hE : E (((-1 / 2 ^ (k + 2) : ℚ) : ℚ) : ℝ) * E (-F) = E (-(1 / 2 ^ (k + 2) + F)) := by
        rw [← E_add]
        congr 1
        push_cast
        ring
      cases hc : s c <;> cases hq : s q <;>
        simp only [List.all_cons, List.all_nil, hc, hq, Bool.and_true, Bool.and_false, Bool.false_eq_true, if_false,
          if_true, Bool.toNat_true, Bool.toNat_false, Nat.cast_zero, Nat.cast_one, zero_div, zero_add, one_mul]
      rw [← hE]
      ring

theorem wf_cps {m : ℤ} {q : Q} : ∀ (rest : List Q) (k : ℕ), ∀ g ∈ cps m q k rest, g.wf := by
  intro rest
  induction rest with
  | nil => intro k g hg; cases hg
  | cons c rest ih =>
    intro k g hg
    rcases List.mem_cons.1 hg with rfl | hg
    · trivial
    · exact ih _ g hg

theorem wf_qftIdeal {m : ℤ} : ∀ (qs : List Q), ∀ g ∈ qftIdeal m qs, g.wf := by
  intro qs
  induction qs with
  | nil => intro g hg; cases hg
  | cons q qs ih =>
    intro g hg
    simp only [qftIdeal, List.cons_append, List.mem_cons, List.mem_append] at hg
    rcases hg with rfl | hg | hg
    · trivial
    · exact wf_cps _ _ g hg
    · exact ih g hg

theorem run_inv_cps (q : Q) (rest : List Q) (k : ℕ) (ψ : St Q → ℂ) (s : St Q) :
    Fourier.run (inv (cps 1 q k rest)) ψ s = (if s q then E (-frac s k rest) else 1) * ψ s := by
  have h := congrFun (run_inv (cps 1 q k rest) (wf_cps _ _) ψ).2 s
  rw [run_cps] at h
  rw [← h]
  cases s q
  · simp
  · simp only [if_true, Int.cast_one, one_mul]
    rw [← mul_assoc, E_neg, one_mul]

theorem inv_append' (A B : List (FGate Q)) : inv (A ++ B) = inv B ++ inv A := by
  simp [inv]

/-- The textbook multiplication: a transform with factor followed by the inverse transform. -/
theorem ideal_mult {m k : ℤ} (hm : m % 2 = 1) {qs : List Q} (hn : qs.Nodup)
    (hk : (m * k) % (2 ^ qs.length : ℕ) = 1 % (2 ^ qs.length : ℕ)) (ψ : St Q → ℂ) :
    Fourier.run (inv (qftIdeal 1 qs)) (Fourier.run (qftIdeal m qs) ψ) = fun s => ψ (mulAdd qs k (fun _ => 0) s) := by
  have h := fourier_mult hn hk (F := Fourier.run (qftIdeal m qs)) (G := Fourier.run (qftIdeal 1 qs)) (c := rt ^ qs.length)
    (Y := fun s => valL qs s) (fun ψ s => run_qftIdeal hm qs hn ψ s) (fun ψ s => run_qftIdeal (by decide) qs hn ψ s) ψ
  rw [h, (run_inv _ (wf_qftIdeal qs) _).1]

/-- The multiplication by an odd number keeps the least significant bit. -/
theorem mulAdd_lsb {k : ℤ} (hk : k % 2 = 1) {qs : List Q} (hn : qs.Nodup) {c : Q} (hc : qs.getLast? = some c) (s : St Q) :
    mulAdd qs k (fun _ => 0) s c = s c := by
  have hpar : ∀ s : St Q, valM qs s % 2 = (s c).toNat := by
    intro s
    clear hn
    induction qs with
    | nil => cases hc
    | cons q qs ih =>
      rcases qs with _ | ⟨q', qs⟩
      · simp only [List.getLast?_singleton, Option.some.injEq] at hc
        subst hc
        simp only [valM, List.length_nil, pow_zero, mul_one, add_zero]
        cases s q <;> rfl
      · rw [List.getLast?_cons_cons] at hc
        rw [valM, List.length_cons, pow_succ, ← ih hc, ← mul_assoc]
        omega
  have hv : valM qs (mulAdd qs k (fun _ => 0) s) % 2 = valM qs s % 2 := by
    have hpos : (0 : ℤ) < (2 ^ qs.length : ℕ) := by positivity
    have hnn := Int.emod_nonneg (k * valM qs s + 0) hpos.ne'
    have hlt := Int.emod_lt_of_pos (k * valM qs s + 0) hpos
    have hne : qs.length ≠ 0 := by
      rintro h
      rw [List.length_eq_zero_iff.1 h] at hc
      cases hc
    have h2 : (2 : ℤ) ∣ (2 ^ qs.length : ℕ) := by
      push_cast
      exact dvd_pow_self 2 hne
    show valM qs (setM qs ((k * (valM qs s : ℤ) + 0) % (2 ^ qs.length : ℕ)).toNat s) % 2 = _
    have hlt' : ((k * (valM qs s : ℤ) + 0) % (2 ^ qs.length : ℕ)).toNat < 2 ^ qs.length := by omega
    rw [valM_setM hn, Nat.mod_eq_of_lt hlt']
    have h3 : ((k * (valM qs s : ℤ) + 0) % (2 ^ qs.length : ℕ)) % 2 = (valM qs s : ℤ) % 2 := by
      rw [Int.emod_emod_of_dvd _ h2, add_zero, Int.mul_emod, hk, one_mul, Int.emod_emod_of_dvd _ (dvd_refl _)]
    omega
  have h1 := hpar (mulAdd qs k (fun _ => 0) s)
  have h2 := hpar s
  rw [hv, h2] at h1
  cases h3 : s c <;> cases h4 : mulAdd qs k (fun _ => 0) s c <;> rw [h3, h4] at h1 <;> simp at h1 <;> rfl

theorem run_imMult_ideal {m : ℤ} (hm : m % 2 = 1) : ∀ (qs : List Q), qs.Nodup → ∀ ψ : St Q → ℂ,
    Fourier.run (imMult m qs) ψ = Fourier.run (inv (qftIdeal 1 qs)) (Fourier.run (qftIdeal m qs) ψ) := by
  intro qs
  induction qs with
  | nil => intro _ ψ; rfl
  | cons q rest ih =>
    intro hn ψ
    rcases hrest : rest with _ | ⟨q', rest'⟩
    · have h1 : qftIdeal m [q] = [.h q] := rfl
      have h2 : qftIdeal 1 [q] = [.h q] := rfl
      rw [h1, h2]
      exact (run_inv [FGate.h q] (by simp [FGate.wf]) ψ).1.symm
    · rw [← hrest]
      have hdef : imMult m (q :: rest) = .h q :: imFwd m q 0 rest ++ imMult m rest ++ imBack q 0 rest ++ [.h q] := by
        rw [hrest]; rfl
      have hn' := List.nodup_cons.1 hn
      obtain ⟨k, hk⟩ := odd_inv hm rest.length
      have hk2 : k % 2 = 1 := by
        have hne : rest.length ≠ 0 := by rw [hrest]; simp
        have h2 : (2 : ℤ) ∣ (2 ^ rest.length : ℕ) := by push_cast; exact dvd_pow_self 2 hne
        have : (m * k) % (2 ^ rest.length : ℕ) % 2 = 1 % (2 ^ rest.length : ℕ) % 2 := by rw [hk]
        rw [Int.emod_emod_of_dvd _ h2, Int.emod_emod_of_dvd _ h2, Int.mul_emod, hm, one_mul,
          Int.emod_emod_of_dvd _ (dvd_refl _)] at this
        exact this
      set M : (St Q → ℂ) → St Q → ℂ := fun ψ s => ψ (mulAdd rest k (fun _ => 0) s) with hM
      have hid : ∀ ψ, Fourier.run (inv (qftIdeal 1 rest)) (Fourier.run (qftIdeal m rest) ψ) = M ψ :=
        fun ψ => ideal_mult hm hn'.2 hk ψ
      have hph : ∀ s, lastPh q 0 rest (mulAdd rest k (fun _ => 0) s) = lastPh q 0 rest s := by
        intro s
        unfold lastPh
        rcases hl : rest.getLast? with _ | c
        · rfl
        · simp only
          rw [mulAdd_lsb hk2 hn'.2 hl, mulAdd_out _ _ _ _ hn'.1]
      -- left side
      rw [hdef]
      have hL : Fourier.run (.h q :: imFwd m q 0 rest ++ imMult m rest ++ imBack q 0 rest ++ [.h q]) ψ =
          (FGate.h q).app (Fourier.run (imBack q 0 rest) (M (Fourier.run (imFwd m q 0 rest) ((FGate.h q).app ψ)))) := by
        rw [Fourier.run_append, Fourier.run_append, Fourier.run_append, ih hn'.2, hid]
        rfl
      have hR : Fourier.run (inv (qftIdeal 1 (q :: rest))) (Fourier.run (qftIdeal m (q :: rest)) ψ) =
          (FGate.h q).app (Fourier.run (inv (cps 1 q 0 rest)) (M (Fourier.run (cps m q 0 rest) ((FGate.h q).app ψ)))) := by
        have e1 : qftIdeal 1 (q :: rest) = [FGate.h q] ++ (cps 1 q 0 rest ++ qftIdeal 1 rest) := rfl
        have e2 : qftIdeal m (q :: rest) = [FGate.h q] ++ (cps m q 0 rest ++ qftIdeal m rest) := rfl
        rw [e1, e2, inv_append', inv_append', Fourier.run_append, Fourier.run_append, Fourier.run_append,
          Fourier.run_append, hid]
        rfl
      rw [hL, hR]
      congr 1
      funext s
      rw [run_imBack, run_inv_cps]
      have hF := run_imFwd m q rest 0 ((FGate.h q).app ψ) (mulAdd rest k (fun _ => 0) s)
      rw [hph] at hF
      simp only [hM]
      rw [← hF]
      ring

/-- Forward description of a circuit that permutes the basis states. -/
def Steps (gs : List (FGate Q)) (step : St Q → St Q) : Prop := ∀ ψ s, Fourier.run gs ψ (step s) = ψ s

theorem Steps.append {A B : List (FGate Q)} {f g : St Q → St Q} (hA : Steps A f) (hB : Steps B g) :
    Steps (A ++ B) fun s => g (f s) := fun ψ s => by
  rw [Fourier.run_append, hB, hA]

theorem Steps.nil : Steps ([] : List (FGate Q)) fun s => s := fun _ _ => rfl

theorem steps_imMult {m : ℤ} (hm : m % 2 = 1) {qs : List Q} (hn : qs.Nodup) :
    Steps (imMult m qs) (mulAdd qs m fun _ => 0) := by
  intro ψ s
  obtain ⟨k, hk⟩ := odd_inv hm qs.length
  rw [run_imMult_ideal hm qs hn, ideal_mult hm hn hk]
  show ψ (mulAdd qs k (fun _ => 0) (mulAdd qs m (fun _ => 0) s)) = ψ s
  congr 1
  have h := mulAdd_back hn hk (a := fun _ => 0) (fun _ _ => rfl) s
  have hb : ∀ t : St Q, addBack qs (fun _ => 0) t = t := by
    intro t
    unfold addBack
    have : ((valM qs t : ℤ) - 0) % (2 ^ qs.length : ℕ) = valM qs t := by
      rw [sub_zero]
      exact Int.emod_eq_of_lt (by omega) (by exact_mod_cast valM_lt qs t)
    rw [this, Int.toNat_natCast]
    exact setM_val hn t
  rw [hb] at h
  exact h

/-! ### Cyclic shifts of registers -/

theorem onIdx_mem {idx : List ℕ} {ps : List (ℕ × ℕ)} (h : ∀ x ∈ ps, x.1 < idx.length ∧ x.2 < idx.length) :
    ∀ x ∈ onIdx idx ps, x.1 ∈ idx ∧ x.2 ∈ idx := by
  intro x hx
  obtain ⟨y, hy, rfl⟩ := List.mem_map.1 hx
  exact ⟨getD_mem' (h y hy).1, getD_mem' (h y hy).2⟩

theorem cyc1_mem (idx : List ℕ) : ∀ x ∈ cyc1 idx, x.1 ∈ idx ∧ x.2 ∈ idx := by
  intro x hx
  unfold cyc1 at hx
  simp only at hx
  by_cases h1 : idx.length ≤ 1
  · rw [if_pos h1] at hx; cases hx
  · rw [if_neg h1] at hx
    have hlog : 2 ^ Nat.log 2 idx.length ≤ idx.length := Nat.pow_log_le_self 2 (by omega)
    rcases List.mem_append.1 hx with hx | hx
    · have h := onIdx_mem (fun y hy => by
        rw [List.length_take, min_eq_left hlog]
        exact ladder_bound hy) x hx
      exact ⟨List.mem_of_mem_take h.1, List.mem_of_mem_take h.2⟩
    · have h := onIdx_mem (fun y hy => by
        rw [List.length_cons, List.length_drop]
        exact saeedi_bound hy) x hx
      have hsub : ∀ z, z ∈ idx.getD 0 0 :: idx.drop (2 ^ Nat.log 2 idx.length) → z ∈ idx := by
        intro z hz
        rcases List.mem_cons.1 hz with rfl | hz
        · exact getD_mem' (by omega)
        · exact List.mem_of_mem_drop hz
      exact ⟨hsub _ h.1, hsub _ h.2⟩

theorem cycLoop_mem (π : ℕ → ℕ) : ∀ (fuel : ℕ) (rem : List ℕ) (this next : ℕ),
    (∀ x ∈ (cycLoop π fuel rem this next).1, x = this ∨ x ∈ rem) ∧ ∀ x ∈ (cycLoop π fuel rem this next).2, x ∈ rem := by
  intro fuel
  induction fuel with
  | zero => intro rem this next; exact ⟨fun x hx => (List.not_mem_nil hx).elim, fun x hx => hx⟩
  | succ fuel ih =>
    intro rem this next
    simp only [cycLoop]
    by_cases h : next ∈ rem.erase this
    · rw [if_pos h]
      obtain ⟨i1, i2⟩ := ih (rem.erase this) next (π next)
      refine ⟨fun x hx => ?_, fun x hx => List.mem_of_mem_erase (i2 x hx)⟩
      rcases List.mem_cons.1 hx with rfl | hx
      · exact Or.inl rfl
      · rcases i1 x hx with rfl | hx
        · exact Or.inr (List.mem_of_mem_erase h)
        · exact Or.inr (List.mem_of_mem_erase hx)
    · rw [if_neg h]
      exact ⟨fun x hx => Or.inl (List.mem_singleton.1 hx), fun x hx => List.mem_of_mem_erase hx⟩

theorem toCycles_mem {π : ℕ → ℕ} {P : ℕ → Prop} (hπ : ∀ x, P x → P (π x)) : ∀ (fuel : ℕ) (rem : List ℕ),
    (∀ x ∈ rem, P x) → ∀ c ∈ toCycles π fuel rem, ∀ x ∈ c, P x := by
  intro fuel
  induction fuel with
  | zero => intro rem _ c hc; cases hc
  | succ fuel ih =>
    intro rem hrem c hc
    rcases rem with _ | ⟨e, rem⟩
    · cases hc
    · simp only [toCycles] at hc
      obtain ⟨i1, i2⟩ := cycLoop_mem π (rem.length + 1) (e :: rem) (π e) (π (π e))
      rcases List.mem_cons.1 hc with rfl | hc
      · intro x hx
        rcases i1 x hx with rfl | hx
        · exact hπ e (hrem e List.mem_cons_self)
        · exact hrem x hx
      · exact ih _ (fun x hx => hrem x (i2 x hx)) c hc

theorem permuteIt_mem {idx perm : List ℕ} (hlen : perm.length = idx.length)
    (hperm : perm.Perm (List.range perm.length)) : ∀ x ∈ permuteIt idx perm, x.1 ∈ idx ∧ x.2 ∈ idx := by
  intro x hx
  unfold permuteIt at hx
  simp only at hx
  obtain ⟨c, hc, hx⟩ := List.mem_flatMap.1 hx
  have hπ : ∀ y, y < perm.length →
      ((List.range perm.length).map fun i => perm.idxOf i).getD y 0 < perm.length := by
    intro y hy
    rw [List.getD_eq_getElem (l := List.map _ _) _ (by simpa using hy), List.getElem_map, List.getElem_range]
    exact List.idxOf_lt_length_iff.2 (hperm.mem_iff.2 (List.mem_range.2 hy))
  have hlt := toCycles_mem (P := fun y => y < perm.length) hπ perm.length (List.range perm.length)
    (fun y hy => List.mem_range.1 hy) c hc
  have h := cyc1_mem _ x hx
  have hsub : ∀ z, z ∈ c.map (fun i => idx.getD i 0) → z ∈ idx := by
    intro z hz
    obtain ⟨i, hi, rfl⟩ := List.mem_map.1 hz
    exact getD_mem' (hlen ▸ hlt i hi)
  exact ⟨hsub _ h.1, hsub _ h.2⟩

theorem cyclicShift_mem {idx : List ℕ} {k : ℤ} {ps : List (ℕ × ℕ)} (h : cyclicShift idx k = some ps) :
    ∀ x ∈ ps, x.1 ∈ idx ∧ x.2 ∈ idx := by
  unfold cyclicShift at h
  simp only at h
  by_cases h0 : idx.length = 0
  · rw [if_pos h0] at h; cases h
  · rw [if_neg h0] at h
    by_cases h1 : k % idx.length = 0
    · rw [if_pos h1] at h
      cases h
      intro x hx; cases hx
    · rw [if_neg h1] at h
      have hl : (if k < 0 then idx.reverse else idx).length = idx.length := by
        by_cases hk : k < 0
        · rw [if_pos hk, List.length_reverse]
        · rw [if_neg hk]
      have hm : ∀ z, z ∈ (if k < 0 then idx.reverse else idx) → z ∈ idx := by
        by_cases hk : k < 0
        · rw [if_pos hk]; exact fun z hz => List.mem_reverse.1 hz
        · rw [if_neg hk]; exact fun z hz => hz
      generalize (if k < 0 then idx.reverse else idx) = l at h hl hm
      generalize (if k < 0 then -k else k) = k' at h
      by_cases h2 : k' ≠ 1
      · rw [if_pos h2] at h
        cases h
        intro x hx
        have := permuteIt_mem (by simpa using hl.symm) (by simpa using shiftList_perm (by omega) k') x hx
        exact ⟨hm _ this.1, hm _ this.2⟩
      · rw [if_neg h2] at h
        cases h
        intro x hx
        have := cyc1_mem _ x hx
        exact ⟨hm _ this.1, hm _ this.2⟩

theorem swapSt_app (s : St Q) (a b q : Q) : swapSt s a b q = if q = b then s a else if q = a then s b else s q := by
  unfold swapSt
  by_cases h : q = b
  · rw [h, if_pos rfl, upd_same]
  · rw [if_neg h, upd_ne h]
    by_cases h' : q = a
    · rw [h', if_pos rfl, upd_same]
    · rw [if_neg h', upd_ne h']

theorem steps_swaps {reg : List Q} (hn : reg.Nodup) (d : Q) : ∀ (ps : List (ℕ × ℕ)),
    (∀ x ∈ ps, x.1 < reg.length ∧ x.2 < reg.length) → ∃ step : St Q → St Q,
      Steps (ps.map fun x => .swap (reg.getD x.1 d) (reg.getD x.2 d)) step ∧
      ∀ s, (∀ q, q ∉ reg → step s q = s q) ∧
        ∀ i, i < reg.length → step s (reg.getD i d) = runP ps (fun j => s (reg.getD j d)) i := by
  intro ps
  induction ps with
  | nil => intro _; exact ⟨fun s => s, Steps.nil, fun s => ⟨fun _ _ => rfl, fun _ _ => rfl⟩⟩
  | cons x ps ih =>
    intro h
    obtain ⟨step, h1, h2⟩ := ih fun y hy => h y (List.mem_cons_of_mem _ hy)
    have hx := h x List.mem_cons_self
    have hg : ∀ i, i < reg.length → reg.getD i d ∈ reg := fun i hi => by
      rw [List.getD_eq_getElem _ _ hi]; exact List.getElem_mem hi
    have hinj : ∀ i j, i < reg.length → j < reg.length → reg.getD i d = reg.getD j d → i = j := fun i j hi hj he => by
      rw [List.getD_eq_getElem _ _ hi, List.getD_eq_getElem _ _ hj] at he
      exact (List.Nodup.getElem_inj_iff hn).1 he
    refine ⟨fun s => step (swapSt s (reg.getD x.1 d) (reg.getD x.2 d)), fun ψ s => ?_, fun s => ⟨fun q hq => ?_, fun i hi => ?_⟩⟩
    · show Fourier.run (ps.map _) ((FGate.swap _ _).app ψ) _ = _
      rw [h1]
      show ψ (swapSt (swapSt _ _ _) _ _) = _
      rw [swapSt_self]
    · simp only []
      rw [(h2 _).1 q hq, swapSt_app, if_neg, if_neg]
      · rintro rfl; exact hq (hg _ hx.1)
      · rintro rfl; exact hq (hg _ hx.2)
    · simp only []
      rw [(h2 _).2 i hi]
      show _ = runP ps (swapP (fun j => s (reg.getD j d)) x.1 x.2) i
      refine runP_congr ps (fun y hy => h y (List.mem_cons_of_mem _ hy)) _ _ (fun j hj => ?_) i hi
      show swapSt s _ _ (reg.getD j d) = swapP _ _ _ j
      rw [swapSt_app]
      unfold swapP
      by_cases e2 : j = x.2
      · rw [if_pos (by rw [e2])]
        by_cases e1 : j = x.1
        · rw [if_pos e1, ← e2, ← e1]
        · rw [if_neg e1, if_pos e2]
      · rw [if_neg fun he => e2 (hinj _ _ hj hx.2 he)]
        by_cases e1 : j = x.1
        · rw [if_pos (by rw [e1]), if_pos e1]
        · rw [if_neg fun he => e1 (hinj _ _ hj hx.1 he), if_neg e1, if_neg e2]

/-- `cyclic_shift` rotates the contents of a register. -/
theorem steps_shiftReg (d : Q) {reg : List Q} (hn : reg.Nodup) (hne : reg ≠ []) (k : ℤ) : ∃ gs, shiftReg d reg k = some gs ∧
    ∃ step : St Q → St Q, Steps gs step ∧ ∀ s, (∀ q, q ∉ reg → step s q = s q) ∧
      ∀ A B : List Bool, reg.map s = A ++ B → (k - B.length) % reg.length = 0 → reg.map (step s) = B ++ A := by
  have hrne : List.range reg.length ≠ [] := by
    rw [Ne, List.range_eq_nil, List.length_eq_zero_iff]; exact hne
  obtain ⟨ps, hps, hspec⟩ := cyclicShift_spec (α := Bool) List.nodup_range hrne k
  have hb : ∀ x ∈ ps, x.1 < reg.length ∧ x.2 < reg.length := fun x hx =>
    ⟨List.mem_range.1 (cyclicShift_mem hps x hx).1, List.mem_range.1 (cyclicShift_mem hps x hx).2⟩
  obtain ⟨step, h1, h2⟩ := steps_swaps hn d ps hb
  refine ⟨_, by unfold shiftReg; rw [hps]; rfl, step, h1, fun s => ⟨(h2 s).1, fun A B hAB hk => ?_⟩⟩
  have hlen : A.length + B.length = reg.length := by
    rw [← List.length_append, ← hAB, List.length_map]
  have hN : 0 < reg.length := List.length_pos_iff.2 hne
  have hNz : (0 : ℤ) < reg.length := by exact_mod_cast hN
  have hv : ∀ t (ht : t < (A ++ B).length), s (reg.getD t d) = (A ++ B)[t] := by
    intro t ht
    have ht' : t < reg.length := by rw [List.length_append] at ht; omega
    have : (reg.map s)[t]'(by simpa using ht') = (A ++ B)[t] := by simp only [hAB]
    rw [← this, List.getElem_map, List.getD_eq_getElem _ _ ht']
  have hmove : ∀ t, t < reg.length → ∀ i, i < reg.length → ((t : ℤ) + k - i) % reg.length = 0 →
      step s (reg.getD i d) = s (reg.getD t d) := by
    intro t ht i hi hz
    have h := (hspec fun j => s (reg.getD j d)).1 t (by simpa using ht)
    have e : (((t : ℤ) + k) % reg.length).toNat = i := by
      have : ((t : ℤ) + k) % reg.length = (i : ℤ) % reg.length := Int.emod_eq_emod_iff_emod_sub_eq_zero.2 hz
      rw [this, Int.emod_eq_of_lt (by omega) (by omega)]; rfl
    have hr : ∀ u, u < reg.length → (List.range reg.length).getD u 0 = u := fun u hu => by
      rw [List.getD_eq_getElem _ _ (by simpa using hu), List.getElem_range]
    rw [List.length_range, e, hr i hi, hr t ht] at h
    rw [(h2 s).2 i hi, h]
  obtain ⟨j, hj⟩ := Int.dvd_of_emod_eq_zero hk
  refine List.ext_getElem (by simp; omega) fun i hi1 hi2 => ?_
  have hi : i < reg.length := by simpa using hi1
  rw [List.getElem_map, ← List.getD_eq_getElem _ d hi]
  by_cases hc : i < B.length
  · rw [hmove (i + A.length) (by omega) i hi, hv _ (by rw [List.length_append]; omega), List.getElem_append_left hc,
      List.getElem_append_right (by omega)]
    · simp
    · refine Int.emod_eq_zero_of_dvd ⟨j + 1, ?_⟩
      push_cast
      rw [← hlen] at hj ⊢
      push_cast at hj ⊢
      linear_combination hj
  · have hiA : i - B.length < A.length := by omega
    rw [hmove (i - B.length) (by omega) i hi, hv _ (by rw [List.length_append]; omega),
      List.getElem_append_right (as := B) (by omega), List.getElem_append_left hiA]
    refine Int.emod_eq_zero_of_dvd ⟨j, ?_⟩
    push_cast [Nat.cast_sub (by omega : B.length ≤ i)]
    linear_combination hj

/-- Copying a sign bit onto qubits. -/
theorem steps_cx {c : Q} : ∀ (ts : List Q), ts.Nodup → c ∉ ts →
    ∃ step : St Q → St Q, Steps (ts.map fun t => .cx c t) step ∧
      ∀ s, (∀ q, q ∉ ts → step s q = s q) ∧ ∀ q ∈ ts, step s q = xor (s q) (s c) := by
  intro ts
  induction ts with
  | nil => intro _ _; exact ⟨fun s => s, Steps.nil, fun s => ⟨fun _ _ => rfl, fun q hq => (List.not_mem_nil hq).elim⟩⟩
  | cons t ts ih =>
    intro hn hc
    obtain ⟨hn1, hn2⟩ := List.nodup_cons.1 hn
    have hct : c ≠ t := fun h => hc (h ▸ List.mem_cons_self)
    obtain ⟨step, h1, h2⟩ := ih hn2 fun h => hc (List.mem_cons_of_mem _ h)
    refine ⟨fun s => step (upd s t (xor (s t) (s c))), fun ψ s => ?_, fun s => ⟨fun q hq => ?_, fun q hq => ?_⟩⟩
    · show Fourier.run (ts.map _) ((FGate.cx c t).app ψ) _ = _
      rw [h1]
      show ψ (upd (upd s t (xor (s t) (s c))) t (xor (upd s t (xor (s t) (s c)) t) (upd s t (xor (s t) (s c)) c))) = ψ s
      congr 1
      rw [upd_same, upd_ne hct]
      funext q
      by_cases h : q = t
      · rw [h, upd_same, Bool.xor_assoc, Bool.xor_self, Bool.xor_false]
      · rw [upd_ne h, upd_ne h]
    · simp only []
      have hqt : q ≠ t := fun h => hq (h ▸ List.mem_cons_self)
      rw [(h2 _).1 q fun h => hq (List.mem_cons_of_mem _ h), upd_ne hqt]
    · simp only []
      by_cases hqt : q = t
      · rw [hqt, (h2 _).1 t hn1, upd_same]
      · rcases List.mem_cons.1 hq with h | h
        · exact absurd h hqt
        · rw [(h2 _).2 q h, upd_ne hqt, upd_ne hct]

theorem valL_bits (reg : List Q) (s : St Q) : valL reg s = bitsVal (reg.map s) := by
  induction reg with
  | nil => rfl
  | cons q reg ih => simp only [valL, List.map_cons, bitsVal, ih]

theorem ival_signed {x : QF Q} (hx : x.signed = true) {s : St Q} {B : List Bool} {σ : Bool} (h : x.reg.map s = B ++ [σ]) :
    ival x s = bitsVal B - if σ then 2 ^ B.length else 0 := by
  have hl : x.reg.length = B.length + 1 := by
    have := congrArg List.length h
    simpa using this
  have hlt := bitsVal_lt B
  rw [ival_eq, valL_bits, h, bitsVal_append, hl]
  unfold top
  rw [valL_bits, h, bitsVal_append, hx, hl, pow_succ]
  generalize bitsVal B = b at *
  generalize hM : 2 ^ B.length = M at *
  have hM2 : (2 : ℤ) ^ B.length = M := by rw [← hM]; push_cast; rfl
  rw [pow_succ, hM2]
  cases σ
  · rw [if_neg (by simp [bitsVal]; omega)]
    simp [bitsVal]
  · rw [if_pos (by simp [bitsVal]; omega)]
    simp [bitsVal]
    ring

theorem ival_unsigned {x : QF Q} (hx : x.signed = false) (s : St Q) : ival x s = bitsVal (x.reg.map s) := by
  rw [ival_eq, valL_bits]
  unfold top
  rw [hx]
  simp

/-! ### The factor -/

theorem stripTwos_spec : ∀ (f : ℕ) (m : ℤ), m ≠ 0 → m.natAbs ≤ f →
    (stripTwos f m).2 % 2 = 1 ∧ m = (stripTwos f m).2 * 2 ^ (stripTwos f m).1 := by
  intro f
  induction f with
  | zero => intro m h0 h; omega
  | succ f ih =>
    intro m h0 h
    simp only [stripTwos]
    by_cases h2 : m % 2 = 0
    · rw [if_pos h2]
      obtain ⟨i1, i2⟩ := ih (m / 2) (by omega) (by omega)
      refine ⟨i1, ?_⟩
      simp only
      rw [pow_succ, ← mul_assoc, ← i2]
      omega
    · rw [if_neg h2]
      exact ⟨by simp only; omega, by simp⟩

theorem rat_int {c : ℚ} (h : c.den = 1) : c = c.num := ((Rat.den_eq_one_iff c).1 h).symm

theorem splitFactor_spec {c : ℚ} {bs m : ℤ} (h : splitFactor c = some (bs, m)) :
    m % 2 = 1 ∧ c = m * 2 ^ bs := by
  unfold splitFactor at h
  by_cases hd : c.den ≠ 1
  · rw [if_pos hd] at h
    obtain ⟨i, hi, he⟩ := Option.map_eq_some_iff.1 h
    have hP := List.find?_some hi
    simp only [decide_eq_true_eq] at hP
    have hden : (2 ^ i * c).den = 1 := by
      rcases abs_choice c with ha | ha
      · rw [ha] at hP; exact hP
      · rw [ha, mul_neg, Rat.den_neg_eq_den] at hP; exact hP
    have hc := rat_int hden
    simp only [Prod.mk.injEq] at he
    obtain ⟨e1, e2⟩ := he
    have hi0 : i ≠ 0 := by
      rintro rfl
      rw [pow_zero, one_mul] at hden
      exact hd hden
    constructor
    · by_contra hodd
      have hev : m % 2 = 0 := by omega
      obtain ⟨j, rfl⟩ : ∃ j, i = j + 1 := ⟨i - 1, by omega⟩
      have hj : ¬ (2 ^ j * |c|).den = 1 := by
        have hl := List.find?_eq_some_iff_getElem.1 hi
        obtain ⟨_, n, hn, hge, hall⟩ := hl
        rw [List.getElem_range] at hge
        subst hge
        have := hall j (by omega)
        rw [List.getElem_range] at this
        simpa using this
      apply hj
      have hint : 2 ^ j * c = ((m / 2 : ℤ) : ℚ) := by
        rw [e2] at hc
        have h2 : (m : ℚ) = 2 * ((m / 2 : ℤ) : ℚ) := by
          have : m = 2 * (m / 2) := by omega
          exact_mod_cast this
        rw [h2, pow_succ] at hc
        linarith
      have habs : 2 ^ j * |c| = ((|m / 2| : ℤ) : ℚ) := by
        rw [Int.cast_abs, ← hint, abs_mul, abs_of_nonneg (by positivity : (0 : ℚ) ≤ 2 ^ j)]
      rw [habs]
      exact Rat.den_intCast _
    · rw [← e1, ← e2, ← hc, zpow_neg, zpow_natCast]
      have : (2 : ℚ) ^ i ≠ 0 := by positivity
      field_simp
  · rw [if_neg hd] at h
    have hd : c.den = 1 := not_not.1 hd
    by_cases h0 : c = 0
    · rw [if_pos h0] at h; cases h
    · rw [if_neg h0] at h
      have hc := rat_int hd
      have hn : c.num ≠ 0 := fun hz => h0 (by rw [hc, hz]; rfl)
      obtain ⟨i1, i2⟩ := stripTwos_spec c.num.natAbs c.num hn (le_refl _)
      simp only [Option.some.injEq, Prod.mk.injEq] at h
      obtain ⟨e1, e2⟩ := h
      rw [← e1, ← e2]
      refine ⟨i1, ?_⟩
      rw [zpow_natCast, hc]
      exact_mod_cast i2

theorem splitFactor_some {c : ℚ} (h0 : c ≠ 0) {i : ℕ} (hi : i < 32) {z : ℤ} (hz : 2 ^ i * c = z) :
    ∃ bs m, splitFactor c = some (bs, m) := by
  unfold splitFactor
  by_cases hd : c.den ≠ 1
  · rw [if_pos hd]
    rcases hf : (List.range 32).find? fun i => (2 ^ i * |c|).den = 1 with _ | j
    · have := List.find?_eq_none.1 hf i (List.mem_range.2 hi)
      refine absurd ?_ this
      simp only [decide_eq_true_eq]
      have habs : 2 ^ i * |c| = ((|z| : ℤ) : ℚ) := by
        rw [Int.cast_abs, ← hz, abs_mul, abs_of_nonneg (by positivity : (0 : ℚ) ≤ 2 ^ i)]
      rw [habs]
      exact Rat.den_intCast _
    · exact ⟨_, _, by rw [hf]; rfl⟩
  · rw [if_neg hd, if_neg h0]
    exact ⟨_, _, rfl⟩

/-! ### Bit shifts -/

theorem map_zero {ext : List Q} {s : St Q} (h : ∀ q ∈ ext, s q = false) : ext.map s = List.replicate ext.length false := by
  rw [List.eq_replicate_iff]
  refine ⟨by simp, fun b hb => ?_⟩
  obtain ⟨q, hq, rfl⟩ := List.mem_map.1 hb
  exact h q hq

/-- The part of `bitShift` common to both kinds of floats. -/
theorem shift_ext (d : Q) {body ext : List Q} (hn : (body ++ ext).Nodup) (hne : body ≠ []) {bs : ℤ}
    (hl : ext.length = bs.natAbs) :
    ∃ g, shiftReg d (if 0 < bs then body ++ ext else ext ++ body) bs = some g ∧
    ∃ step : St Q → St Q, Steps g step ∧ ∀ s, (∀ q, q ∉ body ++ ext → step s q = s q) ∧
      ((∀ q ∈ ext, s q = false) → (if 0 < bs then body ++ ext else ext ++ body).map (step s) =
        if 0 < bs then List.replicate ext.length false ++ body.map s else body.map s ++ List.replicate ext.length false) := by
  by_cases hb : 0 < bs
  · rw [if_pos hb]
    obtain ⟨g, h1, step, h2, h3⟩ := steps_shiftReg d hn (by simp [hne]) bs
    refine ⟨g, h1, step, h2, fun s => ⟨(h3 s).1, fun hz => ?_⟩⟩
    rw [if_pos hb, (h3 s).2 (body.map s) (ext.map s) (by rw [List.map_append]), map_zero hz]
    rw [List.length_map, hl]
    have : bs - (bs.natAbs : ℤ) = 0 := by omega
    rw [this, Int.zero_emod]
  · rw [if_neg hb]
    have hn' : (ext ++ body).Nodup := (List.perm_append_comm.nodup_iff).1 hn
    obtain ⟨g, h1, step, h2, h3⟩ := steps_shiftReg d hn' (by simp [hne]) bs
    refine ⟨g, h1, step, h2, fun s => ⟨fun q hq => (h3 s).1 q ?_, fun hz => ?_⟩⟩
    · rw [List.mem_append] at hq ⊢
      tauto
    · rw [if_neg hb, (h3 s).2 (ext.map s) (body.map s) (by rw [List.map_append]), map_zero hz]
      rw [List.length_map, List.length_append, hl]
      refine Int.emod_eq_zero_of_dvd ⟨-1, ?_⟩
      rw [Nat.cast_add]
      omega

theorem extendAt_last {x : QF Q} {body : List Q} {sg : Q} (h : x.reg = body ++ [sg]) (ext : List Q) :
    (extendAt x (x.reg.length - 1) ext).reg = body ++ ext ++ [sg] := by
  unfold extendAt
  rw [h]
  simp

/-- The float after `bitShift`. -/
theorem bitShift_signed (d : Q) {x : QF Q} (hs : x.signed = true) {body : List Q} {sg : Q} (h : x.reg = body ++ [sg])
    (bs : ℤ) (ext : List Q) : bitShift d true x bs ext =
      (shiftReg d (if 0 < bs then body ++ ext else ext ++ body) bs).map fun g => (g,
        { reg := (if 0 < bs then body ++ ext else ext ++ body) ++ [sg], exp := x.exp + min bs 0, signed := true }) := by
  unfold bitShift
  simp only [if_true]
  by_cases hb : 0 < bs
  · rw [if_pos hb, if_pos hb, hs, if_pos rfl]
    have e : extendAt x (x.reg.length - 1) ext = { reg := body ++ ext ++ [sg], exp := x.exp + min bs 0, signed := true } := by
      have := extendAt_last h ext
      rw [min_eq_right hb.le, add_zero]
      cases x
      simp only at hs
      simp only [extendAt] at this ⊢
      rw [this, hs]
    rw [e]
    simp
  · rw [if_neg hb, if_neg hb]
    have e : ({ extendAt x 0 ext with exp := x.exp + bs } : QF Q) =
        { reg := ext ++ body ++ [sg], exp := x.exp + min bs 0, signed := true } := by
      rw [min_eq_left (by omega)]
      cases x
      simp only at hs h
      simp only [extendAt, List.take_zero, List.nil_append, List.drop_zero]
      rw [h, hs, List.append_assoc]
    rw [e]
    simp

theorem bitShift_unsigned (d : Q) {x : QF Q} (hs : x.signed = false) (bs : ℤ) (ext : List Q) : bitShift d true x bs ext =
      (shiftReg d (if 0 < bs then x.reg ++ ext else ext ++ x.reg) bs).map fun g => (g,
        { reg := if 0 < bs then x.reg ++ ext else ext ++ x.reg, exp := x.exp + min bs 0, signed := false }) := by
  unfold bitShift
  simp only [if_true]
  by_cases hb : 0 < bs
  · rw [if_pos hb, if_pos hb, hs, if_neg (by simp)]
    have e : extendAt x x.reg.length ext = { reg := x.reg ++ ext, exp := x.exp + min bs 0, signed := false } := by
      rw [min_eq_right hb.le, add_zero]
      cases x
      simp only at hs
      simp [extendAt, hs]
    rw [e]
    simp
  · rw [if_neg hb, if_neg hb]
    have e : ({ extendAt x 0 ext with exp := x.exp + bs } : QF Q) =
        { reg := ext ++ x.reg, exp := x.exp + min bs 0, signed := false } := by
      rw [min_eq_left (by omega)]
      cases x
      simp only at hs
      simp [extendAt, hs]
    rw [e]
    simp

theorem bitsVal_replicate (b : Bool) (n : ℕ) : bitsVal (List.replicate n b) = if b then 2 ^ n - 1 else 0 := by
  induction n with
  | zero => cases b <;> rfl
  | succ n ih =>
    rw [List.replicate_succ, bitsVal, ih]
    cases b
    · rfl
    · have := Nat.one_le_two_pow (n := n)
      simp only [if_true, Bool.toNat_true, pow_succ]
      omega

/-! ### Putting it together -/

theorem steps_g2 {m : ℤ} (hm : m % 2 = 1) {x : QF Q} (hn : x.reg.Nodup) :
    ∃ step : St Q → St Q, Steps (if m ≠ 1 then imMult m x.reg.reverse else []) step ∧
      ∀ s, (∀ q, q ∉ x.reg → step s q = s q) ∧ ∃ j : ℤ, ival x (step s) = m * ival x s + 2 ^ x.reg.length * j := by
  by_cases h1 : m ≠ 1
  · rw [if_pos h1]
    refine ⟨_, steps_imMult hm (List.nodup_reverse.2 hn), fun s => ⟨fun q hq => ?_, ?_⟩⟩
    · exact mulAdd_out _ _ _ _ (by rwa [List.mem_reverse])
    · obtain ⟨j, hj⟩ := mulAdd_qval hn m (fun _ => 0) s
      exact ⟨j, by rw [hj]; ring⟩
  · rw [if_neg h1]
    refine ⟨_, Steps.nil, fun s => ⟨fun _ _ => rfl, 0, ?_⟩⟩
    rw [not_not.1 h1]; ring

/-- What is known about a run of `inplMult` on a signed float. -/
theorem inplMult_signed (d : Q) {x : QF Q} (hs : x.signed = true) {body : List Q} {sg : Q} (hreg : x.reg = body ++ [sg])
    (hbody : body ≠ []) {fresh : List Q} (hn : (x.reg ++ fresh).Nodup) {c : ℚ} {bs m : ℤ}
    (hsp : splitFactor c = some (bs, m)) (hfr : Nat.clog 2 m.natAbs + bs.natAbs ≤ fresh.length) :
    ∃ gs x', inplMult d c true x fresh = some (gs, x') ∧ (∀ q ∈ x'.reg, q ∈ x.reg ++ fresh) ∧
      ∃ step : St Q → St Q, Steps gs step ∧ ∀ s, (∀ q, q ∉ x.reg ++ fresh → step s q = s q) ∧
        ((∀ q ∈ fresh, s q = false) → ∃ r : ℤ, qval x' (step s) = r * 2 ^ bs * 2 ^ x.exp ∧
          (∃ j : ℤ, r = m * ival x s + 2 ^ (x.reg.length + Nat.clog 2 m.natAbs) * j) ∧
          -2 ^ (body.length + Nat.clog 2 m.natAbs) ≤ r ∧ r < 2 ^ (body.length + Nat.clog 2 m.natAbs)) := by
  obtain ⟨hm, hc⟩ := splitFactor_spec hsp
  generalize he : Nat.clog 2 m.natAbs = e at *
  have hee : (if m ≠ 1 then Nat.clog 2 m.natAbs else 0) = e := by
    by_cases h1 : m = 1
    · rw [if_neg (by simp [h1])]
      rw [h1] at he
      simpa using he
    · rw [if_pos h1, he]
  set ext1 := fresh.take e with hext1
  set ext2 := (fresh.drop e).take bs.natAbs with hext2
  have hl1 : ext1.length = e := by rw [hext1, List.length_take]; omega
  have hl2 : ext2.length = bs.natAbs := by rw [hext2, List.length_take, List.length_drop]; omega
  have hf1 : ∀ q ∈ ext1, q ∈ fresh := fun q hq => List.mem_of_mem_take hq
  have hf2 : ∀ q ∈ ext2, q ∈ fresh := fun q hq => List.mem_of_mem_drop (List.mem_of_mem_take hq)
  -- everything is different
  have hnd : (body ++ [sg] ++ (ext1 ++ ext2)).Nodup := by
    rw [hreg] at hn
    refine List.Nodup.sublist (List.Sublist.append_left ?_ _) hn
    have h1 : (ext1 ++ ext2).Sublist (fresh.take e ++ fresh.drop e) := List.Sublist.append_left (List.take_sublist _ _) _
    rwa [List.take_append_drop] at h1
  simp only [List.nodup_append, List.nodup_singleton, List.mem_append, List.mem_singleton] at hnd
  obtain ⟨⟨nb, _, nbs⟩, ⟨n1, n2, n12⟩, nall⟩ := hnd
  have sgb : sg ∉ body := fun h => nbs sg h sg rfl rfl
  have sg1 : sg ∉ ext1 := fun h => nall sg (Or.inr rfl) sg (Or.inl h) rfl
  have sg2 : sg ∉ ext2 := fun h => nall sg (Or.inr rfl) sg (Or.inr h) rfl
  have b1 : ∀ q ∈ body, q ∉ ext1 := fun q hq h => nall q (Or.inl hq) q (Or.inl h) rfl
  have b2 : ∀ q ∈ body, q ∉ ext2 := fun q hq h => nall q (Or.inl hq) q (Or.inr h) rfl
  have e12 : ∀ q ∈ ext1, q ∉ ext2 := fun q hq h => n12 q hq q h rfl
  set x1 := extendAt x (x.reg.length - 1) ext1 with hx1
  have hr1 : x1.reg = body ++ ext1 ++ [sg] := extendAt_last hreg ext1
  have hs1 : x1.signed = true := hs
  have hexp1 : x1.exp = x.exp := rfl
  have hn1 : x1.reg.Nodup := by
    rw [hr1]
    simp only [List.nodup_append, List.nodup_singleton, List.mem_append, List.mem_singleton]
    refine ⟨⟨nb, n1, fun a ha b hb hab => b1 a ha (hab ▸ hb)⟩, trivial, fun a ha b hb hab => ?_⟩
    rw [hb] at hab
    rw [hab] at ha
    exact ha.elim sgb sg1
  have hnb : (body ++ ext1 ++ ext2).Nodup := by
    simp only [List.nodup_append, List.mem_append]
    refine ⟨⟨nb, n1, fun a ha b hb hab => b1 a ha (hab ▸ hb)⟩, n2, fun a ha b hb hab => ?_⟩
    exact ha.elim (fun h => b2 a h (hab ▸ hb)) fun h => e12 a h (hab ▸ hb)
  obtain ⟨st1, S1, P1⟩ := steps_cx (c := sg) ext1 n1 sg1
  obtain ⟨st2, S2, P2⟩ := steps_g2 hm hn1
  obtain ⟨g3, hg3, st3, S3, P3⟩ := shift_ext d hnb (by simp [hbody]) hl2
  set R := if 0 < bs then body ++ ext1 ++ ext2 else ext2 ++ (body ++ ext1) with hR
  have hRmem : ∀ q, q ∈ R ↔ q ∈ body ∨ q ∈ ext1 ∨ q ∈ ext2 := by
    intro q
    rw [hR]
    by_cases hb : 0 < bs
    · rw [if_pos hb]; simp [or_assoc]
    · rw [if_neg hb]; simp only [List.mem_append]; tauto
  have hRn : R.Nodup := by
    rw [hR]
    by_cases hb : 0 < bs
    · rw [if_pos hb]; exact hnb
    · rw [if_neg hb]; exact (List.perm_append_comm.nodup_iff).1 hnb
  have hRl : R.length = body.length + e + bs.natAbs := by
    rw [hR]
    by_cases hb : 0 < bs
    · rw [if_pos hb]; simp only [List.length_append, hl1, hl2]
    · rw [if_neg hb]; simp only [List.length_append, hl1, hl2]; omega
  have sgR : sg ∉ R := by
    rw [hRmem]
    rintro (h | h | h)
    · exact sgb h
    · exact sg1 h
    · exact sg2 h
  set T := if bs < 0 then R.drop (R.length - bs.natAbs) else [] with hT
  have hTR : ∀ q ∈ T, q ∈ R := by
    rw [hT]
    by_cases hb : bs < 0
    · rw [if_pos hb]; exact fun q hq => List.mem_of_mem_drop hq
    · rw [if_neg hb]; exact fun q hq => (List.not_mem_nil hq).elim
  have hTn : T.Nodup := by
    rw [hT]
    by_cases hb : bs < 0
    · rw [if_pos hb]; exact hRn.sublist (List.drop_sublist _ _)
    · rw [if_neg hb]; exact List.nodup_nil
  obtain ⟨st4, S4, P4⟩ := steps_cx (c := sg) T hTn fun h => sgR (hTR _ h)
  set x2 : QF Q := { reg := R ++ [sg], exp := x.exp + min bs 0, signed := true } with hx2
  refine ⟨ext1.map (fun t => .cx sg t) ++ (if m ≠ 1 then imMult m x1.reg.reverse else []) ++ g3 ++ T.map (fun t => .cx sg t),
    x2, ?_, ?_, fun s => st4 (st3 (st2 (st1 s))), ((S1.append S2).append S3).append S4, ?_⟩
  · unfold inplMult
    rw [if_neg (by simp [hs]), hsp]
    simp only [Option.bind_some, and_true, true_and, hee, ← hext1, ← hext2, ← hx1, if_true]
    rw [bitShift_signed d hs1 hr1, hg3]
    have hlast : ∀ l : List Q, (l ++ [sg]).getLastD d = sg := fun l => by
      rw [List.getLastD_eq_getLast?, List.getLast?_append]; rfl
    simp only [Option.map_some, hr1, hlast, hs, if_true, hexp1, List.dropLast_concat, ← hR, true_and, and_true]
    have : (if bs < 0 then (R.drop (R.length - bs.natAbs)).map (FGate.cx sg) else []) = T.map (fun t => FGate.cx sg t) := by
      rw [hT]
      by_cases hb : bs < 0
      · rw [if_pos hb, if_pos hb]
      · rw [if_neg hb, if_neg hb]; rfl
    rw [this]
  · intro q hq
    rw [List.mem_append, hreg, List.mem_append, List.mem_singleton]
    rcases List.mem_append.1 hq with hq | hq
    · rcases (hRmem q).1 hq with h | h | h
      · exact Or.inl (Or.inl h)
      · exact Or.inr (hf1 q h)
      · exact Or.inr (hf2 q h)
    · exact Or.inl (Or.inr (List.mem_singleton.1 hq))
  · intro s
    constructor
    · intro q hq
      rw [hreg] at hq
      simp only [List.mem_append, List.mem_singleton, not_or] at hq
      have hqR : q ∉ R := by
        rw [hRmem]
        rintro (h | h | h)
        · exact hq.1.1 h
        · exact hq.2 (hf1 q h)
        · exact hq.2 (hf2 q h)
      have hq1 : q ∉ ext1 := fun h => hq.2 (hf1 q h)
      have hq2 : q ∉ ext2 := fun h => hq.2 (hf2 q h)
      simp only
      rw [(P4 _).1 q fun h => hqR (hTR q h), (P3 _).1 q (by simp [hq.1.1, hq1, hq2]),
        (P2 _).1 q (by rw [hr1]; simp [hq.1.1, hq.1.2, hq1]), (P1 _).1 q hq1]
    · intro hz
      set s1 := st1 s with hs1'
      set s2 := st2 s1 with hs2'
      set s3 := st3 s2 with hs3'
      -- sign extension
      have c1 : x1.reg.map s1 = body.map s ++ List.replicate e (s sg) ++ [s sg] := by
        have h1 : s1 sg = s sg := (P1 s).1 sg sg1
        rw [hr1, List.map_append, List.map_append, List.map_singleton, h1]
        congr 2
        · exact List.map_congr_left fun q hq => (P1 s).1 q (b1 q hq)
        · rw [List.eq_replicate_iff]
          refine ⟨by simp [hl1], fun b hb => ?_⟩
          obtain ⟨q, hq, rfl⟩ := List.mem_map.1 hb
          have h2 : s1 q = xor (s q) (s sg) := (P1 s).2 q hq
          rw [h2, hz q (hf1 q hq), Bool.false_xor]
      have v1 : ival x1 s1 = ival x s := by
        rw [ival_signed hs1 c1, ival_signed hs (B := body.map s) (σ := s sg) (by rw [hreg]; simp), bitsVal_append,
          bitsVal_replicate]
        cases s sg
        · simp
        · have := Nat.one_le_two_pow (n := e)
          simp only [if_true, List.length_map, List.length_append, List.length_replicate, pow_add]
          push_cast [this]
          ring
      -- multiplication
      obtain ⟨j, hj⟩ := (P2 s1).2
      rw [v1] at hj
      have hlen1 : x1.reg.length = x.reg.length + e := by rw [hr1, hreg]; simp [hl1]; omega
      have z2 : ∀ q ∈ ext2, s2 q = false := fun q hq => by
        rw [hs2', (P2 s1).1 q (by
          rw [hr1]; simp only [List.mem_append, List.mem_singleton, not_or]
          exact ⟨⟨fun h => b2 q h hq, fun h => e12 q h hq⟩, fun h => sg2 (h ▸ hq)⟩), hs1', (P1 s).1 q fun h => e12 q h hq,
          hz q (hf2 q hq)]
      have c2 : x1.reg.map s2 = (body ++ ext1).map s2 ++ [s2 sg] := by rw [hr1]; simp
      have v2 := ival_signed hs1 c2
      have c3 := (P3 s2).2 z2
      have hsg3 : s3 sg = s2 sg := (P3 s2).1 sg (by simp [sgb, sg1, sg2])
      have hsg4 : st4 s3 sg = s2 sg := by rw [(P4 s3).1 sg fun h => sgR (hTR _ h), hsg3]
      have hlt2 := bitsVal_lt ((body ++ ext1).map s2)
      have hl12 : ((body ++ ext1).map s2).length = body.length + e := by simp [hl1]
      refine ⟨ival x1 s2, ?_, ⟨j, by rw [hj, hlen1]⟩, ?_, ?_⟩
      · show qval x2 (st4 s3) = _
        unfold qval
        by_cases hb : 0 < bs
        · have hT0 : T = [] := by rw [hT, if_neg (by omega)]
          have h4 : ∀ q, st4 s3 q = s3 q := fun q => (P4 s3).1 q (by rw [hT0]; exact List.not_mem_nil)
          rw [if_pos hb] at c3
          have c4 : x2.reg.map (st4 s3) = (List.replicate ext2.length false ++ (body ++ ext1).map s2) ++ [s2 sg] := by
            rw [← c3, hx2, List.map_append, List.map_singleton, hsg4]
            congr 1
            exact List.map_congr_left fun q _ => h4 q
          rw [ival_signed rfl c4, v2, bitsVal_append, bitsVal_replicate, hl2]
          have hzb : (2 : ℚ) ^ bs = 2 ^ bs.natAbs := by
            rw [← zpow_natCast]; congr 1; omega
          show _ * (2 : ℚ) ^ (x.exp + min bs 0) = _
          rw [min_eq_right hb.le, add_zero, hzb, List.length_append, List.length_replicate, pow_add]
          cases s2 sg
          · simp only [Bool.false_eq_true, if_false]
            push_cast [List.length_replicate]
            ring
          · simp only [Bool.false_eq_true, if_false, if_true]
            push_cast [List.length_replicate]
            ring
        · rw [if_neg hb] at c3
          have hTe : T = R.drop (R.length - bs.natAbs) := by
            rw [hT]
            by_cases hb' : bs < 0
            · rw [if_pos hb']
            · rw [if_neg hb']
              have : bs = 0 := by omega
              rw [this]; simp
          have hR3 : R.map s3 = (body ++ ext1).map s2 ++ List.replicate ext2.length false := c3
          have c4 : R.map (st4 s3) = (body ++ ext1).map s2 ++ List.replicate ext2.length (s2 sg) := by
            have hsplit : R = R.take (R.length - bs.natAbs) ++ T := by rw [hTe, List.take_append_drop]
            have htake : (R.take (R.length - bs.natAbs)).map (st4 s3) = (R.map s3).take (R.length - bs.natAbs) := by
              rw [← List.map_take]
              refine List.map_congr_left fun q hq => (P4 s3).1 q fun hqT => ?_
              have hdj := hRn
              rw [hsplit, List.nodup_append] at hdj
              exact hdj.2.2 q hq q hqT rfl
            have hdrop : ∀ b ∈ T.map s3, b = false := by
              rw [hTe, List.map_drop, hR3]
              intro b hb'
              have hk : R.length - bs.natAbs = ((body ++ ext1).map s2).length := by rw [hl12, hRl]; omega
              rw [hk, List.drop_left] at hb'
              exact List.eq_of_mem_replicate hb'
            have hTm : T.map (st4 s3) = List.replicate ext2.length (s2 sg) := by
              rw [List.eq_replicate_iff]
              refine ⟨by rw [List.length_map, hTe, List.length_drop, hl2]; omega, fun b hb' => ?_⟩
              obtain ⟨q, hq, rfl⟩ := List.mem_map.1 hb'
              rw [(P4 s3).2 q hq, hdrop (s3 q) (List.mem_map.2 ⟨q, hq, rfl⟩), Bool.false_xor, hsg3]
            calc R.map (st4 s3) = (R.take (R.length - bs.natAbs)).map (st4 s3) ++ T.map (st4 s3) := by
                  rw [← List.map_append, ← hsplit]
              _ = _ := by
                  rw [htake, hTm, hR3]
                  have hk : R.length - bs.natAbs = ((body ++ ext1).map s2).length := by rw [hl12, hRl]; omega
                  rw [hk, List.take_left]
          have c5 : x2.reg.map (st4 s3) = ((body ++ ext1).map s2 ++ List.replicate ext2.length (s2 sg)) ++ [s2 sg] := by
            rw [← c4, hx2, List.map_append, List.map_singleton, hsg4]
          rw [ival_signed rfl c5, v2, bitsVal_append, bitsVal_replicate]
          show _ * (2 : ℚ) ^ (x.exp + min bs 0) = _
          rw [min_eq_left (by omega), zpow_add₀ two_ne_zero, List.length_append, List.length_replicate, pow_add]
          have := Nat.one_le_two_pow (n := ext2.length)
          cases s2 sg
          · simp
            ring
          · simp only [if_true]
            push_cast [this]
            ring
      · rw [v2, ← hl12]
        generalize ((body ++ ext1).map s2) = L at *
        have : (0 : ℤ) ≤ bitsVal L := by positivity
        cases s2 sg
        · simp only [Bool.false_eq_true, if_false]
          have : (0 : ℤ) ≤ 2 ^ L.length := by positivity
          omega
        · simp only [if_true]
          omega
      · rw [v2, ← hl12]
        generalize ((body ++ ext1).map s2) = L at *
        have h3 : (bitsVal L : ℤ) < 2 ^ L.length := by exact_mod_cast hlt2
        cases s2 sg
        · simp only [Bool.false_eq_true, if_false]
          omega
        · simp only [if_true]
          have : (0 : ℤ) ≤ 2 ^ L.length := by positivity
          omega

/-- What is known about a run of `inplMult` on an unsigned float: the new qubits come before the top qubit. -/
theorem inplMult_unsigned (d : Q) {x : QF Q} (hs : x.signed = false) {body : List Q} {sg : Q} (hreg : x.reg = body ++ [sg])
    {fresh : List Q} (hn : (x.reg ++ fresh).Nodup) {c : ℚ} (hcn : 0 < c) {bs m : ℤ}
    (hsp : splitFactor c = some (bs, m)) (hfr : Nat.clog 2 m.natAbs + bs.natAbs ≤ fresh.length) :
    ∃ gs x', inplMult d c true x fresh = some (gs, x') ∧ (∀ q ∈ x'.reg, q ∈ x.reg ++ fresh) ∧
      ∃ step : St Q → St Q, Steps gs step ∧ ∀ s, (∀ q, q ∉ x.reg ++ fresh → step s q = s q) ∧
        ((∀ q ∈ fresh, s q = false) → ∃ r : ℤ, qval x' (step s) = r * 2 ^ bs * 2 ^ x.exp ∧
          (∃ j : ℤ, r = m * (ival x s + (s sg).toNat * 2 ^ body.length * (2 ^ Nat.clog 2 m.natAbs - 1)) +
            2 ^ (x.reg.length + Nat.clog 2 m.natAbs) * j) ∧
          0 ≤ r ∧ r < 2 ^ (x.reg.length + Nat.clog 2 m.natAbs)) := by
  obtain ⟨hm, hc⟩ := splitFactor_spec hsp
  generalize he : Nat.clog 2 m.natAbs = e at *
  have hee : (if m ≠ 1 then Nat.clog 2 m.natAbs else 0) = e := by
    by_cases h1 : m = 1
    · rw [if_neg (by simp [h1])]
      rw [h1] at he
      simpa using he
    · rw [if_pos h1, he]
  set ext1 := fresh.take e with hext1
  set ext2 := (fresh.drop e).take bs.natAbs with hext2
  have hl1 : ext1.length = e := by rw [hext1, List.length_take]; omega
  have hl2 : ext2.length = bs.natAbs := by rw [hext2, List.length_take, List.length_drop]; omega
  have hf1 : ∀ q ∈ ext1, q ∈ fresh := fun q hq => List.mem_of_mem_take hq
  have hf2 : ∀ q ∈ ext2, q ∈ fresh := fun q hq => List.mem_of_mem_drop (List.mem_of_mem_take hq)
  have hnd : (body ++ [sg] ++ (ext1 ++ ext2)).Nodup := by
    rw [hreg] at hn
    refine List.Nodup.sublist (List.Sublist.append_left ?_ _) hn
    have h1 : (ext1 ++ ext2).Sublist (fresh.take e ++ fresh.drop e) := List.Sublist.append_left (List.take_sublist _ _) _
    rwa [List.take_append_drop] at h1
  set x1 := extendAt x (x.reg.length - 1) ext1 with hx1
  have hr1 : x1.reg = body ++ ext1 ++ [sg] := extendAt_last hreg ext1
  have hs1 : x1.signed = false := hs
  have hexp1 : x1.exp = x.exp := rfl
  have hnb : (x1.reg ++ ext2).Nodup := by
    have hp : (x1.reg ++ ext2).Perm (body ++ [sg] ++ (ext1 ++ ext2)) := by
      rw [hr1, ← List.append_assoc (body ++ [sg])]
      refine List.Perm.append_right _ ?_
      rw [List.append_assoc, List.append_assoc]
      exact List.Perm.append_left _ List.perm_append_comm
    exact hp.nodup_iff.2 hnd
  have hn1 : x1.reg.Nodup := (List.nodup_append.1 hnb).1
  have hd2 : ∀ q ∈ ext2, q ∉ x1.reg := fun q hq h => (List.nodup_append.1 hnb).2.2 q h q hq rfl
  obtain ⟨st2, S2, P2⟩ := steps_g2 hm hn1
  obtain ⟨g3, hg3, st3, S3, P3⟩ := shift_ext d hnb (by rw [hr1]; simp) hl2
  set R := if 0 < bs then x1.reg ++ ext2 else ext2 ++ x1.reg with hR
  have hRmem : ∀ q, q ∈ R → q ∈ x.reg ++ fresh := by
    intro q
    have h : ∀ q, q ∈ x1.reg ∨ q ∈ ext2 → q ∈ x.reg ++ fresh := by
      intro q hq
      rw [List.mem_append, hreg]
      rcases hq with h | h
      · rw [hr1, List.mem_append, List.mem_append] at h
        rw [List.mem_append]
        rcases h with (h | h) | h
        · exact Or.inl (Or.inl h)
        · exact Or.inr (hf1 q h)
        · exact Or.inl (Or.inr h)
      · exact Or.inr (hf2 q h)
    intro hq
    apply h
    rw [hR] at hq
    by_cases hb : 0 < bs
    · rw [if_pos hb] at hq; exact List.mem_append.1 hq
    · rw [if_neg hb] at hq; exact (List.mem_append.1 hq).symm
  set x2 : QF Q := { reg := R, exp := x.exp + min bs 0, signed := false } with hx2
  refine ⟨(if m ≠ 1 then imMult m x1.reg.reverse else []) ++ g3, x2, ?_, hRmem, fun s => st3 (st2 s), S2.append S3, ?_⟩
  · unfold inplMult
    rw [if_neg (by intro h; exact absurd h.1 (not_lt.2 hcn.le)), hsp]
    simp only [Option.bind_some, and_true, true_and, hee, ← hext1, ← hext2, ← hx1, if_true]
    rw [bitShift_unsigned d hs1, hg3]
    simp only [Option.map_some, hs, hexp1, Bool.false_eq_true, if_false, and_false, List.nil_append, List.append_nil, ← hR]
    rfl
  · intro s
    constructor
    · intro q hq
      have hq1 : q ∉ x1.reg := fun h => by
        rw [hr1, List.mem_append, List.mem_append] at h
        rw [List.mem_append, hreg, List.mem_append] at hq
        rcases h with (h | h) | h
        · exact hq (Or.inl (Or.inl h))
        · exact hq (Or.inr (hf1 q h))
        · exact hq (Or.inl (Or.inr h))
      have hq2 : q ∉ ext2 := fun h => hq (List.mem_append_right _ (hf2 q h))
      simp only
      rw [(P3 _).1 q (by simp [hq1, hq2]), (P2 _).1 q hq1]
    · intro hz
      have c1 : x1.reg.map s = body.map s ++ List.replicate e false ++ [s sg] := by
        rw [hr1, List.map_append, List.map_append, List.map_singleton, map_zero fun q hq => hz q (hf1 q hq), hl1]
      have v1 : ival x1 s = ival x s + (s sg).toNat * 2 ^ body.length * (2 ^ e - 1) := by
        rw [ival_unsigned hs1, c1, ival_unsigned hs, hreg, List.map_append, List.map_singleton, bitsVal_append,
          bitsVal_append, bitsVal_append, bitsVal_replicate]
        simp only [List.length_append, List.length_map, List.length_replicate, bitsVal, pow_add]
        push_cast
        ring
      obtain ⟨j, hj⟩ := (P2 s).2
      rw [v1] at hj
      have hlen1 : x1.reg.length = x.reg.length + e := by rw [hr1, hreg]; simp [hl1]; omega
      have z2 : ∀ q ∈ ext2, st2 s q = false := fun q hq => by
        rw [(P2 s).1 q (hd2 q hq), hz q (hf2 q hq)]
      have c3 := (P3 (st2 s)).2 z2
      have v2 := ival_unsigned hs1 (st2 s)
      have hlt2 := bitsVal_lt (x1.reg.map (st2 s))
      refine ⟨ival x1 (st2 s), ?_, ⟨j, by rw [hj, hlen1]⟩, by rw [v2]; positivity, ?_⟩
      · show qval x2 (st3 (st2 s)) = _
        unfold qval
        rw [ival_unsigned rfl]
        show ((bitsVal (R.map (st3 (st2 s))) : ℤ) : ℚ) * (2 : ℚ) ^ (x.exp + min bs 0) = _
        rw [c3, v2]
        by_cases hb : 0 < bs
        · rw [if_pos hb, bitsVal_append, bitsVal_replicate, hl2]
          have hzb : (2 : ℚ) ^ bs = 2 ^ bs.natAbs := by
            rw [← zpow_natCast]; congr 1; omega
          rw [min_eq_right hb.le, add_zero, hzb, List.length_replicate]
          simp only [Bool.false_eq_true, if_false]
          push_cast
          ring
        · rw [if_neg hb, bitsVal_append, bitsVal_replicate, min_eq_left (by omega), zpow_add₀ two_ne_zero]
          simp only [Bool.false_eq_true, if_false]
          push_cast
          ring
      · rw [v2, ← hlen1]
        rw [List.length_map] at hlt2
        exact_mod_cast hlt2

/-- Without overflow treatment and with an odd integer. -/
theorem inplMult_modular (d : Q) {x : QF Q} (hn : x.reg.Nodup) (hl : x.signed.toNat < x.reg.length) {m : ℤ}
    (hm : m % 2 = 1) (hneg : m < 0 → x.signed = true) (fresh : List Q) :
    ∃ gs, inplMult d m false x fresh = some (gs, x) ∧ ∃ step : St Q → St Q, Steps gs step ∧
      ∀ s, (∀ q, q ∉ x.reg → step s q = s q) ∧ ∃ j : ℤ, ival x (step s) = m * ival x s + 2 ^ x.reg.length * j := by
  have hsp : splitFactor (m : ℚ) = some (0, m) := by
    unfold splitFactor
    have hm0 : (m : ℚ) ≠ 0 := by
      have : m ≠ 0 := by omega
      exact_mod_cast this
    rw [if_neg (by simp), if_neg hm0]
    simp only [Rat.num_intCast]
    have : stripTwos m.natAbs m = (0, m) := by
      rcases h : m.natAbs with _ | f
      · rfl
      · simp only [stripTwos]
        rw [if_neg (by omega)]
    rw [this]
    rfl
  have hx1 : extendAt x (x.reg.length - 1) [] = x := by
    cases x; simp [extendAt]
  obtain ⟨st2, S2, P2⟩ := steps_g2 hm hn
  have hsh : ∀ l : List Q, l ≠ [] → shiftReg d l 0 = some [] := by
    intro l hl
    unfold shiftReg cyclicShift
    simp only
    rw [List.length_range, if_neg (by rwa [List.length_eq_zero_iff]), if_pos (by simp)]
    rfl
  have hbs : bitShift d false x 0 [] = some ([], x) := by
    unfold bitShift
    simp only [Bool.false_eq_true, if_false]
    rw [hsh]
    · rfl
    · intro h0
      have := congrArg List.length h0
      cases hs : x.signed <;> rw [hs] at hl this <;> simp at hl this <;> first | omega | (rw [this] at hl; simp at hl)
  refine ⟨_, ?_, st2, S2, P2⟩
  unfold inplMult
  rw [if_neg, hsp]
  · simp only [Option.bind_some, Bool.false_eq_true, and_false, if_false, false_and, List.take_zero, hx1]
    rw [hbs]
    simp
  · rintro ⟨h1, h2⟩
    have h3 : m < 0 := by exact_mod_cast h1
    rw [hneg h3] at h2
    cases h2

end Verif.Sbp
