import Verif.Fourier.QFT

/-!
# Fourier adders

Model of `alg_primitives/arithmetic/adders/fourier_adder.py` and
`alg_primitives/arithmetic/jasp_arithmetic/jasp_fourier_adder.py`.
-/

set_option linter.unusedSectionVars false

namespace Verif.Fourier

open Verif.Rev

variable {Q : Type} [DecidableEq Q]

/-! ### Model -/

/-- `p(a * π * 2^(1 + i - len(b)), b[i])` for the qubits `qs = b[i:]` (fourier_adder.py:68-69). -/
def shiftPhases (a : ℤ) (n : ℕ) : ℕ → List Q → List (FGate Q)
  | _, [] => []
  | i, q :: qs => .ph (a * 2 ^ i / 2 ^ n) [q] :: shiftPhases a n (i + 1) qs

/-- `fourier_adder` (fourier_adder.py:26-69) with a classical number. -/
def fourierAdderC (d : Q) (a : ℤ) (b : List Q) : List (FGate Q) :=
  conj (qftInner 1 false d b.reverse) (shiftPhases a b.length 0 b.reverse)

/-- All pairs of the two loops fourier_adder.py:77-78 with their indices. -/
def faPairs (a b : List Q) : List ((Q × ℕ) × (Q × ℕ)) := a.zipIdx.flatMap fun x => b.zipIdx.map fun y => (x, y)

/-- The loops fourier_adder.py:77-90: pairs with `1 + j + i - len(b) >= 1` are skipped, `== 0` gives `cz`, others a
`QuasiRZZ` gate (fourier_adder.py:100-105) and phase corrections, indexed by the qubit. -/
def faLoop (n : ℕ) : List ((Q × ℕ) × (Q × ℕ)) → (Q → ℚ) → List (FGate Q) × (Q → ℚ)
  | [], acc => ([], acc)
  | ((x, j), (y, i)) :: l, acc =>
    if n ≤ j + i then faLoop n l acc
    else if j + i + 1 = n then
      let r := faLoop n l acc
      (.ph (1 / 2) [x, y] :: r.1, r.2)
    else
      let φ : ℚ := 1 / 2 ^ (n - (j + i))
      let acc := Function.update acc x (acc x + φ / 2)
      let acc := Function.update acc y (acc y + φ / 2)
      let r := faLoop n l acc
      ([.cx y x, .ph (-φ / 2) [x], .cx y x] ++ r.1, r.2)

/-- The corrections fourier_adder.py:92-97; multiples of a full turn are skipped. -/
def faEnd (qs : List Q) (acc : Q → ℚ) : List (FGate Q) :=
  qs.flatMap fun q => if (acc q).den ≠ 1 then [.ph (acc q) [q]] else []

/-- `fourier_adder` (fourier_adder.py:26-97) with a quantum number; a longer `a` raises an exception. -/
def fourierAdderQ (d : Q) (a b : List Q) : Option (List (FGate Q)) :=
  if a.length > b.length then none
  else
    let bq := b.reverse
    let r := faLoop b.length (faPairs a bq) fun _ => 0
    some (conj (qftInner 1 false d b.reverse) (r.1 ++ faEnd (bq ++ a) r.2))

/-- `jasp_fourier_adder` (jasp_fourier_adder.py:47-76) with a classical number; `qft` (28-43) is `jasp_qft` with swaps. -/
def jaspFourierAdderC (d : Q) (a : ℤ) (b : List Q) : List (FGate Q) :=
  conj (jaspQft true d b) (b.zipIdx.map fun y => .ph (a * 2 ^ y.2 / 2 ^ b.length) [y.1])

/-- `jasp_fourier_adder` with a quantum number: `p(π * 2^(j - n_b + 1 + i), b[j])` controlled on `a[i]`. -/
def jaspFourierAdderQ (d : Q) (a b : List Q) : List (FGate Q) :=
  conj (jaspQft true d b) ((faPairs a b).map fun p => .ph (2 ^ (p.1.2 + p.2.2) / 2 ^ b.length) [p.1.1, p.2.1])

/-! ### Shift -/

/-- Specification: register `qs` (most significant qubit first) gets its value plus `a`, modulo `2^n`; amplitudes are
pulled back. -/
def addBack (qs : List Q) (a : St Q → ℤ) (s : St Q) : St Q :=
  setM qs (((valM qs s : ℤ) - a s) % (2 ^ qs.length : ℕ)).toNat s

theorem fourier_shift {qs : List Q} (hn : qs.Nodup) (a : St Q → ℤ) (ha : ∀ s X, a (setM qs X s) = a s)
    {F : (St Q → ℂ) → St Q → ℂ} {c : ℂ} {Y : St Q → ℕ}
    (hF : ∀ ψ s, F ψ s = c * ∑ X ∈ Finset.range (2 ^ qs.length),
      E ((1 : ℤ) * (X * (Y s : ℕ)) / 2 ^ qs.length) * ψ (setM qs X s)) (ψ : St Q → ℂ) :
    F (fun s => ψ (addBack qs a s)) = fun s => E (a s * Y s / 2 ^ qs.length) * F ψ s := by
  funext s
  rw [hF, hF, mul_left_comm]
  congr 1
  rw [Finset.mul_sum]
  have hN : (0 : ℤ) < (2 ^ qs.length : ℕ) := by positivity
  have hback : ∀ X, X < 2 ^ qs.length → addBack qs a (setM qs X s) =
      setM qs (((X : ℤ) - a s) % (2 ^ qs.length : ℕ)).toNat s := fun X hX => by
    unfold addBack
    rw [valM_setM hn, Nat.mod_eq_of_lt hX, ha, setM_setM _ _ _ _ hn]
  have hlt : ∀ z : ℤ, (z % (2 ^ qs.length : ℕ)).toNat < 2 ^ qs.length := fun z => by
    have h1 := Int.emod_lt_of_pos z hN
    have h2 := Int.emod_nonneg z hN.ne'
    omega
  have hcast : ∀ z : ℤ, (((z % (2 ^ qs.length : ℕ)).toNat : ℕ) : ℤ) = z % (2 ^ qs.length : ℕ) := fun z =>
    Int.toNat_of_nonneg (Int.emod_nonneg z hN.ne')
  refine Finset.sum_nbij' (fun X => (((X : ℤ) - a s) % (2 ^ qs.length : ℕ)).toNat)
    (fun X => (((X : ℤ) + a s) % (2 ^ qs.length : ℕ)).toNat) (fun X _ => Finset.mem_range.2 (hlt _))
    (fun X _ => Finset.mem_range.2 (hlt _)) (fun X hX => ?_) (fun X hX => ?_) (fun X hX => ?_)
  · rw [Finset.mem_range] at hX
    rw [hcast, Int.emod_add_emod, sub_add_cancel, Int.emod_eq_of_lt (by omega) (by omega), Int.toNat_natCast]
  · rw [Finset.mem_range] at hX
    rw [hcast, Int.emod_sub_emod, add_sub_cancel_right, Int.emod_eq_of_lt (by omega) (by omega), Int.toNat_natCast]
  · rw [Finset.mem_range] at hX
    rw [hback X hX, ← mul_assoc (E _) (E _), ← E_add]
    congr 1
    have hdiv := Int.mul_ediv_add_emod ((X : ℤ) - a s) (2 ^ qs.length : ℕ)
    have h2 := hcast ((X : ℤ) - a s)
    generalize (((X : ℤ) - a s) % (2 ^ qs.length : ℕ)).toNat = Z at h2 ⊢
    rw [← h2] at hdiv
    refine E_congr ((((X : ℤ) - a s) / (2 ^ qs.length : ℕ)) * Y s) ?_
    generalize ((X : ℤ) - a s) / (2 ^ qs.length : ℕ) = k at hdiv ⊢
    have hr : ((2 ^ qs.length : ℕ) : ℝ) * (k : ℝ) + Z = X - a s := by exact_mod_cast hdiv
    push_cast at hr ⊢
    field_simp
    linear_combination (-(Y s : ℝ)) * hr

/-! ### Classical number -/

theorem run_shiftPhases (a : ℤ) (n : ℕ) : ∀ (qs : List Q) (i : ℕ) (ψ : St Q → ℂ) (s : St Q),
    run (shiftPhases a n i qs) ψ s = E (a * (2 ^ i * valL qs s) / 2 ^ n) * ψ s := by
  intro qs
  induction qs with
  | nil => intro i ψ s; simp [shiftPhases, run, valL, E_zero]
  | cons q qs ih =>
    intro i ψ s
    rw [shiftPhases, run_cons, ih, app_ph, ← mul_assoc]
    congr 1
    rw [valL]
    cases hq : s q
    · simp [hq]; congr 1; rw [pow_succ]; ring
    · simp [hq]; rw [← E_add]; congr 1; rw [pow_succ]; field_simp; ring

theorem cps_wf (m : ℤ) (q : Q) : ∀ (rest : List Q) (k : ℕ), ∀ g ∈ cps m q k rest, g.wf := by
  intro rest
  induction rest with
  | nil => intro k g hg; cases hg
  | cons c rest ih =>
    intro k g hg
    rw [cps, List.mem_cons] at hg
    rcases hg with rfl | hg
    · trivial
    · exact ih _ g hg

theorem qftIdeal_wf (m : ℤ) : ∀ (qs : List Q), ∀ g ∈ qftIdeal m qs, g.wf := by
  intro qs
  induction qs with
  | nil => intro g hg; cases hg
  | cons q rest ih =>
    intro g hg
    rw [qftIdeal, List.mem_append, List.mem_cons] at hg
    rcases hg with (rfl | hg) | hg
    · trivial
    · exact cps_wf m q rest 0 g hg
    · exact ih g hg

theorem swaps_wf (qs : List Q) (d : Q) : ∀ g ∈ swaps qs d, g.wf := by
  intro g hg
  rw [swaps, List.mem_map] at hg
  obtain ⟨i, _, rfl⟩ := hg
  trivial

theorem jaspQft_wf (b : Bool) (d : Q) (qv : List Q) : ∀ g ∈ jaspQft b d qv, g.wf := by
  intro g hg
  rw [jaspQft_eq, List.mem_append] at hg
  rcases hg with hg | hg
  · exact qftIdeal_wf 1 _ g hg
  · cases b
    · cases hg
    · exact swaps_wf _ _ g hg

theorem accPairs_wf (m : ℤ) (q : Q) : ∀ (rest : List Q) (k : ℕ) (acc : Q → ℚ), q ∉ rest →
    ∀ g ∈ (accPairs m q k rest acc).1, g.wf := by
  intro rest
  induction rest with
  | nil => intro k acc _ g hg; cases hg
  | cons c rest ih =>
    intro k acc hq g hg
    rw [List.mem_cons, not_or] at hq
    simp only [accPairs, List.mem_append, List.mem_cons, List.not_mem_nil, or_false] at hg
    rcases hg with (rfl | rfl | rfl) | hg
    · exact hq.1
    · trivial
    · exact hq.1
    · exact ih _ _ hq.2 g hg

theorem qftAcc_wf (m : ℤ) : ∀ (qs : List Q) (acc : Q → ℚ), qs.Nodup → ∀ g ∈ (qftAcc m qs acc).1, g.wf := by
  intro qs
  induction qs with
  | nil => intro acc _ g hg; cases hg
  | cons q rest ih =>
    intro acc hn g hg
    rw [List.nodup_cons] at hn
    simp only [qftAcc, List.mem_append, List.mem_cons, List.not_mem_nil, or_false] at hg
    rcases hg with ((hg | rfl) | hg) | hg
    · split at hg
      · rw [List.mem_singleton] at hg; subst hg; trivial
      · cases hg
    · trivial
    · exact accPairs_wf m q rest 0 _ hn.1 g hg
    · exact ih _ hn.2 g hg

theorem qftInner_wf (m : ℤ) (b : Bool) (d : Q) {qs : List Q} (hn : qs.Nodup) : ∀ g ∈ qftInner m b d qs, g.wf := by
  intro g hg
  simp only [qftInner, List.mem_append] at hg
  rcases hg with (hg | hg) | hg
  · exact qftAcc_wf m qs _ hn g hg
  · rw [accEnd, List.mem_flatMap] at hg
    obtain ⟨q, _, hg⟩ := hg
    split at hg
    · rw [List.mem_singleton] at hg; subst hg; trivial
    · cases hg
  · cases b
    · cases hg
    · exact swaps_wf _ _ g hg

theorem run_fourierAdderC (d : Q) (a : ℤ) {b : List Q} (hn : b.Nodup) (ψ : St Q → ℂ) :
    run (fourierAdderC d a b) ψ = fun s => ψ (addBack b.reverse (fun _ => a) s) := by
  have hr : b.reverse.Nodup := List.nodup_reverse.2 hn
  unfold fourierAdderC
  refine run_conj (qftInner_wf 1 false d hr) ?_
  rw [fourier_shift hr (fun _ => a) (fun _ _ => rfl) (F := run (qftInner 1 false d b.reverse))
    (Y := valL b.reverse) (c := rt ^ b.reverse.length) (fun ψ s => run_qftInner (by decide) hr false d ψ s)]
  funext s
  rw [run_shiftPhases, List.length_reverse, pow_zero, one_mul]

theorem run_zipIdx (a : ℤ) (n : ℕ) : ∀ (b : List Q) (k : ℕ),
    ((b.zipIdx k).map fun y => FGate.ph ((a : ℚ) * 2 ^ y.2 / 2 ^ n) [y.1]) = shiftPhases a n k b := by
  intro b
  induction b with
  | nil => intro k; rfl
  | cons q b ih => intro k; rw [List.zipIdx_cons, List.map_cons, ih, shiftPhases]

theorem run_jaspFourierAdderC (d : Q) (a : ℤ) {b : List Q} (hn : b.Nodup) (ψ : St Q → ℂ) :
    run (jaspFourierAdderC d a b) ψ = fun s => ψ (addBack b.reverse (fun _ => a) s) := by
  have hr : b.reverse.Nodup := List.nodup_reverse.2 hn
  unfold jaspFourierAdderC
  refine run_conj (jaspQft_wf true d b) ?_
  rw [fourier_shift hr (fun _ => a) (fun _ _ => rfl) (F := run (jaspQft true d b)) (Y := valL b)
    (c := rt ^ b.reverse.length)
    (fun ψ s => by rw [run_jaspQft hn, List.length_reverse]; rfl)]
  funext s
  rw [run_zipIdx, run_shiftPhases, List.length_reverse, pow_zero, one_mul]

/-! ### Quantum number -/

/-- Total phase of the pairs in turns, all pairs counted. -/
noncomputable def pairSum (n : ℕ) (s : St Q) (l : List ((Q × ℕ) × (Q × ℕ))) : ℝ :=
  (l.map fun p => if s p.1.1 && s p.2.1 then (2 : ℝ) ^ (p.1.2 + p.2.2) / 2 ^ n else 0).sum

theorem pairSum_inner (n : ℕ) (s : St Q) (x : Q) (j : ℕ) : ∀ (b : List Q) (k : ℕ),
    pairSum n s ((b.zipIdx k).map fun y => ((x, j), y)) = ((s x).toNat : ℝ) * (2 ^ j * (2 ^ k * valL b s)) / 2 ^ n := by
  intro b
  induction b with
  | nil => intro k; simp [pairSum, valL]
  | cons y b ih =>
    intro k
    have h := ih (k + 1)
    unfold pairSum at h ⊢
    rw [List.zipIdx_cons, List.map_cons, List.map_cons, List.sum_cons, h, valL]
    cases hx : s x <;> cases hy : s y <;> simp [hx, hy] <;> ring

theorem pairSum_append (n : ℕ) (s : St Q) (l l' : List ((Q × ℕ) × (Q × ℕ))) :
    pairSum n s (l ++ l') = pairSum n s l + pairSum n s l' := by
  unfold pairSum
  rw [List.map_append, List.sum_append]

theorem pairSum_faPairs (n : ℕ) (s : St Q) (b : List Q) : ∀ (a : List Q) (k : ℕ),
    pairSum n s ((a.zipIdx k).flatMap fun x => b.zipIdx.map fun y => (x, y)) = 2 ^ k * valL a s * valL b s / 2 ^ n := by
  intro a
  induction a with
  | nil => intro k; simp [pairSum, valL]
  | cons x a ih =>
    intro k
    rw [List.zipIdx_cons, List.flatMap_cons, pairSum_append, ih, pairSum_inner, valL]
    push_cast
    rw [pow_succ]
    ring

/-- The controlled phases of all pairs. -/
def pairPh (n : ℕ) (l : List ((Q × ℕ) × (Q × ℕ))) : List (FGate Q) :=
  l.map fun p => .ph (2 ^ (p.1.2 + p.2.2) / 2 ^ n) [p.1.1, p.2.1]

theorem run_pairPh (n : ℕ) : ∀ (l : List ((Q × ℕ) × (Q × ℕ))) (ψ : St Q → ℂ) (s : St Q),
    run (pairPh n l) ψ s = E (pairSum n s l) * ψ s := by
  intro l
  induction l with
  | nil => intro ψ s; simp [pairPh, run, pairSum, E_zero]
  | cons p l ih =>
    intro ψ s
    have h := ih ((FGate.ph (2 ^ (p.1.2 + p.2.2) / 2 ^ n) [p.1.1, p.2.1]).app ψ) s
    have hs : pairSum n s (p :: l) = (if s p.1.1 && s p.2.1 then (2 : ℝ) ^ (p.1.2 + p.2.2) / 2 ^ n else 0) +
      pairSum n s l := by simp [pairSum]
    rw [hs, E_add]
    refine h.trans ?_
    rw [app_ph]
    cases h1 : s p.1.1 <;> cases h2 : s p.2.1 <;> simp [h1, h2, E_zero]
    ring

theorem faLoop_spec (n : ℕ) {all : List Q} (hn : all.Nodup) : ∀ (l : List ((Q × ℕ) × (Q × ℕ))) (acc : Q → ℚ),
    (∀ p ∈ l, p.1.1 ∈ all ∧ p.2.1 ∈ all ∧ p.1.1 ≠ p.2.1) → ∀ ψ : St Q → ℂ,
    D all (faLoop n l acc).2 (run (faLoop n l acc).1 ψ) = run (pairPh n l) (D all acc ψ) := by
  intro l
  induction l with
  | nil => intro acc _ ψ; rfl
  | cons p l ih =>
    obtain ⟨⟨x, j⟩, ⟨y, i⟩⟩ := p
    intro acc hp ψ
    obtain ⟨hx, hy, hxy⟩ := hp _ List.mem_cons_self
    dsimp only at hx hy hxy
    have hp' := fun p h => hp p (List.mem_cons_of_mem _ h)
    show _ = run (pairPh n l) ((FGate.ph (2 ^ (j + i) / 2 ^ n) [x, y]).app (D all acc ψ))
    rw [faLoop]
    by_cases h1 : n ≤ j + i
    · rw [if_pos h1, ih acc hp']
      refine congrArg _ (funext fun s => ?_)
      rw [app_ph]
      have h1' : E (((2 : ℚ) ^ (j + i) / 2 ^ n : ℚ) : ℝ) = 1 := by
        obtain ⟨e, he⟩ := Nat.exists_eq_add_of_le h1
        rw [he, pow_add, mul_div_cancel_left₀ _ (by positivity)]
        have := E_nat (2 ^ e)
        push_cast at this ⊢
        exact this
      rw [h1', ite_self, one_mul]
    · rw [if_neg h1]
      by_cases h2 : j + i + 1 = n
      · rw [if_pos h2]
        show D all (faLoop n l acc).2 (run (faLoop n l acc).1 ((FGate.ph (1 / 2) [x, y]).app ψ)) = _
        rw [ih acc hp']
        refine congrArg _ (funext fun s => ?_)
        simp only [D, app_ph]
        rw [mul_left_comm]
        have : ((2 : ℚ) ^ (j + i) / 2 ^ n) = 1 / 2 := by
          rw [← h2, pow_succ]; field_simp
        rw [this]
      · rw [if_neg h2]
        obtain ⟨φ, hφ⟩ : ∃ φ : ℚ, φ = 1 / 2 ^ (n - (j + i)) := ⟨_, rfl⟩
        have hφ' : (2 : ℚ) ^ (j + i) / 2 ^ n = φ := by
          rw [hφ]
          obtain ⟨e, rfl⟩ : ∃ e, n = j + i + e := ⟨n - (j + i), by omega⟩
          rw [Nat.add_sub_cancel_left, pow_add _ (j + i) e]
          field_simp
        rw [← hφ, hφ']
        dsimp only
        rw [run_append, ih _ hp']
        refine congrArg _ (funext fun s => ?_)
        simp only [D, run, FGate.app, upd_same, upd_upd]
        rw [accSum_update hn hy, accSum_update hn hx, upd_ne (Ne.symm hxy), Bool.xor_assoc, Bool.xor_self,
          Bool.xor_false, upd_self, Function.update_of_ne (Ne.symm hxy), ← mul_assoc, ← mul_assoc]
        congr 1
        generalize accSum all acc s = A
        cases hsx : s x <;> cases hsy : s y <;> simp [hsx, hsy]
        · rw [← E_add]; congr 1; ring
        · rw [← E_add]; congr 1; ring
        · rw [← E_add]; congr 1; ring

theorem run_faEnd (qs : List Q) (acc : Q → ℚ) (ψ : St Q → ℂ) : run (faEnd qs acc) ψ = D qs acc ψ := by
  induction qs generalizing ψ with
  | nil => funext s; simp [faEnd, run, D, accSum, E_zero]
  | cons q qs ih =>
    have h1 : faEnd (q :: qs) acc = (if (acc q).den ≠ 1 then [.ph (acc q) [q]] else []) ++ faEnd qs acc := by
      simp [faEnd]
    rw [h1, run_append, ih]
    funext s
    have h2 : accSum (q :: qs) acc s = (if s q then acc q else 0) + accSum qs acc s := by simp [accSum]
    simp only [D]
    rw [h2]
    push_cast
    rw [E_add]
    by_cases h0 : (acc q).den ≠ 1
    · rw [if_pos h0]
      simp only [run, FGate.app]
      cases hs : s q <;> simp [hs, E_zero]
      ring
    · rw [if_neg h0]
      have h0' : ((acc q : ℚ) : ℝ) = ((acc q).num : ℝ) := by
        have : ((acc q).num : ℚ) = acc q := Rat.coe_int_num_of_den_eq_one (by simpa using h0)
        rw [← this]
        simp
      have : E ((if s q then ((acc q : ℚ) : ℝ) else 0) : ℝ) = 1 := by
        split
        · rw [h0', E_int]
        · exact E_zero
      simp only [run]
      simp only [apply_ite ((↑) : ℚ → ℝ), Rat.cast_zero] at this ⊢
      rw [this, one_mul]

theorem accSum_zero (qs : List Q) (s : St Q) : accSum qs (fun _ => 0) s = 0 := by
  unfold accSum
  simp

theorem D_zero (qs : List Q) (ψ : St Q → ℂ) : D qs (fun _ => 0) ψ = ψ := by
  funext s
  simp [D, accSum_zero, E_zero]

theorem mem_faPairs {a b : List Q} {p : (Q × ℕ) × (Q × ℕ)} (h : p ∈ faPairs a b) : p.1.1 ∈ a ∧ p.2.1 ∈ b := by
  rw [faPairs, List.mem_flatMap] at h
  obtain ⟨x, hx, h⟩ := h
  rw [List.mem_map] at h
  obtain ⟨y, hy, rfl⟩ := h
  exact ⟨List.fst_mem_of_mem_zipIdx hx, List.fst_mem_of_mem_zipIdx hy⟩

theorem valL_setM {a qs : List Q} (h : ∀ x ∈ a, x ∉ qs) (X : ℕ) (s : St Q) : valL a (setM qs X s) = valL a s :=
  valL_congr fun q hq => setM_out qs X s (h q hq)

theorem run_fourierAdderQ (d : Q) {a b : List Q} (hn : (a ++ b).Nodup) (hl : a.length ≤ b.length) :
    ∃ c, fourierAdderQ d a b = some c ∧
      ∀ ψ : St Q → ℂ, run c ψ = fun s => ψ (addBack b.reverse (fun s => valL a s) s) := by
  rw [List.nodup_append] at hn
  obtain ⟨hna, hnb, hab⟩ := hn
  have hr : b.reverse.Nodup := List.nodup_reverse.2 hnb
  have hall : (b.reverse ++ a).Nodup :=
    List.nodup_append.2 ⟨hr, hna, fun x hx y hy e => hab y hy x (List.mem_reverse.1 hx) e.symm⟩
  rw [fourierAdderQ, if_neg (by omega)]
  refine ⟨_, rfl, fun ψ => run_conj (qftInner_wf 1 false d hr) ?_⟩
  rw [fourier_shift hr (fun s => valL a s) (fun s X => by
      rw [valL_setM fun x hx h => hab x hx x (List.mem_reverse.1 h) rfl])
    (F := run (qftInner 1 false d b.reverse))
    (Y := valL b.reverse) (c := rt ^ b.reverse.length) (fun ψ s => run_qftInner (by decide) hr false d ψ s)]
  rw [run_append, run_faEnd, faLoop_spec _ hall _ _ (fun p hp => by
    obtain ⟨h1, h2⟩ := mem_faPairs hp
    exact ⟨List.mem_append_right _ h1, List.mem_append_left _ h2, fun e =>
      hab _ h1 _ (List.mem_reverse.1 h2) e⟩), D_zero]
  funext s
  rw [run_pairPh, faPairs, pairSum_faPairs, List.length_reverse, pow_zero, one_mul]
  push_cast
  rfl

theorem run_jaspFourierAdderQ (d : Q) {a b : List Q} (hn : (a ++ b).Nodup) (ψ : St Q → ℂ) :
    run (jaspFourierAdderQ d a b) ψ = fun s => ψ (addBack b.reverse (fun s => valL a s) s) := by
  rw [List.nodup_append] at hn
  obtain ⟨hna, hnb, hab⟩ := hn
  have hr : b.reverse.Nodup := List.nodup_reverse.2 hnb
  unfold jaspFourierAdderQ
  refine run_conj (jaspQft_wf true d b) ?_
  rw [fourier_shift hr (fun s => valL a s) (fun s X => by
      rw [valL_setM fun x hx h => hab x hx x (List.mem_reverse.1 h) rfl])
    (F := run (jaspQft true d b)) (Y := valL b) (c := rt ^ b.reverse.length)
    (fun ψ s => by rw [run_jaspQft hnb, List.length_reverse]; rfl)]
  funext s
  show run (pairPh b.length (faPairs a b)) _ s = _
  rw [run_pairPh, faPairs, pairSum_faPairs, List.length_reverse, pow_zero, one_mul]
  push_cast
  rfl

end Verif.Fourier
