import Verif.Fourier.Basic

/-!
# Quantum Fourier transform

Model of `alg_primitives/qft.py`.
-/

set_option linter.unusedSectionVars false

namespace Verif.Fourier

open Verif.Rev

variable {Q : Type} [DecidableEq Q]

/-! ### The textbook circuit -/

/-- The controlled phases of one qubit `q`: `cp(m * 2π / 2^(k+2), rest[k], q)`; `k` is the index of the first of the
qubits (qft.py:66-74 and 223-224). -/
def cps (m : ℤ) (q : Q) : ℕ → List Q → List (FGate Q)
  | _, [] => []
  | k, c :: rest => .ph (m / 2 ^ (k + 2)) [c, q] :: cps m q (k + 1) rest

/-- The Fourier transform without swaps, first qubit most significant: `h` and controlled phases for each qubit. -/
def qftIdeal (m : ℤ) : List Q → List (FGate Q)
  | [] => []
  | q :: rest => .h q :: cps m q 0 rest ++ qftIdeal m rest

/-- The swaps (qft.py:131-133, 226-228). -/
def swaps (qs : List Q) (d : Q) : List (FGate Q) :=
  (List.range (qs.length / 2)).map fun i => .swap (qs.getD i d) (qs.getD (qs.length - i - 1) d)

/-! ### Its action -/

theorem app_ph (θ : ℚ) (cs : List Q) (ψ : St Q → ℂ) (s : St Q) :
    (FGate.ph θ cs).app ψ s = (if cs.all s then E θ else 1) * ψ s := rfl

/-- The sum of the phases of `cps`. -/
noncomputable def frac (s : St Q) : ℕ → List Q → ℝ
  | _, [] => 0
  | k, c :: rest => (s c).toNat / 2 ^ (k + 2) + frac s (k + 1) rest

theorem frac_val (s : St Q) : ∀ (qs : List Q) (k : ℕ), frac s k qs = valM qs s / 2 ^ (k + 1 + qs.length) := by
  intro qs
  induction qs with
  | nil => intro k; simp [frac, valM]
  | cons c rest ih =>
    intro k
    rw [frac, ih, valM, List.length_cons]
    push_cast
    have e1 : (2 : ℝ) ^ (k + 1 + (rest.length + 1)) = 2 ^ (k + 2) * 2 ^ rest.length := by rw [← pow_add]; congr 1; omega
    have e2 : (2 : ℝ) ^ (k + 1 + 1 + rest.length) = 2 ^ (k + 2) * 2 ^ rest.length := by rw [← pow_add]
    rw [e1, e2]
    field_simp

theorem run_cps (m : ℤ) (q : Q) : ∀ (rest : List Q) (k : ℕ) (ψ : St Q → ℂ) (s : St Q),
    run (cps m q k rest) ψ s = (if s q then E (m * frac s k rest) else 1) * ψ s := by
  intro rest
  induction rest with
  | nil => intro k ψ s; simp [cps, run, frac, E_zero]
  | cons c rest ih =>
    intro k ψ s
    rw [cps, run_cons, ih, app_ph, frac, ← mul_assoc]
    congr 1
    cases hq : s q <;> cases hc : s c <;> simp [hq, hc]
    rw [← E_add]
    congr 1
    ring

/-- The action of the Fourier transform without swaps: the input is read with the first qubit most significant, the
output with the first qubit least significant. -/
theorem run_qftIdeal {m : ℤ} (hm : m % 2 = 1) : ∀ (qs : List Q), qs.Nodup → ∀ (ψ : St Q → ℂ) (s : St Q),
    run (qftIdeal m qs) ψ s =
      rt ^ qs.length * ∑ X ∈ Finset.range (2 ^ qs.length),
        E (m * (X * valL qs s) / 2 ^ qs.length) * ψ (setM qs X s) := by
  intro qs
  induction qs with
  | nil => intro _ ψ s; simp [qftIdeal, run, valL, setM, E_zero]
  | cons q rest ih =>
    intro hn ψ s
    rw [List.nodup_cons] at hn
    have hrun : run (qftIdeal m (q :: rest)) ψ = run (qftIdeal m rest) (run (cps m q 0 rest) ((FGate.h q).app ψ)) := by
      show run (cps m q 0 rest ++ qftIdeal m rest) ((FGate.h q).app ψ) = _
      rw [run_append]
    have hsplit : ∀ f : ℕ → ℂ, ∑ X ∈ Finset.range (2 ^ (rest.length + 1)), f X =
        ∑ X ∈ Finset.range (2 ^ rest.length), (f X + f (2 ^ rest.length + X)) := fun f => by
      rw [pow_succ, mul_two, Finset.sum_range_add, Finset.sum_add_distrib]
    rw [hrun, ih hn.2, List.length_cons, hsplit, pow_succ rt, mul_assoc, Finset.mul_sum (Finset.range _) _ rt]
    refine congrArg (rt ^ rest.length * ·) (Finset.sum_congr rfl fun X hX => ?_)
    have hX' : X < 2 ^ rest.length := Finset.mem_range.1 hX
    rw [run_cps, setM_out rest X s hn.1, frac_val, valM_setM hn.2, Nat.mod_eq_of_lt hX']
    have hb0 : setM (q :: rest) X s = upd (setM rest X s) q false := by
      rw [setM, Nat.testBit_lt_two_pow hX']
    have hb1 : setM (q :: rest) (2 ^ rest.length + X) s = upd (setM rest X s) q true := by
      rw [setM, Nat.testBit_two_pow_add_eq, Nat.testBit_lt_two_pow hX', ← setM_mod rest _ s (le_refl _),
        Nat.add_mod_left, setM_mod rest _ s (le_refl _)]
      rfl
    rw [hb0, hb1]
    simp only [FGate.app, setM_out rest X s hn.1]
    generalize ψ (upd (setM rest X s) q false) = A
    generalize ψ (upd (setM rest X s) q true) = B
    rw [valL]
    have hp : (2 : ℝ) ^ rest.length ≠ 0 := by positivity
    cases hq : s q
    · -- y₀ = 0
      have e1 : E (m * ((X : ℕ) * ((Bool.toNat false + 2 * valL rest s : ℕ) : ℝ)) / 2 ^ (rest.length + 1)) =
          E (m * (X * valL rest s) / 2 ^ rest.length) := by
        congr 1; simp; rw [pow_succ]; field_simp
      have e2 : E (m * (((2 ^ rest.length + X : ℕ) : ℝ) * ((Bool.toNat false + 2 * valL rest s : ℕ) : ℝ)) /
          2 ^ (rest.length + 1)) = E (m * (X * valL rest s) / 2 ^ rest.length) := by
        refine E_congr (m * valL rest s) ?_
        push_cast; simp; rw [pow_succ]; field_simp; ring
      rw [e1, e2]
      simp
      ring
    · have e1 : E (m * ((X : ℕ) * ((Bool.toNat true + 2 * valL rest s : ℕ) : ℝ)) / 2 ^ (rest.length + 1)) =
          E (m * (X * valL rest s) / 2 ^ rest.length) * E (m * (X / 2 ^ (0 + 1 + rest.length))) := by
        rw [← E_add]
        congr 1; push_cast; simp; rw [show 1 + rest.length = rest.length + 1 by omega, pow_succ]; field_simp; ring
      have e2 : E (m * (((2 ^ rest.length + X : ℕ) : ℝ) * ((Bool.toNat true + 2 * valL rest s : ℕ) : ℝ)) /
          2 ^ (rest.length + 1)) =
          E (m * (X * valL rest s) / 2 ^ rest.length) * E (m * (X / 2 ^ (0 + 1 + rest.length))) * E (1 / 2) := by
        rw [← E_add, ← E_add]
        refine E_congr (m / 2 + m * valL rest s) ?_
        have hm2 : (m : ℝ) = 2 * ((m / 2 : ℤ) : ℝ) + 1 := by
          have : m = 2 * (m / 2) + 1 := by omega
          exact_mod_cast this
        push_cast; simp; rw [show 1 + rest.length = rest.length + 1 by omega, pow_succ]
        field_simp
        linear_combination (2 : ℝ) ^ rest.length * hm2
      rw [e1, e2, E_half]
      simp
      ring

/-! ### `QFT_inner` -/

/-- Inner loop of `QFT_inner` (qft.py:65-87) with the phases accumulated so far; the array `accumulated_phases` is indexed
by the qubit. -/
def accPairs (m : ℤ) (q : Q) : ℕ → List Q → (Q → ℚ) → List (FGate Q) × (Q → ℚ)
  | _, [], acc => ([], acc)
  | k, c :: rest, acc =>
    let φ : ℚ := m / 2 ^ (k + 2)
    let acc := Function.update acc q (acc q + φ / 2)
    let acc := Function.update acc c (acc c + φ / 2)
    let r := accPairs m q (k + 1) rest acc
    ([.cx q c, .ph (-φ / 2) [c], .cx q c] ++ r.1, r.2)

/-- Outer loop of `QFT_inner` (qft.py:54-87). -/
def qftAcc (m : ℤ) : List Q → (Q → ℚ) → List (FGate Q) × (Q → ℚ)
  | [], acc => ([], acc)
  | q :: rest, acc =>
    let g0 : List (FGate Q) := if acc q ≠ 0 then [.ph (acc q) [q]] else []
    let acc := if acc q ≠ 0 then Function.update acc q 0 else acc
    let r := accPairs m q 0 rest acc
    let r' := qftAcc m rest r.2
    (g0 ++ [.h q] ++ r.1 ++ r'.1, r'.2)

/-- Remaining phases (qft.py:89-92). -/
def accEnd (qs : List Q) (acc : Q → ℚ) : List (FGate Q) := qs.flatMap fun q => if acc q ≠ 0 then [.ph (acc q) [q]] else []

/-- `QFT_inner` (qft.py:24-135) without `use_gms` and `inpl_adder`, on the qubits in the order of the loop; `d` is any
qubit (never used as default). -/
def qftInner (m : ℤ) (execSwap : Bool) (d : Q) (qv : List Q) : List (FGate Q) :=
  let r := qftAcc m qv fun _ => 0
  r.1 ++ accEnd qv r.2 ++ if execSwap then swaps qv d else []

/-- `QFT` (qft.py:138-209) outside of tracing mode: a multiplier that is not odd raises an exception. -/
def qft (m : ℤ) (execSwap qiskitEndian inverse : Bool) (d : Q) (qv : List Q) : Option (List (FGate Q)) :=
  if m % 2 = 1 then
    let c := qftInner m execSwap d (if qiskitEndian then qv.reverse else qv)
    some (if inverse then inv c else c)
  else none

/-- `jasp_qft` (qft.py:212-228). -/
def jaspQft (execSwap : Bool) (d : Q) (qv : List Q) : List (FGate Q) :=
  let n := qv.length
  let q := fun i => qv.getD i d
  ((List.range n).flatMap fun i => .h (q (n - 1 - i)) ::
    (List.range (n - i - 1)).map fun k => .ph (1 / 2 ^ (k + 2)) [q (n - 1 - (k + i + 1)), q (n - 1 - i)]) ++
  if execSwap then swaps qv d else []

/-! ### The accumulated phases -/

/-- `QFT` in tracing mode (qft.py:183-198): only `exec_swap` and `inv` are passed on. -/
def qftTracing (_m : ℤ) (execSwap _qiskitEndian inverse : Bool) (d : Q) (qv : List Q) : List (FGate Q) :=
  if inverse then inv (jaspQft execSwap d qv) else jaspQft execSwap d qv

/-- Sum of the accumulated phases. -/
def accSum (qs : List Q) (acc : Q → ℚ) (s : St Q) : ℚ := (qs.map fun q => if s q then acc q else 0).sum

/-- Apply the accumulated phases. -/
noncomputable def D (qs : List Q) (acc : Q → ℚ) (ψ : St Q → ℂ) : St Q → ℂ := fun s => E (accSum qs acc s) * ψ s

theorem accSum_update {qs : List Q} (hn : qs.Nodup) {q : Q} (hq : q ∈ qs) (acc : Q → ℚ) (v : ℚ) (s : St Q) :
    accSum qs (Function.update acc q v) s = accSum qs acc s + if s q then v - acc q else 0 := by
  unfold accSum
  induction qs with
  | nil => cases hq
  | cons x qs ih =>
    rw [List.nodup_cons] at hn
    rw [List.map_cons, List.sum_cons, List.map_cons, List.sum_cons]
    by_cases hx : x = q
    · subst hx
      have : (qs.map fun q => if s q then Function.update acc x v q else 0) = qs.map fun q => if s q then acc q else 0 := by
        refine List.map_congr_left fun y hy => ?_
        have hne : y ≠ x := fun e => hn.1 (e ▸ hy)
        rw [Function.update_of_ne hne]
      rw [this, Function.update_self]
      cases s x <;> simp
      ring
    · rw [Function.update_of_ne hx, ih hn.2 ((List.mem_cons.1 hq).resolve_left fun e => hx e.symm)]
      ring

theorem accSum_indep {qs : List Q} {acc : Q → ℚ} {q : Q} (h : acc q = 0) (s : St Q) (v : Bool) :
    accSum qs acc (upd s q v) = accSum qs acc s := by
  unfold accSum
  congr 1
  refine List.map_congr_left fun x _ => ?_
  by_cases hx : x = q
  · subst hx; rw [h]; simp
  · rw [upd_ne hx]

theorem h_comm {f : St Q → ℂ} {q : Q} (hf : ∀ s v, f (upd s q v) = f s) (ψ : St Q → ℂ) :
    (FGate.h q).app (fun s => f s * ψ s) = fun s => f s * (FGate.h q).app ψ s := by
  funext s
  simp only [FGate.app, hf]
  ring

theorem accPairs_spec (m : ℤ) {all : List Q} (hn : all.Nodup) {q : Q} (hq : q ∈ all) : ∀ (rest : List Q) (k : ℕ)
    (acc : Q → ℚ), (∀ c ∈ rest, c ∈ all ∧ c ≠ q) → ∀ ψ : St Q → ℂ,
    D all (accPairs m q k rest acc).2 (run (accPairs m q k rest acc).1 ψ) = run (cps m q k rest) (D all acc ψ) := by
  intro rest
  induction rest with
  | nil => intro k acc _ ψ; rfl
  | cons c rest ih =>
    intro k acc hc ψ
    obtain ⟨hca, hcq⟩ := hc c List.mem_cons_self
    have hc' := fun x hx => hc x (List.mem_cons_of_mem _ hx)
    simp only [accPairs, cps]
    rw [run_append, ih (k + 1) _ hc']
    show _ = run (cps m q (k + 1) rest) ((FGate.ph _ [c, q]).app (D all acc ψ))
    refine congrArg _ (funext fun s => ?_)
    simp only [D, run, FGate.app, upd_same, upd_upd]
    rw [accSum_update hn hca, accSum_update hn hq, upd_ne (Ne.symm hcq), Bool.xor_assoc, Bool.xor_self, Bool.xor_false,
      upd_self, Function.update_of_ne hcq]
    rw [← mul_assoc, ← mul_assoc]
    congr 1
    generalize accSum all acc s = A
    cases hsq : s q <;> cases hsc : s c <;> simp [hsq, hsc]
    · rw [← E_add]; congr 1; ring
    · rw [← E_add]; congr 1; ring
    · rw [← E_add]; congr 1; ring

theorem qftAcc_spec (m : ℤ) {all : List Q} (hn : all.Nodup) : ∀ (qs : List Q) (acc : Q → ℚ), qs.Nodup →
    (∀ q ∈ qs, q ∈ all) → ∀ ψ : St Q → ℂ,
    D all (qftAcc m qs acc).2 (run (qftAcc m qs acc).1 ψ) = run (qftIdeal m qs) (D all acc ψ) := by
  intro qs
  induction qs with
  | nil => intro acc _ _ ψ; rfl
  | cons q rest ih =>
    intro acc hqn hsub ψ
    rw [List.nodup_cons] at hqn
    have hq := hsub q List.mem_cons_self
    have hrest := fun x hx => hsub x (List.mem_cons_of_mem _ hx)
    have key : ∃ g0 acc', (g0 = if acc q ≠ 0 then [FGate.ph (acc q) [q]] else []) ∧
        (acc' = if acc q ≠ 0 then Function.update acc q 0 else acc) ∧ acc' q = 0 ∧
        ∀ χ, D all acc' (run g0 χ) = D all acc χ := by
      by_cases h0 : acc q ≠ 0
      · refine ⟨_, _, rfl, rfl, by rw [if_pos h0, Function.update_self], fun χ => ?_⟩
        rw [if_pos h0, if_pos h0]
        funext s
        simp only [D, run, FGate.app]
        rw [accSum_update hn hq, ← mul_assoc]
        congr 1
        cases hs : s q <;> simp [hs]
        rw [← E_add]; congr 1; ring
      · exact ⟨_, _, rfl, rfl, by rw [if_neg h0]; simpa using h0, fun χ => by rw [if_neg h0, if_neg h0]; rfl⟩
    obtain ⟨g0, acc', hg0, hacc', hz, hk⟩ := key
    simp only [qftAcc]
    rw [← hg0, ← hacc', run_append, run_append, run_append, ih _ hqn.2 hrest,
      accPairs_spec m hn hq rest 0 acc' (fun c hc => ⟨hrest c hc, fun e => hqn.1 (e ▸ hc)⟩)]
    have hh : D all acc' (run [FGate.h q] (run g0 ψ)) = (FGate.h q).app (D all acc ψ) := by
      rw [← hk ψ]
      exact (h_comm (f := fun s => E (accSum all acc' s)) (fun s v => by rw [accSum_indep hz]) _).symm
    rw [hh]
    show _ = run (cps m q 0 rest ++ qftIdeal m rest) ((FGate.h q).app (D all acc ψ))
    rw [run_append]

theorem run_accEnd (qs : List Q) (acc : Q → ℚ) (ψ : St Q → ℂ) : run (accEnd qs acc) ψ = D qs acc ψ := by
  induction qs generalizing ψ with
  | nil => funext s; simp [accEnd, run, D, accSum, E_zero]
  | cons q qs ih =>
    have h1 : accEnd (q :: qs) acc = (if acc q ≠ 0 then [.ph (acc q) [q]] else []) ++ accEnd qs acc := by
      simp [accEnd]
    rw [h1, run_append, ih]
    funext s
    have h2 : accSum (q :: qs) acc s = (if s q then acc q else 0) + accSum qs acc s := by simp [accSum]
    simp only [D]
    rw [h2]
    push_cast
    rw [E_add]
    by_cases h0 : acc q ≠ 0
    · rw [if_pos h0]
      simp only [run, FGate.app]
      cases hs : s q <;> simp [hs, E_zero]
      ring
    · rw [if_neg h0]
      have h0' : acc q = 0 := by simpa using h0
      simp [run, h0', E_zero]

/-- Without swaps the circuit with accumulated phases is the textbook circuit. -/
theorem run_qftAcc (m : ℤ) {qs : List Q} (hn : qs.Nodup) (ψ : St Q → ℂ) :
    run ((qftAcc m qs fun _ => 0).1 ++ accEnd qs (qftAcc m qs fun _ => 0).2) ψ = run (qftIdeal m qs) ψ := by
  rw [run_append, run_accEnd, qftAcc_spec m hn qs _ hn (fun _ h => h)]
  congr 1
  funext s
  have : accSum qs (fun _ => 0) s = 0 := by
    unfold accSum
    rw [List.sum_eq_zero]
    intro x hx
    rw [List.mem_map] at hx
    obtain ⟨y, _, rfl⟩ := hx
    simp
  simp [D, this, E_zero]

/-! ### Swaps -/

theorem run_swaps_aux {qs : List Q} (hn : qs.Nodup) (d : Q) : ∀ (k : ℕ), 2 * k ≤ qs.length → ∀ s : St Q,
    ∃ s', (∀ ψ : St Q → ℂ, run ((List.range k).map fun i => FGate.swap (qs.getD i d) (qs.getD (qs.length - i - 1) d)) ψ s =
      ψ s') ∧ (∀ x, x ∉ qs → s' x = s x) ∧
      ∀ i, i < qs.length → s' (qs.getD i d) =
        if i < k ∨ qs.length - 1 - i < k then s (qs.getD (qs.length - 1 - i) d) else s (qs.getD i d) := by
  have hinj : ∀ i j, i < qs.length → j < qs.length → qs.getD i d = qs.getD j d → i = j := fun i j hi hj h => by
    simp only [List.getD_eq_getElem?_getD, List.getElem?_eq_getElem hi, List.getElem?_eq_getElem hj, Option.getD_some] at h
    exact (List.Nodup.getElem_inj_iff hn).1 h
  have hmem : ∀ i, i < qs.length → qs.getD i d ∈ qs := fun i hi => by
    simp only [List.getD_eq_getElem?_getD, List.getElem?_eq_getElem hi, Option.getD_some]
    exact List.getElem_mem hi
  intro k
  induction k with
  | zero => intro _ s; exact ⟨s, fun _ => rfl, fun _ _ => rfl, fun i hi => by simp⟩
  | succ k ih =>
    intro hk s
    obtain ⟨s', h1, h2, h3⟩ := ih (by omega) (swapSt s (qs.getD k d) (qs.getD (qs.length - k - 1) d))
    have hka : k < qs.length := by omega
    have hkb : qs.length - k - 1 < qs.length := by omega
    have hne : qs.getD k d ≠ qs.getD (qs.length - k - 1) d := fun e => by
      have := hinj _ _ hka hkb e; omega
    refine ⟨s', fun ψ => ?_, fun x hx => ?_, fun i hi => ?_⟩
    · rw [List.range_succ, List.map_append, run_append]
      exact h1 ψ
    · rw [h2 x hx]
      unfold swapSt
      have e1 : x ≠ qs.getD k d := fun e => hx (e ▸ hmem k hka)
      have e2 : x ≠ qs.getD (qs.length - k - 1) d := fun e => hx (e ▸ hmem _ hkb)
      rw [upd_ne e2, upd_ne e1]
    · have hsw : ∀ j, j < qs.length → swapSt s (qs.getD k d) (qs.getD (qs.length - k - 1) d) (qs.getD j d) =
          s (qs.getD (if j = k then qs.length - k - 1 else if j = qs.length - k - 1 then k else j) d) := by
        intro j hj
        unfold swapSt
        by_cases e2 : j = qs.length - k - 1
        · rw [e2, upd_same, if_neg (by omega), if_pos rfl]
        · have n2 : qs.getD j d ≠ qs.getD (qs.length - k - 1) d := fun e => e2 (hinj _ _ hj hkb e)
          rw [upd_ne n2]
          by_cases e1 : j = k
          · rw [e1, upd_same, if_pos rfl]
          · have n1 : qs.getD j d ≠ qs.getD k d := fun e => e1 (hinj _ _ hj hka e)
            rw [upd_ne n1, if_neg e1, if_neg e2]
      rw [h3 i hi]
      by_cases hc : i < k ∨ qs.length - 1 - i < k
      · rw [if_pos hc, if_pos (by omega), hsw _ (by omega), if_neg (by omega), if_neg (by omega)]
      · rw [if_neg hc, hsw i hi]
        by_cases hik : i = k
        · rw [if_pos hik, if_pos (by omega)]; congr 2; omega
        · rw [if_neg hik]
          by_cases hik' : i = qs.length - k - 1
          · rw [if_pos hik', if_pos (by omega)]; congr 2; omega
          · rw [if_neg hik', if_neg (by omega)]

theorem run_swaps {qs : List Q} (hn : qs.Nodup) (d : Q) (s : St Q) : ∃ s', (∀ ψ : St Q → ℂ, run (swaps qs d) ψ s = ψ s') ∧
    (∀ x, x ∉ qs → s' x = s x) ∧ valL qs s' = valM qs s ∧ valM qs s' = valL qs s := by
  obtain ⟨s', h1, h2, h3⟩ := run_swaps_aux hn d (qs.length / 2) (by omega) s
  refine ⟨s', h1, h2, ?_⟩
  rw [← valL_reverse, ← valL_reverse]
  have hmap : qs.map s' = qs.reverse.map s := by
    refine List.ext_getElem (by simp) fun i hi _ => ?_
    have hi' : i < qs.length := by simpa using hi
    have h := h3 i hi'
    have hr : qs.length - 1 - i < qs.length := by omega
    simp only [List.getD_eq_getElem?_getD, List.getElem?_eq_getElem hi', List.getElem?_eq_getElem hr, Option.getD_some] at h
    rw [List.getElem_map, List.getElem_map, List.getElem_reverse, h]
    by_cases hc : i < qs.length / 2 ∨ qs.length - 1 - i < qs.length / 2
    · rw [if_pos hc]
    · rw [if_neg hc]
      congr 2
      omega
  have hval : ∀ (A B : List Q) (s s' : St Q), A.map s = B.map s' → valL A s = valL B s' := by
    intro A
    induction A with
    | nil => intro B s s' h; cases B with
      | nil => rfl
      | cons b B => simp at h
    | cons a A ih => intro B s s' h; cases B with
      | nil => simp at h
      | cons b B =>
        simp only [List.map_cons, List.cons.injEq] at h
        rw [valL, valL, h.1, ih B s s' h.2]
  refine ⟨hval _ _ _ _ hmap, hval _ _ _ _ ?_⟩
  rw [List.map_reverse, hmap, List.map_reverse, List.reverse_reverse]

theorem setM_outside (qs : List Q) (X : ℕ) {s s' : St Q} (h : ∀ x, x ∉ qs → s' x = s x) : setM qs X s' = setM qs X s := by
  induction qs generalizing s s' with
  | nil => funext x; exact h x (by simp)
  | cons q qs ih =>
    rw [setM, setM]
    have : setM qs X (upd s' q false) = setM qs X (upd s q false) := by
      refine ih fun x hx => ?_
      by_cases hxq : x = q
      · subst hxq; rw [upd_same, upd_same]
      · rw [upd_ne hxq, upd_ne hxq]; exact h x (by simp [hxq, hx])
    have key : ∀ s : St Q, upd (setM qs X s) q (X.testBit qs.length) =
        upd (setM qs X (upd s q false)) q (X.testBit qs.length) := by
      intro s
      by_cases hq : q ∈ qs
      · congr 1
        refine ih fun x hx => ?_
        have hne : x ≠ q := fun e => hx (e ▸ hq)
        rw [upd_ne hne]
      · rw [setM_upd hq, upd_upd]
    rw [key s', this, ← key s]

/-- The full Fourier transform, first qubit most significant. -/
theorem run_qftSwap {m : ℤ} (hm : m % 2 = 1) {qs : List Q} (hn : qs.Nodup) (d : Q) (ψ : St Q → ℂ) (s : St Q) :
    run (qftIdeal m qs ++ swaps qs d) ψ s =
      rt ^ qs.length * ∑ X ∈ Finset.range (2 ^ qs.length),
        E (m * (X * valM qs s) / 2 ^ qs.length) * ψ (setM qs X s) := by
  obtain ⟨s', h1, h2, h3, _⟩ := run_swaps hn d s
  rw [run_append, h1, run_qftIdeal hm qs hn, h3]
  simp only [setM_outside qs _ h2]

theorem run_qftInner {m : ℤ} (hm : m % 2 = 1) {qs : List Q} (hn : qs.Nodup) (execSwap : Bool) (d : Q) (ψ : St Q → ℂ)
    (s : St Q) : run (qftInner m execSwap d qs) ψ s =
      rt ^ qs.length * ∑ X ∈ Finset.range (2 ^ qs.length),
        E (m * (X * (if execSwap then valM qs s else valL qs s : ℕ)) / 2 ^ qs.length) * ψ (setM qs X s) := by
  unfold qftInner
  simp only
  rw [run_append, run_qftAcc m hn]
  cases execSwap
  · exact run_qftIdeal hm qs hn ψ s
  · rw [if_pos rfl, if_pos rfl, ← run_append]
    exact run_qftSwap hm hn d ψ s

/-! ### `jasp_qft` -/

theorem cps_range (m : ℤ) (q d : Q) : ∀ (rest : List Q) (k0 : ℕ), cps m q k0 rest =
    (List.range rest.length).map fun k => FGate.ph (m / 2 ^ (k0 + k + 2)) [rest.getD k d, q] := by
  intro rest
  induction rest with
  | nil => intro k0; rfl
  | cons c rest ih =>
    intro k0
    rw [cps, ih, List.length_cons, List.range_succ_eq_map, List.map_cons, List.map_map]
    refine congrArg₂ _ rfl (List.map_congr_left fun k _ => ?_)
    simp only [Function.comp, List.getD_cons_succ]
    rw [show k0 + 1 + k + 2 = k0 + k.succ + 2 by omega]

theorem qftIdeal_range (m : ℤ) (d : Q) : ∀ (qs : List Q), qftIdeal m qs =
    (List.range qs.length).flatMap fun i => FGate.h (qs.getD i d) ::
      (List.range (qs.length - i - 1)).map fun k => FGate.ph (m / 2 ^ (k + 2)) [qs.getD (k + i + 1) d, qs.getD i d] := by
  intro qs
  induction qs with
  | nil => rfl
  | cons q rest ih =>
    rw [qftIdeal, ih, List.length_cons, List.range_succ_eq_map, List.flatMap_cons, List.flatMap_map]
    refine congrArg₂ _ ?_ ?_
    · rw [cps_range m q d]
      simp
    · refine List.flatMap_congr fun i _ => ?_
      simp only [List.getD_cons_succ, Nat.succ_eq_add_one, ← Nat.add_assoc]
      rw [show rest.length + 1 - (i + 1) - 1 = rest.length - i - 1 by omega]

theorem jaspQft_eq (execSwap : Bool) (d : Q) (qv : List Q) :
    jaspQft execSwap d qv = qftIdeal 1 qv.reverse ++ if execSwap then swaps qv d else [] := by
  unfold jaspQft
  simp only
  congr 1
  rw [qftIdeal_range 1 d, List.length_reverse]
  have hrev : ∀ i, i < qv.length → qv.reverse.getD i d = qv.getD (qv.length - 1 - i) d := fun i hi => by
    simp only [List.getD_eq_getElem?_getD]
    rw [List.getElem?_reverse hi]
  refine List.flatMap_congr fun i hi => ?_
  rw [List.mem_range] at hi
  rw [hrev i hi]
  congr 1
  refine List.map_congr_left fun k hk => ?_
  rw [List.mem_range] at hk
  rw [hrev _ (by omega)]
  simp

theorem run_jaspQft {qv : List Q} (hn : qv.Nodup) (execSwap : Bool) (d : Q) (ψ : St Q → ℂ) (s : St Q) :
    run (jaspQft execSwap d qv) ψ s =
      rt ^ qv.length * ∑ X ∈ Finset.range (2 ^ qv.length),
        E ((1 : ℤ) * (X * (if execSwap then valL qv s else valM qv s : ℕ)) / 2 ^ qv.length) *
          ψ (setM qv.reverse X s) := by
  rw [jaspQft_eq, run_append]
  have hr : qv.reverse.Nodup := List.nodup_reverse.2 hn
  have hv : ∀ s, valL qv.reverse s = valM qv s := valL_reverse qv
  cases execSwap
  · show run (qftIdeal 1 qv.reverse) ψ s = _
    rw [run_qftIdeal (by decide) _ hr, List.length_reverse, hv]
    rfl
  · obtain ⟨s', h1, h2, _, h4⟩ := run_swaps hn d s
    rw [if_pos rfl, h1, run_qftIdeal (by decide) _ hr, List.length_reverse, hv, h4]
    simp only [setM_outside qv.reverse _ (s := s) (s' := s') (fun x hx => h2 x fun h => hx (List.mem_reverse.2 h))]
    rfl

end Verif.Fourier
