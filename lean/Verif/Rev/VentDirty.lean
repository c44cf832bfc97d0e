import Verif.Rev.Vent
import Mathlib.Data.Nat.Bitwise
import Mathlib.Tactic.Ring
import Mathlib.Tactic.IntervalCases

/-!
# The venting adder: phase correction and the split addition (gidney_venting_adder.py:495-893)
-/

namespace Verif.Vent

open Verif.Rev (St upd)

variable {Q : Type} [DecidableEq Q]

/-! ### Signs -/

theorem sgn_false_left (n : ℕ) (c : ℕ → Bool) : sgn n (fun _ => false) c = false := by
  induction n with
  | zero => rfl
  | succ n ih => rw [sgn_succ, ih]; rfl

theorem run_zMask (D : ℕ → Q) (v : ℕ) (s : St Q) (p : Bool) (n : ℕ) : run (zMask n v D) (s, p) = (s, p ^^ sgn n (fun k => v.testBit k) fun k => s (D k)) := by
  induction n with
  | zero => simp [zMask, run_nil, sgn]
  | succ n ih =>
    have : zMask (n + 1) v D = zMask n v D ++ (if (v >>> n) &&& 1 = 1 then [.z (D n)] else []) := by
      unfold zMask; rw [List.range_succ, List.flatMap_append, List.flatMap_cons, List.flatMap_nil, List.append_nil]
    rw [this, run_append, ih, sgn_succ]
    have ht : ((v >>> n) &&& 1 = 1) ↔ v.testBit n = true := by
      rw [Nat.and_one_is_mod, Nat.testBit_eq_decide_div_mod_eq, decide_eq_true_iff, Nat.shiftRight_eq_div_pow]
    by_cases h : v.testBit n = true
    · rw [if_pos (ht.mpr h), h, Bool.true_and]
      rw [run_cons, run_nil]
      simp only [VG.app, Bool.xor_assoc]
    · rw [if_neg fun h' => h (ht.mp h'), Bool.eq_false_iff.mpr h, Bool.false_and, Bool.xor_false]
      rfl

theorem run_xAll {T : ℕ → Q} {n : ℕ} (hT : ∀ i < n, ∀ j < n, T i = T j → i = j) (s : St Q) (p : Bool) :
    ∃ s', run (xAll n T) (s, p) = (s', p) ∧ (∀ i < n, s' (T i) = !s (T i)) ∧ ∀ q, (∀ i < n, q ≠ T i) → s' q = s q := by
  induction n with
  | zero => exact ⟨s, rfl, fun i hi => absurd hi (Nat.not_lt_zero _), fun q _ => rfl⟩
  | succ n ih =>
    obtain ⟨s', h1, h2, h3⟩ := ih fun i hi j hj => hT i (by omega) j (by omega)
    have hn : s' (T n) = s (T n) := h3 _ fun i hi e => by have := hT n (by omega) i (by omega) e; omega
    refine ⟨upd s' (T n) (!s' (T n)), ?_, fun i hi => ?_, fun q hq => ?_⟩
    · have : xAll (n + 1) T = xAll n T ++ [.x (T n)] := by unfold xAll; rw [List.range_succ, List.map_append]; rfl
      rw [this, run_append, h1]
      rfl
    · by_cases hin : i = n
      · subst hin; rw [upd_same', hn]
      · rw [upd_ne' (fun e => hin (hT i hi n (by omega) e)), h2 i (by omega)]
    · rw [upd_ne' (hq n (by omega)), h3 q fun i hi => hq i (by omega)]

/-! ### `carry_xor_block` -/

/-- Conditions of `carry_xor_block`. -/
structure CSep (n : ℕ) (D T : ℕ → Q) (cin ctrl : Option Q) : Prop where
  DD : ∀ i < n, ∀ j < n, D i = D j → i = j
  TD : ∀ i < n, ∀ j < n, T i ≠ D j
  cT : ∀ i < n, ctrl ≠ some (T i)
  cD : ∀ i < n, ctrl ≠ some (D i)
  iT : ∀ i < n, cin ≠ some (T i)
  iD : ∀ i < n, cin ≠ some (D i)
  ic : ∀ c, cin = some c → ctrl ≠ some c

/-- The carries as `carry_xor_block` computes them, from the first one. -/
def kar (k₀ : Bool) (e x : ℕ → Bool) : ℕ → Bool
  | 0 => k₀
  | k + 1 => maj (e (k + 1)) (x (k + 1)) (kar k₀ e x k)

theorem kar_car (c : Bool) (e x : ℕ → Bool) (k : ℕ) : kar (maj (e 0) (x 0) c) e x k = car c e x (k + 1) := by
  induction k with
  | zero => rfl
  | succ k ih => rw [kar, ih]; rfl

/-- The first carry as `carry_xor_block` computes it. -/
def kin (d : ℕ) (T : ℕ → Q) (cin ctrl : Option Q) (s : St Q) : Bool :=
  match cin with
  | some c => maj (addend d ctrl s 0) (s (T 0)) (s c)
  | none => addend d ctrl s 0 ^^ (d.testBit 0 && !s (T 0))

theorem kin_eq {d : ℕ} {T : ℕ → Q} {cin ctrl : Option Q} {s : St Q} (h : cin ≠ none ∨ cval ctrl s = true) :
    kin d T cin ctrl s = maj (addend d ctrl s 0) (s (T 0)) (inval cin s) := by
  unfold kin inval
  cases cin with
  | some c => rfl
  | none =>
    have := h.resolve_left (fun h => h rfl)
    simp only [addend, this, Bool.and_true, maj]
    cases d.testBit 0 <;> cases s (T 0) <;> rfl

theorem cxb_down {n d : ℕ} {D T : ℕ → Q} {cin ctrl : Option Q} (hs : CSep n D T cin ctrl) (s : St Q) (p : Bool) :
    ∀ k ≤ n - 1, ∃ s', run ((List.range k).flatMap fun j => bim ctrl (T (n - 1 - j)) (D (n - 1 - j - 1)) (D (n - 1 - j)) (d.testBit (n - 1 - j))) (s, p) = (s', p) ∧
      (∀ i < n, s' (D i) = (s (D i) ^^ (decide (n ≤ i + k) && ((s (T i) ^^ addend d ctrl s i) && s (D (i - 1)))))) ∧
      ∀ q, (∀ i < n, q ≠ D i) → s' q = s q := by
  intro k
  induction k with
  | zero => intro _; exact ⟨s, rfl, fun i hi => by rw [show decide (n ≤ i + 0) = false by simp; omega]; simp, fun q _ => rfl⟩
  | succ k ih =>
    intro hk
    obtain ⟨s', r1, r2, r3⟩ := ih (by omega)
    set i := n - 1 - k with hi
    have hin : i < n := by omega
    have hcv : cval ctrl s' = cval ctrl s := cval_frame fun c hc => r3 c fun i hi e => hs.cD i hi (by rw [hc, e])
    refine ⟨_, by rw [List.range_succ, List.flatMap_append, run_append, r1, List.flatMap_cons, List.flatMap_nil, List.append_nil, ← hi,
      run_bim (hs.TD i hin i hin) (hs.TD i hin _ (by omega)) (hs.cT i hin) (hs.cD i hin)], fun j hj => ?_, fun q hq => ?_⟩
    · by_cases hji : j = i
      · rw [hji, upd_same', r2 i hin, r2 (i - 1) (by omega), r3 _ (fun a ha => hs.TD i hin a ha), hcv, show decide (n ≤ i + k) = false by simp; omega,
          show decide (n ≤ i - 1 + k) = false by simp; omega, show decide (n ≤ i + (k + 1)) = true by simp; omega]
        simp [addend]
      · rw [upd_ne' (fun e => hji (hs.DD j hj i hin e)), r2 j hj, show decide (n ≤ j + k) = decide (n ≤ j + (k + 1)) from decide_eq_decide.mpr (by omega)]
    · rw [upd_ne' (hq i hin), r3 q hq]

theorem cxb_up {n d : ℕ} {D T : ℕ → Q} {cin ctrl : Option Q} (hs : CSep n D T cin ctrl) (k₀ : Bool) (s₀ s : St Q) (p : Bool) (hn : 0 < n)
    (h0 : s (D 0) = (s₀ (D 0) ^^ k₀)) (h1 : ∀ i < n, 0 < i → s (D i) = (s₀ (D i) ^^ ((s₀ (T i) ^^ addend d ctrl s₀ i) && s₀ (D (i - 1))) ^^ addend d ctrl s₀ i))
    (h2 : ∀ q, (∀ i < n, q ≠ D i) → s q = s₀ q) :
    ∀ k ≤ n - 1, ∃ s', run ((List.range k).flatMap fun j => bizz ctrl (D (j + 1 - 1)) (T (j + 1)) (D (j + 1)) (d.testBit (j + 1))) (s, p) = (s', p) ∧
      (∀ i ≤ k, s' (D i) = (s₀ (D i) ^^ kar k₀ (addend d ctrl s₀) (fun j => s₀ (T j)) i)) ∧ (∀ i < n, k < i → s' (D i) = s (D i)) ∧
      ∀ q, (∀ i < n, q ≠ D i) → s' q = s₀ q := by
  intro k
  induction k with
  | zero => intro _; exact ⟨s, rfl, fun i hi => by rw [show i = 0 by omega, h0]; rfl, fun i _ _ => rfl, h2⟩
  | succ k ih =>
    intro hk
    obtain ⟨s', r1, r2, r3, r4⟩ := ih (by omega)
    have hcv : cval ctrl s' = cval ctrl s₀ := cval_frame fun c hc => r4 c fun i hi e => hs.cD i hi (by rw [hc, e])
    have i1 : k + 1 < n := by omega
    have i0 : k < n := by omega
    refine ⟨_, by rw [List.range_succ, List.flatMap_append, run_append, r1, List.flatMap_cons, List.flatMap_nil, List.append_nil, Nat.add_sub_cancel,
      run_bizz (fun e => by have := hs.DD k i0 _ i1 e; omega) (hs.TD _ i1 _ i1) (hs.TD _ i1 _ i0).symm (hs.cD _ i0) (hs.cT _ i1) (hs.cD _ i1)], fun i hi => ?_, fun i hi hi' => ?_, fun q hq => ?_⟩
    · by_cases hik : i = k + 1
      · subst hik
        rw [upd_same', r3 _ i1 (by omega), h1 _ i1 (by omega), r2 k le_rfl, r4 _ fun a ha => hs.TD _ i1 a ha, hcv, kar, Nat.add_sub_cancel]
        unfold maj addend
        cases (d.testBit (k + 1) && cval ctrl s₀) <;> cases s₀ (D (k + 1)) <;> cases s₀ (T (k + 1)) <;> cases s₀ (D k) <;>
          cases kar k₀ (fun k => d.testBit k && cval ctrl s₀) (fun j => s₀ (T j)) k <;> rfl
      · rw [upd_ne' (fun e => hik (hs.DD i (by omega) _ i1 e)), r2 i (by omega)]
    · rw [upd_ne' (fun e => by have := hs.DD i hi _ i1 e; omega), r3 i hi (by omega)]
    · rw [upd_ne' (hq _ i1), r4 q hq]

/-- `carry_xor_block` adds the carries to the dirty qubits. -/
theorem run_cxb {n d : ℕ} {D T : ℕ → Q} {cin ctrl : Option Q} (hn : 0 < n) (hs : CSep n D T cin ctrl) (s : St Q) (p : Bool) :
    ∃ s', run (cxb n d D T cin ctrl) (s, p) = (s', p) ∧
      (∀ i < n, s' (D i) = (s (D i) ^^ kar (kin d T cin ctrl s) (addend d ctrl s) (fun j => s (T j)) i)) ∧ ∀ q, (∀ i < n, q ≠ D i) → s' q = s q := by
  obtain ⟨s1, a1, a2, a3⟩ := cxb_down (d := d) hs s p (n - 1) le_rfl
  obtain ⟨s2, b1, b2, b3⟩ := run_init (d := d) hs.DD hs.cD s1 p n le_rfl
  have c1 : cval ctrl s1 = cval ctrl s := cval_frame fun c hc => a3 c fun i hi e => hs.cD i hi (by rw [hc, e])
  have c2 : cval ctrl s2 = cval ctrl s := (cval_frame fun c hc => b3 c fun i hi e => hs.cD i hi (by rw [hc, e])).trans c1
  have hT : ∀ i < n, s2 (T i) = s (T i) := fun i hi => by rw [b3 _ fun j hj => hs.TD i hi j hj, a3 _ fun j hj => hs.TD i hi j hj]
  have hD0 : s2 (D 0) = (s (D 0) ^^ addend d ctrl s 0) := by
    rw [b2 0 hn, a2 0 hn, show decide (n ≤ 0 + (n - 1)) = false by simp; omega, show decide (0 < n) = true by simpa using hn]
    simp [addend, c1]
  have hDi : ∀ i < n, 0 < i → s2 (D i) = (s (D i) ^^ ((s (T i) ^^ addend d ctrl s i) && s (D (i - 1))) ^^ addend d ctrl s i) := fun i hi h0 => by
    rw [b2 i hi, a2 i hi, show decide (n ≤ i + (n - 1)) = true by simp; omega, show decide (i < n) = true by simpa using hi]
    simp [addend, c1]
  -- the first carry
  obtain ⟨s3, d1, d2, d3⟩ : ∃ s3, run (match cin with
      | some c => bizz ctrl c (T 0) (D 0) (d.testBit 0)
      | none => if d.testBit 0 then [.x (T 0), .cx (T 0) (D 0), .x (T 0)] else []) (s2, p) = (s3, p) ∧ s3 (D 0) = (s (D 0) ^^ kin d T cin ctrl s) ∧
      ∀ q, q ≠ D 0 → s3 q = s2 q := by
    cases hc : cin with
    | some c =>
      have hcc : s2 c = s c := by
        rw [b3 c fun j hj e => hs.iD j hj (by rw [hc, e]), a3 c fun j hj e => hs.iD j hj (by rw [hc, e])]
      refine ⟨_, run_bizz (fun e => hs.iD 0 hn (by rw [hc, e])) (hs.TD 0 hn 0 hn) (fun e => hs.iT 0 hn (by rw [hc, e])) (hs.ic c hc) (hs.cT 0 hn) (hs.cD 0 hn) _ _ _, ?_,
        fun q hq => upd_ne' hq _ _⟩
      rw [upd_same', hD0, hcc, hT 0 hn, c2]
      simp only [kin, maj, addend]
      cases s (D 0) <;> cases s c <;> cases s (T 0) <;> cases (d.testBit 0 && cval ctrl s) <;> rfl
    | none =>
      simp only [kin]
      have ht := hs.TD 0 hn 0 hn
      cases hb : d.testBit 0 with
      | false => exact ⟨s2, rfl, by rw [hD0]; simp, fun q _ => rfl⟩
      | true =>
        refine ⟨upd s2 (D 0) (s2 (D 0) ^^ !s2 (T 0)), ?_, ?_, fun q hq => upd_ne' hq _ _⟩
        · simp only [if_true, run_cons, run_nil, VG.app]
          congr 1
          funext q
          by_cases q1 : q = T 0
          · subst q1; simp [upd, ht]
          · by_cases q2 : q = D 0
            · subst q2; simp [upd, ht.symm]
            · simp [upd, q1, q2]
        · rw [upd_same', hD0, hT 0 hn]
          simp
  obtain ⟨s4, f1, f2, -, f4⟩ := cxb_up (d := d) hs (kin d T cin ctrl s) s s3 p hn d2 (fun i hi h0 => by rw [d3 _ (fun e => by have := hs.DD i hi 0 hn e; omega), hDi i hi h0])
    (fun q hq => by rw [d3 q (hq 0 hn), b3 q hq, a3 q hq]) (n - 1) le_rfl
  refine ⟨s4, ?_, fun i hi => f2 i (by omega), f4⟩
  unfold cxb
  rw [run_append, run_append, run_append]
  have a1' : run ((List.range (n - 1)).flatMap fun j => let i := n - 1 - j; bim ctrl (T i) (D (i - 1)) (D i) (d.testBit i)) (s, p) = (s1, p) := a1
  rw [a1', b1]
  have : run ((List.range (n - 1)).flatMap fun j => let i := j + 1; bizz ctrl (D (i - 1)) (T i) (D i) (d.testBit i)) (s3, p) = (s4, p) := f1
  exact (congrArg (run _) d1).trans this

/-! ### The mask -/

theorem ventmask_succ (m : ℕ → Bool) (k : ℕ) : ventmask m (k + 1) = ventmask m k + (m k).toNat <<< k := by
  unfold ventmask; rw [List.range_succ, List.foldl_append]; rfl

theorem ventmask_lt (m : ℕ → Bool) (k : ℕ) : ventmask m k < 2 ^ k := by
  induction k with
  | zero => simp [ventmask]
  | succ k ih =>
    rw [ventmask_succ, Nat.shiftLeft_eq, pow_succ]
    cases m k <;> simp <;> omega

theorem ventmask_testBit (m : ℕ → Bool) (k i : ℕ) : (ventmask m k).testBit i = (decide (i < k) && m i) := by
  induction k with
  | zero => simp [ventmask]
  | succ k ih =>
    rw [ventmask_succ, Nat.shiftLeft_eq, add_comm, mul_comm, Nat.testBit_two_pow_mul_add _ (ventmask_lt m k), ih]
    by_cases h : i < k
    · rw [if_pos h, show decide (i < k) = decide (i < k + 1) from decide_eq_decide.mpr (by omega)]
    · rw [if_neg h]
      by_cases h2 : i = k
      · subst h2; cases m i <;> simp
      · rw [show decide (i < k + 1) = false by simp; omega]
        obtain ⟨j, hj⟩ : ∃ j, i - k = j + 1 := ⟨i - k - 1, by omega⟩
        rw [hj]
        cases m k <;> simp [Nat.testBit_succ]

theorem parity_zero : parity 0 = 0 := by decide

/-! ### Phase correction -/

/-- Correction of the recorded vents with dirty qubits. -/
theorem run_fix {nd d : ℕ} {D T : ℕ → Q} {cin ctrl : Option Q} (hn : 0 < nd) (hs : CSep nd D T cin ctrl) (v : ℕ) (s : St Q) (p c : Bool) (e x : ℕ → Bool)
    (he : ∀ k < nd, addend d ctrl s k = e k) (hc : inval cin s = c) (hok : cin ≠ none ∨ cval ctrl s = true)
    (hT : ∀ k < nd, s (T k) = !(x k ^^ e k ^^ car c e x k)) :
    ∃ s', run (zMask nd v D ++ cxb nd d D T cin ctrl ++ zMask nd v D) (s, p) = (s', p ^^ sgn nd (fun k => v.testBit k) fun k => car c e x (k + 1)) ∧
      run (cxb nd d D T cin ctrl) (s, p) = (s', p) ∧
      (∀ k < nd, s' (D k) = (s (D k) ^^ car c e x (k + 1))) ∧ ∀ q, (∀ i < nd, q ≠ D i) → s' q = s q := by
  have key : ∀ p, ∃ s', run (cxb nd d D T cin ctrl) (s, p) = (s', p) ∧
      (∀ k < nd, s' (D k) = (s (D k) ^^ car c e x (k + 1))) ∧ ∀ q, (∀ i < nd, q ≠ D i) → s' q = s q := fun p => by
    obtain ⟨s', r1, r2, r3⟩ := run_cxb (d := d) hn hs s p
    refine ⟨s', r1, fun k hk => ?_, r3⟩
    rw [r2 k hk, kin_eq hok, kar_car (inval cin s) (addend d ctrl s) (fun j => s (T j)) k, hc, car_congr (n := nd) he hT (by omega), car_compl]
  obtain ⟨s', r1, r2, r3⟩ := key (p ^^ sgn nd (fun k => v.testBit k) fun k => s (D k))
  obtain ⟨s'', t1, t2, t3⟩ := key p
  have hss : s'' = s' := by
    funext q
    by_cases hq : ∃ i < nd, q = D i
    · obtain ⟨i, hi, rfl⟩ := hq; rw [r2 i hi, t2 i hi]
    · push Not at hq; rw [r3 q hq, t3 q hq]
  refine ⟨s', ?_, by rw [← hss]; exact t1, r2, r3⟩
  rw [run_append, run_append, run_zMask (s := s), r1, run_zMask]
  congr 1
  rw [Bool.xor_assoc, sgn_xor]
  congr 1
  refine sgn_congr fun k hk => ?_
  rw [r2 k hk]
  cases s (D k) <;> cases car c e x (k + 1) <;> rfl

theorem addend_eq {d : ℕ} {ctrl : Option Q} {s s' : St Q} (h : cval ctrl s = cval ctrl s') : addend d ctrl s = addend d ctrl s' := by
  unfold addend; rw [h]

theorem kar_congr {k₀ : Bool} {e e' x x' : ℕ → Bool} {n : ℕ} (he : ∀ i < n, e i = e' i) (hx : ∀ i < n, x i = x' i) {k : ℕ} (hk : k < n) :
    kar k₀ e x k = kar k₀ e' x' k := by
  induction k with
  | zero => rfl
  | succ k ih => rw [kar, kar, ih (by omega), he _ hk, hx _ hk]

/-- The correction leaves the register as two applications of `carry_xor_block` do, also when the carries are wrong. -/
theorem run_fix2 {nd d : ℕ} {D T : ℕ → Q} {cin ctrl : Option Q} (hn : 0 < nd) (hs : CSep nd D T cin ctrl) (v : ℕ) (s : St Q) (p : Bool) :
    ∃ p', run (zMask nd v D ++ cxb nd d D T cin ctrl ++ zMask nd v D ++ cxb nd d D T cin ctrl) (s, p) = (s, p') := by
  rw [run_append, run_append, run_append, run_zMask (s := s)]
  obtain ⟨s', r1, r2, r3⟩ := run_cxb (d := d) hn hs s (p ^^ sgn nd (fun k => v.testBit k) fun k => s (D k))
  rw [r1, run_zMask]
  obtain ⟨s'', t1, t2, t3⟩ := run_cxb (d := d) hn hs s' (p ^^ (sgn nd (fun k => v.testBit k) fun k => s (D k)) ^^ sgn nd (fun k => v.testBit k) fun k => s' (D k))
  rw [t1]
  refine ⟨_, Prod.ext ?_ rfl⟩
  have hcv : cval ctrl s' = cval ctrl s := cval_frame fun c hc => r3 c fun i hi e => hs.cD i hi (by rw [hc, e])
  have hT : ∀ i < nd, s' (T i) = s (T i) := fun i hi => r3 _ fun j hj => hs.TD i hi j hj
  have hk : kin d T cin ctrl s' = kin d T cin ctrl s := by
    unfold kin
    cases hcin : cin with
    | none => simp only [addend, hcv, hT 0 hn]
    | some c => simp only [addend, hcv, hT 0 hn, r3 c fun i hi e => hs.iD i hi (by rw [hcin, e])]
  dsimp only
  funext q
  by_cases hq : ∃ i < nd, q = D i
  · obtain ⟨i, hi, rfl⟩ := hq
    rw [t2 i hi, r2 i hi, hk, kar_congr (n := nd) (e' := addend d ctrl s) (x' := fun j => s (T j)) (fun j _ => by rw [addend_eq hcv]) hT hi]
    cases s (D i) <;> cases kar (kin d T cin ctrl s) (addend d ctrl s) (fun j => s (T j)) i <;> rfl
  · push Not at hq
    rw [t3 q hq, r3 q hq]

/-- Result of an addition. -/
structure Add (n : ℕ) (T : ℕ → Q) (e C : ℕ → Bool) (cout : Option Q) (w : ℕ) (s₀ : St Q) (s : St Q) : Prop where
  hT : ∀ k < n, s (T k) = (s₀ (T k) ^^ e k ^^ C k)
  hout : ∀ c, cout = some c → s c = (s₀ c ^^ C w)
  hF : ∀ q, (∀ k < n, q ≠ T k) → cout ≠ some q → s q = s₀ q

/-- `dirty_ancillae_adder` with as many dirty qubits as vents. -/
theorem run_dirtyAdder {n d : ℕ} {T : ℕ → Q} {A0 A1 : Q} {D : ℕ → Q} {nd : ℕ} (m : ℕ → Bool) {cin ctrl cout : Option Q} (s₀ : St Q) (p₀ : Bool)
    (hn : 4 ≤ n) (hnd : nd = n - 2) (hs : Sep n T A0 A1 ctrl D nd) (ho : OutSep n T A0 A1 D nd cout) (hco : ∀ o, cout = some o → ctrl ≠ some o)
    (h0 : s₀ A0 = false) (h1 : s₀ A1 = false) (hc0 : cin ≠ some A0) (hc1 : cin ≠ some A1)
    (hcT : ∀ i < n, cin ≠ some (T i)) (hcD : ∀ i < nd, cin ≠ some (D i)) (hcc : ∀ c, cin = some c → ctrl ≠ some c) (hci : ∀ c, cin = some c → cout ≠ some c)
    (hok : cin ≠ none ∨ cval ctrl s₀ = true) :
    ∃ s', run (dirtyAdder n d T D nd A0 A1 cin cout ctrl m) (s₀, p₀) = (s', p₀) ∧
      Add n T (addend d ctrl s₀) (car (inval cin s₀) (addend d ctrl s₀) fun k => s₀ (T k)) cout (n - 2) s₀ s' := by
  have R := res_cva (d := d) m s₀ p₀ (by omega : 3 ≤ n) hs ho hco h0 h1 hc1 hcT hcc
  set e := addend d ctrl s₀ with he
  set C := car (inval cin s₀) e fun k => s₀ (T k) with hC
  have hnv : numVents n = nd := by unfold numVents; omega
  obtain ⟨s1, hs1⟩ : ∃ s1, s1 = (run (cva n d T A0 A1 cin ctrl D nd cout m) (s₀, p₀)).1 := ⟨_, rfl⟩
  obtain ⟨p1, hp1⟩ : ∃ p1, p1 = (run (cva n d T A0 A1 cin ctrl D nd cout m) (s₀, p₀)).2 := ⟨_, rfl⟩
  have hrun : run (cva n d T A0 A1 cin ctrl D nd cout m) (s₀, p₀) = (s1, p1) := by rw [hs1, hp1]
  rw [← hs1, ← hp1] at R
  obtain ⟨s2, x1, x2, x3⟩ := run_xAll hs.TT s1 p1
  have hfr : ∀ q, (∀ k < n, q ≠ T k) → q ≠ A0 → q ≠ A1 → (∀ k < nd, q ≠ D k) → cout ≠ some q → s2 q = s₀ q := fun q q1 q2 q3 q4 q5 => by
    rw [x3 q q1, R.hF q q1 q2 q3 q4 q5]
  have hcv : cval ctrl s2 = cval ctrl s₀ := cval_frame fun c hc => hfr c (fun k hk e => hs.cT k hk (by rw [hc, e])) (fun e => hs.cA0 (by rw [hc, e]))
    (fun e => hs.cA1 (by rw [hc, e])) (fun k hk e => hs.cD k hk (by rw [hc, e])) (fun e => hco c e hc)
  have hiv : inval cin s2 = inval cin s₀ := by
    cases hcin : cin with
    | none => rfl
    | some c =>
      exact hfr c (fun k hk e => hcT k hk (by rw [hcin, e])) (fun e => hc0 (by rw [hcin, e])) (fun e => hc1 (by rw [hcin, e]))
        (fun k hk e => hcD k hk (by rw [hcin, e])) (hci c hcin)
  have cs : CSep nd D T cin ctrl := ⟨hs.DD, fun i hi j hj => hs.TD i (by omega) j hj, fun i hi => hs.cT i (by omega), hs.cD, fun i hi => hcT i (by omega), hcD, hcc⟩
  obtain ⟨s3, f1, -, f2, f3⟩ := run_fix (d := d) (by omega) cs
    ((ventmask m (numVents n) &&& ((1 <<< nd) - 1)) ^^^ (parity (ventmask m (numVents n) >>> nd) <<< (nd - 1))) s2 p1 (inval cin s₀) e (fun k => s₀ (T k))
    (fun k _ => by rw [he]; unfold addend; rw [hcv]) hiv (by rw [hcv]; exact hok)
    (fun k hk => by rw [x2 k (by omega), R.hT k (by omega)])
  rw [← hC] at f1 f2
  obtain ⟨s4, y1, y2, y3⟩ := run_xAll hs.TT s3 (p1 ^^ sgn nd (fun k => ((ventmask m (numVents n) &&& ((1 <<< nd) - 1)) ^^^ (parity (ventmask m (numVents n) >>> nd) <<< (nd - 1))).testBit k) fun k => C (k + 1))
  have hp : (p1 ^^ sgn nd (fun k => ((ventmask m (numVents n) &&& ((1 <<< nd) - 1)) ^^^ (parity (ventmask m (numVents n) >>> nd) <<< (nd - 1))).testBit k) fun k => C (k + 1)) = p₀ := by
    have hv : ventmask m (numVents n) >>> nd = 0 := by rw [hnv, Nat.shiftRight_eq_div_pow]; exact Nat.div_eq_of_lt (ventmask_lt m nd)
    rw [R.hp, hv, parity_zero, Nat.zero_shiftLeft, Nat.xor_zero, Nat.one_shiftLeft, Nat.and_two_pow_sub_one_of_lt_two_pow (by rw [hnv]; exact ventmask_lt m nd), hnv]
    rw [sgn_congr (m := fun k => (ventmask m nd).testBit k) (m' := m) (c' := fun k => C (k + 1)) fun k hk => by rw [ventmask_testBit, decide_eq_true hk, Bool.true_and]]
    cases p₀ <;> cases sgn nd m (fun k => C (k + 1)) <;> rfl
  refine ⟨s4, ?_, fun k hk => ?_, fun c hc => ?_, fun q q1 q2 => ?_⟩
  · unfold dirtyAdder
    dsimp only
    rw [run_append, List.append_assoc (_ ++ _), List.append_assoc (_ ++ _), run_append (cva n d T A0 A1 cin ctrl D nd cout m ++ xAll n T), run_append (cva n d T A0 A1 cin ctrl D nd cout m), hrun, x1,
      ← List.append_assoc, f1, y1, hp]
  · rw [y2 k hk, f3 _ fun i hi => hs.TD k hk i hi, x2 k hk, R.hT k hk, Bool.not_not]
  · have q1 : ∀ k < n, c ≠ T k := fun k hk e => ho.oT k hk (by rw [hc, e])
    rw [y3 c q1, f3 c fun i hi e => ho.oD i hi (by rw [hc, e]), x3 c q1, R.hout c hc, if_neg (by omega)]
  · rw [y3 q q1]
    by_cases hD : ∃ k < nd, q = D k
    · obtain ⟨k, hk, rfl⟩ := hD
      rw [f2 k hk, x3 _ q1, R.hD k hk, hnv, decide_eq_true hk]
      cases s₀ (D k) <;> cases C (k + 1) <;> rfl
    · push Not at hD
      rw [f3 q hD]
      by_cases ha : q = A0
      · subst ha; rw [x3 _ q1, R.hA0, h0]
      · by_cases hb : q = A1
        · subst hb; rw [x3 _ q1, R.hA1, h1]
        · exact hfr q q1 ha hb hD q2

/-! ### The split addition -/

theorem run_swapG {a b : Q} (h : a ≠ b) (s : St Q) (p : Bool) : run (swapG a b) (s, p) = (upd (upd s a (s b)) b (s a), p) := by
  unfold swapG
  simp only [run_cons, run_nil, VG.app]
  congr 1
  funext q
  by_cases h1 : q = a
  · subst h1; cases hq : s q <;> cases hb : s b <;> simp [upd, h, hq, hb]
  · by_cases h2 : q = b
    · subst h2; cases hq : s q <;> cases hb : s a <;> simp [upd, h, h.symm, hq, hb]
    · simp [upd, h1, h2]

theorem car_shift (c : Bool) (e x : ℕ → Bool) (h k : ℕ) : car (car c e x h) (fun i => e (h + i)) (fun i => x (h + i)) k = car c e x (h + k) := by
  induction k with
  | zero => rfl
  | succ k ih => rw [car, ih]; rfl

/-- The qubits of the split addition are different. -/
structure SSep (n : ℕ) (T A : ℕ → Q) (cin cout ctrl : Option Q) : Prop where
  TT : ∀ i < n, ∀ j < n, T i = T j → i = j
  TA : ∀ i < n, ∀ j < 3, T i ≠ A j
  AA : ∀ i < 3, ∀ j < 3, A i = A j → i = j
  ctT : ∀ i < n, ctrl ≠ some (T i)
  ctA : ∀ i < 3, ctrl ≠ some (A i)
  ciT : ∀ i < n, cin ≠ some (T i)
  ciA : ∀ i < 3, cin ≠ some (A i)
  coT : ∀ i < n, cout ≠ some (T i)
  coA : ∀ i < 3, cout ≠ some (A i)
  cict : ∀ c, cin = some c → ctrl ≠ some c
  coct : ∀ c, cout = some c → ctrl ≠ some c
  cico : ∀ c, cin = some c → cout ≠ some c


theorem addend_lo {d h : ℕ} {ctrl : Option Q} {s : St Q} (k : ℕ) : addend (d &&& ((1 <<< h) - 1)) ctrl s k = (decide (k < h) && addend d ctrl s k) := by
  unfold addend
  rw [Nat.one_shiftLeft, Nat.and_two_pow_sub_one_eq_mod, Nat.testBit_mod_two_pow, Bool.and_assoc]

theorem addend_hi {d h : ℕ} {ctrl : Option Q} {s : St Q} (k : ℕ) : addend (d >>> h) ctrl s k = addend d ctrl s (h + k) := by
  unfold addend
  rw [Nat.testBit_shiftRight]

/-- The mask of the correction of the lower half. -/
theorem full_sgn {h : ℕ} (h2 : 2 ≤ h) (m : ℕ → Bool) (mc : Bool) (c : ℕ → Bool) :
    sgn h (fun k => ((ventmask m (numVents (h + 1)) &&& ((1 <<< (h - 1)) - 1)) |||
      (((mc.toNat ^^^ parity (ventmask m (numVents (h + 1)) >>> (h - 1))) &&& 1) <<< (h - 1))).testBit k) c =
    (sgn (numVents (h + 1)) m c ^^ (mc && c (h - 1))) := by
  obtain ⟨j, rfl⟩ : ∃ j, h = j + 1 := ⟨h - 1, by omega⟩
  simp only [Nat.add_sub_cancel]
  by_cases hj : j = 1
  · subst hj
    rw [show numVents (1 + 1 + 1) = 2 from rfl]
    simp only [ventmask, sgn, List.range_succ, List.range_zero, List.foldl_append, List.foldl_cons, List.foldl_nil, List.nil_append]
    cases m 0 <;> cases m 1 <;> cases mc <;> cases c 0 <;> cases c 1 <;> rfl
  · have hv : numVents (j + 1 + 1) = j := by unfold numVents; omega
    rw [hv, Nat.shiftRight_eq_div_pow, Nat.div_eq_of_lt (ventmask_lt m j), parity_zero, Nat.xor_zero, Nat.one_shiftLeft,
      Nat.and_two_pow_sub_one_of_lt_two_pow (ventmask_lt m j), sgn_succ]
    congr 1
    · refine sgn_congr fun k hk => ?_
      rw [Nat.testBit_or, ventmask_testBit, decide_eq_true hk, Bool.true_and, Nat.testBit_shiftLeft, show decide (k ≥ j) = false by simp; omega, Bool.false_and, Bool.or_false]
    · rw [Nat.testBit_or, ventmask_testBit, show decide (j < j) = false by simp, Bool.false_and, Nat.testBit_shiftLeft]
      cases mc <;> simp

/-- `gidney_cq_venting_adder` on at least six qubits. -/
theorem run_split {n d : ℕ} {T A : ℕ → Q} {cin cout ctrl : Option Q} (mlo mhi : ℕ → Bool) (mc : Bool) (s₀ : St Q) (p₀ : Bool) (hn : 6 ≤ n) (hs : SSep n T A cin cout ctrl)
    (hA : ∀ i < 3, s₀ (A i) = false) :
    ∃ s' p', run (split n d T A cin cout ctrl mlo mhi mc) (s₀, p₀) = (s', p') ∧ (cin ≠ none ∨ cval ctrl s₀ = true → p' = p₀) ∧
      Add n T (addend d ctrl s₀) (car (inval cin s₀) (addend d ctrl s₀) fun k => s₀ (T k)) cout (n - 2) s₀ s' := by
  obtain ⟨h, hh⟩ : ∃ h, h = (n - 1) >>> 1 := ⟨_, rfl⟩
  have hh2 : h = (n - 1) / 2 := by rw [hh]; exact Nat.shiftRight_eq_div_pow _ 1
  have h2 : 2 ≤ h := by omega
  have hhn : h < n := by omega
  set e := addend d ctrl s₀ with he
  set C := car (inval cin s₀) e fun k => s₀ (T k) with hC
  have ta := fun i hi => hs.TA i hi 0 (by omega)
  have ha01 : A 0 ≠ A 1 := fun e => by have := hs.AA 0 (by omega) 1 (by omega) e; omega
  have ha02 : A 0 ≠ A 2 := fun e => by have := hs.AA 0 (by omega) 2 (by omega) e; omega
  have ha12 : A 1 ≠ A 2 := fun e => by have := hs.AA 1 (by omega) 2 (by omega) e; omega
  -- first swap
  obtain ⟨s1, hs1⟩ : ∃ s1, s1 = upd (upd s₀ (A 0) (s₀ (T h))) (T h) (s₀ (A 0)) := ⟨_, rfl⟩
  have r1 : run (swapG (A 0) (T h)) (s₀, p₀) = (s1, p₀) := by rw [hs1]; exact run_swapG (ta h hhn).symm _ _
  have f1 : ∀ q, q ≠ A 0 → q ≠ T h → s1 q = s₀ q := fun q q1 q2 => by rw [hs1, upd_ne' q2, upd_ne' q1]
  have t1 : s1 (T h) = false := by rw [hs1, upd_same', hA 0 (by omega)]
  have a1 : s1 (A 0) = s₀ (T h) := by rw [hs1, upd_ne' (ta h hhn).symm, upd_same']
  have cv1 : cval ctrl s1 = cval ctrl s₀ := cval_frame fun c hc => f1 c (fun e => hs.ctA 0 (by omega) (by rw [hc, e])) (fun e => hs.ctT h hhn (by rw [hc, e]))
  have iv1 : inval cin s1 = inval cin s₀ := by
    cases hcin : cin with
    | none => rfl
    | some c => exact f1 c (fun e => hs.ciA 0 (by omega) (by rw [hcin, e])) (fun e => hs.ciT h hhn (by rw [hcin, e]))
  -- lower half
  have S2 : Sep (h + 1) T (A 1) (A 2) ctrl T 0 := ⟨fun i hi j hj => hs.TT i (by omega) j (by omega), fun i hi => hs.TA i (by omega) 1 (by omega), fun i hi => hs.TA i (by omega) 2 (by omega),
    ha12, fun i hi => absurd hi (Nat.not_lt_zero _), fun i hi => absurd hi (Nat.not_lt_zero _), fun i hi => absurd hi (Nat.not_lt_zero _), fun i _ j hj => absurd hj (Nat.not_lt_zero _),
    hs.ctA 1 (by omega), hs.ctA 2 (by omega), fun i hi => hs.ctT i (by omega), fun i hi => absurd hi (Nat.not_lt_zero _)⟩
  have O2 : OutSep (h + 1) T (A 1) (A 2) T 0 none := ⟨fun _ _ => by simp, by simp, by simp, fun _ _ => by simp⟩
  have R2 := res_cva (d := d &&& ((1 <<< h) - 1)) mlo s1 p₀ (by omega : 3 ≤ h + 1) S2 O2 (cin := cin) (fun o ho => by simp at ho)
    (by rw [f1 _ ha01.symm (hs.TA h hhn 1 (by omega)).symm, hA 1 (by omega)]) (by rw [f1 _ ha02.symm (hs.TA h hhn 2 (by omega)).symm, hA 2 (by omega)])
    (hs.ciA 2 (by omega)) (fun i hi => hs.ciT i (by omega)) hs.cict
  obtain ⟨s2, hs2⟩ : ∃ s2, s2 = (run (cva (h + 1) (d &&& ((1 <<< h) - 1)) T (A 1) (A 2) cin ctrl T 0 none mlo) (s1, p₀)).1 := ⟨_, rfl⟩
  obtain ⟨p2, hp2⟩ : ∃ p2, p2 = (run (cva (h + 1) (d &&& ((1 <<< h) - 1)) T (A 1) (A 2) cin ctrl T 0 none mlo) (s1, p₀)).2 := ⟨_, rfl⟩
  have r2 : run (cva (h + 1) (d &&& ((1 <<< h) - 1)) T (A 1) (A 2) cin ctrl T 0 none mlo) (s1, p₀) = (s2, p2) := by rw [hs2, hp2]
  rw [← hs2, ← hp2, iv1] at R2
  have hCl : ∀ k ≤ h, car (inval cin s₀) (addend (d &&& ((1 <<< h) - 1)) ctrl s1) (fun k => s1 (T k)) k = C k := fun k hk =>
    car_congr (n := h) (fun i hi => by rw [addend_lo, decide_eq_true hi, Bool.true_and, addend_eq cv1])
      (fun i hi => f1 _ (ta i (by omega)) (fun e => by have := hs.TT i (by omega) h hhn e; omega)) hk
  have t2 : ∀ k < h, s2 (T k) = (s₀ (T k) ^^ e k ^^ C k) := fun k hk => by
    rw [R2.hT k (by omega), hCl k (by omega), addend_lo, decide_eq_true hk, Bool.true_and, addend_eq cv1,
      f1 _ (ta k (by omega)) (fun e => by have := hs.TT k (by omega) h hhn e; omega)]
  have t2h : s2 (T h) = C h := by
    rw [R2.hT h (by omega), hCl h le_rfl, addend_lo, show decide (h < h) = false by simp, Bool.false_and, t1]; simp
  have f2 : ∀ q, (∀ k < h + 1, q ≠ T k) → q ≠ A 1 → q ≠ A 2 → s2 q = s1 q := fun q q1 q2 q3 =>
    R2.hF q q1 q2 q3 (fun k hk => absurd hk (Nat.not_lt_zero _)) (by simp)
  have a2 : s2 (A 0) = s₀ (T h) := by rw [f2 _ (fun k hk => (ta k (by omega)).symm) ha01 ha02, a1]
  -- second swap
  obtain ⟨s3, hs3⟩ : ∃ s3, s3 = upd (upd s2 (A 0) (s2 (T h))) (T h) (s2 (A 0)) := ⟨_, rfl⟩
  have r3 : run (swapG (A 0) (T h)) (s2, p2) = (s3, p2) := by rw [hs3]; exact run_swapG (ta h hhn).symm _ _
  have t3 : ∀ k < h, s3 (T k) = (s₀ (T k) ^^ e k ^^ C k) := fun k hk => by
    rw [hs3, upd_ne' (fun e => by have := hs.TT k (by omega) h hhn e; omega), upd_ne' (ta k (by omega)), t2 k hk]
  have u3 : ∀ k < n - h, s3 (T (h + k)) = s₀ (T (h + k)) := fun k hk => by
    by_cases hk0 : k = 0
    · subst hk0; rw [hs3, add_zero, upd_same', a2]
    · have hne : T (h + k) ≠ T h := fun e => by have := hs.TT (h + k) (by omega) h hhn e; omega
      rw [hs3, upd_ne' hne, upd_ne' (ta _ (by omega)), f2 _ (fun j hj e => by have := hs.TT (h + k) (by omega) j (by omega) e; omega) (hs.TA _ (by omega) 1 (by omega))
        (hs.TA _ (by omega) 2 (by omega)), f1 _ (ta _ (by omega)) hne]
  have a3 : s3 (A 0) = C h := by rw [hs3, upd_ne' (ta h hhn).symm, upd_same', t2h]
  have a31 : s3 (A 1) = false := by rw [hs3, upd_ne' (hs.TA h hhn 1 (by omega)).symm, upd_ne' ha01.symm, R2.hA0]
  have a32 : s3 (A 2) = false := by rw [hs3, upd_ne' (hs.TA h hhn 2 (by omega)).symm, upd_ne' ha02.symm, R2.hA1]
  have f3 : ∀ q, (∀ k < n, q ≠ T k) → (∀ i < 3, q ≠ A i) → s3 q = s₀ q := fun q q1 q2 => by
    rw [hs3, upd_ne' (q1 h hhn), upd_ne' (q2 0 (by omega)), f2 q (fun k hk => q1 k (by omega)) (q2 1 (by omega)) (q2 2 (by omega)), f1 q (q2 0 (by omega)) (q1 h hhn)]
  have cv3 : cval ctrl s3 = cval ctrl s₀ := cval_frame fun c hc => f3 c (fun k hk e => hs.ctT k hk (by rw [hc, e])) (fun i hi e => hs.ctA i hi (by rw [hc, e]))
  -- upper half
  have hnd : max 1 (n - h - 2) = (n - h) - 2 := by omega
  have S4 : Sep (n - h) (fun k => T (h + k)) (A 1) (A 2) ctrl T (max 1 (n - h - 2)) := ⟨fun i hi j hj e => by have := hs.TT (h + i) (by omega) (h + j) (by omega) e; omega,
    fun i hi => hs.TA _ (by omega) 1 (by omega), fun i hi => hs.TA _ (by omega) 2 (by omega), ha12, fun i hi j hj => hs.TT i (by omega) j (by omega),
    fun i hi => hs.TA i (by omega) 1 (by omega), fun i hi => hs.TA i (by omega) 2 (by omega), fun i hi j hj e => by have := hs.TT (h + i) (by omega) j (by omega) e; omega,
    hs.ctA 1 (by omega), hs.ctA 2 (by omega), fun i hi => hs.ctT _ (by omega), fun i hi => hs.ctT i (by omega)⟩
  have O4 : OutSep (n - h) (fun k => T (h + k)) (A 1) (A 2) T (max 1 (n - h - 2)) cout := ⟨fun i hi => hs.coT _ (by omega), hs.coA 1 (by omega), hs.coA 2 (by omega), fun i hi => hs.coT i (by omega)⟩
  obtain ⟨s4, r4, A4⟩ := run_dirtyAdder (d := d >>> h) (cin := some (A 0)) mhi s3 p2 (by omega) hnd S4 O4 hs.coct a31 a32 (fun e => ha01 (by injection e)) (fun e => ha02 (by injection e))
    (fun i hi e => ta (h + i) (by omega) (by injection e with e; exact e.symm)) (fun i hi e => ta i (by omega) (by injection e with e; exact e.symm))
    (fun c hc => by injection hc with hc; rw [← hc]; exact hs.ctA 0 (by omega)) (fun c hc => by injection hc with hc; rw [← hc]; exact hs.coA 0 (by omega)) (Or.inl (by simp))
  have hCh : ∀ k ≤ n - h, car (inval (some (A 0)) s3) (addend (d >>> h) ctrl s3) (fun k => s3 (T (h + k))) k = C (h + k) := fun k hk => by
    rw [hC, ← car_shift, show inval (some (A 0)) s3 = C h from a3]
    exact car_congr (n := n - h) (fun i hi => by rw [addend_hi, addend_eq cv3]) (fun i hi => u3 i hi) hk
  have t4 : ∀ k < n - h, s4 (T (h + k)) = (s₀ (T (h + k)) ^^ e (h + k) ^^ C (h + k)) := fun k hk => by
    rw [A4.hT k hk, u3 k hk, addend_hi, addend_eq cv3, hCh k (by omega)]
  have hlo : ∀ k < h, ∀ j < n - h, T k ≠ T (h + j) := fun k hk j hj e => by have := hs.TT k (by omega) (h + j) (by omega) e; omega
  have l4 : ∀ k < h, s4 (T k) = (s₀ (T k) ^^ e k ^^ C k) := fun k hk => by rw [A4.hF _ (hlo k hk) (hs.coT k (by omega)), t3 k hk]
  have a4 : ∀ i < 3, s4 (A i) = s3 (A i) := fun i hi => A4.hF _ (fun k hk => (hs.TA _ (by omega) i hi).symm) (hs.coA i hi)
  -- last vent
  obtain ⟨s5, hs5⟩ : ∃ s5, s5 = upd s4 (A 0) false := ⟨_, rfl⟩
  have r5 : run [.vent mc (A 0)] (s4, p2) = (s5, p2 ^^ (mc && C h)) := by rw [run_vent1, hs5, a4 0 (by omega), a3]
  have f5 : ∀ q, q ≠ A 0 → s5 q = s4 q := fun q hq => by rw [hs5, upd_ne' hq]
  -- correction of the lower half
  obtain ⟨s6, r6, x6, f6⟩ := run_xAll (n := h) (T := T) (fun i hi j hj => hs.TT i (by omega) j (by omega)) s5 (p2 ^^ (mc && C h))
  have f6' : ∀ q, (∀ k < n, q ≠ T k) → (∀ i < 3, q ≠ A i) → cout ≠ some q → s6 q = s₀ q := fun q q1 q2 q3 => by
    rw [f6 q fun k hk => q1 k (by omega), f5 q (q2 0 (by omega)), A4.hF q (fun k hk => q1 _ (by omega)) q3, f3 q q1 q2]
  have cv6 : cval ctrl s6 = cval ctrl s₀ := cval_frame fun c hc => f6' c (fun k hk e => hs.ctT k hk (by rw [hc, e])) (fun i hi e => hs.ctA i hi (by rw [hc, e])) (fun e => hs.coct c e hc)
  have iv6 : inval cin s6 = inval cin s₀ := by
    cases hcin : cin with
    | none => rfl
    | some c => exact f6' c (fun k hk e => hs.ciT k hk (by rw [hcin, e])) (fun i hi e => hs.ciA i hi (by rw [hcin, e])) (hs.cico c hcin)
  have cs : CSep h (fun k => T (h + k)) T cin ctrl := ⟨fun i hi j hj e => by have := hs.TT (h + i) (by omega) (h + j) (by omega) e; omega, fun i hi j hj => hlo i hi j (by omega),
    fun i hi => hs.ctT i (by omega), fun i hi => hs.ctT _ (by omega), fun i hi => hs.ciT i (by omega), fun i hi => hs.ciT _ (by omega), hs.cict⟩
  have e6 : ∀ k < h, addend (d &&& ((1 <<< h) - 1)) ctrl s6 k = e k := fun k hk => by rw [addend_lo, decide_eq_true hk, Bool.true_and, addend_eq cv6]
  have x6' : ∀ k < h, s6 (T k) = !(s₀ (T k) ^^ e k ^^ C k) := fun k hk => by rw [x6 k hk, f5 _ (ta k (by omega)), l4 k hk]
  obtain ⟨v, hv⟩ : ∃ v, v = ((ventmask mlo (numVents (h + 1)) &&& ((1 <<< (h - 1)) - 1)) |||
      (((mc.toNat ^^^ parity (ventmask mlo (numVents (h + 1)) >>> (h - 1))) &&& 1) <<< (h - 1))) := ⟨_, rfl⟩
  obtain ⟨p8, r8⟩ := run_fix2 (d := d &&& ((1 <<< h) - 1)) (by omega) cs v s6 (p2 ^^ (mc && C h))
  have hp8 : cin ≠ none ∨ cval ctrl s₀ = true → p8 = p₀ := fun hok => by
    obtain ⟨s7, r7, -, -, -⟩ := run_fix (d := d &&& ((1 <<< h) - 1)) (by omega) cs v s6 (p2 ^^ (mc && C h)) (inval cin s₀) e (fun k => s₀ (T k)) e6 iv6 (by rw [cv6]; exact hok) x6'
    rw [hv, full_sgn h2, ← hC] at r7
    have hp7 : (p2 ^^ (mc && C h) ^^ (sgn (numVents (h + 1)) mlo (fun k => C (k + 1)) ^^ (mc && C (h - 1 + 1)))) = p₀ := by
      have hle : numVents (h + 1) ≤ h := by unfold numVents; omega
      rw [R2.hp, sgn_congr (m' := mlo) (c' := fun k => C (k + 1)) fun k hk => by rw [hCl (k + 1) (by omega)], show h - 1 + 1 = h by omega]
      cases p₀ <;> cases sgn (numVents (h + 1)) mlo (fun k => C (k + 1)) <;> cases (mc && C h) <;> rfl
    rw [hp7, ← hv] at r7
    rw [run_append, r7] at r8
    obtain ⟨s8, q1, -, -⟩ := run_cxb (d := d &&& ((1 <<< h) - 1)) (by omega) cs s7 p₀
    rw [q1] at r8
    exact ((Prod.ext_iff.mp r8).2).symm
  obtain ⟨s9, r9, x9, f9⟩ := run_xAll (n := h) (T := T) (fun i hi j hj => hs.TT i (by omega) j (by omega)) s6 p8
  have up : ∀ q, (∀ k < h, q ≠ T k) → s9 q = s5 q := fun q hq => by rw [f9 q hq, f6 q hq]
  refine ⟨s9, p8, ?_, hp8, fun k hk => ?_, fun c hc => ?_, fun q q1 q2 => ?_⟩
  · unfold split
    rw [← hh]
    dsimp only
    rw [← hv]
    rw [run_append, run_append, run_append] at r8
    rw [run_append, run_append, run_append _ (zMask h _ _), run_append _ (cxb h _ _ _ _ _), run_append _ (zMask h _ _), run_append, run_append, run_append, run_append, run_append, r1, r2, r3, r4, r5, r6,
      r8, r9]
  · by_cases hkh : k < h
    · rw [x9 k hkh, x6' k hkh, Bool.not_not]
    · rw [up _ fun j hj e => by have := hs.TT k hk j (by omega) e; omega, f5 _ (ta k hk), show k = h + (k - h) by omega, t4 (k - h) (by omega)]
  · have q1 : ∀ k < n, c ≠ T k := fun k hk e => hs.coT k hk (by rw [hc, e])
    have q2 : ∀ i < 3, c ≠ A i := fun i hi e => hs.coA i hi (by rw [hc, e])
    rw [up c fun k hk => q1 k (by omega), f5 c (q2 0 (by omega)), A4.hout c hc, f3 c q1 q2, hCh _ (by omega), show h + (n - h - 2) = n - 2 by omega]
  · rw [up q fun k hk => q1 k (by omega)]
    by_cases h0 : q = A 0
    · subst h0; rw [hs5, upd_same', hA 0 (by omega)]
    · rw [f5 q h0, A4.hF q (fun k hk => q1 _ (by omega)) q2]
      by_cases h1 : q = A 1
      · subst h1; rw [a31, hA 1 (by omega)]
      · by_cases h2 : q = A 2
        · subst h2; rw [a32, hA 2 (by omega)]
        · exact f3 q q1 fun i hi => by interval_cases i <;> assumption

end Verif.Vent
