import Verif.Rev.QclaCarry

/-! # The computed carries are the carries of the sum -/

namespace Verif.Rev.Qcla

open Verif.Rev

/-- The number with the binary digits `f 0, …, f (n - 1)`. -/
def nv (f : Nat → Bool) : Nat → Nat
  | 0 => 0
  | n + 1 => nv f n + 2 ^ n * (f n).toNat

theorem nv_lt (f : Nat → Bool) (n : Nat) : nv f n < 2 ^ n := by
  induction n with
  | zero => simp [nv]
  | succ n ih => rw [nv, pow_succ]; cases f n <;> simp <;> omega

theorem nv_congr {f g : Nat → Bool} {n : Nat} (h : ∀ i < n, f i = g i) : nv f n = nv g n := by
  induction n with
  | zero => rfl
  | succ n ih => rw [nv, nv, ih fun i hi => h i (by omega), h n (by omega)]

theorem nv_zero {f : Nat → Bool} {n : Nat} (h : ∀ i < n, f i = false) : nv f n = 0 := by
  induction n with
  | zero => rfl
  | succ n ih => rw [nv, ih fun i hi => h i (by omega), h n (by omega)]; simp

theorem nv_add (f : Nat → Bool) (m n : Nat) : nv f (m + n) = nv f m + 2 ^ m * nv (fun i => f (m + i)) n := by
  induction n with
  | zero => simp [nv]
  | succ n ih => rw [← Nat.add_assoc, nv, ih, nv, pow_add]; ring

theorem bv_nv (f : Nat → Bool) (n : Nat) : bv ((List.range n).map f) = nv f n := by
  induction n with
  | zero => rfl
  | succ n ih => rw [List.range_succ, List.map_append, List.map_singleton, bv_append, ih, nv]; simp

theorem regVal_nv {Q : Type} [DecidableEq Q] (w : Nat → Q) (s : St Q) (n : Nat) :
    regVal ((List.range n).map w) s = nv (fun i => s (w i)) n := by
  rw [regVal_eq_bv, List.map_map, ← bv_nv]; rfl

theorem nv_inj {f g : Nat → Bool} {n : Nat} (h : nv f n = nv g n) : ∀ i < n, f i = g i := by
  induction n with
  | zero => intro i hi; omega
  | succ n ih =>
    rw [nv, nv] at h
    have h1 := nv_lt f n
    have h2 := nv_lt g n
    have h3 : f n = g n := by
      cases hf : f n <;> cases hg : g n <;> simp [hf, hg] at h ⊢ <;> omega
    rw [h3] at h
    intro i hi
    rcases Nat.lt_succ_iff_lt_or_eq.1 hi with h4 | rfl
    · exact ih (by omega) i h4
    · exact h3

variable {Q : Type} [DecidableEq Q]

/-- Propagate and generate values of two numbers give the carries of their sum. -/
theorem car_val {P G : Nat → Q} {s : St Q} {x y : Nat → Bool} {i : Nat} (hP : ∀ j ≤ i, s (P j) = (x j ^^ y j))
    (hG : ∀ j ≤ i, s (G j) = (x j && y j)) : car P G s 0 i = decide (2 ^ (i + 1) ≤ nv x (i + 1) + nv y (i + 1)) := by
  induction i with
  | zero => rw [car, hG 0 le_rfl]; cases hx : x 0 <;> cases hy : y 0 <;> simp [nv, hx, hy]
  | succ i ih =>
    rw [car, ih (fun j hj => hP j (by omega)) fun j hj => hG j (by omega), Nat.zero_add, hP _ le_rfl, hG _ le_rfl]
    have ex : nv x (i + 1 + 1) = nv x (i + 1) + 2 ^ (i + 1) * (x (i + 1)).toNat := rfl
    have ey : nv y (i + 1 + 1) = nv y (i + 1) + 2 ^ (i + 1) * (y (i + 1)).toNat := rfl
    have e2 : 2 ^ (i + 1 + 1) = 2 * 2 ^ (i + 1) := by rw [pow_succ]; ring
    have h1 := nv_lt x (i + 1)
    have h2 := nv_lt y (i + 1)
    rw [ex, ey, e2]
    generalize nv x (i + 1) = X at *
    generalize nv y (i + 1) = Y at *
    generalize 2 ^ (i + 1) = N at *
    by_cases hc : N ≤ X + Y <;> cases x (i + 1) <;> cases y (i + 1) <;> simp [hc] <;> omega

/-- Without generate values there are no carries. -/
theorem car_zero {P G : Nat → Q} {s : St Q} {i : Nat} (hG : ∀ j ≤ i, s (G j) = false) : car P G s 0 i = false := by
  induction i with
  | zero => exact hG 0 le_rfl
  | succ i ih => rw [car, ih fun j hj => hG j (by omega), Nat.zero_add, hG _ le_rfl]; simp

/-- `anc_gate` is a multi-controlled X gate. -/
theorem ancBody_eq {x y t : Q} (h1 : x ≠ y) (h2 : x ≠ t) (h3 : y ≠ t) (s : St Q) :
    run (ancBody x y t) s = run [ancGate x y t] s ∧ (s t = false → ok (ancBody x y t) s) := by
  constructor
  · funext q
    by_cases hq : q = t
    · subst hq
      simp [ancBody, ancGate, Gate.app, fire, upd_apply, h1, h2, h3, h2.symm, h3.symm, h1.symm]
      cases s x <;> cases s y <;> rfl
    · by_cases hy : q = y
      · subst hy
        simp [ancBody, ancGate, Gate.app, fire, upd_apply, h1, h2, h3, hq]
      · simp [ancBody, ancGate, Gate.app, fire, upd_apply, hq, hy]
  · intro h
    simp [ancBody, Gate.ok, Gate.app, upd_apply, h3.symm, h]

/-- The state after `qqInit`. -/
def qqInitSt (m : Nat) (s : St W) : St W
  | .b i => if i < m then s (.a i) ^^ s (.b i) else s (.b i)
  | .g i => if i < m then s (.g i) ^^ (s (.a i) && s (.b i)) else s (.g i)
  | q => s q

theorem run_qqInit (m : Nat) (s : St W) : run (qqInit m) s = qqInitSt m s := by
  induction m with
  | zero => funext q; cases q <;> simp [qqInit, qqInitSt]
  | succ m ih =>
    have e : qqInit (m + 1) = qqInit m ++ [cx (.a m) (.b m), ancGate (.a m) (.b m) (.g m)] := by
      rw [qqInit, List.range_succ, List.flatMap_append]; simp [qqInit]
    rw [e, run_append, ih]
    funext q
    cases q with
    | b i =>
      by_cases hi : i = m
      · subst hi; simp [Gate.app, ancGate, fire, upd_apply, qqInitSt]; cases s (.b i) <;> cases s (.a i) <;> rfl
      · have : i < m + 1 ↔ i < m := by omega
        simp [Gate.app, ancGate, fire, upd_apply, qqInitSt, hi, this]
    | g i =>
      by_cases hi : i = m
      · subst hi; simp [Gate.app, ancGate, fire, upd_apply, qqInitSt]; cases s (.b i) <;> cases s (.a i) <;> simp
      · have : i < m + 1 ↔ i < m := by omega
        simp [Gate.app, ancGate, fire, upd_apply, qqInitSt, hi, this]
    | _ => simp [Gate.app, ancGate, upd_apply, qqInitSt]

theorem mem_qqInit {m : Nat} {g : Gate W} (h : g ∈ qqInit m) :
    ∃ i < m, g = cx (.a i) (.b i) ∨ g = ancGate (.a i) (.b i) (.g i) := by
  obtain ⟨i, hi, h⟩ := List.mem_flatMap.1 h
  refine ⟨i, List.mem_range.1 hi, ?_⟩
  simpa using h

theorem unc_qqInit (R m : Nat) : Unc (garbage R) (qqInit m) := by
  induction m with
  | zero => trivial
  | succ m ih =>
    have e : qqInit (m + 1) = qqInit m ++ [cx (.a m) (.b m), ancGate (.a m) (.b m) (.g m)] := by
      rw [qqInit, List.range_succ, List.flatMap_append]; simp [qqInit]
    rw [e]
    refine Unc_append _ _ ih ⟨fun h => ?_, fun _ => ⟨_, _, rfl, ?_⟩, trivial⟩ ?_
    · simp [Gate.tgt, garbage] at h
    · simp
    · intro g hg hd cs t hgt c hc
      obtain ⟨i, hi, rfl | rfl⟩ := mem_qqInit hg
      · simp [Gate.tgt, garbage] at hd
      · right
        injection hgt with h1 h2
        subst h1
        have hne : m ≠ i := by omega
        simp only [List.mem_cons, List.not_mem_nil, or_false] at hc
        rcases hc with rfl | rfl <;> simp [Gate.tgt, ancGate, hne]

/-- The result of a carry computation: the carries of every `R`-th position; everything else is as before. -/
structure CarryRes (C R : Nat) (x : Nat → Bool) (s s' : St W) : Prop where
  c : ∀ j < C, s' (cw R j) = decide (2 ^ ((j + 1) * R) ≤ nv x ((j + 1) * R) + nv (fun i => s (.b i)) ((j + 1) * R))
  rest : ∀ q, (∀ j < C, q ≠ cw R j) → s' q = s q

/-- The bits of the quantum addend, padded with zeros. -/
def abits (na : Nat) (s : St W) (i : Nat) : Bool := decide (i < na) && s (.a i)

theorem run_qqRestore (m : Nat) (s : St W) : run (qqRestore m) s = fun q => match q with
    | .b i => if i < m then s (.a i) ^^ s (.b i) else s (.b i)
    | q => s q := by
  induction m with
  | zero => funext q; cases q <;> simp [qqRestore]
  | succ m ih =>
    have e : qqRestore (m + 1) = qqRestore m ++ [cx (.a m) (.b m)] := by
      rw [qqRestore, List.range_succ, List.map_append]; simp [qqRestore]
    rw [e, run_append, ih]
    funext q
    cases q with
    | b i =>
      by_cases hi : i = m
      · subst hi; simp [Gate.app, fire, upd_apply]; cases s (.b i) <;> cases s (.a i) <;> rfl
      · have : i < m + 1 ↔ i < m := by omega
        simp [Gate.app, fire, upd_apply, hi, this]
    | _ => simp [Gate.app, upd_apply]

theorem cw_idx {C R j : Nat} (hR : 0 < R) (hj : j < C) : (j + 1) * R - 1 < C * R ∧ ((j + 1) * R - 1 + 1) % R = 0 := by
  have h1 : (j + 1) * R ≤ C * R := Nat.mul_le_mul_right R (by omega)
  have h2 : 0 < (j + 1) * R := Nat.mul_pos (by omega) hR
  refine ⟨by omega, ?_⟩
  rw [Nat.sub_add_cancel (by omega)]
  exact Nat.mul_mod_left _ _

theorem cw_of {C R i : Nat} (hR : 0 < R) (hi : i < C * R) (h : (i + 1) % R = 0) : ∃ j < C, i = (j + 1) * R - 1 := by
  obtain ⟨c, hc⟩ := Nat.dvd_of_mod_eq_zero h
  have h0 : 0 < c := Nat.pos_of_ne_zero fun h => by subst h; omega
  refine ⟨c - 1, ?_, ?_⟩
  · have h1 : c * R ≤ C * R := by rw [Nat.mul_comm c]; omega
    have := Nat.le_of_mul_le_mul_right h1 hR
    omega
  · rw [Nat.sub_add_cancel (by omega), Nat.mul_comm]; omega

theorem qqCarry_spec (na nb r e : Nat) (hr : 2 ≤ r) (hab : na ≤ nb) (s : St W) (hz : ∀ q, local_ q = true → s q = false) :
    ∃ k, qqCarry na nb r e = some k ∧ CarryRes (nc nb (r ^ e)) (r ^ e) (abits na s) s (run k s) := by
  set R := r ^ e with hR
  have hR0 : 0 < R := Nat.pow_pos (by omega)
  set C := nc nb R with hC
  set m := min (C * R) (min na nb) with hm
  refine ⟨_, by rw [qqCarry, if_neg (by omega)], ?_⟩
  rw [← hR, ← hC, ← hm, run_append]
  obtain ⟨t1, t2, t3⟩ := run_treeAndBack r e (C * R) hr (qqInit m) s (unc_qqInit _ _)
    (fun g hg hd cs t hgt c hc => by
      obtain ⟨i, hi, rfl | rfl⟩ := mem_qqInit hg
      · simp [Gate.tgt, garbage] at hd
      · injection hgt with h1 h2
        subst h1
        simp only [List.mem_cons, List.not_mem_nil, or_false] at hc
        rcases hc with rfl | rfl <;> simp [Tgt])
    (fun g hg l i => by obtain ⟨i, hi, rfl | rfl⟩ := mem_qqInit hg <;> simp [Gate.tgt, ancGate])
    hz
  set t := run (treeAndBack r e (C * R) (qqInit m)) s with ht
  rw [run_qqInit] at t1 t3
  rw [← hR] at t1 t2 t3
  have gz : ∀ i, s (.g i) = false := fun i => hz _ rfl
  have hbits : ∀ i < C * R, qqInitSt m s (.b i) = (abits na s i ^^ s (.b i)) ∧ qqInitSt m s (.g i) = (abits na s i && s (.b i)) := by
    intro i hi
    by_cases him : i < m
    · have : i < na := by omega
      simp [qqInitSt, him, abits, this, gz]
    · by_cases hia : i < na
      · exfalso; omega
      · simp [qqInitSt, him, abits, hia, gz]
  have ha : ∀ i, t (.a i) = s (.a i) := fun i => by
    rw [t3 _ rfl (by simp)]; rfl
  rw [run_qqRestore]
  constructor
  · intro j hj
    obtain ⟨h1, h2⟩ := cw_idx hR0 hj
    have h3 : 0 < (j + 1) * R := Nat.mul_pos (by omega) hR0
    simp only [cw]
    rw [t1 _ h1 h2, car_val (x := abits na s) (y := fun i => s (.b i)) (fun i hi => (hbits i (by omega)).1)
      (fun i hi => (hbits i (by omega)).2), Nat.sub_add_cancel (by omega)]
  · intro q hq
    cases q with
    | b i =>
      simp only [ha, t3 (.b i) rfl (by simp)]
      by_cases him : i < m
      · simp [qqInitSt, him]
      · simp [qqInitSt, him]
    | g i =>
      by_cases hg : garbage R (.g i) = true
      · exact t2 _ hg
      · rw [Bool.not_eq_true] at hg
        have hmod : (i + 1) % R = 0 := by simpa [garbage] using hg
        have hi : ¬i < C * R := fun hi => by
          obtain ⟨j, hj, h⟩ := cw_of hR0 hi hmod
          exact hq j hj (by rw [cw, ← h])
        simp only []
        rw [t3 _ hg (fun i' hi' h => by injection h with h; omega)]
        simp [qqInitSt]; intro h; omega
    | p l i => exact t2 _ rfl
    | par i => exact t2 _ rfl
    | a i => exact ha i
    | _ => simp only []; rw [t3 _ rfl (by simp)]; rfl

end Verif.Rev.Qcla
