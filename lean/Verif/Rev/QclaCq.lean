import Verif.Rev.QclaVal

/-! # The carry computation for a classical addend -/

namespace Verif.Rev.Qcla

open Verif.Rev

/-- The number of ones below `m`. -/
def ones (x : Nat → Bool) (m : Nat) : Nat := ((List.range m).filter x).length

theorem ones_succ (x : Nat → Bool) (m : Nat) : ones x (m + 1) = ones x m + (x m).toNat := by
  rw [ones, ones, List.range_succ, List.filter_append, List.length_append]
  cases h : x m <;> simp [h]

/-- Value of the control. -/
def onBit (ctrl : Bool) (s : St W) : Bool := !ctrl || s .ctl

/-- The gates of one pass of `cqInit`. -/
def cqGates (ctrl : Bool) (x : Nat → Bool) (i : Nat) : List (Gate W) :=
  if x i then
    [gx (.b i)] ++
      (if !ctrl then [.mcx [(.b i, false)] (.g i)]
      else match ones x i with
        | 0 => [.mcx [(.ctl, true), (.b i, false)] (.g i)]
        | k + 1 => [cx .ctl (.par k), .mcx [(.par k, true), (.b i, false)] (.g i)])
    else []

theorem cqInit_succ (ctrl : Bool) (x : Nat → Bool) (m : Nat) : cqInit ctrl x (m + 1) = cqInit ctrl x m ++ cqGates ctrl x m := by
  rw [cqInit, List.range_succ, List.flatMap_append, List.flatMap_singleton]; rfl

/-- The state after `cqInit`. -/
def cqInitSt (ctrl : Bool) (x : Nat → Bool) (m : Nat) (s : St W) : St W
  | .b i => if i < m ∧ x i then !s (.b i) else s (.b i)
  | .g i => if i < m ∧ x i then s (.g i) ^^ (onBit ctrl s && s (.b i)) else s (.g i)
  | .par k => if ctrl ∧ k + 1 < ones x m then s .ctl else s (.par k)
  | q => s q

theorem run_cqInit (ctrl : Bool) (x : Nat → Bool) (m : Nat) (s : St W) (hz : ∀ k, s (.par k) = false) :
    run (cqInit ctrl x m) s = cqInitSt ctrl x m s := by
  induction m with
  | zero => funext q; cases q <;> simp [cqInit, cqInitSt, ones]
  | succ m ih =>
    rw [cqInit_succ, run_append, ih]
    have hlt : ∀ i, i ≠ m → (i < m + 1 ↔ i < m) := fun i hi => by omega
    cases hx : x m with
    | false =>
      rw [cqGates, if_neg (by simp [hx])]
      funext q
      cases q with
      | b i =>
        by_cases hi : i = m
        · subst hi; simp [cqInitSt, hx]
        · simp [cqInitSt, hlt i hi]
      | g i =>
        by_cases hi : i = m
        · subst hi; simp [cqInitSt, hx]
        · simp [cqInitSt, hlt i hi]
      | par k => simp [cqInitSt, ones_succ, hx]
      | _ => simp [cqInitSt]
    | true =>
      rw [cqGates, if_pos hx]
      cases ctrl with
      | false =>
        funext q
        cases q with
        | b i =>
          by_cases hi : i = m
          · subst hi; simp [cqInitSt, hx, Gate.app, fire, upd_apply]
          · simp [cqInitSt, hlt i hi, Gate.app, fire, upd_apply, hi]
        | g i =>
          by_cases hi : i = m
          · subst hi; simp [cqInitSt, hx, Gate.app, fire, upd_apply, onBit]
          · simp [cqInitSt, hlt i hi, Gate.app, fire, upd_apply, hi]
        | _ => simp [cqInitSt, Gate.app, upd_apply]
      | true =>
        simp only [Bool.not_true, Bool.false_eq_true, if_false]
        cases hk : ones x m with
        | zero =>
          funext q
          cases q with
          | b i =>
            by_cases hi : i = m
            · subst hi; simp [cqInitSt, hx, Gate.app, fire, upd_apply]
            · simp [cqInitSt, hlt i hi, Gate.app, fire, upd_apply, hi]
          | g i =>
            by_cases hi : i = m
            · subst hi; simp [cqInitSt, hx, Gate.app, fire, upd_apply, onBit]
            · simp [cqInitSt, hlt i hi, Gate.app, fire, upd_apply, hi]
          | par k => simp [cqInitSt, Gate.app, upd_apply, ones_succ, hx, hk]
          | _ => simp [cqInitSt, Gate.app, upd_apply]
        | succ k =>
          funext q
          cases q with
          | b i =>
            by_cases hi : i = m
            · subst hi; simp [cqInitSt, hx, Gate.app, fire, upd_apply]
            · simp [cqInitSt, hlt i hi, Gate.app, fire, upd_apply, hi]
          | g i =>
            by_cases hi : i = m
            · subst hi; simp [cqInitSt, hx, Gate.app, fire, upd_apply, onBit, hk, hz]
            · simp [cqInitSt, hlt i hi, Gate.app, fire, upd_apply, hi]
          | par j =>
            by_cases hj : j = k
            · subst hj; simp [cqInitSt, Gate.app, fire, upd_apply, ones_succ, hx, hk, hz]
            · have : j < k + 1 ↔ j < k := by omega
              simp [cqInitSt, Gate.app, upd_apply, ones_succ, hx, hk, hj, this]
          | _ => simp [cqInitSt, Gate.app, upd_apply]

theorem mem_cqGates {ctrl : Bool} {x : Nat → Bool} {i : Nat} {g : Gate W} (h : g ∈ cqGates ctrl x i) :
    g = gx (.b i) ∨ (∃ k, g = cx .ctl (.par k)) ∨ ∃ cs, g = .mcx (cs ++ [(.b i, false)]) (.g i) ∧
      ∀ c ∈ cs, c.1 = .ctl ∨ ∃ k, c.1 = .par k := by
  rw [cqGates] at h
  split at h
  · rcases List.mem_append.1 h with h | h
    · exact .inl (by simpa using h)
    · right
      split at h
      · exact .inr ⟨[], by simpa using h, by simp⟩
      · split at h
        · exact .inr ⟨[(.ctl, true)], by simpa using h, by simp⟩
        · next k hk =>
          simp only [List.mem_cons, List.not_mem_nil, or_false] at h
          rcases h with h | h
          · exact .inl ⟨k, h⟩
          · exact .inr ⟨[(.par k, true)], h, by simp⟩
  · simp at h

theorem unc_cqInit (ctrl : Bool) (x : Nat → Bool) (R m : Nat) : Unc (garbage R) (cqInit ctrl x m) := by
  induction m with
  | zero => trivial
  | succ m ih =>
    rw [cqInit_succ]
    refine Unc_append _ _ ih ?_ ?_
    · rw [cqGates]
      split
      · refine ⟨fun h => ?_, ?_⟩
        · simp [Gate.tgt, garbage] at h
        · show Unc (garbage R) ([] ++ _)
          rw [List.nil_append]
          split
          · exact ⟨fun _ => ⟨_, _, rfl, by simp⟩, trivial⟩
          · split
            · exact ⟨fun _ => ⟨_, _, rfl, by simp⟩, trivial⟩
            · exact ⟨fun _ => ⟨_, _, rfl, by simp [Gate.tgt]⟩, fun _ => ⟨_, _, rfl, by simp⟩, trivial⟩
      · trivial
    · intro g hg hd cs t hgt c hc
      obtain ⟨i, hi, hg⟩ := List.mem_flatMap.1 hg
      rw [List.mem_range] at hi
      have hne : m ≠ i := by omega
      rcases mem_cqGates (ctrl := ctrl) (x := x) (i := i) hg with rfl | ⟨k, rfl⟩ | ⟨cs', rfl, hcs⟩
      · simp [Gate.tgt, garbage] at hd
      · right
        injection hgt with h1 h2
        subst h1
        simp only [List.mem_cons, List.not_mem_nil, or_false] at hc
        subst hc
        intro g' hg'
        rcases mem_cqGates hg' with rfl | ⟨k, rfl⟩ | ⟨cs', rfl, hcs⟩ <;> simp [Gate.tgt]
      · injection hgt with h1 h2
        subst h1
        rcases List.mem_append.1 hc with hc | hc
        · rcases hcs c hc with h | ⟨k, h⟩
          · right
            rw [h]
            intro g' hg'
            rcases mem_cqGates hg' with rfl | ⟨k, rfl⟩ | ⟨cs', rfl, hcs⟩ <;> simp [Gate.tgt]
          · left; rw [h]; rfl
        · right
          simp only [List.mem_cons, List.not_mem_nil, or_false] at hc
          subst hc
          intro g' hg'
          rcases mem_cqGates hg' with rfl | ⟨k, rfl⟩ | ⟨cs', rfl, hcs⟩ <;> simp [Gate.tgt, hne]

theorem run_cqRestore (x : Nat → Bool) (m : Nat) (s : St W) : run (cqRestore x m) s = fun q => match q with
    | .b i => if i < m ∧ x i then !s (.b i) else s (.b i)
    | q => s q := by
  induction m with
  | zero => funext q; cases q <;> simp [cqRestore]
  | succ m ih =>
    have e : cqRestore x (m + 1) = cqRestore x m ++ if x m then [gx (.b m)] else [] := by
      rw [cqRestore, List.range_succ, List.filter_append, List.map_append]
      cases h : x m <;> simp [cqRestore, h]
    rw [e, run_append, ih]
    have hlt : ∀ i, i ≠ m → (i < m + 1 ↔ i < m) := fun i hi => by omega
    funext q
    cases hx : x m with
    | false =>
      cases q with
      | b i =>
        by_cases hi : i = m
        · subst hi; simp [hx]
        · simp [hlt i hi]
      | _ => simp
    | true =>
      cases q with
      | b i =>
        by_cases hi : i = m
        · subst hi; simp [Gate.app, fire, upd_apply, hx]
        · simp [Gate.app, upd_apply, hi, hlt i hi]
      | _ => simp [Gate.app, upd_apply]

/-- The variables that are allocated inside the carry computation and the copies of the control. -/
def scratch : W → Bool
  | .par _ => true
  | q => local_ q

theorem cqCarry_spec (ctrl : Bool) (x : Nat → Bool) (na nb r e : Nat) (hr : 2 ≤ r) (hab : na ≤ nb)
    (hx : ∀ i, na ≤ i → x i = false) (s : St W) (hz : ∀ q, scratch q = true → s q = false) :
    ∃ k, cqCarry ctrl x na nb r e = some k ∧
      CarryRes (nc nb (r ^ e)) (r ^ e) (fun i => onBit ctrl s && x i) s (run k s) := by
  set R := r ^ e with hR
  have hR0 : 0 < R := Nat.pow_pos (by omega)
  set C := nc nb R with hC
  set m := min (C * R) (min na nb) with hm
  refine ⟨_, by rw [cqCarry, if_neg (by omega)], ?_⟩
  rw [← hR, ← hC, ← hm, run_append]
  have hzl : ∀ q, local_ q = true → s q = false := fun q hq => hz q (by cases q <;> simp_all [scratch, local_])
  obtain ⟨t1, t2, t3⟩ := run_treeAndBack r e (C * R) hr (cqInit ctrl x m) s (unc_cqInit _ _ _ _)
    (fun g hg hd cs t hgt c hc => by
      obtain ⟨i, hi, hg⟩ := List.mem_flatMap.1 hg
      rcases mem_cqGates (ctrl := ctrl) (x := x) (i := i) hg with rfl | ⟨k, rfl⟩ | ⟨cs', rfl, hcs⟩
      · simp [Gate.tgt, garbage] at hd
      · injection hgt with h1 h2
        subst h1
        simp only [List.mem_cons, List.not_mem_nil, or_false] at hc
        subst hc; simp [Tgt]
      · injection hgt with h1 h2
        subst h1
        rcases List.mem_append.1 hc with hc | hc
        · rcases hcs c hc with h | ⟨k, h⟩
          · right; rw [h]; simp [Tgt]
          · left; rw [h]; rfl
        · simp only [List.mem_cons, List.not_mem_nil, or_false] at hc
          subst hc; simp [Tgt])
    (fun g hg l i => by
      obtain ⟨i, hi, hg⟩ := List.mem_flatMap.1 hg
      rcases mem_cqGates (ctrl := ctrl) (x := x) (i := i) hg with rfl | ⟨k, rfl⟩ | ⟨cs', rfl, hcs⟩ <;> simp [Gate.tgt])
    hzl
  set t := run (treeAndBack r e (C * R) (cqInit ctrl x m)) s with ht
  rw [run_cqInit ctrl x m s fun k => hz _ rfl] at t1 t3
  rw [← hR] at t1 t2 t3
  have gz : ∀ i, s (.g i) = false := fun i => hz _ rfl
  have hbits : ∀ i < C * R, cqInitSt ctrl x m s (.b i) = (x i ^^ s (.b i)) ∧
      cqInitSt ctrl x m s (.g i) = (onBit ctrl s && x i && s (.b i)) := by
    intro i hi
    by_cases him : i < m
    · cases hxi : x i <;> simp [cqInitSt, him, hxi, gz]
    · have : x i = false := hx i (by omega)
      simp [cqInitSt, this, gz]
  rw [run_cqRestore]
  constructor
  · intro j hj
    obtain ⟨h1, h2⟩ := cw_idx hR0 hj
    have h3 : 0 < (j + 1) * R := Nat.mul_pos (by omega) hR0
    simp only [cw]
    rw [t1 _ h1 h2]
    cases ho : onBit ctrl s with
    | true =>
      rw [car_val (x := x) (y := fun i => s (.b i)) (fun i hi => (hbits i (by omega)).1)
        (fun i hi => by rw [(hbits i (by omega)).2, ho, Bool.true_and]), Nat.sub_add_cancel (by omega)]
      simp
    | false =>
      rw [car_zero fun i hi => by rw [(hbits i (by omega)).2, ho]; rfl]
      have h4 : nv (fun i => false && x i) ((j + 1) * R) = 0 := nv_zero fun i _ => rfl
      rw [h4]
      have := nv_lt (fun i => s (.b i)) ((j + 1) * R)
      symm
      rw [decide_eq_false_iff_not]
      omega
  · intro q hq
    cases q with
    | b i =>
      simp only [t3 (.b i) rfl (by simp)]
      by_cases him : i < m ∧ x i = true
      · simp [cqInitSt, him]
      · simp [cqInitSt, him]
    | g i =>
      by_cases hg : garbage R (.g i) = true
      · exact t2 _ hg
      · rw [Bool.not_eq_true] at hg
        have hmod : (i + 1) % R = 0 := by simpa [garbage] using hg
        have hi : ¬i < C * R := fun hi => by
          obtain ⟨j, hj, h⟩ := cw_of hR0 hi hmod
          exact hq j hj (by rw [cw, ← h])
        simp only []
        rw [t3 _ hg (fun i' hi' h => by injection h with h; omega)]
        have : ¬(i < m ∧ x i = true) := by omega
        simp only [cqInitSt, if_neg this]
    | p l i => exact t2 _ rfl
    | par i => exact t2 _ rfl
    | _ => simp only []; rw [t3 _ rfl (by simp)]; rfl

end Verif.Rev.Qcla
