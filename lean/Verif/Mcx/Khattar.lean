import Verif.Mcx.Balauca

/-!
# Khattar mcx and mcp (conditionally clean ancillas)

Model of `alg_primitives/mcx_algs/khattar.py:106-273`. `gidney_CCCX` (and balauca for three controls) is taken as an
exact triply controlled X.
-/

set_option linter.unusedSectionVars false

namespace Verif.Mcx

open Verif.Rev

variable {Q : Type} [DecidableEq Q] {G : Type} [CommGroup G]

/-- khattar.py:135-136, the first loop of `cca_mcx` with `m` passes. -/
def ccaUp (c : Nat → Q) (m : Nat) : List (PGate Q G) :=
  (List.range m).map fun i => .pt [c (2 * i + 3), c (2 * i + 2)] (c (2 * i + 1))

/-- khattar.py:149-150, the loop inside `with invert()` (not yet inverted) with `k` passes. -/
def ccaLadder (c : Nat → Q) (k : Nat) : List (PGate Q G) :=
  (List.range k).map fun i => .pt [c (2 * i + 2), c (2 * i + 1)] (c (2 * i))

/-- khattar.py:142 `c`. -/
def ccaC (n : Nat) : Int := n - 6 + (n % 2 : Nat)

/-- khattar.py:141 `b`. -/
def ccaB (n : Nat) : Int := n - 5 + (n % 2 : Nat)

/-- khattar.py:140 `a`. -/
def ccaA (n : Nat) : Int := n - 3 + 2 * (n % 2 : Nat)

/-- khattar.py:123-152 `cca_mcx`. -/
def ccaMcx (c : Nat → Q) (anc : Q) (n : Nat) : List (PGate Q G) :=
  [.land (c 0) (c 1) anc] ++ ccaUp c ((n - 2) / 2) ++ ctrlConj c (n - 2) (fun _ => false) ++
  (if ccaC n > -1 then
    [.pt [c (ccaB n).toNat, c (ccaA n).toNat] (c (ccaC n).toNat)] else []) ++
  inv (ccaLadder c ((ccaC n + 1) / 2).toNat)

/-- khattar.py:106-120 `cca_4ctrls`. -/
def cca4 (c : Nat → Q) (anc t : Q) : List (PGate Q G) :=
  [.pt [c 1, c 0] anc, .mcx [] (c 1), .pt [c 3, c 2] (c 1), .mcx [c 1, anc] t, .pt [c 2, c 3] (c 1), .mcx [] (c 1),
   .pt [c 0, c 1] anc]

/-- khattar.py:156-228 `khattar_mcx`. -/
def khattarMcx (c : Nat → Q) (anc t : Q) (N : Nat) (cst : Nat → Bool) : List (PGate Q G) :=
  conj (ctrlConj c N cst)
    ((if N = 1 then [.mcx [c 0] t] else []) ++
     (if N = 2 then [.mcx [c 0, c 1] t] else []) ++
     (if N = 3 then [.mcx [c 0, c 1, c 2] t] else []) ++
     (if N = 4 then cca4 c anc t else []) ++
     (if N > 4 then conj (ccaMcx c anc N) [.mcx [anc, c 0] t] else []))

/-- khattar.py:232-273 `khattar_mcp`; `t` is the allocated target. -/
def khattarMcp (z : G) (c : Nat → Q) (anc t : Q) (N : Nat) (cst : Nat → Bool) : List (PGate Q G) :=
  conj (ctrlConj c N cst)
    ((if N = 1 then [.ph z (c 0)] else []) ++
     (if N = 2 then conj [.pt [c 0, c 1] t] [.ph z t] else []) ++
     (if N = 3 then [.mcx [c 0, c 1, c 2] t, .ph z t, .mcx [c 0, c 1, c 2] t] else []) ++
     (if N = 4 then conj (cca4 c anc t) [.ph z t] else []) ++
     (if N > 4 then conj (ccaMcx c anc N) (conj [.mcx [anc, c 0] t] [.ph z t]) else []))

/-- All controls are 1. -/
def allC (c : Nat → Q) (N : Nat) (s : St Q) : Bool := decide (∀ i, i < N → s (c i) = true)

theorem allC_iff {c : Nat → Q} {N : Nat} {s : St Q} : allC c N s = true ↔ ∀ i, i < N → s (c i) = true := by
  unfold allC
  rw [decide_eq_true_iff]

theorem matches_allC {c : Nat → Q} {N : Nat} {cst : Nat → Bool} {s s1 : St Q}
    (h : ∀ i, i < N → s1 (c i) = (s (c i) ^^ !cst i)) : allC c N s1 = matches' c N cst s := matches_eq h

/-- Controls, ancilla and target are different qubits. -/
structure Layout1 (c : Nat → Q) (anc t : Q) (N : Nat) : Prop where
  c_inj : ∀ i j, i < N → j < N → c i = c j → i = j
  ca : ∀ i, i < N → c i ≠ anc
  ct : ∀ i, i < N → c i ≠ t
  at' : anc ≠ t

theorem Layout1.ne {c : Nat → Q} {anc t : Q} {N : Nat} (h : Layout1 c anc t N) {i j : Nat} (hi : i < N) (hj : j < N)
    (hij : i ≠ j) : c i ≠ c j := fun e => hij (h.c_inj i j hi hj e)

/-! ### The two loops -/

theorem ccaUp_exec (φ : List Bool → Bool → G) {c : Nat → Q} {N : Nat} (hc : ∀ i j, i < N → j < N → c i = c j → i = j)
    (s : St Q) (g : G) : ∀ m, 2 * m + 1 < N → ∃ s' g', exec φ (ccaUp c m) (s, g) = some (s', g') ∧
      (∀ i, i < m → s' (c (2 * i + 1)) = (s (c (2 * i + 1)) ^^ (s (c (2 * i + 3)) && s (c (2 * i + 2))))) ∧
      ∀ x, (∀ i, i < m → x ≠ c (2 * i + 1)) → s' x = s x := by
  intro m
  induction m with
  | zero => intro _; exact ⟨s, g, rfl, fun i hi => absurd hi (by omega), fun _ _ => rfl⟩
  | succ m ih =>
    intro hm
    obtain ⟨s1, g1, e1, h1, h2⟩ := ih (by omega)
    have old : ∀ j, 2 * m < j → j < N → s1 (c j) = s (c j) := by
      intro j hj hj2
      refine h2 _ fun i hi e => ?_
      have := hc _ _ hj2 (by omega) e
      omega
    refine ⟨upd s1 (c (2 * m + 1)) (s (c (2 * m + 1)) ^^ (s (c (2 * m + 3)) && s (c (2 * m + 2)))),
      g1 * φ [s (c (2 * m + 3)), s (c (2 * m + 2))] (s (c (2 * m + 1))), ?_, ?_, ?_⟩
    · unfold ccaUp at e1 ⊢
      rw [List.range_succ, List.map_append, exec_append, e1, Option.bind_some]
      simp only [List.map_cons, List.map_nil, exec, PGate.exec, Option.bind_some, allOn, List.all_cons, List.all_nil,
        Bool.and_true]
      rw [old (2 * m + 1) (by omega) (by omega), old (2 * m + 2) (by omega) (by omega),
        old (2 * m + 3) (by omega) (by omega)]
    · intro i hi
      by_cases him : i = m
      · subst him
        rw [upd_same]
      · rw [upd_ne fun e => by
          have := hc _ _ (by omega) (by omega) e
          omega]
        exact h1 i (by omega)
    · intro x hx
      rw [upd_ne (hx m (by omega))]
      exact h2 x fun i hi => hx i (by omega)

theorem ladder_exec (φ : List Bool → Bool → G) {c : Nat → Q} {N : Nat} (hc : ∀ i j, i < N → j < N → c i = c j → i = j) :
    ∀ k, 2 * k < N → ∀ (s : St Q) (g : G), ∃ s' g', exec φ (inv (ccaLadder c k)) (s, g) = some (s', g') ∧
      (∀ i, i < k → s' (c (2 * i)) = (s (c (2 * i)) ^^ (s' (c (2 * i + 2)) && s (c (2 * i + 1))))) ∧
      ∀ x, (∀ i, i < k → x ≠ c (2 * i)) → s' x = s x := by
  intro k
  induction k with
  | zero => intro _ s g; exact ⟨s, g, rfl, fun i hi => absurd hi (by omega), fun _ _ => rfl⟩
  | succ k ih =>
    intro hk s g
    have hsplit : inv (ccaLadder (G := G) c (k + 1)) =
        PGate.ptInv [c (2 * k + 2), c (2 * k + 1)] (c (2 * k)) :: inv (ccaLadder c k) := by
      unfold ccaLadder inv
      rw [List.range_succ, List.map_append, List.map_append, List.reverse_append]
      rfl
    rw [hsplit, exec]
    simp only [PGate.exec, Option.bind_some, allOn, List.all_cons, List.all_nil, Bool.and_true]
    obtain ⟨s', g', e, h1, h2⟩ := ih (by omega)
      (upd s (c (2 * k)) (s (c (2 * k)) ^^ (s (c (2 * k + 2)) && s (c (2 * k + 1))))) _
    refine ⟨s', g', e, ?_, ?_⟩
    · intro i hi
      by_cases hik : i = k
      · subst hik
        rw [h2 (c (2 * i)) fun j hj e => by
            have := hc _ _ (by omega) (by omega) e
            omega,
          h2 (c (2 * i + 2)) fun j hj e => by
            have := hc _ _ (by omega) (by omega) e
            omega, upd_same, upd_ne fun e => by
            have := hc _ _ (by omega) (by omega) e
            omega]
      · rw [h1 i (by omega), upd_ne fun e => by
            have := hc _ _ (by omega) (by omega) e
            omega, upd_ne fun e => by
            have := hc _ _ (by omega) (by omega) e
            omega]
    · intro x hx
      rw [h2 x fun i hi => hx i (by omega), upd_ne (hx k (by omega))]

/-! ### Well-formedness -/

theorem ccaMcx_wf {c : Nat → Q} {anc t : Q} {n : Nat} (hl : Layout1 c anc t n) (hn : 4 < n) :
    ∀ p ∈ (ccaMcx c anc n : List (PGate Q G)), p.wf ∧ t ∉ p.qubits := by
  intro p hp
  unfold ccaMcx at hp
  rw [List.mem_append, List.mem_append, List.mem_append, List.mem_append] at hp
  have cne : ∀ {i j : Nat}, i < n → j < n → i ≠ j → c i ≠ c j := fun hi hj => hl.ne hi hj
  rcases hp with (((hp | hp) | hp) | hp) | hp
  · rw [List.mem_singleton] at hp
    subst hp
    refine ⟨⟨hl.ca _ (by omega), hl.ca _ (by omega)⟩, ?_⟩
    simp only [PGate.qubits, List.mem_cons, List.not_mem_nil, or_false, not_or]
    exact ⟨hl.at'.symm, (hl.ct _ (by omega)).symm, (hl.ct _ (by omega)).symm⟩
  · obtain ⟨i, hi, rfl⟩ := List.mem_map.1 hp
    rw [List.mem_range] at hi
    simp only [PGate.wf, PGate.qubits, List.mem_cons, List.not_mem_nil, or_false, not_or]
    exact ⟨⟨cne (by omega) (by omega) (by omega), cne (by omega) (by omega) (by omega)⟩, (hl.ct _ (by omega)).symm,
      (hl.ct _ (by omega)).symm, (hl.ct _ (by omega)).symm⟩
  · exact ⟨ctrlConj_wf c _ _ p hp, ctrlConj_qubits (fun i hi => hl.ct i (by omega)) p hp⟩
  · split at hp
    · rw [List.mem_singleton] at hp
      subst hp
      have hb : (ccaB n).toNat = (ccaC n).toNat + 1 := by unfold ccaB ccaC; omega
      have ha : (ccaC n).toNat + 3 ≤ (ccaA n).toNat ∧ (ccaA n).toNat < n := by
        unfold ccaA ccaC
        rcases Nat.mod_two_eq_zero_or_one n with h | h <;> rw [h] <;> omega
      have hc : (ccaC n).toNat + 4 < n := by unfold ccaC; omega
      simp only [PGate.wf, PGate.qubits, List.mem_cons, List.not_mem_nil, or_false, not_or]
      exact ⟨⟨cne (by omega) (by omega) (by omega), cne (by omega) (by omega) (by omega)⟩, (hl.ct _ (by omega)).symm,
        (hl.ct _ (by omega)).symm, (hl.ct _ (by omega)).symm⟩
    · cases hp
  · unfold inv ccaLadder at hp
    rw [List.mem_reverse, List.map_map] at hp
    obtain ⟨i, hi, rfl⟩ := List.mem_map.1 hp
    rw [List.mem_range] at hi
    have : 2 * i + 2 < n := by unfold ccaC at hi; omega
    simp only [Function.comp, PGate.inv, PGate.wf, PGate.qubits, List.mem_cons, List.not_mem_nil, or_false, not_or]
    exact ⟨⟨cne (by omega) (by omega) (by omega), cne (by omega) (by omega) (by omega)⟩, (hl.ct _ (by omega)).symm,
      (hl.ct _ (by omega)).symm, (hl.ct _ (by omega)).symm⟩

/-! ### Values -/

theorem ccaMcx_exec (φ : List Bool → Bool → G) {c : Nat → Q} {anc t : Q} {n : Nat} (hl : Layout1 c anc t n) (hn : 4 < n)
    (s : St Q) (g : G) (hz : s anc = false) :
    ∃ s' g', exec φ (ccaMcx c anc n) (s, g) = some (s', g') ∧ s' t = s t ∧
      (s' anc && s' (c 0)) = allC c n s := by
  have cne : ∀ {i j : Nat}, i < n → j < n → i ≠ j → c i ≠ c j := fun hi hj => hl.ne hi hj
  -- the even top index of the ladder and the number of passes
  obtain ⟨k, hk, hkn, hk2⟩ : ∃ k, (ccaC n).toNat = 2 * k ∧ 2 * k + 5 ≤ n ∧ n ≤ 2 * k + 6 :=
    ⟨(ccaC n).toNat / 2, by unfold ccaC; omega, by unfold ccaC; omega, by unfold ccaC; omega⟩
  have hcpos : ccaC n > -1 := by unfold ccaC; omega
  have hB : (ccaB n).toNat = 2 * k + 1 := by unfold ccaB; unfold ccaC at hk; omega
  have hA : (ccaA n).toNat = if n % 2 = 1 then 2 * k + 4 else 2 * k + 3 := by
    unfold ccaA; unfold ccaC at hk; split <;> omega
  have hL : ((ccaC n + 1) / 2).toNat = k := by unfold ccaC at hk ⊢; omega
  unfold ccaMcx
  rw [if_pos hcpos, hB, hL, hk]
  simp only [exec_append]
  -- logical AND
  have e0 : exec φ [PGate.land (c 0) (c 1) anc] (s, g) = some (upd s anc (s (c 0) && s (c 1)), g) := by
    simp [exec, PGate.exec, hz]
  rw [e0, Option.bind_some]
  generalize hs0 : upd s anc (s (c 0) && s (c 1)) = s0
  have v0 : ∀ i, i < n → s0 (c i) = s (c i) := by
    intro i hi
    rw [← hs0, upd_ne (hl.ca i hi)]
  have t0 : s0 t = s t := by rw [← hs0, upd_ne hl.at'.symm]
  have a0 : s0 anc = (s (c 0) && s (c 1)) := by rw [← hs0, upd_same]
  -- first loop
  obtain ⟨s1, g1, e1, u1, f1⟩ := ccaUp_exec φ hl.c_inj s0 g ((n - 2) / 2) (by omega)
  rw [e1, Option.bind_some]
  have t1 : s1 t = s t := by rw [f1 t fun i hi => (hl.ct _ (by omega)).symm, t0]
  have a1 : s1 anc = (s (c 0) && s (c 1)) := by rw [f1 anc fun i hi => (hl.ca _ (by omega)).symm, a0]
  have odd1 : ∀ i, i < (n - 2) / 2 → s1 (c (2 * i + 1)) =
      (s (c (2 * i + 1)) ^^ (s (c (2 * i + 3)) && s (c (2 * i + 2)))) := by
    intro i hi
    rw [u1 i hi, v0 _ (by omega), v0 _ (by omega), v0 _ (by omega)]
  have rest1 : ∀ j, j < n → (∀ i, i < (n - 2) / 2 → j ≠ 2 * i + 1) → s1 (c j) = s (c j) := by
    intro j hj h
    rw [f1 _ fun i hi => cne hj (by omega) (h i hi), v0 j hj]
  -- X row
  obtain ⟨s2, e2, u2, f2⟩ := ctrlConj_exec φ c (fun _ => false) (n - 2)
    (fun i j hi hj => hl.c_inj i j (by omega) (by omega)) s1 g1
  rw [e2, Option.bind_some]
  have t2 : s2 t = s t := by rw [f2 t fun i hi => (hl.ct _ (by omega)).symm, t1]
  have a2 : s2 anc = (s (c 0) && s (c 1)) := by rw [f2 anc fun i hi => (hl.ca _ (by omega)).symm, a1]
  have odd2 : ∀ i, 2 * i + 1 < n - 2 → s2 (c (2 * i + 1)) =
      !(s (c (2 * i + 1)) ^^ (s (c (2 * i + 3)) && s (c (2 * i + 2)))) := by
    intro i hi
    rw [u2 _ hi, odd1 i (by omega)]
    simp
  have even2 : ∀ i, 2 * i < n - 2 → s2 (c (2 * i)) = !s (c (2 * i)) := by
    intro i hi
    rw [u2 _ hi, rest1 _ (by omega) fun j hj => by omega]
    simp
  have last2 : n % 2 = 1 → s2 (c (n - 1)) = s (c (n - 1)) := by
    intro h
    rw [f2 _ fun i hi => cne (by omega) (by omega) (by omega), rest1 _ (by omega) fun j hj => by omega]
  -- single gate
  have e3 : exec φ [PGate.pt [c (2 * k + 1), c (ccaA n).toNat] (c (2 * k))] (s2, g1) =
      some (upd s2 (c (2 * k)) (s2 (c (2 * k)) ^^ (s2 (c (2 * k + 1)) && s2 (c (ccaA n).toNat))),
        g1 * φ [s2 (c (2 * k + 1)), s2 (c (ccaA n).toNat)] (s2 (c (2 * k)))) := by
    simp [exec, PGate.exec, allOn]
  rw [e3, Option.bind_some]
  generalize hs3 : upd s2 (c (2 * k)) (s2 (c (2 * k)) ^^ (s2 (c (2 * k + 1)) && s2 (c (ccaA n).toNat))) = s3
  -- ladder
  obtain ⟨s4, g4, e4, u4, f4⟩ := ladder_exec φ hl.c_inj k (by omega) s3
    (g1 * φ [s2 (c (2 * k + 1)), s2 (c (ccaA n).toNat)] (s2 (c (2 * k))))
  refine ⟨s4, g4, e4, ?_, ?_⟩
  · rw [f4 t fun i hi => (hl.ct _ (by omega)).symm, ← hs3, upd_ne (hl.ct _ (by omega)).symm, t2]
  have a4 : s4 anc = (s (c 0) && s (c 1)) := by
    rw [f4 anc fun i hi => (hl.ca _ (by omega)).symm, ← hs3, upd_ne (hl.ca _ (by omega)).symm, a2]
  have top : s4 (c (2 * k)) = (s2 (c (2 * k)) ^^ (s2 (c (2 * k + 1)) && s2 (c (ccaA n).toNat))) := by
    rw [f4 _ fun i hi => cne (by omega) (by omega) (by omega), ← hs3, upd_same]
  have step : ∀ i, i < k → s4 (c (2 * i)) = (s2 (c (2 * i)) ^^ (s4 (c (2 * i + 2)) && s2 (c (2 * i + 1)))) := by
    intro i hi
    rw [u4 i hi, ← hs3, upd_ne (cne (by omega) (by omega) (by omega)), upd_ne (cne (by omega) (by omega) (by omega))]
  -- invariant from the top of the ladder to the bottom
  have key : ∀ d i, i + d = k → s (c (2 * i)) = true → s (c (2 * i + 1)) = true →
      s4 (c (2 * i)) = decide (∀ j, 2 * i + 2 ≤ j → j < n → s (c j) = true) := by
    intro d
    induction d with
    | zero =>
      intro i hi h1 h2
      have hik : i = k := by omega
      subst hik
      rw [top, even2 i (by omega), odd2 i (by omega), h1, h2, Bool.eq_iff_iff, decide_eq_true_iff]
      simp only [Bool.not_true, Bool.false_xor, Bool.true_xor, Bool.not_not, Bool.and_eq_true]
      rw [hA]
      by_cases hodd : n % 2 = 1
      · rw [if_pos hodd]
        have hl2 := last2 hodd
        rw [show n - 1 = 2 * i + 4 by omega] at hl2
        rw [hl2]
        constructor
        · rintro ⟨⟨h3, h4⟩, h5⟩ j hj1 hj2
          rcases show j = 2 * i + 2 ∨ j = 2 * i + 3 ∨ j = 2 * i + 4 by omega with rfl | rfl | rfl <;> assumption
        · intro H
          exact ⟨⟨H _ (by omega) (by omega), H _ (by omega) (by omega)⟩, H _ (by omega) (by omega)⟩
      · rw [if_neg hodd]
        have ho := odd2 (i + 1) (by omega)
        rw [show 2 * (i + 1) + 1 = 2 * i + 3 by omega, show 2 * (i + 1) + 3 = 2 * i + 5 by omega,
          show 2 * (i + 1) + 2 = 2 * i + 4 by omega] at ho
        rw [ho]
        constructor
        · rintro ⟨⟨h3, h4⟩, h5⟩ j hj1 hj2
          rw [h3] at h5
          simp only [Bool.true_xor, Bool.not_not, Bool.and_eq_true] at h5
          rcases show j = 2 * i + 2 ∨ j = 2 * i + 3 ∨ j = 2 * i + 4 ∨ j = 2 * i + 5 by omega with
            rfl | rfl | rfl | rfl
          · exact h4
          · exact h3
          · exact h5.2
          · exact h5.1
        · intro H
          rw [H (2 * i + 2) (by omega) (by omega), H (2 * i + 3) (by omega) (by omega),
            H (2 * i + 4) (by omega) (by omega), H (2 * i + 5) (by omega) (by omega)]
          simp
    | succ d ih =>
      intro i hi h1 h2
      rw [step i (by omega), even2 i (by omega), odd2 i (by omega), h1, h2, Bool.eq_iff_iff, decide_eq_true_iff]
      simp only [Bool.not_true, Bool.false_xor, Bool.true_xor, Bool.not_not, Bool.and_eq_true]
      constructor
      · rintro ⟨h5, h3, h4⟩ j hj1 hj2
        have := ih (i + 1) (by omega) h4 h3
        rw [show 2 * (i + 1) = 2 * i + 2 by omega, h5] at this
        have := of_decide_eq_true this.symm
        rcases show j = 2 * i + 2 ∨ j = 2 * i + 3 ∨ 2 * i + 4 ≤ j by omega with rfl | rfl | h
        · exact h4
        · exact h3
        · exact this j (by omega) hj2
      · intro H
        have h4 := H (2 * i + 2) (by omega) (by omega)
        have h3 := H (2 * i + 3) (by omega) (by omega)
        have := ih (i + 1) (by omega) h4 h3
        rw [show 2 * (i + 1) = 2 * i + 2 by omega] at this
        refine ⟨?_, h3, h4⟩
        rw [this]
        exact decide_eq_true fun j hj1 hj2 => H j (by omega) hj2
  rw [a4, Bool.eq_iff_iff, allC_iff, Bool.and_eq_true, Bool.and_eq_true]
  constructor
  · rintro ⟨⟨h1, h2⟩, h3⟩ j hj
    have := key k 0 (by omega) h1 h2
    rw [show 2 * 0 = 0 by omega, h3] at this
    have := of_decide_eq_true this.symm
    rcases show j = 0 ∨ j = 1 ∨ 2 ≤ j by omega with rfl | rfl | h
    · exact h1
    · exact h2
    · exact this j (by omega) hj
  · intro H
    have h1 := H 0 (by omega)
    have h2 := H 1 (by omega)
    refine ⟨⟨h1, h2⟩, ?_⟩
    have := key k 0 (by omega) h1 h2
    rw [show 2 * 0 = 0 by omega] at this
    rw [this]
    exact decide_eq_true fun j hj1 hj2 => H j hj2

/-! ### Four controls -/

/-- Phase collected by `cca_4ctrls`. -/
def cca4Phase (φ : List Bool → Bool → G) (x0 x1 x2 x3 : Bool) : G :=
  φ [x1, x0] false * φ [x3, x2] (!x1) * φ [x2, x3] (!x1 ^^ (x3 && x2)) * φ [x0, x1] (x1 && x0)

theorem cca4_exec (φ : List Bool → Bool → G) {c : Nat → Q} {anc t : Q} (hl : Layout1 c anc t 4) (s : St Q) (g : G)
    (hz : s anc = false) :
    exec φ (cca4 c anc t) (s, g) = some (upd s t (s t ^^ allC c 4 s),
      g * cca4Phase φ (s (c 0)) (s (c 1)) (s (c 2)) (s (c 3))) := by
  have n01 : c 0 ≠ c 1 := hl.ne (by omega) (by omega) (by omega)
  have n21 : c 2 ≠ c 1 := hl.ne (by omega) (by omega) (by omega)
  have n31 : c 3 ≠ c 1 := hl.ne (by omega) (by omega) (by omega)
  have a0 := hl.ca 0 (by omega)
  have a1 := hl.ca 1 (by omega)
  have a2 := hl.ca 2 (by omega)
  have a3 := hl.ca 3 (by omega)
  have t0 := hl.ct 0 (by omega)
  have t1 := hl.ct 1 (by omega)
  have t2 := hl.ct 2 (by omega)
  have t3 := hl.ct 3 (by omega)
  have hd : allC c 4 s = (s (c 0) && s (c 1) && s (c 2) && s (c 3)) := by
    rw [Bool.eq_iff_iff, allC_iff, Bool.and_eq_true, Bool.and_eq_true, Bool.and_eq_true]
    constructor
    · intro H
      exact ⟨⟨⟨H 0 (by omega), H 1 (by omega)⟩, H 2 (by omega)⟩, H 3 (by omega)⟩
    · rintro ⟨⟨⟨h0, h1⟩, h2⟩, h3⟩ i hi
      interval_cases i <;> assumption
  rw [hd]
  have e : exec φ (cca4 c anc t) (s, g) =
      some (upd (upd (upd s t (s t ^^ (s (c 0) && s (c 1) && s (c 2) && s (c 3)))) (c 1) (s (c 1))) anc false,
        g * cca4Phase φ (s (c 0)) (s (c 1)) (s (c 2)) (s (c 3))) := by
    simp only [cca4, exec, PGate.exec, Option.bind_some, allOn, List.all_cons, List.all_nil, List.map_cons, List.map_nil,
      Bool.and_true, upd_same, upd_ne n01, upd_ne n21, upd_ne n31, upd_ne a0, upd_ne a1, upd_ne a2, upd_ne a3,
      upd_ne t0, upd_ne t1, upd_ne t2, upd_ne t3, upd_ne a1.symm, upd_ne t1.symm, upd_ne hl.at', upd_ne hl.at'.symm, hz,
      Bool.xor_true, Option.some.injEq, Prod.mk.injEq]
    constructor
    · funext x
      simp only [upd]
      by_cases hx : x = anc
      · subst hx
        simp only [if_true]
        cases s (c 0) <;> cases s (c 1) <;> cases s (c 2) <;> cases s (c 3) <;> rfl
      · by_cases hx1 : x = c 1
        · subst hx1
          simp only [hx, if_true, if_false]
          cases s (c 0) <;> cases s (c 1) <;> cases s (c 2) <;> cases s (c 3) <;> rfl
        · by_cases hx2 : x = t
          · subst hx2
            simp only [hx, hx1, if_true, if_false]
            cases s (c 0) <;> cases s (c 1) <;> cases s (c 2) <;> cases s (c 3) <;> rfl
          · simp only [hx, hx1, hx2, if_false]
    · unfold cca4Phase
      simp only [mul_assoc]
      cases s (c 0) <;> cases s (c 1) <;> cases s (c 2) <;> cases s (c 3) <;> rfl
  rw [e]
  congr 2
  rw [show upd s t (s t ^^ (s (c 0) && s (c 1) && s (c 2) && s (c 3))) =
    upd s t (s t ^^ (s (c 0) && s (c 1) && s (c 2) && s (c 3))) from rfl]
  funext x
  simp only [upd]
  by_cases hx : x = anc
  · subst hx
    simp [hl.at', hz]
  · by_cases hx1 : x = c 1
    · subst hx1
      simp [hx, t1]
    · simp [hx, hx1]

/-! ### The whole circuits -/

theorem all_one {c : Nat → Q} {s : St Q} : s (c 0) = allC c 1 s := by
  rw [Bool.eq_iff_iff, allC_iff]
  simp

theorem all_two {c : Nat → Q} {s : St Q} : (s (c 0) && s (c 1)) = allC c 2 s := by
  rw [Bool.eq_iff_iff, allC_iff, Bool.and_eq_true]
  refine ⟨fun H i hi => ?_, fun H => ⟨H 0 (by omega), H 1 (by omega)⟩⟩
  interval_cases i
  · exact H.1
  · exact H.2

theorem all_three {c : Nat → Q} {s : St Q} :
    (s (c 0) && (s (c 1) && s (c 2))) = allC c 3 s := by
  rw [Bool.eq_iff_iff, allC_iff, Bool.and_eq_true, Bool.and_eq_true]
  refine ⟨fun H i hi => ?_, fun H => ⟨H 0 (by omega), H 1 (by omega), H 2 (by omega)⟩⟩
  interval_cases i
  · exact H.1
  · exact H.2.1
  · exact H.2.2

/-- Phase of `khattar_mcx`: only the four control case collects one. -/
def khattarPhase (φ : List Bool → Bool → G) (c : Nat → Q) (N : Nat) (cst : Nat → Bool) (s : St Q) : G :=
  if N = 4 then cca4Phase φ (s (c 0) == cst 0) (s (c 1) == cst 1) (s (c 2) == cst 2) (s (c 3) == cst 3) else 1

theorem khattarMcx_exec (φ : List Bool → Bool → G) {c : Nat → Q} {anc t : Q} {N : Nat} (hN : 1 ≤ N)
    (hl : Layout1 c anc t N) (cst : Nat → Bool) (s : St Q) (g : G) (hz : s anc = false) :
    exec φ (khattarMcx c anc t N cst) (s, g) =
      some (upd s t (s t ^^ matches' c N cst s), g * khattarPhase φ c N cst s) := by
  obtain ⟨s1, e1, h1, h2⟩ := ctrlConj_exec φ c cst N hl.c_inj s g
  have ht : s1 t = s t := h2 t fun i hi => (hl.ct i hi).symm
  have hz1 : s1 anc = false := by rw [h2 anc fun i hi => (hl.ca i hi).symm, hz]
  unfold khattarMcx
  refine exec_conj φ (ctrlConj_wf c cst N) (ctrlConj_qubits (fun i hi => hl.ct i hi)) e1 ?_
  rw [← matches_allC h1, ← ht]
  rcases show N = 1 ∨ N = 2 ∨ N = 3 ∨ N = 4 ∨ 4 < N by omega with rfl | rfl | rfl | rfl | h
  · rw [← all_one]
    simp [exec, PGate.exec, allOn, khattarPhase]
  · rw [← all_two]
    simp [exec, PGate.exec, allOn, khattarPhase]
  · rw [← all_three]
    simp [exec, PGate.exec, allOn, khattarPhase]
  · have e := cca4_exec φ hl s1 g hz1
    have hx : ∀ i, i < 4 → s1 (c i) = (s (c i) == cst i) := by
      intro i hi
      rw [h1 i hi]
      cases s (c i) <;> cases cst i <;> rfl
    rw [hx 0 (by omega), hx 1 (by omega), hx 2 (by omega), hx 3 (by omega)] at e
    simp only [if_neg (show ¬ 4 = 1 by omega), if_neg (show ¬ 4 = 2 by omega), if_neg (show ¬ 4 = 3 by omega),
      if_neg (show ¬ 4 > 4 by omega), if_true, List.nil_append, List.append_nil]
    rw [e, khattarPhase, if_pos rfl]
  · rw [if_neg (by omega), if_neg (by omega), if_neg (by omega), if_neg (by omega), if_pos h, khattarPhase,
      if_neg (by omega)]
    simp only [List.nil_append]
    obtain ⟨s2, g2, e2, t2, w2⟩ := ccaMcx_exec φ hl h s1 g hz1
    refine exec_conj φ (fun p hp => (ccaMcx_wf hl h p hp).1) (fun p hp => (ccaMcx_wf hl h p hp).2) e2 ?_
    rw [← w2, mul_one]
    simp [exec, PGate.exec, allOn, t2]

theorem phaseConj_exec (φ : List Bool → Bool → G) {x y t : Q} (hx : x ≠ t) (hy : y ≠ t) (z : G) (s : St Q) (g : G)
    (ht : s t = false) :
    exec φ (conj [.mcx [x, y] t] [.ph z t]) (s, g) = some (s, if s x && s y then g * z else g) := by
  have ux : ∀ b, upd s t b x = s x := fun b => upd_ne hx
  have uy : ∀ b, upd s t b y = s y := fun b => upd_ne hy
  have hs : upd s t false = s := by rw [← ht, upd_self]
  simp only [conj, inv, List.map_cons, List.map_nil, List.reverse_cons, List.reverse_nil, List.nil_append,
    List.cons_append, exec, PGate.exec, PGate.inv, Option.bind_some, ht, upd_same, upd_upd, allOn, List.all_cons,
    List.all_nil, Bool.and_true, ux, uy]
  cases s x <;> cases s y <;> simp [hs]

theorem cca4_wf {c : Nat → Q} {anc t : Q} (hl : Layout1 c anc t 4) : ∀ p ∈ (cca4 c anc t : List (PGate Q G)), p.wf := by
  have n01 : c 0 ≠ c 1 := hl.ne (by omega) (by omega) (by omega)
  have n21 : c 2 ≠ c 1 := hl.ne (by omega) (by omega) (by omega)
  have n31 : c 3 ≠ c 1 := hl.ne (by omega) (by omega) (by omega)
  intro p hp
  simp only [cca4, List.mem_cons, List.not_mem_nil, or_false] at hp
  rcases hp with rfl | rfl | rfl | rfl | rfl | rfl | rfl <;>
    simp only [PGate.wf, List.mem_cons, List.not_mem_nil, or_false, not_or, not_false_eq_true]
  · exact ⟨(hl.ca 1 (by omega)).symm, (hl.ca 0 (by omega)).symm⟩
  · exact ⟨n31.symm, n21.symm⟩
  · exact ⟨(hl.ct 1 (by omega)).symm, hl.at'.symm⟩
  · exact ⟨n21.symm, n31.symm⟩
  · exact ⟨(hl.ca 0 (by omega)).symm, (hl.ca 1 (by omega)).symm⟩

theorem khattarMcp_exec (φ : List Bool → Bool → G) (z : G) {c : Nat → Q} {anc t : Q} {N : Nat} (hN : 1 ≤ N)
    (hl : Layout1 c anc t N) (cst : Nat → Bool) (s : St Q) (g : G) (hz : s anc = false) (ht0 : s t = false) :
    exec φ (khattarMcp z c anc t N cst) (s, g) = some (s, if matches' c N cst s then g * z else g) := by
  obtain ⟨s1, e1, h1, h2⟩ := ctrlConj_exec φ c cst N hl.c_inj s g
  have ht : s1 t = false := by rw [h2 t fun i hi => (hl.ct i hi).symm]; exact ht0
  have hz1 : s1 anc = false := by rw [h2 anc fun i hi => (hl.ca i hi).symm, hz]
  have hite : ∀ (b : Bool) (k : G), (if b then k * z else k) = k * (if b then z else 1) := by
    intro b k; cases b <;> simp
  unfold khattarMcp
  rw [hite, show s = upd s t false from (upd_false ht0).symm]
  rw [show matches' c N cst (upd s t false) = matches' c N cst s by rw [upd_false ht0]]
  rw [show (exec φ _ (upd s t false, g)) = exec φ _ (s, g) by rw [upd_false ht0]]
  refine exec_conj φ (ctrlConj_wf c cst N) (ctrlConj_qubits (fun i hi => hl.ct i hi)) e1 ?_
  rw [← matches_allC h1, ← hite, upd_false ht]
  rcases show N = 1 ∨ N = 2 ∨ N = 3 ∨ N = 4 ∨ 4 < N by omega with rfl | rfl | rfl | rfl | h
  · rw [← all_one]
    simp [exec, PGate.exec]
  · rw [← all_two]
    simp only [if_neg (show ¬ 2 = 1 by omega), if_neg (show ¬ 2 = 3 by omega), if_neg (show ¬ 2 = 4 by omega),
      if_neg (show ¬ 2 > 4 by omega), if_true, List.nil_append, List.append_nil]
    exact ptPhase_exec φ (hl.ct 0 (by omega)) (hl.ct 1 (by omega)) z s1 g ht
  · rw [← all_three]
    simp only [if_neg (show ¬ 3 = 1 by omega), if_neg (show ¬ 3 = 2 by omega), if_neg (show ¬ 3 = 4 by omega),
      if_neg (show ¬ 3 > 4 by omega), if_true, List.nil_append, List.append_nil]
    have u0 : ∀ b, upd s1 t b (c 0) = s1 (c 0) := fun b => upd_ne (hl.ct 0 (by omega))
    have u1 : ∀ b, upd s1 t b (c 1) = s1 (c 1) := fun b => upd_ne (hl.ct 1 (by omega))
    have u2 : ∀ b, upd s1 t b (c 2) = s1 (c 2) := fun b => upd_ne (hl.ct 2 (by omega))
    have hs : upd s1 t false = s1 := upd_false ht
    simp only [exec, PGate.exec, Option.bind_some, ht, upd_same, upd_upd, allOn, List.all_cons, List.all_nil,
      Bool.and_true, u0, u1, u2]
    cases s1 (c 0) <;> cases s1 (c 1) <;> cases s1 (c 2) <;> simp [hs]
  · simp only [if_neg (show ¬ 4 = 1 by omega), if_neg (show ¬ 4 = 2 by omega), if_neg (show ¬ 4 = 3 by omega),
      if_neg (show ¬ 4 > 4 by omega), if_true, List.nil_append, List.append_nil]
    have e := cca4_exec φ hl s1 g hz1
    unfold conj
    rw [exec_append, exec_append, e, Option.bind_some]
    have hv : ∀ k : G, exec φ [PGate.ph z t] (upd s1 t (s1 t ^^ allC c 4 s1), k) =
        some (upd s1 t (s1 t ^^ allC c 4 s1),
          if allC c 4 s1 then k * z else k) := by
      intro k
      simp only [exec, PGate.exec, upd_same, ht, Bool.false_xor, Option.bind_some]
    rw [hv, Option.bind_some, exec_inv φ _ (cca4_wf hl) e, hite, hite]
    congr 2
    rw [mul_inv]
    generalize cca4Phase φ (s1 (c 0)) (s1 (c 1)) (s1 (c 2)) (s1 (c 3)) = p
    generalize (if allC c 4 s1 = true then z else 1) = w
    calc g * p * w * (g⁻¹ * p⁻¹ * g) = g * w * (p * p⁻¹) * (g⁻¹ * g) := by ac_rfl
      _ = g * w := by simp
  · rw [if_neg (by omega), if_neg (by omega), if_neg (by omega), if_neg (by omega), if_pos h]
    simp only [List.nil_append]
    obtain ⟨s2, g2, e2, t2, w2⟩ := ccaMcx_exec φ hl h s1 g hz1
    have ht2 : s2 t = false := t2.trans ht
    have := exec_conj φ (fun p hp => (ccaMcx_wf hl h p hp).1) (fun p hp => (ccaMcx_wf hl h p hp).2) e2
      (B := conj [.mcx [anc, c 0] t] [.ph z t]) (v := false)
      (z := if allC c N s1 then z else 1) (by
        rw [phaseConj_exec φ hl.at' (hl.ct 0 (by omega)) z s2 g2 ht2, w2, hite, upd_false ht2])
    rw [this, upd_false ht, hite]

end Verif.Mcx
