import Verif.Sim.MultiProof

/-!
The deferred measurements: distribution and main induction.
-/

namespace Verif.Sim

open Verif.Env (B E D X dg Dep)

/-! ### Sums over the basis states -/

theorem basis_zero {n : Nat} {b : B} (hb : b ∈ basis n) {q : Nat} (hq : n ≤ q) : b q = false := by
  induction n generalizing b with
  | zero => simp [basis] at hb; simp [hb]
  | succ n ih =>
    rcases List.mem_append.1 hb with h | h
    · exact ih h (by omega)
    · obtain ⟨c, hc, rfl⟩ := List.mem_map.1 h
      have : q ≠ n := by omega
      simp [this, ih hc (by omega)]

theorem basis_flip {n q : Nat} (hq : q < n) : ((basis n).map (Env.flip q)).Perm (basis n) := by
  induction n with
  | zero => omega
  | succ n ih =>
    simp only [basis, List.map_append, List.map_map]
    by_cases e : q = n
    · subst e
      have h1 : (basis q).map (Env.flip q) = (basis q).map fun b p => if p = q then true else b p := by
        refine List.map_congr_left fun b hb => ?_
        funext p
        by_cases hp : p = q
        · subst hp
          simp [Env.flip, basis_zero hb (Nat.le_refl _)]
        · simp [Env.flip, hp]
      have h2 : (basis q).map (Env.flip q ∘ fun b p => if p = q then true else b p) = basis q := by
        conv_rhs => rw [← List.map_id (basis q)]
        refine List.map_congr_left fun b hb => ?_
        funext p
        by_cases hp : p = q
        · subst hp
          simp [Env.flip, basis_zero hb (Nat.le_refl _)]
        · simp [Env.flip, hp]
      rw [h1, h2]
      exact List.perm_append_comm
    · have h' := ih (by omega)
      refine h'.append ?_
      have : (basis n).map (Env.flip q ∘ fun b p => if p = n then true else b p) =
          ((basis n).map (Env.flip q)).map fun b p => if p = n then true else b p := by
        rw [List.map_map]
        refine List.map_congr_left fun b _ => ?_
        funext p
        by_cases hp : p = n
        · subst hp
          simp [Env.flip, Ne.symm e]
        · simp [Env.flip, hp]
      rw [this]
      exact h'.map _

/-- The weight of the basis states that satisfy a predicate. -/
noncomputable def W (n : Nat) (T : B → Bool) (ψ : B → ℂ) : ℝ :=
  ((basis n).map fun b => if T b then Complex.normSq (ψ b) else 0).sum

theorem W_true (n : Nat) (ψ : B → ℂ) : W n (fun _ => true) ψ = nrm n ψ := by simp [W, nrm]

theorem W_false (n : Nat) (ψ : B → ℂ) : W n (fun _ => false) ψ = 0 := by
  unfold W
  refine List.sum_eq_zero fun x hx => ?_
  obtain ⟨b, _, rfl⟩ := List.mem_map.1 hx
  simp

theorem W_congr {n : Nat} {T T' : B → Bool} {ψ ψ' : B → ℂ}
    (h : ∀ b, (if T b then Complex.normSq (ψ b) else 0) = if T' b then Complex.normSq (ψ' b) else 0) : W n T ψ = W n T' ψ' := by
  unfold W
  congr 1
  exact List.map_congr_left fun b _ => h b

theorem W_flip {n q : Nat} (hq : q < n) (T : B → Bool) (ψ : B → ℂ) :
    W n (fun b => T (Env.flip q b)) (fun b => ψ (Env.flip q b)) = W n T ψ := by
  unfold W
  have : (basis n).map (fun b => if T (Env.flip q b) then Complex.normSq (ψ (Env.flip q b)) else 0) =
      ((basis n).map (Env.flip q)).map fun b => if T b then Complex.normSq (ψ b) else 0 := by
    rw [List.map_map]
    rfl
  rw [this]
  exact ((basis_flip hq).map _).sum_eq

theorem W_add (n : Nat) {T T0 T1 : B → Bool} {q : Nat} (h0 : ∀ b, b q = false → T b = T0 b) (h1 : ∀ b, b q = true → T b = T1 b)
    (ψ : B → ℂ) : W n (fun b => T0 b && !b q) ψ + W n (fun b => T1 b && b q) ψ = W n T ψ := by
  unfold W
  rw [← List.sum_map_add]
  congr 1
  refine List.map_congr_left fun b _ => ?_
  cases hb : b q
  · simp [h0 b hb, hb]
  · simp [h1 b hb, hb]

theorem W_P (n q : Nat) (v : Bool) (T : B → Bool) (ψ : B → ℂ) : W n T (P q v ψ) = W n (fun b => T b && (b q == v)) ψ := by
  refine W_congr fun b => ?_
  rw [P_apply]
  by_cases h : b q = v
  · simp [h]
  · simp [h]

theorem W_clear {n q : Nat} (hq : q < n) (v : Bool) {T : B → Bool} (hT : ∀ b, T (Env.flip q b) = T b) (ψ : B → ℂ) :
    W n T (clear q v ψ) = W n (fun b => T b && (b q == v)) ψ := by
  cases v
  · have : clear q false = P q false := by simp [clear]
    rw [this, W_P]
  · rw [← W_flip hq]
    refine W_congr fun b => ?_
    rw [clear_apply]
    simp only [hT, Env.flip_at, Env.flip_flip, if_true]
    cases b q <;> simp

/-- The weight of a branch. -/
noncomputable def FW (n : Nat) (C : List Nat) (v : Cl) (x : Br) : ℝ := if C.all (fun c => x.1 c == v c) then nrm n x.2 else 0

theorem FW_zero (n : Nat) (C : List Nat) (v k : Cl) : FW n C v (k, 0) = 0 := by
  unfold FW nrm
  split
  · refine List.sum_eq_zero fun x hx => ?_
    obtain ⟨b, _, rfl⟩ := List.mem_map.1 hx
    simp
  · rfl

def finT (M : List Pnd) (C : List Nat) (v k : Cl) (b : B) : Bool := C.all fun c => val (allOf M) k b c == v c

theorem finT_flip {M : List Pnd} {C : List Nat} {v k : Cl} {b : B} {q : Nat} (h : q ∉ M.map Pnd.q) :
    finT M C v k (Env.flip q b) = finT M C v k b := by
  unfold finT
  have : ∀ c, val (allOf M) k (Env.flip q b) c = val (allOf M) k b c := by
    refine fun c => val_flip fun c' hc => h ?_
    rcases mem_allOf.1 hc with hm | hm
    · exact List.mem_map.2 ⟨_, hm, rfl⟩
    · exact List.mem_map.2 ⟨_, hm, rfl⟩
  simp only [this]

theorem finT_set {p : Pnd} {M : List Pnd} {C : List Nat} {v k : Cl} {b : B} {q c : Nat} {w : Bool}
    (hp : allOf (p :: M) = (c, q) :: allOf M) (h : c ∉ (allOf M).map (·.1)) (hb : b q = w) :
    finT (p :: M) C v k b = finT M C v (setc c w k) b := by
  unfold finT
  have : ∀ a, val (allOf (p :: M)) k b a = val (allOf M) (setc c w k) b a := by
    intro a
    unfold val
    rw [hp]
    by_cases e : a = c
    · subst e
      have h2 : (allOf M).lookup a = none := lookup_none fun q' hc => h (List.mem_map.2 ⟨_, hc, rfl⟩)
      rw [h2]
      simp [setc, hb]
    · have h1 : (((c, q) :: allOf M)).lookup a = (allOf M).lookup a := by
        have : (a == c) = false := by simpa using e
        simp [List.lookup_cons, this]
      rw [h1]
      simp [setc, e]
  simp only [this]

theorem final_sum (N : Nat) (C : List Nat) (v : Cl) (M : List Pnd) : (M.map Pnd.q).Nodup → ((allOf M).map (·.1)).Nodup →
    (∀ p ∈ M, p.q < N) → ∀ (k : Cl) (ψ : B → ℂ), ((exec (pIns M) {(k, ψ)}).map (FW N C v)).sum = W N (finT M C v k) ψ := by
  induction M with
  | nil =>
    intro _ _ _ k ψ
    have e : finT [] C v k = fun _ => C.all fun c => k c == v c := by
      funext b
      rfl
    rw [e]
    simp only [pIns, List.flatMap_nil, exec_nil, Multiset.map_singleton, Multiset.sum_singleton, FW]
    cases C.all fun c => k c == v c
    · simp [W_false]
    · simp [W_true]
  | cons p M ih =>
    intro hn hc hN k ψ
    have hn' := List.nodup_cons.1 (by simpa using hn : (p.q :: M.map Pnd.q).Nodup)
    have hN' := hN p (by simp)
    have ih' := ih hn'.2 (clOf_nodup_cons hc) fun x hx => hN x (by simp [hx])
    have e' : pIns (p :: M) = p.ins ++ pIns M := by simp [pIns]
    rw [e', pnd_exec p _ k ψ _ (FW_zero N C v), Multiset.map_add, Multiset.sum_add, ih', ih']
    have hf : ∀ k b, finT M C v k (Env.flip p.q b) = finT M C v k b := fun k b => finT_flip hn'.1
    have w0 : ∀ T : B → Bool, (fun b : B => T b && (b p.q == false)) = fun b => T b && !b p.q := fun T => by
      funext b
      cases b p.q <;> rfl
    have w1 : ∀ T : B → Bool, (fun b : B => T b && (b p.q == true)) = fun b => T b && b p.q := fun T => by
      funext b
      cases b p.q <;> rfl
    have hop : ∀ w k, W N (finT M C v k) (p.op w ψ) = W N (fun b => finT M C v k b && (b p.q == w)) ψ := by
      intro w k
      cases p with
      | mclr q c => exact W_clear hN' w (hf k) ψ
      | clr q => exact W_clear hN' w (hf k) ψ
      | pend q c => exact W_P N q w _ ψ
    rw [hop, hop, w0, w1]
    have hset : ∀ w b, b p.q = w → finT (p :: M) C v k b = finT M C v (p.cl w k) b := by
      intro w b hb
      cases p with
      | mclr q c => exact finT_set rfl (List.nodup_cons.1 (show (c :: (allOf M).map (·.1)).Nodup from hc)).1 hb
      | clr q => rfl
      | pend q c => exact finT_set rfl (List.nodup_cons.1 (show (c :: (allOf M).map (·.1)).Nodup from hc)).1 hb
    exact W_add N (hset false) (hset true) ψ

/-! ### Clean qubits -/

theorem nrm_clean {n N : Nat} (h : n ≤ N) {ψ : B → ℂ} (hc : ∀ q, n ≤ q → Clean0 q ψ) : nrm N ψ = nrm n ψ := by
  induction N with
  | zero =>
    have : n = 0 := by omega
    rw [this]
  | succ N ih =>
    by_cases e : n = N + 1
    · rw [e]
    · rw [← ih (by omega)]
      unfold nrm
      rw [basis, List.map_append, List.sum_append, List.map_map]
      have : ((basis N).map ((fun b => Complex.normSq (ψ b)) ∘ fun b q => if q = N then true else b q)).sum = 0 := by
        refine List.sum_eq_zero fun x hx => ?_
        obtain ⟨b, _, rfl⟩ := List.mem_map.1 hx
        simp only [Function.comp_apply]
        rw [hc N (by omega) _ (by simp)]
        simp
      rw [this, add_zero]

theorem exec_clean {n : Nat} (l : List Ins) (hl : ∀ i ∈ l, i.WF ∧ ∀ q ∈ i.qubits, q < n) (s : Multiset Br)
    (hs : ∀ x ∈ s, ∀ q, n ≤ q → Clean0 q x.2) : ∀ x ∈ exec l s, ∀ q, n ≤ q → Clean0 q x.2 := by
  induction l generalizing s with
  | nil => exact hs
  | cons i l ih =>
    rw [exec_cons]
    refine ih (fun j hj => hl j (by simp [hj])) _ fun x hx q hq => ?_
    obtain ⟨y, hy, hx⟩ := Multiset.mem_bind.1 hx
    obtain ⟨a, ha, rfl⟩ := Multiset.mem_map.1 hx
    have A := alts_ok (hl i (by simp)).1 (Multiset.mem_coe.1 ha)
    exact loc_clean (A.loc y.1) (fun hm => absurd ((hl i (by simp)).2 q hm) (by omega)) (hs y hy q hq)

theorem init_clean (q : Nat) : Clean0 q init := by
  intro b hb
  unfold init
  rw [if_neg]
  intro h
  rw [h] at hb
  simp at hb

/-! ### The lookahead -/

theorem look_none {pm : List Gate → Nat → Bool} {q c : Nat} {t : List Ins} (h : look pm q c t = none) :
    ∀ x ∈ t, c ∉ x.clbits ∧ (q ∈ x.qubits → x.isReset = false ∧ x.perm pm q = true) ∧ x.measures q = false := by
  induction t with
  | nil => simp
  | cons y t ih =>
    simp only [look] at h
    split at h
    · simp at h
    · rename_i h1
      split at h
      · simp at h
      · rename_i h2
        split at h
        · simp at h
        · rename_i h3
          split at h
          · simp at h
          · rename_i h4
            have ht : look pm q c t = none := by
              cases hl : look pm q c t with
              | none => rfl
              | some r => rw [hl] at h; cases r <;> simp at h
            intro x hx
            rcases List.mem_cons.1 hx with rfl | hx
            · refine ⟨h3, fun hq => ⟨?_, ?_⟩, by simpa using h4⟩
              · cases hr : x.isReset
                · rfl
                · exact absurd ⟨hq, hr⟩ h1
              · cases hr : x.perm pm q
                · exact absurd ⟨hq, hr⟩ h2
                · rfl
            · exact ih ht x hx

theorem isReset_eq {x : Ins} {q : Nat} (h : x.isReset = true) (hq : q ∈ x.qubits) : x = .reset q := by
  cases x <;> simp [Ins.isReset] at h
  simp [Ins.qubits] at hq
  rw [hq]

theorem look_some {pm : List Gate → Nat → Bool} {q c : Nat} {t r : List Ins} (h : look pm q c t = some (some r)) : .reset q ∈ t := by
  induction t generalizing r with
  | nil => simp [look] at h
  | cons y t ih =>
    simp only [look] at h
    split at h
    · rename_i h1
      rw [isReset_eq h1.2 h1.1]
      simp
    · split at h
      · simp at h
      · split at h
        · simp at h
        · split at h
          · simp at h
          · cases hl : look pm q c t with
            | none => rw [hl] at h; simp at h
            | some o =>
              cases o with
              | none => rw [hl] at h; simp at h
              | some r' => simp [ih hl]

theorem look_reset {pm : List Gate → Nat → Bool} {q c : Nat} {t r : List Ins} (h : look pm q c t = some (some r))
    (hc : ∀ x, t.find? (fun x => decide (q ∈ x.qubits)) = some x →
      x = .reset q ∨ x.perm pm q = false ∨ (∃ c', x = .measure q c') ∨ c ∈ x.clbits) :
    ∃ D1 D2, t = D1 ++ .reset q :: D2 ∧ r = D1 ++ D2 ∧ ∀ x ∈ D1, q ∉ x.qubits := by
  induction t generalizing r with
  | nil => simp [look] at h
  | cons y t ih =>
    simp only [look] at h
    split at h
    · rename_i h1
      rw [isReset_eq h1.2 h1.1]
      simp at h
      exact ⟨[], t, rfl, h.symm, by simp⟩
    · rename_i h1
      split at h
      · simp at h
      · rename_i h2
        split at h
        · simp at h
        · rename_i h3
          split at h
          · simp at h
          · rename_i h4
            have hy : q ∉ y.qubits := by
              intro hq
              rcases hc y (by simp [hq]) with e | e | ⟨c', e⟩ | e
              · subst e
                exact h1 ⟨hq, rfl⟩
              · exact h2 ⟨hq, e⟩
              · subst e
                simp [Ins.measures] at h4
              · exact h3 e
            cases hl : look pm q c t with
            | none => rw [hl] at h; simp at h
            | some o =>
              cases o with
              | none => rw [hl] at h; simp at h
              | some r' =>
                rw [hl] at h
                simp at h
                obtain ⟨D1, D2, e1, e2, e3⟩ := ih hl fun x hx => hc x (by
                  rw [List.find?_cons_of_neg (by simpa using hy)]
                  exact hx)
                refine ⟨y :: D1, D2, by rw [e1]; rfl, by rw [← h, e2]; rfl, fun x hx => ?_⟩
                rcases List.mem_cons.1 hx with rfl | hx
                · exact hy
                · exact e3 x hx

/-- Removing a reset. -/
theorem mok_remove {pm : List Gate → Nat → Bool} {n q : Nat} {D2 : List Ins} : ∀ D1 : List Ins, (∀ x ∈ D1, q ∉ x.qubits) →
    MOk pm n (D1 ++ .reset q :: D2) → MOk pm n (D1 ++ D2) := by
  intro D1
  induction D1 with
  | nil => intro _ h; exact h.2.2
  | cons i D1 ih =>
    intro hq h
    refine ⟨h.1, ?_, ih (fun x hx => hq x (by simp [hx])) h.2.2⟩
    have hc : Cond pm (D1 ++ .reset q :: D2) i := h.2.1
    have hqi := hq i (by simp)
    show Cond pm (D1 ++ D2) i
    cases i with
    | measure q' c =>
      have hne : q ≠ q' := by simpa [Ins.qubits] using hqi
      refine ⟨fun p hp => hc.1 p ?_, fun hr x hx => hc.2 ?_ x ?_⟩
      · rcases List.mem_append.1 hp with hp | hp <;> simp [hp]
      · rcases List.mem_append.1 hr with hp | hp <;> simp [hp]
      · rw [← hx, List.find?_append, List.find?_append, List.find?_cons_of_neg (by simp [Ins.qubits, Ne.symm hne])]
    | reset q' =>
      have hne : q ≠ q' := by simpa [Ins.qubits] using hqi
      rcases hc with ⟨x, hx, h1, h2⟩ | hc
      · refine Or.inl ⟨x, ?_, h1, h2⟩
        rcases List.mem_append.1 hx with hx | hx
        · simp [hx]
        · rcases List.mem_cons.1 hx with rfl | hx
          · simp [Ins.qubits] at h1
            exact absurd h1.symm hne
          · simp [hx]
      · exact Or.inr fun x hx => hc x (by rcases List.mem_append.1 hx with hp | hp <;> simp [hp])
    | gate _ _ => trivial
    | dis _ => trivial
    | cif _ _ _ _ => trivial

theorem mok_mem {pm : List Gate → Nat → Bool} {n : Nat} {l : List Ins} (h : MOk pm n l) : ∀ i ∈ l, i.WF ∧ ∀ q ∈ i.qubits, q < n := by
  induction l with
  | nil => simp
  | cons x l ih =>
    intro i hi
    rcases List.mem_cons.1 hi with rfl | hi
    · exact h.1
    · exact ih h.2.2 i hi

end Verif.Sim
