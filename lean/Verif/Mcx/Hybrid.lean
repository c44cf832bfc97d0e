import Verif.Mcx.Khattar

/-!
# Static hybrid / Balauca mcx and mcp

Model of `alg_primitives/mcx_algs/balauca.py:45-281` without dirty ancillas. A control comes with its control bit.
Allocated ancillas are `a 0, a 1, …`.
-/

set_option linter.unusedSectionVars false

namespace Verif.Mcx

open Verif.Rev

variable {Q : Type} [DecidableEq Q] {G : Type} [CommGroup G]

/-- circuit/controlled_operations.py:62-64 (and 216-218), mcx_algs/gidney.py:33-36: X on the controls with bit 0. -/
def flipZero (ps : List (Q × Bool)) : List (PGate Q G) :=
  ps.flatMap fun p => if p.2 then [] else [.mcx [] p.1]

/-- A gate with control state. -/
def ctl (ps : List (Q × Bool)) (gs : List (PGate Q G)) : List (PGate Q G) := flipZero ps ++ gs ++ flipZero ps

/-- The gates of one entry of a layer, balauca.py:207-253. -/
def groupGate (mcm : Bool) : List (Q × Bool) → Q → List (PGate Q G)
  | [p, q], t => if mcm then ctl [p, q] [.land p.1 q.1 t] else ctl [p, q] [.pt [p.1, q.1] t]
  | ps, t => ctl ps [.pt (ps.map Prod.fst) t]

/-- balauca.py:258-281 `structure_decider`; `none` is `np.inf`. -/
def structureDecider (n : Nat) (k : Option Nat) : List Nat :=
  match k with
  | none => List.replicate (n / 2) 2
  | some k =>
    if (n : Int) - 2 - k ≤ 0 then List.replicate (n / 2) 2
    else if (n : Int) - 2 - k > k then List.replicate k 3
    else List.replicate (n - 2 - k) 3 ++ List.replicate (k - (n - 2 - k)) 2

/-- Result of the loop balauca.py:148-158 together with the layer 160-167. -/
structure Layer (Q G : Type) where
  gates : List (PGate Q G)
  outs : List Q
  rem : List (Q × Bool)

/-- balauca.py:148-167; `nx` is the number of the next ancilla. -/
def layer (a : Nat → Q) (mcm : Bool) : List Nat → List (Q × Bool) → Nat → Layer Q G
  | [], ps, _ => ⟨[], [], ps⟩
  | m :: ms, ps, nx =>
    if m ≤ ps.length then
      let r := layer a mcm ms (ps.drop m) (nx + 1)
      ⟨groupGate mcm (ps.take m) (a nx) ++ r.gates, a nx :: r.outs, r.rem⟩
    else ⟨[], [], ps⟩

/-- balauca.py:97-138, the end of the recursion. -/
def hybridBase (mcm : Bool) (phase : Option G) (ps : List (Q × Bool)) (t : Q) : List (PGate Q G) :=
  match phase with
  | none => ctl ps [.mcx (ps.map Prod.fst) t]
  | some z =>
    if ps.length = 2 + (!mcm).toNat then conj (groupGate mcm ps t) [.ph z t]
    else ctl ps [.cph z (ps.map Prod.fst ++ [t])]

/-- balauca.py:51-190 `hybrid_mcx` with `num_dirty_ancilla = 0`. Every pass has fewer controls, `fuel` bounds them. -/
def hybridGo (a : Nat → Q) (mcm : Bool) (phase : Option G) (t : Q) : Nat → Option Nat → List (Q × Bool) → Nat →
    List (PGate Q G)
  | 0, _, ps, _ => hybridBase mcm phase ps t
  | fuel + 1, k, ps, nx =>
    if ps.length ≤ 2 + (!mcm).toNat ∨ k = some 0 then hybridBase mcm phase ps t
    else
      let l : Layer Q G := layer a mcm (structureDecider ps.length k) ps nx
      conj l.gates (hybridGo a mcm phase t fuel (k.map (· - l.outs.length)) (l.outs.map (·, true) ++ l.rem)
        (nx + l.outs.length))

def hybridMcx (a : Nat → Q) (mcm : Bool) (phase : Option G) (k : Option Nat) (ps : List (Q × Bool)) (t : Q) :
    List (PGate Q G) :=
  hybridGo a mcm phase t ps.length k ps 0

/-- The controls are in their control state. -/
def allMatch (ps : List (Q × Bool)) (s : St Q) : Bool := ps.all fun p => s p.1 == p.2

/-! ### Gates with control state -/

theorem flipZero_exec (φ : List Bool → Bool → G) : ∀ (ps : List (Q × Bool)), (ps.map Prod.fst).Nodup → ∀ (s : St Q) (g : G),
    ∃ s', exec φ (flipZero ps) (s, g) = some (s', g) ∧ (∀ p ∈ ps, s' p.1 = (s p.1 == p.2)) ∧
      ∀ x, x ∉ ps.map Prod.fst → s' x = s x := by
  intro ps
  induction ps with
  | nil => intro _ s g; exact ⟨s, rfl, by simp, fun _ _ => rfl⟩
  | cons p ps ih =>
    intro hn s g
    rw [List.map_cons, List.nodup_cons] at hn
    unfold flipZero
    rw [List.flatMap_cons, exec_append]
    have key : ∃ s1, exec φ (if p.2 then [] else [PGate.mcx [] p.1]) (s, g) = some (s1, g) ∧ s1 p.1 = (s p.1 == p.2) ∧
        ∀ x, x ≠ p.1 → s1 x = s x := by
      cases hp : p.2
      · refine ⟨upd s p.1 (!s p.1), by simp [exec, PGate.exec, allOn], ?_, fun x hx => upd_ne hx⟩
        rw [upd_same]
        cases s p.1 <;> rfl
      · refine ⟨s, by simp [exec], ?_, fun _ _ => rfl⟩
        cases s p.1 <;> rfl
    obtain ⟨s1, e1, v1, f1⟩ := key
    obtain ⟨s2, e2, v2, f2⟩ := ih hn.2 s1 g
    refine ⟨s2, ?_, ?_, ?_⟩
    · rw [e1, Option.bind_some]
      exact e2
    · intro q hq
      rcases List.mem_cons.1 hq with rfl | hq
      · rw [f2 _ hn.1, v1]
      · rw [v2 q hq, f1 _ fun e => hn.1 (e ▸ List.mem_map_of_mem hq)]
    · intro x hx
      rw [List.map_cons, List.mem_cons, not_or] at hx
      rw [f2 x hx.2, f1 x hx.1]

theorem ctl_exec (φ : List Bool → Bool → G) {ps : List (Q × Bool)} (hn : (ps.map Prod.fst).Nodup) {t : Q}
    (ht : t ∉ ps.map Prod.fst) {s : St Q} {g g1 : G} {v : Bool} {gs : List (PGate Q G)}
    (h : ∀ s', (∀ p ∈ ps, s' p.1 = (s p.1 == p.2)) → s' t = s t → exec φ gs (s', g) = some (upd s' t v, g1)) :
    exec φ (ctl ps gs) (s, g) = some (upd s t v, g1) := by
  obtain ⟨s1, e1, v1, f1⟩ := flipZero_exec φ ps hn s g
  obtain ⟨s2, e2, v2, f2⟩ := flipZero_exec φ ps hn (upd s1 t v) g1
  unfold ctl
  rw [exec_append, exec_append, e1, Option.bind_some, h s1 v1 (f1 t ht), Option.bind_some, e2]
  congr 2
  funext x
  by_cases hx : x ∈ ps.map Prod.fst
  · obtain ⟨p, hp, rfl⟩ := List.mem_map.1 hx
    have hxt : p.1 ≠ t := fun e => ht (e ▸ hx)
    rw [v2 p hp, upd_ne hxt, v1 p hp, upd_ne hxt]
    cases s p.1 <;> cases p.2 <;> rfl
  · rw [f2 x hx]
    by_cases hxt : x = t
    · subst hxt
      rw [upd_same, upd_same]
    · rw [upd_ne hxt, upd_ne hxt, f1 x hx]

theorem allOn_match {ps : List (Q × Bool)} {s s' : St Q} (h : ∀ p ∈ ps, s' p.1 = (s p.1 == p.2)) :
    allOn (ps.map Prod.fst) s' = allMatch ps s := by
  unfold allOn allMatch
  rw [List.all_map, Bool.eq_iff_iff, List.all_eq_true, List.all_eq_true]
  refine forall₂_congr fun p hp => ?_
  rw [Function.comp, h p hp]

theorem groupGate_exec (φ : List Bool → Bool → G) (mcm : Bool) {ps : List (Q × Bool)} (hn : (ps.map Prod.fst).Nodup)
    {t : Q} (ht : t ∉ ps.map Prod.fst) {s : St Q} (hz : s t = false) (g : G) :
    ∃ g', exec φ (groupGate mcm ps t) (s, g) = some (upd s t (allMatch ps s), g') := by
  have generic : ∃ g', exec φ (ctl ps [.pt (ps.map Prod.fst) t]) (s, g) = some (upd s t (allMatch ps s), g') := by
    refine ⟨g * φ (ps.map fun p => (s p.1 == p.2)) false, ctl_exec φ hn ht fun s' h1 h2 => ?_⟩
    simp only [exec, PGate.exec, Option.bind_some, allOn_match h1, h2, hz, Bool.false_xor, List.map_map]
    congr 4
    exact List.map_congr_left fun p hp => h1 p hp
  match ps, generic with
  | [p, q], generic =>
    rw [groupGate]
    cases mcm
    · exact generic
    · refine ⟨g, ctl_exec φ hn ht fun s' h1 h2 => ?_⟩
      have := allOn_match h1
      simp only [List.map_cons, List.map_nil, allOn, List.all_cons, List.all_nil, Bool.and_true] at this
      simp [exec, PGate.exec, h2, hz, this]
  | [], generic => exact generic
  | [p], generic => exact generic
  | p :: q :: r :: ps, generic => exact generic

theorem flipZero_mem {ps : List (Q × Bool)} {p : PGate Q G} (hp : p ∈ (flipZero ps : List (PGate Q G))) :
    ∃ q ∈ ps.map Prod.fst, p = .mcx [] q := by
  unfold flipZero at hp
  obtain ⟨x, hx, h⟩ := List.mem_flatMap.1 hp
  split at h
  · cases h
  · rw [List.mem_singleton] at h
    exact ⟨x.1, List.mem_map_of_mem hx, h⟩

theorem groupGate_wf (mcm : Bool) {ps : List (Q × Bool)} {t : Q} (ht : t ∉ ps.map Prod.fst) :
    ∀ p ∈ (groupGate mcm ps t : List (PGate Q G)), p.wf ∧ ∀ x ∈ p.qubits, x = t ∨ x ∈ ps.map Prod.fst := by
  have flips : ∀ p ∈ (flipZero ps : List (PGate Q G)), p.wf ∧ ∀ x ∈ p.qubits, x = t ∨ x ∈ ps.map Prod.fst := by
    intro p hp
    obtain ⟨q, hq, rfl⟩ := flipZero_mem hp
    refine ⟨by simp [PGate.wf], fun x hx => Or.inr ?_⟩
    simp only [PGate.qubits, List.mem_cons, List.not_mem_nil, or_false] at hx
    rw [hx]
    exact hq
  have generic : ∀ p ∈ (ctl ps [.pt (ps.map Prod.fst) t] : List (PGate Q G)), p.wf ∧
      ∀ x ∈ p.qubits, x = t ∨ x ∈ ps.map Prod.fst := by
    intro p hp
    unfold ctl at hp
    rw [List.mem_append, List.mem_append] at hp
    rcases hp with (hp | hp) | hp
    · exact flips p hp
    · rw [List.mem_singleton] at hp
      subst hp
      exact ⟨ht, fun x hx => List.mem_cons.1 hx⟩
    · exact flips p hp
  match ps, generic, flips with
  | [p, q], generic, flips =>
    rw [groupGate]
    cases mcm
    · exact generic
    · intro r hr
      simp only [if_true] at hr
      unfold ctl at hr
      rw [List.mem_append, List.mem_append] at hr
      rcases hr with (hr | hr) | hr
      · exact flips r hr
      · rw [List.mem_singleton] at hr
        subst hr
        simp only [List.map_cons, List.map_nil, List.mem_cons, List.not_mem_nil, or_false, not_or] at ht
        refine ⟨⟨Ne.symm ht.1, Ne.symm ht.2⟩, fun x hx => ?_⟩
        simp only [PGate.qubits, List.mem_cons, List.not_mem_nil, or_false] at hx
        simpa using hx
      · exact flips r hr
  | [], generic, _ => exact generic
  | [p], generic, _ => exact generic
  | p :: q :: r :: ps, generic, _ => exact generic

/-! ### Layers -/

/-- Ancillas from `nx` on are different from each other and from the given qubits. -/
structure Fresh (a : Nat → Q) (nx : Nat) (qs : List Q) : Prop where
  inj : ∀ i j, nx ≤ i → nx ≤ j → a i = a j → i = j
  out : ∀ j, nx ≤ j → a j ∉ qs

theorem layer_spec (φ : List Bool → Bool → G) (a : Nat → Q) (mcm : Bool) : ∀ (ms : List Nat) (ps : List (Q × Bool)) (nx : Nat),
    (∀ m ∈ ms, 2 ≤ m) → (ps.map Prod.fst).Nodup → Fresh a nx (ps.map Prod.fst) →
    ∀ l : Layer Q G, layer a mcm ms ps nx = l →
    (∀ p ∈ l.gates, p.wf ∧ ∀ x ∈ p.qubits, (∃ j, nx ≤ j ∧ x = a j) ∨ x ∈ ps.map Prod.fst) ∧
    l.outs = (List.range l.outs.length).map (fun i => a (nx + i)) ∧ (l.rem.map Prod.fst).Sublist (ps.map Prod.fst) ∧
    2 * l.outs.length + l.rem.length ≤ ps.length ∧ l.outs.length ≤ ms.length ∧
    ∀ (s : St Q) (g : G), (∀ j, nx ≤ j → s (a j) = false) → ∃ s' g', exec φ l.gates (s, g) = some (s', g') ∧
      (∀ x, (∀ j, nx ≤ j → x ≠ a j) → s' x = s x) ∧ (∀ j, nx + l.outs.length ≤ j → s' (a j) = false) ∧
      allMatch (l.outs.map (·, true) ++ l.rem) s' = allMatch ps s := by
  intro ms
  induction ms with
  | nil =>
    intro ps nx _ _ _ l hl
    subst hl
    refine ⟨by simp [layer], rfl, List.Sublist.refl _, by simp [layer], le_refl _, fun s g hz => ?_⟩
    exact ⟨s, g, rfl, fun _ _ => rfl, fun j hj => hz j (by simpa using Nat.le_trans (Nat.le_add_right _ _) hj), rfl⟩
  | cons m ms ih =>
    intro ps nx hms hn hf l hl
    rw [layer] at hl
    by_cases hm : m ≤ ps.length
    · rw [if_pos hm] at hl
      have hn1 : ((ps.take m).map Prod.fst).Nodup := by
        rw [List.map_take]
        exact (List.take_sublist _ _).nodup hn
      have hsub : ((ps.drop m).map Prod.fst).Sublist (ps.map Prod.fst) := by
        rw [List.map_drop]
        exact List.drop_sublist _ _
      have hsub1 : ((ps.take m).map Prod.fst).Sublist (ps.map Prod.fst) := by
        rw [List.map_take]
        exact List.take_sublist _ _
      have hf2 : Fresh a (nx + 1) ((ps.drop m).map Prod.fst) :=
        ⟨fun i j hi hj => hf.inj i j (by omega) (by omega), fun j hj h => hf.out j (by omega) (hsub.subset h)⟩
      obtain ⟨i1, i2, i3, i4, i5, i6⟩ := ih (ps.drop m) (nx + 1) (fun x hx => hms x (by simp [hx])) (hsub.nodup hn) hf2
        _ rfl
      generalize hr : (layer a mcm ms (ps.drop m) (nx + 1) : Layer Q G) = r at *
      subst hl
      have ht : a nx ∉ (ps.take m).map Prod.fst := fun h => hf.out nx (le_refl _) (hsub1.subset h)
      have hm2 := hms m (by simp)
      refine ⟨?_, ?_, i3.trans hsub, ?_, ?_, ?_⟩
      · intro p hp
        rcases List.mem_append.1 hp with hp | hp
        · obtain ⟨w, q⟩ := groupGate_wf mcm ht p hp
          refine ⟨w, fun x hx => ?_⟩
          rcases q x hx with h | h
          · exact Or.inl ⟨nx, le_refl _, h⟩
          · exact Or.inr (hsub1.subset h)
        · obtain ⟨w, q⟩ := i1 p hp
          refine ⟨w, fun x hx => ?_⟩
          rcases q x hx with ⟨j, hj, h⟩ | h
          · exact Or.inl ⟨j, by omega, h⟩
          · exact Or.inr (hsub.subset h)
      · simp only [List.length_cons, List.range_succ_eq_map, List.map_cons, List.map_map, Nat.add_zero]
        congr 1
        rw [i2]
        simp only [List.length_map, List.length_range]
        apply List.map_congr_left
        intro i _
        simp only [Function.comp]
        congr 1
        omega
      · have : (ps.drop m).length = ps.length - m := List.length_drop
        simp only [List.length_cons]
        omega
      · simp only [List.length_cons]
        omega
      · intro s g hz
        obtain ⟨g1, e1⟩ := groupGate_exec φ mcm hn1 ht (hz nx (le_refl _)) g
        obtain ⟨s2, g2, e2, f2, z2, m2⟩ := i6 (upd s (a nx) (allMatch (ps.take m) s)) g1 (by
          intro j hj
          rw [upd_ne fun e => by
            have := hf.inj j nx (by omega) (le_refl _) e
            omega]
          exact hz j (by omega))
        refine ⟨s2, g2, ?_, ?_, ?_, ?_⟩
        · rw [exec_append, e1, Option.bind_some, e2]
        · intro x hx
          rw [f2 x fun j hj => hx j (by omega), upd_ne (hx nx (le_refl _))]
        · intro j hj
          simp only [List.length_cons] at hj
          exact z2 j (by omega)
        · have hnx : s2 (a nx) = allMatch (ps.take m) s := by
            rw [f2 _ fun j hj e => by
              have := hf.inj nx j (le_refl _) (by omega) e
              omega, upd_same]
          have hd : allMatch (ps.drop m) (upd s (a nx) (allMatch (ps.take m) s)) = allMatch (ps.drop m) s := by
            unfold allMatch
            rw [Bool.eq_iff_iff, List.all_eq_true, List.all_eq_true]
            refine forall₂_congr fun p hp => ?_
            have hne : p.1 ≠ a nx := fun e => hf.out nx (le_refl _) (hsub.subset (e ▸ List.mem_map_of_mem hp))
            rw [upd_ne hne]
          have : allMatch ((a nx :: r.outs).map (·, true) ++ r.rem) s2 =
              (s2 (a nx) && allMatch (r.outs.map (·, true) ++ r.rem) s2) := by
            simp [allMatch]
          show allMatch ((a nx :: r.outs).map (·, true) ++ r.rem) s2 = _
          rw [this, hnx, m2, hd]
          unfold allMatch
          rw [← List.all_append, List.take_append_drop]
    · rw [if_neg hm] at hl
      subst hl
      refine ⟨by simp, rfl, List.Sublist.refl _, by simp, by simp, fun s g hz => ?_⟩
      exact ⟨s, g, rfl, fun _ _ => rfl, fun j hj => hz j (by simpa using Nat.le_trans (Nat.le_add_right _ _) hj), rfl⟩

theorem structure_ge {n : Nat} {k : Option Nat} : ∀ m ∈ structureDecider n k, 2 ≤ m ∧ m ≤ 3 := by
  intro m hm
  unfold structureDecider at hm
  split at hm
  · rw [List.mem_replicate] at hm; omega
  · split at hm
    · rw [List.mem_replicate] at hm; omega
    · split at hm
      · rw [List.mem_replicate] at hm; omega
      · rw [List.mem_append, List.mem_replicate, List.mem_replicate] at hm; omega

/-- The structure never asks for more ancillas than available. -/
theorem structure_len {n k : Nat} (hn : 3 ≤ n) : (structureDecider n (some k)).length ≤ k := by
  unfold structureDecider
  split
  · rename_i h; cases h
  · rename_i k' h
    obtain rfl : k = k' := by injection h
    split
    · rw [List.length_replicate]; omega
    · split
      · rw [List.length_replicate]
      · rw [List.length_append, List.length_replicate, List.length_replicate]; omega

/-- A layer always has an output, so the recursion ends. -/
theorem layer_outs (a : Nat → Q) (mcm : Bool) {ps : List (Q × Bool)} {k : Option Nat} (nx : Nat)
    (h : 2 + (!mcm).toNat < ps.length) (hk : k ≠ some 0) :
    0 < (layer (G := G) a mcm (structureDecider ps.length k) ps nx).outs.length := by
  have h3 : 3 ≤ ps.length := by omega
  have hne : structureDecider ps.length k ≠ [] := by
    unfold structureDecider
    split
    · intro h; have := congrArg List.length h; simp at this; omega
    · rename_i k' 
      split
      · intro h; have := congrArg List.length h; simp at this; omega
      · split
        · intro h
          have := congrArg List.length h
          simp at this
          exact hk (by rw [this])
        · intro h
          have := congrArg List.length h
          rw [List.length_append, List.length_replicate, List.length_replicate, List.length_nil] at this
          omega
  cases hs : structureDecider ps.length k with
  | nil => exact absurd hs hne
  | cons m ms =>
    have hm := structure_ge m (by rw [hs]; simp)
    rw [layer, if_pos (by omega)]
    simp

/-! ### The recursion -/

theorem hybridBase_mcx (φ : List Bool → Bool → G) (mcm : Bool) {ps : List (Q × Bool)} (hn : (ps.map Prod.fst).Nodup) {t : Q}
    (ht : t ∉ ps.map Prod.fst) (s : St Q) (g : G) :
    exec φ (hybridBase mcm none ps t) (s, g) = some (upd s t (s t ^^ allMatch ps s), g) := by
  unfold hybridBase
  refine ctl_exec φ hn ht fun s' h1 h2 => ?_
  simp [exec, PGate.exec, allOn_match h1, h2]

theorem next_ok {a : Nat → Q} {nx n : Nat} {ps rem : List (Q × Bool)} {outs : List Q} {t : Q}
    (hn : (ps.map Prod.fst).Nodup) (hf : Fresh a nx (t :: ps.map Prod.fst)) (ht : t ∉ ps.map Prod.fst)
    (ho : outs = (List.range n).map fun i => a (nx + i)) (hr : (rem.map Prod.fst).Sublist (ps.map Prod.fst)) :
    ((outs.map (·, true) ++ rem).map Prod.fst).Nodup ∧ t ∉ (outs.map (·, true) ++ rem).map Prod.fst ∧
    Fresh a (nx + n) (t :: (outs.map (·, true) ++ rem).map Prod.fst) := by
  have e : (outs.map (·, true) ++ rem).map Prod.fst = outs ++ rem.map Prod.fst := by
    rw [List.map_append, List.map_map]
    congr 1
    exact List.map_id' outs
  rw [e]
  have mem : ∀ x ∈ outs, ∃ i, i < n ∧ x = a (nx + i) := by
    intro x hx
    rw [ho] at hx
    obtain ⟨i, hi, rfl⟩ := List.mem_map.1 hx
    exact ⟨i, List.mem_range.1 hi, rfl⟩
  refine ⟨?_, ?_, ⟨fun i j hi hj => hf.inj i j (by omega) (by omega), ?_⟩⟩
  · rw [List.nodup_append]
    refine ⟨?_, hr.nodup hn, ?_⟩
    · rw [ho]
      refine List.Nodup.map_on ?_ List.nodup_range
      intro i hi j hj h
      have := hf.inj _ _ (by omega) (by omega) h
      omega
    · intro x hx y hy e
      obtain ⟨i, hi, rfl⟩ := mem x hx
      exact hf.out (nx + i) (by omega) (List.mem_cons_of_mem _ (hr.subset (e ▸ hy)))
  · intro h
    rcases List.mem_append.1 h with h | h
    · obtain ⟨i, hi, h⟩ := mem t h
      exact hf.out (nx + i) (by omega) (by rw [← h]; simp)
    · exact ht (hr.subset h)
  · intro j hj h
    rcases List.mem_cons.1 h with h | h
    · exact hf.out j (by omega) (by rw [h]; simp)
    · rcases List.mem_append.1 h with h | h
      · obtain ⟨i, hi, h⟩ := mem _ h
        have := hf.inj _ _ (by omega) (by omega) h
        omega
      · exact hf.out j (by omega) (List.mem_cons_of_mem _ (hr.subset h))

theorem hybridGo_mcx (φ : List Bool → Bool → G) (a : Nat → Q) (mcm : Bool) (t : Q) : ∀ (fuel : Nat) (k : Option Nat)
    (ps : List (Q × Bool)) (nx : Nat), (ps.map Prod.fst).Nodup → t ∉ ps.map Prod.fst →
    Fresh a nx (t :: ps.map Prod.fst) → ∀ (s : St Q) (g : G), (∀ j, nx ≤ j → s (a j) = false) →
    exec φ (hybridGo a mcm none t fuel k ps nx) (s, g) = some (upd s t (s t ^^ allMatch ps s), g) := by
  intro fuel
  induction fuel with
  | zero => intro k ps nx hn ht _ s g _; exact hybridBase_mcx φ mcm hn ht s g
  | succ fuel ih =>
    intro k ps nx hn ht hf s g hz
    rw [hybridGo]
    split
    · exact hybridBase_mcx φ mcm hn ht s g
    · have hf' : Fresh a nx (ps.map Prod.fst) := ⟨hf.inj, fun j hj h => hf.out j hj (List.mem_cons_of_mem _ h)⟩
      obtain ⟨i1, i2, i3, _, _, i6⟩ := layer_spec φ a mcm (structureDecider ps.length k) ps nx
        (fun m hm => (structure_ge m hm).1) hn hf' _ rfl
      generalize (layer a mcm (structureDecider ps.length k) ps nx : Layer Q G) = l at *
      obtain ⟨s1, g1, e1, f1, z1, m1⟩ := i6 s g hz
      obtain ⟨n1, n2, n3⟩ := next_ok hn hf ht i2 i3
      have htq : ∀ p ∈ l.gates, t ∉ p.qubits := by
        intro p hp h
        rcases (i1 p hp).2 t h with ⟨j, hj, h⟩ | h
        · exact hf.out j hj (by rw [← h]; simp)
        · exact ht h
      have := exec_conj φ (fun p hp => (i1 p hp).1) htq e1 (z := 1) (v := s t ^^ allMatch ps s)
        (B := hybridGo a mcm none t fuel (k.map (· - l.outs.length)) (l.outs.map (·, true) ++ l.rem)
          (nx + l.outs.length)) (by
          rw [ih _ _ _ n1 n2 n3 s1 g1 (fun j hj => z1 j hj), m1, f1 t fun j hj e => hf.out j hj (by rw [← e]; simp),
            mul_one])
      rw [mul_one] at this
      exact this

theorem hybridGo_mcp (φ : List Bool → Bool → G) (z : G) (a : Nat → Q) (t : Q) : ∀ (fuel : Nat)
    (ps : List (Q × Bool)) (nx : Nat), ps.length ≤ fuel + 2 → 2 ≤ ps.length → (ps.map Prod.fst).Nodup →
    t ∉ ps.map Prod.fst → Fresh a nx (t :: ps.map Prod.fst) → ∀ (s : St Q) (g : G),
    (∀ j, nx ≤ j → s (a j) = false) → s t = false →
    exec φ (hybridGo a true (some z) t fuel none ps nx) (s, g) = some (s, if allMatch ps s then g * z else g) := by
  have base : ∀ (ps : List (Q × Bool)), ps.length = 2 → (ps.map Prod.fst).Nodup → t ∉ ps.map Prod.fst →
      ∀ (s : St Q) (g : G), s t = false →
      exec φ (hybridBase true (some z) ps t) (s, g) = some (s, if allMatch ps s then g * z else g) := by
    intro ps hlen hn ht s g h0
    have hb : (hybridBase true (some z) ps t : List (PGate Q G)) = conj (groupGate true ps t) [.ph z t] := by
      show (if ps.length = 2 + (!true).toNat then _ else _) = _
      rw [if_pos (by simpa using hlen)]
    rw [hb]
    obtain ⟨g1, e1⟩ := groupGate_exec φ true hn ht h0 g
    have hw := fun p hp => (groupGate_wf (G := G) true ht p hp).1
    have hv : exec φ [PGate.ph z t] (upd s t (allMatch ps s), g1) =
        some (upd s t (allMatch ps s), if allMatch ps s then g1 * z else g1) := by
      simp only [exec, PGate.exec, upd_same, Option.bind_some]
    unfold conj
    rw [exec_append, exec_append, e1, Option.bind_some, hv, Option.bind_some, exec_inv φ _ hw e1]
    congr 2
    cases allMatch ps s
    · simp
    · simp only [if_true]
      calc g1 * z * (g1⁻¹ * g) = g * z * (g1 * g1⁻¹) := by ac_rfl
        _ = g * z := by simp
  intro fuel
  induction fuel with
  | zero => intro ps nx hle hge hn ht _ s g _ h0; exact base ps (by omega) hn ht s g h0
  | succ fuel ih =>
    intro ps nx hle hge hn ht hf s g hz h0
    rw [hybridGo]
    split
    · rename_i hc
      refine base ps ?_ hn ht s g h0
      rcases hc with hc | hc
      · simp only [Bool.not_true, Bool.toNat_false] at hc
        omega
      · cases hc
    · rename_i hc
      have hlt : 2 + (!true).toNat < ps.length := by
        by_contra h
        exact hc (Or.inl (by omega))
      have hf' : Fresh a nx (ps.map Prod.fst) := ⟨hf.inj, fun j hj h => hf.out j hj (List.mem_cons_of_mem _ h)⟩
      have hpos := layer_outs (G := G) a true (k := none) nx hlt (by simp)
      obtain ⟨i1, i2, i3, i4, i5, i6⟩ := layer_spec φ a true (structureDecider ps.length none) ps nx
        (fun m hm => (structure_ge m hm).1) hn hf' _ rfl
      have hlen : (structureDecider ps.length none).length = ps.length / 2 := by
        simp [structureDecider]
      have hge2 : ∀ (n : Nat) (qs : List (Q × Bool)) (nx : Nat), 
          (layer (G := G) a true (List.replicate n 2) qs nx).rem.length +
          2 * (layer (G := G) a true (List.replicate n 2) qs nx).outs.length = qs.length := by
        intro n
        induction n with
        | zero => intro qs nx; simp [layer]
        | succ n ihn =>
          intro qs nx
          rw [List.replicate_succ, layer]
          split
          · rename_i h2
            have := ihn (qs.drop 2) (nx + 1)
            rw [List.length_drop] at this
            simp only [List.length_cons]
            omega
          · simp
      have hr := hge2 (ps.length / 2) ps nx
      have hsd : structureDecider ps.length none = List.replicate (ps.length / 2) 2 := rfl
      rw [← hsd] at hr
      generalize (layer a true (structureDecider ps.length none) ps nx : Layer Q G) = l at *
      obtain ⟨s1, g1, e1, f1, z1, m1⟩ := i6 s g hz
      obtain ⟨n1, n2, n3⟩ := next_ok hn hf ht i2 i3
      have htq : ∀ p ∈ l.gates, t ∉ p.qubits := by
        intro p hp h
        rcases (i1 p hp).2 t h with ⟨j, hj, h⟩ | h
        · exact hf.out j hj (by rw [← h]; simp)
        · exact ht h
      have ht1 : s1 t = false := by
        rw [f1 t fun j hj e => hf.out j hj (by rw [← e]; simp)]
        exact h0
      have hll : (l.outs.map (·, true) ++ l.rem).length = l.outs.length + l.rem.length := by simp
      have := exec_conj φ (fun p hp => (i1 p hp).1) htq e1 (z := if allMatch ps s then z else 1) (v := false)
        (B := hybridGo a true (some z) t fuel (Option.map (· - l.outs.length) none) (l.outs.map (·, true) ++ l.rem)
          (nx + l.outs.length)) (by
          rw [show Option.map (· - l.outs.length) (none : Option Nat) = none from rfl,
            ih _ _ (by omega) (by omega) n1 n2 n3 s1 g1 (fun j hj => z1 j hj) ht1, m1, upd_false ht1]
          cases allMatch ps s <;> simp)
      rw [this, upd_false h0]
      cases allMatch ps s <;> simp

end Verif.Mcx
