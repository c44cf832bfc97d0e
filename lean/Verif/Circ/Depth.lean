import Mathlib.Data.List.Chain
import Mathlib.Data.List.Sublists
import Mathlib.Order.Basic

/-!
Model of `get_depth_dic` (misc/utility.py) and `QuantumCircuit.depth`.
-/

namespace Verif.Circ

/-- An instruction as far as the depth looks at it: name, its qubits and clbits, the depth of its
operation. -/
structure DInstr (B : Type) where
  name : String
  bits : List B
  w : Nat

variable {B : Type} [DecidableEq B]

/-- utility.py:168. -/
def DInstr.skipped (i : DInstr B) : Bool := ["qb_alloc", "qb_dealloc", "gphase"].contains i.name

/-- utility.py:167-187: one instruction; `max([])` raises. The list indexed through `bit_indices` is a
function on the bits. -/
def depthStep (st : B → Nat) (i : DInstr B) : Option (B → Nat) :=
  if i.skipped then some st else
  match (i.bits.map fun b => st b + i.w).max? with
  | none => none
  | some m => some fun b => if b ∈ i.bits then m else st b

/-- utility.py:167-187: all instructions. -/
def depthRun : (B → Nat) → List (DInstr B) → Option (B → Nat)
  | st, [] => some st
  | st, i :: r => (depthStep st i).bind fun st => depthRun st r

/-- quantum_circuit.py:1277-1322 `depth` (after transpilation), utility.py:137-189; weights are
integers. -/
def depth (qubits : List B) (data : List (DInstr B)) : Option Nat :=
  if data = [] then some 0
  else if qubits = [] then none
  else (depthRun (fun _ => 0) data).bind fun st => (qubits.map st).max?

/-! ### Specification -/

/-- A dependency chain: counted instructions in program order, consecutive ones sharing a bit. -/
def DepChain (data c : List (DInstr B)) : Prop :=
  c.Sublist (data.filter fun i => !i.skipped) ∧ c.IsChain fun a b => ∃ x ∈ a.bits, x ∈ b.bits

/-- Total depth of a chain. -/
def chainW (c : List (DInstr B)) : Nat := (c.map DInstr.w).sum

/-! ### Proof -/

/-- The heights are the maximal weights of the chains ending in a bit. -/
structure DInv (p : List (DInstr B)) (st : B → Nat) : Prop where
  upper : ∀ c l, DepChain p (c ++ [l]) → ∀ b ∈ l.bits, chainW (c ++ [l]) ≤ st b
  lower : ∀ b, ∃ c, DepChain p c ∧ (∀ l ∈ c.getLast?, b ∈ l.bits) ∧ chainW c = st b

theorem chainW_snoc (c : List (DInstr B)) (l : DInstr B) : chainW (c ++ [l]) = chainW c + l.w := by
  simp [chainW]

theorem DInv.init : DInv ([] : List (DInstr B)) (fun _ => 0) := by
  constructor
  · intro c l h
    have := h.1
    simp at this
  · intro b
    exact ⟨[], ⟨by simp, by simp⟩, by simp, rfl⟩

theorem DInv.step {p : List (DInstr B)} {st st' : B → Nat} {i : DInstr B} (h : DInv p st)
    (e : depthStep st i = some st') : DInv (p ++ [i]) st' := by
  unfold depthStep at e
  split at e
  · next hs =>
    simp only [Option.some.injEq] at e
    subst e
    have hf : (p ++ [i]).filter (fun i => !i.skipped) = p.filter fun i => !i.skipped := by
      simp [List.filter_append, hs]
    exact ⟨fun c l hc => h.upper c l ⟨by rw [← hf]; exact hc.1, hc.2⟩, fun b => by
      obtain ⟨c, hc, h2⟩ := h.lower b
      exact ⟨c, ⟨by rw [hf]; exact hc.1, hc.2⟩, h2⟩⟩
  · next hs =>
    have hf : (p ++ [i]).filter (fun i => !i.skipped) = (p.filter fun i => !i.skipped) ++ [i] := by
      simp [List.filter_append, hs]
    cases hm : (i.bits.map fun b => st b + i.w).max? with
    | none => rw [hm] at e; simp at e
    | some m =>
      rw [hm] at e
      simp only [Option.some.injEq] at e
      subst e
      obtain ⟨hmem, hmax⟩ := List.max?_eq_some_iff.1 hm
      have hge : ∀ b ∈ i.bits, st b + i.w ≤ m := fun b hb => hmax _ (List.mem_map.2 ⟨b, hb, rfl⟩)
      constructor
      · intro c l hc b hb
        have hsub := hc.1
        rw [hf] at hsub
        obtain ⟨c1, c2, e, s1, s2⟩ := List.sublist_append_iff.1 hsub
        have hc2 : c2 = [] ∨ c2 = [i] := by
          match c2, s2 with
          | [], _ => exact Or.inl rfl
          | [a], s2 => right; rw [List.singleton_sublist, List.mem_singleton] at s2; rw [s2]
          | a :: a' :: r, s2 => have := s2.length_le; simp at this
        rcases hc2 with rfl | rfl
        · rw [List.append_nil] at e
          have h1 := h.upper c l ⟨by rw [e]; exact s1, hc.2⟩ b hb
          split
          · next hbi => have := hge b hbi; omega
          · exact h1
        · obtain ⟨rfl, rfl⟩ : c = c1 ∧ l = i := by
            have := List.append_inj' e rfl
            exact ⟨this.1, by simpa using this.2⟩
          rw [if_pos hb, chainW_snoc]
          rcases List.eq_nil_or_concat' c with rfl | ⟨c', l', rfl⟩
          · have := hge b hb
            simp [chainW]
            omega
          · have hch := hc.2
            rw [List.append_assoc, List.singleton_append] at hch
            rw [List.isChain_append] at hch
            have hch2 := hch.2.1
            rw [List.isChain_cons_cons] at hch2
            obtain ⟨x, hx1, hx2⟩ := hch2.1
            have hpre : (c' ++ [l']).IsChain (fun a b => ∃ x ∈ a.bits, x ∈ b.bits) := by
              have := hc.2
              rw [List.isChain_append] at this
              exact this.1
            have h1 := h.upper c' l' ⟨s1, hpre⟩ x hx1
            have h2 := hge x hx2
            omega
      · intro b
        by_cases hb : b ∈ i.bits
        · obtain ⟨x, hx, ex⟩ := List.mem_map.1 hmem
          obtain ⟨c, hc, hl, hw⟩ := h.lower x
          refine ⟨c ++ [i], ⟨?_, ?_⟩, by simpa using hb, ?_⟩
          · rw [hf]
            exact hc.1.append (List.Sublist.refl _)
          · rw [List.isChain_append]
            refine ⟨hc.2, by simp, ?_⟩
            intro a ha b' hb'
            simp at hb'
            subst hb'
            exact ⟨x, hl a ha, hx⟩
          · rw [chainW_snoc, hw, if_pos hb]
            exact ex
        · obtain ⟨c, hc, hl, hw⟩ := h.lower b
          refine ⟨c, ⟨?_, hc.2⟩, hl, by rw [if_neg hb]; exact hw⟩
          rw [hf]
          exact hc.1.trans (List.sublist_append_left _ _)

theorem DInv.run {data p : List (DInstr B)} {st st' : B → Nat} (h : DInv p st)
    (e : depthRun st data = some st') : DInv (p ++ data) st' := by
  induction data generalizing p st with
  | nil =>
    simp only [depthRun, Option.some.injEq] at e
    subst e
    simpa using h
  | cons i r ih =>
    simp only [depthRun] at e
    obtain ⟨s, h1, h2⟩ := Option.bind_eq_some_iff.1 e
    have := ih (h.step h1) h2
    simpa using this

theorem depthRun_some (data : List (DInstr B)) (h : ∀ i ∈ data, i.skipped = false → i.bits ≠ [])
    (st : B → Nat) : ∃ st', depthRun st data = some st' := by
  induction data generalizing st with
  | nil => exact ⟨st, rfl⟩
  | cons i r ih =>
    simp only [depthRun]
    have : ∃ s, depthStep st i = some s := by
      unfold depthStep
      split
      · exact ⟨_, rfl⟩
      · next hs =>
        have hne := h i (by simp) (by simpa using hs)
        cases hm : (i.bits.map fun b => st b + i.w).max? with
        | none =>
          rw [List.max?_eq_none_iff] at hm
          simp at hm
          exact absurd hm hne
        | some m => exact ⟨_, rfl⟩
    obtain ⟨s, hs⟩ := this
    rw [hs, Option.bind_some]
    exact ih (fun i hi => h i (by simp [hi])) s

theorem depth_spec (qubits : List B) (data : List (DInstr B)) (hq : qubits ≠ [])
    (h : ∀ i ∈ data, i.skipped = false → ∃ q ∈ qubits, q ∈ i.bits) :
    ∃ d, depth qubits data = some d ∧ (∀ c, DepChain data c → chainW c ≤ d) ∧
      ∃ c, DepChain data c ∧ chainW c = d := by
  unfold depth
  by_cases hd : data = []
  · subst hd
    refine ⟨0, by simp, ?_, [], ⟨by simp, by simp⟩, rfl⟩
    intro c hc
    have := hc.1
    simp at this
    subst this
    simp [chainW]
  · rw [if_neg hd, if_neg hq]
    obtain ⟨st, hst⟩ := depthRun_some data (fun i hi hs => by
      obtain ⟨q, _, hq⟩ := h i hi hs
      exact List.ne_nil_of_mem hq) (fun _ => 0)
    rw [hst, Option.bind_some]
    have inv : DInv data st := by simpa using DInv.init.run hst
    cases hm : (qubits.map st).max? with
    | none =>
      rw [List.max?_eq_none_iff] at hm
      simp at hm
      exact absurd hm hq
    | some d =>
      obtain ⟨m1, m2⟩ := List.max?_eq_some_iff.1 hm
      refine ⟨d, rfl, ?_, ?_⟩
      · intro c hc
        rcases List.eq_nil_or_concat' c with rfl | ⟨c', l, rfl⟩
        · simp [chainW]
        · have hl : l ∈ data.filter fun i => !i.skipped := hc.1.subset (by simp)
          rw [List.mem_filter] at hl
          obtain ⟨q, hq1, hq2⟩ := h l hl.1 (by simpa using hl.2)
          have h1 := inv.upper c' l hc q hq2
          have h2 := m2 (st q) (List.mem_map.2 ⟨q, hq1, rfl⟩)
          omega
      · obtain ⟨q, _, e⟩ := List.mem_map.1 m1
        obtain ⟨c, hc, _, hw⟩ := inv.lower q
        exact ⟨c, hc, by rw [hw, e]⟩

end Verif.Circ
