import Verif.Circ.Convert
import Mathlib.Algebra.BigOperators.Group.Finset.Basic
import Mathlib.Data.Fintype.Pi

/-!
The passes resolve_swaps, commute_swaps and arrange_swaps.
-/

namespace Verif.Circ

open Verif.Rev (upd)

variable {Q C K : Type} [DecidableEq Q] [DecidableEq C]

/-! ### resolve_swaps -/

/-- `perm[a], perm[b] = perm[b], perm[a]`. -/
def swapAt (perm : List Nat) (a b : Nat) : List Nat :=
  match perm[a]?, perm[b]? with
  | some x, some y => (perm.set a y).set b x
  | _, _ => perm

/-- resolve_swaps.py:88-97: the loop; returns the new instructions and the final permutation table.
`none` if a qubit is not registered (ValueError/KeyError). -/
def resolveGo (qubits : List Q) : List (CI Q C K) → List Nat → Option (List (CI Q C K) × List Nat)
  | [], perm => some ([], perm)
  | i :: r, perm =>
    if i.op.name = "swap" then
      match i.qs with
      | a :: b :: _ =>
        if a ∈ qubits ∧ b ∈ qubits then
          resolveGo qubits r (swapAt perm (qubits.idxOf a) (qubits.idxOf b))
        else none
      | _ => none
    else
      match i.qs.mapM fun q => if q ∈ qubits then
          (perm[qubits.idxOf q]?).bind fun p => qubits[p]? else none with
      | none => none
      | some qs' => (resolveGo qubits r perm).map fun x => (⟨i.op, qs', i.cs⟩ :: x.1, x.2)

/-- resolve_swaps.py:77-99. -/
def resolveSwaps (qubits : List Q) (data : List (CI Q C K)) : Option (List (CI Q C K) × List Nat) :=
  resolveGo qubits data (List.range qubits.length)

/-- The table `perm` describes the permutation `τ` of the qubits. -/
def Tab (qubits : List Q) (perm : List Nat) (τ : Equiv.Perm Q) : Prop :=
  perm.length = qubits.length ∧
  (∀ (i : Nat) q, qubits[i]? = some q → ∃ p : Nat, perm[i]? = some p ∧ qubits[p]? = some (τ q)) ∧
  ∀ q, q ∉ qubits → τ q = q

theorem idxOf_get {qubits : List Q} {q : Q} (h : q ∈ qubits) : qubits[qubits.idxOf q]? = some q := by
  rw [List.getElem?_eq_getElem (List.idxOf_lt_length_iff.2 h)]
  simp

theorem Tab.swap {qubits : List Q} (hnd : qubits.Nodup) {perm : List Nat} {τ : Equiv.Perm Q}
    (h : Tab qubits perm τ) {a b : Q} (ha : a ∈ qubits) (hb : b ∈ qubits) :
    Tab qubits (swapAt perm (qubits.idxOf a) (qubits.idxOf b)) (τ * Equiv.swap a b) := by
  obtain ⟨h1, h2, h3⟩ := h
  obtain ⟨x, hx, hx'⟩ := h2 _ _ (idxOf_get ha)
  obtain ⟨y, hy, hy'⟩ := h2 _ _ (idxOf_get hb)
  have hla : qubits.idxOf a < perm.length := by rw [h1]; exact List.idxOf_lt_length_iff.2 ha
  have hlb : qubits.idxOf b < perm.length := by rw [h1]; exact List.idxOf_lt_length_iff.2 hb
  have e : swapAt perm (qubits.idxOf a) (qubits.idxOf b)
      = (perm.set (qubits.idxOf a) y).set (qubits.idxOf b) x := by
    unfold swapAt; rw [hx, hy]
  rw [e]
  refine ⟨by simp [h1], fun i q hq => ?_, fun q hq => ?_⟩
  · have hq' : q ∈ qubits := List.mem_of_getElem? hq
    have hi : i = qubits.idxOf q := by
      obtain ⟨hi, hh⟩ := List.getElem?_eq_some_iff.1 hq
      rw [← hh]; exact (List.Nodup.idxOf_getElem hnd i hi).symm
    subst hi
    rw [List.getElem?_set, List.getElem?_set]
    simp only [Equiv.Perm.mul_apply, List.length_set]
    by_cases hqb : q = b
    · subst hqb
      simp only [if_true, hlb, Equiv.swap_apply_right]
      exact ⟨x, rfl, hx'⟩
    · have n1 : ¬ qubits.idxOf b = qubits.idxOf q := fun e =>
        hqb ((List.idxOf_inj hb).1 e).symm
      simp only [n1, if_false]
      by_cases hqa : q = a
      · subst hqa
        simp only [if_true, hla, Equiv.swap_apply_left]
        exact ⟨y, rfl, hy'⟩
      · have n2 : ¬ qubits.idxOf a = qubits.idxOf q := fun e => hqa ((List.idxOf_inj ha).1 e).symm
        simp only [n2, if_false]
        rw [Equiv.swap_apply_of_ne_of_ne hqa hqb]
        exact h2 _ _ hq
  · have n1 : q ≠ a := fun e => hq (e ▸ ha)
    have n2 : q ≠ b := fun e => hq (e ▸ hb)
    simp only [Equiv.Perm.mul_apply, Equiv.swap_apply_of_ne_of_ne n1 n2]
    exact h3 q hq

theorem Tab.mapped {qubits : List Q} {perm : List Nat} {τ : Equiv.Perm Q} (h : Tab qubits perm τ)
    (qs qs' : List Q) (he : (qs.mapM fun q => if q ∈ qubits then
      (perm[qubits.idxOf q]?).bind fun p => qubits[p]? else none) = some qs') : qs' = qs.map τ := by
  induction qs generalizing qs' with
  | nil => simp at he; simp [he]
  | cons q r ih =>
    simp only [List.mapM_cons] at he
    by_cases hq : q ∈ qubits
    · obtain ⟨p, hp, hp'⟩ := h.2.1 _ _ (idxOf_get hq)
      simp only [hq, if_true, hp, Option.bind_some, hp'] at he
      cases hr : List.mapM (fun q => if q ∈ qubits then
        (perm[qubits.idxOf q]?).bind fun p => qubits[p]? else none) r with
      | none => simp [hr] at he
      | some rs =>
        simp [hr] at he
        rw [← he, ih rs hr]; rfl
    · simp [hq] at he

/-- Every swap instruction is a swap of two qubits. -/
def SwapOK (I : Interp Q C K) (i : CI Q C K) : Prop :=
  i.op.name = "swap" → ∃ a b, i.qs = [a, b] ∧ ∀ p q cs Ψ, p ≠ q →
    cden I i.op [p, q] cs Ψ = permW (Equiv.swap p q) Ψ

theorem resolveGo_sound (I : Interp Q C K) (qubits : List Q) (hnd : qubits.Nodup)
    (data : List (CI Q C K)) (hnq : ∀ i ∈ data, i.qs.Nodup) (hs : ∀ i ∈ data, SwapOK I i)
    (perm : List Nat) (τ : Equiv.Perm Q) (ht : Tab qubits perm τ) (out : List (CI Q C K))
    (perm' : List Nat) (h : resolveGo qubits data perm = some (out, perm')) :
    ∃ τ' : Equiv.Perm Q, Tab qubits perm' τ' ∧
      ∀ Ψ, crun I data (permW τ⁻¹ Ψ) = permW τ'⁻¹ (crun I out Ψ) := by
  induction data generalizing perm τ out with
  | nil =>
    simp only [resolveGo, Option.some.injEq, Prod.mk.injEq] at h
    obtain ⟨rfl, rfl⟩ := h
    exact ⟨τ, ht, fun Ψ => rfl⟩
  | cons i r ih =>
    have ih := ih (fun j hj => hnq j (by simp [hj])) (fun j hj => hs j (by simp [hj]))
    simp only [resolveGo] at h
    split at h
    · rename_i hn
      obtain ⟨a, b, hq, hd⟩ := hs i (by simp) hn
      rw [hq] at h
      simp only at h
      split at h
      · rename_i hab
        obtain ⟨τ', ht', hrun⟩ := ih _ _ (ht.swap hnd hab.1 hab.2) _ h
        refine ⟨τ', ht', fun Ψ => ?_⟩
        have hne : a ≠ b := by
          have := hnq i (by simp); rw [hq] at this; simpa using this
        rw [← hrun Ψ]
        simp only [crun]
        rw [hq, hd a b _ _ hne, permW_mul]
        have : Equiv.swap a b * τ⁻¹ = (τ * Equiv.swap a b)⁻¹ := by
          rw [mul_inv_rev, Equiv.swap_inv]
        rw [this]
      · cases h
    · generalize hm : (i.qs.mapM fun q => if q ∈ qubits then
          (perm[qubits.idxOf q]?).bind fun p => qubits[p]? else none) = m at h
      match m, h with
      | none, h => cases h
      | some qs', h =>
        simp only [Option.map_eq_some_iff] at h
        obtain ⟨x, hx, he⟩ := h
        cases he
        obtain ⟨τ', ht', hrun⟩ := ih _ _ ht _ hx
        refine ⟨τ', ht', fun Ψ => ?_⟩
        simp only [crun]
        rw [← hrun, ht.mapped _ _ hm]
        have := cden_perm I i.op τ⁻¹ (i.qs.map τ) i.cs Ψ
        rw [List.map_map] at this
        have e : (⇑τ⁻¹ ∘ ⇑τ) = id := by funext q; simp
        rw [e, List.map_id] at this
        rw [this]

theorem Tab.range (qubits : List Q) : Tab qubits (List.range qubits.length) 1 := by
  refine ⟨by simp, fun i q h => ⟨i, ?_, by simpa using h⟩, fun q _ => rfl⟩
  have := (List.getElem?_eq_some_iff.1 h).1
  simp [this]

/-- The probability of a value of the classical bits: trace over the qubits. -/
def clProb [Fintype Q] (Ψ : Amp (Wire Q C)) (c : C → Bool) : ℂ :=
  ∑ x : Q → Bool, Ψ (Sum.elim x (Sum.elim x c))

theorem clProb_perm [Fintype Q] (σ : Equiv.Perm Q) (Ψ : Amp (Wire Q C)) (c : C → Bool) :
    clProb (permW σ Ψ) c = clProb Ψ c := by
  unfold clProb permW
  refine Fintype.sum_equiv (Equiv.arrowCongr σ.symm (Equiv.refl Bool)) _ _ fun x => ?_
  congr 1
  funext w
  match w with
  | .inl _ => rfl
  | .inr (.inl _) => rfl
  | .inr (.inr _) => rfl

/-! ### Names and success -/

theorem resolveGo_names (qubits : List Q) (data : List (CI Q C K)) (perm : List Nat)
    (out : List (CI Q C K)) (perm' : List Nat) (h : resolveGo qubits data perm = some (out, perm')) :
    ∀ i ∈ out, i.op.name ≠ "swap" := by
  induction data generalizing perm out with
  | nil => simp only [resolveGo, Option.some.injEq, Prod.mk.injEq] at h; rw [← h.1]; simp
  | cons i r ih =>
    rw [resolveGo] at h
    split at h
    · split at h
      · split at h
        · exact ih _ _ h
        · cases h
      · cases h
    · rename_i hn
      split at h
      · cases h
      · cases hr : resolveGo qubits r perm with
        | none => rw [hr] at h; cases h
        | some x =>
          rw [hr] at h
          simp only [Option.map_some, Option.some.injEq, Prod.mk.injEq] at h
          rw [← h.1]
          intro j hj
          rcases List.mem_cons.1 hj with rfl | hj
          · exact hn
          · exact ih perm x.1 (by rw [hr, ← h.2]) j hj

theorem resolveGo_total (qubits : List Q) (data : List (CI Q C K))
    (hq : ∀ i ∈ data, ∀ q ∈ i.qs, q ∈ qubits) (h2 : ∀ i ∈ data, i.op.name = "swap" → i.qs.length = 2)
    (perm : List Nat) (hl : perm.length = qubits.length) (hp : ∀ p ∈ perm, p < qubits.length) :
    (resolveGo qubits data perm).isSome = true := by
  induction data generalizing perm with
  | nil => rfl
  | cons i r ih =>
    have ih' := ih (fun j hj => hq j (by simp [hj])) (fun j hj => h2 j (by simp [hj]))
    rw [resolveGo]
    split
    · rename_i hn
      obtain ⟨a, b, hab⟩ := List.length_eq_two.1 (h2 i (by simp) hn)
      have ha := hq i (by simp) a (by rw [hab]; simp)
      have hb := hq i (by simp) b (by rw [hab]; simp)
      rw [hab]
      simp only [ha, hb, and_self, if_true]
      refine ih' _ ?_ ?_
      · unfold swapAt; split <;> simp [hl]
      · unfold swapAt
        split
        · rename_i x y hx hy
          intro p hm
          rcases List.mem_or_eq_of_mem_set hm with hm | rfl
          · rcases List.mem_or_eq_of_mem_set hm with hm | rfl
            · exact hp p hm
            · exact hp _ (List.mem_of_getElem? hy)
          · exact hp _ (List.mem_of_getElem? hx)
        · exact hp
    · have key : ∀ l : List Q, (∀ q ∈ l, q ∈ qubits) → ∃ o, (l.mapM fun q => if q ∈ qubits then
          (perm[qubits.idxOf q]?).bind fun p => qubits[p]? else none) = some o := by
        intro l hlq
        induction l with
        | nil => exact ⟨[], rfl⟩
        | cons q t iht =>
          obtain ⟨o, ho⟩ := iht fun x hx => hlq x (by simp [hx])
          have hqq := hlq q (by simp)
          have hlt : qubits.idxOf q < perm.length := by rw [hl]; exact List.idxOf_lt_length_iff.2 hqq
          have hpl := hp _ (List.getElem_mem hlt)
          refine ⟨qubits[perm[qubits.idxOf q]] :: o, ?_⟩
          rw [List.mapM_cons, ho]
          simp only [hqq, if_true, List.getElem?_eq_getElem hlt, Option.bind_some, List.getElem?_eq_getElem hpl]
          rfl
      obtain ⟨o, ho⟩ := key i.qs (hq i (by simp))
      rw [ho]
      obtain ⟨x, hx⟩ := Option.isSome_iff_exists.1 (ih' perm hl hp)
      rw [hx]; rfl

end Verif.Circ
