import Verif.Circ.CommuteSwaps
import Verif.Circ.Zero

/-!
A concrete interpretation of the non-unitary operations: measurement, reset and the classically
controlled X gate.
-/

namespace Verif.Circ

open Verif.Rev (upd)

variable {Q C : Type} [DecidableEq Q] [DecidableEq C]

/-- Measurement into a classical bit, reset, X conditioned on a classical bit. -/
inductive Prim where
  | measure | reset | condX
  deriving DecidableEq

/-- Row wire of a qubit. -/
abbrev rw' (q : Q) : Wire Q C := .inl q
/-- Column wire of a qubit. -/
abbrev cw' (q : Q) : Wire Q C := .inr (.inl q)
/-- Wire of a classical bit. -/
abbrev bw' (c : C) : Wire Q C := .inr (.inr c)

/-- Replace row and column of a qubit. -/
def setQ (b : Wire Q C → Bool) (q : Q) (r c : Bool) : Wire Q C → Bool :=
  upd (upd b (rw' q) r) (cw' q) c

/-- Measurement of `q` into `c`: the result is a mixture, the old value of `c` is forgotten. -/
def measA (q : Q) (c : C) (Ψ : Amp (Wire Q C)) : Amp (Wire Q C) := fun b =>
  (if b (rw' q) = b (cw' q) ∧ b (bw' c) = b (rw' q) then 1 else 0) * Ψ (upd b (bw' c) false)
    + (if b (rw' q) = b (cw' q) ∧ b (bw' c) = b (rw' q) then 1 else 0) * Ψ (upd b (bw' c) true)

/-- Reset of `q`. -/
def resetA (q : Q) (Ψ : Amp (Wire Q C)) : Amp (Wire Q C) := fun b =>
  (if b (rw' q) = false ∧ b (cw' q) = false then 1 else 0) * Ψ (setQ b q false false)
    + (if b (rw' q) = false ∧ b (cw' q) = false then 1 else 0) * Ψ (setQ b q true true)

/-- X on `q` if `c` is one. -/
def condXA (q : Q) (c : C) (Ψ : Amp (Wire Q C)) : Amp (Wire Q C) := fun b =>
  (if b (bw' c) = true then 1 else 0) * Ψ (setQ b q (!b (rw' q)) (!b (cw' q)))
    + (if b (bw' c) = true then 0 else 1) * Ψ b

/-- The action of the primitive operations. -/
def primA : Prim → List Q → List C → Amp (Wire Q C) → Amp (Wire Q C)
  | .measure, [q], [c] => measA q c
  | .reset, [q], [] => resetA q
  | .condX, [q], [c] => condXA q c
  | _, _, _ => fun Ψ => Ψ

/-- Two term operators. -/
theorem Loc.two {W : Type} [DecidableEq W] {S : Set W} {T : Amp W → Amp W} (s t : Term S)
    (h : ∀ ψ b, T ψ b = s.d b * ψ (s.f b) + t.d b * ψ (t.f b)) : Loc S T :=
  ⟨[s, t], fun ψ b => by simp [Term.sum, h]⟩

theorem upd_agree {W : Type} [DecidableEq W] {S : Set W} {b c : W → Bool} (h : Agree S b c) (w : W) (v v' : Bool)
    (hv : w ∈ S → v = v') : Agree S (upd b w v) (upd c w v') := by
  intro x hx
  unfold upd
  split
  · rename_i e; exact hv (e ▸ hx)
  · exact h x hx

theorem upd_out {W : Type} [DecidableEq W] {b : W → Bool} {w x : W} {v : Bool} (h : x ≠ w) : upd b w v x = b x := by
  simp [upd, h]

theorem prim_loc (k : Prim) (qs : List Q) (cs : List C) : Loc (wsupp qs cs) (primA k qs cs) := by
  have mr : ∀ q : Q, ∀ cs : List C, rw' q ∈ wsupp [q] cs := fun q cs => List.mem_singleton.2 rfl
  have mc : ∀ q : Q, ∀ cs : List C, cw' q ∈ wsupp [q] cs := fun q cs => List.mem_singleton.2 rfl
  have mb : ∀ (q : Q) (c : C), bw' c ∈ wsupp [q] [c] := fun q c => List.mem_singleton.2 rfl
  have ne : ∀ {S : Set (Wire Q C)} {x w : Wire Q C}, w ∈ S → x ∉ S → x ≠ w := by
    intro S x w h h' e; exact h' (e ▸ h)
  unfold primA
  split
  · rename_i q c
    refine Loc.two
      ⟨fun b => if b (rw' q) = b (cw' q) ∧ b (bw' c) = b (rw' q) then 1 else 0, fun b => upd b (bw' c) false,
        fun b d h => ?_, fun b d h => ?_, fun b x hx => ?_⟩
      ⟨fun b => if b (rw' q) = b (cw' q) ∧ b (bw' c) = b (rw' q) then 1 else 0, fun b => upd b (bw' c) true,
        fun b d h => ?_, fun b d h => ?_, fun b x hx => ?_⟩ (fun ψ b => rfl)
    · simp only [h _ (mr q [c]), h _ (mc q [c]), h _ (mb q c)]
    · exact upd_agree h _ _ _ fun _ => rfl
    · exact upd_out (ne (mb q c) hx)
    · simp only [h _ (mr q [c]), h _ (mc q [c]), h _ (mb q c)]
    · exact upd_agree h _ _ _ fun _ => rfl
    · exact upd_out (ne (mb q c) hx)
  · rename_i q
    refine Loc.two
      ⟨fun b => if b (rw' q) = false ∧ b (cw' q) = false then 1 else 0, fun b => setQ b q false false,
        fun b d h => ?_, fun b d h => ?_, fun b x hx => ?_⟩
      ⟨fun b => if b (rw' q) = false ∧ b (cw' q) = false then 1 else 0, fun b => setQ b q true true,
        fun b d h => ?_, fun b d h => ?_, fun b x hx => ?_⟩ (fun ψ b => rfl)
    · simp only [h _ (mr q []), h _ (mc q [])]
    · exact upd_agree (upd_agree h _ _ _ fun _ => rfl) _ _ _ fun _ => rfl
    · exact (upd_out (ne (mc q []) hx)).trans (upd_out (ne (mr q []) hx))
    · simp only [h _ (mr q []), h _ (mc q [])]
    · exact upd_agree (upd_agree h _ _ _ fun _ => rfl) _ _ _ fun _ => rfl
    · exact (upd_out (ne (mc q []) hx)).trans (upd_out (ne (mr q []) hx))
  · rename_i q c
    refine Loc.two
      ⟨fun b => if b (bw' c) = true then 1 else 0, fun b => setQ b q (!b (rw' q)) (!b (cw' q)),
        fun b d h => ?_, fun b d h => ?_, fun b x hx => ?_⟩
      ⟨fun b => if b (bw' c) = true then 0 else 1, fun b => b,
        fun b d h => ?_, fun b d h => h, fun b x hx => rfl⟩ (fun ψ b => rfl)
    · simp only [h _ (mb q c)]
    · exact upd_agree (upd_agree h _ _ _ fun _ => by rw [h _ (mr q [c])]) _ _ _ fun _ => by
        rw [h _ (mc q [c])]
    · exact (upd_out (ne (mc q [c]) hx)).trans (upd_out (ne (mr q [c]) hx))
    · simp only [h _ (mb q c)]
  · exact Loc.id _

theorem upd_wmap (σ : Equiv.Perm Q) (b : Wire Q C → Bool) (w : Wire Q C) (v : Bool) :
    upd b (wmap σ w) v ∘ wmap σ = upd (b ∘ wmap σ) w v := by
  have inj : ∀ x y : Wire Q C, wmap σ x = wmap σ y → x = y := by
    intro x y h
    match x, y, h with
    | .inl _, .inl _, h => simp only [wmap, Sum.inl.injEq, EmbeddingLike.apply_eq_iff_eq] at h; rw [h]
    | .inr (.inl _), .inr (.inl _), h =>
      simp only [wmap, Sum.inl.injEq, Sum.inr.injEq, EmbeddingLike.apply_eq_iff_eq] at h; rw [h]
    | .inr (.inr _), .inr (.inr _), h => exact h
    | .inl _, .inr (.inl _), h => simp [wmap] at h
    | .inl _, .inr (.inr _), h => simp [wmap] at h
    | .inr (.inl _), .inl _, h => simp [wmap] at h
    | .inr (.inr _), .inl _, h => simp [wmap] at h
    | .inr (.inl _), .inr (.inr _), h => simp [wmap] at h
    | .inr (.inr _), .inr (.inl _), h => simp [wmap] at h
  funext x
  simp only [upd, Function.comp_apply]
  by_cases h : x = w
  · subst h; simp
  · have : ¬ wmap σ x = wmap σ w := fun e => h (inj _ _ e)
    simp [h, this]

theorem setQ_wmap (σ : Equiv.Perm Q) (b : Wire Q C → Bool) (q : Q) (r c : Bool) :
    setQ b (σ q) r c ∘ wmap σ = setQ (b ∘ wmap σ) q r c := by
  unfold setQ
  have h1 := upd_wmap σ (upd b (wmap σ (rw' q)) r) (cw' q) c
  have h2 := upd_wmap σ b (rw' q) r
  rw [← h2, ← h1]
  rfl

theorem prim_nat (k : Prim) (σ : Equiv.Perm Q) (qs : List Q) (cs : List C) (Ψ : Amp (Wire Q C)) :
    primA k (qs.map σ) cs (permW σ Ψ) = permW σ (primA k qs cs Ψ) := by
  match k, qs, cs with
  | .measure, [q], [c] =>
    funext b
    have h1 := fun v => upd_wmap σ b (bw' c) v
    simp only [List.map_cons, List.map_nil, primA, measA, permW]
    rw [← h1, ← h1]
    rfl
  | .reset, [q], [] =>
    funext b
    simp only [List.map_cons, List.map_nil, primA, resetA, permW]
    rw [← setQ_wmap, ← setQ_wmap]
    rfl
  | .condX, [q], [c] =>
    funext b
    simp only [List.map_cons, List.map_nil, primA, condXA, permW]
    rw [← setQ_wmap]
    rfl
  | .measure, [], _ => rfl
  | .measure, [_], [] => rfl
  | .measure, [_], _ :: _ :: _ => rfl
  | .measure, _ :: _ :: _, _ => rfl
  | .reset, [], _ => rfl
  | .reset, [_], _ :: _ => rfl
  | .reset, _ :: _ :: _, _ => rfl
  | .condX, [], _ => rfl
  | .condX, [_], [] => rfl
  | .condX, [_], _ :: _ :: _ => rfl
  | .condX, _ :: _ :: _, _ => rfl

/-- The interpretation by measurement, reset and conditional X. -/
def stdI (Q C : Type) [DecidableEq Q] [DecidableEq C] : Interp Q C Prim where
  f := primA
  loc := prim_loc
  nat := prim_nat

end Verif.Circ
