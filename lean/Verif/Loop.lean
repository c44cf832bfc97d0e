import Mathlib.Data.Nat.Init

/-!
Loop combinators used by every model that transcribes a JAX `fori_loop` /
`while_loop` or a Python `for i in range(lo, hi)` / `while`.
-/
namespace Verif

/-- `for i in range(lo, hi): s = body(i, s)`; `lax.fori_loop(lo, hi, body, s)`. -/
def fori {σ : Type*} (lo hi : Nat) (body : Nat → σ → σ) (s : σ) : σ :=
  (List.range' lo (hi - lo)).foldl (fun s i => body i s) s

/-- `while cond(s): s = body(s)` cut off after `fuel` iterations. Every use comes with a
lemma that the fuel suffices (the condition is false on the result). -/
def whileLoop {σ : Type*} (fuel : Nat) (cond : σ → Bool) (body : σ → σ) (s : σ) : σ :=
  match fuel with
  | 0 => s
  | f + 1 => if cond s then whileLoop f cond body (body s) else s

theorem fori_self {σ : Type*} (lo : Nat) (body : Nat → σ → σ) (s : σ) : fori lo lo body s = s := by
  simp [fori]

theorem fori_succ {σ : Type*} {lo hi : Nat} (h : lo ≤ hi) (body : Nat → σ → σ) (s : σ) :
    fori lo (hi + 1) body s = body hi (fori lo hi body s) := by
  unfold fori
  rw [Nat.succ_sub h, List.range'_concat, List.foldl_append]
  simp [Nat.add_sub_cancel' h]

/-- Invariant rule for counted loops. -/
theorem fori_inv {σ : Type*} (P : Nat → σ → Prop) {lo hi : Nat} (hle : lo ≤ hi)
    (body : Nat → σ → σ) (s : σ) (h0 : P lo s)
    (hs : ∀ i s, lo ≤ i → i < hi → P i s → P (i + 1) (body i s)) :
    P hi (fori lo hi body s) := by
  induction hi, hle using Nat.le_induction with
  | base => simpa [fori_self] using h0
  | succ k hk ih =>
    rw [fori_succ hk]
    exact hs _ _ hk (Nat.lt_succ_self _) (ih (fun i s h1 h2 => hs i s h1 (Nat.lt_succ_of_lt h2)))

/-- Invariant rule for while loops. -/
theorem whileLoop_inv {σ : Type*} (P : σ → Prop) (fuel : Nat) (cond : σ → Bool) (body : σ → σ)
    (s : σ) (h0 : P s) (hs : ∀ s, P s → cond s = true → P (body s)) :
    P (whileLoop fuel cond body s) := by
  induction fuel generalizing s with
  | zero => exact h0
  | succ f ih =>
    unfold whileLoop
    split
    · next h => exact ih _ (hs _ h0 h)
    · exact h0

/-- With a measure below the fuel the loop has really ended: its condition is false. -/
theorem whileLoop_done {σ : Type*} (μ : σ → Nat) (P : σ → Prop) (fuel : Nat) (cond : σ → Bool)
    (body : σ → σ) (s : σ) (hP : P s) (hs : ∀ s, P s → cond s = true → P (body s))
    (hμ : ∀ s, P s → cond s = true → μ (body s) < μ s) (hf : μ s < fuel) :
    cond (whileLoop fuel cond body s) = false := by
  induction fuel generalizing s with
  | zero => omega
  | succ f ih =>
    unfold whileLoop
    split
    · next h =>
      refine ih _ (hs _ hP h) ?_
      have := hμ s hP h
      omega
    · next h => simpa using h

end Verif
