import Verif.Sess.Model

/-!
# Lemmas on circuits up to exchanging instructions, and on linked sessions
-/

namespace Verif.Sess

theorem Disj.symm {i j : Instr} (h : Disj i j) : Disj j i := fun b hj hi => h b hi hj

namespace Commutes

theorem symm {a b : List Instr} (h : Commutes a b) : Commutes b a := by
  induction h with
  | refl l => exact .refl l
  | swap pre post i j h => exact .swap pre post j i h.symm
  | trans _ _ h1 h2 => exact h2.trans h1

theorem left (p : List Instr) {a b : List Instr} (h : Commutes a b) : Commutes (p ++ a) (p ++ b) := by
  induction h with
  | refl l => exact .refl _
  | swap pre post i j h => simpa using Commutes.swap (p ++ pre) post i j h
  | trans _ _ h1 h2 => exact h1.trans h2

theorem right (p : List Instr) {a b : List Instr} (h : Commutes a b) : Commutes (a ++ p) (b ++ p) := by
  induction h with
  | refl l => exact .refl _
  | swap pre post i j h => simpa using Commutes.swap pre (post ++ p) i j h
  | trans _ _ h1 h2 => exact h1.trans h2

theorem append {a b c d : List Instr} (h1 : Commutes a b) (h2 : Commutes c d) : Commutes (a ++ c) (b ++ d) :=
  (h1.right c).trans (h2.left b)

/-- An instruction moves past others on different qubits. -/
theorem push (j : Instr) : ∀ (l : List Instr), (∀ i ∈ l, Disj i j) → Commutes (l ++ [j]) (j :: l)
  | [], _ => .refl _
  | i :: l, h => ((push j l fun k hk => h k (by simp [hk])).left [i]).trans (.swap [] l i j (h i (by simp)))

/-- Interleaved instructions of two groups on different qubits can be separated. -/
theorem split (P Q : Instr → Bool) : ∀ (l : List Instr), (∀ i ∈ l, ¬(P i = true ∧ Q i = true)) →
    (∀ i ∈ l, ∀ j ∈ l, P i = true → Q j = true → Disj i j) →
    Commutes (l.filter P ++ l.filter Q) (l.filter fun i => P i || Q i)
  | [], _, _ => .refl _
  | i :: l, h1, h2 => by
      have ih := split P Q l (fun k hk => h1 k (by simp [hk])) fun a ha b hb => h2 a (by simp [ha]) b (by simp [hb])
      by_cases hP : P i = true
      · have hQ : Q i = false := by
          cases hq : Q i with
          | false => rfl
          | true => exact absurd ⟨hP, hq⟩ (h1 i (by simp))
        simp only [List.filter_cons, hP, hQ, if_true, Bool.true_or, List.cons_append]
        exact ih.left [i]
      · by_cases hQ : Q i = true
        · have hP' : P i = false := by simpa using hP
          simp only [List.filter_cons, hP', hQ, if_true, Bool.or_true, Bool.false_eq_true, if_false]
          have := (push i (l.filter P) fun a ha => 
            h2 a (by simp [(List.mem_filter.1 ha).1]) i (by simp) (List.mem_filter.1 ha).2 hQ).right (l.filter Q)
          have h3 := this.trans (ih.left [i])
          simpa using h3
        · have hP' : P i = false := by simpa using hP
          have hQ' : Q i = false := by simpa using hQ
          simp only [List.filter_cons, hP', hQ', Bool.or_self, Bool.false_eq_true, if_false]
          exact ih

/-- The instructions on one qubit keep their order. -/
theorem onQubit {a b : List Instr} (h : Commutes a b) (q : Qubit) :
    (a.filter fun i => decide (q ∈ i.qubits)) = b.filter fun i => decide (q ∈ i.qubits) := by
  induction h with
  | refl l => rfl
  | swap pre post i j h =>
    simp only [List.filter_append, List.filter_cons]
    by_cases hi : q ∈ i.qubits
    · have hj := h q hi
      simp [hi, hj]
    · by_cases hj : q ∈ j.qubits <;> simp [hi, hj]
  | trans _ _ h1 h2 => exact h1.trans h2

theorem perm {a b : List Instr} (h : Commutes a b) : a.Perm b := by
  induction h with
  | refl l => exact .refl _
  | swap pre post i j h => exact List.Perm.append_left _ (List.Perm.swap _ _ _)
  | trans _ _ h1 h2 => exact h1.trans h2

end Commutes

/-! ## Linked sessions -/

/-- The function `f` tells which sessions are linked by the pairs in `L`. -/
def Tells (f : Nat → Nat) (L : List (Nat × Nat)) : Prop :=
  ∀ s t, f s = f t ↔ Relation.EqvGen (fun a b => (a, b) ∈ L) s t

theorem eqv_mono {L L' : List (Nat × Nat)} (h : ∀ p ∈ L, Relation.EqvGen (fun a b => (a, b) ∈ L') p.1 p.2) {s t : Nat}
    (hs : Relation.EqvGen (fun a b => (a, b) ∈ L) s t) : Relation.EqvGen (fun a b => (a, b) ∈ L') s t := by
  induction hs with
  | rel x y hxy => exact h _ hxy
  | refl x => exact .refl x
  | symm x y _ ih => exact .symm _ _ ih
  | trans x y z _ _ h1 h2 => exact .trans _ _ _ h1 h2

theorem Tells.congr {f : Nat → Nat} {L L' : List (Nat × Nat)} (h : Tells f L)
    (h1 : ∀ p ∈ L, Relation.EqvGen (fun a b => (a, b) ∈ L') p.1 p.2)
    (h2 : ∀ p ∈ L', Relation.EqvGen (fun a b => (a, b) ∈ L) p.1 p.2) : Tells f L' := fun s t =>
  (h s t).trans ⟨eqv_mono h1, eqv_mono h2⟩

theorem eqv_append {L M : List (Nat × Nat)} {s t : Nat} (h : Relation.EqvGen (fun a b => (a, b) ∈ L) s t) :
    Relation.EqvGen (fun a b => (a, b) ∈ L ++ M) s t :=
  eqv_mono (fun p hp => .rel _ _ (List.mem_append_left _ hp)) h

/-- One more pair. -/
theorem Tells.link {f f' : Nat → Nat} {L : List (Nat × Nat)} (h : Tells f L) (a b : Nat)
    (hf : ∀ s, f' s = if f s = f b then f a else f s) : Tells f' (L ++ [(a, b)]) := by
  have hab : Relation.EqvGen (fun x y => (x, y) ∈ L ++ [(a, b)]) a b := .rel _ _ (by simp)
  have hL : ∀ {s t}, f s = f t → Relation.EqvGen (fun x y => (x, y) ∈ L ++ [(a, b)]) s t := fun h1 =>
    eqv_append ((h _ _).1 h1)
  have key : ∀ s, Relation.EqvGen (fun x y => (x, y) ∈ L ++ [(a, b)]) s (if f s = f b then a else s) := by
    intro s
    split
    · rename_i h1
      exact .trans _ _ _ (hL h1) (.symm _ _ hab)
    · exact .refl _
  have hf' : ∀ s, f' s = f (if f s = f b then a else s) := by
    intro s
    rw [hf]
    split <;> rfl
  intro s t
  constructor
  · intro h1
    rw [hf', hf'] at h1
    exact .trans _ _ _ (key s) (.trans _ _ _ (hL h1) (.symm _ _ (key t)))
  · intro h1
    induction h1 with
    | rel x y hxy =>
      rcases List.mem_append.1 hxy with h2 | h2
      · have := (h x y).2 (.rel _ _ h2)
        rw [hf, hf, this]
      · obtain ⟨rfl, rfl⟩ : x = a ∧ y = b := by simpa using h2
        rw [hf, hf, if_pos rfl]
        split <;> rfl
    | refl x => rfl
    | symm x y _ ih => exact ih.symm
    | trans x y z _ _ h1 h2 => exact h1.trans h2

end Verif.Sess
