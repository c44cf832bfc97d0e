import Verif.Qiro.Lemmas
import Mathlib.Data.List.Count

/-!
# Satisfiability: the number of satisfied clauses
-/

namespace Verif.Qiro

/-- The value of a literal. -/
def lit (a : ℕ → Bool) (l : ℤ) : Bool := if 0 < l then a l.natAbs else !a l.natAbs

/-- A clause is satisfied if one of its literals is true. -/
def satClause (a : ℕ → Bool) (c : Clause) : Bool := c.any (lit a)

/-- How many clauses are satisfied. -/
def numSat (a : ℕ → Bool) (cs : List Clause) : ℕ := cs.countP (satClause a)

theorem lit_neg (a : ℕ → Bool) {l : ℤ} (h : l ≠ 0) : lit a (-l) = !lit a l := by
  unfold lit
  rw [Int.natAbs_neg]
  rcases lt_or_gt_of_ne h with h | h
  · rw [if_pos (by omega), if_neg (by omega), Bool.not_not]
  · rw [if_neg (by omega), if_pos (by omega)]

theorem any_erase_false {f : ℤ → Bool} {x : ℤ} (h : f x = false) (c : Clause) : (c.erase x).any f = c.any f := by
  induction c with
  | nil => rfl
  | cons y c ih =>
    rw [List.erase_cons]
    split
    · rename_i e
      have := beq_iff_eq.mp e
      subst this
      rw [List.any_cons, h, Bool.false_or]
    · rw [List.any_cons, List.any_cons, ih]

theorem any_set_same {f : ℤ → Bool} {x y : ℤ} (h : f y = f x) (c : Clause) (hx : x ∈ c) : (c.set (c.idxOf x) y).any f = c.any f := by
  have hlt : c.idxOf x < c.length := List.idxOf_lt_length_iff.mpr hx
  have : (c.set (c.idxOf x) y).map f = c.map f := by
    rw [List.map_set, h]
    have h2 : (c.map f)[c.idxOf x]'(by simpa using hlt) = f x := by simp
    rw [← h2, List.set_getElem_self]
  have h3 : ∀ l : List ℤ, l.any f = (l.map f).any id := fun l => by simp
  rw [h3, this, ← h3]

theorem substClause_sat {a : ℕ → Bool} {i j sg : ℤ} (hj : j ≠ 0) (hi : sg * i ≠ 0) (h : lit a j = lit a (sg * i)) (c : Clause) :
    satClause a (substClause i j sg c) = satClause a c := by
  unfold satClause substClause
  dsimp only
  have h1 : ∀ c : Clause, (if j ∈ c then c.set (c.idxOf j) (sg * i) else c).any (lit a) = c.any (lit a) := fun c => by
    split
    · rename_i hm; exact any_set_same h.symm c hm
    · rfl
  have h2 : ∀ c : Clause, (if -j ∈ c then c.set (c.idxOf (-j)) (-(sg * i)) else c).any (lit a) = c.any (lit a) := fun c => by
    split
    · rename_i hm; exact any_set_same (by rw [lit_neg a hj, lit_neg a hi, h]) c hm
    · rfl
  rw [h2, h1]

theorem numSat_subst {a : ℕ → Bool} {i j sg : ℤ} (hj : j ≠ 0) (hi : sg * i ≠ 0) (h : lit a j = lit a (sg * i)) (cs : List Clause) :
    numSat a (cs.map (substClause i j sg)) = numSat a cs := by
  unfold numSat
  rw [List.countP_map]
  congr 1
  funext c
  exact substClause_sat hj hi h c

/-- How many satisfied clauses one visit removes. -/
def cleared (l : ℤ) (c : Clause) : ℕ := if l ∈ c then 1 else 0

theorem fixClause_sat {a : ℕ → Bool} {l : ℤ} (hl : l ≠ 0) (h : lit a l = true) (c : Clause) :
    (if satClause a c then 1 else 0) = (match fixClause l c with | some c' => if satClause a c' then 1 else 0 | none => 0) + cleared l c := by
  unfold fixClause cleared
  by_cases h1 : l ∈ c
  · rw [if_pos h1, if_pos h1]
    have : satClause a c = true := List.any_eq_true.mpr ⟨l, h1, h⟩
    rw [this]
    simp [satClause]
  · rw [if_neg h1, if_neg h1]
    have hn : lit a (-l) = false := by rw [lit_neg a hl, h]; rfl
    by_cases h2 : -l ∈ c
    · rw [if_pos h2]
      by_cases h3 : c.length = 1
      · rw [if_pos h3]
        obtain ⟨x, rfl⟩ := List.length_eq_one_iff.mp h3
        rw [← List.mem_singleton.mp h2]
        simp [satClause, hn]
      · rw [if_neg h3]
        have e : satClause a (c.erase (-l)) = satClause a c := any_erase_false hn c
        dsimp only
        rw [e, Nat.add_zero]
    · rw [if_neg h2]
      simp

theorem fixLoop_sat {l : ℤ} (hl : l ≠ 0) (fuel i : ℕ) (cs : List Clause) :
    ∃ k, ∀ a : ℕ → Bool, lit a l = true → numSat a cs = numSat a (fixLoop l fuel i cs).1 + k := by
  induction fuel generalizing i cs with
  | zero => exact ⟨0, fun a _ => rfl⟩
  | succ fuel ih =>
    rw [fixLoop]
    cases hc : cs[i]? with
    | none => exact ⟨0, fun a _ => rfl⟩
    | some c =>
      dsimp only
      obtain ⟨hi, hci⟩ := List.getElem?_eq_some_iff.mp hc
      have hmem : c ∈ cs := hci ▸ List.getElem_mem hi
      cases hf : fixClause l c with
      | some c' =>
        obtain ⟨k, hk⟩ := ih (i + 1) (cs.set i c')
        refine ⟨k + cleared l c, fun a ha => ?_⟩
        have h1 := fixClause_sat hl ha c
        rw [hf] at h1
        dsimp only at h1
        have h2 := hk a ha
        have h3 : numSat a (cs.set i c') = numSat a cs - (if satClause a c then 1 else 0) + if satClause a c' then 1 else 0 := by
          unfold numSat
          rw [List.countP_set hi, hci]
        have h4 : (if satClause a c then 1 else 0) ≤ numSat a cs := by
          split
          · rename_i hs
            exact List.countP_pos_iff.mpr ⟨c, hmem, hs⟩
          · exact Nat.zero_le _
        dsimp only
        omega
      | none =>
        obtain ⟨k, hk⟩ := ih (i + 1) (cs.erase c)
        refine ⟨k + cleared l c, fun a ha => ?_⟩
        have h1 := fixClause_sat hl ha c
        rw [hf] at h1
        dsimp only at h1
        have h2 := hk a ha
        have h0 : cleared l c = 0 := by
          unfold cleared
          rw [if_neg]
          intro hm
          unfold fixClause at hf
          rw [if_pos hm] at hf
          cases hf
        have hs : satClause a c = false := by
          by_contra hs
          rw [Bool.not_eq_false] at hs
          rw [hs, h0] at h1
          simp at h1
        have h3 : numSat a (cs.erase c) = numSat a cs := by
          unfold numSat
          rw [List.countP_erase, hs]
          simp
        dsimp only
        omega

/-- The assignment agrees with the correlation of the item. -/
def Agrees (a : ℕ → Bool) : Item → ℚ → Prop
  | .node v, s => (s < 0 → a (v + 1) = true) ∧ (0 < s → a (v + 1) = false)
  | .pair i j, s => (s < 0 → a (j + 1) = !a (i + 1)) ∧ (0 < s → a (j + 1) = a (i + 1))

theorem lit_var (a : ℕ → Bool) (v : ℕ) : lit a ((v : ℤ) + 1) = a (v + 1) := by
  unfold lit
  rw [if_pos (by omega)]
  congr 1

theorem satStep_sat (res : Results) (p : Sat) :
    ∃ k, ∀ a : ℕ → Bool, (∀ it s, findMax (satNodes p) (pairs (satNodes p)) res p.sol = some (it, s) → Agrees a it s) →
      numSat a p.clauses = numSat a (satStep res p).clauses + k := by
  unfold satStep
  cases hf : findMax (satNodes p) (pairs (satNodes p)) res p.sol with
  | none => exact ⟨0, fun a _ => rfl⟩
  | some r =>
    obtain ⟨it, s⟩ := r
    cases it with
    | node v =>
      dsimp only
      split
      · rename_i hs
        obtain ⟨k, hk⟩ := fixLoop_sat (l := (v : ℤ) + 1) (by omega) p.clauses.length 0 p.clauses
        exact ⟨k, fun a ha => hk a (by rw [lit_var]; exact (ha _ _ rfl).1 hs)⟩
      · split
        · rename_i hs
          obtain ⟨k, hk⟩ := fixLoop_sat (l := -((v : ℤ) + 1)) (by omega) p.clauses.length 0 p.clauses
          exact ⟨k, fun a ha => hk a (by rw [lit_neg a (by omega), lit_var, (ha _ _ rfl).2 hs]; rfl)⟩
        · exact ⟨0, fun a _ => rfl⟩
    | pair i j =>
      dsimp only
      split
      · rename_i hs
        refine ⟨0, fun a ha => ?_⟩
        rw [Nat.add_zero]
        exact (numSat_subst (by omega) (by omega) (by rw [one_mul, lit_var, lit_var]; exact (ha _ _ rfl).2 hs) _).symm
      · split
        · rename_i hs
          refine ⟨0, fun a ha => ?_⟩
          rw [Nat.add_zero]
          exact (numSat_subst (by omega) (by omega)
            (by rw [neg_one_mul, lit_neg a (by omega), lit_var, lit_var]; exact (ha _ _ rfl).1 hs) _).symm
        · exact ⟨0, fun a _ => rfl⟩

end Verif.Qiro
