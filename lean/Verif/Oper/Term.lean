import Verif.Oper.Factor
import Mathlib.Algebra.BigOperators.Fin
import Mathlib.Algebra.BigOperators.Ring.Finset
import Mathlib.Algebra.BigOperators.GroupWithZero.Finset
import Mathlib.Data.Fintype.BigOperators
import Mathlib.Tactic.LinearCombination

/-!
Qubit terms: products of single qubit factors (src/qrisp/operators/qubit/qubit_term.py).
-/

namespace Verif.Oper

/-- The tensor product of single qubit matrices. -/
noncomputable def tensor {n : Nat} (M : Fin n → Matrix Bool Bool ℂ) : MatN n :=
  fun b c => ∏ k, M k (b k) (c k)

theorem tensor_mul {n : Nat} (M N : Fin n → Matrix Bool Bool ℂ) :
    tensor M * tensor N = tensor fun k => M k * N k := by
  ext b c
  simp only [Matrix.mul_apply, tensor, ← Finset.prod_mul_distrib]
  rw [Finset.prod_univ_sum]
  rfl

theorem tensor_smul {n : Nat} (c : Fin n → ℂ) (M : Fin n → Matrix Bool Bool ℂ) :
    (tensor fun k => c k • M k) = (∏ k, c k) • tensor M := by
  ext b d
  simp [tensor, Finset.prod_mul_distrib, Matrix.smul_apply]

/-- The single qubit factors of a nonzero tensor product are determined up to a scalar. -/
theorem tensor_eq_factor {n : Nat} {M N : Fin n → Matrix Bool Bool ℂ} {x y : ℂ}
    (h : x • tensor M = y • tensor N) (hx : x ≠ 0) (hM : ∀ k, ∃ i j, M k i j ≠ 0) (k : Fin n)
    (i j i' j' : Bool) : M k i j * N k i' j' = M k i' j' * N k i j := by
  classical
  choose b c hbc using hM
  have key : ∀ p q : Bool, x * (M k p q * ∏ l ∈ Finset.univ.erase k, M l (b l) (c l)) =
      y * (N k p q * ∏ l ∈ Finset.univ.erase k, N l (b l) (c l)) := by
    intro p q
    have h1 := congrFun (congrFun h (Function.update b k p)) (Function.update c k q)
    simp only [tensor, Matrix.smul_apply, smul_eq_mul] at h1
    rw [← Finset.mul_prod_erase Finset.univ _ (Finset.mem_univ k),
      ← Finset.mul_prod_erase Finset.univ _ (Finset.mem_univ k)] at h1
    simp only [Function.update_self] at h1
    rw [Finset.prod_congr rfl (fun l hl => by
        rw [Function.update_of_ne (Finset.ne_of_mem_erase hl),
          Function.update_of_ne (Finset.ne_of_mem_erase hl)]),
      Finset.prod_congr (s₁ := Finset.univ.erase k) (f := fun l => N l _ _) rfl (fun l hl => by
        rw [Function.update_of_ne (Finset.ne_of_mem_erase hl),
          Function.update_of_ne (Finset.ne_of_mem_erase hl)])] at h1
    exact h1
  set P := ∏ l ∈ Finset.univ.erase k, M l (b l) (c l)
  set R := ∏ l ∈ Finset.univ.erase k, N l (b l) (c l)
  have hP : P ≠ 0 := Finset.prod_ne_zero_iff.2 fun l _ => hbc l
  have h1 := key i j
  have h2 := key i' j'
  have hxP : x * P ≠ 0 := mul_ne_zero hx hP
  have : x * P * (M k i j * N k i' j') = x * P * (M k i' j' * N k i j) := by
    linear_combination N k i' j' * h1 - N k i j * h2
  exact mul_left_cancel₀ hxP this

/-- A `QubitTerm`: the items of its `factor_dict` in insertion order
(src/qrisp/operators/qubit/qubit_term.py lines 96-102). -/
abbrev Term := List (Nat × Fac)

/-- The keys of the factor dictionary. -/
def Term.keys (t : Term) : List Nat := t.map Prod.fst

/-- `factor_dict.get(k, "I")`. -/
def Term.get (t : Term) (k : Nat) : Fac := (List.lookup k t).getD .I

/-- The keys of a dictionary are distinct. -/
def Term.WF (t : Term) : Prop := t.keys.Nodup

/-- The operator of a term on `n` qubits. -/
noncomputable def tmat (n : Nat) (t : Term) : MatN n := tensor fun k => mat (t.get k)

/-- `QubitTerm.__mul__` (src/qrisp/operators/qubit/qubit_term.py lines 544-558), the loop over
the set of keys `ks`, whose order is not specified. -/
def mulLoop (a b : Term) : List Nat → Term → GI → Term × GI
  | [], res, co => (res, co)
  | k :: ks, res, co =>
    let p := table (a.get k) (b.get k)
    if p.2 = 0 then ([], 0)
    else if p.1 ≠ .I then mulLoop a b ks (res ++ [(k, p.1)]) (co * p.2)
    else mulLoop a b ks res co

/-- `ks` enumerates the set `set(a.keys()) | set(b.keys())` in some order. -/
def KeyOrder (a b : Term) (ks : List Nat) : Prop :=
  ks.Nodup ∧ ∀ k, k ∈ ks ↔ k ∈ a.keys ∨ k ∈ b.keys

/-- `QubitTerm.__mul__`. -/
def mulT (ks : List Nat) (a b : Term) : Term × GI := mulLoop a b ks [] 1

theorem lookup_none {t : Term} {k : Nat} (h : k ∉ t.keys) : List.lookup k t = none := by
  induction t with
  | nil => rfl
  | cons p t ih =>
    simp only [Term.keys, List.map_cons, List.mem_cons, not_or] at h
    have hb : (k == p.1) = false := by simpa using h.1
    rw [List.lookup_cons, hb]
    exact ih h.2

theorem get_notin {t : Term} {k : Nat} (h : k ∉ t.keys) : t.get k = .I := by
  rw [Term.get, lookup_none h]; rfl

theorem lookup_mem {t : Term} (hw : t.WF) {k : Nat} {f : Fac} :
    List.lookup k t = some f ↔ (k, f) ∈ t := by
  induction t with
  | nil => simp
  | cons p t ih =>
    obtain ⟨k', f'⟩ := p
    simp only [Term.WF, Term.keys, List.map_cons, List.nodup_cons] at hw
    rw [List.lookup_cons]
    by_cases h : k = k'
    · subst h
      simp only [beq_self_eq_true, if_true, List.mem_cons, Prod.mk.injEq, true_and]
      constructor
      · intro h1; left; exact (Option.some.inj h1).symm
      · rintro (h1 | h1)
        · rw [h1]
        · exact absurd (List.mem_map_of_mem (f := Prod.fst) h1) hw.1
    · have hb : (k == k') = false := by simpa using h
      rw [hb]
      simp only [List.mem_cons, Prod.mk.injEq, h, false_and, false_or]
      exact ih hw.2

theorem get_append {s t : Term} {k : Nat} :
    Term.get (s ++ t) k = (if k ∈ s.keys then s.get k else Term.get t k) := by
  induction s with
  | nil => simp [Term.keys]
  | cons p s ih =>
    obtain ⟨k', f⟩ := p
    by_cases h : k = k'
    · subst h; simp [Term.get, Term.keys, List.lookup_cons]
    · have hb : (k == k') = false := by simpa using h
      simp only [Term.get, Term.keys, List.cons_append, List.lookup_cons, hb, List.map_cons,
        List.mem_cons, h, false_or] at ih ⊢
      exact ih

/-- The result of the loop if no coefficient vanishes. -/
theorem mulLoop_ok {a b : Term} {ks : List Nat} (hks : ks.Nodup) {res : Term} {co : GI}
    (hd : ∀ k ∈ ks, k ∉ res.keys) (hw : res.WF)
    (h0 : ∀ k ∈ ks, (table (a.get k) (b.get k)).2 ≠ 0) :
    (mulLoop a b ks res co).1.WF ∧
    (∀ k, (mulLoop a b ks res co).1.get k =
      if k ∈ ks then (table (a.get k) (b.get k)).1 else res.get k) ∧
    (∀ p ∈ (mulLoop a b ks res co).1, p ∈ res ∨ p.2 ≠ .I) ∧
    (mulLoop a b ks res co).2 = co * (ks.map fun k => (table (a.get k) (b.get k)).2).prod := by
  induction ks generalizing res co with
  | nil => exact ⟨hw, by simp [mulLoop], fun p hp => Or.inl hp, by simp [mulLoop]⟩
  | cons k ks ih =>
    rw [List.nodup_cons] at hks
    have hk0 := h0 k (by simp)
    have hone : ∀ f g, (table f g).1 = .I → (table f g).2 ≠ 0 → (table f g).2 = 1 := by
      decide +kernel
    simp only [mulLoop, if_neg hk0]
    by_cases hI : (table (a.get k) (b.get k)).1 ≠ .I
    · simp only [if_pos hI]
      have hd' : ∀ l ∈ ks, l ∉ Term.keys (res ++ [(k, (table (a.get k) (b.get k)).1)]) := by
        intro l hl
        simp only [Term.keys, List.map_append, List.mem_append, List.map_cons, List.map_nil,
          List.mem_singleton, not_or]
        refine ⟨hd l (List.mem_cons_of_mem _ hl), ?_⟩
        rintro rfl; exact hks.1 hl
      have hw' : Term.WF (res ++ [(k, (table (a.get k) (b.get k)).1)]) := by
        simp only [Term.WF, Term.keys, List.map_append, List.map_cons, List.map_nil]
        rw [List.nodup_append]
        refine ⟨hw, by simp, ?_⟩
        intro x hx y hy
        rw [List.mem_singleton.1 hy]
        rintro rfl; exact hd _ (by simp) hx
      obtain ⟨h1, h2, h3, h4⟩ := ih hks.2 (co := co * (table (a.get k) (b.get k)).2) hd' hw'
        (fun l hl => h0 l (List.mem_cons_of_mem _ hl))
      refine ⟨h1, ?_, ?_, ?_⟩
      · intro l
        rw [h2 l, get_append]
        by_cases hl : l ∈ ks
        · simp [hl]
        · simp only [hl, if_false, List.mem_cons, or_false]
          by_cases hlk : l = k
          · subst hlk
            rw [if_neg (hd _ (by simp))]
            simp [Term.get, List.lookup_cons]
          · simp only [hlk, if_false]
            split
            · rfl
            · next hn =>
              have hb : (l == k) = false := by simpa using hlk
              rw [get_notin hn]; simp [Term.get, List.lookup_cons, hb]
      · intro p hp
        rcases h3 p hp with h | h
        · rcases List.mem_append.1 h with h | h
          · exact Or.inl h
          · right; rw [List.mem_singleton.1 h]; exact hI
        · exact Or.inr h
      · rw [h4]; simp [mul_assoc]
    · simp only [if_neg hI]
      have hI' : (table (a.get k) (b.get k)).1 = .I := by simpa using hI
      obtain ⟨h1, h2, h3, h4⟩ := ih hks.2 (co := co)
        (fun l hl => hd l (List.mem_cons_of_mem _ hl)) hw
        (fun l hl => h0 l (List.mem_cons_of_mem _ hl))
      refine ⟨h1, ?_, h3, ?_⟩
      · intro l
        rw [h2 l]
        by_cases hl : l ∈ ks
        · simp [hl]
        · simp only [hl, if_false, List.mem_cons, or_false]
          by_cases hlk : l = k
          · subst hlk; rw [if_pos rfl, hI', get_notin (hd _ (by simp))]
          · rw [if_neg hlk]
      · rw [h4]; simp [hone _ _ hI' hk0]

/-- The result of the loop if a coefficient vanishes. -/
theorem mulLoop_zero {a b : Term} {ks : List Nat} {res : Term} {co : GI}
    (h0 : ∃ k ∈ ks, (table (a.get k) (b.get k)).2 = 0) : mulLoop a b ks res co = ([], 0) := by
  induction ks generalizing res co with
  | nil => simp at h0
  | cons k ks ih =>
    simp only [mulLoop]
    by_cases hk : (table (a.get k) (b.get k)).2 = 0
    · rw [if_pos hk]
    · rw [if_neg hk]
      have h' : ∃ k ∈ ks, (table (a.get k) (b.get k)).2 = 0 := by
        obtain ⟨l, hl, h⟩ := h0
        rcases List.mem_cons.1 hl with rfl | hl
        · exact absurd h hk
        · exact ⟨l, hl, h⟩
      split
      · exact ih h'
      · exact ih h'

/-- A product over the qubits which is trivial off the keys. -/
theorem prod_keys {n : Nat} {ks : List Nat} (hn : ks.Nodup) (hlt : ∀ k ∈ ks, k < n) (f : Nat → ℂ)
    (h1 : ∀ k, k ∉ ks → f k = 1) : (∏ k : Fin n, f k) = (ks.map f).prod := by
  rw [Fin.prod_univ_eq_prod_range, ← List.prod_toFinset f hn]
  symm
  apply Finset.prod_subset
  · intro k hk; exact Finset.mem_range.2 (hlt k (by simpa using hk))
  · intro k _ hk; exact h1 k (by simpa using hk)

theorem tmat_mul (n : Nat) (a b : Term) :
    tmat n a * tmat n b = (∏ k : Fin n, toC (table (a.get k) (b.get k)).2) •
      tensor fun k : Fin n => mat (table (a.get k) (b.get k)).1 := by
  rw [tmat, tmat, tensor_mul, ← tensor_smul]
  congr 1; funext k; exact mat_mul _ _

/-- The product of terms is the operator product. -/
theorem mulT_sound {n : Nat} {a b : Term} {ks : List Nat} (hk : KeyOrder a b ks)
    (hlt : ∀ k ∈ ks, k < n) :
    tmat n a * tmat n b = toC (mulT ks a b).2 • tmat n (mulT ks a b).1 := by
  have hII : ∀ k, k ∉ ks → table (a.get k) (b.get k) = (.I, 1) := by
    intro k hkn
    have := mt (hk.2 k).2 hkn
    rw [not_or] at this
    rw [get_notin this.1, get_notin this.2]; rfl
  rw [tmat_mul, prod_keys (f := fun k => toC (table (a.get k) (b.get k)).2) hk.1 hlt
    (fun k hkn => by simp only [hII k hkn, map_one])]
  by_cases h0 : ∃ k ∈ ks, (table (a.get k) (b.get k)).2 = 0
  · rw [mulT, mulLoop_zero h0]
    obtain ⟨k, hkm, hk0⟩ := h0
    rw [List.prod_eq_zero (List.mem_map.2 ⟨k, hkm, by rw [hk0, map_zero]⟩)]
    simp
  · simp only [not_exists, not_and] at h0
    obtain ⟨_, h2, _, h4⟩ := mulLoop_ok (a := a) (b := b) (co := 1) (res := []) hk.1
      (by simp [Term.keys]) (by simp [Term.WF, Term.keys]) h0
    rw [mulT, h4, one_mul, map_list_prod, List.map_map]
    congr 1
    rw [tmat]
    congr 1; funext k
    rw [h2]
    split
    · rfl
    · next hkn => rw [hII _ hkn]; rfl

theorem mulT_wf {a b : Term} {ks : List Nat} (hk : KeyOrder a b ks) :
    (mulT ks a b).1.WF ∧ (∀ p ∈ (mulT ks a b).1, p.2 ≠ .I) := by
  by_cases h0 : ∃ k ∈ ks, (table (a.get k) (b.get k)).2 = 0
  · rw [mulT, mulLoop_zero h0]; simp [Term.WF, Term.keys]
  · simp only [not_exists, not_and] at h0
    obtain ⟨h1, _, h3, _⟩ := mulLoop_ok (a := a) (b := b) (co := 1) (res := []) hk.1
      (by simp [Term.keys]) (by simp [Term.WF, Term.keys]) h0
    exact ⟨h1, fun p hp => (h3 p hp).resolve_left (by simp)⟩

theorem mulT_keys {a b : Term} {ks : List Nat} (hk : KeyOrder a b ks) :
    ∀ k ∈ (mulT ks a b).1.keys, k ∈ ks := by
  intro k hkm
  by_cases h0 : ∃ k ∈ ks, (table (a.get k) (b.get k)).2 = 0
  · rw [mulT, mulLoop_zero h0] at hkm; simp [Term.keys] at hkm
  · simp only [not_exists, not_and] at h0
    obtain ⟨h1, h2, h3, _⟩ := mulLoop_ok (a := a) (b := b) (co := 1) (res := []) hk.1
      (by simp [Term.keys]) (by simp [Term.WF, Term.keys]) h0
    by_contra hkn
    obtain ⟨p, hp, rfl⟩ := List.mem_map.1 hkm
    have h5 := h2 p.1
    have hl := (lookup_mem h1).2 (show (p.1, p.2) ∈ (mulLoop a b ks [] 1).1 from hp)
    rw [if_neg hkn, Term.get, hl] at h5
    exact (h3 p hp).resolve_left (by simp) h5

end Verif.Oper
