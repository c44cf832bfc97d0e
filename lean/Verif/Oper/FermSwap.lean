import Verif.Oper.FermOp
import Mathlib.Logic.Equiv.Basic
import Mathlib.Data.List.FinRange
import Mathlib.Algebra.BigOperators.Fin

/-!
Fermionic swaps (src/qrisp/operators/fermionic/trotterization.py and fermionic_term.py).
-/

namespace Verif.Oper

/-! ### Model -/

/-- `l[i], l[j] = l[j], l[i]`. -/
def swapL (l : List Nat) (s : Nat × Nat) : List Nat :=
  (l.set s.1 (l.getD s.2 0)).set s.2 (l.getD s.1 0)

/-- One recorded swap (trotterization.py lines 143-148 and 169-174). -/
def swapStep (st : List (Nat × Nat) × List Nat) (s : Nat × Nat) : List (Nat × Nat) × List Nat :=
  (st.1 ++ [s], swapL st.2 s)

/-- The loop over the singles (lines 139-149); `k` counts them. -/
def singlesLoop : List Nat → Nat → List (Nat × Nat) × List Nat → List (Nat × Nat) × List Nat
  | [], _, st => st
  | s :: ss, k, st => singlesLoop ss (k + 1)
      (((List.range' k (s - k)).reverse.map fun i => (i + 1, i)).foldl swapStep st)

/-- One pass of the loop over the couples (lines 165-174). -/
def coupleStep (st : List (Nat × Nat) × List Nat) (c : Nat × Nat) : List (Nat × Nat) × List Nat :=
  let i := st.2.idxOf c.1
  let j := st.2.idxOf c.2
  ((List.range' i (j - 1 - i)).map fun i => (i, i + 1)).foldl swapStep st

/-- `kai_pflaume` (lines 132-176). A couple is the pair (key, value) = (female, male). Indices are
below `n`, so that `permutation.index` does not raise. -/
def kaiPflaume (singles : List Nat) (couples : List (Nat × Nat)) (n : Nat) :
    List (Nat × Nat) × List Nat :=
  let st := singlesLoop (singles.insertionSort (· ≤ ·)) 0 ([], List.range n)
  (couples.insertionSort fun a b => b.1 ≤ a.1).foldl coupleStep st

/-- `apply_fermionic_swaps` (lines 179-188) on qubits named by numbers: the pairs of the gates CZ,
and the list of qubits afterwards. -/
def applySwaps (qb : List Nat) (swaps : List (Nat × Nat)) : List (Nat × Nat) × List Nat :=
  swaps.foldl (fun st s => (st.1 ++ [(st.2.getD s.1 0, st.2.getD s.2 0)], swapL st.2 s)) ([], qb)

/-- `FermionicTerm.fermionic_swap` (fermionic_term.py lines 136-141). -/
def fermSwap (perm : List Nat) (L : List Lad) : List Lad :=
  let inv := (List.range perm.length).map fun i => perm.idxOf i
  L.map fun l => (inv.getD l.1 0, l.2)

/-! ### Specification -/

/-- Value of qubit `i`. -/
def bitOf {n : Nat} (b : Fin n → Bool) (i : Nat) : Bool := if h : i < n then b ⟨i, h⟩ else false

/-- The sign which a list of gates CZ gives to the basis state `b`. -/
noncomputable def czSign {n : Nat} (czs : List (Nat × Nat)) (b : Fin n → Bool) : ℂ :=
  (czs.map fun c => if bitOf b c.1 && bitOf b c.2 then (-1 : ℂ) else 1).prod

/-- The gates CZ, then `M` on the qubits in the order of `qs`, then the gates CZ backwards. -/
noncomputable def conjSwaps {n : Nat} (czs : List (Nat × Nat)) (qs : List Nat) (M : MatN n) :
    MatN n := fun b c =>
  czSign czs b * M (fun j => bitOf b (qs.getD j 0)) (fun j => bitOf c (qs.getD j 0)) * czSign czs c

/-! ### One swap -/

/-- Factor of the Jordan-Wigner matrix. -/
noncomputable def pfac (k : Nat) (f : Bool) (j : Nat) : Matrix Bool Bool ℂ :=
  if j < k then mat .Z else if j = k then mat (if f then .C else .A) else 1

theorem jw_apply (n k : Nat) (f : Bool) (b c : Fin n → Bool) :
    jw n (k, f) b c = ∏ j : Fin n, pfac k f j (b j) (c j) := rfl

noncomputable def cz2 (x y : Bool) : ℂ := if x && y then -1 else 1

theorem two_fac (s k : Nat) (f x y x' y' : Bool) :
    cz2 x y * cz2 x' y' * (pfac (Equiv.swap s (s + 1) k) f (s + 1) x x' *
      pfac (Equiv.swap s (s + 1) k) f s y y') = pfac k f s x x' * pfac k f (s + 1) y y' := by
  rcases lt_trichotomy k s with h | h | h
  · have e : Equiv.swap s (s + 1) k = k := Equiv.swap_apply_of_ne_of_ne (by omega) (by omega)
    have h1 : ¬ s < k := by omega
    have h2 : ¬ s = k := by omega
    have h3 : ¬ s + 1 < k := by omega
    have h4 : ¬ s + 1 = k := by omega
    simp only [e, pfac, h1, h2, h3, h4, if_false]
    cases x <;> cases y <;> cases x' <;> cases y' <;> simp [cz2]
  · subst h
    have e : Equiv.swap k (k + 1) k = k + 1 := Equiv.swap_apply_left _ _
    simp only [e, pfac]
    cases x <;> cases y <;> cases x' <;> cases y' <;> cases f <;> simp [cz2, mat, matG]
  · rcases Nat.eq_or_lt_of_le h with h | h
    · subst h
      have e : Equiv.swap s (s + 1) (s + 1) = s := Equiv.swap_apply_right _ _
      simp only [Nat.succ_eq_add_one, e, pfac]
      cases x <;> cases y <;> cases x' <;> cases y' <;> cases f <;> simp [cz2, mat, matG]
    · have e : Equiv.swap s (s + 1) k = k := Equiv.swap_apply_of_ne_of_ne (by omega) (by omega)
      have h1 : s < k := by omega
      have h3 : s + 1 < k := by omega
      simp only [e, pfac, h1, h3, if_true]
      cases x <;> cases y <;> cases x' <;> cases y' <;> simp [cz2, mat, matG]

/-- A fermionic swap of neighbours turns the ladder operator of mode `k` into that of the mode at
the swapped position. -/
theorem jw_swap {n s : Nat} (hs : s + 1 < n) (k : Nat) (f : Bool) (b c : Fin n → Bool) :
    let τ : Equiv.Perm (Fin n) := Equiv.swap ⟨s, by omega⟩ ⟨s + 1, hs⟩
    cz2 (b ⟨s, by omega⟩) (b ⟨s + 1, hs⟩) * cz2 (c ⟨s, by omega⟩) (c ⟨s + 1, hs⟩) *
      jw n (Equiv.swap s (s + 1) k, f) (b ∘ τ) (c ∘ τ) = jw n (k, f) b c := by
  intro τ
  rw [jw_apply, jw_apply]
  set k' := Equiv.swap s (s + 1) k with hk'
  have h1 : ∏ j : Fin n, pfac k' f j ((b ∘ τ) j) ((c ∘ τ) j) =
      ∏ j : Fin n, pfac k' f (τ j : Fin n) (b j) (c j) := by
    rw [← Equiv.prod_comp τ]
    refine Finset.prod_congr rfl fun j _ => ?_
    simp [τ]
  rw [h1]
  let p : Fin n := ⟨s, by omega⟩
  let q : Fin n := ⟨s + 1, hs⟩
  have hpq : p ≠ q := by simp [p, q]
  have split : ∀ F : Fin n → ℂ, ∏ j, F j = F p * F q * ∏ j ∈ (Finset.univ.erase p).erase q, F j := by
    intro F
    rw [mul_assoc, Finset.mul_prod_erase _ _ (by simp [hpq.symm]), Finset.mul_prod_erase _ _ (by simp)]
  rw [split, split (fun j => pfac k f j (b j) (c j))]
  have hτp : τ p = q := Equiv.swap_apply_left _ _
  have hτq : τ q = p := Equiv.swap_apply_right _ _
  rw [hτp, hτq]
  have rest : ∏ j ∈ (Finset.univ.erase p).erase q, pfac k' f (τ j : Fin n) (b j) (c j) =
      ∏ j ∈ (Finset.univ.erase p).erase q, pfac k f j (b j) (c j) := by
    refine Finset.prod_congr rfl fun j hj => ?_
    simp only [Finset.mem_erase, Finset.mem_univ, and_true] at hj
    have e : τ j = j := Equiv.swap_apply_of_ne_of_ne hj.2 hj.1
    rw [e]
    have hj1 : (j : Nat) ≠ s := fun h => hj.2 (Fin.ext h)
    have hj2 : (j : Nat) ≠ s + 1 := fun h => hj.1 (Fin.ext h)
    have : k' = if k = s then s + 1 else if k = s + 1 then s else k := by
      rw [hk', Equiv.swap_apply_def]
    have a1 : (j : Nat) < k' ↔ (j : Nat) < k := by rw [this]; split_ifs <;> omega
    have a2 : (j : Nat) = k' ↔ (j : Nat) = k := by rw [this]; split_ifs <;> omega
    simp only [pfac, a1, a2]
  rw [rest, ← mul_assoc]
  congr 1
  exact two_fac s k f (b p) (b q) (c p) (c q)

/-! ### Lists of swaps -/

/-- The list of a permutation. -/
def permL {n : Nat} (σ : Equiv.Perm (Fin n)) : List Nat := List.ofFn fun j => (σ j : Nat)

theorem permL_length {n : Nat} (σ : Equiv.Perm (Fin n)) : (permL σ).length = n := by simp [permL]

theorem permL_getD {n : Nat} (σ : Equiv.Perm (Fin n)) (j : Fin n) :
    (permL σ).getD j 0 = (σ j : Nat) := by
  rw [List.getD_eq_getElem _ _ (by rw [permL_length]; exact j.2)]
  simp [permL]

theorem permL_getD' {n : Nat} (σ : Equiv.Perm (Fin n)) {j : Nat} (hj : j < n) :
    (permL σ).getD j 0 = (σ ⟨j, hj⟩ : Nat) := permL_getD σ ⟨j, hj⟩

theorem permL_one (n : Nat) : permL (1 : Equiv.Perm (Fin n)) = List.range n := by
  apply List.ext_getElem
  · simp [permL]
  · intro i h1 h2; simp [permL]

theorem permL_idxOf {n : Nat} (σ : Equiv.Perm (Fin n)) (i : Fin n) :
    (permL σ).idxOf (i : Nat) = (σ⁻¹ i : Fin n) := by
  have hnd : (permL σ).Nodup := by
    rw [permL, List.nodup_ofFn]
    intro x y h; exact σ.injective (Fin.ext h)
  have hlt : ((σ⁻¹ i : Fin n) : Nat) < (permL σ).length := by rw [permL_length]; exact (σ⁻¹ i).2
  have e : (permL σ)[((σ⁻¹ i : Fin n) : Nat)] = (i : Nat) := by simp [permL]
  conv_lhs => rw [← e]
  exact hnd.idxOf_getElem _ _

theorem swapL_comm (l : List Nat) (x y : Nat) (h : x ≠ y) : swapL l (x, y) = swapL l (y, x) := by
  simp only [swapL]
  exact List.set_comm _ _ h

theorem swapL_length (l : List Nat) (s : Nat × Nat) : (swapL l s).length = l.length := by
  simp [swapL]

theorem swapL_perm {n : Nat} (σ : Equiv.Perm (Fin n)) (i j : Fin n) :
    swapL (permL σ) (i, j) = permL (σ * Equiv.swap i j) := by
  have hsw : swapL (permL σ) (i, j) = ((permL σ).set i (σ j)).set j (σ i) := by
    simp only [swapL, permL_getD]
  rw [hsw]
  apply List.ext_getElem
  · simp [permL]
  · intro m h1 h2
    have hm : m < n := by simpa [permL] using h2
    have e : (permL (σ * Equiv.swap i j))[m] = (σ (Equiv.swap i j ⟨m, hm⟩) : Nat) := by simp [permL]
    rw [e, List.getElem_set, List.getElem_set]
    by_cases hj : (j : Nat) = m
    · have : (⟨m, hm⟩ : Fin n) = j := Fin.ext hj.symm
      rw [if_pos hj, this, Equiv.swap_apply_right]
    · rw [if_neg hj]
      by_cases hi : (i : Nat) = m
      · have : (⟨m, hm⟩ : Fin n) = i := Fin.ext hi.symm
        rw [if_pos hi, this, Equiv.swap_apply_left]
      · rw [if_neg hi, Equiv.swap_apply_of_ne_of_ne]
        · simp [permL]
        · intro h; exact hi (congrArg Fin.val h).symm
        · intro h; exact hj (congrArg Fin.val h).symm

/-- A swap of neighbouring positions below `n`. -/
def AdjSwap (n : Nat) (s : Nat × Nat) : Prop :=
  s.1 < n ∧ s.2 < n ∧ (s.2 = s.1 + 1 ∨ s.1 = s.2 + 1)

theorem bitOf_fin {n : Nat} (b : Fin n → Bool) (i : Fin n) : bitOf b i = b i := by
  simp [bitOf]

theorem czSign_snoc {n : Nat} (czs : List (Nat × Nat)) (i j : Fin n) (b : Fin n → Bool) :
    czSign (czs ++ [((i : Nat), (j : Nat))]) b = czSign czs b * cz2 (b i) (b j) := by
  simp [czSign, bitOf_fin, cz2]

theorem cz2_comm (x y : Bool) : cz2 x y = cz2 y x := by cases x <;> cases y <;> rfl

/-- The gates and the relabelling so far turn ladder operators into ladder operators. -/
def SwapInv {n : Nat} (st : List (Nat × Nat) × List Nat) : Prop :=
  ∃ σ : Equiv.Perm (Fin n), st.2 = permL σ ∧ ∀ (i : Fin n) (f : Bool) (b c : Fin n → Bool),
    czSign st.1 b * jw n ((σ⁻¹ i : Fin n), f) (b ∘ σ) (c ∘ σ) * czSign st.1 c = jw n (i, f) b c

theorem swapInv_step {n : Nat} {st : List (Nat × Nat) × List Nat} (h : SwapInv (n := n) st)
    {s : Nat × Nat} (hs : AdjSwap n s) :
    SwapInv (n := n) (st.1 ++ [(st.2.getD s.1 0, st.2.getD s.2 0)], swapL st.2 s) := by
  obtain ⟨czs, qs⟩ := st
  obtain ⟨σ, rfl, hσ⟩ := h
  obtain ⟨x, y⟩ := s
  obtain ⟨hx, hy, hxy⟩ := hs
  simp only at hx hy hxy hσ ⊢
  have main : ∀ p (hp : p + 1 < n), ∀ (i : Fin n) (f : Bool) (b c : Fin n → Bool),
      (czSign czs b * cz2 (b (σ ⟨p, by omega⟩)) (b (σ ⟨p + 1, hp⟩))) *
      jw n (((σ * Equiv.swap (⟨p, by omega⟩ : Fin n) ⟨p + 1, hp⟩)⁻¹ i : Fin n), f)
        (b ∘ (σ * Equiv.swap (⟨p, by omega⟩ : Fin n) ⟨p + 1, hp⟩ : Equiv.Perm (Fin n)))
        (c ∘ (σ * Equiv.swap (⟨p, by omega⟩ : Fin n) ⟨p + 1, hp⟩ : Equiv.Perm (Fin n))) *
      (czSign czs c * cz2 (c (σ ⟨p, by omega⟩)) (c (σ ⟨p + 1, hp⟩))) = jw n (i, f) b c := by
    intro p hp i f b c
    have h1 := jw_swap hp ((σ⁻¹ i : Fin n) : Nat) f (b ∘ σ) (c ∘ σ)
    have h2 := hσ i f b c
    have e : (((σ * Equiv.swap (⟨p, by omega⟩ : Fin n) ⟨p + 1, hp⟩)⁻¹ i : Fin n) : Nat) =
        Equiv.swap p (p + 1) ((σ⁻¹ i : Fin n) : Nat) := by
      rw [mul_inv_rev, Equiv.swap_inv, Equiv.Perm.mul_apply, Equiv.swap_apply_def,
        Equiv.swap_apply_def]
      split_ifs with a1 a2 a3 a4 a5 a6 a7 <;> simp_all [Fin.ext_iff]
    have eb : ∀ z : Fin n → Bool, z ∘ (σ * Equiv.swap (⟨p, by omega⟩ : Fin n) ⟨p + 1, hp⟩ :
        Equiv.Perm (Fin n)) = (z ∘ σ) ∘ Equiv.swap (⟨p, by omega⟩ : Fin n) ⟨p + 1, hp⟩ := by
      intro z; rfl
    rw [e, eb, eb, ← h2, ← h1]
    simp only [Function.comp]
    ring
  rcases hxy with rfl | rfl
  · refine ⟨σ * Equiv.swap ⟨x, hx⟩ ⟨x + 1, hy⟩, swapL_perm σ ⟨x, hx⟩ ⟨x + 1, hy⟩, ?_⟩
    intro i f b c
    rw [permL_getD' σ hx, permL_getD' σ hy, czSign_snoc, czSign_snoc]
    exact main x hy i f b c
  · refine ⟨σ * Equiv.swap ⟨y, hy⟩ ⟨y + 1, hx⟩, ?_, ?_⟩
    · rw [swapL_comm _ _ _ (by omega)]; exact swapL_perm σ ⟨y, hy⟩ ⟨y + 1, hx⟩
    · intro i f b c
      rw [permL_getD' σ hx, permL_getD' σ hy, czSign_snoc, czSign_snoc, cz2_comm, cz2_comm (c _)]
      exact main y hx i f b c

theorem swapInv_apply {n : Nat} {swaps : List (Nat × Nat)} (hs : ∀ s ∈ swaps, AdjSwap n s) :
    SwapInv (n := n) (applySwaps (List.range n) swaps) := by
  have : ∀ st : List (Nat × Nat) × List Nat, SwapInv (n := n) st → SwapInv (n := n)
      (swaps.foldl (fun st s => (st.1 ++ [(st.2.getD s.1 0, st.2.getD s.2 0)], swapL st.2 s)) st) := by
    induction swaps with
    | nil => intro st h; exact h
    | cons s swaps ih =>
      intro st h
      exact ih (fun t ht => hs t (List.mem_cons_of_mem _ ht)) _ (swapInv_step h (hs s (by simp)))
  apply this
  refine ⟨1, (permL_one n).symm, ?_⟩
  intro i f b c
  simp [czSign]

theorem czSign_sq {n : Nat} (czs : List (Nat × Nat)) (b : Fin n → Bool) :
    czSign czs b * czSign czs b = 1 := by
  induction czs with
  | nil => simp [czSign]
  | cons c czs ih =>
    have : czSign (c :: czs) b = (if bitOf b c.1 && bitOf b c.2 then (-1 : ℂ) else 1) * czSign czs b := by
      simp [czSign]
    rw [this]
    split
    · linear_combination ih
    · linear_combination ih

theorem conjSwaps_perm {n : Nat} (czs : List (Nat × Nat)) (σ : Equiv.Perm (Fin n)) (M : MatN n)
    (b c : Fin n → Bool) :
    conjSwaps czs (permL σ) M b c = czSign czs b * M (b ∘ σ) (c ∘ σ) * czSign czs c := by
  have e : ∀ z : Fin n → Bool, (fun j : Fin n => bitOf z ((permL σ).getD j 0)) = z ∘ σ := by
    intro z; funext j; rw [permL_getD, bitOf_fin]; rfl
  rw [conjSwaps, e, e]

theorem conjSwaps_one {n : Nat} (czs : List (Nat × Nat)) (σ : Equiv.Perm (Fin n)) :
    conjSwaps czs (permL σ) (1 : MatN n) = 1 := by
  funext b c
  rw [conjSwaps_perm]
  by_cases h : b = c
  · subst h
    have h1 : (1 : MatN n) (b ∘ σ) (b ∘ σ) = 1 := Matrix.one_apply_eq _
    have h2 : (1 : MatN n) b b = 1 := Matrix.one_apply_eq _
    rw [h1, h2, mul_one, czSign_sq]
  · have h1 : (1 : MatN n) (b ∘ σ) (c ∘ σ) = 0 :=
      Matrix.one_apply_ne fun e => h (σ.surjective.injective_comp_right e)
    have h2 : (1 : MatN n) b c = 0 := Matrix.one_apply_ne h
    rw [h1, h2]; ring

theorem conjSwaps_mul {n : Nat} (czs : List (Nat × Nat)) (σ : Equiv.Perm (Fin n)) (M N : MatN n) :
    conjSwaps czs (permL σ) (M * N) = conjSwaps czs (permL σ) M * conjSwaps czs (permL σ) N := by
  funext b c
  rw [conjSwaps_perm, Matrix.mul_apply, Matrix.mul_apply]
  simp only [conjSwaps_perm]
  rw [← Equiv.sum_comp (Equiv.arrowCongr σ.symm (Equiv.refl Bool)), Finset.mul_sum, Finset.sum_mul]
  refine Finset.sum_congr rfl fun z _ => ?_
  have e : (Equiv.arrowCongr σ.symm (Equiv.refl Bool)) z = z ∘ σ := by
    funext j; simp [Equiv.arrowCongr]
  rw [e]
  linear_combination (-czSign czs b * M (b ∘ σ) (z ∘ σ) * N (z ∘ σ) (c ∘ σ) * czSign czs c) *
    czSign_sq czs z

/-- Swaps of neighbours with CZ gates turn the permuted term into the term. -/
theorem conjSwaps_fop {n : Nat} {swaps : List (Nat × Nat)} (hs : ∀ s ∈ swaps, AdjSwap n s)
    {L : List Lad} (hL : ∀ l ∈ L, l.1 < n) :
    conjSwaps (applySwaps (List.range n) swaps).1 (applySwaps (List.range n) swaps).2
      (fop n (fermSwap (applySwaps (List.range n) swaps).2 L)) = fop n L := by
  obtain ⟨σ, h1, h2⟩ := swapInv_apply hs
  rw [h1]
  induction L with
  | nil => exact conjSwaps_one _ σ
  | cons l L ih =>
    have hl := hL l (by simp)
    have e : fermSwap (permL σ) (l :: L) =
        (((σ⁻¹ ⟨l.1, hl⟩ : Fin n) : Nat), l.2) :: fermSwap (permL σ) L := by
      rw [fermSwap, List.map_cons]
      congr 2
      rw [List.getD_eq_getElem _ _ (by simpa [permL] using hl)]
      simp only [List.getElem_map, List.getElem_range]
      exact permL_idxOf σ ⟨l.1, hl⟩
    rw [e, fop, conjSwaps_mul, ih (fun m hm => hL m (List.mem_cons_of_mem _ hm)), fop]
    congr 1
    funext b c
    rw [conjSwaps_perm]
    exact h2 ⟨l.1, hl⟩ l.2 b c

end Verif.Oper
