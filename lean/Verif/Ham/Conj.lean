import Verif.Ham.BasisMat
import Verif.Oper.Adjoint

/-!
The conjugation of the terms of a group by the gates of the basis change.
-/

namespace Verif.Ham

open Verif.Oper Verif.Circ
open Verif.Rev (upd)

/-- A Pauli factor becomes Z. -/
def pz (f : Fac) : Fac := if isPauli f then .Z else f

theorem mat_mk (f : Fac) : mat f = mk (toC (matG f false false)) (toC (matG f false true)) (toC (matG f true false)) (toC (matG f true true)) := by
  ext a b
  cases a <;> cases b <;> rfl

theorem mat_I : mat .I = 1 := by
  rw [mat_mk, mk_one]
  refine mk_congr ?_ ?_ ?_ ?_ <;> simp [matG, toC]

theorem hm_X : hm * mat .X = mat .Z * hm := by
  rw [mat_mk, mat_mk]
  unfold hm
  rw [mk_mul, mk_mul]
  refine mk_congr ?_ ?_ ?_ ?_ <;> simp [matG, toC]

theorem sxm_Y : sxm * mat .Y = mat .Z * sxm := by
  rw [mat_mk, mat_mk]
  unfold sxm
  rw [mk_mul, mk_mul]
  have hI := Complex.I_mul_I
  have hg : toC gi = Complex.I := by simp [toC, gi, GaussianInt.toComplex_def]
  have hg' : toC (-gi) = -Complex.I := by simp [toC, gi, GaussianInt.toComplex_def]
  have h0 : toC 0 = 0 := by simp [toC]
  have h1 : toC 1 = 1 := by simp [toC]
  have h2 : toC (-1) = -1 := by simp [toC]
  refine mk_congr ?_ ?_ ?_ ?_
  · show r2 * toC 0 + -Complex.I * r2 * toC gi = toC 1 * r2 + toC 0 * (-Complex.I * r2)
    rw [hg, h0, h1]; linear_combination (-r2) * hI
  · show r2 * toC (-gi) + -Complex.I * r2 * toC 0 = toC 1 * (-Complex.I * r2) + toC 0 * r2
    rw [hg', h0, h1]; ring
  · show -Complex.I * r2 * toC 0 + r2 * toC gi = toC 0 * r2 + toC (-1) * (-Complex.I * r2)
    rw [hg, h0, h2]; ring
  · show -Complex.I * r2 * toC (-gi) + r2 * toC 0 = toC 0 * (-Complex.I * r2) + toC (-1) * r2
    rw [hg', h0, h2]; linear_combination r2 * hI

/-- The basis fits to a factor. -/
def Compat (β : Option Fac) (f : Fac) : Prop :=
  (isPauli f = true → β = some f) ∧ (isProj f = true → β = none ∨ β = some .Z) ∧ (isLad f = true → β = none)

theorem bm_mat {β : Option Fac} {f : Fac} (h : Compat β f) : bm β * mat f = mat (pz f) * bm β := by
  obtain ⟨h1, h2, h3⟩ := h
  cases f with
  | I => show bm β * mat .I = mat .I * bm β; rw [mat_I, one_mul, mul_one]
  | X => rw [h1 rfl]; exact hm_X
  | Y => rw [h1 rfl]; exact sxm_Y
  | Z => rw [h1 rfl]; show 1 * mat .Z = mat .Z * 1; rw [one_mul, mul_one]
  | A => rw [h3 rfl]; show 1 * mat .A = mat .A * 1; rw [one_mul, mul_one]
  | C => rw [h3 rfl]; show 1 * mat .C = mat .C * 1; rw [one_mul, mul_one]
  | P0 => rcases h2 rfl with e | e <;> rw [e] <;> show 1 * mat .P0 = mat .P0 * 1 <;> rw [one_mul, mul_one]
  | P1 => rcases h2 rfl with e | e <;> rw [e] <;> show 1 * mat .P1 = mat .P1 * 1 <;> rw [one_mul, mul_one]

theorem compat_adj {β : Option Fac} {f : Fac} (h : Compat β f) : Compat β (facAdj f) := by
  cases f <;> first | exact h | exact ⟨nofun, nofun, fun _ => h.2.2 rfl⟩

theorem pz_adj (f : Fac) : pz (facAdj f) = facAdj (pz f) := by revert f; decide +kernel

/-! ### The ladder operators -/

/-- The CNOT gates from the anchor. -/
def wS {n : Nat} (a : Fin n) (S : List Nat) (b : Fin n → Bool) : Fin n → Bool := fun k => b k ^^ (decide ((k : Nat) ∈ S) && b a)

theorem wS_wS {n : Nat} {a : Fin n} {S : List Nat} (h : (a : Nat) ∉ S) (b : Fin n → Bool) : wS a S (wS a S b) = b := by
  funext k
  have ha : wS a S b a = b a := by
    unfold wS
    rw [decide_eq_false h]; simp
  show (wS a S b k ^^ (decide ((k : Nat) ∈ S) && wS a S b a)) = b k
  rw [ha]
  unfold wS
  cases b k <;> cases decide ((k : Nat) ∈ S) <;> cases b a <;> rfl

theorem cxs_mat {n : Nat} {a : Nat} (ha : a < n) : ∀ (S : List Nat), S.Nodup → a ∉ S → (∀ j ∈ S, j < n) →
    gmatL n (S.map (BG.cx a)) = permM (wS (⟨a, ha⟩ : Fin n) S)
  | [], _, _, _ => by
    have : wS (⟨a, ha⟩ : Fin n) [] = fun b => b := by
      funext b k
      simp [wS]
    rw [this, permM_id]; rfl
  | j :: S, hn, haS, hlt => by
    rw [List.nodup_cons] at hn
    have haj : a ≠ j := fun e => haS (by simp [e])
    have hj : j < n := hlt j List.mem_cons_self
    show gmatL n (S.map (BG.cx a)) * gmat n (.cx a j) = _
    rw [cxs_mat ha S hn.2 (fun h => haS (List.mem_cons_of_mem _ h)) (fun i hi => hlt i (List.mem_cons_of_mem _ hi))]
    show _ * (if h : a < n ∧ j < n then permM (cxB (⟨a, h.1⟩ : Fin n) ⟨j, h.2⟩) else 1) = _
    rw [dif_pos ⟨ha, hj⟩, permM_mul]
    congr 1
    funext b k
    have h1 : cxB (⟨a, ha⟩ : Fin n) ⟨j, hj⟩ b ⟨a, ha⟩ = b ⟨a, ha⟩ := by
      unfold cxB
      rw [Function.update_of_ne]
      exact fun e => haj (congrArg Fin.val e)
    show (cxB (⟨a, ha⟩ : Fin n) ⟨j, hj⟩ b k ^^ (decide ((k : Nat) ∈ S) && cxB (⟨a, ha⟩ : Fin n) ⟨j, hj⟩ b ⟨a, ha⟩)) =
      (b k ^^ (decide ((k : Nat) ∈ j :: S) && b ⟨a, ha⟩))
    rw [h1]
    by_cases e : (k : Nat) = j
    · have ek : k = ⟨j, hj⟩ := Fin.ext e
      subst ek
      have : decide (j ∈ S) = false := decide_eq_false hn.1
      unfold cxB
      rw [Function.update_self]
      simp [this]
    · have : cxB (⟨a, ha⟩ : Fin n) ⟨j, hj⟩ b k = b k := by
        unfold cxB
        rw [Function.update_of_ne]
        exact fun x => e (congrArg Fin.val x)
      rw [this]
      simp [e]

/-- The factors after the CNOT gates. -/
def cxFac (g : Fac) (S : List Nat) (f : Nat → Fac) (k : Nat) : Fac := if k ∈ S then ladFac g (f k) else f k

theorem lad_entry (g f : Fac) (hg : isLad g = true) (hf : isLad f = true) (ba ca b c : Bool) :
    matG g ba ca = 0 ∨ matG f (b ^^ ba) c = matG (ladFac g f) b (c ^^ ca) := by
  revert g f ba ca b c; decide +kernel

theorem toC_zero : toC 0 = 0 := by simp [toC]

theorem permM_mul_apply {n : Nat} {w : (Fin n → Bool) → Fin n → Bool} (hw : ∀ b, w (w b) = b) (M : MatN n) (b c : Fin n → Bool) :
    (permM w * M) b c = M (w b) c ∧ (M * permM w) b c = M b (w c) := by
  constructor
  · rw [Matrix.mul_apply]
    unfold permM
    rw [Finset.sum_eq_single (w b)]
    · rw [if_pos (hw b).symm, one_mul]
    · intro x _ hx
      rw [if_neg (fun e => hx (by rw [e, hw])), zero_mul]
    · intro h; exact absurd (Finset.mem_univ _) h
  · rw [Matrix.mul_apply]
    unfold permM
    rw [Finset.sum_eq_single (w c)]
    · rw [if_pos rfl, mul_one]
    · intro x _ hx
      rw [if_neg hx, mul_zero]
    · intro h; exact absurd (Finset.mem_univ _) h

/-- The CNOT gates turn the ladder operators of the other qubits into projectors. -/
theorem cxs_tensor {n : Nat} (a : Fin n) (S : List Nat) (haS : (a : Nat) ∉ S) (f : Nat → Fac) (ha : isLad (f a) = true)
    (hS : ∀ k ∈ S, isLad (f k) = true) :
    permM (wS a S) * (tensor fun k : Fin n => mat (f k)) = (tensor fun k : Fin n => mat (cxFac (f a) S f k)) * permM (wS a S) := by
  ext b c
  have hw := wS_wS (n := n) haS
  rw [(permM_mul_apply hw _ b c).1, (permM_mul_apply hw _ b c).2]
  show (∏ k : Fin n, mat (f k) (wS a S b k) (c k)) = ∏ k : Fin n, mat (cxFac (f a) S f k) (b k) (wS a S c k)
  have hwa : ∀ b, wS a S b a = b a := by
    intro b
    unfold wS
    rw [decide_eq_false haS]; simp
  by_cases h0 : matG (f a) (b a) (c a) = 0
  · rw [Finset.prod_eq_zero (Finset.mem_univ a), Finset.prod_eq_zero (Finset.mem_univ a)]
    · unfold cxFac
      rw [if_neg haS, hwa]
      show toC (matG (f a) (b a) (c a)) = 0
      rw [h0, toC_zero]
    · rw [hwa]
      show toC (matG (f a) (b a) (c a)) = 0
      rw [h0, toC_zero]
  · refine Finset.prod_congr rfl fun k _ => ?_
    unfold cxFac
    by_cases hk : (k : Nat) ∈ S
    · rw [if_pos hk]
      have e : ∀ x : Fin n → Bool, wS a S x k = (x k ^^ x a) := by
        intro x
        unfold wS
        rw [decide_eq_true hk]; simp
      rw [e, e]
      show toC _ = toC _
      rcases lad_entry (f a) (f k) ha (hS k hk) (b a) (c a) (b k) (c k) with h | h
      · exact absurd h h0
      · rw [h]
    · rw [if_neg hk]
      have e : ∀ x : Fin n → Bool, wS a S x k = x k := by
        intro x
        unfold wS
        rw [decide_eq_false hk]; simp
      rw [e, e]

theorem tensor_add {n : Nat} (a : Fin n) {M N P : Fin n → M2} (h : ∀ k, k ≠ a → M k = P k ∧ N k = P k) (ha : M a + N a = P a) :
    tensor M + tensor N = tensor P := by
  ext b c
  show (∏ k, M k (b k) (c k)) + (∏ k, N k (b k) (c k)) = ∏ k, P k (b k) (c k)
  rw [← Finset.mul_prod_erase _ _ (Finset.mem_univ a), ← Finset.mul_prod_erase _ (fun k => N k (b k) (c k)) (Finset.mem_univ a),
    ← Finset.mul_prod_erase _ (fun k => P k (b k) (c k)) (Finset.mem_univ a)]
  have e1 : ∏ k ∈ Finset.univ.erase a, M k (b k) (c k) = ∏ k ∈ Finset.univ.erase a, P k (b k) (c k) :=
    Finset.prod_congr rfl fun k hk => by rw [(h k (Finset.ne_of_mem_erase hk)).1]
  have e2 : ∏ k ∈ Finset.univ.erase a, N k (b k) (c k) = ∏ k ∈ Finset.univ.erase a, P k (b k) (c k) :=
    Finset.prod_congr rfl fun k hk => by rw [(h k (Finset.ne_of_mem_erase hk)).2]
  rw [e1, e2, ← add_mul, ← ha]
  rfl

theorem mat_AC (f : Fac) (h : isLad f = true) : mat f + mat (facAdj f) = mat .X := by
  have hh : ∀ f : Fac, isLad f = true → ∀ i j, matG f i j + matG (facAdj f) i j = matG .X i j := by decide +kernel
  ext i j
  show toC (matG f i j) + toC (matG (facAdj f) i j) = toC (matG .X i j)
  rw [← hh f h i j]
  simp [toC]

/-- The whole basis change of the ladder operators on `T + T†`. -/
theorem lad_conj {n : Nat} {a : Nat} (ha : a < n) (S : List Nat) (hn : S.Nodup) (haS : a ∉ S) (hlt : ∀ j ∈ S, j < n) (f : Nat → Fac)
    (hfa : isLad (f a) = true) (hS : ∀ k ∈ S, isLad (f k) = true) (hO : ∀ k, k ∉ S → k ≠ a → facAdj (f k) = f k) :
    gmatL n (S.map (BG.cx a) ++ [.h a]) * ((tensor fun k : Fin n => mat (f k)) + tensor fun k : Fin n => mat (facAdj (f k))) =
      (tensor fun k : Fin n => mat (if (k : Nat) = a then .Z else if (k : Nat) ∈ S then ladFac (f a) (f k) else f k)) *
        gmatL n (S.map (BG.cx a) ++ [.h a]) := by
  have hlf : ∀ g f : Fac, isLad g = true → isLad f = true → ladFac (facAdj g) (facAdj f) = ladFac g f := by decide +kernel
  have hadj : ∀ g : Fac, isLad g = true → isLad (facAdj g) = true := by decide +kernel
  rw [gmatL_append, gmatL_single, cxs_mat ha S hn haS hlt]
  have h1 := cxs_tensor (⟨a, ha⟩ : Fin n) S haS f hfa hS
  have h2 := cxs_tensor (⟨a, ha⟩ : Fin n) S haS (fun k => facAdj (f k)) (hadj _ hfa) (fun k hk => hadj _ (hS k hk))
  beta_reduce at h2
  rw [mul_assoc, mul_add, h1, h2, ← add_mul, tensor_add (⟨a, ha⟩ : Fin n)
    (P := fun k : Fin n => mat (if (k : Nat) = a then .X else if (k : Nat) ∈ S then ladFac (f a) (f k) else f k))]
  · rw [← mul_assoc, ← mul_assoc]
    congr 1
    show gate1 n hm a * _ = _ * gate1 n hm a
    unfold gate1
    rw [tensor_mul, tensor_mul]
    congr 1
    funext k
    by_cases e : (k : Nat) = a
    · rw [if_pos e, if_pos e, e, slot_self, hm_X]
    · rw [if_neg e, if_neg e, slot_ne _ e, one_mul, mul_one]
  · intro k hk
    have e : (k : Nat) ≠ a := fun e => hk (Fin.ext e)
    rw [if_neg e]
    unfold cxFac
    by_cases hkS : (k : Nat) ∈ S
    · rw [if_pos hkS, if_pos hkS]
      exact ⟨rfl, by rw [hlf _ _ hfa (hS k hkS)]⟩
    · rw [if_neg hkS, if_neg hkS]
      exact ⟨rfl, congrArg mat (hO k hkS e)⟩
  · rw [if_pos rfl]
    unfold cxFac
    rw [if_neg haS, if_neg haS]
    exact mat_AC _ hfa

/-! ### The keys of the new terms -/

theorem keys_tset (t : Term) (k : Nat) (f : Fac) (j : Nat) : j ∈ (tset t k f).keys ↔ j = k ∨ j ∈ t.keys := by
  induction t with
  | nil => simp [tset, Term.keys]
  | cons p t ih =>
    obtain ⟨i, g⟩ := p
    unfold Term.keys at ih
    unfold tset
    split
    · rename_i e; subst e
      simp [Term.keys]
    · simp only [Term.keys, List.map_cons, List.mem_cons]
      rw [ih]
      tauto

theorem wf_tset {t : Term} (h : t.WF) (k : Nat) (f : Fac) : (tset t k f).WF := by
  induction t with
  | nil => simp [tset, Term.WF, Term.keys]
  | cons p t ih =>
    obtain ⟨i, g⟩ := p
    unfold Term.WF Term.keys at h
    rw [List.map_cons, List.nodup_cons] at h
    unfold tset
    split
    · rename_i e; subst e
      unfold Term.WF Term.keys
      rw [List.map_cons, List.nodup_cons]
      exact h
    · rename_i e
      have ih := ih h.2
      unfold Term.WF Term.keys
      rw [List.map_cons, List.nodup_cons]
      refine ⟨fun hm => ?_, ih⟩
      rcases (keys_tset t k f i).mp hm with h' | h'
      · exact e h'
      · exact h.1 h'

theorem foldl_tset_ok : ∀ (l nd : Term), nd.WF → (l.foldl (fun nd p => tset nd p.1 p.2) nd).WF ∧
    ∀ j, j ∈ (l.foldl (fun nd p => tset nd p.1 p.2) nd).keys → j ∈ nd.keys ∨ j ∈ l.map Prod.fst
  | [], nd, h => ⟨h, fun j hj => Or.inl hj⟩
  | p :: l, nd, h => by
    obtain ⟨h1, h2⟩ := foldl_tset_ok l (tset nd p.1 p.2) (wf_tset h _ _)
    refine ⟨h1, fun j hj => ?_⟩
    rcases h2 j hj with h | h
    · rcases (keys_tset nd p.1 p.2 j).mp h with e | h
      · right; rw [e]; simp
      · exact Or.inl h
    · right; rw [List.map_cons]; exact List.mem_cons_of_mem _ h

/-- Distinct keys, among those of the term. -/
def KeyOk (t nd : Term) : Prop := nd.WF ∧ ∀ j ∈ nd.keys, j ∈ t.keys

theorem mem_keys_lookup {t : Term} {j : Nat} {f : Fac} (h : List.lookup j t = some f) : j ∈ t.keys :=
  List.mem_map.mpr ⟨(j, f), mem_of_lookup h, rfl⟩

theorem step1_keys {t : Term} {s s' : B1} {j : Nat} (h : step1 t s j = some s') (hs : KeyOk t s.nd) : KeyOk t s'.nd := by
  have key : ∀ f, List.lookup j t = some f → KeyOk t (tset s.nd j .Z) := by
    intro f hl
    refine ⟨wf_tset hs.1 _ _, fun i hi => ?_⟩
    rcases (keys_tset s.nd j .Z i).mp hi with e | e
    · rw [e]; exact mem_keys_lookup hl
    · exact hs.2 i e
  unfold step1 at h
  split at h
  · cases h; exact hs
  · rename_i f hl
    split at h
    · split at h
      · cases h
      · cases h; exact key f hl
    · split at h
      · cases h; exact key f hl
      · cases h; exact hs

theorem loop1_keys {t : Term} : ∀ (js : List Nat) {s s' : B1}, loop1 t js s = some s' → KeyOk t s.nd → KeyOk t s'.nd
  | [], s, s', h, hs => by cases h; exact hs
  | j :: js, s, s', h, hs => by
    unfold loop1 at h
    split at h
    · cases h
    · rename_i s1 h1
      exact loop1_keys js h (step1_keys h1 hs)

theorem phase1_keys {m : Nat} : ∀ (ts : List Term) {b : Nat → Option Fac} {g : List BG} {r : List BG × List Term}, phase1 m ts b g = some r →
    List.Forall₂ KeyOk ts r.2
  | [], b, g, r, h => by cases h; exact List.Forall₂.nil
  | t :: ts, b, g, r, h => by
    unfold phase1 at h
    split at h
    · cases h
    · rename_i s hs
      split at h
      · cases h
      · rename_i r' hr
        cases h
        exact List.Forall₂.cons (loop1_keys _ hs ⟨List.nodup_nil, fun j hj => by simp [Term.keys] at hj⟩) (phase1_keys ts hr)

theorem ladders_keys {t : Term} {j : Nat} (h : j ∈ (ladders t).map Prod.fst) : j ∈ t.keys := by
  obtain ⟨p, hp, rfl⟩ := List.mem_map.mp h
  have := (ladders_perm t).mem_iff.mp hp
  exact List.mem_map.mpr ⟨p, (List.mem_filter.mp this).1, rfl⟩

theorem newTerm_keys {t nd : Term} (h : KeyOk t nd) : KeyOk t (newTerm t nd) := by
  have h1 : KeyOk t (addLadders nd (ladders t)) := by
    unfold addLadders
    rcases hl : (ladders t).getLast? with _ | a
    · exact h
    · dsimp only
      have ha : a.1 ∈ t.keys := ladders_keys (List.mem_map.mpr ⟨a, List.mem_of_getLast? hl, rfl⟩)
      obtain ⟨k1, k2⟩ := foldl_tset_ok ((ladders t).dropLast.map fun p => (p.1, ladFac a.2 p.2)) (tset nd a.1 .Z) (wf_tset h.1 _ _)
      refine ⟨k1, fun j hj => ?_⟩
      rcases k2 j hj with hj | hj
      · rcases (keys_tset _ _ _ _).mp hj with e | e
        · rw [e]; exact ha
        · exact h.2 j e
      · rw [List.map_map] at hj
        obtain ⟨p, hp, rfl⟩ := List.mem_map.mp hj
        exact ladders_keys (List.mem_map.mpr ⟨p, List.mem_of_mem_dropLast hp, rfl⟩)
  unfold newTerm addProj
  obtain ⟨k1, k2⟩ := foldl_tset_ok (t.filter fun p => isProj p.2) (addLadders nd (ladders t)) h1.1
  refine ⟨k1, fun j hj => ?_⟩
  rcases k2 j hj with hj | hj
  · exact h1.2 j hj
  · obtain ⟨p, hp, rfl⟩ := List.mem_map.mp hj
    exact List.mem_map.mpr ⟨p, (List.mem_filter.mp hp).1, rfl⟩

end Verif.Ham
