import Verif.Ham.Conj
import Verif.Props.Simulate

/-! C96: the change of basis of a group of qubit-wise commuting terms. -/

namespace Verif.Props

open Verif.Oper Verif.Circ Verif.Ham
open Verif.Rev (upd)

theorem minQ_lt {R : Type} {d : QOp R} {p : Term × R} (hp : p ∈ d) {k : Nat} (hk : k ∈ p.1.keys) : k < minQ d := by
  have key : ∀ (l : List Nat) (m : Nat), m ≤ l.foldl (fun m k => max m (k + 1)) m ∧ ∀ k ∈ l, k < l.foldl (fun m k => max m (k + 1)) m := by
    intro l
    induction l with
    | nil => intro m; exact ⟨Nat.le_refl _, fun k hk => by simp at hk⟩
    | cons x l ih =>
      intro m
      obtain ⟨h1, h2⟩ := ih (max m (x + 1))
      refine ⟨(Nat.le_max_left _ _).trans h1, fun k hk => ?_⟩
      rcases List.mem_cons.mp hk with rfl | hk
      · exact lt_of_lt_of_le (Nat.lt_succ_self _) ((Nat.le_max_right m (k + 1)).trans h1)
      · exact h2 k hk
  exact (key _ 0).2 k (List.mem_flatMap.mpr ⟨p, hp, hk⟩)

theorem isLad_pz (f : Fac) : isLad (pz f) = isLad f := by revert f; decide +kernel
theorem facAdj_of (f : Fac) (h : isLad f = false) : facAdj f = f := by revert f; decide +kernel

/-- The first layer on a term. -/
theorem layer1 {n : Nat} {ts : List Term} {b : Nat → Option Fac} {g : List BG} (h : Ok1 n ts b g) {f : Nat → Fac} (hf : ∀ k, Compat (b k) (f k)) :
    gmatL n g * (tensor fun k : Fin n => mat (f k)) = (tensor fun k : Fin n => mat (pz (f k))) * gmatL n g := by
  rw [h.mat, tensor_mul, tensor_mul]
  congr 1
  funext k
  exact bm_mat (hf k)

theorem compat_group {n : Nat} {D : List Term} (hG : Grp n D) {b : Nat → Option Fac} (hb : Bok D b)
    (hp : ∀ t ∈ D, ∀ k, Ham.isPauli (t.get k) = true → b k = some (t.get k)) {t : Term} (ht : t ∈ D) (k : Nat) : Compat (b k) (t.get k) := by
  refine ⟨hp t ht k, fun h => ?_, fun h => ?_⟩
  · rcases e : b k with _ | g
    · exact Or.inl rfl
    · right
      obtain ⟨h1, u, hu, hg⟩ := hb k g e
      have := hG.comm u hu t ht k
      rw [hg] at this
      rw [pauli_proj g (t.get k) h1 h this]
  · rcases e : b k with _ | g
    · rfl
    · obtain ⟨h1, u, hu, hg⟩ := hb k g e
      have := hG.lad u hu t ht k
      rw [hg, h] at this
      revert h1 this
      cases g <;> decide

/-- The gates of the basis change on the symmetrised term. -/
theorem term_conj {n : Nat} {D : List Term} (hG : Grp n D) {b : Nat → Option Fac} {g : List BG} (hb : Ok1 n D b g)
    (hp : ∀ t ∈ D, ∀ k, Ham.isPauli (t.get k) = true → b k = some (t.get k)) {t nd : Term} (ht : t ∈ D) (hn : NdOk t nd) :
    gmatL n (g ++ ladGates (ladders t)) * ((1 / 2 : ℂ) • (tmat n t + (tmat n t).conjTranspose)) =
      (pref (ladders t) • tmat n (newTerm t nd)) * gmatL n (g ++ ladGates (ladders t)) := by
  have hw := hG.wf t ht
  have hc := compat_group hG hb.bok hp ht
  have e1 := layer1 hb hc
  have e2 := layer1 hb fun k => compat_adj (hc k)
  have hT : tmat n t = tensor fun k : Fin n => mat (t.get k) := rfl
  have hT' : (tmat n t).conjTranspose = tensor fun k : Fin n => mat (facAdj (t.get k)) := by
    rw [hT, tensor_conj]
    congr 1
    funext k
    rw [mat_conj]
  have hN : tmat n (newTerm t nd) = tensor fun k : Fin n => mat (nf (ladders t).getLast? k (t.get k)) := by
    unfold tmat
    congr 1
    funext k
    rw [get_newTerm hw hn]
  rw [hT', hT, hN, gmatL_append]
  rcases hl : (ladders t).getLast? with _ | a
  · have hL : ladders t = [] := List.getLast?_eq_none_iff.mp hl
    have hnl : ∀ k, isLad (t.get k) = false := by
      intro k
      by_contra h
      have : (k, t.get k) ∈ ladders t := (mem_ladders hw).mpr ⟨rfl, by simpa using h⟩
      rw [hL] at this; simp at this
    have e3 : (fun k : Fin n => mat (facAdj (t.get k))) = fun k : Fin n => mat (t.get k) := by
      funext k
      rw [facAdj_of _ (hnl k)]
    have e4 : (fun k : Fin n => mat (nf none k (t.get k))) = fun k : Fin n => mat (pz (t.get k)) := by
      funext k
      unfold nf pz
      rw [hnl k]; rfl
    rw [e3, e4, hL]
    show (1 : MatN n) * gmatL n g * _ = ((if ([] : List (Nat × Fac)) = [] then (1 : ℂ) else 1 / 2) • _) * (1 * gmatL n g)
    rw [one_mul, if_pos rfl, one_smul, ← e1, ← two_smul ℂ, smul_smul]
    norm_num
  · obtain ⟨L, hL⟩ := List.getLast?_eq_some_iff.mp hl
    have hnd := ladders_nodup hw
    rw [hL, List.map_append, List.nodup_append] at hnd
    have haS : a.1 ∉ L.map Prod.fst := fun h => hnd.2.2 a.1 h a.1 (by simp) rfl
    have hmemL : ∀ p ∈ ladders t, t.get p.1 = p.2 ∧ isLad p.2 = true ∧ p.1 < n := by
      intro p hp
      obtain ⟨h1, h2⟩ := (mem_ladders hw).mp hp
      refine ⟨h1, h2, hG.lt t ht p.1 (ladders_keys (List.mem_map.mpr ⟨p, hp, rfl⟩))⟩
    obtain ⟨a1, a2, a3⟩ := hmemL a (by rw [hL]; simp)
    have hS : ∀ k ∈ L.map Prod.fst, isLad (t.get k) = true ∧ k < n := by
      intro k hk
      obtain ⟨p, hp, rfl⟩ := List.mem_map.mp hk
      obtain ⟨h1, h2, h3⟩ := hmemL p (by rw [hL]; exact List.mem_append_left _ hp)
      exact ⟨by rw [h1]; exact h2, h3⟩
    have hO : ∀ k, k ∉ L.map Prod.fst → k ≠ a.1 → isLad (t.get k) = false := by
      intro k h1 h2
      by_contra h
      have hm : (k, t.get k) ∈ ladders t := (mem_ladders hw).mpr ⟨rfl, by simpa using h⟩
      rw [hL] at hm
      rcases List.mem_append.mp hm with h | h
      · exact h1 (List.mem_map.mpr ⟨_, h, rfl⟩)
      · rw [List.mem_singleton] at h
        exact h2 (congrArg Prod.fst h)
    have hg : ladGates (ladders t) = (L.map Prod.fst).map (BG.cx a.1) ++ [.h a.1] := by
      unfold ladGates
      rw [hl, hL]
      dsimp only
      rw [List.dropLast_concat, List.map_map]
      rfl
    have key := lad_conj a3 (L.map Prod.fst) hnd.1 haS (fun j hj => (hS j hj).2) (fun k => pz (t.get k))
      (by beta_reduce; rw [isLad_pz, a1]; exact a2) (fun k hk => by beta_reduce; rw [isLad_pz]; exact (hS k hk).1)
      (fun k h1 h2 => facAdj_of _ (by rw [isLad_pz]; exact hO k h1 h2))
    have e5 : (fun k : Fin n => mat (if (k : Nat) = a.1 then .Z else if (k : Nat) ∈ L.map Prod.fst then ladFac (pz (t.get a.1)) (pz (t.get k)) else pz (t.get k))) =
        fun k : Fin n => mat (nf (some a) k (t.get k)) := by
      funext k
      congr 1
      have hpl : ∀ f : Fac, isLad f = true → Ham.isPauli f = false ∧ pz f = f := by decide +kernel
      unfold nf
      by_cases e : (k : Nat) = a.1
      · rw [if_pos e, e, a1, (hpl _ a2).1, a2]
        simp
      · rw [if_neg e]
        by_cases hk : (k : Nat) ∈ L.map Prod.fst
        · rw [if_pos hk, a1, (hpl _ a2).2, (hpl _ (hS k hk).1).2, (hpl _ (hS k hk).1).1, (hS k hk).1]
          simp [e]
        · rw [if_neg hk, hO k hk e]
          unfold pz
          simp
    rw [e5] at key
    have hpf : pref (ladders t) = 1 / 2 := by
      unfold pref
      rw [if_neg]
      rw [hL]; simp
    have e2' : gmatL n g * (tensor fun k : Fin n => mat (facAdj (t.get k))) = (tensor fun k : Fin n => mat (facAdj (pz (t.get k)))) * gmatL n g := by
      rw [e2]
      congr 2
      funext k
      rw [pz_adj]
    rw [hg, hpf, Matrix.mul_smul, Matrix.smul_mul]
    congr 1
    rw [mul_assoc, mul_add, e1, e2', ← add_mul, ← mul_assoc, key, mul_assoc]

theorem dwf_pairwise {R : Type} {d : QOp R} (h : DWF d) : d.Pairwise fun p q => keyEq p.1 q.1 = false := by
  induction d with
  | nil => exact List.Pairwise.nil
  | cons p d ih =>
    obtain ⟨s, c⟩ := p
    refine List.Pairwise.cons (fun q hq => ?_) (ih h.2)
    have := dmem_false.mp h.1 q hq
    rcases e : keyEq s q.1 with _ | _
    · rfl
    · rw [keyEq_symm e] at this; cases this

/-- C96: for terms that commute qubit-wise and have ladder operators on the same qubits `change_of_basis` does not raise; it returns gates
`C` and an operator `d'` with diagonal factors only, so that `C·H = H'·C`, also for
transformed coefficients such as the real parts.  Here a ladder term stands for half the sum with its
conjugate transpose. -/
theorem C96_matrix {n : Nat} {d : QOp ℂ} (hG : Grp n (d.map Prod.fst)) (hD : DWF d) :
    ∃ C d', changeBasis d = some (C, d') ∧ (∀ g ∈ C, g.ok n) ∧ d'.length = d.length ∧
      (∀ p ∈ d', DiagT p.1 ∧ p.1.keys.Nodup ∧ ∀ k ∈ p.1.keys, k < n) ∧
      (∀ φ : ℂ → ℂ, (∀ c, φ (1 / 2 * c) = 1 / 2 * φ c) → gmatL n C * symOp φ n d = omat φ n d' * gmatL n C) ∧
      d'.map Prod.snd = d.map fun p => pref (ladders p.1) * p.2 := by
  rcases hd : d with _ | ⟨p0, d0⟩
  · exact ⟨[], [], rfl, by simp, rfl, by simp, by simp [symOp, omat, gmatL], rfl⟩
  rw [← hd]
  set D := d.map Prod.fst with hDd
  have hm : ∀ t ∈ D, ∀ k ∈ t.keys, k < minQ d := by
    intro t ht k hk
    obtain ⟨p, hp, rfl⟩ := List.mem_map.mp ht
    exact minQ_lt hp hk
  have h0 : Ok1 n D (fun _ => none) [] := ⟨fun j f h => (by cases h), fun x h => (by simp at h), (tensor_one n).symm⟩
  obtain ⟨r, bF, r1, r2, _, r4, r5⟩ := phase1_spec hG hm D (fun _ => none) [] (fun _ h => h) h0
  have r6 := phase1_keys D r1
  rw [hDd, List.forall₂_map_left_iff] at r5 r6
  have hlen : d.length = r.2.length := r5.length_eq
  have hzip : (d.zip r.2).map Prod.fst = d := List.map_fst_zip (by omega)
  set L := ladders p0.1 with hLdef
  have hp0 : p0.1 ∈ D := List.mem_map.mpr ⟨p0, by rw [hd]; simp, rfl⟩
  have hL : ∀ t ∈ D, ladders t = L := fun t ht => grp_ladders hG ht hp0
  have hz : ∀ x ∈ d.zip r.2, x.1.1 ∈ D ∧ NdOk x.1.1 x.2 ∧ KeyOk x.1.1 x.2 := by
    rintro ⟨p, nd⟩ hx
    exact ⟨List.mem_map.mpr ⟨p, (List.of_mem_zip hx).1, rfl⟩, List.forall₂_zip r5 hx, List.forall₂_zip r6 hx⟩
  have hpw : ((d.zip r.2).map (newItem L)).Pairwise fun p q => keyEq p.1 q.1 = false := by
    rw [List.pairwise_map]
    have h1 : (d.zip r.2).Pairwise fun x y => keyEq x.1.1 y.1.1 = false := by
      have := dwf_pairwise hD
      rw [← hzip, List.pairwise_map] at this
      exact this
    refine List.Pairwise.imp_of_mem ?_ h1
    intro x y hx hy hxy
    obtain ⟨x1, x2, _⟩ := hz x hx
    obtain ⟨y1, y2, _⟩ := hz y hy
    rcases e : keyEq (newItem L x).1 (newItem L y).1 with _ | _
    · rfl
    · exfalso
      have hget : ∀ k, x.1.1.get k = y.1.1.get k := by
        intro k
        have h2 : (newTerm x.1.1 x.2).get k = (newTerm y.1.1 y.2).get k := keyEq_get e k
        rw [get_newTerm (hG.wf _ x1) x2, get_newTerm (hG.wf _ y1) y2, hL _ x1, hL _ y1] at h2
        exact nf_inj _ k (hG.comm _ x1 _ y1 k) (hG.lad _ x1 _ y1 k) h2
      have := keyEq_of_get (hG.noI _ x1) (hG.noI _ y1) hget
      rw [this] at hxy; cases hxy
  have h2 := phase2_spec hG L hL (d.zip r.2) [] r.1 [] (fun x hx => ⟨(hz x hx).1, (hz x hx).2.1⟩) (Or.inl rfl) hpw (fun p hp => by simp at hp)
  have hne : d.zip r.2 ≠ [] := by
    intro e
    rw [e, hd] at hzip; simp at hzip
  rw [if_pos ⟨rfl, hne⟩, List.nil_append] at h2
  refine ⟨r.1 ++ ladGates L, (d.zip r.2).map (newItem L), ?_, ?_, ?_, ?_, ?_, ?_⟩
  · unfold changeBasis
    rw [r1]
    exact h2
  · intro g hg
    rcases List.mem_append.mp hg with hg | hg
    · exact r2.ok g hg
    · have hlad : ∀ p ∈ L, p.1 < n := fun p hp => hG.lt _ hp0 p.1 (ladders_keys (List.mem_map.mpr ⟨p, hp, rfl⟩))
      have hnd := ladders_nodup (hG.wf _ hp0)
      rw [← hLdef] at hnd
      unfold ladGates at hg
      rcases hl : L.getLast? with _ | a
      · rw [hl] at hg; simp at hg
      · obtain ⟨L', hL'⟩ := List.getLast?_eq_some_iff.mp hl
        rw [hl] at hg
        dsimp only at hg
        rw [hL', List.map_append, List.nodup_append] at hnd
        rw [hL', List.dropLast_concat] at hg
        have ha : a.1 < n := hlad a (by rw [hL']; simp)
        rcases List.mem_append.mp hg with hg | hg
        · obtain ⟨p, hp, rfl⟩ := List.mem_map.mp hg
          exact ⟨ha, hlad p (by rw [hL']; exact List.mem_append_left _ hp),
            fun e => hnd.2.2 p.1 (List.mem_map.mpr ⟨p, hp, rfl⟩) a.1 (by simp) e.symm⟩
        · rw [List.mem_singleton] at hg
          subst hg; exact ha
  · rw [List.length_map, List.length_zip, ← hlen, Nat.min_self]
  · intro p hp
    obtain ⟨x, hx, rfl⟩ := List.mem_map.mp hp
    obtain ⟨x1, x2, x3⟩ := hz x hx
    obtain ⟨k1, k2⟩ := newTerm_keys x3
    refine ⟨fun q hq => ?_, k1, fun k hk => hG.lt _ x1 k (k2 k hk)⟩
    have hq' : (newTerm x.1.1 x.2).get q.1 = q.2 := lookup_get ((lookup_mem k1).mpr hq)
    rw [get_newTerm (hG.wf _ x1) x2] at hq'
    rw [← hq']
    have hlm : ∀ f : Fac, isLad f = true → (q.1, f) = (q.1, x.1.1.get q.1) → (q.1, f) ∈ ladders x.1.1 := by
      intro f hf e
      exact (mem_ladders (hG.wf _ x1)).mpr ⟨(Prod.mk.inj e).2.symm, hf⟩
    unfold nf
    rcases hf : x.1.1.get q.1 with _ | _ | _ | _ | _ | _ | _ | _
    all_goals try (simp [Ham.isPauli, isLad]; done)
    all_goals
      rcases hl : (ladders x.1.1).getLast? with _ | a
      · have := hlm (x.1.1.get q.1) (by rw [hf]; rfl) rfl
        rw [List.getLast?_eq_none_iff.mp hl] at this; simp at this
      · simp only [Ham.isPauli, isLad]
        simp only [ladFac]
        by_cases e1 : q.1 = a.1 <;> by_cases e2 : a.2 = .C <;> simp [e1, e2]
  · intro φ hφ
    have hφ' : ∀ c, φ (pref L * c) = pref L * φ c := by
      intro c
      unfold pref
      split
      · rw [one_mul, one_mul]
      · exact hφ c
    rw [show symOp φ n d = symOp φ n ((d.zip r.2).map Prod.fst) by rw [hzip]]
    have hsum : ∀ l : List ((Term × ℂ) × Term), (∀ x ∈ l, x ∈ d.zip r.2) →
        gmatL n (r.1 ++ ladGates L) * symOp φ n (l.map Prod.fst) = omat φ n (l.map (newItem L)) * gmatL n (r.1 ++ ladGates L) := by
      intro l
      induction l with
      | nil => intro _; simp [symOp, omat]
      | cons x l ih =>
        intro hl
        have ih := ih fun y hy => hl y (List.mem_cons_of_mem _ hy)
        obtain ⟨x1, x2, _⟩ := hz x (hl x List.mem_cons_self)
        have ht := term_conj hG r2 r4 x1 x2
        rw [hL _ x1] at ht
        rw [List.map_cons, List.map_cons, symOp_cons]
        show _ * (φ x.1.2 • ((1 / 2 : ℂ) • (tmat n x.1.1 + (tmat n x.1.1).conjTranspose)) + _) =
          (φ (pref L * x.1.2) • tmat n (newTerm x.1.1 x.2) + omat φ n (l.map (newItem L))) * _
        rw [hφ', mul_add, add_mul, ih, Matrix.mul_smul, ht, mul_comm (pref L), ← smul_smul, Matrix.smul_mul, Matrix.smul_mul, Matrix.smul_mul]
    exact hsum _ fun x hx => hx
  · rw [List.map_map]
    have : (Prod.snd ∘ newItem L) = (fun p : Term × ℂ => pref L * p.2) ∘ (Prod.fst : (Term × ℂ) × Term → Term × ℂ) := rfl
    rw [this, ← List.map_map, hzip]
    refine List.map_congr_left fun p hp => ?_
    rw [hL p.1 (List.mem_map.mpr ⟨p, hp, rfl⟩)]

/-- C96 on states: applying the operator and then the gates is the same as applying the gates and then the diagonal operator; the inverse
of the gates undoes them. -/
theorem C96_states {n : Nat} {d : QOp ℂ} (hG : Grp n (d.map Prod.fst)) (hD : DWF d) :
    ∃ C d', changeBasis d = some (C, d') ∧ (∀ p ∈ d', DiagT p.1) ∧
      ∀ ψ, runB C (actM (symOp id n d) ψ) = actM (omat id n d') (runB C ψ) ∧ runBinv C (runB C ψ) = ψ := by
  obtain ⟨C, d', h1, h2, _, h4, h5, _⟩ := C96_matrix hG hD
  refine ⟨C, d', h1, fun p hp => (h4 p hp).1, fun ψ => ⟨?_, ?_⟩⟩
  · rw [runB_actM h2, runB_actM h2, ← actM_mul, ← actM_mul, h5 id fun _ => rfl]
  · rw [runB_actM h2, runBinv_actM h2, ← actM_mul, gmatIL_mul h2, actM_one]

/-- C96: different but overlapping sets of ladder operators raise although the terms commute qubit-wise. -/
theorem C96_overlap_raises (x y : ℂ) : changeBasis [([(0, .A), (1, .A)], x), ([(1, .A), (2, .A)], y)] = none := rfl

/-- C96: terms that do not commute on a qubit violate the assertion. -/
theorem C96_assert (x y : ℂ) : changeBasis [([(0, .X)], x), ([(0, .Y)], y)] = none := rfl

example (x y : ℂ) : changeBasis [([(0, .A), (1, .C), (2, .Z)], x), ([(3, .X), (0, .A), (1, .C), (4, .P1)], y), ([(0, .A), (1, .C), (5, .Y)], y)] =
    some ([.h 3, .sxdg 5, .cx 1 0, .h 1], [([(2, .Z), (1, .Z), (0, .P1)], 1 / 2 * x), ([(3, .Z), (1, .Z), (0, .P1), (4, .P1)], 1 / 2 * y),
      ([(5, .Z), (1, .Z), (0, .P1)], 1 / 2 * y)]) := rfl

end Verif.Props
