import Verif.Tens.State

/-!
# The operations of quantum states act on the amplitudes
-/

namespace Verif.Tens

set_option linter.unusedSectionVars false

variable {K : Type} [Field K] [StarRing K] [DecidableEq K]

/-! ### Norms -/

/-- the norm of a product of factors -/
theorem norm_prod (l : List (TF K)) (ho : ∀ t ∈ l, t.Ok) (hn : (l.flatMap (·.qubits)).Nodup) (b : Nat → Bool) :
    tot (l.flatMap (·.qubits)) (fun b => star (l.map (amp · b)).prod * (l.map (amp · b)).prod) b = (l.map normTF).prod := by
  induction l generalizing b with
  | nil => simp [tot]
  | cons t l ih =>
    rw [List.flatMap_cons, List.nodup_append] at hn
    obtain ⟨n1, n2, n3⟩ := hn
    rw [List.flatMap_cons, tot_append, List.map_cons, List.prod_cons, norm_tot (ho t (by simp)) b, mul_comm, ← tot_const_mul]
    apply tot_congr
    intro b' _
    rw [← ih (fun t ht => ho t (by simp [ht])) n2 b', mul_comm, ← tot_const_mul]
    apply tot_congr
    intro b'' hb''
    have e : amp t b'' = amp t b' := amp_local fun q hq => hb'' q fun hm => n3 q hq q hm rfl
    simp only [List.map_cons, List.prod_cons, e, star_mul]
    ring

/-- the columns of the matrix are orthonormal -/
def Isometry (m : Nat) (M : List K) : Prop :=
  ∀ k ∈ allBits m, ∀ l ∈ allBits m,
    ((allBits m).map fun x => star (M.getD (num (x ++ k)) 0) * M.getD (num (x ++ l)) 0).sum = if k = l then 1 else 0

theorem star_list_sum (l : List K) : star l.sum = (l.map star).sum := by
  induction l with
  | nil => simp
  | cons x l ih => simp [ih]

theorem sum_mul_sum {α β : Type} (l : List α) (l' : List β) (f : α → K) (g : β → K) :
    (l.map f).sum * (l'.map g).sum = (l.map fun x => (l'.map fun y => f x * g y).sum).sum := by
  induction l with
  | nil => simp
  | cons x l ih =>
    simp only [List.map_cons, List.sum_cons, add_mul, ih, List.sum_map_mul_left]

theorem sum_delta {α : Type} [DecidableEq α] (l : List α) (hn : l.Nodup) (k : α) (hk : k ∈ l) (f : α → K) :
    (l.map fun x => if k = x then f x else 0).sum = f k := by
  induction l with
  | nil => simp at hk
  | cons x l ih =>
    obtain ⟨h1, h2⟩ := List.nodup_cons.1 hn
    rw [List.map_cons, List.sum_cons]
    by_cases e : k = x
    · subst e
      rw [if_pos rfl, sum_zero_of, add_zero]
      intro y hy
      rw [if_neg]
      rintro rfl
      exact h1 hy
    · rw [if_neg e, zero_add]
      exact ih h2 ((List.mem_cons.1 hk).resolve_left e)

theorem isometry_norm {m : Nat} {M : List K} (h : Isometry m M) (A : List Bool → K) :
    ((allBits m).map fun x => star ((allBits m).map fun k => M.getD (num (x ++ k)) 0 * A k).sum *
      ((allBits m).map fun k => M.getD (num (x ++ k)) 0 * A k).sum).sum = ((allBits m).map fun k => star (A k) * A k).sum := by
  have e1 : ∀ x, star ((allBits m).map fun k => M.getD (num (x ++ k)) 0 * A k).sum *
      ((allBits m).map fun k => M.getD (num (x ++ k)) 0 * A k).sum =
      ((allBits m).map fun k => ((allBits m).map fun l =>
        (star (A k) * A l) * (star (M.getD (num (x ++ k)) 0) * M.getD (num (x ++ l)) 0)).sum).sum := by
    intro x
    rw [star_list_sum, List.map_map, sum_mul_sum]
    congr 1
    apply List.map_congr_left
    intro k _
    congr 1
    apply List.map_congr_left
    intro l _
    simp only [Function.comp, star_mul]
    ring
  simp only [e1]
  rw [sum_comm']
  congr 1
  apply List.map_congr_left
  intro k hk
  rw [sum_comm']
  rw [show (allBits m).map (fun l => ((allBits m).map fun x =>
      (star (A k) * A l) * (star (M.getD (num (x ++ k)) 0) * M.getD (num (x ++ l)) 0)).sum) =
      (allBits m).map (fun l => if k = l then star (A k) * A l else 0) from ?_]
  · exact sum_delta _ (allBits_nodup m) k hk (fun l => star (A k) * A l)
  · apply List.map_congr_left
    intro l hl
    rw [List.sum_map_mul_left, h k hk l hl]
    split <;> simp

theorem setBits_off {b b' : Nat → Bool} {qs : List Nat} (h : ∀ q, q ∉ qs → b' q = b q) (k : List Bool) : setBits b' qs k = setBits b qs k := by
  funext q
  unfold setBits
  split
  · rfl
  · exact h q ‹_›

theorem setBits_back {b b' : Nat → Bool} {qs : List Nat} (h : ∀ q, q ∉ qs → b' q = b q) : setBits b qs (qs.map b') = b' := by
  funext q
  unfold setBits
  split
  · rename_i hm
    have hl := List.idxOf_lt_length_of_mem hm
    rw [List.getD_eq_getElem _ _ (by rw [List.length_map]; exact hl), List.getElem_map, List.getElem_idxOf]
  · exact (h q ‹_›).symm

/-- an isometry on some of the qubits keeps the sum over these qubits -/
theorem tot_isometry {M : List K} {qs : List Nat} (hn : qs.Nodup) (h : Isometry qs.length M) (F G : (Nat → Bool) → K)
    (hG : ∀ b, G b = ((allBits qs.length).map fun k => M.getD (num (qs.map b ++ k)) 0 * F (setBits b qs k)).sum) (b : Nat → Bool) :
    tot qs (fun b => star (G b) * G b) b = tot qs (fun b => star (F b) * F b) b := by
  have e1 : tot qs (fun b => star (G b) * G b) b =
      tot qs (fun b' => (fun x => star ((allBits qs.length).map fun k => M.getD (num (x ++ k)) 0 * F (setBits b qs k)).sum *
        ((allBits qs.length).map fun k => M.getD (num (x ++ k)) 0 * F (setBits b qs k)).sum) (qs.map b')) b := by
    apply tot_congr
    intro b' hb'
    rw [hG b']
    simp only [setBits_off hb']
  have e2 : tot qs (fun b => star (F b) * F b) b =
      tot qs (fun b' => (fun k => star (F (setBits b qs k)) * F (setBits b qs k)) (qs.map b')) b := by
    apply tot_congr
    intro b' hb'
    dsimp only
    rw [setBits_back hb']
  exact e1.trans ((tot_bits qs hn _ b).symm.trans ((isometry_norm h _).trans ((tot_bits qs hn _ b).trans e2.symm)))

theorem subset_split {qs l : List Nat} (hn : qs.Nodup) (h : ∀ q ∈ qs, q ∈ l) : ∃ R, l.Perm (R ++ qs) := by
  refine ⟨l.diff qs, ?_⟩
  have h1 : qs.Subperm l := hn.subperm h
  exact (List.subperm_append_diff_self_of_count_le (fun x _ => List.Subperm.count_le h1 x)).symm.trans List.perm_append_comm

theorem norm_isometry {M : List K} {qs : List Nat} (hn : qs.Nodup) (h : Isometry qs.length M) {t t' : TF K} (ht : t.Ok) (ht' : t'.Ok)
    (hq : ∀ q ∈ qs, q ∈ t.qubits) (hp : t'.qubits.Perm t.qubits)
    (ha : ∀ b, amp t' b = ((allBits qs.length).map fun k => M.getD (num (qs.map b ++ k)) 0 * amp t (setBits b qs k)).sum) :
    normTF t' = normTF t := by
  obtain ⟨R, hR⟩ := subset_split hn hq
  rw [norm_tot ht' (fun _ => false), norm_tot ht (fun _ => false), tot_perm (hp.trans hR) _ _ ht'.nodup, tot_perm hR _ _ ht.nodup,
    tot_append, tot_append]
  apply tot_congr
  intro b _
  exact tot_isometry hn h (amp t) (amp t') ha b

/-! ### Applying a matrix -/

/-- the amplitudes after a matrix acted on the qubits `qs` -/
def matAct (M : List K) (qs : List Nat) (F : (Nat → Bool) → K) (b : Nat → Bool) : K :=
  ((allBits qs.length).map fun k => M.getD (num (qs.map b ++ k)) 0 * F (setBits b qs k)).sum

/-- the assumptions on what is not determined by the code -/
structure Env.Ok (E : Env K) : Prop where
  root : Root E.root
  ord : ∀ l, (E.ord l).Perm l

/-- the objects of a list of objects -/
structure Objs (s : State K) (ids : List Nat) : Prop where
  nodup : ids.Nodup
  obj : ∀ i ∈ ids, ∃ q < s.n, s.p q = i

theorem objs_qubit {s : State K} (hi : Inv s) {ids : List Nat} (h : Objs s ids) (x : Nat) :
    x ∈ ids.flatMap (fun i => (s.g i).qubits) ↔ x < s.n ∧ s.p x ∈ ids := by
  rw [List.mem_flatMap]
  constructor
  · rintro ⟨i, h1, h2⟩
    obtain ⟨q, hq, rfl⟩ := h.obj i h1
    obtain ⟨h3, h4⟩ := hi.back q hq x h2
    exact ⟨h3, by rw [h4]; exact h1⟩
  · rintro ⟨h1, h2⟩
    exact ⟨_, h2, hi.mem x h1⟩

theorem objs_nodup {s : State K} (hi : Inv s) {ids : List Nat} (h : Objs s ids) : (ids.flatMap fun i => (s.g i).qubits).Nodup := by
  rw [List.nodup_flatMap]
  refine ⟨?_, ?_⟩
  · intro i hi'
    obtain ⟨q, hq, rfl⟩ := h.obj i hi'
    exact (hi.ok q hq).nodup
  · refine h.nodup.imp_of_mem ?_
    intro i j h1 h2 hne x hx hy
    obtain ⟨q, hq, rfl⟩ := h.obj i h1
    obtain ⟨r, hr, rfl⟩ := h.obj j h2
    exact hne ((hi.back q hq x hx).2.symm.trans (hi.back r hr x hy).2)

theorem objs_closed {s : State K} (hi : Inv s) {ids : List Nat} (h : Objs s ids) :
    Closed s (ids.flatMap fun i => (s.g i).qubits).toFinset := by
  refine ⟨?_, ?_⟩
  · intro x hx
    rw [List.mem_toFinset, objs_qubit hi h] at hx
    exact hx.1
  · intro x hx y hy e
    rw [List.mem_toFinset, objs_qubit hi h] at hx ⊢
    exact ⟨hy, by rw [e]; exact hx.2⟩

theorem objs_part {s : State K} (hi : Inv s) {ids : List Nat} (h : Objs s ids) (b : Nat → Bool) :
    part s (ids.flatMap fun i => (s.g i).qubits).toFinset b = (ids.map fun i => amp (s.g i) b).prod := by
  unfold part
  rw [show (ids.flatMap fun i => (s.g i).qubits).toFinset.image s.p = ids.toFinset from ?_, List.prod_toFinset _ h.nodup]
  ext i
  rw [Finset.mem_image, List.mem_toFinset]
  constructor
  · rintro ⟨x, hx, rfl⟩
    rw [List.mem_toFinset, objs_qubit hi h] at hx
    exact hx.2
  · intro hi'
    obtain ⟨q, hq, rfl⟩ := h.obj i hi'
    exact ⟨q, by rw [List.mem_toFinset, objs_qubit hi h]; exact ⟨hq, hi'⟩, rfl⟩

/-- the objects joined -/
theorem objs_entangle {E : Env K} {s : State K} (hi : Inv s) {ids : List Nat} (h : Objs s ids) (hne : ids ≠ []) :
    ∃ u, multiEntangle E.H (ids.length - 1) (ids.map s.g) = some u ∧ u.Ok ∧ u.qubits.Perm (ids.flatMap fun i => (s.g i).qubits) ∧
      (∀ b, amp u b = (ids.map fun i => amp (s.g i) b).prod) ∧ normTF u = 1 := by
  have hlen : 0 < ids.length := List.length_pos_of_ne_nil hne
  have hok : ∀ t ∈ ids.map s.g, t.Ok := by
    intro t ht
    obtain ⟨i, h1, rfl⟩ := List.mem_map.1 ht
    obtain ⟨q, hq, rfl⟩ := h.obj i h1
    exact hi.ok q hq
  have hf : (ids.map s.g).flatMap (·.qubits) = ids.flatMap fun i => (s.g i).qubits := by
    rw [List.flatMap_map]
  have hnd : ((ids.map s.g).flatMap (·.qubits)).Nodup := by rw [hf]; exact objs_nodup hi h
  obtain ⟨u, u1, u2, u3, u4⟩ := multiEntangle_ok E.H (ids.length - 1) (ids.map s.g) (by rw [List.length_map]; omega) hok hnd
  refine ⟨u, u1, u2, by rw [← hf]; exact u3, ?_, ?_⟩
  · intro b
    rw [u4, List.map_map]
    rfl
  · rw [norm_tot u2 (fun _ => false), tot_perm u3 _ _ u2.nodup]
    simp only [u4]
    rw [norm_prod _ hok hnd]
    apply List.prod_eq_one
    intro x hx
    obtain ⟨t, ht, rfl⟩ := List.mem_map.1 hx
    obtain ⟨i, h1, rfl⟩ := List.mem_map.1 ht
    obtain ⟨q, hq, rfl⟩ := h.obj i h1
    exact hi.norm q hq

theorem involved_objs {E : Env K} (hE : E.Ok) {s : State K} {qs : List Nat} (hq : ∀ q ∈ qs, q < s.n) : Objs s (involved E s qs) := by
  have hp := hE.ord (qs.map s.p).dedup
  refine ⟨hp.nodup_iff.2 (List.nodup_dedup _), ?_⟩
  intro i hi
  have h1 := hp.mem_iff.1 hi
  rw [List.mem_dedup, List.mem_map] at h1
  obtain ⟨q, h2, h3⟩ := h1
  exact ⟨q, hq q h2, h3⟩

theorem involved_mem {E : Env K} (hE : E.Ok) {s : State K} {qs : List Nat} {q : Nat} (hq : q ∈ qs) : s.p q ∈ involved E s qs := by
  have hp := hE.ord (qs.map s.p).dedup
  unfold involved
  rw [hp.mem_iff, List.mem_dedup]
  exact List.mem_map.2 ⟨q, hq, rfl⟩

theorem applyCore_ok {E : Env K} (hE : E.Ok) {s : State K} (hi : Inv s) {M : List K} {qs : List Nat} (hn : qs.Nodup) (hne : qs ≠ [])
    (hq : ∀ q ∈ qs, q < s.n) (hM : M.length = 2 ^ (qs.length + qs.length)) (hU : Isometry qs.length M) :
    ∃ s' e, applyCore E s M qs = some (s', e) ∧ Inv s' ∧ s'.n = s.n ∧ (∀ b, psi s' b = matAct M qs (psi s) b) ∧ ∀ q ∈ qs, s'.p q = e := by
  unfold applyCore
  dsimp only
  have ho := involved_objs hE hq
  have hmem : ∀ q ∈ qs, s.p q ∈ involved E s qs := fun q h => involved_mem hE h
  generalize involved E s qs = ids at ho hmem
  obtain ⟨q0, hq0⟩ := List.exists_mem_of_ne_nil _ hne
  have hids : ids ≠ [] := List.ne_nil_of_mem (hmem q0 hq0)
  obtain ⟨u, u1, u2, u3, u4, u5⟩ := objs_entangle (E := E) hi ho hids
  have hqu : ∀ q ∈ qs, q ∈ u.qubits := by
    intro q h
    rw [u3.mem_iff, objs_qubit hi ho]
    exact ⟨hq q h, hmem q h⟩
  obtain ⟨t, t1, t2, t3, t4⟩ := applyMatrix_ok E.H u2 hM hn hqu
  have t5 := norm_isometry hn hU u2 t2 hqu t3 t4
  rw [u5] at t5
  set e := if ids.length = 1 then ids.getD 0 0 else s.heap.length with he
  set heap := if ids.length = 1 then s.heap else s.heap ++ [u] with hheap
  set s' : State K := ⟨redirect s.ptr (ids.flatMap fun i => (s.g i).qubits) e, heap.set e t⟩ with hs'
  have hfacts : s'.g e = t ∧ (∀ r < s.n, s.p r ∉ ids → e ≠ s.p r ∧ s'.g (s.p r) = s.g (s.p r)) ∧ e < s'.heap.length ∧
      s.heap.length ≤ s'.heap.length := by
    by_cases h1 : ids.length = 1
    · rw [if_pos h1] at he hheap
      obtain ⟨i, rfl⟩ := List.length_eq_one_iff.1 h1
      have hei : e = i := he
      obtain ⟨q, hq', rfl⟩ := ho.obj i (by simp)
      have hlt := hi.lt q hq'
      have hg : ∀ j, s'.g j = if e = j then t else s.g j := by
        intro j
        show (heap.set e t).getD j (zeroTF 0) = _
        rw [hheap]
        exact heap_set _ _ _ _ (by rw [hei]; exact hlt)
      have hl : s'.heap.length = s.heap.length := by simp [hs', hheap]
      refine ⟨by rw [hg, if_pos rfl], ?_, by rw [hl, hei]; exact hlt, le_of_eq hl.symm⟩
      intro r hr hrn
      have hne' : e ≠ s.p r := by
        intro h2
        apply hrn
        rw [← h2, hei]
        simp
      exact ⟨hne', by rw [hg, if_neg hne']⟩
    · rw [if_neg h1] at he hheap
      have hl : s'.heap.length = s.heap.length + 1 := by simp [hs', hheap]
      have hg : ∀ j, s'.g j = if e = j then t else (s.heap ++ [u]).getD j (zeroTF 0) := by
        intro j
        show (heap.set e t).getD j (zeroTF 0) = _
        rw [hheap]
        exact heap_set _ _ _ _ (by rw [he]; simp)
      refine ⟨by rw [hg, if_pos rfl], ?_, by rw [hl, he]; omega, by omega⟩
      intro r hr _
      have hlt := hi.lt r hr
      have hne' : e ≠ s.p r := by rw [he]; omega
      refine ⟨hne', ?_⟩
      rw [hg, if_neg hne', List.getD_append _ _ _ _ hlt]
      rfl
  obtain ⟨f1, f2, f3, f4⟩ := hfacts
  have hQ := objs_closed hi ho
  have hp' : ∀ x < s.n, s'.p x = if s.p x ∈ ids then e else s.p x := by
    intro x hx
    show (redirect s.ptr (ids.flatMap fun i => (s.g i).qubits) e).getD x 0 = _
    rw [redirect_get _ _ _ _ hx]
    by_cases h : s.p x ∈ ids
    · rw [if_pos h, if_pos ((objs_qubit hi ho x).2 ⟨hx, h⟩)]
    · rw [if_neg h, if_neg (fun h' => h ((objs_qubit hi ho x).1 h').2)]
      rfl
  have hmQ : ∀ x < s.n, x ∈ (ids.flatMap fun i => (s.g i).qubits).toFinset ↔ s.p x ∈ ids := by
    intro x hx
    rw [List.mem_toFinset, objs_qubit hi ho]
    exact ⟨fun h => h.2, fun h => ⟨hx, h⟩⟩
  have hrep : Repl s s' (ids.flatMap fun i => (s.g i).qubits).toFinset := by
    refine ⟨by simp [hs', State.n, redirect_length], ?_, ?_⟩
    · intro r hr hrQ
      rw [hmQ r hr] at hrQ
      refine ⟨by rw [hp' r hr, if_neg hrQ], (f2 r hr hrQ).2, lt_of_lt_of_le (hi.lt r hr) f4⟩
    · intro x hx r hr hrQ
      have hxn := hQ.sub x hx
      rw [hmQ x hxn] at hx
      rw [hmQ r hr] at hrQ
      rw [hp' x hxn, if_pos hx]
      exact (f2 r hr hrQ).1
  have hpe : ∀ x ∈ (ids.flatMap fun i => (s.g i).qubits).toFinset, s'.p x = e := by
    intro x hx
    have hxn := hQ.sub x hx
    rw [hmQ x hxn] at hx
    rw [hp' x hxn, if_pos hx]
  refine ⟨s', e, by rw [u1]; simp [t1, hs', hheap], repl_inv hi hQ hrep ?_, hrep.n, ?_, ?_⟩
  · intro x hx
    rw [hpe x hx, f1]
    refine ⟨f3, ?_, ?_, t2, t5⟩
    · rw [(t3.trans u3).mem_iff]
      exact List.mem_toFinset.1 hx
    · intro r hr
      rw [(t3.trans u3).mem_iff] at hr
      exact ⟨List.mem_toFinset.2 hr, hpe r (List.mem_toFinset.2 hr)⟩
  · intro b
    have hq0Q : q0 ∈ (ids.flatMap fun i => (s.g i).qubits).toFinset := (hmQ q0 (hq q0 hq0)).2 (hmem q0 hq0)
    have i1 : (ids.flatMap fun i => (s.g i).qubits).toFinset.image s'.p = {e} := by
      apply Finset.eq_singleton_iff_unique_mem.2
      refine ⟨Finset.mem_image.2 ⟨q0, hq0Q, hpe q0 hq0Q⟩, ?_⟩
      intro i hi'
      obtain ⟨x, hx, rfl⟩ := Finset.mem_image.1 hi'
      exact hpe x hx
    have i2 : part s' (ids.flatMap fun i => (s.g i).qubits).toFinset b = amp t b := by
      unfold part
      rw [i1, Finset.prod_singleton, f1]
    rw [repl_psi hQ hrep, i2, t4, ← List.sum_map_mul_right]
    unfold matAct
    congr 1
    apply List.map_congr_left
    intro k _
    rw [psi_split hQ, objs_part hi ho, u4, mul_assoc]
    congr 2
    apply part_other hi hQ
    intro x hx
    unfold setBits
    rw [if_neg]
    intro hxq
    exact hx ((hmQ x (hq x hxq)).2 (hmem x hxq))
  · intro q h
    exact hpe q ((hmQ q (hq q h)).2 (hmem q h))

theorem cleanUp_ok {E : Env K} (hE : E.Ok) {s : State K} (hi : Inv s) {qs : List Nat} (hn : qs.Nodup) (hq : ∀ q ∈ qs, q < s.n) {e q0 : Nat}
    (he : ∀ q ∈ qs, s.p q = e) (hq0 : q0 ∈ qs) : Kept s (cleanUp E s e qs) := by
  have hn0 := hq q0 hq0
  have hpe := he q0 hq0
  subst hpe
  have hok := hi.ok q0 hn0
  obtain ⟨R, r1, r2, r3, r4⟩ := toFront_ok qs.reverse (s.g (s.p q0)) [] (s.g (s.p q0)).qubits hok rfl (List.nodup_reverse.2 hn) (by
    intro q h
    rw [List.mem_reverse] at h
    rw [inv_same hi hn0]
    exact ⟨hq q h, he q h⟩)
  rw [List.length_nil] at r1 r2 r4
  have k1 := kept_set hi hn0 r1 (by rw [r2]; exact r3) r4
  unfold cleanUp
  dsimp only
  refine k1.trans (disentangle_list hE.root _ k1.inv ?_)
  intro x hx
  obtain ⟨i, h1, rfl⟩ := List.mem_map.1 hx
  have h2 := (List.mem_filter.1 h1).1
  rw [List.mem_reverse, List.mem_range] at h2
  rw [k1.n, List.getD_eq_getElem _ _ h2]
  exact hq _ (List.getElem_mem h2)

theorem matAct_congr {M : List K} {qs : List Nat} {F G : (Nat → Bool) → K} (h : ∀ b, F b = G b) (b : Nat → Bool) :
    matAct M qs F b = matAct M qs G b := by
  rw [show F = G from funext h]

/-- **applying an operation to a quantum state multiplies its amplitudes with the matrix** -/
theorem applyOp_ok {E : Env K} (hE : E.Ok) {s : State K} (hi : Inv s) {M : List K} {qs : List Nat} (hn : qs.Nodup) (hne : qs ≠ [])
    (hq : ∀ q ∈ qs, q < s.n) (hM : M.length = 2 ^ (qs.length + qs.length)) (hU : Isometry qs.length M) :
    ∃ s', applyOp E s M qs = some s' ∧ Inv s' ∧ s'.n = s.n ∧ ∀ b, psi s' b = matAct M qs (psi s) b := by
  unfold applyOp
  dsimp only
  have ho := involved_objs hE hq
  set s1 := if ((involved E s qs).map fun i => (s.g i).qubits.length).sum > 63 then (involved E s qs).foldl (disAll E) s else s with hs1
  have k1 : Kept s s1 := by
    rw [hs1]
    split
    · exact disAll_list hE.root _ (Kept.refl hi) hi ho.obj
    · exact Kept.refl hi
  obtain ⟨s2, e, c1, c2, c3, c4, c5⟩ := applyCore_ok hE k1.inv hn hne (by rw [k1.n]; exact hq) hM hU
  obtain ⟨q0, hq0⟩ := List.exists_mem_of_ne_nil _ hne
  have k2 := cleanUp_ok hE c2 hn (by rw [c3, k1.n]; exact hq) c5 hq0
  rw [c1]
  refine ⟨if (s2.g e).qubits.length < 25 then s2 else cleanUp E s2 e qs, rfl, ?_⟩
  have c6 : ∀ b, psi s2 b = matAct M qs (psi s) b := fun b => (c4 b).trans (matAct_congr k1.psi b)
  split
  · exact ⟨c2, c3.trans k1.n, c6⟩
  · exact ⟨k2.inv, k2.n.trans (c3.trans k1.n), fun b => (k2.psi b).trans (c6 b)⟩

end Verif.Tens
