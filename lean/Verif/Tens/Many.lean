import Verif.Tens.Readout
import Mathlib.Algebra.BigOperators.Fin

/-!
# Measurement of several qubits (`simulator/quantum_state.py` 174-226)
-/

namespace Verif.Tens

set_option linter.unusedSectionVars false

variable {K : Type} [Field K] [StarRing K] [DecidableEq K]

/-- the measured qubits of an object, `simulator/quantum_state.py` 193-196 -/
def group (s : State K) (mes : List Nat) (i : Nat) : List Nat := mes.filter fun q => s.p q == i

/-- outcomes and probabilities of a factor: `unravel`, `multi_measure` without the factors, `simulator/quantum_state.py` 198-199,
`simulator/tensor_factor.py` 171-196 -/
def outsTF (t : TF K) (qs : List Nat) : List (Nat × K) :=
  let t := toFront qs 0 (unravel t)
  let L := multiMeasure qs.length t.arr
  L.map fun x => (x.1, x.2.1 / (L.map (·.2.1)).sum)

/-- the outer product of the probabilities and `tensorize_indices`, `simulator/quantum_state.py` 201-214, 248-273 -/
def joinOuts (k : Nat) (acc new : List (Nat × K)) : List (Nat × K) :=
  acc.flatMap fun x => new.map fun y => ((x.1 <<< k) ||| y.1, x.2 * y.2)

/-- all combinations of outcomes, `simulator/quantum_state.py` 189-214 -/
def joined (s : State K) (mes ids : List Nat) : List (Nat × K) :=
  ids.foldl (fun acc i => joinOuts (group s mes i).length acc (outsTF (s.g i) (group s mes i))) [(0, 1)]

/-- `index_permutation`, `simulator/quantum_state.py` 216-217 -/
def indexPerm (mes grouped : List Nat) : List Nat := (invertPerm (grouped.map fun q => mes.idxOf q)).reverse

/-- `multi_measure`, `simulator/quantum_state.py` 174-226: outcomes and probabilities -/
def measureMany (E : Env K) (s : State K) (mes : List Nat) : List (Nat × K) :=
  let ids := involved E s mes
  let grouped := ids.flatMap (group s mes)
  let l := (joined s mes ids).map fun x => (permuteAxes (indexPerm mes grouped) x.1, x.2)
  l.map fun x => (x.1, x.2 / (l.map (·.2)).sum)

/-- the objects after `multi_measure`: their qubits are swapped, `simulator/tensor_factor.py` 163-176 -/
def afterMany (E : Env K) (s : State K) (mes : List Nat) : State K :=
  (involved E s mes).foldl (fun s' i => ⟨s'.ptr, s'.heap.set i (toFront (group s' mes i) 0 (unravel (s'.g i)))⟩) s

/-! ### Lists of outcomes -/

/-- `L` lists the numbers of `k` bits whose value of `P` is not zero, with these values; the values sum up to one -/
structure Table (k : Nat) (P : List Bool → K) (L : List (Nat × K)) : Prop where
  nodup : (L.map (·.1)).Nodup
  lt : ∀ x ∈ L, x.1 < 2 ^ k
  mem : ∀ y : List Bool, y.length = k → ∀ p, (num y, p) ∈ L ↔ p ≠ 0 ∧ P y = p
  sum : (L.map (·.2)).sum = 1

theorem shift_or {a c k : Nat} (h : c < 2 ^ k) : (a <<< k) ||| c = a * 2 ^ k + c := by
  rw [Nat.shiftLeft_eq, mul_comm a, Nat.two_pow_add_eq_or_of_lt h]

theorem table_join {k l : Nat} {P R : List Bool → K} {A B : List (Nat × K)} (hA : Table k P A) (hB : Table l R B) :
    Table (k + l) (fun y => P (y.take k) * R (y.drop k)) (joinOuts l A B) := by
  have hmem : ∀ z, z ∈ joinOuts l A B ↔ ∃ x ∈ A, ∃ y ∈ B, z = (x.1 * 2 ^ l + y.1, x.2 * y.2) := by
    intro z
    unfold joinOuts
    rw [List.mem_flatMap]
    constructor
    · rintro ⟨x, hx, hz⟩
      obtain ⟨y, hy, rfl⟩ := List.mem_map.1 hz
      exact ⟨x, hx, y, hy, by rw [shift_or (hB.lt y hy)]⟩
    · rintro ⟨x, hx, y, hy, rfl⟩
      exact ⟨x, hx, List.mem_map.2 ⟨y, hy, by rw [shift_or (hB.lt y hy)]⟩⟩
  have hinj : ∀ a a' c c', c < 2 ^ l → c' < 2 ^ l → a * 2 ^ l + c = a' * 2 ^ l + c' → a = a' ∧ c = c' := by
    intro a a' c c' h1 h2 e
    have hpos := Nat.two_pow_pos l
    have e1 : a = a' := by
      have := congrArg (· / 2 ^ l) e
      simp only [mul_comm _ (2 ^ l)] at this
      rwa [Nat.mul_add_div hpos, Nat.mul_add_div hpos, Nat.div_eq_of_lt h1, Nat.div_eq_of_lt h2, add_zero, add_zero] at this
    subst e1
    exact ⟨rfl, by omega⟩
  refine ⟨?_, ?_, ?_, ?_⟩
  · unfold joinOuts
    rw [List.map_flatMap, List.nodup_flatMap]
    refine ⟨?_, ?_⟩
    · intro x hx
      rw [List.map_map]
      have h1 : (B.map ((·.1) ∘ fun y : Nat × K => ((x.1 <<< l) ||| y.1, x.2 * y.2))) = (B.map (·.1)).map fun c => x.1 * 2 ^ l + c := by
        rw [List.map_map]
        apply List.map_congr_left
        intro y hy
        exact shift_or (hB.lt y hy)
      rw [h1]
      apply hB.nodup.map
      intro c c' e
      dsimp only at e
      omega
    · have h1 := List.pairwise_map.1 hA.nodup
      refine h1.imp_of_mem ?_
      intro x x' hx hx' hne z hz hz'
      obtain ⟨w, hw, rfl⟩ := List.mem_map.1 hz
      obtain ⟨y, hy, rfl⟩ := List.mem_map.1 hw
      obtain ⟨w', hw', e⟩ := List.mem_map.1 hz'
      obtain ⟨y', hy', rfl⟩ := List.mem_map.1 hw'
      dsimp only at e
      rw [shift_or (hB.lt y hy), shift_or (hB.lt y' hy')] at e
      exact hne (hinj _ _ _ _ (hB.lt y' hy') (hB.lt y hy) e).1.symm
  · intro z hz
    obtain ⟨x, hx, y, hy, rfl⟩ := (hmem z).1 hz
    have h1 := hA.lt x hx
    have h2 := hB.lt y hy
    dsimp only
    rw [pow_add]
    calc x.1 * 2 ^ l + y.1 < x.1 * 2 ^ l + 2 ^ l := by omega
      _ = (x.1 + 1) * 2 ^ l := by ring
      _ ≤ 2 ^ k * 2 ^ l := Nat.mul_le_mul_right _ h1
  · intro y hy p
    have ht : (y.take k).length = k := by simp [hy]
    have hd : (y.drop k).length = l := by simp [hy]
    have hnum : num y = num (y.take k) * 2 ^ l + num (y.drop k) := by
      conv_lhs => rw [← List.take_append_drop k y, num_append, hd]
    have hdl : num (y.drop k) < 2 ^ l := by
      have := num_lt (y.drop k)
      rwa [hd] at this
    rw [hmem]
    constructor
    · rintro ⟨⟨a, pa⟩, ha, ⟨c, pc⟩, hc, e⟩
      rw [Prod.mk.injEq, hnum] at e
      obtain ⟨e1, e2⟩ := hinj _ _ _ _ hdl (hB.lt _ hc) e.1
      dsimp only at e1 e2
      rw [← e1] at ha
      rw [← e2] at hc
      obtain ⟨a1, a2⟩ := (hA.mem _ ht pa).1 ha
      obtain ⟨c1, c2⟩ := (hB.mem _ hd pc).1 hc
      rw [a2, c2, e.2]
      exact ⟨mul_ne_zero a1 c1, rfl⟩
    · rintro ⟨hp, e⟩
      have h1 : P (y.take k) ≠ 0 := fun h => hp (by rw [← e, h, zero_mul])
      have h2 : R (y.drop k) ≠ 0 := fun h => hp (by rw [← e, h, mul_zero])
      exact ⟨_, (hA.mem _ ht _).2 ⟨h1, rfl⟩, _, (hB.mem _ hd _).2 ⟨h2, rfl⟩, by rw [hnum, ← e]⟩
  · unfold joinOuts
    have : ∀ A : List (Nat × K), ((A.flatMap fun x => B.map fun y => ((x.1 <<< l) ||| y.1, x.2 * y.2)).map (·.2)).sum = (A.map (·.2)).sum := by
      intro A
      induction A with
      | nil => simp
      | cons x A ih =>
        rw [List.flatMap_cons, List.map_append, List.sum_append, ih, List.map_map, List.map_cons, List.sum_cons]
        congr 1
        have : (fun z : Nat × K => z.2) ∘ (fun y : Nat × K => ((x.1 <<< l) ||| y.1, x.2 * y.2)) = fun y => x.2 * y.2 := rfl
        rw [this, List.sum_map_mul_left, hB.sum, mul_one]
    rw [this, hA.sum]

/-- the sum of the probabilities of the outcomes of an array is its norm -/
theorem outcomes_sum {m n : Nat} (hm : m ≤ n) {f : List Bool → K} {L : List (Nat × K × Arr K)} (h : Outcomes m n f L) :
    (L.map (·.2.1)).sum = norm2 n f := by
  let g : Nat → K := fun o => norm2 (n - m) fun y => f (bitsOf m o ++ y)
  have h1 : L.map (·.2.1) = (L.map (·.1)).map g := by
    rw [List.map_map]
    apply List.map_congr_left
    intro x hx
    exact h.prob x hx
  have hnd : (L.map (·.1)).Nodup := h.sorted.imp fun h => ne_of_lt h
  rw [h1, ← List.sum_toFinset _ hnd]
  have h2 : (∑ o ∈ (L.map (·.1)).toFinset, g o) = ∑ o ∈ Finset.range (2 ^ m), g o := by
    apply Finset.sum_subset
    · intro o ho
      obtain ⟨x, hx, rfl⟩ := List.mem_map.1 (List.mem_toFinset.1 ho)
      exact Finset.mem_range.2 (h.lt x hx)
    · intro o ho hn
      rw [List.mem_toFinset] at hn
      apply sum_zero_of
      intro y hy
      dsimp only
      rw [h.other o (Finset.mem_range.1 ho) hn y (mem_allBits.1 hy)]
      simp
  rw [h2]
  have h3 : ∑ o ∈ Finset.range (2 ^ m), g o = ((allBits m).map fun k => norm2 (n - m) fun y => f (k ++ y)).sum := by
    rw [Finset.sum_range, ← List.sum_ofFn]
    congr 1
    apply List.ext_getElem
    · simp [allBits_length]
    · intro i h1 h2
      rw [List.length_map, allBits_length] at h2
      simp only [List.getElem_ofFn, List.getElem_map, g]
      have h3 := allBits_num (bitsOf_length m i)
      rw [num_bitsOf h2, List.getElem?_eq_getElem (by rw [allBits_length]; exact h2), Option.some.injEq] at h3
      rw [h3]
  rw [h3]
  obtain ⟨d, rfl⟩ := Nat.exists_eq_add_of_le hm
  rw [Nat.add_sub_cancel_left]
  clear h h1 h2 h3 hnd g hm
  induction m generalizing f with
  | zero => simp [allBits]
  | succ m ih =>
    rw [allBits, List.map_append, List.sum_append, List.map_map, List.map_map]
    have e : m + 1 + d = (m + d) + 1 := by omega
    rw [e]
    unfold norm2 at ih ⊢
    rw [allBits, List.map_append, List.sum_append, List.map_map, List.map_map]
    congr 1
    · exact ih (f := fun y => f (false :: y))
    · exact ih (f := fun y => f (true :: y))

/-- the probability of values of some qubits of a factor -/
def probTF (t : TF K) (qs : List Nat) (b : Nat → Bool) : K :=
  tot (t.qubits.filter fun q => !qs.contains q) (fun b => star (amp t b) * amp t b) b

theorem outsTF_ok {E : Env K} (hE : E.Ok) {t : TF K} (ht : t.Ok) (hnorm : normTF t = 1) {qs : List Nat} (hn : qs.Nodup)
    (hq : ∀ q ∈ qs, q ∈ t.qubits) : ∃ P, Table qs.length P (outsTF t qs) ∧ ∀ b, P (qs.map b) = probTF t qs b := by
  obtain ⟨v1, v2, v3⟩ := unravel_ok ht
  have hvp : (unravel t).qubits.Perm t.qubits := by rw [v2]; exact List.perm_insertionSort _ _
  obtain ⟨R, r1, r2, r3, r4⟩ := toFront_ok qs (unravel t) [] (unravel t).qubits v1 rfl hn (fun q h => hvp.mem_iff.2 (hq q h))
  rw [List.length_nil] at r1 r2 r4
  rw [List.nil_append] at r2
  unfold outsTF
  dsimp only
  have hn' : normTF (toFront qs 0 (unravel t)) = 1 := by
    rw [norm_congr ht r1 (by rw [r2]; exact r3.trans hvp) (fun b => (r4 b).trans (v3 b))]
    exact hnorm
  have hamp : ∀ b, amp (toFront qs 0 (unravel t)) b = amp t b := fun b => (r4 b).trans (v3 b)
  generalize toFront qs 0 (unravel t) = t' at *
  have hlen : t'.qubits.length = qs.length + R.length := by rw [r2, List.length_append]
  have hm : qs.length ≤ qs.length + R.length := by omega
  have hO := outcomes_ok hE.root r1.wf (by rw [r1.shape, hlen]) hm
  have hs := outcomes_sum hm hO
  have hs1 : ((multiMeasure qs.length t'.arr).map (·.2.1)).sum = 1 := by
    rw [hs, ← hlen]
    exact hn'
  rw [hs1]
  generalize multiMeasure qs.length t'.arr = L at *
  have hd : qs.length + R.length - qs.length = R.length := by omega
  refine ⟨fun y => norm2 R.length fun z => val t'.arr (y ++ z), ⟨?_, ?_, ?_, ?_⟩, ?_⟩
  · rw [List.map_map]
    exact hO.sorted.imp fun h => ne_of_lt h
  · intro x hx
    obtain ⟨z, hz, rfl⟩ := List.mem_map.1 hx
    exact hO.lt z hz
  · intro y hy p
    have hlt : num y < 2 ^ qs.length := by rw [← hy]; exact num_lt y
    have hbits : bitsOf qs.length (num y) = y := by
      apply num_inj
      · rw [bitsOf_length, hy]
      · exact num_bitsOf hlt
    constructor
    · intro h
      obtain ⟨z, hz, e⟩ := List.mem_map.1 h
      rw [Prod.mk.injEq, div_one] at e
      refine ⟨by rw [← e.2]; exact hO.pos z hz, ?_⟩
      rw [← e.2, hO.prob z hz, e.1, hbits, hd]
    · rintro ⟨h1, h2⟩
      by_cases hin : num y ∈ L.map (·.1)
      · obtain ⟨z, hz, e⟩ := List.mem_map.1 hin
        refine List.mem_map.2 ⟨z, hz, ?_⟩
        rw [Prod.mk.injEq, div_one]
        refine ⟨e, ?_⟩
        rw [hO.prob z hz, e, hbits, hd]
        exact h2
      · exfalso
        apply h1
        rw [← h2]
        apply sum_zero_of
        intro z hz
        have := hO.other _ hlt hin z (by rw [hd]; exact mem_allBits.1 hz)
        rw [hbits] at this
        dsimp only
        rw [this]
        simp
  · rw [List.map_map]
    refine Eq.trans ?_ hs1
    congr 1
    apply List.map_congr_left
    intro x _
    simp
  · intro b
    unfold probTF
    have hnd : (qs ++ R).Nodup := by rw [← r2]; exact r1.nodup
    rw [List.nodup_append] at hnd
    obtain ⟨n1, n2, n3⟩ := hnd
    have hp : (t.qubits.filter fun q => !qs.contains q).Perm R := by
      rw [List.perm_ext_iff_of_nodup (ht.nodup.filter _) n2]
      intro x
      rw [List.mem_filter, ← (r3.trans hvp).mem_iff, List.mem_append]
      constructor
      · rintro ⟨h1 | h1, h2⟩
        · simp [h1] at h2
        · exact h1
      · intro h
        refine ⟨Or.inr h, ?_⟩
        have : x ∉ qs := fun hx => n3 x hx x h rfl
        simpa using this
    rw [tot_perm hp _ _ (ht.nodup.filter _)]
    dsimp only
    unfold norm2
    rw [tot_bits R n2 _ b]
    apply tot_congr
    intro b' hb'
    have e : val t'.arr (qs.map b ++ R.map b') = amp t b' := by
      rw [← hamp, amp, r2, List.map_append]
      congr 2
      apply List.map_congr_left
      intro x hx
      exact (hb' x fun h => n3 x hx x h rfl).symm
    dsimp only
    rw [e]

/-- products of functions of different qubits -/
theorem tot_prod {ι : Type} (l : List ι) (Q S : ι → List Nat) (F : ι → (Nat → Bool) → K) (hQ : ∀ i ∈ l, ∀ x ∈ Q i, x ∈ S i)
    (hF : ∀ i ∈ l, ∀ b b' : Nat → Bool, (∀ x ∈ S i, b x = b' x) → F i b = F i b') (hd : l.Pairwise fun i j => (S i).Disjoint (S j)) (b : Nat → Bool) :
    tot (l.flatMap Q) (fun b => (l.map fun i => F i b).prod) b = (l.map fun i => tot (Q i) (F i) b).prod := by
  have hloc : ∀ (Q S : List Nat) (F : (Nat → Bool) → K), (∀ b b' : Nat → Bool, (∀ x ∈ S, b x = b' x) → F b = F b') →
      ∀ b b' : Nat → Bool, (∀ x ∈ S, b x = b' x) → tot Q F b = tot Q F b' := by
    intro Q S F hF
    induction Q with
    | nil => exact hF
    | cons q Q ih =>
      intro b b' h
      have aux : ∀ v, tot Q F (Function.update b q v) = tot Q F (Function.update b' q v) := by
        intro v
        apply ih
        intro x hx
        by_cases e : x = q
        · subst e; simp
        · simp [e, h x hx]
      simp only [tot, aux]
  induction l generalizing b with
  | nil => simp [tot]
  | cons i l ih =>
    obtain ⟨h1, h2⟩ := List.pairwise_cons.1 hd
    rw [List.flatMap_cons, tot_append, List.map_cons, List.prod_cons, mul_comm, ← tot_const_mul]
    apply tot_congr
    intro b' hb'
    have e1 : (l.map fun j => tot (Q j) (F j) b).prod = tot (l.flatMap Q) (fun b => (l.map fun j => F j b).prod) b' := by
      rw [ih (fun j hj => hQ j (by simp [hj])) (fun j hj => hF j (by simp [hj])) h2 b']
      congr 1
      apply List.map_congr_left
      intro j hj
      apply hloc _ (S j) _ (hF j (by simp [hj]))
      intro x hx
      exact (hb' x fun hxi => h1 j hj (hQ i (by simp) x hxi) hx).symm
    rw [e1, mul_comm, ← tot_const_mul]
    apply tot_congr
    intro b'' hb''
    rw [List.map_cons, List.prod_cons]
    congr 1
    apply hF i (by simp)
    intro x hx
    apply hb''
    intro hm
    obtain ⟨j, hj, hxj⟩ := List.mem_flatMap.1 hm
    exact h1 j hj hx (hQ j (by simp [hj]) x hxj)

/-! ### All objects -/

theorem joined_ok {E : Env K} (hE : E.Ok) {s : State K} (hi : Inv s) {mes : List Nat} (hn : mes.Nodup) (hm : ∀ q ∈ mes, q < s.n)
    (ids : List Nat) (ho : ∀ i ∈ ids, ∃ q < s.n, s.p q = i) :
    ∃ P, Table (ids.flatMap (group s mes)).length P (joined s mes ids) ∧
      ∀ b, P ((ids.flatMap (group s mes)).map b) = (ids.map fun i => probTF (s.g i) (group s mes i) b).prod := by
  induction ids using List.reverseRecOn with
  | nil =>
    refine ⟨fun _ => 1, ⟨by simp [joined], by simp [joined], ?_, by simp [joined]⟩, by simp⟩
    intro y hy p
    have hy0 : y = [] := List.eq_nil_of_length_eq_zero (by simpa using hy)
    subst hy0
    simp only [joined, List.foldl_nil, List.mem_singleton, Prod.mk.injEq]
    constructor
    · rintro ⟨-, rfl⟩
      exact ⟨one_ne_zero, rfl⟩
    · rintro ⟨-, e⟩
      exact ⟨rfl, e.symm⟩
  | append_singleton ids i ih =>
    obtain ⟨P, p1, p2⟩ := ih (fun j hj => ho j (by simp [hj]))
    obtain ⟨q, hq, rfl⟩ := ho i (by simp)
    obtain ⟨R, r1, r2⟩ := outsTF_ok hE (hi.ok q hq) (hi.norm q hq) (qs := group s mes (s.p q)) (hn.filter _) (by
      intro x hx
      obtain ⟨h1, h2⟩ := List.mem_filter.1 hx
      rw [inv_same hi hq]
      exact ⟨hm x h1, by simpa using h2⟩)
    have hj := table_join p1 r1
    have hf : (ids ++ [s.p q]).flatMap (group s mes) = ids.flatMap (group s mes) ++ group s mes (s.p q) := by simp
    refine ⟨_, by
      rw [hf, List.length_append, joined, List.foldl_append]
      exact hj, ?_⟩
    intro b
    rw [hf, List.map_append]
    rw [List.take_left' (by simp), List.drop_left' (by simp), p2, r2, List.map_append, List.prod_append]
    simp

theorem group_mem {s : State K} {mes ids : List Nat} (h : ∀ q ∈ mes, s.p q ∈ ids) (x : Nat) : x ∈ ids.flatMap (group s mes) ↔ x ∈ mes := by
  rw [List.mem_flatMap]
  constructor
  · rintro ⟨i, -, h2⟩
    exact (List.mem_filter.1 h2).1
  · intro hx
    exact ⟨s.p x, h x hx, List.mem_filter.2 ⟨hx, by simp⟩⟩

theorem group_nodup {s : State K} {mes ids : List Nat} (hn : mes.Nodup) (hi : ids.Nodup) : (ids.flatMap (group s mes)).Nodup := by
  rw [List.nodup_flatMap]
  refine ⟨fun i _ => hn.filter _, ?_⟩
  refine hi.imp ?_
  intro i j hne x hx hy
  have h1 := (List.mem_filter.1 hx).2
  have h2 := (List.mem_filter.1 hy).2
  exact hne ((by simpa using h1 : s.p x = i).symm.trans (by simpa using h2))

theorem indexPerm_ok {mes G : List Nat} (hn : mes.Nodup) (hp : G.Perm mes) :
    (indexPerm mes G).Perm (List.range (indexPerm mes G).length) ∧ (indexPerm mes G).length = mes.length ∧
      ∀ b : Nat → Bool, old (indexPerm mes G) (mes.reverse.map b) = G.map b := by
  have hl : (G.map fun q => mes.idxOf q).length = mes.length := by rw [List.length_map]; exact hp.length_eq
  have hperm : (G.map fun q => mes.idxOf q).Perm (List.range (G.map fun q => mes.idxOf q).length) := by
    rw [hl]
    refine (hp.map _).trans ?_
    rw [show mes.map (fun q => mes.idxOf q) = List.range mes.length from ?_]
    apply List.ext_getElem
    · simp
    · intro i h1 h2
      simp only [List.getElem_map, List.getElem_range]
      exact List.Nodup.idxOf_getElem (xs := mes) hn i _
  have hil : (indexPerm mes G).length = mes.length := by
    unfold indexPerm invertPerm
    rw [List.length_reverse, List.length_map, List.length_range, hl]
  have hip : (indexPerm mes G).Perm (List.range (indexPerm mes G).length) := by
    rw [hil]
    unfold indexPerm
    refine (List.reverse_perm _).trans ?_
    have h1 := invertPerm_nodup hperm
    have h2 := invertPerm_lt hperm
    have h3 : (invertPerm (G.map fun q => mes.idxOf q)).length = mes.length := by
      unfold invertPerm
      rw [List.length_map, List.length_range, hl]
    rw [h3] at h2
    apply List.Subperm.perm_of_length_le (h1.subperm fun x hx => List.mem_range.2 (h2 x hx))
    rw [h3, List.length_range]
  refine ⟨hip, hil, ?_⟩
  intro b
  have hnew : new (indexPerm mes G) (G.map b) = mes.reverse.map b := by
    unfold new indexPerm invertPerm
    rw [List.map_reverse, List.map_reverse, List.map_map]
    congr 1
    rw [hl]
    apply List.ext_getElem
    · simp
    · intro k h1 h2
      have hk : k < mes.length := by simpa using h2
      simp only [List.getElem_map, List.getElem_range, Function.comp]
      have hmem : k ∈ G.map fun q => mes.idxOf q := by
        rw [hperm.mem_iff, hl]
        exact List.mem_range.2 hk
      have hlt := List.idxOf_lt_length_of_mem hmem
      have hg := List.getElem_idxOf hlt
      rw [List.length_map] at hlt
      rw [List.getElem_map] at hg
      rw [List.getD_eq_getElem _ _ (by rw [List.length_map]; exact hlt), List.getElem_map]
      congr 1
      have hin : G[(G.map fun q => mes.idxOf q).idxOf k] ∈ mes := hp.mem_iff.1 (List.getElem_mem hlt)
      have h3 := List.getElem_idxOf (List.idxOf_lt_length_of_mem hin)
      rw [← h3]
      congr 1
  rw [← hnew, old_new hip (by rw [List.length_map, hil]; exact hp.length_eq)]

/-- the probability of the values of the qubits `mes` in `b` -/
def probMany (s : State K) (mes : List Nat) (b : Nat → Bool) : K :=
  tot ((List.range s.n).filter fun q => !mes.contains q) (fun b => star (psi s b) * psi s b) b

theorem probMany_prod {s : State K} (hi : Inv s) {mes ids : List Nat} (ho : Objs s ids) (hm : ∀ q ∈ mes, q < s.n ∧ s.p q ∈ ids)
    (b : Nat → Bool) : probMany s mes b = (ids.map fun i => probTF (s.g i) (group s mes i) b).prod := by
  unfold probMany
  have hnd := objs_nodup hi ho
  rw [tot_other hi (fun i => !ids.contains i) (Q := (ids.flatMap fun i => (s.g i).qubits).toFinset)
    (L' := (ids.flatMap fun i => (s.g i).qubits).filter fun q => !mes.contains q)]
  · rw [List.filter_flatMap]
    have e1 : (ids.flatMap fun i => (s.g i).qubits.filter fun q => !mes.contains q) =
        ids.flatMap fun i => (s.g i).qubits.filter fun q => !(group s mes i).contains q := by
      apply List.flatMap_congr
      intro i h
      obtain ⟨q, hq, rfl⟩ := ho.obj i h
      apply List.filter_congr
      intro x hx
      have h1 := (hi.back q hq x hx).2
      congr 1
      rw [Bool.eq_iff_iff, List.contains_iff_mem, List.contains_iff_mem, group, List.mem_filter]
      simp [h1]
    rw [e1]
    have e2 : (fun b => star (part s (ids.flatMap fun i => (s.g i).qubits).toFinset b) * part s (ids.flatMap fun i => (s.g i).qubits).toFinset b) =
        fun b => (ids.map fun i => star (amp (s.g i) b) * amp (s.g i) b).prod := by
      funext b
      rw [objs_part hi ho]
      have : ∀ l : List Nat, star (l.map fun i => amp (s.g i) b).prod * (l.map fun i => amp (s.g i) b).prod =
          (l.map fun i => star (amp (s.g i) b) * amp (s.g i) b).prod := by
        intro l
        induction l with
        | nil => simp
        | cons i l ih =>
          simp only [List.map_cons, List.prod_cons, ← ih, star_mul]
          ring
      exact this ids
    rw [e2]
    refine tot_prod ids (fun i => (s.g i).qubits.filter fun q => !(group s mes i).contains q) (fun i => (s.g i).qubits) _ ?_ ?_ ?_ b
    · intro i _ x hx
      exact (List.mem_filter.1 hx).1
    · intro i _ b b' h
      rw [amp_local h]
    · exact (List.nodup_flatMap.1 hnd).2
  · intro x
    rw [List.mem_toFinset, objs_qubit hi ho]
    simp
  · exact List.nodup_range.filter _
  · exact hnd.filter _
  · intro x
    rw [List.mem_filter, List.mem_filter, List.mem_range, objs_qubit hi ho]
    constructor
    · rintro ⟨h1, h2⟩
      by_cases h : s.p x ∈ ids
      · exact Or.inl ⟨⟨h1, h⟩, h2⟩
      · exact Or.inr ⟨h1, by simpa using h⟩
    · rintro (⟨⟨h1, -⟩, h2⟩ | ⟨h1, h2⟩)
      · exact ⟨h1, h2⟩
      · refine ⟨h1, ?_⟩
        have : x ∉ mes := by
          intro h
          have := (hm x h).2
          simp [this] at h2
        simpa using this
  · intro x hx
    exact List.mem_toFinset.2 (List.mem_filter.1 hx).1

/-- **measuring several qubits: every possible outcome is listed once with its probability, and bit `k` of the outcome is the value of
`mes[k]`** -/
theorem measureMany_ok {E : Env K} (hE : E.Ok) {s : State K} (hi : Inv s) {mes : List Nat} (hn : mes.Nodup) (hm : ∀ q ∈ mes, q < s.n) :
    ((measureMany E s mes).map (·.1)).Nodup ∧ (∀ x ∈ measureMany E s mes, x.1 < 2 ^ mes.length) ∧
      (∀ (b : Nat → Bool) p, (num (mes.reverse.map b), p) ∈ measureMany E s mes ↔ p ≠ 0 ∧ probMany s mes b = p) ∧
      ((measureMany E s mes).map (·.2)).sum = 1 := by
  have ho := involved_objs hE hm
  have hmem : ∀ q ∈ mes, s.p q ∈ involved E s mes := fun q h => involved_mem hE h
  unfold measureMany
  dsimp only
  generalize involved E s mes = ids at ho hmem
  obtain ⟨P, t, hP⟩ := joined_ok hE hi hn hm ids ho.obj
  have hG : (ids.flatMap (group s mes)).Perm mes := by
    rw [List.perm_ext_iff_of_nodup (group_nodup hn ho.nodup) hn]
    exact group_mem hmem
  obtain ⟨i1, i2, i3⟩ := indexPerm_ok hn hG
  have hpr : ∀ b, P ((ids.flatMap (group s mes)).map b) = probMany s mes b := by
    intro b
    rw [hP, probMany_prod hi ho (fun q h => ⟨hm q h, hmem q h⟩)]
  have hGl := hG.length_eq
  rw [hGl] at t
  generalize indexPerm mes (ids.flatMap (group s mes)) = ibp at *
  generalize joined s mes ids = J at *
  have hsum : ((J.map fun x => (permuteAxes ibp x.1, x.2)).map (·.2)).sum = 1 := by
    rw [List.map_map]
    exact t.sum
  rw [hsum]
  have hl1 : ((J.map fun x => (permuteAxes ibp x.1, x.2)).map fun x => (x.1, x.2 / 1)) = J.map fun x => (permuteAxes ibp x.1, x.2) := by
    simp
  rw [hl1]
  have hnum : ∀ b : Nat → Bool, permuteAxes ibp (num ((ids.flatMap (group s mes)).map b)) = num (mes.reverse.map b) := by
    intro b
    rw [← i3 b]
    exact permuteAxes_num i1 (by rw [List.length_map, List.length_reverse, i2])
  refine ⟨?_, ?_, ?_, hsum⟩
  · rw [List.map_map]
    have : J.map ((·.1) ∘ fun x : Nat × K => (permuteAxes ibp x.1, x.2)) = (J.map (·.1)).map (permuteAxes ibp) := by
      rw [List.map_map]
      rfl
    rw [this]
    apply List.Nodup.map_on _ t.nodup
    intro x hx y hy e
    obtain ⟨x', hx', rfl⟩ := List.mem_map.1 hx
    obtain ⟨y', hy', rfl⟩ := List.mem_map.1 hy
    exact permuteAxes_inj i1 (by rw [i2]; exact t.lt x' hx') (by rw [i2]; exact t.lt y' hy') e
  · intro x hx
    obtain ⟨y, hy, rfl⟩ := List.mem_map.1 hx
    rw [← i2]
    exact permuteAxes_lt i1 _
  · intro b p
    have hbl : ((ids.flatMap (group s mes)).map b).length = mes.length := by rw [List.length_map, hGl]
    have hlt : num ((ids.flatMap (group s mes)).map b) < 2 ^ mes.length := by rw [← hbl]; exact num_lt _
    rw [← hpr, ← t.mem _ hbl, List.mem_map]
    constructor
    · rintro ⟨⟨a, p'⟩, ha, e⟩
      rw [Prod.mk.injEq, ← hnum] at e
      have := permuteAxes_inj i1 (by rw [i2]; exact t.lt _ ha) (by rw [i2]; exact hlt) e.1
      dsimp only at this
      rw [← this, ← e.2]
      exact ha
    · intro h
      exact ⟨_, h, by rw [hnum]⟩

theorem afterMany_ok {E : Env K} (hE : E.Ok) {s : State K} (hi : Inv s) {mes : List Nat} (hn : mes.Nodup) (hm : ∀ q ∈ mes, q < s.n) :
    Kept s (afterMany E s mes) := by
  have ho := involved_objs hE hm
  unfold afterMany
  generalize involved E s mes = ids at ho
  have aux : ∀ (l : List Nat) (s' : State K), (∀ i ∈ l, ∃ q < s.n, s.p q = i) → s'.ptr = s.ptr → Kept s s' →
      Kept s (l.foldl (fun s' i => ⟨s'.ptr, s'.heap.set i (toFront (group s' mes i) 0 (unravel (s'.g i)))⟩) s') := by
    intro l
    induction l with
    | nil => intro s' _ _ h; exact h
    | cons i l ih =>
      intro s' h1 h2 h3
      rw [List.foldl_cons]
      refine ih _ (fun j hj => h1 j (by simp [hj])) h2 (h3.trans ?_)
      obtain ⟨q, hq, e⟩ := h1 i (by simp)
      have hq' : q < s'.n := by rw [h3.n]; exact hq
      have e' : s'.p q = i := by unfold State.p; rw [h2]; exact e
      rw [← e']
      have hok := h3.inv.ok q hq'
      obtain ⟨v1, v2, v3⟩ := unravel_ok hok
      have hvp : (unravel (s'.g (s'.p q))).qubits.Perm (s'.g (s'.p q)).qubits := by rw [v2]; exact List.perm_insertionSort _ _
      obtain ⟨R, r1, r2, r3, r4⟩ := toFront_ok (group s' mes (s'.p q)) (unravel (s'.g (s'.p q))) [] (unravel (s'.g (s'.p q))).qubits v1 rfl
        (hn.filter _) (by
          intro x hx
          obtain ⟨h5, h6⟩ := List.mem_filter.1 hx
          rw [hvp.mem_iff, inv_same h3.inv hq']
          exact ⟨by rw [h3.n]; exact hm x h5, by simpa using h6⟩)
      rw [List.length_nil] at r1 r2 r4
      exact kept_set h3.inv hq' r1 (by rw [r2]; exact r3.trans hvp) (fun b => (r4 b).trans (v3 b))
  exact aux ids s ho.obj rfl (Kept.refl hi)

end Verif.Tens
