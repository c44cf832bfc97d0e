import Verif.Tens.Outcome
import Mathlib.Tactic.LinearCombination

/-!
# Measured and disentangled factors
-/

namespace Verif.Tens

set_option linter.unusedSectionVars false

variable {K : Type} [Field K] [StarRing K] [DecidableEq K]

/-- the squared norm of a factor -/
def normTF (t : TF K) : K := norm2 t.qubits.length (val t.arr)

/-- the sum over all values of the qubits `Q`, other qubits as in `b` -/
def tot : List Nat → ((Nat → Bool) → K) → (Nat → Bool) → K
  | [], F, b => F b
  | q :: Q, F, b => tot Q F (Function.update b q false) + tot Q F (Function.update b q true)

theorem tot_congr (Q : List Nat) {F G : (Nat → Bool) → K} : ∀ {b : Nat → Bool}, (∀ b', (∀ q, q ∉ Q → b' q = b q) → F b' = G b') →
    tot Q F b = tot Q G b := by
  induction Q with
  | nil => intro b h; exact h b fun _ _ => rfl
  | cons q Q ih =>
    intro b h
    have aux : ∀ v, tot Q F (Function.update b q v) = tot Q G (Function.update b q v) := by
      intro v
      apply ih
      intro b' hb'
      apply h
      intro p hp
      rw [List.mem_cons, not_or] at hp
      rw [hb' p hp.2, Function.update_of_ne hp.1]
    simp only [tot, aux]

theorem tot_perm {Q Q' : List Nat} (h : Q.Perm Q') : ∀ (F : (Nat → Bool) → K) (b : Nat → Bool), Q.Nodup → tot Q F b = tot Q' F b := by
  induction h with
  | nil => intros; rfl
  | cons q _ ih =>
    intro F b hn
    simp only [tot, ih F _ (List.nodup_cons.1 hn).2]
  | swap p q l =>
    intro F b hn
    have hne : p ≠ q := by
      intro e
      subst e
      simp at hn
    simp only [tot]
    rw [Function.update_comm hne, Function.update_comm hne, Function.update_comm hne, Function.update_comm hne]
    ring
  | trans h1 _ i1 i2 =>
    intro F b hn
    rw [i1 F b hn, i2 F b (h1.nodup_iff.1 hn)]

theorem tot_append (Q R : List Nat) (F : (Nat → Bool) → K) (b : Nat → Bool) : tot (Q ++ R) F b = tot Q (tot R F) b := by
  induction Q generalizing b with
  | nil => rfl
  | cons q Q ih => simp only [List.cons_append, tot, ih]

theorem tot_const_mul (Q : List Nat) (c : K) (F : (Nat → Bool) → K) (b : Nat → Bool) : tot Q (fun b => c * F b) b = c * tot Q F b := by
  induction Q generalizing b with
  | nil => rfl
  | cons q Q ih => simp only [tot, ih]; ring

theorem tot_bits (Q : List Nat) (hn : Q.Nodup) : ∀ (G : List Bool → K) (b : Nat → Bool),
    ((allBits Q.length).map G).sum = tot Q (fun b' => G (Q.map b')) b := by
  induction Q with
  | nil => intro G b; simp [allBits, tot]
  | cons q Q ih =>
    intro G b
    obtain ⟨h1, h2⟩ := List.nodup_cons.1 hn
    have aux : ∀ v, tot Q (fun b' => G ((q :: Q).map b')) (Function.update b q v) = ((allBits Q.length).map fun y => G (v :: y)).sum := by
      intro v
      rw [ih h2 (fun y => G (v :: y)) (Function.update b q v)]
      apply tot_congr
      intro b' hb'
      rw [List.map_cons, hb' q h1, Function.update_self]
    rw [tot, aux, aux, List.length_cons, allBits, List.map_append, List.sum_append, List.map_map, List.map_map]
    rfl

theorem norm_tot {t : TF K} (h : t.Ok) (b : Nat → Bool) : normTF t = tot t.qubits (fun b => star (amp t b) * amp t b) b :=
  tot_bits t.qubits h.nodup (fun y => star (val t.arr y) * val t.arr y) b

theorem norm_congr {t t' : TF K} (h : t.Ok) (h' : t'.Ok) (hp : t'.qubits.Perm t.qubits) (ha : ∀ b, amp t' b = amp t b) :
    normTF t' = normTF t := by
  rw [norm_tot h (fun _ => false), norm_tot h' (fun _ => false), tot_perm hp _ _ h'.nodup]
  simp only [ha]

theorem swap_comm' (t : TF K) (i j : Nat) : swap t i j = swap t j i := by
  unfold swap
  by_cases e : i = j
  · subst e; rfl
  · rw [if_neg e, if_neg (Ne.symm e), swapAt_comm _ _ e, swapaxes_comm]

/-- the measured qubit at the front -/
theorem head_ok {t : TF K} (h : t.Ok) {q : Nat} (hq : q ∈ t.qubits) :
    (swap t 0 (t.qubits.idxOf q)).Ok ∧ (∃ R, (swap t 0 (t.qubits.idxOf q)).qubits = q :: R ∧ (q :: R).Perm t.qubits ∧ q ∉ R) ∧
      ∀ b, amp (swap t 0 (t.qubits.idxOf q)) b = amp t b := by
  obtain ⟨R, r1, r2, r3, r4⟩ := toFront_ok [q] t [] t.qubits h rfl (by simp) (by simpa using hq)
  rw [List.length_nil, toFront, toFront, swap_comm'] at r1 r2 r4
  refine ⟨r1, ⟨R, by simpa using r2, r3, ?_⟩, r4⟩
  have := r3.nodup_iff.2 h.nodup
  exact (List.nodup_cons.1 this).1

/-! ### Scalar products -/

/-- the scalar product of amplitudes -/
def inner' (n : Nat) (f g : List Bool → K) : K := ((allBits n).map fun y => star (f y) * g y).sum

theorem norm2_inner (n : Nat) (f : List Bool → K) : norm2 n f = inner' n f f := rfl

theorem star_inner (n : Nat) (f g : List Bool → K) : star (inner' n f g) = inner' n g f := by
  unfold inner'
  rw [← starAddEquiv_apply (R := K), map_list_sum, List.map_map]
  congr 1
  apply List.map_congr_left
  intro y _
  simp only [Function.comp_apply, starAddEquiv_apply, star_mul, star_star]

theorem norm2_succ (n : Nat) (f : List Bool → K) :
    norm2 (n + 1) f = norm2 n (fun y => f (false :: y)) + norm2 n (fun y => f (true :: y)) := by
  unfold norm2
  rw [allBits, List.map_append, List.sum_append, List.map_map, List.map_map]
  rfl

theorem norm2_scale (n : Nat) (f : List Bool → K) (c : K) : norm2 n (fun y => f y * c) = star c * c * norm2 n f := by
  unfold norm2
  rw [← List.sum_map_mul_left]
  congr 1
  apply List.map_congr_left
  intro y _
  rw [star_mul]
  ring

theorem norm2_congr {n : Nat} {f g : List Bool → K} (h : ∀ y : List Bool, y.length = n → f y = g y) : norm2 n f = norm2 n g := by
  unfold norm2
  congr 1
  apply List.map_congr_left
  intro y hy
  rw [h y (mem_allBits.1 hy)]

theorem norm2_zero {root : K → K} (hr : Root root) {n : Nat} {f : List Bool → K} (h : norm2 n f = 0) (y : List Bool) (hy : y.length = n) :
    f y = 0 := by
  rw [norm2_eq] at h
  exact hr.definite _ h _ (List.mem_map.2 ⟨y, mem_allBits.2 hy, rfl⟩)

theorem norm2_sub (n : Nat) (f g : List Bool → K) (c : K) :
    norm2 n (fun y => g y - c * f y) = norm2 n g - c * inner' n g f - star c * inner' n f g + star c * c * norm2 n f := by
  unfold norm2 inner'
  induction allBits n with
  | nil => simp
  | cons y l ih =>
    rw [List.map_cons, List.sum_cons, ih]
    simp only [List.map_cons, List.sum_cons, star_sub, star_mul]
    ring

/-- equality in the inequality of Cauchy and Schwarz -/
theorem dependent {root : K → K} (hr : Root root) {n : Nat} {f g : List Bool → K} (h0 : norm2 n f ≠ 0)
    (h : star (inner' n f g) * inner' n f g = norm2 n f * norm2 n g) (y : List Bool) (hy : y.length = n) :
    g y = inner' n f g / norm2 n f * f y := by
  have hs : star (norm2 n f) = norm2 n f := by rw [norm2_inner, star_inner]
  have e : norm2 n (fun y => g y - inner' n f g / norm2 n f * f y) = 0 := by
    rw [norm2_sub, star_div₀, hs, ← star_inner n f g]
    field_simp
    linear_combination -h
  have := norm2_zero hr e y hy
  linear_combination this

theorem vecTF_ok (q : Nat) (x y : K) : (vecTF q [x, y] : TF K).Ok ∧ (∀ b, amp (vecTF q [x, y]) b = if b q then y else x) ∧
    normTF (vecTF q [x, y] : TF K) = star x * x + star y * y := by
  have hw : WF (ofDense [x, y] [1] : Arr K) := ofDense_wf rfl
  obtain ⟨w, s, -, v⟩ := toSparse_ok hw
  have hv : ∀ c : Bool, val (toSparse (ofDense [x, y] [1])) [c] = if c then y else x := by
    intro c
    rw [v [c] rfl, ofDense_val _ rfl]
    cases c <;> rfl
  refine ⟨⟨w, s, by simp [vecTF]⟩, ?_, ?_⟩
  · intro b
    exact hv (b q)
  · unfold normTF norm2 vecTF
    simp [allBits, hv]

theorem zeroTF_ok (q : Nat) : (zeroTF q : TF K).Ok ∧ (∀ b, amp (zeroTF q : TF K) b = if b q then 0 else 1) ∧
    normTF (zeroTF q : TF K) = 1 := by
  have hv : ∀ c : Bool, val (ofSparse [(0, 1)] [1] : Arr K) [c] = if c then 0 else 1 := by
    intro c
    rw [ofSparse_val _ rfl, rawAt_sparse]
    cases c
    · have : num [false] = 0 := rfl
      simp [this]
    · have : num [true] = 1 := rfl
      simp [this]
  refine ⟨⟨ofSparse_wf (by simp) (by simp), rfl, by simp [zeroTF]⟩, fun b => hv (b q), ?_⟩
  unfold normTF norm2 zeroTF
  simp [allBits, hv]

/-! ### Measuring a qubit -/

/-- what is left of a factor after the outcome `v` for `q` with probability `p` -/
structure After (root : K → K) (t : TF K) (q : Nat) (v : Bool) (p : K) (u : TF K) : Prop where
  ok : u.Ok
  qubits : (q :: u.qubits).Perm t.qubits
  norm : normTF u = 1
  pos : p ≠ 0
  amp : ∀ b, b q = v → amp t b = root p * Tens.amp u b

theorem root_ne {root : K → K} (hr : Root root) {n : Nat} {f : List Bool → K} (h : norm2 n f ≠ 0) : root (norm2 n f) ≠ 0 := by
  intro e
  apply h
  rw [norm2_eq] at e ⊢
  rw [← hr.sq, e, zero_mul]

theorem root_sq {root : K → K} (hr : Root root) (n : Nat) (f : List Bool → K) : root (norm2 n f) * root (norm2 n f) = norm2 n f := by
  rw [norm2_eq]; exact hr.sq _

theorem root_star {root : K → K} (hr : Root root) (n : Nat) (f : List Bool → K) : star (root (norm2 n f)) = root (norm2 n f) := by
  rw [norm2_eq]; exact hr.real _

theorem norm_scaled {root : K → K} (hr : Root root) {n : Nat} {f : List Bool → K} (h : norm2 n f ≠ 0) :
    norm2 n (fun y => f y * (1 / root (norm2 n f))) = 1 := by
  rw [norm2_scale, star_div₀, star_one, root_star hr]
  have h1 := root_ne hr h
  have h2 := root_sq hr n f
  rw [div_mul_div_comm, h2]
  field_simp

theorem measureTF_ok {root : K → K} (hr : Root root) {t : TF K} (h : t.Ok) {q : Nat} (hq : q ∈ t.qubits) (hnorm : normTF t = 1) :
    ∃ r0 r1, measureTF root t q = some (r0, r1) ∧ r0.1 + r1.1 = 1 ∧
      ∀ v : Bool, (∀ b, b q = v → (if v then r1 else r0).1 = tot (t.qubits.erase q) (fun b => star (amp t b) * amp t b) b) ∧
        ((if v then r1 else r0).2 = none → (if v then r1 else r0).1 = 0 ∧ ∀ b, b q = v → amp t b = 0) ∧
        ∀ u, (if v then r1 else r0).2 = some u → After root t q v (if v then r1 else r0).1 u := by
  obtain ⟨t1, ⟨R, t2, t3, t5⟩, t4⟩ := head_ok h hq
  have hn' := norm_congr h t1 (by rw [t2]; exact t3) t4
  unfold measureTF
  generalize swap t 0 (t.qubits.idxOf q) = t' at *
  have hsh : t'.arr.shape = [R.length + 1] := by rw [t1.shape, t2]; rfl
  obtain ⟨l, u, s1, s2, s3, s4, s5, s6, s7⟩ := split_ok t1.wf hsh
  have hl : sqNorm l = norm2 R.length (fun y => val t'.arr (false :: y)) := by
    rw [sqNorm_val s2, s4]
    simp only [List.sum_cons, List.sum_nil, Nat.add_zero]
    exact norm2_congr s6
  have hu : sqNorm u = norm2 R.length (fun y => val t'.arr (true :: y)) := by
    rw [sqNorm_val s3, s5]
    simp only [List.sum_cons, List.sum_nil, Nat.add_zero]
    exact norm2_congr s7
  have htot : norm2 R.length (fun y => val t'.arr (false :: y)) + norm2 R.length (fun y => val t'.arr (true :: y)) = 1 := by
    rw [← norm2_succ, ← hnorm, ← hn', normTF, t2]
    rfl
  have hprob : ∀ v b, b q = v → norm2 R.length (fun y => val t'.arr (v :: y)) = tot (t.qubits.erase q) (fun b => star (amp t b) * amp t b) b := by
    intro v b hb
    have hp : R.Perm (t.qubits.erase q) := by
      have := t3.erase q
      rwa [List.erase_cons_head] at this
    have hRn : R.Nodup := (List.nodup_cons.1 (t3.nodup_iff.2 h.nodup)).2
    rw [← tot_perm hp _ _ hRn]
    refine (tot_bits R hRn (fun y => star (val t'.arr (v :: y)) * val t'.arr (v :: y)) b).trans ?_
    apply tot_congr
    intro b' hb'
    rw [← t4 b', amp, t2, List.map_cons, hb' q t5, hb]
  have hzero : ∀ v, norm2 R.length (fun y => val t'.arr (v :: y)) = 0 → ∀ b, b q = v → amp t b = 0 := by
    intro v hv b hb
    rw [← t4 b, amp, t2, List.map_cons, hb]
    exact norm2_zero hr hv _ (by simp)
  dsimp only
  rw [s1]
  simp only [Option.map_some]
  have hd : t'.qubits.drop 1 = R := by rw [t2]; rfl
  rw [hd, hl, hu]
  have hscaled : ∀ (v : Bool) (w : Arr K), WF w → w.shape = [R.length] → (∀ y : List Bool, y.length = R.length → val w y = val t'.arr (v :: y)) →
      norm2 R.length (fun y => val t'.arr (v :: y)) ≠ 0 →
      After root t q v (norm2 R.length (fun y => val t'.arr (v :: y))) ⟨R, scale (1 / root (norm2 R.length (fun y => val t'.arr (v :: y)))) w⟩ := by
    intro v w w1 w2 w3 w4
    obtain ⟨c1, c2, c3⟩ := scale_ok w1 (1 / root (norm2 R.length (fun y => val t'.arr (v :: y))))
    refine ⟨⟨c1, by rw [c2, w2], (List.nodup_cons.1 (t3.nodup_iff.2 h.nodup)).2⟩, t3, ?_, w4, ?_⟩
    · unfold normTF
      dsimp only
      refine Eq.trans ?_ (norm_scaled hr w4)
      apply norm2_congr
      intro y hy
      rw [c3, w3 y hy]
    · intro b hb
      have hne := root_ne hr w4
      rw [← t4 b, amp, amp, t2, List.map_cons, hb]
      dsimp only
      rw [c3, w3 _ (by simp)]
      field_simp
  have hplain : ∀ (v : Bool) (w : Arr K), WF w → w.shape = [R.length] → (∀ y : List Bool, y.length = R.length → val w y = val t'.arr (v :: y)) →
      norm2 R.length (fun y => val t'.arr (v :: y)) = 1 → After root t q v 1 ⟨R, w⟩ := by
    intro v w w1 w2 w3 w4
    refine ⟨⟨w1, w2, (List.nodup_cons.1 (t3.nodup_iff.2 h.nodup)).2⟩, t3, ?_, one_ne_zero, ?_⟩
    · unfold normTF
      dsimp only
      rw [← w4]
      exact norm2_congr w3
    · intro b hb
      rw [← t4 b, amp, amp, t2, List.map_cons, hb, hr.one, one_mul]
      dsimp only
      rw [w3 _ (by simp)]
  by_cases h0 : norm2 R.length (fun y => val t'.arr (false :: y)) = 0
  · have h1 : norm2 R.length (fun y => val t'.arr (true :: y)) = 1 := by rw [h0, zero_add] at htot; exact htot
    rw [if_neg (by simp [h0]), if_pos h0]
    refine ⟨_, _, rfl, by simp, ?_⟩
    intro v
    cases v with
    | false =>
      refine ⟨fun b hb => ?_, fun _ => ⟨rfl, hzero false h0⟩, fun u' hu' => by simp at hu'⟩
      rw [← hprob false b hb]
      simp [h0]
    | true =>
      refine ⟨fun b hb => ?_, fun hn => by simp at hn, fun u' hu' => ?_⟩
      · rw [← hprob true b hb]
        simp [h1]
      · simp only [if_true, Option.some.injEq] at hu'
        subst hu'
        exact hplain true u s3 s5 s7 h1
  · by_cases h1 : norm2 R.length (fun y => val t'.arr (true :: y)) = 0
    · have h2 : norm2 R.length (fun y => val t'.arr (false :: y)) = 1 := by rw [h1, add_zero] at htot; exact htot
      rw [if_neg (by simp [h1]), if_neg h0]
      refine ⟨_, _, rfl, by simp, ?_⟩
      intro v
      cases v with
      | false =>
        refine ⟨fun b hb => ?_, fun hn => by simp at hn, fun u' hu' => ?_⟩
        · rw [← hprob false b hb]
          simp [h2]
        · simp only [Bool.false_eq_true, if_false, Option.some.injEq] at hu'
          subst hu'
          exact hplain false l s2 s4 s6 h2
      | true =>
        refine ⟨fun b hb => ?_, fun _ => ⟨rfl, hzero true h1⟩, fun u' hu' => by simp at hu'⟩
        rw [← hprob true b hb]
        simp [h1]
    · rw [if_pos ⟨h0, h1⟩]
      refine ⟨_, _, rfl, htot, ?_⟩
      intro v
      cases v with
      | false =>
        refine ⟨fun b hb => ?_, fun hn => by simp at hn, fun u' hu' => ?_⟩
        · rw [← hprob false b hb]; rfl
        · simp only [Bool.false_eq_true, if_false, Option.some.injEq] at hu'
          subst hu'
          exact hscaled false l s2 s4 s6 h0
      | true =>
        refine ⟨fun b hb => ?_, fun hn => by simp at hn, fun u' hu' => ?_⟩
        · rw [← hprob true b hb]; rfl
        · simp only [if_true, Option.some.injEq] at hu'
          subst hu'
          exact hscaled true u s3 s5 s7 h1

/-! ### Disentangling -/

/-- `disentangle` does not change the amplitudes -/
theorem disentangleTF_ok {root : K → K} (hr : Root root) (own : Bool) {t : TF K} (h : t.Ok) {q : Nat} (hq : q ∈ t.qubits)
    (hnorm : normTF t = 1) :
    match disentangleTF root own t q with
    | .same t' => t'.Ok ∧ (∃ R, t'.qubits = q :: R) ∧ t'.qubits.Perm t.qubits ∧ normTF t' = 1 ∧ ∀ b, amp t' b = amp t b
    | .parts t' d r => (∃ R, t'.qubits = q :: R) ∧ t'.qubits.Perm t.qubits ∧ d.Ok ∧ r.Ok ∧ d.qubits = [q] ∧
        t'.qubits = q :: r.qubits ∧ normTF d = 1 ∧ normTF r = 1 ∧ ∀ b, amp d b * amp r b = amp t b := by
  unfold disentangleTF
  by_cases h1 : t.qubits.length = 1
  · rw [if_pos h1]
    obtain ⟨p, hp⟩ := List.length_eq_one_iff.1 h1
    rw [hp, List.mem_singleton] at hq
    subst hq
    exact ⟨h, ⟨[], hp⟩, List.Perm.refl _, hnorm, fun _ => rfl⟩
  rw [if_neg h1]
  obtain ⟨t1, ⟨R, t2, t3, t5⟩, t4⟩ := head_ok h hq
  have hn' := norm_congr h t1 (by rw [t2]; exact t3) t4
  rw [hnorm] at hn'
  dsimp only
  generalize swap t 0 (t.qubits.idxOf q) = t' at *
  have hsh : t'.arr.shape = [R.length + 1] := by rw [t1.shape, t2]; rfl
  have ho := outcomes_ok hr t1.wf (m := 1) hsh (by omega)
  have hRn : R.Nodup := (List.nodup_cons.1 (t3.nodup_iff.2 h.nodup)).2
  have htot : norm2 R.length (fun y => val t'.arr (false :: y)) + norm2 R.length (fun y => val t'.arr (true :: y)) = 1 := by
    rw [← norm2_succ, ← hn', normTF, t2]
    rfl
  have b0 : bitsOf 1 0 = [false] := by decide
  have b1 : bitsOf 1 1 = [true] := by decide
  have hqs : t'.qubits.erase q = R := by rw [t2, List.erase_cons_head]
  have hc : R.length + 1 - 1 = R.length := by omega
  rw [hqs]
  have hsame : t'.Ok ∧ (∃ R, t'.qubits = q :: R) ∧ t'.qubits.Perm t.qubits ∧ normTF t' = 1 ∧ ∀ b, amp t' b = amp t b :=
    ⟨t1, ⟨R, t2⟩, by rw [t2]; exact t3, hn', t4⟩
  generalize multiMeasure 1 t'.arr = L at ho
  -- the remaining factor
  have hrem : ∀ (v : Bool) (o : Nat), bitsOf 1 o = [v] → ∀ x ∈ L, x.1 = o →
      x.2.1 = norm2 R.length (fun y => val t'.arr (v :: y)) ∧ x.2.1 ≠ 0 ∧ (⟨R, scale (1 / root x.2.1) x.2.2⟩ : TF K).Ok ∧
      normTF (⟨R, scale (1 / root x.2.1) x.2.2⟩ : TF K) = 1 ∧
      ∀ b, amp (⟨R, scale (1 / root x.2.1) x.2.2⟩ : TF K) b = val t'.arr (v :: R.map b) * (1 / root x.2.1) := by
    intro v o hvo x hx hxo
    have p1 := ho.prob x hx
    have p2 := ho.pos x hx
    have p3 := ho.val x hx
    rw [hc, hxo, hvo] at p1 p3
    have p1' : x.2.1 = norm2 R.length (fun y => val t'.arr (v :: y)) := p1
    obtain ⟨c1, c2, c3⟩ := scale_ok (ho.wf x hx) (1 / root x.2.1)
    refine ⟨p1', p2, ⟨c1, by rw [c2, ho.shape x hx, hc], hRn⟩, ?_, ?_⟩
    · unfold normTF
      dsimp only
      have ns := norm_scaled hr (n := R.length) (f := fun y => val t'.arr (v :: y)) (by rw [← p1']; exact p2)
      rw [← p1'] at ns
      refine Eq.trans ?_ ns
      apply norm2_congr
      intro y hy
      rw [c3, p3 y hy]
      rfl
    · intro b
      unfold amp
      dsimp only
      rw [c3, p3 _ (by simp)]
      rfl
  have hamp : ∀ b, amp t b = val t'.arr (b q :: R.map b) := by
    intro b
    rw [← t4 b, amp, t2, List.map_cons]
  match L, ho with
  | [], _ => exact hsame
  | [x], ho =>
    dsimp only
    have hx1 : x.1 = 0 ∨ x.1 = 1 := by have := ho.lt x (by simp); omega
    refine ⟨⟨R, t2⟩, by rw [t2]; exact t3, ?_⟩
    rcases hx1 with hx1 | hx1
    · obtain ⟨e1, e2, e3, e4, e5⟩ := hrem false 0 b0 x (by simp) hx1
      have hz : ∀ y : List Bool, y.length = R.length → val t'.arr (true :: y) = 0 := by
        intro y hy
        have := ho.other 1 (by omega) (by simp [hx1]) y (by rw [hc]; exact hy)
        rw [b1] at this
        exact this
      have hz2 : norm2 R.length (fun y => val t'.arr (true :: y)) = 0 := by
        apply sum_zero_of
        intro y hy
        beta_reduce
        rw [hz y (mem_allBits.1 hy)]
        simp
      rw [hz2, add_zero, ← e1] at htot
      rw [if_neg (by omega)]
      obtain ⟨d1, d2, d3⟩ := vecTF_ok q (1 : K) 0
      refine ⟨d1, e3, rfl, t2, by rw [d3]; simp, e4, ?_⟩
      intro b
      rw [d2, e5, htot, hr.one, hamp]
      cases b q
      · simp
      · rw [hz _ (by simp)]; simp
    · obtain ⟨e1, e2, e3, e4, e5⟩ := hrem true 1 b1 x (by simp) hx1
      have hz : ∀ y : List Bool, y.length = R.length → val t'.arr (false :: y) = 0 := by
        intro y hy
        have := ho.other 0 (by omega) (by simp [hx1]) y (by rw [hc]; exact hy)
        rw [b0] at this
        exact this
      have hz2 : norm2 R.length (fun y => val t'.arr (false :: y)) = 0 := by
        apply sum_zero_of
        intro y hy
        beta_reduce
        rw [hz y (mem_allBits.1 hy)]
        simp
      rw [hz2, zero_add, ← e1] at htot
      rw [if_pos hx1]
      obtain ⟨d1, d2, d3⟩ := vecTF_ok q (0 : K) 1
      refine ⟨d1, e3, rfl, t2, by rw [d3]; simp, e4, ?_⟩
      intro b
      rw [d2, e5, htot, hr.one, hamp]
      cases b q
      · rw [hz _ (by simp)]; simp
      · simp
  | x :: y :: L', ho =>
    dsimp only
    have hlt : x.1 < y.1 := by
      have := ho.sorted
      rw [List.map_cons, List.map_cons, List.pairwise_cons] at this
      exact this.1 _ (by simp)
    have hx1 : x.1 = 0 := by have := ho.lt y (by simp); omega
    have hy1 : y.1 = 1 := by have := ho.lt y (by simp); omega
    obtain ⟨e1, e2, e3, e4, e5⟩ := hrem false 0 b0 x (by simp) hx1
    obtain ⟨g1, g2, -, -, -⟩ := hrem true 1 b1 y (by simp) hy1
    by_cases hdep : maybeDependent x.2.2 y.2.2 = true
    · rw [if_pos hdep]
      have hv : vdot own x.2.2 y.2.2 = inner' R.length (fun y => val t'.arr (false :: y)) (fun y => val t'.arr (true :: y)) := by
        rw [vdot_ok own (ho.wf x (by simp)) (ho.wf y (by simp)) (ho.kind x (by simp) y (by simp))
          (by rw [ho.shape x (by simp), ho.shape y (by simp)]), ho.shape x (by simp), hc]
        unfold inner'
        simp only [List.sum_cons, List.sum_nil, Nat.add_zero]
        congr 1
        apply List.map_congr_left
        intro z hz
        have hz' := mem_allBits.1 hz
        rw [ho.val x (by simp) z (by rw [hc]; exact hz'), ho.val y (by simp) z (by rw [hc]; exact hz'), hx1, hy1, b0, b1]
        rfl
      by_cases heq : star (vdot own x.2.2 y.2.2) * vdot own x.2.2 y.2.2 = x.2.1 * y.2.1
      · rw [if_pos heq]
        refine ⟨⟨R, t2⟩, by rw [t2]; exact t3, ?_⟩
        obtain ⟨d1, d2, d3⟩ := vecTF_ok q (root x.2.1) (root y.2.1 * vdot own x.2.2 y.2.2 / root (star (vdot own x.2.2 y.2.2) * vdot own x.2.2 y.2.2))
        have hmul : root (star (vdot own x.2.2 y.2.2) * vdot own x.2.2 y.2.2) = root x.2.1 * root y.2.1 := by
          rw [heq, e1, g1, norm2_eq, norm2_eq]
          exact hr.mul _ _
        have rx : root x.2.1 ≠ 0 := by rw [e1] at e2 ⊢; exact root_ne hr e2
        have ry : root y.2.1 ≠ 0 := by rw [g1] at g2 ⊢; exact root_ne hr g2
        have sx : root x.2.1 * root x.2.1 = x.2.1 := by rw [e1]; exact root_sq hr _ _
        have sy : root y.2.1 * root y.2.1 = y.2.1 := by rw [g1]; exact root_sq hr _ _
        have cx : star (root x.2.1) = root x.2.1 := by rw [e1]; exact root_star hr _ _
        have cy : star (root y.2.1) = root y.2.1 := by rw [g1]; exact root_star hr _ _
        refine ⟨d1, e3, rfl, t2, ?_, e4, ?_⟩
        · rw [d3, hmul, cx, star_div₀, star_mul, star_mul, cx, cy, sx]
          rw [← e1, ← g1] at htot
          rw [← htot]
          congr 1
          rw [div_mul_div_comm, div_eq_iff (by simp [rx, ry])]
          linear_combination (root y.2.1 * root y.2.1) * heq + (x.2.1 * y.2.1 - y.2.1 * (root x.2.1 * root x.2.1)) * sy - y.2.1 * y.2.1 * sx
        · intro b
          rw [d2, e5, hamp]
          cases hb : b q
          · rw [if_neg (by simp)]
            field_simp
          · rw [if_pos rfl, hmul]
            have hdep := dependent hr (n := R.length) (f := fun y => val t'.arr (false :: y)) (g := fun y => val t'.arr (true :: y))
              (by rw [← e1]; exact e2) (by rw [← hv, ← e1, ← g1]; exact heq) (R.map b) (by simp)
            rw [hdep, ← hv, ← e1, show vdot own x.2.2 y.2.2 / x.2.1 = vdot own x.2.2 y.2.2 / (root x.2.1 * root x.2.1) by rw [sx]]
            field_simp
      · rw [if_neg heq]
        exact hsame
    · rw [if_neg hdep]
      exact hsame

end Verif.Tens
