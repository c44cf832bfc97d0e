import Verif.Rev.MontQQ

/-!
Property theorems C17, C19, C43, C44: integer multiplication and Montgomery arithmetic.

Specification vocabulary: `regVal` (the integer held by a register), `Adder.Correct` (what is demanded
of the `inpl_adder` argument), `ctrlOn` (is the optional control set).
-/

namespace Verif.Props

open Verif.Rev

variable {Q : Type} [DecidableEq Q]

/-! ### C19 -/

/-- C19, `q_int_mult` without a target: for unsigned factors the output register (the fresh register
without its lowest qubit) holds the product, the lowest qubit is clean when it is released, and every
other qubit is unchanged. -/
theorem C19_q_int_mult {A : Adder Q} (hA : A.Correct) (x y S : List Q) (s : St Q)
    (hx : x ≠ []) (hy : y ≠ []) (hnd : (x ++ (y ++ S)).Nodup)
    (hlen : S.length = x.length + y.length + 1) (hz : ∀ q ∈ S, s q = false) :
    ∃ s', qIntMult A x y false false S s = some s'
      ∧ regVal (S.drop 1) s' = regVal x s * regVal y s
      ∧ (∀ q ∈ S.head?, s' q = false) ∧ ∀ q, q ∉ S → s' q = s q := by
  have core : ∀ x y : List Q, x ≠ [] → (x ++ (y ++ S)).Nodup →
      S.length = x.length + y.length + 1 →
      regVal S (qIntMultFresh A x y S s) = 2 * (regVal x s * regVal y s)
      ∧ ∀ q, q ∉ S → qIntMultFresh A x y S s q = s q := by
    intro x y hx hnd hlen
    have hyS : (y ++ S).Nodup := (List.nodup_append.1 hnd).2.1
    have hS : S.Nodup := (List.nodup_append.1 hyS).2.1
    have hydis : ∀ q ∈ y, q ∉ S := fun q hq hq' => (List.nodup_append.1 hyS).2.2 q hq q hq' rfl
    have hxdis : ∀ q ∈ x, q ∉ S := by
      intro q hq h; exact (List.nodup_append.1 hnd).2.2 q hq q (by simp [h]) rfl
    set n := x.length with hn
    have hsub : (S.drop n).Sublist S := List.drop_sublist _ _
    obtain ⟨c1, c2⟩ := cxPairs_spec y (S.drop n) s (by rw [List.length_drop]; omega)
      (hyS.sublist (List.Sublist.append_left hsub y)) (fun q hq => hz q (hsub.mem hq))
    set s1 := cxPairs y (S.drop n) s with hs1
    have v1 : regVal S s1 = 2 ^ n * regVal y s := by
      rw [regVal_split S n s1 (by omega), c1,
        regVal_congr (t := s) (fun q hq => c2 q (take_disj_drop hS n q hq)),
        regVal_zero (fun q hq => hz q (List.mem_of_mem_take hq)), zero_add]
    have f1 : ∀ q, q ∉ S → s1 q = s q := fun q hq => c2 q (fun h => hq (hsub.mem h))
    have e : qIntMultFresh A x y S s = qIntMultCore A x y S s1 := rfl
    rw [e, qIntMultCore_spec hA x y S s1 hx (by omega) hnd]
    refine ⟨?_, fun q hq => by rw [addC_frame _ _ _ _ hq, f1 q hq]⟩
    zify
    rw [regVal_addC _ _ _ hS, v1, regVal_congr (t := s) (fun q hq => f1 q (hydis q hq)),
      regVal_congr (t := s) (fun q hq => f1 q (hxdis q hq))]
    have hlt : 2 * (regVal x s * regVal y s) < 2 ^ S.length := by
      rw [hlen, pow_succ, pow_add]
      have := Nat.mul_lt_mul'' (regVal_lt x s) (regVal_lt y s)
      rw [← hn] at this
      omega
    have hlt' : 2 * ((regVal x s : Int) * regVal y s) < 2 ^ S.length := by exact_mod_cast hlt
    rw [← Int.emod_eq_of_lt (by positivity) hlt']
    congr 1
    push_cast; ring
  have fin : ∀ s' : St Q, regVal S s' = 2 * (regVal x s * regVal y s) →
      regVal (S.drop 1) s' = regVal x s * regVal y s ∧ (∀ q ∈ S.head?, s' q = false) := by
    intro s' h
    cases S with
    | nil => simp at hlen
    | cons a t =>
      rw [regVal_cons] at h
      have : (s' a).toNat = 0 := by have := Bool.toNat_le (s' a); omega
      refine ⟨by simp only [List.drop_succ_cons, List.drop_zero]; omega, ?_⟩
      intro q hq
      simp only [List.head?_cons, Option.mem_def, Option.some.injEq] at hq
      subst hq
      simpa using this
  have hnd2 : (y ++ (x ++ S)).Nodup := by
    rw [← List.append_assoc] at hnd ⊢
    exact (List.Perm.append_right S List.perm_append_comm).nodup_iff.1 hnd
  refine ⟨_, rfl, ?_⟩
  split_ifs with h
  · obtain ⟨a, b⟩ := core y x hy hnd2 (by omega)
    rw [mul_comm (regVal y s)] at a
    exact ⟨(fin _ a).1, (fin _ a).2, b⟩
  · obtain ⟨a, b⟩ := core x y hx hnd hlen
    exact ⟨(fin _ a).1, (fin _ a).2, b⟩

/-- C19, `q_int_mult` refuses signed factors. -/
theorem C19_q_int_mult_signed (A : Adder Q) (x y S : List Q) (a b : Bool) (s : St Q)
    (h : a = true ∨ b = true) : qIntMult A x y a b S s = none := by
  rcases h with rfl | rfl <;> simp [qIntMult]

/-- 3 * 2 = 6 in five qubits. -/
example : let s : St Nat := fun q => q ∈ [0, 1, 11]
    (qIntMult (idealAdder Nat) [0, 1] [10, 11] false false [20, 21, 22, 23, 24] s).map
      (fun t => (regVal [0, 1] s, regVal [10, 11] s, regVal [21, 22, 23, 24] t)) = some (3, 2, 6) := by
  decide +kernel

/-- C19, `q_int_mult` with a target (whose register was extended by the clean qubit `e`): the target
is increased by the product, modulo its size. -/
theorem C19_q_int_mult_target {A : Adder Q} (hA : A.Correct) (x y t : List Q) (e : Q) (s : St Q)
    (hx : x ≠ []) (hnd : (x ++ (y ++ (e :: t))).Nodup) (hlen : x.length ≤ t.length + 1)
    (he : s e = false) :
    let s' := qIntMultTarget A x y (e :: t) s
    regVal t s' = (regVal t s + regVal x s * regVal y s) % 2 ^ t.length
    ∧ s' e = false ∧ ∀ q, q ∉ e :: t → s' q = s q := by
  set S := e :: t with hSd
  have hyS : (y ++ S).Nodup := (List.nodup_append.1 hnd).2.1
  have hS : S.Nodup := (List.nodup_append.1 hyS).2.1
  have hydis : ∀ q ∈ y, q ∉ S := fun q hq hq' => (List.nodup_append.1 hyS).2.2 q hq q hq' rfl
  have hxdis : ∀ q ∈ x, q ∉ S := by
    intro q hq h; exact (List.nodup_append.1 hnd).2.2 q hq q (by simp [h]) rfl
  have hSl : S.length = t.length + 1 := by simp [hSd]
  set s1 := addC (regVal y s * 2 ^ x.length) S s with hs1
  have e1 : A.addQ (y.take (S.length - x.length)) (S.drop x.length) s = s1 :=
    addQ_take hA y S x.length s hyS (by omega)
  have f1 : ∀ q, q ∉ S → s1 q = s q := fun q hq => addC_frame _ _ _ _ hq
  have e2 : qIntMultTarget A x y S s = addC (2 * (regVal x s * regVal y s)) S s := by
    have : qIntMultTarget A x y S s = qIntMultCore A x y S s1 := by rw [← e1]; rfl
    rw [this, qIntMultCore_spec hA x y S s1 hx (by omega) hnd,
      regVal_congr (t := s) (fun q hq => f1 q (hydis q hq)),
      regVal_congr (t := s) (fun q hq => f1 q (hxdis q hq)), hs1, addC_addC _ _ _ _ hS]
    congr 1; ring
  intro s'
  have hs' : s' = addC (2 * (regVal x s * regVal y s)) S s := e2
  have hv : (regVal S s' : Int)
      = (2 * (regVal x s * regVal y s) + regVal S s) % 2 ^ (t.length + 1) := by
    rw [hs', regVal_addC _ _ _ hS, hSl]
  have hv' : regVal S s' = (2 * (regVal x s * regVal y s) + regVal S s) % 2 ^ (t.length + 1) := by
    exact_mod_cast hv
  rw [hSd, regVal_cons, regVal_cons, he, pow_succ, mul_comm (2 ^ t.length) 2] at hv'
  have e3 : 2 * (regVal x s * regVal y s) + (Bool.toNat false + 2 * regVal t s)
      = 2 * (regVal t s + regVal x s * regVal y s) := by simp; ring
  rw [e3, Nat.mul_mod_mul_left] at hv'
  have hb := Bool.toNat_le (s' e)
  refine ⟨by omega, ?_, fun q hq => ?_⟩
  · have : (s' e).toNat = 0 := by omega
    simpa using this
  · rw [hs', addC_frame _ _ _ _ hq]

/-- C19, `inpl_q_int_mult`: odd factors (negative ones included) multiply in place modulo `2^n`, even
factors are refused. -/
theorem C19_inpl_q_int_mult {A : Adder Q} (hA : A.Correct) (op : List Q) (c : Int) (s : St Q)
    (hnd : op.Nodup) :
    (c % 2 = 0 → inplQIntMult A op c s = none)
    ∧ (c % 2 = 1 → ∃ s', inplQIntMult A op c s = some s'
        ∧ (regVal op s' : Int) = c * regVal op s % 2 ^ op.length ∧ ∀ q, q ∉ op → s' q = s q) := by
  refine ⟨fun h => by simp [inplQIntMult, h], fun h => ?_⟩
  refine ⟨_, by rw [inplQIntMult, if_neg (by omega)], ?_⟩
  cases hop : op with
  | nil => simp [inplMultLoop, Int.emod_one]
  | cons a t =>
    rw [← hop]
    have hl : 0 < op.length := by rw [hop]; simp
    rw [inplMultLoop_spec hA op c h hnd (op.length - 1) (by omega)]
    refine ⟨?_, fun q hq => addC_frame _ _ _ _ hq⟩
    rw [regVal_addC _ _ _ hnd]
    set v := regVal op s with hv
    set k := op.length - 1 with hk
    have hpow : (2 : Int) ^ op.length = 2 ^ k * 2 := by
      rw [← pow_succ]; congr 1; omega
    obtain ⟨M, hM⟩ : ∃ M, c = 2 * M + 1 := ⟨c / 2, by omega⟩
    have h3 : (v : Int) = ((v % 2 ^ k : Nat) : Int) + 2 ^ k * ((v / 2 ^ k : Nat) : Int) := by
      exact_mod_cast (Nat.mod_add_div v (2 ^ k)).symm
    rw [hpow]
    have h4 : (c - 1) * ((v % 2 ^ k : Nat) : Int) + v
        ≡ c * v [ZMOD 2 ^ k * 2] := by
      refine Int.modEq_iff_dvd.2 ⟨M * ((v / 2 ^ k : Nat) : Int), ?_⟩
      rw [hM]
      linear_combination (2 * M) * h3
    exact h4

/-- 5 * 3 = 15 and (-3) * 3 = 7 modulo 16. -/
example : let s : St Nat := fun q => q ∈ [0, 1]
    (inplQIntMult (idealAdder Nat) [0, 1, 2, 3] 5 s).map (regVal [0, 1, 2, 3]) = some 15
    ∧ (inplQIntMult (idealAdder Nat) [0, 1, 2, 3] (-3) s).map (regVal [0, 1, 2, 3]) = some 7 := by
  decide +kernel

/-- C19, `jasp_multiplyer`, all register sizes including the special cases of size one. -/
theorem C19_jasp_multiplyer {A : Adder Q} (hA : A.Correct) (x y S : List Q) (s : St Q)
    (hx : x ≠ []) (hy : y ≠ []) (hnd : (x ++ (y ++ S)).Nodup)
    (hlen : S.length = x.length + y.length) (hz : ∀ q ∈ S, s q = false) :
    regVal S (jaspMult A x y S s) = regVal x s * regVal y s
    ∧ ∀ q, q ∉ S → jaspMult A x y S s q = s q :=
  jaspMult_spec hA x y S s hx hy hnd hlen hz

/-- C19, `jasp_controlling_multiplyer`. -/
theorem C19_controlling_multiplyer {A : Adder Q} (hA : A.Correct) (a b S : List Q) (s : St Q)
    (hnd : (a ++ S).Nodup) (hb : ∀ q ∈ b, q ∉ S) (hlen : S.length = a.length + b.length)
    (hz : ∀ q ∈ S, s q = false) :
    regVal S (ctlMult A a b S s) = regVal a s * regVal b s
    ∧ ∀ q, q ∉ S → ctlMult A a b S s q = s q := by
  have := ctlMultLoop_spec hA a S 0 b s hnd hb (by omega) 0 (by simp) (by rw [regVal_zero hz]; simp)
  simpa [ctlMult] using this

/-- C19, `jasp_squaring`: the square is written to the output, the helper qubit is released clean. -/
theorem C19_squaring {A : Adder Q} (hA : A.Correct) (a S : List Q) (temp : Q) (s : St Q)
    (hnd : (temp :: (a ++ S)).Nodup) (hlen : S.length = 2 * a.length)
    (hz : ∀ q ∈ S, s q = false) (ht : s temp = false) :
    regVal S (squaring A a S temp s) = regVal a s ^ 2
    ∧ ∀ q, q ∉ S → squaring A a S temp s q = s q := by
  have hn := List.nodup_cons.1 hnd
  simp only [List.mem_append, not_or] at hn
  have hd : ∀ q ∈ a, q ∉ S := fun q h1 h2 => (List.nodup_append.1 hn.2).2.2 q h1 q h2 rfl
  have e : squaring A a S temp s = ctlMultLoop A a S 0 a s :=
    squareLoop_spec hA a S temp 0 a s hn.2
      (fun q hq => ⟨hd q hq, by rintro rfl; exact hn.1.1 hq⟩) hn.1 ht
  have := ctlMultLoop_spec hA a S 0 a s hn.2 hd (by omega) 0 (by simp)
    (by rw [regVal_zero hz]; simp)
  rw [e]
  simpa [pow_two] using this

/-- 3 * 3 = 9, by multiplication and by squaring. -/
example : let s : St Nat := fun q => q ∈ [0, 1, 10, 11]
    regVal [20, 21, 22, 23] (ctlMult (idealAdder Nat) [0, 1] [10, 11] [20, 21, 22, 23] s) = 9
    ∧ regVal [20, 21, 22, 23] (jaspMult (idealAdder Nat) [0, 1] [10, 11] [20, 21, 22, 23] s) = 9
    ∧ regVal [20, 21, 22, 23] (squaring (idealAdder Nat) [0, 1] [20, 21, 22, 23] 30 s) = 9 := by
  decide +kernel

/-! ### C17 -/

/-- C17, reduction: for `T < 2^m N`, `N` odd, `q_montgomery_reduction` leaves in the upper register the
reduced residue `T 2^(-m) mod N`. -/
theorem C17_reduction {A : Adder Q} (hA : A.Correct) (aux res : List Q) (N m : Nat)
    (hN : N % 2 = 1) (hnd : (aux ++ res).Nodup) (haux : aux.length = m + 1)
    (hres : N ≤ 2 ^ res.length) (hne : res ≠ []) (s : St Q)
    (hT : regVal (aux ++ res) s < 2 ^ m * N) :
    let s' := monReduce A (aux ++ res) N m s
    regVal res s' < N ∧ (regVal res s' * 2 ^ m) % N = regVal (aux ++ res) s % N
    ∧ ∀ q, q ∉ aux ++ res → s' q = s q := by
  obtain ⟨h1, h2, _, h4⟩ := monReduce_spec hA aux res N m hN hnd haux hres hne s hT
  exact ⟨h1, by exact_mod_cast h2, h4⟩

/-- C17, multiplication of a quantum residue by any classical `X` with the shift the library chooses
(`best_montgomery_shift(X, N)`): the fresh register receives `X y mod N`, the auxiliary register is
released clean, everything else is unchanged. `N1` is the inverse of `N` modulo `2^(m+1)`. -/
theorem C17_cq_multiply {A : Adder Q} (hA : A.Correct) (X N : Nat) (N1 : Int)
    (y aux res : List Q) (s : St Q) (hN : N % 2 = 1) (hN3 : 3 ≤ N)
    (hN1 : N1 * N ≡ 1 [ZMOD 2 ^ (bestShift X N + 1)])
    (hnd : (y ++ (aux ++ res)).Nodup) (haux : aux.length = bestShift X N + 1)
    (hyl : y.length = smallestPow N) (hrl : res.length = smallestPow N)
    (hz : ∀ q ∈ aux ++ res, s q = false) (hy : regVal y s < N) :
    let s' := cqMontMult A ((X * 2 ^ bestShift X N : Nat) % N : Int) N N1 (bestShift X N) y aux res s
    regVal res s' = X * regVal y s % N ∧ ∀ q, q ∉ res → s' q = s q := by
  have h1 : N ≤ 2 ^ smallestPow N := le_two_pow_smallestPow N
  obtain ⟨k, hk⟩ : ∃ k, smallestPow N = k + 1 := by
    cases h : smallestPow N with
    | zero => rw [h] at h1; omega
    | succ k => exact ⟨k, rfl⟩
  have h2 := lt_of_smallestPow N k hk
  obtain ⟨t1, t2⟩ := bestShift_ok X N y s hN hN3 (by rw [hyl, hk, pow_succ]; omega)
    (by rw [hyl]; exact h1) hy
  exact cqMontMult_std hA X N (bestShift X N) N1 y aux res s hN hN1 hnd haux (by rw [hrl]; exact h1)
    (by intro h; rw [h] at hrl; simp at hrl; omega) hz t1 t2

/-- 2 * 4 = 3 modulo 5 with shift 1 (`5 * 1 = 1` modulo 4). -/
example : let s : St Nat := fun q => q ∈ [2]
    bestShift 2 5 = 1 ∧ regVal [0, 1, 2] s = 4 ∧
    regVal [20, 21, 22] (cqMontMult (idealAdder Nat) 4 5 1 1 [0, 1, 2] [10, 11] [20, 21, 22] s) = 3
    ∧ regVal [10, 11] (cqMontMult (idealAdder Nat) 4 5 1 1 [0, 1, 2] [10, 11] [20, 21, 22] s) = 0 := by
  decide +kernel

/-! ### C43 -/

/-- C43 (partial): in-place multiplication `y ↦ X y mod N` by an invertible `X`, controlled or not,
whenever the shift covers the number of qubits of `y` (`n ≤ 2^m`); both work registers are returned
clean. Missing: shifts with `2^m < n`, for which the claim is false, see
`C43_small_shift_leaves_garbage`. -/
theorem C43_inplace_partial {A : Adder Q} (hA : A.Correct) (X N m X1 : Nat) (N1 : Int)
    (y tmp aux : List Q) (ctrl : Option Q) (s : St Q)
    (hN : N % 2 = 1) (hN1 : N1 * N ≡ 1 [ZMOD 2 ^ (m + 1)]) (hX1 : X1 * X % N = 1 % N)
    (hnd : (y ++ (aux ++ tmp)).Nodup) (hlen : tmp.length = y.length)
    (haux : aux.length = m + 1) (hyl : y ≠ []) (hNl : N ≤ 2 ^ y.length)
    (hctrl : ∀ c ∈ ctrl, c ∉ y ++ (aux ++ tmp))
    (hz : ∀ q ∈ aux ++ tmp, s q = false) (hy : regVal y s < N) (hm : y.length ≤ 2 ^ m) :
    let s' := cqMontInplace A X N N1 X1 m y tmp aux ctrl s
    regVal y s' = (if ctrlOn ctrl s then X * regVal y s % N else regVal y s)
    ∧ ∀ q, q ∉ y → s' q = s q := by
  have hd := List.nodup_append.1 hnd
  have hd2 := List.nodup_append.1 hd.2.1
  have hnd2 : (tmp ++ (aux ++ y)).Nodup := by
    have h1 : (y ++ (aux ++ tmp)).Perm (tmp ++ (aux ++ y)) := by
      simp only [List.perm_iff_count, List.count_append]; intro a; omega
    exact h1.nodup_iff.1 hnd
  have htne : tmp ≠ [] := by
    intro h; rw [h] at hlen; exact hyl (List.length_eq_zero_iff.1 hlen.symm)
  apply cqMontInplace_spec hA X N m X1 N1 y tmp aux ctrl s hN hnd hlen haux hyl hctrl hz (Or.inr hy)
  · exact cqMontMult_std_len hA X N m N1 y aux tmp s hN hN1 hnd haux (by rw [hlen]; exact hNl) htne hz hm
  · intro t ht hv
    obtain ⟨a, b⟩ := cqMontMult_std_len hA X1 N m N1 tmp aux y t hN hN1 hnd2 haux hNl hyl ht
      (by rw [hlen]; exact hm)
    refine ⟨?_, b⟩
    rw [a, hv]
    have : X1 * (X * regVal y s % N) % N = (X1 * X % N) * regVal y s % N := by
      rw [Nat.mul_mod_mod, Nat.mod_mul_mod, mul_assoc]
    rw [this, hX1, Nat.mod_mul_mod, one_mul, Nat.mod_eq_of_lt hy]

/-- `n ≤ 2^m` instance: `N = 7`, `n = 3`, `m = 2`, `X = 3`, `X1 = 5`, `N1 = 7`: 3 * 4 = 5 modulo 7. -/
example (s : St Nat) (h : ∀ q, s q = decide (q = 2)) :
    let s' := cqMontInplace (idealAdder Nat) 3 7 7 5 2 [0, 1, 2] [20, 21, 22] [10, 11, 12] none s
    regVal [0, 1, 2] s = 4 ∧ regVal [0, 1, 2] s' = 5 ∧ ∀ q, q ∉ [0, 1, 2] → s' q = false := by
  have h0 : regVal [0, 1, 2] s = 4 := by simp [regVal, h]
  have := C43_inplace_partial idealAdder_correct 3 7 2 5 7 [0, 1, 2] [20, 21, 22] [10, 11, 12]
    none s (by decide) (by decide) (by decide) (by decide) rfl rfl (by decide) (by decide)
    (by decide) (by intro q hq; rw [h]; revert q; decide) (by rw [h0]; decide) (by decide)
  simp only at this ⊢
  refine ⟨h0, by rw [this.1, h0]; simp [ctrlOn], fun q hq => ?_⟩
  rw [this.2 q hq, h]
  have : q ≠ 2 := by rintro rfl; simp at hq
  simp [this]

/-- C43 is false in general: with the shift the library computes from the multiplier
(`best_montgomery_shift(3, 259) = 2`), the in-place multiplication by 3 modulo 259 of the value 85
does not return its work registers to zero, for any correct adder. -/
theorem C43_small_shift_leaves_garbage (A : Adder Nat) (hA : A.Correct) :
    let y := [0, 1, 2, 3, 4, 5, 6, 7, 8]
    let aux := [10, 11, 12]
    let tmp := [20, 21, 22, 23, 24, 25, 26, 27, 28]
    let s : St Nat := fun q => decide (q ∈ [0, 2, 4, 6])
    regVal y s = 85 ∧ 173 * 3 % 259 = 1 ∧ 3 * 259 % 2 ^ 3 = 1 ∧ bestShift 3 259 = 2
    ∧ y.length = smallestPow 259
    ∧ ¬ ∀ q ∈ aux ++ tmp, cqMontInplace A 3 259 3 173 2 y tmp aux none s q = false := by
  intro y aux tmp s
  have hsh : bestShift 3 259 = 2 := by decide +kernel
  have hsp : smallestPow 259 = 9 := by decide +kernel
  refine ⟨by decide, by decide, by decide, hsh, by rw [hsp]; rfl, ?_⟩
  have hnd : (y ++ (aux ++ tmp)).Nodup := by decide
  have hnd2 : (tmp ++ (aux ++ y)).Nodup := by decide
  have hf := C17_cq_multiply hA 3 259 3 y aux tmp s (by decide) (by decide) (by rw [hsh]; decide)
    hnd (by rw [hsh]; rfl) (by rw [hsp]; rfl) (by rw [hsp]; rfl) (by decide) (by decide)
  rw [hsh] at hf
  obtain ⟨f1, f2⟩ := hf
  set s1 := cqMontMult A ((3 * 2 ^ 2 : Nat) % (259 : Nat) : Int) (259 : Nat) 3 2 y aux tmp s with hs1
  have hv : regVal y s = 85 := by decide
  rw [hv] at f1
  set s2 := cqMontMultInv A ((173 * 2 ^ 2 : Nat) % (259 : Nat) : Int) (259 : Nat) 3 2 tmp aux y s1 with hs2
  have e : cqMontInplace A 3 259 3 173 2 y tmp aux none s = swapRegs tmp y s2 := by
    unfold cqMontInplace
    simp only [swapIfOff, swapFinal]
    rfl
  rw [e]
  intro hclean
  obtain ⟨g1, g2, g3⟩ := swapRegs_spec tmp y s2 rfl (by decide)
  have hy0 : regVal y s2 = 0 := by
    rw [← g1]
    exact regVal_zero (fun q hq => hclean q (List.mem_append_right _ hq))
  have ha0 : ∀ q ∈ aux, s2 q = false := by
    intro q hq
    rw [← g3 q (by revert q; decide) (by revert q; decide)]
    exact hclean q (List.mem_append_left _ hq)
  have hy0' : ∀ q ∈ y, s2 q = false :=
    regVal_inj (t := fun _ => false) (hy0.trans (regVal_zero (fun _ _ => rfl)).symm)
  have hback : cqMontMult A ((173 * 2 ^ 2 : Nat) % (259 : Nat) : Int) (259 : Nat) 3 2 tmp aux y s2 = s1 :=
    (invPair_cqMontMult hA _ _ _ _ tmp aux y hnd2).2 s1
  -- the controls are not changed by the inverse multiplication
  have hctlfree : ∀ q ∈ tmp, s2 q = s1 q := by
    intro q hq
    rw [← hback]
    exact (cqMontMult_frame hA _ 259 2 3 tmp aux y s2 (by decide) hnd2 rfl (by decide) q
      (by revert q; decide)).symm
  have hT : coefSum (fun j => (((173 * 2 ^ 2 : Nat) % (259 : Nat) : Int) * 2 ^ j) % (259 : Nat)) s2 0 tmp
      = 1376 := by
    rw [coefSum_congr _ s2 (fun q => decide (q ∈ [20, 21, 22, 23, 24, 25, 26, 27])) 0 tmp]
    · decide +kernel
    · intro q hq
      rw [hctlfree q hq]
      refine regVal_inj (l := tmp) (s := s1) (t := fun q => decide (q ∈ [20, 21, 22, 23, 24, 25, 26, 27])) ?_ q hq
      rw [f1]; decide
  obtain ⟨⟨u, W, hu, hW, hr⟩, _, _⟩ := cqMontMult_gen hA ((173 * 2 ^ 2 : Nat) % (259 : Nat) : Int) 259 2 3 tmp aux y
    s2 (by decide) (by decide) hnd2 rfl (by decide) (by decide)
    (by
      intro q hq
      rcases List.mem_append.1 hq with h | h
      · exact ha0 q h
      · exact hy0' q h)
    (by rw [hT]; decide)
    (by
      intro u W hu hW
      rw [hT] at hW
      have : y.length = 9 := rfl
      rw [this]
      push_cast at hW
      omega)
  rw [hback, regVal_congr (t := s) (fun q hq => f2 q (by revert q; decide)), hv] at hr
  rw [hT] at hW
  push_cast at hW hr
  split_ifs at hr <;> omega

/-! ### C44 -/

/-- C44 (partial): `qq_montgomery_multiply` on reduced factors with the shift of
`qq_montgomery_multiply_modulus`: the result register holds a number congruent to `x y 2^(-m)` modulo
`N`, and everything else, the auxiliary register included, is returned unchanged. Missing: the
representative need not be the reduced one, see `C44_not_reduced`. -/
theorem C44_qq_multiply_partial {A : Adder Q} (hA : A.Correct) (N : Nat) (x y aux res : List Q)
    (s : St Q) (hN : N % 2 = 1) (hN3 : 3 ≤ N) (hx : (x ++ (aux ++ res)).Nodup)
    (hy : ∀ q ∈ y, q ∉ aux ++ res) (haux : aux.length = qqShift N + 1)
    (hres : res.length = smallestPow N) (hz : ∀ q ∈ aux ++ res, s q = false)
    (hxN : regVal x s < N) (hyN : regVal y s < N) :
    let s' := qqMontMult A N (qqShift N) x y aux res s
    (regVal res s' * 2 ^ qqShift N) % N = regVal x s * regVal y s % N
    ∧ ∀ q, q ∉ res → s' q = s q := by
  have h1 : N ≤ 2 ^ smallestPow N := le_two_pow_smallestPow N
  have hxy : regVal x s * regVal y s ≤ (N - 1) ^ 2 := by
    rw [pow_two]; exact Nat.mul_le_mul (by omega) (by omega)
  have h2 := le_two_pow_smallestPow ((N - 1) ^ 2 + 1)
  have hne : res ≠ [] := by
    intro h; rw [h] at hres; simp at hres; rw [← hres] at h1; simp at h1; omega
  obtain ⟨_, a, b⟩ := qqMontMult_spec hA N (qqShift N) x y aux res s hN hx hy haux
    (by rw [hres]; exact h1) hne hz (by
      refine lt_of_le_of_lt hxy (lt_of_lt_of_le (Nat.lt_of_succ_le h2) ?_)
      exact Nat.pow_le_pow_right (by decide) (by rw [hres, qqShift]; omega))
  exact ⟨by exact_mod_cast a, b⟩

/-- C44, reducedness: when `x y < 2^m N` the result is the reduced residue. -/
theorem C44_qq_reduced_partial {A : Adder Q} (hA : A.Correct) (N m : Nat) (x y aux res : List Q)
    (s : St Q) (hN : N % 2 = 1) (hx : (x ++ (aux ++ res)).Nodup)
    (hy : ∀ q ∈ y, q ∉ aux ++ res) (haux : aux.length = m + 1)
    (hres : N ≤ 2 ^ res.length) (hne : res ≠ []) (hz : ∀ q ∈ aux ++ res, s q = false)
    (hT : regVal x s * regVal y s < 2 ^ m * N) :
    let s' := qqMontMult A N m x y aux res s
    regVal res s' < N ∧ (regVal res s' * 2 ^ m) % N = regVal x s * regVal y s % N
    ∧ ∀ q, q ∉ res → s' q = s q := by
  obtain ⟨⟨u, W, hu, hW, hr⟩, a, b⟩ := qqMontMult_spec hA N m x y aux res s hN hx hy haux hres hne hz
    (lt_of_lt_of_le hT (by rw [pow_add]; exact Nat.mul_le_mul_left _ hres))
  refine ⟨?_, by exact_mod_cast a, b⟩
  have hWN : W < N := by
    have h3 : (2 : Int) ^ m * W < 2 ^ m * N := by
      rw [← hW]
      have : (regVal x s * regVal y s : Int) < 2 ^ m * N := by exact_mod_cast hT
      have h4 : (0 : Int) ≤ (u : Int) * N := by positivity
      linarith
    exact lt_of_mul_lt_mul_left h3 (by positivity)
  have hN0 : 0 < N := by omega
  zify
  rw [hr]
  split_ifs <;> omega

/-- C44 is false as to the reduced representative: 20 * 20 modulo 21 with the library's shift leaves
the value 25 in the register. -/
theorem C44_not_reduced (A : Adder Nat) (hA : A.Correct) :
    let x := [0, 1, 2, 3, 4]
    let y := [10, 11, 12, 13, 14]
    let aux := [20, 21, 22, 23, 24]
    let res := [30, 31, 32, 33, 34]
    let s : St Nat := fun q => decide (q ∈ [2, 4, 12, 14])
    qqShift 21 = 4 ∧ smallestPow 21 = 5 ∧ regVal x s = 20 ∧ regVal y s = 20
    ∧ regVal res (qqMontMult A 21 4 x y aux res s) = 25 := by
  intro x y aux res s
  have hx : regVal x s = 20 := by decide
  have hy : regVal y s = 20 := by decide
  refine ⟨by decide +kernel, by decide +kernel, hx, hy, ?_⟩
  obtain ⟨⟨u, W, hu, hW, hr⟩, _, _⟩ := qqMontMult_spec hA 21 4 x y aux res s (by decide) (by decide)
    (by decide) rfl (by decide) (by decide) (by decide) (by rw [hx, hy]; decide)
  rw [hx, hy] at hW
  push_cast at hW hr
  split_ifs at hr <;> omega

end Verif.Props
