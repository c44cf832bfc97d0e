import Verif.Circ.Logic

/-! The Reed-Muller synthesis computes the table. -/

namespace Verif.Circ

open Verif.Rev (upd)

/-- The monomial `m` is one on the input `x`. -/
def sub (x m : Nat) : Bool := decide (m &&& x = m)

theorem sub_iff (x m : Nat) : sub x m = true ↔ ∀ k, m.testBit k = true → x.testBit k = true := by
  simp only [sub, decide_eq_true_eq]
  constructor
  · intro h k hk
    rw [← h, Nat.testBit_and, Bool.and_eq_true] at hk
    exact hk.2
  · intro h
    apply Nat.eq_of_testBit_eq
    intro k
    rw [Nat.testBit_and]
    cases hk : m.testBit k
    · rfl
    · rw [h k hk]; rfl

theorem sub_or (x m j : Nat) : sub x (m ||| 2 ^ j) = (sub x m && x.testBit j) := by
  rw [Bool.eq_iff_iff, Bool.and_eq_true, sub_iff, sub_iff]
  constructor
  · intro h
    refine ⟨fun k hk => h k (by rw [Nat.testBit_or, hk]; rfl), h j (by simp)⟩
  · rintro ⟨h1, h2⟩ k hk
    rw [Nat.testBit_or, Bool.or_eq_true] at hk
    rcases hk with hk | hk
    · exact h1 k hk
    · rw [Nat.testBit_two_pow] at hk
      have : j = k := by simpa using hk
      rwa [← this]

theorem mulLit_parity (x : Nat) (P : List Nat) (j : Nat) (v : Bool) :
    (mulLit P j v).countP (sub x) % 2 = if x.testBit j = v then P.countP (sub x) % 2 else 0 := by
  have h : (P.map (· ||| 2 ^ j)).countP (sub x) = if x.testBit j then P.countP (sub x) else 0 := by
    rw [List.countP_map]
    have e : (sub x ∘ fun m => m ||| 2 ^ j) = fun m => (sub x m && x.testBit j) := by
      funext m; exact sub_or x m j
    rw [e]
    cases x.testBit j <;> simp
  unfold mulLit
  cases v
  · simp only [Bool.false_eq_true, if_false, List.countP_append, h]
    cases x.testBit j <;> simp
    omega
  · simp only [if_true, h]
    cases x.testBit j <;> simp

theorem prod_parity (x i : Nat) (js : List Nat) (P : List Nat) :
    (js.foldl (fun P j => mulLit P j (i.testBit j)) P).countP (sub x) % 2
      = if ∀ j ∈ js, x.testBit j = i.testBit j then P.countP (sub x) % 2 else 0 := by
  induction js generalizing P with
  | nil => simp
  | cons j js ih =>
    rw [List.foldl_cons, ih, mulLit_parity]
    by_cases h1 : x.testBit j = i.testBit j
    · by_cases h2 : ∀ k ∈ js, x.testBit k = i.testBit k
      · rw [if_pos h2, if_pos h1, if_pos (by simpa [h1] using h2)]
      · rw [if_neg h2, if_neg]
        intro h; exact h2 fun k hk => h k (by simp [hk])
    · have hN : ¬ ∀ k ∈ j :: js, x.testBit k = i.testBit k := fun h => h1 (h j (by simp))
      rw [if_neg hN, if_neg h1]
      split <;> rfl

theorem row_parity {n x i : Nat} (hx : x < 2 ^ n) (hi : i < 2 ^ n) :
    (rowPoly n i).countP (sub x) % 2 = if x = i then 1 else 0 := by
  unfold rowPoly
  rw [prod_parity]
  have h0 : ([0] : List Nat).countP (sub x) % 2 = 1 := by simp [sub]
  rw [h0]
  have : (∀ j ∈ (List.range n).reverse, x.testBit j = i.testBit j) ↔ x = i := by
    constructor
    · intro h
      apply Nat.eq_of_testBit_eq
      intro k
      by_cases hk : k < n
      · exact h k (by simpa using hk)
      · have hle : 2 ^ n ≤ 2 ^ k := Nat.pow_le_pow_right (by omega) (by omega)
        rw [Nat.testBit_lt_two_pow (by omega), Nat.testBit_lt_two_pow (by omega)]
    · rintro rfl j _; rfl
  by_cases h : x = i
  · rw [if_pos (this.2 h), if_pos h]
  · rw [if_neg (fun h' => h (this.1 h')), if_neg h]

theorem rows_parity {n x : Nat} (hx : x < 2 ^ n) (l : List Nat) (hl : ∀ i ∈ l, i < 2 ^ n) (hnd : l.Nodup) :
    (l.flatMap (rowPoly n)).countP (sub x) % 2 = if x ∈ l then 1 else 0 := by
  induction l with
  | nil => simp
  | cons i l ih =>
    have hn := List.nodup_cons.1 hnd
    rw [List.flatMap_cons, List.countP_append, Nat.add_mod, row_parity hx (hl i (by simp)),
      ih (fun j hj => hl j (by simp [hj])) hn.2]
    by_cases h : x = i
    · subst h
      simp [hn.1]
    · simp [h]
      split <;> omega

theorem table_parity {n x : Nat} (hx : x < 2 ^ n) (col : List Bool) :
    (tablePoly n col).countP (sub x) % 2 = (col.getD x false).toNat := by
  unfold tablePoly
  rw [rows_parity hx _ (fun i hi => by simpa using (List.mem_filter.1 hi).1) (List.nodup_range.filter _)]
  have : x ∈ (List.range (2 ^ n)).filter (fun i => col.getD i false) ↔ col.getD x false = true := by
    simp [List.mem_filter, hx]
  by_cases h : col.getD x false = true
  · rw [if_pos (this.2 h), h]; rfl
  · rw [if_neg (fun h' => h (this.1 h'))]
    simp only [Bool.not_eq_true] at h
    rw [h]; rfl

theorem countP_sum (N : Nat) (p : Nat → Bool) (P : List Nat) (hP : ∀ m ∈ P, m < N) :
    P.countP p = ∑ m ∈ Finset.range N, if p m then P.count m else 0 := by
  induction P with
  | nil => simp
  | cons a P ih =>
    rw [List.countP_cons, ih fun m hm => hP m (by simp [hm])]
    have ha := hP a (by simp)
    have : ∀ m, (if p m then (a :: P).count m else 0)
        = (if p m then P.count m else 0) + if m = a then (if p a then 1 else 0) else 0 := by
      intro m
      rw [List.count_cons]
      by_cases hm : m = a
      · subst hm; cases p m <;> simp
      · have : (a == m) = false := by simpa using fun e => hm e.symm
        simp [this, hm]
    rw [Finset.sum_congr rfl fun m _ => this m, Finset.sum_add_distrib, Finset.sum_ite_eq',
      if_pos (Finset.mem_range.2 ha)]

theorem reduced_parity {n : Nat} (p : Nat → Bool) (P : List Nat) (hP : ∀ m ∈ P, m < 2 ^ n) :
    (reduced n P).countP p % 2 = P.countP p % 2 := by
  have hR : ∀ m ∈ reduced n P, m < 2 ^ n := fun m hm => by
    simpa using (List.mem_filter.1 hm).1
  rw [countP_sum (2 ^ n) p _ hR, countP_sum (2 ^ n) p P hP, Finset.sum_nat_mod,
    Finset.sum_nat_mod (Finset.range (2 ^ n)) 2 (fun m => if p m then P.count m else 0)]
  congr 1
  refine Finset.sum_congr rfl fun m hm => ?_
  have hm := Finset.mem_range.1 hm
  cases p m
  · simp
  · simp only [if_true]
    have hn : (reduced n P).Nodup := List.nodup_range.filter _
    by_cases h : P.count m % 2 = 1
    · rw [List.count_eq_one_of_mem hn (List.mem_filter.2 ⟨by simpa using hm, by simpa using h⟩), h]
    · rw [List.count_eq_zero_of_not_mem fun hm => h (by simpa using (List.mem_filter.1 hm).2)]
      omega

theorem mulLit_lt {n j : Nat} (hj : j < n) (v : Bool) {P : List Nat} (hP : ∀ m ∈ P, m < 2 ^ n) :
    ∀ m ∈ mulLit P j v, m < 2 ^ n := by
  have h1 : ∀ m ∈ P.map (· ||| 2 ^ j), m < 2 ^ n := by
    intro m hm
    obtain ⟨a, ha, rfl⟩ := List.mem_map.1 hm
    exact Nat.or_lt_two_pow (hP a ha) (Nat.pow_lt_pow_right (by omega) hj)
  unfold mulLit
  intro m hm
  split at hm
  · exact h1 m hm
  · rcases List.mem_append.1 hm with h | h
    · exact h1 m h
    · exact hP m h

theorem tablePoly_lt (n : Nat) (col : List Bool) : ∀ m ∈ tablePoly n col, m < 2 ^ n := by
  intro m hm
  obtain ⟨i, _, hm⟩ := List.mem_flatMap.1 hm
  have : ∀ (js : List Nat), (∀ j ∈ js, j < n) → ∀ P : List Nat, (∀ m ∈ P, m < 2 ^ n) →
      ∀ m ∈ js.foldl (fun P j => mulLit P j (i.testBit j)) P, m < 2 ^ n := by
    intro js
    induction js with
    | nil => intro _ P hP; exact hP
    | cons j js ih =>
      intro hjs P hP
      exact ih (fun k hk => hjs k (by simp [hk])) _ (mulLit_lt (hjs j (by simp)) _ hP)
  exact this _ (fun j hj => by simpa using hj) [0] (by simp) m hm

/-- The reduced polynomial evaluates to the table. -/
theorem poly_eval {n x : Nat} (hx : x < 2 ^ n) (col : List Bool) (ms : List Nat)
    (hms : ms.Perm (reduced n (tablePoly n col))) :
    ms.countP (sub x) % 2 = (col.getD x false).toNat := by
  rw [hms.countP_eq, reduced_parity _ _ (tablePoly_lt n col), table_parity hx]

/-! ### The gates -/

section
variable {Q : Type} [DecidableEq Q]

theorem regNat_testBit (b : Q → Bool) (I : List Q) (A : Nat → Q) (hA : ∀ k < I.length, I[k]? = some (A k))
    {k : Nat} (hk : k < I.length) : (regNat b I).testBit k = b (A k) := by
  rw [regNat_leV I A hA, leV_testBit hk]

theorem regNat_all (b : Q → Bool) (V : List Q) : regNat b V = 2 ^ V.length - 1 ↔ allOn V b = true := by
  induction V with
  | nil => simp [regNat, allOn]
  | cons q V ih =>
    have h2 : allOn (q :: V) b = (b q && allOn V b) := by simp [allOn]
    have := regNat_lt b V
    rw [h2, Bool.and_eq_true, ← ih, regNat, List.length_cons, Nat.pow_succ]
    cases b q <;> simp <;> omega

/-- The conjunction needs every parity operator. -/
theorem and_small (k : Nat) : SmallWht k (colR (List.replicate (2 ^ k - 1) false ++ [true])) := by
  intro o ho p hp hl hp0 _ hmin
  left
  have hb := log2_bounds hl hp0
  by_contra hne
  have hpos := Nat.two_pow_pos k
  refine absurd (hmin (2 ^ o) (by omega) Nat.log2_two_pow (by positivity)) ?_
  have hc : ∀ x ∈ Finset.range (2 ^ k), sg k (2 ^ o) x * colR (List.replicate (2 ^ k - 1) false ++ [true]) x
      = if x = 2 ^ k - 1 then sg k (2 ^ o) (2 ^ k - 1) else 0 := by
    intro x hx
    have hx := Finset.mem_range.1 hx
    unfold colR
    rw [List.getD_eq_getElem?_getD]
    by_cases h : x = 2 ^ k - 1
    · subst h
      rw [List.getElem?_append_right (by simp)]
      simp
    · rw [List.getElem?_append_left (by simp; omega)]
      have hlt : x < 2 ^ k - 1 := by omega
      simp [List.getElem?_replicate, hlt, h]
  unfold wht
  rw [Finset.sum_congr rfl hc, Finset.sum_ite_eq', if_pos (Finset.mem_range.2 (by omega))]
  exact sgB_ne _

theorem and_getD (b : Q → Bool) (V : List Q) :
    (List.replicate (2 ^ V.length - 1) false ++ [true]).getD (regNat b V) false = allOn V b := by
  have hpos := Nat.two_pow_pos V.length
  have hlt := regNat_lt b V
  rw [List.getD_eq_getElem?_getD]
  by_cases h : allOn V b = true
  · rw [h, (regNat_all b V).2 h, List.getElem?_append_right (by simp)]
    simp
  · have hne : regNat b V ≠ 2 ^ V.length - 1 := fun e => h ((regNat_all b V).1 e)
    rw [List.getElem?_append_left (by simp; omega), List.getElem?_replicate]
    simp only [Bool.not_eq_true] at h
    rw [h]; split <;> rfl

theorem mcx_flip (V : List Q) (q : Q) (ψ : Amp Q) :
    den (mcxG V.length) (V ++ [q]) ψ = fun b => ψ (upd b q (b q ^^ allOn V b)) := by
  rw [den_mcx]
  funext b
  cases h : allOn V b
  · simp only [mux, h, Bool.false_eq_true, if_false, Bool.xor_false, upd_self]
    cases hb : b q
    · simp; rw [← hb, upd_self]
    · simp; rw [← hb, upd_self]
  · simp only [mux, h, if_true, Bool.xor_true]
    cases hb : b q <;> simp [xm, mk]

theorem mono_den (pt : Bool) {qs I : List Q} {q : Q} {out : Nat} (hI : ∀ k (h : k < I.length), qs[k]? = some I[k])
    (hq : qs[out]? = some q) (hnd : (I ++ [q]).Nodup) (m : Nat) (hm : m < 2 ^ I.length) (ψ : Amp Q) :
    denBody (monoGate pt I.length out m) qs ψ
      = fun b => ψ (upd b q (b q ^^ sub (regNat b I) m)) := by
  have hn := List.nodup_append'.1 hnd
  have hqI : q ∉ I := fun h => hn.2.2 h (by simp)
  -- the qubits of the variables
  have hA : ∃ A : Nat → Q, (∀ k < I.length, I[k]? = some (A k)) ∧
      ∀ i < I.length, ∀ j < I.length, A i = A j → i = j := by
    by_cases hne : I = []
    · subst hne; exact ⟨fun _ => q, by simp, by simp⟩
    · exact qubits_fun I hn.1 hne
  obtain ⟨A, hA, inj⟩ := hA
  have hvs : ∀ j ∈ maskVars I.length m, j < I.length := fun j hj => by
    simpa using (List.mem_filter.1 hj).1
  have hpick : ∀ l : List Nat, (∀ j ∈ l, j < I.length) → pick qs l = l.map A := by
    intro l
    induction l with
    | nil => intro _; rfl
    | cons j l ih =>
      intro h
      have hj := h j (by simp)
      have e1 : qs[j]? = some (A j) := by
        rw [hI j hj, ← hA j hj, List.getElem?_eq_getElem hj]
      have := ih fun k hk => h k (by simp [hk])
      simp only [pick, List.filterMap_cons, e1, List.map_cons] at *
      rw [this]
  have hon : ∀ b, allOn ((maskVars I.length m).map A) b = sub (regNat b I) m := by
    intro b
    rw [Bool.eq_iff_iff, sub_iff]
    simp only [allOn, List.all_eq_true, List.mem_map, forall_exists_index, and_imp]
    constructor
    · intro h k hk
      have hkn : k < I.length := by
        by_contra hge
        rw [Nat.testBit_lt_two_pow (lt_of_lt_of_le hm (Nat.pow_le_pow_right (by omega) (by omega)))] at hk
        cases hk
      rw [regNat_testBit b I A hA hkn]
      exact h _ k (List.mem_filter.2 ⟨by simpa using hkn, hk⟩) rfl
    · rintro h _ k hk rfl
      have hkn := hvs k hk
      rw [← regNat_testBit b I A hA hkn]
      exact h k (List.mem_filter.1 hk).2
  have hndV : ((maskVars I.length m).map A ++ [q]).Nodup := by
    refine List.nodup_append'.2 ⟨?_, by simp, ?_⟩
    · refine List.Nodup.map_on ?_ (List.nodup_range.filter _)
      intro i hi j hj e
      exact inj i (hvs i hi) j (hvs j hj) e
    · intro a ha hb
      rw [List.mem_singleton.1 hb] at ha
      obtain ⟨k, hk, e⟩ := List.mem_map.1 ha
      refine hqI ?_
      rw [← e]
      exact List.mem_of_getElem? (hA k (hvs k hk))
  have hlen : ((maskVars I.length m).map A).length = (maskVars I.length m).length := by simp
  have hp2 : pick qs (maskVars I.length m ++ [out]) = (maskVars I.length m).map A ++ [q] := by
    rw [pick_append, hpick _ hvs, pick_one hq]
  have key : ∀ ψ : Amp Q, (fun b => ψ (upd b q (b q ^^ allOn ((maskVars I.length m).map A) b)))
      = fun b => ψ (upd b q (b q ^^ sub (regNat b I) m)) := by
    intro ψ; funext b; rw [hon]
  rw [← key]
  unfold monoGate
  generalize maskVars I.length m = vs at *
  dsimp only
  match vs, hlen, hp2, hndV with
  | [], _, _, _ =>
    simp only [denBody, pick_one hq, den, on1, app1_x, allOn, List.map_nil, List.all_nil, Bool.xor_true]
  | [v], hlen, hp2, _ =>
    simp only [denBody]
    have := mcx_flip ([v].map A) q ψ
    rw [← hp2] at this
    exact this
  | v :: w :: vs, hlen, hp2, hndV =>
    cases pt
    · simp only [Bool.false_eq_true, if_false, denBody]
      rw [hp2, ← hlen]
      exact mcx_flip _ q ψ
    · simp only [if_true, denBody, den]
      rw [hp2, ← hlen, grayLogic_one true hndV (by
        have := Nat.two_pow_pos (List.map A (v :: w :: vs)).length
        simp only [List.length_append, List.length_replicate, List.length_singleton]; omega) (and_small _)]
      funext b
      rw [and_getD]

/-- The gates of all monomials. -/
theorem pprmSynth_flips (pt : Bool) {qs I : List Q} {q : Q} {out : Nat}
    (hI : ∀ k (h : k < I.length), qs[k]? = some I[k]) (hq : qs[out]? = some q) (hnd : (I ++ [q]).Nodup)
    (ms : List Nat) (hm : ∀ m ∈ ms, m < 2 ^ I.length) (ψ : Amp Q) :
    denBody (pprmSynth pt I.length out ms) qs ψ
      = fun b => ψ (upd b q (b q ^^ decide (ms.countP (sub (regNat b I)) % 2 = 1))) := by
  have hqI : q ∉ I := fun h => (List.nodup_append'.1 hnd).2.2 h (by simp)
  unfold pprmSynth
  induction ms generalizing ψ with
  | nil => funext b; simp [denBody, upd_self]
  | cons m ms ih =>
    rw [List.flatMap_cons, denBody_append', mono_den pt hI hq hnd m (hm m (by simp)),
      ih fun k hk => hm k (by simp [hk])]
    funext b
    rw [regNat_upd hqI, upd_upd, upd_same, List.countP_cons]
    congr 2
    cases sub (regNat b I) m
    · simp
    · simp only [if_true, Bool.xor_true]
      have : (decide ((ms.countP (sub (regNat b I)) + 1) % 2 = 1))
          = !(decide (ms.countP (sub (regNat b I)) % 2 = 1)) := by
        rw [Bool.eq_iff_iff]
        simp only [decide_eq_true_eq, Bool.not_eq_true', decide_eq_false_iff_not]
        omega
      rw [this]
      cases b q <;> simp

theorem pprm_den (pt : Bool) {I O : List Q} (hnd : (I ++ O).Nodup) {cols : List (List Bool)}
    (ord : List Bool → List Nat) (ho : ∀ col ∈ cols, (ord col).Perm (reduced I.length (tablePoly I.length col)))
    (hl : cols.length = O.length) (ψ : Amp Q) :
    denBody (pprm pt I.length ord cols) (I ++ O) ψ = fun b => ψ (xorOut b (regNat b I) O cols) := by
  have hnI := (List.nodup_append'.1 hnd).1
  unfold pprm
  rw [columns_den (I := I) (fun col out => pprmSynth pt I.length out (ord col)) (fun _ _ => 1) cols
    (fun col hm q out hq hout ψ => by
      rw [pprmSynth_flips pt (fun k h => by rw [List.getElem?_append_left h]; simp) hout
        (List.nodup_append'.2 ⟨hnI, by simp, fun a ha hb => hq (by rw [List.mem_singleton.1 hb] at ha; exact ha)⟩)
        (ord col) (fun m hm' => by
          have := (ho col hm).mem_iff.1 hm'
          simpa using (List.mem_filter.1 this).1)]
      funext b
      rw [poly_eval (regNat_lt b I) col _ (ho col hm), one_mul]
      congr 3
      cases col.getD (regNat b I) false <;> rfl)
    O I.length (fun i h => getElem_out I O i h) hnd hl]
  funext b
  simp

end

end Verif.Circ
