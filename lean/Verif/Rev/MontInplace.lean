import Verif.Rev.MontShift
import Mathlib.Data.Nat.Prime.Basic

/-!
In-place Montgomery multiplication with a classical factor (`cq_montgomery_multiply_inplace`) and
Montgomery multiplication of two quantum residues (`qq_montgomery_multiply_modulus`), both in
`jasp_arithmetic/jasp_montgomery.py`.
-/

set_option linter.unusedSectionVars false
set_option linter.unusedSimpArgs false

namespace Verif.Rev

variable {Q : Type} [DecidableEq Q]

/-! ### Inverses (`with invert():`) -/

/-- `g` undoes `f` and `f` undoes `g`. -/
def InvPair (f g : St Q → St Q) : Prop := (∀ s, g (f s) = s) ∧ ∀ s, f (g s) = s

theorem InvPair.comp {f g f' g' : St Q → St Q} (h : InvPair f g) (h' : InvPair f' g') :
    InvPair (fun s => f' (f s)) (fun s => g (g' s)) :=
  ⟨fun s => by simp only [h'.1, h.1], fun s => by simp only [h.2, h'.2]⟩

theorem InvPair.refl : InvPair (fun s : St Q => s) (fun s => s) := ⟨fun _ => rfl, fun _ => rfl⟩

theorem invPair_ctl_addC (k : Q) (a : Int) (b : List Q) (hb : b.Nodup) (hk : k ∉ b) :
    InvPair (ctl k (addC a b)) (ctl k (addC (-a) b)) := by
  have key : ∀ a s, ctl k (addC (-a) b) (ctl k (addC a b) s) = s := by
    intro a s
    rw [ctl_addC _ _ _ _ hb, ctl_addC _ _ _ _ hb, addC_addC _ _ _ _ hb, addC_frame _ _ _ _ hk]
    split_ifs
    · rw [neg_add_cancel, addC_zero _ _ hb]
    · rw [add_zero, addC_zero _ _ hb]
  refine ⟨key a, fun s => ?_⟩
  have := key (-a) s
  rwa [neg_neg] at this

/-- Inverse of `monEst` (jasp_montgomery.py 67-70). -/
def monEstInv (A : Adder Q) (qf : List Q) (N : Int) : Nat → Nat → St Q → St Q
  | 0, _, s => s
  | n + 1, j, s =>
    match qf[j]? with
    | some q => ctl q (A.add ((N - 1) / 2) (qf.drop (j + 1))) (monEstInv A qf N n (j + 1) s)
    | none => s

/-- Inverse of `monSwaps` (jasp_montgomery.py 77-78). -/
def monSwapsInv (l : List Q) (s : St Q) : St Q :=
  (l.zip l.tail).foldl (fun s p => swapS p.2 p.1 s) s

/-- Correction by `N` controlled on the sign (jasp_montgomery.py 73-74) and its inverse. -/
def monCorr (op : Int → List Q → St Q → St Q) (qf : List Q) (N : Int) (m : Nat) (s : St Q) : St Q :=
  match qf.getLast? with
  | some top => ctl top (op N (qf.dropLast.drop m)) s
  | none => s

/-- jasp_montgomery.py 81. -/
def monLast (qf : List Q) (m : Nat) (s : St Q) : St Q :=
  match qf[m + 1]?, qf[m]? with
  | some c, some t => cxS c t s
  | _, _ => s

theorem monReduce_unfold (A : Adder Q) (qf : List Q) (N : Int) (m : Nat) (s : St Q) :
    monReduce A qf N m s
      = monLast qf m (monSwaps (qf.drop m) (monCorr A.add qf N m (monEst A qf N m 0 s))) := rfl

/-- Inverse of `q_montgomery_reduction`. -/
def monReduceInv (A : Adder Q) (qf : List Q) (N : Int) (m : Nat) (s : St Q) : St Q :=
  monEstInv A qf N m 0 (monCorr A.inv qf N m (monSwapsInv (qf.drop m) (monLast qf m s)))

/-- Inverse of `ctlSum`: ascending positions with the inverse operation. -/
def ctlSumUp (op : Int → List Q → St Q → St Q) (b : List Q) (coef : Nat → Int) (y : List Q)
    (s : St Q) : St Q :=
  (y.zipIdx).foldl (fun s p => ctl p.1 (op (coef p.2) b) s) s

/-- `with invert(): cq_montgomery_multiply(…)`. -/
def cqMontMultInv (A : Adder Q) (X N N1 : Int) (m : Nat) (y aux res : List Q) (s : St Q) : St Q :=
  let wqf := aux ++ res
  let s := ctlSumUp A.add aux (fun j => ((X * 2 ^ j) % N) * N1) y s
  let s := monReduceInv A wqf N m s
  ctlSumUp A.inv wqf (fun j => (X * 2 ^ j) % N) y s

theorem invPair_monEst {A : Adder Q} (hA : A.Correct) (qf : List Q) (N : Int) (hnd : qf.Nodup)
    (n j : Nat) : InvPair (monEst A qf N n j) (monEstInv A qf N n j) := by
  induction n generalizing j with
  | zero => exact InvPair.refl
  | succ n ih =>
    cases hq : qf[j]? with
    | none =>
      refine ⟨fun s => ?_, fun s => ?_⟩ <;> simp [monEst, monEstInv, hq]
    | some q =>
      have hn := drop_nodup hnd (j + 1)
      have hqd : q ∉ qf.drop (j + 1) := by
        obtain ⟨hj, e⟩ := List.getElem?_eq_some_iff.1 hq
        have := List.drop_eq_getElem_cons hj
        have h2 := drop_nodup hnd j
        rw [this, List.nodup_cons, e] at h2
        exact h2.1
      have h1 := invPair_ctl_addC q (-((N - 1) / 2)) (qf.drop (j + 1)) hn hqd
      rw [neg_neg] at h1
      have h2 := h1.comp (ih (j + 1))
      have e1 : ∀ s, monEst A qf N (n + 1) j s
          = monEst A qf N n (j + 1) (ctl q (addC (-((N - 1) / 2)) (qf.drop (j + 1))) s) := by
        intro s
        rw [monEst, hq]; simp only
        unfold ctl; rw [hA.inv_eq _ _ _ hn]
      have e2 : ∀ s, monEstInv A qf N (n + 1) j s
          = ctl q (addC ((N - 1) / 2) (qf.drop (j + 1))) (monEstInv A qf N n (j + 1) s) := by
        intro s
        rw [monEstInv, hq]; simp only
        unfold ctl; rw [hA.add_eq _ _ _ hn]
      exact ⟨fun s => by rw [e1, e2]; exact h2.1 s, fun s => by rw [e1, e2]; exact h2.2 s⟩

theorem swapS_swapS (a b : Q) (s : St Q) : swapS a b (swapS a b s) = s := by
  funext q
  unfold swapS
  by_cases h1 : q = a
  · subst h1; by_cases h2 : b = q <;> simp [h2]
  · by_cases h2 : q = b
    · subst h2; simp [h1]
    · simp [h1, h2]

theorem invPair_foldl {α : Type} (f g : α → St Q → St Q) (ps : List α)
    (h : ∀ p ∈ ps, InvPair (f p) (g p)) :
    InvPair (fun s => ps.reverse.foldl (fun s p => f p s) s)
      (fun s => ps.foldl (fun s p => g p s) s) := by
  induction ps with
  | nil => exact InvPair.refl
  | cons p ps ih =>
    have h1 := (ih (fun p hp => h p (by simp [hp]))).comp (h p (by simp))
    refine ⟨fun s => ?_, fun s => ?_⟩
    · have := h1.1 s
      simpa [List.foldl_append] using this
    · have := h1.2 s
      simpa [List.foldl_append] using this

theorem invPair_monSwaps (l : List Q) : InvPair (monSwaps l) (monSwapsInv l) :=
  invPair_foldl (fun p => swapS p.2 p.1) (fun p => swapS p.2 p.1) (l.zip l.tail)
    (fun _ _ => ⟨swapS_swapS _ _, swapS_swapS _ _⟩)

theorem invPair_monCorr {A : Adder Q} (hA : A.Correct) (qf : List Q) (N : Int) (hnd : qf.Nodup)
    (m : Nat) : InvPair (monCorr A.add qf N m) (monCorr A.inv qf N m) := by
  rcases List.eq_nil_or_concat qf with h | ⟨u, t, h⟩
  · subst h; exact ⟨fun s => rfl, fun s => rfl⟩
  · rw [List.concat_eq_append] at h
    subst h
    have hu : u.Nodup := (List.nodup_append.1 hnd).1
    have ht : t ∉ u.drop m := fun hm =>
      (List.nodup_append.1 hnd).2.2 t (List.mem_of_mem_drop hm) t (by simp) rfl
    have h1 := invPair_ctl_addC t N (u.drop m) (drop_nodup hu m) ht
    have e1 : ∀ s, monCorr A.add (u ++ [t]) N m s = ctl t (addC N (u.drop m)) s := by
      intro s
      simp only [monCorr, List.getLast?_append, List.getLast?_singleton, Option.some_or,
        List.dropLast_concat]
      unfold ctl; rw [hA.add_eq _ _ _ (drop_nodup hu m)]
    have e2 : ∀ s, monCorr A.inv (u ++ [t]) N m s = ctl t (addC (-N) (u.drop m)) s := by
      intro s
      simp only [monCorr, List.getLast?_append, List.getLast?_singleton, Option.some_or,
        List.dropLast_concat]
      unfold ctl; rw [hA.inv_eq _ _ _ (drop_nodup hu m)]
    exact ⟨fun s => by rw [e1, e2]; exact h1.1 s, fun s => by rw [e1, e2]; exact h1.2 s⟩

theorem cxS_cxS (c t : Q) (h : c ≠ t) (s : St Q) : cxS c t (cxS c t s) = s := by
  funext q
  unfold cxS
  by_cases hq : q = t
  · subst hq; rw [upd_same, upd_same, upd_ne h]; cases s q <;> cases s c <;> rfl
  · rw [upd_ne hq, upd_ne hq]

theorem invPair_monLast (qf : List Q) (hnd : qf.Nodup) (m : Nat) :
    InvPair (monLast qf m) (monLast qf m) := by
  have key : ∀ s, monLast qf m (monLast qf m s) = s := by
    intro s
    cases h1 : qf[m + 1]? with
    | none => simp [monLast, h1]
    | some c =>
      cases h2 : qf[m]? with
      | none => simp [monLast, h1, h2]
      | some t =>
        have hct : c ≠ t := by
          rintro rfl
          obtain ⟨a1, e1⟩ := List.getElem?_eq_some_iff.1 h1
          obtain ⟨a2, e2⟩ := List.getElem?_eq_some_iff.1 h2
          have := (List.Nodup.getElem_inj_iff hnd (hi := a1) (hj := a2)).1 (e1.trans e2.symm)
          omega
        simp only [monLast, h1, h2]
        exact cxS_cxS c t hct s
  exact ⟨key, key⟩

theorem invPair_monReduce {A : Adder Q} (hA : A.Correct) (qf : List Q) (N : Int) (hnd : qf.Nodup)
    (m : Nat) : InvPair (monReduce A qf N m) (monReduceInv A qf N m) :=
  (((invPair_monEst hA qf N hnd m 0).comp (invPair_monCorr hA qf N hnd m)).comp
    (invPair_monSwaps (qf.drop m))).comp (invPair_monLast qf hnd m)

theorem invPair_ctlSum {A : Adder Q} (hA : A.Correct) (b : List Q) (coef : Nat → Int) (y : List Q)
    (hb : b.Nodup) (hy : ∀ q ∈ y, q ∉ b) :
    InvPair (ctlSum A.add b coef y) (ctlSumUp A.inv b coef y)
    ∧ InvPair (ctlSum A.inv b coef y) (ctlSumUp A.add b coef y) := by
  have e1 : ∀ c, A.add c b = addC c b := fun c => funext fun s => hA.add_eq _ _ _ hb
  have e2 : ∀ c, A.inv c b = addC (-c) b := fun c => funext fun s => hA.inv_eq _ _ _ hb
  constructor
  · apply invPair_foldl (fun p : Q × Nat => ctl p.1 (A.add (coef p.2) b))
      (fun p => ctl p.1 (A.inv (coef p.2) b))
    intro p hp
    rw [e1, e2]
    exact invPair_ctl_addC _ _ _ hb (hy _ (List.fst_mem_of_mem_zipIdx hp))
  · apply invPair_foldl (fun p : Q × Nat => ctl p.1 (A.inv (coef p.2) b))
      (fun p => ctl p.1 (A.add (coef p.2) b))
    intro p hp
    rw [e1, e2]
    have := invPair_ctl_addC p.1 (-coef p.2) b hb (hy _ (List.fst_mem_of_mem_zipIdx hp))
    rwa [neg_neg] at this

theorem invPair_cqMontMult {A : Adder Q} (hA : A.Correct) (X N N1 : Int) (m : Nat)
    (y aux res : List Q) (hnd : (y ++ (aux ++ res)).Nodup) :
    InvPair (cqMontMult A X N N1 m y aux res) (cqMontMultInv A X N N1 m y aux res) := by
  have hwn : (aux ++ res).Nodup := (List.nodup_append.1 hnd).2.1
  have hyd : ∀ q ∈ y, q ∉ aux ++ res := fun q hq h => (List.nodup_append.1 hnd).2.2 q hq q h rfl
  have hauxn : aux.Nodup := (List.nodup_append.1 hwn).1
  have hya : ∀ q ∈ y, q ∉ aux := fun q hq h => hyd q hq (List.mem_append_left _ h)
  exact (((invPair_ctlSum hA (aux ++ res) (fun j => (X * 2 ^ j) % N) y hwn hyd).1).comp
    (invPair_monReduce hA (aux ++ res) N hwn m)).comp
      (invPair_ctlSum hA aux (fun j => ((X * 2 ^ j) % N) * N1) y hauxn hya).2

/-! ### Multiplication of a standard residue -/

theorem modEq_cancel_pow_two {a b : Int} {N m : Nat} (hN : N % 2 = 1)
    (h : a * 2 ^ m ≡ b * 2 ^ m [ZMOD N]) : a ≡ b [ZMOD N] := by
  have hc : Int.gcd (N : Int) (2 ^ m) = 1 := by
    have : Int.gcd (N : Int) (2 ^ m) = Nat.gcd N (2 ^ m) := by
      rw [← Int.gcd_natCast_natCast]; push_cast; rfl
    rw [this]
    apply Nat.Coprime.pow_right
    exact Nat.Coprime.symm ((Nat.prime_two.coprime_iff_not_dvd).2 (by omega))
  have := h.cancel_right_div_gcd (by exact_mod_cast (by omega : 0 < N))
  rwa [hc, Nat.cast_one, Int.ediv_one] at this

/-- `cq_montgomery_multiply` of a residue in standard form by `X` in standard form. -/
theorem cqMontMult_std {A : Adder Q} (hA : A.Correct) (X N m : Nat) (N1 : Int)
    (y aux res : List Q) (s : St Q)
    (hN : N % 2 = 1) (hN1 : N1 * N ≡ 1 [ZMOD 2 ^ (m + 1)])
    (hnd : (y ++ (aux ++ res)).Nodup) (haux : aux.length = m + 1)
    (hres : N ≤ 2 ^ res.length) (hne : res ≠ [])
    (hz : ∀ q ∈ aux ++ res, s q = false)
    (hT2 : coefSum (fun j => (((X * 2 ^ m : Nat) % N : Int) * 2 ^ j) % N) s 0 y < 2 ^ m * (2 * N))
    (hT : ∀ (u : Nat) (W : Int), u < 2 ^ m →
      coefSum (fun j => (((X * 2 ^ m : Nat) % N : Int) * 2 ^ j) % N) s 0 y - u * N = 2 ^ m * W →
      W < N) :
    let s' := cqMontMult A ((X * 2 ^ m : Nat) % N : Int) N N1 m y aux res s
    regVal res s' = X * regVal y s % N ∧ ∀ q, q ∉ res → s' q = s q := by
  obtain ⟨h1, h2, h3⟩ := cqMontMult_spec' hA ((X * 2 ^ m : Nat) % N : Int) N m N1 y aux res s hN hN1
    hnd haux hres hne hz hT2 hT
  refine ⟨?_, h3⟩
  set s' := cqMontMult A ((X * 2 ^ m : Nat) % N : Int) N N1 m y aux res s
  have h4 : (regVal res s' : Int) ≡ X * regVal y s [ZMOD N] := by
    apply modEq_cancel_pow_two (m := m) hN
    refine h2.trans ?_
    have := (Int.mod_modEq ((X * 2 ^ m : Nat) : Int) N).mul_right (regVal y s : Int)
    refine this.trans (modEq_of_eq ?_)
    push_cast; ring
  have h5 : regVal res s' % N = X * regVal y s % N := by
    have : ((regVal res s' : Nat) : Int) % N = ((X * regVal y s : Nat) : Int) % N := by
      push_cast; exact h4
    exact_mod_cast this
  rw [← h5, Nat.mod_eq_of_lt h1]

theorem coefSum_lt_of_len (C : Nat → Int) (N m : Nat) (hN : 0 < N) (y : List Q) (s : St Q)
    (hlen : y.length ≤ 2 ^ m) : coefSum (fun j => C j % N) s 0 y < 2 ^ m * N := by
  have hNpos : (0 : Int) < N := by exact_mod_cast hN
  have h1 := coefSum_le_const (fun j => C j % N) (N - 1) (by omega) (by
    intro j
    have := Int.emod_lt_of_pos (C j) hNpos
    omega) s 0 y
  have h7 : ((N : Int) - 1) * y.length ≤ (N - 1) * 2 ^ m :=
    mul_le_mul_of_nonneg_left (by exact_mod_cast hlen) (by omega)
  have h8 : (0 : Int) < 2 ^ m := by positivity
  linarith

/-- As `cqMontMult_std`, when the shift covers the number of partial products. -/
theorem cqMontMult_std_len {A : Adder Q} (hA : A.Correct) (X N m : Nat) (N1 : Int)
    (y aux res : List Q) (s : St Q)
    (hN : N % 2 = 1) (hN1 : N1 * N ≡ 1 [ZMOD 2 ^ (m + 1)])
    (hnd : (y ++ (aux ++ res)).Nodup) (haux : aux.length = m + 1)
    (hres : N ≤ 2 ^ res.length) (hne : res ≠ [])
    (hz : ∀ q ∈ aux ++ res, s q = false) (hlen : y.length ≤ 2 ^ m) :
    let s' := cqMontMult A ((X * 2 ^ m : Nat) % N : Int) N N1 m y aux res s
    regVal res s' = X * regVal y s % N ∧ ∀ q, q ∉ res → s' q = s q := by
  have h := coefSum_lt_of_len (fun j => ((X * 2 ^ m : Nat) % N : Int) * 2 ^ j) N m (by omega) y s hlen
  exact cqMontMult_std hA X N m N1 y aux res s hN hN1 hnd haux hres hne hz
    (h.trans_le (mul_le_mul_of_nonneg_left (by omega) (by positivity)))
    (fun u W _ hW => quot_lt_of_lt (by positivity) h hW)

/-! ### cq_montgomery_multiply_inplace -/

/-- `for i in range(n): swap(a[i], b[i])`. -/
def swapRegs (a b : List Q) (s : St Q) : St Q := (a.zip b).foldl (fun s p => swapS p.1 p.2 s) s

theorem swapRegs_spec (a b : List Q) (s : St Q) (hlen : a.length = b.length)
    (hnd : (a ++ b).Nodup) :
    regVal a (swapRegs a b s) = regVal b s ∧ regVal b (swapRegs a b s) = regVal a s
    ∧ ∀ q, q ∉ a → q ∉ b → swapRegs a b s q = s q := by
  induction a generalizing b s with
  | nil =>
    have : b = [] := by simpa using hlen.symm
    subst this
    exact ⟨rfl, rfl, fun _ _ _ => rfl⟩
  | cons x a ih =>
    cases b with
    | nil => simp at hlen
    | cons z b =>
      have hn := List.nodup_append.1 hnd
      obtain ⟨n1, n2, n3⟩ := hn
      rw [List.nodup_cons] at n1 n2
      have hnd' : (a ++ b).Nodup := by
        refine List.nodup_append.2 ⟨n1.2, n2.2, fun p hp r hr => n3 p (by simp [hp]) r (by simp [hr])⟩
      obtain ⟨i1, i2, i3⟩ := ih b (swapS x z s) (by simpa using hlen) hnd'
      have hxb : x ∉ b := fun h => n3 x (by simp) x (by simp [h]) rfl
      have hza : z ∉ a := fun h => n3 z (by simp [h]) z (by simp) rfl
      have hxz : x ≠ z := n3 x (by simp) z (by simp)
      have e : swapRegs (x :: a) (z :: b) s = swapRegs a b (swapS x z s) := rfl
      have f1 : regVal b (swapS x z s) = regVal b s := regVal_congr fun q hq =>
        swapS_frame _ _ _ _ (by rintro rfl; exact hxb hq) (by rintro rfl; exact n2.1 hq)
      have f2 : regVal a (swapS x z s) = regVal a s := regVal_congr fun q hq =>
        swapS_frame _ _ _ _ (by rintro rfl; exact n1.1 hq) (by rintro rfl; exact hza hq)
      rw [e, regVal_cons, regVal_cons, regVal_cons, regVal_cons, i1, i2, f1, f2,
        i3 x n1.1 hxb, i3 z hza n2.1]
      refine ⟨?_, ?_, ?_⟩
      · congr 2; simp [swapS]
      · congr 2; simp [swapS, hxz.symm]
      · intro q h1 h2
        simp only [List.mem_cons, not_or] at h1 h2
        rw [i3 q h1.2 h2.2, swapS_frame _ _ _ _ h1.1 h2.1]

/-- jasp_montgomery.py 212-217 and 230-235: `x(ctrl); with control(ctrl): swap; x(ctrl)`; nothing
without a control. -/
def swapIfOff (ctrl : Option Q) (a b : List Q) (s : St Q) : St Q :=
  match ctrl with
  | some c => xS c (ctl c (swapRegs a b) (xS c s))
  | none => s

/-- jasp_montgomery.py 240-246. -/
def swapFinal (ctrl : Option Q) (a b : List Q) (s : St Q) : St Q :=
  match ctrl with
  | some c => ctl c (swapRegs a b) s
  | none => swapRegs a b s

/-- jasp_montgomery.py 176-248 `cq_montgomery_multiply_inplace` with `X` in standard form;
`N1 = modinv(N, 2^(m+1))` and `X1 = modinv(X, N)` are inputs of the model, the auxiliary register of
the two calls is the same list. -/
def cqMontInplace (A : Adder Q) (X N : Nat) (N1 : Int) (X1 m : Nat) (y tmp aux : List Q)
    (ctrl : Option Q) (s : St Q) : St Q :=
  if X = 1 then s
  else
    let s := swapIfOff ctrl tmp y s
    let s := cqMontMult A ((X * 2 ^ m : Nat) % N : Int) N N1 m y aux tmp s
    let s := swapIfOff ctrl tmp y s
    let s := cqMontMultInv A ((X1 * 2 ^ m : Nat) % N : Int) N N1 m tmp aux y s
    swapFinal ctrl tmp y s

theorem swapRegs_st {a b : List Q} {s t : St Q} (hlen : a.length = b.length) (hnd : (a ++ b).Nodup)
    (h1 : regVal a t = regVal b s) (h2 : regVal b t = regVal a s)
    (h3 : ∀ q, q ∉ a → q ∉ b → t q = s q) : swapRegs a b s = t := by
  obtain ⟨g1, g2, g3⟩ := swapRegs_spec a b s hlen hnd
  funext q
  by_cases ha : q ∈ a
  · exact regVal_inj (g1.trans h1.symm) q ha
  · by_cases hb : q ∈ b
    · exact regVal_inj (g2.trans h2.symm) q hb
    · rw [g3 q ha hb, h3 q ha hb]

theorem swapIfOff_some (c : Q) (a b : List Q) (s : St Q) (hlen : a.length = b.length)
    (hnd : (a ++ b).Nodup) (hc : c ∉ a ++ b) :
    swapIfOff (some c) a b s = if s c then s else swapRegs a b s := by
  have hc' : c ∉ a ∧ c ∉ b := by simpa using hc
  unfold swapIfOff ctl xS
  simp only [upd_same]
  cases hs : s c
  · simp only [Bool.not_false, if_true, Bool.false_eq_true, if_false]
    obtain ⟨g1, g2, g3⟩ := swapRegs_spec a b (upd s c true) hlen hnd
    symm
    apply swapRegs_st hlen hnd
    · rw [regVal_congr (t := swapRegs a b (upd s c true)), g1]
      · exact regVal_congr fun q hq => upd_ne (by rintro rfl; exact hc'.2 hq)
      · intro q hq; exact upd_ne (by rintro rfl; exact hc'.1 hq)
    · rw [regVal_congr (t := swapRegs a b (upd s c true)), g2]
      · exact regVal_congr fun q hq => upd_ne (by rintro rfl; exact hc'.1 hq)
      · intro q hq; exact upd_ne (by rintro rfl; exact hc'.2 hq)
    · intro q h1 h2
      by_cases hqc : q = c
      · subst hqc; rw [upd_same, g3 q h1 h2, upd_same, hs]; rfl
      · rw [upd_ne hqc, g3 q h1 h2, upd_ne hqc]
  · simp only [Bool.not_true, Bool.false_eq_true, if_false, if_true, upd_same]
    funext q
    by_cases hqc : q = c
    · subst hqc; simp [hs]
    · rw [upd_ne hqc, upd_ne hqc]

/-- Reduction of a register pair with `aux = 0`: the value of `res` is doubled modulo `N` in a way that
depends on nothing else, and `aux` stays zero. -/
theorem monReduce_clean {A : Adder Q} (hA : A.Correct) (aux res : List Q) (N m : Nat)
    (hN : N % 2 = 1) (hnd : (aux ++ res).Nodup) (haux : aux.length = m + 1)
    (hne : res ≠ []) (s : St Q) (hz : ∀ q ∈ aux, s q = false) :
    let s' := monReduce A (aux ++ res) N m s
    let v := regVal res s
    regVal res s' = (2 * v + if 2 ^ res.length ≤ 2 * v then N else 0) % 2 ^ res.length
    ∧ ∀ q, q ∉ res → s' q = s q := by
  obtain ⟨u, D, W, hu, hW, hD, hWD, hr, ha, hf⟩ := monReduce_core hA aux res N m hN hnd haux hne s
  set s' := monReduce A (aux ++ res) N m s
  set v := regVal res s with hv
  set n := res.length with hn
  have hval : regVal (aux ++ res) s = 2 ^ (m + 1) * v := by
    rw [regVal_append, haux, regVal_zero hz, zero_add]
  rw [hval] at hW
  have hdv : 2 ^ m ∣ u := by
    have h1 : (2 ^ m : Int) ∣ (u : Int) * N := ⟨2 * v - W, by
      push_cast at hW; rw [pow_succ] at hW; linear_combination -hW⟩
    have h2 : 2 ^ m ∣ u * N := by exact_mod_cast h1
    exact (Nat.Coprime.pow_left m
      ((Nat.prime_two.coprime_iff_not_dvd).2 (by omega : ¬ 2 ∣ N))).dvd_of_dvd_mul_right h2
  have hu0 : u = 0 := Nat.eq_zero_of_dvd_of_lt hdv hu
  have hPm : (0 : Int) < 2 ^ m := by positivity
  have hW2 : W = 2 * v := by
    have : (2 : Int) ^ m * W = 2 ^ m * (2 * v) := by
      rw [← hW, hu0, pow_succ]; push_cast; ring
    exact mul_left_cancel₀ hPm.ne' this
  have hvlt : v < 2 ^ n := regVal_lt res s
  have hDv : D = 2 * v := by
    have h1 : (2 * v) % 2 ^ (n + 1) = D % 2 ^ (n + 1) := by
      have : ((2 * v : Nat) : Int) ≡ D [ZMOD (2 ^ (n + 1) : Nat)] := by
        push_cast; rw [← hW2]; exact hWD
      exact (Int.natCast_modEq_iff.1 this)
    rw [Nat.mod_eq_of_lt hD, Nat.mod_eq_of_lt (by rw [pow_succ]; omega)] at h1
    exact h1.symm
  refine ⟨by rw [hr, hDv], ?_⟩
  have haz : regVal aux s' = 0 := by
    have : (regVal aux s' : Int) = 0 := by rw [ha, hu0, hW2]; simp
    exact_mod_cast this
  intro q hq
  by_cases hqa : q ∈ aux
  · have : regVal aux s' = regVal aux s := by rw [haz, regVal_zero hz]
    exact regVal_inj this q hqa
  · exact hf q (by rw [List.mem_append, not_or]; exact ⟨hqa, hq⟩)

theorem coefSum_zero (coef : Nat → Int) (s : St Q) (i : Nat) (y : List Q)
    (h : ∀ q ∈ y, s q = false) : coefSum coef s i y = 0 := by
  induction y generalizing i with
  | nil => rfl
  | cons q r ih => rw [coefSum, h q (by simp), ih _ (fun p hp => h p (by simp [hp]))]; simp

/-- With `y = 0` the multiplication is the bare reduction. -/
theorem cqMontMult_off {A : Adder Q} (hA : A.Correct) (X : Int) (N m : Nat) (N1 : Int)
    (y aux res : List Q) (s : St Q) (hnd : (y ++ (aux ++ res)).Nodup)
    (hN : N % 2 = 1) (haux : aux.length = m + 1) (hne : res ≠ [])
    (hy : ∀ q ∈ y, s q = false) (hz : ∀ q ∈ aux, s q = false) :
    cqMontMult A X N N1 m y aux res s = monReduce A (aux ++ res) N m s := by
  have hwn : (aux ++ res).Nodup := (List.nodup_append.1 hnd).2.1
  have hyd : ∀ q ∈ y, q ∉ aux ++ res := fun q hq h => (List.nodup_append.1 hnd).2.2 q hq q h rfl
  have hauxn : aux.Nodup := (List.nodup_append.1 hwn).1
  have hya : ∀ q ∈ y, q ∉ aux := fun q hq h => hyd q hq (List.mem_append_left _ h)
  unfold cqMontMult
  simp only
  rw [ctlSum_spec A.add 1 (fun c b s hb => by rw [hA.add_eq _ _ _ hb, one_mul]) _ _ _ _ hwn hyd,
    coefSum_zero _ _ _ _ hy, mul_zero, addC_zero _ _ hwn]
  rw [ctlSum_spec A.inv (-1) (fun c b s hb => by rw [hA.inv_eq _ _ _ hb]; congr 1; ring)
      _ _ _ _ hauxn hya, coefSum_zero, mul_zero, addC_zero _ _ hauxn]
  intro q hq
  rw [(monReduce_clean hA aux res N m hN hwn haux hne s hz).2 q
    (fun h => hyd q hq (List.mem_append_right _ h)), hy q hq]

theorem cqMontMult_frame {A : Adder Q} (hA : A.Correct) (X : Int) (N m : Nat) (N1 : Int)
    (y aux res : List Q) (s : St Q) (hN : N % 2 = 1) (hnd : (y ++ (aux ++ res)).Nodup)
    (haux : aux.length = m + 1) (hne : res ≠ []) (q : Q) (hq : q ∉ aux ++ res) :
    cqMontMult A X N N1 m y aux res s q = s q := by
  have hwn : (aux ++ res).Nodup := (List.nodup_append.1 hnd).2.1
  have hyd : ∀ q ∈ y, q ∉ aux ++ res := fun q hq h => (List.nodup_append.1 hnd).2.2 q hq q h rfl
  have hauxn : aux.Nodup := (List.nodup_append.1 hwn).1
  have hya : ∀ q ∈ y, q ∉ aux := fun q hq h => hyd q hq (List.mem_append_left _ h)
  have hqa : q ∉ aux := fun h => hq (List.mem_append_left _ h)
  unfold cqMontMult
  rw [ctlSum_spec A.inv (-1) (fun c b s hb => by rw [hA.inv_eq _ _ _ hb]; congr 1; ring)
      _ _ _ _ hauxn hya, addC_frame _ _ _ _ hqa]
  obtain ⟨_, _, _, _, _, _, _, _, _, hf⟩ := monReduce_core hA aux res N m hN hwn haux hne
    (ctlSum A.add (aux ++ res) (fun j => X * 2 ^ j % N) y s)
  rw [hf q hq, ctlSum_spec A.add 1 (fun c b s hb => by rw [hA.add_eq _ _ _ hb, one_mul]) _ _ _ _
    hwn hyd, addC_frame _ _ _ _ hq]

/-- The in-place multiplication, given that the forward multiplication by `X` maps the value of `y`
to `X v mod N` and that the multiplication by `X1` maps `X v mod N` to `v`. -/
theorem cqMontInplace_spec {A : Adder Q} (hA : A.Correct) (X N m X1 : Nat) (N1 : Int)
    (y tmp aux : List Q) (ctrl : Option Q) (s : St Q)
    (hN : N % 2 = 1) (hnd : (y ++ (aux ++ tmp)).Nodup) (hlen : tmp.length = y.length)
    (haux : aux.length = m + 1) (hne : y ≠ []) (hctrl : ∀ c ∈ ctrl, c ∉ y ++ (aux ++ tmp))
    (hz : ∀ q ∈ aux ++ tmp, s q = false) (hX : X ≠ 1 ∨ regVal y s < N)
    (h1 : regVal tmp (cqMontMult A ((X * 2 ^ m : Nat) % N : Int) N N1 m y aux tmp s)
      = X * regVal y s % N
      ∧ ∀ q, q ∉ tmp → cqMontMult A ((X * 2 ^ m : Nat) % N : Int) N N1 m y aux tmp s q = s q)
    (h2 : ∀ t : St Q, (∀ q ∈ aux ++ y, t q = false) → regVal tmp t = X * regVal y s % N →
      regVal y (cqMontMult A ((X1 * 2 ^ m : Nat) % N : Int) N N1 m tmp aux y t) = regVal y s
      ∧ ∀ q, q ∉ y → cqMontMult A ((X1 * 2 ^ m : Nat) % N : Int) N N1 m tmp aux y t q = t q) :
    let s' := cqMontInplace A X N N1 X1 m y tmp aux ctrl s
    regVal y s' = (if ctrlOn ctrl s then X * regVal y s % N else regVal y s)
    ∧ ∀ q, q ∉ y → s' q = s q := by
  -- disjointness
  have hd := List.nodup_append.1 hnd
  have hd2 := List.nodup_append.1 hd.2.1
  have hyn := hd.1
  have hauxn := hd2.1
  have htn := hd2.2.1
  have hyaux : ∀ q ∈ y, q ∉ aux := fun q hq h => hd.2.2 q hq q (List.mem_append_left _ h) rfl
  have hyt : ∀ q ∈ y, q ∉ tmp := fun q hq h => hd.2.2 q hq q (List.mem_append_right _ h) rfl
  have hat : ∀ q ∈ aux, q ∉ tmp := fun q hq h => hd2.2.2 q hq q h rfl
  have hty : (tmp ++ y).Nodup :=
    List.nodup_append.2 ⟨htn, hyn, fun a ha b hb e => hyt b hb (e ▸ ha)⟩
  have hay : (aux ++ y).Nodup :=
    List.nodup_append.2 ⟨hauxn, hyn, fun a ha b hb e => hyaux b hb (e ▸ ha)⟩
  have hnd2 : (tmp ++ (aux ++ y)).Nodup := by
    refine List.nodup_append.2 ⟨htn, hay, fun a ha b hb e => ?_⟩
    subst e
    rcases List.mem_append.1 hb with h | h
    · exact hat a h ha
    · exact hyt a h ha
  have htne : tmp ≠ [] := by
    intro h; rw [h] at hlen; exact hne (List.length_eq_zero_iff.1 hlen.symm)
  have hauxz : ∀ q ∈ aux, s q = false := fun q hq => hz q (List.mem_append_left _ hq)
  have htz : ∀ q ∈ tmp, s q = false := fun q hq => hz q (List.mem_append_right _ hq)
  set v := regVal y s with hv
  intro s'
  by_cases hX1 : X = 1
  · have hs' : s' = s := if_pos hX1
    rw [hs', hX1]
    refine ⟨?_, fun _ _ => rfl⟩
    rw [one_mul, Nat.mod_eq_of_lt (hX.resolve_left (fun h => h hX1))]
    split_ifs <;> rfl
  have hs' : s' = swapFinal ctrl tmp y (cqMontMultInv A ((X1 * 2 ^ m : Nat) % N : Int) N N1 m tmp
      aux y (swapIfOff ctrl tmp y (cqMontMult A ((X * 2 ^ m : Nat) % N : Int) N N1 m y aux tmp
      (swapIfOff ctrl tmp y s)))) := if_neg hX1
  have hinv := invPair_cqMontMult hA ((X1 * 2 ^ m : Nat) % N : Int) N N1 m tmp aux y hnd2
  -- the active case
  have hact : ∀ s1, (∀ q, q ∉ tmp → s1 q = s q) → regVal tmp s1 = X * v % N →
      let t := swapRegs tmp y (cqMontMultInv A ((X1 * 2 ^ m : Nat) % N : Int) N N1 m tmp aux y s1)
      regVal y t = X * v % N ∧ ∀ q, q ∉ y → t q = s q := by
    intro s1 g1 g2
    set t0 : St Q := setReg y 0 s1 with ht0
    have t0y : ∀ q ∈ y, t0 q = false := by
      have : regVal y t0 = regVal y (fun _ => false) := by
        rw [ht0, regVal_setReg _ _ _ hyn, regVal_zero (fun _ _ => rfl)]; simp
      exact regVal_inj this
    have t0f : ∀ q, q ∉ y → t0 q = s1 q := fun q hq => setReg_frame _ _ _ _ hq
    have t0t : regVal tmp t0 = regVal tmp s1 := regVal_congr fun q hq => t0f q (fun h => hyt q h hq)
    obtain ⟨k1, k2⟩ := h2 t0 (by
      intro q hq
      rcases List.mem_append.1 hq with h | h
      · rw [t0f q (fun h' => hyaux q h' h), g1 q (hat q h), hauxz q h]
      · exact t0y q h) (by rw [t0t, g2])
    have e : cqMontMult A ((X1 * 2 ^ m : Nat) % N : Int) N N1 m tmp aux y t0 = s1 := by
      apply st_ext (l := y)
      · rw [k1, hv]
        exact (regVal_congr fun q hq => g1 q (hyt q hq)).symm
      · intro q hq; rw [k2 q hq, t0f q hq]
    have e2 : cqMontMultInv A ((X1 * 2 ^ m : Nat) % N : Int) N N1 m tmp aux y s1 = t0 := by
      rw [← e]; exact hinv.1 t0
    simp only
    rw [e2]
    obtain ⟨w1, w2, w3⟩ := swapRegs_spec tmp y t0 hlen hty
    refine ⟨by rw [w2, t0t, g2], fun q hq => ?_⟩
    by_cases hqt : q ∈ tmp
    · have : regVal tmp (swapRegs tmp y t0) = regVal tmp s := by
        rw [w1, regVal_zero t0y, regVal_zero htz]
      exact regVal_inj this q hqt
    · rw [w3 q hqt hq, t0f q hq, g1 q hqt]
  cases ctrl with
  | none =>
    rw [hs']
    simp only [swapFinal, swapIfOff, ctrlOn_none, if_true]
    exact hact _ h1.2 h1.1
  | some c =>
    have hcn := hctrl c rfl
    simp only [List.mem_append, not_or] at hcn
    obtain ⟨hcy, hca, hct⟩ := hcn
    have hcty : c ∉ tmp ++ y := by simp [hct, hcy]
    simp only [ctrlOn_some]
    rw [swapIfOff_some c tmp y s hlen hty hcty] at hs'
    by_cases hc : s c = true
    · rw [if_pos hc] at hs'
      simp only [hc, if_true]
      set s1 := cqMontMult A ((X * 2 ^ m : Nat) % N : Int) N N1 m y aux tmp s with hs1
      have hc1 : s1 c = true := by rw [h1.2 c hct, hc]
      rw [swapIfOff_some c tmp y _ hlen hty hcty, if_pos hc1] at hs'
      obtain ⟨a1, a2⟩ := hact s1 h1.2 h1.1
      have hcinv : cqMontMultInv A ((X1 * 2 ^ m : Nat) % N : Int) N N1 m tmp aux y s1 c = true := by
        have := a2 c hcy
        rw [(swapRegs_spec tmp y _ hlen hty).2.2 c hct hcy] at this
        rw [this, hc]
      have : s' = swapRegs tmp y
          (cqMontMultInv A ((X1 * 2 ^ m : Nat) % N : Int) N N1 m tmp aux y s1) := by
        rw [hs']; simp only [swapFinal, ctl]; rw [if_pos hcinv]
      rw [this]
      exact ⟨a1, a2⟩
    · have hc0 : s c = false := by simpa using hc
      rw [if_neg hc] at hs'
      simp only [hc0, Bool.false_eq_true, if_false]
      set s0 := swapRegs tmp y s with hs0
      obtain ⟨w1, w2, w3⟩ := swapRegs_spec tmp y s hlen hty
      rw [← hs0] at w1 w2 w3
      have s0y : ∀ q ∈ y, s0 q = false := by
        have : regVal y s0 = regVal y (fun _ => false) := by
          rw [w2, regVal_zero htz, regVal_zero (fun _ _ => rfl)]
        exact regVal_inj this
      have s0a : ∀ q ∈ aux, s0 q = false := fun q hq => by
        rw [w3 q (hat q hq) (fun h => hyaux q h hq), hauxz q hq]
      have e1 := cqMontMult_off hA ((X * 2 ^ m : Nat) % N : Int) N m N1 y aux tmp s0 hnd hN haux htne
        s0y s0a
      obtain ⟨c1, c2⟩ := monReduce_clean hA aux tmp N m hN hd.2.1 haux htne s0 s0a
      rw [e1] at hs'
      set s1 := monReduce A (aux ++ tmp) N m s0 with hs1
      have hc1 : s1 c = false := by rw [c2 c hct, w3 c hct hcy, hc0]
      rw [swapIfOff_some c tmp y _ hlen hty hcty, if_neg (by simp [hc1])] at hs'
      -- the state after swapping back is the bare reduction of `y` in the original state
      have e2 := cqMontMult_off hA ((X1 * 2 ^ m : Nat) % N : Int) N m N1 tmp aux y s hnd2 hN haux hne
        htz hauxz
      obtain ⟨d1, d2⟩ := monReduce_clean hA aux y N m hN hay haux hne s hauxz
      have e3 : swapRegs tmp y s1 = monReduce A (aux ++ y) N m s := by
        apply swapRegs_st hlen hty
        · rw [regVal_congr (t := s) (fun q hq => d2 q (fun h => hyt q h hq)), regVal_zero htz]
          rw [regVal_congr (t := s0) (fun q hq => c2 q (hyt q hq)), regVal_zero s0y]
        · rw [d1, c1, w1, hlen]
        · intro q h1 h2
          rw [d2 q h2, c2 q h1, w3 q h1 h2]
      rw [e3, ← e2, hinv.1] at hs'
      have : s' = s := by
        rw [hs']; simp [swapFinal, ctl, hc0]
      rw [this]
      exact ⟨rfl, fun _ _ => rfl⟩

end Verif.Rev
