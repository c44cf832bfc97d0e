import Verif.Rev.Mult

/-!
Montgomery reduction and multiplication (`jasp_arithmetic/jasp_montgomery.py`).
-/

set_option linter.unusedSectionVars false
set_option linter.unusedSimpArgs false

namespace Verif.Rev

variable {Q : Type} [DecidableEq Q]

/-- `swap(a, b)`. -/
def swapS (a b : Q) (s : St Q) : St Q := fun q => if q = a then s b else if q = b then s a else s q

/-- jasp_montgomery.py 67-70, positions `j, j+1, …` (`n` of them). -/
def monEst (A : Adder Q) (qf : List Q) (N : Int) : Nat → Nat → St Q → St Q
  | 0, _, s => s
  | n + 1, j, s =>
    match qf[j]? with
    | some q => monEst A qf N n (j + 1) (ctl q (A.inv ((N - 1) / 2) (qf.drop (j + 1))) s)
    | none => s

/-- jasp_montgomery.py 77-78: swap the adjacent pairs `(qf[-1-i], qf[-2-i])`, from the end of the
list downwards, `i < len(qf) - m - 1`; `l` is `qf[m:]`. -/
def monSwaps (l : List Q) (s : St Q) : St Q :=
  (l.zip l.tail).reverse.foldl (fun s p => swapS p.2 p.1 s) s

/-- jasp_montgomery.py 30-81 `q_montgomery_reduction`. -/
def monReduce (A : Adder Q) (qf : List Q) (N : Int) (m : Nat) (s : St Q) : St Q :=
  let s := monEst A qf N m 0 s
  let s := match qf.getLast? with
    | some top => ctl top (A.add N (qf.dropLast.drop m)) s
    | none => s
  let s := monSwaps (qf.drop m) s
  match qf[m + 1]?, qf[m]? with
  | some c, some t => cxS c t s
  | _, _ => s

/-- jasp_montgomery.py 157-160 and 166-170: `n` steps `j = n-1, …, 0`, control `y[j]`. -/
def ctlSum (op : Int → List Q → St Q → St Q) (b : List Q) (coef : Nat → Int) (y : List Q)
    (s : St Q) : St Q :=
  (y.zipIdx).reverse.foldl (fun s p => ctl p.1 (op (coef p.2) b) s) s

/-- jasp_montgomery.py 84-173 `cq_montgomery_multiply` after the classical precomputation: `X` is
already in Montgomery form (line 141), `N1` is `modinv(N, 2^(m+1))` (line 144). -/
def cqMontMult (A : Adder Q) (X N N1 : Int) (m : Nat) (y aux res : List Q) (s : St Q) : St Q :=
  let wqf := aux ++ res
  let s := ctlSum A.add wqf (fun j => (X * 2 ^ j) % N) y s
  let s := monReduce A wqf N m s
  ctlSum A.inv aux (fun j => ((X * 2 ^ j) % N) * N1) y s

/-! ### Lemmas -/

theorem modEq_of_eq {a b n : Int} (h : a = b) : a ≡ b [ZMOD n] := h ▸ Int.ModEq.refl _

theorem swapS_frame (a b : Q) (s : St Q) (q : Q) (h1 : q ≠ a) (h2 : q ≠ b) : swapS a b s q = s q := by
  simp [swapS, h1, h2]

theorem monSwaps_cons (x y : Q) (l : List Q) (s : St Q) :
    monSwaps (x :: y :: l) s = swapS y x (monSwaps (y :: l) s) := by
  simp [monSwaps, List.foldl_append]

theorem monSwaps_spec (l : List Q) (t : Q) (s : St Q) (h : (l ++ [t]).Nodup) :
    (l ++ [t]).map (monSwaps (l ++ [t]) s) = s t :: l.map s
    ∧ ∀ q, q ∉ l ++ [t] → monSwaps (l ++ [t]) s q = s q := by
  induction l with
  | nil => simp [monSwaps]
  | cons x l ih =>
    have h' : (x :: (l ++ [t])).Nodup := h
    have hn := List.nodup_cons.1 h'
    obtain ⟨i1, i2⟩ := ih hn.2
    cases l with
    | nil =>
      have hxt : x ≠ t := by
        intro e; subst e; exact hn.1 (by simp)
      simp only [List.nil_append, List.singleton_append, List.map_nil, List.map_cons] at i1 i2 ⊢
      rw [monSwaps_cons]
      have i1' : monSwaps [t] s t = s t := by simpa using i1
      refine ⟨?_, ?_⟩
      · simp [swapS, hxt, hxt.symm, i1', i2 x (by simpa using hxt)]
      · intro q hq
        simp only [List.mem_cons, List.not_mem_nil, or_false, not_or] at hq
        rw [swapS_frame _ _ _ _ hq.2 hq.1, i2 q (by simpa using hq.2)]
    | cons y l =>
      simp only [List.cons_append, List.map_cons] at i1 i2 ⊢
      rw [monSwaps_cons]
      set s1 := monSwaps (y :: (l ++ [t])) s with hs1
      obtain ⟨hn1, hn2⟩ := hn
      simp only [List.cons_append, List.mem_cons, not_or] at hn1
      obtain ⟨hxy, hxl⟩ := hn1
      have hyl : y ∉ l ++ [t] := (List.nodup_cons.1 hn2).1
      have hx1 : s1 x = s x := i2 x (by simpa using ⟨hxy, by simpa using hxl⟩)
      have hy1 : s1 y = s t := by simpa using (List.cons.inj i1).1
      have hrest : (l ++ [t]).map s1 = s y :: l.map s := by
        simpa using (List.cons.inj i1).2
      refine ⟨?_, ?_⟩
      · have e : (l ++ [t]).map (swapS y x s1) = (l ++ [t]).map s1 := by
          apply List.map_congr_left
          intro q hq
          apply swapS_frame
          · rintro rfl; exact hyl hq
          · rintro rfl; exact hxl hq
        rw [e, hrest]
        simp [swapS, hxy, hx1, hy1]
      · intro q hq
        simp only [List.mem_cons, not_or] at hq
        rw [swapS_frame _ _ _ _ hq.2.1 hq.1]
        exact i2 q (by simp only [List.mem_cons, not_or]; exact hq.2)

/-- Estimation stage. -/
theorem monEst_spec {A : Adder Q} (hA : A.Correct) (qf : List Q) (N : Int) (hN : N % 2 = 1)
    (hnd : qf.Nodup) (n j : Nat) (hj : j + n < qf.length) (s : St Q) (T : Int)
    (h1 : (regVal qf s : Int) ≡ T - (N - 1) * (regVal qf s % 2 ^ j : Nat) [ZMOD 2 ^ qf.length]) :
    let s' := monEst A qf N n j s
    ((regVal qf s' : Int) ≡ T - (N - 1) * (regVal qf s' % 2 ^ (j + n) : Nat) [ZMOD 2 ^ qf.length])
    ∧ ∀ q, q ∉ qf → s' q = s q := by
  induction n generalizing j s with
  | zero => exact ⟨by simpa [monEst] using h1, fun q _ => rfl⟩
  | succ n ih =>
    obtain ⟨q, hq⟩ : ∃ q, qf[j]? = some q := ⟨_, List.getElem?_eq_getElem (by omega)⟩
    set c : Int := -((N - 1) * (2 ^ j * (s q).toNat : Nat)) with hc
    have hstep : ctl q (A.inv ((N - 1) / 2) (qf.drop (j + 1))) s = addC c qf s := by
      have hn := drop_nodup hnd (j + 1)
      have hN2 : N - 1 = 2 * ((N - 1) / 2) := by omega
      unfold ctl
      rw [hA.inv_eq _ _ _ hn]
      split_ifs with g
      · rw [addC_drop _ _ _ _ hnd (by omega), hc, g, pow_succ]
        congr 1
        push_cast
        simp only [Bool.toNat_true, Nat.cast_one]
        linear_combination (2 ^ j : Int) * hN2
      · have g' : s q = false := by simpa using g
        rw [hc, g']; simp [addC_zero _ _ hnd]
    rw [monEst, hq]
    simp only
    rw [hstep]
    set s1 := addC c qf s with hs1
    have v1 : (regVal qf s1 : Int) = (c + regVal qf s) % 2 ^ qf.length := regVal_addC _ _ _ hnd
    have hlow : regVal qf s1 % 2 ^ (j + 1) = regVal qf s % 2 ^ (j + 1) := by
      zify
      rw [v1]
      push_cast
      have hdvd : (2 : Int) ^ (j + 1) ∣ 2 ^ qf.length := pow_dvd_pow 2 (by omega)
      rw [Int.emod_emod_of_dvd _ hdvd]
      have hN2 : N - 1 = 2 * ((N - 1) / 2) := by omega
      have : c + (regVal qf s : Int) = (regVal qf s : Int) +
          2 ^ (j + 1) * (-((N - 1) / 2) * (s q).toNat) := by
        rw [hc, pow_succ]; push_cast
        linear_combination (-(2 ^ j * ((s q).toNat : Int))) * hN2
      rw [this, Int.add_mul_emod_self_left]
    obtain ⟨i1, i2⟩ := ih (j + 1) (by omega) s1 (by
      rw [hlow, regVal_bit qf j q s hq]
      have m1 : (regVal qf s1 : Int) ≡ c + regVal qf s [ZMOD 2 ^ qf.length] := by
        rw [v1]; exact Int.mod_modEq _ _
      refine m1.trans ?_
      refine (h1.add_left c).trans ?_
      rw [hc]; push_cast
      exact modEq_of_eq (by ring))
    refine ⟨?_, fun p hp => ?_⟩
    · have : j + (n + 1) = j + 1 + n := by omega
      rw [this]; exact i1
    · rw [i2 p hp]; exact addC_frame _ _ _ _ hp

/-- Montgomery reduction, what the circuit does without any bound on the input: `N` odd, `aux` of
`m + 1` and `res` of `n` qubits. -/
theorem monReduce_core {A : Adder Q} (hA : A.Correct) (aux res : List Q) (N m : Nat)
    (hN : N % 2 = 1) (hnd : (aux ++ res).Nodup) (haux : aux.length = m + 1)
    (hne : res ≠ []) (s : St Q) :
    let s' := monReduce A (aux ++ res) N m s
    ∃ (u D : Nat) (W : Int), u < 2 ^ m ∧ (regVal (aux ++ res) s : Int) - u * N = 2 ^ m * W
      ∧ D < 2 ^ (res.length + 1) ∧ W ≡ D [ZMOD 2 ^ (res.length + 1)]
      ∧ regVal res s' = (D + if 2 ^ res.length ≤ D then N else 0) % 2 ^ res.length
      ∧ (regVal aux s' : Int) = u + 2 ^ m * (W % 2)
      ∧ ∀ q, q ∉ aux ++ res → s' q = s q := by
  set qf := aux ++ res with hqf
  set n := res.length with hn
  have hnpos : 0 < n := by rw [hn]; exact List.length_pos_iff.2 hne
  have hL : qf.length = m + 1 + n := by rw [hqf, List.length_append, haux]
  set T := regVal qf s with hTdef
  -- decompose the qubits
  obtain ⟨U, am, rfl⟩ : ∃ U am, aux = U ++ [am] := by
    rcases List.eq_nil_or_concat aux with h | ⟨u, t, h⟩
    · subst h; simp at haux
    · exact ⟨u, t, by rw [h, List.concat_eq_append]⟩
  obtain ⟨rm, top, rfl⟩ : ∃ rm top, res = rm ++ [top] := by
    rcases List.eq_nil_or_concat res with h | ⟨u, t, h⟩
    · exact absurd h hne
    · exact ⟨u, t, by rw [h, List.concat_eq_append]⟩
  have hU : U.length = m := by simpa using haux
  have hrm : rm.length + 1 = n := by rw [hn]; simp
  have hqf' : qf = U ++ (am :: rm) ++ [top] := by rw [hqf]; simp
  have hdropm : qf.drop m = (am :: rm) ++ [top] := by
    rw [hqf', List.append_assoc, ← hU, List.drop_left]
  -- estimation
  obtain ⟨e1, e2⟩ := monEst_spec hA qf N (by omega) hnd m 0 (by omega) s T (by
    simp [Nat.mod_one, hTdef])
  set s1 := monEst A qf N m 0 s with hs1
  simp only [Nat.zero_add] at e1
  set u := regVal qf s1 % 2 ^ m with hu
  have hutake : regVal U s1 = u := by
    rw [hu, ← regVal_take, hqf', List.append_assoc, ← hU, List.take_left]
  have hulte : u < 2 ^ m := Nat.mod_lt _ (by positivity)
  -- the signed quotient
  set D : Nat := regVal (qf.drop m) s1 with hD
  have hsplit1 : regVal qf s1 = u + 2 ^ m * D := by
    rw [regVal_split qf m s1 (by omega)]
    congr 1
    rw [hu, regVal_take]
  have hDlt : D < 2 ^ (n + 1) := by
    have := regVal_lt (qf.drop m) s1
    rw [List.length_drop, hL] at this
    have e : m + 1 + n - m = n + 1 := by omega
    rwa [e] at this
  have hpowL : (2 : Int) ^ qf.length = 2 ^ m * 2 ^ (n + 1) := by
    rw [hL, ← pow_add]; congr 1; omega
  -- T - u N = 2^m * W with W ≡ D mod 2^(n+1)
  obtain ⟨W, hW⟩ : ∃ W : Int, (T : Int) - u * N = 2 ^ m * W := by
    have h1 := e1.symm.dvd
    rw [hpowL] at h1
    obtain ⟨k, hk⟩ := h1
    refine ⟨D - 2 ^ (n + 1) * k, ?_⟩
    rw [hsplit1] at hk
    push_cast at hk
    linear_combination -hk
  have hPm : (0 : Int) < 2 ^ m := by positivity
  have hWD : W ≡ D [ZMOD 2 ^ (n + 1)] := by
    have h1 := e1
    rw [hpowL, hsplit1] at h1
    have h2 : ((u + 2 ^ m * D : Nat) : Int) - ((T : Int) - (N - 1) * u) = 2 ^ m * (D - W) := by
      push_cast; linear_combination -hW
    have h3 := h1.symm.dvd
    rw [h2] at h3
    exact Int.modEq_iff_dvd.2 (Int.dvd_of_mul_dvd_mul_left hPm.ne' h3)
  -- sign bit
  have hlenam : (am :: rm).length = n := by simp [hrm]
  have htop : s1 top = decide (2 ^ n ≤ D) := by
    have h1 := top_iff (am :: rm) top s1
    rw [← hdropm, ← hD, hlenam] at h1
    exact h1
  -- correction
  have hmid : qf.dropLast.drop m = am :: rm := by
    rw [hqf', List.dropLast_concat, ← hU, List.drop_left]
  have hlast : qf.getLast? = some top := by rw [hqf', List.getLast?_concat]
  have hqn : (U ++ (am :: rm) ++ [top]).Nodup := by rw [← hqf']; exact hnd
  have hmidn : (am :: rm).Nodup := by
    have := (List.nodup_append.1 hqn).1
    exact (List.nodup_append.1 this).2.1
  have htopmid : top ∉ am :: rm := by
    intro h
    exact (List.nodup_append.1 hqn).2.2 top (List.mem_append_right _ h) top (by simp) rfl
  have hUmid : ∀ q ∈ U, q ∉ am :: rm := by
    intro q hq h
    have := (List.nodup_append.1 hqn).1
    exact (List.nodup_append.1 this).2.2 q hq q h rfl
  have hUtop : top ∉ U := by
    intro h
    exact (List.nodup_append.1 hqn).2.2 top (List.mem_append_left _ h) top (by simp) rfl
  set g : Nat := if 2 ^ n ≤ D then N else 0 with hg
  set s2 := addC (g : Int) (am :: rm) s1 with hs2
  have es2 : ctl top (A.add N (am :: rm)) s1 = s2 := by
    unfold ctl
    rw [htop, hs2, hg]
    by_cases h : 2 ^ n ≤ D
    · simp only [h, decide_true, if_true]; rw [hA.add_eq _ _ _ hmidn]
    · simp only [h, decide_false, if_false]; rw [Nat.cast_zero, addC_zero _ _ hmidn]; simp
  have hDsplit : D = regVal (am :: rm) s1 + 2 ^ n * (s1 top).toNat := by
    rw [hD, hdropm, regVal_append, hlenam]
    simp only [regVal_cons, regVal_nil, Nat.mul_zero, Nat.add_zero]
  set r : Nat := (D + g) % 2 ^ n with hr
  have hmidv : regVal (am :: rm) s2 = r := by
    have h1 : (regVal (am :: rm) s2 : Int) = (g + regVal (am :: rm) s1) % 2 ^ n := by
      rw [hs2, regVal_addC _ _ _ hmidn, hlenam]
    have h2 : regVal (am :: rm) s2 = (g + regVal (am :: rm) s1) % 2 ^ n := by exact_mod_cast h1
    rw [h2, hr]
    conv_rhs => rw [hDsplit]
    rw [show regVal (am :: rm) s1 + 2 ^ n * (s1 top).toNat + g
      = g + regVal (am :: rm) s1 + 2 ^ n * (s1 top).toNat by ring, Nat.add_mul_mod_self_left]
  have fr2 : ∀ q, q ∉ am :: rm → s2 q = s1 q := fun q hq => addC_frame _ _ _ _ hq
  -- swaps
  have hsn : ((am :: rm) ++ [top]).Nodup := by
    rw [List.append_assoc] at hqn; exact (List.nodup_append.1 hqn).2.1
  obtain ⟨w1, w2⟩ := monSwaps_spec (am :: rm) top s2 hsn
  set s3 := monSwaps ((am :: rm) ++ [top]) s2 with hs3
  simp only [List.cons_append, List.map_cons] at w1
  have ham3 : s3 am = decide (2 ^ n ≤ D) := by
    have := (List.cons.inj w1).1
    rw [this, fr2 top htopmid, htop]
  have hres3 : (rm ++ [top]).map s3 = (am :: rm).map s2 := (List.cons.inj w1).2
  have hres3v : regVal (rm ++ [top]) s3 = regVal (am :: rm) s2 := by
    rw [regVal_eq_bv, regVal_eq_bv, hres3]
  -- final cx
  obtain ⟨c0, cr, hc0⟩ : ∃ c0 cr, rm ++ [top] = c0 :: cr := by
    cases rm with
    | nil => exact ⟨top, [], rfl⟩
    | cons a l => exact ⟨a, l ++ [top], rfl⟩
  have hgm : qf[m]? = some am := by
    rw [hqf', List.append_assoc, List.getElem?_append_right (by omega), hU, Nat.sub_self]; simp
  have hgm1 : qf[m + 1]? = some c0 := by
    have : qf = U ++ (am :: (rm ++ [top])) := by rw [hqf']; simp
    rw [this, List.getElem?_append_right (by omega), hU, hc0]
    simp
  have hamres : am ∉ rm ++ [top] := by
    have : (am :: (rm ++ [top])).Nodup := by simpa using hsn
    exact (List.nodup_cons.1 this).1
  have hfin : monReduce A qf N m s = cxS c0 am s3 := by
    unfold monReduce
    simp only [hlast, hmid, hgm, hgm1, ← hs1, hdropm]
    rw [es2]
  intro s'
  have hs' : s' = cxS c0 am s3 := hfin
  have fin_ne : ∀ q, q ≠ am → s' q = s3 q := by intro q hq; rw [hs', cxS, upd_ne hq]
  have hresv : regVal (rm ++ [top]) s' = r := by
    rw [regVal_congr (fun q hq => fin_ne q (by rintro rfl; exact hamres hq)), hres3v, hmidv]
  have hUv : regVal U s' = u := by
    rw [← hutake]
    apply regVal_congr
    intro q hq
    have hqm := hUmid q hq
    have hqt : q ≠ top := by rintro rfl; exact hUtop hq
    rw [fin_ne q (by rintro rfl; exact hqm (by simp))]
    rw [w2 q (by rw [List.mem_append, not_or]; exact ⟨hqm, by simpa using hqt⟩), fr2 q hqm]
  have hc0v : (s3 c0).toNat = r % 2 := by
    have h1 : regVal (rm ++ [top]) s3 % 2 = (s3 c0).toNat := by
      rw [hc0, regVal_cons, Nat.add_mul_mod_self_left, Nat.mod_eq_of_lt]
      have := Bool.toNat_le (s3 c0); omega
    rw [← hmidv, ← hres3v, ← h1]
  have ham' : s' am = (decide (2 ^ n ≤ D) ^^ s3 c0) := by
    rw [hs', cxS, upd_same, ham3]
  refine ⟨u, D, W, hulte, hW, hDlt, hWD, hresv, ?_, ?_⟩
  · have hauxv : regVal (U ++ [am]) s' = u + 2 ^ m * (s' am).toNat := by
      rw [regVal_append, hU, hUv]; simp
    rw [hauxv]
    push_cast
    congr 2
    have hWpar : W % 2 = D % 2 := by
      have h1 : (2 : Int) ∣ 2 ^ (n + 1) := dvd_pow_self 2 (by omega)
      exact hWD.of_dvd h1
    have hrpar : r % 2 = (D + g) % 2 := by
      rw [hr]; exact Nat.mod_mod_of_dvd _ (dvd_pow_self 2 (by omega))
    rw [hWpar, ham']
    rw [hrpar, hg] at hc0v
    by_cases h : 2 ^ n ≤ D
    · rw [if_pos h] at hc0v
      cases hcc : s3 c0 <;> rw [hcc] at hc0v <;> simp [h] at hc0v ⊢ <;> omega
    · rw [if_neg h] at hc0v
      cases hcc : s3 c0 <;> rw [hcc] at hc0v <;> simp [h] at hc0v ⊢ <;> omega
  · intro q hq
    have hq1 : q ∉ am :: rm ∧ q ≠ top := by
      rw [hqf'] at hq
      simp only [List.mem_append, List.mem_cons, not_or, List.not_mem_nil, or_false] at hq ⊢
      tauto
    have hqa : q ≠ am := by
      have := hq1.1; simp at this; exact this.1
    rw [fin_ne q hqa, w2 q (by rw [List.mem_append, not_or]; exact ⟨hq1.1, by simpa using hq1.2⟩),
      fr2 q hq1.1, e2 q hq]

/-- Montgomery reduction in general: `T - u N = 2^m W` with `W < 2^n`, `N` odd, `aux` of `m + 1` and
`res` of `n` qubits with `N ≤ 2^n`. -/
theorem monReduce_gen {A : Adder Q} (hA : A.Correct) (aux res : List Q) (N m : Nat)
    (hN : N % 2 = 1) (hnd : (aux ++ res).Nodup) (haux : aux.length = m + 1)
    (hres : N ≤ 2 ^ res.length) (hne : res ≠ []) (s : St Q)
    (hT : ∀ (u : Nat) (W : Int), u < 2 ^ m → (regVal (aux ++ res) s : Int) - u * N = 2 ^ m * W →
      W < 2 ^ res.length) :
    let s' := monReduce A (aux ++ res) N m s
    (∃ (u : Nat) (W : Int), u < 2 ^ m ∧ (regVal (aux ++ res) s : Int) - u * N = 2 ^ m * W
      ∧ (regVal res s' : Int) = if W < 0 then W + N else W)
    ∧ ((regVal res s' * 2 ^ m : Nat) : Int) ≡ regVal (aux ++ res) s [ZMOD N]
    ∧ ((regVal aux s' * N : Nat) : Int) ≡ regVal (aux ++ res) s [ZMOD 2 ^ (m + 1)]
    ∧ ∀ q, q ∉ aux ++ res → s' q = s q := by
  obtain ⟨u, D, W, hulte, hW, hDlt, hWD, hresv, hauxv, hfr⟩ :=
    monReduce_core hA aux res N m hN hnd haux hne s
  set s' := monReduce A (aux ++ res) N m s with hs'
  set T := regVal (aux ++ res) s with hTd
  set n := res.length with hn
  have hPm : (0 : Int) < 2 ^ m := by positivity
  have hu' : (u : Int) < 2 ^ m := by exact_mod_cast hulte
  have hu0 : (0 : Int) ≤ u := by positivity
  have hN1 : (1 : Int) ≤ N := by omega
  have hWlb : -N < W := by
    by_contra hcon
    have hcon : W ≤ -N := by omega
    have h1 := mul_le_mul_of_nonneg_left hcon hPm.le
    have h2 : (u : Int) * N ≤ (2 ^ m - 1) * N := mul_le_mul_of_nonneg_right (by omega) (by omega)
    have : (0 : Int) ≤ T := by positivity
    linarith
  set P : Int := 2 ^ n with hP
  have hWub : W < P := hT u W hulte hW
  have hNP : (N : Int) ≤ P := by rw [hP]; exact_mod_cast hres
  have hP2 : (2 : Int) ^ (n + 1) = 2 * P := by rw [pow_succ, hP]; ring
  have hDlt' : (D : Int) < 2 * P := by rw [← hP2]; exact_mod_cast hDlt
  have hD0 : (0 : Int) ≤ D := by positivity
  have hDW : (D : Int) = if W < 0 then W + 2 * P else W := by
    rw [hP2] at hWD
    have h1 : (D : Int) % (2 * P) = D := Int.emod_eq_of_lt hD0 hDlt'
    have h2 : W % (2 * P) = D := by rw [← h1]; exact hWD
    rw [← h2]
    split_ifs with g
    · rw [← Int.add_emod_right, Int.emod_eq_of_lt (by omega) (by omega)]
    · rw [Int.emod_eq_of_lt (by omega) (by omega)]
  have hresr : (regVal res s' : Int) = if W < 0 then W + N else W := by
    have hiff : (2 ^ n ≤ D) ↔ W < 0 := by
      have : (2 ^ n ≤ D) ↔ (P ≤ (D : Int)) := by rw [hP]; norm_cast
      rw [this, hDW]
      split_ifs with g <;> omega
    rw [hresv]
    push_cast
    rw [← hP, hDW]
    by_cases g : W < 0
    · rw [if_pos (hiff.2 g), if_pos g, if_pos g]
      have : W + 2 * P + (N : Int) = W + N + P + P := by ring
      rw [this, Int.add_emod_right, Int.add_emod_right, Int.emod_eq_of_lt (by omega) (by omega)]
    · rw [if_neg (fun h => g (hiff.1 h)), if_neg g, if_neg g]
      rw [add_zero, Int.emod_eq_of_lt (by omega) (by omega)]
  refine ⟨⟨u, W, hulte, hW, hresr⟩, ?_, ?_, hfr⟩
  · push_cast
    rw [hresr]
    refine Int.modEq_iff_dvd.2 ⟨(u : Int) - if W < 0 then 2 ^ m else 0, ?_⟩
    split_ifs
    · linear_combination hW
    · linear_combination hW
  · push_cast
    rw [hauxv]
    have h1 : W % 2 = W - 2 * (W / 2) := by omega
    obtain ⟨M, hM⟩ : ∃ M : Int, (N : Int) = 2 * M + 1 := ⟨(N : Int) / 2, by omega⟩
    refine Int.modEq_iff_dvd.2 ⟨(W / 2) * N - W * M, ?_⟩
    rw [h1, pow_succ]
    rw [hM] at hW ⊢
    linear_combination hW

/-- Montgomery reduction when `W < N` for every admissible `u`. -/
theorem monReduce_spec' {A : Adder Q} (hA : A.Correct) (aux res : List Q) (N m : Nat)
    (hN : N % 2 = 1) (hnd : (aux ++ res).Nodup) (haux : aux.length = m + 1)
    (hres : N ≤ 2 ^ res.length) (hne : res ≠ []) (s : St Q)
    (hT : ∀ (u : Nat) (W : Int), u < 2 ^ m → (regVal (aux ++ res) s : Int) - u * N = 2 ^ m * W →
      W < N) :
    let s' := monReduce A (aux ++ res) N m s
    regVal res s' < N
    ∧ ((regVal res s' * 2 ^ m : Nat) : Int) ≡ regVal (aux ++ res) s [ZMOD N]
    ∧ ((regVal aux s' * N : Nat) : Int) ≡ regVal (aux ++ res) s [ZMOD 2 ^ (m + 1)]
    ∧ ∀ q, q ∉ aux ++ res → s' q = s q := by
  have hres' : (N : Int) ≤ 2 ^ res.length := by exact_mod_cast hres
  obtain ⟨⟨u, W, h1, h2, h3⟩, h4, h5, h6⟩ := monReduce_gen hA aux res N m hN hnd haux hres hne s
    (fun u W hu h => (hT u W hu h).trans_le hres')
  refine ⟨?_, h4, h5, h6⟩
  have := hT u W h1 h2
  zify; rw [h3]; split_ifs <;> omega

theorem quot_lt_of_lt {T N W : Int} {m u : Nat} (hN : 0 ≤ N) (hT : T < 2 ^ m * N)
    (h : T - u * N = 2 ^ m * W) : W < N := by
  have hPm : (0 : Int) < 2 ^ m := by positivity
  by_contra hcon
  have hcon : N ≤ W := by omega
  have := mul_le_mul_of_nonneg_left hcon hPm.le
  have : 0 ≤ (u : Int) * N := by positivity
  linarith

/-- Montgomery reduction on `T < 2^m N`, `N` odd, `aux` of `m + 1` and `res` of `n` qubits with
`N ≤ 2^n`. -/
theorem monReduce_spec {A : Adder Q} (hA : A.Correct) (aux res : List Q) (N m : Nat)
    (hN : N % 2 = 1) (hnd : (aux ++ res).Nodup) (haux : aux.length = m + 1)
    (hres : N ≤ 2 ^ res.length) (hne : res ≠ []) (s : St Q)
    (hT : regVal (aux ++ res) s < 2 ^ m * N) :
    let s' := monReduce A (aux ++ res) N m s
    regVal res s' < N
    ∧ ((regVal res s' * 2 ^ m : Nat) : Int) ≡ regVal (aux ++ res) s [ZMOD N]
    ∧ ((regVal aux s' * N : Nat) : Int) ≡ regVal (aux ++ res) s [ZMOD 2 ^ (m + 1)]
    ∧ ∀ q, q ∉ aux ++ res → s' q = s q := by
  exact monReduce_spec' hA aux res N m hN hnd haux hres hne s fun u W _ h =>
    quot_lt_of_lt (by positivity) (by exact_mod_cast hT) h

/-- A controlled sum of classical coefficients. -/
def coefSum (coef : Nat → Int) (s : St Q) : Nat → List Q → Int
  | _, [] => 0
  | i, q :: r => (if s q then coef i else 0) + coefSum coef s (i + 1) r

theorem ctlSum_spec (op : Int → List Q → St Q → St Q) (sg : Int)
    (hop : ∀ c b s, b.Nodup → op c b s = addC (sg * c) b s)
    (b : List Q) (coef : Nat → Int) (y : List Q) (s : St Q)
    (hb : b.Nodup) (hy : ∀ q ∈ y, q ∉ b) :
    ctlSum op b coef y s = addC (sg * coefSum coef s 0 y) b s := by
  unfold ctlSum
  have h1 : ∀ (ps : List (Q × Nat)) (s : St Q), (∀ p ∈ ps, p.1 ∉ b) →
      ps.foldl (fun s p => ctl p.1 (op (coef p.2) b) s) s =
        addC (sg * ((ps.map (fun p => if s p.1 then coef p.2 else 0)).sum)) b s := by
    intro ps
    induction ps with
    | nil => intro s _; simp [addC_zero _ _ hb]
    | cons p ps ih =>
      intro s hp
      have e : ctl p.1 (op (coef p.2) b) s = addC (sg * (if s p.1 then coef p.2 else 0)) b s := by
        unfold ctl
        split_ifs
        · rw [hop _ _ _ hb]
        · rw [mul_zero, addC_zero _ _ hb]
      rw [List.foldl_cons, e, ih _ (fun p hp' => hp p (by simp [hp'])), addC_addC _ _ _ _ hb,
        List.map_cons, List.sum_cons]
      have : ∀ u ∈ ps, (if addC (sg * (if s p.1 then coef p.2 else 0)) b s u.1 = true
          then coef u.2 else 0) = if s u.1 = true then coef u.2 else 0 := by
        intro u hu
        rw [addC_frame _ _ _ _ (hp u (by simp [hu]))]
      rw [List.map_congr_left this]
      congr 1
      ring
  rw [h1]
  · congr 2
    rw [List.map_reverse, List.sum_reverse]
    have h2 : ∀ (y : List Q) (i : Nat),
        ((y.zipIdx i).map (fun p => if s p.1 then coef p.2 else 0)).sum = coefSum coef s i y := by
      intro y
      induction y with
      | nil => intro i; simp [coefSum]
      | cons q r ih => intro i; simp only [List.zipIdx_cons, List.map_cons, List.sum_cons, coefSum, ih]
    exact h2 y 0
  · intro p hp
    rw [List.mem_reverse] at hp
    exact hy p.1 (List.fst_mem_of_mem_zipIdx hp)

theorem coefSum_congr (coef : Nat → Int) (s t : St Q) (i : Nat) (y : List Q)
    (h : ∀ q ∈ y, s q = t q) : coefSum coef s i y = coefSum coef t i y := by
  induction y generalizing i with
  | nil => rfl
  | cons q r ih =>
    rw [coefSum, coefSum, h q (by simp), ih (i + 1) (fun p hp => h p (by simp [hp]))]

theorem coefSum_mul (coef : Nat → Int) (c : Int) (s : St Q) (i : Nat) (y : List Q) :
    coefSum (fun j => coef j * c) s i y = coefSum coef s i y * c := by
  induction y generalizing i with
  | nil => simp [coefSum]
  | cons q r ih => rw [coefSum, coefSum, ih]; split_ifs <;> ring

theorem coefSum_nonneg (coef : Nat → Int) (hc : ∀ j, 0 ≤ coef j) (s : St Q) (i : Nat) (y : List Q) :
    0 ≤ coefSum coef s i y := by
  induction y generalizing i with
  | nil => simp [coefSum]
  | cons q r ih => rw [coefSum]; have := ih (i + 1); have := hc i; split_ifs <;> omega

theorem coefSum_mod (X N : Int) (s : St Q) (i : Nat) (y : List Q) :
    coefSum (fun j => (X * 2 ^ j) % N) s i y ≡ X * 2 ^ i * regVal y s [ZMOD N] := by
  induction y generalizing i with
  | nil => simp [coefSum]
  | cons q r ih =>
    rw [coefSum, regVal_cons]
    have h1 := ih (i + 1)
    have h2 : (if s q then (X * 2 ^ i) % N else 0) ≡ X * 2 ^ i * (s q).toNat [ZMOD N] := by
      cases s q
      · simp
      · simp only [if_true, Bool.toNat_true, Nat.cast_one, mul_one]; exact Int.mod_modEq _ _
    refine (h2.add h1).trans (modEq_of_eq ?_)
    rw [pow_succ]; push_cast; ring

/-- The value written and the clean-up, as long as the quotient fits the register. -/
theorem cqMontMult_gen {A : Adder Q} (hA : A.Correct) (X : Int) (N m : Nat) (N1 : Int)
    (y aux res : List Q) (s : St Q)
    (hN : N % 2 = 1) (hN1 : N1 * N ≡ 1 [ZMOD 2 ^ (m + 1)])
    (hnd : (y ++ (aux ++ res)).Nodup) (haux : aux.length = m + 1)
    (hres : N ≤ 2 ^ res.length) (hne : res ≠ [])
    (hz : ∀ q ∈ aux ++ res, s q = false)
    (hT2 : coefSum (fun j => (X * 2 ^ j) % N) s 0 y < 2 ^ m * (2 * 2 ^ res.length))
    (hT : ∀ (u : Nat) (W : Int), u < 2 ^ m →
      coefSum (fun j => (X * 2 ^ j) % N) s 0 y - u * N = 2 ^ m * W →
      W < 2 ^ res.length) :
    let s' := cqMontMult A X N N1 m y aux res s
    (∃ (u : Nat) (W : Int), u < 2 ^ m
      ∧ coefSum (fun j => (X * 2 ^ j) % N) s 0 y - u * N = 2 ^ m * W
      ∧ (regVal res s' : Int) = if W < 0 then W + N else W)
    ∧ ((regVal res s' : Int) * 2 ^ m ≡ X * regVal y s [ZMOD N])
    ∧ ∀ q, q ∉ res → s' q = s q := by
  have hwn : (aux ++ res).Nodup := (List.nodup_append.1 hnd).2.1
  have hyd : ∀ q ∈ y, q ∉ aux ++ res := fun q hq h => (List.nodup_append.1 hnd).2.2 q hq q h rfl
  have hauxn : aux.Nodup := (List.nodup_append.1 hwn).1
  have hN0 : 0 < N := by omega
  set coef : Nat → Int := fun j => (X * 2 ^ j) % N with hcoef
  set T := coefSum coef s 0 y with hTdef
  have hT0 : 0 ≤ T := coefSum_nonneg _ (fun j => Int.emod_nonneg _ (by omega)) _ _ _
  set s1 := addC T (aux ++ res) s with hs1
  have e1 : ctlSum A.add (aux ++ res) coef y s = s1 := by
    rw [ctlSum_spec A.add 1 (fun c b s hb => by rw [hA.add_eq _ _ _ hb, one_mul]) _ _ _ _ hwn hyd,
      one_mul]
  have v1 : (regVal (aux ++ res) s1 : Int) = T := by
    rw [hs1, regVal_addC _ _ _ hwn, regVal_zero hz, Nat.cast_zero, add_zero,
      Int.emod_eq_of_lt hT0]
    have h2 : (2 : Int) ^ (aux ++ res).length = 2 ^ m * (2 * 2 ^ res.length) := by
      rw [List.length_append, haux, pow_add, pow_succ]; ring
    rw [h2]
    exact hT2
  obtain ⟨r1, r2, r3, r4⟩ := monReduce_gen hA aux res N m hN hwn haux hres hne s1 (by
    rw [v1]; exact hT)
  set s2 := monReduce A (aux ++ res) N m s1 with hs2
  have hy2 : ∀ q ∈ y, s2 q = s q := by
    intro q hq
    rw [r4 q (hyd q hq), hs1, addC_frame _ _ _ _ (hyd q hq)]
  have hyaux : ∀ q ∈ y, q ∉ aux := fun q hq h => hyd q hq (List.mem_append_left _ h)
  set s3 := addC (-1 * (T * N1)) aux s2 with hs3
  have e3 : ctlSum A.inv aux (fun j => coef j * N1) y s2 = s3 := by
    rw [ctlSum_spec A.inv (-1) (fun c b s hb => by rw [hA.inv_eq _ _ _ hb]; congr 1; ring)
      _ _ _ _ hauxn hyaux, coefSum_mul, coefSum_congr coef s2 s 0 y hy2]
  have hfin : cqMontMult A X N N1 m y aux res s = s3 := by
    unfold cqMontMult
    simp only [← hcoef]
    rw [e1, ← hs2, e3]
  intro s'
  have hs' : s' = s3 := hfin
  rw [hs']
  have hdis : ∀ q ∈ res, q ∉ aux := by
    intro q h1 h2; exact (List.nodup_append.1 hwn).2.2 q h2 q h1 rfl
  have hrv : regVal res s3 = regVal res s2 := regVal_addC_disj _ _ _ _ hdis
  have hauxz : ∀ q ∈ aux, s3 q = false := by
    have h0 : (regVal aux s3 : Int) = 0 := by
      rw [hs3, regVal_addC _ _ _ hauxn, haux]
      -- aux * N ≡ T, hence aux ≡ T N1
      have h1 : (regVal aux s2 : Int) ≡ T * N1 [ZMOD 2 ^ (m + 1)] := by
        have h2 := (r3.mul_right N1)
        rw [v1] at h2
        have h3 : ((regVal aux s2 * N : Nat) : Int) * N1 ≡ regVal aux s2 [ZMOD 2 ^ (m + 1)] := by
          have := hN1.mul_left (regVal aux s2 : Int)
          refine Int.ModEq.trans (modEq_of_eq ?_) (this.trans (modEq_of_eq (by ring)))
          push_cast; ring
        exact h3.symm.trans h2
      have h4 := h1.add_left (-1 * (T * N1))
      have h5 : -1 * (T * N1) + T * N1 = 0 := by ring
      rw [h5] at h4
      exact h4
    have h0' : regVal aux s3 = regVal aux (fun _ => false) := by
      rw [regVal_zero (fun _ _ => rfl)]; exact_mod_cast h0
    exact regVal_inj h0'
  rw [v1] at r1
  refine ⟨by rw [hrv]; exact r1, ?_, ?_⟩
  · rw [hrv]
    rw [v1] at r2
    push_cast at r2
    refine r2.trans ?_
    have := coefSum_mod X N s 0 y
    simpa using this
  · intro q hq
    by_cases h : q ∈ aux
    · rw [hauxz q h, hz q (List.mem_append_left _ h)]
    · rw [hs3, addC_frame _ _ _ _ h, r4 q (by rw [List.mem_append, not_or]; exact ⟨h, hq⟩), hs1,
        addC_frame _ _ _ _ (by rw [List.mem_append, not_or]; exact ⟨h, hq⟩)]

theorem cqMontMult_spec' {A : Adder Q} (hA : A.Correct) (X : Int) (N m : Nat) (N1 : Int)
    (y aux res : List Q) (s : St Q)
    (hN : N % 2 = 1) (hN1 : N1 * N ≡ 1 [ZMOD 2 ^ (m + 1)])
    (hnd : (y ++ (aux ++ res)).Nodup) (haux : aux.length = m + 1)
    (hres : N ≤ 2 ^ res.length) (hne : res ≠ [])
    (hz : ∀ q ∈ aux ++ res, s q = false)
    (hT2 : coefSum (fun j => (X * 2 ^ j) % N) s 0 y < 2 ^ m * (2 * N))
    (hT : ∀ (u : Nat) (W : Int), u < 2 ^ m →
      coefSum (fun j => (X * 2 ^ j) % N) s 0 y - u * N = 2 ^ m * W → W < N) :
    let s' := cqMontMult A X N N1 m y aux res s
    regVal res s' < N ∧ ((regVal res s' : Int) * 2 ^ m ≡ X * regVal y s [ZMOD N])
    ∧ ∀ q, q ∉ res → s' q = s q := by
  have hN0 : 0 < N := by omega
  have h1 : (N : Int) ≤ 2 ^ res.length := by exact_mod_cast hres
  have h8 : (0 : Int) < 2 ^ m := by positivity
  obtain ⟨⟨u, W, hu, hW, hr⟩, h2, h3⟩ := cqMontMult_gen hA X N m N1 y aux res s hN hN1 hnd haux hres
    hne hz (hT2.trans_le (mul_le_mul_of_nonneg_left (by omega) h8.le))
    (fun u W hu hW => (hT u W hu hW).trans_le h1)
  refine ⟨?_, h2, h3⟩
  have hWN := hT u W hu hW
  zify
  rw [hr]
  split_ifs <;> omega

theorem cqMontMult_spec {A : Adder Q} (hA : A.Correct) (X : Int) (N m : Nat) (N1 : Int)
    (y aux res : List Q) (s : St Q)
    (hN : N % 2 = 1) (hN1 : N1 * N ≡ 1 [ZMOD 2 ^ (m + 1)])
    (hnd : (y ++ (aux ++ res)).Nodup) (haux : aux.length = m + 1)
    (hres : N ≤ 2 ^ res.length) (hne : res ≠ [])
    (hz : ∀ q ∈ aux ++ res, s q = false)
    (hT : coefSum (fun j => (X * 2 ^ j) % N) s 0 y < 2 ^ m * N) :
    let s' := cqMontMult A X N N1 m y aux res s
    regVal res s' < N ∧ ((regVal res s' : Int) * 2 ^ m ≡ X * regVal y s [ZMOD N])
    ∧ ∀ q, q ∉ res → s' q = s q := by
  exact cqMontMult_spec' hA X N m N1 y aux res s hN hN1 hnd haux hres hne hz
    (hT.trans_le (mul_le_mul_of_nonneg_left (by omega) (by positivity)))
    (fun u W _ h => quot_lt_of_lt (by positivity) hT h)

end Verif.Rev
