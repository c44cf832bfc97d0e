import Verif.Types.QDict
import Verif.Circ.Inter
import Mathlib.Tactic.IntervalCases

/-!
Property theorems C124: truth table synthesis and quantum dictionaries.
-/

namespace Verif.Props

open Verif.Circ Verif.Types
open Verif.Rev (upd)

variable {Q : Type} [DecidableEq Q]

open Classical in
/-- The basis state `b`. -/
noncomputable def ket (b : Q → Bool) : Amp Q := fun c => if c = b then 1 else 0

/-- The entry of row `x` of the table, column `j` as bit `j`. -/
def rowVal (cols : List (List Bool)) (x : Nat) : Nat :=
  match cols with
  | [] => 0
  | col :: r => (col.getD x false).toNat + 2 * rowVal r x

/-- `b'` differs from `b` in the output register only, where the number of row `x` is added bitwise. -/
def Loaded (I O : List Q) (cols : List (List Bool)) (b b' : Q → Bool) : Prop :=
  (∀ q, q ∉ O → b' q = b q) ∧ regNat b' O = regNat b O ^^^ rowVal cols (regNat b I)

theorem xor_low (a b : Bool) (x y : Nat) : (a.toNat + 2 * x) ^^^ (b.toNat + 2 * y) = (a ^^ b).toNat + 2 * (x ^^^ y) := by
  apply Nat.eq_of_testBit_eq
  intro k
  have h : ∀ (c : Bool) (z : Nat) (k : Nat), (c.toNat + 2 * z).testBit k = if k = 0 then c else z.testBit (k - 1) := by
    intro c z k
    cases k with
    | zero => cases c <;> simp [Nat.testBit_zero] <;> omega
    | succ k =>
      rw [Nat.testBit_succ]
      have : (c.toNat + 2 * z) / 2 = z := by cases c <;> simp <;> omega
      simp [this]
  rw [Nat.testBit_xor, h, h, h]
  split
  · rfl
  · rw [Nat.testBit_xor]

theorem regNat_xorOut (x : Nat) : ∀ (O : List Q) (cols : List (List Bool)) (b : Q → Bool), O.Nodup →
    cols.length = O.length → regNat (xorOut b x O cols) O = regNat b O ^^^ rowVal cols x
  | [], [], b, _, _ => by simp [regNat, rowVal]
  | [], _ :: _, _, _, h => by simp at h
  | _ :: _, [], _, _, h => by simp at h
  | q :: O, col :: cols, b, hn, h => by
    have hn := List.nodup_cons.1 hn
    simp only [xorOut, regNat, rowVal]
    rw [xorOut_out hn.1, regNat_xorOut x O cols _ hn.2 (by simpa using h), regNat_upd hn.1, xor_low]
    simp [upd]

theorem xorOut_loaded {I O : List Q} (hnd : (I ++ O).Nodup) {cols : List (List Bool)}
    (hl : cols.length = O.length) (b : Q → Bool) : Loaded I O cols b (xorOut b (regNat b I) O cols) :=
  ⟨fun _ hq => xorOut_out hq _ _ _, regNat_xorOut _ O cols b (List.nodup_append'.1 hnd).2.1 hl⟩

theorem xorOut_xorOut (x : Nat) : ∀ (O : List Q) (cols : List (List Bool)) (b : Q → Bool), O.Nodup →
    xorOut (xorOut b x O cols) x O cols = b
  | [], _, b, _ => by simp [xorOut]
  | _ :: _, [], b, _ => by simp [xorOut]
  | q :: O, col :: cols, b, hn => by
    have hn := List.nodup_cons.1 hn
    simp only [xorOut]
    rw [xorOut_upd hn.1, xorOut_upd hn.1, xorOut_upd hn.1, xorOut_xorOut x O cols b hn.2]
    funext z
    by_cases hz : z = q
    · subst hz
      simp [upd, xorOut_out hn.1]
    · simp [upd, hz]

/-- An operator that permutes the amplitudes like the table maps basis states to basis states. -/
theorem ket_of_xorOut {I O : List Q} (hnd : (I ++ O).Nodup) (cols : List (List Bool))
    (T : Amp Q → Amp Q) (d : Nat → ℂ)
    (hT : ∀ ψ, T ψ = fun b => d (regNat b I) * ψ (xorOut b (regNat b I) O cols)) (b : Q → Bool) :
    T (ket b) = fun c => d (regNat b I) * ket (xorOut b (regNat b I) O cols) c := by
  classical
  have hO := (List.nodup_append'.1 hnd).2.1
  rw [hT]
  funext c
  simp only [ket]
  by_cases h : c = xorOut b (regNat b I) O cols
  · subst h
    rw [xorOut_reg hnd, xorOut_xorOut _ _ _ _ hO]
    simp
  · rw [if_neg h, if_neg, mul_zero, mul_zero]
    intro e
    apply h
    rw [← e, xorOut_reg hnd, xorOut_xorOut _ _ _ _ hO]

/-! ### Reed-Muller synthesis -/

/-- `method = "pprm"` and `"pprm_pt"`: for every truth table, whatever the order in which sympy lists
the monomials, `|x⟩|y⟩ ↦ |x⟩|y ⊕ f(x)⟩`, without any phase. -/
theorem C124_pprm (pt : Bool) (I O : List Q) (hnd : (I ++ O).Nodup) (cols : List (List Bool))
    (hl : cols.length = O.length) (ord : List Bool → List Nat)
    (ho : ∀ col ∈ cols, (ord col).Perm (reduced I.length (tablePoly I.length col))) (b : Q → Bool) :
    ∃ b', Loaded I O cols b b' ∧ denBody (pprm pt I.length ord cols) (I ++ O) (ket b) = ket b' := by
  refine ⟨_, xorOut_loaded hnd hl b, ?_⟩
  have := ket_of_xorOut hnd cols (denBody (pprm pt I.length ord cols) (I ++ O)) (fun _ => 1)
    (fun ψ => by rw [pprm_den pt hnd ord ho hl]; simp) b
  rw [this]; simp

/-! ### Gray synthesis -/

/-- `method = "gray"` and `"gray_pt"` with several output qubits in the phase tolerant variant: every
table is computed, up to phases depending on the input. -/
theorem C124_gray_pt (I O : List Q) (hnd : (I ++ O).Nodup) (cols : List (List Bool))
    (hc : ∀ col ∈ cols, col.length = 2 ^ I.length) (hl : cols.length = O.length) (h1 : cols.length ≠ 1)
    (b : Q → Bool) : ∃ b' a, Loaded I O cols b b' ∧
      denBody (grayLogic true I.length cols) (I ++ O) (ket b) = fun c => ph a * ket b' c := by
  refine ⟨_, Real.pi / 2 * (rowSum cols 0 - rowSum cols (regNat b I)), xorOut_loaded hnd hl b, ?_⟩
  exact ket_of_xorOut hnd cols (denBody (grayLogic true I.length cols) (I ++ O))
    (fun x => ph (Real.pi / 2 * (rowSum cols 0 - rowSum cols x)))
    (fun ψ => by rw [grayLogic_many hnd hc hl h1 true (by simp)]; simp) b

/-- One output qubit, `"gray"` and `"gray_pt"`: exact. Missing: tables for which, for some most
significant bit, the smallest parity correlated with the table has three or more ones; there it is
false (`C124_gray_parity_wrong`). -/
theorem C124_gray_one_partial (pt : Bool) (I : List Q) (q : Q) (hnd : (I ++ [q]).Nodup) (col : List Bool)
    (hc : col.length = 2 ^ I.length) (hS : SmallWht I.length (colR col)) (b : Q → Bool) :
    ∃ b', Loaded I [q] [col] b b' ∧ denBody (grayLogic pt I.length [col]) (I ++ [q]) (ket b) = ket b' := by
  refine ⟨_, xorOut_loaded hnd (by simp) b, ?_⟩
  have := ket_of_xorOut hnd [col] (denBody (grayLogic pt I.length [col]) (I ++ [q])) (fun _ => 1)
    (fun ψ => by rw [grayLogic_one pt hnd hc hS]; simp [xorOut]) b
  rw [this]; simp

/-- Several output qubits, `"gray"`: the table is computed with the phase `π/2 · (s(x̃) - s(x))`, where
`s(x)` is the number of ones in row `x` and `x̃` the input with its bits reversed. Missing: the phase
should be zero (`C124_gray_phase_wrong`), and the condition on parities. -/
theorem C124_gray_many_partial (I O : List Q) (hnd : (I ++ O).Nodup) (cols : List (List Bool))
    (hc : ∀ col ∈ cols, col.length = 2 ^ I.length) (hl : cols.length = O.length) (h1 : cols.length ≠ 1)
    (hS : SmallWht I.length fun x => rowSum cols (revIdx I.length x)) (b : Q → Bool) :
    ∃ b', Loaded I O cols b b' ∧ denBody (grayLogic false I.length cols) (I ++ O) (ket b) = fun c =>
      ph (Real.pi / 2 * (rowSum cols (revIdx I.length (regNat b I)) - rowSum cols (regNat b I))) * ket b' c := by
  refine ⟨_, xorOut_loaded hnd hl b, ?_⟩
  exact ket_of_xorOut hnd cols (denBody (grayLogic false I.length cols) (I ++ O))
    (fun x => ph (Real.pi / 2 * (rowSum cols (revIdx I.length x) - rowSum cols x)))
    (fun ψ => by rw [grayLogic_many hnd hc hl h1 false fun _ => hS]; simp) b

/-- With up to two input qubits the condition on parities always holds. -/
theorem small_two {n : Nat} (h2 : n ≤ 2) (g : Nat → ℝ) : SmallWht n g := by
  intro o ho p hp hl hp0 _ _
  have hb := log2_bounds hl hp0
  have : o = 0 ∨ o = 1 := by omega
  rcases this with rfl | rfl
  · left; omega
  · rcases Nat.lt_or_ge p 3 with h | h
    · left; omega
    · right; exact ⟨0, by omega, by omega⟩

/-- The table `1 ↦ 1, 3 ↦ 1` (the lowest input bit) with two input and two output qubits: the state
`|1⟩|0⟩` is mapped to `-i |1⟩|1⟩`, the state `|2⟩|0⟩` to `i |2⟩|0⟩`. -/
theorem C124_gray_phase_wrong :
    let cols := [[false, true, false, true], [false, false, false, false]]
    let one : Nat → Bool := fun q => q == 0
    let two : Nat → Bool := fun q => q == 1
    denBody (grayLogic false 2 cols) [0, 1, 2, 3] (ket one)
        = (fun c => -Complex.I * ket (fun q => q == 0 || q == 2) c) ∧
    denBody (grayLogic false 2 cols) [0, 1, 2, 3] (ket two) = fun c => Complex.I * ket two c := by
  have hi : ph (-(Real.pi / 2)) = -Complex.I := by
    have h1 := ph_neg (Real.pi / 2)
    rw [ph_half_pi] at h1
    have : ph (-(Real.pi / 2)) = ph (-(Real.pi / 2)) * Complex.I * (-Complex.I) := by
      rw [mul_assoc, mul_neg, Complex.I_mul_I, neg_neg, mul_one]
    rw [this, h1, one_mul]
  have key := ket_of_xorOut (Q := Nat) (I := [0, 1]) (O := [2, 3]) (by decide)
    [[false, true, false, true], [false, false, false, false]]
    (denBody (grayLogic false 2 [[false, true, false, true], [false, false, false, false]]) [0, 1, 2, 3])
    (fun x => ph (Real.pi / 2 * (rowSum [[false, true, false, true], [false, false, false, false]] (revIdx 2 x)
      - rowSum [[false, true, false, true], [false, false, false, false]] x)))
    (fun ψ => by
      have := grayLogic_many (Q := Nat) (I := [0, 1]) (O := [2, 3]) (by decide)
        (cols := [[false, true, false, true], [false, false, false, false]]) (by decide) rfl (by decide) false
        (fun _ => small_two (by simp) _) ψ
      simpa using this)
  refine ⟨?_, ?_⟩
  · refine (key _).trans ?_
    have h1 : regNat (fun q : Nat => q == 0) [0, 1] = 1 := by decide
    have h2 : xorOut (fun q : Nat => q == 0) 1 [2, 3] [[false, true, false, true], [false, false, false, false]]
        = fun q => q == 0 || q == 2 := by
      funext q
      simp only [xorOut, upd, List.getD_cons_succ, List.getD_cons_zero]
      by_cases h3 : q = 3 <;> by_cases h2 : q = 2 <;> simp_all
    have h3 : revIdx 2 1 = 2 := by decide
    rw [h1, h2, h3]
    simp [rowSum, colR, hi]
  · refine (key _).trans ?_
    have h1 : regNat (fun q : Nat => q == 1) [0, 1] = 2 := by decide
    have h2 : xorOut (fun q : Nat => q == 1) 2 [2, 3] [[false, true, false, true], [false, false, false, false]]
        = fun q => q == 1 := by
      funext q
      simp only [xorOut, upd, List.getD_cons_succ, List.getD_cons_zero]
      by_cases h3 : q = 3 <;> by_cases h2 : q = 2 <;> simp_all
    have h3 : revIdx 2 2 = 1 := by decide
    rw [h1, h2, h3]
    simp [rowSum, colR, ph_half_pi]

/-! The parity of three bits -/

/-- The truth table of the parity of three bits. -/
def par3 : List Bool := [false, true, true, false, true, false, false, true]

theorem par3_spec : ∀ p < 16, specOf 4 (colPhases 3 par3) p
    = if p = 7 ∨ p = 8 then -(Real.pi / 2) else if p = 15 then Real.pi / 2 else 0 := by
  intro p hp
  by_cases h0 : p = 0
  · subst h0; simp [specOf, Circ.spectrum, setA]
  · rw [spec_col (n := 3) (by decide) (by simpa using hp) h0]
    unfold wht sg
    simp only [show (2 : ℕ) ^ 3 = 8 from rfl, Finset.sum_range_succ, Finset.sum_range_zero]
    have h1 : 1 ≤ p := by omega
    clear h0
    interval_cases p <;>
      simp [parB, sgB, Nat.testBit, Nat.shiftRight_eq_div_pow, colR, par3] <;> ring

theorem par3_body : grayBody false 4 (fun i => (colPhases 3 par3).getD i 0)
    = [(pG (Real.pi / 2), [3]), (.ctrl (.pauli .x) [true], [2, 3]), (.ctrl (.pauli .x) [true], [1, 3]),
       (.ctrl (.pauli .x) [true], [0, 3]), (pG (-(Real.pi / 2)), [3]), (.ctrl (.pauli .x) [true], [2, 3]),
       (.ctrl (.pauli .x) [true], [1, 3]), (.ctrl (.pauli .x) [true], [0, 3]),
       (.ctrl (.pauli .x) [true], [0, 2]), (pG (Real.pi / 2), [2]), (.ctrl (.pauli .x) [true], [1, 2]),
       (.ctrl (.pauli .x) [true], [0, 2])] := by
  have hs : ∀ p < 16, Circ.spectrum 4 (fun i => (colPhases 3 par3).getD (revIdx 4 i) 0) p
    = if p = 7 ∨ p = 8 then -(Real.pi / 2) else if p = 15 then Real.pi / 2 else 0 := par3_spec
  unfold grayBody
  simp only
  generalize Circ.spectrum 4 (fun i => (colPhases 3 par3).getD (revIdx 4 i) 0) = s at hs
  have hpi : Real.pi ≠ 0 := Real.pi_ne_zero
  have hloc : locations 4 s = [15, 8, 7] := by
    unfold locations
    have : ((List.range (2 ^ 4)).filter fun i => decide (s i ≠ 0)) = [7, 8, 15] := by
      have e : ∀ i ∈ List.range (2 ^ 4), (decide (s i ≠ 0)) = decide (i = 7 ∨ i = 8 ∨ i = 15) := by
        intro i hi
        rw [hs i (by simpa using hi)]
        by_cases h : i = 7 ∨ i = 8
        · rcases h with rfl | rfl <;> simp [hpi]
        · by_cases h' : i = 15
          · subst h'; simp [hpi]
          · simp [h, h']
      rw [List.filter_congr e]
      decide
    rw [this]
    rfl
  rw [hloc]
  have ht : travSteps 4 [15, 8, 7] = [(3, 3, 8), (2, 3, 12), (1, 3, 14), (0, 3, 15), (2, 3, 11), (1, 3, 9),
      (0, 3, 8), (2, 2, 4), (0, 2, 7), (1, 2, 5), (0, 2, 4)] := by decide
  rw [ht]
  have s4 : s 4 = 0 := by rw [hs 4 (by omega)]; simp
  have s5 : s 5 = 0 := by rw [hs 5 (by omega)]; simp
  have s9 : s 9 = 0 := by rw [hs 9 (by omega)]; simp
  have s11 : s 11 = 0 := by rw [hs 11 (by omega)]; simp
  have s12 : s 12 = 0 := by rw [hs 12 (by omega)]; simp
  have s14 : s 14 = 0 := by rw [hs 14 (by omega)]; simp
  have s7 : s 7 = -(Real.pi / 2) := by rw [hs 7 (by omega)]; simp
  have s8 : s 8 = -(Real.pi / 2) := by rw [hs 8 (by omega)]; simp
  have s15 : s 15 = Real.pi / 2 := by rw [hs 15 (by omega)]; simp
  simp [emit, setA, s4, s5, s7, s8, s9, s11, s12, s14, s15, hpi]

/-- The parity of three bits as truth table: the circuit for the input `2` also flips an input qubit,
so the result is not the requested state, for any phase. -/
theorem C124_gray_parity_wrong (pt : Bool) : ∃ b : Fin 4 → Bool, ∀ b' a,
    Loaded [0, 1, 2] [3] [par3] b b' →
    denBody (grayLogic pt 3 [par3]) [0, 1, 2, 3] (ket b) ≠ fun c => a * ket b' c := by
  refine ⟨![false, true, false, false], fun b' a hL h => ?_⟩
  have h2 : b' 2 = false := hL.1 2 (by decide)
  have hc := congrFun h ![false, true, true, true]
  have hne : ket b' ![false, true, true, true] = 0 := by
    unfold ket
    rw [if_neg]
    intro e
    have := congrFun e 2
    rw [h2] at this
    cases this
  rw [hne, mul_zero] at hc
  have hk : ket (![false, true, false, false] : Fin 4 → Bool)
      = fun z => if (!z 0 && z 1 && !z 2 && !z 3) = true then 1 else 0 := by
    funext z
    unfold ket
    have : z = ![false, true, false, false] ↔ (!z 0 && z 1 && !z 2 && !z 3) = true := by
      revert z; decide
    by_cases hz : z = ![false, true, false, false]
    · rw [if_pos hz, if_pos (this.1 hz)]
    · rw [if_neg hz, if_neg fun h => hz (this.2 h)]
  have hl : Nat.log2 (colPhases 3 par3).length = 4 := by rw [colPhases_length]; decide
  have hA : ∀ k < 4, ([0, 1, 2, 3] : List (Fin 4))[k]? = some (if k = 0 then 0 else if k = 1 then 1 else if k = 2 then 2 else 3) := by
    decide
  have hh : ∀ φ : Amp (Fin 4), den hG [3] φ = app1 Circ.hm 3 φ := by
    intro φ; simp only [hG, den, on1, u3m_h]
  have hp : pick ([0, 1, 2, 3] : List (Fin 4)) (List.range 3 ++ [3]) = [0, 1, 2, 3] := by decide
  have hp3 : pick ([0, 1, 2, 3] : List (Fin 4)) [3] = [3] := by decide
  unfold grayLogic logicSingle at hc
  simp only [denBody, hp, hp3, hh] at hc
  unfold graySynth at hc
  rw [hl] at hc
  simp only [den] at hc
  rw [par3_body, hk] at hc
  simp only [denBody] at hc
  rw [denp hA (by omega), denc hA (by omega) (by omega), denc hA (by omega) (by omega), denc hA (by omega) (by omega),
    denp hA (by omega), denc hA (by omega) (by omega), denc hA (by omega) (by omega), denc hA (by omega) (by omega),
    denc hA (by omega) (by omega), denp hA (by omega), denc hA (by omega) (by omega),
    denc hA (by omega) (by omega)] at hc
  simp [app1, mux, upd, bv, Circ.hm, mk] at hc
  rw [ph_zero, ph_neg_half_pi, ph_half_pi] at hc
  have e : r2 * (1 * (-Complex.I * (1 * r2))) + -(r2 * (1 * (1 * (Complex.I * r2)))) = -Complex.I := by
    linear_combination (-2 * Complex.I) * r2_sq
  rw [e, neg_eq_zero] at hc
  exact Complex.I_ne_zero hc

/-! ### Quantum dictionaries -/

theorem regNat_append (b : Q → Bool) (A B : List Q) :
    regNat b (A ++ B) = regNat b A + 2 ^ A.length * regNat b B := by
  induction A with
  | nil => simp [regNat]
  | cons q A ih => simp only [List.cons_append, regNat, ih, List.length_cons, Nat.pow_succ]; ring

theorem regs_pack (b : Q → Bool) : ∀ (keys : List QVar) (Ks : List (List Q)),
    Ks.map List.length = keys.map QVar.size →
    Valid keys (Ks.map (regNat b)) ∧ regNat b Ks.flatten = packRow keys (Ks.map (regNat b))
  | [], [], _ => ⟨trivial, rfl⟩
  | [], _ :: _, h => by simp at h
  | _ :: _, [], h => by simp at h
  | k :: keys, K :: Ks, h => by
    simp only [List.map_cons, List.cons.injEq] at h
    obtain ⟨h1, h2⟩ := regs_pack b keys Ks h.2
    refine ⟨⟨?_, h1⟩, ?_⟩
    · rw [← h.1]; exact regNat_lt b K
    · simp only [List.flatten_cons, List.map_cons, packRow]
      rw [regNat_append, h2, h.1]

theorem rowVal_bits (N : Nat) (x : Nat) (hx : x < N) : ∀ (m : Nat) (t : Nat → Nat), t x < 2 ^ m →
    rowVal ((List.range m).map fun j => (List.range N).map fun x => (t x).testBit j) x = t x
  | 0, t, h => by simp [rowVal] at h ⊢; omega
  | m + 1, t, h => by
    rw [List.range_succ_eq_map, List.map_cons, List.map_map]
    simp only [rowVal]
    have h1 : ((List.range m).map ((fun j => (List.range N).map fun x => (t x).testBit j) ∘ Nat.succ))
        = (List.range m).map fun j => (List.range N).map fun x => (t x / 2).testBit j := by
      apply List.map_congr_left
      intro j _
      simp [Nat.testBit_succ]
    rw [h1, rowVal_bits N x hx m (fun x => t x / 2) (by rw [Nat.pow_succ] at h; omega)]
    have h2 : ((List.range N).map fun x => (t x).testBit 0).getD x false = (t x).testBit 0 := by
      simp [List.getD_eq_getElem?_getD, hx]
    rw [h2, Nat.testBit_zero]
    rcases Nat.mod_two_eq_zero_or_one (t x) with h | h <;> simp [h] <;> omega

/-- The truth table built by `load` holds the dictionary: a register computed with it from the key
registers `Ks` contains the encoded value of the key's label, zero if the label is no key. -/
theorem C124_dict_table {d : PyVal → Option PyVal} {keys : List QVar} {ret : Option QVar} {base : Nat}
    {val : QVar} {cols : List (List Bool)} (hk : KeyOK keys) (hn : NoTupleLabel keys)
    (h : load d keys ret base = some (val, cols)) {Ks : List (List Q)} {V : List Q}
    (hK : Ks.map List.length = keys.map QVar.size) {b b' : Q → Bool} (h0 : regNat b V = 0)
    (hL : Loaded Ks.flatten V cols b b') :
    match d (keyLabel keys (Ks.map (regNat b))) with
    | some v => val.enc v = some (regNat b' V)
    | none => regNat b' V = 0 := by
  simp only [load, Option.bind_eq_bind] at h
  obtain ⟨val', _, h⟩ := Option.bind_eq_some_iff.1 h
  obtain ⟨t, ht, h⟩ := Option.bind_eq_some_iff.1 h
  simp only [Option.some.injEq, Prod.mk.injEq] at h
  obtain ⟨rfl, rfl⟩ := h
  obtain ⟨hv, hp⟩ := regs_pack b keys Ks hK
  have hlt := packRow_lt keys _ hv
  have e := hL.2
  rw [h0, Nat.zero_xor, hp] at e
  have hs := table_spec hk hn ht _ hv
  cases hd : d (keyLabel keys (Ks.map (regNat b))) with
  | none =>
    rw [hd] at hs
    simp only at hs ⊢
    rw [e, columns, rowVal_bits _ _ hlt _ _ (by rw [hs]; exact Nat.two_pow_pos _), hs]
  | some v =>
    rw [hd] at hs
    simp only at hs ⊢
    rw [e, columns, rowVal_bits _ _ hlt _ _ hs.2]
    exact hs.1

/-- `qd[key]` with `method = "pprm"` (or `"pprm_pt"`) and without `return_type`: from the key registers
in the basis state `b` and a fresh value register, the value register decodes to the value of the key's
label; without entry it holds zero. Nothing else changes and no phase appears. The load succeeds as soon
as one label of the keys is in the dictionary. -/
theorem C124_dict (d : PyVal → Option PyVal) (keys : List QVar) (base : Nat) (hk : KeyOK keys)
    (hn : NoTupleLabel keys) (hne : ∃ xs, Valid keys xs ∧ (d (keyLabel keys xs)).isSome) (pt : Bool)
    (ord : List Bool → List Nat)
    (ho : ∀ col, (ord col).Perm
      (reduced (keys.map QVar.size).sum (tablePoly (keys.map QVar.size).sum col))) :
    ∃ val cols, load d keys none base = some (val, cols) ∧
    ∀ (Ks : List (List Q)) (V : List Q), (Ks.flatten ++ V).Nodup → Ks.map List.length = keys.map QVar.size →
    V.length = val.size → ∀ b : Q → Bool, regNat b V = 0 → ∃ b',
      denBody (pprm pt Ks.flatten.length ord cols) (Ks.flatten ++ V) (ket b) = ket b' ∧
      (∀ q, q ∉ V → b' q = b q) ∧
      match d (keyLabel keys (Ks.map (regNat b))) with
      | some v => val.dec (regNat b' V) = v
      | none => regNat b' V = 0 := by
  obtain ⟨xs, hv, hsome⟩ := hne
  obtain ⟨v0, hv0⟩ := Option.isSome_iff_exists.1 hsome
  have hmem : (keyLabel keys xs, v0) ∈ relevant d keys := (mem_relevant d keys _ _).2 ⟨⟨xs, hv, rfl⟩, hv0⟩
  obtain ⟨val, hval⟩ : ∃ val, customQv ((relevant d keys).map Prod.snd) base = some val := by
    unfold customQv
    rw [if_neg]
    · exact ⟨_, rfl⟩
    · intro e
      rw [List.map_eq_nil_iff] at e
      rw [e] at hmem
      simp at hmem
  have henc : ∀ c v, (c, v) ∈ relevant d keys → ∃ e, val.enc v = some e ∧ e < 2 ^ val.size ∧ val.dec e = v :=
    fun c v hm => customQv_enc hval (List.mem_map.2 ⟨(c, v), hm, rfl⟩)
  obtain ⟨t, ht⟩ := fillTable_some keys val (relevant d keys) (fun _ => 0) (by
    rintro ⟨c, v⟩ hm
    obtain ⟨⟨ys, hy, rfl⟩, _⟩ := (mem_relevant d keys c v).1 hm
    obtain ⟨e, h1, h2, _⟩ := henc _ v hm
    exact ⟨⟨_, rowOf_label keys ys hk hn hy⟩, e, h1, h2⟩)
  have hload : load d keys none base = some (val, columns (keys.map QVar.size).sum val.size t) := by
    simp only [load, valueVar, hval, Option.bind_eq_bind, Option.bind_some, ht]
  refine ⟨_, _, hload, ?_⟩
  intro Ks V hnd hK hV b h0
  have hlen : Ks.flatten.length = (keys.map QVar.size).sum := by rw [List.length_flatten, hK]
  obtain ⟨b', hL, hden⟩ := C124_pprm pt Ks.flatten V hnd (columns (keys.map QVar.size).sum val.size t)
    (by simp [columns, hV]) ord (fun col _ => by rw [hlen]; exact ho col) b
  refine ⟨b', hden, hL.1, ?_⟩
  have key := C124_dict_table hk hn hload hK h0 hL
  cases hd : d (keyLabel keys (Ks.map (regNat b))) with
  | none => rw [hd] at key; exact key
  | some v =>
    rw [hd] at key
    simp only at key ⊢
    obtain ⟨e, h1, _, h3⟩ := henc _ v ((mem_relevant d keys _ v).2 ⟨⟨_, (regs_pack b keys Ks hK).1, rfl⟩, hd⟩)
    rw [key] at h1
    rw [Option.some.inj h1]
    exact h3

/-- A key variable with a tuple among its labels: the encoder is asked for the first entry of the tuple,
which is not a label, and the load raises. -/
theorem C124_dict_tuple_label :
    let pair := fun n => PyVal.tup [.atom n, .atom 7]
    let key : QVar := ⟨1, fun i => if i = 0 then pair 0 else pair 1, searchEnc 1 fun i => if i = 0 then pair 0 else pair 1⟩
    KeyOK [key] ∧ ∀ d ret base, d (keyLabel [key] [0]) = some (.atom 5) → load d [key] ret base = none := by
  intro pair key
  refine ⟨?_, ?_⟩
  · intro k hk i hi
    obtain rfl := List.mem_singleton.1 hk
    have : i = 0 ∨ i = 1 := by change i < 2 at hi; omega
    rcases this with rfl | rfl <;> rfl
  · intro d ret base hd
    have hrow : rowOf (pair 0) [key] 0 = none := by decide +kernel
    have hrel : ∃ r, relevant d [key] = (pair 0, .atom 5) :: r := by
      have hd : d (pair 0) = some (.atom 5) := hd
      have hc : constellations [key] = [pair 0, pair 1] := by decide +kernel
      unfold relevant
      rw [hc, List.filterMap_cons, hd]
      exact ⟨_, rfl⟩
    obtain ⟨r, hr⟩ := hrel
    have : ∀ val, fillTable [key] val (relevant d [key]) (fun _ => 0) = none := by
      intro val
      rw [hr]
      simp only [fillTable, hrow, Option.bind_eq_bind, Option.bind_none]
    simp only [load, this, Option.bind_eq_bind, Option.bind_none]
    cases valueVar d [key] ret base <;> rfl

/-- The dictionary `{0: 7, 1: 9, 3: 7}` (values as labels) and a key of two qubits: the value register has
two qubits and the table is `0, 1, -, 0`. -/
example :
    let key : QVar := ⟨2, .atom, searchEnc 2 .atom⟩
    let d : PyVal → Option PyVal := fun k =>
      if k = .atom 0 then some (.atom 7) else if k = .atom 1 then some (.atom 9)
      else if k = .atom 3 then some (.atom 7) else none
    (load d [key] none 100).map Prod.snd
      = some [[false, true, false, false], [false, false, false, false]] := by
  decide +kernel

/-- Two keys: `{(0, 1): 7, (1, 1): 9}`; the first key is the least significant bit of the row. -/
example :
    let key : QVar := ⟨1, .atom, searchEnc 1 .atom⟩
    let d : PyVal → Option PyVal := fun k =>
      if k = .tup [.atom 0, .atom 1] then some (.atom 7) else if k = .tup [.atom 1, .atom 1] then some (.atom 9) else none
    (load d [key, key] none 100).map Prod.snd = some [[false, false, false, true]] := by
  decide +kernel

/-- The conditions of `C124_dict` hold for the dictionary `{0: 7, 1: 9, 3: 7}`. -/
example : KeyOK [⟨2, .atom, searchEnc 2 .atom⟩] ∧ NoTupleLabel [⟨2, .atom, searchEnc 2 .atom⟩] := by
  refine ⟨?_, ?_⟩
  · intro k hk i hi
    obtain rfl := List.mem_singleton.1 hk
    exact searchEnc_dec (fun i _ j _ h => PyVal.atom.inj h) hi
  · intro k hk i _
    obtain rfl := (List.cons.inj hk).1
    exact ⟨i, rfl⟩

/-- The table of the AND of two bits has the single monomial `x₀ x₁`, the one of the XOR two. -/
example : reduced 2 (tablePoly 2 [false, false, false, true]) = [3] ∧
    reduced 2 (tablePoly 2 [false, true, true, false]) = [1, 2] := by decide +kernel

/-! ### Encoders that do not fit -/

theorem rowOf_fits {c : PyVal} : ∀ (ks : List QVar) (i r : Nat), Types.rowOf c ks i = some r →
    ∀ j k, ks[j]? = some k → ∃ p e, part c (i + j) = some p ∧ k.enc p = some e ∧ e < 2 ^ k.size := by
  intro ks
  induction ks with
  | nil => intro i r _ j k h; simp at h
  | cons k0 ks ih =>
    intro i r h j k hk
    simp only [Types.rowOf, Option.bind_eq_bind, Option.bind_eq_some_iff] at h
    obtain ⟨p, hp, e, he, h⟩ := h
    split_ifs at h with hlt
    obtain ⟨r', hr', _⟩ := Option.bind_eq_some_iff.1 h
    cases j with
    | zero =>
      simp only [List.getElem?_cons_zero, Option.some.injEq] at hk
      subst hk
      exact ⟨p, e, hp, he, hlt⟩
    | succ j =>
      have := ih (i + 1) r' hr' j k (by simpa using hk)
      rwa [show i + 1 + j = i + (j + 1) by omega] at this

theorem fillTable_fits {keys : List QVar} {val : QVar} : ∀ (l : List (PyVal × PyVal)) (t t' : Nat → Nat),
    fillTable keys val l t = some t' → ∀ c v, (c, v) ∈ l →
    (∀ j k, keys[j]? = some k → ∃ p e, part c j = some p ∧ k.enc p = some e ∧ e < 2 ^ k.size) ∧
    ∃ e, val.enc v = some e ∧ e < 2 ^ val.size := by
  intro l
  induction l with
  | nil => intro t t' _ c v h; simp at h
  | cons x l ih =>
    intro t t' h c v hm
    obtain ⟨c0, v0⟩ := x
    simp only [fillTable, Option.bind_eq_bind, Option.bind_eq_some_iff] at h
    obtain ⟨row, hrow, e, he, h⟩ := h
    split_ifs at h with hlt
    rcases List.mem_cons.1 hm with hm | hm
    · injection hm with h1 h2
      subst h1 h2
      exact ⟨fun j k hk => by simpa using rowOf_fits keys 0 row hrow j k hk, e, he, hlt⟩
    · exact ih _ _ h c v hm

/-- A dictionary is loaded only if the encoders give numbers that fit the variables. -/
theorem C124_dict_fits {d : PyVal → Option PyVal} {keys : List QVar} {ret : Option QVar} {base : Nat}
    {r : QVar × List (List Bool)} (h : load d keys ret base = some r) {c v : PyVal} (hm : (c, v) ∈ relevant d keys) :
    (∀ j k, keys[j]? = some k → ∃ p e, part c j = some p ∧ k.enc p = some e ∧ e < 2 ^ k.size) ∧
    ∃ e, r.1.enc v = some e ∧ e < 2 ^ r.1.size := by
  unfold load at h
  simp only [Option.bind_eq_bind, Option.bind_eq_some_iff, Option.some.injEq] at h
  obtain ⟨val, _, t, ht, rfl⟩ := h
  exact fillTable_fits _ _ _ ht c v hm

/-- Case: a key whose encoder does not fit its decoder raises. -/
example : load (fun c => if c = .atom 0 then some (.atom 1) else none) [⟨1, .atom, fun _ => some 5⟩] none 9 = none := by
  decide +kernel

end Verif.Props
