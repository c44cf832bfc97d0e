import Verif.Blk.FromOp
import Verif.Props.Constructors
import Verif.Props.Oper

/-!
# Property C116: block encodings of operators and matrices

`BlockEncoding.from_operator(O)` and `from_array(A)` encode the Hermitian part, up to the terms dropped because of the threshold 1e-9.
-/

namespace Verif.Props

open Matrix Verif.Blk Verif.Oper

variable {n : ℕ}

/-- The result of `from_lcu` for the unitaries of an operator. -/
theorem from_pauli {prep : Prep} (hp : PrepOK prep) {d : QOp ℂ} (hd : ∀ p ∈ d, PT n p.1) :
    (∀ C, fromLcu prep (opCoeffs d) (opUnitaries n d) true = some C →
      C.Valid ∧ C.enc = (1 / 2 : ℂ) • (omat id n d + (omat id n d)ᴴ) ∧ C.alpha = (d.map fun p => |p.2.re|).sum) ∧
    (fromLcu prep (opCoeffs d) (opUnitaries n d) true = none → (1 / 2 : ℂ) • (omat id n d + (omat id n d)ᴴ) = 0) := by
  have hsum := opSum hd
  have hok := opUnitaries_ok hd
  have hl : (opUnitaries n d).length = (opCoeffs d).length := by simp [opUnitaries, opCoeffs]
  have hnn : nonNeg (opCoeffs d) := by
    intro c hc
    obtain ⟨p, _, rfl⟩ := List.mem_map.1 hc
    exact ⟨by simp; norm_num, by simp⟩
  have him : ∀ c ∈ opCoeffs d, c.im = 0 := by
    intro c hc
    obtain ⟨p, _, rfl⟩ := List.mem_map.1 hc
    simp
  have hal : ((opCoeffs d).map fun c => ‖c‖).sum = (d.map fun p => |p.2.re|).sum := by
    rw [opCoeffs, List.map_map]; congr 2; funext p; simp
  by_cases hne : ∃ c ∈ opCoeffs d, c ≠ 0
  · rcases Nat.lt_or_ge (opCoeffs d).length 2 with hlt | h2
    · -- one term
      match d, hlt, hne, hd, hsum, hok, hal with
      | [], _, hne, _, _, _, _ => simp [opCoeffs] at hne
      | [p], _, _, hd, hsum, hok, hal =>
        have e1 : opCoeffs [p] = [((|p.2.re| : ℝ) : ℂ)] := rfl
        obtain ⟨U, hU⟩ : ∃ U, opUnitaries n [p] = [U] := ⟨_, rfl⟩
        rw [e1, hU] at hsum ⊢
        rw [hU] at hok
        obtain ⟨C, h1, h2, h3, _⟩ := from_lcu_single prep (c := ((|p.2.re| : ℝ) : ℂ)) (hok U (by simp)).1 (by simp) true
        refine ⟨fun C' hC' => ?_, fun h => by rw [h1] at h; simp at h⟩
        rw [h1] at hC'
        obtain rfl := Option.some.inj hC'
        refine ⟨h3 (by simp) fun _ => (hok U (by simp)).2, ?_, ?_⟩
        · rw [h2, ← hsum]; simp
        · unfold fromLcu at h1
          simp only at h1
          rw [if_pos (by simp), if_pos (by simp only [List.getD_cons_zero, Complex.ofReal_im, abs_zero]; norm_num)] at h1
          rw [← Option.some.inj h1]
          simp
      | p :: q :: d, hlt, _, _, _, _, _ => simp [opCoeffs] at hlt
    · obtain ⟨C, h1, h3, h4, _, h5⟩ := from_lcu_encodes hp hl h2 (fun U hU => (hok U hU).1) hne (fun _ => him) true
      refine ⟨fun C' hC' => ?_, fun h => by rw [h1] at h; simp at h⟩
      rw [h1] at hC'
      obtain rfl := Option.some.inj hC'
      exact ⟨h5 (Or.inr ⟨fun U hU => (hok U hU).2, hnn⟩), by rw [h3, hsum], by rw [h4, hal]⟩
  · have h0 : ∀ c ∈ opCoeffs d, c = 0 := by
      intro c hc; by_contra h; exact hne ⟨c, hc, h⟩
    have hz : (List.zipWith (fun c U => c • U) (opCoeffs d) (opUnitaries n d)).sum = 0 := by
      refine List.sum_eq_zero ?_
      intro M hM
      rw [List.mem_iff_getElem] at hM
      obtain ⟨i, hi, rfl⟩ := hM
      rw [List.getElem_zipWith, h0 _ (List.getElem_mem _), zero_smul]
    refine ⟨fun C hC => ?_, fun _ => by rw [← hsum, hz]⟩
    have hz2 : ((opCoeffs d).map fun c => ‖c‖).sum = 0 := by
      refine List.sum_eq_zero ?_
      intro x hx
      obtain ⟨c, hc, rfl⟩ := List.mem_map.1 hx
      rw [h0 c hc, norm_zero]
    -- only a single term is encoded
    match d, hC, hd, hsum, hok, hal, hz, hz2, h0 with
    | [], hC, _, _, _, _, _, _, _ =>
      unfold fromLcu at hC
      simp [opCoeffs] at hC
    | [p], hC, hd, hsum, hok, hal, hz, hz2, h0 =>
      have e1 : opCoeffs [p] = [((|p.2.re| : ℝ) : ℂ)] := rfl
      obtain ⟨U, hU⟩ : ∃ U, opUnitaries n [p] = [U] := ⟨_, rfl⟩
      rw [e1, hU] at hsum hC
      rw [hU] at hok
      obtain ⟨C', h1, h2, h3, _⟩ := from_lcu_single prep (c := ((|p.2.re| : ℝ) : ℂ)) (hok U (by simp)).1 (by simp) true
      have hCC := hC
      rw [h1] at hC
      obtain rfl := Option.some.inj hC
      refine ⟨h3 (by simp) fun _ => (hok U (by simp)).2, ?_, ?_⟩
      · rw [h2, ← hsum]; simp
      · unfold fromLcu at hCC
        simp only at hCC
        rw [if_pos (by simp), if_pos (by simp only [List.getD_cons_zero, Complex.ofReal_im, abs_zero]; norm_num)] at hCC
        rw [← Option.some.inj hCC]
        simp
    | p :: q :: d, hC, _, _, _, _, _, hz2, _ =>
      unfold fromLcu at hC
      simp only at hC
      rw [if_neg (by simp [opCoeffs]), if_pos hz2] at hC
      simp at hC

/-- **C116** `from_operator`: for an operator on n qubits with T terms and coefficients of absolute sum S, each entry of the encoded matrix differs
from the Hermitian part by at most (2^(n+1) (S + 2T) + 5T) eps if the threshold test drops only coefficients of absolute value at most eps. If no
block encoding is built (no terms are left, or all coefficients are 0), the Hermitian part is that small. -/
theorem from_operator_encodes {prep : Prep} (hp : PrepOK prep) {small : ℂ → Bool} {ε : ℝ} (hε : 0 ≤ ε) (hs : ∀ v, small v = true → ‖v‖ ≤ ε)
    {ord : Term → Term → List Nat} (ho : OrdOK ord) {O : QOp ℂ} (hw : DWF O) (hI : ∀ p ∈ O, NoI p.1) (hb : Below n O) :
    (∀ C, fromOperator n prep small ord O = some C → C.Valid ∧
      Near ((2 ^ (n + 1) * ((O.map fun p => ‖p.2‖).sum + 2 * O.length) + 5 * O.length) * ε) C.enc ((1 / 2 : ℂ) • (omat id n O + (omat id n O)ᴴ))) ∧
    (fromOperator n prep small ord O = none →
      Near ((2 ^ (n + 1) * ((O.map fun p => ‖p.2‖).sum + 2 * O.length) + 5 * O.length) * ε) 0 ((1 / 2 : ℂ) • (omat id n O + (omat id n O)ᴴ))) := by
  obtain ⟨h1, h2⟩ := pauli_herm_near hε hs ho hw hI hb
  obtain ⟨h3, h4⟩ := from_pauli hp h1
  have hH : ((1 / 2 : ℂ) • (omat id n O + (omat id n O)ᴴ))ᴴ = (1 / 2 : ℂ) • (omat id n O + (omat id n O)ᴴ) := by
    rw [conjTranspose_smul, conjTranspose_add, conjTranspose_conjTranspose, add_comm]
    congr 1; norm_num
  have h5 := Near.herm h2 hH
  refine ⟨fun C hC => ?_, fun hC => ?_⟩
  · obtain ⟨g1, g2, _⟩ := h3 C hC
    exact ⟨g1, by rw [g2]; exact h5⟩
  · rw [← h4 hC]; exact h5

/-- **C116** `from_array` for a 2^w x 2^w matrix: row and column numbers are the numbers of the operand states. -/
theorem from_array_encodes {prep : Prep} (hp : PrepOK prep) {small : ℂ → Bool} {ε : ℝ} (hε : 0 ≤ ε) (hs : ∀ v, small v = true → ‖v‖ ≤ ε)
    {ord : Term → Term → List Nat} (ho : OrdOK ord) (w : ℕ) (A : ℕ → ℕ → ℂ) :
    ∃ E : ℝ, E = (2 ^ (w + 1) * ((((entries w A).map fun p => ‖A p.1 p.2‖).sum) + 2 * (entries w A).length) + 5 * (entries w A).length) * ε ∧
    (∀ C, fromArray prep small ord w A = some C → C.Valid ∧
      ∀ b c, ‖C.enc b c - (A (Nat.ofBits b) (Nat.ofBits c) + star (A (Nat.ofBits c) (Nat.ofBits b))) / 2‖ ≤ E) ∧
    (fromArray prep small ord w A = none → ∀ b c : Fin w → Bool, ‖(A (Nat.ofBits b) (Nat.ofBits c) + star (A (Nat.ofBits c) (Nat.ofBits b))) / 2‖ ≤ E) := by
  obtain ⟨h1, h2⟩ := fromMatrix_noI w A
  obtain ⟨h3, h4⟩ := from_operator_encodes hp hε hs ho (fromMatrix_dwf w A) h1 h2
  have hl : (fromMatrix w A).length = (entries w A).length := by rw [fromMatrix_eq, List.length_map]
  have hl1 : ((fromMatrix w A).map fun p => ‖p.2‖).sum = ((entries w A).map fun p => ‖A p.1 p.2‖).sum := by
    rw [fromMatrix_eq, List.map_map]; rfl
  have hH : ∀ b c, ((1 / 2 : ℂ) • (omat id w (fromMatrix w A) + (omat id w (fromMatrix w A))ᴴ)) b c =
      (A (Nat.ofBits b) (Nat.ofBits c) + star (A (Nat.ofBits c) (Nat.ofBits b))) / 2 := by
    intro b c
    rw [Matrix.smul_apply, Matrix.add_apply, conjTranspose_apply, fromMatrix_omat, fromMatrix_omat, smul_eq_mul]
    ring
  rw [hl, hl1] at h3 h4
  refine ⟨_, rfl, fun C hC => ?_, fun hC b c => ?_⟩
  · obtain ⟨g1, g2⟩ := h3 C hC
    refine ⟨g1, fun b c => ?_⟩
    have := g2 b c
    rwa [hH] at this
  · have := h4 hC b c
    rwa [hH, Matrix.zero_apply, zero_sub, norm_neg] at this

/-- With an exact zero test the Hermitian part is encoded exactly. -/
theorem from_array_exact {prep : Prep} (hp : PrepOK prep) {small : ℂ → Bool} (hs : ∀ v, small v = true → v = 0)
    {ord : Term → Term → List Nat} (ho : OrdOK ord) (w : ℕ) (A : ℕ → ℕ → ℂ) (hne : ∃ i j, i < 2 ^ w ∧ j < 2 ^ w ∧ A i j + star (A j i) ≠ 0) :
    ∃ C, fromArray prep small ord w A = some C ∧ C.Valid ∧
      ∀ b c, C.enc b c = (A (Nat.ofBits b) (Nat.ofBits c) + star (A (Nat.ofBits c) (Nat.ofBits b))) / 2 := by
  obtain ⟨E, hE, h1, h2⟩ := from_array_encodes hp le_rfl (fun v hv => by rw [hs v hv, norm_zero]) ho w A
  rw [mul_zero] at hE
  subst hE
  rcases hC : fromArray prep small ord w A with _ | C
  · exfalso
    obtain ⟨i, j, hi, hj, hij⟩ := hne
    have hb : ∀ i, i < 2 ^ w → Nat.ofBits (fun k : Fin w => i.testBit k) = i := fun i hi => by
      refine Nat.eq_of_testBit_eq fun k => ?_
      by_cases hk : k < w
      · rw [Nat.testBit_ofBits_lt _ _ hk]
      · rw [Nat.testBit_ofBits_ge _ _ (not_lt.1 hk), Nat.testBit_lt_two_pow (hi.trans_le (Nat.pow_le_pow_right (by norm_num) (not_lt.1 hk)))]
    have := h2 hC (fun k => i.testBit k) (fun k => j.testBit k)
    rw [hb i hi, hb j hj, norm_le_zero_iff, div_eq_zero_iff] at this
    exact hij (this.resolve_right two_ne_zero)
  · obtain ⟨g1, g2⟩ := h1 C hC
    exact ⟨C, rfl, g1, fun b c => sub_eq_zero.1 (norm_le_zero_iff.1 (g2 b c))⟩

theorem addTo_small {small : ℂ → Bool} (b : QOp ℂ) (h : ∀ p ∈ b, small p.2 = true) : b.foldl (addTo small) [] = [] := by
  induction b with
  | nil => rfl
  | cons p b ih =>
    have h1 : addTo small [] p = [] := by
      simp [addTo, dget, dset, ddel, h p (by simp), keyEq_refl]
    rw [List.foldl_cons, h1]
    exact ih fun q hq => h q (List.mem_cons_of_mem _ hq)

/-- A matrix whose entries are all below 1e-9 is encoded as zero, with alpha = 0. -/
theorem from_array_small_witness (prep : Prep) (ord : Term → Term → List Nat) (w : ℕ) {A : ℕ → ℕ → ℂ} (hA : ∀ i j, ‖A i j‖ < 1e-9) :
    ∃ C, fromArray prep smallC ord w A = some C ∧ C.alpha = 0 ∧ C.enc = 0 := by
  have h1 : ∀ p ∈ fromMatrix w A, smallC p.2 = true := by
    rw [fromMatrix_eq]
    intro p hp
    obtain ⟨q, _, rfl⟩ := List.mem_map.1 hp
    simpa [smallC] using hA q.1 q.2
  have h2 : ∀ p ∈ adjQ star (fromMatrix w A), smallC p.2 = true := by
    rw [adjQ_eq (fromMatrix_dwf w A) (fromMatrix_noI w A).1]
    intro p hp
    obtain ⟨q, hq, rfl⟩ := List.mem_map.1 hp
    have := h1 q hq
    simpa [smallC] using this
  have h3 : toPauliQ smallC ord (hermitizeQ smallC ord (fromMatrix w A)) = [([], 0)] := by
    have e : hermitizeQ smallC ord (fromMatrix w A) = [] := by
      rw [hermitizeQ, addQ, addTo_small _ h1, addTo_small _ h2]
      rfl
    rw [e]
    rfl
  have h4 : fromArray prep smallC ord w A = fromLcu prep [0] [tmat w []] true := by
    rw [fromArray, fromOperator]
    simp only [h3]
    simp [opCoeffs, opUnitaries]
  obtain ⟨C, g1, g2, _⟩ := from_lcu_single prep (c := 0) (U := tmat w []) (by rw [tmat_nil]; exact IsU.one) (by simp) true
  refine ⟨C, by rw [h4, g1], ?_, by rw [g2, zero_smul]⟩
  unfold fromLcu at g1
  simp only at g1
  rw [if_pos (by simp), if_pos (by simp only [List.getD_cons_zero, Complex.zero_im, abs_zero]; norm_num)] at g1
  rw [← Option.some.inj g1]
  simp

/-- A Hermitian 2x2 matrix with entries 0, 5, 5, 2 is encoded exactly. -/
example {prep : Prep} (hp : PrepOK prep) {small : ℂ → Bool} (hs : ∀ v, small v = true → v = 0) {ord : Term → Term → List Nat} (ho : OrdOK ord) :
    ∃ C, fromArray prep small ord 1 (fun i j => if i = j then (if i = 1 then 2 else 0) else 5) = some C ∧
      C.enc (fun _ => false) (fun _ => true) = 5 ∧ C.enc (fun _ => true) (fun _ => true) = 2 := by
  obtain ⟨C, h1, _, h2⟩ := from_array_exact hp hs ho 1 (fun i j => if i = j then (if i = 1 then 2 else 0) else 5) ⟨0, 1, by norm_num, by norm_num, by norm_num⟩
  refine ⟨C, h1, ?_, ?_⟩
  · rw [h2]; simp [Nat.ofBits, Fin.foldr_succ]
  · rw [h2]; simp [Nat.ofBits, Fin.foldr_succ]

end Verif.Props
