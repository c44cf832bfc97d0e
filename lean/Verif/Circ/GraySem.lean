import Verif.Circ.GrayWalk
import Verif.Circ.CtrlDef

/-!
The circuits of `gray_synthesis.py` implement the requested phases.
-/

namespace Verif.Circ

open Verif.Rev (upd)

/-! ### Phases from the spectrum -/

/-- Value of a bit. -/
def bv : Bool → ℝ
  | true => 1
  | false => 0

theorem bv_sg (b : Bool) : bv b = (1 - sgB b) / 2 := by cases b <;> simp [bv, sgB]

theorem spectrum_ne {n : Nat} (t : Nat → ℝ) {p : Nat} (hp : p < 2 ^ n) (h0 : p ≠ 0) :
    spectrum n t p = wht n t p * (2 / 2 ^ n) := by
  unfold spectrum setA
  rw [if_neg h0, fwht_spec n _ p hp]
  have : (fun i => t i / ((2 : ℝ) ^ n / 2)) = fun i => (2 / 2 ^ n) * t i := by
    funext i
    have : (2 : ℝ) ^ n ≠ 0 := by positivity
    field_simp
  rw [this, wht_smul, mul_comm]

theorem parB_zero_fun (n p : Nat) : parB n p (fun _ => false) = false := by
  induction n with
  | zero => rfl
  | succ n ih => simp [parB, ih]

/-- Adding up the phases of the parity operators gives the requested phases relative to index 0. -/
theorem phase_sum (n : Nat) (t : Nat → ℝ) (x : Nat) (hx : x < 2 ^ n) :
    ∑ p ∈ Finset.range (2 ^ n), -(spectrum n t p) * bv (parB n p x.testBit) = t x - t 0 := by
  have hN : (2 : ℝ) ^ n ≠ 0 := by positivity
  have h1 : ∀ p ∈ Finset.range (2 ^ n), -(spectrum n t p) * bv (parB n p x.testBit)
      = (1 / 2 ^ n) * (sg n x p * wht n t p) - (1 / 2 ^ n) * (sg n 0 p * wht n t p) := by
    intro p hp
    have e0 : sg n 0 p = 1 := by unfold sg; rw [parB_zero]; rfl
    have ex : sg n x p = sgB (parB n p x.testBit) := by
      unfold sg; congr 1; exact parB_congr fun k _ => Bool.and_comm _ _
    by_cases hp0 : p = 0
    · subst hp0
      have : spectrum n t 0 = 0 := by simp [spectrum, setA]
      rw [this, e0, ex, parB_zero]
      simp [sgB]
    · rw [spectrum_ne t (Finset.mem_range.1 hp) hp0, e0, ex, bv_sg]
      field_simp
      ring
  rw [Finset.sum_congr rfl h1, Finset.sum_sub_distrib, ← Finset.mul_sum, ← Finset.mul_sum]
  have w1 := wht_wht n t x hx
  have w0 := wht_wht n t 0 (Nat.two_pow_pos n)
  unfold wht at w1 w0
  unfold wht
  rw [w1, w0]
  field_simp

/-! ### Steps -/

/-- The offset after a step. -/
def nextW (w c o : Nat) : Nat := if c = o then w else w ^^^ 2 ^ c

/-- The offset after all steps. -/
def endW (w : Nat) : List (Nat × Nat × Nat) → Nat
  | [] => w
  | (c, o, _) :: r => endW (nextW w c o) r

/-- Steps on operation bit `o` starting with offset `w`: the operation qubit carries the parity
`2 ^ o + w`, and every phase is applied to the right parity. -/
def OKsteps (n o : Nat) (s0 : Nat → ℝ) (w : Nat) : List (Nat × Nat × Nat) → Prop
  | [] => True
  | (c, o', p) :: r => o' = o ∧ c ≤ o ∧ p < 2 ^ n ∧ nextW w c o < 2 ^ o ∧
      (p = 2 ^ o + nextW w c o ∨ s0 p = 0) ∧ OKsteps n o s0 (nextW w c o) r

/-- The remaining phase shifts after the steps. -/
def resid (s : Nat → ℝ) : List (Nat × Nat × Nat) → Nat → ℝ
  | [] => s
  | (_, _, p) :: r => resid (setA s p 0) r

theorem setA_zero {s : Nat → ℝ} {p : Nat} (h : s p = 0) : setA s p 0 = s := by
  funext m
  unfold setA
  split
  · next e => rw [e, h]
  · rfl

theorem resid_append (s : Nat → ℝ) (a b : List (Nat × Nat × Nat)) :
    resid s (a ++ b) = resid (resid s a) b := by
  induction a generalizing s with
  | nil => rfl
  | cons x a ih => obtain ⟨c, o, p⟩ := x; exact ih _

theorem resid_eq (l : List (Nat × Nat × Nat)) (s : Nat → ℝ) (p : Nat) :
    (resid s l p = 0 ∧ p ∈ l.map (fun x => x.2.2)) ∨
      (resid s l p = s p ∧ p ∉ l.map (fun x => x.2.2)) := by
  induction l generalizing s with
  | nil => right; simp [resid]
  | cons x l ih =>
    obtain ⟨c, o, q⟩ := x
    simp only [resid, List.map_cons, List.mem_cons]
    rcases ih (setA s q 0) with ⟨h1, h2⟩ | ⟨h1, h2⟩
    · exact Or.inl ⟨h1, Or.inr h2⟩
    · by_cases hpq : p = q
      · left; rw [h1]; simp [setA, hpq]
      · right; rw [h1]; simp [setA, hpq, h2]

section
variable {Q : Type} [DecidableEq Q] {n : Nat} {qs : List Q} {A : Nat → Q}

/-- The basis state with the parity removed from qubit `A o`. -/
def gW (A : Nat → Q) (o w : Nat) (b : Q → Bool) : Q → Bool :=
  upd b (A o) (b (A o) ^^ parB o w fun k => b (A k))

/-- The phase factor of removing the shifts `s - s'`. -/
noncomputable def Phi (n : Nat) (A : Nat → Q) (s s' : Nat → ℝ) (b : Q → Bool) : ℂ :=
  ph (∑ p ∈ Finset.range (2 ^ n), -(s p - s' p) * bv (parB n p fun k => b (A k)))

theorem Phi_self (s : Nat → ℝ) (b : Q → Bool) : Phi n A s s b = 1 := by
  unfold Phi; simp [ph_zero]

theorem Phi_trans (s s' s'' : Nat → ℝ) (b : Q → Bool) :
    Phi n A s' s'' b * Phi n A s s' b = Phi n A s s'' b := by
  unfold Phi
  rw [← ph_add, ← Finset.sum_add_distrib]
  congr 1
  exact Finset.sum_congr rfl fun p _ => by ring

theorem Phi_one (s : Nat → ℝ) {p : Nat} (hp : p < 2 ^ n) (b : Q → Bool) :
    Phi n A s (setA s p 0) b = ph (-(s p) * bv (parB n p fun k => b (A k))) := by
  unfold Phi
  congr 1
  rw [Finset.sum_eq_single p]
  · simp [setA]
  · intro q _ hq
    simp [setA, hq]
  · intro h
    exact absurd (Finset.mem_range.2 hp) h

theorem gW_zero (o : Nat) (b : Q → Bool) : gW A o 0 b = b := by
  unfold gW
  rw [parB_zero, Bool.xor_false, upd_self]

theorem denc (hA : ∀ k < n, qs[k]? = some (A k)) {c o : Nat} (hc : c < n) (ho : o < n) (ψ : Amp Q) :
    den (.ctrl (.pauli .x) [true]) (pick qs [c, o]) ψ
      = fun b => ψ (upd b (A o) (b (A o) ^^ b (A c))) := by
  have : pick qs [c, o] = [A c] ++ [A o] := by simp [pick, hA c hc, hA o ho]
  rw [this, den_cx [A c] (A o) [true] rfl]
  funext b
  simp only [ctlMatch, Bool.and_true]
  cases h : b (A c)
  · simp [upd_self]
  · simp

theorem denp (hA : ∀ k < n, qs[k]? = some (A k)) {o : Nat} (ho : o < n) (a : ℝ) (ψ : Amp Q) :
    den (pG a) (pick qs [o]) ψ = fun b => ph (a * bv (b (A o))) * ψ b := by
  rw [pick_one (hA o ho)]
  simp only [pG, den, on1, u3m_p]
  have := congrFun (diag_mux (A o) (fun b => ph (a * bv (b (A o)))) (fun _ => 1) (fun _ => ph a)
    fun b => by cases b (A o) <;> simp [bv, ph_zero]) ψ
  exact this.symm

theorem gW_cx (inj : ∀ i < n, ∀ j < n, A i = A j → i = j) {c o w : Nat} (hc : c < o) (ho : o < n)
    (b : Q → Bool) :
    gW A o w (upd b (A o) (b (A o) ^^ b (A c))) = gW A o (w ^^^ 2 ^ c) b := by
  unfold gW
  rw [upd_upd, upd_same, parB_flip hc]
  congr 1
  have : parB o w (fun k => upd b (A o) (b (A o) ^^ b (A c)) (A k)) = parB o w fun k => b (A k) := by
    refine parB_congr fun k hk => ?_
    have : A k ≠ A o := fun e => by have := inj k (by omega) o ho e; omega
    simp [upd, this]
  rw [this]
  cases b (A o) <;> cases b (A c) <;> cases parB o w fun k => b (A k) <;> rfl

/-- The operation qubit carries the parity `2 ^ o + w` of the original bits. -/
theorem gW_par (inj : ∀ i < n, ∀ j < n, A i = A j → i = j) {o w : Nat} (ho : o < n) (hw : w < 2 ^ o)
    (b : Q → Bool) : parB n (2 ^ o + w) (fun k => gW A o w b (A k)) = b (A o) := by
  rw [parB_top ho hw]
  have : parB o w (fun k => gW A o w b (A k)) = parB o w fun k => b (A k) := by
    refine parB_congr fun k hk => ?_
    have : A k ≠ A o := fun e => by have := inj k (by omega) o ho e; omega
    simp [gW, upd, this]
  rw [this]
  unfold gW
  rw [upd_same]
  cases b (A o) <;> cases parB o w fun k => b (A k) <;> rfl

theorem emit_group (hA : ∀ k < n, qs[k]? = some (A k)) (inj : ∀ i < n, ∀ j < n, A i = A j → i = j)
    (pt : Bool) {o : Nat} (ho : o < n) (hpt : pt = true → o = n - 1) (s0 : Nat → ℝ)
    (rest : List (Nat × Nat × Nat)) (l : List (Nat × Nat × Nat)) (s : Nat → ℝ)
    (hs : ∀ p, s0 p = 0 → s p = 0) (w : Nat) (hl : OKsteps n o s0 w l) (ψ : Amp Q) :
    denBody (emit pt n (l ++ rest) s) qs (fun b => ψ (gW A o w b))
      = denBody (emit pt n rest (resid s l)) qs
          (fun b => Phi n A s (resid s l) (gW A o (endW w l) b) * ψ (gW A o (endW w l) b)) := by
  induction l generalizing s w ψ with
  | nil =>
    simp only [List.nil_append, resid, endW, Phi_self, one_mul]
  | cons x l ih =>
    obtain ⟨c, o', p⟩ := x
    obtain ⟨rfl, hc, hp, hw, hpw, hl⟩ := hl
    have hno : ¬ (pt = true ∧ o' ≠ n - 1) := fun h => h.2 (hpt h.1)
    simp only [List.cons_append, emit, if_neg hno, denBody_append]
    -- the CNOT gate
    have hcx : denBody (if c ≠ o' then [(.ctrl (.pauli .x) [true], [c, o'])] else []) qs
        (fun b => ψ (gW A o' w b)) = fun b => ψ (gW A o' (nextW w c o') b) := by
      by_cases hco : c = o'
      · simp only [hco, ne_eq, not_true_eq_false, if_false, denBody, nextW, if_true]
      · simp only [ne_eq, hco, not_false_eq_true, if_true, denBody, nextW, if_false]
        rw [denc hA (by omega) ho]
        funext b
        rw [gW_cx inj (by omega) ho]
    rw [hcx]
    have hsz : ∀ q, s0 q = 0 → setA s p 0 q = 0 := by
      intro q hq
      unfold setA
      split
      · rfl
      · exact hs q hq
    by_cases hsp : s p = 0
    · simp only [if_pos hsp]
      have hz := setA_zero hsp
      rw [ih s hs _ hl]
      simp only [resid, endW, hz]
    · simp only [if_neg hsp, denBody]
      have hpe : p = 2 ^ o' + nextW w c o' := hpw.resolve_right fun h => hsp (hs p h)
      rw [denp hA ho]
      have hph : (fun b => ph (-(s p) * bv (b (A o'))) * ψ (gW A o' (nextW w c o') b))
          = fun b => (fun x => Phi n A s (setA s p 0) x * ψ x) (gW A o' (nextW w c o') b) := by
        funext b
        simp only [Phi_one s hp]
        congr 4
        rw [hpe]
        exact (gW_par inj ho hw b).symm
      rw [hph]
      refine (ih (setA s p 0) hsz _ hl (fun x => Phi n A s (setA s p 0) x * ψ x)).trans ?_
      simp only [resid, endW]
      congr 1
      funext b
      rw [← mul_assoc, Phi_trans]

theorem emit_pt_rest (l : List (Nat × Nat × Nat)) (h : ∀ x ∈ l, x.2.1 ≠ n - 1) (s : Nat → ℝ) :
    emit true n l s = [] := by
  cases l with
  | nil => rfl
  | cons x l =>
    obtain ⟨c, o, p⟩ := x
    have : (true = true ∧ o ≠ n - 1) := ⟨rfl, h (c, o, p) (by simp)⟩
    rw [emit, if_pos this]

end

/-! ### Steps of a group -/

theorem chain_steps {n o : Nat} (ho : o < n) (s0 : Nat → ℝ) (a : Nat) (r : List Nat)
    (hc : (a :: r).IsChain (Adj o)) (hlt : ∀ x ∈ a :: r, x < 2 ^ o) :
    OKsteps n o s0 a (List.zipWith (fun c p => (c, o, p + 2 ^ o)) (stepCtl (o + 1) (a :: r)) r) ∧
    some (endW a (List.zipWith (fun c p => (c, o, p + 2 ^ o)) (stepCtl (o + 1) (a :: r)) r))
      = (a :: r).getLast? ∧
    (List.zipWith (fun c p => (c, o, p + 2 ^ o)) (stepCtl (o + 1) (a :: r)) r).map (fun x => x.2.2)
      = r.map (· + 2 ^ o) := by
  induction r generalizing a with
  | nil => exact ⟨trivial, rfl, rfl⟩
  | cons b r ih =>
    rw [List.isChain_cons_cons] at hc
    obtain ⟨c, hco, rfl⟩ := hc.1
    obtain ⟨i1, i2, i3⟩ := ih (a ^^^ 2 ^ c) hc.2 fun x hx => hlt x (by simp [hx])
    have hb := hlt (a ^^^ 2 ^ c) (by simp)
    have hlow : lowDiff (o + 1) a (a ^^^ 2 ^ c) = c := lowDiff_flip (by omega)
    have hnext : nextW a c o = a ^^^ 2 ^ c := by simp [nextW, show c ≠ o by omega]
    have hpn : 2 ^ (o + 1) ≤ 2 ^ n := Nat.pow_le_pow_right (by omega) ho
    rw [Nat.pow_succ] at hpn
    simp only [stepCtl, List.zipWith_cons_cons, hlow, OKsteps, endW, hnext, List.map_cons,
      List.getLast?_cons_cons]
    refine ⟨⟨trivial, by omega, by omega, hb, Or.inl (Nat.add_comm _ _), i1⟩, i2, ?_⟩
    rw [i3]

/-- All parity operators of one operation bit. -/
def MinOK (o : Nat) (loc : List Nat) : Prop :=
  ∀ p ∈ loc, (∀ p' ∈ loc, p ≤ p') → p = 2 ^ o ∨ ∃ c < o, p = 2 ^ o + 2 ^ c

theorem log2_bounds {x o : Nat} (h : Nat.log2 x = o) (h0 : x ≠ 0) : 2 ^ o ≤ x ∧ x < 2 ^ (o + 1) := by
  subst h
  exact ⟨Nat.log2_self_le h0, Nat.lt_log2_self⟩

theorem group_ok {n o : Nat} (ho : o < n) (s0 : Nat → ℝ) (h00 : s0 0 = 0) (loc : List Nat)
    (hne : loc ≠ []) (hnd : loc.Nodup) (hloc : ∀ x ∈ loc, Nat.log2 x = o ∧ x ≠ 0) (hmin : MinOK o loc) :
    OKsteps n o s0 0 (groupSteps loc o) ∧ endW 0 (groupSteps loc o) = 0 ∧
      (∀ p ∈ loc, p ∈ (groupSteps loc o).map (fun x => x.2.2)) ∧
      (∀ p ∈ (groupSteps loc o).map (fun x => x.2.2), s0 p = 0 ∨ 2 ^ o ≤ p) ∧
      ∀ x ∈ groupSteps loc o, x.2.1 = o := by
  have hop : ∀ (f : Nat → Nat → Nat) (a b : List Nat), ∀ x ∈ List.zipWith (fun c p => (c, o, f c p)) a b,
      x.2.1 = o := by
    intro f a
    induction a with
    | nil => intro b x hx; simp at hx
    | cons c a ih =>
      intro b x hx
      cases b with
      | nil => simp at hx
      | cons p b =>
        rw [List.zipWith_cons_cons, List.mem_cons] at hx
        rcases hx with rfl | h
        · rfl
        · exact ih b x h
  by_cases h0 : o = 0
  · subst h0
    have hall : ∀ x ∈ loc, x = 1 := by
      intro x hx
      have := log2_bounds (hloc x hx).1 (hloc x hx).2
      simp at this; omega
    have hl : loc = [1] := by
      match loc, hne, hnd, hall with
      | [a], _, _, hall => rw [hall a (by simp)]
      | a :: b :: r, _, hnd, hall =>
        have h1 := hall a (by simp)
        have h2 := hall b (by simp)
        subst h1 h2
        simp at hnd
    subst hl
    have hg : groupSteps [1] 0 = [(0, 0, 0), (0, 0, 1), (0, 0, 0)] := by decide
    rw [hg]
    have h1n : 1 < 2 ^ n := Nat.one_lt_two_pow (by omega)
    refine ⟨?_, by simp [endW, nextW], by simp, by simp [h00], by simp⟩
    simp only [OKsteps, nextW, if_true]
    refine ⟨trivial, le_rfl, by omega, by omega, Or.inr h00, trivial, le_rfl, h1n, by omega, Or.inl rfl,
      trivial, le_rfl, by omega, by omega, Or.inr h00, trivial⟩
  · have hpos : 0 < 2 ^ o := Nat.two_pow_pos o
    have hb : ∀ x ∈ loc, x % 2 ^ o < 2 ^ o ∧ x = x % 2 ^ o + 2 ^ o := by
      intro x hx
      obtain ⟨h1, h2⟩ := log2_bounds (hloc x hx).1 (hloc x hx).2
      rw [Nat.pow_succ] at h2
      have : x % 2 ^ o = x - 2 ^ o := by
        rw [Nat.mod_eq_sub_mod h1, Nat.mod_eq_of_lt (by omega)]
      omega
    have hLne : loc.map (· % 2 ^ o) ≠ [] := by simpa using hne
    have hLmin : (loc.map (· % 2 ^ o)).min?.getD 0 = 0 ∨
        ∃ c < o, (loc.map (· % 2 ^ o)).min?.getD 0 = 2 ^ c := by
      obtain ⟨m1, m2⟩ := min_spec _ hLne
      generalize (loc.map (· % 2 ^ o)).min?.getD 0 = m at *
      obtain ⟨p, hp, rfl⟩ := List.mem_map.1 m1
      have hpb := hb p hp
      rcases hmin p hp (fun p' hp' => by
        have h1 := m2 (p' % 2 ^ o) (List.mem_map.2 ⟨p', hp', rfl⟩)
        have h2 := hb p' hp'
        omega) with h | ⟨c, hc, h⟩
      · left; omega
      · right; exact ⟨c, hc, by omega⟩
    obtain ⟨w, hl, hcov⟩ := travSeq_closed (by omega) (loc.map (· % 2 ^ o)) hLne (by
      intro x hx
      obtain ⟨y, hy, rfl⟩ := List.mem_map.1 hx
      exact (hb y hy).1) hLmin
    have hgs : groupSteps loc o = List.zipWith (fun c p => (c, o, p + 2 ^ o))
        (o :: stepCtl (o + 1) (travSeq (0 :: loc.map (· % 2 ^ o)) (o + 1)))
        (travSeq (0 :: loc.map (· % 2 ^ o)) (o + 1)) := by
      simp only [groupSteps, if_pos (show o ≠ 0 from h0), ne_eq, h0, not_false_eq_true, if_true]
    rw [hgs]
    generalize travSeq (0 :: loc.map (· % 2 ^ o)) (o + 1) = tr at *
    obtain ⟨r, rfl⟩ : ∃ r, tr = 0 :: r := by
      cases tr with
      | nil => have := w.head; simp at this
      | cons a r =>
        have := w.head
        simp at this
        exact ⟨r, by rw [this]⟩
    obtain ⟨c1, c2, c3⟩ := chain_steps (n := n) ho s0 0 r w.chain w.lt
    have hpn : 2 ^ (o + 1) ≤ 2 ^ n := Nat.pow_le_pow_right (by omega) ho
    rw [Nat.pow_succ] at hpn
    have hn0 : nextW 0 o o = 0 := by simp [nextW]
    rw [List.zipWith_cons_cons]
    refine ⟨?_, ?_, ?_, ?_, ?_⟩
    · simp only [OKsteps, hn0]
      exact ⟨trivial, le_rfl, by omega, hpos, Or.inl (Nat.add_comm _ _), c1⟩
    · simp only [endW, hn0]
      rw [hl] at c2
      exact Option.some.inj c2
    · intro p hp
      have h1 := hcov (p % 2 ^ o) (List.mem_map.2 ⟨p, hp, rfl⟩)
      have h2 := hb p hp
      rw [List.map_cons, c3, h2.2]
      have : p % 2 ^ o + 2 ^ o ∈ (0 :: r).map (· + 2 ^ o) := List.mem_map.2 ⟨_, h1, rfl⟩
      simpa using this
    · intro p hp
      right
      rw [List.map_cons, c3] at hp
      have hp : p ∈ (0 :: r).map (· + 2 ^ o) := by simpa using hp
      obtain ⟨y, _, rfl⟩ := List.mem_map.1 hp
      omega
    · rw [← List.zipWith_cons_cons (f := fun c p => (c, o, p + 2 ^ o))]
      exact hop (fun _ p => p + 2 ^ o) _ _

/-! ### All groups -/

/-- The group of operation bit `o`. -/
noncomputable def grp (n : Nat) (s : Nat → ℝ) (o : Nat) : List Nat :=
  (locations n s).filter fun x => Nat.log2 x == o

/-- The steps of operation bit `o`. -/
noncomputable def gsteps (n : Nat) (s : Nat → ℝ) (o : Nat) : List (Nat × Nat × Nat) :=
  if grp n s o = [] then [] else groupSteps (grp n s o) o

/-- The condition on the spectrum: for every operation bit the smallest parity operator needed has at
most two ones. -/
def SpecOK (n : Nat) (s : Nat → ℝ) : Prop := ∀ o < n, MinOK o (grp n s o)

theorem mem_grp {n : Nat} {s : Nat → ℝ} {o p : Nat} :
    p ∈ grp n s o ↔ p < 2 ^ n ∧ s p ≠ 0 ∧ Nat.log2 p = o := by
  simp only [grp, locations, List.mem_filter, List.mem_reverse, List.mem_range, beq_iff_eq, ne_eq,
    decide_not, Bool.not_eq_true', decide_eq_false_iff_not, and_assoc]
  try tauto

theorem grp_nodup (n : Nat) (s : Nat → ℝ) (o : Nat) : (grp n s o).Nodup := by
  unfold grp locations
  exact (List.nodup_reverse.2 (List.nodup_range.filter _)).filter _

theorem gsteps_ok {n : Nat} {s : Nat → ℝ} (h00 : s 0 = 0) {o : Nat} (hM : MinOK o (grp n s o)) (ho : o < n) :
    OKsteps n o s 0 (gsteps n s o) ∧ endW 0 (gsteps n s o) = 0 ∧
      (∀ p ∈ grp n s o, p ∈ (gsteps n s o).map (fun x => x.2.2)) ∧
      (∀ p ∈ (gsteps n s o).map (fun x => x.2.2), s p = 0 ∨ 2 ^ o ≤ p) ∧
      ∀ x ∈ gsteps n s o, x.2.1 = o := by
  unfold gsteps
  by_cases h : grp n s o = []
  · rw [if_pos h, h]
    exact ⟨trivial, rfl, by simp, by simp, by simp⟩
  · rw [if_neg h]
    exact group_ok ho s h00 _ h (grp_nodup n s o) (fun x hx => by
      have := mem_grp.1 hx
      exact ⟨this.2.2, fun e => this.2.1 (by rw [e, h00])⟩) hM

theorem gsteps_op (n : Nat) (s : Nat → ℝ) (o : Nat) : ∀ x ∈ gsteps n s o, x.2.1 = o := by
  have hop : ∀ (f : Nat → Nat → Nat) (a b : List Nat), ∀ x ∈ List.zipWith (fun c p => (c, o, f c p)) a b,
      x.2.1 = o := by
    intro f a
    induction a with
    | nil => intro b x hx; simp at hx
    | cons c a ih =>
      intro b
      cases b with
      | nil => intro x hx; simp at hx
      | cons p b =>
        intro x hx
        rw [List.zipWith_cons_cons, List.mem_cons] at hx
        rcases hx with rfl | hx
        · rfl
        · exact ih b x hx
  unfold gsteps
  split
  · simp
  · exact hop (fun _ p => if o ≠ 0 then p + 2 ^ o else p) _ _

section
variable {Q : Type} [DecidableEq Q] {n : Nat} {qs : List Q} {A : Nat → Q}

theorem emit_groups (hA : ∀ k < n, qs[k]? = some (A k)) (inj : ∀ i < n, ∀ j < n, A i = A j → i = j)
    {s0 : Nat → ℝ} (h00 : s0 0 = 0) (hS : SpecOK n s0) (os : List Nat) (hos : ∀ o ∈ os, o < n)
    (s : Nat → ℝ) (hs : ∀ p, s0 p = 0 → s p = 0) (ψ : Amp Q) :
    denBody (emit false n (os.flatMap (gsteps n s0)) s) qs ψ
      = fun b => Phi n A s (resid s (os.flatMap (gsteps n s0))) b * ψ b := by
  induction os generalizing s ψ with
  | nil => simp [emit, denBody, resid, Phi_self]
  | cons o os ih =>
    have ho := hos o (by simp)
    obtain ⟨g1, g2, _, _, _⟩ := gsteps_ok h00 (hS o ho) ho
    rw [List.flatMap_cons]
    have := emit_group hA inj false ho (by simp) s0 (os.flatMap (gsteps n s0)) (gsteps n s0 o) s hs 0 g1 ψ
    simp only [g2, gW_zero] at this
    rw [this, ih (fun o ho => hos o (by simp [ho]))]
    · funext b
      rw [← mul_assoc, Phi_trans, resid_append]
    · intro p hp
      rcases resid_eq (gsteps n s0 o) s p with h | h
      · exact h.1
      · rw [h.1]; exact hs p hp

theorem resid_all {s : Nat → ℝ} (h00 : s 0 = 0) (hS : SpecOK n s) (p : Nat) (hp : p < 2 ^ n) :
    resid s ((List.range n).reverse.flatMap (gsteps n s)) p = 0 := by
  rcases resid_eq ((List.range n).reverse.flatMap (gsteps n s)) s p with h | h
  · exact h.1
  · rw [h.1]
    by_contra hne
    have hp0 : p ≠ 0 := fun e => hne (by rw [e, h00])
    have ho : Nat.log2 p < n := (Nat.log2_lt hp0).2 hp
    have hm := (gsteps_ok h00 (hS _ ho) ho).2.2.1 p (mem_grp.2 ⟨hp, hne, rfl⟩)
    refine h.2 ?_
    obtain ⟨x, hx, rfl⟩ := List.mem_map.1 hm
    exact List.mem_map.2 ⟨x, List.mem_flatMap.2 ⟨_, by simpa using ho, hx⟩, rfl⟩

theorem travSteps_eq (s : Nat → ℝ) :
    travSteps n (locations n s) = (List.range n).reverse.flatMap (gsteps n s) := rfl

/-- The circuit of the exact mode applies the phases of all parity operators. -/
theorem grayBody_den (hA : ∀ k < n, qs[k]? = some (A k)) (inj : ∀ i < n, ∀ j < n, A i = A j → i = j)
    (t : Nat → ℝ) (hS : SpecOK n (spectrum n fun i => t (revIdx n i))) (ψ : Amp Q) :
    denBody (grayBody false n t) qs ψ = fun b =>
      Phi n A (spectrum n fun i => t (revIdx n i)) (fun _ => 0) b * ψ b := by
  unfold grayBody
  simp only
  have h00 : spectrum n (fun i => t (revIdx n i)) 0 = 0 := by simp [spectrum, setA]
  rw [travSteps_eq, emit_groups hA inj h00 hS _ (fun o ho => by simpa using ho) _ (fun _ h => h)]
  funext b
  congr 1
  unfold Phi
  congr 1
  exact Finset.sum_congr rfl fun p hp => by rw [resid_all h00 hS p (Finset.mem_range.1 hp)]

/-- The circuit of the phase tolerant mode applies the phases of the parity operators containing the
last qubit. -/
theorem grayBody_pt_den (hn : 0 < n) (hA : ∀ k < n, qs[k]? = some (A k))
    (inj : ∀ i < n, ∀ j < n, A i = A j → i = j)
    (t : Nat → ℝ) (hS : MinOK (n - 1) (grp n (spectrum n fun i => t (revIdx n i)) (n - 1))) (ψ : Amp Q) :
    denBody (grayBody true n t) qs ψ = fun b =>
      Phi n A (spectrum n fun i => t (revIdx n i))
        (fun p => if p < 2 ^ (n - 1) then spectrum n (fun i => t (revIdx n i)) p else 0) b * ψ b := by
  unfold grayBody
  simp only
  have h00 : spectrum n (fun i => t (revIdx n i)) 0 = 0 := by simp [spectrum, setA]
  generalize spectrum n (fun i => t (revIdx n i)) = s at *
  obtain ⟨m, rfl⟩ : ∃ m, n = m + 1 := ⟨n - 1, by omega⟩
  have hr : (List.range (m + 1)).reverse = m :: (List.range m).reverse := by
    rw [List.range_succ, List.reverse_append]; rfl
  obtain ⟨g1, g2, g3, g4, _⟩ := gsteps_ok h00 (o := m) (by simpa using hS) (show m < m + 1 by omega)
  rw [travSteps_eq, hr, List.flatMap_cons]
  have := emit_group hA inj true (show m < m + 1 by omega) (fun _ => rfl) s
    ((List.range m).reverse.flatMap (gsteps (m + 1) s)) (gsteps (m + 1) s m) s (fun _ h => h) 0 g1 ψ
  simp only [g2, gW_zero] at this
  rw [this, emit_pt_rest]
  · simp only [denBody]
    funext b
    congr 1
    unfold Phi
    congr 1
    refine Finset.sum_congr rfl fun p hp => ?_
    have e : resid s (gsteps (m + 1) s m) p = if p < 2 ^ (m + 1 - 1) then s p else 0 := by
      change _ = if p < 2 ^ m then s p else 0
      rcases resid_eq (gsteps (m + 1) s m) s p with h | h
      · rw [h.1]
        by_cases hlt : p < 2 ^ m
        · rw [if_pos hlt]
          rcases g4 p h.2 with h' | h'
          · exact h'.symm
          · omega
        · rw [if_neg hlt]
      · rw [h.1]
        by_cases hlt : p < 2 ^ m
        · rw [if_pos hlt]
        · rw [if_neg hlt]
          by_contra hne
          refine h.2 (g3 p (mem_grp.2 ⟨Finset.mem_range.1 hp, hne, ?_⟩))
          have h0 : p ≠ 0 := fun e => hne (by rw [e, h00])
          refine (Nat.log2_eq_iff h0).2 ⟨by omega, Finset.mem_range.1 hp⟩
    rw [e]
  · intro x hx
    obtain ⟨o, ho, hx⟩ := List.mem_flatMap.1 hx
    have ho : o < m := by simpa using ho
    have := gsteps_op _ _ _ x hx
    omega

end

end Verif.Circ
