import Verif.Circ.Control
import Verif.Loop

/-!
Model of `/repo/src/qrisp/alg_primitives/logic_synthesis/gray_synthesis.py`.

Simplifications: real numbers instead of floats (lines 350-351 skip spectrum entries below `1e-16`;
here: entries equal to 0); the cache of lines 329-336 returns an earlier result for the same phases;
`parallelize_qc` (lines 385-391, reordering of the finished circuit) and the comparison with the
circuit of the recursive call (lines 393-397: the call gets the already reversed phases, so it
returns the same circuit and never has smaller depth) are not modelled.
-/

namespace Verif.Circ

/-! ### Walsh-Hadamard transform -/

/-- `a[j] = v`. -/
def setA (a : Nat → ℝ) (j : Nat) (v : ℝ) : Nat → ℝ := fun m => if m = j then v else a m

/-- gray_synthesis.py:44-48: one butterfly. -/
def butterfly (h j : Nat) (a : Nat → ℝ) : Nat → ℝ :=
  let x := a j
  let y := a (j + h)
  setA (setA a j (x + y)) (j + h) (x - y)

/-- gray_synthesis.py:43-48: one pass; the start index `i` takes the values `0, 2h, 4h, … < N`. -/
def fwhtPass (N h : Nat) (a : Nat → ℝ) : Nat → ℝ :=
  fori 0 ((N + 2 * h - 1) / (2 * h)) (fun blk a =>
    let i := blk * (h * 2)
    fori i (i + h) (fun j a => butterfly h j a) a) a

/-- gray_synthesis.py:39-49 `fwht` on an array of length `N`. -/
def fwht (N : Nat) (a : Nat → ℝ) : Nat → ℝ :=
  (whileLoop N (fun s : Nat × (Nat → ℝ) => decide (s.1 < N))
    (fun s => (s.1 * 2, fwhtPass N s.1 s.2)) (1, a)).2

/-! ### Hamming walks -/

/-- The most significant position below `n` in which `a` and `b` differ (`np.argmax` of the sum
modulo 2 of the big endian bit arrays). -/
def topDiff : Nat → Nat → Nat → Option Nat
  | 0, _, _ => none
  | k + 1, a, b => if a.testBit k ≠ b.testBit k then some k else topDiff k a b

/-- The least significant position below `n` in which `a` and `b` differ, 0 if there is none
(gray_synthesis.py:255-258: `np.argmax` of the reversed array). -/
def lowDiff (n a b : Nat) : Nat :=
  ((List.range n).find? fun k => a.testBit k != b.testBit k).getD 0

/-- gray_synthesis.py:52-53 `hamming_d`. -/
def hammingD (n a b : Nat) : Nat := (List.range n).countP fun k => a.testBit k != b.testBit k

/-- gray_synthesis.py:152-165 `hamming_movement`: flip the most significant differing bit until the
target is reached (the start is not part of the result). -/
def hamMove : Nat → Nat → Nat → Nat → List Nat
  | 0, _, _, _ => []
  | f + 1, bit, a, b =>
    match topDiff bit a b with
    | none => []
    | some k => (a ^^^ 2 ^ k) :: hamMove f bit (a ^^^ 2 ^ k) b

/-- gray_synthesis.py:170-198 `gray_code`. -/
def grayCode : Nat → List Nat
  | 0 => []
  | 1 => [1, 0]
  | n + 2 => (grayCode (n + 1)).reverse.map (2 ^ (n + 1) + ·) ++ grayCode (n + 1)

/-- gray_synthesis.py:91-99: index of the first closest location. -/
def nearest (bit cur : Nat) (loc : List Nat) : Nat :=
  let best := (loc.map (hammingD bit cur)).min?.getD 0
  (loc.findIdx? fun x => hammingD bit cur x == best).getD 0

/-- gray_synthesis.py:87-129: the loop of `hamming_tsp`; every round removes a location. -/
def tspLoop (bit : Nat) : Nat → List Nat → List Nat → List Nat → List Nat × List Nat
  | 0, _, s1, s2 => (s1, s2)
  | f + 1, loc, s1, s2 =>
    if loc = [] then (s1, s2) else
    let i := nearest bit (s1.getLastD 0) loc
    let s1 := s1 ++ hamMove bit bit (s1.getLastD 0) (loc.getD i 0)
    let loc := loc.eraseIdx i
    if loc = [] then (s1, s2) else
    let i := nearest bit (s2.getLastD 0) loc
    let s2 := s2 ++ hamMove bit bit (s2.getLastD 0) (loc.getD i 0)
    tspLoop bit f (loc.eraseIdx i) s1 s2

/-- gray_synthesis.py:78-82: smallest location, and the list without (its first occurrence). -/
def popMin (loc : List Nat) : Nat × List Nat :=
  let m := loc.min?.getD 0
  (m, loc.erase m)

/-- gray_synthesis.py:60-149 `hamming_tsp`. -/
def hammingTsp (loc : List Nat) (bit : Nat) : List Nat :=
  if loc.length = 2 ^ (bit - 1) + 1 then grayCode (max (bit - 1) 1)
  else if loc.length = 1 then loc
  else if loc.length = 2 then
    let hi := max (loc.getD 0 0) (loc.getD 1 0)
    let lo := min (loc.getD 0 0) (loc.getD 1 0)
    hi :: hamMove bit bit hi lo
  else
    let (m1, loc1) := popMin loc
    let (m2, loc2) := popMin loc1
    let (s1, s2) := tspLoop bit loc.length loc2 [m1] [m2]
    let s1 := s1 ++ hamMove bit bit (s1.getLastD 0) (s2.getLastD 0)
    let sol := s1 ++ s2.dropLast.reverse
    if 2 ^ max (bit - 1) 1 < sol.length then grayCode (max (bit - 1) 1) else sol

/-- gray_synthesis.py:233-240: the traversal sequence. -/
def travSeq (loc : List Nat) (bit : Nat) : List Nat :=
  let s := hammingTsp loc bit
  let s := if s.getLastD 0 ≠ 0 then s ++ [0] else s
  if s.headD 0 ≠ 0 then 0 :: s else s

/-- gray_synthesis.py:249-258: the control positions for the steps of a sequence. -/
def stepCtl (bit : Nat) : List Nat → List Nat
  | a :: b :: r => lowDiff bit a b :: stepCtl bit (b :: r)
  | _ => []

/-- gray_synthesis.py:289-307: the (control, operation bit, parity operator) triples of one operation
bit; `loc` are the parity operators whose most significant bit is `o`. -/
def groupSteps (loc : List Nat) (o : Nat) : List (Nat × Nat × Nat) :=
  let single := if o ≠ 0 then loc.map (· % 2 ^ o) else loc
  let tr := travSeq (0 :: single) (o + 1)
  let ctl := o :: stepCtl (o + 1) tr
  List.zipWith (fun c p => (c, o, if o ≠ 0 then p + 2 ^ o else p)) ctl tr

/-- gray_synthesis.py:267-309 `multi_qb_traversal`: the operation bits in decreasing order (the
locations are sorted in decreasing order before they are distributed, lines 273-282). -/
def travSteps (n : Nat) (loc : List Nat) : List (Nat × Nat × Nat) :=
  (List.range n).reverse.flatMap fun o =>
    let l := loc.filter fun x => Nat.log2 x == o
    if l = [] then [] else groupSteps l o

/-! ### The circuit -/

open Classical in
/-- gray_synthesis.py:360-383: CNOT and phase gates; `s` are the remaining phase shifts. -/
noncomputable def emit (pt : Bool) (n : Nat) :
    List (Nat × Nat × Nat) → (Nat → ℝ) → List (Op × List Nat)
  | [], _ => []
  | (c, o, p) :: r, s =>
    if pt = true ∧ o ≠ n - 1 then [] else
    (if c ≠ o then [(.ctrl (.pauli .x) [true], [c, o])] else []) ++
      (if s p = 0 then emit pt n r s
       else (pG (-(s p)), [o]) :: emit pt n r (setA s p 0))

/-- gray_synthesis.py:322-327: reversal of the bit order of the index. -/
def revIdx (n i : Nat) : Nat :=
  ((List.range n).map fun k => if i.testBit k then 2 ^ (n - 1 - k) else 0).sum

/-- gray_synthesis.py:213-224, 341-344: spectrum of the phases, index 0 cleared. -/
noncomputable def spectrum (n : Nat) (t : Nat → ℝ) : Nat → ℝ :=
  setA (fwht (2 ^ n) fun i => t i / (((2 : ℝ) ^ n) / 2)) 0 0

open Classical in
/-- gray_synthesis.py:347-355. -/
noncomputable def locations (n : Nat) (s : Nat → ℝ) : List Nat :=
  ((List.range (2 ^ n)).filter fun i => decide (s i ≠ 0)).reverse

/-- gray_synthesis.py:318-404 `gray_synth_qc` for `2 ^ n` phases. -/
noncomputable def grayBody (pt : Bool) (n : Nat) (t : Nat → ℝ) : List (Op × List Nat) :=
  let s := spectrum n fun i => t (revIdx n i)
  emit pt n (travSteps n (locations n s)) s

/-- gray_synthesis.py:407-417 `GraySynthGate`. -/
noncomputable def graySynth (pt : Bool) (t : List ℝ) : Op :=
  .gate "gray_synth_gate" (Nat.log2 t.length)
    (grayBody pt (Nat.log2 t.length) fun i => t.getD i 0)

/-! ### Parities -/

/-- Parity of the bits of `f` selected by `p`, positions below `n`. -/
def parB : Nat → Nat → (Nat → Bool) → Bool
  | 0, _, _ => false
  | n + 1, p, f => parB n p f ^^ (p.testBit n && f n)

theorem parB_congr {n : Nat} {p p' : Nat} {f f' : Nat → Bool}
    (h : ∀ k < n, (p.testBit k && f k) = (p'.testBit k && f' k)) : parB n p f = parB n p' f' := by
  induction n with
  | zero => rfl
  | succ n ih =>
    simp only [parB]
    rw [ih fun k hk => h k (by omega), h n (by omega)]

theorem parB_flip {n c : Nat} (hc : c < n) (p : Nat) (f : Nat → Bool) :
    parB n (p ^^^ 2 ^ c) f = (parB n p f ^^ f c) := by
  induction n with
  | zero => omega
  | succ n ih =>
    simp only [parB]
    rcases Nat.lt_succ_iff_lt_or_eq.1 hc with h | h
    · rw [ih h]
      have : (p ^^^ 2 ^ c).testBit n = p.testBit n := by
        rw [Nat.testBit_xor, Nat.testBit_two_pow_of_ne (by omega)]; simp
      rw [this]
      cases parB n p f <;> cases f c <;> cases (p.testBit n && f n) <;> rfl
    · subst h
      have e : parB c (p ^^^ 2 ^ c) f = parB c p f := by
        refine parB_congr fun k hk => ?_
        rw [Nat.testBit_xor, Nat.testBit_two_pow_of_ne (by omega)]; simp
      rw [e, Nat.testBit_xor, Nat.testBit_two_pow_self]
      cases parB c p f <;> cases p.testBit c <;> cases f c <;> rfl

theorem parB_low {m n p : Nat} (hm : m ≤ n) (hp : p < 2 ^ m) (f : Nat → Bool) :
    parB n p f = parB m p f := by
  induction n, hm using Nat.le_induction with
  | base => rfl
  | succ n hn ih =>
    simp only [parB]
    have : p.testBit n = false := Nat.testBit_lt_two_pow (hp.trans_le (Nat.pow_le_pow_right (by omega) hn))
    rw [this, ih]; simp

theorem parB_top {o n w : Nat} (ho : o < n) (hw : w < 2 ^ o) (f : Nat → Bool) :
    parB n (2 ^ o + w) f = (f o ^^ parB o w f) := by
  have h1 : 2 ^ o + w < 2 ^ (o + 1) := by rw [Nat.pow_succ]; omega
  rw [parB_low ho h1]
  simp only [parB]
  have e1 : (2 ^ o + w).testBit o = true := by
    rw [Nat.testBit_two_pow_add_eq]; simp [Nat.testBit_lt_two_pow hw]
  have e2 : parB o (2 ^ o + w) f = parB o w f := by
    refine parB_congr fun k hk => ?_
    rw [Nat.testBit_two_pow_add_gt hk]
  rw [e1, e2]
  cases parB o w f <;> cases f o <;> rfl

theorem parB_zero (n : Nat) (f : Nat → Bool) : parB n 0 f = false := by
  induction n with
  | zero => rfl
  | succ n ih => simp [parB, ih]

/-! ### Correctness of the transform -/

/-- Sign of a bit. -/
def sgB : Bool → ℝ
  | true => -1
  | false => 1

theorem sgB_xor (a b : Bool) : sgB (a ^^ b) = sgB a * sgB b := by
  cases a <;> cases b <;> simp [sgB]

/-- Sign of a parity. -/
def sg (n p x : Nat) : ℝ := sgB (parB n p x.testBit)

/-- The Walsh-Hadamard transform. -/
def wht (n : Nat) (a : Nat → ℝ) (p : Nat) : ℝ := ∑ x ∈ Finset.range (2 ^ n), sg n p x * a x

theorem testBit_high {n x : Nat} (hx : x < 2 ^ n) : (2 ^ n + x).testBit n = true := by
  rw [Nat.testBit_two_pow_add_eq]; simp [Nat.testBit_lt_two_pow hx]

theorem sg_low {n p x : Nat} (hx : x < 2 ^ n) : sg (n + 1) p x = sg n p x := by
  unfold sg
  simp only [parB]
  rw [Nat.testBit_lt_two_pow hx]; simp

theorem sg_high {n p x : Nat} (hx : x < 2 ^ n) :
    sg (n + 1) p (2 ^ n + x) = sgB (p.testBit n) * sg n p x := by
  unfold sg
  simp only [parB]
  have e2 : parB n p (2 ^ n + x).testBit = parB n p x.testBit := by
    refine parB_congr fun k hk => ?_
    rw [Nat.testBit_two_pow_add_gt hk]
  rw [testBit_high hx, e2, sgB_xor, Bool.and_true, mul_comm]

theorem wht_succ (n : Nat) (a : Nat → ℝ) (p : Nat) :
    wht (n + 1) a p = wht n a p + sgB (p.testBit n) * wht n (fun x => a (2 ^ n + x)) p := by
  unfold wht
  rw [Nat.pow_succ, Nat.mul_two, Finset.sum_range_add]
  congr 1
  · exact Finset.sum_congr rfl fun x hx => by rw [sg_low (Finset.mem_range.1 hx)]
  · rw [Finset.mul_sum]
    exact Finset.sum_congr rfl fun x hx => by rw [sg_high (Finset.mem_range.1 hx), mul_assoc]

theorem wht_high (n : Nat) (a : Nat → ℝ) {p : Nat} : wht n a (2 ^ n + p) = wht n a p := by
  unfold wht
  refine Finset.sum_congr rfl fun x _ => ?_
  have : sg n (2 ^ n + p) x = sg n p x := by
    unfold sg
    congr 1
    refine parB_congr fun k hk => ?_
    rw [Nat.testBit_two_pow_add_gt hk]
  rw [this]

theorem wht_congr {n : Nat} {a a' : Nat → ℝ} (h : ∀ x < 2 ^ n, a x = a' x) (p : Nat) :
    wht n a p = wht n a' p :=
  Finset.sum_congr rfl fun x hx => by rw [h x (Finset.mem_range.1 hx)]

theorem wht_add (n : Nat) (a b : Nat → ℝ) (p : Nat) :
    wht n (fun x => a x + b x) p = wht n a p + wht n b p := by
  unfold wht
  rw [← Finset.sum_add_distrib]
  exact Finset.sum_congr rfl fun x _ => by ring

theorem wht_smul (n : Nat) (e : ℝ) (a : Nat → ℝ) (p : Nat) :
    wht n (fun x => e * a x) p = e * wht n a p := by
  unfold wht
  rw [Finset.mul_sum]
  exact Finset.sum_congr rfl fun x _ => by ring

/-- The transform is its own inverse up to the factor `2 ^ n`. -/
theorem wht_wht (n : Nat) (a : Nat → ℝ) (x : Nat) (hx : x < 2 ^ n) :
    wht n (wht n a) x = 2 ^ n * a x := by
  induction n generalizing a x with
  | zero =>
    have hx : x = 0 := by simpa using hx
    subst hx
    simp [wht, sg, parB, sgB]
  | succ n ih =>
    set a' : Nat → ℝ := fun x => a (2 ^ n + x) with ha'
    have e1 : ∀ z, wht n (wht (n + 1) a) z = wht n (wht n a) z + wht n (wht n a') z := by
      intro z
      rw [← wht_add]
      refine wht_congr (fun y hy => ?_) z
      rw [wht_succ, Nat.testBit_lt_two_pow hy, sgB, one_mul]
    have e2 : ∀ z, wht n (fun y => wht (n + 1) a (2 ^ n + y)) z
        = wht n (wht n a) z + (-1) * wht n (wht n a') z := by
      intro z
      rw [← wht_smul, ← wht_add]
      refine wht_congr (fun y hy => ?_) z
      rw [wht_succ, testBit_high hy, sgB, wht_high, wht_high]
    rw [wht_succ, e1, e2]
    rcases Nat.lt_or_ge x (2 ^ n) with h | h
    · rw [Nat.testBit_lt_two_pow h, sgB, ih a x h, pow_succ]; ring
    · obtain ⟨y, rfl⟩ := Nat.exists_eq_add_of_le h
      have hy : y < 2 ^ n := by rw [Nat.pow_succ] at hx; omega
      rw [testBit_high hy, sgB, wht_high, wht_high, ih a' y hy, pow_succ, ha']; ring

/-- One pass of the fast transform. -/
theorem fwhtPass_spec (N h : Nat) (hh : 0 < h) (hN : 2 * h ∣ N) (a : Nat → ℝ) (m : Nat) (hm : m < N) :
    fwhtPass N h a m = if m / h % 2 = 0 then a m + a (m + h) else a (m - h) - a m := by
  obtain ⟨B, rfl⟩ := hN
  have hB : (2 * h * B + 2 * h - 1) / (2 * h) = B := by
    have : 2 * h * B + 2 * h - 1 = (2 * h - 1) + 2 * h * B := by omega
    rw [this, Nat.add_mul_div_left _ _ (by omega), Nat.div_eq_of_lt (by omega), Nat.zero_add]
  -- entries of the blocks below `blk` are done, and in block `blk` the offsets below `jj`
  let new : Nat → ℝ := fun m => if m / h % 2 = 0 then a m + a (m + h) else a (m - h) - a m
  let done : Nat → Nat → Nat → Prop := fun blk jj m =>
    m / (2 * h) < blk ∨ (m / (2 * h) = blk ∧ m % h < jj)
  let P : Nat → Nat → (Nat → ℝ) → Prop := fun blk jj c =>
    ∀ m, (done blk jj m → c m = new m) ∧ (¬ done blk jj m → c m = a m)
  have pos : ∀ blk r, r < 2 * h → (blk * (2 * h) + r) / (2 * h) = blk ∧
      (blk * (2 * h) + r) % (2 * h) = r := by
    intro blk r hr
    constructor
    · rw [Nat.mul_comm, Nat.mul_add_div (by omega), Nat.div_eq_of_lt hr, Nat.add_zero]
    · rw [Nat.mul_comm, Nat.mul_add_mod, Nat.mod_eq_of_lt hr]
  have inner : ∀ blk c, P blk 0 c →
      P (blk + 1) 0 (fori (blk * (h * 2)) (blk * (h * 2) + h) (fun j a => butterfly h j a) c) := by
    intro blk c hc
    have key := fori_inv (fun j c => P blk (j - blk * (h * 2)) c) (lo := blk * (h * 2))
      (hi := blk * (h * 2) + h) (by omega) (fun j a => butterfly h j a) c
      (by simpa using hc) (by
        intro j c h1 h2 hP
        obtain ⟨jj, rfl⟩ := Nat.exists_eq_add_of_le h1
        have hjj : jj < h := by omega
        have e1 : blk * (h * 2) + jj - blk * (h * 2) = jj := by omega
        have e2 : blk * (h * 2) + jj + 1 - blk * (h * 2) = jj + 1 := by omega
        rw [e1] at hP
        rw [e2]
        have c2 : blk * (h * 2) = blk * (2 * h) := by rw [Nat.mul_comm h 2]
        rw [c2]
        have p1 := pos blk jj (by omega)
        have p2 := pos blk (jj + h) (by omega)
        have m1 : (blk * (2 * h) + jj) % h = jj := by
          rw [show blk * (2 * h) + jj = jj + h * (blk * 2) by ring, Nat.add_mul_mod_self_left,
            Nat.mod_eq_of_lt hjj]
        have m2 : (blk * (2 * h) + (jj + h)) % h = jj := by
          rw [show blk * (2 * h) + (jj + h) = jj + h * (blk * 2 + 1) by ring,
            Nat.add_mul_mod_self_left, Nat.mod_eq_of_lt hjj]
        have d1 : (blk * (2 * h) + jj) / h % 2 = 0 := by
          rw [show blk * (2 * h) + jj = h * (blk * 2) + jj by ring, Nat.mul_add_div hh,
            Nat.div_eq_of_lt hjj]; omega
        have d2 : (blk * (2 * h) + (jj + h)) / h % 2 = 1 := by
          rw [show blk * (2 * h) + (jj + h) = h * (blk * 2 + 1) + jj by ring, Nat.mul_add_div hh,
            Nat.div_eq_of_lt hjj]; omega
        have x1 : c (blk * (2 * h) + jj) = a (blk * (2 * h) + jj) :=
          (hP _).2 (by rintro (h | ⟨_, h⟩) <;> omega)
        have x2 : c (blk * (2 * h) + jj + h) = a (blk * (2 * h) + jj + h) := by
          rw [Nat.add_assoc]
          exact (hP _).2 (by rintro (h | ⟨_, h⟩) <;> omega)
        intro m
        simp only [butterfly, setA]
        by_cases hm2 : m = blk * (2 * h) + jj + h
        · subst hm2
          rw [if_pos rfl, x1, x2]
          refine ⟨fun _ => ?_, fun hn => absurd (Or.inr ⟨?_, ?_⟩) hn⟩
          · simp only [new]
            rw [Nat.add_assoc, d2, if_neg (by omega),
              show blk * (2 * h) + (jj + h) - h = blk * (2 * h) + jj by omega]
          · rw [Nat.add_assoc]; exact p2.1
          · rw [Nat.add_assoc, m2]; omega
        · rw [if_neg hm2]
          by_cases hm1 : m = blk * (2 * h) + jj
          · subst hm1
            rw [if_pos rfl, x1, x2]
            refine ⟨fun _ => ?_, fun hn => absurd (Or.inr ⟨p1.1, by rw [m1]; omega⟩) hn⟩
            simp only [new]
            rw [d1, if_pos rfl]
          · rw [if_neg hm1]
            have hd : done blk (jj + 1) m ↔ done blk jj m := by
              constructor
              · rintro (h' | ⟨h', h''⟩)
                · exact Or.inl h'
                · refine Or.inr ⟨h', ?_⟩
                  by_contra hlt
                  have hmj : m % h = jj := by omega
                  have hmod : m = blk * (2 * h) + m % (2 * h) := by
                    have := Nat.div_add_mod m (2 * h)
                    rw [h'] at this
                    rw [Nat.mul_comm blk]; omega
                  have hr := Nat.mod_lt m (show 2 * h > 0 by omega)
                  have hmm : m % (2 * h) % h = m % h := by
                    rw [Nat.mul_comm 2 h]; exact Nat.mod_mul_right_mod m h 2
                  rcases Nat.lt_or_ge (m % (2 * h)) h with hl | hg
                  · rw [Nat.mod_eq_of_lt hl] at hmm; omega
                  · have : m % (2 * h) % h = m % (2 * h) - h := by
                      rw [Nat.mod_eq_sub_mod hg, Nat.mod_eq_of_lt (by omega)]
                    omega
              · rintro (h' | ⟨h', h''⟩)
                · exact Or.inl h'
                · exact Or.inr ⟨h', by omega⟩
            rw [hd]
            exact hP m)
    have e : blk * (h * 2) + h - blk * (h * 2) = h := by omega
    simp only [e] at key
    intro m
    have hd : done (blk + 1) 0 m ↔ done blk h m := by
      have := Nat.mod_lt m hh
      simp only [done]
      constructor
      · rintro (h' | ⟨_, h'⟩)
        · rcases Nat.lt_succ_iff_lt_or_eq.1 h' with h' | h'
          · exact Or.inl h'
          · exact Or.inr ⟨h', this⟩
        · omega
      · rintro (h' | ⟨h', _⟩)
        · exact Or.inl (by omega)
        · exact Or.inl (by omega)
    rw [hd]
    exact key m
  have outer := fori_inv (fun blk c => P blk 0 c) (Nat.zero_le B) (fun blk a =>
    fori (blk * (h * 2)) (blk * (h * 2) + h) (fun j a => butterfly h j a) a) a
    (fun m => ⟨fun hd => by rcases hd with h' | ⟨_, h'⟩ <;> exact absurd h' (Nat.not_lt_zero _),
      fun _ => rfl⟩)
    (fun blk c _ _ hc => inner blk c hc)
  have := (outer m).1 (Or.inl (Nat.div_lt_of_lt_mul hm))
  unfold fwhtPass
  rw [hB]
  exact this

/-- gray_synthesis.py:39-49: `fwht` computes the Walsh-Hadamard transform. -/
theorem fwht_spec (n : Nat) (a : Nat → ℝ) (m : Nat) (hm : m < 2 ^ n) :
    fwht (2 ^ n) a m = wht n a m := by
  -- after `k` passes: transform of the low `k` index bits
  let P : Nat × (Nat → ℝ) → Prop := fun s => ∃ k ≤ n, s.1 = 2 ^ k ∧
    ∀ m < 2 ^ n, s.2 m = wht k (fun y => a (m / 2 ^ k * 2 ^ k + y)) m
  have h0 : P (1, a) := ⟨0, Nat.zero_le n, rfl, fun m _ => by simp [wht, sg, parB, sgB]⟩
  have hstep : ∀ s, P s → decide (s.1 < 2 ^ n) = true →
      P (s.1 * 2, fwhtPass (2 ^ n) s.1 s.2) := by
    rintro ⟨h, c⟩ ⟨k, hk, rfl, hc⟩ hlt
    replace hc : ∀ m < 2 ^ n, c m = wht k (fun y => a (m / 2 ^ k * 2 ^ k + y)) m := hc
    have hkn : k < n := by
      have : (2 : Nat) ^ k < 2 ^ n := by simpa using hlt
      exact (Nat.pow_lt_pow_iff_right (by omega)).1 this
    refine ⟨k + 1, hkn, Nat.pow_succ 2 k, fun m hm => ?_⟩
    have hdvd : 2 * 2 ^ k ∣ 2 ^ n := by
      rw [← Nat.pow_succ']; exact Nat.pow_dvd_pow 2 hkn
    have hpos : 0 < 2 ^ k := Nat.two_pow_pos k
    simp only
    rw [fwhtPass_spec _ _ hpos hdvd _ _ hm, wht_succ]
    have hbit : m.testBit k = decide (m / 2 ^ k % 2 = 1) := Nat.testBit_eq_decide_div_mod_eq
    have hdiv : m / 2 ^ (k + 1) * 2 ^ (k + 1) = m / 2 ^ k / 2 * 2 * 2 ^ k := by
      rw [Nat.pow_succ, ← Nat.div_div_eq_div_mul]; ring
    have hmod := Nat.div_add_mod (m / 2 ^ k) 2
    have hm2 : m < 2 ^ (n - k) * 2 ^ k := by
      rw [← Nat.pow_add, show n - k + k = n by omega]; exact hm
    have hq : m / 2 ^ k < 2 ^ (n - k) := Nat.div_lt_of_lt_mul (by rw [Nat.mul_comm]; exact hm2)
    by_cases hb : m / 2 ^ k % 2 = 0
    · rw [if_pos hb, hbit, decide_eq_false (by omega), sgB, one_mul]
      have hm' : m + 2 ^ k < 2 ^ n := by
        have heven : 2 ^ (n - k) % 2 = 0 := by
          rw [show n - k = (n - k - 1) + 1 by omega, Nat.pow_succ]; omega
        have hq2 : m / 2 ^ k + 1 < 2 ^ (n - k) := by omega
        have hd := Nat.div_add_mod m (2 ^ k)
        have hr := Nat.mod_lt m hpos
        have : (m / 2 ^ k + 2) * 2 ^ k ≤ 2 ^ (n - k) * 2 ^ k := Nat.mul_le_mul_right _ (by omega)
        rw [← Nat.pow_add, show n - k + k = n by omega, Nat.add_mul] at this
        rw [Nat.mul_comm] at hd
        omega
      rw [hc m hm, hc _ hm', Nat.add_div_right _ hpos, Nat.succ_mul, hdiv]
      have e : m / 2 ^ k / 2 * 2 = m / 2 ^ k := by omega
      rw [e, Nat.add_comm m, wht_high]
      congr 1
      refine wht_congr (fun y _ => ?_) _
      rw [Nat.add_assoc]
    · rw [if_neg hb, hbit, decide_eq_true (by omega), sgB]
      have hge : 2 ^ k ≤ m := by
        by_contra hlt
        rw [Nat.div_eq_of_lt (by omega)] at hb; simp at hb
      obtain ⟨r, rfl⟩ := Nat.exists_eq_add_of_le hge
      have e0 : 2 ^ k + r - 2 ^ k = r := by omega
      have e1 : (2 ^ k + r) / 2 ^ k = r / 2 ^ k + 1 := by
        rw [Nat.add_comm, Nat.add_div_right _ hpos]
      rw [e0, hc r (by omega), hc _ hm, hdiv, wht_high, wht_high, wht_high, e1]
      rw [e1] at hb hmod
      have e : (r / 2 ^ k + 1) / 2 * 2 = r / 2 ^ k := by omega
      rw [e]
      rw [sub_eq_add_neg, neg_one_mul]
      congr 2
      refine wht_congr (fun y _ => ?_) _
      rw [Nat.add_mul]; congr 1; ring
  have hfin := whileLoop_inv P (2 ^ n) (fun s : Nat × (Nat → ℝ) => decide (s.1 < 2 ^ n))
    (fun s => (s.1 * 2, fwhtPass (2 ^ n) s.1 s.2)) (1, a) h0 hstep
  have hdone := whileLoop_done (fun s : Nat × (Nat → ℝ) => 2 ^ n - s.1) P (2 ^ n)
    (fun s : Nat × (Nat → ℝ) => decide (s.1 < 2 ^ n))
    (fun s => (s.1 * 2, fwhtPass (2 ^ n) s.1 s.2)) (1, a) h0 hstep (by
      rintro s ⟨k, _, hk, _⟩ hlt
      have hlt : s.1 < 2 ^ n := by simpa using hlt
      have hpos : 0 < 2 ^ k := Nat.two_pow_pos k
      rw [← hk] at hpos
      simp only
      omega) (by have := Nat.two_pow_pos n; simp only; omega)
  obtain ⟨k, hk, hk1, hk2⟩ := hfin
  have hkn : k = n := by
    have h1 : ¬ (whileLoop (2 ^ n) (fun s : Nat × (Nat → ℝ) => decide (s.1 < 2 ^ n))
      (fun s => (s.1 * 2, fwhtPass (2 ^ n) s.1 s.2)) (1, a)).1 < 2 ^ n := by simpa using hdone
    rw [hk1] at h1
    have := (Nat.pow_le_pow_iff_right (a := 2) (by omega)).1 (Nat.not_lt.1 h1)
    omega
  subst hkn
  unfold fwht
  rw [hk2 m hm]
  refine wht_congr (fun y _ => ?_) _
  rw [Nat.div_eq_of_lt hm]; simp

end Verif.Circ
