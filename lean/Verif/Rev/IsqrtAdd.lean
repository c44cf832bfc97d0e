import Verif.Loop
import Verif.Rev.Reg

/-!
Model of the adders in `/repo/src/qrisp/alg_primitives/arithmetic/isqrt/isqrt_algorithm.py`
(lines 23-97), with registers given by index functions `Nat → Q`.
-/

set_option linter.unusedSectionVars false

namespace Verif.Rev

variable {Q : Type} [DecidableEq Q]

/-- Toffoli as a map on basis states. -/
def ccxS (a b t : Q) (s : St Q) : St Q := upd s t (s t ^^ (s a && s b))
/-- CX controlled on zero (`mcx([c], t, ctrl_state=0)`). -/
def cx0S (c t : Q) (s : St Q) : St Q := upd s t (s t ^^ !(s c))

/-- `for i in range(hi - 1, lo - 1, -1)`. -/
def ford {σ : Type*} (lo hi : Nat) (body : Nat → σ → σ) (s : σ) : σ :=
  (List.range' lo (hi - lo)).reverse.foldl (fun s i => body i s) s

theorem ford_succ {σ : Type*} {lo hi : Nat} (h : lo ≤ hi) (body : Nat → σ → σ) (s : σ) :
    ford lo (hi + 1) body s = ford lo hi body (body hi s) := by
  unfold ford
  rw [Nat.succ_sub h, List.range'_concat, List.reverse_append]
  simp [Nat.add_sub_cancel' h]

theorem ford_empty {σ : Type*} {lo hi : Nat} (h : hi ≤ lo) (body : Nat → σ → σ) (s : σ) :
    ford lo hi body s = s := by
  unfold ford; rw [Nat.sub_eq_zero_of_le h]; rfl

theorem fori_empty {σ : Type*} {lo hi : Nat} (h : hi ≤ lo) (body : Nat → σ → σ) (s : σ) :
    fori lo hi body s = s := by
  unfold fori; rw [Nat.sub_eq_zero_of_le h]; rfl

/-- Invariant rule for descending loops. -/
theorem ford_inv {σ : Type*} (P : Nat → σ → Prop) {lo hi : Nat} (hle : lo ≤ hi)
    (body : Nat → σ → σ) (s : σ) (h0 : P hi s)
    (hs : ∀ i s, lo ≤ i → i < hi → P (i + 1) s → P i (body i s)) :
    P lo (ford lo hi body s) := by
  induction hi, hle using Nat.le_induction generalizing s with
  | base => rw [ford_empty le_rfl]; exact h0
  | succ k hk ih =>
    rw [ford_succ hk]
    exact ih _ (hs k s hk (Nat.lt_succ_self _) h0) (fun i s h1 h2 => hs i s h1 (Nat.lt_succ_of_lt h2))

/-- isqrt_algorithm.py:23-25 `peres`. -/
def peres (a b c : Q) (s : St Q) : St Q := cxS a b (ccxS a b c s)

/-- isqrt_algorithm.py:28-55 `add(A, B)`, `n = len(A)`. -/
def isqAdd (n : Nat) (A B : Nat → Q) (s : St Q) : St Q :=
  let s := fori 1 n (fun i => cxS (B i) (A i)) s
  let s := ford 1 (n - 1) (fun i => cxS (B i) (B (i + 1))) s
  let s := fori 0 (n - 1) (fun i => ccxS (B i) (A i) (B (i + 1))) s
  let s := ford 0 n (fun i s =>
    if i = n - 1 then cxS (B i) (A i) s else peres (B i) (A i) (B (i + 1)) s) s
  let s := fori 1 (n - 1) (fun i => cxS (B i) (B (i + 1))) s
  fori 1 n (fun i => cxS (B i) (A i)) s

/-- isqrt_algorithm.py:58-87 `control_add(z, B, A)`, `n = len(B)`. -/
def isqCtlAdd (n : Nat) (z : Q) (B A : Nat → Q) (s : St Q) : St Q :=
  let s := fori 1 n (fun i => cxS (A i) (B i)) s
  let s := ford 1 (n - 1) (fun i => cxS (A i) (A (i + 1))) s
  let s := fori 0 (n - 1) (fun i => ccxS (B i) (A i) (A (i + 1))) s
  let s := ccxS z (A (n - 1)) (B (n - 1)) s
  let s := ford 0 (n - 1) (fun i s => ccxS z (A i) (B i) (ccxS (B i) (A i) (A (i + 1)) s)) s
  let s := fori 1 (n - 1) (fun i => cxS (A i) (A (i + 1))) s
  fori 1 n (fun i => cxS (A i) (B i)) s

/-- isqrt_algorithm.py:90-97 `control_add_sub(z, A, B)`. -/
def isqAddSub (n : Nat) (z : Q) (A B : Nat → Q) (s : St Q) : St Q :=
  let s := fori 0 n (fun i => cxS z (A i)) s
  let s := isqAdd n A B s
  fori 0 n (fun i => cxS z (A i)) s

/-! ### Two registers seen through their bits -/

/-- The qubits `A 0 … A (n-1)`, `B 0 … B (n-1)` are pairwise different. -/
structure Lay (n : Nat) (A B : Nat → Q) : Prop where
  a : ∀ i j, i < n → j < n → A i = A j → i = j
  b : ∀ i j, i < n → j < n → B i = B j → i = j
  ab : ∀ i j, i < n → j < n → A i ≠ B j

theorem Lay.swap {n : Nat} {A B : Nat → Q} (h : Lay n A B) : Lay n B A :=
  ⟨h.b, h.a, fun i j hi hj e => h.ab j i hj hi e.symm⟩

/-- `t` has bits `a` in `A`, `b` in `B` and agrees with `s` elsewhere. -/
structure View (n : Nat) (A B : Nat → Q) (s : St Q) (a b : Nat → Bool) (t : St Q) : Prop where
  a : ∀ i, i < n → t (A i) = a i
  b : ∀ i, i < n → t (B i) = b i
  o : ∀ q, (∀ i, i < n → q ≠ A i ∧ q ≠ B i) → t q = s q

theorem View.swap {n : Nat} {A B : Nat → Q} {s t : St Q} {a b : Nat → Bool}
    (h : View n A B s a b t) : View n B A s b a t :=
  ⟨h.b, h.a, fun q hq => h.o q fun i hi => ⟨(hq i hi).2, (hq i hi).1⟩⟩

theorem View.refl (n : Nat) (A B : Nat → Q) (s : St Q) :
    View n A B s (fun i => s (A i)) (fun i => s (B i)) s := ⟨fun _ _ => rfl, fun _ _ => rfl, fun _ _ => rfl⟩

theorem View.congr {n : Nat} {A B : Nat → Q} {s t : St Q} {a b a' b' : Nat → Bool}
    (h : View n A B s a b t) (ha : ∀ i, i < n → a i = a' i) (hb : ∀ i, i < n → b i = b' i) :
    View n A B s a' b' t :=
  ⟨fun i hi => (h.a i hi).trans (ha i hi), fun i hi => (h.b i hi).trans (hb i hi), h.o⟩

theorem View.updA {n : Nat} {A B : Nat → Q} {s t : St Q} {a b : Nat → Bool} (hl : Lay n A B)
    (h : View n A B s a b t) (k : Nat) (hk : k < n) (v : Bool) :
    View n A B s (fun i => if i = k then v else a i) b (upd t (A k) v) := by
  refine ⟨fun i hi => ?_, fun i hi => ?_, fun q hq => ?_⟩
  · by_cases e : i = k
    · subst e; simp [upd]
    · have : A i ≠ A k := fun e' => e (hl.a i k hi hk e')
      simp [upd, this, e, h.a i hi]
  · have : B i ≠ A k := fun e => hl.ab k i hk hi e.symm
    simp [upd, this, h.b i hi]
  · have : q ≠ A k := (hq k hk).1
    simp [upd, this, h.o q hq]

theorem View.updB {n : Nat} {A B : Nat → Q} {s t : St Q} {a b : Nat → Bool} (hl : Lay n A B)
    (h : View n A B s a b t) (k : Nat) (hk : k < n) (v : Bool) :
    View n A B s a (fun i => if i = k then v else b i) (upd t (B k) v) :=
  (h.swap.updA hl.swap k hk v).swap

/-- Carries of the addition of the bit sequences. -/
def carryOf (a b : Nat → Bool) : Nat → Bool
  | 0 => false
  | i + 1 => (a i && b i) || (carryOf a b i && (a i ^^ b i))

/-- Number with the given low bits. -/
def bval : Nat → (Nat → Bool) → Nat
  | 0, _ => 0
  | n + 1, a => bval n a + 2 ^ n * (a n).toNat

theorem bval_lt (n : Nat) (a : Nat → Bool) : bval n a < 2 ^ n := by
  induction n with
  | zero => simp [bval]
  | succ n ih =>
    rw [bval, pow_succ]
    cases a n <;> simp <;> omega

theorem bval_congr (n : Nat) {a b : Nat → Bool} (h : ∀ i, i < n → a i = b i) : bval n a = bval n b := by
  induction n with
  | zero => rfl
  | succ n ih => rw [bval, bval, ih (fun i hi => h i (by omega)), h n (by omega)]

theorem bval_inj (n : Nat) {a b : Nat → Bool} (h : bval n a = bval n b) : ∀ i, i < n → a i = b i := by
  induction n with
  | zero => intro i hi; omega
  | succ n ih =>
    rw [bval, bval] at h
    have h1 := bval_lt n a
    have h2 := bval_lt n b
    have h3 : a n = b n := by
      cases ha : a n <;> cases hb : b n <;> simp [ha, hb] at h <;> first | rfl | omega
    intro i hi
    rcases Nat.lt_succ_iff_lt_or_eq.1 hi with h4 | h4
    · exact ih (by rw [h3] at h; omega) i h4
    · rw [h4]; exact h3

theorem bval_add (n : Nat) (a b : Nat → Bool) :
    bval n a + bval n b
      = bval n (fun i => a i ^^ b i ^^ carryOf a b i) + 2 ^ n * (carryOf a b n).toNat := by
  induction n with
  | zero => simp [bval, carryOf]
  | succ n ih =>
    simp only [bval, carryOf]
    rw [pow_succ]
    generalize carryOf a b n = c at *
    cases a n <;> cases b n <;> cases c <;> simp at ih ⊢ <;> omega

theorem bval_not (n : Nat) (a : Nat → Bool) : bval n (fun i => !(a i)) = 2 ^ n - 1 - bval n a := by
  induction n with
  | zero => simp [bval]
  | succ n ih =>
    simp only [bval]
    have := bval_lt n a
    rw [ih, pow_succ]
    cases a n <;> simp <;> omega

theorem regVal_range (n : Nat) (A : Nat → Q) (s : St Q) :
    regVal ((List.range n).map A) s = bval n (fun i => s (A i)) := by
  induction n with
  | zero => rfl
  | succ n ih =>
    rw [List.range_succ, List.map_append, regVal_append, ih]
    simp [bval]

/-- Bits of `B` during the upward sweep. -/
def sweep (a b : Nat → Bool) : Nat → Bool
  | 0 => b 0
  | i + 1 => b (i + 1) ^^ (sweep a b i && a i)

/-- The sweep on prepared bits is the carry XOR the addend bit. -/
theorem sweep_carry (a b : Nat → Bool) (i : Nat) :
    sweep (fun i => if 1 ≤ i then a i ^^ b i else a i)
      (fun i => if 2 ≤ i then b i ^^ b (i - 1) else b i) i = (b i ^^ carryOf a b i) := by
  induction i with
  | zero => simp [sweep, carryOf]
  | succ i ih =>
    rw [sweep, ih]
    rcases i with _ | i
    · simp only [carryOf]
      cases a 0 <;> cases b 0 <;> cases b 1 <;> rfl
    · rw [show carryOf a b (i + 1 + 1) = ((a (i + 1) && b (i + 1))
        || (carryOf a b (i + 1) && (a (i + 1) ^^ b (i + 1)))) from rfl]
      have e1 : (2 ≤ i + 1 + 1) = True := by simp
      have e2 : (1 ≤ i + 1) = True := by simp
      simp only [e1, e2, if_true, Nat.add_sub_cancel]
      cases a (i + 1) <;> cases b (i + 1) <;> cases b (i + 2) <;> cases carryOf a b (i + 1) <;> rfl

/-- The common body of the adders; `g` adds `B i` (or its controlled value) to `A i`. -/
theorem adder_core {n : Nat} {A B : Nat → Q} (hl : Lay n A B) (hn : 0 < n) (s : St Q) (zv : Bool)
    (g : Nat → St Q → St Q) (a b : Nat → Bool)
    (hg : ∀ t a b i, i < n → View n A B s a b t →
      View n A B s (fun j => if j = i then a i ^^ (zv && b i) else a j) b (g i t))
    (t0 : St Q) (h0 : View n A B s a b t0) :
    View n A B s (fun i => a i ^^ (zv && (b i ^^ carryOf a b i))) b
      (let s := fori 1 n (fun i => cxS (B i) (A i)) t0
       let s := ford 1 (n - 1) (fun i => cxS (B i) (B (i + 1))) s
       let s := fori 0 (n - 1) (fun i => ccxS (B i) (A i) (B (i + 1))) s
       let s := g (n - 1) s
       let s := ford 0 (n - 1) (fun i s => g i (ccxS (B i) (A i) (B (i + 1)) s)) s
       let s := fori 1 (n - 1) (fun i => cxS (B i) (B (i + 1))) s
       fori 1 n (fun i => cxS (B i) (A i)) s) := by
  -- step 1
  have xorStep : ∀ (a b : Nat → Bool) (t : St Q), View n A B s a b t →
      View n A B s (fun i => if 1 ≤ i then a i ^^ b i else a i) b
        (fori 1 n (fun i => cxS (B i) (A i)) t) := by
    intro a b t ht
    have := fori_inv (P := fun k t =>
      View n A B s (fun i => if 1 ≤ i ∧ i < k then a i ^^ b i else a i) b t) (lo := 1) (hi := n)
      hn (fun i => cxS (B i) (A i)) t (ht.congr (fun i _ => by simp; intros; omega) (fun _ _ => rfl)) (by
        intro i t h1 h2 hv
        have := hv.updA hl i h2 (t (A i) ^^ t (B i))
        refine this.congr (fun j hj => ?_) (fun _ _ => rfl)
        by_cases e : j = i
        · subst e
          rw [if_pos rfl, hv.a j hj, hv.b j hj]
          simp [h1]
        · rw [if_neg e]
          have : (1 ≤ j ∧ j < i) = (1 ≤ j ∧ j < i + 1) := by
            apply propext; omega
          simp only [this])
    refine this.congr (fun i hi => ?_) (fun _ _ => rfl)
    simp [hi]
  set a1 : Nat → Bool := fun i => if 1 ≤ i then a i ^^ b i else a i with ha1
  set b1 : Nat → Bool := fun i => if 2 ≤ i then b i ^^ b (i - 1) else b i with hb1
  have s1 := xorStep a b t0 h0
  set t1 := fori 1 n (fun i => cxS (B i) (A i)) t0 with ht1
  -- step 2
  have s2 : View n A B s a1 b1 (ford 1 (n - 1) (fun i => cxS (B i) (B (i + 1))) t1) := by
    by_cases h1 : 1 ≤ n - 1
    · have := ford_inv (P := fun k t =>
        View n A B s a1 (fun i => if k + 1 ≤ i then b i ^^ b (i - 1) else b i) t) (lo := 1)
        (hi := n - 1) h1 (fun i => cxS (B i) (B (i + 1))) t1
        (s1.congr (fun _ _ => rfl) (fun i hi => by rw [if_neg (by omega)])) (by
          intro i t h1 h2 hv
          have := hv.updB hl (i + 1) (by omega) (t (B (i + 1)) ^^ t (B i))
          refine this.congr (fun _ _ => rfl) (fun j hj => ?_)
          by_cases e : j = i + 1
          · subst e
            rw [if_pos rfl, hv.b _ hj, hv.b i (by omega), if_neg (by omega), if_neg (by omega),
              if_pos (by omega)]
            simp
          · rw [if_neg e]
            have : (i + 1 + 1 ≤ j) = (i + 1 ≤ j) := by apply propext; omega
            simp only [this])
      exact this
    · rw [ford_empty (by omega)]
      refine s1.congr (fun _ _ => rfl) (fun i hi => ?_)
      rw [hb1]; simp only; rw [if_neg (by omega)]
  set t2 := ford 1 (n - 1) (fun i => cxS (B i) (B (i + 1))) t1 with ht2
  -- step 3
  have s3 : View n A B s a1 (sweep a1 b1)
      (fori 0 (n - 1) (fun i => ccxS (B i) (A i) (B (i + 1))) t2) := by
    have := fori_inv (P := fun k t =>
      View n A B s a1 (fun i => if i ≤ k then sweep a1 b1 i else b1 i) t) (lo := 0)
      (hi := n - 1) (Nat.zero_le _) (fun i => ccxS (B i) (A i) (B (i + 1))) t2
      (s2.congr (fun _ _ => rfl) (fun i hi => by
        by_cases e : i = 0
        · subst e; simp [sweep]
        · rw [if_neg (by omega)])) (by
        intro i t h1 h2 hv
        have := hv.updB hl (i + 1) (by omega) (t (B (i + 1)) ^^ (t (B i) && t (A i)))
        refine this.congr (fun _ _ => rfl) (fun j hj => ?_)
        by_cases e : j = i + 1
        · subst e
          rw [if_pos rfl, hv.b _ hj, hv.b i (by omega), hv.a i (by omega), if_neg (by omega),
            if_pos (by omega), if_pos (by omega), sweep]
        · rw [if_neg e]
          have : (j ≤ i) = (j ≤ i + 1) := by apply propext; omega
          simp only [this])
    refine this.congr (fun _ _ => rfl) (fun i hi => ?_)
    rw [if_pos (by omega)]
  set t3 := fori 0 (n - 1) (fun i => ccxS (B i) (A i) (B (i + 1))) t2 with ht3
  -- step 4
  have s4 := hg t3 _ _ (n - 1) (by omega) s3
  set t4 := g (n - 1) t3 with ht4
  have s5 : View n A B s (fun i => a1 i ^^ (zv && sweep a1 b1 i)) b1
      (ford 0 (n - 1) (fun i s => g i (ccxS (B i) (A i) (B (i + 1)) s)) t4) := by
    have := ford_inv (P := fun k t =>
      View n A B s (fun i => if k ≤ i then a1 i ^^ (zv && sweep a1 b1 i) else a1 i)
        (fun i => if i ≤ k then sweep a1 b1 i else b1 i) t) (lo := 0)
      (hi := n - 1) (Nat.zero_le _) (fun i s => g i (ccxS (B i) (A i) (B (i + 1)) s)) t4
      (s4.congr (fun i hi => by
          by_cases e : i = n - 1
          · subst e; simp
          · rw [if_neg e, if_neg (by omega)])
        (fun i hi => by rw [if_pos (by omega)])) (by
        intro i t h1 h2 hv
        have h3 := hv.updB hl (i + 1) (by omega) (t (B (i + 1)) ^^ (t (B i) && t (A i)))
        have h4 := hg _ _ _ i (by omega) h3
        refine h4.congr (fun j hj => ?_) (fun j hj => ?_)
        · by_cases e : j = i
          · subst e
            simp
          · have : (i + 1 ≤ j) = (i ≤ j) := by apply propext; omega
            simp only [if_neg e, this]
        · by_cases e : j = i + 1
          · subst e
            rw [if_pos rfl, hv.b _ hj, hv.b i (by omega), hv.a i (by omega), if_pos (by omega),
              if_pos (by omega), if_neg (by omega), if_neg (by omega), sweep]
            cases b1 (i + 1) <;> cases sweep a1 b1 i <;> cases a1 i <;> rfl
          · rw [if_neg e]
            have : (j ≤ i + 1) = (j ≤ i) := by apply propext; omega
            simp only [this])
    refine this.congr (fun i hi => by simp) (fun i hi => ?_)
    by_cases e : i = 0
    · subst e; simp [sweep]
    · rw [if_neg (by omega)]
  set t5 := ford 0 (n - 1) (fun i s => g i (ccxS (B i) (A i) (B (i + 1)) s)) t4 with ht5
  -- step 5
  set a5 : Nat → Bool := fun i => a1 i ^^ (zv && sweep a1 b1 i) with ha5
  have s6 : View n A B s a5 b (fori 1 (n - 1) (fun i => cxS (B i) (B (i + 1))) t5) := by
    by_cases h1 : 1 ≤ n - 1
    · have := fori_inv (P := fun k t =>
        View n A B s a5 (fun i => if i ≤ k then b i else b1 i) t) (lo := 1)
        (hi := n - 1) h1 (fun i => cxS (B i) (B (i + 1))) t5
        (s5.congr (fun _ _ => rfl) (fun i hi => by
          by_cases e : i ≤ 1
          · rw [if_pos e, hb1]; simp only; rw [if_neg (by omega)]
          · rw [if_neg e])) (by
          intro i t h1 h2 hv
          have := hv.updB hl (i + 1) (by omega) (t (B (i + 1)) ^^ t (B i))
          refine this.congr (fun _ _ => rfl) (fun j hj => ?_)
          by_cases e : j = i + 1
          · subst e
            rw [if_pos rfl, hv.b _ hj, hv.b i (by omega), if_neg (by omega), if_pos (by omega),
              if_pos (by omega), hb1]
            simp only
            rw [if_pos (by omega)]
            simp
          · rw [if_neg e]
            have : (j ≤ i) = (j ≤ i + 1) := by apply propext; omega
            simp only [this])
      refine this.congr (fun _ _ => rfl) (fun i hi => ?_)
      rw [if_pos (by omega)]
    · rw [fori_empty (by omega)]
      refine s5.congr (fun _ _ => rfl) (fun i hi => ?_)
      rw [hb1]; simp only; rw [if_neg (by omega)]
  -- step 6
  have s7 := xorStep a5 b _ s6
  refine s7.congr (fun i hi => ?_) (fun _ _ => rfl)
  have e := sweep_carry a b i
  rw [← ha1, ← hb1] at e
  have e2 : a5 i = (a1 i ^^ (zv && (b i ^^ carryOf a b i))) := by rw [← e]
  rw [e2]
  simp only [ha1]
  by_cases h : 1 ≤ i
  · simp only [h, if_true]
    cases a i <;> cases b i <;> cases carryOf a b i <;> cases zv <;> rfl
  · simp only [h, if_false]

/-- What the adder does to the bits. -/
theorem isqAdd_view {n : Nat} {A B : Nat → Q} (hl : Lay n A B) (s : St Q) :
    View n A B s (fun i => s (A i) ^^ s (B i) ^^ carryOf (fun i => s (A i)) (fun i => s (B i)) i)
      (fun i => s (B i)) (isqAdd n A B s) := by
  rcases Nat.eq_zero_or_pos n with h | hn
  · subst h
    refine ⟨fun i hi => by omega, fun i hi => by omega, fun q _ => ?_⟩
    simp [isqAdd, fori, ford]
  have := adder_core hl hn s true (fun i => cxS (B i) (A i)) (fun i => s (A i)) (fun i => s (B i))
    (by
      intro t a b i hi hv
      refine (hv.updA hl i hi (t (A i) ^^ t (B i))).congr (fun j hj => ?_) (fun _ _ => rfl)
      by_cases e : j = i
      · subst e; simp [hv.a j hj, hv.b j hj]
      · simp [e]) s (View.refl n A B s)
  have e : ∀ t : St Q, ford 0 n (fun i s =>
      if i = n - 1 then cxS (B i) (A i) s else peres (B i) (A i) (B (i + 1)) s) t
      = ford 0 (n - 1) (fun i s => cxS (B i) (A i) (ccxS (B i) (A i) (B (i + 1)) s))
        (cxS (B (n - 1)) (A (n - 1)) t) := by
    intro t
    obtain ⟨k, rfl⟩ : ∃ k, n = k + 1 := ⟨n - 1, by omega⟩
    rw [ford_succ (Nat.zero_le k)]
    simp only [Nat.add_sub_cancel, if_true]
    generalize cxS (B k) (A k) t = t'
    unfold ford
    generalize hlst : List.range' 0 (k - 0) = l
    have hmem : ∀ x ∈ l.reverse, x ≠ k := by
      intro x hx
      rw [List.mem_reverse, ← hlst, List.mem_range'] at hx
      obtain ⟨j, hj, rfl⟩ := hx
      omega
    revert hmem
    generalize l.reverse = l'
    intro hmem
    induction l' generalizing t' with
    | nil => rfl
    | cons x r ih =>
      simp only [List.foldl_cons]
      rw [if_neg (hmem x (by simp)), ih _ (fun y hy => hmem y (by simp [hy]))]
      rfl
  refine View.congr (a := fun i => s (A i) ^^ (true && (s (B i)
    ^^ carryOf (fun i => s (A i)) (fun i => s (B i)) i))) ?_ (fun i hi => ?_) (fun _ _ => rfl)
  · unfold isqAdd
    simp only [e]
    exact this
  · simp [Bool.xor_assoc]

/-- What the controlled adder does to the bits (`B` is increased by `A`). -/
theorem isqCtlAdd_view {n : Nat} {A B : Nat → Q} (hl : Lay n A B) (hn : 0 < n) (z : Q)
    (hz : ∀ i, i < n → z ≠ A i ∧ z ≠ B i) (s : St Q) :
    View n B A s
      (fun i => s (B i) ^^ (s z && (s (A i) ^^ carryOf (fun i => s (B i)) (fun i => s (A i)) i)))
      (fun i => s (A i)) (isqCtlAdd n z B A s) := by
  have := adder_core hl.swap hn s (s z) (fun i => ccxS z (A i) (B i)) (fun i => s (B i))
    (fun i => s (A i))
    (by
      intro t a b i hi hv
      have hzz : t z = s z := hv.o z (fun i hi => ⟨(hz i hi).2, (hz i hi).1⟩)
      refine (hv.updA hl.swap i hi (t (B i) ^^ (t z && t (A i)))).congr (fun j hj => ?_)
        (fun _ _ => rfl)
      by_cases e : j = i
      · subst e; simp [hv.a j hj, hv.b j hj, hzz]
      · simp [e]) s (View.refl n B A s)
  have e : ∀ i (s : St Q), ccxS (B i) (A i) (A (i + 1)) s = ccxS (A i) (B i) (A (i + 1)) s := by
    intro i s; simp [ccxS, Bool.and_comm]
  have e' : (fun i => ccxS (B i) (A i) (A (i + 1))) = fun i => ccxS (A i) (B i) (A (i + 1)) := by
    funext i s; exact e i s
  unfold isqCtlAdd
  simp only [e, e']
  exact this

/-- XOR of `z` onto a register. -/
theorem zxor_view {n : Nat} {A B : Nat → Q} (hl : Lay n A B) (z : Q)
    (hz : ∀ i, i < n → z ≠ A i ∧ z ≠ B i) (s t : St Q) (a b : Nat → Bool)
    (ht : View n A B s a b t) :
    View n A B s (fun i => a i ^^ s z) b (fori 0 n (fun i => cxS z (A i)) t) := by
  have := fori_inv (P := fun k t =>
    View n A B s (fun i => if i < k then a i ^^ s z else a i) b t) (lo := 0) (hi := n)
    (Nat.zero_le _) (fun i => cxS z (A i)) t (ht.congr (fun i _ => by simp) (fun _ _ => rfl)) (by
      intro i t h1 h2 hv
      have hzz : t z = s z := hv.o z hz
      refine (hv.updA hl i h2 (t (A i) ^^ t z)).congr (fun j hj => ?_) (fun _ _ => rfl)
      by_cases e : j = i
      · subst e
        rw [if_pos rfl, hv.a j hj, hzz]; simp
      · rw [if_neg e]
        have : (j < i) = (j < i + 1) := by apply propext; omega
        simp only [this])
  refine this.congr (fun i hi => ?_) (fun _ _ => rfl)
  simp [hi]

theorem carryOf_congr {n : Nat} {a b a' b' : Nat → Bool} (ha : ∀ i, i < n → a i = a' i)
    (hb : ∀ i, i < n → b i = b' i) : ∀ i, i ≤ n → carryOf a b i = carryOf a' b' i := by
  intro i
  induction i with
  | zero => intro _; rfl
  | succ i ih => intro h; rw [carryOf, carryOf, ih (by omega), ha i (by omega), hb i (by omega)]

/-- Values: `add`. -/
theorem isqAdd_spec {n : Nat} {A B : Nat → Q} (hl : Lay n A B) (s : St Q) :
    bval n (fun i => isqAdd n A B s (A i))
      = (bval n (fun i => s (A i)) + bval n (fun i => s (B i))) % 2 ^ n
    ∧ ∀ q, (∀ i, i < n → q ≠ A i) → isqAdd n A B s q = s q := by
  have h := isqAdd_view hl s
  constructor
  · rw [bval_congr n h.a, bval_add, Nat.add_mul_mod_self_left, Nat.mod_eq_of_lt (bval_lt _ _)]
  · intro q hq
    by_cases hb : ∃ i, i < n ∧ q = B i
    · obtain ⟨i, hi, rfl⟩ := hb; exact h.b i hi
    · push Not at hb
      exact h.o q fun i hi => ⟨hq i hi, hb i hi⟩

/-- Values: `control_add`. -/
theorem isqCtlAdd_spec {n : Nat} {A B : Nat → Q} (hl : Lay n A B) (hn : 0 < n) (z : Q)
    (hz : ∀ i, i < n → z ≠ A i ∧ z ≠ B i) (s : St Q) :
    bval n (fun i => isqCtlAdd n z B A s (B i))
      = (bval n (fun i => s (B i)) + if s z then bval n (fun i => s (A i)) else 0) % 2 ^ n
    ∧ ∀ q, (∀ i, i < n → q ≠ B i) → isqCtlAdd n z B A s q = s q := by
  have h := isqCtlAdd_view hl hn z hz s
  constructor
  · rw [bval_congr n h.a]
    cases s z
    · simp [Nat.mod_eq_of_lt (bval_lt _ _)]
    · simp only [Bool.true_and, if_true, ← Bool.xor_assoc]
      rw [bval_add, Nat.add_mul_mod_self_left, Nat.mod_eq_of_lt (bval_lt _ _)]
  · intro q hq
    by_cases hb : ∃ i, i < n ∧ q = A i
    · obtain ⟨i, hi, rfl⟩ := hb; exact h.b i hi
    · push Not at hb
      exact h.o q fun i hi => ⟨hq i hi, hb i hi⟩

/-- Values: `control_add_sub`. -/
theorem isqAddSub_spec {n : Nat} {A B : Nat → Q} (hl : Lay n A B) (z : Q)
    (hz : ∀ i, i < n → z ≠ A i ∧ z ≠ B i) (s : St Q) :
    (bval n (fun i => isqAddSub n z A B s (A i)) : Int)
      = ((bval n (fun i => s (A i)) : Int)
          + if s z then -(bval n (fun i => s (B i)) : Int) else bval n (fun i => s (B i))) % 2 ^ n
    ∧ ∀ q, (∀ i, i < n → q ≠ A i) → isqAddSub n z A B s q = s q := by
  have h1 := zxor_view hl z hz s s _ _ (View.refl n A B s)
  set s1 := fori 0 n (fun i => cxS z (A i)) s with hs1
  have h2 := isqAdd_view hl s1
  set s2 := isqAdd n A B s1 with hs2
  set a1 : Nat → Bool := fun i => s (A i) ^^ s z with ha1
  set b0 : Nat → Bool := fun i => s (B i) with hb0
  have h2' : View n A B s (fun i => a1 i ^^ b0 i ^^ carryOf a1 b0 i) b0 s2 := by
    refine ⟨fun i hi => ?_, fun i hi => ?_, fun q hq => ?_⟩
    · rw [h2.a i hi, h1.a i hi, h1.b i hi,
        carryOf_congr (fun i hi => h1.a i hi) (fun i hi => h1.b i hi) i hi.le]
    · rw [h2.b i hi, h1.b i hi]
    · rw [h2.o q hq, h1.o q hq]
  have h3 := zxor_view hl z hz s s2 _ _ h2'
  have e : isqAddSub n z A B s = fori 0 n (fun i => cxS z (A i)) s2 := rfl
  rw [e]
  constructor
  · rw [bval_congr n h3.a]
    have hpow : (1 : Int) ≤ 2 ^ n := one_le_pow₀ (by norm_num)
    have hA := bval_lt n (fun i => s (A i))
    have hB := bval_lt n b0
    have hadd := bval_add n a1 b0
    have hS := bval_lt n (fun i => a1 i ^^ b0 i ^^ carryOf a1 b0 i)
    cases hzv : s z
    · have ea : a1 = fun i => s (A i) := by funext i; simp [ha1, hzv]
      rw [ea] at hadd hS ⊢
      simp only [Bool.xor_false, Bool.false_eq_true, if_false]
      rw [← Int.emod_eq_of_lt (a := ((bval n _ : Nat) : Int)) (b := 2 ^ n) (by positivity)
        (by exact_mod_cast hS)]
      apply Int.emod_emod_of_dvd _ (dvd_refl _) |>.symm.trans
      rw [Int.emod_emod]
      have : ((bval n (fun i => s (A i)) : Nat) : Int) + bval n b0
        = ((bval n fun i => s (A i) ^^ b0 i ^^ carryOf (fun i => s (A i)) b0 i : Nat) : Int)
          + 2 ^ n * ((carryOf (fun i => s (A i)) b0 n).toNat : Int) := by exact_mod_cast hadd
      rw [this, Int.add_mul_emod_self_left]
    · have ea : a1 = fun i => !(s (A i)) := by funext i; simp [ha1, hzv]
      simp only [Bool.xor_true, if_true]
      rw [bval_not]
      rw [ea, bval_not] at hadd
      rw [← ea] at hadd
      have hSi : ((bval n (fun i => a1 i ^^ b0 i ^^ carryOf a1 b0 i) : Nat) : Int) < 2 ^ n := by
        exact_mod_cast hS
      have hAi : ((bval n (fun i => s (A i)) : Nat) : Int) < 2 ^ n := by exact_mod_cast hA
      have c1 : ((2 ^ n - 1 - bval n (fun i => a1 i ^^ b0 i ^^ carryOf a1 b0 i) : Nat) : Int)
          = 2 ^ n - 1 - (bval n (fun i => a1 i ^^ b0 i ^^ carryOf a1 b0 i) : Nat) := by
        have : bval n (fun i => a1 i ^^ b0 i ^^ carryOf a1 b0 i) ≤ 2 ^ n - 1 := by omega
        rw [Nat.cast_sub this, Nat.cast_sub (Nat.one_le_two_pow)]; push_cast; ring
      have c2 : ((2 ^ n - 1 - bval n (fun i => s (A i)) : Nat) : Int)
          = 2 ^ n - 1 - (bval n (fun i => s (A i)) : Nat) := by
        have : bval n (fun i => s (A i)) ≤ 2 ^ n - 1 := by omega
        rw [Nat.cast_sub this, Nat.cast_sub (Nat.one_le_two_pow)]; push_cast; ring
      have hadd' : (2 : Int) ^ n - 1 - (bval n (fun i => s (A i)) : Nat) + (bval n b0 : Nat)
          = (bval n (fun i => a1 i ^^ b0 i ^^ carryOf a1 b0 i) : Nat)
            + 2 ^ n * ((carryOf a1 b0 n).toNat : Int) := by
        rw [← c2]; exact_mod_cast hadd
      rw [c1]
      have e2 : (bval n (fun i => s (A i)) : Int) + -(bval n b0 : Int)
          = (2 ^ n - 1 - (bval n (fun i => a1 i ^^ b0 i ^^ carryOf a1 b0 i) : Nat))
            + 2 ^ n * (-((carryOf a1 b0 n).toNat : Int)) := by linarith
      rw [e2, Int.add_mul_emod_self_left, Int.emod_eq_of_lt (by linarith) (by
        have : (0 : Int) ≤ (bval n (fun i => a1 i ^^ b0 i ^^ carryOf a1 b0 i) : Nat) := by positivity
        linarith)]
  · intro q hq
    by_cases hb : ∃ i, i < n ∧ q = B i
    · obtain ⟨i, hi, rfl⟩ := hb; exact h3.b i hi
    · push Not at hb
      exact h3.o q fun i hi => ⟨hq i hi, hb i hi⟩

end Verif.Rev
