import Verif.Rev.Basic
import Mathlib.Algebra.BigOperators.Group.Finset.Basic
import Mathlib.Tactic.Ring
import Mathlib.Tactic.Linarith

/-!
# The carry-venting adder

Model of `alg_primitives/arithmetic/adders/gidney_venting_adder.py`. Gates act on a basis state with a sign. A vent is an
X-basis measurement followed by a reset: for the outcome `m` the amplitude of a basis state in which the qubit is 1 is
multiplied by `(-1)^m` (and every amplitude by `1/√2`), and the qubit is 0 afterwards.
-/

namespace Verif.Vent

open Verif.Rev (St upd)

variable {Q : Type} [DecidableEq Q]

/-! ### Model -/

/-- The gates of the adder. -/
inductive VG (Q : Type) where
  | x (q : Q)
  | cx (c t : Q)
  | ccx (a b t : Q)
  | z (q : Q)
  /-- `h(q); m = measure(q); reset(q)` with the outcome `m`. -/
  | vent (m : Bool) (q : Q)

/-- Effect on a basis state with a sign (`true`: -1). -/
def VG.app : VG Q → St Q × Bool → St Q × Bool
  | .x q, (s, p) => (upd s q (!s q), p)
  | .cx c t, (s, p) => (upd s t (s t ^^ s c), p)
  | .ccx a b t, (s, p) => (upd s t (s t ^^ (s a && s b)), p)
  | .z q, (s, p) => (s, p ^^ s q)
  | .vent m q, (s, p) => (upd s q false, p ^^ (m && s q))

/-- A list of gates. -/
def run (gs : List (VG Q)) (s : St Q × Bool) : St Q × Bool := gs.foldl (fun s g => g.app s) s

/-- `with control(b): x(q)` resp. `cx(ctrl, q)` (e.g. gidney_venting_adder.py:307-311). -/
def cX (ctrl : Option Q) (b : Bool) (q : Q) : List (VG Q) :=
  if b then (match ctrl with | none => [.x q] | some c => [.cx c q]) else []

/-- `bit_inverted_mcx` (gidney_venting_adder.py:49-97). -/
def bim (ctrl : Option Q) (p sc t : Q) (b : Bool) : List (VG Q) := cX ctrl b p ++ [.ccx p sc t] ++ cX ctrl b p

/-- `bit_inverted_zz_zz_mcx` (gidney_venting_adder.py:170-222). -/
def bizz (ctrl : Option Q) (p₁ p₂ t : Q) (b : Bool) : List (VG Q) :=
  cX ctrl b p₁ ++ cX ctrl b p₂ ++ [.ccx p₁ p₂ t] ++ cX ctrl b p₁ ++ cX ctrl b p₂

/-- `cx(carry, carry_xor_target[k])` (340-342, 378-380, 434-438). A missing register has length `nd = 0`. The code checks the
length for the last carry only; before that a short register would raise an exception. -/
def toDirty (D : ℕ → Q) (nd : ℕ) (c : Q) (k : ℕ) : List (VG Q) := if k < nd then [.cx c (D k)] else []

/-- The first building block (313-349). `A0`, `A1` are the clean ancillas. -/
def firstBlock (d : ℕ) (T : ℕ → Q) (A0 A1 : Q) (cin ctrl : Option Q) (D : ℕ → Q) (nd : ℕ) (m : ℕ → Bool) : List (VG Q) :=
  (match cin with
    | some c => bim ctrl c (T 0) A1 (d.testBit 0) ++ [.cx c (T 0)]
    | none => bim ctrl A0 (T 0) A1 (d.testBit 0)) ++
  cX ctrl (d.testBit 0) A1 ++ bim ctrl A1 (T 1) A0 (d.testBit 1) ++ [.cx A1 (T 1)] ++ toDirty D nd A1 0 ++ [.vent (m 0) A1]

/-- `process_middle_bit` (360-388) for `i = j + 2`. -/
def middle (d : ℕ) (T : ℕ → Q) (A0 A1 : Q) (ctrl : Option Q) (D : ℕ → Q) (nd : ℕ) (m : ℕ → Bool) (j : ℕ) : List (VG Q) :=
  let i := j + 2
  let cur := if i % 2 = 0 then A0 else A1
  let nxt := if i % 2 = 0 then A1 else A0
  cX ctrl (d.testBit (i - 1)) cur ++ bim ctrl cur (T i) nxt (d.testBit i) ++ [.cx cur (T i)] ++ toDirty D nd cur (j + 1) ++ [.vent (m (j + 1)) cur]

/-- `write_final_carry_to_msb` (406-462) for `n` qubits; `nd` is the number of dirty qubits. -/
def lastBlock (n d : ℕ) (T : ℕ → Q) (A0 A1 : Q) (ctrl : Option Q) (D : ℕ → Q) (nd : ℕ) (cout : Option Q) (m : ℕ → Bool) : List (VG Q) :=
  let nm := n - 4
  let cur := if nm % 2 = 0 then A0 else A1
  cX ctrl (d.testBit (max 1 (n - 3))) cur ++
  (if n = 3 then [.cx cur (T (n - 1))] else []) ++
  (if 3 < n then bim ctrl cur (T (n - 2)) (T (n - 1)) (d.testBit (n - 2)) ++ [.cx cur (T (n - 2))] else []) ++
  toDirty D nd cur (1 + nm) ++
  (match cout with | none => [] | some c => [.cx cur c]) ++
  [.vent (m (1 + nm)) cur] ++
  (if 3 < n then cX ctrl (d.testBit (n - 2)) (T (n - 1)) else [])

/-- `carry_venting_adder` (225-492) on `n ≥ 3` qubits; `m k` is the outcome recorded in bit `k` of `ventmask`. -/
def cva (n d : ℕ) (T : ℕ → Q) (A0 A1 : Q) (cin ctrl : Option Q) (D : ℕ → Q) (nd : ℕ) (cout : Option Q) (m : ℕ → Bool) : List (VG Q) :=
  ((List.range n).flatMap fun i => cX ctrl (d.testBit i) (T i)) ++ firstBlock d T A0 A1 cin ctrl D nd m ++
  ((List.range (n - 4)).flatMap fun j => middle d T A0 A1 ctrl D nd m j) ++ lastBlock n d T A0 A1 ctrl D nd cout m

/-- Number of vents for `n ≥ 3` qubits (490). -/
def numVents (n : ℕ) : ℕ := 2 + (n - 4)

/-- `ventmask` (349, 386, 451) with `k` recorded vents. -/
def ventmask (m : ℕ → Bool) (k : ℕ) : ℕ := (List.range k).foldl (fun v i => v + ((m i).toNat <<< i)) 0

/-- `bitwise_count(v) & 1`. -/
def parity (v : ℕ) : ℕ := ((List.range 64).countP fun i => v.testBit i) &&& 1

/-- `carry_xor_block` (495-571) with `n` dirty qubits. -/
def cxb (n d : ℕ) (D T : ℕ → Q) (cin ctrl : Option Q) : List (VG Q) :=
  ((List.range (n - 1)).flatMap fun j => let i := (n - 1) - j; bim ctrl (T i) (D (i - 1)) (D i) (d.testBit i)) ++
  ((List.range n).flatMap fun i => cX ctrl (d.testBit i) (D i)) ++
  (match cin with
    | some c => bizz ctrl c (T 0) (D 0) (d.testBit 0)
    | none => if d.testBit 0 then [.x (T 0), .cx (T 0) (D 0), .x (T 0)] else []) ++
  ((List.range (n - 1)).flatMap fun j => let i := j + 1; bizz ctrl (D (i - 1)) (T i) (D i) (d.testBit i))

/-- `for k in jrange(n): with control((v >> k) & 1): z(D[k])` (649-651). -/
def zMask (n v : ℕ) (D : ℕ → Q) : List (VG Q) := (List.range n).flatMap fun k => if (v >>> k) &&& 1 = 1 then [.z (D k)] else []

/-- `for i in jrange(n): x(T[i])`. -/
def xAll (n : ℕ) (T : ℕ → Q) : List (VG Q) := (List.range n).map fun i => .x (T i)

/-- `dirty_ancillae_adder` (574-665) on `n ≥ 3` target qubits with `nd` dirty qubits. -/
def dirtyAdder (n d : ℕ) (T D : ℕ → Q) (nd : ℕ) (A0 A1 : Q) (cin cout ctrl : Option Q) (m : ℕ → Bool) : List (VG Q) :=
  let v := ventmask m (numVents n)
  let v' := (v &&& ((1 <<< nd) - 1)) ^^^ (parity (v >>> nd) <<< (nd - 1))
  cva n d T A0 A1 cin ctrl D nd cout m ++ xAll n T ++ zMask nd v' D ++ cxb nd d D T cin ctrl ++ zMask nd v' D ++ xAll n T

/-- Three `cx` (830-832). -/
def swapG (a b : Q) : List (VG Q) := [.cx a b, .cx b a, .cx a b]

/-- `split_path` (813-893) of `gidney_cq_venting_adder` on `n ≥ 6` qubits. `mlo`, `mhi`, `mc` are the outcomes in the lower
half, in the upper half and of `clean0`. `A` are the clean ancillas. -/
def split (n d : ℕ) (T A : ℕ → Q) (cin cout ctrl : Option Q) (mlo mhi : ℕ → Bool) (mc : Bool) : List (VG Q) :=
  let h := (n - 1) >>> 1
  let dlo := d &&& ((1 <<< h) - 1)
  let dhi := d >>> h
  let vlo := ventmask mlo (numVents (h + 1))
  let full := (vlo &&& ((1 <<< (h - 1)) - 1)) ||| (((mc.toNat ^^^ parity (vlo >>> (h - 1))) &&& 1) <<< (h - 1))
  swapG (A 0) (T h) ++ cva (h + 1) dlo T (A 1) (A 2) cin ctrl T 0 none mlo ++ swapG (A 0) (T h) ++
  dirtyAdder (n - h) dhi (fun k => T (h + k)) T (max 1 (n - h - 2)) (A 1) (A 2) (some (A 0)) cout ctrl mhi ++
  [.vent mc (A 0)] ++
  xAll h T ++ zMask h full (fun k => T (h + k)) ++ cxb h dlo (fun k => T (h + k)) T cin ctrl ++
  zMask h full (fun k => T (h + k)) ++ cxb h dlo (fun k => T (h + k)) T cin ctrl ++ xAll h T

/-! ### Lemmas: gates -/

theorem run_append (A B : List (VG Q)) (s : St Q × Bool) : run (A ++ B) s = run B (run A s) := by
  unfold run; rw [List.foldl_append]

theorem run_nil (s : St Q × Bool) : run ([] : List (VG Q)) s = s := rfl

theorem run_cons (g : VG Q) (gs : List (VG Q)) (s : St Q × Bool) : run (g :: gs) s = run gs (g.app s) := rfl

theorem run_cx1 (c t : Q) (s : St Q) (p : Bool) : run [.cx c t] (s, p) = (upd s t (s t ^^ s c), p) := rfl

theorem run_vent1 (m : Bool) (q : Q) (s : St Q) (p : Bool) : run [.vent m q] (s, p) = (upd s q false, p ^^ (m && s q)) := rfl

/-- The value of an optional control. -/
def cval (ctrl : Option Q) (s : St Q) : Bool := match ctrl with | none => true | some c => s c

/-- The value of an optional carry. -/
def inval (cin : Option Q) (s : St Q) : Bool := match cin with | none => false | some c => s c

theorem upd_self' (s : St Q) (q : Q) : upd s q (s q) = s := by
  funext r; by_cases h : r = q
  · subst h; simp [upd]
  · simp [upd, h]

theorem run_cX (ctrl : Option Q) (b : Bool) (q : Q) (s : St Q) (p : Bool) :
    run (cX ctrl b q) (s, p) = (upd s q (s q ^^ (b && cval ctrl s)), p) := by
  unfold cX
  cases b
  · simp [run_nil, upd_self']
  · cases ctrl <;> simp [run_cons, run_nil, VG.app, cval]

theorem cval_upd {ctrl : Option Q} {q : Q} (h : ctrl ≠ some q) (s : St Q) (v : Bool) : cval ctrl (upd s q v) = cval ctrl s := by
  cases ctrl with
  | none => rfl
  | some c => simp [cval, upd, show c ≠ q from fun e => h (by rw [e])]

theorem inval_upd {cin : Option Q} {q : Q} (h : cin ≠ some q) (s : St Q) (v : Bool) : inval cin (upd s q v) = inval cin s := by
  cases cin with
  | none => rfl
  | some c => simp [inval, upd, show c ≠ q from fun e => h (by rw [e])]

theorem upd_same' (s : St Q) (q : Q) (v : Bool) : upd s q v q = v := by simp [upd]

theorem upd_ne' {q r : Q} (h : r ≠ q) (s : St Q) (v : Bool) : upd s q v r = s r := by simp [upd, h]

theorem upd_upd' (s : St Q) (q : Q) (v w : Bool) : upd (upd s q v) q w = upd s q w := by
  funext r; by_cases h : r = q <;> simp [upd, h]

theorem upd_comm' {a b : Q} (h : a ≠ b) (s : St Q) (v w : Bool) : upd (upd s a v) b w = upd (upd s b w) a v := by
  funext r
  by_cases h1 : r = a
  · subst h1; simp [upd, h]
  · by_cases h2 : r = b
    · subst h2; simp [upd, h1]
    · simp [upd, h1, h2]

theorem run_bim {ctrl : Option Q} {p sc t : Q} (hp : p ≠ t) (hps : p ≠ sc) (hcp : ctrl ≠ some p) (hct : ctrl ≠ some t) (b : Bool) (s : St Q) (ph : Bool) :
    run (bim ctrl p sc t b) (s, ph) = (upd s t (s t ^^ ((s p ^^ (b && cval ctrl s)) && s sc)), ph) := by
  unfold bim
  rw [run_append, run_append, run_cX, run_cons, run_nil]
  simp only [VG.app]
  rw [run_cX, cval_upd hct, cval_upd hcp]
  simp only [upd_same', upd_ne' hps.symm, upd_ne' hp.symm, upd_ne' hp]
  rw [upd_comm' hp, upd_upd']
  have : (s p ^^ (b && cval ctrl s) ^^ (b && cval ctrl s)) = s p := by cases s p <;> cases (b && cval ctrl s) <;> rfl
  rw [this]
  congr 1
  funext r
  by_cases h1 : r = p
  · subst h1; simp [upd, hp]
  · simp [upd, h1]

theorem run_bizz {ctrl : Option Q} {p₁ p₂ t : Q} (h1 : p₁ ≠ t) (h2 : p₂ ≠ t) (h12 : p₁ ≠ p₂) (hc1 : ctrl ≠ some p₁) (hc2 : ctrl ≠ some p₂)
    (hct : ctrl ≠ some t) (b : Bool) (s : St Q) (ph : Bool) :
    run (bizz ctrl p₁ p₂ t b) (s, ph) = (upd s t (s t ^^ ((s p₁ ^^ (b && cval ctrl s)) && (s p₂ ^^ (b && cval ctrl s)))), ph) := by
  unfold bizz
  rw [run_append, run_append, run_append, run_append, run_cX, run_cX, run_cons, run_nil]
  simp only [VG.app]
  rw [run_cX, run_cX]
  simp only [cval_upd hct, cval_upd hc1, cval_upd hc2, upd_same', upd_ne' h12, upd_ne' h12.symm, upd_ne' h1, upd_ne' h2, upd_ne' h1.symm, upd_ne' h2.symm]
  congr 1
  funext r
  by_cases r1 : r = p₁
  · subst r1; simp [upd, h1, h12]
  · by_cases r2 : r = p₂
    · subst r2; simp [upd, h2, r1]
    · simp [upd, r1, r2]

/-- The carry out of a position. -/
def maj (e x c : Bool) : Bool := e ^^ ((c ^^ e) && (x ^^ e))

/-- The carries of `e + x + c`. -/
def car (c : Bool) (e x : ℕ → Bool) : ℕ → Bool
  | 0 => c
  | k + 1 => maj (e k) (x k) (car c e x k)

/-- The carry recomputed from the complement of the sum. -/
theorem car_compl (c : Bool) (e x : ℕ → Bool) (k : ℕ) : car c e (fun i => !(x i ^^ e i ^^ car c e x i)) k = car c e x k := by
  induction k with
  | zero => rfl
  | succ k ih =>
    rw [car, ih, car]
    cases e k <;> cases x k <;> cases car c e x k <;> rfl

theorem car_congr {c : Bool} {e e' x x' : ℕ → Bool} {n : ℕ} (he : ∀ i < n, e i = e' i) (hx : ∀ i < n, x i = x' i) {k : ℕ} (hk : k ≤ n) :
    car c e x k = car c e' x' k := by
  induction k with
  | zero => rfl
  | succ k ih => rw [car, car, ih (by omega), he k (by omega), hx k (by omega)]

/-- Sign of a set of outcomes. -/
def sgn (n : ℕ) (m c : ℕ → Bool) : Bool := (List.range n).foldl (fun p k => p ^^ (m k && c k)) false

theorem sgn_succ (n : ℕ) (m c : ℕ → Bool) : sgn (n + 1) m c = (sgn n m c ^^ (m n && c n)) := by
  unfold sgn; rw [List.range_succ, List.foldl_append]; rfl

theorem sgn_congr {n : ℕ} {m c m' c' : ℕ → Bool} (h : ∀ k < n, (m k && c k) = (m' k && c' k)) : sgn n m c = sgn n m' c' := by
  induction n with
  | zero => rfl
  | succ n ih => rw [sgn_succ, sgn_succ, ih fun k hk => h k (by omega), h n (by omega)]

theorem sgn_xor (n : ℕ) (m c c' : ℕ → Bool) : (sgn n m c ^^ sgn n m c') = sgn n m fun k => c k ^^ c' k := by
  induction n with
  | zero => rfl
  | succ n ih =>
    rw [sgn_succ, sgn_succ, sgn_succ, ← ih]
    cases sgn n m c <;> cases sgn n m c' <;> cases m n <;> cases c n <;> cases c' n <;> rfl

/-! ### Lemmas: the carry chain -/

/-- The qubits of the vented addition are different. -/
structure Sep (n : ℕ) (T : ℕ → Q) (A0 A1 : Q) (ctrl : Option Q) (D : ℕ → Q) (nd : ℕ) : Prop where
  TT : ∀ i < n, ∀ j < n, T i = T j → i = j
  TA0 : ∀ i < n, T i ≠ A0
  TA1 : ∀ i < n, T i ≠ A1
  AA : A0 ≠ A1
  DD : ∀ i < nd, ∀ j < nd, D i = D j → i = j
  DA0 : ∀ i < nd, D i ≠ A0
  DA1 : ∀ i < nd, D i ≠ A1
  TD : ∀ i < n, ∀ j < nd, T i ≠ D j
  cA0 : ctrl ≠ some A0
  cA1 : ctrl ≠ some A1
  cT : ∀ i < n, ctrl ≠ some (T i)
  cD : ∀ i < nd, ctrl ≠ some (D i)

/-- State after `i` positions: `cur` holds the carry into position `i`, up to the correction by the addend. -/
structure Inv (n : ℕ) (T : ℕ → Q) (cur nxt : Q) (D : ℕ → Q) (nd : ℕ) (m e : ℕ → Bool) (C : ℕ → Bool) (s₀ : St Q) (p₀ : Bool) (i : ℕ) (s : St Q) (p : Bool) : Prop where
  hT : ∀ k < n, s (T k) = (s₀ (T k) ^^ e k ^^ (decide (k < i) && C k))
  hcur : s cur = (C i ^^ e (i - 1))
  hnxt : s nxt = false
  hD : ∀ k < nd, s (D k) = (s₀ (D k) ^^ (decide (k < i - 1) && C (k + 1)))
  hF : ∀ q, (∀ k < n, q ≠ T k) → q ≠ cur → q ≠ nxt → (∀ k < nd, q ≠ D k) → s q = s₀ q
  hp : p = (p₀ ^^ sgn (i - 1) m fun k => C (k + 1))

theorem Sep.swap {n : ℕ} {T : ℕ → Q} {A0 A1 : Q} {ctrl : Option Q} {D : ℕ → Q} {nd : ℕ} (h : Sep n T A0 A1 ctrl D nd) : Sep n T A1 A0 ctrl D nd where
  TT := h.TT
  TA0 := h.TA1
  TA1 := h.TA0
  AA := h.AA.symm
  DD := h.DD
  DA0 := h.DA1
  DA1 := h.DA0
  TD := h.TD
  cA0 := h.cA1
  cA1 := h.cA0
  cT := h.cT
  cD := h.cD

theorem run_toDirty (D : ℕ → Q) (nd : ℕ) (c : Q) (k : ℕ) (s : St Q) (p : Bool) :
    run (toDirty D nd c k) (s, p) = (if k < nd then upd s (D k) (s (D k) ^^ s c) else s, p) := by
  unfold toDirty
  by_cases h : k < nd
  · rw [if_pos h, if_pos h]; rfl
  · rw [if_neg h, if_neg h]; rfl

theorem cval_frame {ctrl : Option Q} {s s₀ : St Q} (h : ∀ c, ctrl = some c → s c = s₀ c) : cval ctrl s = cval ctrl s₀ := by
  cases ctrl with
  | none => rfl
  | some c => exact h c rfl

/-- The addend, switched by the control. -/
def addend (d : ℕ) (ctrl : Option Q) (s : St Q) : ℕ → Bool := fun k => d.testBit k && cval ctrl s

theorem Inv.cval {n : ℕ} {T : ℕ → Q} {cur nxt : Q} {D : ℕ → Q} {nd : ℕ} {m e C : ℕ → Bool} {s₀ s : St Q} {p₀ p : Bool} {i : ℕ} {ctrl : Option Q}
    (hs : Sep n T cur nxt ctrl D nd) (h : Inv n T cur nxt D nd m e C s₀ p₀ i s p) : cval ctrl s = cval ctrl s₀ :=
  cval_frame fun c hc => h.hF c (fun k hk e => hs.cT k hk (by rw [hc, e])) (fun e => hs.cA0 (by rw [hc, e])) (fun e => hs.cA1 (by rw [hc, e]))
    (fun k hk e => hs.cD k hk (by rw [hc, e]))

theorem maj_alt (e x c : Bool) : ((c ^^ e) && (x ^^ e)) = (maj e x c ^^ e) := by cases e <;> cases x <;> cases c <;> rfl

/-- One position of the chain. -/
def mid (d : ℕ) (T : ℕ → Q) (cur nxt : Q) (ctrl : Option Q) (D : ℕ → Q) (nd : ℕ) (m : ℕ → Bool) (i : ℕ) : List (VG Q) :=
  cX ctrl (d.testBit (i - 1)) cur ++ bim ctrl cur (T i) nxt (d.testBit i) ++ [.cx cur (T i)] ++ toDirty D nd cur (i - 1) ++ [.vent (m (i - 1)) cur]

theorem inv_mid {n d : ℕ} {T : ℕ → Q} {cur nxt : Q} {D : ℕ → Q} {nd : ℕ} {m : ℕ → Bool} {ctrl : Option Q} {s₀ s : St Q} {p₀ p c : Bool} {i : ℕ}
    (hs : Sep n T cur nxt ctrl D nd) (hi : 1 ≤ i) (hin : i < n)
    (h : Inv n T cur nxt D nd m (addend d ctrl s₀) (car c (addend d ctrl s₀) fun k => s₀ (T k)) s₀ p₀ i s p) :
    Inv n T nxt cur D nd m (addend d ctrl s₀) (car c (addend d ctrl s₀) fun k => s₀ (T k)) s₀ p₀ (i + 1)
      (run (mid d T cur nxt ctrl D nd m i) (s, p)).1 (run (mid d T cur nxt ctrl D nd m i) (s, p)).2 := by
  obtain ⟨j, rfl⟩ : ∃ j, i = j + 1 := ⟨i - 1, by omega⟩
  have hcv := h.cval hs
  set e := addend d ctrl s₀ with he
  set C := car c e fun k => s₀ (T k) with hC
  have hCs : C (j + 1 + 1) = maj (e (j + 1)) (s₀ (T (j + 1))) (C (j + 1)) := rfl
  have hTn := h.hT (j + 1) hin
  have hcur := h.hcur
  have hnxt := h.hnxt
  simp only [Nat.add_sub_cancel] at hcur
  have tc := hs.TA0 (j + 1) hin
  have tn := hs.TA1 (j + 1) hin
  -- the state
  have hrun : run (mid d T cur nxt ctrl D nd m (j + 1)) (s, p) =
      (upd (if j < nd then upd (upd (upd (upd s cur (C (j + 1))) nxt (C (j + 2) ^^ e (j + 1))) (T (j + 1)) (s₀ (T (j + 1)) ^^ e (j + 1) ^^ C (j + 1))) (D j) (s (D j) ^^ C (j + 1))
        else upd (upd (upd s cur (C (j + 1))) nxt (C (j + 2) ^^ e (j + 1))) (T (j + 1)) (s₀ (T (j + 1)) ^^ e (j + 1) ^^ C (j + 1))) cur false,
      p ^^ (m j && C (j + 1))) := by
    unfold mid
    simp only [Nat.add_sub_cancel]
    rw [run_append, run_append, run_append, run_append, run_cX, hcv, show (d.testBit j && cval ctrl s₀) = e j from rfl, hcur,
      show (C (j + 1) ^^ e j ^^ e j) = C (j + 1) by cases C (j + 1) <;> cases e j <;> rfl]
    rw [run_bim hs.AA tc.symm hs.cA0 hs.cA1, cval_upd hs.cA0, hcv, show (d.testBit (j + 1) && cval ctrl s₀) = e (j + 1) from rfl, upd_same',
      upd_ne' hs.AA.symm, hnxt, upd_ne' tc, hTn, show decide (j + 1 < j + 1) = false by simp, Bool.false_and, Bool.xor_false, maj_alt, ← hCs, Bool.false_xor]
    rw [run_cx1, upd_ne' hs.AA, upd_same', upd_ne' tn, upd_ne' tc, hTn, show decide (j + 1 < j + 1) = false by simp, Bool.false_and, Bool.xor_false, run_toDirty,
      run_vent1]
    have h1 : (upd (upd (upd s cur (C (j + 1))) nxt (C (j + 1 + 1) ^^ e (j + 1))) (T (j + 1)) (s₀ (T (j + 1)) ^^ e (j + 1) ^^ C (j + 1))) cur = C (j + 1) := by
      rw [upd_ne' tc.symm, upd_ne' hs.AA, upd_same']
    by_cases hd : j < nd
    · simp only [if_pos hd]
      rw [h1, upd_ne' (hs.DA0 j hd).symm, h1, upd_ne' (hs.TD (j + 1) hin j hd).symm, upd_ne' (hs.DA1 j hd), upd_ne' (hs.DA0 j hd)]
    · simp only [if_neg hd]
      rw [h1]
  rw [hrun]
  dsimp only
  refine ⟨fun k hk => ?_, ?_, ?_, fun k hk => ?_, fun q q1 q2 q3 q4 => ?_, ?_⟩
  · have k0 := hs.TA0 k hk
    have k1 := hs.TA1 k hk
    rw [upd_ne' k0]
    have hcore : (upd (upd (upd s cur (C (j + 1))) nxt (C (j + 2) ^^ e (j + 1))) (T (j + 1)) (s₀ (T (j + 1)) ^^ e (j + 1) ^^ C (j + 1))) (T k) =
        (s₀ (T k) ^^ e k ^^ (decide (k < j + 1 + 1) && C k)) := by
      by_cases hkj : k = j + 1
      · subst hkj
        rw [upd_same', show decide (j + 1 < j + 1 + 1) = true by simp, Bool.true_and]
      · rw [upd_ne' (fun e => hkj (hs.TT k hk _ hin e)), upd_ne' k1, upd_ne' k0, h.hT k hk]
        rw [show decide (k < j + 1) = decide (k < j + 1 + 1) from decide_eq_decide.mpr (by omega)]
    by_cases hd : j < nd
    · rw [if_pos hd, upd_ne' (hs.TD k hk j hd)]; exact hcore
    · rw [if_neg hd]; exact hcore
  · rw [upd_ne' hs.AA.symm]
    simp only [Nat.add_sub_cancel]
    have hcore : (upd (upd (upd s cur (C (j + 1))) nxt (C (j + 2) ^^ e (j + 1))) (T (j + 1)) (s₀ (T (j + 1)) ^^ e (j + 1) ^^ C (j + 1))) nxt =
        (C (j + 1 + 1) ^^ e (j + 1)) := by rw [upd_ne' tn.symm, upd_same']
    by_cases hd : j < nd
    · rw [if_pos hd, upd_ne' (hs.DA1 j hd).symm]; exact hcore
    · rw [if_neg hd]; exact hcore
  · rw [upd_same']
  · rw [upd_ne' (hs.DA0 k hk)]
    simp only [Nat.add_sub_cancel]
    have hcore : (upd (upd (upd s cur (C (j + 1))) nxt (C (j + 2) ^^ e (j + 1))) (T (j + 1)) (s₀ (T (j + 1)) ^^ e (j + 1) ^^ C (j + 1))) (D k) = s (D k) := by
      rw [upd_ne' (hs.TD _ hin k hk).symm, upd_ne' (hs.DA1 k hk), upd_ne' (hs.DA0 k hk)]
    have hDk := h.hD k hk
    simp only [Nat.add_sub_cancel] at hDk
    by_cases hkj : k = j
    · subst hkj
      rw [if_pos hk, upd_same', hDk]
      simp
    · have hle : decide (k < j) = decide (k < j + 1) := decide_eq_decide.mpr (by omega)
      by_cases hd : j < nd
      · rw [if_pos hd, upd_ne' (fun e => hkj (hs.DD k hk j hd e)), hcore, hDk, hle]
      · rw [if_neg hd, hcore, hDk, hle]
  · rw [upd_ne' q3]
    have hcore : (upd (upd (upd s cur (C (j + 1))) nxt (C (j + 2) ^^ e (j + 1))) (T (j + 1)) (s₀ (T (j + 1)) ^^ e (j + 1) ^^ C (j + 1))) q = s₀ q := by
      rw [upd_ne' (q1 _ hin), upd_ne' q2, upd_ne' q3, h.hF q q1 q3 q2 q4]
    by_cases hd : j < nd
    · rw [if_pos hd, upd_ne' (q4 j hd)]; exact hcore
    · rw [if_neg hd]; exact hcore
  · rw [h.hp]
    simp only [Nat.add_sub_cancel]
    rw [sgn_succ]
    exact Bool.xor_assoc _ _ _

theorem run_init {n d : ℕ} {T : ℕ → Q} {ctrl : Option Q} (hT : ∀ i < n, ∀ j < n, T i = T j → i = j) (hc : ∀ i < n, ctrl ≠ some (T i)) (s₀ : St Q) (p₀ : Bool) :
    ∀ k ≤ n, ∃ s, run ((List.range k).flatMap fun i => cX ctrl (d.testBit i) (T i)) (s₀, p₀) = (s, p₀) ∧
      (∀ i < n, s (T i) = (s₀ (T i) ^^ (decide (i < k) && addend d ctrl s₀ i))) ∧ ∀ q, (∀ i < n, q ≠ T i) → s q = s₀ q := by
  intro k
  induction k with
  | zero => intro _; exact ⟨s₀, rfl, fun i _ => by simp, fun q _ => rfl⟩
  | succ k ih =>
    intro hk
    obtain ⟨s, h1, h2, h3⟩ := ih (by omega)
    have hcv : cval ctrl s = cval ctrl s₀ := cval_frame fun c hc' => h3 c fun i hi e => hc i hi (by rw [hc', e])
    refine ⟨upd s (T k) (s (T k) ^^ (d.testBit k && cval ctrl s)), ?_, fun i hi => ?_, fun q hq => ?_⟩
    · rw [List.range_succ, List.flatMap_append, run_append, h1, List.flatMap_cons, List.flatMap_nil, List.append_nil, run_cX]
    · by_cases hik : i = k
      · subst hik
        rw [upd_same', h2 i hi, hcv]
        simp [addend]
      · rw [upd_ne' (fun e => hik (hT i hi k (by omega) e)), h2 i hi, show decide (i < k) = decide (i < k + 1) from decide_eq_decide.mpr (by omega)]
    · rw [upd_ne' (hq k (by omega)), h3 q hq]

/-- Position 0. -/
def pos0 (d : ℕ) (T : ℕ → Q) (A0 A1 : Q) (cin ctrl : Option Q) : List (VG Q) :=
  match cin with
    | some c => bim ctrl c (T 0) A1 (d.testBit 0) ++ [.cx c (T 0)]
    | none => bim ctrl A0 (T 0) A1 (d.testBit 0)

theorem firstBlock_eq (d : ℕ) (T : ℕ → Q) (A0 A1 : Q) (cin ctrl : Option Q) (D : ℕ → Q) (nd : ℕ) (m : ℕ → Bool) :
    firstBlock d T A0 A1 cin ctrl D nd m = pos0 d T A0 A1 cin ctrl ++ mid d T A1 A0 ctrl D nd m 1 := by
  unfold firstBlock pos0 mid
  simp only [List.append_assoc, Nat.sub_self]

theorem inv_first {n d : ℕ} {T : ℕ → Q} {A0 A1 : Q} {D : ℕ → Q} {nd : ℕ} (m : ℕ → Bool) {cin ctrl : Option Q} (s₀ : St Q) (p₀ : Bool)
    (hs : Sep n T A0 A1 ctrl D nd) (hn : 2 ≤ n) (h0 : s₀ A0 = false) (h1 : s₀ A1 = false) (hc1 : cin ≠ some A1)
    (hcT : ∀ i < n, cin ≠ some (T i)) (hcc : ∀ c, cin = some c → ctrl ≠ some c) :
    Inv n T A1 A0 D nd m (addend d ctrl s₀) (car (inval cin s₀) (addend d ctrl s₀) fun k => s₀ (T k)) s₀ p₀ 1
      (run (((List.range n).flatMap fun i => cX ctrl (d.testBit i) (T i)) ++ pos0 d T A0 A1 cin ctrl) (s₀, p₀)).1
      (run (((List.range n).flatMap fun i => cX ctrl (d.testBit i) (T i)) ++ pos0 d T A0 A1 cin ctrl) (s₀, p₀)).2 := by
  obtain ⟨s, r1, r2, r3⟩ := run_init (d := d) hs.TT hs.cT s₀ p₀ n le_rfl
  have hcv : cval ctrl s = cval ctrl s₀ := cval_frame fun c hc' => r3 c fun i hi e => hs.cT i hi (by rw [hc', e])
  have s0 : s A0 = false := by rw [r3 _ fun i hi e => hs.TA0 i hi e.symm, h0]
  have s1 : s A1 = false := by rw [r3 _ fun i hi e => hs.TA1 i hi e.symm, h1]
  have hn0 : 0 < n := by omega
  rw [run_append, r1]
  set e := addend d ctrl s₀ with he
  set C := car (inval cin s₀) e fun k => s₀ (T k) with hC
  have hC0 : C 0 = inval cin s₀ := rfl
  have hC1 : C 1 = maj (e 0) (s₀ (T 0)) (C 0) := rfl
  have hs0 : s (T 0) = (s₀ (T 0) ^^ e 0) := by rw [r2 0 hn0]; simp [hn0]
  have key : run (pos0 d T A0 A1 cin ctrl) (s, p₀) = (upd (upd s A1 (C 1 ^^ e 0)) (T 0) (s₀ (T 0) ^^ e 0 ^^ C 0), p₀) := by
    unfold pos0
    cases hcin : cin with
    | none =>
      simp only
      have hz : C 0 = false := by rw [hC0, hcin]; rfl
      rw [run_bim hs.AA (hs.TA0 0 hn0).symm hs.cA0 hs.cA1, hcv, s0, s1, hs0, show (d.testBit 0 && cval ctrl s₀) = e 0 from rfl, Bool.false_xor, hz, Bool.xor_false,
        hC1, hz, ← maj_alt]
      congr 1
      funext q
      by_cases hq : q = T 0
      · subst hq; rw [upd_same', upd_ne' (hs.TA1 0 hn0), hs0]
      · rw [upd_ne' hq]
    | some c =>
      simp only
      have cc : c ≠ A1 := fun e => hc1 (by rw [hcin, e])
      have ct : c ≠ T 0 := fun e => hcT 0 hn0 (by rw [hcin, e])
      have hz : s c = C 0 := by rw [r3 c fun i hi e => hcT i hi (by rw [hcin, e]), hC0, hcin]; rfl
      rw [run_append, run_bim cc ct (hcc c hcin) hs.cA1, hcv, s1, hs0, show (d.testBit 0 && cval ctrl s₀) = e 0 from rfl, hz, Bool.false_xor, maj_alt, ← hC1, run_cx1,
        upd_ne' cc, hz, upd_ne' (hs.TA1 0 hn0), hs0]
  rw [key]
  dsimp only
  refine ⟨fun k hk => ?_, ?_, ?_, fun k hk => ?_, fun q q1 q2 q3 q4 => ?_, ?_⟩
  · by_cases hk0 : k = 0
    · subst hk0; rw [upd_same']; simp
    · rw [upd_ne' (fun e => hk0 (hs.TT k hk 0 hn0 e)), upd_ne' (hs.TA1 k hk), r2 k hk, show decide (k < n) = true by simpa using hk,
        show decide (k < 1) = false by simpa using hk0]
      simp
  · rw [upd_ne' (hs.TA1 0 hn0).symm, upd_same']
  · rw [upd_ne' (hs.TA0 0 hn0).symm, upd_ne' hs.AA, s0]
  · rw [upd_ne' (hs.TD 0 hn0 k hk).symm, upd_ne' (hs.DA1 k hk), r3 _ fun i hi e => hs.TD i hi k hk e.symm]
    simp
  · rw [upd_ne' (q1 0 hn0), upd_ne' q2, r3 q q1]
  · simp [sgn]

/-- The ancilla holding the carry into position `i`. -/
def anc (A0 A1 : Q) (i : ℕ) : Q := if i % 2 = 0 then A0 else A1

theorem anc_succ (A0 A1 : Q) (i : ℕ) : anc A0 A1 (i + 1) = anc A1 A0 i := by
  unfold anc
  rcases Nat.mod_two_eq_zero_or_one i with h | h
  · rw [if_neg (by omega), if_pos h]
  · rw [if_pos (by omega), if_neg (by omega)]

theorem Sep.anc {n : ℕ} {T : ℕ → Q} {A0 A1 : Q} {ctrl : Option Q} {D : ℕ → Q} {nd : ℕ} (h : Sep n T A0 A1 ctrl D nd) (i : ℕ) :
    Sep n T (anc A0 A1 i) (anc A1 A0 i) ctrl D nd := by
  unfold Vent.anc
  rcases Nat.mod_two_eq_zero_or_one i with h' | h'
  · rw [if_pos h', if_pos h']; exact h
  · rw [if_neg (by omega), if_neg (by omega)]; exact h.swap

theorem middle_eq (d : ℕ) (T : ℕ → Q) (A0 A1 : Q) (ctrl : Option Q) (D : ℕ → Q) (nd : ℕ) (m : ℕ → Bool) (j : ℕ) :
    middle d T A0 A1 ctrl D nd m j = mid d T (anc A0 A1 (j + 2)) (anc A1 A0 (j + 2)) ctrl D nd m (j + 2) := rfl

theorem inv_middle {n d : ℕ} {T : ℕ → Q} {A0 A1 : Q} {D : ℕ → Q} {nd : ℕ} {m : ℕ → Bool} {ctrl : Option Q} {s₀ s : St Q} {p₀ p c : Bool}
    (hs : Sep n T A0 A1 ctrl D nd)
    (h : Inv n T A0 A1 D nd m (addend d ctrl s₀) (car c (addend d ctrl s₀) fun k => s₀ (T k)) s₀ p₀ 2 s p) :
    ∀ k, k + 2 ≤ n → Inv n T (anc A0 A1 (k + 2)) (anc A1 A0 (k + 2)) D nd m (addend d ctrl s₀) (car c (addend d ctrl s₀) fun k => s₀ (T k)) s₀ p₀ (k + 2)
      (run ((List.range k).flatMap fun j => middle d T A0 A1 ctrl D nd m j) (s, p)).1
      (run ((List.range k).flatMap fun j => middle d T A0 A1 ctrl D nd m j) (s, p)).2 := by
  intro k
  induction k with
  | zero => intro _; exact h
  | succ k ih =>
    intro hk
    have h' := inv_mid (hs.anc (k + 2)) (by omega) (by omega) (ih (by omega))
    rw [List.range_succ, List.flatMap_append, run_append, List.flatMap_cons, List.flatMap_nil, List.append_nil, middle_eq, show k + 1 + 2 = (k + 2) + 1 by ring,
      anc_succ A0 A1 (k + 2), anc_succ A1 A0 (k + 2)]
    exact h'

/-- Result of the vented addition. -/
structure Res (n : ℕ) (T : ℕ → Q) (A0 A1 : Q) (D : ℕ → Q) (nd : ℕ) (m e C : ℕ → Bool) (cout : Option Q) (s₀ : St Q) (p₀ : Bool) (s : St Q) (p : Bool) : Prop where
  hT : ∀ k < n, s (T k) = (s₀ (T k) ^^ e k ^^ C k)
  hA0 : s A0 = false
  hA1 : s A1 = false
  hD : ∀ k < nd, s (D k) = (s₀ (D k) ^^ (decide (k < numVents n) && C (k + 1)))
  hout : ∀ c, cout = some c → s c = (s₀ c ^^ C (if n = 3 then 2 else n - 2))
  hF : ∀ q, (∀ k < n, q ≠ T k) → q ≠ A0 → q ≠ A1 → (∀ k < nd, q ≠ D k) → cout ≠ some q → s q = s₀ q
  hp : p = (p₀ ^^ sgn (numVents n) m fun k => C (k + 1))

/-- The optional `cx` to the carry out. -/
def toOut (cout : Option Q) (cur : Q) : List (VG Q) := match cout with | none => [] | some c => [.cx cur c]

theorem run_toOut (cout : Option Q) (cur : Q) (s : St Q) (p : Bool) :
    ∃ s', run (toOut cout cur) (s, p) = (s', p) ∧ (∀ c, cout = some c → s' c = (s c ^^ s cur)) ∧ ∀ q, cout ≠ some q → s' q = s q := by
  cases cout with
  | none => exact ⟨s, rfl, fun c h => by simp at h, fun q _ => rfl⟩
  | some c =>
    refine ⟨_, rfl, fun c' h => ?_, fun q hq => ?_⟩
    · injection h with h; subst h; exact upd_same' _ _ _
    · exact upd_ne' (fun e => hq (by rw [e])) _ _

theorem run_tail {cur : Q} {D : ℕ → Q} {nd : ℕ} {cout : Option Q} {c : Bool} (k : ℕ) (m : Bool) (s : St Q) (p : Bool)
    (hcur : s cur = c) (hD : ∀ i < nd, D i ≠ cur) (hoc : cout ≠ some cur) (hoD : ∀ i < nd, cout ≠ some (D i)) :
    ∃ s', run (toDirty D nd cur k ++ toOut cout cur ++ [.vent m cur]) (s, p) = (s', p ^^ (m && c)) ∧ s' cur = false ∧
      (k < nd → s' (D k) = (s (D k) ^^ c)) ∧ (∀ o, cout = some o → s' o = (s o ^^ c)) ∧
      ∀ q, q ≠ cur → (k < nd → q ≠ D k) → cout ≠ some q → s' q = s q := by
  rw [run_append, run_append, run_toDirty]
  set s1 := (if k < nd then upd s (D k) (s (D k) ^^ s cur) else s) with hs1
  have h1 : s1 cur = c := by
    rw [hs1]; by_cases hk : k < nd
    · rw [if_pos hk, upd_ne' (hD k hk).symm, hcur]
    · rw [if_neg hk, hcur]
  have h2 : ∀ q, (k < nd → q ≠ D k) → s1 q = s q := fun q hq => by
    rw [hs1]; by_cases hk : k < nd
    · rw [if_pos hk, upd_ne' (hq hk)]
    · rw [if_neg hk]
  obtain ⟨s2, r2, r3, r4⟩ := run_toOut cout cur s1 p
  rw [r2, run_vent1, r4 cur hoc, h1]
  refine ⟨_, rfl, upd_same' _ _ _, fun hk => ?_, fun o ho => ?_, fun q q1 q2 q3 => ?_⟩
  · rw [upd_ne' (hD k hk), r4 _ (hoD k hk), hs1, if_pos hk, upd_same', hcur]
  · rw [upd_ne' (fun e => hoc (by rw [ho, e])), r3 o ho, h1, h2 o fun hk e => hoD k hk (by rw [ho, e])]
  · rw [upd_ne' q1, r4 q q3, h2 q q2]

/-- Conditions on the carry out. -/
structure OutSep (n : ℕ) (T : ℕ → Q) (A0 A1 : Q) (D : ℕ → Q) (nd : ℕ) (cout : Option Q) : Prop where
  oT : ∀ i < n, cout ≠ some (T i)
  o0 : cout ≠ some A0
  o1 : cout ≠ some A1
  oD : ∀ i < nd, cout ≠ some (D i)

theorem OutSep.anc {n : ℕ} {T : ℕ → Q} {A0 A1 : Q} {D : ℕ → Q} {nd : ℕ} {cout : Option Q} (h : OutSep n T A0 A1 D nd cout) (i : ℕ) :
    OutSep n T (anc A0 A1 i) (anc A1 A0 i) D nd cout := by
  unfold Vent.anc
  rcases Nat.mod_two_eq_zero_or_one i with h' | h'
  · rw [if_pos h', if_pos h']; exact h
  · rw [if_neg (by omega), if_neg (by omega)]; exact ⟨h.oT, h.o1, h.o0, h.oD⟩

theorem Res.anc {n : ℕ} {T : ℕ → Q} {A0 A1 : Q} {D : ℕ → Q} {nd : ℕ} {m e C : ℕ → Bool} {cout : Option Q} {s₀ : St Q} {p₀ : Bool} {s : St Q} {p : Bool} {i : ℕ}
    (h : Res n T (Vent.anc A0 A1 i) (Vent.anc A1 A0 i) D nd m e C cout s₀ p₀ s p) : Res n T A0 A1 D nd m e C cout s₀ p₀ s p := by
  unfold Vent.anc at h
  rcases Nat.mod_two_eq_zero_or_one i with h' | h'
  · rw [if_pos h', if_pos h'] at h; exact h
  · rw [if_neg (by omega), if_neg (by omega)] at h
    exact ⟨h.hT, h.hA1, h.hA0, h.hD, h.hout, fun q q1 q2 q3 => h.hF q q1 q3 q2, h.hp⟩

theorem res_three {d : ℕ} {T : ℕ → Q} {cur nxt : Q} {D : ℕ → Q} {nd : ℕ} {m : ℕ → Bool} {ctrl cout : Option Q} {s₀ s : St Q} {p₀ p c : Bool}
    (hs : Sep 3 T cur nxt ctrl D nd) (ho : OutSep 3 T cur nxt D nd cout) (hoc : ∀ o, cout = some o → s₀ o = s o)
    (h : Inv 3 T cur nxt D nd m (addend d ctrl s₀) (car c (addend d ctrl s₀) fun k => s₀ (T k)) s₀ p₀ 2 s p) :
    Res 3 T cur nxt D nd m (addend d ctrl s₀) (car c (addend d ctrl s₀) fun k => s₀ (T k)) cout s₀ p₀
      (run (cX ctrl (d.testBit 1) cur ++ [.cx cur (T 2)] ++ (toDirty D nd cur 1 ++ toOut cout cur ++ [.vent (m 1) cur])) (s, p)).1
      (run (cX ctrl (d.testBit 1) cur ++ [.cx cur (T 2)] ++ (toDirty D nd cur 1 ++ toOut cout cur ++ [.vent (m 1) cur])) (s, p)).2 := by
  have hcv := h.cval hs
  set e := addend d ctrl s₀ with he
  set C := car c e fun k => s₀ (T k) with hC
  have tc := hs.TA0 2 (by omega)
  have hc' : s cur = (C 2 ^^ e 1) := h.hcur
  rw [run_append _ (toDirty D nd cur 1 ++ toOut cout cur ++ [VG.vent (m 1) cur]), run_append (cX ctrl (d.testBit 1) cur), run_cX, hcv, hc', show (d.testBit 1 && cval ctrl s₀) = e 1 from rfl,
    show (C 2 ^^ e 1 ^^ e 1) = C 2 by cases C 2 <;> cases e 1 <;> rfl, run_cx1, upd_same', upd_ne' tc, h.hT 2 (by omega)]
  set s1 := upd (upd s cur (C 2)) (T 2) (s₀ (T 2) ^^ e 2 ^^ (decide (2 < 2) && C 2) ^^ C 2) with hs1
  obtain ⟨s2, r1, r2, r3, r4, r5⟩ := run_tail 1 (m 1) s1 p (by rw [hs1, upd_ne' tc.symm, upd_same']) hs.DA0 ho.o0 ho.oD
  rw [r1]
  dsimp only
  have hfr : ∀ q, q ≠ T 2 → q ≠ cur → s1 q = s q := fun q q1 q2 => by rw [hs1, upd_ne' q1, upd_ne' q2]
  refine ⟨fun k hk => ?_, r2, ?_, fun k hk => ?_, fun o h' => ?_, fun q q1 q2 q3 q4 q5 => ?_, ?_⟩
  · rw [r5 _ (hs.TA0 k hk) (fun h1 => hs.TD k hk 1 h1) (ho.oT k hk)]
    by_cases hk2 : k = 2
    · subst hk2; rw [hs1, upd_same']; simp
    · rw [hfr _ (fun e => hk2 (hs.TT k hk 2 (by omega) e)) (hs.TA0 k hk), h.hT k hk, show decide (k < 2) = true by simp; omega]
      simp
  · rw [r5 _ hs.AA.symm (fun h1 => (hs.DA1 1 h1).symm) ho.o1, hfr _ (hs.TA1 2 (by omega)).symm hs.AA.symm, h.hnxt]
  · by_cases hk1 : k = 1
    · subst hk1
      rw [r3 hk, hfr _ (hs.TD 2 (by omega) 1 hk).symm (hs.DA0 1 hk), h.hD 1 hk]
      simp [numVents]
    · rw [r5 _ (hs.DA0 k hk) (fun h1 e => hk1 (hs.DD k hk 1 h1 e)) (ho.oD k hk), hfr _ (hs.TD 2 (by omega) k hk).symm (hs.DA0 k hk), h.hD k hk,
        show decide (k < 2 - 1) = decide (k < numVents 3) from decide_eq_decide.mpr (by unfold numVents; omega)]
  · rw [r4 o h', hfr o (fun e => ho.oT 2 (by omega) (by rw [h', e])) (fun e => ho.o0 (by rw [h', e])), hoc o h']
    simp
  · rw [r5 q q2 (fun h1 => q4 1 h1) q5, hfr q (q1 2 (by omega)) q2, h.hF q q1 q2 q3 q4]
  · rw [h.hp, show numVents 3 = 1 + 1 from rfl, sgn_succ]
    exact Bool.xor_assoc _ _ _

theorem res_four {n d : ℕ} {T : ℕ → Q} {cur nxt : Q} {D : ℕ → Q} {nd : ℕ} {m : ℕ → Bool} {ctrl cout : Option Q} {s₀ s : St Q} {p₀ p c : Bool} {j : ℕ}
    (hj : 1 ≤ j) (hn : n = j + 3)
    (hs : Sep n T cur nxt ctrl D nd) (ho : OutSep n T cur nxt D nd cout) (hoc : ∀ o, cout = some o → s₀ o = s o) (hco : ∀ o, cout = some o → ctrl ≠ some o)
    (h : Inv n T cur nxt D nd m (addend d ctrl s₀) (car c (addend d ctrl s₀) fun k => s₀ (T k)) s₀ p₀ (j + 1) s p) :
    Res n T cur nxt D nd m (addend d ctrl s₀) (car c (addend d ctrl s₀) fun k => s₀ (T k)) cout s₀ p₀
      (run (cX ctrl (d.testBit j) cur ++ (bim ctrl cur (T (j + 1)) (T (j + 2)) (d.testBit (j + 1)) ++ [.cx cur (T (j + 1))]) ++
        (toDirty D nd cur j ++ toOut cout cur ++ [.vent (m j) cur]) ++ cX ctrl (d.testBit (j + 1)) (T (j + 2))) (s, p)).1
      (run (cX ctrl (d.testBit j) cur ++ (bim ctrl cur (T (j + 1)) (T (j + 2)) (d.testBit (j + 1)) ++ [.cx cur (T (j + 1))]) ++
        (toDirty D nd cur j ++ toOut cout cur ++ [.vent (m j) cur]) ++ cX ctrl (d.testBit (j + 1)) (T (j + 2))) (s, p)).2 := by
  have hcv := h.cval hs
  set e := addend d ctrl s₀ with he
  set C := car c e fun k => s₀ (T k) with hC
  have hCs : C (j + 1 + 1) = maj (e (j + 1)) (s₀ (T (j + 1))) (C (j + 1)) := rfl
  have i1 : j + 1 < n := by omega
  have i2 : j + 2 < n := by omega
  have tc := hs.TA0 (j + 1) i1
  have tc2 := hs.TA0 (j + 2) i2
  have tt : T (j + 1) ≠ T (j + 2) := fun e => by have := hs.TT _ i1 _ i2 e; omega
  have hc' : s cur = (C (j + 1) ^^ e j) := h.hcur
  have hT1 : s (T (j + 1)) = (s₀ (T (j + 1)) ^^ e (j + 1)) := by rw [h.hT _ i1]; simp
  have hT2 : s (T (j + 2)) = (s₀ (T (j + 2)) ^^ e (j + 2)) := by rw [h.hT _ i2]; simp
  have hrun : run (cX ctrl (d.testBit j) cur ++ (bim ctrl cur (T (j + 1)) (T (j + 2)) (d.testBit (j + 1)) ++ [.cx cur (T (j + 1))])) (s, p) =
      (upd (upd (upd s cur (C (j + 1))) (T (j + 2)) (s₀ (T (j + 2)) ^^ e (j + 2) ^^ (C (j + 2) ^^ e (j + 1)))) (T (j + 1)) (s₀ (T (j + 1)) ^^ e (j + 1) ^^ C (j + 1)), p) := by
    rw [run_append, run_append, run_cX, hcv, hc', show (d.testBit j && cval ctrl s₀) = e j from rfl,
      show (C (j + 1) ^^ e j ^^ e j) = C (j + 1) by cases C (j + 1) <;> cases e j <;> rfl,
      run_bim tc2.symm tc.symm hs.cA0 (hs.cT _ i2), cval_upd hs.cA0, hcv, upd_same', upd_ne' tc, upd_ne' tc2, hT1, hT2,
      show (d.testBit (j + 1) && cval ctrl s₀) = e (j + 1) from rfl, maj_alt, ← hCs, run_cx1, upd_ne' tc2.symm, upd_same', upd_ne' tt, upd_ne' tc, hT1]
  rw [run_append, run_append, hrun]
  set s1 := (upd (upd (upd s cur (C (j + 1))) (T (j + 2)) (s₀ (T (j + 2)) ^^ e (j + 2) ^^ (C (j + 2) ^^ e (j + 1)))) (T (j + 1)) (s₀ (T (j + 1)) ^^ e (j + 1) ^^ C (j + 1))) with hs1
  obtain ⟨s2, r1, r2, r3, r4, r5⟩ := run_tail j (m j) s1 p (by rw [hs1, upd_ne' tc.symm, upd_ne' tc2.symm, upd_same']) hs.DA0 ho.o0 ho.oD
  rw [r1, run_cX]
  dsimp only
  have hfr : ∀ q, q ≠ T (j + 1) → q ≠ T (j + 2) → q ≠ cur → s1 q = s q := fun q q1 q2 q3 => by rw [hs1, upd_ne' q1, upd_ne' q2, upd_ne' q3]
  have hcv2 : cval ctrl s2 = cval ctrl s₀ := by
    refine (cval_frame fun c hc => ?_).trans hcv
    rw [r5 c (fun e => hs.cA0 (by rw [hc, e])) (fun h1 e => hs.cD j h1 (by rw [hc, e])) (fun e => hco c e hc),
      hfr c (fun e => hs.cT _ i1 (by rw [hc, e])) (fun e => hs.cT _ i2 (by rw [hc, e])) (fun e => hs.cA0 (by rw [hc, e]))]
  have hnv : numVents n = j + 1 := by unfold numVents; omega
  rw [hcv2, show (d.testBit (j + 1) && cval ctrl s₀) = e (j + 1) from rfl]
  refine ⟨fun k hk => ?_, ?_, ?_, fun k hk => ?_, fun o h' => ?_, fun q q1 q2 q3 q4 q5 => ?_, ?_⟩
  · have hr := r5 _ (hs.TA0 k hk) (fun h1 => hs.TD k hk j h1) (ho.oT k hk)
    by_cases hk2 : k = j + 2
    · subst hk2; rw [upd_same', hr, hs1, upd_ne' tt.symm, upd_same']
      cases s₀ (T (j + 2)) <;> cases e (j + 2) <;> cases C (j + 2) <;> cases e (j + 1) <;> rfl
    · rw [upd_ne' (fun e => hk2 (hs.TT k hk _ i2 e)), hr]
      by_cases hk1 : k = j + 1
      · subst hk1; rw [hs1, upd_same']
      · rw [hfr _ (fun e => hk1 (hs.TT k hk _ i1 e)) (fun e => hk2 (hs.TT k hk _ i2 e)) (hs.TA0 k hk), h.hT k hk, show decide (k < j + 1) = true by simp; omega]
        simp
  · rw [upd_ne' tc2.symm, r2]
  · rw [upd_ne' (hs.TA1 _ i2).symm, r5 _ hs.AA.symm (fun h1 => (hs.DA1 j h1).symm) ho.o1, hfr _ (hs.TA1 _ i1).symm (hs.TA1 _ i2).symm hs.AA.symm, h.hnxt]
  · rw [upd_ne' (hs.TD _ i2 k hk).symm]
    have hf' := hfr _ (hs.TD _ i1 k hk).symm (hs.TD _ i2 k hk).symm (hs.DA0 k hk)
    by_cases hk1 : k = j
    · subst hk1
      rw [r3 hk, hf', h.hD k hk, hnv]
      simp
    · rw [r5 _ (hs.DA0 k hk) (fun h1 e => hk1 (hs.DD k hk j h1 e)) (ho.oD k hk), hf', h.hD k hk, hnv,
        show decide (k < j + 1 - 1) = decide (k < j + 1) from decide_eq_decide.mpr (by omega)]
  · rw [upd_ne' (fun e => ho.oT _ i2 (by rw [h', e])), r4 o h', hfr o (fun e => ho.oT _ i1 (by rw [h', e])) (fun e => ho.oT _ i2 (by rw [h', e])) (fun e => ho.o0 (by rw [h', e])), hoc o h',
      if_neg (by omega), show n - 2 = j + 1 by omega]
  · rw [upd_ne' (q1 _ i2), r5 q q2 (fun h1 => q4 j h1) q5, hfr q (q1 _ i1) (q1 _ i2) q2, h.hF q q1 q2 q3 q4]
  · rw [h.hp, hnv, sgn_succ]
    exact Bool.xor_assoc _ _ _

/-- `carry_venting_adder`: bits of the sum, carries, sign. -/
theorem res_cva {n d : ℕ} {T : ℕ → Q} {A0 A1 : Q} {D : ℕ → Q} {nd : ℕ} (m : ℕ → Bool) {cin ctrl cout : Option Q} (s₀ : St Q) (p₀ : Bool)
    (hn : 3 ≤ n) (hs : Sep n T A0 A1 ctrl D nd) (ho : OutSep n T A0 A1 D nd cout) (hco : ∀ o, cout = some o → ctrl ≠ some o)
    (h0 : s₀ A0 = false) (h1 : s₀ A1 = false) (hc1 : cin ≠ some A1)
    (hcT : ∀ i < n, cin ≠ some (T i)) (hcc : ∀ c, cin = some c → ctrl ≠ some c) :
    Res n T A0 A1 D nd m (addend d ctrl s₀) (car (inval cin s₀) (addend d ctrl s₀) fun k => s₀ (T k)) cout s₀ p₀
      (run (cva n d T A0 A1 cin ctrl D nd cout m) (s₀, p₀)).1 (run (cva n d T A0 A1 cin ctrl D nd cout m) (s₀, p₀)).2 := by
  have g1 := inv_first (d := d) m s₀ p₀ hs (by omega) h0 h1 hc1 hcT hcc
  have g2 := inv_mid hs.swap le_rfl (by omega) g1
  have g3 := inv_middle hs g2 (n - 4) (by omega)
  have hoc : ∀ o, cout = some o → s₀ o = _ := fun o h' => (g3.hF o (fun k hk e => ho.oT k hk (by rw [h', e]))
    (fun e => (ho.anc (n - 4 + 2)).o0 (by rw [h', e])) (fun e => (ho.anc (n - 4 + 2)).o1 (by rw [h', e])) (fun k hk e => ho.oD k hk (by rw [h', e]))).symm
  unfold cva
  rw [firstBlock_eq, run_append, run_append, ← List.append_assoc, run_append (_ ++ _) (mid _ _ _ _ _ _ _ _ _)]
  by_cases h3 : n = 3
  · subst h3
    have := res_three (hs.anc 2) (ho.anc 2) hoc g3
    have hl : lastBlock 3 d T A0 A1 ctrl D nd cout m = cX ctrl (d.testBit 1) (anc A0 A1 2) ++ [.cx (anc A0 A1 2) (T 2)] ++
        (toDirty D nd (anc A0 A1 2) 1 ++ toOut cout (anc A0 A1 2) ++ [.vent (m 1) (anc A0 A1 2)]) := by
      unfold lastBlock toOut anc
      simp
    rw [hl]
    exact this.anc
  · have := res_four (j := n - 3) (by omega) (by omega) (hs.anc (n - 4 + 2)) (ho.anc (n - 4 + 2)) hoc hco (by rw [show n - 3 + 1 = n - 4 + 2 by omega]; exact g3)
    have hl : lastBlock n d T A0 A1 ctrl D nd cout m = cX ctrl (d.testBit (n - 3)) (anc A0 A1 (n - 4 + 2)) ++
        (bim ctrl (anc A0 A1 (n - 4 + 2)) (T (n - 3 + 1)) (T (n - 3 + 2)) (d.testBit (n - 3 + 1)) ++ [.cx (anc A0 A1 (n - 4 + 2)) (T (n - 3 + 1))]) ++
        (toDirty D nd (anc A0 A1 (n - 4 + 2)) (n - 3) ++ toOut cout (anc A0 A1 (n - 4 + 2)) ++ [.vent (m (n - 3)) (anc A0 A1 (n - 4 + 2))]) ++
        cX ctrl (d.testBit (n - 3 + 1)) (T (n - 3 + 2)) := by
      unfold lastBlock toOut anc
      dsimp only
      rw [if_neg h3, if_pos (show 3 < n by omega), if_pos (show 3 < n by omega), show max 1 (n - 3) = n - 3 by omega, show 1 + (n - 4) = n - 3 by omega, show n - 3 + 1 = n - 2 by omega,
        show n - 3 + 2 = n - 1 by omega, show (n - 4 + 2) % 2 = (n - 4) % 2 by omega]
      simp only [List.append_assoc, List.nil_append, List.append_nil]
    rw [hl]
    exact this.anc

end Verif.Vent
