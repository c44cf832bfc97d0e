import Verif.Loop
import Mathlib.Tactic.Ring
import Mathlib.Tactic.Linarith
import Mathlib.Tactic.NormNum
import Mathlib.Tactic.Positivity
import Mathlib.Data.Nat.Bitwise

/-!
Model of the limb arithmetic of
`/repo/src/qrisp/alg_primitives/arithmetic/jasp_arithmetic/jasp_bigintiger.py` (class
`BigInteger`), part 1: construction, addition, subtraction, multiplication, comparison.

A BigInteger is the list of its `digits` (little endian).  `uint32`/`uint64` values are `Nat`
and each operation that can wrap is written with the explicit `u32` / `u64` reduction.
JAX's out-of-bounds index rules are not modelled (`getD`/`List.set` are total, every access made
by the modelled code is in range).  The `jax.jit` decorators and the implicit conversion of a
plain integer operand through `create` are not modelled beyond `create` itself.
-/
namespace Verif.Limb

/-- jasp_bigintiger.py:24-28 `BASE = 2**32`. -/
def BASE : Nat := 2 ^ 32

theorem BASE_pos : 0 < BASE := by norm_num [BASE]
theorem one_lt_BASE : 1 < BASE := by norm_num [BASE]

/-- conversion to / arithmetic in `jnp.uint32`. -/
def u32 (x : Nat) : Nat := x % BASE
/-- conversion to / arithmetic in `jnp.uint64`. -/
def u64 (x : Nat) : Nat := x % (BASE * BASE)

/-- digits of a BigInteger, little endian. -/
abbrev Digits := List Nat

/-- `a[i]`. -/
def dg (a : Digits) (i : Nat) : Nat := a.getD i 0

/-- jasp_bigintiger.py:115-144 `create_static(n, size)`: `n < 0` raises, otherwise `size` times
`digits.append(n % BASE); n //= BASE`. -/
def createStatic (n : Int) (size : Nat) : Except String Digits :=
  if n < 0 then .error "ValueError: Input must be non-negative"
  else .ok (fori 0 size (fun _ (st : Digits × Int) => (st.1 ++ [(st.2 % (BASE : Int)).toNat], st.2 / (BASE : Int)))
    ([], n)).1

/-- jasp_bigintiger.py:146-181 `create(n, size)`; the traced integer `n` is taken as an exact
non-negative integer. -/
def create (n : Nat) (size : Nat) : Digits :=
  (fori 0 size (fun i (st : Digits × Nat) => (st.1.set i (u32 (st.2 % BASE)), st.2 / BASE))
    (List.replicate size 0, n)).1

/-- jasp_bigintiger.py:77-82 `__call__` on a concrete array (the traced branch 70-76 computes the
same sum in floating point and is not modelled). -/
def call (a : Digits) : Nat :=
  fori 0 a.length (fun i r => if dg a i ≠ 0 then r + dg a i * 2 ^ (i * 32) else r) 0

/-- jasp_bigintiger.py:207-246 `coerce` for a BigInteger argument: pad or reject. -/
def coerceBI (a : Digits) (size : Nat) : Except String Digits :=
  if a.length = size then .ok a
  else if a.length > size then .error "ValueError: truncation is not allowed"
  else .ok (a ++ List.replicate (size - a.length) 0)

/-- jasp_bigintiger.py:248-282 `__add__`. -/
def add (a b : Digits) : Digits :=
  (fori 0 a.length (fun i (st : Nat × Digits) =>
    let s := u64 (dg a i + dg b i + st.1)
    let digit := u32 (s % BASE)          -- s & (BASE - 1)
    let newCarry := s / BASE           -- s >> 32
    (newCarry, st.2.set i digit)) (0, List.replicate a.length 0)).2

/-- jasp_bigintiger.py:284-322 `__sub__`. In the first branch the subtraction does not wrap
because the branch condition holds; the second branch adds `BASE` first. -/
def sub (a b : Digits) : Digits :=
  (fori 0 a.length (fun i (st : Nat × Digits) =>
    let r : Nat × Nat :=
      if dg a i ≥ u64 (dg b i + st.1) then (u32 (dg a i - dg b i - st.1), 0)
      else (u32 (u64 (u64 (dg a i + BASE) + BASE * BASE - dg b i + BASE * BASE - st.1)), 1)
    (r.2, st.2.set i r.1)) (0, List.replicate a.length 0)).2

/-- jasp_bigintiger.py:344-388 `__mul__`, schoolbook with dropped top carries. -/
def mulInner (a b : Digits) (n i : Nat) (result : Digits) : Digits :=
  (fori 0 (n - i) (fun j (st : Digits × Nat) =>
    let k := i + j
    let tmp := u64 (dg st.1 k + u64 (dg a i * dg b j) + st.2)
    (st.1.set k (u32 (tmp % BASE)), tmp / BASE)) (result, 0)).1

/-- jasp_bigintiger.py:344-388 `__mul__`. -/
def mul (a b : Digits) : Digits :=
  fori 0 a.length (fun i r => mulInner a b a.length i r) (List.replicate a.length 0)

/-- jasp_bigintiger.py:474-485: the scan shared by `__lt__` and `__le__`, from the most
significant limb downwards; `-5` means undecided. -/
def cmpScan (a b : Digits) : Nat × Int :=
  whileLoop a.length (fun st : Nat × Int => decide (st.2 = -5) && decide (st.1 > 0))
    (fun st =>
      let i := st.1 - 1
      let r : Int := if dg a i < dg b i then 1 else -5
      let r : Int := if dg a i > dg b i then 0 else r
      (i, r)) (a.length, -5)

/-- jasp_bigintiger.py:447-487 `__lt__`. -/
def lt (a b : Digits) : Bool :=
  let res := (cmpScan a b).2
  let res := if res = -5 then 0 else res
  decide (res ≠ 0)

/-- jasp_bigintiger.py:532-572 `__le__`. -/
def le (a b : Digits) : Bool :=
  let res := (cmpScan a b).2
  let res := if res = -5 then 1 else res
  decide (res ≠ 0)

/-- jasp_bigintiger.py:574-597 `__gt__`. -/
def gt (a b : Digits) : Bool := lt b a
/-- jasp_bigintiger.py:599-622 `__ge__`. -/
def ge (a b : Digits) : Bool := le b a
/-- jasp_bigintiger.py:489-513 `__eq__`: `jnp.all(d0 == d1)`. -/
def eq (a b : Digits) : Bool := (List.range a.length).all (fun i => decide (dg a i = dg b i))
/-- jasp_bigintiger.py:515-530 `__ne__`. -/
def ne (a b : Digits) : Bool := !(eq a b)

/-! ### Value of a digit list and basic lemmas -/

/-- Specification: the integer a little-endian digit list in base 2^32 stands for
(jasp_bigintiger.py:56). -/
def val : Digits → Nat
  | [] => 0
  | d :: ds => d + BASE * val ds

/-- All limbs are proper 32-bit words. -/
def WF (a : Digits) : Prop := ∀ d ∈ a, d < BASE

theorem val_append (a b : Digits) : val (a ++ b) = val a + BASE ^ a.length * val b := by
  induction a with
  | nil => simp [val]
  | cons d ds ih => simp only [List.cons_append, val, ih, List.length_cons, pow_succ]; ring

theorem val_replicate_zero (n : Nat) : val (List.replicate n 0) = 0 := by
  induction n with
  | zero => rfl
  | succ n ih => simp [List.replicate_succ, val, ih]

theorem val_lt {a : Digits} (h : WF a) : val a < BASE ^ a.length := by
  induction a with
  | nil => simp [val]
  | cons d ds ih =>
    have h1 : d < BASE := h d (by simp)
    have h2 := ih (fun x hx => h x (by simp [hx]))
    simp only [val, List.length_cons, pow_succ]
    nlinarith [h2]

theorem dg_lt {a : Digits} (h : WF a) (i : Nat) : dg a i < BASE := by
  unfold dg
  rw [List.getD_eq_getElem?_getD]
  rcases lt_or_ge i a.length with hi | hi
  · rw [List.getElem?_eq_getElem hi]; exact h _ (List.getElem_mem hi)
  · rw [List.getElem?_eq_none hi]; exact BASE_pos

theorem val_set (a : Digits) (i x : Nat) (h : i < a.length) :
    val (a.set i x) + dg a i * BASE ^ i = val a + x * BASE ^ i := by
  induction a generalizing i with
  | nil => simp at h
  | cons d ds ih =>
    cases i with
    | zero => simp [val, dg]; ring
    | succ i =>
      have := ih i (by simpa using h)
      simp only [List.set_cons_succ, val, dg, List.getD_cons_succ, pow_succ] at this ⊢
      nlinarith [this]

theorem WF_set {a : Digits} (h : WF a) (i : Nat) {x : Nat} (hx : x < BASE) : WF (a.set i x) := by
  intro d hd
  rcases List.mem_or_eq_of_mem_set hd with h1 | h1
  · exact h d h1
  · exact h1 ▸ hx

theorem WF_replicate (n : Nat) : WF (List.replicate n 0) := by
  intro d hd
  rw [List.eq_of_mem_replicate hd]; exact BASE_pos

theorem dg_set (a : Digits) (i j x : Nat) (h : i < a.length) :
    dg (a.set i x) j = if i = j then x else dg a j := by
  unfold dg
  simp only [List.getD_eq_getElem?_getD, List.getElem?_set]
  split
  · simp
  · rfl

/-- value of the low `i` limbs. -/
def pval (a : Digits) (i : Nat) : Nat := val (a.take i)

theorem pval_zero (a : Digits) : pval a 0 = 0 := by simp [pval, val]

theorem pval_succ (a : Digits) (i : Nat) :
    pval a (i + 1) = pval a i + dg a i * BASE ^ i := by
  induction a generalizing i with
  | nil => simp [pval, dg, val]
  | cons d ds ih =>
    cases i with
    | zero => simp [pval, val, dg]
    | succ i =>
      have := ih i
      simp only [pval, List.take_succ_cons, val, dg, List.getD_cons_succ, pow_succ] at this ⊢
      rw [this]; ring

theorem pval_length (a : Digits) : pval a a.length = val a := by simp [pval]

theorem pval_of_ge (a : Digits) {n : Nat} (h : a.length ≤ n) : pval a n = val a := by
  simp [pval, List.take_of_length_le h]

theorem pval_lt {a : Digits} (h : WF a) (i : Nat) : pval a i < BASE ^ i := by
  induction i with
  | zero => simp [pval_zero]
  | succ i ih =>
    rw [pval_succ, pow_succ]
    have := dg_lt h i
    nlinarith [this]

theorem val_split (a : Digits) (i : Nat) :
    val a = pval a i + BASE ^ i * val (a.drop i) := by
  induction a generalizing i with
  | nil => simp [pval, val]
  | cons d ds ih =>
    cases i with
    | zero => simp [pval, val]
    | succ i =>
      have := ih i
      simp only [pval, List.take_succ_cons, List.drop_succ_cons, val, pow_succ] at this ⊢
      rw [this]; ring

theorem length_fori_set {α : Type*} (f : Nat → α × Digits → α × Digits) (lo hi : Nat) (s : α × Digits)
    (h : ∀ i st, (f i st).2.length = st.2.length) : (fori lo hi f s).2.length = s.2.length := by
  rcases le_total lo hi with hle | hle
  · exact fori_inv (fun _ st => st.2.length = s.2.length) hle f s rfl
      (fun i st _ _ hp => by rw [h, hp])
  · simp [fori, Nat.sub_eq_zero_of_le hle]

end Verif.Limb
