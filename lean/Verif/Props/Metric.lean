import Verif.Jasp.MetricDepth

/-!
# Resource estimation of dynamic programs

`count_ops`, `num_qubits` and `depth` execute a program without its qubits.  The theorems compare them with the execution of the
program on real qubits (`exact`), which records what happens (`Ev`).
-/

namespace Verif.Props
open Verif.Jasp.Met

/-- The arguments of a program: numbers. -/
def mArgs (I : Interp) (a : Var → Option Int) : Ctx I := fun v => (a v).map .int

/-- Running a program with the given arguments on no qubits. -/
def mRun (G : Guard) (mb : Int → Bool) (glob : Bool) (fuel : Nat) (p : Pg) (a : Var → Option Int) :
    Option (Ctx (exact G mb glob) × St) :=
  eval (exact G mb glob) fuel p (mArgs _ a) 0 ⟨0, []⟩

/-- The numbers computed by two executions agree. -/
def mSame {I J : Interp} (c : Ctx I) (d : Ctx J) : Prop := ∀ v i, c v = some (.int i) → d v = some (.int i)

theorem mArgs_rel {I J : Interp} (M : Sim I J) (a : Var → Option Int) : RC M (mArgs I a) (mArgs J a) := by
  intro v x hx
  simp only [mArgs, Option.map_eq_some_iff] at hx
  obtain ⟨i, hi, rfl⟩ := hx
  exact ⟨.int i, by simp [mArgs, hi], .int i⟩

theorem mSame_of {I J : Interp} {M : Sim I J} {c : Ctx I} {d : Ctx J} (h : RC M c d) : mSame c d := by
  intro v i hi
  obtain ⟨y, hy, hr⟩ := h v _ hi
  cases hr with
  | int _ => exact hy

/-- The restricted executions of the theorems below are executions. -/
theorem metric_guarded {G : Guard} {mb : Int → Bool} {glob : Bool} {fuel : Nat} {p : Pg} {a : Var → Option Int} {z}
    (h : mRun G mb glob fuel p a = some z) :
    ∃ z', mRun .free mb glob fuel p a = some z' ∧ mSame z.1 z'.1 ∧ z'.2 = z.2 := by
  obtain ⟨z', h1, h2, h3⟩ := eval_sim (M := simFree G mb glob) (mArgs_rel _ a) (rfl : (simFree G mb glob).RS _ _) h
  exact ⟨z', h1, mSame_of h2, h3.symm⟩

/-- If every measurement has the same outcome, then it does not matter how the measurements are numbered. -/
theorem metric_const {G : Guard} {mb : Int → Bool} (b : Bool) (hb : ∀ k, mb k = b) {fuel : Nat} {p : Pg} {a : Var → Option Int} {z}
    (h : mRun G mb true fuel p a = some z) :
    ∃ z', mRun G mb false fuel p a = some z' ∧ mSame z.1 z'.1 ∧ z'.2 = z.2 := by
  obtain ⟨z', h1, h2, h3⟩ := eval_sim (M := simConst G b hb) (mArgs_rel _ a) (rfl : (simConst G b hb).RS _ _) h
  exact ⟨z', h1, mSame_of h2, h3.symm⟩

/-! ### C134: count_ops -/

/-- The number of executions of an operation. -/
def mTimes (n : String) : List Ev → Nat
  | [] => 0
  | .gate m _ :: r => (if m = n then 1 else 0) + mTimes n r
  | _ :: r => mTimes n r

theorem mTimes_eq (n : String) (l : List Ev) : opCount n l = mTimes n l := by
  induction l with
  | nil => rfl
  | cons e l ih =>
    cases e with
    | gate m qs =>
      simp only [opCount, mTimes, List.countP_cons] at ih ⊢
      rw [ih]
      by_cases h : m = n <;> simp [h]; omega
    | create => simpa [opCount, mTimes] using ih
    | delete => simpa [opCount, mTimes] using ih
    | meas => simpa [opCount, mTimes] using ih

/-- `count_ops` gives, for every program, the number of executed operations of every name and the number of measured qubits; the
    classical results are those of the execution. -/
theorem count_ops_partial (mb : Int → Bool) {fuel : Nat} {p : Pg} {a : Var → Option Int} {z}
    (h : mRun sizeGuard mb true fuel p a = some z) :
    ∃ z', eval (countI mb) fuel p (mArgs _ a) 0 ⟨fun _ => 0, 0⟩ = some z' ∧
      (∀ n, z'.2.op n = (mTimes n z.2.ev : Int)) ∧ z'.2.meas = (measured z.2.ev : Int) ∧ mSame z.1 z'.1 := by
  obtain ⟨z', h1, h2, h3⟩ := eval_sim (M := simCount mb) (s' := (⟨fun _ => 0, 0⟩ : Cnt)) (mArgs_rel _ a)
    ⟨rfl, fun n => rfl⟩ h
  exact ⟨z', h1, fun n => (h3.2 n).trans (by rw [mTimes_eq]), h3.1, mSame_of h2⟩

/-! ### C135: num_qubits -/

/-- The numbers of created and deleted qubits. -/
def mCreated : List Ev → Nat
  | [] => 0
  | .create qs :: r => qs.length + mCreated r
  | _ :: r => mCreated r

def mDeleted : List Ev → Nat
  | [] => 0
  | .delete qs :: r => qs.length + mDeleted r
  | _ :: r => mDeleted r

/-- The number of allocated qubits after some events. -/
def mLive (l : List Ev) : Int := (mCreated l : Int) - mDeleted l

/-- The number of allocations and deallocations. -/
def mEvents : List Ev → Nat
  | [] => 0
  | .create _ :: r => mEvents r + 1
  | .delete _ :: r => mEvents r + 1
  | _ :: r => mEvents r

theorem allocs_len (l : List Ev) : (allocs l).length = mEvents l := by
  induction l with
  | nil => rfl
  | cons e l ih => cases e <;> simp [allocs, mEvents, ih]

theorem allocs_sum (l : List Ev) : (allocs l).sum = mLive l := by
  induction l with
  | nil => rfl
  | cons e l ih => cases e <;> simp only [allocs, mLive, mCreated, mDeleted, List.sum_cons, ih] <;> push_cast <;> omega

theorem allocs_pos (l : List Ev) : ((allocs l).filter (0 < ·)).sum = (mCreated l : Int) := by
  induction l with
  | nil => rfl
  | cons e l ih =>
    cases e with
    | create qs =>
      simp only [allocs, mCreated, List.filter_cons]
      split
      · rw [List.sum_cons, ih]; push_cast; rfl
      · rename_i hq
        have : qs.length = 0 := by simpa using hq
        rw [ih]; simp [this]
    | delete qs =>
      simp only [allocs, mCreated, List.filter_cons]
      rw [if_neg (by simp), ih]
    | gate => simpa [allocs, mCreated] using ih
    | meas => simpa [allocs, mCreated] using ih

theorem allocs_neg (l : List Ev) : -((allocs l).filter (· < 0)).sum = (mDeleted l : Int) := by
  induction l with
  | nil => rfl
  | cons e l ih =>
    cases e with
    | delete qs =>
      simp only [allocs, mDeleted, List.filter_cons]
      split
      · rw [List.sum_cons, neg_add, ih]; push_cast; omega
      · rename_i hq
        have : qs.length = 0 := by simpa using hq
        rw [ih]; simp [this]
    | create qs =>
      simp only [allocs, mDeleted, List.filter_cons]
      rw [if_neg (by simp), ih]
    | gate => simpa [allocs, mDeleted] using ih
    | meas => simpa [allocs, mDeleted] using ih

theorem allocs_prefix {m l : List Ev} (h : m <+: l) : allocs m <+: allocs l := by
  obtain ⟨r, rfl⟩ := h
  rw [allocs_append]
  exact List.prefix_append _ _

theorem prefix_allocs : ∀ {l : List Ev} {m : List Int}, m <+: allocs l → ∃ m', m' <+: l ∧ allocs m' = m := by
  intro l
  induction l with
  | nil => intro m h; simp only [allocs, List.prefix_nil] at h; subst h; exact ⟨[], by simp, rfl⟩
  | cons e l ih =>
    intro m h
    have key : ∀ x, allocs (e :: l) = x :: allocs l → (∀ m', allocs (e :: m') = x :: allocs m') →
        ∃ m', m' <+: e :: l ∧ allocs m' = m := by
      intro x h1 h2
      rw [h1] at h
      cases m with
      | nil => exact ⟨[], by simp, rfl⟩
      | cons y m =>
        obtain ⟨rfl, h'⟩ := List.cons_prefix_cons.1 h
        obtain ⟨m', h3, h4⟩ := ih h'
        exact ⟨e :: m', List.cons_prefix_cons.2 ⟨rfl, h3⟩, by rw [h2, h4]⟩
    have key2 : (∀ m', allocs (e :: m') = allocs m') → ∃ m', m' <+: e :: l ∧ allocs m' = m := by
      intro h2
      rw [h2] at h
      obtain ⟨m', h3, h4⟩ := ih h
      exact ⟨e :: m', List.cons_prefix_cons.2 ⟨rfl, h3⟩, by rw [h2, h4]⟩
    cases e with
    | create qs => exact key _ rfl fun _ => rfl
    | delete qs => exact key _ rfl fun _ => rfl
    | gate => exact key2 fun _ => rfl
    | meas => exact key2 fun _ => rfl

/-- The largest number of simultaneously allocated qubits. -/
def IsPeak (l : List Ev) (P : Int) : Prop := (∀ m, m <+: l → mLive m ≤ P) ∧ ∃ m, m <+: l ∧ mLive m = P

theorem peak_is (l : List Ev) : IsPeak l (peak (allocs l)) := by
  obtain ⟨h1, m, hm, h2⟩ := peak_spec (allocs l)
  refine ⟨fun m hm => ?_, ?_⟩
  · rw [← allocs_sum]; exact h1 _ (allocs_prefix hm)
  · obtain ⟨m', h3, rfl⟩ := prefix_allocs hm
    exact ⟨m', h3, by rw [← allocs_sum]; exact h2⟩

/-- `num_qubits` gives, for every program, the numbers of created and deleted qubits, the largest number of qubits that are allocated at the same
    time and the number of qubits allocated at the end; if there are more than `max_allocations` allocations and
    deallocations it gives no result. -/
theorem num_qubits_partial (mb : Int → Bool) (mx : Nat) {fuel : Nat} {p : Pg} {a : Var → Option Int} {z}
    (h : mRun sizeGuard mb false fuel p a = some z) :
    ∃ z' P, eval (numI mb mx) fuel p (mArgs _ a) 0 (Al.init mx) = some z' ∧ mSame z.1 z'.1 ∧ IsPeak z.2.ev P ∧
      extractNum z'.2 = if mEvents z.2.ev ≤ mx
        then some ((mCreated z.2.ev : Int), (mDeleted z.2.ev : Int), P, mLive z.2.ev) else none := by
  obtain ⟨z', h1, h2, h3⟩ := eval_sim (M := simNum mb mx) (s := (⟨0, []⟩ : St)) (s' := Al.init mx) (mArgs_rel _ a)
    (show Holds mx (Al.init mx) [] from ⟨by simp [Al.init], rfl, by simp [Al.init], fun _ => by simp⟩) h
  refine ⟨z', _, h1, mSame_of h2, peak_is _, ?_⟩
  obtain ⟨e1, e2, e3, e4⟩ := h3
  rw [allocs_len] at e2 e3 e4
  simp only [extractNum, e3, decide_eq_true_eq]
  by_cases hm : mEvents z.2.ev ≤ mx
  · rw [if_neg (by omega), if_pos hm, e2, e4 hm, allocs_pos, allocs_neg, allocs_sum]
  · rw [if_pos (by omega), if_neg hm]

/-! ### C136: depth -/

/-- The operations of an execution on at least one qubit, in order. -/
def mGates : List Ev → List (List Nat)
  | [] => []
  | .gate _ qs :: r => if qs = [] then mGates r else qs :: mGates r
  | _ :: r => mGates r

theorem mGates_eq (l : List Ev) : gateQs l = mGates l := by
  induction l with
  | nil => rfl
  | cons e l ih => cases e <;> simp [gateQs, mGates, ih]

/-- `depth` gives, for every program, the length of the longest sequence of executed operations in which neighbours share a
    qubit, whether the sizes of arrays are known at compile time (`len n = n`) or not (`len n = mx`). -/
theorem depth_partial (mb : Int → Bool) (mx : Nat) {len : Int → Nat} (hlen : ∀ n : Int, 0 ≤ n → n ≤ mx → n.toNat ≤ len n)
    {fuel : Nat} {p : Pg} {a : Var → Option Int} {z} (h : mRun (depthGuard mx) mb false fuel p a = some z) :
    ∃ (z' : _) (D : Nat), eval (depthI mb mx len) fuel p (mArgs _ a) 0 (Dp.init mx) = some z' ∧ mSame z.1 z'.1 ∧
      extractDepth z'.2 = some (D : Int) ∧ IsDepth (mGates z.2.ev) D := by
  obtain ⟨z', h1, h2, h3⟩ := eval_sim (M := simDepth mb mx hlen) (s := (⟨0, []⟩ : St)) (s' := Dp.init mx) (mArgs_rel _ a)
    (show ((Dp.init mx).prev = ((0 : Nat) : Int) ∧ 0 ≤ mx ∧ (Dp.init mx).bad = false ∧ Tracks mx (Dp.init mx) []) from
      ⟨rfl, Nat.zero_le _, rfl, by simp [Dp.init], fun q hq => by simp [Dp.init, dAt, hq], rfl⟩) h
  obtain ⟨_, _, e3, _, _, e6⟩ := h3
  refine ⟨z', dCur (gateQs z.2.ev), h1, mSame_of h2, ?_, ?_⟩
  · simp only [extractDepth, e3, e6]; rfl
  · rw [← mGates_eq]; exact dCur_spec _ (gateQs_ne _)

/-! ### Example: a ladder whose length is an argument -/

def mH : Gd := { ops := [("h", [0])] }
def mCx : Gd := { ops := [("cx", [0, 1])] }

/-- `qv = QuantumVariable(n); h(qv[0]); for i in range(n-1): cx(qv[i], qv[i+1]); m = measure(qv); qv.delete()`; variable 0 is
    `n`, 1 is 0. -/
def mLadder : Pg :=
  .create 2 0 <| .getq 3 2 1 <| .gate mH [3] <|
  .whl (fun l => match l with | [some i, some n] => some (decide (i + 1 < n)) | _ => none) [0, 1, 2] [3, 2]
    (.cls (fun l => l.head?.map fun i => [i + 1]) [1] [3] <| .getq 4 0 1 <| .getq 5 0 3 <| .gate mCx [4, 5] .done)
    [2] [1, 0] [5, 6] <|
  .meas 7 2 <| .delete 2 .done

def mN (n : Int) : Var → Option Int := fun v => if v = 0 then some n else if v = 1 then some 0 else none

/-- With 4 qubits: one `h`, three `cx`, four measurements, depth 4, at most 4 qubits, 0 at the end. -/
example : ((eval (countI fun _ => true) 9 mLadder (mArgs _ (mN 4)) 0 ⟨fun _ => 0, 0⟩).map fun z =>
    (z.2.op "h", z.2.op "cx", z.2.op "x", z.2.meas, z.1 7 |>.bind Val.toInt)) = some (1, 3, 0, 4, some 15) := by decide +kernel
example : ((eval (numI (fun _ => true) 10) 9 mLadder (mArgs _ (mN 4)) 0 (Al.init 10)).bind fun z => extractNum z.2) =
    some (4, 4, 4, 0) := by decide +kernel
example : ((eval (depthI (fun _ => true) 6 fun _ => 6) 9 mLadder (mArgs _ (mN 4)) 0 (Dp.init 6)).bind fun z => extractDepth z.2) =
    some 4 := by decide +kernel
example : ((mRun (depthGuard 6) (fun _ => true) false 9 mLadder (mN 4)).map fun z => mGates z.2.ev) =
    some [[0], [0, 1], [1, 2], [2, 3]] := by decide +kernel
example : (mRun sizeGuard (fun _ => true) true 9 mLadder (mN 4)).isSome = true := by decide +kernel
/-- Too many qubits for the depth, too many allocations. -/
example : ((eval (depthI (fun _ => true) 3 fun _ => 3) 9 mLadder (mArgs _ (mN 4)) 0 (Dp.init 3)).bind fun z => extractDepth z.2) =
    none := by decide +kernel
example : ((eval (numI (fun _ => true) 1) 9 mLadder (mArgs _ (mN 4)) 0 (Al.init 1)).bind fun z => extractNum z.2) = none := by
  decide +kernel

/-! ### What the numbers mean -/

theorem mOutcome_range (mb : Int → Bool) (k : Int) (n : Nat) : 0 ≤ outcome mb k n ∧ outcome mb k n < 2 ^ n := by
  induction n with
  | zero => simp [outcome]
  | succ n ih =>
    simp only [outcome, pow_succ]
    split <;> omega

/-- The measured number of an array has the outcome of the `i`-th qubit, which is numbered `k + i`, as its bit `i`. -/
theorem metric_outcome_bit (mb : Int → Bool) (k : Int) (n : Nat) : ∀ i < n, (outcome mb k n).toNat.testBit i = mb (k + i) := by
  induction n with
  | zero => intro i hi; omega
  | succ n ih =>
    intro i hi
    obtain ⟨h1, h2⟩ := mOutcome_range mb k n
    obtain ⟨x, hx⟩ := Int.eq_ofNat_of_zero_le h1
    have hlt : x < 2 ^ n := by rw [hx] at h2; exact_mod_cast h2
    have hsum : (outcome mb k (n + 1)).toNat = (if mb (k + n) then 2 ^ n else 0) + x := by
      simp only [outcome, hx]
      split
      · have : ((x : Int) + 2 ^ n) = ((2 ^ n + x : Nat) : Int) := by push_cast; omega
        rw [this]; rfl
      · simp
    rw [hsum]
    by_cases hin : i < n
    · have := ih i hin
      rw [hx] at this
      rw [← this]
      split
      · rw [Nat.testBit_two_pow_add_gt hin]; rfl
      · simp
    · obtain rfl : i = n := by omega
      split
      · rename_i hb
        rw [Nat.testBit_two_pow_add_eq, Nat.testBit_lt_two_pow hlt, hb]
        rfl
      · rename_i hb
        rw [Nat.zero_add, Nat.testBit_lt_two_pow hlt]
        exact (Bool.eq_false_iff.mpr hb).symm

/-- Two qubits, measured one after the other; the first is measured in a function that returns the outcome and a number that is one larger. -/
def mTwo : Pg :=
  .create 2 0 <| .getq 3 2 1 <| .meas 4 3 <| .meas 5 3 <|
  .call [0] [1, 2] (.meas 1 0 <| .cls (fun l => l.head?.map fun i => [i + 1]) [1] [2] .done) [3] [6, 7] .done

/-- Measurements are numbered in the order of the program, functions number their own measurements in `num_qubits` and `depth`; a call returns the results of the
    function. -/
theorem metric_keys (mb : Int → Bool) :
    ((eval (countI mb) 9 mTwo (mArgs _ (mN 2)) 0 ⟨fun _ => 0, 0⟩).map fun z => (z.1 4, z.1 5, z.1 6, z.1 7)) =
      some (some (.int (outcome mb 0 1)), some (.int (outcome mb 1 1)), some (.int (outcome mb 2 1)), some (.int (outcome mb 2 1 + 1))) ∧
    ((eval (numI mb 9) 9 mTwo (mArgs _ (mN 2)) 0 (Al.init 9)).map fun z => (z.1 4, z.1 5, z.1 6, z.1 7)) =
      some (some (.int (outcome mb 0 1)), some (.int (outcome mb 1 1)), some (.int (outcome mb 0 1)), some (.int (outcome mb 0 1 + 1))) ∧
    ((mRun .free mb true 9 mTwo (mN 2)).map fun z => (z.1 4, z.1 5, z.1 6, z.1 7)) =
      some (some (.int (outcome mb 0 1)), some (.int (outcome mb 1 1)), some (.int (outcome mb 2 1)), some (.int (outcome mb 2 1 + 1))) :=
  ⟨rfl, rfl, rfl⟩

/-! ### Findings -/

theorem loop_never {α σ : Type} {body : α → σ → Option (α × σ)} {c : α → Option Bool} (P : α → Prop)
    (hc : ∀ x, P x → c x = some true) (hb : ∀ x s r, P x → body x s = some r → P r.1) :
    ∀ fuel x s, P x → loop body c fuel x s = none := by
  intro fuel
  induction fuel with
  | zero => intro x s _; rfl
  | succ n ih =>
    intro x s hx
    simp only [loop, hc x hx, Option.bind_some, if_true]
    cases hr : body x s with
    | none => rfl
    | some r => exact ih _ _ (hb x s r hx hr)

/-- `h` and measurement until the outcome is 1 (variable 0 is 1, 1 is 0). -/
def mRetry : Pg :=
  .create 2 0 <| .getq 3 2 1 <|
  .whl (fun l => match l with | [some i] => some (decide (i = 0)) | _ => none) [0, 1] [2] (.gate mH [0] <| .meas 2 0 .done)
    [3] [1] [4] .done

/-- The measurement with key 0 gives 0, all others 1. -/
def mKey (k : Int) : Bool := decide (k ≠ 0)

theorem mRetry_num (fuel mx : Nat) : eval (numI mKey mx) fuel mRetry (mArgs _ (mN 1)) 0 (Al.init mx) = none := by
  show ((loop _ _ fuel [Val.int 0] _).bind _) = none
  rw [loop_never (fun x => x = [Val.int 0])]
  · rfl
  · rintro x rfl; rfl
  · rintro x s r rfl hr
    obtain rfl := Option.some.inj (hr : some _ = some r)
    rfl
  · rfl

theorem mRetry_depth (fuel mx : Nat) (len : Int → Nat) :
    eval (depthI mKey mx len) fuel mRetry (mArgs _ (mN 1)) 0 (Dp.init mx) = none := by
  show ((loop _ _ fuel [Val.int 0] _).bind _) = none
  rw [loop_never (fun x => x = [Val.int 0])]
  · rfl
  · rintro x rfl; rfl
  · rintro x s r rfl hr
    obtain rfl := Option.some.inj (hr : some _ = some r)
    rfl
  · rfl

/-- `num_qubits` and `depth` number the measurements anew in every iteration, so every iteration has the same outcomes: a loop
    that is repeated until a measurement gives 1 never ends, though it ends in the second iteration in `count_ops`, and in the
    execution with the same outcomes. -/
theorem metric_loop_never_ends :
    (∀ fuel mx, eval (numI mKey mx) fuel mRetry (mArgs _ (mN 1)) 0 (Al.init mx) = none) ∧
    (∀ fuel mx len, eval (depthI mKey mx len) fuel mRetry (mArgs _ (mN 1)) 0 (Dp.init mx) = none) ∧
    ((eval (countI mKey) 3 mRetry (mArgs _ (mN 1)) 0 ⟨fun _ => 0, 0⟩).map fun z => (z.2.op "h", z.2.meas)) = some (2, 2) ∧
    ((mRun sizeGuard mKey true 3 mRetry (mN 1)).map fun z => z.2.ev) =
      some [.create [0], .gate "h" [0], .meas [0], .gate "h" [0], .meas [0]] :=
  ⟨mRetry_num, mRetry_depth, by decide +kernel, by decide +kernel⟩

/-- `measure(qv[s:t])` of 3 qubits (variables 0, 1, 2 are 3, `s`, `t`); the slice is deleted. -/
def mSlice : Pg := .create 3 0 <| .slice 4 3 1 2 <| .meas 5 4 <| .delete 4 .done

def mST (s t : Int) : Var → Option Int := fun v => if v = 0 then some 3 else if v = 1 then some s else if v = 2 then some t else none

/-- Slices with negative bounds have a wrong size in `count_ops` and `num_qubits`: `qv[-1:3]` has one qubit, but three measurements are
    counted; deleting the empty slice `qv[2:1]` is counted as the allocation of a qubit, and -1 measurements are counted. -/
theorem metric_slice_wrong :
    ((mRun .free (fun _ => false) true 1 mSlice (mST (-1) 3)).map fun z => measured z.2.ev) = some 1 ∧
    ((eval (countI fun _ => false) 1 mSlice (mArgs _ (mST (-1) 3)) 0 ⟨fun _ => 0, 0⟩).map fun z => z.2.meas) = some 3 ∧
    ((mRun .free (fun _ => false) true 1 mSlice (mST 2 1)).map fun z => (measured z.2.ev, mCreated z.2.ev)) = some (0, 3) ∧
    ((eval (countI fun _ => false) 1 mSlice (mArgs _ (mST 2 1)) 0 ⟨fun _ => 0, 0⟩).map fun z => z.2.meas) = some (-1) ∧
    ((eval (numI (fun _ => false) 9) 1 mSlice (mArgs _ (mST 2 1)) 0 (Al.init 9)).bind fun z => extractNum z.2) =
      some (4, 0, 4, 4) := by decide +kernel

/-- `qv + [q]`. -/
def mFuse : Pg := .create 2 0 <| .create 3 0 <| .getq 4 3 1 <| .fuse 5 2 4 <| .meas 6 5 .done

/-- Appending a single qubit to an array is an error in `count_ops` and `num_qubits`, not in `depth` and in the execution. -/
theorem metric_fuse_error :
    ((mRun .free (fun _ => true) true 1 mFuse (mN 2)).map fun z => measured z.2.ev) = some 3 ∧
    (eval (countI fun _ => true) 1 mFuse (mArgs _ (mN 2)) 0 ⟨fun _ => 0, 0⟩).isNone = true ∧
    (eval (numI (fun _ => true) 9) 1 mFuse (mArgs _ (mN 2)) 0 (Al.init 9)).isNone = true ∧
    ((eval (depthI (fun _ => true) 9 fun _ => 9) 1 mFuse (mArgs _ (mN 2)) 0 (Dp.init 9)).bind fun z => z.1 6 |>.bind Val.toInt) =
      some 7 := by decide +kernel

/-- `cx(qv[0], qv[-1]); cx(qv[1], qv2[0])`, `qv` of size `n`, variable 1 is 0, 2 is 1, 3 is -1. -/
def mLast : Pg := .create 4 0 <| .getq 5 4 1 <| .getq 6 4 3 <| .gate mCx [5, 6] <| .getq 7 4 2 <| .gate mH [7] .done

def mIdx (n : Int) : Var → Option Int := fun v =>
  if v = 0 then some n else if v = 1 then some 0 else if v = 2 then some 1 else if v = 3 then some (-1) else none

/-- The index -1 of an array whose size is not known at compile time is the last entry of a table of `max_qubits` entries: for
    two qubits the depth of two consecutive gates on the last qubit is 2, but 1 is returned. -/
theorem metric_depth_negative_index :
    ((mRun .free (fun _ => true) true 1 mLast (mIdx 2)).map fun z => mGates z.2.ev) = some [[0, 1], [1]] ∧
    ((eval (depthI (fun _ => true) 8 fun _ => 8) 1 mLast (mArgs _ (mIdx 2)) 0 (Dp.init 8)).bind fun z => extractDepth z.2) =
      some 1 ∧
    ((eval (depthI (fun _ => true) 8 Int.toNat) 1 mLast (mArgs _ (mIdx 2)) 0 (Dp.init 8)).bind fun z => extractDepth z.2) =
      some 2 := by decide +kernel

end Verif.Props
