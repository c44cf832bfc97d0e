import Verif.Env.Main

/-!
C126: nested environments.
-/

namespace Verif.Props

open Verif.Env

/-- The qubits with numbers in `[m, N)` are in state zero. -/
def C126_zero (N m : Nat) (ψ : B → ℂ) : Prop := ∀ b, (∃ q, m ≤ q ∧ q < N ∧ b q = true) → ψ b = 0

/-- Programs that a user can write: gates respect the locks of the control qubits, operations on truth values are
inside of environments, the single control qubit of an environment is not used in its body otherwise. -/
def C126_user {G K : Type} (P : Par G K) (n : Nat) : Bool → List Nat → Prog G K → Prop
  | _, _, .done => True
  | inside, S, .gate g r => (∀ q ∈ P.supp g, q < n) ∧ (∀ q ∈ S, Commute (P.mat g) (D fun b => b q)) ∧ C126_user P n inside S r
  | inside, S, .flip r => inside = true ∧ C126_user P n inside S r
  | inside, S, .phase _ r => inside = true ∧ C126_user P n inside S r
  | inside, S, .rzt _ r => inside = true ∧ C126_user P n inside S r
  | inside, S, .ctrl qs st _ body r => qs ≠ [] ∧ st.length = qs.length ∧ (∀ q ∈ qs, q < n) ∧
      (∀ q, qs = [q] → avoid P q body) ∧ C126_user P n true (S ++ qs) body ∧ C126_user P n inside S r
  | inside, S, .cond k body r => (∀ q ∈ P.args k, q < n) ∧ C126_user P n true (S ++ P.args k) body ∧ C126_user P n inside S r
  | inside, S, .undo body r => C126_user P n inside S body ∧ C126_user P n inside S r
  | inside, S, .conj us vs r => (∀ g ∈ us ++ vs, (∀ q ∈ P.supp g, q < n) ∧ ∀ q ∈ S, Commute (P.mat g) (D fun b => b q)) ∧
      C126_user P n inside S r

/-- The full statement: the compiled circuit of every program meets the specification and cleans its ancillas. -/
def C126_full : Prop := ∀ (G K : Type) (P : Par G K) (n m N : Nat) (p : Prog G K), P.OK → C126_user P n false [] p → n ≤ m →
  (comp P none p m).2.2 ≤ N → ∀ ψ, C126_zero N m ψ →
    run P (compile P p m) ψ = sem P (fun _ => true) p ψ ∧ C126_zero N m (run P (compile P p m) ψ)

theorem zero_iff (N m : Nat) (ψ : B → ℂ) : C126_zero N m ψ ↔ Clean N m ψ = ψ := by
  constructor
  · intro h
    funext b
    show (if isClean N m b then (1 : ℂ) else 0) * ψ b = ψ b
    split
    · simp
    · rename_i hb
      rw [h b, mul_zero]
      rw [isClean_iff] at hb
      push Not at hb
      obtain ⟨q, h1, h2, h3⟩ := hb
      exact ⟨q, h2, h1, by simpa using h3⟩
  · rintro h b ⟨q, h1, h2, h3⟩
    rw [← h]
    show (if isClean N m b then (1 : ℂ) else 0) * ψ b = 0
    rw [if_neg, zero_mul]
    rw [isClean_iff]
    intro hb
    rw [hb q h2 h1] at h3
    cases h3

/-- C126 for programs in which nested environments are not inverted, their truth values are not flipped, phases are
applied and conditions are opened in environments that are executed for the value one, conditions are not in `invert`
inside of environments, conjugations are not in nested environments with control state 0, and no `rz` acts on truth
values. The full statement drops these restrictions, and is false. -/
theorem C126_nested_partial {G K : Type} (P : Par G K) (hP : P.OK) (n m N : Nat) (p : Prog G K) (hw : WF P n none [] p)
    (hm : n ≤ m) (hN : (comp P none p m).2.2 ≤ N) (ψ : B → ℂ) (hψ : C126_zero N m ψ) :
    run P (compile P p m) ψ = sem P (fun _ => true) p ψ ∧ C126_zero N m (run P (compile P p m) ψ) := by
  have h := main_none hP p hw hm hN
  have hc : Commute (Clean N m) (sem P (fun _ => true) p) := sem_comm (comm_clean hP hm hw) (clean_D N m _)
  rw [zero_iff] at hψ
  have h1 : run P (compile P p m) ψ = sem P (fun _ => true) p ψ := by
    have := congrArg (fun M : E => M ψ) h
    simp only [Module.End.mul_apply, hψ] at this
    exact this
  refine ⟨h1, ?_⟩
  rw [zero_iff, h1]
  have := congrArg (fun M : E => M ψ) hc.eq
  simp only [Module.End.mul_apply, hψ] at this
  exact this

/-- An environment executes the operation that its body would be outside of it, exactly where its condition holds.
(The body contains no flip of the truth value, and as in `C126_nested_partial`.) -/
theorem C126_controlled_partial {G K : Type} (P : Par G K) (hP : P.OK) (n m N : Nat) (qs : List Nat) (st : List Bool) (i : Bool)
    (body : Prog G K) (hw : WF P n none [] (.ctrl qs st i body .done)) (hf : WF P n (some (polOf true qs st i, false)) qs body)
    (hm : n ≤ m) (hN : (comp P none (.ctrl qs st i body .done) m).2.2 ≤ N) (ψ : B → ℂ) (hψ : C126_zero N m ψ) (b : B) :
    run P (compile P (.ctrl qs st i body .done) m) ψ b =
      if (matches' qs st b ^^ i) then sem P (fun _ => true) body ψ b else ψ b := by
  rw [(C126_nested_partial P hP n m N _ hw hm hN ψ hψ).1]
  have h : sem P (fun b => matches' qs st b ^^ i) body = when (fun b => matches' qs st b ^^ i) (sem P (fun _ => true) body) := by
    have := sem_and (T := fun _ => true) body hf
      (comm_D (T := fun b => matches' qs st b ^^ i) hP (matchesx_dep qs st i) hf fun q hq => .inl hq)
    simpa using this
  simp only [sem, when_true, one_mul]
  rw [h]
  show (if (matches' qs st b ^^ i) then (1 : ℂ) else 0) * _ + (if !(matches' qs st b ^^ i) then (1 : ℂ) else 0) * ψ b = _
  cases matches' qs st b ^^ i <;> simp

/-! ### A concrete set of gates: X gates, conditions that read one qubit, exact `mcx` -/

/-- Gate `q` is X on qubit `q`; condition `k` reads qubit `k`. -/
noncomputable def C126_par : Par Nat Nat :=
  ⟨fun q => [q], fun q => q, fun k => [k], fun q => X q, fun k b => b k, fun _ _ _ => 1⟩

theorem C126_par_OK : C126_par.OK where
  locX g q _ := X_comm _ _
  locZ g q h := X_bit_comm (by simpa [C126_par] using h)
  inv1 g := X_sq g
  inv2 g := X_sq g
  supp_inv g := rfl
  dep k := fun b c h => h k (by simp [C126_par])
  th_dep cs st := fun _ _ _ => rfl
  th_ne cs st b := one_ne_zero

/-- `with control(0): with control(1): x(2)`. -/
def C126_two : Prog Nat Nat := .ctrl [0] [true] false (.ctrl [1] [true] false (.gate 2 .done) .done) .done

/-- The circuit: the truth value of the inner environment is computed into qubit 3. -/
theorem C126_example : compile C126_par C126_two 3 =
    [.mcx [1, 0] [true, true] 3 false, .ctl 3 true (.gate 2), .mcx [1, 0] [true, true] 3 true] := rfl

theorem C126_example_wf : WF C126_par 3 none [] C126_two := by
  have h : ∀ q, q ≠ 2 → Commute (X 2) (D fun b => b q) := fun q h => X_bit_comm h
  simp [C126_two, WF, avoid, C126_par, h]

/-- `invert` in a controlled environment: the inverted operations are controlled. -/
theorem C126_example_undo : compile C126_par
      (.ctrl [0] [false] false (.undo (.gate 1 (.ctrl [1] [true] false (.gate 2 .done) .done)) (.gate 2 .done)) .done) 3 =
    [.mcx [1, 0] [true, false] 3 false, .ctl 3 true (.gate 2), .mcx [1, 0] [true, false] 3 true, .ctl 0 false (.gate 1),
      .ctl 0 false (.gate 2)] := rfl

/-- `conjugate` in a controlled environment: the outer operations are not controlled. In a nested environment they are,
and the inner operations are controlled on the control qubit, too. -/
theorem C126_example_conj : compile C126_par (.ctrl [0] [false] false (.conj [1, 2] [1] .done) .done) 3 =
      [.xc 0 (.cus 0 (.gate 1)), .xc 0 (.cus 0 (.gate 2)), .xc 0 (.ctl 0 true (.gate 1)), .xc 0 (.cus 0 (.gate 2)),
        .xc 0 (.cus 0 (.gate 1))] ∧
    compile C126_par (.ctrl [0] [true] false (.ctrl [1] [true] false (.conj [2] [3] .done) .done) .done) 4 =
      [.mcx [1, 0] [true, true] 4 false, .ctl 4 true (.cus 1 (.gate 2)), .ctl 4 true (.ctl 1 true (.gate 3)),
        .ctl 4 true (.cus 1 (.gate 2)), .mcx [1, 0] [true, true] 4 true] := ⟨rfl, rfl⟩

theorem C126_example_conj_wf :
    WF C126_par 4 none [] (.ctrl [0] [true] false (.ctrl [1] [true] false (.conj [2] [3] .done) .done) .done) := by
  have h : ∀ q a, q ≠ a → Commute (X a) (D fun b => b q) := fun q a h => X_bit_comm h
  simp [WF, avoid, C126_par, h]

/-! ### Where the compiled circuit is wrong -/

theorem when_apply (T : B → Bool) (M : E) (ψ : B → ℂ) (b : B) : when T M ψ b = if T b then M ψ b else ψ b := by
  show (if T b then (1 : ℂ) else 0) * _ + (if !T b then (1 : ℂ) else 0) * ψ b = _
  cases T b <;> simp

theorem X_apply (a : Nat) (ψ : B → ℂ) (b : B) : X a ψ b = ψ (Env.flip a b) := rfl

theorem dg_apply (f : B → ℂ) (ψ : B → ℂ) (b : B) : dg f ψ b = f b * ψ b := rfl

/-- Qubits 0 to 5 have the values `v`. -/
def C126_state (v : Nat → Bool) (b : B) : ℂ := if (List.range 6).all (fun q => b q == v q) then 1 else 0

theorem C126_state_zero (v : Nat → Bool) (h : v 3 = false ∧ v 4 = false ∧ v 5 = false) : C126_zero 6 3 (C126_state v) := by
  rintro b ⟨q, h1, h2, h3⟩
  unfold C126_state
  rw [if_neg]
  intro ha
  rw [List.all_eq_true] at ha
  have := ha q (by simp; omega)
  rw [h3] at this
  have hq : q = 3 ∨ q = 4 ∨ q = 5 := by omega
  rcases hq with rfl | rfl | rfl <;> simp_all

/-- All qubits zero, those of the list one. -/
def C126_bits (l : List Nat) : B := fun q => l.contains q

/-- `with control(0): with control(1, invert = True): x(2)`. -/
def C126_inv : Prog Nat Nat := .ctrl [0] [true] false (.ctrl [1] [true] true (.gate 2 .done) .done) .done

/-- With qubit 0 in state zero nothing should happen, but qubit 2 is flipped. -/
theorem C126_inverted : run C126_par (compile C126_par C126_inv 3) (C126_state (C126_bits [])) (C126_bits [2]) = 1 ∧
    sem C126_par (fun _ => true) C126_inv (C126_state (C126_bits [])) (C126_bits [2]) = 0 := by
  constructor
  · simp [C126_inv, compile, comp, planCtrl, ctrls, content, wrapAll, wrap, OpI.qubits, closing, odd, isX, run, op, C126_par,
      when_apply, X_apply, dg_apply, matches', C126_bits, C126_state, Env.flip, List.range_succ]
  · simp [C126_inv, sem, when_apply, matches', C126_bits, C126_par, C126_state, List.range_succ]

/-- `with control(0): with control(1) as c: x(c); x(2)`. -/
def C126_flp : Prog Nat Nat := .ctrl [0] [true] false (.ctrl [1] [true] false (.flip (.gate 2 .done)) .done) .done

/-- With qubit 0 in state zero nothing should happen, but qubit 2 is flipped. -/
theorem C126_flipped : run C126_par (compile C126_par C126_flp 3) (C126_state (C126_bits [])) (C126_bits [2]) = 1 ∧
    sem C126_par (fun _ => true) C126_flp (C126_state (C126_bits [])) (C126_bits [2]) = 0 := by
  constructor
  · simp [C126_flp, compile, comp, planCtrl, ctrls, content, wrapAll, wrap, OpI.qubits, closing, odd, isX, run, op, C126_par,
      when_apply, X_apply, dg_apply, matches', C126_bits, C126_state, Env.flip, List.range_succ]
  · simp [C126_flp, sem, when_apply, X_apply, matches', C126_bits, C126_par, C126_state, List.range_succ]

/-- `with control(0, ctrl_state = 0): with q == ...: x(2)` for a condition on qubit 1. -/
def C126_cnd : Prog Nat Nat := .ctrl [0] [false] false (.cond 1 (.gate 2 .done) .done) .done

/-- With qubits 0 and 1 in state one nothing should happen, but qubit 2 is flipped; with qubit 0 in state zero and
qubit 1 in state one, qubit 2 should be flipped and nothing happens. -/
theorem C126_condition :
    run C126_par (compile C126_par C126_cnd 3) (C126_state (C126_bits [0, 1])) (C126_bits [0, 1, 2]) = 1 ∧
    sem C126_par (fun _ => true) C126_cnd (C126_state (C126_bits [0, 1])) (C126_bits [0, 1, 2]) = 0 ∧
    run C126_par (compile C126_par C126_cnd 3) (C126_state (C126_bits [1])) (C126_bits [1, 2]) = 0 ∧
    sem C126_par (fun _ => true) C126_cnd (C126_state (C126_bits [1])) (C126_bits [1, 2]) = 1 := by
  refine ⟨?_, ?_, ?_, ?_⟩
  · simp [C126_cnd, compile, comp, planCtrl, planCond, ctrls, content, wrapAll, wrap, OpI.qubits, closing, odd, isX, run, op,
      C126_par, when_apply, X_apply, dg_apply, matches', C126_bits, C126_state, Env.flip, List.range_succ]
  · simp [C126_cnd, sem, when_apply, X_apply, matches', C126_bits, C126_par, C126_state, List.range_succ]
  · simp [C126_cnd, compile, comp, planCtrl, planCond, ctrls, content, wrapAll, wrap, OpI.qubits, closing, odd, isX, run, op,
      C126_par, when_apply, X_apply, dg_apply, matches', C126_bits, C126_state, Env.flip, List.range_succ]
  · simp [C126_cnd, sem, when_apply, X_apply, matches', C126_bits, C126_par, C126_state, List.range_succ, Env.flip]

/-- `with control(0, ctrl_state = 0) as c: p(φ, c)`. -/
def C126_phs (φ : ℝ) : Prog Nat Nat := .ctrl [0] [false] false (.phase φ .done) .done

/-- With qubit 0 in state one nothing should happen, but the phase is applied; with qubit 0 in state zero nothing
happens. -/
theorem C126_phase (φ : ℝ) :
    run C126_par (compile C126_par (C126_phs φ) 3) (C126_state (C126_bits [0])) = Complex.exp (φ * Complex.I) • C126_state (C126_bits [0]) ∧
    sem C126_par (fun _ => true) (C126_phs φ) (C126_state (C126_bits [0])) = C126_state (C126_bits [0]) ∧
    run C126_par (compile C126_par (C126_phs φ) 3) (C126_state (C126_bits [])) = C126_state (C126_bits []) := by
  refine ⟨?_, ?_, ?_⟩
  · funext b
    simp [C126_phs, compile, comp, planCtrl, content, wrapAll, wrap, plain, OpI.qubits, closing, odd, isX, run, op, dg_apply,
      C126_state, C126_bits, List.range_succ]
    cases h : b 0 <;> simp
  · funext b
    simp [C126_phs, sem, when_apply, matches', C126_state, C126_bits, List.range_succ]
    cases h : b 0 <;> simp
  · funext b
    simp [C126_phs, compile, comp, planCtrl, content, wrapAll, wrap, plain, OpI.qubits, closing, odd, isX, run, op, dg_apply,
      C126_state, C126_bits, List.range_succ]
    cases h : b 0 <;> simp

/-- `with control(0) as c: rz(φ, c)`. -/
def C126_rzp (φ : ℝ) : Prog Nat Nat := .ctrl [0] [true] false (.rzt φ .done) .done

/-- With qubit 0 in state zero nothing should happen, but a phase is applied. -/
theorem C126_rz (φ : ℝ) :
    run C126_par (compile C126_par (C126_rzp φ) 3) (C126_state (C126_bits [])) =
      Complex.exp (-(φ / 2) * Complex.I) • C126_state (C126_bits []) ∧
    sem C126_par (fun _ => true) (C126_rzp φ) (C126_state (C126_bits [])) = C126_state (C126_bits []) := by
  refine ⟨?_, ?_⟩
  · funext b
    simp [C126_rzp, compile, comp, planCtrl, content, wrapAll, wrap, plain, OpI.qubits, closing, odd, isX, run, op, dg_apply,
      C126_state, C126_bits, List.range_succ]
    cases h : b 0 <;> simp
  · funext b
    simp [C126_rzp, sem, when_apply, matches', C126_state, C126_bits, List.range_succ]
    cases h : b 0 <;> simp

/-- `with control(0): with control(1, ctrl_state = 0): with conjugate(us)(): x(2)`. -/
def C126_cnj : Prog Nat Nat := .ctrl [0] [true] false (.ctrl [1] [false] false (.conj [] [2] .done) .done) .done

/-- The body of the conjugation is never executed: it is controlled on qubit 1 and on a truth value that excludes it. -/
theorem C126_conjugation :
    run C126_par (compile C126_par C126_cnj 3) (C126_state (C126_bits [0])) (C126_bits [0, 2]) = 0 ∧
    sem C126_par (fun _ => true) C126_cnj (C126_state (C126_bits [0])) (C126_bits [0, 2]) = 1 ∧
    C126_user C126_par 3 false [] C126_cnj := by
  refine ⟨?_, ?_, ?_⟩
  · simp [C126_cnj, compile, comp, conjOps, userOf, planCtrl, ctrls, content, wrapAll, wrap, plain, OpI.qubits, closing, odd, isX,
      run, op, C126_par, when_apply, X_apply, dg_apply, matches', C126_bits, C126_state, Env.flip, List.range_succ]
  · simp [C126_cnj, sem, prodG, when_apply, X_apply, matches', C126_bits, C126_par, C126_state, List.range_succ, Env.flip]
  · have h : ∀ q, q ≠ 2 → Commute (X 2) (D fun b => b q) := fun q h => X_bit_comm h
    simp [C126_cnj, C126_user, avoid, C126_par, h]

/-- The full statement is false. -/
theorem C126_not_full : ¬ C126_full := by
  intro h
  have hu : C126_user C126_par 3 false [] C126_inv := by
    have h : ∀ q, q ≠ 2 → Commute (X 2) (D fun b => b q) := fun q h => X_bit_comm h
    simp [C126_inv, C126_user, avoid, C126_par, h]
  have := (h Nat Nat C126_par 3 3 6 C126_inv C126_par_OK hu le_rfl (by decide) _
    (C126_state_zero (C126_bits []) (by simp [C126_bits]))).1
  have h1 := C126_inverted
  rw [this] at h1
  rw [h1.1] at h1
  exact one_ne_zero h1.2

/-- The restricted programs are programs that a user can write. -/
theorem C126_wf_user {G K : Type} (P : Par G K) (n : Nat) (p : Prog G K) : ∀ e S, WF P n e S p → C126_user P n e.isSome S p := by
  induction p with
  | done => intros; trivial
  | gate g r ih => intro e S h; exact ⟨h.1, h.2.1, ih e S h.2.2⟩
  | flip r ih => intro e S h; exact ⟨by rcases e with _ | e <;> simp_all [WF], ih e S h.2⟩
  | phase φ r ih => intro e S h; exact ⟨by rcases e with _ | e <;> simp_all [WF], ih e S h.2⟩
  | rzt φ r ih => intro e S h; exact h.elim
  | ctrl qs st i body r ihb ihr =>
    intro e S h
    exact ⟨h.1, h.2.1, h.2.2.1, fun q hq => (h.2.2.2.2.1 q hq).1, ihb _ _ h.2.2.2.2.2.1, ihr _ _ h.2.2.2.2.2.2⟩
  | cond k body r ihb ihr => intro e S h; exact ⟨h.1, ihb _ _ h.2.2.1, ihr _ _ h.2.2.2⟩
  | undo body r ihb ihr =>
    intro e S h
    have := ihb _ _ h.2.1
    exact ⟨by simpa using this, ihr _ _ h.2.2⟩
  | conj us vs r ih => intro e S h; exact ⟨h.1, ih _ _ h.2⟩

end Verif.Props
