import Verif.Env.Proof

/-!
Facts about the operations that the compilation of environments produces.
-/

namespace Verif.Env

variable {G K : Type} {P : Par G K}

/-- A target or control qubit is used once. -/
def OpOK (P : Par G K) : OpI G K → Prop
  | .mcx cs _ t _ => t ∉ cs
  | .eval k t _ => t ∉ P.args k
  | .ctl q _ o => q ∉ o.qubits P ∧ OpOK P o
  | .cus _ o => OpOK P o
  | .xc _ o => OpOK P o
  | _ => True

theorem qubits_inv (hP : P.OK) (o : OpI G K) : (o.inv P).qubits P = o.qubits P := by
  induction o with
  | ctl q pol o ih => simp [OpI.inv, OpI.qubits, ih]
  | cus q o ih => simp [OpI.inv, OpI.qubits, ih]
  | xc q o ih => simp [OpI.inv, OpI.qubits, ih]
  | gate g => simp [OpI.inv, OpI.qubits, hP.supp_inv]
  | _ => rfl

theorem opOK_inv (hP : P.OK) (o : OpI G K) (h : OpOK P o) : OpOK P (o.inv P) := by
  induction o with
  | ctl q pol o ih => exact ⟨by rw [qubits_inv hP]; exact h.1, ih h.2⟩
  | cus q o ih => exact ih h
  | xc q o ih => exact ih h
  | mcx cs st t i => exact h
  | eval k t i => exact h
  | _ => trivial

theorem dg_bit_comm (f : B → ℂ) (q : Nat) : Commute (dg f) (D fun b => b q) := dg_comm _ _

theorem X_bit_comm {a q : Nat} (h : q ≠ a) : Commute (X a) (D fun b => b q) := X_D_comm fun b => flip_other h b

theorem when_bit_comm {T : B → Bool} {M : E} {q : Nat} (h : Commute M (D fun b => b q)) : Commute (when T M) (D fun b => b q) :=
  (Commute.when (D_comm _ _) h.symm).symm

/-- An operation does not change qubits on which it does not act. -/
theorem op_local (hP : P.OK) (o : OpI G K) {q : Nat} (h : q ∉ o.qubits P) : Commute (op P o) (D fun b => b q) := by
  induction o with
  | gate g => exact hP.locZ g q h
  | x a => exact X_bit_comm (by simpa [OpI.qubits] using h)
  | p φ a => exact dg_bit_comm _ _
  | rz φ a => exact dg_bit_comm _ _
  | mcx cs st t i =>
    have ht : q ≠ t := by simp [OpI.qubits] at h; exact h.2
    simp only [op]
    split
    · exact (when_bit_comm (X_bit_comm ht)).mul_left (dg_bit_comm _ _)
    · exact (dg_bit_comm _ _).mul_left (when_bit_comm (X_bit_comm ht))
  | eval k t i =>
    have ht : q ≠ t := by simp [OpI.qubits] at h; exact h.2
    exact when_bit_comm (X_bit_comm ht)
  | ctl a pol o ih => exact when_bit_comm (ih fun hm => h (by simp [OpI.qubits, hm]))
  | cus a o ih => exact ih fun hm => h (by simp [OpI.qubits, hm])
  | xc a o ih =>
    have ha : q ≠ a := by rintro rfl; exact h (by simp [OpI.qubits])
    exact ((X_bit_comm ha).mul_left (ih fun hm => h (by simp [OpI.qubits, hm]))).mul_left (X_bit_comm ha)

theorem when_X_sq {F : B → Bool} {t : Nat} (h : ∀ b, F (flip t b) = F b) : when F (X t) * when F (X t) = 1 := by
  rw [← when_mul (X_D_comm h).symm, X_sq, when_one]

theorem dg_inv {f : B → ℂ} (h : ∀ b, f b ≠ 0) : dg f * dg (fun b => (f b)⁻¹) = 1 := by
  rw [dg_mul, ← dg_one]
  congr 1
  funext b
  exact mul_inv_cancel₀ (h b)

theorem dg_inv' {f : B → ℂ} (h : ∀ b, f b ≠ 0) : dg (fun b => (f b)⁻¹) * dg f = 1 := by
  rw [(dg_comm _ _).eq, dg_inv h]

theorem bit_comm {M : E} {q : Nat} (v : Bool) (h : Commute M (D fun b => b q)) : Commute M (D fun b => b q == v) :=
  dep_D_comm (L := [q]) (by simpa using h) (bit_dep q v)

/-- An operation and its inverse. -/
theorem op_inv (hP : P.OK) (o : OpI G K) (h : OpOK P o) :
    op P (o.inv P) * op P o = 1 ∧ op P o * op P (o.inv P) = 1 := by
  induction o with
  | gate g => exact ⟨hP.inv1 g, hP.inv2 g⟩
  | x q => exact ⟨X_sq q, X_sq q⟩
  | p φ q =>
    simp only [OpI.inv, op, dg_mul]
    constructor <;>
    · rw [← dg_one]
      congr 1
      funext b
      split
      · rw [← Complex.exp_add]; simp
      · simp
  | rz φ q =>
    simp only [OpI.inv, op, dg_mul]
    constructor <;>
    · rw [← dg_one]
      congr 1
      funext b
      split
      · rw [← Complex.exp_add]
        convert Complex.exp_zero using 2
        push_cast; ring
      · rw [← Complex.exp_add]
        convert Complex.exp_zero using 2
        push_cast; ring
  | mcx cs st t i =>
    have hX := when_X_sq (t := t) ((matches_dep cs st).flip h)
    have h1 := dg_inv (hP.th_ne cs st)
    have h2 := dg_inv' (hP.th_ne cs st)
    have key1 : (when (matches' cs st) (X t) * dg fun b => (P.th cs st b)⁻¹) * (dg (P.th cs st) * when (matches' cs st) (X t)) = 1 := by
      rw [mul_assoc, ← mul_assoc (dg _) (dg _), h2, one_mul, hX]
    have key2 : (dg (P.th cs st) * when (matches' cs st) (X t)) * (when (matches' cs st) (X t) * dg fun b => (P.th cs st b)⁻¹) = 1 := by
      rw [mul_assoc, ← mul_assoc (when _ _) (when _ _), hX, one_mul, h1]
    cases i <;> simp only [OpI.inv, op, Bool.not_false, Bool.not_true, if_true, Bool.false_eq_true, if_false]
    · exact ⟨key1, key2⟩
    · exact ⟨key2, key1⟩
  | eval k t i =>
    have hX := when_X_sq (t := t) ((hP.dep k).flip h)
    exact ⟨hX, hX⟩
  | ctl q pol o ih =>
    have h1 := op_local hP o h.1
    have h2 := op_local hP (o.inv P) (q := q) (by rw [qubits_inv hP]; exact h.1)
    simp only [OpI.inv, op]
    rw [← when_mul (bit_comm pol h2).symm, ← when_mul (bit_comm pol h1).symm, (ih h.2).1, (ih h.2).2]
    exact ⟨when_one _, when_one _⟩
  | cus q o ih => exact ih h
  | xc q o ih =>
    have key : ∀ A B : E, A * B = 1 → X q * A * X q * (X q * B * X q) = 1 := by
      intro A B hAB
      rw [mul_assoc, ← mul_assoc (X q) (X q * B), ← mul_assoc (X q) (X q), X_sq, one_mul, mul_assoc, ← mul_assoc A, hAB,
        one_mul, X_sq]
    exact ⟨key _ _ (ih h).1, key _ _ (ih h).2⟩

theorem run_append (l l' : List (OpI G K)) : run P (l ++ l') = run P l' * run P l := by
  induction l with
  | nil => simp [run]
  | cons o l ih => simp [run, ih, mul_assoc]

theorem run_inv (hP : P.OK) (l : List (OpI G K)) (h : ∀ o ∈ l, OpOK P o) : run P (l.reverse.map (·.inv P)) * run P l = 1 := by
  induction l with
  | nil => simp [run]
  | cons o l ih =>
    rw [List.reverse_cons, List.map_append, run_append]
    simp only [List.map_cons, List.map_nil, run, one_mul]
    rw [mul_assoc, ← mul_assoc (run P _) (run P l), ih fun o ho => h o (by simp [ho]), one_mul, (op_inv hP o (h o (by simp))).1]

theorem run_local (hP : P.OK) (l : List (OpI G K)) {q : Nat} (h : ∀ o ∈ l, q ∉ o.qubits P) :
    Commute (run P l) (D fun b => b q) := by
  induction l with
  | nil => exact Commute.one_left _
  | cons o l ih => exact (ih fun o ho => h o (by simp [ho])).mul_left (op_local hP o (h o (by simp)))

/-- The operation is fine and acts on qubits of the program, the truth value of the enclosing environment and
new qubits. -/
def Bd (P : Par G K) (n : Nat) (cx : Option Ctx) (m m' : Nat) (o : OpI G K) : Prop :=
  OpOK P o ∧ ∀ q ∈ o.qubits P, q < n ∨ (∃ c, cx = some c ∧ q = c.ctv) ∨ (m ≤ q ∧ q < m')

theorem Bd.mono {n : Nat} {cx : Option Ctx} {m m' k k' : Nat} {o : OpI G K} (h : Bd P n cx m m' o) (h1 : k ≤ m) (h2 : m' ≤ k') :
    Bd P n cx k k' o :=
  ⟨h.1, fun q hq => (h.2 q hq).imp_right fun h => h.imp_right fun h => ⟨by omega, by omega⟩⟩

/-- The context of the compilation and that of the specification. -/
def Rel (P : Par G K) (n : Nat) : Option Ctx → Option (Bool × Bool) → Prog G K → Nat → Prop
  | none, none, _, _ => True
  | some c, some e, p, m => c.pol = e.1 ∧ c.ctv < m ∧ avoid P c.ctv p ∧
      ∀ u, c.user = some u → u < n ∧ avoid P u p ∧ n ≤ c.ctv
  | _, _, _, _ => False

/-- What the compilation needs from a plan. -/
structure PlanB (P : Par G K) (n : Nat) (cx : Option Ctx) (m : Nat) (pl : Plan G K) (pol : Bool) (body : Prog G K) : Prop where
  next : m ≤ pl.next
  ctv : pl.c.ctv < pl.next
  fresh : cx.isSome → m ≤ pl.c.ctv
  old : cx = none → pl.c.ctv < n ∨ m ≤ pl.c.ctv
  ops : ∀ o, o ∈ pl.pre ∨ o ∈ pl.post → Bd P n cx m pl.next o
  noX : ∀ o, o ∈ pl.pre ∨ o ∈ pl.post → ∀ q, o ≠ .x q
  pol : pl.c.pol = pol
  avoid : avoid P pl.c.ctv body
  user : ∀ u, pl.c.user = some u → u < n ∧ Env.avoid P u body ∧ n ≤ pl.c.ctv

theorem planB_rel {n : Nat} {cx : Option Ctx} {m : Nat} {pl : Plan G K} {pol fl : Bool} {body : Prog G K}
    (h : PlanB P n cx m pl pol body) : Rel P n (some pl.c) (some (pol, fl)) body pl.next := ⟨h.pol, h.ctv, h.avoid, h.user⟩

/-- The two cases of `planCtrl`. -/
theorem planCtrl_cases (cx : Option Ctx) (qs : List Nat) (st : List Bool) (i : Bool) (m : Nat) :
    (cx = none ∧ ∃ q v, qs = [q] ∧ st = [v] ∧ (planCtrl cx qs st i m : Plan G K) = ⟨⟨q, v ^^ i, none⟩, [], [], m⟩ ∧
      polOf cx.isNone qs st i = (v ^^ i)) ∨
    ((planCtrl cx qs st i m : Plan G K) = ⟨⟨m, !i, userOf qs⟩, [.mcx (ctrls cx qs st).1 (ctrls cx qs st).2 m false],
      [.mcx (ctrls cx qs st).1 (ctrls cx qs st).2 m true], m + 1⟩ ∧ polOf cx.isNone qs st i = !i ∧
      (cx.isSome ∨ st.length ≠ qs.length ∨ userOf qs = none)) := by
  rcases cx with _ | c
  · rcases qs with _ | ⟨q, _ | ⟨q', qs⟩⟩ <;> rcases st with _ | ⟨v, _ | ⟨v', st⟩⟩ <;>
      first
      | exact Or.inr ⟨rfl, rfl, by simp [userOf]⟩
      | exact Or.inl ⟨rfl, _, _, rfl, rfl, rfl, rfl⟩
  · exact Or.inr ⟨rfl, by simp [polOf], .inl rfl⟩

theorem userOf_some {qs : List Nat} {u : Nat} (h : userOf qs = some u) : qs = [u] := by
  rcases qs with _ | ⟨q, _ | ⟨q', qs⟩⟩ <;> simp_all [userOf]

theorem rel_none {n : Nat} {cx : Option Ctx} {e : Option (Bool × Bool)} {p : Prog G K} {m : Nat} (h : Rel P n cx e p m) :
    cx.isNone = e.isNone := by
  rcases cx with _ | c <;> rcases e with _ | e <;> simp_all [Rel]

theorem rel_ctv {n : Nat} {cx : Option Ctx} {e : Option (Bool × Bool)} {p : Prog G K} {m : Nat} (h : Rel P n cx e p m) {c : Ctx}
    (hc : cx = some c) : c.ctv < m := by
  subst hc
  rcases e with _ | e
  · simp [Rel] at h
  · exact h.2.1

theorem planB_ctrl {n : Nat} {cx : Option Ctx} {e : Option (Bool × Bool)} {S : List Nat} {m : Nat} {qs st i} {body r : Prog G K}
    (hw : WF P n e S (.ctrl qs st i body r)) (hr : Rel P n cx e (.ctrl qs st i body r) m) (hm : n ≤ m) :
    PlanB P n cx m (planCtrl cx qs st i m) (polOf e.isNone qs st i) body := by
  rw [← rel_none hr]
  rcases planCtrl_cases (G := G) (K := K) cx qs st i m with ⟨rfl, q, v, rfl, rfl, h, hp⟩ | ⟨h, hp, -⟩
  · rw [h, hp]
    have hq : q < n := hw.2.2.1 q (by simp)
    exact ⟨le_rfl, by dsimp only; omega, by simp, fun _ => .inl hq, by simp, by simp, rfl, (hw.2.2.2.2.1 q rfl).1, by simp⟩
  · rw [h, hp]
    have hlt : ∀ q ∈ (ctrls cx qs st).1, q < n ∨ ∃ c, cx = some c ∧ q = c.ctv := by
      intro q hq
      rcases cx with _ | c
      · exact .inl (hw.2.2.1 q hq)
      · rcases List.mem_append.1 hq with h | h
        · exact .inl (hw.2.2.1 q h)
        · exact .inr ⟨c, rfl, by simpa using h⟩
    have hb : ∀ j, Bd P n cx m (m + 1) (.mcx (ctrls cx qs st).1 (ctrls cx qs st).2 m j) := by
      intro j
      refine ⟨?_, ?_⟩
      · intro hmem
        rcases hlt m hmem with h | ⟨c, hc, h⟩
        · omega
        · have := rel_ctv hr hc; omega
      · intro q hq
        rcases List.mem_append.1 hq with h | h
        · exact (hlt q h).imp_right .inl
        · simp at h; subst h; exact .inr (.inr ⟨le_rfl, by omega⟩)
    refine ⟨by simp, by simp, by simp, by simp, ?_, by simp, rfl, wf_avoid hm body hw.2.2.2.2.2.1, ?_⟩
    rotate_left
    · intro u hu
      have hu := userOf_some hu
      exact ⟨hw.2.2.1 u (by simp [hu]), (hw.2.2.2.2.1 u hu).1, hm⟩
    intro o ho
    simp at ho
    rcases ho with rfl | rfl <;> exact hb _

theorem planB_cond {n : Nat} {cx : Option Ctx} {e : Option (Bool × Bool)} {S : List Nat} {m : Nat} {k : K} {body r : Prog G K}
    (hw : WF P n e S (.cond k body r)) (hr : Rel P n cx e (.cond k body r) m) (hm : n ≤ m) :
    PlanB P n cx m (planCond cx k m) true body := by
  have hx : ∀ a, n ≤ a → a ∉ P.args k := fun a ha h => absurd (hw.1 a h) (by omega)
  have he : ∀ a j k', m ≤ a → a < k' → Bd P n cx m k' (.eval k a j) := by
    intro a j k' h1 h2
    refine ⟨hx a (by omega), ?_⟩
    intro q hq
    rcases List.mem_append.1 hq with h | h
    · exact .inl (hw.1 q h)
    · simp at h; subst h; exact .inr (.inr ⟨h1, h2⟩)
  rcases cx with _ | c
  · refine ⟨by simp [planCond], by simp [planCond], by simp, by simp [planCond], ?_, by simp [planCond], rfl,
      wf_avoid hm body hw.2.2.1, by simp [planCond]⟩
    intro o ho
    simp [planCond] at ho
    rcases ho with rfl | rfl <;> exact he _ _ _ le_rfl (by simp [planCond])
  · have hc := rel_ctv hr rfl
    have hb : ∀ j, Bd P n (some c) m (m + 2) (.mcx [c.ctv, m + 1] [true, true] m j) := by
      intro j
      refine ⟨?_, ?_⟩
      · show m ∉ [c.ctv, m + 1]
        simp; omega
      · intro q hq
        simp [OpI.qubits] at hq
        rcases hq with rfl | rfl | rfl
        · exact .inr (.inl ⟨c, rfl, rfl⟩)
        · exact .inr (.inr ⟨by omega, by omega⟩)
        · exact .inr (.inr ⟨by omega, by omega⟩)
    refine ⟨by simp [planCond], by simp [planCond], by simp [planCond], by simp, ?_, ?_, rfl,
      wf_avoid hm body hw.2.2.1, by simp [planCond]⟩
    · intro o ho
      simp [planCond] at ho
      rcases ho with (rfl | rfl) | rfl | rfl
      · exact he _ _ _ (by omega) (by simp [planCond])
      · exact hb _
      · exact hb _
      · exact he _ _ _ (by omega) (by simp [planCond])
    · intro o ho
      simp [planCond] at ho
      rcases ho with (rfl | rfl) | rfl | rfl <;> simp

theorem wrap_cases (c : Ctx) (s : List Nat) (o : OpI G K) :
    (wrap P c s o = o ∧ ((∃ q ∈ o.qubits P, q ∈ s) ∨ c.ctv ∈ o.qubits P)) ∨
    (wrap P c s o = .xc c.ctv o ∧ c.ctv ∈ o.qubits P) ∨
    (wrap P c s o = .ctl c.ctv c.pol o ∧ c.ctv ∉ o.qubits P) := by
  unfold wrap
  split
  · rename_i h
    simp at h
    exact .inl ⟨rfl, .inl h⟩
  · split
    · rename_i h
      simp at h
      split
      · exact .inl ⟨rfl, .inr h⟩
      · exact .inr (.inl ⟨rfl, h⟩)
    · rename_i h
      simp at h
      exact .inr (.inr ⟨rfl, h⟩)

theorem wrap_bd {n : Nat} {c : Ctx} {s : List Nat} {m m' : Nat} {o : OpI G K} (h : Bd P n (some c) m m' o) :
    Bd P n (some c) m m' (wrap P c s o) := by
  rcases wrap_cases (P := P) c s o with ⟨he, -⟩ | ⟨he, hn⟩ | ⟨he, hn⟩
  · rw [he]; exact h
  · rw [he]
    refine ⟨h.1, ?_⟩
    intro q hq
    simp [OpI.qubits] at hq
    rcases hq with rfl | hq
    · exact .inr (.inl ⟨c, rfl, rfl⟩)
    · exact h.2 q hq
  · rw [he]
    refine ⟨⟨hn, h.1⟩, ?_⟩
    intro q hq
    simp [OpI.qubits] at hq
    rcases hq with rfl | hq
    · exact .inr (.inl ⟨c, rfl, rfl⟩)
    · exact h.2 q hq

theorem wrap_noX {c : Ctx} {s : List Nat} {o : OpI G K} (h : ∀ q, o ≠ .x q) : ∀ q, wrap P c s o ≠ .x q := by
  intro q
  rcases wrap_cases (P := P) c s o with ⟨he, -⟩ | ⟨he, hn⟩ | ⟨he, hn⟩
  · rw [he]; exact h q
  · rw [he]; simp
  · rw [he]; simp

theorem plain_inv (o : OpI G K) : plain (o.inv P) = plain o := by cases o <;> rfl

theorem wrap_inv (hP : P.OK) {c : Ctx} {s : List Nat} {o : OpI G K} : wrap P c s (o.inv P) = (wrap P c s o).inv P := by
  unfold wrap
  rw [qubits_inv hP, plain_inv]
  split
  · rfl
  · split
    · split <;> rfl
    · rfl

theorem wrapAll_bd {n : Nat} {c : Ctx} {s : List Nat} {m m' : Nat} {l : List (Bool × OpI G K)}
    (h : ∀ o ∈ l, Bd P n (some c) m m' o.2) : ∀ o ∈ wrapAll P c s l, Bd P n (some c) m m' o := by
  intro o ho
  obtain ⟨x, hx, rfl⟩ := List.mem_map.1 ho
  split
  · exact h x hx
  · exact wrap_bd (h x hx)

theorem wrapAll_noX {c : Ctx} {s : List Nat} {l : List (Bool × OpI G K)} (h : ∀ o ∈ l, ∀ q, o.2 ≠ .x q) :
    ∀ o ∈ wrapAll P c s l, ∀ q, o ≠ .x q := by
  intro o ho
  obtain ⟨x, hx, rfl⟩ := List.mem_map.1 ho
  split
  · exact h x hx
  · exact wrap_noX (h x hx)

theorem odd_noX {c : Nat} {l : List (Bool × OpI G K)} (h : ∀ o ∈ l, ∀ q, o.2 ≠ .x q) : odd c l = false := by
  have : l.filter (isX c) = [] := by
    rw [List.filter_eq_nil_iff]
    intro o ho hx
    rcases o with ⟨f, o⟩
    cases f
    · cases o with
      | x q => exact h _ ho q rfl
      | _ => simp [isX] at hx
    · simp [isX] at hx
  simp [odd, this]

/-- What is needed of compiled instructions. -/
structure CompB (P : Par G K) (n : Nat) (cx : Option Ctx) (e : Option (Bool × Bool)) (p : Prog G K) (m : Nat)
    (r : List (Bool × OpI G K) × List Nat × Nat) : Prop where
  le : m ≤ r.2.2
  bd : ∀ o ∈ r.1, Bd P n cx m r.2.2 o.2
  subs : cx.isSome → ∀ a ∈ r.2.1, m ≤ a ∧ a < r.2.2
  noX : ∀ v, e = some (v, false) → ∀ o ∈ r.1, ∀ q, o.2 ≠ .x q
  touch : cx.isSome → noCond p → ∀ o ∈ r.1, o.1 = true → ∃ q ∈ o.2.qubits P, q ∈ r.2.1

theorem closing_x {c : Nat} {l : List (Bool × OpI G K)} : ∀ o ∈ closing c l, o = .x c := by
  intro o ho
  unfold closing at ho
  split at ho
  · simpa using ho
  · simp at ho

/-- The instructions of a child environment. -/
theorem chunk_bd {n : Nat} {cx : Option Ctx} {m : Nat} {pl : Plan G K} {pol fl : Bool} {body : Prog G K}
    {x : List (Bool × OpI G K) × List Nat × Nat} (hp : PlanB P n cx m pl pol body)
    (hx : CompB P n (some pl.c) (some (pol, fl)) body pl.next x) :
    ∀ o ∈ pl.pre ++ content P pl.c x ++ pl.post, Bd P n cx m x.2.2 o := by
  have h1 := hp.next
  have h2 := hx.le
  have h3 := hp.ctv
  have hcv : pl.c.ctv < n ∨ (m ≤ pl.c.ctv ∧ pl.c.ctv < x.2.2) := by
    rcases cx with _ | c
    · rcases hp.old rfl with h | h
      · exact .inl h
      · exact .inr ⟨h, by omega⟩
    · exact .inr ⟨hp.fresh rfl, by omega⟩
  have conv : ∀ o, Bd P n (some pl.c) pl.next x.2.2 o → Bd P n cx m x.2.2 o := by
    intro o ho
    refine ⟨ho.1, fun q hq => ?_⟩
    rcases ho.2 q hq with h | ⟨c, hc, h⟩ | h
    · exact .inl h
    · injection hc with hc
      subst hc; subst h
      exact hcv.imp_right .inr
    · exact .inr (.inr ⟨by omega, h.2⟩)
  intro o ho
  rw [List.append_assoc, List.mem_append, List.mem_append] at ho
  rcases ho with h | h | h
  · exact (hp.ops o (.inl h)).mono le_rfl h2
  · rcases List.mem_append.1 h with h | h
    · exact conv o (wrapAll_bd hx.bd o h)
    · have := closing_x o h
      subst this
      refine conv _ ⟨trivial, fun q hq => ?_⟩
      simp [OpI.qubits] at hq
      exact .inr (.inl ⟨_, rfl, hq⟩)
  · exact (hp.ops o (.inr h)).mono le_rfl h2

theorem chunk_noX {n : Nat} {cx : Option Ctx} {m : Nat} {pl : Plan G K} {pol : Bool} {body : Prog G K}
    {x : List (Bool × OpI G K) × List Nat × Nat} (hp : PlanB P n cx m pl pol body)
    (hx : CompB P n (some pl.c) (some (pol, false)) body pl.next x) :
    ∀ o ∈ pl.pre ++ content P pl.c x ++ pl.post, ∀ q, o ≠ .x q := by
  intro o ho
  rw [List.append_assoc, List.mem_append, List.mem_append] at ho
  have hn := hx.noX pol rfl
  rcases ho with h | h | h
  · exact hp.noX o (.inl h)
  · rw [content, closing, odd_noX hn] at h
    simp at h
    exact wrapAll_noX hn o h
  · exact hp.noX o (.inr h)

theorem chunk_touch {n : Nat} {pl : Plan G K} {pol fl : Bool} {body : Prog G K}
    {x : List (Bool × OpI G K) × List Nat × Nat}
    (hpl : ∀ o, o ∈ pl.pre ∨ o ∈ pl.post → pl.c.ctv ∈ o.qubits P)
    (hx : CompB P n (some pl.c) (some (pol, fl)) body pl.next x) (hc : noCond body) :
    ∀ o ∈ pl.pre ++ content P pl.c x ++ pl.post, ∃ q ∈ o.qubits P, q ∈ x.2.1 ∨ q = pl.c.ctv := by
  intro o ho
  rw [List.append_assoc, List.mem_append, List.mem_append] at ho
  rcases ho with h | h | h
  · exact ⟨_, hpl o (.inl h), .inr rfl⟩
  · rcases List.mem_append.1 h with h | h
    · obtain ⟨y, hy, rfl⟩ := List.mem_map.1 h
      split
      · rename_i hf
        obtain ⟨q, h1, h2⟩ := hx.touch rfl hc y hy hf
        exact ⟨q, h1, .inl h2⟩
      · rcases wrap_cases (P := P) pl.c x.2.1 y.2 with ⟨he, h⟩ | ⟨he, h⟩ | ⟨he, h⟩
        · rw [he]
          rcases h with ⟨q, h1, h2⟩ | h
          · exact ⟨q, h1, .inl h2⟩
          · exact ⟨_, h, .inr rfl⟩
        · rw [he]; exact ⟨_, by simp [OpI.qubits], .inr rfl⟩
        · rw [he]; exact ⟨_, by simp [OpI.qubits], .inr rfl⟩
    · have := closing_x o h
      subst this
      exact ⟨_, by simp [OpI.qubits], .inr rfl⟩
  · exact ⟨_, hpl o (.inr h), .inr rfl⟩

theorem rel_le {n : Nat} {cx : Option Ctx} {e : Option (Bool × Bool)} {p p' : Prog G K} {m m' : Nat} (h : Rel P n cx e p m) (hm : m ≤ m')
    (hp : ∀ c, avoid P c p → avoid P c p') : Rel P n cx e p' m' := by
  rcases cx with _ | c <;> rcases e with _ | e
  · trivial
  · exact h
  · exact h
  · exact ⟨h.1, by have := h.2.1; omega, hp _ h.2.2.1, fun u hu => ⟨(h.2.2.2 u hu).1, hp _ (h.2.2.2 u hu).2.1, (h.2.2.2 u hu).2.2⟩⟩

theorem rel_undo {n : Nat} {cx : Option Ctx} {e : Option (Bool × Bool)} {p : Prog G K} {m : Nat} (h : Rel P n cx e p m) :
    Rel P n cx (e.map fun x => (x.1, false)) p m := by
  rcases cx with _ | c <;> rcases e with _ | e <;> exact h

theorem planCtrl_touch {cx : Option Ctx} {qs st i} {m : Nat} :
    ∀ o, o ∈ (planCtrl cx qs st i m : Plan G K).pre ∨ o ∈ (planCtrl cx qs st i m : Plan G K).post →
      (planCtrl cx qs st i m : Plan G K).c.ctv ∈ o.qubits P := by
  rcases planCtrl_cases (G := G) (K := K) cx qs st i m with ⟨rfl, q, v, rfl, rfl, h, hp⟩ | ⟨h, hp, -⟩
  · rw [h]; simp
  · rw [h]
    intro o ho
    simp at ho
    rcases ho with rfl | rfl <;> simp [OpI.qubits]

/-- The operations of conjugation environments. -/
theorem conj_bd (hP : P.OK) {n : Nat} {cx : Option Ctx} {e : Option (Bool × Bool)} {S : List Nat} {m k m' : Nat} {us vs : List G}
    {r : Prog G K} (hw : WF P n e S (.conj us vs r)) (hr : Rel P n cx e (.conj us vs r) k) :
    ∀ o ∈ conjOps P cx us vs, Bd P n cx m m' o ∧ ∀ q, o ≠ .x q := by
  have hg : ∀ g, (g ∈ us ++ vs ∨ g ∈ us.reverse.map P.ginv) → ∀ q ∈ P.supp g, q < n := by
    rintro g (h | h)
    · exact (hw.1 g h).1
    · obtain ⟨u, hu, rfl⟩ := List.mem_map.1 h
      rw [hP.supp_inv]
      exact (hw.1 u (by simp at hu; simp [hu])).1
  rcases cx with _ | c
  · intro o ho
    simp only [conjOps, List.mem_append, List.mem_map (f := OpI.gate)] at ho
    have key : ∀ g, (g ∈ us ++ vs ∨ g ∈ us.reverse.map P.ginv) → Bd P n none m m' (.gate g) ∧ ∀ q, (.gate g : OpI G K) ≠ .x q :=
      fun g h => ⟨⟨trivial, fun q hq => .inl (hg g h q hq)⟩, by simp⟩
    rcases ho with (⟨g, h, rfl⟩ | ⟨g, h, rfl⟩) | ⟨g, h, rfl⟩
    · exact key g (.inl (by simp [h]))
    · exact key g (.inl (by simp [h]))
    · exact key g (.inr h)
  · rcases e with _ | e
    · simp [Rel] at hr
    have hu : c.user.getD c.ctv < n ∨ c.user.getD c.ctv = c.ctv := by
      rcases hcu : c.user with _ | u
      · exact .inr rfl
      · exact .inl (hr.2.2.2 u hcu).1
    have hv : ∀ g ∈ vs, c.user.getD c.ctv ∉ P.supp g := by
      intro g h
      rcases hcu : c.user with _ | u
      · exact hr.2.2.1.1 g (by simp [h])
      · exact (hr.2.2.2 u hcu).2.1.1 g (by simp [h])
    have hq : ∀ g, (g ∈ us ++ vs ∨ g ∈ us.reverse.map P.ginv) → ∀ q ∈ c.user.getD c.ctv :: P.supp g,
        q < n ∨ (∃ c', some c = some c' ∧ q = c'.ctv) ∨ (m ≤ q ∧ q < m') := by
      intro g h q hq
      rcases List.mem_cons.1 hq with rfl | hq
      · rcases hu with h | h
        · exact .inl h
        · exact .inr (.inl ⟨c, rfl, h⟩)
      · exact .inl (hg g h q hq)
    intro o ho
    simp only [conjOps] at ho
    rw [List.mem_append, List.mem_append, List.mem_map, List.mem_map, List.mem_map] at ho
    rcases ho with (⟨g, h, rfl⟩ | ⟨g, h, rfl⟩) | ⟨g, h, rfl⟩
    · exact ⟨⟨trivial, hq g (.inl (by simp [h]))⟩, by simp⟩
    · exact ⟨⟨⟨hv g h, trivial⟩, hq g (.inl (by simp [h]))⟩, by simp⟩
    · exact ⟨⟨trivial, hq g (.inr h)⟩, by simp⟩

/-- Facts about compiled instructions. -/
theorem compB (hP : P.OK) {n : Nat} (p : Prog G K) : ∀ {cx e S m}, WF P n e S p → Rel P n cx e p m → n ≤ m →
    CompB P n cx e p m (comp P cx p m) := by
  induction p with
  | done => intro cx e S m _ _ _; exact ⟨le_rfl, by simp [comp], by simp [comp], by simp [comp], by simp [comp]⟩
  | gate g r ih =>
    intro cx e S m hw hr hm
    have h := ih (cx := cx) hw.2.2 (rel_le hr le_rfl fun c h => h.2) hm
    refine ⟨h.le, ?_, h.subs, ?_, ?_⟩
    · intro o ho
      rcases List.mem_cons.1 ho with rfl | ho
      · exact ⟨trivial, fun q hq => .inl (hw.1 q hq)⟩
      · exact h.bd o ho
    · intro v hv o ho
      rcases List.mem_cons.1 ho with rfl | ho
      · simp
      · exact h.noX v hv o ho
    · intro hs hc o ho ht
      rcases List.mem_cons.1 ho with rfl | ho
      · simp at ht
      · exact h.touch hs hc o ho ht
  | flip r ih =>
    intro cx e S m hw hr hm
    have h := ih (cx := cx) hw.2 (rel_le hr le_rfl fun c h => h) hm
    refine ⟨h.le, ?_, h.subs, ?_, ?_⟩
    · intro o ho
      rcases List.mem_append.1 ho with ho | ho
      · rcases cx with _ | c
        · simp at ho
        · simp at ho
          subst ho
          exact ⟨trivial, fun q hq => .inr (.inl ⟨c, rfl, by simpa [OpI.qubits] using hq⟩)⟩
      · exact h.bd o ho
    · intro v hv
      have := hw.1
      rw [hv] at this
      simp at this
    · intro hs hc o ho ht
      rcases List.mem_append.1 ho with ho | ho
      · rcases cx with _ | c
        · simp at ho
        · simp at ho
          subst ho
          simp at ht
      · exact h.touch hs hc o ho ht
  | phase φ r ih =>
    intro cx e S m hw hr hm
    have h := ih (cx := cx) hw.2 (rel_le hr le_rfl fun c h => h) hm
    refine ⟨h.le, ?_, h.subs, ?_, ?_⟩
    · intro o ho
      rcases List.mem_append.1 ho with ho | ho
      · rcases cx with _ | c
        · simp at ho
        · simp at ho
          subst ho
          exact ⟨trivial, fun q hq => .inr (.inl ⟨c, rfl, by simpa [OpI.qubits] using hq⟩)⟩
      · exact h.bd o ho
    · intro v hv o ho
      rcases List.mem_append.1 ho with ho | ho
      · rcases cx with _ | c
        · simp at ho
        · simp at ho
          subst ho
          simp
      · exact h.noX v hv o ho
    · intro hs hc o ho ht
      rcases List.mem_append.1 ho with ho | ho
      · rcases cx with _ | c
        · simp at ho
        · simp at ho
          subst ho
          simp at ht
      · exact h.touch hs hc o ho ht
  | rzt φ r ih => intro cx e S m hw; exact hw.elim
  | ctrl qs st i body r ihb ihr =>
    intro cx e S m hw hr hm
    have hp := planB_ctrl hw hr hm
    have hx := ihb hw.2.2.2.2.2.1 (planB_rel hp) (by have := hp.next; omega)
    have h1 := hp.next
    have h2 := hx.le
    have h := ihr (cx := cx) (m := (comp P (some (planCtrl cx qs st i m : Plan G K).c) body (planCtrl cx qs st i m : Plan G K).next).2.2)
      hw.2.2.2.2.2.2 (rel_le hr (by omega) fun c h => h.2.2) (by omega)
    have h3 := h.le
    refine ⟨by simp only [comp]; omega, ?_, ?_, ?_, ?_⟩
    · intro o ho
      rcases List.mem_append.1 ho with ho | ho
      · obtain ⟨y, hy, rfl⟩ := List.mem_map.1 ho
        exact (chunk_bd hp hx y hy).mono le_rfl h3
      · exact (h.bd o ho).mono (by omega) le_rfl
    · intro hs a ha
      simp only [comp] at ha ⊢
      rcases List.mem_append.1 ha with ha | ha
      · have := hx.subs rfl a ha
        omega
      · rcases List.mem_cons.1 ha with rfl | ha
        · have := hp.fresh hs
          have := hp.ctv
          omega
        · have := h.subs hs a ha
          omega
    · intro v hv o ho
      rcases List.mem_append.1 ho with ho | ho
      · obtain ⟨y, hy, rfl⟩ := List.mem_map.1 ho
        subst hv
        exact chunk_noX hp hx y hy
      · exact h.noX v hv o ho
    · intro hs hc o ho ht
      rcases List.mem_append.1 ho with ho | ho
      · obtain ⟨y, hy, rfl⟩ := List.mem_map.1 ho
        obtain ⟨q, h1, h2⟩ := chunk_touch planCtrl_touch hx hc.1 y hy
        refine ⟨q, h1, ?_⟩
        simp only [comp]
        rcases h2 with h2 | h2 <;> simp [h2]
      · obtain ⟨q, h1, h2⟩ := h.touch hs hc.2 o ho ht
        refine ⟨q, h1, ?_⟩
        simp only [comp]
        simp [h2]
  | cond k body r ihb ihr =>
    intro cx e S m hw hr hm
    have hp := planB_cond hw hr hm
    have hx := ihb hw.2.2.1 (planB_rel hp) (by have := hp.next; omega)
    have h1 := hp.next
    have h2 := hx.le
    have h := ihr (cx := cx) (m := (comp P (some (planCond cx k m : Plan G K).c) body (planCond cx k m : Plan G K).next).2.2)
      hw.2.2.2 (rel_le hr (by omega) fun c h => h.2.2) (by omega)
    have h3 := h.le
    refine ⟨by simp only [comp]; omega, ?_, ?_, ?_, ?_⟩
    · intro o ho
      rcases List.mem_append.1 ho with ho | ho
      · obtain ⟨y, hy, rfl⟩ := List.mem_map.1 ho
        exact (chunk_bd hp hx y hy).mono le_rfl h3
      · exact (h.bd o ho).mono (by omega) le_rfl
    · intro hs a ha
      simp only [comp] at ha ⊢
      rcases List.mem_append.1 ha with ha | ha
      · have := hx.subs rfl a ha
        omega
      · rcases List.mem_cons.1 ha with rfl | ha
        · have := hp.fresh hs
          have := hp.ctv
          omega
        · have := h.subs hs a ha
          omega
    · intro v hv o ho
      rcases List.mem_append.1 ho with ho | ho
      · obtain ⟨y, hy, rfl⟩ := List.mem_map.1 ho
        subst hv
        exact chunk_noX hp hx y hy
      · exact h.noX v hv o ho
    · intro hs hc
      exact hc.elim
  | undo body r ihb ihr =>
    intro cx e S m hw hr hm
    have hx := ihb (cx := cx) (m := m) hw.2.1 (rel_undo (rel_le hr le_rfl fun c h => h.1)) hm
    have h2 := hx.le
    have h := ihr (cx := cx) (m := (comp P cx body m).2.2) hw.2.2 (rel_le hr h2 fun c h => h.2) (by omega)
    have h3 := h.le
    refine ⟨by simp only [comp]; omega, ?_, ?_, ?_, ?_⟩
    · intro o ho
      rcases List.mem_append.1 ho with ho | ho
      · obtain ⟨y, hy, rfl⟩ := List.mem_map.1 ho
        have := (hx.bd y (List.mem_reverse.1 hy)).mono (k := m) le_rfl h3
        exact ⟨opOK_inv hP _ this.1, by rw [qubits_inv hP]; exact this.2⟩
      · exact (h.bd o ho).mono (by omega) le_rfl
    · intro hs a ha
      simp only [comp] at ha ⊢
      rcases List.mem_append.1 ha with ha | ha
      · have := hx.subs hs a ha
        omega
      · have := h.subs hs a ha
        omega
    · intro v hv o ho
      rcases List.mem_append.1 ho with ho | ho
      · obtain ⟨y, hy, rfl⟩ := List.mem_map.1 ho
        have := hx.noX v (by rw [hv]; rfl) y (List.mem_reverse.1 hy)
        intro q
        dsimp only
        cases hy2 : y.2 with
        | x a => exact absurd hy2 (this a)
        | _ => simp [OpI.inv]
      · exact h.noX v hv o ho
    · intro hs hc o ho ht
      rcases List.mem_append.1 ho with ho | ho
      · obtain ⟨y, hy, rfl⟩ := List.mem_map.1 ho
        simp at ht
      · obtain ⟨q, h1, h2⟩ := h.touch hs hc.2 o ho ht
        refine ⟨q, h1, ?_⟩
        simp only [comp]
        simp [h2]
  | conj us vs r ih =>
    intro cx e S m hw hr hm
    have h := ih (cx := cx) hw.2 (rel_le hr le_rfl fun c h => h.2) hm
    have hco := conj_bd hP (cx := cx) (m := m) (m' := (comp P cx r m).2.2) hw hr
    refine ⟨h.le, ?_, h.subs, ?_, ?_⟩
    · intro o ho
      rcases List.mem_append.1 ho with ho | ho
      · obtain ⟨y, hy, rfl⟩ := List.mem_map.1 ho
        exact (hco y hy).1
      · exact h.bd o ho
    · intro v hv o ho
      rcases List.mem_append.1 ho with ho | ho
      · obtain ⟨y, hy, rfl⟩ := List.mem_map.1 ho
        exact (hco y hy).2
      · exact h.noX v hv o ho
    · intro hs hc o ho ht
      rcases List.mem_append.1 ho with ho | ho
      · obtain ⟨y, hy, rfl⟩ := List.mem_map.1 ho
        simp at ht
      · exact h.touch hs hc o ho ht

end Verif.Env
