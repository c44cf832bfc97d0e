import Verif.Sbp.InplMult
import Verif.Props.Sbp

/-!
# Comparisons of quantum floats

Models `alg_primitives/arithmetic/comparisons.py` (static mode). The duplicates made by `less_than_gate` are the floats
themselves here, and `compile` of the recorded session is the recorded list of operations. `fresh` are the qubits handed
out by `extend`.
-/

set_option linter.unusedSectionVars false

namespace Verif.Sbp

open Verif.Rev Verif.Fourier Verif.Iter Verif.Props

variable {Q : Type} [DecidableEq Q]

/-- The second operand of a comparison. -/
inductive Operand (Q : Type) where
  | qf (b : QF Q)
  | num (c : ℚ)

/-- `a -= b` (quantum_float.py:695-724). -/
def Operand.sub (f : List Q → St Q → ℂ) (d anc : Q) (a : QF Q) : Operand Q → Option (List (SOp Q))
  | .qf b => isub f d anc a b
  | .num c => isubC f d anc a c

/-- `a += b` (quantum_float.py:662-691). -/
def Operand.add (f : List Q → St Q → ℂ) (d anc : Q) (a : QF Q) : Operand Q → Option (List (SOp Q))
  | .qf b => iadd f d anc a b
  | .num c => iaddC f d anc a c

/-- The loop `while True` (comparisons.py:39-51) for floats: how many qubits are added at the top. `at`, `bt` are
`a.mshape[1]`, `b.mshape[1]`. -/
def upCount (aT bT : ℤ) : ℕ → ℕ → ℕ
  | 0, n => n
  | fuel + 1, n => if aT + (n + 1) < bT + 1 then upCount aT bT fuel (n + 1) else n + 1

/-- Qubits added at the top (comparisons.py:37-51). -/
def addUp (a : QF Q) : Operand Q → ℕ
  | .qf b => upCount (a.exp + a.msize) (b.exp + b.msize) ((b.exp + b.msize + 1 - (a.exp + a.msize)).toNat + 1) 0
  | .num _ => 1

/-- Qubits added at the bottom (comparisons.py:53-61). -/
def addLow (a : QF Q) : Operand Q → ℕ
  | .qf b => (a.exp - b.exp).toNat
  | .num _ => 0

/-- `less_than_gate` (comparisons.py:22-114). If the first operand is unsigned, the result is the new sign qubit,
otherwise an additional one. -/
def ltGate (f : List Q → St Q → ℂ) (d anc res : Q) (fresh : List Q) (a : QF Q) (b : Operand Q) : Option (List (SOp Q)) :=
  let up := fresh.take (addUp a b)
  let low := (fresh.drop (addUp a b)).take (addLow a b)
  if a.signed then
    let sg := a.reg.getLastD d
    let a' : QF Q := { reg := low ++ a.reg.dropLast ++ up ++ [sg], exp := a.exp - addLow a b, signed := true }
    (b.sub f d anc a').bind fun g1 => (b.add f d anc a').map fun g2 =>
      (up.map (.cx sg)).map .g ++ g1 ++ [.g (.cx sg res)] ++ g2 ++ (up.reverse.map (.cx sg)).map .g
  else
    let a' : QF Q := { reg := low ++ a.reg ++ up ++ [res], exp := a.exp - addLow a b, signed := true }
    let a'' : QF Q := { reg := low ++ a.reg ++ up, exp := a.exp - addLow a b, signed := true }
    (b.sub f d anc a').bind fun g1 => (b.add f d anc a'').map fun g2 => g1 ++ g2

/-! ### Composition -/

theorem MapsTo.append {anc : Q} {A B : List (SOp Q)} {f g : St Q → St Q} (hA : MapsTo anc A f) (hB : MapsTo anc B g) :
    MapsTo anc (A ++ B) fun s => g (f s) := by
  intro ψ hψ
  obtain ⟨h1, h2⟩ := hA ψ hψ
  obtain ⟨h3, h4⟩ := hB _ h1
  rw [runS_append]
  exact ⟨h3, fun s => by rw [h4, h2]⟩

theorem runS_gates (gs : List (FGate Q)) (ψ : St Q → ℂ) : runS (gs.map .g) ψ = Fourier.run gs ψ := by
  induction gs generalizing ψ with
  | nil => rfl
  | cons g gs ih => exact ih _

theorem mapsTo_steps {anc : Q} {gs : List (FGate Q)} {step : St Q → St Q} (h : Steps gs step)
    (hsurj : ∀ s, ∃ t, step t = s) (hanc : ∀ s, step s anc = s anc) : MapsTo anc (gs.map .g) step := by
  intro ψ hψ
  rw [runS_gates]
  refine ⟨fun s hs => ?_, h ψ⟩
  obtain ⟨t, rfl⟩ := hsurj s
  rw [h ψ t]
  exact hψ t (by rw [← hanc t]; exact hs)

theorem mapsTo_cx {anc c : Q} {ts : List Q} (hn : ts.Nodup) (hc : c ∉ ts) (ha : anc ∉ ts) :
    ∃ step, MapsTo anc ((ts.map (.cx c)).map .g) step ∧
      ∀ s, (∀ q, q ∉ ts → step s q = s q) ∧ ∀ q ∈ ts, step s q = xor (s q) (s c) := by
  obtain ⟨step, h1, h2⟩ := steps_cx (c := c) ts hn hc
  refine ⟨step, mapsTo_steps h1 (fun s => ⟨step s, ?_⟩) (fun s => (h2 s).1 anc ha), h2⟩
  funext q
  by_cases hq : q ∈ ts
  · rw [(h2 _).2 q hq, (h2 s).2 q hq, (h2 s).1 c hc, Bool.xor_assoc, Bool.xor_self, Bool.xor_false]
  · rw [(h2 _).1 q hq, (h2 s).1 q hq]

/-! ### Addition in terms of register values -/

/-- An operation that adds the integer `K` to the register of `y`, modulo its size. -/
def AddOk (anc : Q) (y : QF Q) (K : St Q → ℤ) (os : Option (List (SOp Q))) : Prop :=
  ∃ l, os = some l ∧ ∃ step, MapsTo anc l step ∧ ∀ s, (∀ q, q ∉ y.reg → step s q = s q) ∧
    ∃ j : ℤ, (valL y.reg (step s) : ℤ) = valL y.reg s + K s + 2 ^ y.reg.length * j

theorem qval_valL {y : QF Q} {K : ℤ} {s t : St Q} {V : ℚ} (hV : V = K * 2 ^ y.exp) {j : ℤ}
    (h : qval y t = qval y s + V + j * 2 ^ y.reg.length * 2 ^ y.exp) :
    ∃ j' : ℤ, (valL y.reg t : ℤ) = valL y.reg s + K + 2 ^ y.reg.length * j' := by
  have hu : (2 : ℚ) ^ y.exp ≠ 0 := by positivity
  obtain ⟨i1, h1⟩ := ival_mod y t
  obtain ⟨i2, h2⟩ := ival_mod y s
  have h3 : ((ival y t : ℤ) : ℚ) = ((ival y s + K + j * 2 ^ y.reg.length : ℤ) : ℚ) := by
    unfold qval at h
    rw [hV] at h
    apply mul_right_cancel₀ hu
    rw [h]
    push_cast
    ring
  have h4 : ival y t = ival y s + K + j * 2 ^ y.reg.length := by exact_mod_cast h3
  exact ⟨i2 + j - i1, by rw [h1, h2] at h4; linear_combination h4⟩

/-- The integer an operand stands for, in units of `2^e`. -/
def Operand.K (e : ℤ) : Operand Q → St Q → ℤ
  | .qf b, s => ival b s * 2 ^ (b.exp - e).toNat
  | .num c, _ => (c / 2 ^ e).num

/-- The operand is resolved by the unit `2^e`. -/
def Operand.fits (e : ℤ) : Operand Q → Prop
  | .qf b => e ≤ b.exp
  | .num c => ∃ k : ℤ, c = k * 2 ^ e

/-- The number an operand stands for. -/
def Operand.val : Operand Q → St Q → ℚ
  | .qf b, s => qval b s
  | .num c, _ => c

def Operand.qubits : Operand Q → List Q
  | .qf b => b.reg
  | .num _ => []

theorem Operand.val_K {e : ℤ} {b : Operand Q} (h : b.fits e) (s : St Q) : b.val s = b.K e s * 2 ^ e := by
  rcases b with b | c
  · show qval b s = _
    unfold qval
    rw [zpow_mul_nat (show e ≤ b.exp from h)]
    show _ = ((ival b s * 2 ^ (b.exp - e).toNat : ℤ) : ℚ) * _
    push_cast
    ring
  · obtain ⟨k, hk⟩ := h
    have hu : (2 : ℚ) ^ e ≠ 0 := by positivity
    show c = ((c / 2 ^ e).num : ℚ) * 2 ^ e
    have : c / 2 ^ e = k := by rw [hk]; field_simp
    rw [this, Rat.num_intCast, hk]

theorem addOk {f : List Q → St Q → ℂ} (hf : ∀ cs s, f cs s ≠ 0) {d anc : Q} {y : QF Q} {b : Operand Q}
    (hy : y.signed = true) (hne : y.reg ≠ []) (hn : y.reg.Nodup) (hanc : anc ∉ y.reg)
    (hb : ∀ q ∈ b.qubits, q ≠ anc ∧ q ∉ y.reg) (hfit : b.fits y.exp) :
    AddOk anc y (fun s => b.K y.exp s) (b.add f d anc y) ∧ AddOk anc y (fun s => -b.K y.exp s) (b.sub f d anc y) := by
  have conv : ∀ (sgn : ℤ) (os : Option (List (SOp Q))), (∃ l, os = some l ∧ ∃ step, MapsTo anc l step ∧ ∀ s,
      (∀ q, q ∉ y.reg → step s q = s q) ∧
      ∃ j : ℤ, qval y (step s) = qval y s + sgn * b.val s + j * 2 ^ y.reg.length * 2 ^ y.exp) →
      AddOk anc y (fun s => sgn * b.K y.exp s) os := by
    rintro sgn os ⟨l, h1, step, h2, h3⟩
    refine ⟨l, h1, step, h2, fun s => ⟨(h3 s).1, ?_⟩⟩
    obtain ⟨j, hj⟩ := (h3 s).2
    refine qval_valL (V := sgn * b.val s) ?_ hj
    rw [Operand.val_K hfit]
    push_cast
    ring
  rcases b with b | c
  · have h := C77_inplace hf (d := d) (anc := anc) (x := y) (y := b)
      ⟨hn, hanc, fun z hz => by rw [List.mem_singleton] at hz; rw [hz]; exact hb⟩ hne (Or.inl hy) hfit
    obtain ⟨⟨l1, a1, st1, a2, a3⟩, l2, b1, st2, b2, b3⟩ := h
    constructor
    · have := conv 1 (iadd f d anc y b) ⟨l1, a1, st1, a2, fun s => ⟨(a3 s).1, by
        obtain ⟨j, hj⟩ := (a3 s).2; exact ⟨j, by rw [hj]; show _ = _ + ((1 : ℤ) : ℚ) * qval b s + _; push_cast; ring⟩⟩⟩
      simp only [one_mul] at this
      exact this
    · have := conv (-1) (isub f d anc y b) ⟨l2, b1, st2, b2, fun s => ⟨(b3 s).1, by
        obtain ⟨j, hj⟩ := (b3 s).2; exact ⟨j, by rw [hj]; show _ = _ + ((-1 : ℤ) : ℚ) * qval b s + _; push_cast; ring⟩⟩⟩
      simp only [neg_one_mul] at this
      exact this
  · have h := (C77_inplace_number hf (d := d) (anc := anc) (x := y)
      ⟨hn, hanc, fun z hz => by cases hz⟩ hne c).1 hfit
    obtain ⟨⟨l1, a1, st1, a2, a3⟩, l2, b1, st2, b2, b3⟩ := h
    constructor
    · have := conv 1 (iaddC f d anc y c) ⟨l1, a1, st1, a2, fun s => ⟨(a3 s).1, by
        obtain ⟨j, hj⟩ := (a3 s).2; exact ⟨j, by rw [hj]; show _ = _ + ((1 : ℤ) : ℚ) * c + _; push_cast; ring⟩⟩⟩
      simp only [one_mul] at this
      exact this
    · have := conv (-1) (isubC f d anc y c) ⟨l2, b1, st2, b2, fun s => ⟨(b3 s).1, by
        obtain ⟨j, hj⟩ := (b3 s).2; exact ⟨j, by rw [hj]; show _ = _ + ((-1 : ℤ) : ℚ) * c + _; push_cast; ring⟩⟩⟩
      simp only [neg_one_mul] at this
      exact this

/-! ### Registers -/

theorem bitsVal_inj : ∀ {l m : List Bool}, l.length = m.length → bitsVal l = bitsVal m → l = m
  | [], [], _, _ => rfl
  | [], _ :: _, h, _ => by simp at h
  | _ :: _, [], h, _ => by simp at h
  | a :: l, b :: m, h, e => by
    simp only [bitsVal] at e
    have hab : a = b := by cases a <;> cases b <;> simp at e <;> first | rfl | omega
    subst hab
    have := bitsVal_inj (l := l) (m := m) (by simpa using h) (by omega)
    rw [this]

theorem valL_inj {reg : List Q} {s t : St Q} (h : valL reg s = valL reg t) : ∀ q ∈ reg, s q = t q := by
  rw [valL_bits, valL_bits] at h
  have := bitsVal_inj (by simp) h
  intro q hq
  obtain ⟨i, hi, rfl⟩ := List.getElem_of_mem hq
  have h2 : (reg.map s)[i]'(by simpa using hi) = (reg.map t)[i]'(by simpa using hi) := by simp only [this]
  simpa using h2

theorem nat_mod_eq {N a b : ℕ} (ha : a < N) (hb : b < N) {j : ℤ} (h : (a : ℤ) = b + N * j) : a = b := by
  have hj : j = 0 := by
    by_contra hj
    rcases lt_or_gt_of_ne hj with h5 | h5
    · have : (N : ℤ) * j ≤ -N := by nlinarith
      omega
    · have : (N : ℤ) * j ≥ N := by nlinarith
      omega
  rw [hj, mul_zero, add_zero] at h
  exact_mod_cast h

theorem sign_bit {y : QF Q} (hy : y.signed = true) {B : List Q} {t : Q} (h : y.reg = B ++ [t]) (s : St Q) :
    s t = decide (ival y s < 0) := by
  have hb := ival_signed hy (s := s) (B := B.map s) (σ := s t) (by rw [h]; simp)
  have hlt := bitsVal_lt (B.map s)
  have hlt' : ((bitsVal (B.map s) : ℕ) : ℤ) < 2 ^ (B.map s).length := by exact_mod_cast hlt
  rw [hb]
  cases s t
  · simp
  · simp only [if_true]
    symm
    rw [decide_eq_true_eq]
    omega

theorem upCount_spec (aT bT : ℤ) : ∀ (fuel n : ℕ), bT + 1 - aT ≤ fuel + n →
    n + 1 ≤ upCount aT bT (fuel + 1) n ∧ bT + 1 ≤ aT + upCount aT bT (fuel + 1) n := by
  intro fuel
  induction fuel with
  | zero =>
    intro n h
    simp only [upCount]
    rw [if_neg (by push_cast at h; omega)]
    push_cast at h ⊢
    omega
  | succ fuel ih =>
    intro n h
    rw [upCount]
    by_cases hc : aT + (n + 1) < bT + 1
    · rw [if_pos hc]
      have := ih (n + 1) (by push_cast at h ⊢; omega)
      omega
    · rw [if_neg hc]
      push_cast
      omega

theorem addUp_spec (a : QF Q) (b : Operand Q) : 1 ≤ addUp a b ∧ ∀ y, b = .qf y → y.exp + y.msize + 1 ≤ a.exp + a.msize + addUp a b := by
  rcases b with b | c
  · have := upCount_spec (a.exp + a.msize) (b.exp + b.msize) (b.exp + b.msize + 1 - (a.exp + a.msize)).toNat 0 (by omega)
    refine ⟨by have := this.1; simpa [addUp] using this, fun y hy => ?_⟩
    cases hy
    exact this.2
  · exact ⟨le_refl _, fun y hy => by cases hy⟩

theorem ival_congr {b : QF Q} {s t : St Q} (h : ∀ q ∈ b.reg, s q = t q) : ival b s = ival b t := by
  have : valL b.reg s = valL b.reg t := by
    rw [valL_bits, valL_bits, List.map_congr_left h]
  unfold ival
  rw [this]

theorem Operand.K_congr {e : ℤ} {b : Operand Q} {s t : St Q} (h : ∀ q ∈ b.qubits, s q = t q) : b.K e s = b.K e t := by
  rcases b with b | c
  · show ival b s * _ = ival b t * _
    rw [ival_congr h]
  · rfl

/-- The registers and qubits of a comparison are all different, and the second operand is apart from them. -/
structure LtApart (anc res : Q) (fresh : List Q) (a : QF Q) (b : Operand Q) : Prop where
  nodup : (anc :: res :: a.reg ++ fresh).Nodup
  other : ∀ q ∈ b.qubits, q ∉ anc :: res :: a.reg ++ fresh

/-! ### Signed first operand -/

theorem lt_signed {f : List Q → St Q → ℂ} (hf : ∀ cs s, f cs s ≠ 0) {d anc res : Q} {fresh : List Q} {a : QF Q}
    {b : Operand Q} (hA : LtApart anc res fresh a b) (hs : a.signed = true) {body : List Q} {sg : Q}
    (hreg : a.reg = body ++ [sg]) (hfr : addUp a b + addLow a b ≤ fresh.length) (hfit : b.fits (a.exp - addLow a b))
    (hK : ∀ s, -2 ^ (body.length + addLow a b + addUp a b - 1) ≤ b.K (a.exp - addLow a b) s ∧
      b.K (a.exp - addLow a b) s < 2 ^ (body.length + addLow a b + addUp a b - 1)) :
    ∃ os, ltGate f d anc res fresh a b = some os ∧ ∃ step, MapsTo anc os step ∧
      ∀ s, (∀ q ∈ fresh, s q = false) → s res = false →
        step s = upd s res (decide (ival a s * 2 ^ addLow a b < b.K (a.exp - addLow a b) s)) := by
  obtain ⟨hup, -⟩ := addUp_spec a b
  generalize hnu : addUp a b = nu at *
  generalize hnl : addLow a b = nl at *
  set up := fresh.take nu with hupd
  set low := (fresh.drop nu).take nl with hlow
  have lu : up.length = nu := by rw [hupd, List.length_take]; omega
  have ll : low.length = nl := by rw [hlow, List.length_take, List.length_drop]; omega
  have fu : ∀ q ∈ up, q ∈ fresh := fun q hq => List.mem_of_mem_take hq
  have fl : ∀ q ∈ low, q ∈ fresh := fun q hq => List.mem_of_mem_drop (List.mem_of_mem_take hq)
  have hsub : (up ++ low).Sublist fresh := by
    have h1 : (up ++ low).Sublist (fresh.take nu ++ fresh.drop nu) := List.Sublist.append_left (List.take_sublist _ _) _
    rwa [List.take_append_drop] at h1
  have hnd : (anc :: res :: (body ++ [sg]) ++ (up ++ low)).Nodup := by
    have := hA.nodup
    rw [hreg] at this
    exact this.sublist (List.Sublist.append_left hsub _)
  have hoth : ∀ q ∈ b.qubits, q ∉ anc :: res :: (body ++ [sg]) ++ (up ++ low) := fun q hq h => by
    refine hA.other q hq ?_
    rw [hreg]
    rcases List.mem_append.1 h with h | h
    · exact List.mem_append_left _ h
    · exact List.mem_append_right _ (hsub.subset h)
  simp only [List.cons_append, List.nodup_cons, List.mem_cons, List.mem_append, List.nodup_append,
    List.not_mem_nil, or_false, not_false_eq_true, and_true, List.nodup_nil, not_or] at hnd hoth
  obtain ⟨⟨ar, ⟨ab, as⟩, au, al⟩, ⟨⟨rb, rs⟩, ru, rl⟩, ⟨nb, -, nbs⟩, ⟨nu', nl', nul⟩, nall⟩ := hnd
  have sgb : sg ∉ body := fun h => nbs sg h sg rfl rfl
  have sgu : sg ∉ up := fun h => nall sg (Or.inr rfl) sg (Or.inl h) rfl
  have sgl : sg ∉ low := fun h => nall sg (Or.inr rfl) sg (Or.inr h) rfl
  have bu : ∀ q ∈ body, q ∉ up := fun q hq h => nall q (Or.inl hq) q (Or.inl h) rfl
  have bl : ∀ q ∈ body, q ∉ low := fun q hq h => nall q (Or.inl hq) q (Or.inr h) rfl
  have ul : ∀ q ∈ up, q ∉ low := fun q hq h => nul q hq q h rfl
  set e' := a.exp - (nl : ℤ) with he'
  set a' : QF Q := { reg := low ++ body ++ up ++ [sg], exp := e', signed := true } with ha'
  have hmem : ∀ q, q ∈ a'.reg ↔ q ∈ low ∨ q ∈ body ∨ q ∈ up ∨ q = sg := fun q => by
    rw [ha']; simp only [List.mem_append, List.mem_singleton, or_assoc]
  have hn' : a'.reg.Nodup := by
    rw [ha']
    simp only [List.nodup_append, List.mem_append, List.mem_singleton, List.nodup_singleton]
    refine ⟨⟨⟨nl', nb, fun x hx y hy h => bl y hy (h ▸ hx)⟩, nu', fun x hx y hy h => ?_⟩, trivial, fun x hx y hy h => ?_⟩
    · rcases hx with hx | hx
      · exact ul y hy (h ▸ hx)
      · exact bu x hx (h ▸ hy)
    · rw [h, hy] at hx
      rcases hx with (hx | hx) | hx
      · exact sgl hx
      · exact sgb hx
      · exact sgu hx
  have hL : a'.reg.length = body.length + nl + nu + 1 := by rw [ha']; simp [lu, ll]; omega
  have hanc' : anc ∉ a'.reg := by rw [hmem]; rintro (h | h | h | h); exacts [al h, ab h, au h, as h]
  have hres' : res ∉ a'.reg := by rw [hmem]; rintro (h | h | h | h); exacts [rl h, rb h, ru h, rs h]
  have hbq : ∀ q ∈ b.qubits, q ≠ anc ∧ q ∉ a'.reg := fun q hq => by
    have := hoth q hq
    refine ⟨this.1, ?_⟩
    rw [hmem]
    rintro (h | h | h | h)
    exacts [this.2.2.2.2 h, this.2.2.1.1 h, this.2.2.2.1 h, this.2.2.1.2 h]
  have hbu : ∀ q ∈ b.qubits, q ∉ up := fun q hq => (hoth q hq).2.2.2.1
  have hbr : ∀ q ∈ b.qubits, q ≠ res := fun q hq => (hoth q hq).2.1
  have hne' : a'.reg ≠ [] := by rw [ha']; simp
  obtain ⟨⟨l2, o2, st4, M4, P4⟩, l1, o1, st2, M2, P2⟩ :=
    addOk hf (d := d) (anc := anc) (y := a') (b := b) rfl hne' hn' hanc' hbq hfit
  obtain ⟨st1, M1, P1⟩ := mapsTo_cx (anc := anc) nu' sgu au
  obtain ⟨st3, M3, P3⟩ := mapsTo_cx (anc := anc) (c := sg) (ts := [res]) (List.nodup_singleton _)
    (by rw [List.mem_singleton]; exact fun h => rs h.symm) (by rw [List.mem_singleton]; exact ar)
  have M3' : MapsTo anc [.g (.cx sg res)] st3 := M3
  obtain ⟨st5, M5, P5⟩ := mapsTo_cx (anc := anc) (c := sg) (ts := up.reverse) (List.nodup_reverse.2 nu')
    (by rwa [List.mem_reverse]) (by rwa [List.mem_reverse])
  refine ⟨(up.map (.cx sg)).map .g ++ l1 ++ [.g (.cx sg res)] ++ l2 ++ (up.reverse.map (.cx sg)).map .g, ?_,
    fun s => st5 (st4 (st3 (st2 (st1 s)))), MapsTo.append (MapsTo.append (MapsTo.append (MapsTo.append M1 M2) M3') M4) M5, fun s hz hr => ?_⟩
  · unfold ltGate
    simp only [hs, if_true, hnu, hnl, ← hupd, ← hlow]
    have h1 : a.reg.getLastD d = sg := by rw [hreg, List.getLastD_eq_getLast?, List.getLast?_append]; rfl
    have h2 : a.reg.dropLast = body := by rw [hreg, List.dropLast_concat]
    rw [h1, h2, ← ha', o1, o2]
    rfl
  · set s1 := st1 s with hs1
    set s2 := st2 s1 with hs2
    set s3 := st3 s2 with hs3
    set s4 := st4 s3 with hs4
    have c1 : a'.reg.map s1 = (List.replicate nl false ++ body.map s ++ List.replicate nu (s sg)) ++ [s sg] := by
      have h1 : s1 sg = s sg := (P1 s).1 sg sgu
      have h2 : low.map s1 = List.replicate nl false := by
        rw [← ll]; exact map_zero fun q hq => by rw [hs1, (P1 s).1 q fun h => ul q h hq, hz q (fl q hq)]
      have h3 : body.map s1 = body.map s := List.map_congr_left fun q hq => (P1 s).1 q (bu q hq)
      have h4 : up.map s1 = List.replicate nu (s sg) := by
        rw [List.eq_replicate_iff]
        refine ⟨by simp [lu], fun x hx => ?_⟩
        obtain ⟨q, hq, rfl⟩ := List.mem_map.1 hx
        rw [hs1, (P1 s).2 q hq, hz q (fu q hq), Bool.false_xor]
      rw [ha']
      simp only [List.map_append, List.map_singleton, h1, h2, h3, h4]
    have v1 : ival a' s1 = ival a s * 2 ^ nl := by
      rw [ival_signed rfl c1, ival_signed hs (B := body.map s) (σ := s sg) (by rw [hreg]; simp), bitsVal_append,
        bitsVal_append, bitsVal_replicate, bitsVal_replicate]
      cases s sg
      · simp only [Bool.false_eq_true, if_false, List.length_append, List.length_replicate, List.length_map]
        push_cast
        ring
      · have := Nat.one_le_two_pow (n := nu)
        simp only [Bool.false_eq_true, if_false, if_true, List.length_append, List.length_replicate, List.length_map, pow_add]
        push_cast [this]
        ring
    have k1 : b.K e' s1 = b.K e' s := Operand.K_congr fun q hq => (P1 s).1 q (hbu q hq)
    have k3 : b.K e' s3 = b.K e' s := by
      rw [← k1]
      refine Operand.K_congr fun q hq => ?_
      rw [hs3, (P3 s2).1 q (by rw [List.mem_singleton]; exact hbr q hq), hs2, (P2 s1).1 q (hbq q hq).2]
    -- the difference
    have v2 : ival a' s2 = ival a s * 2 ^ nl - b.K e' s := by
      obtain ⟨j, hj⟩ := (P2 s1).2
      obtain ⟨i1, h1⟩ := ival_mod a' s1
      obtain ⟨i2, h2⟩ := ival_mod a' s2
      have hj' : ival a' s2 = (ival a s * 2 ^ nl - b.K e' s) + 2 ^ a'.reg.length * (i2 + j - i1) := by
        rw [h2, ← v1, h1, hs2, hj]
        simp only [← k1]
        ring
      have hms : a'.msize = body.length + nl + nu := by unfold QF.msize; rw [hL]; rfl
      have hr := ival_range a s fun _ => by rw [hreg]; simp
      have hmsa : a.msize = body.length := by unfold QF.msize; rw [hs, hreg]; simp
      rw [hs, if_pos rfl, hmsa] at hr
      have hk := hK s
      obtain ⟨nu0, rfl⟩ : ∃ n, nu = n + 1 := ⟨nu - 1, by omega⟩
      rw [show body.length + nl + (nu0 + 1) - 1 = body.length + nl + nu0 by omega] at hk
      have hp : (2 : ℤ) ^ (body.length + nl + (nu0 + 1)) = 2 * 2 ^ (body.length + nl + nu0) := by
        rw [← add_assoc, pow_succ]; ring
      have hlow1 : ival a s * 2 ^ nl < 2 ^ (body.length + nl + nu0) ∧ -2 ^ (body.length + nl + nu0) ≤ ival a s * 2 ^ nl := by
        have hA : (2 : ℤ) ^ (body.length + nl + nu0) = 2 ^ body.length * 2 ^ nl * 2 ^ nu0 := by rw [pow_add, pow_add]
        have h0 : (0 : ℤ) < 2 ^ nl := by positivity
        have h1 : (1 : ℤ) ≤ 2 ^ nu0 := one_le_pow₀ (by norm_num)
        have hB : (0 : ℤ) < 2 ^ body.length := by positivity
        rw [hA]
        have hBN : (2 : ℤ) ^ body.length * 2 ^ nl ≤ 2 ^ body.length * 2 ^ nl * 2 ^ nu0 := le_mul_of_one_le_right (by positivity) h1
        constructor
        · have := mul_lt_mul_of_pos_right hr.2 h0
          omega
        · have := mul_le_mul_of_nonneg_right hr.1 h0.le
          rw [neg_mul] at this
          omega
      refine ival_exact (fun _ => hne') hj' ?_ ?_
      · show (if true = true then -2 ^ a'.msize else 0) ≤ _
        rw [if_pos rfl, hms, hp]; omega
      · rw [hms, hp]; omega
    have hsg2 : s2 sg = decide (ival a s * 2 ^ nl < b.K e' s) := by
      rw [sign_bit (y := a') rfl (B := low ++ body ++ up) (t := sg) rfl s2, v2]
      congr 1
      rw [sub_neg]
    have r2 : s2 res = false := by rw [hs2, (P2 s1).1 res hres', hs1, (P1 s).1 res ru, hr]
    have r3 : s3 res = decide (ival a s * 2 ^ nl < b.K e' s) := by
      rw [hs3, (P3 s2).2 res (List.mem_singleton.2 rfl), r2, Bool.false_xor, hsg2]
    -- restored
    have v4 : valL a'.reg s4 = valL a'.reg s1 := by
      obtain ⟨j, hj⟩ := (P2 s1).2
      obtain ⟨j4, hj4⟩ := (P4 s3).2
      have h3 : valL a'.reg s3 = valL a'.reg s2 := by
        rw [valL_bits, valL_bits]
        congr 1
        refine List.map_congr_left fun q hq => ?_
        rw [hs3, (P3 s2).1 q (by rw [List.mem_singleton]; rintro rfl; exact hres' hq)]
      simp only at hj hj4
      refine nat_mod_eq (valL_lt _ _) (valL_lt _ _) (j := j + j4) ?_
      rw [hs4, hj4, h3, hs2, hj, k3, k1]
      push_cast
      ring
    have q4 := valL_inj v4
    funext q
    show st5 s4 q = _
    by_cases hqr : q = res
    · subst hqr
      rw [upd_same, (P5 s4).1 q (by rwa [List.mem_reverse]), hs4, (P4 s3).1 q hres', r3]
    · rw [upd_ne hqr]
      by_cases hqu : q ∈ up
      · rw [(P5 s4).2 q (by rwa [List.mem_reverse]), q4 q ((hmem q).2 (Or.inr (Or.inr (Or.inl hqu)))),
          q4 sg ((hmem sg).2 (Or.inr (Or.inr (Or.inr rfl)))), hs1, (P1 s).2 q hqu, (P1 s).1 sg sgu, Bool.xor_assoc,
          Bool.xor_self, Bool.xor_false]
      · rw [(P5 s4).1 q (by rwa [List.mem_reverse])]
        by_cases hqa : q ∈ a'.reg
        · rw [q4 q hqa, hs1, (P1 s).1 q hqu]
        · rw [hs4, (P4 s3).1 q hqa, hs3, (P3 s2).1 q (by rwa [List.mem_singleton]), hs2, (P2 s1).1 q hqa, hs1,
            (P1 s).1 q hqu]

/-! ### Unsigned first operand -/

theorem lt_unsigned {f : List Q → St Q → ℂ} (hf : ∀ cs s, f cs s ≠ 0) {d anc res : Q} {fresh : List Q} {a : QF Q}
    {b : Operand Q} (hA : LtApart anc res fresh a b) (hs : a.signed = false)
    (hfr : addUp a b + addLow a b ≤ fresh.length) (hfit : b.fits (a.exp - addLow a b))
    (hK : ∀ s, -2 ^ (a.reg.length + addLow a b + addUp a b - 1) ≤ b.K (a.exp - addLow a b) s ∧
      b.K (a.exp - addLow a b) s < 2 ^ (a.reg.length + addLow a b + addUp a b - 1)) :
    ∃ os, ltGate f d anc res fresh a b = some os ∧ ∃ step, MapsTo anc os step ∧
      ∀ s, (∀ q ∈ fresh, s q = false) → s res = false →
        step s = upd s res (decide (ival a s * 2 ^ addLow a b < b.K (a.exp - addLow a b) s)) := by
  obtain ⟨hup, -⟩ := addUp_spec a b
  generalize hnu : addUp a b = nu at *
  generalize hnl : addLow a b = nl at *
  set up := fresh.take nu with hupd
  set low := (fresh.drop nu).take nl with hlow
  have lu : up.length = nu := by rw [hupd, List.length_take]; omega
  have ll : low.length = nl := by rw [hlow, List.length_take, List.length_drop]; omega
  have fu : ∀ q ∈ up, q ∈ fresh := fun q hq => List.mem_of_mem_take hq
  have fl : ∀ q ∈ low, q ∈ fresh := fun q hq => List.mem_of_mem_drop (List.mem_of_mem_take hq)
  have hsub : (up ++ low).Sublist fresh := by
    have h1 : (up ++ low).Sublist (fresh.take nu ++ fresh.drop nu) := List.Sublist.append_left (List.take_sublist _ _) _
    rwa [List.take_append_drop] at h1
  have hnd : (anc :: res :: a.reg ++ (up ++ low)).Nodup :=
    hA.nodup.sublist (List.Sublist.append_left hsub _)
  have hoth : ∀ q ∈ b.qubits, q ∉ anc :: res :: a.reg ++ (up ++ low) := fun q hq h => by
    refine hA.other q hq ?_
    rcases List.mem_append.1 h with h | h
    · exact List.mem_append_left _ h
    · exact List.mem_append_right _ (hsub.subset h)
  generalize hbd : a.reg = body at *
  simp only [List.cons_append, List.nodup_cons, List.mem_cons, List.mem_append, List.nodup_append,
    List.not_mem_nil, or_false, not_false_eq_true, and_true, List.nodup_nil, not_or] at hnd hoth
  obtain ⟨⟨ar, ab, au, al⟩, ⟨rb, ru, rl⟩, nb, ⟨nu', nl', nul⟩, nall⟩ := hnd
  have bu : ∀ q ∈ body, q ∉ up := fun q hq h => nall q hq q (Or.inl h) rfl
  have bl : ∀ q ∈ body, q ∉ low := fun q hq h => nall q hq q (Or.inr h) rfl
  have ul : ∀ q ∈ up, q ∉ low := fun q hq h => nul q hq q h rfl
  set e' := a.exp - (nl : ℤ) with he'
  set a' : QF Q := { reg := low ++ body ++ up ++ [res], exp := e', signed := true } with ha'
  set a'' : QF Q := { reg := low ++ body ++ up, exp := e', signed := true } with ha''
  have hmem : ∀ q, q ∈ a''.reg ↔ q ∈ low ∨ q ∈ body ∨ q ∈ up := fun q => by
    rw [ha'']; simp only [List.mem_append, or_assoc]
  have hmem' : ∀ q, q ∈ a'.reg ↔ q ∈ a''.reg ∨ q = res := fun q => by
    rw [ha', ha'']; simp only [List.mem_append, List.mem_singleton]
  have hr'' : res ∉ a''.reg := by rw [hmem]; rintro (h | h | h); exacts [rl h, rb h, ru h]
  have hn'' : a''.reg.Nodup := by
    rw [ha'']
    simp only [List.nodup_append, List.mem_append]
    refine ⟨⟨nl', nb, fun x hx y hy h => bl y hy (h ▸ hx)⟩, nu', fun x hx y hy h => ?_⟩
    rcases hx with hx | hx
    · exact ul y hy (h ▸ hx)
    · exact bu x hx (h ▸ hy)
  have hn' : a'.reg.Nodup := by
    show (a''.reg ++ [res]).Nodup
    rw [List.nodup_append]
    refine ⟨hn'', List.nodup_singleton _, fun x hx y hy h => ?_⟩
    rw [List.mem_singleton] at hy
    rw [h, hy] at hx
    exact hr'' hx
  have hL'' : a''.reg.length = body.length + nl + nu := by rw [ha'']; simp [lu, ll]; omega
  have hL : a'.reg.length = body.length + nl + nu + 1 := by
    show (a''.reg ++ [res]).length = _
    rw [List.length_append, hL'']; rfl
  have hanc'' : anc ∉ a''.reg := by rw [hmem]; rintro (h | h | h); exacts [al h, ab h, au h]
  have hanc' : anc ∉ a'.reg := by rw [hmem']; rintro (h | h); exacts [hanc'' h, ar h]
  have hbq'' : ∀ q ∈ b.qubits, q ≠ anc ∧ q ∉ a''.reg := fun q hq => by
    have := hoth q hq
    refine ⟨this.1, ?_⟩
    rw [hmem]
    rintro (h | h | h)
    exacts [this.2.2.2.2 h, this.2.2.1 h, this.2.2.2.1 h]
  have hbq : ∀ q ∈ b.qubits, q ≠ anc ∧ q ∉ a'.reg := fun q hq => by
    refine ⟨(hbq'' q hq).1, ?_⟩
    rw [hmem']
    rintro (h | h)
    exacts [(hbq'' q hq).2 h, (hoth q hq).2.1 h]
  have hne' : a'.reg ≠ [] := by rw [ha']; simp
  have hne'' : a''.reg ≠ [] := by
    intro h
    have := congrArg List.length h
    rw [hL''] at this
    simp at this
    omega
  obtain ⟨-, l1, o1, st1, M1, P1⟩ := addOk hf (d := d) (anc := anc) (y := a') (b := b) rfl hne' hn' hanc' hbq hfit
  obtain ⟨⟨l2, o2, st2, M2, P2⟩, -⟩ := addOk hf (d := d) (anc := anc) (y := a'') (b := b) rfl hne'' hn'' hanc'' hbq'' hfit
  refine ⟨l1 ++ l2, ?_, fun s => st2 (st1 s), MapsTo.append M1 M2, fun s hz hr => ?_⟩
  · unfold ltGate
    simp only [hs, Bool.false_eq_true, if_false, hnu, hnl, ← hupd, ← hlow, hbd]
    rw [← ha', ← ha'', o1, o2]
    rfl
  · set s1 := st1 s with hs1
    have c0 : a''.reg.map s = List.replicate nl false ++ body.map s ++ List.replicate nu false := by
      have h2 : low.map s = List.replicate nl false := by rw [← ll]; exact map_zero fun q hq => hz q (fl q hq)
      have h4 : up.map s = List.replicate nu false := by rw [← lu]; exact map_zero fun q hq => hz q (fu q hq)
      rw [ha'']
      simp only [List.map_append, h2, h4]
    have c0' : a'.reg.map s = (List.replicate nl false ++ body.map s ++ List.replicate nu false) ++ [false] := by
      show (a''.reg ++ [res]).map s = _
      rw [List.map_append, c0, List.map_singleton, hr]
    have v0 : ival a' s = ival a s * 2 ^ nl := by
      rw [ival_signed rfl c0', ival_unsigned hs, hbd, bitsVal_append, bitsVal_append, bitsVal_replicate, bitsVal_replicate]
      simp only [Bool.false_eq_true, if_false, List.length_replicate]
      push_cast
      ring
    have v1 : ival a' s1 = ival a s * 2 ^ nl - b.K e' s := by
      obtain ⟨j, hj⟩ := (P1 s).2
      obtain ⟨i1, h1⟩ := ival_mod a' s
      obtain ⟨i2, h2⟩ := ival_mod a' s1
      have hj' : ival a' s1 = (ival a s * 2 ^ nl - b.K e' s) + 2 ^ a'.reg.length * (i2 + j - i1) := by
        rw [h2, ← v0, h1, hs1, hj]
        ring
      have hms : a'.msize = body.length + nl + nu := by unfold QF.msize; rw [hL]; rfl
      have hr := ival_range a s fun h => by rw [hs] at h; cases h
      have hmsa : a.msize = body.length := by unfold QF.msize; rw [hs, hbd]; simp
      rw [hs, if_neg (by simp), hmsa] at hr
      have hk := hK s
      obtain ⟨nu0, rfl⟩ : ∃ n, nu = n + 1 := ⟨nu - 1, by omega⟩
      rw [show body.length + nl + (nu0 + 1) - 1 = body.length + nl + nu0 by omega] at hk
      have hp : (2 : ℤ) ^ (body.length + nl + (nu0 + 1)) = 2 * 2 ^ (body.length + nl + nu0) := by
        rw [← add_assoc, pow_succ]; ring
      have hlow1 : ival a s * 2 ^ nl < 2 ^ (body.length + nl + nu0) ∧ 0 ≤ ival a s * 2 ^ nl := by
        have hA : (2 : ℤ) ^ (body.length + nl + nu0) = 2 ^ body.length * 2 ^ nl * 2 ^ nu0 := by rw [pow_add, pow_add]
        have h0 : (0 : ℤ) < 2 ^ nl := by positivity
        have h1 : (1 : ℤ) ≤ 2 ^ nu0 := one_le_pow₀ (by norm_num)
        rw [hA]
        have hBN : (2 : ℤ) ^ body.length * 2 ^ nl ≤ 2 ^ body.length * 2 ^ nl * 2 ^ nu0 := le_mul_of_one_le_right (by positivity) h1
        constructor
        · have := mul_lt_mul_of_pos_right hr.2 h0
          omega
        · exact mul_nonneg hr.1 h0.le
      refine ival_exact (fun _ => hne') hj' ?_ ?_
      · show (if true = true then -2 ^ a'.msize else 0) ≤ _
        rw [if_pos rfl, hms, hp]; omega
      · rw [hms, hp]; omega
    have hres1 : s1 res = decide (ival a s * 2 ^ nl < b.K e' s) := by
      rw [sign_bit (y := a') rfl (B := low ++ body ++ up) (t := res) rfl s1, v1]
      congr 1
      rw [sub_neg]
    have k1 : b.K e' s1 = b.K e' s := Operand.K_congr fun q hq => (P1 s).1 q (hbq q hq).2
    have v2 : valL a''.reg (st2 s1) = valL a''.reg s := by
      obtain ⟨j, hj⟩ := (P1 s).2
      obtain ⟨j2, hj2⟩ := (P2 s1).2
      have hap : ∀ t : St Q, (valL a'.reg t : ℤ) = valL a''.reg t + 2 ^ a''.reg.length * (t res).toNat := by
        intro t
        rw [valL_bits, valL_bits]
        show ((bitsVal ((a''.reg ++ [res]).map t) : ℕ) : ℤ) = _
        rw [List.map_append, List.map_singleton, bitsVal_append, List.length_map]
        simp [bitsVal]
      have hLL : (2 : ℤ) ^ a'.reg.length = 2 ^ a''.reg.length * 2 := by rw [hL, hL'', pow_succ]
      rw [hap, hap, hr, hLL] at hj
      simp only at hj hj2
      refine nat_mod_eq (valL_lt _ _) (valL_lt _ _) (j := 2 * j + j2 - ((s1 res).toNat : ℤ)) ?_
      rw [hj2, k1]
      rw [← hs1] at hj
      push_cast
      simp only [Bool.toNat_false, Nat.cast_zero, mul_zero, add_zero] at hj
      linear_combination hj
    have q2 := valL_inj v2
    funext q
    show st2 s1 q = _
    by_cases hqr : q = res
    · subst hqr
      rw [upd_same, (P2 s1).1 q hr'', hres1]
    · rw [upd_ne hqr]
      by_cases hqa : q ∈ a''.reg
      · rw [q2 q hqa]
      · rw [(P2 s1).1 q hqa, hs1, (P1 s).1 q (by rw [hmem']; rintro (h | h); exacts [hqa h, hqr h])]

/-! ### Both cases -/

theorem Operand.fits_low {a : QF Q} {b : Operand Q} (hb : ∀ c, b = .num c → ∃ k : ℤ, c = k * 2 ^ a.exp) :
    b.fits (a.exp - addLow a b) := by
  rcases b with b | c
  · show a.exp - ((a.exp - b.exp).toNat : ℕ) ≤ b.exp
    omega
  · show ∃ k : ℤ, c = k * 2 ^ (a.exp - ((0 : ℕ) : ℤ))
    rw [Nat.cast_zero, sub_zero]
    exact hb c rfl

/-- `less_than_gate` computes the comparison and changes nothing else. A number has to be a number the first operand can
hold. -/
theorem ltGate_spec {f : List Q → St Q → ℂ} (hf : ∀ cs s, f cs s ≠ 0) {d anc res : Q} {fresh : List Q} {a : QF Q}
    {b : Operand Q} (hA : LtApart anc res fresh a b) (hsa : a.signed = true → a.reg ≠ [])
    (hsb : ∀ y, b = .qf y → y.signed = true → y.reg ≠ []) (hfr : addUp a b + addLow a b ≤ fresh.length)
    (hnum : ∀ c, b = .num c → ∃ k : ℤ, c = k * 2 ^ a.exp ∧ -2 ^ a.msize ≤ k ∧ k < 2 ^ a.msize) :
    ∃ os, ltGate f d anc res fresh a b = some os ∧ ∃ step, MapsTo anc os step ∧
      ∀ s, (∀ q ∈ fresh, s q = false) → s res = false → step s = upd s res (decide (qval a s < b.val s)) := by
  have hfit : b.fits (a.exp - addLow a b) := Operand.fits_low fun c hc => by
    obtain ⟨k, hk, _⟩ := hnum c hc
    exact ⟨k, hk⟩
  obtain ⟨hup, hup2⟩ := addUp_spec a b
  have hK : ∀ s, -2 ^ (a.msize + addLow a b + addUp a b - 1) ≤ b.K (a.exp - addLow a b) s ∧
      b.K (a.exp - addLow a b) s < 2 ^ (a.msize + addLow a b + addUp a b - 1) := by
    intro s
    rcases b with y | c
    · obtain ⟨r1, r2⟩ := ival_range y s (hsb y rfl)
      have r1' : -2 ^ y.msize ≤ ival y s := by
        cases h : y.signed <;> rw [h] at r1
        · simp only [Bool.false_eq_true, if_false] at r1
          have : (0 : ℤ) < 2 ^ y.msize := by positivity
          omega
        · exact r1
      have hu := hup2 y rfl
      show -2 ^ _ ≤ ival y s * 2 ^ (y.exp - (a.exp - addLow a (.qf y))).toNat ∧
        ival y s * 2 ^ (y.exp - (a.exp - addLow a (.qf y))).toNat < _
      generalize hw : (y.exp - (a.exp - addLow a (.qf y))).toNat = w
      have hle : y.msize + w ≤ a.msize + addLow a (.qf y) + addUp a (.qf y) - 1 := by
        have h0 : a.exp - addLow a (.qf y) ≤ y.exp := hfit
        omega
      have hpow : (2 : ℤ) ^ (y.msize + w) ≤ 2 ^ (a.msize + addLow a (.qf y) + addUp a (.qf y) - 1) :=
        pow_le_pow_right₀ (by norm_num) hle
      have h0 : (0 : ℤ) < 2 ^ w := by positivity
      rw [pow_add] at hpow
      have m1 := mul_le_mul_of_nonneg_right r1' h0.le
      have m2 := mul_lt_mul_of_pos_right r2 h0
      rw [neg_mul] at m1
      omega
    · obtain ⟨k, hk, k1, k2⟩ := hnum c rfl
      have hval : (Operand.num c : Operand Q).K (a.exp - addLow a (.num c)) s = k := by
        show (c / 2 ^ (a.exp - ((0 : ℕ) : ℤ))).num = k
        rw [Nat.cast_zero, sub_zero, hk]
        have hu : (2 : ℚ) ^ a.exp ≠ 0 := by positivity
        rw [mul_div_assoc, div_self hu, mul_one, Rat.num_intCast]
      rw [hval]
      have : a.msize + addLow a (.num c) + addUp a (.num c) - 1 = a.msize := by
        show a.msize + 0 + 1 - 1 = _
        omega
      rw [this]
      exact ⟨k1, k2⟩
  have hdec : ∀ s, (ival a s * 2 ^ addLow a b < b.K (a.exp - addLow a b) s) = (qval a s < b.val s) := by
    intro s
    rw [Operand.val_K hfit]
    unfold qval
    have hu : (0 : ℚ) < 2 ^ (a.exp - (addLow a b : ℤ)) := by positivity
    have he : (2 : ℚ) ^ a.exp = 2 ^ addLow a b * 2 ^ (a.exp - (addLow a b : ℤ)) := by
      rw [← zpow_natCast, ← zpow_add₀ two_ne_zero]
      congr 1
      ring
    rw [he, ← mul_assoc, mul_lt_mul_iff_left₀ hu]
    have : ((ival a s : ℚ) * 2 ^ addLow a b) = ((ival a s * 2 ^ addLow a b : ℤ) : ℚ) := by push_cast; rfl
    rw [this, Int.cast_lt]
  cases hs : a.signed
  · have hmsa : a.msize = a.reg.length := by unfold QF.msize; rw [hs]; simp
    rw [hmsa] at hK
    obtain ⟨os, h1, step, h2, h3⟩ := lt_unsigned hf (d := d) hA hs hfr hfit hK
    exact ⟨os, h1, step, h2, fun s hz hr => by rw [h3 s hz hr]; simp only [hdec s]⟩
  · have hne := hsa hs
    have hreg := (List.dropLast_append_getLast hne).symm
    have hmsa : a.msize = a.reg.dropLast.length := by unfold QF.msize; rw [hs]; simp
    rw [hmsa] at hK
    obtain ⟨os, h1, step, h2, h3⟩ := lt_signed hf (d := d) hA hs hreg hfr hfit hK
    exact ⟨os, h1, step, h2, fun s hz hr => by rw [h3 s hz hr]; simp only [hdec s]⟩

end Verif.Sbp
