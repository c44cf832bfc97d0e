import Verif.Sim.Pipeline

/-!
Circuits of X and CX gates: they map basis states to basis states, the probabilities are 0 or 1. Used for concrete
circuits.
-/

namespace Verif.Sim

open Verif.Env (B E D X dg Dep)

open Classical in
/-- A basis state. -/
noncomputable def ket (b : B) : B → ℂ := fun x => if x = b then 1 else 0

theorem init_ket : init = ket fun _ => false := rfl

inductive CG where
  | x (q : Nat)
  | cx (a b : Nat)

noncomputable def xG (q : Nat) : Gate := ⟨[q], X q, loc_X q⟩

noncomputable def CG.gate : CG → Gate
  | .x q => xG q
  | .cx a b => cxG a b

def CG.act : CG → B → B
  | .x q, b => Env.flip q b
  | .cx a t, b => if b a then Env.flip t b else b

inductive CI where
  | gate (qs : List Nat) (gs : List CG)
  | measure (q c : Nat)
  | reset (q : Nat)
  | dis (q : Nat)
  | cif (qs : List Nat) (gs : List CG) (cs : List Nat) (st : List Bool)

noncomputable def CI.ins : CI → Ins
  | .gate qs gs => .gate qs (gs.map CG.gate)
  | .measure q c => .measure q c
  | .reset q => .reset q
  | .dis q => .dis q
  | .cif qs gs cs st => .cif qs (gs.map CG.gate) cs st

def actAll (gs : List CG) (b : B) : B := gs.foldl (fun b g => g.act b) b

/-- What an instruction does with the classical bits and the qubits. -/
def CI.run : CI → Cl × B → Cl × B
  | .gate _ gs, (k, b) => (k, actAll gs b)
  | .measure q c, (k, b) => (setc c (b q) k, b)
  | .reset q, (k, b) => (k, fun a => if a = q then false else b a)
  | .dis _, x => x
  | .cif _ gs cs st, (k, b) => (k, if cmatch cs st k then actAll gs b else b)

def crun (l : List CI) (x : Cl × B) : Cl × B := l.foldl (fun x i => i.run x) x

theorem gate_ket {g : CG} (h : ∀ a t, g = .cx a t → a ≠ t) (b : B) : g.gate.op (ket b) = ket (g.act b) := by
  funext y
  have hf : ∀ q (y b : B), Env.flip q y = b ↔ y = Env.flip q b := fun q y b =>
    ⟨fun h => by rw [← h, Env.flip_flip], fun h => by rw [h, Env.flip_flip]⟩
  cases g with
  | x q =>
    show (X q) (ket b) y = _
    show ket b (Env.flip q y) = ket (Env.flip q b) y
    unfold ket
    rw [hf]
  | cx a t =>
    have hat := h a t rfl
    show (cxG a t).op (ket b) y = _
    rw [cx_apply]
    have hv : ∀ z : B, Env.flip t z a = z a := fun z => Env.flip_other hat z
    have hk : ∀ z : B, ket b (Env.flip t z) = ket (Env.flip t b) z := fun z => by
      unfold ket
      rw [hf]
    have hne : ∀ c z : B, z ≠ c → ket c z = 0 := fun c z h => by simp [ket, h]
    show _ = ket (if b a then Env.flip t b else b) y
    cases hb : b a
    · simp only [Bool.false_eq_true, if_false]
      cases hy : y a
      · simp
      · simp only [if_true]
        rw [hk, hne, hne]
        · rintro rfl; rw [hb] at hy; cases hy
        · rintro rfl; rw [hv, hb] at hy; cases hy
    · simp only [if_true]
      cases hy : y a
      · simp only [Bool.false_eq_true, if_false]
        rw [hne, hne]
        · rintro rfl; rw [hv, hb] at hy; cases hy
        · rintro rfl; rw [hb] at hy; cases hy
      · simp only [if_true]
        exact hk y

/-- The CX gates have different qubits. -/
def CG.Ok : CG → Prop
  | .x _ => True
  | .cx a t => a ≠ t

def CI.Ok : CI → Prop
  | .gate _ gs => ∀ g ∈ gs, g.Ok
  | .cif _ gs _ _ => ∀ g ∈ gs, g.Ok
  | _ => True

theorem gates_ket {gs : List CG} (h : ∀ g ∈ gs, g.Ok) (b : B) : prodG (gs.map CG.gate) (ket b) = ket (actAll gs b) := by
  induction gs generalizing b with
  | nil => rfl
  | cons g gs ih =>
    show prodG (gs.map CG.gate) (g.gate.op (ket b)) = _
    rw [gate_ket (fun a t e => by have := h g (by simp); rw [e] at this; exact this), ih fun x hx => h x (by simp [hx])]
    rfl

theorem P_ket (q : Nat) (v : Bool) (b : B) : P q v (ket b) = if b q = v then ket b else 0 := by
  funext y
  rw [P_apply]
  unfold ket
  by_cases hy : y = b
  · subst hy
    by_cases hv : y q = v <;> simp [hv]
  · by_cases hv : b q = v <;> simp [hv, hy]

theorem exec_ket (l : List CI) (h : ∀ i ∈ l, i.Ok) (x : Cl × B) :
    Eqv (exec (l.map CI.ins) {(x.1, ket x.2)}) {((crun l x).1, ket (crun l x).2)} := by
  induction l generalizing x with
  | nil => exact Eqv.rfl
  | cons i l ih =>
    have hl := ih fun j hj => h j (by simp [hj])
    have hi := h i (by simp)
    obtain ⟨k, b⟩ := x
    refine Eqv.trans ?_ (hl (i.run (k, b)))
    rw [List.map_cons, exec_cons]
    refine Eqv.exec ?_ _
    cases i with
    | gate qs gs =>
      refine Eqv.of_eq ?_
      simp [CI.ins, step, alts, CI.run, gates_ket hi]
    | dis q =>
      refine Eqv.of_eq ?_
      simp [CI.ins, step, alts, CI.run]
    | cif qs gs cs st =>
      refine Eqv.of_eq ?_
      by_cases hc : cmatch cs st k = true <;> simp [CI.ins, step, alts, CI.run, gates_ket hi, hc]
    | measure q c =>
      intro F hF
      cases hb : b q <;> simp [CI.ins, step, alts, CI.run, P_ket, hb, hF]
    | reset q =>
      intro F hF
      cases hb : b q
      · have : (fun a => if a = q then false else b a) = b := by
          funext a
          by_cases e : a = q
          · simp [e, hb]
          · simp [e]
        have h2 : (X q * P q true) (ket b) = 0 := by
          show X q (P q true (ket b)) = 0
          rw [P_ket]
          simp [hb]
        simp only [CI.run, this]
        simp [CI.ins, step, alts, P_ket, hb, hF]
      · have : (fun a => if a = q then false else b a) = Env.flip q b := by
          funext a
          by_cases e : a = q
          · simp [e, hb, Env.flip_at]
          · simp [e, Env.flip_other e]
        have h2 : (X q * P q true) (ket b) = ket (Env.flip q b) := by
          show X q (P q true (ket b)) = _
          rw [P_ket]
          simp only [hb, if_true]
          exact gate_ket (g := .x q) (fun a t e => by cases e) b
        simp only [CI.run, this]
        have e0 : ((X q) ((P q true) (ket b))) = ket (Env.flip q b) := h2
        simp [CI.ins, step, alts, P_ket, hb, hF, e0]
        have e1 := gate_ket (g := .x q) (fun a t e => by cases e) b
        simpa [CG.gate, xG, CG.act] using congrArg (fun ψ => F (k, ψ)) e1

/-! ### Probabilities -/

def setb (n : Nat) (v : Bool) (b : B) : B := fun q => if q = n then v else b q

theorem W_succ (n : Nat) (T : B → Bool) (ψ : B → ℂ) :
    W (n + 1) T ψ = W n T ψ + W n (fun b => T (setb n true b)) fun b => ψ (setb n true b) := by
  simp only [W, basis, List.map_append, List.sum_append, List.map_map]
  rfl

theorem W_ket (n : Nat) (T : B → Bool) (b : B) (hb : ∀ q, n ≤ q → b q = false) : W n T (ket b) = if T b then 1 else 0 := by
  induction n generalizing T b with
  | zero =>
    have : b = fun _ => false := funext fun q => hb q (Nat.zero_le _)
    subst this
    simp [W, basis, ket]
  | succ n ih =>
    rw [W_succ]
    cases hn : b n
    · have h0 : ∀ q, n ≤ q → b q = false := fun q hq => by
        rcases Nat.eq_or_lt_of_le hq with rfl | h
        · exact hn
        · exact hb q h
      rw [ih T b h0]
      have : (fun x => ket b (setb n true x)) = 0 := by
        funext x
        unfold ket
        rw [if_neg]
        · rfl
        · rintro rfl
          simp [setb] at hn
      rw [this]
      have hz : W n (fun b => T (setb n true b)) (0 : B → ℂ) = 0 := by
        unfold W
        refine List.sum_eq_zero fun x hx => ?_
        obtain ⟨y, _, rfl⟩ := List.mem_map.1 hx
        simp
      rw [hz, add_zero]
    · have h1 : W n T (ket b) = 0 := by
        unfold W
        refine List.sum_eq_zero fun x hx => ?_
        obtain ⟨y, hy, rfl⟩ := List.mem_map.1 hx
        have : ¬ y = b := by
          rintro rfl
          rw [basis_zero hy (Nat.le_refl n)] at hn
          cases hn
        simp [ket, this]
      have h2 : W n (fun x => T (setb n true x)) (fun x => ket b (setb n true x)) =
          W n (fun x => T (setb n true x)) (ket (setb n false b)) := by
        unfold W
        congr 1
        refine List.map_congr_left fun y hy => ?_
        have hyn := basis_zero hy (Nat.le_refl n)
        have : setb n true y = b ↔ y = setb n false b := by
          constructor
          · rintro rfl
            funext q
            by_cases e : q = n
            · simp [setb, e, hyn]
            · simp [setb, e]
          · rintro rfl
            funext q
            by_cases e : q = n
            · simp [setb, e, hn]
            · simp [setb, e]
        have e : ket b (setb n true y) = ket (setb n false b) y := by
          unfold ket
          by_cases h : y = setb n false b
          · rw [if_pos (this.2 h), if_pos h]
          · rw [if_neg fun h' => h (this.1 h'), if_neg h]
        dsimp only
        rw [e]
      have h3 : setb n true (setb n false b) = b := by
        funext q
        by_cases e : q = n
        · simp [setb, e, hn]
        · simp [setb, e]
      rw [h1, h2, ih _ (setb n false b) fun q hq => by
        by_cases e : q = n
        · simp [setb, e]
        · simp only [setb, if_neg e]
          exact hb q (by omega), zero_add, h3]

/-- The probability of an outcome of a circuit of X and CX gates. -/
theorem prob_ket (n : Nat) (l : List CI) (h : ∀ i ∈ l, i.Ok) (hb : ∀ q, n ≤ q → (crun l (fun _ => false, fun _ => false)).2 q = false) (v : Cl) :
    prob n (l.map CI.ins) v =
      if (measured (l.map CI.ins)).all (fun c => (crun l (fun _ => false, fun _ => false)).1 c == v c) then 1 else 0 := by
  have := exec_ket l h (fun _ => false, fun _ => false) (FW n (measured (l.map CI.ins)) v) (FW_zero _ _ _)
  unfold prob
  rw [init_ket]
  refine Eq.trans this ?_
  rw [Multiset.map_singleton, Multiset.sum_singleton]
  unfold FW
  rw [← W_true, W_ket n _ _ hb]
  simp

def CI.unitary : CI → Bool
  | .gate _ _ => true
  | .dis _ => true
  | _ => false

theorem appAll_ket (l : List CI) (h : ∀ i ∈ l, i.Ok) (hg : ∀ i ∈ l, i.unitary = true)
    (b : B) : appAll (l.map CI.ins) (ket b) = ket (crun l (fun _ => false, b)).2 := by
  induction l generalizing b with
  | nil => rfl
  | cons i l ih =>
    have hl := ih (fun j hj => h j (by simp [hj])) fun j hj => hg j (by simp [hj])
    have hi := hg i (by simp)
    cases i with
    | gate qs gs =>
      show appAll (l.map CI.ins) (prodG (gs.map CG.gate) (ket b)) = _
      rw [gates_ket (h (.gate qs gs) (by simp)), hl]
      rfl
    | dis q => exact hl b
    | measure q c => simp [CI.unitary] at hi
    | reset q => simp [CI.unitary] at hi
    | cif qs gs cs st => simp [CI.unitary] at hi

theorem simProb_ket (l : List CI) (h : ∀ i ∈ l, i.Ok)
    (hg : ∀ i ∈ l, i.unitary = true) (meas : List (Nat × Nat)) (nq : Nat)
    (hb : ∀ q, nq ≤ q → (crun l (fun _ => false, fun _ => false)).2 q = false) (v : Cl) :
    simProb (l.map CI.ins, meas, nq) v =
      if meas.all (fun x => (crun l (fun _ => false, fun _ => false)).2 x.1 == v x.2) then 1 else 0 := by
  have : simProb (l.map CI.ins, meas, nq) v = W nq (fun b => meas.all fun x => b x.1 == v x.2) (appAll (l.map CI.ins) init) := rfl
  rw [this, init_ket, appAll_ket l h hg, W_ket nq _ _ hb]

/-- X and CX keep the norm. -/
theorem iso_x {n q : Nat} (hq : q < n) : Iso n (xG q) := by
  intro ψ _
  rw [← W_true, ← W_true]
  exact W_flip hq (fun _ => true) ψ

theorem iso_cx {n a t : Nat} (hat : a ≠ t) (ht : t < n) : Iso n (cxG a t) := by
  intro ψ _
  rw [← W_true, ← W_true,
    ← W_add n (T := fun _ => true) (T0 := fun _ => true) (T1 := fun _ => true) (q := a) (fun _ _ => rfl) (fun _ _ => rfl) ψ,
    ← W_add n (T := fun _ => true) (T0 := fun _ => true) (T1 := fun _ => true) (q := a) (fun _ _ => rfl) (fun _ _ => rfl) ((cxG a t).op ψ)]
  congr 1
  · refine W_congr fun b => ?_
    rw [cx_apply]
    cases b a <;> simp
  · rw [← W_flip ht (fun b => true && b a) ψ]
    refine W_congr fun b => ?_
    rw [cx_apply, Env.flip_other hat]
    cases hb : b a <;> simp

end Verif.Sim
