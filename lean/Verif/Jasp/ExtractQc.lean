import Mathlib.Data.List.Perm.Basic
import Mathlib.Data.List.Range
import Mathlib.Data.List.Nodup
import Verif.Jasp.ExtractPost

/-!
# The circuit of a program: values and states of the construction stand for those of every execution
-/

namespace Verif.Jasp.Xt

/-- The qubits of the circuit for those of the execution, and the values of the bits. -/
structure World where
  nm : List Nat
  mem : Nat → Option Bool

def World.le (w w' : World) : Prop := (∃ t, w'.nm = w.nm ++ t) ∧ ∀ c b, w.mem c = some b → w'.mem c = some b

theorem World.le_refl (w : World) : w.le w := ⟨⟨[], by simp⟩, fun _ _ h => h⟩

theorem World.le_trans {a b c : World} (h1 : a.le b) (h2 : b.le c) : a.le c := by
  obtain ⟨⟨t, ht⟩, h1⟩ := h1
  obtain ⟨⟨u, hu⟩, h2⟩ := h2
  exact ⟨⟨t ++ u, by rw [hu, ht, List.append_assoc]⟩, fun x y h => h2 x y (h1 x y h)⟩

/-- A qubit of the execution and its qubit of the circuit. -/
def RQ (w : World) (q q' : Nat) : Prop := w.nm[q]? = some q'

theorem RQ.mono {w w' : World} (h : w.le w') {q q'} (hq : RQ w q q') : RQ w' q q' := by
  obtain ⟨⟨t, ht⟩, _⟩ := h
  unfold RQ at *
  rw [ht, List.getElem?_append_left (List.getElem?_eq_some_iff.mp hq).1]
  exact hq

/-- A bit with its value. -/
def Bit (w : World) (c : Nat) (b : Bool) : Prop := w.mem c = some b

theorem Bit.mono {w w' : World} (h : w.le w') {c b} (hc : Bit w c b) : Bit w' c b := h.2 c b hc

/-- What a value of the construction stands for. -/
inductive XR (w : World) : EVal → XVal → Prop where
  | int (i : Int) : XR w (.int i) (.int i)
  | clb {c b} : Bit w c b → XR w (.int (b2i b)) (.clb c)
  | clist {l bs} : List.Forall₂ (Bit w) l bs → XR w (.int (ofBits bs)) (.clist l)
  | par {cs bs} (e : Bool) : cs.Nodup → List.Forall₂ (Bit w) cs bs → XR w (.int (b2i (xors bs ^^ e))) (.par cs e)
  | proc (i : Int) : XR w (.int i) .proc
  | qb {q q'} : RQ w q q' → XR w (.qb q) (.qb q')
  | qproc (q : Nat) : XR w (.qb q) .proc
  | arr {l l'} : List.Forall₂ (RQ w) l l' → XR w (.arr l) (.arr l')
  | aproc (l : List Nat) : XR w (.arr l) .proc

theorem XR.mono {w w' : World} (h : w.le w') {x y} (hx : XR w x y) : XR w' x y := by
  cases hx with
  | int i => exact .int i
  | clb hc => exact .clb (hc.mono h)
  | clist hl => exact .clist (forall2_mono (Bit.mono h) hl)
  | par e hn hl => exact .par e hn (forall2_mono (Bit.mono h) hl)
  | proc i => exact .proc i
  | qb hq => exact .qb (hq.mono h)
  | qproc q => exact .qproc q
  | arr hl => exact .arr (forall2_mono (RQ.mono h) hl)
  | aproc l => exact .aproc l

inductive EvR (w : World) : Ev → Ev → Prop where
  | alloc {q q'} : RQ w q q' → EvR w (.alloc q) (.alloc q')
  | dealloc {q q'} : RQ w q q' → EvR w (.dealloc q) (.dealloc q')
  | gate (g : String) {qs qs'} (ps : List Int) : List.Forall₂ (RQ w) qs qs' → EvR w (.gate g qs ps) (.gate g qs' ps)
  | meas {q q'} : RQ w q q' → EvR w (.meas q) (.meas q')
  | reset {q q'} : RQ w q q' → EvR w (.reset q) (.reset q')

theorem EvR.mono {w w' : World} (h : w.le w') {x y} (hx : EvR w x y) : EvR w' x y := by
  cases hx with
  | alloc hq => exact .alloc (hq.mono h)
  | dealloc hq => exact .dealloc (hq.mono h)
  | gate g ps hq => exact .gate g ps (forall2_mono (RQ.mono h) hq)
  | meas hq => exact .meas (hq.mono h)
  | reset hq => exact .reset (hq.mono h)

/-- The circuit `x`, run from `r0`, does what the execution did. -/
structure RS (mb : Nat → Bool) (r0 : Rt) (w : World) (s : St) (x : Qc) : Prop where
  k : (runL mb x.data r0).k = s.k
  mem : (runL mb x.data r0).mem = w.mem
  ev : List.Forall₂ (EvR w) s.ev (runL mb x.data r0).ev
  len : w.nm.length = s.next
  nodup : w.nm.Nodup
  bound : ∀ q ∈ w.nm, q < x.nq
  fresh : ∀ c, x.clb.length ≤ c → w.mem c = none
  perm : x.clb.Perm (List.range x.clb.length)
  nest : x.nest = false → s.k = x.clb.length ∧ (∀ c, c < x.clb.length → w.mem c = some (mb c)) ∧
    x.clb = (List.range x.clb.length).reverse

theorem runL_append (mb : Nat → Bool) (l m : List Ins) (r : Rt) : runL mb (l ++ m) r = runL mb m (runL mb l r) := by
  induction l generalizing r with
  | nil => simp [runL]
  | cons i l ih => simp only [List.cons_append, runL, ih]

theorem runL_ev (mb : Nat → Bool) (l : List Ev) (r : Rt) : runL mb (l.map Ins.ev) r = { r with ev := r.ev ++ l } := by
  induction l generalizing r with
  | nil => simp [runL]
  | cons e l ih => simp only [List.map_cons, runL, runI, ih, List.append_assoc, List.singleton_append]

/-! ### Elementary steps -/

theorem rs_ev {mb r0 w s x} (h : RS mb r0 w s x) {es es' : List Ev} (he : List.Forall₂ (EvR w) es es') :
    RS mb r0 w { s with ev := s.ev ++ es } (emit x (es'.map Ins.ev)) where
  k := by simp only [emit, runL_append, runL_ev]; exact h.k
  mem := by simp only [emit, runL_append, runL_ev]; exact h.mem
  ev := by simp only [emit, runL_append, runL_ev]; exact forall2_append h.ev he
  len := h.len
  nodup := h.nodup
  bound := h.bound
  fresh := h.fresh
  perm := h.perm
  nest := h.nest

theorem rs_odd {mb r0 w s x} (h : RS mb r0 w s x) (b : Bool) : RS mb r0 w { s with odd := b } x :=
  ⟨h.k, h.mem, h.ev, h.len, h.nodup, h.bound, h.fresh, h.perm, h.nest⟩

theorem rs_meas {mb r0 w s x} (h : RS mb r0 w s x) {q q'} (hq : RQ w q q') :
    ∃ w', w.le w' ∧ Bit w' x.clb.length (mb s.k) ∧
      RS mb r0 w' { s with k := s.k + 1, ev := s.ev ++ [.meas q] } (measQ x q') := by
  refine ⟨⟨w.nm, fun d => if d = x.clb.length then some (mb s.k) else w.mem d⟩, ⟨⟨[], by simp⟩, fun c b hc => ?_⟩, by simp [Bit], ?_⟩
  · have : c ≠ x.clb.length := fun e => by rw [e, h.fresh _ (Nat.le_refl _)] at hc; cases hc
    simp only [if_neg this]; exact hc
  · have hle : w.le ⟨w.nm, fun d => if d = x.clb.length then some (mb s.k) else w.mem d⟩ := by
      refine ⟨⟨[], by simp⟩, fun c b hc => ?_⟩
      have : c ≠ x.clb.length := fun e => by rw [e, h.fresh _ (Nat.le_refl _)] at hc; cases hc
      simp only [if_neg this]; exact hc
    constructor
    · simp only [measQ, runL_append, runL, runI, h.k]
    · simp only [measQ, runL_append, runL, runI, h.k, h.mem]
    · simp only [measQ, runL_append, runL, runI]
      exact forall2_append (forall2_mono (EvR.mono hle) h.ev) (.cons (.meas (hq.mono hle)) .nil)
    · exact h.len
    · exact h.nodup
    · exact h.bound
    · intro c hc
      simp only [measQ, List.length_cons] at hc
      have : c ≠ x.clb.length := by omega
      simp only [if_neg this]
      exact h.fresh c (by omega)
    · simp only [measQ, List.length_cons, List.range_succ]
      exact (List.Perm.cons _ h.perm).trans (List.perm_append_comm (l₁ := [x.clb.length]))
    · intro hn
      obtain ⟨h1, h2, h3⟩ := h.nest hn
      refine ⟨by simp [measQ, h1], fun c hc => ?_, ?_⟩
      · simp only [measQ, List.length_cons] at hc
        by_cases hcx : c = x.clb.length
        · subst hcx
          simp [h1]
        · simp only [if_neg hcx]
          exact h2 c (by omega)
      · simp only [measQ, List.length_cons, List.range_succ, List.reverse_append, List.reverse_singleton, List.singleton_append]
        rw [← h3]

theorem rs_measL {mb r0} : ∀ {l l' : List Nat} {w s x}, RS mb r0 w s x → List.Forall₂ (RQ w) l l' →
    ∃ w', w.le w' ∧ List.Forall₂ (Bit w') ((List.range l.length).map (x.clb.length + ·)) (outs mb s.k l.length) ∧
      RS mb r0 w' { s with k := s.k + l.length, ev := s.ev ++ l.map .meas } (l'.foldl measQ x) := by
  intro l
  induction l with
  | nil =>
    intro l' w s x h hl
    cases hl
    refine ⟨w, w.le_refl, by simp [outs], ?_⟩
    simpa using h
  | cons q l ih =>
    intro l' w s x h hl
    cases hl with
    | cons hq hl =>
      obtain ⟨w1, k1, k2, k3⟩ := rs_meas h hq
      obtain ⟨w2, m1, m2, m3⟩ := ih k3 (forall2_mono (RQ.mono k1) hl)
      refine ⟨w2, World.le_trans k1 m1, ?_, ?_⟩
      · simp only [List.length_cons, List.range_succ_eq_map, List.map_cons, List.map_map, outs, Nat.add_zero]
        refine .cons (k2.mono m1) ?_
        simp only [measQ, List.length_cons, outs] at m2
        have e1 : (fun x_1 => x.clb.length + x_1) ∘ Nat.succ = fun x_1 => x.clb.length + 1 + x_1 := by
          funext i; simp only [Function.comp, Nat.succ_eq_add_one]; omega
        have e2 : (fun i => mb (s.k + i)) ∘ Nat.succ = fun i => mb (s.k + 1 + i) := by
          funext i; simp only [Function.comp, Nat.succ_eq_add_one]; congr 1; omega
        rw [e1, e2]
        exact m2
      · simp only [List.length_cons, List.map_cons, List.foldl_cons]
        have : s.k + (l.length + 1) = s.k + 1 + l.length := by omega
        rw [this, ← List.singleton_append, ← List.append_assoc]
        exact m3

theorem rs_create {mb r0 w s x} (h : RS mb r0 w s x) (n : Nat) (b : Bool) :
    ∃ w', w.le w' ∧ List.Forall₂ (RQ w') ((List.range n).map (s.next + ·)) ((List.range n).map (x.nq + ·)) ∧
      RS mb r0 w' { s with next := s.next + n, ev := s.ev ++ ((List.range n).map (s.next + ·)).map .alloc, odd := b }
        { emit x (((List.range n).map (x.nq + ·)).map fun q => .ev (.alloc q)) with nq := x.nq + n } := by
  have hle : w.le ⟨w.nm ++ (List.range n).map (x.nq + ·), w.mem⟩ := ⟨⟨_, rfl⟩, fun _ _ h => h⟩
  have hrq : ∀ m, m ≤ n → List.Forall₂ (RQ ⟨w.nm ++ (List.range n).map (x.nq + ·), w.mem⟩) ((List.range m).map (s.next + ·))
      ((List.range m).map (x.nq + ·)) := by
    intro m
    induction m with
    | zero => intro _; exact .nil
    | succ m ih =>
      intro hm
      simp only [List.range_succ, List.map_append, List.map_cons, List.map_nil]
      refine forall2_append (ih (by omega)) (.cons ?_ .nil)
      simp only [RQ]
      rw [List.getElem?_append_right (by rw [h.len]; omega), h.len]
      simp only [Nat.add_sub_cancel_left]
      rw [List.getElem?_map, List.getElem?_range (by omega)]
      rfl
  refine ⟨_, hle, hrq n (Nat.le_refl n), ?_⟩
  have hmap : (((List.range n).map (x.nq + ·)).map fun q => Ins.ev (.alloc q)) = (((List.range n).map (x.nq + ·)).map Ev.alloc).map Ins.ev := by
    simp only [List.map_map]; rfl
  rw [hmap]
  constructor
  · simp only [emit, runL_append, runL_ev]; exact h.k
  · simp only [emit, runL_append, runL_ev]; exact h.mem
  · simp only [emit, runL_append, runL_ev]
    refine forall2_append (forall2_mono (EvR.mono hle) h.ev) ?_
    have : ∀ {a b : List Nat}, List.Forall₂ (RQ ⟨w.nm ++ (List.range n).map (x.nq + ·), w.mem⟩) a b →
        List.Forall₂ (EvR ⟨w.nm ++ (List.range n).map (x.nq + ·), w.mem⟩) (a.map .alloc) (b.map .alloc) := by
      intro a b hab
      induction hab with
      | nil => exact .nil
      | cons h1 _ ih => exact .cons (.alloc h1) ih
    exact this (hrq n (Nat.le_refl n))
  · simp [h.len]
  · simp only
    rw [List.nodup_append]
    refine ⟨h.nodup, List.Nodup.map (fun a b h => by simpa using h) List.nodup_range, fun a ha b hb => ?_⟩
    obtain ⟨i, _, rfl⟩ := List.mem_map.mp hb
    have := h.bound a ha
    omega
  · intro q hq
    rcases List.mem_append.mp hq with hq | hq
    · have := h.bound q hq
      simp only; omega
    · obtain ⟨i, hi, rfl⟩ := List.mem_map.mp hq
      rw [List.mem_range] at hi
      simp only; omega
  · exact h.fresh
  · exact h.perm
  · exact h.nest

end Verif.Jasp.Xt
