import Verif.Circ.WState
import Verif.Oper.Term

/-!
`QubitTerm.simulate` for diagonal terms (operators/qubit/qubit_term.py:235-475).
-/

namespace Verif.Ham

open Verif.Oper Verif.Circ
open Verif.Rev (upd)

/-- The qubits of the quantum argument, the control of `custom_control`, `hs_anc` and the `balauca_ancillae`. -/
inductive HQ where
  | qv (i : Nat)
  | ctrl
  | hs
  | anc (i : Nat)
deriving DecidableEq

/-- The gates of the simulation.  A control is a qubit with its control state. -/
inductive HOp where
  | cx (a t : HQ)
  | land (a b : HQ × Bool) (t : HQ)
  | landInv (a b : HQ × Bool) (t : HQ)
  | rz (θ : ℝ) (q : HQ)
  | p (θ : ℝ) (q : HQ)
  | gphase (θ : ℝ) (q : HQ)
  | mcp (θ : ℝ) (cs : List (HQ × Bool))

/-- The bit action of a logical AND. -/
def flipL (a b : HQ × Bool) (t : HQ) (c : HQ → Bool) : HQ → Bool := upd c t (c t ^^ (c a.1 == a.2 && c b.1 == b.2))

/-- All qubits are in their control states. -/
def allMatch (cs : List (HQ × Bool)) (c : HQ → Bool) : Bool := cs.all fun q => c q.1 == q.2

/-- The gates on amplitudes.  `GidneyLogicalAND` (alg_primitives/mcx_algs/gidney.py:28-77) is a Toffoli gate up to the phases `χ`
(C67); `mcp` is exact (C61, C65). -/
noncomputable def HOp.den (χ : HQ × Bool → HQ × Bool → HQ → (HQ → Bool) → ℂ) : HOp → Amp HQ → Amp HQ
  | .cx a t, ψ => Circ.den cxG [a, t] ψ
  | .land a b t, ψ => fun c => χ a b t (flipL a b t c) * ψ (flipL a b t c)
  | .landInv a b t, ψ => fun c => star (χ a b t c) * ψ (flipL a b t c)
  | .rz θ q, ψ => Circ.den (rzG θ) [q] ψ
  | .p θ q, ψ => Circ.den (pG θ) [q] ψ
  | .gphase θ q, ψ => Circ.den (gphaseG θ) [q] ψ
  | .mcp θ cs, ψ => fun c => if allMatch cs c then ph θ * ψ c else ψ c

/-- The inverse gate. -/
noncomputable def HOp.inv : HOp → HOp
  | .cx a t => .cx a t
  | .land a b t => .landInv a b t
  | .landInv a b t => .land a b t
  | .rz θ q => .rz (-θ) q
  | .p θ q => .p (-θ) q
  | .gphase θ q => .gphase (-θ) q
  | .mcp θ cs => .mcp (-θ) cs

/-- Gates one after the other. -/
noncomputable def runH (χ : HQ × Bool → HQ × Bool → HQ → (HQ → Bool) → ℂ) : List HOp → Amp HQ → Amp HQ
  | [], ψ => ψ
  | o :: os, ψ => runH χ os (o.den χ ψ)

/-- `conjugate(V)` around a body: `V`, the body, the inverse of `V`. -/
noncomputable def conjH (V mid : List HOp) : List HOp := V ++ mid ++ (V.map HOp.inv).reverse

/-- `Z_indices` (qubit_term.py:283-285). -/
def zIdx (t : Term) : List Nat := (t.filter fun q => q.2 = .Z).map Prod.fst

/-- `projector_indices` and `projector_state` (qubit_term.py:286-291). -/
def projIdx (t : Term) : List (Nat × Bool) := (t.filter fun q => q.2 = .P0 || q.2 = .P1).map fun q => (q.1, q.2 = .P1)

/-- `projector_qubits` with their bits in `projector_ctrl_state` (qubit_term.py:294-305). -/
def projQ (ctrl : Bool) (t : Term) : List (HQ × Bool) :=
  (if ctrl then [(.ctrl, true)] else []) ++ (projIdx t).map fun q => (.qv q.1, q.2)

/-- `balauca_layer` with the structure `[2, 2, …]` (alg_primitives/mcx_algs/balauca.py:193-255). -/
def layerH : List (HQ × Bool) → List HQ → List HOp
  | a :: b :: r, o :: os => .land a b o :: layerH r os
  | _, _ => []

/-- The `while` loop and the last `mcx` of `semi_balauca_mcx` (qubit_term.py:407-427); `none` is the exception of `mcx`.  In tracing mode
`mcx(…, method="gidney")` ignores the control state (core/gate_application_functions.py:545-547). -/
def semi (traced : Bool) (target : HQ) (red : List (HQ × Bool)) (fresh : List HQ) : Option (List HOp) :=
  if _h : 2 < red.length then
    (semi traced target (red.drop (2 * (red.length / 2)) ++ (fresh.take (red.length / 2)).map fun q => (q, true)) (fresh.drop (red.length / 2))).map
      fun r => layerH (red.take (2 * (red.length / 2))) (fresh.take (red.length / 2)) ++ r
  else match red with
    | [a, b] => if traced then some [.land (a.1, true) (b.1, true) target] else some [.land a b target]
    | _ => none
termination_by red.length
decreasing_by simp; omega

/-- The part under `with env:` (qubit_term.py:439-470); `h` is the control qubit, if there is one. -/
noncomputable def bodyH (coeff : ℝ) (zs : List Nat) (anchor : Nat) (h : Option HQ) (flip : Bool) : List HOp :=
  conjH (zs.map fun i => .cx (.qv i) (.qv anchor))
    (match h with
      | some h => conjH [.cx (.qv anchor) h] [.rz coeff (.qv anchor), .rz (-(if flip then -coeff else coeff)) h]
      | none => [.rz (coeff * 2) (.qv anchor)])

/-- `QubitTerm.simulate` for a term with the factors `I, Z, P0, P1` (qubit_term.py:267-470). -/
noncomputable def simulate (traced ctrl : Bool) (coeff : ℝ) (t : Term) : Option (List HOp) :=
  match (zIdx t).getLast?, projQ ctrl t with
  | none, [] => some [.gphase (-coeff) (.qv 0)]
  | none, [(q, false)] => some [.p coeff q, .gphase (-coeff) q]
  | none, [(q, true)] => some [.p (-coeff) q]
  | none, ps => some [.mcp (-coeff) ps]
  | some a, [] => some (bodyH coeff (zIdx t).dropLast a none false)
  | some a, [(q, b)] => some (bodyH coeff (zIdx t).dropLast a (some q) (!b))
  | some a, ps => (semi traced .hs ps ((List.range (ps.length - 1)).map .anc)).map fun V =>
      conjH V (bodyH coeff (zIdx t).dropLast a (some .hs) false)

/-- Whether `simulate` leaves the ancillas it allocated behind: they are allocated for two or more projector qubits (including the
control) and deleted for two or more projector indices (qubit_term.py:387-429, 472-475). -/
def leaks (ctrl : Bool) (t : Term) : Bool := (zIdx t != []) && decide (2 ≤ (projQ ctrl t).length) && !decide (2 ≤ (projIdx t).length)

/-! ### Diagonal operations and conjugations -/

variable {χ : HQ × Bool → HQ × Bool → HQ → (HQ → Bool) → ℂ}

theorem runH_append (a b : List HOp) (ψ : Amp HQ) : runH χ (a ++ b) ψ = runH χ b (runH χ a ψ) := by
  induction a generalizing ψ with
  | nil => rfl
  | cons o a ih => exact ih _

theorem cxQ_apply {Q : Type} [DecidableEq Q] (t u : Q) (ψ : Amp Q) (c : Q → Bool) :
    Circ.den cxG [t, u] ψ c = ψ (upd c u (c u ^^ c t)) := by
  show (if ((c t == true) && true) = true then app1 Pauli.x.mat u ψ c else ψ c) = _
  rw [pauli_x_mk]
  cases h : c t
  · have : upd c u (c u ^^ false) = c := by
      funext z
      by_cases e : z = u
      · subst e; rw [Verif.Rev.upd_same, Bool.xor_false]
      · rw [Verif.Rev.upd_ne e]
    rw [this]; simp
  · simp only [beq_self_eq_true, Bool.and_true, if_true, Bool.xor_true]
    unfold app1 mux
    cases h2 : c u <;> simp [mk]

theorem upd_self {Q : Type} [DecidableEq Q] {c : Q → Bool} {a : Q} {x : Bool} (hx : c a = x) : upd c a x = c := by
  funext z
  by_cases e2 : z = a
  · subst e2; rw [Verif.Rev.upd_same, hx]
  · rw [Verif.Rev.upd_ne e2]

theorem rz_apply {Q : Type} [DecidableEq Q] (θ : ℝ) (a : Q) (ψ : Amp Q) (c : Q → Bool) :
    Circ.den (rzG θ) [a] ψ c = ph (if c a then θ / 2 else -θ / 2) * ψ c := by
  have e : Circ.den (rzG θ) [a] ψ = app1 (rzm θ) a ψ := by rw [← u3m_rz]; rfl
  rw [e]
  unfold app1 mux rzm
  cases h : c a <;> simp [mk, upd_self h]

theorem gphase_apply {Q : Type} [DecidableEq Q] (θ : ℝ) (a : Q) (ψ : Amp Q) (c : Q → Bool) :
    Circ.den (gphaseG θ) [a] ψ c = ph θ * ψ c := by
  have e : Circ.den (gphaseG θ) [a] ψ = app1 (ph θ • 1) a ψ := by rw [← u3m_g]; rfl
  rw [e]
  unfold app1 mux
  cases h : c a <;> simp [upd_self h]

/-- A gate that permutes basis states. -/
def IsCl : HOp → Prop
  | .cx a t => a ≠ t
  | .land a b t => a.1 ≠ t ∧ b.1 ≠ t
  | _ => False

/-- The bit action of such a gate. -/
def HOp.cl : HOp → (HQ → Bool) → HQ → Bool
  | .cx a t, c => upd c t (c t ^^ c a)
  | .land a b t, c => flipL a b t c
  | _, c => c

/-- The bit action of a list. -/
def clH : List HOp → (HQ → Bool) → HQ → Bool
  | [], c => c
  | o :: os, c => clH os (o.cl c)

theorem clH_append (a b : List HOp) (c : HQ → Bool) : clH (a ++ b) c = clH b (clH a c) := by
  induction a generalizing c with
  | nil => rfl
  | cons o a ih => exact ih _

/-- The list multiplies amplitudes by phases. -/
def DiagH (χ : HQ × Bool → HQ × Bool → HQ → (HQ → Bool) → ℂ) (l : List HOp) (d : (HQ → Bool) → ℂ) : Prop := ∀ ψ c, runH χ l ψ c = d c * ψ c

theorem flip_flip {c : HQ → Bool} {t : HQ} {b : Bool} : upd (upd c t (c t ^^ b)) t ((c t ^^ b) ^^ b) = c := by
  funext z
  by_cases e : z = t
  · subst e; rw [Verif.Rev.upd_same]; cases c z <;> cases b <;> rfl
  · rw [Verif.Rev.upd_ne e, Verif.Rev.upd_ne e]

theorem flipL_flipL {a b : HQ × Bool} {t : HQ} (ha : a.1 ≠ t) (hb : b.1 ≠ t) (c : HQ → Bool) : flipL a b t (flipL a b t c) = c := by
  unfold flipL
  rw [Verif.Rev.upd_same, Verif.Rev.upd_ne ha, Verif.Rev.upd_ne hb]
  exact flip_flip

theorem conj_diag (hχ : ∀ a b t c, star (χ a b t c) * χ a b t c = 1) {V mid : List HOp} (hV : ∀ o ∈ V, IsCl o) {d : (HQ → Bool) → ℂ}
    (hd : DiagH χ mid d) : DiagH χ (conjH V mid) fun c => d (clH V c) := by
  induction V with
  | nil =>
    unfold conjH
    simp only [List.nil_append, List.map_nil, List.reverse_nil, List.append_nil]
    exact hd
  | cons o V ih =>
    have ih := ih fun x hx => hV x (List.mem_cons_of_mem _ hx)
    have ho := hV o List.mem_cons_self
    intro ψ c
    have e : conjH (o :: V) mid = [o] ++ conjH V mid ++ [o.inv] := by simp [conjH]
    rw [e, runH_append, runH_append]
    show o.inv.den χ (runH χ (conjH V mid) (o.den χ ψ)) c = d (clH V (o.cl c)) * ψ c
    have hin : runH χ (conjH V mid) (o.den χ ψ) = fun c => d (clH V c) * o.den χ ψ c := funext fun c => ih _ c
    rw [hin]
    cases o with
    | cx a t =>
      have hat : a ≠ t := ho
      show Circ.den cxG [a, t] (fun c => d (clH V c) * Circ.den cxG [a, t] ψ c) c = _
      rw [cxQ_apply, cxQ_apply, Verif.Rev.upd_same, Verif.Rev.upd_ne hat, flip_flip]
      rfl
    | land a b t =>
      show star (χ a b t c) * (d (clH V (flipL a b t c)) * (χ a b t (flipL a b t (flipL a b t c)) * ψ (flipL a b t (flipL a b t c)))) = _
      rw [flipL_flipL ho.1 ho.2]
      show _ = d (clH V (flipL a b t c)) * ψ c
      linear_combination d (clH V (flipL a b t c)) * ψ c * hχ a b t c
    | landInv => exact ho.elim
    | rz => exact ho.elim
    | p => exact ho.elim
    | gphase => exact ho.elim
    | mcp => exact ho.elim

/-! ### The logical ANDs -/

theorem allMatch_append (a b : List (HQ × Bool)) (c : HQ → Bool) : allMatch (a ++ b) c = (allMatch a c && allMatch b c) := by
  unfold allMatch; rw [List.all_append]

theorem allMatch_congr {l : List (HQ × Bool)} {c c' : HQ → Bool} (h : ∀ q ∈ l, c q.1 = c' q.1) : allMatch l c = allMatch l c' := by
  unfold allMatch
  rw [Bool.eq_iff_iff, List.all_eq_true, List.all_eq_true]
  constructor <;> intro h' q hq
  · rw [← h q hq]; exact h' q hq
  · rw [h q hq]; exact h' q hq

/-- The state after a layer. -/
theorem layer_spec : ∀ (os : List HQ) (red : List (HQ × Bool)) (c : HQ → Bool), red.length = 2 * os.length → os.Nodup →
    (∀ o ∈ os, ∀ q ∈ red, q.1 ≠ o) → (∀ o ∈ os, c o = false) →
    (∀ o ∈ layerH red os, IsCl o) ∧ (∀ q, q ∉ os → clH (layerH red os) c q = c q) ∧
    (os.all (clH (layerH red os) c) = allMatch red c)
  | [], red, c, hl, _, _, _ => by
    have : red = [] := List.eq_nil_of_length_eq_zero (by simpa using hl)
    subst this
    exact ⟨fun o h => by simp [layerH] at h, fun q _ => rfl, rfl⟩
  | o :: os, red, c, hl, hn, hd, hz => by
    obtain ⟨a, b, r, rfl⟩ : ∃ a b r, red = a :: b :: r := by
      match red, hl with
      | [], hl => simp at hl
      | [_], hl => simp at hl; omega
      | a :: b :: r, _ => exact ⟨a, b, r, rfl⟩
    have hl' : r.length = 2 * os.length := by simp at hl; omega
    have hao : a.1 ≠ o := hd o List.mem_cons_self a List.mem_cons_self
    have hbo : b.1 ≠ o := hd o List.mem_cons_self b (by simp)
    have hno := (List.nodup_cons.mp hn).1
    have hfl : ∀ q, q ≠ o → flipL a b o c q = c q := fun q hq => Verif.Rev.upd_ne hq
    obtain ⟨h1, h2, h3⟩ := layer_spec os r (flipL a b o c) hl' (List.nodup_cons.mp hn).2
      (fun o' ho' q hq => hd o' (List.mem_cons_of_mem _ ho') q (by simp [hq]))
      (fun o' ho' => by rw [hfl o' (fun e => hno (e ▸ ho'))]; exact hz o' (List.mem_cons_of_mem _ ho'))
    refine ⟨?_, ?_, ?_⟩
    · intro x hx
      rcases List.mem_cons.mp hx with rfl | hx
      · exact ⟨hao, hbo⟩
      · exact h1 x hx
    · intro q hq
      rw [List.mem_cons, not_or] at hq
      show clH (layerH r os) (flipL a b o c) q = c q
      rw [h2 q hq.2, hfl q hq.1]
    · show (o :: os).all (clH (layerH r os) (flipL a b o c)) = _
      rw [List.all_cons, h3, h2 o hno]
      have e1 : flipL a b o c o = (c a.1 == a.2 && c b.1 == b.2) := by
        unfold flipL
        rw [Verif.Rev.upd_same, hz o List.mem_cons_self, Bool.false_xor]
      rw [e1, allMatch_congr (c' := c) fun q hq => hfl q.1 (hd o List.mem_cons_self q (by simp [hq]))]
      unfold allMatch
      rw [List.all_cons, List.all_cons, Bool.and_assoc]

theorem semi_spec (t : HQ) : ∀ (m : Nat) (red : List (HQ × Bool)) (fresh : List HQ) (c : HQ → Bool), red.length = m → 2 ≤ m → m ≤ fresh.length + 2 →
    fresh.Nodup → (∀ o ∈ fresh, ∀ q ∈ red, q.1 ≠ o) → (∀ q ∈ red, q.1 ≠ t) → t ∉ fresh → (∀ o ∈ fresh, c o = false) → c t = false →
    ∃ V, semi false t red fresh = some V ∧ (∀ o ∈ V, IsCl o) ∧ (∀ q, q ≠ t → q ∉ fresh → clH V c q = c q) ∧ clH V c t = allMatch red c := by
  intro m
  induction m using Nat.strong_induction_on with
  | _ m ih =>
    intro red fresh c hl h2 hf hn hd hrt htf hz hzt
    rw [semi]
    by_cases hlt : 2 < red.length
    · rw [dif_pos hlt]
      set k := red.length / 2 with hk
      have hkl : (fresh.take k).length = k := by rw [List.length_take]; omega
      have hred2 : (red.take (2 * k)).length = 2 * (fresh.take k).length := by rw [List.length_take, hkl]; omega
      have htake : ∀ o ∈ fresh.take k, o ∈ fresh := fun o ho => List.mem_of_mem_take ho
      have hdrop : ∀ o ∈ fresh.drop k, o ∈ fresh := fun o ho => List.mem_of_mem_drop ho
      have hdisj : ∀ o ∈ fresh.take k, o ∉ fresh.drop k := by
        intro o ho ho'
        have := List.take_append_drop k fresh
        rw [← this] at hn
        exact (List.nodup_append.mp hn).2.2 o ho o ho' rfl
      obtain ⟨l1, l2, l3⟩ := layer_spec (fresh.take k) (red.take (2 * k)) c hred2 (hn.sublist (List.take_sublist _ _))
        (fun o ho q hq => hd o (htake o ho) q (List.mem_of_mem_take hq)) (fun o ho => hz o (htake o ho))
      set c1 := clH (layerH (red.take (2 * k)) (fresh.take k)) c with hc1
      have hlen : (red.drop (2 * k) ++ (fresh.take k).map fun q => (q, true)).length = m - k := by
        rw [List.length_append, List.length_drop, List.length_map, hkl]; omega
      obtain ⟨V, v1, v2, v3, v4⟩ := ih (m - k) (by omega) (red.drop (2 * k) ++ (fresh.take k).map fun q => (q, true)) (fresh.drop k) c1 hlen (by omega)
        (by rw [List.length_drop]; omega) (hn.sublist (List.drop_sublist _ _))
        (by
          intro o ho q hq
          rcases List.mem_append.mp hq with hq | hq
          · exact hd o (hdrop o ho) q (List.mem_of_mem_drop hq)
          · obtain ⟨x, hx, rfl⟩ := List.mem_map.mp hq
            exact fun e => hdisj x hx (by rw [show x = o from e]; exact ho))
        (by
          intro q hq
          rcases List.mem_append.mp hq with hq | hq
          · exact hrt q (List.mem_of_mem_drop hq)
          · obtain ⟨x, hx, rfl⟩ := List.mem_map.mp hq
            exact fun e => htf (by rw [← show x = t from e]; exact htake x hx))
        (fun h => htf (hdrop t h))
        (fun o ho => by rw [l2 o (fun h => hdisj o h ho)]; exact hz o (hdrop o ho))
        (by rw [l2 t (fun h => htf (htake t h))]; exact hzt)
      refine ⟨_, by rw [v1]; rfl, ?_, ?_, ?_⟩
      · intro o ho
        rcases List.mem_append.mp ho with ho | ho
        · exact l1 o ho
        · exact v2 o ho
      · intro q hq hqf
        rw [clH_append, ← hc1, v3 q hq (fun h => hqf (hdrop q h)), l2 q (fun h => hqf (htake q h))]
      · rw [clH_append, ← hc1, v4, allMatch_append]
        have e1 : allMatch ((fresh.take k).map fun q => (q, true)) c1 = allMatch (red.take (2 * k)) c := by
          rw [← l3]
          unfold allMatch
          rw [List.all_map]
          congr 1
          funext q
          simp
        have e2 : allMatch (red.drop (2 * k)) c1 = allMatch (red.drop (2 * k)) c :=
          allMatch_congr fun q hq => l2 q.1 fun h => hd q.1 (htake _ h) q (List.mem_of_mem_drop hq) rfl
        rw [e1, e2, Bool.and_comm, ← allMatch_append, List.take_append_drop]
    · rw [dif_neg hlt]
      obtain ⟨a, b, rfl⟩ : ∃ a b, red = [a, b] := by
        match red, hl, hlt with
        | [], hl, _ => simp at hl; omega
        | [_], hl, _ => simp at hl; omega
        | [a, b], _, _ => exact ⟨a, b, rfl⟩
        | _ :: _ :: _ :: _, _, hlt => simp at hlt
      have ha := hrt a (by simp)
      have hb := hrt b (by simp)
      refine ⟨[.land a b t], rfl, fun o ho => by rw [List.mem_singleton] at ho; subst ho; exact ⟨ha, hb⟩, ?_, ?_⟩
      · intro q hq _
        exact Verif.Rev.upd_ne hq
      · show flipL a b t c t = _
        unfold flipL allMatch
        rw [Verif.Rev.upd_same, hzt, Bool.false_xor]
        simp

/-! ### The rotation -/

/-- The parity of the bits. -/
def par (zs : List Nat) (c : HQ → Bool) : Bool := zs.foldr (fun i b => c (.qv i) ^^ b) false

theorem cl_flips (a : Nat) : ∀ (zs : List Nat) (c : HQ → Bool), a ∉ zs →
    (∀ q, q ≠ .qv a → clH (zs.map fun i => HOp.cx (.qv i) (.qv a)) c q = c q) ∧
    clH (zs.map fun i => HOp.cx (.qv i) (.qv a)) c (.qv a) = (par zs c ^^ c (.qv a))
  | [], c, _ => ⟨fun _ _ => rfl, by simp [par, clH]⟩
  | i :: zs, c, h => by
    rw [List.mem_cons, not_or] at h
    obtain ⟨h1, h2⟩ := cl_flips a zs (upd c (.qv a) (c (.qv a) ^^ c (.qv i))) h.2
    have hp : ∀ l : List Nat, a ∉ l → par l (upd c (.qv a) (c (.qv a) ^^ c (.qv i))) = par l c := by
      intro l hl
      induction l with
      | nil => rfl
      | cons x l ihl =>
        rw [List.mem_cons, not_or] at hl
        show (upd c (.qv a) _ (.qv x) ^^ par l _) = (c (.qv x) ^^ par l c)
        rw [ihl hl.2, Verif.Rev.upd_ne (fun e => hl.1 (by injection e with e; exact e.symm))]
    constructor
    · intro q hq
      show clH _ (upd c (.qv a) (c (.qv a) ^^ c (.qv i))) q = c q
      rw [h1 q hq, Verif.Rev.upd_ne hq]
    · show clH _ (upd c (.qv a) (c (.qv a) ^^ c (.qv i))) (.qv a) = _
      rw [h2, hp zs h.2, Verif.Rev.upd_same]
      show _ = ((c (.qv i) ^^ par zs c) ^^ c (.qv a))
      cases c (.qv i) <;> cases par zs c <;> cases c (.qv a) <;> rfl

/-- The sign of a bit. -/
def sgn (b : Bool) : ℝ := if b then -1 else 1

/-- The phase of the body: `-coeff` times the sign of the parity, if the control is on. -/
theorem body_diag (hχ : ∀ a b t c, star (χ a b t c) * χ a b t c = 1) (coeff : ℝ) {zs : List Nat} {a : Nat} (ha : a ∉ zs) :
    DiagH χ (bodyH coeff zs a none false) fun c => ph (-(coeff * sgn (par (zs ++ [a]) c))) := by
  have hV : ∀ o ∈ zs.map fun i => HOp.cx (.qv i) (.qv a), IsCl o := by
    intro o ho
    obtain ⟨i, hi, rfl⟩ := List.mem_map.mp ho
    intro e
    injection e with e
    exact ha (e ▸ hi)
  have h := conj_diag hχ hV (mid := [.rz (coeff * 2) (.qv a)]) (d := fun c => ph (if c (.qv a) then coeff * 2 / 2 else -(coeff * 2) / 2))
    (fun ψ c => rz_apply _ _ _ _)
  intro ψ c
  rw [show runH χ (bodyH coeff zs a none false) ψ c = _ from h ψ c]
  congr 1
  beta_reduce
  congr 1
  have hp : par (zs ++ [a]) c = (par zs c ^^ c (.qv a)) := by
    clear h hV ha
    induction zs with
    | nil => simp [par]
    | cons x zs ih =>
      show (c (.qv x) ^^ par (zs ++ [a]) c) = ((c (.qv x) ^^ par zs c) ^^ c (.qv a))
      rw [ih, Bool.xor_assoc]
  rw [(cl_flips a zs c ha).2, hp]
  unfold sgn
  cases (par zs c ^^ c (.qv a)) <;> simp <;> ring

theorem body_diag_ctrl (hχ : ∀ a b t c, star (χ a b t c) * χ a b t c = 1) (coeff : ℝ) {zs : List Nat} {a : Nat} (ha : a ∉ zs) {h : HQ}
    (hh : ∀ i ∈ a :: zs, h ≠ .qv i) (flip : Bool) :
    DiagH χ (bodyH coeff zs a (some h) flip) fun c => ph (if (c h ^^ flip) then -(coeff * sgn (par (zs ++ [a]) c)) else 0) := by
  have hV : ∀ o ∈ zs.map fun i => HOp.cx (.qv i) (.qv a), IsCl o := by
    intro o ho
    obtain ⟨i, hi, rfl⟩ := List.mem_map.mp ho
    intro e
    injection e with e
    exact ha (e ▸ hi)
  have hah : HQ.qv a ≠ h := fun e => hh a List.mem_cons_self e.symm
  have h1 : DiagH χ [.rz coeff (.qv a), .rz (-(if flip then -coeff else coeff)) h] fun c =>
      ph (if c h then -(if flip then -coeff else coeff) / 2 else -(-(if flip then -coeff else coeff)) / 2) *
        ph (if c (.qv a) then coeff / 2 else -coeff / 2) := by
    intro ψ c
    show Circ.den (rzG (-(if flip then -coeff else coeff))) [h] (Circ.den (rzG coeff) [.qv a] ψ) c = _
    rw [rz_apply, rz_apply, mul_assoc]
  have h2 := conj_diag hχ (V := [.cx (.qv a) h]) (by intro o ho; rw [List.mem_singleton] at ho; subst ho; exact hah) h1
  have h3 := conj_diag hχ hV h2
  intro ψ c
  rw [show runH χ (bodyH coeff zs a (some h) flip) ψ c = _ from h3 ψ c]
  congr 1
  have hp : par (zs ++ [a]) c = (par zs c ^^ c (.qv a)) := by
    clear h3 h2 h1 hV ha hh
    induction zs with
    | nil => simp [par]
    | cons x zs ih =>
      show (c (.qv x) ^^ par (zs ++ [a]) c) = ((c (.qv x) ^^ par zs c) ^^ c (.qv a))
      rw [ih, Bool.xor_assoc]
  obtain ⟨f1, f2⟩ := cl_flips a zs c ha
  beta_reduce
  set c1 := clH (zs.map fun i => HOp.cx (.qv i) (.qv a)) c with hc1
  have e1 : clH [.cx (.qv a) h] c1 h = (c1 h ^^ c1 (.qv a)) := Verif.Rev.upd_same _ _ _
  have e2 : clH [.cx (.qv a) h] c1 (.qv a) = c1 (.qv a) := Verif.Rev.upd_ne hah
  rw [e1, e2, f1 h hah.symm, f2, ← hp, ← ph_add]
  congr 1
  unfold sgn
  cases c h <;> cases flip <;> cases par (zs ++ [a]) c <;> simp <;> ring

end Verif.Ham
