import Verif.Circ.Swaps

/-!
Passes that use that the circuit starts in the zero state: arrange_swaps and cancel_zero_controls.
-/

namespace Verif.Circ

open Verif.Rev (upd)

variable {Q C K : Type} [DecidableEq Q] [DecidableEq C]

/-! ### Qubits in the zero state -/

/-- Qubit `q` is in the state zero: no row or column with `q` set occurs. -/
def Zero (q : Q) (Ψ : Amp (Wire Q C)) : Prop :=
  ∀ b, b (.inl q) = true ∨ b (.inr (.inl q)) = true → Ψ b = 0

theorem Loc.zero {Q : Type} [DecidableEq Q] {S : Set Q} {T : Amp Q → Amp Q} (hT : Loc S T) : T 0 = 0 := by
  have := hT.smul 0 0
  simpa using this

/-- An operator not touching a wire keeps it at zero. -/
theorem Loc.keeps {Q : Type} [DecidableEq Q] {S : Set Q} {T : Amp Q → Amp Q} (hT : Loc S T) {w : Q} (hw : w ∉ S)
    {ψ : Amp Q} (h : ∀ b, b w = true → ψ b = 0) : ∀ b, b w = true → T ψ b = 0 := by
  intro b hb
  rw [hT.dep (φ := 0) (fun c hc => h c (by rw [hc w hw]; exact hb)), hT.zero]; rfl

theorem Zero.keep {S : Set (Wire Q C)} {T : Amp (Wire Q C) → Amp (Wire Q C)} (hT : Loc S T) {q : Q}
    (h1 : .inl q ∉ S) (h2 : .inr (.inl q) ∉ S) {Ψ : Amp (Wire Q C)} (h : Zero q Ψ) : Zero q (T Ψ) := by
  intro b hb
  rcases hb with hb | hb
  · exact hT.keeps h1 (fun c hc => h c (.inl hc)) b hb
  · exact hT.keeps h2 (fun c hc => h c (.inr hc)) b hb

theorem Zero.cden (I : Interp Q C K) (i : CI Q C K) {q : Q} (hq : q ∉ i.qs) {Ψ : Amp (Wire Q C)}
    (h : Zero q Ψ) : Zero q (cden I i.op i.qs i.cs Ψ) :=
  Zero.keep (cden_loc I i.op i.qs i.cs) hq hq h

omit [DecidableEq C] in
/-- Exchanging two qubits in the state zero has no effect. -/
theorem Zero.swap {a b : Q} {Ψ : Amp (Wire Q C)} (ha : Zero a Ψ) (hb : Zero b Ψ) :
    permW (Equiv.swap a b) Ψ = Ψ := by
  funext x
  simp only [permW]
  by_cases h : x (.inl a) = true ∨ x (.inr (.inl a)) = true
  · rw [ha x h]
    apply hb
    simpa [wmap] using h
  · by_cases h' : x (.inl b) = true ∨ x (.inr (.inl b)) = true
    · rw [hb x h']
      apply ha
      simpa [wmap] using h'
    · congr 1
      have h1 : x (.inl a) = x (.inl b) := by
        cases e1 : x (.inl a) <;> cases e2 : x (.inl b) <;> simp_all
      have h2 : x (.inr (.inl a)) = x (.inr (.inl b)) := by
        cases e1 : x (.inr (.inl a)) <;> cases e2 : x (.inr (.inl b)) <;> simp_all
      funext w
      match w with
      | .inl q =>
        simp only [Function.comp_apply, wmap]
        rw [Equiv.swap_apply_def]
        split
        · rename_i e; rw [e, h1]
        · split
          · rename_i e; rw [e, h1]
          · rfl
      | .inr (.inl q) =>
        simp only [Function.comp_apply, wmap]
        rw [Equiv.swap_apply_def]
        split
        · rename_i e; rw [e, h2]
        · split
          · rename_i e; rw [e, h2]
          · rfl
      | .inr (.inr c) => rfl

/-- A unitary that is the identity where `q` is zero does nothing to states with `q` zero. -/
theorem lift_zero {T : Amp Q → Amp Q} {q : Q}
    (hT : ∀ ψ : Amp Q, (∀ b, b q = true → ψ b = 0) → T ψ = ψ) {Ψ : Amp (Wire Q C)} (h : Zero q Ψ) :
    lift T Ψ = Ψ := by
  have hc : colLift T Ψ = Ψ := by
    funext b
    simp only [colLift]
    rw [hT]
    · simp only [Complex.conj_conj]
      congr 1
      funext w
      match w with
      | .inl _ => rfl
      | .inr (.inl _) => rfl
      | .inr (.inr _) => rfl
    · intro r hr
      rw [h (setCol b r) (.inr hr), map_zero]
  unfold lift
  rw [hc]
  funext b
  simp only [rowLift]
  rw [hT]
  · congr 1
    funext w
    match w with
    | .inl _ => rfl
    | .inr (.inl _) => rfl
    | .inr (.inr _) => rfl
  · intro r hr
    exact h (setRow b r) (.inl hr)

/-- A unitary that keeps `q` zero. -/
theorem lift_keeps {T : Amp Q → Amp Q} {q : Q} (h0 : T 0 = 0)
    (hT : ∀ ψ : Amp Q, (∀ b, b q = true → ψ b = 0) → ∀ b, b q = true → T ψ b = 0)
    {Ψ : Amp (Wire Q C)} (h : Zero q Ψ) : Zero q (lift T Ψ) := by
  have hc : Zero q (colLift T Ψ) := by
    intro b hb
    simp only [colLift]
    by_cases hrow : b (.inl q) = true
    · have : (fun r => (starRingEnd ℂ) (Ψ (setCol b r))) = 0 := by
        funext r
        have : Ψ (setCol b r) = 0 := h _ (.inl hrow)
        rw [this, map_zero]; rfl
      rw [this, h0]; simp
    · have hcol : b (.inr (.inl q)) = true := by tauto
      rw [hT _ (fun r hr => by
        have : Ψ (setCol b r) = 0 := h _ (.inr hr)
        rw [this, map_zero]) _ hcol, map_zero]
  intro b hb
  simp only [lift, rowLift]
  by_cases hcol : b (.inr (.inl q)) = true
  · have : (fun r => colLift T Ψ (setRow b r)) = 0 := by
      funext r
      exact hc _ (.inr hcol)
    rw [this, h0]; rfl
  · have hrow : b (.inl q) = true := by tauto
    exact hT _ (fun r hr => hc _ (.inl hr)) _ hrow

/-! ### arrange_swaps -/

/-- `pat in s` for strings. -/
def hasSub (pat s : List Char) : Bool := s.tails.any fun t => pat.isPrefixOf t

/-- arrange_swaps.py:111. -/
def isAllocName (nm : String) : Bool := hasSub "alloc".toList nm.toList

/-- arrange_swaps.py:108-128. `none`: IndexError. -/
def arrangeGo (used : List Q) : List (CI Q C K) → Option (List (CI Q C K))
  | [] => some []
  | i :: r =>
    if isAllocName i.op.name then arrangeGo used r
    else if i.op.name = "swap" then
      match i.qs with
      | a :: b :: t =>
        if b ∉ used then
          if a ∉ used then arrangeGo used r
          else (arrangeGo (used ++ (a :: b :: t).reverse) r).map (⟨i.op, (a :: b :: t).reverse, i.cs⟩ :: ·)
        else (arrangeGo (used ++ i.qs) r).map (i :: ·)
      | _ => none
    else (arrangeGo (used ++ i.qs) r).map (i :: ·)

/-- arrange_swaps.py:106-130. -/
def arrangeSwaps (data : List (CI Q C K)) : Option (List (CI Q C K)) := arrangeGo [] data

theorem arrangeGo_sound (I : Interp Q C K) (data : List (CI Q C K))
    (hal : ∀ i ∈ data, isAllocName i.op.name = true → ∀ Ψ, cden I i.op i.qs i.cs Ψ = Ψ)
    (hnd : ∀ i ∈ data, i.qs.Nodup) (hsw : ∀ i ∈ data, SwapOK I i) (used : List Q)
    (out : List (CI Q C K)) (ho : arrangeGo used data = some out) (Ψ : Amp (Wire Q C))
    (hz : ∀ q, q ∉ used → Zero q Ψ) : crun I out Ψ = crun I data Ψ := by
  induction data generalizing used out Ψ with
  | nil => simp only [arrangeGo, Option.some.injEq] at ho; subst ho; rfl
  | cons i r ih =>
    have ih' := ih (fun j hj => hal j (by simp [hj])) (fun j hj => hnd j (by simp [hj]))
      (fun j hj => hsw j (by simp [hj]))
    have fresh : ∀ u : List Q, (∀ q ∈ i.qs, q ∈ u) → (∀ q ∈ used, q ∈ u) →
        ∀ q, q ∉ u → Zero q (cden I i.op i.qs i.cs Ψ) := by
      intro u h1 h2 q hq
      exact Zero.cden I i (fun h => hq (h1 q h)) (hz q fun h => hq (h2 q h))
    rw [arrangeGo] at ho
    simp only [crun]
    split at ho
    · rename_i h
      rw [hal i (by simp) h]
      exact ih' _ _ ho _ hz
    · split at ho
      · rename_i h
        obtain ⟨a, b, hq, hden⟩ := hsw i (by simp) h
        have hab : a ≠ b := by
          have := hnd i (by simp)
          rw [hq] at this
          simpa using this
        rw [hq] at ho ⊢
        simp only at ho
        split at ho
        · rename_i hb
          split at ho
          · rename_i ha
            rw [hden a b _ _ hab, (hz a ha).swap (hz b hb)]
            exact ih' _ _ ho _ hz
          · cases hr : arrangeGo (used ++ [a, b].reverse) r with
            | none => rw [hr] at ho; cases ho
            | some o =>
              rw [hr] at ho
              simp only [Option.map_some, Option.some.injEq] at ho
              subst ho
              simp only [crun, List.reverse_cons, List.reverse_nil, List.nil_append, List.cons_append]
              have e : cden I i.op [b, a] i.cs Ψ = cden I i.op [a, b] i.cs Ψ := by
                rw [hden b a _ _ hab.symm, hden a b _ _ hab, Equiv.swap_comm]
              rw [e]
              refine ih' _ _ hr _ ?_
              have := fresh (used ++ [a, b].reverse) (by rw [hq]; simp) (fun q h => by simp [h])
              rw [hq] at this
              exact this
        · cases hr : arrangeGo (used ++ [a, b]) r with
          | none => rw [hr] at ho; cases ho
          | some o =>
            rw [hr] at ho
            simp only [Option.map_some, Option.some.injEq] at ho
            subst ho
            simp only [crun]
            rw [hq]
            refine ih' _ _ hr _ ?_
            have := fresh (used ++ [a, b]) (by rw [hq]; simp) (fun q h => by simp [h])
            rw [hq] at this
            exact this
      · cases hr : arrangeGo (used ++ i.qs) r with
        | none => rw [hr] at ho; cases ho
        | some o =>
          rw [hr] at ho
          simp only [Option.map_some, Option.some.injEq] at ho
          subst ho
          simp only [crun]
          exact ih' _ _ hr _ (fresh _ (fun q h => by simp [h]) fun q h => by simp [h])

/-! ### cancel_zero_controls -/

/-- cancel_zero_controls.py:30 `_DIAGONAL_1Q`. -/
def diagonal1q : List String := ["p", "rz", "z", "s", "t", "s_dg", "t_dg", "id", "gphase"]

/-- cancel_zero_controls.py:45-52: a control on one is fresh. -/
def ctrlFresh (st : List Bool) (qs : List Q) (fresh : Q → Bool) : Bool :=
  (qs.zip st).any fun x => fresh x.1 && x.2

/-- cancel_zero_controls.py:33-54 `_is_cancelled_by_zero`. -/
def isCancelled (op : COp K) (qs : List Q) (fresh : Q → Bool) : Bool :=
  if op.name = "cp" ∨ op.name = "cz" then qs.any fresh
  else match op with
    | .uni (.pt b st _) =>
      if b.name = "p" ∧ st.length + b.arity = 2 then qs.any fresh else ctrlFresh st qs fresh
    | .uni (.ctrl _ st) => ctrlFresh st qs fresh
    | _ => false

/-- `fresh.add` / `fresh.discard`. -/
def setFresh (fresh : Q → Bool) (qs : List Q) (v : Bool) : Q → Bool := fun q =>
  if q ∈ qs then v else fresh q

/-- cancel_zero_controls.py:122-153. -/
def cancelGo (fresh : Q → Bool) : List (CI Q C K) → List (CI Q C K)
  | [] => []
  | i :: r =>
    if i.op.name = "qb_alloc" then i :: cancelGo (setFresh fresh (i.qs.take 1) true) r
    else if i.op.name = "qb_dealloc" then i :: cancelGo (setFresh fresh (i.qs.take 1) false) r
    else if i.op.name = "barrier" then i :: cancelGo fresh r
    else if isCancelled i.op i.qs fresh then cancelGo fresh r
    else if i.qs.length = 1 ∧ i.op.name ∈ diagonal1q then i :: cancelGo fresh r
    else i :: cancelGo (setFresh fresh i.qs false) r

/-- cancel_zero_controls.py:119-155. -/
def cancelZero (qubits : List Q) (data : List (CI Q C K)) : List (CI Q C K) :=
  cancelGo (fun q => decide (q ∈ qubits)) data

/-- What the pass relies on for an instruction, apart from controlled operations. -/
structure CZOK (I : Interp Q C K) (i : CI Q C K) : Prop where
  nodup : i.qs.Nodup
  /-- cp, cz: identity if any qubit is zero -/
  phase : i.op.name = "cp" ∨ i.op.name = "cz" → ∀ q ∈ i.qs, ∀ Ψ, Zero q Ψ → cden I i.op i.qs i.cs Ψ = Ψ
  /-- phase tolerant operations are the identity if a control is not satisfied -/
  pt : ∀ b st body, i.op = .uni (.pt b st body) → ∀ q,
    ((q, true) ∈ i.qs.zip st ∨ b.name = "p" ∧ st.length + b.arity = 2 ∧ q ∈ i.qs) →
    ∀ Ψ, Zero q Ψ → cden I i.op i.qs i.cs Ψ = Ψ
  /-- the listed single qubit operations are diagonal -/
  diag : ∀ q, i.qs = [q] → i.op.name ∈ diagonal1q → ∀ Ψ, Zero q Ψ → Zero q (cden I i.op i.qs i.cs Ψ)
  barrier : i.op.name = "barrier" → ∀ Ψ, cden I i.op i.qs i.cs Ψ = Ψ
  one : i.op.name = "qb_alloc" ∨ i.op.name = "qb_dealloc" → ∃ q, i.qs = [q]

/-- Whenever a qubit is allocated, it is in the state zero. -/
def AllocZero (I : Interp Q C K) : List (CI Q C K) → Amp (Wire Q C) → Prop
  | [], _ => True
  | i :: r, Ψ => (i.op.name = "qb_alloc" → ∀ q ∈ i.qs, Zero q (cden I i.op i.qs i.cs Ψ)) ∧
      AllocZero I r (cden I i.op i.qs i.cs Ψ)

theorem ctlMatch_mem (cs : List Q) (st : List Bool) (b : Q → Bool) (q : Q) (v : Bool)
    (h : (q, v) ∈ cs.zip st) (hm : ctlMatch cs st b = true) : b q = v := by
  induction cs generalizing st with
  | nil => simp at h
  | cons c cs ih =>
    match st with
    | [] => simp at h
    | w :: st =>
      simp only [ctlMatch, Bool.and_eq_true] at hm
      rcases List.mem_cons.1 (by simpa using h : (q, v) ∈ (c, w) :: cs.zip st) with e | e
      · cases e; simpa using hm.1
      · exact ih st e hm.2

theorem zip_take (qs : List Q) (st : List Bool) : (qs.take st.length).zip st = qs.zip st := by
  induction qs generalizing st with
  | nil => simp
  | cons q qs ih =>
    match st with
    | [] => simp
    | w :: st => simp [ih]

/-- A controlled operation with a control on one that is in the state zero does nothing. -/
theorem ctrl_zero (o : Op) (st : List Bool) (qs : List Q) (hnd : qs.Nodup) (q : Q)
    (hq : (q, true) ∈ qs.zip st) (Ψ : Amp (Wire Q C)) (h : Zero q Ψ) :
    lift (den (.ctrl o st) qs) Ψ = Ψ := by
  refine lift_zero (q := q) (fun ψ hψ => ?_) h
  have hqt : q ∈ qs.take st.length := by
    rw [← zip_take] at hq
    exact (List.of_mem_zip hq).1
  have hqd : q ∉ qs.drop st.length := by
    intro hd
    have : (qs.take st.length ++ qs.drop st.length).Nodup := by rw [List.take_append_drop]; exact hnd
    exact (List.nodup_append.1 this).2.2 q hqt q hd rfl
  funext b
  simp only [den, ctl]
  split
  · rename_i hm
    have hb : b q = true := ctlMatch_mem _ _ _ _ _ (by rw [zip_take]; exact hq) hm
    rw [hψ b hb]
    exact (den_loc o (qs.drop st.length)).keeps hqd hψ b hb
  · rfl

theorem any_mem {l : List Q} {fresh : Q → Bool} (h : l.any fresh = true) : ∃ q ∈ l, fresh q = true :=
  List.any_eq_true.1 h

theorem isCancelled_sound (I : Interp Q C K) (i : CI Q C K) (hok : CZOK I i) (fresh : Q → Bool)
    (h : isCancelled i.op i.qs fresh = true) (Ψ : Amp (Wire Q C))
    (hz : ∀ q, fresh q = true → Zero q Ψ) : cden I i.op i.qs i.cs Ψ = Ψ := by
  unfold isCancelled at h
  have cf : ∀ st, ctrlFresh st i.qs fresh = true → ∃ q, (q, true) ∈ i.qs.zip st ∧ fresh q = true := by
    intro st hs
    unfold ctrlFresh at hs
    obtain ⟨⟨q, v⟩, hm, hf⟩ := List.any_eq_true.1 hs
    simp only [Bool.and_eq_true] at hf
    obtain ⟨h1, rfl⟩ := hf
    exact ⟨q, hm, h1⟩
  split at h
  · rename_i hn
    obtain ⟨q, hq, hf⟩ := any_mem h
    exact hok.phase hn q hq Ψ (hz q hf)
  · split at h
    · rename_i b st body he
      split at h
      · rename_i hb
        obtain ⟨q, hq, hf⟩ := any_mem h
        exact hok.pt b st body he q (.inr ⟨hb.1, hb.2, hq⟩) Ψ (hz q hf)
      · obtain ⟨q, hq, hf⟩ := cf st h
        exact hok.pt b st body he q (.inl hq) Ψ (hz q hf)
    · rename_i o st he
      obtain ⟨q, hq, hf⟩ := cf st h
      rw [he]
      simp only [cden]
      exact ctrl_zero o st i.qs hok.nodup q hq Ψ (hz q hf)
    · cases h

theorem cancelGo_sound (I : Interp Q C K) (data : List (CI Q C K)) (hok : ∀ i ∈ data, CZOK I i)
    (fresh : Q → Bool) (Ψ : Amp (Wire Q C)) (hz : ∀ q, fresh q = true → Zero q Ψ)
    (ha : AllocZero I data Ψ) : crun I (cancelGo fresh data) Ψ = crun I data Ψ := by
  induction data generalizing fresh Ψ with
  | nil => rfl
  | cons i r ih =>
    have oki := hok i (by simp)
    have ih' := ih fun j hj => hok j (by simp [hj])
    have keep : ∀ q, q ∉ i.qs → fresh q = true → Zero q (cden I i.op i.qs i.cs Ψ) :=
      fun q hq hf => Zero.cden I i hq (hz q hf)
    rw [cancelGo]
    split
    · rename_i hn
      obtain ⟨p, hp⟩ := oki.one (.inl hn)
      simp only [crun]
      refine ih' _ _ (fun q hq => ?_) ha.2
      rw [hp] at hq
      simp only [setFresh, List.take_succ_cons, List.take_zero, List.mem_singleton] at hq
      split at hq
      · rename_i e; exact ha.1 hn q (by rw [hp, e]; simp)
      · rename_i e; exact keep q (by rw [hp]; simpa using e) hq
    · split
      · rename_i hn
        obtain ⟨p, hp⟩ := oki.one (.inr hn)
        simp only [crun]
        refine ih' _ _ (fun q hq => ?_) ha.2
        rw [hp] at hq
        simp only [setFresh, List.take_succ_cons, List.take_zero, List.mem_singleton] at hq
        split at hq
        · cases hq
        · rename_i e; exact keep q (by rw [hp]; simpa using e) hq
      · split
        · rename_i hn
          simp only [crun]
          refine ih' _ _ (fun q hq => ?_) ha.2
          rw [oki.barrier hn]; exact hz q hq
        · split
          · rename_i hc
            simp only [crun]
            have e := isCancelled_sound I i oki fresh hc Ψ hz
            have ha2 := ha.2
            rw [e] at ha2 ⊢
            exact ih' _ _ hz ha2
          · split
            · rename_i hd
              simp only [crun]
              refine ih' _ _ (fun q hq => ?_) ha.2
              obtain ⟨p, hp⟩ := List.length_eq_one_iff.1 hd.1
              by_cases e : q = p
              · subst e
                exact oki.diag q hp hd.2 Ψ (hz q hq)
              · exact keep q (by rw [hp]; simpa using e) hq
            · simp only [crun]
              refine ih' _ _ (fun q hq => ?_) ha.2
              simp only [setFresh] at hq
              split at hq
              · cases hq
              · rename_i e; exact keep q e hq

theorem cancelGo_sublist (fresh : Q → Bool) (data : List (CI Q C K)) :
    (cancelGo fresh data).Sublist data := by
  induction data generalizing fresh with
  | nil => exact List.Sublist.slnil
  | cons i r ih =>
    rw [cancelGo]
    split
    · exact (ih _).cons₂ i
    · split
      · exact (ih _).cons₂ i
      · split
        · exact (ih _).cons₂ i
        · split
          · exact (ih _).cons i
          · split
            · exact (ih _).cons₂ i
            · exact (ih _).cons₂ i

end Verif.Circ
