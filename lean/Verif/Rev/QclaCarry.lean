import Verif.Rev.QclaTree

/-! # The carry computation of the carry-lookahead adder -/

namespace Verif.Rev.Qcla

open Verif.Rev

variable {Q : Type} [DecidableEq Q]

/-! ### Skipping gates with a fresh control -/

theorem tgt_mem (g : Gate Q) : g.tgt ∈ qubits g := by cases g <;> simp [Gate.tgt, qubits]

theorem fresh_run {al : Q → Bool} {h : List (Gate Q)} {q : Q} (hf : fresh al h q = true) (s : St Q) (hz : ∀ q, al q → s q = false) :
    run h s q = false := by
  rw [fresh, Bool.and_eq_true, List.all_eq_true] at hf
  rw [run_frame h s q, hz q hf.1]
  rintro g hg rfl
  have := hf.2 g hg
  simp [tgt_mem] at this

/-- Gates with positive controls. -/
def Pos (g : Gate Q) : Prop := ∃ cs t, g = .mcx (pos cs) t

theorem run_addFresh {al : Q → Bool} (h : List (Gate Q)) {g : Gate Q} (hg : Pos g) (s : St Q) (hz : ∀ q, al q → s q = false) :
    run (addFresh al h g) s = g.app (run h s) := by
  obtain ⟨cs, t, rfl⟩ := hg
  rw [addFresh]
  split
  · next hc =>
    obtain ⟨c, hc, hf⟩ := List.any_eq_true.1 hc
    obtain ⟨q, hq, rfl⟩ := List.mem_map.1 hc
    have : fire (pos cs) (run h s) = false := by
      rw [fire_pos]
      by_contra hn
      rw [Bool.not_eq_false, List.all_eq_true] at hn
      have := hn q hq
      rw [fresh_run hf s hz] at this
      exact absurd this (by decide)
    funext x
    rw [Gate.app, this, Bool.xor_false, upd_apply]
    split
    · next h => rw [h]
    · rfl
  · rw [run_append]; rfl

theorem run_emit {al : Q → Bool} (gs h : List (Gate Q)) (hp : ∀ g ∈ gs, Pos g) (s : St Q) (hz : ∀ q, al q → s q = false) :
    run (emit al h gs) s = run gs (run h s) := by
  induction gs generalizing h with
  | nil => rfl
  | cons g gs ih =>
    rw [emit, List.foldl_cons]
    have := ih (addFresh al h g) fun g hg => hp g (List.mem_cons_of_mem _ hg)
    rw [emit] at this
    rw [this, run_addFresh h (hp g List.mem_cons_self) s hz, run_cons]

theorem emit_eq (al : Q → Bool) (gs h : List (Gate Q)) : ∃ L, emit al h gs = h ++ L ∧ ∀ g ∈ L, g ∈ gs := by
  induction gs generalizing h with
  | nil => exact ⟨[], by simp [emit], by simp⟩
  | cons g gs ih =>
    obtain ⟨L, hL, hs⟩ := ih (addFresh al h g)
    rw [emit] at hL
    have : ∃ L0, addFresh al h g = h ++ L0 ∧ ∀ x ∈ L0, x = g := by
      cases g with
      | mcx cs t =>
        rw [addFresh]; split
        · exact ⟨[], by simp, by simp⟩
        · exact ⟨[_], rfl, by simp⟩
      | land x y t => exact ⟨[_], rfl, by simp⟩
      | landInv x y t => exact ⟨[_], rfl, by simp⟩
    obtain ⟨L0, h0, h1⟩ := this
    refine ⟨L0 ++ L, ?_, fun x hx => ?_⟩
    · rw [emit, List.foldl_cons, hL, h0, List.append_assoc]
    · rcases List.mem_append.1 hx with hx | hx
      · rw [h1 x hx]; exact List.mem_cons_self
      · exact List.mem_cons_of_mem _ (hs x hx)

/-! ### Uncomputation -/

/-- The gates on `D` read only `D` and qubits that no later gate changes. -/
def Unc (D : Q → Bool) : List (Gate Q) → Prop
  | [] => True
  | g :: L => (D g.tgt = true → ∃ cs t, g = .mcx cs t ∧ ∀ c ∈ cs, c.1 ≠ t ∧ (D c.1 = true ∨ ∀ g' ∈ L, g'.tgt ≠ c.1)) ∧ Unc D L

theorem Unc_append {D : Q → Bool} (A B : List (Gate Q)) (hA : Unc D A) (hB : Unc D B)
    (h : ∀ g ∈ A, D g.tgt = true → ∀ cs t, g = .mcx cs t → ∀ c ∈ cs, D c.1 = true ∨ ∀ g' ∈ B, g'.tgt ≠ c.1) : Unc D (A ++ B) := by
  induction A with
  | nil => exact hB
  | cons g A ih =>
    refine ⟨fun hd => ?_, ih hA.2 fun g hg => h g (List.mem_cons_of_mem _ hg)⟩
    obtain ⟨cs, t, rfl, hc⟩ := hA.1 hd
    refine ⟨cs, t, rfl, fun c hcc => ⟨(hc c hcc).1, ?_⟩⟩
    rcases (hc c hcc).2 with h1 | h1
    · exact .inl h1
    rcases h _ List.mem_cons_self hd cs t rfl c hcc with h2 | h2
    · exact .inl h2
    refine .inr fun g' hg' => ?_
    rcases List.mem_append.1 hg' with h3 | h3
    · exact h1 g' h3
    · exact h2 g' h3

theorem fire_congr {cs : List (Q × Bool)} {s t : St Q} (h : ∀ c ∈ cs, s c.1 = t c.1) : fire cs s = fire cs t := by
  induction cs with
  | nil => rfl
  | cons c cs ih =>
    simp only [fire, List.all_cons] at ih ⊢
    rw [h c List.mem_cons_self, ih fun c hc => h c (List.mem_cons_of_mem _ hc)]

theorem run_uncompute {D : Q → Bool} (L : List (Gate Q)) (h : Unc D L) (s : St Q) :
    (∀ q, D q = true → run (uncompute D L) (run L s) q = s q) ∧
      ∀ q, D q = false → run (uncompute D L) (run L s) q = run L s q := by
  induction L generalizing s with
  | nil => exact ⟨fun q _ => rfl, fun q _ => rfl⟩
  | cons g L ih =>
    obtain ⟨i1, i2⟩ := ih h.2 (g.app s)
    rw [uncompute] at i1 i2
    rw [run_cons, uncompute, List.filter_cons]
    by_cases hd : D g.tgt = true
    · rw [if_pos hd, List.reverse_cons, run_append]
      obtain ⟨cs, t, rfl, hc⟩ := h.1 hd
      set u := run ((L.filter fun g => D g.tgt).reverse) (run L ((Gate.mcx cs t).app s)) with hu
      have hf : fire cs u = fire cs s := fire_congr fun c hcc => by
        obtain ⟨h1, h2⟩ := hc c hcc
        have e : (Gate.mcx cs t).app s c.1 = s c.1 := by rw [Gate.app, upd_ne h1]
        cases hD : D c.1 with
        | true => rw [i1 _ hD, e]
        | false =>
          rw [i2 _ hD, run_frame L _ _ fun g' hg' => ?_, e]
          rcases h2 with h2 | h2
          · rw [hD] at h2; cases h2
          · exact (h2 g' hg').symm
      have hd' : D t = true := hd
      refine ⟨fun q hq => ?_, fun q hq => ?_⟩
      · rw [run_cons, run_nil, Gate.app, upd_apply]
        split
        · next h =>
          subst h
          rw [hf, i1 q hq, Gate.app, upd_same, Bool.xor_assoc, Bool.xor_self, Bool.xor_false]
        · next h => rw [i1 q hq, Gate.app, upd_ne h]
      · have hne : q ≠ t := by rintro rfl; rw [hd'] at hq; cases hq
        rw [run_cons, run_nil, Gate.app, upd_ne hne, i2 q hq]
    · rw [if_neg (by simpa using hd)]
      refine ⟨fun q hq => ?_, i2⟩
      have hne : q ≠ g.tgt := by rintro rfl; exact hd hq
      rw [i1 q hq, app_frame g s q hne]

/-! ### The gates of the tree -/

/-- Propagate qubits of a layer. -/
def Pw (l : Nat) : Nat → W := if l = 0 then W.b else W.p l

/-- Generate qubits of a layer. -/
def Gw (r l : Nat) : Nat → W := fun i => .g ((i + 1) * r ^ l - 1)

/-- The targets of the tree. -/
def Tgt (t : W) : Prop := (∃ i, t = .g i) ∨ ∃ l i, t = .p l i

/-- What the uncomputation needs of a gate. -/
def Clean (R : Nat) (x : Gate W) : Prop :=
  ∃ cs t, x = .mcx (pos cs) t ∧ Tgt t ∧ (garbage R t = true → ∀ c ∈ cs, c ≠ t ∧ (garbage R c = true ∨ ∃ i, c = .b i))

theorem Pw_ok (R l i : Nat) : garbage R (Pw l i) = true ∨ ∃ j, Pw l i = .b j := by
  rw [Pw]; split
  · exact .inr ⟨i, rfl⟩
  · exact .inl rfl

theorem Pw_ne_g (l i j : Nat) : Pw l i ≠ .g j := by rw [Pw]; split <;> simp

theorem Pw_ne_p (l i j : Nat) : Pw l i ≠ .p (l + 1) j := by rw [Pw]; split <;> simp

theorem tree_clean (r e : Nat) (hr : 2 ≤ r) : ∀ (f l n : Nat), ∀ x ∈ tree W.p r f (e - l) l (Pw l) (Gw r l) n, Clean (r ^ e) x := by
  intro f
  induction f with
  | zero => intro l n x hx; simp [tree] at hx
  | succ f ih =>
    intro l n x hx
    rw [tree] at hx
    split at hx
    · simp at hx
    have hpos : ∀ l, 0 < r ^ l := fun l => Nat.pow_pos (by omega)
    have ng : e ≤ l → ∀ i, garbage (r ^ e) (Gw r l i) = false := by
      intro hl i
      rw [Gw, garbage]
      have e1 : (i + 1) * r ^ l - 1 + 1 = (i + 1) * r ^ l := by
        have := Nat.mul_pos (Nat.succ_pos i) (hpos l)
        simp only [Nat.succ_eq_add_one] at this; omega
      rw [e1]
      have : (i + 1) * r ^ l % r ^ e = 0 := Nat.mod_eq_zero_of_dvd (dvd_mul_of_dvd_right (pow_dvd_pow r hl) _)
      simp [this]
    have eG : (fun i => Gw r l (r * i + r - 1)) = Gw r (l + 1) := by
      funext i
      rw [Gw, Gw]
      have e1 : r * i + r - 1 + 1 = (i + 1) * r := by rw [Nat.mul_comm, Nat.add_mul]; omega
      rw [e1, Nat.pow_succ', Nat.mul_assoc]
    rw [eG, show (W.p (l + 1)) = Pw (l + 1) by simp [Pw], show e - l - 1 = e - (l + 1) by omega] at hx
    rcases List.mem_append.1 hx with hx | hx
    · rcases List.mem_append.1 hx with hx | hx
      · obtain ⟨i, hi, hx⟩ := List.mem_flatMap.1 hx
        rcases List.mem_append.1 hx with hx | hx
        · split at hx
          · simp at hx
          rw [calcP, List.mem_singleton] at hx
          refine ⟨_, _, hx, .inr ⟨l + 1, i, by simp [Pw]⟩, fun _ c hc => ?_⟩
          obtain ⟨j, _, _, rfl⟩ := mem_idx.1 hc
          refine ⟨?_, Pw_ok _ _ _⟩
          rw [show Pw (l + 1) i = W.p (l + 1) i by simp [Pw]]; exact Pw_ne_p _ _ _
        · rw [calcG] at hx
          obtain ⟨j, hj, rfl⟩ := List.mem_map.1 hx
          rw [List.mem_range] at hj
          refine ⟨_, _, rfl, .inl ⟨_, rfl⟩, fun hg c hc => ?_⟩
          have hel : l < e := by
            by_contra h
            rw [ng (by omega)] at hg; cases hg
          have hrm : r * (i + 1) = r * i + r := by ring
          rcases List.mem_cons.1 hc with rfl | hc
          · constructor
            · rw [Gw, Gw]
              intro h
              injection h with h
              have h1 := Nat.mul_pos (Nat.succ_pos (r * i + j)) (hpos l)
              have h2 := Nat.mul_pos (Nat.succ_pos (r * (i + 1) - 1)) (hpos l)
              simp only [Nat.succ_eq_add_one] at h1 h2
              have h3 : (r * i + j + 1) * r ^ l = (r * (i + 1) - 1 + 1) * r ^ l := by omega
              have := Nat.eq_of_mul_eq_mul_right (hpos l) h3
              omega
            · left
              rw [Gw, garbage]
              have h1 := Nat.mul_pos (Nat.succ_pos (r * i + j)) (hpos l)
              simp only [Nat.succ_eq_add_one] at h1
              have e1 : (r * i + j + 1) * r ^ l - 1 + 1 = (r * i + j + 1) * r ^ l := by omega
              rw [e1, decide_eq_true_eq]
              intro h0
              have hd := Nat.dvd_of_mod_eq_zero h0
              have hd2 : r * r ^ l ∣ (r * i + j + 1) * r ^ l := by
                refine dvd_trans ?_ hd
                rw [← Nat.pow_succ']
                exact pow_dvd_pow r (by omega)
              have hd3 := Nat.dvd_of_mul_dvd_mul_right (hpos l) hd2
              have hd4 : r ∣ j + 1 := (Nat.dvd_add_right (Dvd.intro i rfl)).1 (by rw [← Nat.add_assoc]; exact hd3)
              have := Nat.le_of_dvd (by omega) hd4
              omega
          · obtain ⟨y, _, _, rfl⟩ := mem_idx.1 hc
            exact ⟨Pw_ne_g _ _ _, Pw_ok _ _ _⟩
      · exact ih (l + 1) _ x hx
    · split at hx
      · simp at hx
      next hk =>
      have hp : ∀ lo hi, x ∈ propagate (Pw l) (Gw r l) lo hi → Clean (r ^ e) x := by
        intro lo hi hx
        rw [propagate] at hx
        obtain ⟨i, _, hx⟩ := List.mem_flatMap.1 hx
        obtain ⟨j, _, rfl⟩ := List.mem_map.1 hx
        refine ⟨_, _, rfl, .inl ⟨_, rfl⟩, fun hg => ?_⟩
        rw [ng (by omega)] at hg; cases hg
      rcases List.mem_append.1 hx with hx | hx
      · exact hp _ _ hx
      · obtain ⟨i, _, hx⟩ := List.mem_flatMap.1 hx
        exact hp _ _ hx

/-- The tree and the uncomputation of its garbage. -/
theorem run_treeAndBack (r e n : Nat) (hr : 2 ≤ r) (h : List (Gate W)) (s : St W) (hu : Unc (garbage (r ^ e)) h)
    (hc : ∀ g ∈ h, garbage (r ^ e) g.tgt = true → ∀ cs t, g = .mcx cs t → ∀ c ∈ cs, garbage (r ^ e) c.1 = true ∨ ¬Tgt c.1)
    (hp : ∀ g ∈ h, ∀ l i, g.tgt ≠ .p l i) (hz : ∀ q, local_ q = true → s q = false) :
    let s' := run (treeAndBack r e n h) s
    (∀ i < n, (i + 1) % r ^ e = 0 → s' (.g i) = car W.b W.g (run h s) 0 i) ∧
    (∀ q, garbage (r ^ e) q = true → s' q = s q) ∧
    ∀ q, garbage (r ^ e) q = false → (∀ i < n, q ≠ .g i) → s' q = run h s q := by
  intro s'
  set T := tree W.p r (n + 1) e 0 W.b W.g n with hT
  have eT : T = tree W.p r (n + 1) (e - 0) 0 (Pw 0) (Gw r 0) n := by
    rw [hT]
    have : Gw r 0 = W.g := by funext i; simp [Gw]
    rw [this]; simp [Pw]
  have hcl : ∀ x ∈ T, Clean (r ^ e) x := by rw [eT]; exact tree_clean r e hr _ _ _
  obtain ⟨L, hL, hs⟩ := emit_eq local_ T h
  have hrun : run (h ++ L) s = run T (run h s) := by
    rw [← hL]
    exact run_emit T h (fun g hg => by obtain ⟨cs, t, h1, _⟩ := hcl g hg; exact ⟨cs, t, h1⟩) s hz
  have hUL : Unc (garbage (r ^ e)) L := by
    have : ∀ M : List (Gate W), (∀ g ∈ M, Clean (r ^ e) g) → Unc (garbage (r ^ e)) M := by
      intro M
      induction M with
      | nil => intro _; trivial
      | cons g M ih =>
        intro hM
        refine ⟨fun hd => ?_, ih fun g hg => hM g (List.mem_cons_of_mem _ hg)⟩
        obtain ⟨cs, t, rfl, ht, hcs⟩ := hM g List.mem_cons_self
        refine ⟨_, t, rfl, fun c hc => ?_⟩
        obtain ⟨q, hq, rfl⟩ := List.mem_map.1 hc
        obtain ⟨h1, h2⟩ := hcs hd q hq
        refine ⟨h1, h2.imp id ?_⟩
        rintro ⟨i, rfl⟩ g' hg' h
        obtain ⟨cs', t', rfl, ht', _⟩ := hM g' (List.mem_cons_of_mem _ hg')
        rcases ht' with ⟨j, rfl⟩ | ⟨a, b, rfl⟩ <;> simp [Gate.tgt] at h
    exact this L fun g hg => hcl g (hs g hg)
  have hU : Unc (garbage (r ^ e)) (h ++ L) := Unc_append h L hu hUL fun g hg hd cs t hgt c hcc => by
    refine (hc g hg hd cs t hgt c hcc).imp id fun hnt g' hg' h => hnt ?_
    obtain ⟨cs', t', rfl, ht', _⟩ := hcl g' (hs g' hg')
    simp only [Gate.tgt] at h
    rw [← h]; exact ht'
  obtain ⟨u1, u2⟩ := run_uncompute (h ++ L) hU s
  have es : s' = run (uncompute (garbage (r ^ e)) (h ++ L)) (run (h ++ L) s) := by
    simp only [s', treeAndBack]
    rw [hL, run_append]
  rw [hrun] at u2
  obtain ⟨t1, t2⟩ := run_tree W.p r hr (fun a i b j h => by injection h with h1 h2; exact ⟨h1, h2⟩) (n + 1) e 0 W.b W.g n (run h s)
    (by omega) (fun i j _ _ h => by injection h) (fun i j _ _ => by simp) (fun l' _ i j _ => by simp) (fun l' _ i j _ _ => by simp)
    (fun l' _ i => by rw [run_frame h s _ fun g hg => (hp g hg l' i).symm]; exact hz _ rfl)
  rw [es]
  refine ⟨fun i hi hd => ?_, u1, fun q hq hg => ?_⟩
  · rw [hrun, u2 _ (by simp [garbage, hd]), ← hT] at *
    exact t1 i hi hd
  · rw [hrun, u2 q hq]
    refine t2 q hg fun l' _ i => ?_
    rintro rfl
    simp [garbage] at hq

end Verif.Rev.Qcla
