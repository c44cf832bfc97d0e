import Verif.Rev.QclaSum

/-! # The carry-lookahead adders as a whole -/

namespace Verif.Rev.Qcla

open Verif.Rev

theorem desc {blk : Nat → List (Gate W)} {P : Nat → St W → Prop}
    (h : ∀ n u, P (n + 1) u → P n (run (blk n) u) ∧ ok (blk n) u) (n : Nat) (u : St W) (hn : P n u) :
    P 0 (run ((List.range n).reverse.flatMap blk) u) ∧ ok ((List.range n).reverse.flatMap blk) u := by
  induction n generalizing u with
  | zero => exact ⟨hn, trivial⟩
  | succ n ih =>
    rw [List.range_succ, List.reverse_append, List.reverse_singleton, List.singleton_append, List.flatMap_cons, run_append, ok_append]
    have := h n u hn
    exact ⟨(ih _ this.1).1, this.2, (ih _ this.1).2⟩

theorem Done_init {nb C R n : Nat} {x : Nat → Bool} {s0 s1 : St W} (hn : C < n) : Done nb C R x s0 s1 n s1 :=
  ⟨fun j h1 h2 => by omega, fun j h1 h2 => by omega, fun _ _ _ => rfl⟩

theorem Done_skip {nb C R n : Nat} {x : Nat → Bool} {s0 s1 u : St W} (hC2 : nb ≤ (C + 1) * R) (hn : C < n)
    (hd : Done nb C R x s0 s1 (n + 1) u) : Done nb C R x s0 s1 n u :=
  ⟨fun j h1 h2 => by omega, fun j h1 h2 => by omega, fun q h1 h2 => hd.rest q
    (fun i h3 => h1 i (by rw [Nat.mul_add] at h3; omega)) fun j h3 => h2 j (by omega)⟩

theorem ceilDiv_spec {n R : Nat} (hR : 0 < R) (i : Nat) : i < ceilDiv n R ↔ R * i < n := by
  rw [ceilDiv]
  constructor
  · intro h
    have := (Nat.le_div_iff_mul_le hR).1 (show i + 1 ≤ (n + R - 1) / R from h)
    rw [Nat.add_mul, Nat.mul_comm] at this; omega
  · intro h
    refine (Nat.le_div_iff_mul_le hR).2 ?_
    rw [Nat.succ_mul, Nat.mul_comm i]; omega

/-- The wires that are zero before the adder. -/
def zero : W → Bool
  | .a _ => false
  | .b _ => false
  | .ctl => false
  | _ => true

theorem qqSumDirect_spec {na nb R : Nat} (hR : 0 < R) (hna : 0 < na) (hab : na ≤ nb) {s0 s1 : St W}
    (hz : ∀ q, zero q = true → s0 q = false) (h : CarryRes (nc nb R) R (abits na s0) s0 s1) :
    Done nb (nc nb R) R (abits na s0) s0 s1 0 (run (qqSumDirect na nb R) s1) ∧ ok (qqSumDirect na nb R) s1 := by
  obtain ⟨hC1, hC2⟩ := nc_spec hR (show 0 < nb by omega)
  set C := nc nb R with hC
  have hw : ∀ {n u q}, Done nb C R (abits na s0) s0 s1 n u → (∀ i, q ≠ .b i) → (∀ i, q ≠ .g i) → u q = s0 q := by
    intro n u q hd h1 h2
    rw [hd.rest q (fun i _ _ => h1 i) (fun j _ _ => h2 _), h.rest q fun j _ => h2 _]
  have hcd : ∀ i, ceilDiv na R ≤ i ↔ na ≤ R * i := fun i => by
    have := ceilDiv_spec (n := na) hR i; omega
  have hcn : ceilDiv na R ≤ C + 1 := by rw [hcd, Nat.mul_comm]; omega
  have hbl : ∀ i, blen nb R i = 0 ↔ C < i := fun i => by
    rw [blen, Nat.mul_add]
    constructor
    · intro h0
      by_contra hc
      have := Nat.mul_le_mul_left R (show i ≤ C by omega)
      rw [Nat.mul_comm R C] at this
      omega
    · intro h0
      have := Nat.mul_le_mul_left R (show C + 1 ≤ i by omega)
      rw [Nat.mul_comm R (C + 1)] at this
      omega
  -- the blocks without a part of `a`
  have inc : ∀ n u, Done nb C R (abits na s0) s0 s1 (ceilDiv na R + (n + 1)) u →
      Done nb C R (abits na s0) s0 s1 (ceilDiv na R + n) (run (incBlock nb C R (ceilDiv na R + n)) u) ∧
        ok (incBlock nb C R (ceilDiv na R + n)) u := by
    intro n u hd
    rw [incBlock]
    split
    · rename_i h0
      exact ⟨Done_skip hC2 ((hbl _).1 h0) hd, trivial⟩
    · rename_i h0
      have hle : ceilDiv na R + n ≤ C := by have := (hbl (ceilDiv na R + n)).2; omega
      have h1 : 0 < ceilDiv na R := (ceilDiv_spec hR 0).2 (by omega)
      have := linIncr_step (x := abits na s0) (C := C) hR (show ceilDiv na R + n ≠ 0 by omega) h0 u (by
        refine nv_zero fun i _ => ?_
        have := (hcd (ceilDiv na R + n)).1 (by omega)
        have : ¬ R * (ceilDiv na R + n) + i < na := by omega
        simp [abits, this]) (fun i => by rw [hw hd (by simp) (by simp)]; exact hz _ rfl)
      exact ⟨Done_step hR hC1 h hle hd this.1, this.2⟩
  have add : ∀ n u, Done nb C R (abits na s0) s0 s1 (min (n + 1) (ceilDiv na R)) u →
      Done nb C R (abits na s0) s0 s1 (min n (ceilDiv na R)) (run (addBlock na nb C R n) u) ∧ ok (addBlock na nb C R n) u := by
    intro n u hd
    by_cases h0 : blen na R n = 0
    · have h1 : ceilDiv na R ≤ n := by rw [hcd]; rw [blen, Nat.mul_add] at h0; omega
      rw [addBlock, if_pos h0]
      rw [Nat.min_eq_right (by omega)] at hd
      rw [Nat.min_eq_right h1]
      exact ⟨hd, trivial⟩
    · have h1 : n < ceilDiv na R := by rw [ceilDiv_spec hR]; rw [blen] at h0; omega
      rw [Nat.min_eq_left (by omega)] at hd
      rw [Nat.min_eq_left (by omega)]
      have e : abits na u = abits na s0 := by
        funext i; rw [abits, abits, hw hd (by simp) (by simp)]
      have := addBlock_step (C := C) hR hab h0 u (fun i => by rw [hw hd (by simp) (by simp)]; exact hz _ rfl)
        (fun i => by rw [hw hd (by simp) (by simp)]; exact hz _ rfl)
      rw [e] at this
      exact ⟨Done_step hR hC1 h (by omega) hd this.1, this.2⟩
  have first : Done nb C R (abits na s0) s0 s1 (ceilDiv na R) (run (if na ≠ nb then
      ((List.range (nb / R + 2 - ceilDiv na R)).reverse).flatMap fun j => incBlock nb C R (ceilDiv na R + j) else []) s1) ∧
      ok (if na ≠ nb then
        ((List.range (nb / R + 2 - ceilDiv na R)).reverse).flatMap fun j => incBlock nb C R (ceilDiv na R + j) else []) s1 := by
    split
    · refine desc (P := fun n u => Done nb C R (abits na s0) s0 s1 (ceilDiv na R + n) u) inc _ _ (Done_init ?_)
      have : C ≤ nb / R := (Nat.le_div_iff_mul_le hR).2 (by omega)
      omega
    · rename_i h0
      refine ⟨Done_init ?_, trivial⟩
      have h0 : na = nb := by omega
      rw [h0, ceilDiv_spec hR, Nat.mul_comm]; omega
  have second := desc (P := fun n u => Done nb C R (abits na s0) s0 s1 (min n (ceilDiv na R)) u) add (na / R + 1) _ (by
    have : ceilDiv na R ≤ na / R + 1 := by
      rw [hcd, Nat.mul_add, Nat.mul_one]
      have := Nat.div_add_mod na R
      have := Nat.mod_lt na hR
      omega
    show Done nb C R (abits na s0) s0 s1 (min (na / R + 1) (ceilDiv na R)) _
    rw [Nat.min_eq_right this]
    exact first.1)
  rw [qqSumDirect]
  simp only [← hC]
  rw [run_append, ok_append]
  exact ⟨by simpa using second.1, first.2, second.2⟩

/-- The loop of the classical-quantum sum path. -/
theorem cqLoop {ctrl : Bool} {x : Nat → Bool} {nb R : Nat} (hR : 0 < R) (hb : 0 < nb) {s0 : St W} {k : List (Gate W)}
    (hz : ∀ q, zero q = true → s0 q = false)
    (h : CarryRes (nc nb R) R (fun i => onBit ctrl s0 && x i) s0 (run k s0)) (n : Nat) (hn : n ≤ nc nb R + 1) :
    ∀ g : List (Gate W), ok g s0 → Done nb (nc nb R) R (fun i => onBit ctrl s0 && x i) s0 (run k s0) n (run g s0) →
      Done nb (nc nb R) R (fun i => onBit ctrl s0 && x i) s0 (run k s0) 0
        (run ((List.range n).reverse.foldl (cqBlock ctrl x nb (nc nb R) R) g) s0) ∧
        ok ((List.range n).reverse.foldl (cqBlock ctrl x nb (nc nb R) R) g) s0 := by
  obtain ⟨hC1, hC2⟩ := nc_spec hR hb
  set C := nc nb R with hC
  induction n with
  | zero => intro g hg hd; exact ⟨hd, hg⟩
  | succ n ih =>
    intro g hg hd
    rw [List.range_succ, List.reverse_append, List.reverse_singleton, List.singleton_append, List.foldl_cons]
    have hw : ∀ q, (∀ i, q ≠ .b i) → (∀ i, q ≠ .g i) → run g s0 q = s0 q := by
      intro q h1 h2
      rw [hd.rest q (fun i _ _ => h1 i) (fun j _ _ => h2 _), h.rest q fun j _ => h2 _]
    have ho : onBit ctrl (run g s0) = onBit ctrl s0 := by rw [onBit, onBit, hw .ctl (by simp) (by simp)]
    have hci : optBit (cIn R n) (run g s0) = optBit (cIn R n) (run k s0) := by
      rw [cIn]
      split
      · rfl
      · rw [optBit_some, optBit_some]
        refine hd.rest _ (fun i _ _ => by simp [cw]) fun j h1 h2 h => ?_
        have := cw_inj hR h
        omega
    have := cqBlock_step (nb := nb) (C := C) (j := n) (x := x) (ctrl := ctrl) (h := g) (s0 := s0) hR (by
      have := Nat.mul_le_mul_left R (show n ≤ C by omega)
      rw [Nat.mul_comm R C] at this
      rw [blen, Nat.mul_add]; omega) (fun q hq => hz q (by cases q <;> simp_all [local_, zero])) (by
        intro h0
        rw [ho] at h0
        rw [hci]
        have hv := cin_val h (show n ≤ C by omega)
        rw [nv_zero (f := fun i => onBit ctrl s0 && x i) (by simp [h0]), Nat.zero_add, Nat.div_eq_of_lt (nv_lt _ _)] at hv
        simpa using hv) (fun i => by rw [hw _ (by simp) (by simp)]; exact hz _ rfl) hg
    rw [ho] at this
    exact ih (by omega) _ this.2 (Done_step hR hC1 h (by omega) hd this.1)

/-! ### Reversal -/

/-- A multi-controlled X gate whose target is none of its controls. -/
def Proper (g : Gate W) : Prop := ∃ cs t, g = .mcx cs t ∧ ∀ c ∈ cs, c.1 ≠ t

theorem Proper_pos {cs : List W} {t : W} (h : ∀ c ∈ cs, c ≠ t) : Proper (.mcx (pos cs) t) :=
  ⟨_, t, rfl, fun c hc => by obtain ⟨q, hq, rfl⟩ := List.mem_map.1 hc; exact h q hq⟩

theorem app_app {g : Gate W} (h : Proper g) (s : St W) : g.app (g.app s) = s := by
  obtain ⟨cs, t, rfl, hc⟩ := h
  funext q
  have hf : fire cs (upd s t (s t ^^ fire cs s)) = fire cs s := by
    unfold fire
    generalize (s t ^^ cs.all fun c => s c.1 == c.2) = v
    rw [Bool.eq_iff_iff, List.all_eq_true, List.all_eq_true]
    constructor
    · intro h c hcc
      have := h c hcc
      rwa [upd_ne (hc c hcc)] at this
    · intro h c hcc
      rw [upd_ne (hc c hcc)]
      exact h c hcc
  rw [Gate.app, Gate.app, hf]
  by_cases hq : q = t
  · subst hq; simp
  · rw [upd_ne hq, upd_ne hq]

theorem run_reverse {L : List (Gate W)} (h : ∀ g ∈ L, Proper g) (s : St W) : run L.reverse (run L s) = s := by
  induction L generalizing s with
  | nil => rfl
  | cons g L ih =>
    rw [List.reverse_cons, run_append, run_cons g L, ih fun g hg => h g (List.mem_cons_of_mem _ hg), run_cons, run_nil,
      app_app (h g List.mem_cons_self)]

theorem tree_proper (r : Nat) (hr : 2 ≤ r) : ∀ (f k l : Nat) (P G : Nat → W) (n : Nat), (∀ i j, G i = G j → i = j) →
    (∀ i j, P i ≠ G j) → (∀ i l' j, l < l' → P i ≠ .p l' j) → (∀ i, ∃ j, G i = .g j) →
    ∀ x ∈ tree W.p r f k l P G n, Proper x := by
  intro f
  induction f with
  | zero => intro k l P G n _ _ _ _ x hx; simp [tree] at hx
  | succ f ih =>
    intro k l P G n hG hP hp hg x hx
    rw [tree] at hx
    split at hx
    · simp at hx
    have hpr : ∀ lo hi, x ∈ propagate P G lo hi → Proper x := by
      intro lo hi hx
      rw [propagate] at hx
      obtain ⟨i, _, hx⟩ := List.mem_flatMap.1 hx
      obtain ⟨j, hj, rfl⟩ := List.mem_map.1 hx
      rw [List.mem_range] at hj
      refine Proper_pos fun c hc => ?_
      rcases List.mem_cons.1 hc with rfl | hc
      · intro h; have := hG _ _ h; omega
      · obtain ⟨y, _, _, rfl⟩ := mem_idx.1 hc; exact hP _ _
    rcases List.mem_append.1 hx with hx | hx
    · rcases List.mem_append.1 hx with hx | hx
      · obtain ⟨i, hi, hx⟩ := List.mem_flatMap.1 hx
        rcases List.mem_append.1 hx with hx | hx
        · split at hx
          · simp at hx
          rw [calcP, List.mem_singleton] at hx
          subst hx
          refine Proper_pos fun c hc => ?_
          obtain ⟨y, _, _, rfl⟩ := mem_idx.1 hc
          exact hp _ _ _ (by omega)
        · rw [calcG] at hx
          obtain ⟨j, hj, rfl⟩ := List.mem_map.1 hx
          rw [List.mem_range] at hj
          refine Proper_pos fun c hc => ?_
          rcases List.mem_cons.1 hc with rfl | hc
          · intro h; have := hG _ _ h; omega
          · obtain ⟨y, _, _, rfl⟩ := mem_idx.1 hc; exact hP _ _
      · refine ih _ _ _ _ _ (fun i j h => ?_) (fun i j h => ?_) (fun i l' j hl h => ?_) (fun i => hg _) x hx
        · have h1 := hG _ _ h
          have : r * i = r * j := by omega
          exact Nat.eq_of_mul_eq_mul_left (by omega) this
        · obtain ⟨y, hy⟩ := hg (r * j + r - 1)
          rw [hy] at h; cases h
        · injection h with h1 _; omega
    · split at hx
      · simp at hx
      rcases List.mem_append.1 hx with hx | hx
      · exact hpr _ _ hx
      · obtain ⟨i, _, hx⟩ := List.mem_flatMap.1 hx
        exact hpr _ _ hx

theorem treeAndBack_proper (r e n : Nat) (hr : 2 ≤ r) (h : List (Gate W)) (hh : ∀ g ∈ h, Proper g) :
    ∀ g ∈ treeAndBack r e n h, Proper g := by
  obtain ⟨L, hL, hs⟩ := emit_eq local_ (tree W.p r (n + 1) e 0 W.b W.g n) h
  have h1 : ∀ g ∈ h ++ L, Proper g := by
    intro g hg
    rcases List.mem_append.1 hg with hg | hg
    · exact hh g hg
    · exact tree_proper r hr _ _ _ _ _ _ (fun i j h => by injection h) (fun i j => by simp) (fun i l j _ => by simp)
        (fun i => ⟨i, rfl⟩) g (hs g hg)
  intro g hg
  rw [treeAndBack] at hg
  simp only [hL] at hg
  rcases List.mem_append.1 hg with hg | hg
  · exact h1 g hg
  · rw [uncompute, List.mem_reverse, List.mem_filter] at hg
    exact h1 g hg.1

theorem qqCarry_proper {na nb r e : Nat} (hr : 2 ≤ r) {k : List (Gate W)} (hk : qqCarry na nb r e = some k) : ∀ g ∈ k, Proper g := by
  rw [qqCarry] at hk
  simp only [show ¬ r ≤ 1 by omega, if_false, Option.some.injEq] at hk
  subst hk
  intro g hg
  rcases List.mem_append.1 hg with hg | hg
  · refine treeAndBack_proper r e _ hr _ (fun g hg => ?_) g hg
    obtain ⟨i, _, rfl | rfl⟩ := mem_qqInit hg
    · exact ⟨_, _, rfl, by simp⟩
    · exact ⟨_, _, rfl, by simp⟩
  · obtain ⟨i, _, rfl⟩ := List.mem_map.1 hg
    exact ⟨_, _, rfl, by simp⟩

theorem cqCarry_proper {ctrl : Bool} {x : Nat → Bool} {na nb r e : Nat} (hr : 2 ≤ r) {k : List (Gate W)}
    (hk : cqCarry ctrl x na nb r e = some k) : ∀ g ∈ k, Proper g := by
  rw [cqCarry] at hk
  simp only [show ¬ r ≤ 1 by omega, if_false, Option.some.injEq] at hk
  subst hk
  intro g hg
  rcases List.mem_append.1 hg with hg | hg
  · refine treeAndBack_proper r e _ hr _ (fun g hg => ?_) g hg
    rw [cqInit] at hg
    obtain ⟨i, _, hg⟩ := List.mem_flatMap.1 hg
    rcases mem_cqGates (ctrl := ctrl) (x := x) (i := i) (by rw [cqGates]; exact hg) with rfl | ⟨k, rfl⟩ | ⟨cs, rfl, hc⟩
    · exact ⟨_, _, rfl, by simp⟩
    · exact ⟨_, _, rfl, by simp⟩
    · refine ⟨_, _, rfl, fun c hc' => ?_⟩
      rcases List.mem_append.1 hc' with h | h
      · rcases hc c h with h | ⟨k, h⟩ <;> rw [h] <;> simp
      · simp at h; rw [h]; simp
  · obtain ⟨i, _, rfl⟩ := List.mem_map.1 hg
    exact ⟨_, _, rfl, by simp⟩

theorem ok_proper {L : List (Gate W)} (h : ∀ g ∈ L, Proper g) (s : St W) : ok L s :=
  ok_of_mcx L (fun g hg => by obtain ⟨cs, t, h, _⟩ := h g hg; exact ⟨cs, t, h⟩) s

/-! ### The adders -/

theorem nv_abits {na nb : Nat} (hab : na ≤ nb) (s : St W) : nv (abits na s) nb = nv (fun i => s (.a i)) na := by
  obtain ⟨d, rfl⟩ := Nat.exists_eq_add_of_le hab
  rw [nv_add, nv_zero (f := fun i => abits na s (na + i)) (fun i _ => by simp [abits]), Nat.mul_zero, Nat.add_zero]
  exact nv_congr fun i hi => by simp [abits, hi]

/-- What an adder does: `b += x` modulo `2 ^ nb`, nothing else changes and the logical ANDs are used as they should. -/
structure Adds (nb : Nat) (v : Nat) (k : List (Gate W)) (s : St W) : Prop where
  val : nv (fun i => run k s (.b i)) nb = (v + nv (fun i => s (.b i)) nb) % 2 ^ nb
  rest : ∀ q, (∀ i < nb, q ≠ .b i) → run k s q = s q
  ok : ok k s

theorem small_add {na nb R : Nat} (hna : 0 < na) (hab : na ≤ nb) (hR : nb ≤ R) (s : St W) (hz : ∀ q, zero q = true → s q = false) :
    Adds nb (nv (fun i => s (.a i)) na) (gidneyQ ((List.range na).map W.a ++ pads (nb - na)) ((List.range nb).map W.b) []
      (ancs (nb - 1)) none none none) s := by
  have ea : blen na R 0 = na := by rw [blen]; omega
  have eb : blen nb R 0 = nb := by rw [blen]; omega
  have e : addBlock na nb 0 R 0 = gidneyQ ((List.range na).map W.a ++ pads (nb - na)) ((List.range nb).map W.b) []
      (ancs (nb - 1)) none none none := by
    rw [addBlock, if_neg (by omega), ablk, bblk, ea, eb]
    simp [cOut, cIn]
  obtain ⟨h1, h2⟩ := addBlock_step (C := 0) (R := R) (j := 0) (by omega) hab (by omega) s (fun i => hz _ rfl) (fun i => hz _ rfl)
  rw [e] at h1 h2
  have hv := h1.val
  simp only [eb, T, cIn, Nat.mul_zero, Nat.zero_add, if_true, optBit_none, Bool.toNat_false, Nat.add_zero] at hv
  rw [nv_abits hab] at hv
  exact ⟨hv, fun q hq => h1.rest q (by simpa [eb] using hq) (by omega), h2⟩

theorem bit_add (u v : Bool) : (u ^^ v).toNat = (v.toNat + u.toNat) % 2 := by cases u <;> cases v <;> rfl

theorem qqQcla_adds (na nb r e : Nat) (hr : 2 ≤ r) (hna : 0 < na) (hab : na ≤ nb) (s : St W)
    (hz : ∀ q, zero q = true → s q = false) :
    ∃ k, qqQcla na nb r e true = some k ∧ Adds nb (nv (fun i => s (.a i)) na) k s := by
  have hR : 0 < r ^ e := Nat.pow_pos (by omega)
  rw [qqQcla]
  simp only [show ¬ nb < na by omega, if_false]
  split
  · rename_i h1
    obtain rfl : na = 1 := by omega
    subst h1
    refine ⟨_, rfl, ⟨?_, fun q hq => ?_, by simp [cx, Gate.ok]⟩⟩
    · simp [nv, cx, Gate.app, fire, bit_add]
    · have := hq 0 (by omega)
      simp [cx, Gate.app, this]
  · split
    · rename_i h2
      exact ⟨_, rfl, small_add hna hab h2 s hz⟩
    · obtain ⟨k, hk, hc⟩ := qqCarry_spec na nb r e hr hab s fun q hq => hz q (by cases q <;> simp_all [local_, zero])
      rw [hk]
      refine ⟨_, rfl, ?_⟩
      obtain ⟨hd, ho⟩ := qqSumDirect_spec hR hna hab hz hc
      obtain ⟨c1, c2⟩ := nc_spec hR (show 0 < nb by omega)
      obtain ⟨v1, v2⟩ := Done_val c1 c2 hc (fun i => hz _ rfl) hd
      rw [nv_abits hab] at v1
      exact ⟨by rw [run_append]; exact v1, fun q hq => by rw [run_append]; exact v2 q hq,
        by rw [ok_append]; exact ⟨ok_proper (qqCarry_proper hr hk) s, ho⟩⟩

/-- The value that the classical addend contributes. -/
theorem nv_on (c : Bool) (x : Nat → Bool) (n : Nat) : nv (fun i => c && x i) n = if c then nv x n else 0 := by
  cases c <;> simp [nv_zero]

theorem nv_ext {x : Nat → Bool} {na nb : Nat} (hab : na ≤ nb) (hx : ∀ i, na ≤ i → x i = false) : nv x nb = nv x na := by
  obtain ⟨d, rfl⟩ := Nat.exists_eq_add_of_le hab
  rw [nv_add, nv_zero (f := fun i => x (na + i)) (fun i _ => hx _ (by omega)), Nat.mul_zero, Nat.add_zero]

theorem cqQcla_adds (ctrl : Bool) (x : Nat → Bool) (na nb r e : Nat) (hr : 2 ≤ r) (hb : 0 < nb) (hab : na ≤ nb)
    (hx : ∀ i, na ≤ i → x i = false) (s : St W) (hz : ∀ q, zero q = true → s q = false) :
    ∃ k, cqQcla ctrl x na nb r e = some k ∧ Adds nb (if onBit ctrl s then nv x na else 0) k s := by
  have hR : 0 < r ^ e := Nat.pow_pos (by omega)
  rw [cqQcla, ← nv_ext hab hx]
  simp only [show ¬ nb < na by omega, if_false]
  split
  · rename_i h1
    subst h1
    refine ⟨_, rfl, ⟨?_, fun q hq => ?_, ?_⟩⟩
    · cases hx0 : x 0 <;> cases ctrl <;> cases hc : s .ctl <;> cases h0 : s (.b 0) <;>
        simp_all [nv, cx, gx, Gate.app, fire, onBit]
    · have := hq 0 (by omega)
      cases x 0 <;> cases ctrl <;> simp [cx, gx, Gate.app, this]
    · cases x 0 <;> cases ctrl <;> simp [cx, gx, Gate.ok]
  · split
    · rename_i h2
      have eb : blen nb (r ^ e) 0 = nb := by rw [blen]; omega
      have e1 : xblk x nb (r ^ e) 0 = bv ((List.range na).map x) := by
        rw [xblk_nv, eb, bv_nv, ← nv_ext hab hx]; simp
      have e2 : bblk nb (r ^ e) 0 = (List.range nb).map W.b := by simp [bblk, eb]
      obtain ⟨h1, h3⟩ := gidneyC_step (x := x) (ctrl := ctrl) (nb := nb) (C := 0) (j := 0) hR (by omega) s none (Or.inr ⟨rfl, by simp [cIn]⟩)
        (by simp [cIn]) (fun i => hz _ rfl)
      rw [e1, e2, eb] at h1 h3
      simp only [cOut, Nat.lt_irrefl, if_false, Option.toList_none, List.length_nil, Nat.zero_add, Nat.add_zero] at h1 h3
      refine ⟨_, rfl, ?_, fun q hq => h1.rest q (by simpa [eb] using hq) (fun h => absurd h (Nat.lt_irrefl _)), h3⟩
      have hv := h1.val
      simp only [eb, T, cIn, Nat.mul_zero, Nat.zero_add, if_true, optBit_none, Bool.toNat_false, Nat.add_zero] at hv
      rw [nv_on] at hv
      exact hv
    · obtain ⟨k, hk, hc⟩ := cqCarry_spec ctrl x na nb r e hr hab hx s fun q hq => hz q (by cases q <;> simp_all [scratch, local_, zero])
      rw [hk]
      obtain ⟨hd, ho⟩ := cqLoop hR (show 0 < nb by omega) hz hc (nc nb (r ^ e) + 1) le_rfl k
        (ok_proper (cqCarry_proper hr hk) s) (Done_init (by omega))
      obtain ⟨c1, c2⟩ := nc_spec hR (show 0 < nb by omega)
      obtain ⟨v1, v2⟩ := Done_val c1 c2 hc (fun i => hz _ rfl) hd
      rw [nv_on] at v1
      exact ⟨_, rfl, v1, v2, ho⟩

/-! ### Uncomputation of the carries by the reversed carry path -/

theorem nv_mod (f : Nat → Bool) {m n : Nat} (h : m ≤ n) : nv f n % 2 ^ m = nv f m := by
  obtain ⟨d, rfl⟩ := Nat.exists_eq_add_of_le h
  rw [nv_add, Nat.add_mul_mod_self_left, Nat.mod_eq_of_lt (nv_lt _ _)]

theorem nv_not (f : Nat → Bool) (n : Nat) : nv (fun i => !f i) n + nv f n + 1 = 2 ^ n := by
  induction n with
  | zero => rfl
  | succ n ih => rw [nv, nv, pow_succ]; cases f n <;> simp <;> omega

theorem run_flipB (n : Nat) (s : St W) : run (flipB n) s = fun q => match q with
    | .b i => if i < n then !s (.b i) else s (.b i)
    | q => s q := by
  induction n with
  | zero => funext q; cases q <;> simp [flipB]
  | succ n ih =>
    have e : flipB (n + 1) = flipB n ++ [gx (.b n)] := by simp [flipB, List.range_succ]
    rw [e, run_append, ih]
    funext q
    simp only [gx, run_cons, run_nil, Gate.app]
    by_cases hq : q = .b n
    · subst hq; simp [fire]
    · rw [upd_ne hq]
      cases q <;> simp only
      next i =>
        have : i ≠ n := fun h => hq (by rw [h])
        by_cases h : i < n
        · rw [if_pos h, if_pos (by omega)]
        · rw [if_neg h, if_neg (by omega)]

/-- The state after the blocks below `n` have been added. -/
structure Up (nb R : Nat) (x : Nat → Bool) (s1 : St W) (n : Nat) (u : St W) : Prop where
  val : ∀ j < n, nv (fun i => u (.b (R * j + i))) (blen nb R j) = T nb R x j s1 % 2 ^ blen nb R j
  rest : ∀ q, (∀ i, i < R * n → i < nb → q ≠ .b i) → u q = s1 q

theorem Up_step {nb R n : Nat} {x : Nat → Bool} {s1 u u' : St W} (hu : Up nb R x s1 n u)
    (hs : Step nb 0 R x n u u') : Up nb R x s1 (n + 1) u' := by
  have hlt : ∀ {i}, i < blen nb R n → R * n + i < R * (n + 1) ∧ R * n + i < nb := fun {i} h => by
    rw [blen] at h; omega
  have uT : T nb R x n u = T nb R x n s1 := by
    rw [T, T, nv_congr (g := fun i => s1 (.b (R * n + i))) fun i hi => hu.rest _ (fun i' h1 _ h => by injection h with h; omega)]
    congr 2
    rw [cIn]
    split
    · rfl
    · rw [optBit_some, optBit_some]
      exact hu.rest _ (fun i _ _ => by simp [cw])
  constructor
  · intro j hj
    by_cases h : j = n
    · subst h; rw [hs.val, uT]
    · rw [← hu.val j (by omega)]
      refine nv_congr fun i hi => hs.rest _ (fun i' hi' h => ?_) fun h => absurd h (by omega)
      injection h with h
      have h1 : R * j + i < R * (j + 1) := by rw [blen] at hi; omega
      have := Nat.mul_le_mul_left R (show j + 1 ≤ n by omega)
      omega
  · intro q hq
    rw [hs.rest q (fun i hi => hq _ (hlt hi).1 (hlt hi).2) fun h => absurd h (by omega)]
    refine hu.rest q fun i h1 => hq i ?_
    rw [Nat.mul_add]; omega

theorem qqSum_spec {na nb R : Nat} (hR : 0 < R) (hab : na ≤ nb) (hlast : blen na R (nc nb R) ≠ 0)
    {s0 s1 : St W} (hz : ∀ q, zero q = true → s0 q = false) (h : CarryRes (nc nb R) R (abits na s0) s0 s1) :
    ∃ k, qqSum na nb R = some k ∧ Up nb R (abits na s0) s1 (nc nb R + 1) (run k s1) ∧ ok k s1 := by
  rw [qqSum]
  simp only [hlast, if_false]
  refine ⟨_, rfl, ?_⟩
  set C := nc nb R with hC
  have hne : ∀ i, i ≤ C → blen na R i ≠ 0 := by
    intro i hi h0
    have := Nat.mul_le_mul_left R hi
    rw [blen, Nat.mul_add] at hlast h0
    omega
  have key : ∀ n, n ≤ C + 1 → Up nb R (abits na s0) s1 n (run ((List.range n).flatMap fun i =>
      gidneyQ (ablk na R i ++ pads (blen nb R i - blen na R i)) (bblk nb R i) [] (ancs (blen nb R i - 1)) (cIn R i) none none) s1) ∧
      ok ((List.range n).flatMap fun i =>
      gidneyQ (ablk na R i ++ pads (blen nb R i - blen na R i)) (bblk nb R i) [] (ancs (blen nb R i - 1)) (cIn R i) none none) s1 := by
    intro n
    induction n with
    | zero => intro _; exact ⟨⟨fun j hj => by omega, fun q _ => rfl⟩, trivial⟩
    | succ n ih =>
      intro hn
      obtain ⟨i1, i2⟩ := ih (by omega)
      rw [List.range_succ, List.flatMap_append, List.flatMap_singleton, run_append, ok_append]
      set u := run ((List.range n).flatMap fun i =>
        gidneyQ (ablk na R i ++ pads (blen nb R i - blen na R i)) (bblk nb R i) [] (ancs (blen nb R i - 1)) (cIn R i) none none) s1
      have hw : ∀ q, (∀ i, q ≠ .b i) → (∀ i, q ≠ .g i) → u q = s0 q := by
        intro q h1 h2
        rw [i1.rest q (fun i _ _ => h1 i), h.rest q fun j _ => h2 _]
      have e : abits na u = abits na s0 := by
        funext i; rw [abits, abits, hw _ (by simp) (by simp)]
      have := addBlock_step (C := 0) (j := n) hR hab (hne n (by omega)) u (fun i => by rw [hw _ (by simp) (by simp)]; exact hz _ rfl)
        (fun i => by rw [hw _ (by simp) (by simp)]; exact hz _ rfl)
      rw [e, addBlock, if_neg (hne n (by omega))] at this
      simp only [cOut, Nat.not_lt_zero, if_false, Option.toList_none, List.length_nil, Nat.add_zero] at this
      exact ⟨Up_step i1 this.1, i2, this.2⟩
  exact key (C + 1) le_rfl

/-- Draper's identity: `a` and the complement of `a + b` have the carry of `a` and `b`. -/
theorem carry_not {x y z : Nat → Bool} {m : Nat} (h : nv z m = (nv x m + nv y m) % 2 ^ m) :
    2 ^ m ≤ nv x m + nv (fun i => !z i) m ↔ 2 ^ m ≤ nv x m + nv y m := by
  have h1 := nv_not z m
  have h2 := nv_lt x m
  have h3 := nv_lt y m
  generalize nv x m = X at *
  generalize nv y m = Y at *
  generalize nv z m = Z at *
  generalize 2 ^ m = N at *
  by_cases hc : N ≤ X + Y
  · rw [Nat.mod_eq_sub_mod hc, Nat.mod_eq_of_lt (by omega)] at h
    omega
  · rw [Nat.mod_eq_of_lt (by omega)] at h
    omega

/-- The sum path followed by the reversed carry path on the complement. -/
theorem rev_adds {nb C R : Nat} {k m : List (Gate W)} {X : St W → Nat → Bool} (c1 : C * R < nb) (c2 : nb ≤ (C + 1) * R)
    (hX : ∀ s t : St W, (∀ q, (∀ i, q ≠ .b i) → s q = t q) → X s = X t)
    (hcar : ∀ t : St W, (∀ q, zero q = true → t q = false) → CarryRes C R (X t) t (run k t)) (hp : ∀ g ∈ k, Proper g)
    (s : St W) (hz : ∀ q, zero q = true → s q = false) (hu : Up nb R (X s) (run k s) (C + 1) (run m (run k s)))
    (hok : ok m (run k s)) : Adds nb (nv (X s) nb) (k ++ m ++ flipB nb ++ k.reverse ++ flipB nb) s := by
  have hc := hcar s hz
  set u := run m (run k s) with hu'
  -- the register holds the sum
  have hsum : nv (fun i => u (.b i)) nb = (nv (X s) nb + nv (fun i => s (.b i)) nb) % 2 ^ nb :=
    vals_sum c1 c2 hc fun j hj => hu.val j (by omega)
  have hsum' : ∀ n ≤ nb, nv (fun i => u (.b i)) n = (nv (X s) n + nv (fun i => s (.b i)) n) % 2 ^ n := by
    intro n hn
    rw [← nv_mod _ hn, hsum, Nat.mod_mod_of_dvd _ (pow_dvd_pow 2 hn), Nat.add_mod, nv_mod _ hn, nv_mod _ hn]
  -- the state before the carry path that the reversed carry path restores
  set t : St W := fun q => match q with
    | .b i => if i < nb then !u (.b i) else s (.b i)
    | q => s q with ht
  have hct : CarryRes C R (X t) t (run k t) := hcar t fun q hq => by
    cases q <;> first | exact hz _ hq | cases hq
  have hflip : run (flipB nb) u = run k t := by
    rw [run_flipB]
    funext q
    by_cases hq : ∃ j < C, q = cw R j
    · obtain ⟨j, hj, rfl⟩ := hq
      have hjn : (j + 1) * R ≤ nb := by
        have := Nat.mul_le_mul_right R (show j + 1 ≤ C by omega)
        omega
      rw [hct.c j hj]
      show u (cw R j) = _
      rw [hu.rest (cw R j) fun i _ _ => by simp [cw], hc.c j hj, decide_eq_decide, ← carry_not (hsum' _ hjn)]
      have e1 : X t = X s := hX t s fun q hq => by cases q <;> first | rfl | exact absurd rfl (hq _)
      rw [e1, nv_congr (f := fun i => t (.b i)) (g := fun i => !u (.b i)) fun i hi => by
        show (if i < nb then !u (.b i) else s (.b i)) = _
        rw [if_pos (by omega)]]
    · push Not at hq
      rw [hct.rest q hq]
      have hgen : (∀ i < nb, q ≠ .b i) → u q = s q := fun h => by
        rw [hu.rest q fun i _ hi => h i hi, hc.rest q hq]
      cases q with
      | b i =>
        show (if i < nb then !u (.b i) else u (.b i)) = if i < nb then !u (.b i) else s (.b i)
        split
        · rfl
        · exact hgen fun i' hi' h => by injection h with h; omega
      | _ => exact hgen (by simp)
  have hfin : run (k ++ m ++ flipB nb ++ k.reverse ++ flipB nb) s = run (flipB nb) t := by
    rw [run_append, run_append, run_append, run_append, ← hu', hflip, run_reverse hp]
  have hfl : ∀ s' : St W, ok (flipB nb) s' := fun s' => ok_of_mcx _ (fun g hg => by
    obtain ⟨i, _, rfl⟩ := List.mem_map.1 hg; exact ⟨_, _, rfl⟩) s'
  refine ⟨?_, fun q hq => ?_, ?_⟩
  · rw [hfin, run_flipB, ← hsum]
    refine nv_congr fun i hi => ?_
    show (if i < nb then !t (.b i) else t (.b i)) = _
    rw [if_pos hi]
    show (!(if i < nb then !u (.b i) else s (.b i))) = _
    rw [if_pos hi, Bool.not_not]
  · rw [hfin, run_flipB]
    cases q with
    | b i =>
      have : ¬ i < nb := fun h => hq i h rfl
      show (if i < nb then !t (.b i) else t (.b i)) = _
      rw [if_neg this]
      show (if i < nb then !u (.b i) else s (.b i)) = _
      rw [if_neg this]
    | _ => rfl
  · rw [ok_append, ok_append, ok_append, ok_append]
    exact ⟨⟨⟨⟨ok_proper hp _, hok⟩, hfl _⟩, ok_proper (fun g hg => hp g (List.mem_reverse.1 hg)) _⟩, hfl _⟩

theorem qqQcla_false_adds (na nb r e : Nat) (hr : 2 ≤ r) (hna : 0 < na) (hab : na ≤ nb)
    (hlast : r ^ e < nb → blen na (r ^ e) (nc nb (r ^ e)) ≠ 0) (s : St W) (hz : ∀ q, zero q = true → s q = false) :
    ∃ k, qqQcla na nb r e false = some k ∧ Adds nb (nv (fun i => s (.a i)) na) k s := by
  have hR : 0 < r ^ e := Nat.pow_pos (by omega)
  by_cases hbig : nb = 1 ∨ nb ≤ r ^ e
  · obtain ⟨k, hk, h⟩ := qqQcla_adds na nb r e hr hna hab s hz
    refine ⟨k, ?_, h⟩
    rw [← hk, qqQcla, qqQcla]
    rcases hbig with h | h <;> simp [h]
  have hl : r ^ e < nb := by omega
  have hzl : ∀ t : St W, (∀ q, zero q = true → t q = false) → ∀ q, local_ q = true → t q = false := fun t ht q hq =>
    ht q (by cases q <;> simp_all [local_, zero])
  obtain ⟨k, hk, hc⟩ := qqCarry_spec na nb r e hr hab s (hzl s hz)
  obtain ⟨m, hm, hu, hok⟩ := qqSum_spec hR hab (hlast hl) hz hc
  obtain ⟨c1, c2⟩ := nc_spec hR (show 0 < nb by omega)
  rw [qqQcla]
  simp only [show ¬ nb < na by omega, if_false, show nb ≠ 1 by omega, show ¬ nb ≤ r ^ e by omega, hk, hm]
  refine ⟨_, rfl, ?_⟩
  rw [← nv_abits hab]
  exact rev_adds (X := abits na) c1 c2 (fun s t h => by funext i; rw [abits, abits, h _ (by simp)]) (fun t ht => by
    obtain ⟨k', hk', h⟩ := qqCarry_spec na nb r e hr hab t (hzl t ht)
    rw [hk] at hk'
    injection hk' with hk'
    subst hk'
    exact h) (qqCarry_proper hr hk) s hz hu hok

/-- One pass of the classical-quantum sum path without direct uncomputation; for the first block the bits of the addend must
not all be zero. -/
theorem cqBlockF_step {nb C R j : Nat} {x : Nat → Bool} {ctrl : Bool} {h : List (Gate W)} {s0 : St W} (hR : 0 < R)
    (hl : blen nb R j ≠ 0) (h0 : j = 0 → xblk x nb R 0 ≠ 0) (hz0 : ∀ q, local_ q = true → s0 q = false)
    (hoff : onBit ctrl (run h s0) = false → optBit (cIn R j) (run h s0) = false) (hz : ∀ i, run h s0 (.anc i) = false) :
    ∃ m, cqBlockF ctrl x nb C R h j = h ++ m ∧
      Step nb 0 R (fun i => onBit ctrl (run h s0) && x i) j (run h s0) (run m (run h s0)) ∧ ok m (run h s0) := by
  rw [cqBlockF]
  by_cases hx : xblk x nb R j ≠ 0
  · simp only [hx, ne_eq, not_false_eq_true, if_true]
    refine ⟨_, rfl, ?_⟩
    have := gidneyC_step (x := x) (C := 0) hR hl (run h s0) (cIn R j) (Or.inl rfl) hoff hz
    have e : (cIn R j).toList.length + blen nb R j - 1 = if j = 0 then blen nb R j - 1 else blen nb R j := by
      rw [cIn]; split <;> simp
    simp only [cOut, Nat.not_lt_zero, if_false, Option.toList_none, List.length_nil, Nat.add_zero, e] at this
    exact this
  · have hj : j ≠ 0 := fun hj => by subst hj; exact hx (h0 rfl)
    have hx' : xblk x nb R j = 0 := by simpa using hx
    have hx0 : nv (fun i => onBit ctrl (run h s0) && x (R * j + i)) (blen nb R j) = 0 := by
      cases onBit ctrl (run h s0)
      · exact nv_zero fun i _ => by simp
      · rw [xblk_nv] at hx'; simpa using hx'
    simp only [hx, if_false, hj]
    have hc : cIn R j = some (cw R (j - 1)) := by rw [cIn, if_neg hj]
    split
    · rename_i hf
      refine ⟨[], by simp, Step_of ?_ fun q _ => rfl, trivial⟩
      rw [hx0, hc, optBit_some, fresh_run hf s0 hz0]
      simp only [Bool.toNat_false, Nat.add_zero, run_nil]
      rw [Nat.mod_eq_of_lt (regVal_lt _ _)]
    · refine ⟨_, rfl, ?_⟩
      have := linIncr_step (x := fun i => onBit ctrl (run h s0) && x i) (C := 0) hR hj hl (run h s0) hx0 hz
      rw [hc] at this
      simpa only [cOut, Nat.not_lt_zero, if_false, Option.toList_none, List.length_nil, Nat.add_zero] using this

theorem cqLoopF {ctrl : Bool} {x : Nat → Bool} {nb R : Nat} (hR : 0 < R) (hb : 0 < nb) (h0 : xblk x nb R 0 ≠ 0) {s0 : St W}
    {k : List (Gate W)} (hz : ∀ q, zero q = true → s0 q = false)
    (h : CarryRes (nc nb R) R (fun i => onBit ctrl s0 && x i) s0 (run k s0)) (n : Nat) (hn : n ≤ nc nb R + 1) :
    ∃ m, (List.range n).foldl (cqBlockF ctrl x nb (nc nb R) R) k = k ++ m ∧ ok m (run k s0) ∧
      Up nb R (fun i => onBit ctrl s0 && x i) (run k s0) n (run m (run k s0)) := by
  obtain ⟨hC1, hC2⟩ := nc_spec hR hb
  set C := nc nb R with hC
  induction n with
  | zero => exact ⟨[], by simp, trivial, fun j hj => by omega, fun q _ => rfl⟩
  | succ n ih =>
    obtain ⟨m, e, hm, hu⟩ := ih (by omega)
    rw [List.range_succ, List.foldl_append, List.foldl_cons, List.foldl_nil, e]
    have er : run (k ++ m) s0 = run m (run k s0) := run_append _ _ _
    have hw : ∀ q, (∀ i, q ≠ .b i) → (∀ i, q ≠ .g i) → run (k ++ m) s0 q = s0 q := by
      intro q h1 h2
      rw [er, hu.rest q (fun i _ _ => h1 i), h.rest q fun j _ => h2 _]
    have ho : onBit ctrl (run (k ++ m) s0) = onBit ctrl s0 := by rw [onBit, onBit, hw .ctl (by simp) (by simp)]
    have hci : optBit (cIn R n) (run (k ++ m) s0) = optBit (cIn R n) (run k s0) := by
      rw [cIn, er]
      split
      · rfl
      · rw [optBit_some, optBit_some]
        exact hu.rest _ (fun i _ _ => by simp [cw])
    obtain ⟨m', e', hs, hok⟩ := cqBlockF_step (nb := nb) (C := C) (j := n) (x := x) (ctrl := ctrl) (h := k ++ m) (s0 := s0) hR (by
      have := Nat.mul_le_mul_left R (show n ≤ C by omega)
      rw [Nat.mul_comm R C] at this
      rw [blen, Nat.mul_add]; omega) (fun _ => h0) (fun q hq => hz q (by cases q <;> simp_all [local_, zero])) (by
        intro h0
        rw [ho] at h0
        rw [hci]
        have hv := cin_val h (show n ≤ C by omega)
        rw [nv_zero (f := fun i => onBit ctrl s0 && x i) (by simp [h0]), Nat.zero_add, Nat.div_eq_of_lt (nv_lt _ _)] at hv
        simpa using hv) (fun i => by rw [hw _ (by simp) (by simp)]; exact hz _ rfl)
    rw [ho, er] at hs
    rw [er] at hok
    refine ⟨m ++ m', by rw [e', List.append_assoc], by rw [ok_append]; exact ⟨hm, hok⟩, ?_⟩
    rw [run_append]
    exact Up_step hu hs

theorem cqQclaF_adds (ctrl : Bool) (x : Nat → Bool) (na nb r e : Nat) (hr : 2 ≤ r) (hb : 0 < nb) (hab : na ≤ nb)
    (hx : ∀ i, na ≤ i → x i = false) (h0 : xblk x nb (r ^ e) 0 ≠ 0) (s : St W) (hz : ∀ q, zero q = true → s q = false) :
    ∃ k, cqQclaF ctrl x na nb r e = some k ∧ Adds nb (if onBit ctrl s then nv x na else 0) k s := by
  have hR : 0 < r ^ e := Nat.pow_pos (by omega)
  have hzl : ∀ t : St W, (∀ q, zero q = true → t q = false) → ∀ q, scratch q = true → t q = false := fun t ht q hq =>
    ht q (by cases q <;> simp_all [scratch, local_, zero])
  obtain ⟨k, hk, hc⟩ := cqCarry_spec ctrl x na nb r e hr hab hx s (hzl s hz)
  obtain ⟨c1, c2⟩ := nc_spec hR hb
  obtain ⟨m, hm, hok, hu⟩ := cqLoopF hR hb h0 hz hc (nc nb (r ^ e) + 1) le_rfl
  rw [cqQclaF]
  simp only [hk]
  rw [← nv_ext hab hx, ← nv_on]
  refine ⟨_, rfl, ?_⟩
  beta_reduce
  rw [hm]
  exact rev_adds (X := fun s i => onBit ctrl s && x i) c1 c2 (fun s t h => by funext i; rw [onBit, onBit, h _ (by simp)])
    (fun t ht => by
      obtain ⟨k', hk', h⟩ := cqCarry_spec ctrl x na nb r e hr hab hx t (hzl t ht)
      rw [hk] at hk'
      injection hk' with hk'
      subst hk'
      exact h) (cqCarry_proper hr hk) s hz hu hok

end Verif.Rev.Qcla
