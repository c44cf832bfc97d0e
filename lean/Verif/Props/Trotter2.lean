import Verif.Props.Trotter
import Verif.Ham.LieTrotter
import Verif.Props.Oper
import Mathlib.Analysis.Matrix.Normed
import Mathlib.Topology.Instances.Matrix

/-! C97: second order, convergence and the exact case. -/

namespace Verif.Props

open Verif.Oper Verif.Circ Verif.Ham
open Verif.Rev (upd)
open NormedSpace (exp)

variable {χ : HQ × Bool → HQ × Bool → HQ → (HQ → Bool) → ℂ}

/-! ### Inverse gates -/

/-- The qubits of a gate are different. -/
def HValid : HOp → Prop
  | .cx a t => a ≠ t
  | .land a b t => a.1 ≠ t ∧ b.1 ≠ t
  | .landInv a b t => a.1 ≠ t ∧ b.1 ≠ t
  | _ => True

theorem hvalid_cl {o : HOp} (h : IsCl o) : HValid o := by
  cases o <;> first | exact h | trivial

theorem hvalid_inv {o : HOp} (h : HValid o) : HValid o.inv := by
  cases o <;> exact h

theorem h_inv (hχ : UnitH χ) {o : HOp} (h : HValid o) (ψ : Amp HQ) : o.inv.den χ (o.den χ ψ) = ψ := by
  funext c
  cases o with
  | cx a t =>
    show Circ.den cxG [a, t] (Circ.den cxG [a, t] ψ) c = ψ c
    rw [cxQ_apply, cxQ_apply, Verif.Rev.upd_same, Verif.Rev.upd_ne (show a ≠ t from h), Ham.flip_flip]
  | land a b t =>
    show star (χ a b t c) * (χ a b t (flipL a b t (flipL a b t c)) * ψ (flipL a b t (flipL a b t c))) = ψ c
    rw [flipL_flipL h.1 h.2, ← mul_assoc, hχ, one_mul]
  | landInv a b t =>
    show χ a b t (flipL a b t c) * (star (χ a b t (flipL a b t c)) * ψ (flipL a b t (flipL a b t c))) = ψ c
    rw [flipL_flipL h.1 h.2, ← mul_assoc, mul_comm (χ a b t _), hχ, one_mul]
  | rz θ q =>
    show Circ.den (rzG (-θ)) [q] (Circ.den (rzG θ) [q] ψ) c = ψ c
    rw [rz_apply, rz_apply, ← mul_assoc, ← ph_add]
    have : ((if c q then -θ / 2 else -(-θ) / 2) + if c q then θ / 2 else -θ / 2) = 0 := by
      cases c q <;> simp <;> ring
    rw [this, ph_zero, one_mul]
  | p θ q =>
    show Circ.den (pG (-θ)) [q] (Circ.den (pG θ) [q] ψ) c = ψ c
    rw [den_p, den_p]
    cases c q
    · simp
    · simp [← mul_assoc, ← ph_add, ph_zero]
  | gphase θ q =>
    show Circ.den (gphaseG (-θ)) [q] (Circ.den (gphaseG θ) [q] ψ) c = ψ c
    rw [gphase_apply, gphase_apply, ← mul_assoc, ← ph_add, neg_add_cancel, ph_zero, one_mul]
  | mcp θ cs =>
    show (if allMatch cs c then ph (-θ) * (if allMatch cs c then ph θ * ψ c else ψ c) else (if allMatch cs c then ph θ * ψ c else ψ c)) = ψ c
    cases allMatch cs c
    · simp
    · simp [← mul_assoc, ← ph_add, ph_zero]

theorem hvalid_conj {V mid : List HOp} (hV : ∀ o ∈ V, HValid o) (hm : ∀ o ∈ mid, HValid o) : ∀ o ∈ conjH V mid, HValid o := by
  intro o ho
  unfold conjH at ho
  rcases List.mem_append.mp ho with ho | ho
  · rcases List.mem_append.mp ho with ho | ho
    · exact hV o ho
    · exact hm o ho
  · rw [List.mem_reverse] at ho
    obtain ⟨x, hx, rfl⟩ := List.mem_map.mp ho
    exact hvalid_inv (hV x hx)

theorem hvalid_body (x : ℝ) {zs : List Nat} {a : Nat} (ha : a ∉ zs) {h : Option HQ} (hh : ∀ q, h = some q → q ≠ .qv a) (flip : Bool) :
    ∀ o ∈ bodyH x zs a h flip, HValid o := by
  unfold bodyH
  apply hvalid_conj
  · intro o ho
    obtain ⟨i, hi, rfl⟩ := List.mem_map.mp ho
    intro e
    injection e with e
    exact ha (e ▸ hi)
  · cases h with
    | none =>
      intro o ho
      rw [List.mem_singleton] at ho
      subst ho; trivial
    | some q =>
      apply hvalid_conj
      · intro o ho
        rw [List.mem_singleton] at ho
        subst ho
        exact (hh q rfl).symm
      · intro o ho
        simp only [List.mem_cons, List.not_mem_nil, or_false] at ho
        rcases ho with rfl | rfl <;> trivial

theorem simulate_valid (x : ℝ) {t : Term} (hn : t.keys.Nodup) {l : List HOp} (h : simulate false false x t = some l) : ∀ o ∈ l, HValid o := by
  have hpz : ∀ q ∈ projQ false t, ∀ i ∈ zIdx t, q.1 ≠ .qv i := by
    intro q hq i hi e
    rcases projQ_qubit hq with h | ⟨k, h, f, hf, hm⟩
    · rw [h] at e; cases e
    · rw [h] at e
      injection e with e
      subst e
      have := key_unique hn hm (zIdx_mem hi)
      rcases hf with rfl | rfl <;> cases this
  unfold simulate at h
  rcases hz : (zIdx t).getLast? with _ | a
  · rw [hz] at h
    rcases hp : projQ false t with _ | ⟨⟨q, b⟩, _ | ⟨r, ps⟩⟩ <;> rw [hp] at h
    · cases h
      intro o ho
      rw [List.mem_singleton] at ho
      subst ho; trivial
    · cases b <;> cases h <;> intro o ho <;> simp only [List.mem_cons, List.not_mem_nil, or_false] at ho
      · rcases ho with rfl | rfl <;> trivial
      · subst ho; trivial
    · have h' : some [HOp.mcp (-x) ((q, b) :: r :: ps)] = some l := by cases b <;> exact h
      cases h'
      intro o ho
      rw [List.mem_singleton] at ho
      subst ho; trivial
  · obtain ⟨zs, hzs⟩ : ∃ zs, zIdx t = zs ++ [a] := List.getLast?_eq_some_iff.mp hz
    have hdl : (zIdx t).dropLast = zs := by rw [hzs]; simp
    have hnd := zIdx_nodup hn
    rw [hzs] at hnd
    have haz : a ∉ zs := fun h => (List.nodup_append.mp hnd).2.2 a h a (by simp) rfl
    have hmem : a ∈ zIdx t := by rw [hzs]; simp
    rw [hz, hdl] at h
    rcases hp : projQ false t with _ | ⟨⟨q, b⟩, _ | ⟨r, ps⟩⟩ <;> rw [hp] at h
    · cases h
      exact hvalid_body x haz (fun q e => by cases e) _
    · cases h
      refine hvalid_body x haz (fun y e => ?_) _
      cases e
      exact hpz (q, b) (by rw [hp]; simp) a hmem
    · set red := (q, b) :: r :: ps with hred
      have hlen : red.length = ps.length + 2 := rfl
      have hquse : ∀ y ∈ red, y.1 ≠ .hs ∧ ∀ i, y.1 ≠ .anc i := by
        intro y hy
        rcases projQ_qubit (ctrl := false) (t := t) (q := y) (by rw [hp]; exact hy) with h | ⟨k, h, _⟩ <;> rw [h] <;>
          exact ⟨nofun, fun _ => nofun⟩
      have hfl : ((List.range (red.length - 1)).map HQ.anc).length = red.length - 1 := by simp
      obtain ⟨V, v1, v2, _⟩ := semi_spec .hs red.length red ((List.range (red.length - 1)).map .anc) (fun _ => false) rfl (by omega)
        (by rw [hfl]; omega) (List.nodup_range.map fun i j e => by injection e)
        (fun o ho y hy => by obtain ⟨i, _, rfl⟩ := List.mem_map.mp ho; exact (hquse y hy).2 i)
        (fun y hy => (hquse y hy).1) (fun h => by obtain ⟨i, _, e⟩ := List.mem_map.mp h; cases e) (fun o ho => rfl) rfl
      have h' : Option.map (fun V => conjH V (bodyH x zs a (some .hs) false)) (semi false .hs red ((List.range (red.length - 1)).map .anc)) =
        some l := h
      rw [v1] at h'
      cases h'
      exact hvalid_conj (fun o ho => hvalid_cl (v2 o ho)) (hvalid_body x haz (fun q e => by cases e; exact nofun) _)

theorem simAll_valid (x : ℂ → ℝ) : ∀ (d : QOp ℂ) {l : List HOp}, (∀ p ∈ d, p.1.keys.Nodup) → simAll x d = some l → ∀ o ∈ l, HValid o
  | [], l, _, h => by cases h; intro o ho; simp at ho
  | (t, c) :: d, l, hd, h => by
    unfold simAll at h
    rcases h1 : simulate false false (x c) t with _ | a
    · rw [h1] at h; cases h
    · rcases h2 : simAll x d with _ | b
      · rw [h1, h2] at h; cases h
      · rw [h1, h2] at h
        cases h
        intro o ho
        rcases List.mem_append.mp ho with ho | ho
        · exact simulate_valid _ (hd (t, c) List.mem_cons_self) h1 o ho
        · exact simAll_valid x d (fun p hp => hd p (List.mem_cons_of_mem _ hp)) h2 o ho

/-- The qubits of a gate are different. -/
def TValid (n : Nat) : TOp → Prop
  | .b g => g.ok n
  | .bi g => g.ok n
  | .h o => HValid o

theorem t_inv (hχ : UnitH χ) {n : Nat} {o : TOp} (h : TValid n o) (ψ : Amp HQ) : o.inv.den χ (o.den χ ψ) = ψ := by
  cases o with
  | b g =>
    show Circ.den g.op.1.inv g.op.2 (Circ.den g.op.1 g.op.2 ψ) = ψ
    rw [den_inv_actM h, den_actM h, ← actM_mul, gmatI_mul h, actM_one]
  | bi g =>
    show Circ.den g.op.1 g.op.2 (Circ.den g.op.1.inv g.op.2 ψ) = ψ
    rw [den_inv_actM h, den_actM h, ← actM_mul, mul_eq_one_comm.mp (gmatI_mul h), actM_one]
  | h o => exact h_inv hχ h ψ

theorem invT_spec (hχ : UnitH χ) {n : Nat} (l : List TOp) (h : ∀ o ∈ l, TValid n o) (ψ : Amp HQ) : runT χ (invT l) (runT χ l ψ) = ψ := by
  induction l generalizing ψ with
  | nil => rfl
  | cons o l ih =>
    unfold invT
    rw [List.map_cons, List.reverse_cons, runT_append]
    show o.inv.den χ (runT χ (invT l) (runT χ l (o.den χ ψ))) = ψ
    rw [ih (fun x hx => h x (List.mem_cons_of_mem _ hx)), t_inv hχ (h o List.mem_cons_self)]

theorem group_valid {n : Nat} {g : QOp ℂ} (hG : Grp n (g.map Prod.fst)) (hD : DWF g) {fwd : Bool} {t : ℝ} {steps : Nat} {l : List TOp}
    (h : groupStep fwd t steps g = some l) : ∀ o ∈ l, TValid n o := by
  obtain ⟨C, d, h1, h2, _, h4, _⟩ := C96_matrix hG hD
  unfold groupStep at h
  rw [h1] at h
  dsimp only at h
  have hp := opGroups_perm (fun a b => !intersectT a b) d
  rcases hs : simAll (coeffT fwd t steps) (opGroups (fun a b => !intersectT a b) d).flatten with _ | r
  · rw [hs] at h; cases h
  · rw [hs] at h
    cases h
    have hv := simAll_valid _ _ (fun p hp' => (h4 p (hp.mem_iff.mp hp')).2.1) hs
    intro o ho
    rcases List.mem_append.mp ho with ho | ho
    · rcases List.mem_append.mp ho with ho | ho
      · obtain ⟨x, hx, rfl⟩ := List.mem_map.mp ho; exact h2 x hx
      · obtain ⟨x, hx, rfl⟩ := List.mem_map.mp ho; exact hv x hx
    · rw [List.mem_reverse] at ho
      obtain ⟨x, hx, rfl⟩ := List.mem_map.mp ho; exact h2 x hx

theorem stepAll_valid {n : Nat} {fwd : Bool} {t : ℝ} {steps : Nat} : ∀ (gs : List (QOp ℂ)) {l : List TOp},
    (∀ g ∈ gs, Grp n (g.map Prod.fst) ∧ DWF g) → stepAll fwd t steps gs = some l → ∀ o ∈ l, TValid n o
  | [], l, _, h => by cases h; intro o ho; simp at ho
  | g :: gs, l, hg, h => by
    unfold stepAll at h
    rcases h1 : groupStep fwd t steps g with _ | a
    · rw [h1] at h; cases h
    · rcases h2 : stepAll fwd t steps gs with _ | b
      · rw [h1, h2] at h; cases h
      · rw [h1, h2] at h
        cases h
        intro o ho
        rcases List.mem_append.mp ho with ho | ho
        · exact group_valid (hg g List.mem_cons_self).1 (hg g List.mem_cons_self).2 h1 o ho
        · exact stepAll_valid gs (fun x hx => hg x (List.mem_cons_of_mem _ hx)) h2 o ho

/-- The product formula in the opposite order: the first group on the left. -/
noncomputable def prodR (n : Nat) (x : ℝ) : List (QOp ℂ) → MatN n
  | [] => 1
  | g :: gs => expG n x g * prodR n x gs

theorem expG_neg (n : Nat) (x : ℝ) (g : QOp ℂ) : expG n x g * expG n (-x) g = 1 := by
  unfold expG
  rw [← Matrix.exp_add_of_commute]
  · rw [← add_smul]
    push_cast
    rw [mul_neg, add_neg_cancel, zero_smul, NormedSpace.exp_zero]
  · exact (Commute.refl _).smul_left _ |>.smul_right _

theorem prodR_prodF (n : Nat) (x : ℝ) (gs : List (QOp ℂ)) : prodF n (-x) gs * prodR n x gs = 1 := by
  induction gs with
  | nil => show (1 : MatN n) * 1 = 1; rw [one_mul]
  | cons g gs ih =>
    show prodF n (-x) gs * expG n (-x) g * (expG n x g * prodR n x gs) = 1
    have h := mul_eq_one_comm.mp (expG_neg n x g)
    rw [mul_assoc, ← mul_assoc (expG n (-x) g), h, one_mul, ih]

/-- C97: with `order=2` the circuit is the power of the symmetric product formula: the groups with half the angle, then the groups
with half the angle in the opposite order. -/
theorem C97_second_order (hχ : UnitH χ) {n : Nat} {d : QOp ℂ} (h : OpOk n d) (o : Term → Term → List Nat) (fwd : Bool) (t : ℝ)
    (steps iter : Nat) : ∃ l, trotterU o fwd true d t steps iter = some l ∧
      ∀ ψ, CleanH ψ → runT χ l ψ = actM ((prodR n ((if fwd then t else -t) / (2 * steps)) (qwGroups o d) *
        prodF n ((if fwd then t else -t) / (2 * steps)) (qwGroups o d)) ^ (iter * steps)) ψ := by
  obtain ⟨a, a1, a2⟩ := C97_step hχ h o fwd t (steps * 2)
  obtain ⟨b, b1, b2⟩ := C97_step hχ h o fwd (-t) (steps * 2)
  set x : ℝ := (if fwd then t else -t) / (2 * steps) with hx
  have ex : (if fwd then t else -t) / ((steps * 2 : Nat) : ℝ) = x := by rw [hx]; push_cast; rw [mul_comm (2 : ℝ)]
  have ex' : (if fwd then -t else - -t) / ((steps * 2 : Nat) : ℝ) = -x := by
    rw [hx]; push_cast; rw [mul_comm (2 : ℝ)]
    cases fwd <;> simp <;> ring
  rw [ex] at a2
  rw [ex'] at b2
  refine ⟨(List.replicate (iter * steps) (a ++ invT b)).flatten, ?_, runT_pow (fun ψ hψ => ?_) (iter * steps)⟩
  · unfold trotterU
    rw [if_pos rfl, a1, b1]
  · rw [runT_append, a2 ψ hψ, actM_mul]
    set φ := actM (prodF n x (qwGroups o d)) ψ with hφ
    have hcl : CleanH φ := clean_actM _ hψ
    have e1 : runT χ b (actM (prodR n x (qwGroups o d)) φ) = φ := by
      rw [b2 _ (clean_actM _ hcl), ← actM_mul, prodR_prodF, actM_one]
    conv_lhs => rw [← e1]
    rw [invT_spec hχ b (stepAll_valid _ (qwGroups_ok h o) b1)]

/-! ### Convergence and the exact case -/

open scoped Matrix.Norms.Operator in
theorem prodF_expProd (n : Nat) (t s : ℝ) (gs : List (QOp ℂ)) :
    prodF n (t * s) gs = expProd s (gs.map fun g => (-Complex.I * (t : ℂ)) • symOp reC n g) := by
  induction gs with
  | nil => rfl
  | cons g gs ih =>
    show prodF n (t * s) gs * expG n (t * s) g = expProd s (gs.map _) * exp (s • ((-Complex.I * (t : ℂ)) • symOp reC n g))
    rw [ih]
    congr 1
    unfold expG
    congr 1
    rw [← Complex.coe_smul, smul_smul]
    congr 1
    push_cast
    ring

open Filter Topology in
open scoped Matrix.Norms.Operator in
/-- C97: for `order=1` the matrix of the circuit converges to `exp(-i·t·H)` (forward evolution) when the number of steps grows. -/
theorem C97_limit (n : Nat) (d : QOp ℂ) (o : Term → Term → List Nat) (t : ℝ) :
    Tendsto (fun steps : ℕ => prodF n (t / steps) (qwGroups o d) ^ steps) atTop (𝓝 (exp ((-Complex.I * (t : ℂ)) • symOp reC n d))) := by
  have h := lie_product ((qwGroups o d).map fun g => (-Complex.I * (t : ℂ)) • symOp reC n g)
  have hs : ((qwGroups o d).map fun g => (-Complex.I * (t : ℂ)) • symOp reC n g).sum = (-Complex.I * (t : ℂ)) • symOp reC n d := by
    rw [← C97_groups_sum n d o, List.smul_sum, List.map_map]
    rfl
  rw [hs] at h
  refine h.congr fun N => ?_
  rw [← prodF_expProd, mul_one_div]

theorem commute_sum {n : Nat} {M : MatN n} {gs : List (QOp ℂ)} (h : ∀ b ∈ gs, Commute (symOp reC n b) M) :
    Commute (gs.map (symOp reC n)).sum M := by
  induction gs with
  | nil => exact Commute.zero_left _
  | cons b gs ih =>
    rw [List.map_cons, List.sum_cons]
    exact (h b List.mem_cons_self).add_left (ih fun y hy => h y (List.mem_cons_of_mem _ hy))

/-- C97: if the operators of the groups commute, the circuit is exact for every number of steps: it is `exp(-i·t·iter·H)`. -/
theorem C97_exact (hχ : UnitH χ) {n : Nat} {d : QOp ℂ} (h : OpOk n d) (o : Term → Term → List Nat) (t : ℝ) {steps : Nat} (hs : steps ≠ 0) (iter : Nat)
    (hc : ∀ a ∈ qwGroups o d, ∀ b ∈ qwGroups o d, Commute (symOp reC n a) (symOp reC n b)) :
    ∃ l, trotterU o true false d t steps iter = some l ∧
      ∀ ψ, CleanH ψ → runT χ l ψ = actM (exp ((-Complex.I * ((t * iter : ℝ) : ℂ)) • symOp reC n d)) ψ := by
  obtain ⟨l, l1, l2⟩ := C97_first_order hχ h o true t steps iter
  refine ⟨l, l1, fun ψ hψ => ?_⟩
  rw [l2 ψ hψ]
  congr 1
  have key : ∀ (x : ℝ) (gs : List (QOp ℂ)), (∀ a ∈ gs, ∀ b ∈ gs, Commute (symOp reC n a) (symOp reC n b)) →
      prodF n x gs = exp ((-Complex.I * (x : ℂ)) • (gs.map (symOp reC n)).sum) := by
    intro x gs
    induction gs with
    | nil =>
      intro _
      show (1 : MatN n) = exp (_ • (0 : MatN n))
      rw [smul_zero, NormedSpace.exp_zero]
    | cons g gs ih =>
      intro hcm
      have ih := ih fun a ha b hb => hcm a (List.mem_cons_of_mem _ ha) b (List.mem_cons_of_mem _ hb)
      show prodF n x gs * expG n x g = _
      rw [ih, List.map_cons, List.sum_cons, add_comm, smul_add, Matrix.exp_add_of_commute]
      · rfl
      · refine Commute.smul_left (Commute.smul_right ?_ _) _
        exact commute_sum fun b hb => hcm b (List.mem_cons_of_mem _ hb) g List.mem_cons_self
  rw [if_pos rfl, key _ _ hc, C97_groups_sum, ← Matrix.exp_nsmul]
  congr 1
  rw [← Nat.cast_smul_eq_nsmul ℂ, smul_smul]
  congr 1
  have : (steps : ℂ) ≠ 0 := by exact_mod_cast hs
  push_cast
  field_simp

/-! ### The operator that is simulated -/

theorem mem_dset {R : Type} {d : QOp R} {t : Term} {v : R} {q : Term × R} (h : q ∈ dset d t v) :
    (q.2 = v ∨ q ∈ d) ∧ (q.1 = t ∨ ∃ c, (q.1, c) ∈ d) := by
  induction d with
  | nil =>
    simp only [dset, List.mem_singleton] at h
    subst h; exact ⟨Or.inl rfl, Or.inl rfl⟩
  | cons p d ih =>
    obtain ⟨s, c⟩ := p
    unfold dset at h
    split at h
    · rcases List.mem_cons.mp h with rfl | h
      · exact ⟨Or.inl rfl, Or.inr ⟨c, by simp⟩⟩
      · exact ⟨Or.inr (List.mem_cons_of_mem _ h), Or.inr ⟨q.2, List.mem_cons_of_mem _ h⟩⟩
    · rcases List.mem_cons.mp h with rfl | h
      · exact ⟨Or.inr (by simp), Or.inr ⟨c, by simp⟩⟩
      · obtain ⟨h1, h2⟩ := ih h
        refine ⟨h1.imp_right (List.mem_cons_of_mem _), h2.imp_right ?_⟩
        rintro ⟨c', hc'⟩
        exact ⟨c', List.mem_cons_of_mem _ hc'⟩

theorem dget_real {d : QOp ℂ} (h : ∀ p ∈ d, star p.2 = p.2) (t : Term) : star (dget d t) = dget d t := by
  induction d with
  | nil => simp [dget]
  | cons p d ih =>
    obtain ⟨s, c⟩ := p
    unfold dget
    split
    · exact h (s, c) List.mem_cons_self
    · exact ih fun q hq => h q (List.mem_cons_of_mem _ hq)

theorem dwf_filter {R : Type} {d : QOp R} (h : DWF d) (P : Term × R → Bool) : DWF (d.filter P) :=
  dwf_of_pairwise ((dwf_pairwise h).sublist List.filter_sublist)

/-- C97: for a Hermitian operator with real coefficients, `eliminate_ladder_conjugates` gives an operator that fulfils the assumptions
and stands for the same matrix. -/
theorem C97_hermitian {n : Nat} [DecidableEq ℂ] {d : QOp ℂ} (h : OpOk n d) (hr : ∀ p ∈ d, star p.2 = p.2)
    (hh : (omat id n d).conjTranspose = omat id n d) : OpOk n (elimQ d) ∧ symOp reC n (elimQ d) = omat id n d := by
  have hadj : ∀ p ∈ d, (adjT p.1).WF ∧ NoI (adjT p.1) ∧ ∀ k ∈ (adjT p.1).keys, k < n := by
    intro p hp
    rw [adjT_map (h.noI p hp)]
    have hk : Term.keys (p.1.map fun q => (q.1, facAdj q.2)) = p.1.keys := by
      unfold Term.keys
      rw [List.map_map]; rfl
    refine ⟨?_, ?_, by rw [hk]; exact h.lt p hp⟩
    · unfold Term.WF
      rw [hk]; exact h.wf p hp
    · intro q hq
      obtain ⟨x, hx, rfl⟩ := List.mem_map.mp hq
      have h1 : ∀ f : Fac, f ≠ .I → facAdj f ≠ .I := by decide +kernel
      exact h1 _ (h.noI p hp x hx)
  have inv : ∀ (e nd : QOp ℂ), (∀ p ∈ e, p ∈ d) → DWF nd → (∀ p ∈ nd, star p.2 = p.2 ∧ p.1.WF ∧ NoI p.1 ∧ ∀ k ∈ p.1.keys, k < n) →
      DWF (e.foldl elimStep nd) ∧ ∀ p ∈ e.foldl elimStep nd, star p.2 = p.2 ∧ p.1.WF ∧ NoI p.1 ∧ ∀ k ∈ p.1.keys, k < n := by
    intro e
    induction e with
    | nil => intro nd _ h1 h2; exact ⟨h1, h2⟩
    | cons p e ih =>
      intro nd hsub h1 h2
      have hp := hsub p List.mem_cons_self
      have key : ∀ t v, star v = v → (t.WF ∧ NoI t ∧ ∀ k ∈ t.keys, k < n) → ∀ q ∈ dset nd t v,
          star q.2 = q.2 ∧ q.1.WF ∧ NoI q.1 ∧ ∀ k ∈ q.1.keys, k < n := by
        intro t v hv ht q hq
        obtain ⟨a, b⟩ := mem_dset hq
        refine ⟨?_, ?_⟩
        · rcases a with a | a
          · rw [a, hv]
          · exact (h2 q a).1
        · rcases b with b | ⟨c, b⟩
          · rw [b]; exact ht
          · exact (h2 _ b).2
      have hpt : p.1.WF ∧ NoI p.1 ∧ ∀ k ∈ p.1.keys, k < n := ⟨h.wf p hp, h.noI p hp, h.lt p hp⟩
      rw [List.foldl_cons]
      apply ih _ fun q hq => hsub q (List.mem_cons_of_mem _ hq)
      · unfold elimStep
        split
        · exact DWF_dset h1 _ _
        · split <;> exact DWF_dset h1 _ _
      · unfold elimStep
        split
        · exact key _ _ (hr p hp) hpt
        · split
          · refine key _ _ ?_ (hadj p hp)
            rw [star_add, dget_real (fun q hq => (h2 q hq).1), hr p hp]
          · exact key _ _ (hr p hp) hpt
  obtain ⟨i1, i2⟩ := inv d [] (fun _ hp => hp) trivial (fun p hp => by simp at hp)
  have i3 : ∀ p ∈ elimQ d, star p.2 = p.2 ∧ p.1.WF ∧ NoI p.1 ∧ ∀ k ∈ p.1.keys, k < n := fun p hp => i2 p (List.mem_filter.mp hp).1
  refine ⟨⟨dwf_filter i1 _, fun p hp => (i3 p hp).2.1, fun p hp => (i3 p hp).2.2.1, fun p hp => (i3 p hp).2.2.2⟩, ?_⟩
  rw [← C50_elim_partial n h.dwf h.noI hr hh]
  unfold symOp
  congr 1
  refine List.map_congr_left fun p hp => ?_
  congr 1
  have : (starRingEnd ℂ) p.2 = p.2 := (i3 p hp).1
  exact Complex.conj_eq_iff_re.mp this

/-- Three groups: the Z terms, the ladder term and the X terms. -/
example : qwGroups (fun a b => (a.keys ++ b.keys).dedup) [([(0, .X)], (1 : ℚ)), ([(0, .Z), (1, .Z)], 2), ([(1, .X)], 3), ([(2, .A), (3, .C)], 4)] =
    [[([(0, .Z), (1, .Z)], 2)], [([(2, .A), (3, .C)], 4)], [([(0, .X)], 1), ([(1, .X)], 3)]] := by decide +kernel

end Verif.Props
