import Verif.Jasp.ExtractQc

/-!
# The equations: construction of the circuit and execution
-/

namespace Verif.Jasp.Xt

/-! ### Parities -/

def bval (w : World) (c : Nat) : Bool := (w.mem c).getD false

theorem xors_append : ∀ a b : List Bool, xors (a ++ b) = (xors a ^^ xors b)
  | [], b => by simp [xors]
  | x :: a, b => by simp only [List.cons_append, xors, xors_append a b, Bool.xor_assoc]

theorem xors_perm {a b : List Bool} (h : a.Perm b) : xors a = xors b := by
  induction h with
  | nil => rfl
  | cons x _ ih => simp only [xors, ih]
  | swap x y l => simp only [xors, ← Bool.xor_assoc, Bool.xor_comm x y]
  | trans _ _ h1 h2 => rw [h1, h2]

theorem bits_val {w : World} {cs : List Nat} {bs : List Bool} (h : List.Forall₂ (Bit w) cs bs) : bs = cs.map (bval w) := by
  induction h with
  | nil => rfl
  | cons h1 _ ih => simp only [List.map_cons, ← ih, bval, show w.mem _ = _ from h1, Option.getD_some]

theorem val_bits {w : World} {cs : List Nat} (h : ∀ c ∈ cs, (w.mem c).isSome) : List.Forall₂ (Bit w) cs (cs.map (bval w)) := by
  induction cs with
  | nil => exact .nil
  | cons c cs ih =>
    refine .cons ?_ (ih fun d hd => h d (List.mem_cons_of_mem _ hd))
    have := h c List.mem_cons_self
    obtain ⟨b, hb⟩ := Option.isSome_iff_exists.mp this
    simp only [Bit, bval, hb, Option.getD_some]

theorem bit_some {w : World} {cs : List Nat} {bs : List Bool} (h : List.Forall₂ (Bit w) cs bs) : ∀ c ∈ cs, (w.mem c).isSome := by
  induction h with
  | nil => intro c hc; cases hc
  | cons h1 _ ih =>
    intro c hc
    rcases List.mem_cons.mp hc with rfl | hc
    · rw [show w.mem _ = _ from h1]; rfl
    · exact ih c hc

theorem symd_nodup {a l : List Nat} (ha : a.Nodup) (hl : l.Nodup) : (symd a l).Nodup := by
  rw [symd, List.nodup_append]
  refine ⟨ha.filter _, hl.filter _, fun x hx y hy e => ?_⟩
  subst e
  simp only [List.mem_filter, Bool.not_eq_true', List.contains_eq_mem, decide_eq_false_iff_not] at hx hy
  exact hx.2 hy.1

theorem mem_symd {a l : List Nat} {c : Nat} (h : c ∈ symd a l) : c ∈ a ∨ c ∈ l := by
  rw [symd, List.mem_append, List.mem_filter, List.mem_filter] at h
  tauto

theorem xors_filter (f : Nat → Bool) (p : Nat → Bool) : ∀ l : List Nat,
    xors (l.map f) = (xors ((l.filter p).map f) ^^ xors ((l.filter fun c => !p c).map f))
  | [] => by simp [xors]
  | c :: l => by
    simp only [List.map_cons, xors, List.filter_cons, xors_filter f p l]
    cases hp : p c <;> simp [xors]
    rw [← Bool.xor_assoc, Bool.xor_comm (f c), Bool.xor_assoc]

theorem xors_symd (f : Nat → Bool) {a l : List Nat} (ha : a.Nodup) (hl : l.Nodup) :
    xors ((symd a l).map f) = (xors (a.map f) ^^ xors (l.map f)) := by
  rw [symd, List.map_append, xors_append, xors_filter f (fun c => l.contains c) a, xors_filter f (fun c => a.contains c) l]
  have : (a.filter fun c => l.contains c).Perm (l.filter fun c => a.contains c) := by
    rw [List.perm_ext_iff_of_nodup (ha.filter _) (hl.filter _)]
    intro c
    simp only [List.mem_filter, List.contains_eq_mem, decide_eq_true_eq]
    tauto
  rw [xors_perm (this.map f)]
  generalize xors ((l.filter fun c => a.contains c).map f) = u
  generalize xors ((a.filter fun c => !l.contains c).map f) = v
  generalize xors ((l.filter fun c => !a.contains c).map f) = t
  cases u <;> cases v <;> cases t <;> rfl

/-- An input of a parity contributes its value. -/
theorem par_input {w : World} {x : EVal} {y : XVal} (h : XR w x y) {i : Int} (hi : x.toInt = some i) (hp : y.isProc = false)
    (ho : oddIn y = false) :
    (parBits y).Nodup ∧ (∀ c ∈ parBits y, (w.mem c).isSome) ∧ decide (i % 2 = 1) = xors ((parBits y).map (bval w)) := by
  cases h with
  | int j =>
    simp only [EVal.toInt, Option.some.injEq] at hi
    subst hi
    simp only [oddIn] at ho
    simp [parBits, xors, ho]
  | clb hc =>
    simp only [EVal.toInt, Option.some.injEq] at hi
    subst hi
    refine ⟨by simp [parBits], fun c hc' => ?_, ?_⟩
    · simp only [parBits, List.mem_singleton] at hc'
      subst hc'
      rw [show w.mem _ = _ from hc]; rfl
    · rename_i c b
      simp only [parBits, List.map_cons, List.map_nil, xors, bval, show w.mem _ = _ from hc, Option.getD_some]
      cases b <;> rfl
  | clist hl => simp [oddIn] at ho
  | par e hn hl =>
    simp only [EVal.toInt, Option.some.injEq] at hi
    subst hi
    simp only [oddIn] at ho
    subst ho
    refine ⟨hn, bit_some hl, ?_⟩
    rw [bits_val hl]
    simp only [parBits, Bool.xor_false]
    cases xors (List.map (bval w) _) <;> rfl
  | proc j => simp [XVal.isProc] at hp
  | qb hq => simp [EVal.toInt] at hi
  | qproc q => simp [EVal.toInt] at hi
  | arr hl => simp [EVal.toInt] at hi
  | aproc l => simp [EVal.toInt] at hi

theorem par_fold {w : World} : ∀ {xs : List EVal} {ys : List XVal} {is : List Int} {a : List Nat}, List.Forall₂ (XR w) xs ys →
    allM EVal.toInt xs = some is → ys.any XVal.isProc = false → ys.any oddIn = false → a.Nodup → (∀ c ∈ a, (w.mem c).isSome) →
    (ys.foldl (fun a x => symd a (parBits x)) a).Nodup ∧ (∀ c ∈ ys.foldl (fun a x => symd a (parBits x)) a, (w.mem c).isSome) ∧
    xors ((ys.foldl (fun a x => symd a (parBits x)) a).map (bval w)) =
      (xors (a.map (bval w)) ^^ xors (is.map fun i => decide (i % 2 = 1))) := by
  intro xs
  induction xs with
  | nil =>
    intro ys is a h1 h2 _ _ h5 h6
    cases h1
    simp only [allM, Option.some.injEq] at h2
    subst h2
    simp [xors, h5]
    exact fun c hc => h6 c hc
  | cons x xs ih =>
    intro ys is a h1 h2 h3 h4 h5 h6
    cases h1 with
    | cons hx hxs =>
      rename_i y ys
      simp only [allM, Option.bind_eq_some_iff, Option.some.injEq] at h2
      obtain ⟨i, hi, is', his, rfl⟩ := h2
      simp only [List.any_cons, Bool.or_eq_false_iff] at h3 h4
      obtain ⟨k1, k2, k3⟩ := par_input hx hi h3.1 h4.1
      obtain ⟨m1, m2, m3⟩ := ih (a := symd a (parBits y)) hxs his h3.2 h4.2 (symd_nodup h5 k1)
        (fun c hc => (mem_symd hc).elim (h6 c) (k2 c))
      refine ⟨m1, m2, ?_⟩
      rw [List.foldl_cons, m3, xors_symd _ h5 k1, List.map_cons, xors, k3, Bool.xor_assoc]

/-! ### Classical values -/

theorem xr_int {w x y i} (h : XR w x y) (hx : x.toInt = some i) {j} (hy : y.toInt = some j) : j = i := by
  cases h <;> simp_all [EVal.toInt, XVal.toInt]

theorem xr_ints {w xs ys} (h : List.Forall₂ (XR w) xs ys) : ∀ {is js}, allM EVal.toInt xs = some is → allM XVal.toInt ys = some js →
    js = is := by
  induction h with
  | nil => intro is js h1 h2; simp only [allM, Option.some.injEq] at h1 h2; rw [← h1, ← h2]
  | cons h1 _ ih =>
    intro is js h2 h3
    simp only [allM, Option.bind_eq_some_iff, Option.some.injEq] at h2 h3
    obtain ⟨i, k1, is', k2, rfl⟩ := h2
    obtain ⟨j, k3, js', k4, rfl⟩ := h3
    rw [xr_int h1 k1 k3, ih k2 k4]

theorem xr_qbs {w xs ys} (h : List.Forall₂ (XR w) xs ys) : ∀ {is js}, allM EVal.toQb xs = some is → allM XVal.toQb ys = some js →
    List.Forall₂ (RQ w) is js := by
  induction h with
  | nil => intro is js h1 h2; simp only [allM, Option.some.injEq] at h1 h2; rw [← h1, ← h2]; exact .nil
  | cons h1 _ ih =>
    intro is js h2 h3
    simp only [allM, Option.bind_eq_some_iff, Option.some.injEq] at h2 h3
    obtain ⟨i, k1, is', k2, rfl⟩ := h2
    obtain ⟨j, k3, js', k4, rfl⟩ := h3
    refine .cons ?_ (ih k2 k4)
    cases h1 <;> simp_all [EVal.toQb, XVal.toQb]

theorem xr_map (w : World) (zs : List Int) : List.Forall₂ (XR w) (zs.map .int) (zs.map .int) := by
  induction zs with
  | nil => exact .nil
  | cons a l ih => exact .cons (.int a) ih

theorem xr_procs (w : World) (zs : List Int) : List.Forall₂ (XR w) (zs.map .int) (List.replicate zs.length .proc) := by
  induction zs with
  | nil => exact .nil
  | cons a l ih => exact .cons (.proc a) ih

theorem cnd_ints {w xs ys} (h : List.Forall₂ (XR w) xs ys) {i : Nat} : ∀ {n}, (xs.map EVal.toInt)[i]? = some (some n) →
    ∀ {m}, (ys.map XVal.toInt)[i]? = some (some m) → m = n := by
  induction h generalizing i with
  | nil => intro n hn; simp at hn
  | cons h1 _ ih =>
    intro n hn m hm
    cases i with
    | zero =>
      simp only [List.map_cons, List.getElem?_cons_zero, Option.some.injEq] at hn hm
      exact xr_int h1 hn hm
    | succ i =>
      simp only [List.map_cons, List.getElem?_cons_succ] at hn hm
      exact ih hn hm

theorem cnd_pos {w xs ys} (h : List.Forall₂ (XR w) xs ys) : ∀ {pos : List Nat} {is js},
    allM (fun i => ((xs.map EVal.toInt)[i]?).bind id) pos = some is → allM (fun i => ((ys.map XVal.toInt)[i]?).bind id) pos = some js →
    js = is := by
  intro pos
  induction pos with
  | nil => intro is js h1 h2; simp only [allM, Option.some.injEq] at h1 h2; rw [← h1, ← h2]
  | cons p pos ih =>
    intro is js h2 h3
    simp only [allM, Option.bind_eq_some_iff, Option.some.injEq, id] at h2 h3
    obtain ⟨i, ⟨_, k1, rfl⟩, is', k2, rfl⟩ := h2
    obtain ⟨j, ⟨_, k3, rfl⟩, js', k4, rfl⟩ := h3
    rw [cnd_ints h k1 k3, ih k2 k4]

/-! ### Arrays of qubits -/

theorem rq_get {w : World} {l l' : List Nat} (h : List.Forall₂ (RQ w) l l') {i q q' : Nat} (h1 : l[i]? = some q) (h2 : l'[i]? = some q') :
    RQ w q q' := by
  induction h generalizing i with
  | nil => simp at h1
  | cons ha _ ih =>
    cases i with
    | zero => simp only [List.getElem?_cons_zero, Option.some.injEq] at h1 h2; rw [← h1, ← h2]; exact ha
    | succ i => simp only [List.getElem?_cons_succ] at h1 h2; exact ih h1 h2

theorem rq_idx {w : World} {l l' : List Nat} (h : List.Forall₂ (RQ w) l l') {i : Int} {q q'} (h1 : pyIdx l i = some q)
    (h2 : pyIdx l' i = some q') : RQ w q q' := by
  simp only [pyIdx, ← h.length_eq] at h1 h2
  split_ifs at h1 h2
  · exact rq_get h h1 h2
  · exact rq_get h h1 h2

theorem rq_slice {w : World} {l l' : List Nat} (h : List.Forall₂ (RQ w) l l') (i j : Int) :
    List.Forall₂ (RQ w) (pySlice l i j) (pySlice l' i j) := by
  simp only [pySlice, ← h.length_eq]
  have ht : ∀ n, List.Forall₂ (RQ w) (l.take n) (l'.take n) := by
    clear i j
    induction h with
    | nil => intro n; simp
    | cons h1 _ ih => intro n; cases n with
      | zero => exact .nil
      | succ n => exact .cons h1 (ih n)
  have hd : ∀ {a b : List Nat} (n : Nat), List.Forall₂ (RQ w) a b → List.Forall₂ (RQ w) (a.drop n) (b.drop n) := by
    intro a b n hab
    induction hab generalizing n with
    | nil => simp
    | cons h1 h2 ih => cases n with
      | zero => exact .cons h1 h2
      | succ n => exact ih n
  exact hd _ (ht _)

theorem evr_map {w : World} {l l' : List Nat} {f : Nat → Ev} (hf : ∀ {q q'}, RQ w q q' → EvR w (f q) (f q')) (h : List.Forall₂ (RQ w) l l') :
    List.Forall₂ (EvR w) (l.map f) (l'.map f) := by
  induction h with
  | nil => exact .nil
  | cons h1 _ ih => exact .cons (hf h1) ih

theorem xr_fuse {w x y x' y' l l'} (hx : XR w x x') (hy : XR w y y') (h1 : fuseE x y = some l) (h2 : fuseX x' y' = some l') :
    List.Forall₂ (RQ w) l l' := by
  cases hx <;> cases hy <;> simp only [fuseE, fuseX, Option.some.injEq, reduceCtorEq] at h1 h2 <;> subst h1 <;> subst h2
  · rename_i a _ _ b; exact .cons a (.cons b .nil)
  · rename_i a _ _ b; exact .cons a b
  · rename_i a _ _ b; exact forall2_append a (.cons b .nil)
  · rename_i a _ _ b; exact forall2_append a b

theorem forall2_take {α β : Type} {R : α → β → Prop} {a b} (h : List.Forall₂ R a b) : ∀ n, List.Forall₂ R (a.take n) (b.take n) := by
  induction h with
  | nil => intro n; simp
  | cons h1 _ ih => intro n; cases n with
    | zero => exact .nil
    | succ n => exact .cons h1 (ih n)

theorem forall2_drop {α β : Type} {R : α → β → Prop} {a b} (h : List.Forall₂ R a b) : ∀ n, List.Forall₂ R (a.drop n) (b.drop n) := by
  induction h with
  | nil => intro n; simp
  | cons h1 h2 ih => intro n; cases n with
    | zero => exact .cons h1 h2
    | succ n => exact ih n

theorem exec_getq {mb xs s z} (h : execP mb .getq xs s = some z) :
    ∃ l i q, xs = [.arr l, .int i] ∧ pyIdx l i = some q ∧ z = ([.qb q], s) := by
  unfold execP at h
  split at h <;> simp only [Option.bind_eq_some_iff, Option.some.injEq, reduceCtorEq] at h <;>
    first | contradiction | (obtain ⟨q, h1, rfl⟩ := h; exact ⟨_, _, q, rfl, h1, rfl⟩)

theorem exec_size {mb xs s z} (h : execP mb .size xs s = some z) : ∃ l, xs = [.arr l] ∧ z = ([.int l.length], s) := by
  unfold execP at h
  split at h <;> simp only [Option.bind_eq_some_iff, Option.some.injEq, reduceCtorEq] at h <;>
    first | contradiction | exact ⟨_, rfl, h.symm⟩

theorem exec_fuse {mb xs s z} (h : execP mb .fuse xs s = some z) :
    ∃ x y l, xs = [x, y] ∧ fuseE x y = some l ∧ z = ([.arr l], { s with odd := s.odd || !(isArr x && isArr y) }) := by
  unfold execP at h
  split at h <;> simp only [Option.bind_eq_some_iff, Option.some.injEq, reduceCtorEq] at h <;>
    first | contradiction | (obtain ⟨q, h1, rfl⟩ := h; exact ⟨_, _, q, rfl, h1, rfl⟩)

theorem exec_slice {mb xs s z} (h : execP mb .slice xs s = some z) :
    ∃ l i j b, xs = [.arr l, .int i, .int j] ∧ z = ([.arr (pySlice l i j)], { s with odd := b }) := by
  unfold execP at h
  split at h <;> simp only [Option.bind_eq_some_iff, Option.some.injEq, reduceCtorEq] at h <;>
    first | contradiction | exact ⟨_, _, _, _, rfl, h.symm⟩


/-! ### All equations -/

/-- The result of one equation. -/
def Ok (mb : Nat → Bool) (r0 : Rt) (w : World) (z : List EVal × St) (z' : List XVal × Qc) : Prop :=
  ∃ w', w.le w' ∧ List.Forall₂ (XR w') z.1 z'.1 ∧ RS mb r0 w' z.2 z'.2

theorem quant_lost {p : Prim} (hp : ∀ f n, p ≠ .cls f n) (hc : ∀ t, p ≠ .conv t) (hq : ∀ e o, p ≠ .parity e o) {xs : List XVal} {x : Qc} {z'}
    (h : extP p xs x = some z') (hl : z'.2.lost = false) :
    (takesState p = false ∧ z' = (List.replicate (outsOf p) .proc, x)) ∨ (xs.any mdata = false ∧ quantX p xs x = some z') := by
  have : (if takesState p && x.lost || xs.any mdata then
        some (List.replicate (outsOf p) .proc, { x with lost := x.lost || takesState p })
      else quantX p xs x) = some z' := by
    cases p <;> first | exact h | exact absurd rfl (hp _ _) | exact absurd rfl (hc _) | exact absurd rfl (hq _ _)
  by_cases hb : (takesState p && x.lost || xs.any mdata) = true
  · rw [if_pos hb, Option.some.injEq] at this
    subst this
    simp only [Bool.or_eq_false_iff] at hl
    refine .inl ⟨hl.2, ?_⟩
    simp only [hl.1, hl.2, Bool.or_self]
    cases x
    simp only at hl
    simp only [hl.1]
  · rw [if_neg hb] at this
    simp only [Bool.not_eq_true, Bool.or_eq_false_iff] at hb
    exact .inr ⟨hb.2, this⟩

theorem ext_prim {mb r0 w} {p : Prim} {xs : List EVal} {xs' : List XVal} {s : St} {x : Qc} {z z'} (hx : List.Forall₂ (XR w) xs xs')
    (hs : RS mb r0 w s x) (h : execP mb p xs s = some z) (h' : extP p xs' x = some z') (ho : z'.2.odd = false) (hl : z'.2.lost = false) :
    Ok mb r0 w z z' := by
  cases p with
  | cls f n =>
    simp only [execP, Option.bind_eq_some_iff] at h
    obtain ⟨ys, h1, zs, h2, h⟩ := h
    by_cases hn : zs.length = n
    · rw [if_pos hn, Option.some.injEq] at h
      subst h
      simp only [extP] at h'
      by_cases hm : xs'.any mdata = true
      · rw [if_pos hm, Option.some.injEq] at h'
        subst h'
        exact ⟨w, w.le_refl, hn ▸ xr_procs w zs, hs⟩
      · rw [if_neg hm] at h'
        simp only [Option.bind_eq_some_iff] at h'
        obtain ⟨ys', k1, zs', k2, h'⟩ := h'
        rw [xr_ints hx h1 k1, h2, Option.some.injEq] at k2
        subst k2
        rw [if_pos hn, Option.some.injEq] at h'
        subst h'
        exact ⟨w, w.le_refl, xr_map w zs, hs⟩
    · simp [if_neg hn] at h
  | conv t =>
    cases hx with
    | nil => simp [execP] at h
    | cons h1 h2 =>
      cases h2 with
      | cons => simp [extP] at h'
      | nil =>
        simp only [extP] at h'
        cases h1 with
        | int i =>
          simp only [execP, convX, Option.some.injEq] at h h'
          subst h; subst h'
          exact ⟨w, w.le_refl, .cons (.int _) .nil, hs⟩
        | clb hc =>
          rename_i c b
          simp only [execP, convX, Option.some.injEq] at h h'
          subst h; subst h'
          refine ⟨w, w.le_refl, .cons ?_ .nil, hs⟩
          by_cases ht : t = .float
          · rw [if_pos ht]; exact .proc _
          · rw [if_neg ht]
            have : convInt t (b2i b) = b2i b := by cases t <;> cases b <;> rfl
            rw [this]
            exact .clb hc
        | clist hb =>
          rename_i l bs
          simp only [execP, Option.some.injEq] at h
          subst h
          cases hb with
          | nil => simp [convX] at h'
          | cons b1 b2 =>
            simp only [convX] at h'
            by_cases ht : t = .bool
            · rw [if_pos ht, Option.some.injEq] at h'
              subst h'
              simp only [Bool.or_eq_false_iff, decide_eq_false_iff_not, Decidable.not_not] at ho
              cases b2 with
              | nil =>
                rename_i c b
                refine ⟨w, w.le_refl, .cons ?_ .nil, ⟨hs.k, hs.mem, hs.ev, hs.len, hs.nodup, hs.bound, hs.fresh, hs.perm, hs.nest⟩⟩
                have : convInt t (ofBits [b]) = ofBits [b] := by rw [ht]; cases b <;> rfl
                rw [this]
                exact .clist (.cons b1 .nil)
              | cons => simp at ho
            · rw [if_neg ht, Option.some.injEq] at h'
              subst h'
              exact ⟨w, w.le_refl, .cons (.proc _) .nil, hs⟩
        | par e hn hb => simp [convX] at h'
        | proc i =>
          simp only [execP, convX, Option.some.injEq] at h h'
          subst h; subst h'
          exact ⟨w, w.le_refl, .cons (.proc _) .nil, hs⟩
        | qb hq => simp [execP] at h
        | qproc q => simp [execP] at h
        | arr hq => simp [execP] at h
        | aproc l => simp [execP] at h
  | parity e o =>
    simp only [execP, Option.bind_eq_some_iff, Option.some.injEq] at h
    obtain ⟨is, h1, h⟩ := h
    subst h
    simp only [extP, parityX] at h'
    by_cases hp : xs'.any XVal.isProc = true
    · rw [if_pos hp, Option.some.injEq] at h'
      subst h'
      exact ⟨w, w.le_refl, .cons (.proc _) .nil, hs⟩
    · rw [if_neg hp, Option.some.injEq] at h'
      subst h'
      simp only [Bool.or_eq_false_iff] at ho
      simp only [Bool.not_eq_true] at hp
      obtain ⟨k1, k2, k3⟩ := par_fold hx h1 hp ho.2 List.nodup_nil (by simp)
      generalize hS : xs'.foldl (fun a x => symd a (parBits x)) [] = S at *
      have hnod : x.clb.Nodup := hs.perm.nodup_iff.mpr List.nodup_range
      have hsub : ∀ c ∈ S, c ∈ x.clb := by
        intro c hc
        rw [hs.perm.mem_iff, List.mem_range]
        by_contra hlt
        have := k2 c hc
        rw [hs.fresh c (by omega)] at this
        cases this
      have hperm : (sortBits x.clb S).Perm S := by
        rw [sortBits, List.perm_ext_iff_of_nodup (hnod.filter _) k1]
        intro c
        simp only [List.mem_filter, List.contains_eq_mem, decide_eq_true_eq]
        exact ⟨fun h => h.2, fun h => ⟨hsub c h, h⟩⟩
      refine ⟨w, w.le_refl, .cons ?_ .nil, ?_⟩
      · have hb := val_bits (w := w) (cs := sortBits x.clb S) (fun c hc => k2 c (hperm.mem_iff.mp hc))
        have := XR.par e (hnod.filter _) hb
        rw [xors_perm (hperm.map _), k3] at this
        simpa [xors, sortBits] using this
      · constructor
        · simp only [emit, runL_append, runL, runI]; exact hs.k
        · simp only [emit, runL_append, runL, runI]; exact hs.mem
        · simp only [emit, runL_append, runL, runI]; exact hs.ev
        · exact hs.len
        · exact hs.nodup
        · exact hs.bound
        · exact hs.fresh
        · exact hs.perm
        · exact hs.nest
  | create =>
    rcases quant_lost (by simp) (by simp) (by simp) h' hl with ⟨hk, _⟩ | ⟨hm, hq⟩
    · simp [takesState] at hk
    · cases hx with
      | nil => simp [execP] at h
      | cons h1 h2 => cases h2 with
        | cons => cases h1 <;> simp [execP] at h
        | nil =>
          cases h1 <;> simp only [quantX, reduceCtorEq, Option.some.injEq] at hq <;> simp only [execP, Option.some.injEq] at h
          subst h; subst hq
          rename_i n
          obtain ⟨w', m1, m2, m3⟩ := rs_create hs n.toNat (s.odd || decide (n < 0))
          exact ⟨w', m1, .cons (.arr m2) .nil, m3⟩
  | getq =>
    obtain ⟨l, i, q, rfl, h1, rfl⟩ := exec_getq h
    obtain _ | ⟨x1, _ | ⟨x2, _ | _⟩⟩ := hx
    rcases quant_lost (by simp) (by simp) (by simp) h' hl with ⟨_, rfl⟩ | ⟨hm, hq⟩
    · exact ⟨w, w.le_refl, .cons (.qproc q) .nil, hs⟩
    · cases x1 <;> cases x2 <;> simp only [quantX, reduceCtorEq, Option.bind_eq_some_iff, Option.some.injEq] at hq
      obtain ⟨q', k1, rfl⟩ := hq
      rename_i l' ha
      exact ⟨w, w.le_refl, .cons (.qb (rq_idx ha h1 k1)) .nil, hs⟩
  | size =>
    obtain ⟨l, rfl, rfl⟩ := exec_size h
    obtain _ | ⟨x1, _ | _⟩ := hx
    rcases quant_lost (by simp) (by simp) (by simp) h' hl with ⟨_, rfl⟩ | ⟨hm, hq⟩
    · exact ⟨w, w.le_refl, .cons (.proc _) .nil, hs⟩
    · cases x1 <;> simp only [quantX, reduceCtorEq, Option.some.injEq] at hq
      subst hq
      rename_i l' ha
      refine ⟨w, w.le_refl, .cons ?_ .nil, hs⟩
      rw [ha.length_eq]
      exact .int _
  | fuse =>
    obtain ⟨u, v, l, rfl, h1, rfl⟩ := exec_fuse h
    obtain _ | ⟨x1, _ | ⟨x2, _ | _⟩⟩ := hx
    rcases quant_lost (by simp) (by simp) (by simp) h' hl with ⟨_, rfl⟩ | ⟨hm, hq⟩
    · exact ⟨w, w.le_refl, .cons (.aproc _) .nil, rs_odd hs _⟩
    · simp only [quantX, Option.bind_eq_some_iff, Option.some.injEq] at hq
      obtain ⟨l', k1, rfl⟩ := hq
      exact ⟨w, w.le_refl, .cons (.arr (xr_fuse x1 x2 h1 k1)) .nil, rs_odd hs _⟩
  | slice =>
    obtain ⟨l, i, j, b, rfl, rfl⟩ := exec_slice h
    obtain _ | ⟨x1, _ | ⟨x2, _ | ⟨x3, _ | _⟩⟩⟩ := hx
    rcases quant_lost (by simp) (by simp) (by simp) h' hl with ⟨_, rfl⟩ | ⟨hm, hq⟩
    · exact ⟨w, w.le_refl, .cons (.aproc _) .nil, rs_odd hs _⟩
    · cases x1 <;> cases x2 <;> cases x3 <;> simp only [quantX, reduceCtorEq, Option.some.injEq] at hq
      subst hq
      rename_i l' ha
      exact ⟨w, w.le_refl, .cons (.arr (rq_slice ha i j)) .nil, rs_odd hs _⟩
  | gate g n =>
    rcases quant_lost (by simp) (by simp) (by simp) h' hl with ⟨hk, _⟩ | ⟨hm, hq⟩
    · simp [takesState] at hk
    · simp only [execP, Option.bind_eq_some_iff, Option.some.injEq] at h
      simp only [quantX, Option.bind_eq_some_iff, Option.some.injEq] at hq
      obtain ⟨qs, h1, ps, h2, rfl⟩ := h
      obtain ⟨qs', k1, ps', k2, rfl⟩ := hq
      have e := xr_ints (forall2_drop hx n) h2 k2
      subst e
      exact ⟨w, w.le_refl, .nil, rs_ev hs (es := [.gate g qs ps']) (es' := [.gate g qs' ps'])
        (.cons (.gate g ps' (xr_qbs (forall2_take hx n) h1 k1)) .nil)⟩
  | meas =>
    rcases quant_lost (by simp) (by simp) (by simp) h' hl with ⟨hk, _⟩ | ⟨hm, hq⟩
    · simp [takesState] at hk
    · cases hx with
      | nil => simp [execP] at h
      | cons h1 h2 => cases h2 with
        | cons => cases h1 <;> simp [execP] at h
        | nil =>
          cases h1 <;> simp only [quantX, reduceCtorEq, Option.some.injEq] at hq <;> simp only [execP, Option.some.injEq] at h
          · subst h; subst hq
            rename_i hr
            obtain ⟨w', m1, m2, m3⟩ := rs_meas hs hr
            exact ⟨w', m1, .cons (.clb m2) .nil, m3⟩
          · subst h; subst hq
            rename_i hr
            obtain ⟨w', m1, m2, m3⟩ := rs_measL hs hr
            refine ⟨w', m1, .cons ?_ .nil, m3⟩
            rw [← hr.length_eq]
            exact .clist m2
  | reset =>
    rcases quant_lost (by simp) (by simp) (by simp) h' hl with ⟨hk, _⟩ | ⟨hm, hq⟩
    · simp [takesState] at hk
    · cases hx with
      | nil => simp [execP] at h
      | cons h1 h2 => cases h2 with
        | cons => cases h1 <;> simp [execP] at h
        | nil =>
          cases h1 <;> simp only [quantX, reduceCtorEq, Option.some.injEq] at hq <;> simp only [execP, Option.some.injEq] at h
          · subst h; subst hq
            rename_i q q' hr
            exact ⟨w, w.le_refl, .nil, rs_ev hs (es := [.reset q]) (es' := [.reset q']) (.cons (.reset hr) .nil)⟩
          · subst h; subst hq
            rename_i l l' hr
            have := rs_ev hs (evr_map (f := .reset) EvR.reset hr)
            rw [List.map_map] at this
            exact ⟨w, w.le_refl, .nil, this⟩
  | delete =>
    rcases quant_lost (by simp) (by simp) (by simp) h' hl with ⟨hk, _⟩ | ⟨hm, hq⟩
    · simp [takesState] at hk
    · cases hx with
      | nil => simp [execP] at h
      | cons h1 h2 => cases h2 with
        | cons => cases h1 <;> simp [execP] at h
        | nil =>
          cases h1 <;> simp only [quantX, reduceCtorEq, Option.some.injEq] at hq <;> simp only [execP, Option.some.injEq] at h
          subst h; subst hq
          rename_i l l' hr
          have := rs_ev hs (evr_map (f := .dealloc) EvR.dealloc hr)
          rw [List.map_map] at this
          exact ⟨w, w.le_refl, .nil, this⟩

end Verif.Jasp.Xt
