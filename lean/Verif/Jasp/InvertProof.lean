import Verif.Jasp.Invert

/-!
# The inverted program executes the inverted gates in reverse order
-/

namespace Verif.Jasp

variable {U : Type} [InvolutiveInv U]
variable {orc : List Int → Var → Int} {fuel : Nat}

theorem assemble_done (p n d : P U) : assemble p n .done d = p := rfl

theorem assemble_ne {p n o d : P U} (h : o ≠ .done) : assemble p n o d = n.app (o.app d) := by
  cases o <;> first | rfl | exact absurd rfl h

/-- The groups read and write nothing new. -/
theorem inv_vars : ∀ {p : P U} {z : P U × P U × P U}, inv p = some z →
    (∀ v ∈ z.1.reads, v ∈ p.reads) ∧ (∀ v ∈ z.2.1.reads, v ∈ p.reads) ∧
    (∀ v ∈ z.2.2.reads, v ∈ p.reads) ∧ (∀ v ∈ z.1.writes, v ∈ p.writes) ∧
    (∀ v ∈ z.2.1.writes, v ∈ p.opOuts) ∧ z.2.2.writes = [] := by
  intro p
  induction p with
  | done => intro z h; simp only [inv, Option.some.injEq] at h; subst h; simp [P.reads, P.writes]
  | cls f i o r ih =>
    intro z h
    simp only [inv, Option.map_eq_some_iff] at h
    obtain ⟨y, h1, rfl⟩ := h
    obtain ⟨a1, a2, a3, a4, a5, a6⟩ := ih h1
    simp only [P.reads, P.writes, P.opOuts, List.mem_append, List.mem_cons]
    grind
  | add s o a c r ih =>
    intro z h
    simp only [inv, Option.map_eq_some_iff] at h
    obtain ⟨y, h1, rfl⟩ := h
    obtain ⟨a1, a2, a3, a4, a5, a6⟩ := ih h1
    simp only [P.reads, P.writes, P.opOuts, List.mem_append, List.mem_cons]
    grind
  | mark o u t r ih =>
    intro z h
    simp only [inv, Option.map_eq_some_iff] at h
    obtain ⟨y, h1, rfl⟩ := h
    obtain ⟨a1, a2, a3, a4, a5, a6⟩ := ih h1
    simp only [P.reads, P.writes, P.opOuts, List.mem_append, List.mem_cons]
    grind
  | reset q r ih =>
    intro z h
    simp only [inv, Option.map_eq_some_iff] at h
    obtain ⟨y, h1, rfl⟩ := h
    obtain ⟨a1, a2, a3, a4, a5, a6⟩ := ih h1
    simp only [P.reads, P.writes, P.opOuts, List.mem_append, List.mem_cons]
    grind
  | create o s r ih =>
    intro z h
    simp only [inv, Option.map_eq_some_iff] at h
    obtain ⟨y, h1, rfl⟩ := h
    obtain ⟨a1, a2, a3, a4, a5, a6⟩ := ih h1
    simp only [P.reads, P.writes, P.opOuts, List.mem_append, List.mem_cons]
    grind
  | delete a r ih =>
    intro z h
    simp only [inv, Option.map_eq_some_iff] at h
    obtain ⟨y, h1, rfl⟩ := h
    obtain ⟨a1, a2, a3, a4, a5, a6⟩ := ih h1
    simp only [P.reads, P.writes, P.opOuts, List.mem_append, List.mem_cons]
    grind
  | gate c u ps qs r ih =>
    intro z h
    simp only [inv, Option.map_eq_some_iff] at h
    obtain ⟨y, h1, rfl⟩ := h
    obtain ⟨a1, a2, a3, a4, a5, a6⟩ := ih h1
    simp only [P.reads, P.writes, P.opOuts, reads_app, writes_app, List.mem_append] at *
    refine ⟨fun v hv => Or.inr (a1 v hv), fun v hv => ?_, fun v hv => Or.inr (a3 v hv), a4,
      fun v hv => ?_, a6⟩
    · rcases hv with hv | hv | hv
      · exact Or.inr (a2 v hv)
      · exact Or.inl hv
      · simp at hv
    · rcases hv with hv | hv
      · exact a5 v hv
      · simp at hv
  | meas o q r ih => intro z h; simp [inv] at h
  | call id ji jo b i o r _ ih =>
    intro z h
    simp only [inv, Option.map_eq_some_iff, Option.bind_eq_some_iff] at h
    obtain ⟨y, _, w, h1, rfl⟩ := h
    obtain ⟨a1, a2, a3, a4, a5, a6⟩ := ih h1
    simp only [P.reads, P.writes, P.opOuts, reads_app, writes_app, List.mem_append] at *
    refine ⟨fun v hv => Or.inr (a1 v hv), fun v hv => ?_, fun v hv => Or.inr (a3 v hv),
      fun v hv => Or.inr (a4 v hv), fun v hv => ?_, a6⟩
    · rcases hv with hv | hv | hv
      · exact Or.inr (a2 v hv)
      · exact Or.inl hv
      · simp at hv
    · rcases hv with hv | hv | hv
      · exact Or.inr (a5 v hv)
      · exact Or.inl hv
      · simp at hv
  | whl id ix le pa pb bi bo b k c o r _ ih =>
    intro z h
    simp only [inv, Option.map_eq_some_iff, Option.bind_eq_some_iff] at h
    obtain ⟨y, _, _, _, _, _, _, _, w, h1, rfl⟩ := h
    obtain ⟨a1, a2, a3, a4, a5, a6⟩ := ih h1
    simp only [P.reads, P.writes, P.opOuts, reads_app, writes_app, List.mem_append] at *
    refine ⟨fun v hv => Or.inr (a1 v hv), fun v hv => ?_, fun v hv => Or.inr (a3 v hv),
      fun v hv => Or.inr (a4 v hv), fun v hv => ?_, a6⟩
    · rcases hv with hv | (hv | hv) | hv
      · exact Or.inr (a2 v hv)
      · exact Or.inl (Or.inl hv)
      · refine Or.inl (Or.inr ?_)
        unfold swapAt at hv
        split at hv
        · rename_i x y hx hy
          rcases List.mem_or_eq_of_mem_set hv with hv | rfl
          · rcases List.mem_or_eq_of_mem_set hv with hv | rfl
            · exact hv
            · exact List.mem_of_getElem? hy
          · exact List.mem_of_getElem? hx
        · exact hv
      · simp at hv
    · rcases hv with hv | hv | hv
      · exact Or.inr (a5 v hv)
      · exact Or.inl hv
      · simp at hv
  | cond id q ti tt t fi ft f i o r _ _ ih =>
    intro z h
    simp only [inv, Option.map_eq_some_iff, Option.bind_eq_some_iff] at h
    obtain ⟨_, _, _, _, w, h1, rfl⟩ := h
    obtain ⟨a1, a2, a3, a4, a5, a6⟩ := ih h1
    simp only [P.reads, P.writes, P.opOuts, reads_app, writes_app, List.mem_append] at *
    refine ⟨fun v hv => Or.inr (a1 v hv), fun v hv => ?_, fun v hv => Or.inr (a3 v hv),
      fun v hv => Or.inr (a4 v hv), fun v hv => ?_, a6⟩
    · rcases hv with hv | hv | hv
      · exact Or.inr (a2 v hv)
      · exact Or.inl hv
      · simp at hv
    · rcases hv with hv | hv | hv
      · exact Or.inr (a5 v hv)
      · exact Or.inl hv
      · simp at hv

theorem opOuts_writes : ∀ (p : P U), ∀ v ∈ p.opOuts, v ∈ p.writes := by
  intro p
  induction p <;> simp_all [P.opOuts, P.writes] <;> intro v hv <;> rcases hv with hv | hv <;> simp_all

/-- Inverting a program in two parts. -/
theorem inv_app : ∀ {p q : P U} {z : P U × P U × P U}, inv (p.app q) = some z →
    ∃ x y, inv p = some x ∧ inv q = some y ∧
      z = (x.1.app y.1, y.2.1.app x.2.1, x.2.2.app y.2.2) := by
  intro p q
  induction p with
  | done =>
    intro z h
    exact ⟨(.done, .done, .done), z, rfl, h, by simp [P.app, app_done]⟩
  | cls f i o r ih =>
    intro z h
    simp only [P.app, inv, Option.map_eq_some_iff] at h
    obtain ⟨w, h1, rfl⟩ := h
    obtain ⟨x, y, hx, hy, rfl⟩ := ih h1
    exact ⟨_, y, (by simp only [inv, hx, Option.map_some]; rfl), hy, by simp [P.app, app_assoc]⟩
  | add s o a c r ih =>
    intro z h
    simp only [P.app, inv, Option.map_eq_some_iff] at h
    obtain ⟨w, h1, rfl⟩ := h
    obtain ⟨x, y, hx, hy, rfl⟩ := ih h1
    exact ⟨_, y, (by simp only [inv, hx, Option.map_some]; rfl), hy, by simp [P.app, app_assoc]⟩
  | mark o u t r ih =>
    intro z h
    simp only [P.app, inv, Option.map_eq_some_iff] at h
    obtain ⟨w, h1, rfl⟩ := h
    obtain ⟨x, y, hx, hy, rfl⟩ := ih h1
    exact ⟨_, y, (by simp only [inv, hx, Option.map_some]; rfl), hy, by simp [P.app, app_assoc]⟩
  | reset q r ih =>
    intro z h
    simp only [P.app, inv, Option.map_eq_some_iff] at h
    obtain ⟨w, h1, rfl⟩ := h
    obtain ⟨x, y, hx, hy, rfl⟩ := ih h1
    exact ⟨_, y, (by simp only [inv, hx, Option.map_some]; rfl), hy, by simp [P.app, app_assoc]⟩
  | create o s r ih =>
    intro z h
    simp only [P.app, inv, Option.map_eq_some_iff] at h
    obtain ⟨w, h1, rfl⟩ := h
    obtain ⟨x, y, hx, hy, rfl⟩ := ih h1
    exact ⟨_, y, (by simp only [inv, hx, Option.map_some]; rfl), hy, by simp [P.app, app_assoc]⟩
  | delete a r ih =>
    intro z h
    simp only [P.app, inv, Option.map_eq_some_iff] at h
    obtain ⟨w, h1, rfl⟩ := h
    obtain ⟨x, y, hx, hy, rfl⟩ := ih h1
    exact ⟨_, y, (by simp only [inv, hx, Option.map_some]; rfl), hy, by simp [P.app, app_assoc]⟩
  | gate c u ps qs r ih =>
    intro z h
    simp only [P.app, inv, Option.map_eq_some_iff] at h
    obtain ⟨w, h1, rfl⟩ := h
    obtain ⟨x, y, hx, hy, rfl⟩ := ih h1
    exact ⟨_, y, (by simp only [inv, hx, Option.map_some]; rfl), hy, by simp [P.app, app_assoc]⟩
  | meas o a r ih => intro z h; simp [P.app, inv] at h
  | call id ji jo b i o r _ ih =>
    intro z h
    simp only [P.app, inv, Option.map_eq_some_iff, Option.bind_eq_some_iff] at h
    obtain ⟨w', hb, w, h1, rfl⟩ := h
    obtain ⟨x, y, hx, hy, rfl⟩ := ih h1
    exact ⟨_, y, (by simp only [inv, hx, hb, Option.map_some, Option.bind_some]; rfl), hy, by simp [P.app, app_assoc]⟩
  | whl id ix le pa pb bi bo b k c o r _ ih =>
    intro z h
    simp only [P.app, inv, Option.map_eq_some_iff, Option.bind_eq_some_iff] at h
    obtain ⟨w', hb, v, hv, b', hb', n', hn', w, h1, rfl⟩ := h
    obtain ⟨x, y, hx, hy, rfl⟩ := ih h1
    exact ⟨_, y, (by simp only [inv, hx, hb, hv, hb', hn', Option.map_some, Option.bind_some]; rfl), hy, by simp [P.app, app_assoc]⟩
  | cond id q ti tt t fi ft f i o r _ _ ih =>
    intro z h
    simp only [P.app, inv, Option.map_eq_some_iff, Option.bind_eq_some_iff] at h
    obtain ⟨w1, hb1, w2, hb2, w, h1, rfl⟩ := h
    obtain ⟨x, y, hx, hy, rfl⟩ := ih h1
    exact ⟨_, y, (by simp only [inv, hx, hb1, hb2, Option.map_some, Option.bind_some]; rfl), hy, by simp [P.app, app_assoc]⟩

theorem flipLast_none : ∀ {p : P U} {v : Var}, v ∉ p.writes → flipLast v p = none := by
  intro p v
  induction p with
  | done => intro _; rfl
  | add s o a c r ih =>
    intro h
    simp only [P.writes, List.mem_cons, not_or] at h
    simp only [flipLast, ih h.2]
    rw [if_neg (fun e => h.1 e.symm)]
  | cls _ _ _ _ ih => intro h; simp_all [P.writes, flipLast]
  | mark _ _ _ _ ih => intro h; simp_all [P.writes, flipLast]
  | gate _ _ _ _ _ ih => intro h; simp_all [P.writes, flipLast]
  | meas _ _ _ ih => intro h; simp_all [P.writes, flipLast]
  | reset _ _ ih => intro h; simp_all [P.writes, flipLast]
  | create _ _ _ ih => intro h; simp_all [P.writes, flipLast]
  | delete _ _ ih => intro h; simp_all [P.writes, flipLast]
  | call _ _ _ _ _ _ _ _ ih => intro h; simp_all [P.writes, flipLast]
  | whl _ _ _ _ _ _ _ _ _ _ _ _ _ ih => intro h; simp_all [P.writes, flipLast]
  | cond _ _ _ _ _ _ _ _ _ _ _ _ _ ih => intro h; simp_all [P.writes, flipLast]

theorem flipLast_app : ∀ {p q q' : P U} {v : Var}, flipLast v q = some q' →
    flipLast v (p.app q) = some (p.app q') := by
  intro p q q' v h
  induction p <;> simp_all [P.app, flipLast]

theorem findMark_app : ∀ {p q : P U} {v : Var}, findMark q = some v →
    findMark (p.app q) = some v := by
  intro p q v h
  induction p <;> simp_all [P.app, findMark]

/-! ### Traces -/

theorem gates_append (a b : List (Ev U)) : gates (a ++ b) = gates a ++ gates b :=
  List.filter_append ..

theorem others_append (a b : List (Ev U)) : others (a ++ b) = others a ++ others b :=
  List.filter_append ..

/-- The second trace undoes the first: its gates are the inverted gates in reverse order, and it
    allocates and frees the same qubits. -/
def Undoes (t t' : List (Ev U)) : Prop :=
  gates t' = ((gates t).map Ev.inv).reverse ∧ (others t').Perm (others t)

theorem Undoes.append {a a' b b' : List (Ev U)} (h : Undoes a a') (h' : Undoes b b') :
    Undoes (a ++ b) (b' ++ a') := by
  refine ⟨?_, ?_⟩
  · rw [gates_append, gates_append, h.1, h'.1]; simp
  · rw [others_append, others_append]
    exact (List.Perm.append h'.2 h.2).trans List.perm_append_comm

/-! ### Loops -/

/-- The loop with exchanged bounds and reversed steps undoes the loop. -/
theorem loop_inv {F G : List Val → Option (List Val × List (Ev U))}
    {cf cg : List Val → Option Bool} {cs : List Val} {s : Int} (hs : s = 1 ∨ s = -1)
    (hcf : ∀ a i : Int, cf (.int a :: .int i :: cs) = some (decide (s * i ≤ s * a)))
    (hcg : ∀ a i : Int, cg (.int a :: .int i :: cs) = some (decide (s * a ≤ s * i)))
    (H : ∀ (a i : Int) r, F (.int a :: .int i :: cs) = some r →
      r.1 = .int a :: .int (i + s) :: cs ∧ ∃ t', Undoes r.2 t' ∧ ∀ b : Int,
        G (.int b :: .int i :: cs) = some (.int b :: .int (i - s) :: cs, t')) :
    ∀ (fuel : Nat) (a i : Int) r, loop F cf fuel (.int a :: .int i :: cs) = some r →
      (∃ j : Int, r.1 = .int a :: .int j :: cs) ∧
      ∃ (j : Int) (t' : List (Ev U)), loop G cg fuel (.int i :: .int a :: cs) =
        some (.int i :: .int j :: cs, t') ∧ Undoes r.2 t' := by
  have key : ∀ (fuel : Nat) (a i : Int) r, s * i ≤ s * a + 1 →
      loop F cf fuel (.int a :: .int i :: cs) = some r →
      (∃ j : Int, r.1 = .int a :: .int j :: cs) ∧
      ∃ (k f : Nat) (t' : List (Ev U)), fuel = k + (f + 1) ∧ Undoes r.2 t' ∧
        ∀ (b : Int) (g : Nat), s * b ≤ s * i →
          loop G cg (k + g) (.int b :: .int a :: cs) =
            (loop G cg g (.int b :: .int (i - s) :: cs)).bind fun z => some (z.1, t' ++ z.2) := by
    intro fuel
    induction fuel with
    | zero => intro a i r _ h; simp [loop] at h
    | succ n ih =>
      intro a i r hle h
      simp only [loop, hcf, Option.bind_some] at h
      by_cases hc : s * i ≤ s * a
      · rw [if_pos (by simpa using hc)] at h
        simp only [Option.bind_eq_some_iff, Option.some.injEq] at h
        obtain ⟨r1, h1, r2, h2, rfl⟩ := h
        obtain ⟨e1, t1', hu1, hG⟩ := H a i r1 h1
        rw [e1] at h2
        obtain ⟨hr2, k, f, t', hk, hu, hloop⟩ := ih a (i + s) r2
          (by rcases hs with rfl | rfl <;> omega) h2
        refine ⟨hr2, k + 1, f, t' ++ t1', by omega, hu1.append hu, fun b g hb => ?_⟩
        have hb' := hloop b (g + 1) (by rcases hs with rfl | rfl <;> omega)
        rw [show k + 1 + g = k + (g + 1) by omega, hb', show i + s - s = i by omega]
        simp only [loop, hcg, Option.bind_some]
        rw [if_pos (by simpa using hb), hG b]
        simp only [Option.bind_some]
        cases loop G cg g (.int b :: .int (i - s) :: cs) <;> simp
      · rw [if_neg (by simpa using hc)] at h
        simp only [Option.some.injEq] at h
        subst h
        refine ⟨⟨i, rfl⟩, 0, n, [], by omega, ⟨rfl, List.Perm.refl _⟩, fun b g _ => ?_⟩
        have : a = i - s := by rcases hs with rfl | rfl <;> omega
        rw [Nat.zero_add, this]
        cases loop G cg g (.int b :: .int (i - s) :: cs) <;> rfl
  intro fuel a i r h
  by_cases hle : s * i ≤ s * a + 1
  · obtain ⟨hr, k, f, t', hk, hu, hloop⟩ := key fuel a i r hle h
    refine ⟨hr, i - s, t', ?_, hu⟩
    rw [hk, hloop i (f + 1) (Int.le_refl _)]
    simp only [loop, hcg, Option.bind_some]
    rw [if_neg (by rcases hs with rfl | rfl <;> simp <;> omega)]
    simp
  · cases fuel with
    | zero => simp [loop] at h
    | succ n =>
      simp only [loop, hcf, hcg, Option.bind_some] at h ⊢
      rw [if_neg (by simp; omega)] at h ⊢
      simp only [Option.some.injEq] at h ⊢
      subst h
      exact ⟨⟨i, rfl⟩, a, [], rfl, rfl, List.Perm.refl _⟩

/-! ### The main induction -/

/-- What the groups of the inverted program do, compared with the program. -/
def Res (orc : List Int → Var → Int) (fuel : Nat) (p : P U) : Prop :=
  ∀ (path : List Int) (c Γ : Ctx) (tr : List (Ev U)) (z : P U × P U × P U), WF p →
    (∀ v ∈ p.opOuts, v ∉ p.reads) → eval orc fuel p path c = some (Γ, tr) → inv p = some z →
    ∃ Γn tn Δ t d, eval orc fuel z.1 path c = some (Γn, tn) ∧ (∀ v, v ∉ p.opOuts → Γn v = Γ v) ∧
      eval orc fuel z.2.1 path Γ = some (Δ, t) ∧ eval orc fuel z.2.2 path Γ = some (Γ, d) ∧
      gates tn = [] ∧ gates d = [] ∧ gates t = ((gates tr).map Ev.inv).reverse ∧
      (others (tn ++ (t ++ d))).Perm (others tr)

/-- The inverted program, put together. -/
theorem Res.assembled {p : P U} (h : Res orc fuel p) {path : List Int} {c Γ : Ctx}
    {tr : List (Ev U)} {z : P U × P U × P U} (hw : WF p) (hu : ∀ v ∈ p.opOuts, v ∉ p.reads)
    (he : eval orc fuel p path c = some (Γ, tr)) (hi : inv p = some z) :
    ∃ Γ' tr', eval orc fuel (assemble p z.1 z.2.1 z.2.2) path c = some (Γ', tr') ∧
      (∀ v, v ∉ p.opOuts → Γ' v = Γ v) ∧ Undoes tr tr' := by
  obtain ⟨Γn, tn, Δ, t, d, h1, h2, h3, h4, g1, g2, g3, pm⟩ := h path c Γ tr z hw hu he hi
  obtain ⟨r1, r2, r3, w1, w2, w3⟩ := inv_vars hi
  by_cases hd : z.2.1 = .done
  · rw [hd, assemble_done]
    refine ⟨Γ, tr, he, fun _ _ => rfl, ?_, List.Perm.refl _⟩
    rw [hd] at h3
    simp only [eval, Option.some.injEq, Prod.mk.injEq] at h3
    rw [← h3.2] at g3
    have : gates tr = [] := by
      have h0 : gates ([] : List (Ev U)) = [] := rfl
      rw [h0] at g3
      have := congrArg List.length g3
      rw [List.length_reverse, List.length_map] at this
      exact List.length_eq_zero_iff.mp this.symm
    rw [this]; rfl
  · rw [assemble_ne hd]
    obtain ⟨Δ', h3', e3⟩ := eval_congr (X := fun v => v ∈ p.opOuts) (c' := Γn)
      (fun v hv => (h2 v hv).symm) (fun v hv ho => hu v ho (r2 v hv)) h3
    have hΔ : ∀ v, v ∉ p.opOuts → Δ' v = Γ v := fun v hv => by
      rw [← e3 v hv, eval_frame h3 v (fun hm => hv (w2 v hm))]
    obtain ⟨Γd, h4', e4⟩ := eval_congr (X := fun v => v ∈ p.opOuts) (c' := Δ')
      (fun v hv => (hΔ v hv).symm) (fun v hv ho => hu v ho (r3 v hv)) h4
    refine ⟨Γd, tn ++ (t ++ d), ?_, fun v hv => (e4 v hv).symm, ?_, pm⟩
    · rw [eval_app, h1]
      simp only [Option.bind_some, eval_app, h3', h4']
    · rw [gates_append, gates_append, g1, g2, g3]; simp

theorem gates_gate {u : U} {cs : List (Qubit × Bool)} {qs : List Qubit} {l : List (Ev U)} :
    gates (.gate u cs qs :: l) = .gate u cs qs :: gates l := rfl

theorem gateEv_inv {cst : List Bool} {u : List Int → U} {xs bs : List Val} {e : Ev U}
    (h : gateEv cst u xs bs = some e) :
    gateEv cst (fun x => (u x)⁻¹) xs bs = some e.inv ∧ gates [e] = [e] ∧ others [e] = [] ∧
      gates [e.inv] = [e.inv] ∧ others [e.inv] = [] := by
  simp only [gateEv, Option.bind_eq_some_iff] at h ⊢
  obtain ⟨ys, h1, qs, h2, h3⟩ := h
  split at h3
  · rename_i hl
    simp only [Option.some.injEq] at h3
    subst h3
    exact ⟨⟨ys, h1, qs, h2, by rw [if_pos hl]; rfl⟩, rfl, rfl, rfl, rfl⟩
  · simp at h3

/-- An operation moved to the back: the common part of the cases `gate`, `jit`, `while`, `cond`. -/
theorem op_case {r x : P U} {path : List Int} {Γ : Ctx} {tn tr te te' t d : List (Ev U)}
    {Δ : Ctx} {o : P U} (S : List Var)
    (h3 : eval orc fuel o path Γ = some (Δ, t)) (ho : ∀ v ∈ o.writes, v ∈ S)
    (g3 : gates t = ((gates tr).map Ev.inv).reverse)
    (pm : (others (tn ++ (t ++ d))).Perm (others tr)) (hu : Undoes te te')
    (hx : ∀ Δ : Ctx, (∀ v, v ∉ S → Δ v = Γ v) → ∃ Δ', eval orc fuel x path Δ = some (Δ', te')) :
    ∃ Δ' t', eval orc fuel (o.app x) path Γ = some (Δ', t') ∧
      gates t' = ((gates (te ++ tr)).map Ev.inv).reverse ∧
      (others (tn ++ (t' ++ d))).Perm (others (te ++ tr)) := by
  obtain ⟨Δ', hx'⟩ := hx Δ (fun v hv => eval_frame h3 v (fun hm => hv (ho v hm)))
  refine ⟨Δ', t ++ te', ?_, ?_, ?_⟩
  · rw [eval_app, h3]; simp only [Option.bind_some, hx']
  · rw [gates_append, gates_append, g3, hu.1]; simp
  · simp only [others_append] at pm ⊢
    refine List.Perm.trans ?_ (List.Perm.append hu.2 pm)
    rw [List.append_assoc]
    exact ((List.perm_append_comm_assoc _ _ _).append_left _).trans
      (List.perm_append_comm_assoc _ _ _)

theorem sets_len {vs : List Var} : ∀ {c : Ctx} {xs : List Val}, vs.length = xs.length →
    ∃ d, sets c vs xs = some d := by
  induction vs with
  | nil => intro c xs h; cases xs <;> simp_all [sets]
  | cons v vs ih =>
    intro c xs h
    cases xs with
    | nil => simp at h
    | cons x xs => exact ih (by simpa using h)

theorem sets_length {vs : List Var} : ∀ {c d : Ctx} {xs : List Val}, sets c vs xs = some d →
    vs.length = xs.length := by
  induction vs with
  | nil => intro c d xs h; cases xs <;> simp_all [sets]
  | cons v vs ih =>
    intro c d xs h
    cases xs with
    | nil => simp [sets] at h
    | cons x xs => simp only [sets] at h; simp [ih h]

theorem mapM_gets {c : Ctx} : ∀ {vs : List Var} {xs : List Val}, gets c vs = some xs →
    vs.length = xs.length := by
  intro vs
  induction vs with
  | nil => intro xs h; simp only [gets, Option.some.injEq] at h; subst h; rfl
  | cons v vs ih =>
    intro xs h
    simp only [gets, Option.bind_eq_some_iff, Option.some.injEq] at h
    obtain ⟨x, _, ys, h2, rfl⟩ := h
    simp [ih h2]

/-- What the loop needs to know about its body. -/
def LoopOk (orc : List Int → Var → Int) (fuel : Nat) (nk : Nat) (sub : Bool) (bi bo : List Var)
    (b b' : P U) : Prop :=
  ∀ (ks cs : List Val) (id : Nat) (path : List Int) (a i : Int) (c0 Γ : Ctx) (tr : List (Ev U)) ys,
    ks.length = nk → sets (fun _ => none) bi (ks ++ .int a :: .int i :: cs) = some c0 →
    eval orc fuel b (i :: (id : Int) :: path) c0 = some (Γ, tr) → gets Γ bo = some ys →
    ys = .int a :: .int (if sub then i - 1 else i + 1) :: cs ∧ ∃ t', Undoes tr t' ∧
      ∀ e : Int, ∃ c1 Γ', sets (fun _ => none) bi (ks ++ .int e :: .int i :: cs) = some c1 ∧
        eval orc fuel b' (i :: (id : Int) :: path) c1 = some (Γ', t') ∧
        gets Γ' bo = some (.int e :: .int (if sub then i + 1 else i - 1) :: cs)

theorem cnd_ints {pa pb : Nat} {xs : List Val} {r : Bool}
    (hd : (pa = 1 ∧ pb = 0) ∨ (pa = 0 ∧ pb = 1)) (h : cnd true pa pb xs = some r) :
    ∃ (a i : Int) (cs : List Val), xs = .int a :: .int i :: cs := by
  match xs with
  | [] => rcases hd with ⟨rfl, rfl⟩ | ⟨rfl, rfl⟩ <;> simp [cnd] at h
  | [x] => rcases hd with ⟨rfl, rfl⟩ | ⟨rfl, rfl⟩ <;> simp [cnd] at h
  | x :: y :: cs =>
    rcases hd with ⟨rfl, rfl⟩ | ⟨rfl, rfl⟩ <;> cases x <;> cases y <;> simp [cnd, Val.toInt] at h <;>
      exact ⟨_, _, _, rfl⟩

theorem swapAt_two {pa pb : Nat} {cs : List Var} {Δ : Ctx} {x y : Val} {xs : List Val}
    (hd : (pa = 1 ∧ pb = 0) ∨ (pa = 0 ∧ pb = 1)) (h : gets Δ cs = some (x :: y :: xs)) :
    gets Δ (swapAt cs pa pb) = some (y :: x :: xs) := by
  match cs with
  | [] => simp [gets] at h
  | [v] => simp [gets, Option.bind_eq_some_iff] at h
  | v :: w :: vs =>
    simp only [gets, Option.bind_eq_some_iff, Option.some.injEq, List.cons.injEq] at h
    obtain ⟨x', h1, _, ⟨y', h2, ys, h3, rfl⟩, rfl, rfl, rfl⟩ := h
    rcases hd with ⟨rfl, rfl⟩ | ⟨rfl, rfl⟩ <;> simp [swapAt, gets, h1, h2, h3]

/-- The inverted loop undoes the loop. -/
theorem loop_case {nk : Nat} {sub : Bool} {bi bo : List Var} {b b' : P U} {pa pb : Nat}
    (hd : (pa = 1 ∧ pb = 0 ∧ sub = false) ∨ (pa = 0 ∧ pb = 1 ∧ sub = true))
    (hok : LoopOk orc fuel nk sub bi bo b b') {ks xs : List Val} (hks : ks.length = nk)
    {id : Nat} {path : List Int} {n : Nat} {z0 : List Val × List (Ev U)}
    (h : loop (fun vs => (vs[1]?).bind fun i => i.toInt.bind fun i =>
          (sets (fun _ => none) bi (ks ++ vs)).bind fun c0 =>
          (eval orc fuel b (i :: (id : Int) :: path) c0).bind fun z =>
          (gets z.1 bo).bind fun ys => some (ys, z.2)) (cnd true pa pb) n xs = some z0) :
    ∃ (xs' : List Val) (zl : List Val × List (Ev U)),
        (∀ (Δ : Ctx) (cs : List Var), gets Δ cs = some xs → gets Δ (swapAt cs pa pb) = some xs') ∧
        zl.1.length = z0.1.length ∧ Undoes z0.2 zl.2 ∧
        loop (fun vs => (vs[1]?).bind fun i => i.toInt.bind fun i =>
          (sets (fun _ => none) bi (ks ++ vs)).bind fun c0 =>
          (eval orc fuel b' (i :: (id : Int) :: path) c0).bind fun z =>
          (gets z.1 bo).bind fun ys => some (ys, z.2)) (cnd true pb pa) n xs' = some zl := by
  have hd2 : (pa = 1 ∧ pb = 0) ∨ (pa = 0 ∧ pb = 1) := by tauto
  have hx : ∃ (a i : Int) (cs : List Val), xs = .int a :: .int i :: cs := by
    cases n with
    | zero => simp [loop] at h
    | succ n =>
      simp only [loop, Option.bind_eq_some_iff] at h
      obtain ⟨r, hr, _⟩ := h
      exact cnd_ints hd2 hr
  obtain ⟨a, i, cs, rfl⟩ := hx
  obtain ⟨⟨j, hj⟩, j', t', hl, hu⟩ := loop_inv (s := if sub then -1 else 1) (cs := cs)
    (cf := cnd true pa pb) (cg := cnd true pb pa)
    (G := fun vs => (vs[1]?).bind fun i => i.toInt.bind fun i =>
          (sets (fun _ => none) bi (ks ++ vs)).bind fun c0 =>
          (eval orc fuel b' (i :: (id : Int) :: path) c0).bind fun z =>
          (gets z.1 bo).bind fun ys => some (ys, z.2))
    (by cases sub <;> simp)
    (by rcases hd with ⟨rfl, rfl, rfl⟩ | ⟨rfl, rfl, rfl⟩ <;> intro a i <;> simp [cnd, Val.toInt])
    (by rcases hd with ⟨rfl, rfl, rfl⟩ | ⟨rfl, rfl, rfl⟩ <;> intro a i <;> simp [cnd, Val.toInt])
    (fun a i r hr => by
      simp only [List.getElem?_cons_succ, List.getElem?_cons_zero, Option.bind_some, Val.toInt,
        Option.bind_eq_some_iff, Option.some.injEq] at hr
      obtain ⟨c0, h1, z, h2, ys, h3, rfl⟩ := hr
      obtain ⟨e1, t', hu, hb⟩ := hok ks cs id path a i c0 z.1 z.2 ys hks h1 h2 h3
      refine ⟨by rw [e1]; cases sub <;> rfl, t', hu, fun e => ?_⟩
      obtain ⟨c1, Γ', k1, k2, k3⟩ := hb e
      simp only [List.getElem?_cons_succ, List.getElem?_cons_zero, Option.bind_some, Val.toInt, k1,
        k2, k3]
      cases sub <;> simp)
    n a i z0 h
  refine ⟨_, _, fun Δ vs hv => swapAt_two hd2 hv, ?_, hu, hl⟩
  rw [hj]; rfl

theorem res_main (hloop : ∀ (nk : Nat) (sub : Bool) (bi bo : List Var) (b b' n' : P U)
      (y : P U × P U × P U) (v : Var), Res orc fuel b → WF b → Unused bo b →
      JBody nk sub bi bo b → inv b = some y → findMark b = some v → flipLast v b = some b' →
      flipLast v y.1 = some n' → LoopOk orc fuel nk sub bi bo b (assemble b' n' y.2.1 y.2.2)) :
    ∀ p : P U, Res orc fuel p := by
  intro p
  induction p with
  | done =>
    intro path c Γ tr z _ _ he hi
    simp only [eval, Option.some.injEq, Prod.mk.injEq] at he
    simp only [inv, Option.some.injEq] at hi
    obtain ⟨rfl, rfl⟩ := he
    subst hi
    exact ⟨c, [], c, [], [], rfl, fun _ _ => rfl, rfl, rfl, rfl, rfl, rfl, List.Perm.refl _⟩
  | cls f i o r ih =>
    intro path c Γ tr z hw hu he hi
    simp only [eval, Option.bind_eq_some_iff] at he
    simp only [inv, Option.map_eq_some_iff] at hi
    obtain ⟨xs, h1, ys, h2, c', h3, h4⟩ := he
    obtain ⟨w, hi, rfl⟩ := hi
    simp only [P.reads, P.opOuts, List.mem_append, not_or] at hu
    obtain ⟨Γn, tn, Δ, t, d, a1, a2, a3, a4, g⟩ := ih path c' Γ tr w hw (fun v hv => (hu v hv).2) h4 hi
    refine ⟨Γn, tn, Δ, t, d, ?_, a2, a3, a4, g⟩
    simp only [eval, h1, Option.bind_some, h2, h3, a1]
  | add s o a k r ih =>
    intro path c Γ tr z hw hu he hi
    simp only [eval, Option.bind_eq_some_iff] at he
    simp only [inv, Option.map_eq_some_iff] at hi
    obtain ⟨xs, h1, ys, h2, h4⟩ := he
    obtain ⟨w, hi, rfl⟩ := hi
    simp only [P.reads, P.opOuts, List.mem_cons, not_or] at hu
    obtain ⟨Γn, tn, Δ, t, d, a1, a2, a3, a4, g⟩ := ih path _ Γ tr w hw (fun v hv => (hu v hv).2) h4 hi
    refine ⟨Γn, tn, Δ, t, d, ?_, a2, a3, a4, g⟩
    simp only [eval, h1, Option.bind_some, h2, a1]
  | mark o u t' r ih =>
    intro path c Γ tr z hw hu he hi
    simp only [eval, Option.bind_eq_some_iff] at he
    simp only [inv, Option.map_eq_some_iff] at hi
    obtain ⟨xs, h1, h4⟩ := he
    obtain ⟨w, hi, rfl⟩ := hi
    simp only [P.reads, P.opOuts, List.mem_cons, not_or] at hu
    obtain ⟨Γn, tn, Δ, t, d, a1, a2, a3, a4, g⟩ := ih path _ Γ tr w hw (fun v hv => (hu v hv).2) h4 hi
    refine ⟨Γn, tn, Δ, t, d, ?_, a2, a3, a4, g⟩
    simp only [eval, h1, Option.bind_some, a1]
  | gate cst u ps qs r ih =>
    intro path c Γ tr z hw hu he hi
    simp only [eval, Option.bind_eq_some_iff, Option.some.injEq] at he
    simp only [inv, Option.map_eq_some_iff] at hi
    obtain ⟨xs, h1, bs, h2, e, h3, z', h4, hz⟩ := he
    obtain ⟨w, hi, rfl⟩ := hi
    simp only [Prod.mk.injEq] at hz
    obtain ⟨rfl, rfl⟩ := hz
    simp only [P.reads, P.opOuts, List.mem_append, not_or] at hu
    obtain ⟨Γn, tn, Δ, t, d, a1, a2, a3, a4, g1, g2, g3, pm⟩ :=
      ih path c z'.1 z'.2 w hw.2 (fun v hv => (hu v hv).2) h4 hi
    obtain ⟨i1, i2, i3, i4, i5⟩ := gateEv_inv h3
    have hfr : ∀ v ∈ ps ++ qs, z'.1 v = c v := fun v hv => eval_frame h4 v (hw.1 v hv)
    have hx : ∀ Δ : Ctx, (∀ v, v ∉ r.opOuts → Δ v = z'.1 v) → ∃ Δ', eval orc fuel (.gate cst (fun x => (u x)⁻¹) ps qs .done) path Δ = some (Δ', [e.inv]) := by
      intro Δ hΔ
      have hv : ∀ v ∈ ps ++ qs, Δ v = c v := fun v hv => by
        rw [hΔ v (fun ho => hw.1 v hv (opOuts_writes r v ho)), hfr v hv]
      refine ⟨Δ, ?_⟩
      simp only [eval]
      rw [gets_congr (fun v hm => hv v (List.mem_append_left _ hm)), h1,
        gets_congr (fun v hm => hv v (List.mem_append_right _ hm)), h2]
      simp only [Option.bind_some, i1]
    obtain ⟨Δ', t', b1, b2, b3⟩ := op_case (r := r)
      (x := .gate cst (fun x => (u x)⁻¹) ps qs .done) (te := [e]) (te' := [e.inv]) r.opOuts a3
      (inv_vars hi).2.2.2.2.1 g3 pm ⟨by rw [i2, i4]; rfl, by rw [i3, i5]⟩ hx
    · exact ⟨Γn, tn, Δ', t', d, a1, a2, b1, a4, g1, g2, b2, b3⟩
  | meas o q r ih => intro path c Γ tr z _ _ _ hi; simp [inv] at hi
  | reset q r ih => intro path c Γ tr z hw; exact absurd hw (by simp [WF])
  | create o s r ih =>
    intro path c Γ tr z hw hu he hi
    simp only [eval, Option.bind_eq_some_iff, Option.some.injEq] at he
    simp only [inv, Option.map_eq_some_iff] at hi
    obtain ⟨xs, h1, ys, h2, z', h4, hz⟩ := he
    obtain ⟨w, hi, rfl⟩ := hi
    simp only [Prod.mk.injEq] at hz
    obtain ⟨rfl, rfl⟩ := hz
    simp only [P.reads, P.opOuts, List.mem_cons, not_or] at hu
    obtain ⟨Γn, tn, Δ, t, d, a1, a2, a3, a4, g1, g2, g3, pm⟩ :=
      ih path _ z'.1 z'.2 w hw (fun v hv => (hu v hv).2) h4 hi
    refine ⟨Γn, .create ((List.range ys.toNat).map (Qubit.fresh path o)) :: tn, Δ, t, d, ?_, a2, a3,
      a4, g1, g2, g3, List.Perm.cons _ pm⟩
    simp only [eval, h1, Option.bind_some, h2, a1]
  | delete a r ih =>
    intro path c Γ tr z hw hu he hi
    simp only [eval, Option.bind_eq_some_iff, Option.some.injEq] at he
    simp only [inv, Option.map_eq_some_iff] at hi
    obtain ⟨xs, h1, ys, h2, z', h4, hz⟩ := he
    obtain ⟨w, hi, rfl⟩ := hi
    simp only [Prod.mk.injEq] at hz
    obtain ⟨rfl, rfl⟩ := hz
    simp only [P.reads, P.opOuts, List.mem_cons, not_or] at hu
    obtain ⟨Γn, tn, Δ, t, d, a1, a2, a3, a4, g1, g2, g3, pm⟩ :=
      ih path _ z'.1 z'.2 w hw.2 (fun v hv => (hu v hv).2) h4 hi
    refine ⟨Γn, tn, Δ, t, .delete ys :: d, a1, a2, a3, ?_, g1, g2, g3, ?_⟩
    · simp only [eval]
      rw [eval_frame h4 a hw.1, h1]
      simp only [Option.bind_some, h2, a4]
    · refine List.Perm.trans ?_ (List.Perm.cons (Ev.delete ys) pm)
      simp only [others_append]
      have : others (Ev.delete ys :: d) = Ev.delete ys :: others d := rfl
      rw [this, ← List.append_assoc, ← List.append_assoc]
      exact List.perm_middle
  | call id ji jo b i o r ihb ih =>
    intro path c Γ tr z hw hu he hi
    simp only [eval, Option.bind_eq_some_iff, Option.some.injEq] at he
    simp only [inv, Option.map_eq_some_iff, Option.bind_eq_some_iff] at hi
    obtain ⟨xs, h1, c0, h2, z0, h3, ys, h4, c', h5, z', h6, hz⟩ := he
    obtain ⟨y, hy, w, hi, rfl⟩ := hi
    simp only [Prod.mk.injEq] at hz
    obtain ⟨rfl, rfl⟩ := hz
    obtain ⟨hwb, hub, hins, hwr⟩ := hw
    simp only [P.reads, P.opOuts, List.mem_append, not_or] at hu
    obtain ⟨Γn, tn, Δ, t, d, a1, a2, a3, a4, g1, g2, g3, pm⟩ :=
      ih path c' z'.1 z'.2 w hwr (fun v hv => (hu v (Or.inr hv)).2) h6 hi
    obtain ⟨Γb, tb, e1, e2, e3⟩ := ihb.assembled hwb (fun v hv => (hub v hv).1) h3 hy
    have hgets : gets Γb jo = some ys := by
      rw [← h4]; exact gets_congr (fun v hv => e2 v (fun ho => (hub v ho).2 hv))
    have hfr : ∀ v ∈ i, z'.1 v = c v := fun v hv => by
      have := hins v hv
      simp only [List.mem_append, not_or] at this
      rw [eval_frame h6 v this.2, sets_frame h5 v this.1]
    -- the front part does not see the results of the call
    obtain ⟨Γn', a1', a2'⟩ := eval_congr (X := fun v => v ∈ o) (c' := c)
      (fun v hv => sets_frame h5 v hv)
      (fun v hv ho => (hu v (Or.inl ho)).2 ((inv_vars hi).1 v hv)) a1
    have hx : ∀ Δ : Ctx, (∀ v, v ∉ r.opOuts → Δ v = z'.1 v) → ∃ Δ', eval orc fuel (.call id ji jo (assemble b y.1 y.2.1 y.2.2) i o .done) path Δ = some (Δ', tb) := by
      intro Δ hΔ
      have hv : ∀ v ∈ i, Δ v = c v := fun v hv => by
        have := hins v hv
        simp only [List.mem_append, not_or] at this
        rw [hΔ v (fun ho => this.2 (opOuts_writes r v ho)), hfr v hv]
      obtain ⟨c2, hc2⟩ := sets_len (c := Δ) (sets_length h5)
      refine ⟨c2, ?_⟩
      simp only [eval]
      rw [gets_congr hv, h1]
      simp only [Option.bind_some, h2, e1, hgets, hc2, List.append_nil]
    obtain ⟨Δ', t', b1, b2, b3⟩ := op_case (r := r)
      (x := .call id ji jo (assemble b y.1 y.2.1 y.2.2) i o .done) (te := z0.2) (te' := tb) r.opOuts a3
      (inv_vars hi).2.2.2.2.1 g3 pm e3 hx
    · refine ⟨Γn', tn, Δ', t', d, a1', fun v hv => ?_, b1, a4, g1, g2, b2, b3⟩
      simp only [P.opOuts, List.mem_append, not_or] at hv
      exact (a2' v hv.1).symm.trans (a2 v hv.2)
  | whl id ix le pa pb bi bo b k cs o r ihb ih =>
    intro path c Γ tr z hw hu he hi
    simp only [eval, Option.bind_eq_some_iff, Option.some.injEq] at he
    simp only [inv, Option.map_eq_some_iff, Option.bind_eq_some_iff] at hi
    obtain ⟨ks, h1, xs, h2, z0, h3, c', h5, z', h6, hz⟩ := he
    obtain ⟨y, hy, v, hv, b', hb', n', hn', w, hi, rfl⟩ := hi
    simp only [Prod.mk.injEq] at hz
    obtain ⟨rfl, rfl⟩ := hz
    obtain ⟨hwb, hub, hins, hwr, rfl, rfl, hdir⟩ := hw
    simp only [P.reads, P.opOuts, List.mem_append, not_or] at hu
    obtain ⟨Γn, tn, Δ, t, d, a1, a2, a3, a4, g1, g2, g3, pm⟩ :=
      ih path c' z'.1 z'.2 w hwr (fun v hv => (hu v (Or.inr hv)).2) h6 hi
    have hfr : ∀ v ∈ k ++ cs, z'.1 v = c v := fun v hv => by
      have := hins v hv
      simp only [List.mem_append, not_or] at this
      rw [eval_frame h6 v this.2, sets_frame h5 v this.1]
    obtain ⟨Γn', a1', a2'⟩ := eval_congr (X := fun v => v ∈ o) (c' := c)
      (fun v hv => sets_frame h5 v hv)
      (fun v hv ho => (hu v (Or.inl ho)).2 ((inv_vars hi).1 v hv)) a1
    -- the loop
    have hok : ∃ sub, ((pa = 1 ∧ pb = 0 ∧ sub = false) ∨ (pa = 0 ∧ pb = 1 ∧ sub = true)) ∧
        LoopOk orc fuel k.length sub bi bo b (assemble b' n' y.2.1 y.2.2) := by
      rcases hdir with ⟨h1, h2, hj⟩ | ⟨h1, h2, hj⟩
      · exact ⟨false, Or.inl ⟨h1, h2, rfl⟩, hloop _ _ bi bo b b' n' y v ihb hwb hub hj hy hv hb' hn'⟩
      · exact ⟨true, Or.inr ⟨h1, h2, rfl⟩, hloop _ _ bi bo b b' n' y v ihb hwb hub hj hy hv hb' hn'⟩
    obtain ⟨sub, hd, hok⟩ := hok
    have hl := loop_case hd hok (mapM_gets h1).symm h3
    obtain ⟨xs', zl, hsw, hlen, hun, hlp⟩ := hl
    have hx : ∀ Δ : Ctx, (∀ v, v ∉ r.opOuts → Δ v = z'.1 v) → ∃ Δ', eval orc fuel (.whl id 1 true pb pa bi bo (assemble b' n' y.2.1 y.2.2) k (swapAt cs pa pb) o .done) path Δ = some (Δ', zl.2) := by
      intro Δ hΔ
      have hv : ∀ v ∈ k ++ cs, Δ v = c v := fun v hv => by
        have := hins v hv
        simp only [List.mem_append, not_or] at this
        rw [hΔ v (fun ho => this.2 (opOuts_writes r v ho)), hfr v hv]
      obtain ⟨c2, hc2⟩ := sets_len (c := Δ) (xs := zl.1) (hlen ▸ sets_length h5)
      refine ⟨c2, ?_⟩
      have hcs : gets Δ cs = some xs := by
        rw [gets_congr (fun v hm => hv v (List.mem_append_right _ hm)), h2]
      simp only [eval]
      rw [gets_congr (fun v hm => hv v (List.mem_append_left _ hm)), h1, hsw Δ cs hcs]
      simp only [Option.bind_some, hlp, hc2, List.append_nil]
    obtain ⟨Δ', t', b1, b2, b3⟩ := op_case (r := r)
      (x := .whl id 1 true pb pa bi bo (assemble b' n' y.2.1 y.2.2) k (swapAt cs pa pb) o .done)
      (te := z0.2) (te' := zl.2) r.opOuts a3
      (inv_vars hi).2.2.2.2.1 g3 pm hun hx
    · refine ⟨Γn', tn, Δ', t', d, a1', fun v hv => ?_, b1, a4, g1, g2, b2, b3⟩
      simp only [P.opOuts, List.mem_append, not_or] at hv
      exact (a2' v hv.1).symm.trans (a2 v hv.2)
  | cond id q ti tt t fi ft f i o r iht ihf ih =>
    intro path c Γ tr z hw hu he hi
    simp only [eval, Option.bind_eq_some_iff, Option.some.injEq] at he
    simp only [inv, Option.map_eq_some_iff, Option.bind_eq_some_iff] at hi
    obtain ⟨x, h0, n, h0', xs, h1, z0, h3, c', h5, z', h6, hz⟩ := he
    obtain ⟨yt, hyt, yf, hyf, w, hi, rfl⟩ := hi
    simp only [Prod.mk.injEq] at hz
    obtain ⟨rfl, rfl⟩ := hz
    obtain ⟨hwt, hut, hwf, huf, hins, hwr⟩ := hw
    simp only [P.reads, P.opOuts, List.mem_append, not_or] at hu
    obtain ⟨Γn, tn, Δ, t1, d, a1, a2, a3, a4, g1, g2, g3, pm⟩ :=
      ih path c' z'.1 z'.2 w hwr (fun v hv => (hu v (Or.inr hv)).2) h6 hi
    have hfr : ∀ v ∈ q :: i, z'.1 v = c v := fun v hv => by
      have := hins v hv
      simp only [List.mem_append, not_or] at this
      rw [eval_frame h6 v this.2, sets_frame h5 v this.1]
    obtain ⟨Γn', a1', a2'⟩ := eval_congr (X := fun v => v ∈ o) (c' := c)
      (fun v hv => sets_frame h5 v hv)
      (fun v hv ho => (hu v (Or.inl ho)).2 ((inv_vars hi).1 v hv)) a1
    have hbr : ∃ tb, Undoes z0.2 tb ∧
        (if n = 0 then (sets (fun _ => none) fi xs).bind fun c0 =>
            (eval orc fuel (assemble f yf.1 yf.2.1 yf.2.2) (0 :: (id : Int) :: path) c0).bind fun z =>
              (gets z.1 ft).bind fun ys => some (ys, z.2)
        else (sets (fun _ => none) ti xs).bind fun c0 =>
            (eval orc fuel (assemble t yt.1 yt.2.1 yt.2.2) (1 :: (id : Int) :: path) c0).bind fun z =>
              (gets z.1 tt).bind fun ys => some (ys, z.2)) = some (z0.1, tb) := by
      by_cases hn : n = 0
      · rw [if_pos hn] at h3 ⊢
        simp only [Option.bind_eq_some_iff, Option.some.injEq] at h3
        obtain ⟨c0, k1, zb, k2, ys, k3, rfl⟩ := h3
        obtain ⟨Γb, tb, e1, e2, e3⟩ := ihf.assembled hwf (fun v hv => (huf v hv).1) k2 hyf
        have hgets : gets Γb ft = some ys := by
          rw [← k3]; exact gets_congr (fun v hv => e2 v (fun ho => (huf v ho).2 hv))
        exact ⟨tb, e3, by simp only [k1, Option.bind_some, e1, hgets]⟩
      · rw [if_neg hn] at h3 ⊢
        simp only [Option.bind_eq_some_iff, Option.some.injEq] at h3
        obtain ⟨c0, k1, zb, k2, ys, k3, rfl⟩ := h3
        obtain ⟨Γb, tb, e1, e2, e3⟩ := iht.assembled hwt (fun v hv => (hut v hv).1) k2 hyt
        have hgets : gets Γb tt = some ys := by
          rw [← k3]; exact gets_congr (fun v hv => e2 v (fun ho => (hut v ho).2 hv))
        exact ⟨tb, e3, by simp only [k1, Option.bind_some, e1, hgets]⟩
    obtain ⟨tb, hun, hbr⟩ := hbr
    have hx : ∀ Δ : Ctx, (∀ v, v ∉ r.opOuts → Δ v = z'.1 v) → ∃ Δ', eval orc fuel (.cond id q ti tt (assemble t yt.1 yt.2.1 yt.2.2) fi ft (assemble f yf.1 yf.2.1 yf.2.2)
        i o .done) path Δ = some (Δ', tb) := by
      intro Δ hΔ
      have hv : ∀ v ∈ q :: i, Δ v = c v := fun v hv => by
        have := hins v hv
        simp only [List.mem_append, not_or] at this
        rw [hΔ v (fun ho => this.2 (opOuts_writes r v ho)), hfr v hv]
      obtain ⟨c2, hc2⟩ := sets_len (c := Δ) (sets_length h5)
      refine ⟨c2, ?_⟩
      simp only [eval]
      rw [hv q (by simp), h0, gets_congr (fun v hm => hv v (List.mem_cons_of_mem _ hm)), h1]
      simp only [Option.bind_some, h0', hbr, hc2, List.append_nil]

    obtain ⟨Δ', t', b1, b2, b3⟩ := op_case (r := r)
      (x := .cond id q ti tt (assemble t yt.1 yt.2.1 yt.2.2) fi ft (assemble f yf.1 yf.2.1 yf.2.2)
        i o .done) (te := z0.2) (te' := tb) r.opOuts a3
      (inv_vars hi).2.2.2.2.1 g3 pm hun hx
    · refine ⟨Γn', tn, Δ', t', d, a1', fun v hv => ?_, b1, a4, g1, g2, b2, b3⟩
      simp only [P.opOuts, List.mem_append, not_or] at hv
      exact (a2' v hv.1).symm.trans (a2 v hv.2)
/-! ### Loop bodies -/

/-- Flipping the increment and changing the threshold changes nothing but the next index. -/
theorem flip_eval {A C : P U} {s : Bool} {t u m x : Var} {i : Int} {path : List Int}
    {c c' Γ : Ctx} {tr : List (Ev U)} (hc : ∀ v, v ≠ t → c v = c' v) (hx : c x = some (.int i))
    (hxA : x ∉ A.writes) (hxt : x ≠ t) (hr : ∀ v ∈ [t, u, m], v ∉ A.reads ∧ v ∉ C.reads)
    (hm : m ∉ C.writes) (hum : u ≠ m)
    (he : eval orc fuel (A.app (.add s u x 1 (.mark m u t C))) path c = some (Γ, tr)) :
    Γ m = some (.int (if s then i - 1 else i + 1)) ∧
    ∃ Γ', eval orc fuel (A.app (.add (!s) u x 1 (.mark m u t C))) path c' = some (Γ', tr) ∧
      (∀ v, v ∉ [t, u, m] → Γ v = Γ' v) ∧ Γ' m = some (.int (if s then i + 1 else i - 1)) := by
  rw [eval_app] at he
  simp only [eval, Option.bind_eq_some_iff, Option.some.injEq] at he
  obtain ⟨z1, h1, z2, ⟨xv, hxv, y, hy, xm, hxm, h2⟩, hz⟩ := he
  simp only [Prod.mk.injEq] at hz
  obtain ⟨rfl, rfl⟩ := hz
  have e1 : z1.1 x = some (.int i) := by rw [eval_frame h1 x hxA, hx]
  rw [e1] at hxv
  simp only [Option.some.injEq] at hxv
  subst hxv
  simp only [Val.toInt, Option.some.injEq] at hy
  subst hy
  simp only [Ctx.set, if_true, Option.some.injEq] at hxm
  subst hxm
  refine ⟨?_, ?_⟩
  · rw [eval_frame h2 m hm]; simp [Ctx.set]
  · obtain ⟨d1, k1, k2⟩ := eval_congr (X := fun v => v = t) (c' := c') hc
      (fun v hv e => (hr t (by simp)).1 (e ▸ hv)) h1
    have e1' : d1 x = some (.int i) := by rw [← k2 x hxt, e1]
    obtain ⟨d2, l1, l2⟩ := eval_congr (X := fun v => v ∈ [t, u, m])
      (c' := (d1.set u (.int (if !s then i - 1 else i + 1))).set m
        (.int (if !s then i - 1 else i + 1)))
      (fun v hv => by
        simp only [List.mem_cons, List.not_mem_nil, or_false, not_or] at hv
        simp only [Ctx.set, hv.2.2, hv.2.1, if_false]
        exact k2 v hv.1)
      (fun v hv e => (hr v e).2 hv) h2
    refine ⟨d2, ?_, l2, ?_⟩
    · rw [eval_app, k1]
      simp only [Option.bind_some, eval, e1', Val.toInt]
      simp only [Ctx.set, if_true, Option.bind_some] at l1 ⊢
      rw [l1]
      simp
    · have := eval_frame l1 m hm
      dsimp only at this
      rw [this]; cases s <;> simp [Ctx.set]

/-- The values of the input variables. -/
theorem sets_get {t x : Var} {ys ks : List Var} {kv cs : List Val} {a b : Val} {c0 d : Ctx}
    (hnd : (ks ++ t :: x :: ys).Nodup) (hl : ks.length = kv.length)
    (h : sets d (ks ++ t :: x :: ys) (kv ++ a :: b :: cs) = some c0) :
    c0 t = some a ∧ c0 x = some b ∧ gets c0 ys = some cs ∧
    ∀ e : Val, ∃ c1, sets d (ks ++ t :: x :: ys) (kv ++ e :: b :: cs) = some c1 ∧
      c1 t = some e ∧ ∀ v, v ≠ t → c0 v = c1 v := by
  have key : ∀ (ys : List Var) (cs : List Val) (d c : Ctx), ys.Nodup → sets d ys cs = some c →
      gets c ys = some cs := by
    intro ys
    induction ys with
    | nil => intro cs d c _ h; cases cs <;> simp_all [sets, gets]
    | cons v vs ih =>
      intro cs d c hn h
      cases cs with
      | nil => simp [sets] at h
      | cons y cs =>
        simp only [sets] at h
        simp only [List.nodup_cons] at hn
        simp only [gets, ih cs _ c hn.2 h, sets_frame h v hn.1]
        simp [Ctx.set]
  induction ks generalizing kv d with
  | nil =>
    cases kv with
    | cons _ _ => simp at hl
    | nil =>
      simp only [List.nil_append, sets, List.nodup_cons, List.mem_cons, not_or] at h hnd ⊢
      refine ⟨?_, ?_, key ys cs _ c0 hnd.2.2 h, fun e => ?_⟩
      · rw [sets_frame h t hnd.1.2]; simp [Ctx.set, hnd.1.1]
      · rw [sets_frame h x hnd.2.1]; simp [Ctx.set]
      · obtain ⟨c1, h1, h2⟩ := sets_congr (X := fun v => v = t) (c' := (d.set t e).set x b)
          (fun v hv => by simp [Ctx.set, hv]) h
        refine ⟨c1, h1, ?_, h2⟩
        rw [sets_frame h1 t hnd.1.2]; simp [Ctx.set, hnd.1.1]
  | cons w ws ih =>
    cases kv with
    | nil => simp at hl
    | cons k kv =>
      simp only [List.cons_append, sets, List.nodup_cons] at h hnd ⊢
      exact ih hnd.2 (by simpa using hl) h

theorem findMark_some {A C : P U} {s : Bool} {u x m t : Var} (hC : findMark C = none) :
    findMark (A.app (.add s u x 1 (.mark m u t C))) = some u :=
  findMark_app (by simp only [findMark, hC])

theorem flip_some {A C : P U} {s : Bool} {u x m t : Var} (hC : u ∉ C.writes) :
    flipLast u (A.app (.add s u x 1 (.mark m u t C))) =
      some (A.app (.add (!s) u x 1 (.mark m u t C))) :=
  flipLast_app (by simp [flipLast, flipLast_none hC])

/-- A `jrange` body is inverted correctly. -/
theorem loop_ok {nk : Nat} {sub : Bool} {bi bo : List Var} {b b' n' : P U}
    {y : P U × P U × P U} {v : Var} (hres : Res orc fuel b) (hw : WF b) (hu : Unused bo b)
    (hj : JBody nk sub bi bo b) (hy : inv b = some y) (hv : findMark b = some v)
    (hb' : flipLast v b = some b') (hn' : flipLast v y.1 = some n') :
    LoopOk orc fuel nk sub bi bo b (assemble b' n' y.2.1 y.2.2) := by
  obtain ⟨kv, ys, t, x, u, m, A, C, rfl, hnk, rfl, rfl, hnd, hwr, hmC, hum, hrd, hwr2⟩ := hj
  intro ks cs id path a i c0 Γ tr zs hks hs he hg
  have e0 := findMark_some (A := A) (s := sub) (u := u) (x := x) (m := m) (t := t) hmC
  rw [hv] at e0
  simp only [Option.some.injEq] at e0
  subst e0
  rw [flip_some (hwr2 v (by simp)).2] at hb'
  simp only [Option.some.injEq] at hb'
  subst hb'
  -- the groups of the body
  obtain ⟨ya, yc', hA, hC', rfl⟩ := inv_app hy
  simp only [inv, Option.map_eq_some_iff] at hC'
  obtain ⟨w, ⟨yc, hC, rfl⟩, rfl⟩ := hC'
  obtain ⟨ra1, ra2, ra3, wa1, wa2, wa3⟩ := inv_vars hA
  obtain ⟨rc1, rc2, rc3, wc1, wc2, wc3⟩ := inv_vars hC
  rw [flip_some (fun h => (hwr2 v (by simp)).2 (wc1 v h))] at hn'
  simp only [Option.some.injEq] at hn'
  subst hn'
  simp only [writes_app, P.writes, List.mem_append, List.mem_cons, not_or] at hwr
  -- the values at the start
  obtain ⟨ht0, hx0, hys0, hnew⟩ := sets_get hnd (hnk.trans hks.symm) hs
  have hxt : x ≠ t := by
    rintro rfl
    simp [List.nodup_append] at hnd
  have hwx := hwr x (by simp)
  have hwt := hwr t (by simp)
  have hwy : ∀ w ∈ ys, w ∉ A.writes ∧ w ≠ v ∧ w ≠ m ∧ w ∉ C.writes := fun w hw => by
    have := hwr w (by simp [hw]); tauto
  -- the next index
  have hΓm : Γ m = some (.int (if sub then i - 1 else i + 1)) :=
    (flip_eval (fun _ _ => rfl) hx0 hwx.1 hxt hrd (hwr2 m (by simp)).2 hum he).1
  have hΓf : ∀ w, w ∉ A.writes ∧ w ≠ v ∧ w ≠ m ∧ w ∉ C.writes → Γ w = c0 w := fun w hw => by
    refine eval_frame he w ?_
    simp only [writes_app, P.writes, List.mem_append, List.mem_cons, not_or]
    tauto
  have hΓt : Γ t = some (.int a) := by rw [hΓf t (by tauto), ht0]
  have hΓy : gets Γ ys = some cs := by
    rw [← hys0]; exact gets_congr (fun w hw => hΓf w (hwy w hw))
  have e1 : zs = .int a :: .int (if sub then i - 1 else i + 1) :: cs := by
    simp only [gets, hΓt, hΓm, hΓy, Option.bind_some, Option.some.injEq] at hg
    exact hg.symm
  refine ⟨e1, ?_⟩
  have hno : ∀ w ∈ [t, v, m], w ∉ (yc.2.1.app ya.2.1).reads ∧ w ∉ (ya.2.2.app yc.2.2).reads := by
    intro w hw
    have := hrd w hw
    simp only [reads_app, List.mem_append, not_or]
    exact ⟨⟨fun h => this.2 (rc2 w h), fun h => this.1 (ra2 w h)⟩,
      fun h => this.1 (ra3 w h), fun h => this.2 (rc3 w h)⟩
  by_cases hd : yc.2.1.app ya.2.1 = .done
  · -- no operation in the body
    obtain ⟨Γ1, tr1, f1, _, f3⟩ := hres.assembled hw (fun v hv => (hu v hv).1) he hy
    dsimp only at f1 ⊢
    rw [hd, assemble_done] at f1 ⊢
    rw [he] at f1
    simp only [Option.some.injEq, Prod.mk.injEq] at f1
    obtain ⟨rfl, rfl⟩ := f1
    refine ⟨tr, f3, fun e => ?_⟩
    obtain ⟨c1, k1, k2, k3⟩ := hnew (.int e)
    obtain ⟨_, Γ', l1, l2, l3⟩ := flip_eval k3 hx0 hwx.1 hxt hrd (hwr2 m (by simp)).2 hum he
    refine ⟨c1, Γ', k1, l1, ?_⟩
    have hfr : ∀ w, w ∉ A.writes ∧ w ≠ v ∧ w ≠ m ∧ w ∉ C.writes → Γ' w = c1 w := fun w hw => by
      refine eval_frame l1 w ?_
      simp only [writes_app, P.writes, List.mem_append, List.mem_cons, not_or]
      tauto
    have hy' : gets Γ' ys = some cs := by
      rw [← hys0]
      refine gets_congr (fun w hw => ?_)
      rw [hfr w (hwy w hw), k3 w (fun h => by subst h; simp [List.nodup_append] at hnd; tauto)]
    simp only [gets, hfr t (by tauto), k2, l3, hy', Option.bind_some]
  · obtain ⟨Γn, tn, Δ, tq, td, h1, h2, h3, h4, g1, g2, g3, pm⟩ :=
      hres _ c0 Γ tr _ hw (fun v hv => (hu v hv).1) he hy
    dsimp only at h1 h3 h4 ⊢
    refine ⟨tn ++ (tq ++ td), ⟨by rw [gates_append, gates_append, g1, g2, g3]; simp, pm⟩, fun e => ?_⟩
    obtain ⟨c1, k1, k2, k3⟩ := hnew (.int e)
    obtain ⟨_, Γ', l1, l2, l3⟩ := flip_eval k3 hx0 (fun h => hwx.1 (wa1 x h)) hxt
      (fun w hw => ⟨fun h => (hrd w hw).1 (ra1 w h), fun h => (hrd w hw).2 (rc1 w h)⟩)
      (fun h => (hwr2 m (by simp)).2 (wc1 m h)) hum h1
    have hopo : ∀ w, w ∈ (A.app (.add sub v x 1 (.mark m v t C))).opOuts →
        w ∉ (yc.2.1.app ya.2.1).reads ∧ w ∉ (ya.2.2.app yc.2.2).reads := by
      intro w hw
      have := (hu w hw).1
      simp only [reads_app, P.reads, List.mem_append, List.mem_cons, not_or] at this ⊢
      exact ⟨⟨fun h => this.2.2.2 (rc2 w h), fun h => this.1 (ra2 w h)⟩,
        fun h => this.1 (ra3 w h), fun h => this.2.2.2 (rc3 w h)⟩
    -- operations and deletions do not see what was changed
    let S : Var → Prop := fun w => w ∈ [t, v, m] ∨ w ∈ (A.app (.add sub v x 1 (.mark m v t C))).opOuts
    have hΓ' : ∀ w, ¬ S w → Γ w = Γ' w := fun w hw => by
      simp only [S, not_or] at hw
      rw [← l2 w hw.1, h2 w hw.2]
    obtain ⟨Δ', m1, m2⟩ := eval_congr (X := S) (c' := Γ') hΓ'
      (fun w hw hS => by rcases hS with hS | hS
                         · exact (hno w hS).1 hw
                         · exact (hopo w hS).1 hw) h3
    have hΔ' : ∀ w, ¬ S w → Γ w = Δ' w := fun w hw => by
      rw [← m2 w hw]
      refine (eval_frame h3 w (fun h => hw (Or.inr ?_))).symm
      exact (inv_vars hy).2.2.2.2.1 w h
    obtain ⟨Γ2, q1, q2⟩ := eval_congr (X := S) (c' := Δ') hΔ'
      (fun w hw hS => by rcases hS with hS | hS
                         · exact (hno w hS).2 hw
                         · exact (hopo w hS).2 hw) h4
    rw [assemble_ne hd]
    refine ⟨c1, Γ2, k1, ?_, ?_⟩
    · rw [eval_app, l1]
      simp only [Option.bind_some, eval_app _ (ya.2.2.app yc.2.2)] 
      rw [m1]
      simp only [Option.bind_some, q1]
    · have hwo : ∀ w, w ∈ t :: m :: ys → w ∉ (yc.2.1.app ya.2.1).writes := fun w hw h =>
        (hu w ((inv_vars hy).2.2.2.2.1 w h)).2 hw
      have hwd : (ya.2.2.app yc.2.2).writes = [] := by rw [writes_app, wa3, wc3]; rfl
      have hback : ∀ w, w ∈ t :: m :: ys → Γ2 w = Γ' w := fun w hw => by
        have a1 := eval_frame q1 w (by rw [hwd]; simp)
        have a2 := eval_frame m1 w (hwo w hw)
        exact a1.trans a2
      have hfr : ∀ w, w ∉ A.writes ∧ w ≠ v ∧ w ≠ m ∧ w ∉ C.writes → Γ' w = c1 w := fun w hw => by
        refine eval_frame l1 w ?_
        simp only [writes_app, P.writes, List.mem_append, List.mem_cons, not_or]
        exact ⟨fun h => hw.1 (wa1 w h), hw.2.1, hw.2.2.1, fun h => hw.2.2.2 (wc1 w h)⟩
      have hy' : gets Γ2 ys = some cs := by
        rw [← hys0]
        refine gets_congr (fun w hw => ?_)
        rw [hback w (by simp [hw]), hfr w (hwy w hw),
          k3 w (fun h => by subst h; simp [List.nodup_append] at hnd; tauto)]
      simp only [gets, hback t (by simp), hfr t (by tauto), k2, hback m (by simp), l3, hy',
        Option.bind_some]

/-- Every program that the inversion treats correctly. -/
theorem res_all (p : P U) : Res orc fuel p :=
  res_main (fun _ _ _ _ _ _ _ _ _ h1 h2 h3 h4 h5 h6 h7 h8 => loop_ok h1 h2 h3 h4 h5 h6 h7 h8) p

/-- The inverted program undoes the program. -/
theorem inverse_undoes {p p' : P U} {live : List Var} {path : List Int} {c Γ : Ctx}
    {tr : List (Ev U)} (hw : WF p) (hu : Unused live p) (hi : inverse p = some p')
    (he : eval orc fuel p path c = some (Γ, tr)) :
    ∃ Γ' tr', eval orc fuel p' path c = some (Γ', tr') ∧ (∀ v ∈ live, Γ' v = Γ v) ∧
      Undoes tr tr' := by
  simp only [inverse, Option.map_eq_some_iff] at hi
  obtain ⟨z, hz, rfl⟩ := hi
  obtain ⟨Γ', tr', h1, h2, h3⟩ := (res_all p).assembled hw (fun v hv => (hu v hv).1) he hz
  exact ⟨Γ', tr', h1, fun v hv => h2 v (fun ho => (hu v ho).2 hv), h3⟩

end Verif.Jasp
