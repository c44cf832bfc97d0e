import Verif.Rev.Qcla
import Mathlib.Tactic.Ring

/-! # The Brent–Kung tree computes carries -/

namespace Verif.Rev.Qcla

open Verif.Rev

variable {Q : Type} [DecidableEq Q]

theorem fire_pos (l : List Q) (s : St Q) : fire (pos l) s = l.all s := by
  induction l with
  | nil => rfl
  | cons q l ih =>
    simp only [pos, fire, List.map_cons, List.all_cons] at ih ⊢
    rw [ih]; cases s q <;> rfl

theorem fire_upd {cs : List (Q × Bool)} {t : Q} (h : ∀ c ∈ cs, c.1 ≠ t) (s : St Q) (v : Bool) :
    fire cs (upd s t v) = fire cs s := by
  induction cs with
  | nil => rfl
  | cons c l ih =>
    simp only [fire, List.all_cons] at ih ⊢
    rw [ih fun c hc => h c (List.mem_cons_of_mem _ hc), upd_ne (h c List.mem_cons_self)]

theorem upd_upd (s : St Q) (t : Q) (u v : Bool) : upd (upd s t u) t v = upd s t v := by
  funext q; by_cases h : q = t <;> simp [upd_apply, h]

theorem run_same (L : List (List (Q × Bool))) (t : Q) (s : St Q) (h : ∀ cs ∈ L, ∀ c ∈ cs, c.1 ≠ t) :
    run (L.map fun cs => .mcx cs t) s = upd s t (L.foldl (fun v cs => v ^^ fire cs s) (s t)) := by
  induction L generalizing s with
  | nil => funext q; by_cases hq : q = t <;> simp [upd_apply, hq]
  | cons cs L ih =>
    rw [List.map_cons, run_cons, ih _ fun c hc => h c (List.mem_cons_of_mem _ hc)]
    simp only [Gate.app, upd_same, upd_upd, List.foldl_cons]
    congr 1
    have : ∀ (M : List (List (Q × Bool))) (v : Bool), (∀ cs ∈ M, ∀ c ∈ cs, c.1 ≠ t) →
        M.foldl (fun v cs' => v ^^ fire cs' (upd s t (s t ^^ fire cs s))) v = M.foldl (fun v cs => v ^^ fire cs s) v := by
      intro M
      induction M with
      | nil => intros; rfl
      | cons c M ihM =>
        intro v hM
        rw [List.foldl_cons, List.foldl_cons, fire_upd (hM c List.mem_cons_self), ihM _ fun c hc => hM c (List.mem_cons_of_mem _ hc)]
    exact this L _ fun c hc => h c (List.mem_cons_of_mem _ hc)

/-- Exclusive or of `f 0, …, f (m - 1)`. -/
def xs (f : Nat → Bool) : Nat → Bool
  | 0 => false
  | m + 1 => xs f m ^^ f m

theorem foldl_xs (f : Nat → Bool) (m : Nat) (v : Bool) :
    (List.range m).foldl (fun v i => v ^^ f i) v = (v ^^ xs f m) := by
  induction m with
  | zero => simp [xs]
  | succ m ih => rw [List.range_succ, List.foldl_append, ih]; simp [xs]

theorem xs_congr {f g : Nat → Bool} {m : Nat} (h : ∀ i < m, f i = g i) : xs f m = xs g m := by
  induction m with
  | zero => rfl
  | succ m ih => rw [xs, xs, ih fun i hi => h i (by omega), h m (by omega)]

theorem xs_and (b : Bool) (f : Nat → Bool) (m : Nat) : xs (fun i => f i && b) m = (xs f m && b) := by
  induction m with
  | zero => simp [xs]
  | succ m ih => rw [xs, xs, ih]; cases xs f m <;> cases f m <;> cases b <;> rfl

/-- The carry of position `lo + j` when the carry of position `lo` is the value of `G lo`. -/
def car (P G : Nat → Q) (s : St Q) (lo : Nat) : Nat → Bool
  | 0 => s (G lo)
  | j + 1 => s (G (lo + j + 1)) ^^ (s (P (lo + j + 1)) && car P G s lo j)

/-- All propagate values of `lo ≤ i < lo + m`. -/
def allP (P : Nat → Q) (s : St Q) (lo : Nat) : Nat → Bool
  | 0 => true
  | m + 1 => allP P s lo m && s (P (lo + m))

theorem all_idx (P : Nat → Q) (s : St Q) (lo m : Nat) : (idx P lo (lo + m)).all s = allP P s lo m := by
  have e : lo + m - lo = m := by omega
  rw [idx, e]
  induction m with
  | zero => rfl
  | succ m ih =>
    rw [List.range_succ, List.map_append, List.all_append, ih (by omega)]; simp [allP]

theorem car_eq (P G : Nat → Q) (s : St Q) (lo m : Nat) :
    car P G s lo m = (s (G (lo + m)) ^^ xs (fun i => s (G (lo + i)) && allP P s (lo + i + 1) (m - i)) m) := by
  induction m with
  | zero => simp [car, xs]
  | succ m ih =>
    rw [car, ih, xs]
    have e : xs (fun i => s (G (lo + i)) && allP P s (lo + i + 1) (m + 1 - i)) m
        = (xs (fun i => s (G (lo + i)) && allP P s (lo + i + 1) (m - i)) m && s (P (lo + m + 1))) := by
      rw [← xs_and]
      refine xs_congr fun i hi => ?_
      have e1 : m + 1 - i = (m - i) + 1 := by omega
      have e2 : lo + i + 1 + (m - i) = lo + m + 1 := by omega
      rw [e1, allP, e2, Bool.and_assoc]
    have e3 : allP P s (lo + m + 1) (m + 1 - m) = s (P (lo + m + 1)) := by
      have : m + 1 - m = 1 := by omega
      rw [this]; simp [allP]
    rw [e, e3, ← Nat.add_assoc]
    cases s (G (lo + m + 1)) <;> cases s (P (lo + m + 1)) <;> cases s (G (lo + m)) <;>
      cases xs (fun i => s (G (lo + i)) && allP P s (lo + i + 1) (m - i)) m <;> rfl

theorem mem_idx {P : Nat → Q} {lo hi : Nat} {q : Q} : q ∈ idx P lo hi ↔ ∃ i, lo ≤ i ∧ i < hi ∧ q = P i := by
  simp only [idx, List.mem_map, List.mem_range]
  constructor
  · rintro ⟨i, hi, rfl⟩; exact ⟨lo + i, by omega, by omega, rfl⟩
  · rintro ⟨i, h1, h2, rfl⟩; exact ⟨i - lo, by omega, by congr 1; omega⟩

/-- A group receives the carry it generates. -/
theorem run_calcG (P G : Nat → Q) (lo m : Nat) (s : St Q) (hG : ∀ i < m, G (lo + i) ≠ G (lo + m))
    (hP : ∀ i, lo < i → i ≤ lo + m → P i ≠ G (lo + m)) :
    run (calcG P G lo (lo + m + 1)) s = upd s (G (lo + m)) (car P G s lo m) := by
  have e1 : lo + m + 1 - lo - 1 = m := by omega
  have e2 : lo + m + 1 - 1 = lo + m := by omega
  have : calcG P G lo (lo + m + 1)
      = ((List.range m).map fun i => pos (G (lo + i) :: idx P (lo + i + 1) (lo + m + 1))).map fun cs => Gate.mcx cs (G (lo + m)) := by
    rw [calcG, e1, e2, List.map_map]; rfl
  rw [this, run_same, List.foldl_map, foldl_xs, car_eq]
  · congr 2
    refine xs_congr fun i hi => ?_
    have e : lo + m + 1 = lo + i + 1 + (m - i) := by omega
    rw [fire_pos, List.all_cons, e, all_idx]
  · intro cs hcs c hc
    obtain ⟨i, hi, rfl⟩ := List.mem_map.1 hcs
    rw [List.mem_range] at hi
    obtain ⟨q, hq, rfl⟩ := List.mem_map.1 hc
    rcases List.mem_cons.1 hq with rfl | hq
    · exact hG i hi
    · obtain ⟨x, hx1, hx2, rfl⟩ := mem_idx.1 hq
      exact hP x (by omega) (by omega)

theorem car_congr {P G : Nat → Q} {s t : St Q} {lo m : Nat} (hG : ∀ i ≤ m, t (G (lo + i)) = s (G (lo + i)))
    (hP : ∀ i, lo < i → i ≤ lo + m → t (P i) = s (P i)) : car P G t lo m = car P G s lo m := by
  induction m with
  | zero => exact hG 0 (by omega)
  | succ m ih =>
    rw [car, car, ih (fun i hi => hG i (by omega)) fun i h1 h2 => hP i h1 (by omega), hP _ (by omega) (by omega)]
    have := hG (m + 1) (by omega)
    rw [← Nat.add_assoc] at this
    rw [this]

/-- `propagate_carry` turns the generate values of an interval into carries. -/
theorem run_propagate (P G : Nat → Q) (lo m : Nat) (s : St Q)
    (hG : ∀ i j, i ≤ m → j ≤ m → G (lo + i) = G (lo + j) → i = j)
    (hP : ∀ i j, lo < i → i ≤ lo + m → j ≤ m → P i ≠ G (lo + j)) :
    (∀ j ≤ m, run (propagate P G lo (lo + m + 1)) s (G (lo + j)) = car P G s lo j) ∧
      ∀ q, (∀ j ≤ m, q ≠ G (lo + j)) → run (propagate P G lo (lo + m + 1)) s q = s q := by
  have e1 : lo + m + 1 - lo - 1 = m := by omega
  rw [propagate, e1]
  clear e1
  induction m generalizing s with
  | zero =>
    refine ⟨fun j hj => ?_, fun q _ => rfl⟩
    obtain rfl : j = 0 := by omega
    rfl
  | succ m ih =>
    rw [List.range_succ, List.reverse_append, List.reverse_singleton, List.singleton_append, List.flatMap_cons]
    have e : ((List.range (m + 1)).map fun j =>
        Gate.mcx (pos (G (lo + j) :: idx P (lo + j + 1) (lo + m + 2))) (G (lo + (m + 1)))) = calcG P G lo (lo + (m + 1) + 1) := by
      have e1 : lo + (m + 1) + 1 - lo - 1 = m + 1 := by omega
      have e2 : lo + (m + 1) + 1 - 1 = lo + (m + 1) := by omega
      rw [calcG, e1, e2]; rfl
    rw [e]
    have h1 : run (calcG P G lo (lo + (m + 1) + 1)) s = upd s (G (lo + (m + 1))) (car P G s lo (m + 1)) := by
      refine run_calcG P G lo (m + 1) s (fun i hi h => ?_) fun i h1 h2 => hP i _ h1 h2 (by omega)
      have := hG i (m + 1) (by omega) (by omega) h
      omega
    obtain ⟨i1, i2⟩ := ih (upd s (G (lo + (m + 1))) (car P G s lo (m + 1))) (fun i j hi hj => hG i j (by omega) (by omega))
      fun i j h1 h2 h3 => hP i j h1 (by omega) (by omega)
    constructor
    · intro j hj
      rw [run_append, h1]
      by_cases hj' : j = m + 1
      · subst hj'
        rw [i2 _ fun j' hj' h => by have := hG (m + 1) j' (by omega) (by omega) h; omega, upd_same]
      · rw [i1 j (by omega)]
        refine car_congr (fun i hi => upd_ne fun h => ?_) fun i h1 h2 => upd_ne fun h => ?_
        · have := hG i (m + 1) (by omega) (by omega) h; omega
        · exact hP i (m + 1) h1 (by omega) (by omega) h
    · intro q hq
      rw [run_append, h1, i2 q fun j hj => hq j (by omega), upd_ne (hq (m + 1) (by omega))]

theorem car_split (P G : Nat → Q) (s : St Q) (lo u j : Nat) :
    car P G s lo (u + 1 + j) = (car P G s (lo + u + 1) j ^^ (allP P s (lo + u + 1) (j + 1) && car P G s lo u)) := by
  induction j with
  | zero => simp [car, allP]
  | succ j ih =>
    have e1 : lo + (u + 1 + j) + 1 = lo + u + 1 + j + 1 := by omega
    have e2 : lo + u + 1 + (j + 1) = lo + u + 1 + j + 1 := by omega
    have e3 : allP P s (lo + u + 1) (j + 1 + 1) = (allP P s (lo + u + 1) (j + 1) && s (P (lo + u + 1 + j + 1))) := by
      rw [allP, e2]
    rw [← Nat.add_assoc, car, ih, e3, car, e1]
    cases s (G (lo + u + 1 + j + 1)) <;> cases s (P (lo + u + 1 + j + 1)) <;> cases car P G s (lo + u + 1) j <;>
      cases allP P s (lo + u + 1) (j + 1) <;> cases car P G s lo u <;> rfl

theorem car_cont {P G : Nat → Q} {s t : St Q} {lo j : Nat} (h0 : t (G lo) = car P G s 0 lo)
    (hG : ∀ i, lo < i → i ≤ lo + j → t (G i) = s (G i)) (hP : ∀ i, lo < i → i ≤ lo + j → t (P i) = s (P i)) :
    car P G t lo j = car P G s 0 (lo + j) := by
  induction j with
  | zero => exact h0
  | succ j ih =>
    rw [car, ih (fun i h1 h2 => hG i h1 (by omega)) fun i h1 h2 => hP i h1 (by omega), hG _ (by omega) (by omega),
      hP _ (by omega) (by omega), ← Nat.add_assoc, car]
    simp

/-- The grouping phase of a layer. -/
theorem run_groups (pw : Nat → Nat → Q) (r l : Nat) (hr : 2 ≤ r) (P G : Nat → Q) (n m : Nat) (s : St Q) (hm : r * m ≤ n)
    (hpw : ∀ a i b j, pw a i = pw b j → a = b ∧ i = j)
    (hG : ∀ i j, i < n → j < n → G i = G j → i = j) (hPG : ∀ i j, i < n → j < n → P i ≠ G j)
    (hpG : ∀ i j, j < n → pw (l + 1) i ≠ G j) (hpP : ∀ i j, 0 < j → j < n → pw (l + 1) i ≠ P j)
    (hz : ∀ i, s (pw (l + 1) i) = false) :
    let s1 := run ((List.range m).flatMap fun i =>
      (if i = 0 then [] else calcP P (r * i) (r * (i + 1)) (pw (l + 1) i)) ++ calcG P G (r * i) (r * (i + 1))) s
    (∀ i < m, s1 (G (r * i + r - 1)) = car P G s (r * i) (r - 1)) ∧
    (∀ i < m, 0 < i → s1 (pw (l + 1) i) = allP P s (r * i) r) ∧
    ∀ q, (∀ i < m, q ≠ G (r * i + r - 1)) → (∀ i < m, 0 < i → q ≠ pw (l + 1) i) → s1 q = s q := by
  intro s1
  induction m with
  | zero => exact ⟨fun i h => absurd h (by omega), fun i h => absurd h (by omega), fun q _ _ => rfl⟩
  | succ m ih =>
    have hm' : r * (m + 1) = r * m + r := by ring
    obtain ⟨i1, i2, i3⟩ := ih (by omega)
    set t := run ((List.range m).flatMap fun i =>
      (if i = 0 then [] else calcP P (r * i) (r * (i + 1)) (pw (l + 1) i)) ++ calcG P G (r * i) (r * (i + 1))) s with ht
    have es : s1 = run ((if m = 0 then [] else calcP P (r * m) (r * (m + 1)) (pw (l + 1) m)) ++ calcG P G (r * m) (r * (m + 1))) t := by
      simp only [s1, ht]
      rw [List.range_succ, List.flatMap_append, run_append]; simp
    have hlt : ∀ i < m, r * i + r ≤ r * m := fun i hi => by
      have := Nat.mul_le_mul_left r (show i + 1 ≤ m by omega)
      rw [Nat.mul_add, Nat.mul_one] at this
      exact this
    -- values that the earlier groups have not changed
    have tG : ∀ x, r * m ≤ x → x < n → t (G x) = s (G x) := fun x h1 h2 => i3 _
      (fun i hi h => by have := hG _ _ h2 (by have := hlt i hi; omega) h; have := hlt i hi; omega)
      (fun i _ _ h => hpG i x h2 h.symm)
    have tP : ∀ x, 0 < x → x < n → t (P x) = s (P x) := fun x h1 h2 => i3 _
      (fun i hi h => hPG x _ h2 (by have := hlt i hi; omega) h) (fun i _ _ h => hpP i x h1 h2 h.symm)
    have tz : t (pw (l + 1) m) = false := by
      rw [i3 _ (fun i hi h => hpG _ _ (by have := hlt i hi; omega) h)
        (fun i hi _ h => by have := (hpw _ _ _ _ h).2; omega), hz]
    -- the propagate value
    set u := run (if m = 0 then [] else calcP P (r * m) (r * (m + 1)) (pw (l + 1) m)) t with hu
    have hu1 : ∀ q, q ≠ pw (l + 1) m → u q = t q := by
      intro q hq
      rw [hu]
      split
      · rfl
      · simp [calcP, Gate.app, hq]
    have hu2 : 0 < m → u (pw (l + 1) m) = allP P s (r * m) r := by
      intro h0
      rw [hu, if_neg (by omega)]
      simp only [calcP, run_cons, run_nil, Gate.app, upd_same, tz, Bool.false_xor]
      rw [fire_pos, hm', all_idx]
      have hpos : 0 < r * m := Nat.mul_pos (by omega) h0
      have : ∀ c ≤ r, allP P t (r * m) c = allP P s (r * m) c := by
        intro c
        induction c with
        | zero => intro _; rfl
        | succ c ihc => intro hc; rw [allP, allP, ihc (by omega), tP _ (by omega) (by omega)]
      exact this r le_rfl
    -- the generate value
    have e : r * (m + 1) = r * m + (r - 1) + 1 := by omega
    have hg : s1 = upd u (G (r * m + (r - 1))) (car P G u (r * m) (r - 1)) := by
      rw [es, run_append, ← hu, e]
      exact run_calcG P G (r * m) (r - 1) u
        (fun i hi h => by have := hG _ _ (by omega) (by omega) h; omega)
        (fun i h1 h2 => hPG i _ (by omega) (by omega))
    have ecar : car P G u (r * m) (r - 1) = car P G s (r * m) (r - 1) := by
      refine car_congr (fun i hi => ?_) fun i h1 h2 => ?_
      · rw [hu1 _ fun h => hpG m _ (by omega) h.symm, tG _ (by omega) (by omega)]
      · rw [hu1 _ fun h => hpP m _ (by omega) (by omega) h.symm, tP _ (by omega) (by omega)]
    have eidx : ∀ i, r * i + r - 1 = r * i + (r - 1) := fun i => by omega
    have hne : ∀ i < m, G (r * i + r - 1) ≠ G (r * m + (r - 1)) := fun i hi h => by
      have := hlt i hi
      have := hG _ _ (by omega) (by omega) h; omega
    refine ⟨fun i hi => ?_, fun i hi h0 => ?_, fun q h1 h2 => ?_⟩
    · by_cases him : i = m
      · subst him; rw [hg, eidx, upd_same, ecar]
      · rw [hg, upd_ne (hne i (by omega)), hu1 _ fun h => hpG m _ (by have := hlt i (by omega); omega) h.symm, i1 i (by omega)]
    · have hne' : pw (l + 1) i ≠ G (r * m + (r - 1)) := hpG i _ (by omega)
      by_cases him : i = m
      · subst him; rw [hg, upd_ne hne', hu2 h0]
      · rw [hg, upd_ne hne', hu1 _ fun h => him (hpw _ _ _ _ h).2, i2 i (by omega) h0]
    · have h1' := h1 m (by omega)
      rw [eidx] at h1'
      rw [hg, upd_ne h1']
      rw [show u q = t q by
        by_cases h0 : m = 0
        · rw [hu, if_pos h0]; rfl
        · exact hu1 q (h2 m (by omega) (by omega))]
      exact i3 q (fun i hi => h1 i (by omega)) fun i hi => h2 i (by omega)

theorem car_groups {P G P' G' : Nat → Q} {s t : St Q} {r : Nat} (hr : 2 ≤ r) (i : Nat)
    (hG : ∀ j ≤ i, t (G' j) = car P G s (r * j) (r - 1)) (hP : ∀ j ≤ i, 0 < j → t (P' j) = allP P s (r * j) r) :
    car P' G' t 0 i = car P G s 0 (r * i + r - 1) := by
  induction i with
  | zero =>
    have := hG 0 le_rfl
    have e : r * 0 + r - 1 = r - 1 := by omega
    rw [car, this, e, Nat.mul_zero]
  | succ i ih =>
    rw [car, ih (fun j hj => hG j (by omega)) fun j hj => hP j (by omega), Nat.zero_add, hG (i + 1) le_rfl, hP (i + 1) le_rfl (by omega)]
    have e : r * (i + 1) + r - 1 = (r * i + r - 1) + 1 + (r - 1) := by rw [Nat.mul_add]; omega
    have e2 : 0 + (r * i + r - 1) + 1 = r * (i + 1) := by rw [Nat.mul_add]; omega
    have e3 : r - 1 + 1 = r := by omega
    rw [e, car_split, e2, e3]

/-- The propagation phase of a layer. -/
theorem run_intervals (P G : Nat → Q) (r n : Nat) (hr : 2 ≤ r) (s t : St Q)
    (hG : ∀ i j, i < n → j < n → G i = G j → i = j) (hPG : ∀ i j, i < n → j < n → P i ≠ G j) (m : Nat) (hm : r * m ≤ n)
    (h1 : ∀ x < n, (x + 1) % r = 0 → t (G x) = car P G s 0 x)
    (h2 : ∀ x < n, (x + 1) % r ≠ 0 → t (G x) = s (G x)) (h3 : ∀ x < n, 0 < x → t (P x) = s (P x)) :
    let t' := run (propagate P G 0 (min (r - 1) n)
      ++ (List.range m).flatMap fun i => propagate P G (r * (i + 1) - 1) (min (r * (i + 2) - 1) n)) t
    (∀ x, x < min (r * (m + 1) - 1) n → t' (G x) = car P G s 0 x) ∧
    (∀ x, min (r * (m + 1) - 1) n ≤ x → x < n → t' (G x) = t (G x)) ∧
    ∀ q, (∀ x < n, q ≠ G x) → t' q = t q := by
  intro t'
  induction m with
  | zero =>
    simp only [t', List.range_zero, List.flatMap_nil, List.append_nil, Nat.zero_add, Nat.mul_one]
    by_cases hn : n = 0
    · subst hn
      have e : propagate P G 0 (min (r - 1) 0) = [] := by simp [propagate]
      rw [e]
      exact ⟨fun x h => absurd h (by omega), fun x _ _ => rfl, fun q _ => rfl⟩
    · obtain ⟨y, hy⟩ : ∃ y, min (r - 1) n = 0 + y + 1 := ⟨min (r - 1) n - 1, by omega⟩
      obtain ⟨p1, p2⟩ := run_propagate P G 0 y t (fun i j hi hj h => by
        have := hG _ _ (by omega) (by omega) h; omega) (fun i j _ h2 h3 => hPG _ _ (by omega) (by omega))
      rw [hy]
      refine ⟨fun x hx => ?_, fun x hx hx' => ?_, fun q hq => p2 q fun j hj => hq _ (by omega)⟩
      · have := p1 x (by omega)
        have e0 : 0 + x = x := by omega
        rw [e0] at this
        rw [this]
        have := car_cont (P := P) (G := G) (s := s) (t := t) (lo := 0) (j := x)
          (by rw [car]; exact h2 0 (by omega) (by rw [Nat.zero_add, Nat.mod_eq_of_lt (by omega)]; omega))
          (fun i hi hi' => h2 i (by omega) (by rw [Nat.mod_eq_of_lt (by omega)]; omega))
          (fun i hi hi' => h3 i (by omega) (by omega))
        rw [Nat.zero_add] at this
        exact this
      · exact p2 _ fun j hj h => by have := hG _ _ hx' (by omega) h; omega
  | succ m ih =>
    have hm' : r * (m + 1) = r * m + r := by ring
    have hm2 : r * (m + 2) = r * m + r + r := by ring
    obtain ⟨i1, i2, i3⟩ := ih (by omega)
    set u := run (propagate P G 0 (min (r - 1) n)
      ++ (List.range m).flatMap fun i => propagate P G (r * (i + 1) - 1) (min (r * (i + 2) - 1) n)) t with hu
    have es : t' = run (propagate P G (r * (m + 1) - 1) (min (r * (m + 2) - 1) n)) u := by
      simp only [t', hu]
      rw [List.range_succ, List.flatMap_append, ← List.append_assoc, run_append]; simp
    obtain ⟨y, hy⟩ : ∃ y, min (r * (m + 2) - 1) n = r * (m + 1) - 1 + y + 1 := ⟨min (r * (m + 2) - 1) n - (r * (m + 1) - 1) - 1, by omega⟩
    obtain ⟨p1, p2⟩ := run_propagate P G (r * (m + 1) - 1) y u (fun i j hi hj h => by
        have := hG _ _ (by omega) (by omega) h; omega) (fun i j _ h2 h3 => hPG _ _ (by omega) (by omega))
    rw [es, hy]
    refine ⟨fun x hx => ?_, fun x hx hx' => ?_, fun q hq => ?_⟩
    · by_cases hx2 : x < r * (m + 1) - 1
      · rw [p2 _ fun j hj h => by have := hG _ _ (by omega) (by omega) h; omega]
        exact i1 x (by omega)
      · obtain ⟨j, rfl⟩ : ∃ j, x = r * (m + 1) - 1 + j := ⟨x - (r * (m + 1) - 1), by omega⟩
        rw [p1 j (by omega)]
        have md : ∀ i, r * (m + 1) - 1 < i → i ≤ r * (m + 1) - 1 + j → (i + 1) % r ≠ 0 := by
          intro i hi hi' hd
          obtain ⟨c, hc⟩ := Nat.dvd_of_mod_eq_zero hd
          have h1 : m + 1 < c := by
            by_contra hcc
            have := Nat.mul_le_mul_left r (show c ≤ m + 1 by omega)
            omega
          have := Nat.mul_le_mul_left r (show m + 2 ≤ c by omega)
          omega
        refine car_cont ?_ (fun i hi hi' => ?_) fun i hi hi' => ?_
        · rw [i2 _ (by omega) (by omega)]
          exact h1 _ (by omega) (by
            have : r * (m + 1) - 1 + 1 = r * (m + 1) := by omega
            rw [this]; exact Nat.mul_mod_right _ _)
        · rw [i2 _ (by omega) (by omega)]
          exact h2 _ (by omega) (md i hi hi')
        · rw [i3 _ fun x hx => hPG _ _ (by omega) hx]
          exact h3 _ (by omega) (by omega)
    · rw [p2 _ fun j hj h => by have := hG _ _ (by omega) (by omega) h; omega, i2 x (by omega) hx']
    · rw [p2 q fun j hj => hq _ (by omega), i3 q hq]

/-- The tree leaves the carries of the positions `r ^ k, 2 * r ^ k, …`. -/
theorem run_tree (pw : Nat → Nat → Q) (r : Nat) (hr : 2 ≤ r) (hpw : ∀ a i b j, pw a i = pw b j → a = b ∧ i = j) :
    ∀ (f k l : Nat) (P G : Nat → Q) (n : Nat) (s : St Q), n ≤ f →
    (∀ i j, i < n → j < n → G i = G j → i = j) → (∀ i j, i < n → j < n → P i ≠ G j) →
    (∀ l', l < l' → ∀ i j, j < n → pw l' i ≠ G j) → (∀ l', l < l' → ∀ i j, 0 < j → j < n → pw l' i ≠ P j) →
    (∀ l', l < l' → ∀ i, s (pw l' i) = false) →
    (∀ i < n, (i + 1) % r ^ k = 0 → run (tree pw r f k l P G n) s (G i) = car P G s 0 i) ∧
    ∀ q, (∀ i < n, q ≠ G i) → (∀ l', l < l' → ∀ i, q ≠ pw l' i) → run (tree pw r f k l P G n) s q = s q := by
  intro f
  induction f with
  | zero =>
    intro k l P G n s hn _ _ _ _ _
    exact ⟨fun i h => absurd h (by omega), fun q _ _ => rfl⟩
  | succ f ih =>
    intro k l P G n s hn hG hPG hpG hpP hz
    rw [tree]
    by_cases h0 : n = 0
    · rw [if_pos h0]
      exact ⟨fun i h => absurd h (by omega), fun q _ _ => rfl⟩
    rw [if_neg h0]
    have hdiv : r * (n / r) ≤ n := Nat.mul_div_le n r
    have hltn : n / r < n := Nat.div_lt_self (by omega) (by omega)
    have hlt : ∀ i < n / r, r * i + r ≤ n := fun i hi => by
      have := Nat.mul_le_mul_left r (show i + 1 ≤ n / r by omega)
      rw [Nat.mul_add, Nat.mul_one] at this
      omega
    obtain ⟨g1, g2, g3⟩ := run_groups pw r l hr P G n (n / r) s hdiv hpw hG hPG (hpG _ (by omega)) (hpP _ (by omega)) (hz _ (by omega))
    set s1 := run ((List.range (n / r)).flatMap fun i =>
      (if i = 0 then [] else calcP P (r * i) (r * (i + 1)) (pw (l + 1) i)) ++ calcG P G (r * i) (r * (i + 1))) s with hs1
    have hGi : ∀ i < n / r, r * i + r - 1 < n := fun i hi => by have := hlt i hi; omega
    obtain ⟨t1, t2⟩ := ih (k - 1) (l + 1) (pw (l + 1)) (fun i => G (r * i + r - 1)) (n / r) s1 (by omega)
      (fun i j hi hj h => by
        have := hG _ _ (hGi i hi) (hGi j hj) h
        have : r * i = r * j := by omega
        exact Nat.eq_of_mul_eq_mul_left (by omega) this)
      (fun i j hi hj => hpG _ (by omega) _ _ (hGi j hj))
      (fun l' hl' i j hj => hpG _ (by omega) _ _ (hGi j hj))
      (fun l' hl' i j _ _ h => by have := (hpw _ _ _ _ h).1; omega)
      (fun l' hl' i => by
        rw [g3 _ (fun j hj => hpG _ (by omega) _ _ (hGi j hj)) (fun j _ _ h => by have := (hpw _ _ _ _ h).1; omega)]
        exact hz _ (by omega) _)
    set s2 := run (tree pw r f (k - 1) (l + 1) (pw (l + 1)) (fun i => G (r * i + r - 1)) (n / r)) s1 with hs2
    have hcar : ∀ i < n / r, car (pw (l + 1)) (fun i => G (r * i + r - 1)) s1 0 i = car P G s 0 (r * i + r - 1) := fun i hi =>
      car_groups hr i (fun j hj => g1 j (by omega)) fun j hj h0 => g2 j (by omega) h0
    have hgrp : ∀ x < n, (x + 1) % r = 0 → ∃ i < n / r, x = r * i + r - 1 := by
      intro x hx hd
      obtain ⟨c, hc⟩ := Nat.dvd_of_mod_eq_zero hd
      have hc0 : 0 < c := Nat.pos_of_ne_zero fun h => by subst h; omega
      refine ⟨c - 1, ?_, ?_⟩
      · have : c ≤ n / r := (Nat.le_div_iff_mul_le (by omega)).2 (by rw [Nat.mul_comm]; omega)
        omega
      · have : r * (c - 1) + r = r * c := by
          rw [← Nat.mul_succ]; congr 1; omega
        omega
    rw [run_append, run_append, ← hs1, ← hs2]
    by_cases hk : 0 < k
    · rw [if_pos hk, run_nil]
      constructor
      · intro x hx hd
        have hd' : (x + 1) % r = 0 := by
          have h1 := Nat.dvd_of_mod_eq_zero hd
          refine Nat.mod_eq_zero_of_dvd (dvd_trans ?_ h1)
          exact dvd_pow_self r (by omega)
        obtain ⟨i, hi, rfl⟩ := hgrp x hx hd'
        rw [← hcar i hi]
        refine t1 i hi ?_
        have e : r * i + r - 1 + 1 = r * (i + 1) := by rw [Nat.mul_add]; omega
        have e2 : r ^ k = r * r ^ (k - 1) := by
          rw [← Nat.pow_succ']; congr 1; omega
        rw [e, e2, Nat.mul_mod_mul_left] at hd
        exact (Nat.mul_eq_zero.1 hd).resolve_left (by omega)
      · intro q h1 h2
        rw [t2 q (fun i hi => h1 _ (hGi i hi)) fun l' hl' => h2 l' (by omega)]
        exact g3 q (fun i hi => h1 _ (hGi i hi)) fun i _ _ => h2 _ (by omega) i
    · rw [if_neg hk]
      have hk0 : k = 0 := by omega
      subst hk0
      have f1 : ∀ x < n, (x + 1) % r = 0 → s2 (G x) = car P G s 0 x := by
        intro x hx hd
        obtain ⟨i, hi, rfl⟩ := hgrp x hx hd
        rw [← hcar i hi]
        exact t1 i hi (by simp [Nat.mod_one])
      have fr : ∀ q, (∀ i < n / r, q ≠ G (r * i + r - 1)) → (∀ l', l < l' → ∀ i, q ≠ pw l' i) → s2 q = s q := by
        intro q h1 h2
        rw [t2 q h1 fun l' hl' => h2 l' (by omega)]
        exact g3 q h1 fun i _ _ => h2 _ (by omega) i
      have f2 : ∀ x < n, (x + 1) % r ≠ 0 → s2 (G x) = s (G x) := by
        intro x hx hd
        refine fr _ (fun i hi h => ?_) fun l' hl' i h => hpG l' hl' i x hx h.symm
        have := hG _ _ hx (hGi i hi) h
        refine hd ?_
        have e : x + 1 = r * (i + 1) := by rw [Nat.mul_add]; omega
        rw [e]; exact Nat.mul_mod_right _ _
      have f3 : ∀ x < n, 0 < x → s2 (P x) = s (P x) := fun x hx h0 =>
        fr _ (fun i hi => hPG _ _ hx (hGi i hi)) fun l' hl' i h => hpP l' hl' i x h0 hx h.symm
      obtain ⟨v1, v2, v3⟩ := run_intervals P G r n hr s s2 hG hPG (n / r) hdiv f1 f2 f3
      have hcov : min (r * (n / r + 1) - 1) n = n := by
        have := Nat.lt_mul_div_succ n (show 0 < r by omega)
        omega
      rw [hcov] at v1
      refine ⟨fun x hx _ => v1 x hx, fun q h1 h2 => ?_⟩
      rw [v3 q h1]
      exact fr q (fun i hi => h1 _ (hGi i hi)) h2

end Verif.Rev.Qcla
