import Verif.Rev.GidneyC

/-!
Model of the incrementation circuits
(`alg_primitives/arithmetic/adders/incrementation.py`).

The phase tolerant multi-controlled X gates (`method="gray_pt"` / `"gray_pt_inv"`) of
`increment_qb_list` are modelled by `land`/`landInv`: they are Toffoli gates up to a phase that
depends only on the values of the three qubits, and occur in matched pairs.
-/

set_option linter.unusedSectionVars false
set_option linter.unusedSimpArgs false

namespace Verif.Rev

variable {Q : Type} [DecidableEq Q]

def icChain : Q → List (Q × Q) → List (Q × Q × Q)
  | _, [] => []
  | c, (q, d) :: r => (c, q, d) :: icChain d r

def icLast : Q → List (Q × Q) → Q
  | c, [] => c
  | _, (_, d) :: r => icLast d r

/-- incrementation.py 84-91 (`increment_qb_list`) and 222-229 (`lin_incr`): carries are computed
into the ancillas, the top qubit is flipped by the last carry, then the carries are uncomputed while
the sum bits are written. `swapped` is the order of the two controls in the source. -/
def icCore (swapped : Bool) (c : Q) (ts : List (Q × Q)) (top : Q) : List (Gate Q) :=
  (icChain c ts).map (fun t => if swapped then .land t.2.1 t.1 t.2.2 else .land t.1 t.2.1 t.2.2)
  ++ [cx (icLast c ts) top]
  ++ (icChain c ts).reverse.flatMap (fun t =>
      [if swapped then .landInv t.2.1 t.1 t.2.2 else .landInv t.1 t.2.1 t.2.2, cx t.1 t.2.1])

/-- incrementation.py 69-96 `increment_qb_list`; `anc` has `n - 2` qubits. -/
def incrementQbList (l anc : List Q) : List (Gate Q) :=
  match l with
  | [] => []                                    -- IndexError in the source (n = 0)
  | [q0] => [gx q0]
  | [q0, q1] => [cx q0 q1, gx q0]
  | q0 :: q1 :: r =>
    match anc, r.getLast? with
    | d0 :: ds, some top =>
      [.land q0 q1 d0] ++ icCore true d0 (r.dropLast.zip ds) top
        ++ [.landInv q0 q1 d0, cx q0 q1, gx q0]
    | _, _ => []

/-- incrementation.py 209-236 `lin_incr`; `anc` has `len(a) - 1` qubits. -/
def linIncr (a0 : List Q) (anc : List Q) (cIn cOut : Option Q) : List (Gate Q) :=
  match a0 ++ cOut.toList with
  | [] => []
  | [q] => match cIn with
    | some c => [cx c q]
    | none => []                                -- `cx(None, a[0])` raises in the source
  | q0 :: r =>
    match anc, r.getLast? with
    | d0 :: ds, some top =>
      (match cIn with
        | some c => [.land c q0 d0]
        | none => [])
      ++ icCore false d0 (r.dropLast.zip ds) top
      ++ (match cIn with
        | some c => [.landInv c q0 d0, cx c q0]
        | none => [])
    | _, _ => []

/-! ### Lemmas -/

theorem icCore_spec (sw : Bool) (ts : List (Q × Q)) (c top : Q) (s : St Q)
    (hnd : (c :: (ts.flatMap (fun t => [t.1, t.2]) ++ [top])).Nodup)
    (hz : ∀ q ∈ ts.map Prod.snd, s q = false) :
    let s' := run (icCore sw c ts top) s
    regVal (ts.map Prod.fst ++ [top]) s' =
      (regVal (ts.map Prod.fst ++ [top]) s + (s c).toNat) % 2 ^ (ts.length + 1)
    ∧ (∀ q, q ∉ ts.map Prod.fst → q ≠ top → s' q = s q)
    ∧ ok (icCore sw c ts top) s := by
  induction ts generalizing c s with
  | nil =>
    simp only [List.flatMap_nil, List.nil_append, List.nodup_cons, List.mem_singleton] at hnd
    refine ⟨?_, ?_, ?_⟩
    · simp only [icCore, icChain, icLast, List.map_nil, List.nil_append, List.reverse_nil,
        List.flatMap_nil, List.append_nil, run_cons, run_nil, Gate.app, fire, List.all_cons,
        List.all_nil, regVal_cons, regVal_nil, upd_same, List.length_nil]
      cases s top <;> cases s c <;> rfl
    · intro q _ hq; simp [icCore, icChain, icLast, Gate.app, hq]
    · simp [icCore, icChain, icLast, Gate.ok]
  | cons t r ih =>
    obtain ⟨b, d⟩ := t
    have hcore : icCore sw c ((b, d) :: r) top =
        [if sw then .land b c d else .land c b d] ++ icCore sw d r top ++
        [if sw then .landInv b c d else .landInv c b d, cx c b] := by
      simp only [icCore, icChain, icLast, List.map_cons, List.reverse_cons,
        List.flatMap_append, List.flatMap_cons, List.flatMap_nil, List.append_nil,
        List.append_assoc, List.cons_append, List.nil_append]
    simp only [List.flatMap_cons, List.cons_append, List.nil_append, List.nodup_cons,
      List.mem_cons, not_or] at hnd
    obtain ⟨⟨hcb, hcd, hcr⟩, ⟨hbd, hbr⟩, hdr, hr⟩ := hnd
    have hd0 : s d = false := hz d (by simp)
    set R := r.flatMap (fun t => [t.1, t.2]) ++ [top] with hR
    have notR : ∀ q ∈ R, q ≠ c ∧ q ≠ b ∧ q ≠ d := by
      intro q hq
      refine ⟨?_, ?_, ?_⟩ <;> rintro rfl <;> contradiction
    have m1 : ∀ q ∈ r.map Prod.fst, q ∈ R := by
      intro q hq
      obtain ⟨p, hp, rfl⟩ := List.mem_map.1 hq
      exact List.mem_append_left _ (List.mem_flatMap.2 ⟨p, hp, by simp⟩)
    have m3 : ∀ q ∈ r.map Prod.snd, q ∈ R := by
      intro q hq
      obtain ⟨p, hp, rfl⟩ := List.mem_map.1 hq
      exact List.mem_append_left _ (List.mem_flatMap.2 ⟨p, hp, by simp⟩)
    have m4 : top ∈ R := by simp [hR]
    set s1 := upd s d (s c && s b) with hs1
    have hf : run [if sw then Gate.land b c d else .land c b d] s = s1 := by
      cases sw <;> simp [Gate.app, hd0, hs1, Bool.and_comm]
    have hfok : ok [if sw then Gate.land b c d else .land c b d] s := by
      cases sw <;> simp [Gate.ok, hd0]
    have eo : ∀ q, q ≠ d → s1 q = s q := fun q h => by rw [hs1, upd_ne h]
    have e0 : ∀ q ∈ R, s1 q = s q := fun q hq => eo q (notR q hq).2.2
    obtain ⟨hv, hfr, hok⟩ := ih d s1 (List.nodup_cons.2 ⟨hdr, hr⟩) (by
      intro q hq; rw [e0 q (m3 q hq)]; exact hz q (List.mem_cons_of_mem _ hq))
    set s2 := run (icCore sw d r top) s1 with hs2
    have fr : ∀ q, q ∉ R → s2 q = s1 q := by
      intro q hq
      exact hfr q (fun hm => hq (m1 q hm)) (by rintro rfl; exact hq m4)
    have fc : s2 c = s c := by rw [fr c hcr, eo c hcd]
    have fb : s2 b = s b := by rw [fr b hbr, eo b hbd]
    have fd : s2 d = (s c && s b) := by rw [fr d hdr, hs1, upd_same]
    have fin : ∀ q, run (icCore sw c ((b, d) :: r) top) s q =
        if q = b then (s b ^^ s c) else if q = d then false else s2 q := by
      intro q
      rw [hcore, run_append, run_append, hf, ← hs2]
      by_cases h1 : q = b
      · subst h1
        cases sw <;> simp [Gate.app, fire, upd_apply, hbd, hcd, fb, fc, fd]
      · by_cases h2 : q = d
        · subst h2
          cases sw <;> simp [Gate.app, fire, upd_apply, h1, fb, fc, fd, Bool.and_comm]
        · cases sw <;> simp [Gate.app, fire, upd_apply, h1, h2]
    refine ⟨?_, ?_, ?_⟩
    · have memB : ∀ q ∈ r.map Prod.fst ++ [top], q ∈ R := by
        intro q hq
        rw [List.mem_append] at hq
        rcases hq with hq | hq
        · exact m1 q hq
        · simp at hq; subst hq; exact m4
      rw [regVal_congr (fun q hq => e0 q (memB q hq))] at hv
      have v3 : regVal (r.map Prod.fst ++ [top]) (run (icCore sw c ((b, d) :: r) top) s)
          = regVal (r.map Prod.fst ++ [top]) s2 := by
        apply regVal_congr
        intro q hq
        have := notR q (memB q hq)
        rw [fin, if_neg this.2.1, if_neg this.2.2]
      show regVal (b :: (r.map Prod.fst ++ [top])) _ =
        (regVal (b :: (r.map Prod.fst ++ [top])) s + (s c).toNat) % _
      rw [regVal_cons, regVal_cons, v3, hv, fin b, if_pos rfl, List.length_cons, hs1, upd_same]
      have key : (s b).toNat + (s c).toNat = (s b ^^ s c).toNat + 2 * (s c && s b).toNat := by
        cases s b <;> cases s c <;> rfl
      set B := regVal (r.map Prod.fst ++ [top]) s
      have e : (s b).toNat + 2 * B + (s c).toNat =
          (s b ^^ s c).toNat + 2 * (B + (s c && s b).toNat) := by omega
      rw [e, pow_succ' 2 (r.length + 1), mod_step (Bool.toNat_le _) (by positivity)]
    · intro q hq hbt
      simp only [List.map_cons, List.mem_cons, not_or] at hq
      rw [fin, if_neg hq.1]
      split_ifs with g
      · rw [g, hd0]
      · rw [hfr q hq.2 hbt, eo q g]
    · rw [hcore, ok_append, ok_append, run_append, hf, ← hs2]
      refine ⟨⟨hfok, hok⟩, ?_⟩
      cases sw <;> simp [Gate.ok, fb, fc, fd, Bool.and_comm]

theorem izip_lists (b d : List Q) (h1 : b.length = d.length) :
    (b.zip d).map Prod.fst = b ∧ (b.zip d).map Prod.snd = d ∧ (b.zip d).length = b.length
      ∧ ((b.zip d).flatMap (fun t => [t.1, t.2])).Perm (b ++ d) := by
  refine ⟨List.map_fst_zip h1.le, List.map_snd_zip h1.ge, by simp [h1], ?_⟩
  induction b generalizing d with
  | nil =>
    have : d = [] := List.length_eq_zero_iff.1 h1.symm
    subst this; simp
  | cons x b ih =>
    cases d with
    | nil => simp at h1
    | cons z d =>
      have i5 := ih d (by simpa using h1)
      rw [List.perm_iff_count] at i5 ⊢
      intro q
      have := i5 q
      simp only [List.zip_cons_cons, List.flatMap_cons, List.count_append, List.count_cons,
        List.count_nil, List.cons_append, List.nil_append] at this ⊢
      omega

theorem incrementQbList_spec (l anc : List Q) (s : St Q) (hl : l ≠ [])
    (hnd : (l ++ anc).Nodup) (hanc : anc.length = l.length - 2)
    (hz : ∀ q ∈ anc, s q = false) :
    let s' := run (incrementQbList l anc) s
    regVal l s' = (regVal l s + 1) % 2 ^ l.length
    ∧ (∀ q, q ∉ l → s' q = s q) ∧ ok (incrementQbList l anc) s := by
  match l, hl with
  | [q0], _ =>
    refine ⟨?_, ?_, by simp [incrementQbList, Gate.ok]⟩
    · simp only [incrementQbList, run_cons, run_nil, Gate.app, fire, List.all_nil, regVal_cons,
        regVal_nil, upd_same, List.length_cons, List.length_nil]
      cases s q0 <;> rfl
    · intro q hq; simp at hq; simp [incrementQbList, Gate.app, hq]
  | [q0, q1], _ =>
    have h01 : q0 ≠ q1 := by
      intro h; subst h; simp at hnd
    refine ⟨?_, ?_, by simp [incrementQbList, Gate.ok]⟩
    · simp [incrementQbList, Gate.app, fire, h01, h01.symm]
      cases s q0 <;> cases s q1 <;> rfl
    · intro q hq; simp at hq; simp [incrementQbList, Gate.app, hq]
  | q0 :: q1 :: x :: r', _ =>
    obtain ⟨d0, ds, rfl⟩ : ∃ x l, anc = x :: l := by
      cases anc with
      | nil => simp at hanc
      | cons x l => exact ⟨x, l, rfl⟩
    obtain ⟨rm, top, hr⟩ : ∃ rm top, x :: r' = rm ++ [top] := by
      rcases List.eq_nil_or_concat (x :: r') with h | ⟨m, t, h⟩
      · simp at h
      · exact ⟨m, t, by rw [h, List.concat_eq_append]⟩
    rw [hr] at hnd hanc ⊢
    have hG : incrementQbList (q0 :: q1 :: (rm ++ [top])) (d0 :: ds) =
        [.land q0 q1 d0] ++ icCore true d0 (rm.zip ds) top
        ++ [.landInv q0 q1 d0, cx q0 q1, gx q0] := by
      have h3 : (rm ++ [top]).getLast? = some top := by simp
      have h4 : (rm ++ [top]).dropLast = rm := by simp
      cases rm with
      | nil => simp [incrementQbList]
      | cons y ys =>
        simp only [List.cons_append, incrementQbList] at h3 h4 ⊢
        rw [h3, h4]
    rw [hG]
    obtain ⟨z1, z2, z3, z4⟩ := izip_lists rm ds (by simp at hanc; omega)
    have hn1 : (q0 :: q1 :: d0 :: ((rm.zip ds).flatMap (fun t => [t.1, t.2]) ++ [top])).Nodup := by
      refine (List.Perm.nodup_iff ?_).1 hnd
      rw [List.perm_iff_count] at z4 ⊢
      intro q
      have := z4 q
      simp only [List.count_append, List.count_cons, List.count_nil] at this ⊢
      omega
    have hn2 := hn1
    simp only [List.nodup_cons, List.mem_cons, not_or] at hn2
    obtain ⟨⟨h01, h0d, h0r⟩, ⟨h1d, h1r⟩, hdr, -⟩ := hn2
    have hsub : ∀ q, q ∈ rm ++ [top] → q ∈ (rm.zip ds).flatMap (fun t => [t.1, t.2]) ++ [top] := by
      intro q hq
      rw [List.mem_append] at hq ⊢
      exact hq.imp_left (fun h => z4.mem_iff.2 (List.mem_append_left _ h))
    have hdz := hz d0 (by simp)
    set s1 := upd s d0 (s q0 && s q1) with hs1
    have hf : run [Gate.land q0 q1 d0] s = s1 := by simp [Gate.app, hdz, hs1]
    have eo : ∀ q, q ≠ d0 → s1 q = s q := fun q h => by rw [hs1, upd_ne h]
    obtain ⟨hv, hfr, hok⟩ := icCore_spec true (rm.zip ds) d0 top s1
      (List.nodup_cons.1 (List.nodup_cons.1 hn1).2).2 (by
        rw [z2]; intro q hq
        rw [eo q]
        · exact hz q (by simp [hq])
        · rintro rfl
          exact hdr (List.mem_append_left _ (z4.mem_iff.2 (List.mem_append_right _ hq))))
    rw [z1, z3] at hv
    rw [z1] at hfr
    set s2 := run (icCore true d0 (rm.zip ds) top) s1 with hs2
    have fr : ∀ q, q ∉ rm ++ [top] → s2 q = s1 q := by
      intro q hq
      simp only [List.mem_append, List.mem_singleton, not_or] at hq
      exact hfr q hq.1 hq.2
    have f0 : s2 q0 = s q0 := by rw [fr q0 (fun h => h0r (hsub q0 h)), eo q0 h0d]
    have f1 : s2 q1 = s q1 := by rw [fr q1 (fun h => h1r (hsub q1 h)), eo q1 h1d]
    have fd : s2 d0 = (s q0 && s q1) := by
      rw [fr d0 (fun h => hdr (hsub d0 h)), hs1, upd_same]
    have fin : ∀ q, run ([Gate.land q0 q1 d0] ++ icCore true d0 (rm.zip ds) top
        ++ [.landInv q0 q1 d0, cx q0 q1, gx q0]) s q =
        if q = d0 then false else if q = q1 then (s q1 ^^ s q0) else if q = q0 then !(s q0)
        else s2 q := by
      intro q
      rw [run_append, run_append, hf, ← hs2]
      by_cases g1 : q = d0
      · subst g1; simp [Gate.app, fire, upd_apply, f0, f1, fd, Ne.symm h0d, Ne.symm h1d]
      · by_cases g2 : q = q1
        · subst g2; simp [Gate.app, fire, upd_apply, f0, f1, fd, h0d, h1d, Ne.symm h01]
        · by_cases g3 : q = q0
          · subst g3; simp [Gate.app, fire, upd_apply, f0, f1, fd, h0d, h01]
          · simp [Gate.app, fire, upd_apply, g1, g2, g3]
    refine ⟨?_, ?_, ?_⟩
    · have v1 : regVal (rm ++ [top]) s1 = regVal (rm ++ [top]) s := by
        apply regVal_congr; intro q hq; apply eo; rintro rfl; exact hdr (hsub _ hq)
      have v2 : regVal (rm ++ [top]) (run ([Gate.land q0 q1 d0] ++ icCore true d0 (rm.zip ds) top
          ++ [.landInv q0 q1 d0, cx q0 q1, gx q0]) s) = regVal (rm ++ [top]) s2 := by
        apply regVal_congr; intro q hq
        rw [fin, if_neg, if_neg, if_neg]
        · rintro rfl; exact h0r (hsub _ hq)
        · rintro rfl; exact h1r (hsub _ hq)
        · rintro rfl; exact hdr (hsub _ hq)
      rw [v1, hs1, upd_same] at hv
      simp only [regVal_cons]
      rw [v2, hv, fin q0, fin q1, if_neg h0d, if_neg h01, if_pos rfl, if_neg h1d, if_pos rfl]
      set B := regVal (rm ++ [top]) s
      have e : (s q0).toNat + 2 * ((s q1).toNat + 2 * B) + 1 =
          (!(s q0)).toNat + 2 * ((s q1 ^^ s q0).toNat + 2 * (B + (s q0 && s q1).toNat)) := by
        have hx : ∀ x y : Bool, x.toNat + 2 * y.toNat + 1 = (!x).toNat + 2 * (y ^^ x).toNat
          + 4 * (x && y).toNat := by decide
        have := hx (s q0) (s q1)
        omega
      rw [e]
      simp only [List.length_cons, List.length_append, List.length_nil, Nat.zero_add]
      rw [pow_succ' 2 (rm.length + 1 + 1), mod_step (Bool.toNat_le _) (by positivity),
        pow_succ' 2 (rm.length + 1), mod_step (Bool.toNat_le _) (by positivity)]
    · intro q hq
      simp only [List.mem_cons, not_or] at hq
      rw [fin, if_neg hq.2.1, if_neg hq.1]
      split_ifs with g
      · rw [g, hdz]
      · rw [fr q hq.2.2, eo q g]
    · rw [ok_append, ok_append, run_append, hf, ← hs2]
      exact ⟨⟨by simp [Gate.ok, hdz], hok⟩, by simp [Gate.ok, f0, f1, fd]⟩

theorem linIncr_spec (a anc : List Q) (c : Q) (cOut : Option Q) (s : St Q)
    (hl : a ++ cOut.toList ≠ [])
    (hnd : (c :: (a ++ cOut.toList ++ anc)).Nodup)
    (hanc : anc.length + 1 = (a ++ cOut.toList).length)
    (hz : ∀ q ∈ anc, s q = false) :
    let s' := run (linIncr a anc (some c) cOut) s
    regVal (a ++ cOut.toList) s' = (regVal (a ++ cOut.toList) s + (s c).toNat)
        % 2 ^ (a ++ cOut.toList).length
    ∧ (∀ q, q ∉ a ++ cOut.toList → s' q = s q) ∧ ok (linIncr a anc (some c) cOut) s := by
  unfold linIncr
  generalize a ++ cOut.toList = l at *
  match l, hl with
  | [q0], _ =>
    have hcq : c ≠ q0 := by rintro rfl; simp at hnd
    refine ⟨?_, ?_, by simp [Gate.ok]⟩
    · simp [Gate.app, fire]
      cases s q0 <;> cases s c <;> rfl
    · intro q hq; simp at hq; simp [Gate.app, hq]
  | q0 :: x :: r', _ =>
    obtain ⟨d0, ds, rfl⟩ : ∃ x l, anc = x :: l := by
      cases anc with
      | nil => simp at hanc
      | cons x l => exact ⟨x, l, rfl⟩
    obtain ⟨rm, top, hr⟩ : ∃ rm top, x :: r' = rm ++ [top] := by
      rcases List.eq_nil_or_concat (x :: r') with h | ⟨m, t, h⟩
      · simp at h
      · exact ⟨m, t, by rw [h, List.concat_eq_append]⟩
    simp only
    rw [hr] at hnd hanc ⊢
    simp only [List.getLast?_append, List.getLast?_singleton, Option.some_or, List.dropLast_concat]
    obtain ⟨z1, z2, z3, z4⟩ := izip_lists rm ds (by simp at hanc; omega)
    have hn1 : (c :: q0 :: d0 :: ((rm.zip ds).flatMap (fun t => [t.1, t.2]) ++ [top])).Nodup := by
      refine (List.Perm.nodup_iff ?_).1 hnd
      rw [List.perm_iff_count] at z4 ⊢
      intro q
      have := z4 q
      simp only [List.count_append, List.count_cons, List.count_nil] at this ⊢
      omega
    have hn2 := hn1
    simp only [List.nodup_cons, List.mem_cons, not_or] at hn2
    obtain ⟨⟨hc0, hcd, hcr⟩, ⟨h0d, h0r⟩, hdr, -⟩ := hn2
    have hsub : ∀ q, q ∈ rm ++ [top] → q ∈ (rm.zip ds).flatMap (fun t => [t.1, t.2]) ++ [top] := by
      intro q hq
      rw [List.mem_append] at hq ⊢
      exact hq.imp_left (fun h => z4.mem_iff.2 (List.mem_append_left _ h))
    have hdz := hz d0 (by simp)
    set s1 := upd s d0 (s c && s q0) with hs1
    have hf : run [Gate.land c q0 d0] s = s1 := by simp [Gate.app, hdz, hs1]
    have eo : ∀ q, q ≠ d0 → s1 q = s q := fun q h => by rw [hs1, upd_ne h]
    obtain ⟨hv, hfr, hok⟩ := icCore_spec false (rm.zip ds) d0 top s1
      (List.nodup_cons.1 (List.nodup_cons.1 hn1).2).2 (by
        rw [z2]; intro q hq
        rw [eo q]
        · exact hz q (by simp [hq])
        · rintro rfl
          exact hdr (List.mem_append_left _ (z4.mem_iff.2 (List.mem_append_right _ hq))))
    rw [z1, z3] at hv
    rw [z1] at hfr
    set s2 := run (icCore false d0 (rm.zip ds) top) s1 with hs2
    have fr : ∀ q, q ∉ rm ++ [top] → s2 q = s1 q := by
      intro q hq
      simp only [List.mem_append, List.mem_singleton, not_or] at hq
      exact hfr q hq.1 hq.2
    have f0 : s2 q0 = s q0 := by rw [fr q0 (fun h => h0r (hsub q0 h)), eo q0 h0d]
    have fc : s2 c = s c := by rw [fr c (fun h => hcr (hsub c h)), eo c hcd]
    have fd : s2 d0 = (s c && s q0) := by
      rw [fr d0 (fun h => hdr (hsub d0 h)), hs1, upd_same]
    have fin : ∀ q, run ([Gate.land c q0 d0] ++ icCore false d0 (rm.zip ds) top
        ++ [.landInv c q0 d0, cx c q0]) s q =
        if q = d0 then false else if q = q0 then (s q0 ^^ s c) else s2 q := by
      intro q
      rw [run_append, run_append, hf, ← hs2]
      by_cases g1 : q = d0
      · subst g1; simp [Gate.app, fire, upd_apply, f0, fc, fd, Ne.symm h0d]
      · by_cases g2 : q = q0
        · subst g2; simp [Gate.app, fire, upd_apply, f0, fc, fd, h0d, hcd]
        · simp [Gate.app, fire, upd_apply, g1, g2]
    refine ⟨?_, ?_, ?_⟩
    · have v1 : regVal (rm ++ [top]) s1 = regVal (rm ++ [top]) s := by
        apply regVal_congr; intro q hq; apply eo; rintro rfl; exact hdr (hsub _ hq)
      have v2 : regVal (rm ++ [top]) (run ([Gate.land c q0 d0] ++ icCore false d0 (rm.zip ds) top
          ++ [.landInv c q0 d0, cx c q0]) s) = regVal (rm ++ [top]) s2 := by
        apply regVal_congr; intro q hq
        rw [fin, if_neg, if_neg]
        · rintro rfl; exact h0r (hsub _ hq)
        · rintro rfl; exact hdr (hsub _ hq)
      rw [v1, hs1, upd_same] at hv
      simp only [regVal_cons]
      rw [v2, hv, fin q0, if_neg h0d, if_pos rfl]
      set B := regVal (rm ++ [top]) s
      have e : (s q0).toNat + 2 * B + (s c).toNat =
          (s q0 ^^ s c).toNat + 2 * (B + (s c && s q0).toNat) := by
        have hx : ∀ x y : Bool, x.toNat + y.toNat = (x ^^ y).toNat + 2 * (y && x).toNat := by decide
        have := hx (s q0) (s c)
        omega
      rw [e]
      simp only [List.length_cons, List.length_append, List.length_nil, Nat.zero_add]
      rw [pow_succ' 2 (rm.length + 1), mod_step (Bool.toNat_le _) (by positivity)]
    · intro q hq
      simp only [List.mem_cons, not_or] at hq
      rw [fin, if_neg hq.1] 
      · split_ifs with g
        · rw [g, hdz]
        · rw [fr q hq.2, eo q g]
    · rw [ok_append, ok_append, run_append, hf, ← hs2]
      exact ⟨⟨by simp [Gate.ok, hdz], hok⟩, by simp [Gate.ok, f0, fc, fd]⟩

/-- Without carry-in nothing is added: the first ancilla is never seeded. -/
theorem linIncr_none_spec (a anc : List Q) (cOut : Option Q) (s : St Q)
    (hnd : (a ++ cOut.toList ++ anc).Nodup)
    (hanc : anc.length + 1 = (a ++ cOut.toList).length)
    (hz : ∀ q ∈ anc, s q = false) :
    ∀ q, run (linIncr a anc none cOut) s q = s q := by
  unfold linIncr
  generalize a ++ cOut.toList = l at *
  match l with
  | [] => simp
  | [q0] => simp
  | q0 :: x :: r' =>
    obtain ⟨d0, ds, rfl⟩ : ∃ x l, anc = x :: l := by
      cases anc with
      | nil => simp at hanc
      | cons x l => exact ⟨x, l, rfl⟩
    obtain ⟨rm, top, hr⟩ : ∃ rm top, x :: r' = rm ++ [top] := by
      rcases List.eq_nil_or_concat (x :: r') with h | ⟨m, t, h⟩
      · simp at h
      · exact ⟨m, t, by rw [h, List.concat_eq_append]⟩
    simp only
    rw [hr] at hnd hanc ⊢
    simp only [List.getLast?_append, List.getLast?_singleton, Option.some_or, List.dropLast_concat,
      List.nil_append, List.append_nil]
    obtain ⟨z1, z2, z3, z4⟩ := izip_lists rm ds (by simp at hanc; omega)
    have hn1 : (q0 :: d0 :: ((rm.zip ds).flatMap (fun t => [t.1, t.2]) ++ [top])).Nodup := by
      refine (List.Perm.nodup_iff ?_).1 hnd
      rw [List.perm_iff_count] at z4 ⊢
      intro q
      have := z4 q
      simp only [List.count_append, List.count_cons, List.count_nil] at this ⊢
      omega
    obtain ⟨hv, hfr, -⟩ := icCore_spec false (rm.zip ds) d0 top s (List.nodup_cons.1 hn1).2 (by
        rw [z2]; intro q hq; exact hz q (by simp [hq]))
    rw [z1, z3, hz d0 (by simp)] at hv
    rw [z1] at hfr
    have hlt := regVal_lt (rm ++ [top]) s
    simp only [List.length_append, List.length_cons, List.length_nil, Nat.zero_add] at hlt
    simp only [Bool.toNat_false, Nat.add_zero, Nat.mod_eq_of_lt hlt] at hv
    intro q
    by_cases hq : q ∈ rm ++ [top]
    · exact regVal_inj hv q hq
    · simp only [List.mem_append, List.mem_singleton, not_or] at hq
      exact hfr q hq.1 hq.2


/-! ### Increment by an arbitrary constant -/

def kcChain : Q → List (Bool × Q × Q) → List (Q × Bool × Q × Q)
  | _, [] => []
  | c, (v, b, d) :: r => (c, v, b, d) :: kcChain d r

def kcLast : Q → List (Bool × Q × Q) → Q
  | c, [] => c
  | _, (_, _, d) :: r => kcLast d r

/-- incrementation.py 107-123 `cMAJ_gate`. -/
def cMaj (v : Bool) (c b d : Q) : List (Gate Q) :=
  (if v then [gx c, gx b] else []) ++ [ccx c b d]

/-- incrementation.py 126-139 `cUMA_gate`. -/
def cUma (v : Bool) (c b d : Q) : List (Gate Q) :=
  [ccx c b d] ++ (if v then [gx c] else []) ++ [cx c b]

/-- incrementation.py 180-190. -/
def kcCore (c : Q) (ts : List (Bool × Q × Q)) (top : Q) : List (Gate Q) :=
  (kcChain c ts).flatMap (fun t => cMaj t.2.1 t.1 t.2.2.1 t.2.2.2)
  ++ [cx (kcLast c ts) top]
  ++ (kcChain c ts).reverse.flatMap (fun t => cUma t.2.1 t.1 t.2.2.1 t.2.2.2)

/-- The `x` gates loading (and unloading) the constant, incrementation.py 159-161, 196-198. -/
def loadBits (a : List Bool) (anc : List Q) : List (Gate Q) :=
  (a.zip anc).flatMap (fun t => if t.1 then [gx t.2] else [])

/-- incrementation.py 145-203 `increment_arbitrary_constant_qubit_list`; `anc` is `incr_ancilla`
(`n` qubits) and `c0` the carry ancilla. -/
def incrementConst (l anc : List Q) (c0 : Q) (c : Nat) : List (Gate Q) :=
  match l.getLast?, anc.getLast? with
  | some top, some atop =>
    loadBits (bitsOf c l.length) anc
    ++ kcCore c0 ((bitsOf c l.length).zip (l.dropLast.zip anc.dropLast)) top
    ++ [cx atop top]
    ++ loadBits (bitsOf c l.length) anc
  | _, _ => []

theorem kcCore_spec (ts : List (Bool × Q × Q)) (c top : Q) (s : St Q)
    (hnd : (c :: (ts.flatMap (fun t => [t.2.1, t.2.2]) ++ [top])).Nodup)
    (hz : ∀ t ∈ ts, s t.2.2 = t.1) :
    let s' := run (kcCore c ts top) s
    regVal (ts.map (·.2.1) ++ [top]) s' =
      (regVal (ts.map (·.2.1) ++ [top]) s + bv (ts.map (·.1)) + (s c).toNat) % 2 ^ (ts.length + 1)
    ∧ (∀ q, q ∉ ts.map (·.2.1) → q ≠ top → s' q = s q) := by
  induction ts generalizing c s with
  | nil =>
    simp only [List.flatMap_nil, List.nil_append, List.nodup_cons, List.mem_singleton] at hnd
    refine ⟨?_, ?_⟩
    · simp only [kcCore, kcChain, kcLast, List.map_nil, List.nil_append, List.reverse_nil,
        List.flatMap_nil, List.append_nil, run_cons, run_nil, Gate.app, fire, List.all_cons,
        List.all_nil, regVal_cons, regVal_nil, upd_same, List.length_nil, bv]
      cases s top <;> cases s c <;> rfl
    · intro q _ hq; simp [kcCore, kcChain, kcLast, Gate.app, hq]
  | cons t r ih =>
    obtain ⟨v, b, d⟩ := t
    have hcore : kcCore c ((v, b, d) :: r) top =
        cMaj v c b d ++ kcCore d r top ++ cUma v c b d := by
      simp only [kcCore, kcChain, kcLast, List.flatMap_cons, List.reverse_cons,
        List.flatMap_append, List.flatMap_nil, List.append_nil,
        List.append_assoc, List.cons_append, List.nil_append]
    simp only [List.flatMap_cons, List.cons_append, List.nil_append, List.nodup_cons,
      List.mem_cons, not_or] at hnd
    obtain ⟨⟨hcb, hcd, hcr⟩, ⟨hbd, hbr⟩, hdr, hr⟩ := hnd
    have hd0 : s d = v := hz (v, b, d) (by simp)
    set R := r.flatMap (fun t => [t.2.1, t.2.2]) ++ [top] with hR
    have notR : ∀ q ∈ R, q ≠ c ∧ q ≠ b ∧ q ≠ d := by
      intro q hq
      refine ⟨?_, ?_, ?_⟩ <;> rintro rfl <;> contradiction
    have m1 : ∀ q ∈ r.map (·.2.1), q ∈ R := by
      intro q hq
      obtain ⟨p, hp, rfl⟩ := List.mem_map.1 hq
      exact List.mem_append_left _ (List.mem_flatMap.2 ⟨p, hp, by simp⟩)
    have m3 : ∀ t ∈ r, t.2.2 ∈ R := by
      intro p hp
      exact List.mem_append_left _ (List.mem_flatMap.2 ⟨p, hp, by simp⟩)
    have m4 : top ∈ R := by simp [hR]
    set s1 := run (cMaj v c b d) s with hs1
    have e1 : ∀ q, s1 q = if q = d then (v ^^ ((s c ^^ v) && (s b ^^ v))) else if q = b then s b ^^ v
        else if q = c then s c ^^ v else s q := by
      intro q
      rw [hs1]
      by_cases g1 : q = d
      · subst g1
        cases v <;> simp [cMaj, Gate.app, fire, upd_apply, hcb, hcd, hbd, hd0, Ne.symm hcb,
          Ne.symm hcd, Ne.symm hbd]
      · by_cases g2 : q = b
        · subst g2
          cases v <;> simp [cMaj, Gate.app, fire, upd_apply, g1, Ne.symm hcb]
        · by_cases g3 : q = c
          · subst g3
            cases v <;> simp [cMaj, Gate.app, fire, upd_apply, g1, g2]
          · cases v <;> simp [cMaj, Gate.app, fire, upd_apply, g1, g2, g3]
    have e0 : ∀ q ∈ R, s1 q = s q := fun q hq => by
      obtain ⟨n1, n2, n3⟩ := notR q hq
      rw [e1, if_neg n3, if_neg n2, if_neg n1]
    obtain ⟨hv, hfr⟩ := ih d s1 (List.nodup_cons.2 ⟨hdr, hr⟩) (by
      intro t ht; rw [e0 _ (m3 t ht)]; exact hz t (List.mem_cons_of_mem _ ht))
    set s2 := run (kcCore d r top) s1 with hs2
    have fr : ∀ q, q ∉ R → s2 q = s1 q := by
      intro q hq
      exact hfr q (fun hm => hq (m1 q hm)) (by rintro rfl; exact hq m4)
    have fc : s2 c = (s c ^^ v) := by
      rw [fr c hcr, e1, if_neg hcd, if_neg hcb, if_pos rfl]
    have fb : s2 b = (s b ^^ v) := by rw [fr b hbr, e1, if_neg hbd, if_pos rfl]
    have fd : s2 d = (v ^^ ((s c ^^ v) && (s b ^^ v))) := by rw [fr d hdr, e1, if_pos rfl]
    have fin : ∀ q, run (kcCore c ((v, b, d) :: r) top) s q =
        if q = b then (s b ^^ v ^^ s c) else if q = d then v else if q = c then s c else s2 q := by
      intro q
      rw [hcore, run_append, run_append, ← hs1, ← hs2]
      by_cases h1 : q = b
      · subst h1
        cases v <;> simp [cUma, Gate.app, fire, upd_apply, hbd, hcd, fb, fc, fd, hcb,
          Ne.symm hcb]
      · by_cases h2 : q = d
        · subst h2
          cases v <;> simp [cUma, Gate.app, fire, upd_apply, h1, fb, fc, fd, Ne.symm hcd]
          cases s c <;> cases s b <;> simp
        · by_cases h3 : q = c
          · subst h3
            cases v <;> simp [cUma, Gate.app, fire, upd_apply, h1, fb, fc, fd, h2]
          · cases v <;> simp [cUma, Gate.app, fire, upd_apply, h1, h2, h3]
    refine ⟨?_, ?_⟩
    · have memB : ∀ q ∈ r.map (·.2.1) ++ [top], q ∈ R := by
        intro q hq
        rw [List.mem_append] at hq
        rcases hq with hq | hq
        · exact m1 q hq
        · simp at hq; subst hq; exact m4
      rw [regVal_congr (fun q hq => e0 q (memB q hq))] at hv
      have v3 : regVal (r.map (·.2.1) ++ [top]) (run (kcCore c ((v, b, d) :: r) top) s)
          = regVal (r.map (·.2.1) ++ [top]) s2 := by
        apply regVal_congr
        intro q hq
        have := notR q (memB q hq)
        rw [fin, if_neg this.2.1, if_neg this.2.2, if_neg this.1]
      show regVal (b :: (r.map (·.2.1) ++ [top])) _ =
        (regVal (b :: (r.map (·.2.1) ++ [top])) s + bv (v :: r.map (·.1)) + (s c).toNat) % _
      rw [regVal_cons, regVal_cons, v3, hv, fin b, if_pos rfl, List.length_cons, e1 d, if_pos rfl,
        bv]
      have key : ∀ x v c : Bool, x.toNat + v.toNat + c.toNat = (x ^^ v ^^ c).toNat +
          2 * (v ^^ ((c ^^ v) && (x ^^ v))).toNat := by decide
      have key := key (s b) v (s c)
      set B := regVal (r.map (·.2.1) ++ [top]) s
      set V := bv (r.map (·.1))
      have e : (s b).toNat + 2 * B + (v.toNat + 2 * V) + (s c).toNat =
          (s b ^^ v ^^ s c).toNat + 2 * (B + V + (v ^^ ((s c ^^ v) && (s b ^^ v))).toNat) := by
        omega
      rw [e, pow_succ' 2 (r.length + 1), mod_step (Bool.toNat_le _) (by positivity)]
    · intro q hq hbt
      simp only [List.map_cons, List.mem_cons, not_or] at hq
      rw [fin, if_neg hq.1]
      split_ifs with g g'
      · rw [g, hd0]
      · rw [g']
      · rw [hfr q hq.2 hbt, e1, if_neg g, if_neg hq.1, if_neg g']

theorem loadBits_spec (a : List Bool) (anc : List Q) (s : St Q) (hlen : a.length = anc.length)
    (hnd : anc.Nodup) :
    (anc.map (run (loadBits a anc) s) = List.zipWith xor a (anc.map s))
    ∧ ∀ q, q ∉ anc → run (loadBits a anc) s q = s q := by
  induction a generalizing anc s with
  | nil =>
    have : anc = [] := List.length_eq_zero_iff.1 hlen.symm
    subst this; simp [loadBits]
  | cons v a ih =>
    cases anc with
    | nil => simp at hlen
    | cons d ds =>
      rw [List.nodup_cons] at hnd
      have hL : loadBits (v :: a) (d :: ds) = (if v then [gx d] else []) ++ loadBits a ds := by
        simp [loadBits]
      have hrun : run (if v then [gx d] else []) s = upd s d (v ^^ s d) := by
        cases v
        · funext q; by_cases h : q = d <;> simp [upd_apply, h]
        · simp [Gate.app, fire]
      obtain ⟨i1, i2⟩ := ih ds (upd s d (v ^^ s d)) (by simpa using hlen) hnd.2
      rw [hL]
      constructor
      · simp only [run_append, hrun, List.map_cons, List.zipWith_cons_cons]
        rw [i1, i2 d hnd.1, upd_same]
        congr 2
        apply List.map_congr_left
        intro q hq
        rw [upd_ne]; rintro rfl; exact hnd.1 hq
      · intro q hq
        simp only [List.mem_cons, not_or] at hq
        rw [run_append, hrun, i2 q hq.2, upd_ne hq.1]

theorem bv_append (l : List Bool) (x : Bool) : bv (l ++ [x]) = bv l + 2 ^ l.length * x.toNat := by
  induction l with
  | nil => simp [bv]
  | cons y l ih => simp only [List.cons_append, bv, ih, List.length_cons, pow_succ]; ring

theorem bzip_lists (a : List Bool) (b d : List Q) (h0 : a.length = b.length)
    (h1 : b.length = d.length) :
    (a.zip (b.zip d)).map (·.2.1) = b ∧ (a.zip (b.zip d)).map (·.1) = a
      ∧ (a.zip (b.zip d)).map (·.2.2) = d
      ∧ (a.zip (b.zip d)).length = b.length
      ∧ ((a.zip (b.zip d)).flatMap (fun t => [t.2.1, t.2.2])).Perm (b ++ d) := by
  induction a generalizing b d with
  | nil =>
    have hb : b = [] := List.length_eq_zero_iff.1 h0.symm
    subst hb
    have : d = [] := List.length_eq_zero_iff.1 h1.symm
    subst this; simp
  | cons x a ih =>
    cases b with
    | nil => simp at h0
    | cons y b =>
    cases d with
    | nil => simp at h1
    | cons z d =>
      obtain ⟨i1, i2, i3, i4, i5⟩ := ih b d (by simpa using h0) (by simpa using h1)
      refine ⟨by simp [i1], by simp [i2], by simp [i3], by simpa using i4, ?_⟩
      rw [List.perm_iff_count] at i5 ⊢
      intro q
      have := i5 q
      simp only [List.zip_cons_cons, List.flatMap_cons, List.count_append, List.count_cons,
        List.count_nil, List.cons_append, List.nil_append] at this ⊢
      omega

theorem incrementConst_spec (l anc : List Q) (c0 : Q) (c : Nat) (s : St Q) (hl : l ≠ [])
    (hnd : (c0 :: (l ++ anc)).Nodup) (hanc : anc.length = l.length)
    (hz : ∀ q ∈ c0 :: anc, s q = false) :
    let s' := run (incrementConst l anc c0 c) s
    regVal l s' = (regVal l s + c) % 2 ^ l.length ∧ (∀ q, q ∉ l → s' q = s q) := by
  obtain ⟨lm, top, rfl⟩ : ∃ lm top, l = lm ++ [top] := by
    rcases List.eq_nil_or_concat l with h | ⟨m, t, h⟩
    · exact absurd h hl
    · exact ⟨m, t, by rw [h, List.concat_eq_append]⟩
  obtain ⟨am, atop, rfl⟩ : ∃ lm top, anc = lm ++ [top] := by
    rcases List.eq_nil_or_concat anc with h | ⟨m, t, h⟩
    · subst h; simp at hanc
    · exact ⟨m, t, by rw [h, List.concat_eq_append]⟩
  have hlen : am.length = lm.length := by simpa using hanc
  obtain ⟨bm, btop, hbits⟩ : ∃ m t, bitsOf c (lm.length + 1) = m ++ [t] := by
    rcases List.eq_nil_or_concat (bitsOf c (lm.length + 1)) with h | ⟨m, t, h⟩
    · have := congrArg List.length h; simp [bitsOf_length] at this
    · exact ⟨m, t, by rw [h, List.concat_eq_append]⟩
  have hbl : bm.length = lm.length := by
    have := congrArg List.length hbits; simp [bitsOf_length] at this; omega
  have hL : (lm ++ [top]).length = lm.length + 1 := by simp
  have hI : incrementConst (lm ++ [top]) (am ++ [atop]) c0 c =
      loadBits (bm ++ [btop]) (am ++ [atop])
      ++ (kcCore c0 (bm.zip (lm.zip am)) top
      ++ ([cx atop top]
      ++ loadBits (bm ++ [btop]) (am ++ [atop]))) := by
    simp only [incrementConst, List.getLast?_append, List.getLast?_singleton, Option.some_or,
      List.dropLast_concat, hL, hbits, List.append_assoc]
    congr 3
    have : (lm.zip am).length = bm.length := by simp [hlen, hbl]
    have e : lm.zip am = lm.zip am ++ [] := by simp
    conv_lhs => rw [e, List.zip_append this.symm]
    simp
  obtain ⟨z1, z2, z3, z4, z5⟩ := bzip_lists bm lm am hbl hlen.symm
  have hn1 : (atop :: c0 :: ((bm.zip (lm.zip am)).flatMap (fun t => [t.2.1, t.2.2]) ++ [top])).Nodup := by
    refine (List.Perm.nodup_iff ?_).1 hnd
    rw [List.perm_iff_count] at z5 ⊢
    intro q
    have := z5 q
    simp only [List.count_append, List.count_cons, List.count_nil] at this ⊢
    omega
  have hN := hnd
  rw [List.nodup_cons, List.nodup_append] at hN
  obtain ⟨hc0, hlnd, hand, hdis⟩ := hN
  have hA := loadBits_spec (bm ++ [btop]) (am ++ [atop]) s (by simp [hbl, hlen]) hand
  set s1 := run (loadBits (bm ++ [btop]) (am ++ [atop])) s with hs1
  obtain ⟨hA1, hA2⟩ := hA
  have hzw : ∀ (x y : List Bool), x.length = y.length → (∀ b ∈ y, b = false) →
      List.zipWith xor x y = x := by
    intro x
    induction x with
    | nil => simp
    | cons a x ih =>
      intro y hy hb
      cases y with
      | nil => simp at hy
      | cons b y =>
        simp only [List.zipWith_cons_cons]
        rw [ih y (by simpa using hy) (fun b hb' => hb b (by simp [hb'])), hb b (by simp)]
        simp
  rw [hzw _ _ (by simp [hbl, hlen]) (by
    intro b hb; obtain ⟨q, hq, rfl⟩ := List.mem_map.1 hb; exact hz q (by simp at hq; simp [hq]))] at hA1
  rw [List.map_append] at hA1
  have hA3 := List.append_inj hA1 (by simp [hbl, hlen])
  have hat : s1 atop = btop := by simpa using hA3.2
  have lnot : ∀ q ∈ lm ++ [top], q ∉ am ++ [atop] := fun q hq h => hdis q hq q h rfl
  obtain ⟨hv, hfr⟩ := kcCore_spec (bm.zip (lm.zip am)) c0 top s1 (List.nodup_cons.1 hn1).2 (by
    have : (bm.zip (lm.zip am)).map (fun t => s1 t.2.2) = (bm.zip (lm.zip am)).map (·.1) := by
      have e : (bm.zip (lm.zip am)).map (fun t => s1 t.2.2) =
          ((bm.zip (lm.zip am)).map (·.2.2)).map s1 := by rw [List.map_map]; rfl
      rw [e, z3, z2, hA3.1]
    exact List.map_inj_left.1 this)
  rw [z1, z2, z4] at hv
  rw [z1] at hfr
  set s2 := run (kcCore c0 (bm.zip (lm.zip am)) top) s1 with hs2
  set s3 := upd s2 top (s2 top ^^ s2 atop) with hs3
  have hcx : run [cx atop top] s2 = s3 := by simp [Gate.app, fire, hs3]; 
  have htop : top ∉ lm := by
    have := (List.nodup_append.1 hlnd).2.2
    intro h; exact this top h top (by simp) rfl
  have hatl : atop ∉ lm ++ [top] := fun h => lnot atop h (by simp)
  have hat2 : s2 atop = btop := by
    simp only [List.mem_append, List.mem_singleton, not_or] at hatl
    rw [hfr atop hatl.1 hatl.2, hat]
  obtain ⟨hB1, hB2⟩ := loadBits_spec (bm ++ [btop]) (am ++ [atop]) s3 (by simp [hbl, hlen]) hand
  intro s'
  have hs' : s' = run (loadBits (bm ++ [btop]) (am ++ [atop])) s3 := by
    show run _ s = _
    rw [hI, run_append, ← hs1, run_append, ← hs2, run_append, hcx]
  rw [← hs'] at hB1 hB2
  constructor
  · rw [regVal_congr (fun q hq => hB2 q (lnot q hq))]
    have v0 : regVal (lm ++ [top]) s1 = regVal (lm ++ [top]) s :=
      regVal_congr (fun q hq => hA2 q (lnot q hq))
    rw [v0, hA2 c0 (fun h => hc0 (List.mem_append_right _ h)), hz c0 (by simp), Bool.toNat_false,
      Nat.add_zero] at hv
    have v3 : regVal (lm ++ [top]) s3 =
        (regVal (lm ++ [top]) s2 + 2 ^ lm.length * btop.toNat) % 2 ^ (lm.length + 1) := by
      have : regVal lm s3 = regVal lm s2 := by
        apply regVal_congr; intro q hq; rw [hs3, upd_ne]; rintro rfl; exact htop hq
      rw [regVal_append, regVal_append, this, hs3, hat2]
      simp only [regVal_cons, regVal_nil, upd_same]
      have hlt := regVal_lt lm s2
      set P := 2 ^ lm.length
      have hp : 0 < P := by positivity
      rw [pow_succ]
      cases s2 top <;> cases btop <;> simp
      · rw [Nat.mod_eq_of_lt]; omega
      · rw [Nat.mod_eq_of_lt]; omega
      · rw [Nat.mod_eq_of_lt]; omega
      · have : regVal lm s2 + P + P = regVal lm s2 + P * 2 := by ring
        rw [this, Nat.add_mod_right, Nat.mod_eq_of_lt]; omega
    rw [v3, hv, hL, Nat.mod_add_mod]
    have hb := bv_bitsOf c (lm.length + 1)
    rw [hbits, bv_append, hbl] at hb
    rw [Nat.add_assoc, hb, Nat.add_mod_mod]
  · intro q hq
    by_cases hqa : q ∈ am ++ [atop]
    · -- the ancillas are unloaded again
      have h3 : (am ++ [atop]).map s3 = bm ++ [btop] := by
        rw [← hA1, ← List.map_append]
        apply List.map_congr_left
        intro p hp
        have hpl : p ∉ lm ++ [top] := fun h => lnot p h hp
        simp only [List.mem_append, List.mem_singleton, not_or] at hpl
        rw [hs3, upd_ne hpl.2, hfr p hpl.1 hpl.2]
      rw [h3] at hB1
      have hx : ∀ x : List Bool, List.zipWith xor x x = x.map (fun _ => false) := by
        intro x; induction x with
        | nil => rfl
        | cons a x ih => simp [ih]
      rw [hx, ← h3, List.map_map] at hB1
      rw [List.map_inj_left.1 hB1 q hqa, hz q (List.mem_cons_of_mem _ hqa)]
      rfl
    · rw [hB2 q hqa]
      simp only [List.mem_append, List.mem_singleton, not_or] at hq
      rw [hs3, upd_ne hq.2, hfr q hq.1 hq.2, hA2 q hqa]

/-- incrementation.py 47-49: number of trailing zeros and the odd part; the first argument bounds
the number of iterations. -/
def factorTwoAux : Nat → Nat → Nat × Nat
  | 0, n => (0, n)
  | f + 1, n => if n % 2 = 0 then ((factorTwoAux f (n / 2)).1 + 1, (factorTwoAux f (n / 2)).2)
    else (0, n)

/-- The `while` loop for `n ≠ 0`; `n` iterations are always enough (`factorTwo_spec`). -/
def factorTwo (n : Nat) : Nat × Nat := factorTwoAux n n

theorem factorTwoAux_spec (f n : Nat) (h : 0 < n) (hf : n ≤ f) :
    n = 2 ^ (factorTwoAux f n).1 * (factorTwoAux f n).2 ∧ (factorTwoAux f n).2 % 2 = 1 := by
  induction f generalizing n with
  | zero => omega
  | succ f ih =>
    rw [factorTwoAux]
    split_ifs with g
    · obtain ⟨i1, i2⟩ := ih (n / 2) (by omega) (by omega)
      refine ⟨?_, i2⟩
      simp only [pow_succ]
      have : n = 2 * (n / 2) := by omega
      conv_lhs => rw [this, i1]
      ring
    · simp only [pow_zero, one_mul, true_and]; omega

theorem factorTwo_spec (n : Nat) (h : 0 < n) :
    n = 2 ^ (factorTwo n).1 * (factorTwo n).2 ∧ (factorTwo n).2 % 2 = 1 :=
  factorTwoAux_spec n n h le_rfl

/-- incrementation.py 57-61: the choice of the circuit for the odd part `m`. -/
def incrementBody (ql anc : List Q) (c0 : Q) (m : Nat) : List (Gate Q) :=
  if m = 1 then incrementQbList ql (anc.take (ql.length - 2))
  else incrementConst ql (anc.take ql.length) c0 m

/-- incrementation.py 54-55, 63-64: negative amounts conjugate with `x(qf.reg)`. -/
def incrementSign (l : List Q) (amount : Int) (body : List (Gate Q)) : List (Gate Q) :=
  if amount < 0 then l.map gx ++ body ++ l.map gx else body

/-- incrementation.py 24-64 `increment` on an integer register (`exponent` 0, or after the division
by `2**exponent`). `none` is the exception of line 29: the decodable values of an unsigned register of
`n` qubits are `0 … 2^n - 1`. -/
def increment (l anc : List Q) (c0 : Q) (amount : Int) : Option (List (Gate Q)) :=
  if amount = 0 then some [] else
  if 2 ^ l.length ≤ amount.natAbs then none else
  some (incrementSign l amount
    (incrementBody (l.drop (factorTwo amount.natAbs).1) anc c0 (factorTwo amount.natAbs).2))

theorem run_map_gx (l : List Q) (s : St Q) (hnd : l.Nodup) :
    ∀ q, run (l.map gx) s q = if q ∈ l then !(s q) else s q := by
  induction l generalizing s with
  | nil => simp
  | cons x l ih =>
    rw [List.nodup_cons] at hnd
    intro q
    rw [List.map_cons, run_cons, ih _ hnd.2]
    by_cases h : q = x
    · subst h; simp [hnd.1, Gate.app, fire]
    · simp [h, Gate.app, fire, upd_ne h]

theorem regVal_not (l : List Q) (s s' : St Q) (h : ∀ q ∈ l, s' q = !(s q)) :
    regVal l s' + regVal l s + 1 = 2 ^ l.length := by
  induction l with
  | nil => simp
  | cons x l ih =>
    have i := ih (fun q hq => h q (by simp [hq]))
    rw [regVal_cons, regVal_cons, h x (by simp), List.length_cons, pow_succ]
    cases s x <;> simp <;> omega

theorem increment_spec (l anc : List Q) (c0 : Q) (amount : Int) (s : St Q)
    (hnd : (c0 :: (l ++ anc)).Nodup) (hanc : l.length ≤ anc.length)
    (hz : ∀ q ∈ c0 :: anc, s q = false) (gs : List (Gate Q))
    (hgs : increment l anc c0 amount = some gs) :
    (regVal l (run gs s) : Int) = (regVal l s + amount) % 2 ^ l.length
    ∧ (∀ q, q ∉ l → run gs s q = s q) := by
  unfold increment at hgs
  split_ifs at hgs with g1 g2
  · simp only [Option.some.injEq] at hgs
    subst hgs
    refine ⟨?_, fun q _ => rfl⟩
    have := regVal_lt l s
    rw [g1, Int.add_zero, run_nil, Int.emod_eq_of_lt (by positivity)]
    exact_mod_cast this
  · rw [not_le] at g2
    set a := amount.natAbs with ha
    have ha0 : 0 < a := by omega
    obtain ⟨f1, f2⟩ := factorTwo_spec a ha0
    set k := (factorTwo a).1
    set m := (factorTwo a).2
    set ql := l.drop k with hql
    have hkl : k < l.length := by
      have : 2 ^ k ≤ a := by
        rw [f1]; exact Nat.le_mul_of_pos_right _ (by omega)
      exact (Nat.pow_lt_pow_iff_right (by norm_num : 1 < 2)).1 (this.trans_lt g2)
    have hqne : ql ≠ [] := by
      intro h; have := congrArg List.length h; simp [hql] at this; omega
    have hsplit : l = l.take k ++ ql := (List.take_append_drop k l).symm
    have hqlen : ql.length = l.length - k := by simp [hql]
    -- the body adds `a` for any state with clean ancillas
    set body := incrementBody ql anc c0 m with hbody
    have hl1 : (l ++ anc).Nodup := (List.nodup_cons.1 hnd).2
    have hqn : ∀ j, (c0 :: (ql ++ anc.take j)).Nodup := by
      intro j
      refine List.Nodup.sublist ?_ hnd
      exact (List.Sublist.append (List.drop_sublist _ _) (List.take_sublist _ _)).cons_cons _
    have hB : ∀ t : St Q, (∀ q ∈ c0 :: anc, t q = false) →
        regVal l (run body t) = (regVal l t + a) % 2 ^ l.length ∧
        ∀ q, q ∉ l → run body t q = t q := by
      intro t ht
      have hcore : regVal ql (run body t) = (regVal ql t + m) % 2 ^ ql.length ∧
          ∀ q, q ∉ ql → run body t q = t q := by
        rw [hbody, incrementBody]
        split_ifs with g3
        · obtain ⟨e1, e2, -⟩ := incrementQbList_spec ql (anc.take (ql.length - 2)) t hqne
            (List.nodup_cons.1 (hqn _)).2 (by rw [List.length_take]; omega)
            (fun q hq => ht q (by simp [List.mem_of_mem_take hq]))
          rw [g3]; exact ⟨e1, e2⟩
        · exact incrementConst_spec ql (anc.take ql.length) c0 m t hqne (hqn _)
            (by rw [List.length_take]; omega)
            (fun q hq => ht q (by
              rw [List.mem_cons] at hq ⊢
              exact hq.imp_right List.mem_of_mem_take))
      refine ⟨?_, fun q hq => hcore.2 q (fun h => hq (List.mem_of_mem_drop h))⟩
      have hlow : regVal (l.take k) (run body t) = regVal (l.take k) t := by
        apply regVal_congr
        intro q hq
        apply hcore.2
        intro h
        have hn := (List.nodup_append.1 hl1).1
        rw [hsplit] at hn
        exact (List.nodup_append.1 hn).2.2 q hq q h rfl
      have hk : (l.take k).length = k := by simp [hkl.le]
      conv_lhs => rw [hsplit]
      conv_rhs => rw [hsplit]
      rw [regVal_append, regVal_append, hlow, hcore.1, hk, List.length_append, hk, f1, pow_add,
        add_assoc, ← mul_add]
      have hlt := regVal_lt (l.take k) t
      rw [hk] at hlt
      rw [Nat.mod_mul, Nat.add_mul_mod_self_left, Nat.mod_eq_of_lt hlt,
        Nat.add_mul_div_left _ _ (by positivity), Nat.div_eq_of_lt hlt, Nat.zero_add]
    have hgs := Option.some.inj hgs
    rw [incrementSign] at hgs
    split_ifs at hgs with g4
    · subst hgs
      have hln := (List.nodup_append.1 hl1).1
      have r1 := run_map_gx l s hln
      set t := run (l.map gx) s with ht
      obtain ⟨b1, b2⟩ := hB t (by
        intro q hq
        rw [r1, if_neg, hz q hq]
        intro h
        rw [List.mem_cons] at hq
        rcases hq with rfl | hq
        · exact (List.nodup_cons.1 hnd).1 (List.mem_append_left _ h)
        · exact (List.nodup_append.1 hl1).2.2 q h q hq rfl)
      set t2 := run body t with ht2
      have r2 := run_map_gx l t2 hln
      have hrun : run (l.map gx ++ body ++ l.map gx) s = run (l.map gx) t2 := by
        rw [run_append, run_append]
      rw [hrun]
      constructor
      · have n1 := regVal_not l s t (fun q hq => by rw [r1, if_pos hq])
        have n2 := regVal_not l t2 (run (l.map gx) t2) (fun q hq => by rw [r2, if_pos hq])
        rw [b1] at n2
        set V := regVal l s
        set T := regVal l t
        have hV := regVal_lt l s
        set P := 2 ^ l.length with hP
        have hPc : ((2 : Int) ^ l.length) = (P : Int) := by rw [hP]; push_cast; rfl
        have hR := regVal_lt l (run (l.map gx) t2)
        rw [hPc]
        have ham : amount = -(a : Int) := by omega
        have hTv : (T : Int) = P - 1 - V := by omega
        have hmod := Nat.div_add_mod (T + a) P
        have hres : (regVal l (run (l.map gx) t2) : Int) = V + amount + P * ((T + a) / P : Nat) := by
          zify at n2 hmod ⊢
          push_cast at n2 hmod ⊢
          rw [ham]
          linarith
        have : ((V : Int) + amount) = regVal l (run (l.map gx) t2) + P * (-((T + a) / P : Nat)) := by
          rw [hres]; ring
        rw [this, Int.add_mul_emod_self_left, Int.emod_eq_of_lt (by positivity) (by exact_mod_cast hR)]
      · intro q hq
        rw [r2, if_neg hq, b2 q hq, r1, if_neg hq]
    · subst hgs
      obtain ⟨b1, b2⟩ := hB s hz
      refine ⟨?_, b2⟩
      rw [b1]
      have : amount = (a : Int) := by omega
      rw [this]
      push_cast
      rfl

end Verif.Rev
