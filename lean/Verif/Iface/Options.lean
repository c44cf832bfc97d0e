import Mathlib.Data.List.Basic
import Mathlib.Tactic.Linarith

/-!
Runtime options of backends (src/qrisp/interface/backend.py).
-/

namespace Verif.Iface

/-- Option values, as far as `_validate_shots` distinguishes them. -/
inductive PyVal where
  | none
  | int (z : Int)
  | bool (b : Bool)
  | other (tag : Nat)
  deriving DecidableEq

/-- Raised exceptions. -/
inductive OptErr where
  | attribute (key : String)
  | type
  | value
  deriving DecidableEq

/-- `_options`. -/
abbrev Opts := List (String × PyVal)

/-- `k in options`. -/
def ohas (o : Opts) (k : String) : Bool := o.any fun p => p.1 == k

/-- `o[k] = v`. -/
def oset (o : Opts) (k : String) (v : PyVal) : Opts :=
  match o with
  | [] => [(k, v)]
  | p :: o => if p.1 = k then (k, v) :: o else p :: oset o k v

/-- `_validate_shots` (backend.py lines 452-457). -/
def validateShots : PyVal → Option OptErr
  | .none => none
  | .int z => if z ≤ 0 then some .value else none
  | .bool _ => some .type
  | .other _ => some .type

/-- `update_options` (lines 544-553). -/
def updateOptions (kw : Opts) (o : Opts) : Opts × Option OptErr :=
  match kw.find? fun p => !ohas o p.1 with
  | some p => (o, some (.attribute p.1))
  | none =>
    match kw.lookup "shots" with
    | none => (kw.foldl (fun o p => oset o p.1 p.2) o, none)
    | some v => match validateShots v with
      | some e => (o, some e)
      | none => (kw.foldl (fun o p => oset o p.1 p.2) o, none)

/-! ### Lemmas -/

theorem oset_keys {o : Opts} {k : String} (v : PyVal) (h : ohas o k = true) :
    (oset o k v).map Prod.fst = o.map Prod.fst := by
  induction o with
  | nil => simp [ohas] at h
  | cons p o ih =>
    rw [oset]
    by_cases hp : p.1 = k
    · rw [if_pos hp]; simp [hp]
    · rw [if_neg hp, List.map_cons, List.map_cons, ih]
      simpa [ohas, hp] using h

theorem oset_lookup (o : Opts) (k : String) (v : PyVal) (j : String) :
    (oset o k v).lookup j = if j = k then some v else o.lookup j := by
  induction o with
  | nil =>
    rw [oset, List.lookup_cons]
    by_cases h : j = k
    · subst h; simp
    · have hb : (j == k) = false := by simpa using h
      rw [hb, if_neg h]
  | cons p o ih =>
    rcases p with ⟨a, w⟩
    rw [oset]
    by_cases ha : a = k
    · rw [if_pos ha, List.lookup_cons, List.lookup_cons, ← ha]
      by_cases h : j = a
      · subst h; simp
      · have hb : (j == a) = false := by simpa using h
        rw [hb, if_neg h]
    · rw [if_neg ha, List.lookup_cons, List.lookup_cons, ih]
      by_cases h : j = a
      · subst h; simp [ha]
      · have hb : (j == a) = false := by simpa using h
        rw [hb]

theorem ohas_keys {o o' : Opts} (h : o'.map Prod.fst = o.map Prod.fst) (k : String) :
    ohas o' k = ohas o k := by
  have : ∀ o : Opts, ohas o k = (o.map Prod.fst).any (· == k) := by
    intro o; rw [ohas, List.any_map]; rfl
  rw [this, this, h]

theorem fold_keys (kw o : Opts) (h : ∀ p ∈ kw, ohas o p.1 = true) :
    (kw.foldl (fun o p => oset o p.1 p.2) o).map Prod.fst = o.map Prod.fst := by
  induction kw generalizing o with
  | nil => rfl
  | cons p kw ih =>
    have hp := h p List.mem_cons_self
    rw [List.foldl_cons, ih _ fun q hq => ?_, oset_keys _ hp]
    rw [ohas_keys (oset_keys _ hp)]
    exact h q (List.mem_cons_of_mem _ hq)

theorem fold_lookup (kw o : Opts) (hn : (kw.map Prod.fst).Nodup) (j : String) :
    (kw.foldl (fun o p => oset o p.1 p.2) o).lookup j = (kw.lookup j).or (o.lookup j) := by
  induction kw generalizing o with
  | nil => rfl
  | cons p kw ih =>
    rcases p with ⟨a, v⟩
    rw [List.map_cons, List.nodup_cons] at hn
    rw [List.foldl_cons, ih _ hn.2, oset_lookup, List.lookup_cons]
    by_cases h : j = a
    · subst h
      have : kw.lookup j = none := by
        rw [List.lookup_eq_none_iff]
        intro q hq
        have : j ≠ q.1 := fun e => hn.1 (List.mem_map.2 ⟨q, hq, e.symm⟩)
        simpa using this
      simp [this]
    · have hb : (j == a) = false := by simpa using h
      rw [hb, if_neg h]

end Verif.Iface
