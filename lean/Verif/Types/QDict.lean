import Verif.Circ.LogicPprm

/-!
Model of `QuantumDictionary.load` of `/repo/src/qrisp/core/quantum_dictionary.py`: the truth table that
is handed to the logic synthesis.
-/

namespace Verif.Types

open Verif.Circ Verif.Rev

/-- Python values used as labels: a hashable value or a tuple. -/
inductive PyVal where
  | atom (n : Nat)
  | tup (l : List PyVal)

mutual
def PyVal.beq : PyVal → PyVal → Bool
  | .atom a, .atom b => a == b
  | .tup l, .tup m => PyVal.beqL l m
  | _, _ => false
def PyVal.beqL : List PyVal → List PyVal → Bool
  | [], [] => true
  | a :: l, b :: m => PyVal.beq a b && PyVal.beqL l m
  | _, _ => false
end

mutual
theorem PyVal.beq_iff : ∀ a b : PyVal, PyVal.beq a b = true ↔ a = b
  | .atom a, .atom b => by simp [PyVal.beq]
  | .tup l, .tup m => by simp [PyVal.beq, PyVal.beqL_iff l m]
  | .atom a, .tup m => by simp [PyVal.beq]
  | .tup l, .atom b => by simp [PyVal.beq]
theorem PyVal.beqL_iff : ∀ l m : List PyVal, PyVal.beqL l m = true ↔ l = m
  | [], [] => by simp [PyVal.beqL]
  | a :: l, b :: m => by simp [PyVal.beqL, PyVal.beq_iff a b, PyVal.beqL_iff l m]
  | [], b :: m => by simp [PyVal.beqL]
  | a :: l, [] => by simp [PyVal.beqL]
end

instance : DecidableEq PyVal := fun a b =>
  if h : PyVal.beq a b = true then .isTrue ((PyVal.beq_iff a b).1 h)
  else .isFalse fun e => h ((PyVal.beq_iff a b).2 e)

/-- A quantum variable: number of qubits, decoder and encoder (`none`: the encoder raises). -/
structure QVar where
  size : Nat
  dec : Nat → PyVal
  enc : PyVal → Option Nat

/-- quantum_variable.py:656-660: the default encoder, a linear search. -/
def searchEnc (size : Nat) (dec : Nat → PyVal) (v : PyVal) : Option Nat :=
  (List.range (2 ^ size)).find? fun i => dec i == v

/-- utility.py:1126-1152 `custom_qv`; unused states get labels of their own (`atom (base + x)`). -/
def customQv (labels : List PyVal) (base : Nat) : Option QVar :=
  if labels = [] then none else
  let n := if labels.length = 1 then 1 else Nat.clog 2 labels.length
  let dec := fun x => labels.getD x (.atom (base + x))
  some ⟨n, dec, searchEnc n dec⟩

/-- quantum_dictionary.py:213-216: `itertools.product` of the label lists. -/
def product : List (List PyVal) → List (List PyVal)
  | [] => [[]]
  | l :: r => l.flatMap fun a => (product r).map (a :: ·)

/-- quantum_dictionary.py:203-216: the labels of all key states. -/
def constellations (keys : List QVar) : List PyVal :=
  match keys with
  | [k] => (List.range (2 ^ k.size)).map k.dec
  | _ => (product (keys.map fun k => (List.range (2 ^ k.size)).map k.dec)).map .tup

/-- quantum_dictionary.py:218-222: the entries of the dictionary reached by the keys. The labels are
taken without repetition, so nothing is overwritten. -/
def relevant (d : PyVal → Option PyVal) (keys : List QVar) : List (PyVal × PyVal) :=
  (constellations keys).filterMap fun c => (d c).map fun v => (c, v)

/-- quantum_dictionary.py:240-243: the part of the label belonging to key `i`. -/
def part (c : PyVal) (i : Nat) : Option PyVal :=
  match c with
  | .tup l => l[i]?
  | .atom n => some (.atom n)

/-- quantum_dictionary.py:235-245: the row of the table, first key least significant. -/
def rowOf (c : PyVal) : List QVar → Nat → Option Nat
  | [], _ => some 0
  | k :: ks, i => do
    let p ← part c i
    let e ← k.enc p
    -- `bin_rep` raises for numbers that do not fit (utility.py:40-47)
    if e < 2 ^ k.size then
      let r ← rowOf c ks (i + 1)
      some (e + 2 ^ k.size * r)
    else none

/-- quantum_dictionary.py:232-246: fill the rows in order. -/
def fillTable (keys : List QVar) (val : QVar) : List (PyVal × PyVal) → (Nat → Nat) → Option (Nat → Nat)
  | [], t => some t
  | (c, v) :: r, t => do
    let row ← rowOf c keys 0
    let e ← val.enc v
    if e < 2 ^ val.size then fillTable keys val r (fun x => if x = row then e else t x) else none

/-- quantum_dictionary.py:224-228: the value variable. -/
def valueVar (d : PyVal → Option PyVal) (keys : List QVar) (ret : Option QVar) (base : Nat) : Option QVar :=
  match ret with
  | some q => some q
  | none => customQv ((relevant d keys).map Prod.snd) base

/-- The columns of the table (quantum_dictionary.py:246: column `j` is bit `j` of the value). -/
def columns (n m : Nat) (t : Nat → Nat) : List (List Bool) :=
  (List.range m).map fun j => (List.range (2 ^ n)).map fun x => (t x).testBit j

/-- quantum_dictionary.py:151-269 `load`: value variable and truth table. -/
def load (d : PyVal → Option PyVal) (keys : List QVar) (ret : Option QVar) (base : Nat) :
    Option (QVar × List (List Bool)) := do
  let val ← valueVar d keys ret base
  let t ← fillTable keys val (relevant d keys) fun _ => 0
  some (val, columns (keys.map QVar.size).sum val.size t)

/-! ### Specification -/

/-- The label of the key state `xs`: one key gives its label, several the tuple of their labels. -/
def keyLabel (keys : List QVar) (xs : List Nat) : PyVal :=
  match keys, xs with
  | [k], [x] => k.dec x
  | keys, xs => .tup (List.zipWith (fun k x => k.dec x) keys xs)

/-- `xs` are values of the key variables. -/
def Valid : List QVar → List Nat → Prop
  | [], [] => True
  | k :: ks, x :: xs => x < 2 ^ k.size ∧ Valid ks xs
  | _, _ => False

/-- The encoders invert the decoders. -/
def KeyOK (keys : List QVar) : Prop := ∀ k ∈ keys, ∀ i < 2 ^ k.size, k.enc (k.dec i) = some i

/-- A single key variable has no tuples as labels. -/
def NoTupleLabel (keys : List QVar) : Prop :=
  ∀ k, keys = [k] → ∀ i < 2 ^ k.size, ∃ n, k.dec i = .atom n

/-- The value of the concatenated key registers. -/
def packRow : List QVar → List Nat → Nat
  | k :: ks, x :: xs => x + 2 ^ k.size * packRow ks xs
  | _, _ => 0

theorem packRow_inj : ∀ (keys : List QVar) (xs ys : List Nat), Valid keys xs → Valid keys ys →
    packRow keys xs = packRow keys ys → xs = ys
  | [], [], [], _, _, _ => rfl
  | [], [], _ :: _, _, h, _ => h.elim
  | [], _ :: _, _, h, _, _ => h.elim
  | _ :: _, [], _, h, _, _ => h.elim
  | _ :: _, _ :: _, [], _, h, _ => h.elim
  | k :: ks, x :: xs, y :: ys, hx, hy, h => by
    simp only [packRow] at h
    have h1 : x = y := by
      have := congrArg (· % 2 ^ k.size) h
      simpa [Nat.add_mul_mod_self_left, Nat.mod_eq_of_lt hx.1, Nat.mod_eq_of_lt hy.1] using this
    subst h1
    have hp := Nat.two_pow_pos k.size
    have h2 := Nat.eq_of_mul_eq_mul_left hp (Nat.add_left_cancel h)
    rw [packRow_inj ks xs ys hx.2 hy.2 h2]

theorem packRow_lt : ∀ (keys : List QVar) (xs : List Nat), Valid keys xs →
    packRow keys xs < 2 ^ (keys.map QVar.size).sum
  | [], [], _ => by simp [packRow]
  | [], _ :: _, h => h.elim
  | _ :: _, [], h => h.elim
  | k :: ks, x :: xs, h => by
    have ih := packRow_lt ks xs h.2
    simp only [packRow, List.map_cons, List.sum_cons, Nat.pow_add]
    calc x + 2 ^ k.size * packRow ks xs < 2 ^ k.size + 2 ^ k.size * packRow ks xs := Nat.add_lt_add_right h.1 _
      _ = 2 ^ k.size * (packRow ks xs + 1) := by ring
      _ ≤ _ := Nat.mul_le_mul_left _ ih

theorem mem_product : ∀ (keys : List QVar) (l : List PyVal),
    l ∈ product (keys.map fun k => (List.range (2 ^ k.size)).map k.dec) ↔
      ∃ xs, Valid keys xs ∧ l = List.zipWith (fun k x => k.dec x) keys xs
  | [], l => by
    simp only [List.map_nil, product, List.mem_singleton]
    constructor
    · rintro rfl; exact ⟨[], trivial, rfl⟩
    · rintro ⟨xs, h, rfl⟩; simp
  | k :: ks, l => by
    simp only [List.map_cons, product, List.mem_flatMap, List.mem_map, List.mem_range]
    constructor
    · rintro ⟨_, ⟨x, hx, rfl⟩, r, hr, rfl⟩
      obtain ⟨xs, h, rfl⟩ := (mem_product ks r).1 hr
      exact ⟨x :: xs, ⟨hx, h⟩, rfl⟩
    · rintro ⟨xs, h, rfl⟩
      cases xs with
      | nil => exact h.elim
      | cons x xs =>
        exact ⟨_, ⟨x, h.1, rfl⟩, _, (mem_product ks _).2 ⟨xs, h.2, rfl⟩, rfl⟩

theorem mem_constellations (keys : List QVar) (c : PyVal) :
    c ∈ constellations keys ↔ ∃ xs, Valid keys xs ∧ c = keyLabel keys xs := by
  match keys with
  | [] =>
    simp only [constellations, List.mem_map]
    constructor
    · rintro ⟨l, hl, rfl⟩
      obtain ⟨xs, h, rfl⟩ := (mem_product [] l).1 hl
      exact ⟨xs, h, rfl⟩
    · rintro ⟨xs, h, rfl⟩
      exact ⟨_, (mem_product [] _).2 ⟨xs, h, rfl⟩, rfl⟩
  | [k] =>
    simp only [constellations, List.mem_map, List.mem_range]
    constructor
    · rintro ⟨x, hx, rfl⟩
      exact ⟨[x], ⟨hx, trivial⟩, rfl⟩
    · rintro ⟨xs, h, rfl⟩
      match xs, h with
      | [x], h => exact ⟨x, h.1, rfl⟩
      | _ :: _ :: _, h => exact h.2.elim
  | k :: k' :: ks =>
    simp only [constellations, List.mem_map]
    constructor
    · rintro ⟨l, hl, rfl⟩
      obtain ⟨xs, h, rfl⟩ := (mem_product (k :: k' :: ks) l).1 hl
      exact ⟨xs, h, rfl⟩
    · rintro ⟨xs, h, rfl⟩
      exact ⟨_, (mem_product (k :: k' :: ks) _).2 ⟨xs, h, rfl⟩, rfl⟩

theorem rowOf_tup (pre : List PyVal) : ∀ (keys : List QVar) (xs : List Nat), KeyOK keys → Valid keys xs →
    rowOf (.tup (pre ++ List.zipWith (fun k x => k.dec x) keys xs)) keys pre.length = some (packRow keys xs)
  | [], [], _, _ => rfl
  | [], _ :: _, _, h => h.elim
  | _ :: _, [], _, h => h.elim
  | k :: ks, x :: xs, hk, h => by
    have ih := rowOf_tup (pre ++ [k.dec x]) ks xs (fun k' hk' => hk k' (by simp [hk'])) h.2
    rw [List.length_append, List.length_singleton, List.append_assoc] at ih
    have hp : part (.tup (pre ++ List.zipWith (fun k x => k.dec x) (k :: ks) (x :: xs))) pre.length
        = some (k.dec x) := by
      simp [part, List.zipWith_cons_cons]
    simp only [rowOf, hp, Option.bind_eq_bind, Option.bind_some, hk k (by simp) x h.1, if_pos h.1]
    simp only [List.zipWith_cons_cons, List.singleton_append] at ih ⊢
    rw [ih]
    rfl

theorem rowOf_label (keys : List QVar) (xs : List Nat) (hk : KeyOK keys) (hn : NoTupleLabel keys)
    (hv : Valid keys xs) : rowOf (keyLabel keys xs) keys 0 = some (packRow keys xs) := by
  match keys, xs, hv with
  | [], [], _ => rfl
  | [k], [x], hv =>
    obtain ⟨n, hn⟩ := hn k rfl x hv.1
    have he := hk k (by simp) x hv.1
    simp only [keyLabel, rowOf]
    rw [hn] at he ⊢
    simp [part, he, hv.1, packRow]
  | k :: k' :: ks, x :: x' :: xs, hv => exact rowOf_tup [] (k :: k' :: ks) (x :: x' :: xs) hk hv
  | [k], _ :: _ :: _, hv => exact hv.2.elim
  | _ :: _ :: _, [_], hv => exact hv.2.elim

theorem fillTable_spec (keys : List QVar) (val : QVar) : ∀ (l : List (PyVal × PyVal)) (t0 t : Nat → Nat),
    fillTable keys val l t0 = some t → ∀ x,
      (∃ cv ∈ l, rowOf cv.1 keys 0 = some x ∧ val.enc cv.2 = some (t x) ∧ t x < 2 ^ val.size) ∨
      ((∀ cv ∈ l, rowOf cv.1 keys 0 ≠ some x) ∧ t x = t0 x)
  | [], t0, t, h, x => by
    simp only [fillTable, Option.some.injEq] at h
    subst h; right; simp
  | (c, v) :: l, t0, t, h, x => by
    simp only [fillTable, Option.bind_eq_bind] at h
    obtain ⟨row, hr, h⟩ := Option.bind_eq_some_iff.1 h
    obtain ⟨e, he, h⟩ := Option.bind_eq_some_iff.1 h
    split at h
    · rename_i hlt
      rcases fillTable_spec keys val l _ t h x with ⟨cv, h1, h2⟩ | ⟨h1, h2⟩
      · exact .inl ⟨cv, by simp [h1], h2⟩
      · by_cases hx : x = row
        · subst hx
          simp only [if_true] at h2
          exact .inl ⟨(c, v), by simp, hr, by rw [h2]; exact he, by omega⟩
        · rw [if_neg hx] at h2
          refine .inr ⟨?_, h2⟩
          intro cv hcv
          rcases List.mem_cons.1 hcv with rfl | hcv
          · rw [hr]; exact fun e => hx (Option.some.inj e).symm
          · exact h1 cv hcv
    · cases h

theorem fillTable_some (keys : List QVar) (val : QVar) : ∀ (l : List (PyVal × PyVal)) (t0 : Nat → Nat),
    (∀ cv ∈ l, (∃ r, rowOf cv.1 keys 0 = some r) ∧ ∃ e, val.enc cv.2 = some e ∧ e < 2 ^ val.size) →
    ∃ t, fillTable keys val l t0 = some t
  | [], t0, _ => ⟨t0, rfl⟩
  | (c, v) :: l, t0, h => by
    obtain ⟨⟨r, hr⟩, e, he, hlt⟩ := h (c, v) (by simp)
    obtain ⟨t, ht⟩ := fillTable_some keys val l (fun x => if x = r then e else t0 x)
      fun cv hcv => h cv (by simp [hcv])
    refine ⟨t, ?_⟩
    simp only [fillTable, Option.bind_eq_bind]
    simp only at hr he
    rw [hr, Option.bind_some, he, Option.bind_some, if_pos hlt, ht]

theorem mem_relevant (d : PyVal → Option PyVal) (keys : List QVar) (c v : PyVal) :
    (c, v) ∈ relevant d keys ↔ (∃ xs, Valid keys xs ∧ c = keyLabel keys xs) ∧ d c = some v := by
  simp only [relevant, List.mem_filterMap, Option.map_eq_some_iff, Prod.mk.injEq, mem_constellations]
  constructor
  · rintro ⟨c', h1, v', h2, rfl, rfl⟩
    exact ⟨h1, h2⟩
  · rintro ⟨h1, h2⟩
    exact ⟨c, h1, v, h2, rfl, rfl⟩

/-- The filled table holds the encoded value of every label in the dictionary and zero elsewhere. -/
theorem table_spec {d : PyVal → Option PyVal} {keys : List QVar} {val : QVar} (hk : KeyOK keys)
    (hn : NoTupleLabel keys) {t : Nat → Nat} (h : fillTable keys val (relevant d keys) (fun _ => 0) = some t)
    (xs : List Nat) (hv : Valid keys xs) :
    match d (keyLabel keys xs) with
    | some v => val.enc v = some (t (packRow keys xs)) ∧ t (packRow keys xs) < 2 ^ val.size
    | none => t (packRow keys xs) = 0 := by
  have uniq : ∀ c v, (c, v) ∈ relevant d keys → rowOf c keys 0 = some (packRow keys xs) →
      c = keyLabel keys xs ∧ d (keyLabel keys xs) = some v := by
    intro c v hm hr
    obtain ⟨⟨ys, hy, rfl⟩, hd⟩ := (mem_relevant d keys c v).1 hm
    rw [rowOf_label keys ys hk hn hy] at hr
    rw [packRow_inj keys ys xs hy hv (Option.some.inj hr)] at hd ⊢
    exact ⟨rfl, hd⟩
  rcases fillTable_spec keys val _ _ _ h (packRow keys xs) with ⟨⟨c, v⟩, h1, h2, h3, h4⟩ | ⟨h1, h2⟩
  · obtain ⟨_, hd⟩ := uniq c v h1 h2
    rw [hd]
    exact ⟨h3, h4⟩
  · cases hd : d (keyLabel keys xs) with
    | none => exact h2
    | some v =>
      exact absurd (rowOf_label keys xs hk hn hv)
        (h1 (keyLabel keys xs, v) ((mem_relevant d keys _ _).2 ⟨⟨xs, hv, rfl⟩, hd⟩))

/-- The default encoder inverts an injective decoder. -/
theorem searchEnc_dec {size : Nat} {dec : Nat → PyVal}
    (inj : ∀ i < 2 ^ size, ∀ j < 2 ^ size, dec i = dec j → i = j) {i : Nat} (hi : i < 2 ^ size) :
    searchEnc size dec (dec i) = some i := by
  unfold searchEnc
  obtain ⟨j, hj⟩ : ∃ j, (List.range (2 ^ size)).find? (fun k => dec k == dec i) = some j := by
    cases h : (List.range (2 ^ size)).find? (fun k => dec k == dec i) with
    | none =>
      have := List.find?_eq_none.1 h i (by simpa using hi)
      simp at this
    | some j => exact ⟨j, rfl⟩
  have h1 := List.find?_some hj
  have h2 : j < 2 ^ size := by simpa using List.mem_of_find?_eq_some hj
  rw [hj, inj j h2 i hi (by simpa using h1)]

theorem searchEnc_some {size : Nat} {dec : Nat → PyVal} {v : PyVal} {e : Nat} (h : searchEnc size dec v = some e) :
    e < 2 ^ size ∧ dec e = v := by
  unfold searchEnc at h
  exact ⟨by simpa using List.mem_of_find?_eq_some h, by simpa using List.find?_some h⟩

theorem searchEnc_isSome {size : Nat} {dec : Nat → PyVal} {i : Nat} (hi : i < 2 ^ size) :
    ∃ e, searchEnc size dec (dec i) = some e := by
  unfold searchEnc
  cases h : (List.range (2 ^ size)).find? (fun k => dec k == dec i) with
  | none =>
    have := List.find?_eq_none.1 h i (by simpa using hi)
    simp at this
  | some j => exact ⟨j, rfl⟩

/-- A custom variable encodes all its labels. -/
theorem customQv_enc {labels : List PyVal} {base : Nat} {q : QVar} (h : customQv labels base = some q)
    {v : PyVal} (hv : v ∈ labels) : ∃ e, q.enc v = some e ∧ e < 2 ^ q.size ∧ q.dec e = v := by
  unfold customQv at h
  split at h
  · cases h
  · simp only [Option.some.injEq] at h
    subst h
    obtain ⟨i, hi, rfl⟩ := List.getElem_of_mem hv
    have hlt : i < 2 ^ (if labels.length = 1 then 1 else Nat.clog 2 labels.length) := by
      split
      · omega
      · exact lt_of_lt_of_le hi (Nat.le_pow_clog (by omega) _)
    obtain ⟨e, he⟩ := searchEnc_isSome (dec := fun x => labels.getD x (.atom (base + x))) hlt
    have hd : labels.getD i (.atom (base + i)) = labels[i] := by
      simp [List.getD_eq_getElem?_getD, hi]
    beta_reduce at he
    rw [hd] at he
    exact ⟨e, he, searchEnc_some he⟩

end Verif.Types
