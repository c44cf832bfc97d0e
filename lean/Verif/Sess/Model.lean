import Mathlib.Data.List.Basic
import Mathlib.Data.List.Sort
import Mathlib.Logic.Relation

/-!
# Merging quantum sessions

A `QuantumSession` (core/quantum_session.py) is a growing circuit together with its variables.  Operations on qubits of
different sessions merge these sessions (core/session_merging_tools.py): one session receives the instructions and the
variables of the other one, whose attributes then point to the same lists.

Not modelled: environments (the environment stacks are empty, so the first loop of `merge_sessions` and
`merge_env_stack` do nothing), classical bits, backends, uncomputation stacks, sessions removed by garbage collection, and
names inferred from the source code.
-/

namespace Verif.Sess

/-- Names of variables. -/
abbrev Name := List Char

/-- A qubit: the number of its variable and its position in the register. -/
abbrev Qubit := Nat × Nat

/-- An instruction of a circuit. -/
structure Instr where
  op : String
  qubits : List Qubit
  deriving DecidableEq

/-- A variable (core/quantum_variable.py:232-330): its name, `user_given_name`, `creation_time`, number of qubits, the
session its qubits point to, and whether its qubits are allocated. -/
structure Qv where
  name : Name := []
  user : Bool := false
  time : Nat := 0
  size : Nat := 0
  home : Nat := 0
  alive : Bool := false

/-- The register of variable `v`. -/
def reg (q : Nat → Qv) (v : Nat) : List Qubit := (List.range (q v).size).map fun k => (v, k)

/-- The attributes of a session (core/quantum_session.py:130-189). -/
structure Sess where
  data : List Instr := []
  qvs : List Nat := []
  del : List Nat := []
  qubits : List Qubit := []
  shadows : List Nat := []

/-- All variables of a session: `self.qv_list + self.deleted_qv_list`. -/
def Sess.all (s : Sess) : List Nat := s.qvs ++ s.del

/-- All sessions and variables of a program.  `parent` is the attribute set by a merge; a session with a parent has the same
lists as its parent (session_merging_tools.py:205-215), therefore its lists are looked up at the parent. -/
structure World where
  nS : Nat := 0
  nV : Nat := 0
  parent : Nat → Option Nat := fun _ => none
  sess : Nat → Sess := fun _ => {}
  qv : Nat → Qv := fun _ => {}

/-- `while hasattr(qs, "parent"): qs = qs.parent` (session_merging_tools.py:103-107), with at most `fuel` steps. -/
def rootLoop (parent : Nat → Option Nat) : Nat → Nat → Nat
  | 0, s => s
  | fuel + 1, s => match parent s with
    | none => s
    | some p => rootLoop parent fuel p

def World.root (w : World) (s : Nat) : Nat := rootLoop w.parent w.nS s

/-- The attributes seen through session `s`. -/
def World.look (w : World) (s : Nat) : Sess := w.sess (w.root s)

def upd {α : Type} (f : Nat → α) (k : Nat) (a : α) : Nat → α := fun j => if j = k then a else f j

/-- `name + "_" + str(k)`. -/
def suffixed (x : Name) (k : Nat) : Name := x ++ '_' :: Nat.toDigits 10 k

/-- The first name of `x_a, x_(a+1), …` that is not used (session_merging_tools.py:246-251, quantum_variable.py:266-274).
One of the first `used.length + 1` names is free. -/
def fresh (a : Nat) (used : List Name) (x : Name) : Option Name :=
  ((List.range (used.length + 1)).map fun k => suffixed x (a + k)).find? fun y => decide (y ∉ used)

/-- Which of the two variables named `x` gets a new name; `none` for the exception of two names given by the user
(session_merging_tools.py:227-243). -/
def victim (q : Nat → Qv) (v0 v1 : Nat) : Option Nat :=
  if (q v1).user then
    if (q v0).user then none else some v0
  else if (q v0).time > (q v1).time then
    if !(q v1).user then some v0 else some v1
  else some v1

/-- One iteration of the loop of `resolve_naming_collisions` (session_merging_tools.py:226-255). -/
def resolveOne (l0 l1 : List Nat) (names0 names1 : List Name) (q : Nat → Qv) (x : Name) : Option (Nat → Qv) := do
  let v0 := l0.getD (names0.idxOf x) 0
  let v1 := l1.getD (names1.idxOf x) 0
  let v ← victim q v0 v1
  let y ← fresh 1 (names0 ++ names1) (q v).name
  return upd q v { q v with name := y }

/-- `resolve_naming_collisions` (session_merging_tools.py:218-255); the lists of names are not updated during the loop.  The
order in which the names are visited does not matter. -/
def resolve (q : Nat → Qv) (l0 l1 : List Nat) : Option (Nat → Qv) :=
  let names0 := l0.map fun v => (q v).name
  let names1 := l1.map fun v => (q v).name
  (names0.filter fun x => decide (x ∈ names1)).foldlM (resolveOne l0 l1 names0 names1) q

/-- `qubit.identifier`: `name + "." + str(i)` (quantum_session.py:300, session_merging_tools.py:254-255). -/
def ident (q : Nat → Qv) (b : Qubit) : Name := (q b.1).name ++ '.' :: Nat.toDigits 10 b.2

/-- `list.sort(key=lambda x: x.creation_time)`. -/
def byTime (q : Nat → Qv) (l : List Nat) : List Nat := l.insertionSort fun a b => (q a).time ≤ (q b).time

/-- The merged lists of session `r0` (session_merging_tools.py:162-205, `reorder_quantum_variables` 279-292). -/
def joined (q : Nat → Qv) (s0 s1 : Sess) (r1 : Nat) : Sess :=
  let qvs := s0.qvs ++ s1.qvs.reverse
  let del := s0.del ++ s1.del
  let sorted := (byTime q (qvs ++ del)).flatMap (reg q)
  { data := s0.data ++ s1.data
    qvs := byTime q qvs
    del := del
    qubits := sorted ++ (s0.qubits ++ s1.qubits).filter fun b => decide (b ∉ sorted)
    shadows := s0.shadows ++ s1.shadows ++ [r1] }

/-- `merge_sessions_inner` (session_merging_tools.py:61-215); `none` is an exception. -/
def mergeInner (w : World) (a b : Nat) : Option World :=
  if w.root a = w.root b then some w
  else
    let r0 := w.root a
    let r1 := w.root b
    let s0 := w.sess r0
    let s1 := w.sess r1
    match resolve w.qv s0.all s1.all with
    | none => none
    | some q =>
      if (s0.qubits.map (ident q)).any fun x => decide (x ∈ s1.qubits.map (ident q)) then none
      else
        let s := joined q s0 s1 r1
        some { w with
          sess := upd w.sess r0 s
          parent := fun t => if t ∈ s.shadows then some r0 else w.parent t
          qv := fun v => if v ∈ s1.all then { q v with home := r0 } else q v }

/-- `multi_session_merge` (session_merging_tools.py:307-319): the session with most instructions receives the others. -/
def multiMerge (w : World) (l : List Nat) : Option World :=
  match l.insertionSort fun a b => (w.look b).data.length ≤ (w.look a).data.length with
  | [] => some w
  | h :: t => (h :: t).foldlM (fun w s => mergeInner w h s) w

/-- `QuantumSession.append` (quantum_session.py:425-520), called on the session of the first qubit
(gate_application_functions.py:25-43, `find_qs` misc/utility.py:670-700; without qubits nothing happens). -/
def append (w : World) (op : String) (qubits : List Qubit) : Option World :=
  match qubits with
  | [] => some w
  | b :: bs =>
    if op ≠ "qb_alloc" ∧ op ≠ "barrier" ∧ (b :: bs).any (fun c => !(w.qv c.1).alive) then none
    else
      let self := (w.qv b.1).home
      match multiMerge w ((b :: bs).map (fun c => (w.qv c.1).home) ++ [self]) with
      | none => none
      | some w' =>
        let r := w'.root self
        some { w' with sess := upd w'.sess r { w'.sess r with data := (w'.sess r).data ++ [⟨op, qubits⟩] } }

/-- The names of the variables of a session, also of the deleted ones. -/
def World.names (w : World) (s : Nat) : List Name := (w.look s).all.map fun v => (w.qv v).name

/-- `register_qv` and `request_qubits` (quantum_session.py:191-220, 292-307); `none` is the `RuntimeError`. -/
def register (w : World) (s : Nat) (name : Name) (user : Bool) (size : Nat) : Option World :=
  if name ∈ w.names s then none
  else
    let r := w.root s
    let bs := (List.range size).map fun k => (w.nV, k)
    some { w with
      nV := w.nV + 1
      qv := upd w.qv w.nV { name := name, user := user, time := w.nV, size := size, home := s, alive := true }
      sess := upd w.sess r { w.sess r with
        qubits := (w.sess r).qubits ++ bs
        data := (w.sess r).data ++ bs.map fun b => ⟨"qb_alloc", [b]⟩
        qvs := (w.sess r).qvs ++ [w.nV] } }

/-- `QuantumVariable(size, qs, name)` (quantum_variable.py:250-280) in session `s`; `star` says that the name ended with
`*`. -/
def create (w : World) (s : Nat) (name : Name) (star : Bool) (size : Nat) : Option World :=
  if star then
    if name ∈ w.names s then
      match fresh w.nV (w.names s) name with
      | none => none
      | some y => register w s y false size
    else register w s name false size
  else register w s name true size

/-- `QuantumSession()`. -/
def newSession (w : World) : World := { w with nS := w.nS + 1 }

/-- The argument `name` of `duplicate`. -/
inductive DupName where
  | none
  | given (x : Name)
  | star (x : Name)

/-- `QuantumVariable.duplicate` (quantum_variable.py:525-575) without initialisation. -/
def duplicate (w : World) (v : Nat) (name : DupName) : Option World :=
  let w1 := newSession w
  match name with
  | .none => register w1 w.nS ((w.qv v).name ++ ['_', 'd', 'u', 'p', 'l']) false (w.qv v).size
  | .given x => register w1 w.nS x true (w.qv v).size
  | .star x => (register w1 w.nS x (w.qv v).user (w.qv v).size).map fun w2 =>
      { w2 with qv := upd w2.qv v { w2.qv v with user := false } }

/-- `QuantumVariable.delete` and `delete_qv` (quantum_session.py:364-379) without verification. -/
def delete (w : World) (v : Nat) : Option World :=
  let s := (w.qv v).home
  let r := w.root s
  if (w.qv v).name ∈ (w.sess r).qvs.map fun u => (w.qv u).name then
    match (reg w.qv v).foldlM (fun w b => append w "qb_dealloc" [b]) w with
    | none => none
    | some w' =>
      let r := w'.root s
      let qvs := (w'.sess r).qvs
      some { w' with
        qv := upd w'.qv v { w'.qv v with alive := false }
        sess := upd w'.sess r { w'.sess r with
          qvs := qvs.eraseIdx ((qvs.map fun u => (w'.qv u).name).idxOf (w'.qv v).name)
          del := (w'.sess r).del ++ [v] } }
  else none

/-- What a program does with sessions.  Sessions and variables are numbered in the order of their creation. -/
inductive Op where
  | session
  | var (s : Option Nat) (name : Name) (star : Bool) (size : Nat)
  | dup (v : Nat) (name : DupName)
  | gate (op : String) (qubits : List Qubit)
  | delete (v : Nat)
  | merge (l : List Nat)

/-- One operation; `none` for an exception and for objects that do not exist. -/
def exec (w : World) : Op → Option World
  | .session => some (newSession w)
  | .var none name star size => create (newSession w) w.nS name star size
  | .var (some s) name star size => if s < w.nS then create w s name star size else none
  | .dup v name => if v < w.nV then duplicate w v name else none
  | .gate op qubits => if ∀ b ∈ qubits, b.1 < w.nV ∧ b.2 < (w.qv b.1).size then append w op qubits else none
  | .delete v => if v < w.nV then delete w v else none
  | .merge l => if ∀ s ∈ l, s < w.nS then multiMerge w l else none

/-- A program, from the beginning. -/
def execAll (ops : List Op) : Option World := ops.foldlM exec {}

/-! ## What happened -/

/-- The record of a program that knows nothing of merging: the number of sessions, for each variable the session it was created in and
its size, the deleted variables, all instructions in the order they were given, and the pairs of sessions that were brought
together. -/
structure Hist where
  nS : Nat := 0
  born : List Nat := []
  size : List Nat := []
  dead : List Nat := []
  log : List Instr := []
  links : List (Nat × Nat) := []

/-- One instruction on each qubit of variable `v`. -/
def each (op : String) (v size : Nat) : List Instr := (List.range size).map fun k => ⟨op, [(v, k)]⟩

def Hist.newVar (h : Hist) (s size : Nat) : Hist :=
  { h with born := h.born ++ [s], size := h.size ++ [size], log := h.log ++ each "qb_alloc" h.born.length size }

/-- Pairs of the first element with the others. -/
def star : List Nat → List (Nat × Nat)
  | [] => []
  | s :: t => t.map fun u => (s, u)

def record (h : Hist) : Op → Hist
  | .session => { h with nS := h.nS + 1 }
  | .var none _ _ size => ({ h with nS := h.nS + 1 } : Hist).newVar h.nS size
  | .var (some s) _ _ size => h.newVar s size
  | .dup v _ => ({ h with nS := h.nS + 1 } : Hist).newVar h.nS (h.size.getD v 0)
  | .gate _ [] => h
  | .gate op qubits => { h with
      log := h.log ++ [⟨op, qubits⟩]
      links := h.links ++ star (qubits.map fun b => h.born.getD b.1 0) }
  | .delete v => { h with log := h.log ++ each "qb_dealloc" v (h.size.getD v 0), dead := h.dead ++ [v] }
  | .merge l => { h with links := h.links ++ star l }

def history (ops : List Op) : Hist := ops.foldl record {}

/-- Sessions that were brought together, directly or through others. -/
def Hist.Linked (h : Hist) : Nat → Nat → Prop := Relation.EqvGen fun a b => (a, b) ∈ h.links

/-- Two instructions on different qubits. -/
def Disj (i j : Instr) : Prop := ∀ b ∈ i.qubits, b ∉ j.qubits

/-- Circuits that differ by exchanging neighbouring instructions on different qubits. -/
inductive Commutes : List Instr → List Instr → Prop
  | refl (l : List Instr) : Commutes l l
  | swap (pre post : List Instr) (i j : Instr) (h : Disj i j) :
      Commutes (pre ++ i :: j :: post) (pre ++ j :: i :: post)
  | trans {a b c : List Instr} : Commutes a b → Commutes b c → Commutes a c

end Verif.Sess
