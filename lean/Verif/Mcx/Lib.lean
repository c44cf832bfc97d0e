import Verif.Mcx.Amp

/-!
# Circuit library

Model of `alg_primitives/mcx_algs/circuit_library.py` and `khattar.py:60-103`. Circuits are lists of gates on local
qubit numbers.
-/

set_option linter.unusedSectionVars false

namespace Verif.Mcx

open Verif.Rev

abbrev cx (a b : Nat) : AGate Nat := .mcx [a] b
abbrev tG (a : Nat) : AGate Nat := .dg 1 [a]
abbrev tdg (a : Nat) : AGate Nat := .dg 7 [a]
abbrev sG (a : Nat) : AGate Nat := .dg 2 [a]
abbrev cz (a b : Nat) : AGate Nat := .dg 4 [a, b]

/-- circuit_library.py:30-46 (with the final swap of qubits 0 and 1). -/
def toffoliQc : List (AGate Nat) :=
  [.h 2, tdg 1, tdg 0, cx 2 1, cx 0 2, tG 1, cx 0 1, tG 2, cx 0 2, tdg 1, cx 2 1, tG 1, tdg 2, cx 0 1, .h 2]

/-- circuit_library.py:51-60 `reduced_margolus_qc`. -/
def reducedMargolus : List (AGate Nat) := [.sx 2, tG 2, cx 1 2, tG 2, cx 0 2, .sxdg 2]

/-- circuit_library.py:51-65 `margolus_qc`. -/
def margolusQc : List (AGate Nat) := [.sx 2, tG 2, cx 1 2, tG 2, cx 0 2, tdg 2, cx 1 2, tdg 2, .sxdg 2]

/-- circuit_library.py:69-82 `reduced_maslov_qc`. -/
def reducedMaslov : List (AGate Nat) := [.h 3, tG 3, cx 2 3, tdg 3, .h 3, cx 0 3, tG 3, cx 1 3, tdg 3, cx 0 3]

/-- circuit_library.py:69-91 `maslov_qc`. -/
def maslovQc : List (AGate Nat) :=
  reducedMaslov ++ [tG 3, cx 1 3, tdg 3, .h 3, tG 3, cx 2 3, tdg 3, .h 3]

/-- circuit_library.py:95-105 `gidney_qc`. -/
def gidneyQc : List (AGate Nat) :=
  [.h 2, tG 2, cx 0 2, cx 1 2, cx 2 0, cx 2 1, tdg 0, tdg 1, tG 2, cx 2 0, cx 2 1, .h 2, sG 2]

/-- circuit_library.py:107-112 `gidney_qc_inv` with measurement outcome `b`. -/
def gidneyQcInv (b : Bool) : List (AGate Nat) := [.h 2, .proj 2 b] ++ if b then [cz 0 1, .mcx [] 2] else []

/-- circuit_library.py:115-130 `amy_toffoli_qc`. -/
def amyQc : List (AGate Nat) :=
  [.h 2, tG 0, tG 1, tG 2, cx 1 0, cx 2 1, cx 0 2, cx 0 3, cx 1 3, tdg 0, tdg 1, tdg 3, tG 2, cx 1 3, cx 0 3, cx 0 2,
   cx 2 1, cx 1 0, .h 2]

/-- circuit_library.py:133-143 `selinger_toffoli_qc`. -/
def selingerQc : List (AGate Nat) :=
  [.h 2, cx 0 3, cx 2 0, cx 2 1, cx 1 3, tG 0, tG 1, tdg 2, tdg 3, cx 1 3, cx 2 0, cx 2 1, cx 0 3, .h 2]

/-- circuit_library.py:146-153 `jones_toffoli_qc` with measurement outcome `b`. -/
def jonesQc (b : Bool) : List (AGate Nat) :=
  selingerQc.map (AGate.map fun i => [0, 1, 3, 4].getD i 0) ++ [sG 3, cx 3 2, .h 3, .proj 3 b] ++
  (if b then [.mcx [] 3, cz 0 1] else [])

/-- khattar.py:60-103 `gidney_CCCX` with measurement outcome `b`: controls 0, 1, 2, target 3, ancilla 4. -/
def cccxQc (b : Bool) : List (AGate Nat) :=
  [.h 3, .h 4, tG 4, cx 1 4, tdg 4, cx 0 4, tG 4, cx 1 4, cx 2 4, tdg 4, cx 3 4, tG 4, cx 2 4, tdg 4, cx 3 4, .sxdg 4,
   .proj 4 b] ++ (if b then [cz 2 3] else []) ++ [cz 2 3] ++ (if b then [cz 0 1, .mcx [] 4] else []) ++ [.h 3]

/-! ### Checks -/

/-- Value of local qubit `i`. -/
abbrev at' (l : List Bool) (i : Nat) : Bool := l.getD i false

def ccx (l : List Bool) : List Bool := l.set 2 (at' l 2 ^^ (at' l 0 && at' l 1))

theorem toffoli_checks : checks toffoliQc 3 (fun _ => true) (fun l => ([0, 0], ccx l)) = true := by decide +kernel

theorem margolus_checks : checks margolusQc 3 (fun _ => true)
    (fun l => (if at' l 0 && !at' l 1 && at' l 2 then [4, 4] else [0, 0], ccx l)) = true := by decide +kernel

/-- Phase of the Maslov gate at an output state. -/
def maslovK (x0 x1 x2 t : Bool) : Nat :=
  if x0 && x1 then (if x2 then (if t then 4 else 0) else (if t then 6 else 2)) else 0

theorem maslov_checks : checks maslovQc 4 (fun _ => true) (fun l =>
    (List.replicate 4 (maslovK (at' l 0) (at' l 1) (at' l 2) (at' l 3)),
      l.set 3 (at' l 3 ^^ (at' l 0 && at' l 1 && at' l 2)))) = true := by decide +kernel

theorem gidney_checks : checks gidneyQc 3 (fun l => !at' l 2) (fun l => ([0, 0], ccx l)) = true := by decide +kernel

theorem gidneyInv_checks : ∀ b, checks (gidneyQcInv b) 3 (fun l => at' l 2 == (at' l 0 && at' l 1))
    (fun l => ([0], ccx l)) = true := by decide +kernel

theorem amy_checks : checks amyQc 4 (fun l => !at' l 3) (fun l => ([0, 0], ccx l)) = true := by decide +kernel

theorem jones_checks : ∀ b, checks (jonesQc b) 5 (fun l => !at' l 3 && !at' l 4)
    (fun l => (if at' l 0 && at' l 1 then [4, 4] else [0, 0], ccx l)) = true := by decide +kernel

theorem cccx_checks : ∀ b, checks (cccxQc b) 5 (fun l => !at' l 4)
    (fun l => ([0, 0, 2, 2], l.set 3 (at' l 3 ^^ (at' l 0 && at' l 1 && at' l 2)))) = true := by decide +kernel

/-! ### From the checks to states -/

variable {Q : Type} [DecidableEq Q] {R : Type} [CommRing R]

def vals (q : Nat → Q) (n : Nat) (s : St Q) : List Bool := (List.range n).map fun i => s (q i)

theorem vals_put {q : Nat → Q} {n : Nat} (hq : ∀ i j, i < n → j < n → q i = q j → i = j) (s : St Q) {l : List Bool}
    (hl : l.length = n) : vals q n (put q s l) = l := by
  unfold vals
  refine List.ext_getElem (by simp [hl]) fun i h1 h2 => ?_
  have hi : i < n := by simpa using h1
  rw [List.getElem_map, List.getElem_range, put_at hq s hl hi]
  simp [List.getD, h2]

theorem run_local (e : Root8 R) {q : Nat → Q} {n : Nat} (hq : ∀ i j, i < n → j < n → q i = q j → i = j)
    {gs : List (AGate Nat)} {dom : List Bool → Bool} {ks : List Bool → List Nat} {i : Nat} {v : List Bool → Bool}
    (hc : checks gs n dom (fun l => (ks l, l.set i (v l))) = true) (hi : i < n) (ψ : St Q → R)
    (hψ : ∀ s, dom (vals q n s) = false → ψ s = 0) (s : St Q) :
    run e (gs.map (AGate.map q)) ψ s =
      e.r ^ scales gs * (((ks (vals q n s)).map fun k => e.w ^ k).sum * ψ (upd s (q i) (v (vals q n s)))) := by
  have hl : (vals q n s).length = n := by simp [vals]
  have h := run_of_checks e hq hc ψ (fun s l hl hd => hψ _ (by rw [vals_put hq s hl]; exact hd)) s hl
    (by simp [vals])
  have hs : put q s (vals q n s) = s := put_self hq s
  rw [hs] at h
  rw [h]
  simp only
  rw [← upd_put hq s hl hi, hs]

end Verif.Mcx
