import Verif.Ctl.Lcu

/-!
Property C90: linear combinations of unitaries.
-/

namespace Verif.Props

open Verif.Ctl

variable {V : Type} [AddCommGroup V] [Module ℂ V]

/-- `inner_LCU` with at least two unitaries: the operand belonging to the case 0 (the one kept by `LCU`) is the combination of the
unitaries weighted with the squared amplitudes of the prepared state; prepared cases beyond the last unitary act as the identity. -/
theorem C90_lcu {m : ℕ} (hm : 2 ≤ m) (P : Matrix (Fin (2 ^ Nat.clog 2 m)) (Fin (2 ^ Nat.clog 2 m)) ℂ) (F : ℕ → V →ₗ[ℂ] V) (v : V) :
    ∃ Ψ, innerLcu m P (fun i => F i) v = some Ψ ∧
      Ψ 0 = ∑ i, ((‖P i 0‖ : ℂ) ^ 2) • (if (i : ℕ) < m then F i v else v) := by
  refine ⟨_, innerLcu_eq hm P F v, ?_⟩
  refine Finset.sum_congr rfl fun i _ => ?_
  congr 1
  rw [Complex.star_def, Complex.conj_mul']

/-- The case of a preparation without idle cases: exactly `Σ |aᵢ|² Uᵢ`. -/
theorem C90_lcu_exact {m : ℕ} (hm : 2 ≤ m) (P : Matrix (Fin (2 ^ Nat.clog 2 m)) (Fin (2 ^ Nat.clog 2 m)) ℂ) (F : ℕ → V →ₗ[ℂ] V)
    (v : V) (hP : ∀ i : Fin (2 ^ Nat.clog 2 m), m ≤ (i : ℕ) → P i 0 = 0) :
    ∃ Ψ, innerLcu m P (fun i => F i) v = some Ψ ∧ Ψ 0 = ∑ i, ((‖P i 0‖ : ℂ) ^ 2) • F i v := by
  obtain ⟨Ψ, h1, h2⟩ := C90_lcu hm P F v
  refine ⟨Ψ, h1, h2.trans (Finset.sum_congr rfl fun i _ => ?_)⟩
  split_ifs with h
  · rfl
  · rw [hP i (by omega)]; simp

/-- With a single unitary the index has no qubits and the switch raises. -/
theorem C90_one_unitary_raises (P : Matrix (Fin (2 ^ Nat.clog 2 1)) (Fin (2 ^ Nat.clog 2 1)) ℂ) (F : ℕ → V → V) (v : V) :
    innerLcu 1 P F v = none := by
  unfold innerLcu
  simp only
  rw [if_neg]
  intro h
  have := h 0
  simp [select] at this

/-- Two scalings, by 2 and by 4, prepared with amplitudes 3/5 and 4/5: the factor is 9/25 * 2 + 16/25 * 4 = 82/25. -/
example : ∃ Ψ, innerLcu (V := ℂ) 2 (fun i j => if i = j then 3 / 5 else if (i : ℕ) = 1 then 4 / 5 else -4 / 5)
    (fun i => ((2 * (i + 1) : ℂ) • LinearMap.id : ℂ →ₗ[ℂ] ℂ)) 1 = some Ψ ∧ Ψ 0 = 82 / 25 := by
  obtain ⟨Ψ, h1, h2⟩ := C90_lcu (V := ℂ) (m := 2) le_rfl
    (fun i j => if i = j then 3 / 5 else if (i : ℕ) = 1 then 4 / 5 else -4 / 5)
    (fun i => ((2 * (i + 1) : ℂ) • LinearMap.id : ℂ →ₗ[ℂ] ℂ)) 1
  refine ⟨Ψ, h1, h2.trans ?_⟩
  have hc : Nat.clog 2 2 = 1 := by decide +kernel
  have hs : ∀ (n : ℕ) (h : n = 1) (f : Fin (2 ^ n) → ℂ), ∑ i, f i = f ⟨0, by subst h; norm_num⟩ + f ⟨1, by subst h; norm_num⟩ := by
    intro n h f; subst h; simp [Fin.sum_univ_two]
  rw [hs _ hc]
  have h0 : ((0 : Fin (2 ^ Nat.clog 2 2)) : ℕ) = 0 := rfl
  simp only [Fin.ext_iff, h0]
  norm_num

end Verif.Props
