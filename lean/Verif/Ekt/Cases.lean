import Verif.Ekt.Code

/-!
# Cases: density matrices of the two spins that differ
-/

namespace Verif.Ekt

open Matrix
open Verif.Energy (dot2 ovl)

theorem gab_none {n : Nat} (A B : Matrix (Fin n) (Fin 0) ℂ) : Slater.gab A B = 0 := by
  ext i j
  simp [Slater.gab, Matrix.mul_apply]

/-- One electron of the second spin in the only orbital: the matrix for its removal has an interaction of the electron with itself. -/
theorem fock1hOpt_wrong : ∃ (L : Fin 1 → Matrix (Fin 1) (Fin 1) ℂ) (A : Matrix (Fin 1) (Fin 0) ℂ) (A' : Matrix (Fin 1) (Fin 1) ℂ),
    ovl A A ≠ 0 ∧ ovl A' A' ≠ 0 ∧ fock1hOpt 0 L (Slater.gab A A)ᵀ (Slater.gab A' A')ᵀ 0 0 = -1 ∧
      (hole 0 (fun i k j l => ∑ x, L x k i * L x j l) (dets A A') (dets A A') +
        hole 0 (fun i k j l => ∑ x, L x k i * L x j l) (dets A' A) (dets A' A)) 0 0 = 0 := by
  have hg : Slater.gab (1 : Matrix (Fin 1) (Fin 1) ℂ) 1 = 1 := by simp [Slater.gab]
  have h0 : ovl (0 : Matrix (Fin 1) (Fin 0) ℂ) 0 ≠ 0 := by simp [ovl]
  have h1 : ovl (1 : Matrix (Fin 1) (Fin 1) ℂ) 1 ≠ 0 := by simp [ovl]
  have hf : fock1hOpt 0 (fun _ : Fin 1 => (1 : Matrix (Fin 1) (Fin 1) ℂ)) (Slater.gab (0 : Matrix (Fin 1) (Fin 0) ℂ) 0)ᵀ
      (Slater.gab (1 : Matrix (Fin 1) (Fin 1) ℂ) 1)ᵀ 0 0 = -1 := by
    rw [gab_none, hg]
    simp [fock1hOpt, contract, dot2]
  refine ⟨fun _ => 1, 0, 1, h0, h1, hf, ?_⟩
  have hd := fock1hOpt_diff 0 (fun _ : Fin 1 => (1 : Matrix (Fin 1) (Fin 1) ℂ)) (by
    intro i k j l
    simp [Matrix.one_apply, Subsingleton.elim i 0, Subsingleton.elim j 0, Subsingleton.elim k 0, Subsingleton.elim l 0])
    (0 : Matrix (Fin 1) (Fin 0) ℂ) 0 (1 : Matrix (Fin 1) (Fin 1) ℂ) 1 h0 h1
  have hd' := congrFun (congrFun hd 0) 0
  rw [hf, Matrix.add_apply] at hd'
  have he : (∑ _x : Fin 1, ((dot2 (1 : Matrix (Fin 1) (Fin 1) ℂ) (Slater.gab (0 : Matrix (Fin 1) (Fin 0) ℂ) 0)ᵀ) •
      ((Slater.gab (1 : Matrix (Fin 1) (Fin 1) ℂ) 1)ᵀ * (1 : Matrix (Fin 1) (Fin 1) ℂ)) -
      (dot2 (1 : Matrix (Fin 1) (Fin 1) ℂ) (Slater.gab (1 : Matrix (Fin 1) (Fin 1) ℂ) 1)ᵀ) •
      ((Slater.gab (0 : Matrix (Fin 1) (Fin 0) ℂ) 0)ᵀ * (1 : Matrix (Fin 1) (Fin 1) ℂ)) +
      ((Slater.gab (0 : Matrix (Fin 1) (Fin 0) ℂ) 0)ᵀ - (Slater.gab (1 : Matrix (Fin 1) (Fin 1) ℂ) 1)ᵀ) *
      (1 : Matrix (Fin 1) (Fin 1) ℂ)ᵀ * (Slater.gab (1 : Matrix (Fin 1) (Fin 1) ℂ) 1)ᵀ * (1 : Matrix (Fin 1) (Fin 1) ℂ))) 0 0 = -1 := by
    rw [gab_none, hg]
    simp [dot2]
  rw [he] at hd'
  linear_combination -hd'

/-- An electron in the first orbital. -/
def first : Matrix (Fin 2) (Fin 1) ℂ := !![1; 0]

/-- An electron in the last orbital. -/
def last : Matrix (Fin 2) (Fin 1) ℂ := !![0; 1]

theorem gab_first : Slater.gab first first = !![1, 0; 0, 0] := by
  have : firstᴴ * first = 1 := by
    ext i j
    rw [Subsingleton.elim i j]
    simp [first, Matrix.mul_apply, Fin.sum_univ_succ]
  rw [Slater.gab, this, inv_one, Matrix.one_mul]
  ext i j
  fin_cases i <;> fin_cases j <;> simp [first, Matrix.mul_apply]

theorem gab_last : Slater.gab last last = !![0, 0; 0, 1] := by
  have : lastᴴ * last = 1 := by
    ext i j
    rw [Subsingleton.elim i j]
    simp [last, Matrix.mul_apply, Fin.sum_univ_succ]
  rw [Slater.gab, this, inv_one, Matrix.one_mul]
  ext i j
  fin_cases i <;> fin_cases j <;> simp [last, Matrix.mul_apply]

/-- One electron of each spin in different orbitals: the matrix for adding an electron differs. -/
theorem fock1pOpt_wrong : ∃ (L : Fin 1 → Matrix (Fin 2) (Fin 2) ℂ) (A A' : Matrix (Fin 2) (Fin 1) ℂ),
    ovl A A ≠ 0 ∧ ovl A' A' ≠ 0 ∧ fock1pOpt 0 L (Slater.gab A A)ᵀ (Slater.gab A' A')ᵀ ≠
      particle 0 (fun i k j l => ∑ x, L x k i * L x j l) (dets A A') (dets A A') +
        particle 0 (fun i k j l => ∑ x, L x k i * L x j l) (dets A' A) (dets A' A) := by
  have h0 : ovl first first ≠ 0 := by simp [ovl, first, last, Matrix.mul_apply, Fin.sum_univ_succ]
  have h1 : ovl last last ≠ 0 := by simp [ovl, first, last, Matrix.mul_apply, Fin.sum_univ_succ]
  refine ⟨fun _ => !![1, 1; 1, 1], first, last, h0, h1, ?_⟩
  have hd := fock1pOpt_diff 0 (fun _ : Fin 1 => (!![1, 1; 1, 1] : Matrix (Fin 2) (Fin 2) ℂ)) (by
    intro i k j l
    fin_cases i <;> fin_cases j <;> fin_cases k <;> fin_cases l <;> simp) _ _ _ _ h0 h1
  rw [hd]
  intro h
  have h2 := congrFun (congrFun (left_eq_add.1 h.symm) 0) 0
  rw [gab_first, gab_last] at h2
  simp [dot2, Fin.sum_univ_succ, Matrix.mul_apply, Matrix.vecMul] at h2

/-- The hypotheses of `fockOpt_eq_partial` hold for vectors that are not symmetric: two momentum transfers of opposite sign. -/
theorem opt_case : ∃ (L : Fin 2 → Matrix (Fin 2) (Fin 2) ℂ) (A : Matrix (Fin 2) (Fin 1) ℂ),
    (∀ i k j l, ∑ x, L x k i * L x j l = ∑ x, L x l j * L x i k) ∧ L 0 ≠ (L 0)ᵀ ∧ ovl A A ≠ 0 ∧
      fock1hOpt 0 L (Slater.gab A A)ᵀ (Slater.gab A A)ᵀ ≠ 0 := by
  refine ⟨![!![1, 1; 0, 0], !![1, 0; 1, 0]], first, ?_, ?_, ?_, ?_⟩
  · intro i k j l
    fin_cases i <;> fin_cases j <;> fin_cases k <;> fin_cases l <;> simp [Fin.sum_univ_succ]
  · intro h
    have := congrFun (congrFun h 0) 1
    simp at this
  · simp [ovl, first, last, Matrix.mul_apply, Fin.sum_univ_succ]
  · intro h
    have := congrFun (congrFun h 0) 0
    rw [gab_first] at this
    simp [fock1hOpt, contract, dot2, Fin.sum_univ_succ, Matrix.mul_apply, Matrix.vecMul] at this

/-- One electron of the first spin: the matrix for its removal from `gen_fock_1h` is that of a free electron, although the integral of its
orbital with itself is one. -/
theorem gen_case : genFock1h (1 : Matrix (Fin 2) (Fin 2) ℂ) (fun _ : Fin 1 => 1) (Slater.gab first first)ᵀ
    (Slater.gab (0 : Matrix (Fin 2) (Fin 0) ℂ) 0)ᵀ = (!![-1, 0; 0, 0], 0) := by
  rw [gab_first, gab_none]
  refine Prod.ext ?_ ?_
  · ext i j
    fin_cases i <;> fin_cases j <;> simp [genFock1h, contract, dot2, Fin.sum_univ_succ, Matrix.one_apply]
  · ext i j
    simp [genFock1h]

end Verif.Ekt
