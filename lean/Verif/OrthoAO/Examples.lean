import Verif.OrthoAO.Props
import Verif.AoChol.Outcore

/-!
# Two overlapping orbitals (C90)
-/

namespace Verif.OrthoAO

open Matrix Finset AoChol

def exSh : List Shell := [⟨0, 2⟩]

def exS : Matrix (Fin (nao exSh)) (Fin (nao exSh)) ℝ := (!![1, 1; 1, 2] : Matrix (Fin 2) (Fin 2) ℝ)

def exX : Matrix (Fin (nao exSh)) (Fin (nao exSh)) ℝ := (!![1, -1; 0, 1] : Matrix (Fin 2) (Fin 2) ℝ)

theorem ex_ortho : exXᵀ * exS * exX = 1 := by
  have h : (!![1, -1; 0, 1] : Matrix (Fin 2) (Fin 2) ℝ)ᵀ * (!![1, 1; 1, 2] : Matrix (Fin 2) (Fin 2) ℝ) *
      (!![1, -1; 0, 1] : Matrix (Fin 2) (Fin 2) ℝ) = (1 : Matrix (Fin 2) (Fin 2) ℝ) := by
    ext i j
    fin_cases i <;> fin_cases j <;> norm_num [Matrix.mul_apply, Fin.sum_univ_two]
  exact h

open scoped ComplexOrder in
theorem ex_psd : (cpairs (nao exSh) exEri).PosSemidef := by
  have : cpairs (nao exSh) exEri = 1 := by
    ext p q
    rw [cpairs, Matrix.map_apply, pairs, Matrix.of_apply, exEri, Matrix.one_apply]
    by_cases h : p = q
    · subst h; simp
    · rw [if_neg h, if_neg]
      · simp
      · rintro ⟨h1, h2⟩
        refine h (Fin.ext ?_)
        rw [← Nat.div_add_mod (p : Nat) (nao exSh), h1, h2, Nat.div_add_mod]
  rw [this]
  exact Matrix.PosSemidef.one

open scoped ComplexOrder in
/-- The hypotheses of `dump_energy_partial` are met by two overlapping orbitals, with one electron of each spin in different
orbitals. -/
example : ∃ (amax : (Fin (nao exSh * nao exSh) → ℝ) → Fin (nao exSh * nao exSh)) (vs : List (Fin (nao exSh * nao exSh) → ℝ))
    (U D : Matrix (Fin (nao exSh)) (Fin 1) ℂ), (∀ (x : Fin (nao exSh * nao exSh) → ℝ) i, x i ≤ x (amax x)) ∧
    chunked exSh exEri amax (1 / 10) 10 = some vs ∧ (cpairs (nao exSh) exEri).PosSemidef ∧ exXᵀ * exS * exX = 1 ∧
    (∀ s, ((Coeff.uhf exX (-exX)).spin s)ᵀ * exS * (Coeff.uhf exX (-exX)).spin s = 1) ∧
    wfnMol exX (na := 1) (nb := 1) (by decide) (by decide) (.uhf exX (-exX)) = some (U, D) := by
  obtain ⟨amax, ham⟩ := Chol.exists_argmax (n := nao exSh * nao exSh) (by decide)
  have hs : ∀ s ∈ exSh, 0 < s.nctr := by decide
  obtain ⟨vs, h1, h2⟩ := chunked_exists (tol := 1 / 10) ham hs ex_psd (by norm_num)
  have hl : vs.length < 10 := lt_of_le_of_lt h1 (by decide)
  refine ⟨amax, vs, _, _, ham, (h2 10).trans (if_pos hl), ex_psd, ex_ortho, fun s => ?_,
    wfn_ok exX (by decide) (by decide) _ (Or.inl ⟨_, _, rfl⟩)⟩
  fin_cases s
  · exact ex_ortho
  · show (-exX)ᵀ * exS * -exX = 1
    rw [Matrix.transpose_neg, Matrix.neg_mul, Matrix.neg_mul, Matrix.mul_neg, neg_neg, ex_ortho]

/-- Orthonormal eigenvectors of the overlap matrix of two equal orbitals. -/
example : Eigh (!![1, 1 / 2; 1 / 2, 1] : Matrix (Fin 2) (Fin 2) ℝ) ![1 / 2, 3 / 2]
    !![1 / √2, 1 / √2; -1 / √2, 1 / √2] := by
  have h : √2 * √2 = 2 := Real.mul_self_sqrt (by norm_num)
  have h0 : √2 ≠ 0 := by positivity
  constructor
  · ext i j
    fin_cases i <;> fin_cases j <;> simp [Matrix.mul_apply, Fin.sum_univ_two] <;> field_simp <;> nlinarith [h]
  · ext i j
    fin_cases i <;> fin_cases j <;> simp [Matrix.mul_apply, Fin.sum_univ_two, Matrix.diagonal] <;> field_simp <;> norm_num

end Verif.OrthoAO
