import Verif.LangFirsov.Momentum

/-!
# Cases for C98
-/

namespace Verif.LangFirsov

open Matrix
open Verif.Holstein
open Verif.Energy (ovl)

/-- Two sites, one electron of each spin, attraction and coupling. -/
noncomputable def dimer : Sys 2 := ⟨fun _ => !![0, -1; -1, 0], 4, 1 / 2, 1, 1, false⟩

/-- One electron spread over both sites, one on the first. -/
def pair : Det 2 1 1 := ⟨!![1; 1], !![1; 0]⟩

theorem pair_up : ovl pair.up pair.up ≠ 0 := by
  simp [ovl, pair, Matrix.det_unique, Matrix.mul_apply, Fin.sum_univ_two, Matrix.conjTranspose_apply]

theorem pair_dn : ovl pair.dn pair.dn ≠ 0 := by
  simp [ovl, pair, Matrix.det_unique, Matrix.mul_apply, Fin.sum_univ_two, Matrix.conjTranspose_apply]

theorem dimer_symm (σ : Fin 2) : (dimer.T σ)ᵀ = dimer.T σ := by
  ext i j
  fin_cases i <;> fin_cases j <;> simp [dimer]

theorem dimer_diag (σ i : Fin 2) : dimer.T σ i i = 0 := by fin_cases i <;> simp [dimer]

/-- The two energies of the trial for the dimer, at displacements one and two. -/
example : objective dimer (greens pair pair) ![1, 2] = expect dimer pair ![1, 2] (fun _ => 0) ∧
    reported dimer (trialG pair) ![1, 2] ![3, -1] = expect dimer pair ![1, 2] ![3, -1] :=
  ⟨objective_eq_partial dimer (by norm_num [dimer]) (by norm_num [dimer]) dimer_symm pair pair_up pair_dn _ fun σ i => Or.inl (dimer_diag σ i),
    reported_eq_partial dimer (by norm_num [dimer]) (by norm_num [dimer]) (by norm_num [dimer]) pair pair_up pair_dn _ _
      fun σ i => Or.inl (dimer_diag σ i)⟩

/-- The energy of a walker with momenta exists for the dimer and is the mixed estimate. -/
example (P : Fin 2 → ℝ) : ∃ e, momentumEnergy dimer (gammaLF dimer) (fun σ => (greens pair pair σ)ᵀ) P
      ((⟨dimer.m, dimer.w, ![1, 0]⟩ : Osc 2).laplacianP P) = some e ∧
    e = inner (trialWave dimer pair ![1, 0]) (transformed dimer (gammaLF dimer) (planeWave pair P)) /
      inner (trialWave dimer pair ![1, 0]) (planeWave pair P) - 1 / 2 * dimer.w * (2 : ℕ) := by
  obtain ⟨e, he⟩ := Option.ne_none_iff_exists'.mp ((momentum_asserts dimer (by norm_num [dimer]) (by norm_num [dimer])
    (fun σ => (greens pair pair σ)ᵀ) P ((⟨dimer.m, dimer.w, ![1, 0]⟩ : Osc 2).laplacianP P)).mpr (Or.inr (by norm_num [dimer])))
  exact ⟨e, he, (momentum_eq_partial dimer (by norm_num [dimer]) (by norm_num [dimer]) (by norm_num [dimer]) _ pair pair pair_up pair_dn
    _ _ _ he).2⟩

end Verif.LangFirsov
