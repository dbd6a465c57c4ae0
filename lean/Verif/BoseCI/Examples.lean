import Verif.BoseCI.Findings
import Verif.BoseCI.Exist

/-!
# A case that meets the hypotheses (C106)

The Hubbard–Holstein dimer with one electron of each spin: `H1` and `hijkl` as in `systems/hubbard_holstein.py`.
-/

namespace Verif.BoseCI

open Filter

/-- Two sites with hopping `t` and repulsion `U`. -/
def dimer (t U : ℝ) : CI.System ℝ where
  nbasis := 2
  nup := 1
  ndown := 1
  ecore := 0
  H1 := fun p q => if p = q then 0 else -t
  hijkl := fun p q r s => if p = q ∧ p = r ∧ p = s then U else 0

theorem dimer_sym (t U : ℝ) : Sym (dimer t U) where
  exch := fun p q r s => by
    simp only [dimer]
    exact if_congr ⟨by rintro ⟨rfl, rfl, rfl⟩; simp, by rintro ⟨rfl, rfl, rfl⟩; simp⟩ rfl rfl
  bra := fun p q r s => by
    simp only [dimer]
    exact if_congr ⟨by rintro ⟨rfl, rfl, rfl⟩; simp, by rintro ⟨rfl, rfl, rfl⟩; simp⟩ rfl rfl
  one := fun p q => by
    simp only [dimer]
    exact if_congr eq_comm rfl rfl

theorem dimer_dets (t U : ℝ) : dsOf (dimer t U) none = [[0, 2], [0, 3], [1, 2], [1, 3]] := by
  rw [ds_default]
  rfl

/-- For the dimer every cutoff gives energies, and they tend to the ground state energy. -/
theorem dimer_converges (t U : ℝ) (ph : Ph) (hw : 0 < ph.w0) : ∃ eigsh : Solver, Solves eigsh ∧
    ∃ out : ℕ → (Fin 3 → ℝ) × (Fin 3 → List ℝ), (∀ N, run eigsh (dimer t U) ph N none = some (out N)) ∧
      Antitone (fun N => (out N).1 0) ∧
      Tendsto (fun N => (out N).1 0) atTop (nhds (sInf (energies (dimer t U) ph (dsOf (dimer t U) none)))) := by
  obtain ⟨eigsh, hE⟩ := exists_solver
  have hnb : 0 < (dimer t U).nbasis := by norm_num [dimer]
  have hrun : ∀ N, ∃ out, run eigsh (dimer t U) ph N none = some out := by
    intro N
    rw [← Option.isSome_iff_exists, Option.isSome_iff_ne_none, Ne, returns hE hnb, dimer_dets]
    have := np_ge hnb N
    simp only [grp, List.length_cons, List.length_nil] at this ⊢
    omega
  choose out ho using hrun
  refine ⟨eigsh, hE, out, ho, fun N M hNM => ?_, ?_⟩
  · exact monotone hE hnb (dimer_sym t U) (dets_default _) hNM (ho N) (ho M) 0
  · exact (converges hE hnb (dimer_sym t U) (dets_default _) (by rw [dimer_dets]; simp) hw out fun N _ => ho N).2

end Verif.BoseCI
