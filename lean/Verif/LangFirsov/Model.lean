import Verif.Holstein.Coherent
import Verif.LangFirsov.Tuples

/-!
# The Lang-Firsov trial

Model of the energies of `pauxy/trial_wavefunction/lang_firsov.py`, of the local energy in momenta
(`local_energy_hubbard_holstein_momentum`, `pauxy/estimators/hubbard.py` 2-49) and of the constants of `HubbardHolstein`
(`pauxy/systems/hubbard_holstein.py` 106-112).  The minimisation is left out; the energies are functions of the orbitals and of `gamma`.
-/

namespace Verif.LangFirsov

open Matrix MeasureTheory
open Verif.Holstein (Sys Det greens gprod phonon)
open Verif.Energy (dot2)

variable {n na nb : Nat}

/-- `gamma` of the system and of the trial, hubbard_holstein.py 109, lang_firsov.py 105 and 234. -/
noncomputable def gammaLF (y : Sys n) : ℝ := y.g * Real.sqrt (2 / (y.m * y.w ^ 3))

/-- `const_mat * T`, lang_firsov.py 113-118 and 553-557. -/
noncomputable def dressed (y : Sys n) (γ : Fin n → ℝ) (σ : Fin 2) : Matrix (Fin n) (Fin n) ℂ :=
  let alpha := fun i => γ i * Real.sqrt (y.m * y.w / 2)
  let const := fun i => Real.exp (-alpha i ^ 2 / 2)
  Matrix.of fun i j => ((const i * const j : ℝ) : ℂ) * y.T σ i j

/-- `objective_function` as a function of the Green's functions and `gamma`, lang_firsov.py 92-121, before the real part is taken;
`phi` is zero. -/
noncomputable def objective (y : Sys n) (G : Fin 2 → Matrix (Fin n) (Fin n) ℂ) (γ : Fin n → ℝ) : ℂ :=
  let r := Real.sqrt (y.m * y.w * 2)
  let Eeph := ∑ i, ((γ i ^ 2 * y.m * y.w ^ 2 / 2 - y.g * γ i * r : ℝ) : ℂ) * (G 0 i i + G 1 i i)
  let Eee := ∑ i, ((y.U + γ i ^ 2 * y.m * y.w ^ 2 - 2 * y.g * γ i * r : ℝ) : ℂ) * G 0 i i * G 1 i i
  let Ekin := dot2 (dressed y γ 0) (G 0) + dot2 (dressed y γ 1) (G 1)
  Eeph + Eee + Ekin

/-- `calculate_energy`, lang_firsov.py 533-562; `G` is the transposed Green's function (lines 332-340). -/
noncomputable def reported (y : Sys n) (G : Fin 2 → Matrix (Fin n) (Fin n) ℂ) (γ shift : Fin n → ℝ) : ℂ :=
  let r := Real.sqrt (y.m * y.w * 2)
  let phi := fun i => shift i * Real.sqrt (y.m * y.w / 2)
  let Eph := ((y.w * ∑ i, phi i * phi i : ℝ) : ℂ)
  let Eeph := ∑ i, (((γ i * y.w - y.g * r) * 2 * phi i / r : ℝ) : ℂ) * (G 0 i i + G 1 i i) +
    ∑ i, ((γ i ^ 2 * y.w / 2 - y.g * γ i * r : ℝ) : ℂ) * (G 0 i i + G 1 i i)
  let Eee := ∑ i, ((y.U + γ i ^ 2 * y.w - 2 * y.g * γ i * r : ℝ) : ℂ) * G 0 i i * G 1 i i
  let Ekin := dot2 (dressed y γ 0) (G 0) + dot2 (dressed y γ 1) (G 1)
  Eph + Eeph + Eee + Ekin

/-- The Green's functions kept by the trial, lang_firsov.py 332-340. -/
noncomputable def trialG (d : Det n na nb) (σ : Fin 2) : Matrix (Fin n) (Fin n) ℂ := (greens d d σ)ᵀ

/-! ## Specification -/

/-- Wavefunctions of electrons on sites and phonon coordinates. -/
abbrev Wave (n na nb : Nat) := (Fin na → Fin n) → (Fin nb → Fin n) → (Fin n → ℝ) → ℂ

/-- The Hubbard-Holstein Hamiltonian. -/
noncomputable def ham (y : Sys n) (Ψ : Wave n na nb) : Wave n na nb := fun x z X =>
  hop (y.T 0) (fun x' => Ψ x' z X) x + hop (y.T 1) (fun z' => Ψ x z' X) z + y.U * (∑ i, (occ x i : ℂ) * occ z i) * Ψ x z X +
    phonon y.m y.w (Ψ x z) X - y.g * (Real.sqrt (2 * y.m * y.w) : ℂ) * (∑ i, (X i : ℂ) * (occ x i + occ z i)) * Ψ x z X

/-- Scalar product. -/
noncomputable def inner (Φ Ψ : Wave n na nb) : ℂ := ∑ x, ∑ z, ∫ X, star (Φ x z X) * Ψ x z X

/-- The trial: a determinant whose phonons at a site are displaced by `shift`, and by `γ` for every electron there. -/
noncomputable def lfWave (y : Sys n) (d : Det n na nb) (γ shift : Fin n → ℝ) : Wave n na nb := fun x z X =>
  amp d.up x * amp d.dn z * (gprod (y.m * y.w / 2) (fun i => shift i + γ i * ((occ x i : ℝ) + occ z i)) X : ℂ)

end Verif.LangFirsov
