import Verif.Uhf.Model
import Verif.Step.Model
import Verif.Slater.HirschModel

/-!
# The spin-projected initial walker

Model of the option `spin_proj` of `get_trial_wavefunction` (`pauxy/trial_wavefunction/utils.py` 123-144) and of
`gab_spin` (`pauxy/estimators/greens_function.py` 75-79).  `numpy.linalg.eigh` is a parameter with the contract
`Uhf.Eigh` and `numpy.argsort` a permutation that sorts.  Only the determinant `trial.psi[0]` is read.
-/

namespace Verif.SpinProj

open Matrix

variable {nx nb nu nd : Nat}

/-- `gab_spin`, greens_function.py 75-79: the two Green's functions; with no down electrons `GB` is not bound
and the function raises. -/
noncomputable def gabSpin (A B : Slater.Wfn nb nu nd) :
    Option (Matrix (Fin nb) (Fin nb) ℂ × Matrix (Fin nb) (Fin nb) ℂ) :=
  if 0 < nd then
    some ((Slater.gabMod (Slater.up A) (Slater.up B)).1, (Slater.gabMod (Slater.dn A) (Slater.dn B)).1)
  else none

/-- `numpy.argsort(eigs)[::-1]` (utils.py 137): a permutation that puts the numbers in descending order. -/
def Descending (sort : (Fin nb → ℝ) → Equiv.Perm (Fin nb)) : Prop := ∀ e, Antitone (e ∘ sort e)

/-- `trial.init` with the option `spin_proj`, utils.py 127-144: `free` stands for
`init_walker == 'free_electron'`, `h1` for `system.H1[0]` and `psi` for `trial.psi[0]`. -/
noncomputable def spinInit (hu : nu ≤ nb) (hd : nd ≤ nb) (eigh : Uhf.Eig nb)
    (sort : (Fin nb → ℝ) → Equiv.Perm (Fin nb)) (free : Bool) (h1 : Matrix (Fin nb) (Fin nb) ℂ)
    (psi : Slater.Wfn nb nu nd) : Option (Slater.Wfn nb nu nd) :=
  if free then some (Slater.join (Uhf.cols hu (eigh h1).2) (Uhf.cols hd (eigh h1).2))
  else (gabSpin psi psi).map fun rdm =>
    let e := eigh (rdm.1 + rdm.2)
    let V := e.2.submatrix id (sort e.1)
    Slater.join (Uhf.cols hu V) (Uhf.cols hd V)

/-- What is done to a walker in a run with a continuous propagator: free or phaseless steps with any fields,
force bias and local energy; reorthogonalisation of independent orbitals; anything that does not touch the
orbitals (weights, phases, population control). -/
inductive Act (qr : Slater.QR nb) (n : Nat) (dt : ℝ) (t : Step.Tables nx nb) (psi : Slater.Wfn nb nu nd) :
    Slater.Wk nb nu nd → Slater.Wk nb nu nd → Prop
  | free (eshift : ℂ) (xi : Fin nx → ℝ) (w) : Act qr n dt t psi w (Step.propagateFree n dt t psi eshift xi w)
  | phaseless (fb : Slater.GF nb nu nd → Fin nx → ℂ) (eloc : Slater.GF nb nu nd → ℂ) (xi : Fin nx → ℝ) (w) :
      Act qr n dt t psi w (Step.phaseless n dt t fb eloc psi xi w).2
  | ortho (free : Bool) (w) (hu : Slater.FullRank (Slater.up w.phi)) (hd : Slater.FullRank (Slater.dn w.phi)) :
      Act qr n dt t psi w (Slater.orthogonalise qr free w)
  | other (w w') (h : w'.phi = w.phi) : Act qr n dt t psi w w'

/-- The same for a run with a discrete Hubbard propagator. -/
inductive HAct (qr : Slater.QR nb) (p : Hirsch.Par nb) (psi : Slater.Wfn nb nu nd) :
    Slater.Wk nb nu nd → Slater.Wk nb nu nd → Prop
  | free (eshift : ℝ) (fields : Fin nb → Fin 2) (w) : HAct qr p psi w (Hirsch.freeStep p psi eshift fields w)
  | constrained (eshift : ℝ) (rs : Fin nb → ℝ) (w) : HAct qr p psi w (Hirsch.constrainedStep p psi eshift rs w)
  | kinetic (w) : HAct qr p psi w (Hirsch.kineticIS p psi w)
  | direct (charge : Bool) (gamma : ℂ) (rs : Fin nb → ℝ) (w) :
      HAct qr p psi w (Hirsch.direct p charge gamma psi rs w)
  | ortho (free : Bool) (w) (hu : Slater.FullRank (Slater.up w.phi)) (hd : Slater.FullRank (Slater.dn w.phi)) :
      HAct qr p psi w (Slater.orthogonalise qr free w)
  | other (w w') (h : w'.phi = w.phi) : HAct qr p psi w w'

end Verif.SpinProj
