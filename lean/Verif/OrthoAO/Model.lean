import Verif.AoChol.Model
import Verif.Energy.Model
import Verif.Slater.Model
import Mathlib.Data.Finset.Sort
import Mathlib.Logic.Equiv.Fin.Basic

/-!
# Integrals and trial in an orthogonal basis

Model of `get_ortho_ao`, `ao2mo_chol`, `generate_integrals` without active space and `write_wfn_mol`
(pauxy/utils/from_pyscf.py).  `numpy.linalg.eigh` is a parameter.  Everything before the trial is real, as for molecules.
-/

namespace Verif.OrthoAO

open Matrix

variable {n k nx : Nat}

open Classical in
/-- The eigenvalues kept, `sdiag > LINDEP_CUTOFF`, from_pyscf.py 649-650. -/
noncomputable def kept (cut : ℝ) (sdiag : Fin n → ℝ) : Finset (Fin n) := Finset.univ.filter fun i => cut < sdiag i

/-- `get_ortho_ao`, from_pyscf.py 632-651. -/
noncomputable def getOrthoAo (cut : ℝ) (sdiag : Fin n → ℝ) (Us : Matrix (Fin n) (Fin n) ℝ) :
    Matrix (Fin n) (Fin (kept cut sdiag).card) ℝ :=
  Matrix.of fun p a => Us p ((kept cut sdiag).orderEmbOfFin rfl a) / Real.sqrt (sdiag ((kept cut sdiag).orderEmbOfFin rfl a))

/-- `cv.reshape(nb,nb)` of a Cholesky vector. -/
def reshape (v : Fin (n * n) → ℝ) : Matrix (Fin n) (Fin n) ℝ := Matrix.of fun p q => v (finProdFinEquiv (p, q))

/-- `h1e` and the Cholesky vectors of `generate_integrals` for a square basis `X`, from_pyscf.py 159-176, and `ao2mo_chol`, 222-228. -/
noncomputable def integrals (X h : Matrix (Fin n) (Fin n) ℝ) (chol : Fin nx → Fin (n * n) → ℝ) :
    Matrix (Fin n) (Fin n) ℝ × (Fin nx → Matrix (Fin n) (Fin n) ℝ) :=
  (Xᵀ * (h * X), fun x => Xᵀ * (reshape (chol x) * X))

/-- `mo_coeff` of a restricted or an unrestricted calculation. -/
inductive Coeff (n : Nat)
  | rhf (C : Matrix (Fin n) (Fin n) ℝ)
  | uhf (Ca Cb : Matrix (Fin n) (Fin n) ℝ)

/-- The columns `[:,:k]`. -/
def first (h : k ≤ n) (A : Matrix (Fin n) (Fin n) ℝ) : Matrix (Fin n) (Fin k) ℂ := Matrix.of fun p a => (A p (Fin.castLE h a) : ℂ)

/-- The two blocks of the trial written by `write_wfn_mol` in the orthogonal basis, from_pyscf.py 99-112.  For restricted orbitals
`[:,:nalpha]` is assigned to the `nbeta` columns of the other spin: an error unless the numbers agree or there is only one
column, which is then repeated. -/
noncomputable def wfnMol (X : Matrix (Fin n) (Fin n) ℝ) {na nb : Nat} (ha : na ≤ n) (hb : nb ≤ n) :
    Coeff n → Option (Matrix (Fin n) (Fin na) ℂ × Matrix (Fin n) (Fin nb) ℂ)
  | .uhf Ca Cb => some (first ha (X⁻¹ * Ca), first hb (X⁻¹ * Cb))
  | .rhf C =>
    if h : nb = na then some (first ha (X⁻¹ * C), (first ha (X⁻¹ * C)).submatrix id (Fin.cast h))
    else if h1 : na = 1 then some (first ha (X⁻¹ * C), Matrix.of fun p _ => first ha (X⁻¹ * C) p ⟨0, by omega⟩)
    else none

end Verif.OrthoAO
