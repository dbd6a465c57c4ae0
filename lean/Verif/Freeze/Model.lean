import Verif.Energy.Model
import Verif.Slater.Model

/-!
# Freezing core orbitals

Model of `freeze_core` (pauxy/utils/from_pyscf.py) and of `core_contribution_cholesky` (pauxy/estimators/generic.py).
The number of orbitals is at least `nc + ncas` (slices of numpy are cut off otherwise).
-/

namespace Verif.Freeze

open Matrix Finset

variable {m nx : Nat}

/-- `core_contribution_cholesky` for one spin, generic.py 445-450: `T[x,k,l] = Σ_i L[x,i,k] G[i,l]`,
`K[k,r] = Σ_{x,l} T[x,k,l] L[x,r,l]`. -/
noncomputable def coreContribution (L : Fin nx → Matrix (Fin m) (Fin m) ℂ) (G : Matrix (Fin m) (Fin m) ℂ) :
    Matrix (Fin m) (Fin m) ℂ :=
  let X := fun x => Energy.dot2 (L x) G
  let J := Matrix.of fun p q => ∑ x, L x p q * X x
  let T := fun x k l => ∑ i, L x i k * G i l
  let K := Matrix.of fun k r => ∑ x, ∑ l, T x k l * L x r l
  J - (1 / 2 : ℂ) • K

/-- `psi = numpy.identity(nbasis)[:,:nc]`, from_pyscf.py 204. -/
def corePsi (m nc : Nat) : Matrix (Fin m) (Fin nc) ℂ := Matrix.of fun p c => if (p : Nat) = c then 1 else 0

/-- The slice `[nc:nc+ncas,nc:nc+ncas]`. -/
def slice {nc ncas : Nat} (h : nc + ncas ≤ m) (X : Matrix (Fin m) (Fin m) ℂ) : Matrix (Fin ncas) (Fin ncas) ℂ :=
  X.submatrix (fun i => ⟨nc + i, by omega⟩) fun i => ⟨nc + i, by omega⟩

/-- Integrals: `h1e` for both spins, Cholesky vectors, core energy. -/
structure Ints (nx m : Nat) where
  h1 : Fin 2 → Matrix (Fin m) (Fin m) ℂ
  chol : Fin nx → Matrix (Fin m) (Fin m) ℂ
  ecore : ℂ

/-- `freeze_core`, from_pyscf.py 195-220. -/
noncomputable def freezeCore {nc ncas : Nat} (h : nc + ncas ≤ m) (h1e : Matrix (Fin m) (Fin m) ℂ)
    (chol : Fin nx → Matrix (Fin m) (Fin m) ℂ) (ecore : ℂ) : Ints nx ncas :=
  let psi := corePsi m nc
  let Gcore := Slater.gab psi psi
  { ecore := (Energy.localChol (fun _ => h1e) chol (fun _ => Gcore) ecore).1
    h1 := fun _ => slice h (h1e + (2 : ℂ) • coreContribution chol Gcore)
    chol := fun x => slice h (chol x) }

/-- Numbers of frozen orbitals and of active electrons, from_pyscf.py 181-187: `nfzc = (sum(mol.nelec)-cas[0])//2`,
`nelec = (mol.nelec[0]-nfzc, mol.nelec[1]-nfzc)`. -/
def casCounts (nalpha nbeta cas : Int) : Int × Int × Int :=
  let nfzc := (nalpha + nbeta - cas).fdiv 2
  (nfzc, nalpha - nfzc, nbeta - nfzc)

end Verif.Freeze
