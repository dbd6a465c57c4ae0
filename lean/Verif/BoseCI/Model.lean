import Verif.CI.Props
import Mathlib.Data.Matrix.Basic
import Mathlib.LinearAlgebra.Matrix.Kronecker
import Mathlib.Analysis.SpecialFunctions.Pow.NNReal

/-!
# Exact diagonalisation of electrons coupled to phonons

Model of `simple_fci_bose_fermi` (pauxy/estimators/ci.py 8-156) and of the enumeration of phonon occupations
`unlabeled_balls_in_labeled_boxes` (ci.py 314-386).  Determinants, their matrix elements and `map_orb` are those of
`Verif.CI`.  Phonon states are lists of occupation numbers, one per site.  `none` is an exception.

Simplified: floats are reals; sparse matrices are functions of row and column; `numpy.sqrt` is `Real.sqrt`.  The
iterative eigensolver is a parameter with a contract (`Eigsh`).  The printed lines are values here.
-/

namespace Verif.BoseCI

open Matrix Kronecker

/-- `_unlabeled_balls_in_labeled_boxes`, ci.py 357-386, in the order of the generator.  The case of balls but no box (an
index error) is excluded by the checks of `distribute`. -/
def balls : Nat → List Nat → List (List Nat)
  | 0, bs => [List.replicate bs.length 0]
  | _ + 1, [] => []
  | n + 1, [b] => if n + 1 ≤ b then [[n + 1]] else []
  | n + 1, b :: b' :: bs =>
    (List.range (min (n + 1) b + 1)).reverse.flatMap fun k => (balls (n + 1 - k) (b' :: bs)).map (k :: ·)

/-- `unlabeled_balls_in_labeled_boxes`, ci.py 334-354: its checks, then the enumeration. -/
def distribute (n : Nat) (bs : List Nat) : Option (List (List Nat)) :=
  if bs.any (· < 1) then none else if bs.sum < n then none else some (balls n bs)

/-- The phonon occupations by total number, ci.py 13-18: the vacuum, then one group for each number of phonons. -/
def sectors (nbasis nmax : Nat) : Option (List (List (List Nat))) :=
  ((List.range nmax).mapM fun k => distribute (k + 1) (List.replicate nbasis (k + 1))).map
    fun r => [List.replicate nbasis 0] :: r

/-- `perms`, ci.py 14-22 -/
def perms (se : List (List (List Nat))) : List (List Nat) := se.flatten

/-- `blkboson`, ci.py 13-18 -/
def blkboson (se : List (List (List Nat))) : List Nat := se.map List.length

/-- Spin orbitals of the determinants, ci.py 32-33: sorted. -/
def spinDets (n : Nat) (occs : List (List Nat × List Nat)) : List (List Nat) :=
  occs.map fun o => (o.1 ++ o.2.map (· + n)).mergeSort

/-- The determinants used when `occs` is not given, ci.py 24-27. -/
def allOccs (n nup ndown : Nat) : List (List Nat × List Nat) :=
  (CI.combinations (List.range n) nup).flatMap fun a => (CI.combinations (List.range n) ndown).map fun b => (a, b)

/-- `numpy.array(iperm) - numpy.array(jperm)`, ci.py 80 -/
def occDiff (p q : List Nat) : List Int := List.zipWith (fun a b : Nat => (a : Int) - (b : Int)) p q

/-- Element `bi[i, jj]` after the loops, ci.py 72-84 (and again 126-138): row `i` is skipped for the largest number of
phonons, otherwise only the columns of the next group are visited. -/
noncomputable def lower (nmax : Nat) (se : List (List (List Nat))) (s i jj : Nat) : ℝ :=
  let p := (perms se).getD i []
  let ni := p.sum
  let off := ((blkboson se).take (ni + 1)).sum
  if ni = nmax then 0
  else if off ≤ jj then
    match (((perms se).drop off).take ((blkboson se).getD (ni + 1) 0))[jj - off]? with
    | some q =>
      let d := occDiff p q
      if (d.map Int.natAbs).sum = 1 ∧ d.getD s 0 = -1 then Real.sqrt (p.getD s 0 + 1) else 0
    | none => 0
  else 0

/-- Diagonal of `rhoi`, ci.py 65-70: electrons of the determinant on the site. -/
def rho (n s : Nat) (d : List Nat) : ℝ := (d.map fun o => if (CI.mapOrb o n).1 = s then (1 : ℝ) else 0).sum

/-- The parameters of the phonons: frequency, coupling and mass. -/
structure Ph where
  w0 : ℝ
  g : ℝ
  m : ℝ

section

variable (sys : CI.System ℝ) (ph : Ph) (nmax : Nat) (se : List (List (List Nat))) (ds : List (List Nat))

/-- Number of phonon states. -/
abbrev np := (perms se).length

/-- `hel`, ci.py 46-50: the upper triangle is copied to the lower one. -/
noncomputable def hel : Matrix (Fin ds.length) (Fin ds.length) ℝ := fun i j => CI.fciMatrix sys ds i j

/-- `hb`, ci.py 54-59 -/
def hb : Matrix (Fin (np se)) (Fin (np se)) ℝ :=
  diagonal fun a => ph.w0 * ((((perms se).getD a []).sum : Nat) : ℝ)

/-- `bi`, ci.py 72-84 -/
noncomputable def bi (s : Nat) : Matrix (Fin (np se)) (Fin (np se)) ℝ := fun a b => lower nmax se s a b

/-- `rhoi`, ci.py 65-70 -/
def rhoi (s : Nat) : Matrix (Fin ds.length) (Fin ds.length) ℝ := diagonal fun i => rho sys.nbasis s (ds.getD i [])

/-- `scipy.sparse.kron`: the row of a pair is the first index times the size of the second matrix plus the second. -/
def kron {a b : Nat} (A : Matrix (Fin a) (Fin a) ℝ) (B : Matrix (Fin b) (Fin b) ℝ) :
    Matrix (Fin (a * b)) (Fin (a * b)) ℝ := (A ⊗ₖ B).submatrix finProdFinEquiv.symm finProdFinEquiv.symm

/-- `He`, ci.py 96 -/
noncomputable def he : Matrix (Fin (np se * ds.length)) (Fin (np se * ds.length)) ℝ := kron 1 (hel sys ds)

/-- `Hb`, ci.py 97 -/
def hbos : Matrix (Fin (np se * ds.length)) (Fin (np se * ds.length)) ℝ := kron (hb ph se) 1

/-- `Heb`, ci.py 63-91 -/
noncomputable def heb : Matrix (Fin (np se * ds.length)) (Fin (np se * ds.length)) ℝ :=
  ∑ s ∈ Finset.range sys.nbasis, ph.g • kron (bi nmax se s + (bi nmax se s)ᵀ) (rhoi sys ds s)

/-- `Htot`, ci.py 99 -/
noncomputable def htot : Matrix (Fin (np se * ds.length)) (Fin (np se * ds.length)) ℝ :=
  he sys se ds + hbos ph se ds + heb sys ph nmax se ds

end

/-- The contract of `scipy.sparse.linalg.eigsh(H, k=3, which='SA')`, ci.py 107: for a sparse matrix it refuses three or
fewer rows; otherwise orthonormal eigenvectors of the three lowest eigenvalues, in increasing order. -/
def Eigsh {N : Nat} (H : Matrix (Fin N) (Fin N) ℝ) (out : Option ((Fin 3 → ℝ) × (Fin 3 → Fin N → ℝ))) : Prop :=
  match out with
  | none => N ≤ 3
  | some (val, vec) => 3 < N ∧ (∀ k, H *ᵥ vec k = val k • vec k) ∧
      (∀ k l, vec k ⬝ᵥ vec l = if k = l then 1 else 0) ∧ Monotone val ∧
      ∀ v, (∀ k, vec k ⬝ᵥ v = 0) → val 2 * (v ⬝ᵥ v) ≤ v ⬝ᵥ (H *ᵥ v)

/-- Expectation value as printed, ci.py 109-111, 122, 146. -/
def expect {N : Nat} (A : Matrix (Fin N) (Fin N) ℝ) (v : Fin N → ℝ) : ℝ := v ⬝ᵥ (A *ᵥ v)

/-- The operator whose expectation value is printed as `X`, ci.py 143-146. -/
noncomputable def xOp (ph : Ph) (nmax : Nat) (se : List (List (List Nat))) (ds : List (List Nat)) (s : Nat) :
    Matrix (Fin (np se * ds.length)) (Fin (np se * ds.length)) ℝ :=
  kron ((Real.sqrt (2 * ph.m * ph.w0))⁻¹ • (bi nmax se s + (bi nmax se s)ᵀ)) 1

/-- The operator whose expectation value is printed as `nocc`, ci.py 114-123. -/
def nOp (sys : CI.System ℝ) (se : List (List (List Nat))) (ds : List (List Nat)) (s : Nat) :
    Matrix (Fin (np se * ds.length)) (Fin (np se * ds.length)) ℝ := kron 1 (rhoi sys ds s)

/-- The type of the eigensolver. -/
abbrev Solver := (N : Nat) → Matrix (Fin N) (Fin N) ℝ → Option ((Fin 3 → ℝ) × (Fin 3 → Fin N → ℝ))

/-- `simple_fci_bose_fermi`, ci.py 8-156, with the eigensolver as a parameter: the eigenvalues and eigenvectors. -/
noncomputable def run (eigsh : Solver) (sys : CI.System ℝ) (ph : Ph) (nmax : Nat)
    (occs : Option (List (List Nat × List Nat))) : Option ((Fin 3 → ℝ) × (Fin 3 → List ℝ)) :=
  (sectors sys.nbasis nmax).bind fun se =>
    let ds := spinDets sys.nbasis (occs.getD (allOccs sys.nbasis sys.nup sys.ndown))
    (eigsh _ (htot sys ph nmax se ds)).map fun r => (r.1, fun k => List.ofFn (r.2 k))

end Verif.BoseCI
