import Verif.CI.Model
import Verif.MultiDet.Model

/-!
# Trial states given as CI expansions

Model of `MultiSlater.from_phmsd` and of `MultiSlater.recompute_ci_coeffs` for such expansions
(pauxy/trial_wavefunction/multi_slater.py), and of the occupations that `simple_fci` returns (pauxy/estimators/ci.py).
Orbitals are natural numbers (negative indices of numpy are not modelled).  `scipy.linalg.eigh` is a parameter with the
contract `Eigh`.
-/

namespace Verif.CI

open Matrix

/-- The wavefunction tuple `(coeffs, occa, occb)`. -/
structure Expansion (n : Nat) where
  coeffs : Fin n → ℂ
  /-- `(occa[i], occb[i])` -/
  occs : Fin n → List Nat × List Nat

/-- An entry of `spin_occs`, multi_slater.py 184-185: up orbitals, down orbitals plus `nb`, `numpy.sort`. -/
def spinOccs (nb : Nat) (o : List Nat × List Nat) : List Nat := (o.1 ++ o.2.map (· + nb)).mergeSort (· ≤ ·)

/-- `I[:,occ]`, multi_slater.py 190-191. -/
def columns (nb k : Nat) (o : List Nat) : Matrix (Fin nb) (Fin k) ℂ := Matrix.of fun p a => if (p : Nat) = o.getD a 0 then 1 else 0

/-- `psi[idet]`, multi_slater.py 189-191. -/
def detOf (nb nu nd : Nat) (o : List Nat × List Nat) : Slater.Wfn nb nu nd :=
  Slater.join (columns nb nu o.1) (columns nb nd o.2)

/-- The trial state, multi_slater.py 188-191. -/
def Expansion.trial {n : Nat} (E : Expansion n) (nb nu nd : Nat) : MultiDet.Trial n nb nu nd :=
  ⟨E.coeffs, fun i => detOf nb nu nd (E.occs i), none⟩

/-- The Hermitian matrix that `scipy.linalg.eigh(H, lower=False)` diagonalises in `recompute_ci_coeffs`, multi_slater.py
193-205: `get_hmatel` for the upper triangle, its conjugate for the lower, real part of the diagonal. -/
noncomputable def recomputeMatrix (sys : System ℂ) {n : Nat} (E : Expansion n) : Matrix (Fin n) (Fin n) ℂ := Matrix.of fun i j =>
  let H : Fin n → Fin n → ℂ := fun i j => (getHmatel sys (spinOccs sys.nbasis (E.occs i)) (spinOccs sys.nbasis (E.occs j))).1
  if i < j then H i j else if j < i then star (H j i) else ((H i i).re : ℂ)

/-- What `scipy.linalg.eigh` returns: real eigenvalues in ascending order, orthonormal eigenvectors as columns. -/
structure Eigh {n : Nat} (M : Matrix (Fin n) (Fin n) ℂ) (e : Fin n → ℝ) (ev : Matrix (Fin n) (Fin n) ℂ) : Prop where
  unitary : evᴴ * ev = 1
  eigen : M * ev = ev * Matrix.diagonal fun i => (e i : ℂ)
  sorted : Monotone e

/-- The trial state after `recompute_ci`: coefficients `ev[:,0]`, multi_slater.py 232 and trial_wavefunction/utils.py
78-87. -/
def Expansion.recompute {n : Nat} (E : Expansion (n + 1)) (ev : Matrix (Fin (n + 1)) (Fin (n + 1)) ℂ) : Expansion (n + 1) :=
  { E with coeffs := fun i => ev i 0 }

/-- The occupations `oa`, `ob` of `simple_fci`, ci.py 161-165: `itertools.product` of `itertools.combinations`. -/
def fciOccs {K : Type*} (sys : System K) : List (List Nat × List Nat) :=
  (combinations (List.range sys.nbasis) sys.nup).flatMap fun a =>
    (combinations (List.range sys.nbasis) sys.ndown).map fun b => (a, b)

/-- The expansion over all determinants with the coefficients `c`. -/
def fciExpansion {K : Type*} (sys : System K) (c : Fin (fciOccs sys).length → ℂ) : Expansion (fciOccs sys).length :=
  ⟨c, fun i => (fciOccs sys).get i⟩

end Verif.CI
