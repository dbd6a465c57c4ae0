import Verif.Setup.Model
import Verif.Slater.Model
import Verif.Energy.Model
import Verif.Lattice.Model
import Mathlib.LinearAlgebra.Matrix.Hermitian
import Mathlib.Analysis.SpecialFunctions.Pow.NNReal

/-!
# The UHF trial wavefunction

Model of `UHF` (pauxy/trial_wavefunction/uhf.py 49-254) and of `diagonalise_sorted` (utils/linalg.py 33-57).  The search
over attempts is `Setup.uhfSearch`; here is what an attempt does.

Simplified: floats are exact; densities, which the code keeps as complex numbers with vanishing imaginary part, are real;
`scipy.linalg.eigh` is a parameter with a contract (`Eigh`); a lattice without sites (a division by zero) is not
considered.
-/

namespace Verif.Uhf

open Matrix

/-- Orbitals of both spins: `trial[:,:nup]` and `trial[:,nup:]`. -/
structure Orbs (m nu nd : Nat) where
  up : Matrix (Fin m) (Fin nu) ℂ
  dn : Matrix (Fin m) (Fin nd) ℂ

/-- Site densities of both spins. -/
abbrev Dens (m : Nat) := Fin 2 → Fin m → ℝ

/-- What `diagonalise_sorted` returns: eigenvalues and eigenvectors. -/
abbrev Eig (m : Nat) := Matrix (Fin m) (Fin m) ℂ → (Fin m → ℝ) × Matrix (Fin m) (Fin m) ℂ

/-- The contract of `diagonalise_sorted`, linalg.py 33-57: eigenvalues in rising order and orthonormal eigenvectors. -/
def Eigh {m : Nat} (eig : Eig m) : Prop := ∀ H : Matrix (Fin m) (Fin m) ℂ, H.IsHermitian →
  Monotone (eig H).1 ∧ (eig H).2ᴴ * (eig H).2 = 1 ∧ H * (eig H).2 = (eig H).2 * diagonal fun a => ((eig H).1 a : ℂ)

/-- Input: the system and the options of the trial. -/
structure Inp (m nu nd : Nat) where
  T : Fin 2 → Matrix (Fin m) (Fin m) ℂ
  U : ℝ
  symmetric : Bool
  ueff : ℝ
  deps : ℝ
  alpha : ℝ
  nconv : Nat
  hu : nu ≤ m
  hd : nd ≤ m

variable {m nu nd : Nat}

/-- `ev[:,:k]` -/
def cols {k : Nat} (h : k ≤ m) (V : Matrix (Fin m) (Fin m) ℂ) : Matrix (Fin m) (Fin k) ℂ := V.submatrix id (Fin.castLE h)

/-- `density`, uhf.py 216-217. -/
noncomputable def density {k : Nat} (A : Matrix (Fin m) (Fin k) ℂ) : Fin m → ℝ := fun i => ∑ a, ‖A i a‖ ^ 2

/-- Densities of both spins, uhf.py 117-120, 245-246. -/
noncomputable def densities (o : Orbs m nu nd) : Dens m := ![density o.up, density o.dn]

/-- The Green's functions of a determinant, uhf.py 91-97, 125-130. -/
noncomputable def green (o : Orbs m nu nd) : Fin 2 → Matrix (Fin m) (Fin m) ℂ :=
  ![(Slater.gab o.up o.up)ᵀ, if 0 < nd then (Slater.gab o.dn o.dn)ᵀ else 0]

/-- The real part of the first entry of `local_energy`, uhf.py 98, 131, with the interaction the system has at the time. -/
noncomputable def energy (I : Inp m nu nd) (U : ℝ) (o : Orbs m nu nd) : ℝ :=
  (Energy.localHubbard I.T U I.symmetric (green o)).1.re

/-- The mean-field Hamiltonian of one spin in the density of the other, uhf.py 237-238. -/
def meanField (T : Matrix (Fin m) (Fin m) ℂ) (ueff : ℝ) (n : Fin m → ℝ) : Matrix (Fin m) (Fin m) ℂ :=
  T + diagonal fun i => ((ueff * n i : ℝ) : ℂ)

/-- `diagonalise_mean_field`, uhf.py 235-247: the new orbitals. -/
def diagonalise (I : Inp m nu nd) (eig : Eig m) (n : Dens m) : Orbs m nu nd where
  up := cols I.hu (eig (meanField (I.T 0) I.ueff (n 1))).2
  dn := cols I.hd (eig (meanField (I.T 1) I.ueff (n 0))).2

/-- The eigenvalues of both spins, uhf.py 239-240. -/
def eigs (I : Inp m nu nd) (eig : Eig m) (n : Dens m) : (Fin m → ℝ) × (Fin m → ℝ) :=
  ((eig (meanField (I.T 0) I.ueff (n 1))).1, (eig (meanField (I.T 1) I.ueff (n 0))).1)

/-- `self_consistant`, uhf.py 219-230. -/
def Consistent (deps enew eold : ℝ) (n old : Dens m) : Prop :=
  |enew - eold| < deps ∧ (∑ i, |n 0 i - old 0 i|) / m < Real.sqrt deps ∧ (∑ i, |n 1 i - old 1 i|) / m < Real.sqrt deps

/-- `mix_density`, uhf.py 232-233. -/
def mix (alpha : ℝ) (new old : Dens m) : Dens m := fun s i => (1 - alpha) * new s i + alpha * old s i

/-- What an attempt leaves behind: orbitals, eigenvalues and densities. -/
structure Snap (m nu nd : Nat) where
  trial : Orbs m nu nd
  eigs : (Fin m → ℝ) × (Fin m → ℝ)
  dens : Dens m

open Classical in
/-- The self-consistency loop, uhf.py 121-154, with the number of iterations left. -/
noncomputable def scf (I : Inp m nu nd) (eig : Eig m) : Nat → Snap m nu nd → ℝ → Dens m → Setup.Attempt (Snap m nu nd)
  | 0, s, eold, _ => ⟨false, eold, s, s⟩
  | k + 1, s, eold, old =>
    let o := diagonalise I eig s.dens
    let n := densities o
    let e := energy I I.ueff o
    if Consistent I.deps e eold n old then ⟨true, e, ⟨o, eigs I eig s.dens, n⟩, ⟨o, eigs I eig s.dens, n⟩⟩
    else scf I eig k ⟨o, eigs I eig s.dens, mix I.alpha n old⟩ e n

/-- The random matrices of an attempt, `random_starting_point`, uhf.py 188-192, for both spins. -/
abbrev Random (m : Nat) := Fin 2 → Matrix (Fin m) (Fin m) ℝ

/-- `0.5 * (random + random.T)`, uhf.py 190. -/
noncomputable def symm (R : Matrix (Fin m) (Fin m) ℝ) : Matrix (Fin m) (Fin m) ℂ :=
  (((1 / 2 : ℝ) • (R + Rᵀ)).map fun x : ℝ => (x : ℂ))

/-- `initialise`, uhf.py 176-186: orbitals and `eold`. -/
noncomputable def initialise (I : Inp m nu nd) (eig : Eig m) (R : Random m) : Orbs m nu nd × ℝ :=
  (⟨cols I.hu (eig (symm (R 0))).2, cols I.hd (eig (symm (R 1))).2⟩,
    ∑ a, (eig (symm (R 0))).1 (Fin.castLE I.hu a) + ∑ a, (eig (symm (R 1))).1 (Fin.castLE I.hd a))

/-- One attempt, uhf.py 113-154. -/
noncomputable def attempt (I : Inp m nu nd) (eig : Eig m) (R : Random m) : Setup.Attempt (Snap m nu nd) :=
  let o := (initialise I eig R).1
  scf I eig I.nconv ⟨o, (fun _ => 0, fun _ => 0), densities o⟩ (initialise I eig R).2 (densities o)

/-- `find_uhf_wfn`, uhf.py 106-174: orbitals and eigenvalues, `emin`, and `nav`; one random matrix for each attempt. -/
noncomputable def find (I : Inp m nu nd) (eig : Eig m) (Rs : List (Random m)) :
    Option (Snap m nu nd × ℝ × Option (Snap m nu nd)) :=
  Setup.uhfResult (Setup.uhfSearch I.deps I.U I.ueff (Rs.map (attempt I eig)))

/-- The trial built from a random start, uhf.py 77-98: orbitals, `emin` and `etrial`. -/
noncomputable def build (I : Inp m nu nd) (eig : Eig m) (Rs : List (Random m)) : Option (Orbs m nu nd × ℝ × ℝ) :=
  (find I eig Rs).map fun r => (r.1.trial, r.2.1, energy I I.U r.1.trial)

/-! ## The checkerboard -/

/-- The sublattice of a site, uhf.py 200-212: the coordinates are always those of a lattice of width four. -/
def isUp (i : Nat) : Bool :=
  let x := (Lattice.decode 4 4 i).getD 0 0
  let y := (Lattice.decode 4 4 i).getD 1 0
  (x % 2 = 0 ∧ y % 2 = 0) ∨ (x % 2 = 1 ∧ y % 2 = 1)

/-- The entries set by `checkerboard`, uhf.py 194-213, with row and column; `none` is an index error. -/
def checkerLoop (ncol nup : Nat) : List Nat → Nat → Nat → Option (List (Nat × Nat × Int))
  | [], _, _ => some []
  | i :: is, na, nb =>
    if isUp i then
      if na < ncol then (checkerLoop ncol nup is (na + 1) nb).map ((i, na, 1) :: ·) else none
    else if nup + nb < ncol then (checkerLoop ncol nup is na (nb + 1)).map ((i, nup + nb, -1) :: ·) else none

/-- `checkerboard`, uhf.py 194-213. -/
def checkerboard (nbasis nup ndown : Nat) : Option (List (Nat × Nat × Int)) :=
  checkerLoop (nup + ndown) nup (List.range nbasis) 0 0

/-- The matrix with these entries; each is set once. -/
def toMatrix (m k : Nat) (es : List (Nat × Nat × Int)) : Matrix (Fin m) (Fin k) ℂ := fun i a =>
  es.foldl (fun z e => if e.1 = (i : Nat) ∧ e.2.1 = (a : Nat) then (e.2.2 : ℂ) else z) 0

end Verif.Uhf
