import Verif.Lattice.Model
import Verif.Slater.HirschModel
import Mathlib.Analysis.Normed.Algebra.MatrixExponential

/-!
# The one-body step in momentum space

Model of `fft_wavefunction`, `ifft_wavefunction` (pauxy/utils/fft.py 3-9), `kinetic_kspace` (propagation/hubbard.py
800-833, hubbard_holstein.py 814-847) and the call of it (hubbard.py 36-48, 95-100, 159).

Simplified: floats are exact; an orbital of real numbers, whose transform is cut to its real part, is not told apart from
one of complex numbers.  `none` is an exception: arrays of shapes that do not fit.
-/

namespace Verif.Fft

open Matrix

/-- `numpy.fft.fft2` of one column after `reshape(nx,ny,ns)`, fft.py 3-5: entry `i` of the column is entry
`(i // ny, i % ny)` of the array. -/
noncomputable def fft (nx ny : Nat) (v : Fin (nx * ny) → ℂ) : Fin (nx * ny) → ℂ := fun p =>
  ∑ j, v j * Complex.exp (-(2 * Real.pi * Complex.I *
    ((p.val / ny : Nat) * (j.val / ny : Nat) / nx + (p.val % ny : Nat) * (j.val % ny : Nat) / ny)))

/-- `numpy.fft.ifft2` likewise, fft.py 7-9. -/
noncomputable def ifft (nx ny : Nat) (v : Fin (nx * ny) → ℂ) : Fin (nx * ny) → ℂ := fun j =>
  1 / (nx * ny : ℂ) * ∑ p, v p * Complex.exp (2 * Real.pi * Complex.I *
    ((p.val / ny : Nat) * (j.val / ny : Nat) / nx + (p.val % ny : Nat) * (j.val % ny : Nat) / ny))

/-- `btk`, hubbard.py 46, with `eks` the table of energies. -/
noncomputable def btk (dt t : ℝ) (nx ny : Nat) : Fin (nx * ny) → ℂ := fun p =>
  Complex.exp (((-(1 / 2) * dt * (Lattice.eigs t nx ny).getD p 0 : ℝ) : ℂ))

/-- One column through `kinetic_kspace`, hubbard.py 816-827. -/
noncomputable def column (nx ny : Nat) (b v : Fin (nx * ny) → ℂ) : Fin (nx * ny) → ℂ :=
  ifft nx ny fun p => b p * fft nx ny v p

/-- Shape of the product of two arrays; shapes are compared from the last dimension. -/
def broadcast (a b : List Nat) : Option (List Nat) :=
  let n := max a.length b.length
  let a' := List.replicate (n - a.length) 1 ++ a
  let b' := List.replicate (n - b.length) 1 ++ b
  (List.zip a' b').mapM fun p => if p.1 = p.2 then some p.1 else if p.1 = 1 then some p.2 else if p.2 = 1 then some p.1 else none

/-- The shapes in `kinetic_kspace` for one spin with `k` electrons, hubbard.py 823-827: product with the transposed
orbitals and `reshape(nx,ny,k)` of the result. -/
def fits (shape : List Nat) (nx ny k : Nat) : Bool :=
  match broadcast shape [k, nx * ny] with
  | some s => decide (s.prod = nx * ny * k)
  | none => false

/-- What is passed as `btk`: numbers for each momentum, or a matrix for each spin. -/
inductive Arg (n : Nat) where
  | vec (b : Fin n → ℂ)
  | mats (B : Fin 2 → Matrix (Fin n) (Fin n) ℂ)

/-- Its shape. -/
def Arg.shape {n : Nat} : Arg n → List Nat
  | .vec _ => [n]
  | .mats _ => [2, n, n]

variable {nx ny nu nd : Nat}

/-- `kinetic_kspace`, hubbard.py 800-833.  (The value for matrices is never reached: `mats_fail`.) -/
noncomputable def kspace (nx ny : Nat) (B : Arg (nx * ny)) (phi : Slater.Wfn (nx * ny) nu nd) : Option (Slater.Wfn (nx * ny) nu nd) :=
  if fits B.shape nx ny nu = true ∧ fits B.shape nx ny nd = true then
    match B with
    | .vec b => some (Matrix.of fun i a => column nx ny b (fun j => phi j a) i)
    | .mats _ => some phi
  else none

/-- `bt2`, hubbard.py 36-37. -/
noncomputable def bt2 (dt : ℝ) (T : Fin 2 → Matrix (Fin (nx * ny)) (Fin (nx * ny)) ℂ) : Fin 2 → Matrix (Fin (nx * ny)) (Fin (nx * ny)) ℂ :=
  fun s => NormedSpace.exp ((-(1 / 2) * dt : ℂ) • T s)

/-- The one-body step of `kinetic_importance_sampling`, hubbard.py 97-100, 159: `self.kinetic(walker.phi, system, self.bt2)`. -/
noncomputable def kineticCall (ffts : Bool) (dt : ℝ) (T : Fin 2 → Matrix (Fin (nx * ny)) (Fin (nx * ny)) ℂ)
    (phi : Slater.Wfn (nx * ny) nu nd) : Option (Slater.Wfn (nx * ny) nu nd) :=
  if ffts then kspace nx ny (.mats (bt2 dt T)) phi else some (Hirsch.kineticReal (bt2 dt T) phi)

end Verif.Fft
