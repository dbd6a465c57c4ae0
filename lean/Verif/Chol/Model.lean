import Mathlib.Analysis.Complex.Basic
import Mathlib.LinearAlgebra.Matrix.Defs
import Mathlib.Analysis.SpecialFunctions.Pow.NNReal

/-!
# Modified Cholesky decomposition

Model of `modified_cholesky`, `pauxy/utils/linalg.py` lines 112-161.
-/

namespace Verif.Chol

variable {n : Nat}

/-- Variables of the loop: the finished vectors `chol_vecs[:nchol]`, the spare one
`chol_vecs[nchol]`, `Mapprox` and `delta_max`. -/
structure State (n : Nat) where
  vecs : List (Fin n → ℂ)
  next : Fin n → ℂ
  approx : Fin n → ℂ
  dmax : ℝ

/-- Before the loop, lines 132-145.  `amax` is `numpy.argmax`.  Simplified: the square root of the
complex `delta_max` is that of its real part (the same for real non-negative diagonals). -/
noncomputable def start (amax : (Fin n → ℝ) → Fin n) (M : Matrix (Fin n) (Fin n) ℂ) : State n :=
  let nu := amax fun i => ‖M i i‖
  { vecs := []
    next := fun i => M i nu / (Real.sqrt (M nu nu).re : ℂ)
    approx := fun _ => 0
    dmax := ‖M nu nu‖ }

/-- One pass, lines 147-156. -/
noncomputable def step (amax : (Fin n → ℝ) → Fin n) (M : Matrix (Fin n) (Fin n) ℂ) (s : State n) : State n :=
  let approx := fun i => s.approx i + s.next i * star (s.next i)
  let delta := fun i => M i i - approx i
  let nu := amax fun i => ‖delta i‖
  let dmax := ‖delta nu‖
  let vecs := s.vecs ++ [s.next]
  let munu0 := fun i => (vecs.map fun v => star (v nu) * v i).sum
  { vecs := vecs
    next := fun i => (M i nu - munu0 i) / (Real.sqrt dmax : ℂ)
    approx := approx
    dmax := dmax }

open Classical in
/-- The loop, with the number of rows of `chol_vecs` still free after the spare one; writing beyond
the last row is an `IndexError` (`none`). -/
noncomputable def loop (amax : (Fin n → ℝ) → Fin n) (M : Matrix (Fin n) (Fin n) ℂ) (tol : ℝ) :
    Nat → State n → Option (List (Fin n → ℂ))
  | 0, s => if s.dmax > tol then none else some s.vecs
  | k + 1, s => if s.dmax > tol then loop amax M tol k (step amax M s) else some s.vecs

/-- `modified_cholesky`, lines 112-161, with `nchol_max` rows (`int(cmax*sqrt(n))`, line 134). -/
noncomputable def modifiedCholesky (amax : (Fin n → ℝ) → Fin n) (M : Matrix (Fin n) (Fin n) ℂ) (tol : ℝ) :
    Nat → Option (List (Fin n → ℂ))
  | 0 => none
  | k + 1 => loop amax M tol k (start amax M)

end Verif.Chol
