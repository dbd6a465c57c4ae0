import Verif.Thermal.Model
import Mathlib.LinearAlgebra.Matrix.Trace
import Mathlib.Data.Sign.Basic
import Mathlib.Analysis.Complex.Exponential

/-!
# Chemical potential of the trial density matrix

Model of `pauxy/trial_density_matrices/chem_pot.py`.
-/

namespace Verif.ChemPot

open Matrix Verif.Thermal

variable {n : Nat}

/-- `compute_rho`, chem_pot.py 65-67, for one spin (the exponent has the same value for all
columns). -/
noncomputable def computeRho (rho : Mat n) (mu beta : ℝ) (sign : ℝ) : Mat n :=
  Matrix.of fun i k => rho i k * (Real.exp (sign * beta * mu) : ℂ)

/-- `particle_number(one_rdm_stable(compute_rho(rho, mu, beta), num_bins))`, chem_pot.py lines 21-23
and `pauxy/estimators/thermal.py` 131-145. -/
noncomputable def navAt (qrp : Mat n → Mat n × Mat n × Equiv.Perm (Fin n)) (rho : Fin 2 → Mat n)
    (beta sign : ℝ) (numBins : Nat) (mu : ℝ) : ℂ :=
  (oneRdmStable qrp (computeRho (rho 0) mu beta sign) numBins).trace +
    (oneRdmStable qrp (computeRho (rho 1) mu beta sign) numBins).trace

/-- `delta_nav` (line 64), real part. -/
noncomputable def deltaNav (qrp : Mat n → Mat n × Mat n × Equiv.Perm (Fin n)) (rho : Fin 2 → Mat n)
    (beta sign : ℝ) (numBins : Nat) (target mu : ℝ) : ℝ :=
  (navAt qrp rho beta sign numBins mu).re - target

/-- State after the first loop: `mu1`, `mu2`, `dmu1`, `dmu2`. -/
structure Bracket where
  mu1 : ℝ
  mu2 : ℝ
  dmu1 : ℝ
  dmu2 : ℝ

/-- The first loop (lines 18-38), started at `[mu1, mu2]`: it ends with the given bracket.  It may run
forever, so this is a relation.  In the body the interval is widened unless the signs differ, and the
loop condition is tested with the old differences afterwards.  Simplified: the sign of a complex
difference is the sign of its real part. -/
inductive Widen (f : ℝ → ℝ) : ℝ → ℝ → Bracket → Prop
  | stop (a b : ℝ) (h : SignType.sign (f a) * SignType.sign (f b) < 0) : Widen f a b ⟨a, b, f a, f b⟩
  | zero (a b : ℝ) (h : SignType.sign (f a) * SignType.sign (f b) = 0) :
      Widen f a b ⟨a - 2, b + 2, f a, f b⟩
  | more (a b : ℝ) (r : Bracket) (h : 0 < SignType.sign (f a) * SignType.sign (f b))
      (hr : Widen f (a - 2) (b + 2) r) : Widen f a b r

open Classical in
/-- The bisection (lines 42-58), with the number of iterations left. -/
noncomputable def bisect (f : ℝ → ℝ) (deps : ℝ) : Nat → Bracket → Option ℝ
  | 0, _ => none
  | k + 1, s =>
    let mu := 1 / 2 * (s.mu1 + s.mu2)
    let dmu := f mu
    if |dmu| < deps then some mu
    else if dmu * s.dmu1 > 0 then bisect f deps k { s with mu1 := mu }
    else if dmu * s.dmu2 > 0 then bisect f deps k { s with mu2 := mu }
    else bisect f deps k s

/-- `find_chemical_potential` (lines 7-62): `r` is the returned value (`none` for Python's `None`). -/
def Finds (f : ℝ → ℝ) (deps : ℝ) (maxIt : Nat) (r : Option ℝ) : Prop :=
  ∃ s, Widen f (-1) 1 s ∧ r = bisect f deps maxIt s

/-- `fermi_factor`, estimators/thermal.py 5-6. -/
noncomputable def fermiFactor (ek beta mu : ℝ) : ℝ := 1 / (Real.exp (beta * (ek - mu)) + 1)

end Verif.ChemPot
