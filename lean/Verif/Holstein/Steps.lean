import Verif.Holstein.Model
import Mathlib.Probability.Distributions.Gaussian.Real

/-!
# The phonon steps of `HirschDMC`

Model of `boson_importance_sampling` (`pauxy/propagation/hubbard_holstein.py` 314-356) for a trial with one coherent state, and of the
sampling of the first coordinates.  `HirschDMC.__init__` reads the undefined name `inputs` (line 65), so the class cannot be set up as it
is; the steps are modelled as they are written.
-/

namespace Verif.Holstein

open MeasureTheory ProbabilityTheory

variable {n : Nat}

/-- What the phonon steps read and write of a walker. -/
structure PhWalker (n : Nat) where
  X : Fin n → ℝ
  weight : ℝ
  ot : ℂ

/-- `eshift_boson`, hubbard_holstein.py 146. -/
noncomputable def eshift (o : Osc n) : ℝ := o.localEnergy o.shift

/-- `boson_importance_sampling`, hubbard_holstein.py 314-356, without `sorella`: drift, move by `dX`, weight and overlap. -/
noncomputable def bosonStep (o : Osc n) (dt : ℝ) (dX : Fin n → ℝ) (p : PhWalker n) : PhWalker n :=
  let driftold := fun i => dt / o.m * o.gradient p.X i
  let elocold := o.localEnergy p.X
  let Xnew := fun i => p.X i + dX i + driftold i
  let eloc := o.localEnergy Xnew
  ⟨Xnew, p.weight * Real.exp (-(1 / 2) * dt * (eloc + elocold - 2 * eshift o)), p.ot * ((o.value Xnew / o.value p.X : ℝ) : ℂ)⟩

/-- The law of `dX`: `numpy.random.normal` with scale `√dt / √m` for every site (hubbard_holstein.py 334). -/
noncomputable def moves (n : Nat) (m dt : ℝ) : Measure (Fin n → ℝ) := Measure.pi fun _ => gaussianReal 0 (dt / m).toNNReal

/-- Average of what the walker contributes to `⟨f|Ψ⟩`, its weight times `f(X)` over its overlap, after `N` steps. -/
noncomputable def meanAfter (o : Osc n) (dt : ℝ) (f : (Fin n → ℝ) → ℝ) : Nat → PhWalker n → ℂ
  | 0, p => p.weight * f p.X / p.ot
  | N + 1, p => ∫ dX, meanAfter o dt f N (bosonStep o dt dX p) ∂moves n o.m dt

/-- `Ek` of the `sorella` branch, hubbard_holstein.py 327 and 348. -/
noncomputable def sorellaKinetic (o : Osc n) (X : Fin n → ℝ) : ℝ := 1 / 2 / o.m * ∑ i, o.laplacian X i * o.laplacian X i

/-- `Ev + Ev2` of the `sorella` branch, hubbard_holstein.py 324-325 and 345-346. -/
noncomputable def sorellaPotential (o : Osc n) (U g : ℝ) (X : Fin n → ℝ) : ℝ :=
  1 / 2 * o.m * o.w ^ 2 * (1 - 2 * g ^ 2 / (o.w * U)) * ∑ i, X i * X i - 1 / 2 * Real.sqrt (2 * o.m * o.w) * g * ∑ i, X i

/-- One Metropolis step of the walkers' set-up, single_det.py 47-57 and multi_coherent.py 79-90: `chi` normal, `u` uniform. -/
noncomputable def metropolis (o : Osc n) (chi : Fin n → ℝ) (u : ℝ) (X : Fin n → ℝ) : Fin n → ℝ :=
  let posnew := fun i => X i + Real.sqrt 0.005 * chi i
  let wfold := o.value X
  let wfnew := o.value posnew
  if u < wfnew * wfnew / (wfold * wfold) then posnew else X

end Verif.Holstein
