import Mathlib.Analysis.SpecialFunctions.Complex.Log
import Mathlib.Analysis.SpecialFunctions.Pow.Real

/-!
# Weight update of continuous propagation

Model of the weight part of `Continuous` in `pauxy/propagation/continuous.py`.  The overlaps before
and after the step and the constants of the fields are arguments.  Exact arithmetic: the branch for
an infinite magnitude (lines 289-291 and 315-317, which uses an undefined name) is not modelled.
-/

namespace Verif.Weights

/-- What the weight update reads and writes of a walker. -/
structure Wk where
  weight : ℝ
  hyb : ℂ
  eloc : ℂ
  ot : ℂ

/-- `self.ebound` (line 66). -/
noncomputable def ebound (dt : ℝ) : ℝ := Real.sqrt (2 / dt)

open Classical in
/-- `apply_bound_hybrid`, lines 202-214; the shift is a real number (mixed.py 345-360). -/
noncomputable def boundHybrid (dt : ℝ) (e : ℂ) (eshift : ℝ) : ℂ :=
  if |eshift| < 1e-10 then e
  else if eshift + ebound dt < e.re then (eshift + ebound dt : ℝ) + Complex.I * e.im
  else if e.re < eshift - ebound dt then (eshift - ebound dt : ℝ) + Complex.I * e.im
  else e

open Classical in
/-- `apply_bound_local_energy`, lines 216-230. -/
noncomputable def boundLocal (dt : ℝ) (e : ℂ) (eshift : ℝ) : ℂ :=
  if |eshift| < 1e-10 then e
  else if eshift + ebound dt < e.re then ((eshift + ebound dt : ℝ) : ℂ)
  else if e.re < eshift - ebound dt then ((eshift - ebound dt : ℝ) : ℂ)
  else e

/-- Data of a step: overlap before and after, the constants `cfb`, `cmf`, and the local energy of
the new walker (only used by the local-energy update). -/
structure Step where
  ovlp : ℂ
  ovlpNew : ℂ
  cfb : ℂ
  cmf : ℂ
  eloc : ℂ

/-- The hybrid energy of a step after capping (lines 265-267). -/
noncomputable def hybridEnergy (dt eshift : ℝ) (s : Step) : ℂ :=
  boundHybrid dt (-(Complex.log (s.ovlpNew / s.ovlp) + s.cfb + s.cmf) / dt) eshift

/-- `update_weight_hybrid`, lines 264-288: the walker and the pair of factors pushed to the field
history. -/
noncomputable def updateHybrid (dt eshift : ℝ) (s : Step) (w : Wk) : Wk × (ℂ × ℂ) :=
  let h := hybridEnergy dt eshift s
  let imp := Complex.exp (-(dt : ℂ) * (1 / 2 * (h + w.hyb) - eshift))
  let magn := ‖imp‖
  let dtheta := (-(dt : ℂ) * h - s.cfb).im
  let cosine := max 0 (Real.cos dtheta)
  ({ w with hyb := h, weight := w.weight * (magn * cosine), ot := s.ovlpNew },
    if (1e-16 : ℝ) < magn then (imp / magn, (cosine : ℂ)) else (0, 0))

/-- `update_weight_local_energy`, lines 294-314. -/
noncomputable def updateLocal (dt eshift : ℝ) (s : Step) (w : Wk) : Wk × (ℂ × ℂ) :=
  let re := boundLocal dt s.eloc eshift
  let magn := Real.exp (-(1 / 2) * dt * (re + w.eloc - eshift).re)
  let wfacImag := Real.exp (-(1 / 2) * dt * (s.eloc + w.eloc - eshift).im)
  let dtheta := Complex.arg (s.ovlpNew / s.ovlp)
  let cosine := max 0 (Real.cos dtheta)
  ({ w with eloc := s.eloc, weight := w.weight * (magn * cosine), ot := s.ovlpNew },
    if (1e-16 : ℝ) < magn then ((wfacImag : ℂ), (cosine : ℂ)) else (0, 0))

/-- Successive hybrid updates with the same shift. -/
noncomputable def runHybrid (dt eshift : ℝ) (ss : List Step) (w : Wk) : Wk :=
  ss.foldl (fun w s => (updateHybrid dt eshift s w).1) w

/-! ## Fields and force bias -/

open Classical in
/-- Rescaling of a component of the force bias, lines 139-150. -/
noncomputable def rescale (x : ℂ) : ℂ := if 1 < ‖x‖ then x / ‖x‖ else x

/-- `xshifted`, `cmf`, `cfb` of `two_body_propagator`, lines 152-157, for `n` fields. -/
noncomputable def xshifted {n : Nat} (xi : Fin n → ℝ) (xbar : Fin n → ℂ) : Fin n → ℂ :=
  fun i => xi i - xbar i

noncomputable def cmf {n : Nat} (dt : ℝ) (mf : Fin n → ℂ) (xi : Fin n → ℝ) (xbar : Fin n → ℂ) : ℂ :=
  -(Real.sqrt dt) * ∑ i, xshifted xi xbar i * mf i

noncomputable def cfb {n : Nat} (xi : Fin n → ℝ) (xbar : Fin n → ℂ) : ℂ :=
  ∑ i, (xi i : ℂ) * xbar i - 1 / 2 * ∑ i, xbar i * xbar i

end Verif.Weights
