import Verif.Grand.Bias

/-!
# The phaseless step at finite temperature

Model of `propagate_walker_phaseless` of `pauxy/thermal_propagation/continuous.py` and of
`propagate_walker_phaseless_full_rank` of `pauxy/thermal_propagation/planewave.py`, of `Walkers.reset`
(`pauxy/walkers/handler.py`) between two paths and of what the mixed estimator adds for a walker.  Exact arithmetic: the
magnitude of the factor is never infinite.
-/

namespace Verif.Grand

open Matrix Finset
open Verif.Thermal (Mat gfStrat)
open Verif.Step (Hub root)
open Verif.Weights (cfb cmf xshifted)

variable {nx m : Nat}

/-- A walker with the stored determinants of its Green's functions, walkers/thermal.py 62-63. -/
structure PWk (m : Nat) extends TWk m where
  M0 : Fin 2 → ℂ

/-- The Green's functions of a phaseless step: `Continuous` computes them at the number of slices, continuous.py 229-232;
`PlaneWave` as with free projection, planewave.py 473-491. -/
def phSetup (p : Par nx m) : Setup m :=
  { p.toSetup with scheme := if p.scheme = .current then .total else p.scheme }

open Classical in
/-- The end of a phaseless step, continuous.py 229-257 and planewave.py 473-517: `st` are the updated stacks.  Division by
zero sets the weight to zero.  `none`: logarithm of zero. -/
noncomputable def phFinish (p : Setup m) (mfFac cmf cfb : ℂ) (w : PWk m) (st : Fin 2 → Stack.St (Fin m) ℂ) :
    Option (PWk m) :=
  let icur := (w.stack 0).timeSlice / (w.stack 0).stackSize
  let G1 := fun s => green p.scheme p.qrp (partsOf p w.toTWk s) (st s) icur
  let Mnew := fun s => (G1 s).det
  if Mnew 0 * Mnew 1 = 0 then
    some { w with weight := 0, G := G1, stack := st, lr := partsOf p w.toTWk }
  else
    let oratio := w.M0 0 * w.M0 1 / (Mnew 0 * Mnew 1)
    if oratio = 0 then none
    else
      let hybrid := Complex.log oratio + cfb + cmf
      let expQ := mfFac * Complex.exp hybrid
      let dtheta := Complex.arg (Complex.exp (hybrid - cfb))
      some ⟨⟨w.weight * (‖expQ‖ * max 0 (Real.cos dtheta)), w.phase, w.ot, G1, st, partsOf p w.toTWk⟩, Mnew⟩

/-- A phaseless step, continuous.py 202-257 and planewave.py 443-517, for the force bias `bias`. -/
noncomputable def phStep (p : Par nx m) (mfFac : ℂ) (bias : (Fin 2 → Mat m) → Fin nx → ℂ) (xi : Fin nx → ℝ) (w : PWk m) :
    Option (PWk m) :=
  let b := xbarOf bias w.toTWk
  let B := sliceOfB p b xi
  match (w.stack 0).updateFull p.diag (p.BTinv 0) (B 0), (w.stack 1).updateFull p.diag (p.BTinv 1) (B 1) with
  | some s0, some s1 => phFinish (phSetup p) mfFac (cmf p.dt p.tab.mfShift xi b) (cfb xi b) w ![s0, s1]
  | _, _ => none

/-- A new walker with its determinants, walkers/thermal.py 58-64. -/
noncomputable def newPh (p : Setup m) (BT : Fin 2 → Mat m) (ss nsl : Nat) (w0 : ℝ) : Option (PWk m) :=
  (newWalker p BT ss nsl w0).map fun w => ⟨w, fun s => (w.G s).det⟩

/-- `Walkers.reset`, handler.py 424-430, after a path: the stacks are set to the trial density matrix again, the Green's
function is recomputed, weight and phase are one.  The determinants keep their values. -/
noncomputable def resetPh (p : Setup m) (BT : Fin 2 → Mat m) (w : PWk m) : PWk m :=
  let st := fun s => (w.stack s).reset.setAll p.diag (BT s)
  ⟨{ w.toTWk with
     weight := 1
     phase := 1
     G := fun s => gfStrat p.qrp (st s).stack (st s).stackSize (st s).timeSlice
     stack := st }, w.M0⟩

/-- What the mixed estimator adds for a walker with the phaseless constraint, mixed.py 200-209: the weight times the real
part of `E` of the density matrix of the recomputed Green's function. -/
noncomputable def phMeasure (qrp : Mat m → Mat m × Mat m × Equiv.Perm (Fin m)) (E : (Fin 2 → Mat m) → ℂ) (w : PWk m) : ℂ :=
  w.weight * ((E (rdm fun s => gfStrat qrp (w.stack s).stack (w.stack s).stackSize (w.stack s).timeSlice)).re : ℂ)

/-- The average over all fields of what is measured after `k` further slices; a failing run counts zero. -/
noncomputable def avgPh (p : Par nx m) (mfFac : ℂ) (bias : (Fin 2 → Mat m) → Fin nx → ℂ) (F : PWk m → ℂ) :
    Nat → PWk m → ℂ
  | 0, w => F w
  | k + 1, w => Step.avg fun xi => ((phStep p mfFac bias xi w).map (avgPh p mfFac bias F k)).getD 0

/-- The first path: from new walkers, all slices. -/
noncomputable def phMean (p : Par nx m) (mfFac : ℂ) (bias : (Fin 2 → Mat m) → Fin nx → ℂ) (BT : Fin 2 → Mat m)
    (ss nsl : Nat) (w0 : ℝ) (E : (Fin 2 → Mat m) → ℂ) : Option ℂ :=
  (newPh (phSetup p) BT ss nsl w0).map (avgPh p mfFac bias (phMeasure p.qrp E) nsl)

/-- A later path: from the walker `w` the last one ended with. -/
noncomputable def phNext (p : Par nx m) (mfFac : ℂ) (bias : (Fin 2 → Mat m) → Fin nx → ℂ) (BT : Fin 2 → Mat m)
    (nsl : Nat) (w : PWk m) (E : (Fin 2 → Mat m) → ℂ) : ℂ :=
  avgPh p mfFac bias (phMeasure p.qrp E) nsl (resetPh (phSetup p) BT w)

/-- What the second path adds, averaged over the fields of both paths. -/
noncomputable def phSecond (p : Par nx m) (mfFac : ℂ) (bias : (Fin 2 → Mat m) → Fin nx → ℂ) (BT : Fin 2 → Mat m)
    (ss nsl : Nat) (w0 : ℝ) (E : (Fin 2 → Mat m) → ℂ) : Option ℂ :=
  (newPh (phSetup p) BT ss nsl w0).map (avgPh p mfFac bias (fun w => phNext p mfFac bias BT nsl w E) nsl)

/-- The walker after the slices with the given fields. -/
noncomputable def runPh (p : Par nx m) (mfFac : ℂ) (bias : (Fin 2 → Mat m) → Fin nx → ℂ) :
    List (Fin nx → ℝ) → PWk m → Option (PWk m)
  | [], w => some w
  | x :: l, w => (phStep p mfFac bias x w).bind (runPh p mfFac bias l)

/-- `mf_const_fac`, continuous.py 62. -/
noncomputable def mfFacOf (dt : ℝ) (t : Step.Tables nx m) : ℂ := Complex.exp (-(dt : ℂ) * t.mfCore)

end Verif.Grand
