import Mathlib.Analysis.SpecialFunctions.Complex.Log

/-!
# The mixed estimator

Model of `Mixed` in `pauxy/estimators/mixed.py` and of the way the drivers call it
(`pauxy/qmc/afqmc.py` lines 216-250, `pauxy/qmc/thermal_afqmc.py` lines 205-232).  All ranks are
modelled together: a state is the list of the ranks' accumulators, rank 0 first.

Not modelled: the time entry, the reduced density matrices, the text printed to the screen.
Exact arithmetic; a division by zero (numpy: `nan` or `inf` with a warning) is `none`.
-/

namespace Verif.Mixed

/-- What the estimator reads of a walker at a step.  `E T V nav` are the results of
`local_energy` and `particle_number` for the walker, `slices` those at the bins of the stack
(`average_gf`, lines 181-197). -/
structure Obs where
  weight : ℝ
  unscaled : ℝ
  ot : ℂ
  phase : ℂ
  oratio : ℂ
  hyb : ℂ
  E : ℂ
  T : ℂ
  V : ℂ
  nav : ℂ
  slices : List (ℂ × ℂ × ℂ × ℂ)

/-- The regular entries of `estimates` (lines 460-469); `eproj` of the accumulator is always
zero.  `nav` only exists for thermal runs. -/
@[ext] structure Acc where
  uweight : ℂ
  weight : ℂ
  enumer : ℂ
  edenom : ℂ
  e1b : ℂ
  e2b : ℂ
  ehyb : ℂ
  ovlp : ℂ
  nav : ℂ

instance : Zero Acc := ⟨⟨0, 0, 0, 0, 0, 0, 0, 0, 0⟩⟩
instance : Add Acc := ⟨fun a b =>
  ⟨a.uweight + b.uweight, a.weight + b.weight, a.enumer + b.enumer, a.edenom + b.edenom,
   a.e1b + b.e1b, a.e2b + b.e2b, a.ehyb + b.ehyb, a.ovlp + b.ovlp, a.nav + b.nav⟩⟩

/-- Estimator options: number of steps per block, evaluation period (defaults to `nsteps`, lines
78-80), the flags. -/
structure Cfg where
  nsteps : Nat
  freq : Nat
  free : Bool
  thermal : Bool
  averageGf : Bool
  evalEnergy : Bool

/-- Free projection, lines 151-174. -/
noncomputable def addFree (c : Cfg) (step : Nat) (a : Acc) (o : Obs) : Acc :=
  let wfac : ℂ := o.weight * o.ot * o.phase
  let E := if c.evalEnergy then o.E else 0
  let T := if c.evalEnergy then o.T else 0
  let V := if c.evalEnergy then o.V else 0
  let a := if step % c.freq = 0 then
      { a with enumer := a.enumer + wfac * E, e1b := a.e1b + wfac * T, e2b := a.e2b + wfac * V,
               edenom := a.edenom + wfac }
    else a
  let a := if c.thermal then { a with nav := a.nav + wfac * o.nav } else a
  { a with uweight := a.uweight + o.unscaled, weight := a.weight + wfac,
           ehyb := a.ehyb + wfac * o.hyb, ovlp := a.ovlp + o.weight * ‖o.ot‖ }

/-- Importance sampling, lines 175-226. -/
noncomputable def addImp (c : Cfg) (step : Nat) (a : Acc) (o : Obs) : Acc :=
  let a :=
    if c.thermal then
      if c.averageGf then
        let n : ℂ := (o.slices.length : ℂ)
        let Es := (o.slices.map (·.1)).sum
        let Ts := (o.slices.map (·.2.1)).sum
        let Vs := (o.slices.map (·.2.2.1)).sum
        let ns := (o.slices.map (·.2.2.2)).sum
        { a with nav := a.nav + o.weight * ns / n, enumer := a.enumer + o.weight * (Es.re : ℂ) / n,
                 e1b := a.e1b + o.weight * (Ts.re : ℂ) / n,
                 e2b := a.e2b + o.weight * (Vs.re : ℂ) / n }
      else
        { a with nav := a.nav + o.weight * o.nav, enumer := a.enumer + o.weight * (o.E.re : ℂ),
                 e1b := a.e1b + o.weight * (o.T.re : ℂ), e2b := a.e2b + o.weight * (o.V.re : ℂ),
                 edenom := a.edenom + o.weight }
    else if step % c.freq = 0 then
      let E := if c.evalEnergy then o.E else 0
      let T := if c.evalEnergy then o.T else 0
      let V := if c.evalEnergy then o.V else 0
      { a with enumer := a.enumer + o.weight * o.oratio * (E.re : ℂ),
               e1b := a.e1b + o.weight * o.oratio * (T.re : ℂ),
               e2b := a.e2b + o.weight * o.oratio * (V.re : ℂ),
               edenom := a.edenom + o.weight * o.oratio }
    else a
  { a with uweight := a.uweight + o.unscaled, weight := a.weight + o.weight,
           ovlp := a.ovlp + o.weight * ‖o.ot‖, ehyb := a.ehyb + o.weight * o.hyb }

/-- `Mixed.update`, lines 133-226, on one rank. -/
noncomputable def update (c : Cfg) (step : Nat) (a : Acc) (ws : List Obs) : Acc :=
  ws.foldl (if c.free then addFree c step else addImp c step) a

/-- A printed row (lines 255-275); `none` for `nan`. -/
structure Row where
  step : Nat
  uweight : ℂ
  weight : ℂ
  enumer : ℂ
  edenom : ℂ
  eproj : Option ℂ
  e1b : Option ℂ
  e2b : Option ℂ
  ehyb : Option ℂ
  ovlp : Option ℂ
  nav : Option ℂ

open Classical in
/-- Division with `nan` for a zero denominator. -/
noncomputable def ndiv (a b : ℂ) : Option ℂ := if b = 0 then none else some (a / b)

/-- The ranks' estimator objects: accumulators and the shift (the same on all ranks after the
broadcast), and the rows in the output file, last first. -/
structure St where
  accs : List Acc
  shift : Option ℂ × Option ℂ
  rows : List Row

/-- Division by `nsteps` before the reduction, lines 257-258. -/
noncomputable def scale (n : Nat) (a : Acc) : Acc :=
  { a with uweight := a.uweight / n, weight := a.weight / n, ehyb := a.ehyb / n,
           ovlp := a.ovlp / n, nav := a.nav / n }

/-- The row rank 0 makes from the reduced accumulators, lines 261-275. -/
noncomputable def rowOf (step : Nat) (g : Acc) : Row :=
  { step := step, uweight := g.uweight, weight := g.weight, enumer := g.enumer, edenom := g.edenom
    eproj := ndiv g.enumer g.edenom, e1b := ndiv g.e1b g.edenom, e2b := ndiv g.e2b g.edenom
    ehyb := ndiv g.ehyb g.weight, ovlp := ndiv g.ovlp g.weight, nav := ndiv g.nav g.weight }

/-- `Mixed.print_step` on all ranks together (collective: `Reduce` and `bcast`), lines 235-289.
`nsteps` is the optional argument. -/
noncomputable def printStep (c : Cfg) (step : Nat) (nsteps : Option Nat) (s : St) : St :=
  if step % c.nsteps ≠ 0 then s
  else
    let g := ((s.accs.map (scale (nsteps.getD c.nsteps))).foldl (· + ·) 0)
    let r := rowOf step g
    { accs := s.accs.map fun _ => 0, shift := (r.ehyb, r.eproj), rows := r :: s.rows }

/-- `update` on all ranks. -/
noncomputable def updateAll (c : Cfg) (step : Nat) (obs : List (List Obs)) (s : St) : St :=
  { s with accs := List.zipWith (update c step) s.accs obs }

/-- The estimator calls of the step loop: `obs` gives per step the walkers of each rank
(afqmc.py lines 240-246, thermal_afqmc.py 226-231). -/
noncomputable def loop (c : Cfg) : Nat → List (List (List Obs)) → St → St
  | _, [], s => s
  | step, o :: os, s => loop c (step + 1) os (printStep c step none (updateAll c step o s))

/-- The estimator calls of a run of `AFQMC.run` (afqmc.py 216-246): the walkers before the first
step are accumulated, and printed only if `verbose`.  `ThermalAFQMC.run` always prints. -/
noncomputable def run (c : Cfg) (verbose : Bool) (nranks : Nat) (o0 : List (List Obs))
    (os : List (List (List Obs))) : St :=
  let s0 : St := { accs := List.replicate nranks 0, shift := (some 0, some 0), rows := [] }
  let s1 := updateAll c 0 o0 s0
  let s2 := if verbose then printStep c 0 (some 1) s1 else s1
  loop c 1 os s2

/-- `get_shift`, lines 345-360. -/
noncomputable def getShift (s : St) (hybrid : Bool) : Option ℝ :=
  if hybrid then s.shift.1.map Complex.re else s.shift.2.map Complex.re

end Verif.Mixed
