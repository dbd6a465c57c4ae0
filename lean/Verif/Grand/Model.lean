import Verif.Step.PlaneWave
import Verif.Thermal.Props
import Verif.Stack.Props

/-!
# Free projection at finite temperature

Model of `propagate_walker_free` of `pauxy/thermal_propagation/continuous.py`, of
`propagate_walker_free_full_rank` of `pauxy/thermal_propagation/planewave.py` (both ways of computing
the Green's function), of the tables these propagators are built with, of a new walker
(`pauxy/walkers/thermal.py`) and of what the mixed estimator adds for a walker
(`pauxy/estimators/mixed.py`).  The force bias is off, the default with free projection; the full-rank
stack is used.  The random fields are an argument.  Exact arithmetic; `scipy.linalg.expm` is the
exponential of matrices and `scipy.linalg.qr` a parameter.
-/

namespace Verif.Grand

open Matrix
open Verif.Thermal (Mat QDT rightPart leftPart getBin stratStep stratFirst stratG splitLive gfStrat)
open Verif.Step (Tables Hub root)

variable {nx m : Nat}

/-- How a step computes the Green's functions before and after it. -/
inductive Scheme where
  /-- `Continuous`: stratified at the current slice, continuous.py 188-192 -/
  | current
  /-- `PlaneWave` with `optimised = False`: stratified at the number of slices, planewave.py 353-360 -/
  | total
  /-- `PlaneWave` with `optimised = True`: left-right scheme, planewave.py 342-352 -/
  | leftRight
  deriving DecidableEq

/-- What a walker holds, walkers/thermal.py 15-86; `lr` is `Qr`, `Dr`, `Tr` and `Dl`. -/
structure TWk (m : Nat) where
  weight : ℝ
  phase : ℂ
  ot : ℂ
  G : Fin 2 → Mat m
  stack : Fin 2 → Stack.St (Fin m) ℂ
  lr : Fin 2 → QDT m × (Fin m → ℂ)

/-- What the stack and the Green's functions of a walker need. -/
structure Setup (m : Nat) where
  scheme : Scheme
  /-- `trial.dmat_inv`, used by the stack -/
  BTinv : Fin 2 → Mat m
  /-- `diagonal_trial` -/
  diag : Bool
  qrp : Mat m → Mat m × Mat m × Equiv.Perm (Fin m)

/-- What a step reads of the propagator and of the trial density matrix. -/
structure Par (nx m : Nat) extends Setup m where
  /-- `exp_nmax` -/
  order : Nat
  dt : ℝ
  tab : Tables nx m

/-- The propagator of a slice: continuous.py 182-183, `BH1.dot(BV.dot(BH1))`; planewave.py 332-339,
where only the diagonals of `BH1` are read. -/
noncomputable def slab (sch : Scheme) (BH1 BV : Mat m) : Mat m :=
  match sch with
  | .current => BH1 * (BV * BH1)
  | _ => Matrix.of fun i j => BH1 i i * (BV i j * BH1 j j)

/-- `compute_left_right`, walkers/thermal.py 186-235: for the first bin the right part and for the last bin the
left part is not computed and keeps its value. -/
noncomputable def computeLR (qrp : Mat m → Mat m × Mat m × Equiv.Perm (Fin m)) (bins : List (Mat m)) (c : Nat)
    (old : QDT m × (Fin m → ℂ)) : QDT m × (Fin m → ℂ) :=
  (if 0 < c then rightPart qrp bins c else old.1, if c < bins.length - 1 then leftPart bins c else old.2)

/-- `greens_function_left_right_no_truncation`, walkers/thermal.py 396-468, with the stored parts. -/
noncomputable def gfStored (qrp : Mat m → Mat m × Mat m × Equiv.Perm (Fin m)) (lr : QDT m × (Fin m → ℂ))
    (bins : List (Mat m)) (c : Nat) : Mat m :=
  let Bc := getBin bins c
  let s := if 0 < c then stratStep qrp lr.1 Bc else stratFirst qrp Bc
  let s := if c < bins.length - 1 then stratStep qrp s (diagonal lr.2) else s
  stratG (splitLive s.D).1 (splitLive s.D).2 s

/-- The Green's function a step computes; `icur` is the bin before the update (planewave.py 343). -/
noncomputable def green (sch : Scheme) (qrp : Mat m → Mat m × Mat m × Equiv.Perm (Fin m))
    (lr : QDT m × (Fin m → ℂ)) (st : Stack.St (Fin m) ℂ) (icur : Nat) : Mat m :=
  match sch with
  | .current => gfStrat qrp st.stack st.stackSize st.timeSlice
  | .total => gfStrat qrp st.stack st.stackSize st.nslices
  | .leftRight => gfStored qrp lr st.stack icur

/-- The parts stored when the step computes Green's functions: recomputed at the first slice of a bin, planewave.py
342-345. -/
noncomputable def partsOf (p : Setup m) (w : TWk m) (s : Fin 2) : QDT m × (Fin m → ℂ) :=
  if p.scheme = .leftRight ∧ (w.stack 0).counter = 0 then
    computeLR p.qrp (w.stack s).stack ((w.stack 0).timeSlice / (w.stack 0).stackSize) (w.lr s)
  else w.lr s

open Classical in
/-- The end of a step, continuous.py 190-203, planewave.py 351-378 and hubbard.py 155-177: `st` are the updated stacks,
`x` is the scalar factor of the fields.  Division by zero sets the weight to zero. -/
noncomputable def finish (p : Setup m) (w : TWk m) (x : ℂ) (st : Fin 2 → Stack.St (Fin m) ℂ) : TWk m :=
  let icur := (w.stack 0).timeSlice / (w.stack 0).stackSize
  let G0 := fun s => green p.scheme p.qrp (partsOf p w s) (w.stack s) icur
  let G1 := fun s => green p.scheme p.qrp (partsOf p w s) (st s) icur
  let M0 := (G0 0).det * (G0 1).det
  let M1 := (G1 0).det * (G1 1).det
  let z := x * (M0 / M1)
  if M1 = 0 then { w with weight := 0, G := G1, stack := st, lr := partsOf p w }
  else ⟨w.weight * ‖z‖, w.phase * Complex.exp (Complex.I * (Complex.arg z : ℂ)), 1, G1, st, partsOf p w⟩

/-- A step of free projection with the propagators `B` of the slice: the stacks are updated (`update_new`, the
full-rank update).  `none`: index error in the stack. -/
noncomputable def stepWith (p : Setup m) (x : ℂ) (B : Fin 2 → Mat m) (w : TWk m) : Option (TWk m) :=
  match (w.stack 0).updateFull p.diag (p.BTinv 0) (B 0), (w.stack 1).updateFull p.diag (p.BTinv 1) (B 1) with
  | some a, some b => some (finish p w x ![a, b])
  | _, _ => none

/-- The force bias is off: `xbar` is zero, continuous.py 95-103 and planewave.py 240-262. -/
noncomputable def noBias : Fin nx → ℂ := fun _ => Weights.rescale 0

/-- The propagator of the slice for the fields `xi`: `two_body_propagator` (continuous.py 84-120, planewave.py 219-276)
and `exponentiate` (125-155, 278-307), which starts from the identity. -/
noncomputable def sliceOf (p : Par nx m) (xi : Fin nx → ℝ) (s : Fin 2) : Mat m :=
  slab p.scheme (p.tab.BH1 s) (Slater.applyExponential p.order (p.tab.vhs (Weights.xshifted xi noBias) s) 1)

/-- `propagate_walker_free`, continuous.py 157-200, and `propagate_walker_free_full_rank`, planewave.py 313-378;
the scalar factor is `exp(cmf + cfb)`. -/
noncomputable def freeStep (p : Par nx m) (xi : Fin nx → ℝ) (w : TWk m) : Option (TWk m) :=
  stepWith p.toSetup (Complex.exp (Weights.cmf p.dt p.tab.mfShift xi noBias + Weights.cfb xi noBias)) (sliceOf p xi) w

/-- A new walker, walkers/walker.py 11-37 and walkers/thermal.py 51-77: stacks set to the trial density matrix `BT`,
Green's function at slice 0. -/
noncomputable def newWalker (p : Setup m) (BT : Fin 2 → Mat m) (ss nsl : Nat) (w0 : ℝ) : Option (TWk m) :=
  match Stack.fresh p.diag (BT 0) ss nsl, Stack.fresh p.diag (BT 1) ss nsl with
  | some a, some b =>
    let st : Fin 2 → Stack.St (Fin m) ℂ := ![a, b]
    some ⟨w0, 1, 1, fun s => gfStrat p.qrp (st s).stack (st s).stackSize (st s).timeSlice, st,
      fun _ => (⟨1, fun _ => 1, 1⟩, fun _ => 1)⟩
  | _, _ => none

/-- `one_rdm_from_G`, estimators/thermal.py 112-129. -/
noncomputable def rdm (G : Fin 2 → Mat m) (s : Fin 2) : Mat m := 1 - (G s)ᵀ

/-- What the mixed estimator adds for a walker with free projection, mixed.py 152-170: `weight · ot · phase` times
`E` of the density matrix of the recomputed Green's function. -/
noncomputable def measure (qrp : Mat m → Mat m × Mat m × Equiv.Perm (Fin m)) (E : (Fin 2 → Mat m) → ℂ) (w : TWk m) : ℂ :=
  w.weight * w.ot * w.phase *
    E (rdm fun s => gfStrat qrp (w.stack s).stack (w.stack s).stackSize (w.stack s).timeSlice)

/-- The average over all fields of what is measured after `k` further slices; a failing run counts zero. -/
noncomputable def avgPath (p : Par nx m) (F : TWk m → ℂ) : Nat → TWk m → ℂ
  | 0, w => F w
  | k + 1, w => Step.avg fun xi => ((freeStep p xi w).map (avgPath p F k)).getD 0

/-- A run from new walkers: `nsl` slices of the trial density matrix, all of them propagated. -/
noncomputable def runMean (p : Par nx m) (BT : Fin 2 → Mat m) (ss nsl : Nat) (w0 : ℝ) (E : (Fin 2 → Mat m) → ℂ) : Option ℂ :=
  (newWalker p.toSetup BT ss nsl w0).map (avgPath p (measure p.qrp E) nsl)

/-- `HubbardContinuous` at finite temperature, thermal_propagation/hubbard.py 200-250, for the density matrix `P` of
the trial and the chemical potential `mu`; with `alt` (`_alt_convention`) its sign is reversed (line 228). -/
noncomputable def hubTables (dt : ℝ) (h : Hub m) (alt : Bool) (mu : ℝ) (P : Fin 2 → Mat m) : Tables m m where
  mfShift := fun i => Complex.I * root h.U * (P 0 i i + P 1 i i)
  mfCore := 1 / 2 * ∑ i, (Complex.I * root h.U * (P 0 i i + P 1 i i)) * (Complex.I * root h.U * (P 0 i i + P 1 i i))
  BH1 := fun s => NormedSpace.exp ((-(1 / 2) * dt : ℂ) •
    (h.h1eMod s - ((Complex.I * root h.U) • diagonal (fun i => Complex.I * root h.U * (P 0 i i + P 1 i i)) -
      (if alt then (1 : ℂ) else -1) • (mu : ℂ) • 1)))
  vhs := fun x _ => diagonal fun i => (Real.sqrt dt : ℂ) * (Complex.I * root h.U) * x i

/-- `PlaneWave` at finite temperature, thermal_propagation/planewave.py 82-107 and 178-194, for the density matrix
`P` of the trial and the chemical potential `mu`. -/
noncomputable def uegThermal (dt : ℝ) (I : UEG.Inp) (mu : ℝ) (P : Fin 2 → Mat (UEG.nb I)) :
    Tables ((UEG.qvecs I).length + (UEG.qvecs I).length) (UEG.nb I) where
  mfShift := Fin.addCases
    (fun q => ∑ i, ∑ k, P 0 i k * UEG.iA I (UEG.qvecs I)[q] i k + ∑ i, ∑ k, P 1 i k * UEG.iA I (UEG.qvecs I)[q] i k)
    (fun q => ∑ i, ∑ k, P 0 i k * UEG.iB I (UEG.qvecs I)[q] i k + ∑ i, ∑ k, P 1 i k * UEG.iB I (UEG.qvecs I)[q] i k)
  mfCore := 0
  BH1 := fun _ => NormedSpace.exp ((-(1 / 2) * dt : ℂ) • (diagonal fun i => (UEG.modOneBody I i : ℂ)) +
    (1 / 2 * dt * mu : ℂ) • 1)
  vhs := fun x _ => (Real.sqrt dt : ℂ) • (∑ q, x (Fin.castAdd _ q) • UEG.iA I (UEG.qvecs I)[q] +
    ∑ q, x (Fin.natAdd _ q) • UEG.iB I (UEG.qvecs I)[q])

end Verif.Grand
