import Verif.Thermal.Model
import Verif.Stack.Model
import Mathlib.Analysis.Complex.Exponential

/-!
# Thermal propagation with discrete auxiliary fields

Model of `ThermalDiscrete` in `pauxy/thermal_propagation/hubbard.py` (constrained propagation) and
of the adjustment of the stabilisation frequency in `pauxy/walkers/handler.py`.  Spins are `0, 1`.
-/

namespace Verif.Thermal

open Matrix

variable {n : Nat}

/-- `Walkers.__init__`, handler.py 86-103: the stabilisation frequency of a thermal Hubbard run.
`none`: error (modulo by zero, or the loops of `update_stack` fail). -/
def adjustNstblz (fuel nstblz stackSize : Nat) : Option Nat :=
  if nstblz = 0 then none
  else if stackSize % nstblz ≠ 0 ∨ nstblz < stackSize then
    if nstblz < stackSize then some stackSize
    else match Stack.updateStack fuel nstblz stackSize with
      | .done r => some r
      | _ => none
  else some nstblz

/-- Parameters of the propagator: auxiliary factors `auxf[xi, spin]`, one-body propagator, trial
density matrix and its inverse, factorisation used for the Green's function, stabilisation
frequency, energy shift. -/
structure Params (n : Nat) where
  auxf : Fin 2 → Fin 2 → ℂ
  BH1 : Fin 2 → Mat n
  BT : Fin 2 → Mat n
  BTinv : Fin 2 → Mat n
  qrp : Mat n → Mat n × Mat n × Equiv.Perm (Fin n)
  nstblz : Nat
  eshift : ℝ

/-- `self.delta` (hubbard.py 49). -/
def Params.delta (p : Params n) (xi s : Fin 2) : ℂ := p.auxf xi s - 1

/-- The walker (weight, Green's function, stack) together with the work array `BV` of the
propagator, which is shared by all walkers and keeps its old content. -/
structure Wk (n : Nat) where
  weight : ℝ
  G : Fin 2 → Mat n
  stack : Fin 2 → Stack.St (Fin n) ℂ
  BV : Fin 2 → Fin n → ℂ

/-- `calculate_overlap_ratio`, hubbard.py 107-112. -/
noncomputable def ratio (p : Params n) (G : Fin 2 → Mat n) (i : Fin n) (xi : Fin 2) : ℂ :=
  (1 / 2) * ((1 + (1 - G 0 i i) * p.delta xi 0) * (1 + (1 - G 1 i i) * p.delta xi 1))

/-- `update_greens_function`, hubbard.py 91-100, one spin. -/
noncomputable def updG (δ : ℂ) (G : Mat n) (i : Fin n) : Mat n :=
  fun a b => G a b - δ * (G a i * ((if b = i then 1 else 0) - G i b)) / (1 + (1 - G i i) * δ)

open Classical in
/-- The field chosen at a site: the first one if `r < p_0 / (p_0 + p_1)` where `p` are the
truncated real ratios (hubbard.py 121-131). -/
noncomputable def choose (p : Params n) (G : Fin 2 → Mat n) (i : Fin n) (r : ℝ) : Fin 2 :=
  if r < max (ratio p G i 0).re 0 / (max (ratio p G i 0).re 0 + max (ratio p G i 1).re 0)
  then 0 else 1

open Classical in
/-- Loop body over sites, hubbard.py 119-136. -/
noncomputable def siteStep (p : Params n) (rs : Fin n → ℝ) (w : Wk n) (i : Fin n) : Wk n :=
  let norm := max (ratio p w.G i 0).re 0 + max (ratio p w.G i 1).re 0
  if 0 < norm then
    let xi := choose p w.G i (rs i)
    { w with
      weight := w.weight * norm * Real.exp p.eshift
      G := fun s => updG (p.delta xi s) (w.G s) i
      BV := fun s => Function.update (w.BV s) i (p.auxf xi s) }
  else { w with weight := 0 }

/-- The loop over sites. -/
noncomputable def sweep (p : Params n) (rs : Fin n → ℝ) (w : Wk n) : Wk n :=
  (List.finRange n).foldl (siteStep p rs) w

/-- `propagate_walker_constrained`, hubbard.py 117-142, including `propagate_greens_function`
(102-105). `none`: index error in the stack. -/
noncomputable def propagate (p : Params n) (rs : Fin n → ℝ) (w : Wk n) : Option (Wk n) :=
  let w1 := sweep p rs w
  let B := fun s => diagonal (w1.BV s) * p.BH1 s
  match (w1.stack 0).update (B 0), (w1.stack 1).update (B 1) with
  | some a, some b =>
    let st : Fin 2 → Stack.St (Fin n) ℂ := ![a, b]
    let G1 := fun s => if (st s).timeSlice % p.nstblz = 0 then
      gfStrat p.qrp (st s).stack (st s).stackSize ((st s).timeSlice - 1) else w1.G s
    let G2 := fun s => if (st s).timeSlice < (st s).nslices then p.BT s * G1 s * p.BTinv s else G1 s
    some { w1 with stack := st, G := G2 }
  | _, _ => none

/-- A path: one propagation per slice, with its random numbers. -/
noncomputable def path (p : Params n) : List (Fin n → ℝ) → Wk n → Option (Wk n)
  | [], w => some w
  | rs :: l, w => match propagate p rs w with
    | none => none
    | some w' => path p l w'

/-- A new walker, walkers/thermal.py 48-61: stacks set to the trial density matrix, Green's function
computed from the stack at slice 0. -/
noncomputable def newWalker (p : Params n) (diag : Bool) (ss nsl : Nat) (BV : Fin 2 → Fin n → ℂ)
    (w0 : ℝ) : Option (Wk n) :=
  match (Stack.St.make ss nsl).map (Stack.St.setAll diag (p.BT 0)),
    (Stack.St.make ss nsl).map (Stack.St.setAll diag (p.BT 1)) with
  | some a, some b =>
    let st : Fin 2 → Stack.St (Fin n) ℂ := ![a, b]
    some ⟨w0, fun s => gfStrat p.qrp (st s).stack (st s).stackSize (st s).timeSlice, st, BV⟩
  | _, _ => none

end Verif.Thermal
