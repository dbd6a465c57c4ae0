import Verif.Stack.Props
import Mathlib.Data.Int.Log
import Mathlib.Algebra.Order.Round
import Mathlib.Data.Rat.Floor

/-!
# Numbers of time slices, bins and steps computed from times

`ThermalAFQMC.__init__` and `run` (`pauxy/qmc/thermal_afqmc.py` 120-222), `OneBody` (`pauxy/trial_density_matrices/onebody.py` 53-75), the
stack of a thermal walker (`pauxy/walkers/thermal.py` 16-56), `QMCOpts` and reduced units (`pauxy/qmc/options.py` 5-20 and 84-119),
the windows of `pauxy/estimators/back_propagation.py` 65 and `pauxy/estimators/itcf.py` 86-90.

Times are rational numbers; `fl` rounds to the nearest number with 53 binary digits.  Simplified: no overflow and no denormal numbers.
-/

namespace Verif.Slices

open Verif.Stack

/-! ## Floating point -/

/-- Nearest integer, ties to even: Python's `round`. -/
def rne (x : ℚ) : ℤ :=
  if x - ⌊x⌋ < 1 / 2 then ⌊x⌋ else if 1 / 2 < x - ⌊x⌋ then ⌊x⌋ + 1 else if ⌊x⌋ % 2 = 0 then ⌊x⌋ else ⌊x⌋ + 1

/-- Rounding to double precision, to nearest, ties to even. -/
def fl (x : ℚ) : ℚ := rne (x / 2 ^ (Int.log 2 |x| - 52)) * 2 ^ (Int.log 2 |x| - 52)

/-- Division of Python floats. -/
def fdiv (a b : ℚ) : ℚ := fl (a / b)

/-! ## Slices -/

/-- `int(round(beta/dt))`, the slices the driver runs over; thermal_afqmc.py 122. -/
def driverSlices (q : ℚ) : Nat := (rne q).toNat

/-- `int(beta/dt)` for positive arguments, the slices of the trial and of the stack of a walker (onebody.py 53, walkers/thermal.py 16 and 51), and the
steps of a back-propagation window, of correlation functions and of the equilibration (back_propagation.py 65, itcf.py 86-89, options.py 111). -/
def whole (q : ℚ) : Nat := ⌊q⌋.toNat

/-- `num_bins`, onebody.py 75. -/
def bins (beta dt : ℚ) (stackSize : Nat) : Nat := whole (fdiv beta (fl (stackSize * dt)))

variable {m : Type} [Fintype m] [DecidableEq m] {R : Type} [CommRing R]

/-- The stack of a walker over the paths of a run, thermal_afqmc.py 212-236: each slice of a path updates the stack with its matrix, after
the path the stack is reset to the trial.  `none` if an update raises. -/
def paths (diag : Bool) (BT : Matrix m m R) : List (List (Matrix m m R)) → St m R → Option (St m R)
  | [], s => some s
  | Bs :: l, s => match s.updates Bs with
    | none => none
    | some s' => paths diag BT l (s'.reset.setAll diag BT)

/-- The same with the update `update_full_rank` that the propagators without constraint and with continuous fields use. -/
def pathsFull (diag : Bool) (BT BTinv : Matrix m m R) : List (List (Matrix m m R)) → St m R → Option (St m R)
  | [], s => some s
  | Bs :: l, s => match s.updatesFull diag BTinv Bs with
    | none => none
    | some s' => pathsFull diag BT BTinv l (s'.reset.setAll diag BT)

/-! ## Options -/

/-- The first of the keys that is set, otherwise the default: `get_input_value`, utils/io.py 304-323. -/
def option (o : List (String × ℚ)) (keys : List String) (d : ℚ) : ℚ := (keys.findSome? fun k => o.lookup k).getD d

/-- What `QMCOpts` makes of the options on time, options.py 88-117; `ef` is the Fermi energy. -/
structure Times where
  dt : ℚ
  beta : ℚ
  neqlb : Nat
  deriving DecidableEq

/-- `QMCOpts.__init__` with `beta` set, options.py 84-117: `none` if it raises.  Simplified: exact arithmetic. -/
def times (ueg : Bool) (ef : ℚ) (o : List (String × ℚ)) (scaled : Bool) : Option Times :=
  let dt := option o ["timestep", "dt"] (5 / 1000)
  let neqlb := whole (option o ["equilibration_time", "tau_eqlb"] 2 / dt)
  match o.lookup "beta" with
  | none => none
  | some beta =>
    if scaled then
      if ueg then
        match o.lookup "dt" with
        | none => none
        | some d => some ⟨d / ef, beta / ef, neqlb⟩
      else none
    else some ⟨dt, beta, neqlb⟩

end Verif.Slices
