import Verif.Grand.Model
import Verif.Slater.ThermalHS

/-!
# Free projection at finite temperature with discrete fields

Model of `propagate_walker_free` of `ThermalDiscrete` (`pauxy/thermal_propagation/hubbard.py` 144-176) with the tables of
`Verif.Hirsch` (lines 10-86).  The full-rank stack is used.  The random fields are an argument.
-/

namespace Verif.Grand

open Matrix
open Verif.Thermal (Mat)
open Verif.Hirsch (thermalWfac thermalSlice)

variable {m : Nat}

/-- The physical input: decomposition, form of the interaction, sign convention of the chemical potential, Hubbard
parameters, one-body Hamiltonian. -/
structure DSys (m : Nat) where
  charge : Bool
  symmetric : Bool
  alt : Bool
  U : ℝ
  mu : ℝ
  H1 : Fin 2 → Mat m

/-- The propagator: `muT` is the chemical potential of the trial density matrix, `γ` is `self.gamma`. -/
structure DPar (m : Nat) extends DSys m where
  dt : ℝ
  muT : ℝ
  γ : ℂ
  BTinv : Fin 2 → Mat m
  diag : Bool
  qrp : Mat m → Mat m × Mat m × Equiv.Perm (Fin m)

/-- The Green's functions are computed at the number of slices (lines 155, 159). -/
def DPar.setup (p : DPar m) : Setup m := ⟨.total, p.BTinv, p.diag, p.qrp⟩

/-- `wfac`, lines 150-152. -/
noncomputable def discFactor (p : DPar m) (x : Fin m → Fin 2) : ℂ := ∏ i, thermalWfac p.charge p.dt p.U p.γ (x i)

/-- `B`, lines 146-149. -/
noncomputable def discSlice (p : DPar m) (x : Fin m → Fin 2) (s : Fin 2) : Mat m :=
  thermalSlice p.charge p.symmetric p.alt p.dt p.U p.mu p.muT p.γ (p.H1 s) x s

/-- `propagate_walker_free`, lines 144-177. -/
noncomputable def discStep (p : DPar m) (x : Fin m → Fin 2) (w : TWk m) : Option (TWk m) :=
  stepWith p.setup (discFactor p x) (discSlice p x) w

/-- The average over all fields (line 145: uniform and independent) of what is measured after `k` further slices. -/
noncomputable def discPath (p : DPar m) (F : TWk m → ℂ) : Nat → TWk m → ℂ
  | 0, w => F w
  | k + 1, w => (1 / 2) ^ m * ∑ x : Fin m → Fin 2, ((discStep p x w).map (discPath p F k)).getD 0

/-- A run from new walkers through all slices. -/
noncomputable def discMean (p : DPar m) (BT : Fin 2 → Mat m) (ss nsl : Nat) (w0 : ℝ) (E : (Fin 2 → Mat m) → ℂ) : Option ℂ :=
  (newWalker p.setup BT ss nsl w0).map (discPath p (measure p.qrp E) nsl)

end Verif.Grand
