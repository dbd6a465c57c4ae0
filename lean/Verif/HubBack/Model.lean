import Verif.HubRun.Chain
import Verif.BackProp.Window

/-!
# Back propagation in constrained runs of the Hubbard model

`pauxy/estimators/back_propagation.py` 127-225 (`update_uhf`) with `back_propagate` of `pauxy/propagation/hubbard.py` 634-672 for walkers
that `two_body_single_site` (172-220) moves, with the history of `pauxy/walkers/stack.py`.
-/

namespace Verif.HubBack

open Matrix
open Verif.Slater
open Verif.Hirsch
open Verif.Fields (meanOver)

variable {nb nu nd : Nat}

/-- A walker with `phi_old` and the fields pushed since the history was reset, in the order of the calls. -/
structure BW (nb nu nd : Nat) where
  w : Wk nb nu nd
  old : Wfn nb nu nd
  hist : List (Fin 2)

open Classical in
/-- The fields that a step pushes, hubbard.py 215-216 inside 292-295: none for a walker without weight, and none after the first site at
which both ratios are cut off. -/
noncomputable def pushes (p : Par nb) (psi : Wfn nb nu nd) (rs : Fin nb → ℝ) (w : Wk nb nu nd) : List (Fin 2) :=
  let w1 := if 0 < |w.weight| then kineticIS p psi w else w
  if 0 < |w1.weight| then (singleSite p psi rs (List.finRange nb) w1).2 else []

/-- A step, hubbard.py 277-301. -/
noncomputable def move (p : Par nb) (psi : Wfn nb nu nd) (e : ℝ) (rs : Fin nb → ℝ) (v : BW nb nu nd) : BW nb nu nd :=
  ⟨constrainedStep p psi e rs v.w, v.old, v.hist ++ pushes p psi rs v.w⟩

/-- `orthogonalise` (handler.py 166-181) changes neither `phi_old` nor the history. -/
noncomputable def ortho (qr : QR nb) (v : BW nb nu nd) : BW nb nu nd := { v with w := orthogonalise qr false v.w }

/-- `copy_historic_wfn` (handler.py 200-203) and `reset` (stack.py 124-127) at the end of a window, back_propagation.py 220-223. -/
def fresh (w : Wk nb nu nd) : BW nb nu nd := ⟨w, w.phi, []⟩

/-- `get_block()[0]`, stack.py 78-81, after `push` (stack.py 34-50): the rows of `nbasis` fields that are complete. -/
def block (nb : Nat) (l : List (Fin 2)) : List (Fin nb → Fin 2) :=
  (List.range (l.length / nb)).map fun t i => l.getD (t * nb + i) 0

/-- The back-propagated trial, back_propagation.py 150-156 and hubbard.py 660-672, `BT2` and `dt` of the propagator. -/
noncomputable def backward (dt U : ℝ) (bt2 : Fin 2 → Matrix (Fin nb) (Fin nb) ℂ) (qr : QR nb) (nstblz : Nat) (psi : Wfn nb nu nd)
    (l : List (Fin 2)) : Wfn nb nu nd :=
  join (backPropagate qr nstblz ((block nb l).map fun f => bpMatrix dt U (bt2 0) f 0) (up psi))
    (backPropagate qr nstblz ((block nb l).map fun f => bpMatrix dt U (bt2 1) f 1) (dn psi))

/-- `self.G`, back_propagation.py 157-158. -/
noncomputable def green (dt U : ℝ) (bt2 : Fin 2 → Matrix (Fin nb) (Fin nb) ℂ) (qr : QR nb) (nstblz : Nat) (psi : Wfn nb nu nd)
    (v : BW nb nu nd) : Fin 2 → Matrix (Fin nb) (Fin nb) ℂ :=
  ![(gab (up (backward dt U bt2 qr nstblz psi v.hist)) (up v.old))ᵀ, (gab (dn (backward dt U bt2 qr nstblz psi v.hist)) (dn v.old))ᵀ]

open Classical in
/-- The weight, back_propagation.py 187-198, with `get_wfac` (stack.py 118-121): `push` leaves the recorded factors at zero
(stack.py 21-22), so both products are of zeros over the completed steps.  `none`: nan, the division of zero by zero. -/
noncomputable def weightOf (r : BackProp.Restore) (v : BW nb nu nd) : Option ℂ :=
  let c : ℂ := ((block nb v.hist).map fun _ => 0).prod
  let p : ℂ := ((block nb v.hist).map fun _ => 0).prod
  match r with
  | .no => some v.w.weight
  | .part => some (v.w.weight * p)
  | .full => if c = 0 then none else some (v.w.weight * (p / c))

/-- What the walker adds to the estimate of a quantity computed from the Green's function, back_propagation.py 200-210, without
`restore_weights`. -/
noncomputable def share (dt U : ℝ) (bt2 : Fin 2 → Matrix (Fin nb) (Fin nb) ℂ) (qr : QR nb) (nstblz : Nat) (psi : Wfn nb nu nd)
    (E : (Fin 2 → Matrix (Fin nb) (Fin nb) ℂ) → ℂ) (v : BW nb nu nd) : ℂ :=
  v.w.weight * E (green dt U bt2 qr nstblz psi v)

/-- The names of the arguments of `local_energy`, mixed.py 383-385. -/
def energyArgs : List String :=
  ["system", "G", "Ghalf", "two_rdm", "rchol", "eri", "C0", "ecoul0", "exxa0", "exxb0", "UVT"]

/-- The keywords with which back propagation calls it, back_propagation.py 161-162. -/
def energyCall : List String := ["opt", "two_rdm"]

/-- `energies`, back_propagation.py 160-165.  `none`: TypeError, from a keyword which is not the name of an argument. -/
def energies (evaluate : Bool) (loc : (Fin 2 → Matrix (Fin nb) (Fin nb) ℂ) → ℂ × ℂ × ℂ) (G : Fin 2 → Matrix (Fin nb) (Fin nb) ℂ) :
    Option (ℂ × ℂ × ℂ) :=
  if evaluate then if energyCall.all (· ∈ energyArgs) then some (loc G) else none else some (0, 0, 0)

/-- A window: steps with the given energy shift (`some`) and reorthogonalisations (`none`), averaged over all random numbers. -/
noncomputable def meanWin (p : Par nb) (psi : Wfn nb nu nd) (qr : QR nb) : List (Option ℝ) → (BW nb nu nd → ℂ) → BW nb nu nd → ℂ
  | [], F, v => F v
  | some e :: l, F, v => meanOver (List.finRange nb) fun rs => meanWin p psi qr l F (move p psi e rs v)
  | none :: l, F, v => meanWin p psi qr l F (ortho qr v)

end Verif.HubBack
