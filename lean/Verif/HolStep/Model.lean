import Verif.Slater.HirschModel
import Verif.Holstein.Model
import Mathlib.Analysis.SpecialFunctions.Pow.Complex
import Mathlib.Analysis.Normed.Algebra.MatrixExponential

/-!
# Electron steps of the Hubbard-Holstein propagation

Model of `HirschDMC` (`pauxy/propagation/hubbard_holstein.py`) without its phonon steps, which are in `Verif.Holstein`, and of the parts
of `MultiCoherentWalker` (`pauxy/walkers/multi_coherent.py`) that it uses.  The coordinates of the phonons do not change here.  A walker
with one determinant (`SingleDetWalker`) is the case of one state of coefficient one; the ratio it uses is `ratioSingle`, its overlap has
no shift of the logarithm.  `scipy.linalg.expm` is the exponential of matrices, `scipy.linalg.inv` is `⁻¹` (scipy raises for a singular
matrix).  `HirschDMC.__init__` reads the name `inputs`, which does not exist (line 65): what follows is what the class does when line 65
reads `options`, and without `lang_firsov`.
-/

namespace Verif.HolStep

open Matrix
open Verif.Slater (Wfn up dn join overlap shermanMorrison)
open Verif.Hirsch (addRow kineticReal)
open Verif.Holstein (Sys Osc)

variable {np nb nu nd : Nat}

/-- The trial: determinants (`trial.psi[ix]`, or the rows of one determinant in the order of a permutation), coefficients and shifts of
the coherent states. -/
structure Trial (np nb nu nd : Nat) where
  psi : Fin np → Wfn nb nu nd
  coeffs : Fin np → ℂ
  shift : Fin np → Fin nb → ℝ

/-- The fields of `MultiCoherentWalker` that the step uses (multi_coherent.py 30-146). -/
structure Wk (np nb nu nd : Nat) where
  phi : Wfn nb nu nd
  X : Fin nb → ℝ
  invUp : Fin np → Matrix (Fin nu) (Fin nu) ℂ
  invDn : Fin np → Matrix (Fin nd) (Fin nd) ℂ
  ots : Fin np → ℂ
  phiB : Fin np → ℂ
  weights : Fin np → ℂ
  ot : ℂ
  weight : ℝ

/-! ## The propagator -/

/-- `arccosh`, hubbard_holstein.py 13-15. -/
noncomputable def arccosh (y : ℂ) : ℂ := Complex.log (y - (y * y - 1) ^ (1 / 2 : ℂ))

/-- The three decompositions: `spin`, `charge`, `sorella` (lines 74-109). -/
inductive Mode
  | spin
  | charge
  | sorella
  deriving DecidableEq

/-- The choice from the options (lines 74-80 and 95). -/
def mode (charge sorella : Bool) : Mode := if sorella then .sorella else if charge then .charge else .spin

/-- `self.gamma` (lines 81 and 93). -/
noncomputable def gamma (o : Mode) (dt U : ℝ) : ℂ :=
  match o with
  | .spin => arccosh (Complex.exp (1 / 2 * dt * U))
  | .charge => arccosh (Complex.exp (-(1 / 2) * dt * U))
  | .sorella => arccosh (Complex.exp (-(1 / 2) * dt * U))

/-- `self.auxf`, by field and spin (lines 85-87 and 106-109). -/
noncomputable def auxf (o : Mode) (dt U : ℝ) (xi s : Fin 2) : ℂ :=
  match o with
  | .spin => (if xi = s then Complex.exp (gamma .spin dt U) else Complex.exp (-gamma .spin dt U)) * Complex.exp (-(1 / 2) * dt * U)
  | .charge => (if xi = 0 then Complex.exp (gamma .charge dt U) else Complex.exp (-gamma .charge dt U)) * Complex.exp (-(1 / 2) * dt * U)
  | .sorella => if xi = 0 then Complex.exp (gamma .sorella dt U) else Complex.exp (-gamma .sorella dt U)

/-- `self.delta` (line 115). -/
noncomputable def delta (o : Mode) (dt U : ℝ) (xi s : Fin 2) : ℂ := auxf o dt U xi s - 1

/-- The factors that multiply the ratios at a site: `charge_factor` (lines 98-100, 272-273) and for `sorella` the factor of the
coordinate (lines 275-278). -/
noncomputable def wfac (o : Mode) (y : Sys nb) (dt : ℝ) (X : Fin nb → ℝ) (i : Fin nb) (xi : Fin 2) : ℂ :=
  match o with
  | .spin => 1
  | .charge => (if xi = 0 then Complex.exp (-gamma .charge dt y.U) else Complex.exp (gamma .charge dt y.U)) * Complex.exp (1 / 2 * dt * y.U)
  | .sorella =>
    let const := -gamma .sorella dt y.U * y.g * (Real.sqrt (2 * y.m * y.w) : ℂ) / y.U * X i
    (if xi = 0 then Complex.exp (-(1 / 2) * gamma .sorella dt y.U) else Complex.exp (1 / 2 * gamma .sorella dt y.U)) *
      (if xi = 0 then Complex.exp const else Complex.exp (-const))

/-! ## Overlaps -/

/-- `phi_boson` (multi_coherent.py 176-177, 222-223, 304-307). -/
noncomputable def phiBoson (y : Sys nb) (t : Trial np nb nu nd) (X : Fin nb → ℝ) (k : Fin np) : ℂ :=
  ((⟨y.m, y.w, t.shift k⟩ : Osc nb).value X : ℂ)

/-- `inverse_overlap`, multi_coherent.py 193-231. -/
noncomputable def inverseOverlap (y : Sys nb) (t : Trial np nb nu nd) (w : Wk np nb nu nd) : Wk np nb nu nd :=
  { w with
    phiB := phiBoson y t w.X
    invUp := fun k => ((up (t.psi k))ᴴ * up w.phi)⁻¹
    invDn := fun k => ((dn (t.psi k))ᴴ * dn w.phi)⁻¹ }

/-- `calc_otrial`, multi_coherent.py 273-310: the new fields; what is returned is the sum of `weights`. -/
noncomputable def calcOtrial (y : Sys nb) (t : Trial np nb nu nd) (w : Wk np nb nu nd) : Wk np nb nu nd :=
  let ots := fun k => 1 / (w.invUp k).det * (1 / (w.invDn k).det)
  { w with
    ots := ots
    phiB := phiBoson y t w.X
    weights := fun k => star (t.coeffs k) * ots k * phiBoson y t w.X k }

/-- `update_inverse_overlap`, multi_coherent.py 233-271. -/
noncomputable def updateInverse (t : Trial np nb nu nd) (w : Wk np nb nu nd) (vtup : Fin nu → ℂ) (vtdn : Fin nd → ℂ) (i : Fin nb) :
    Wk np nb nu nd :=
  { w with
    invUp := fun k => shermanMorrison (w.invUp k) (fun a => star (up (t.psi k) i a)) vtup
    invDn := fun k => shermanMorrison (w.invDn k) (fun a => star (dn (t.psi k) i a)) vtdn }

/-! ## One-body step -/

/-- `TV` (lines 375-382). -/
noncomputable def tv (y : Sys nb) (dt : ℝ) (X : Fin nb → ℝ) (s : Fin 2) : Matrix (Fin nb) (Fin nb) ℂ :=
  let const := -y.g * Real.sqrt (y.m * y.w * 2) * -dt
  NormedSpace.exp (-(dt : ℂ) • y.T s + diagonal fun i => ((const * X i : ℝ) : ℂ))

open Classical in
/-- `kinetic_importance_sampling`, lines 358-400: with `sorella` the orbitals stay (line 374). -/
noncomputable def kineticIS (o : Mode) (y : Sys nb) (t : Trial np nb nu nd) (dt : ℝ) (w : Wk np nb nu nd) : Wk np nb nu nd :=
  let w1 := if o = .sorella then w else { w with phi := kineticReal (tv y dt w.X) w.phi }
  let w2 := calcOtrial y t (inverseOverlap y t w1)
  let otNew := ∑ k, w2.weights k
  let ratio := otNew / w.ot
  if |Complex.arg ratio| < Real.pi / 2 then
    { w2 with weight := w.weight * (‖ratio‖ * max 0 (Real.cos (Complex.arg ratio))), ot := otNew }
  else { w2 with weight := 0, ot := otNew }

/-! ## Sweep over the sites -/

/-- `update_greens_function_mult`, lines 180-233: the diagonal elements of a site for one state. -/
noncomputable def gii (t : Trial np nb nu nd) (w : Wk np nb nu nd) (k : Fin np) (i : Fin nb) (s : Fin 2) : ℂ :=
  if s = 0 then (fun a => up w.phi i a) ⬝ᵥ (w.invUp k *ᵥ fun a => star (up (t.psi k) i a))
  else (fun a => dn w.phi i a) ⬝ᵥ (w.invDn k *ᵥ fun a => star (dn (t.psi k) i a))

/-- `walker.R` (lines 560-562). -/
noncomputable def ratioR (d : Fin 2 → Fin 2 → ℂ) (t : Trial np nb nu nd) (w : Wk np nb nu nd) (i : Fin nb) (k : Fin np) (xi : Fin 2) : ℂ :=
  (1 + d xi 0 * gii t w k i 0) * (1 + d xi 1 * gii t w k i 1)

/-- `calculate_overlap_ratio_multi_det`, lines 546-568. -/
noncomputable def ratioMulti (d : Fin 2 → Fin 2 → ℂ) (t : Trial np nb nu nd) (w : Wk np nb nu nd) (i : Fin nb) (xi : Fin 2) : ℂ :=
  1 / 2 * ((∑ k, w.weights k * ratioR d t w i k xi) / ∑ k, w.weights k)

/-- `calculate_overlap_ratio_single_det`, lines 570-586. -/
noncomputable def ratioSingle (d : Fin 2 → Fin 2 → ℂ) (t : Trial 1 nb nu nd) (w : Wk 1 nb nu nd) (i : Fin nb) (xi : Fin 2) : ℂ :=
  1 / 2 * ((1 + d xi 0 * gii t w 0 i 0) * (1 + d xi 1 * gii t w 0 i 1))

/-- `probs` (lines 271-278). -/
noncomputable def probs (o : Mode) (y : Sys nb) (dt : ℝ) (t : Trial np nb nu nd) (w : Wk np nb nu nd) (i : Fin nb) (xi : Fin 2) : ℂ :=
  ratioMulti (delta o dt y.U) t w i xi * wfac o y dt w.X i xi

/-- `phaseless_ratio` (line 281). -/
noncomputable def trunc (o : Mode) (y : Sys nb) (dt : ℝ) (t : Trial np nb nu nd) (w : Wk np nb nu nd) (i : Fin nb) (xi : Fin 2) : ℝ :=
  max (probs o y dt t w i xi).re 0

/-- `norm` (line 282). -/
noncomputable def norm (o : Mode) (y : Sys nb) (dt : ℝ) (t : Trial np nb nu nd) (w : Wk np nb nu nd) (i : Fin nb) : ℝ :=
  trunc o y dt t w i 0 + trunc o y dt t w i 1

open Classical in
/-- The field chosen with the random number `r` (lines 288-291). -/
noncomputable def choose (o : Mode) (y : Sys nb) (dt : ℝ) (t : Trial np nb nu nd) (w : Wk np nb nu nd) (i : Fin nb) (r : ℝ) : Fin 2 :=
  if r < trunc o y dt t w i 0 / norm o y dt t w i then 0 else 1

/-- The update for a site and a field (lines 287 and 292-299, `update_overlap` of multi_coherent.py 342-358: the coefficients are not
conjugated there). -/
noncomputable def applyField (o : Mode) (y : Sys nb) (dt : ℝ) (t : Trial np nb nu nd) (w : Wk np nb nu nd) (i : Fin nb) (xi : Fin 2) :
    Wk np nb nu nd :=
  let d := delta o dt y.U
  let ots := fun k => ratioR d t w i k xi * w.ots k
  let w1 := { w with
    weight := w.weight * norm o y dt t w i
    phi := join (addRow (up w.phi) i (d xi 0)) (addRow (dn w.phi) i (d xi 1))
    ots := ots
    weights := fun k => t.coeffs k * ots k * w.phiB k
    ot := 2 * w.ot * probs o y dt t w i xi }
  updateInverse t w1 (fun j => up w.phi i j * d xi 0) (fun j => dn w.phi i j * d xi 1) i

open Classical in
/-- `two_body`, lines 251-302, over the given sites, with the random numbers `rs`. -/
noncomputable def sweep (o : Mode) (y : Sys nb) (dt : ℝ) (t : Trial np nb nu nd) (rs : Fin nb → ℝ) :
    List (Fin nb) → Wk np nb nu nd → Wk np nb nu nd
  | [], w => w
  | i :: l, w =>
    if 0 < norm o y dt t w i then sweep o y dt t rs l (applyField o y dt t w i (choose o y dt t w i (rs i)))
    else { w with weight := 0 }

open Classical in
/-- The electron part of `propagate_walker_constrained`: lines 422-427 and 431-436. -/
noncomputable def electronStep (o : Mode) (y : Sys nb) (dt : ℝ) (t : Trial np nb nu nd) (rs : Fin nb → ℝ) (w : Wk np nb nu nd) :
    Wk np nb nu nd :=
  let w1 := if 0 < |w.weight| then kineticIS o y t (dt / 2) w else w
  let w2 := if 0 < |w1.weight| then sweep o y dt t rs (List.finRange nb) w1 else w1
  if 0 < |w2.weight| then kineticIS o y t (dt / 2) w2 else w2

/-! ## What the step should do -/

/-- Overlap of the trial with a determinant at the given coordinates. -/
noncomputable def total (y : Sys nb) (t : Trial np nb nu nd) (X : Fin nb → ℝ) (φ : Wfn nb nu nd) : ℂ :=
  ∑ k, star (t.coeffs k) * overlap (t.psi k) φ * ((⟨y.m, y.w, t.shift k⟩ : Osc nb).value X : ℂ)

end Verif.HolStep
