import Verif.Step.Model
import Verif.Slater.Model
import Verif.Energy.Model

/-!
# Walkers with a multi-determinant trial

Model of `pauxy/walkers/multi_det.py`, of `local_energy_multi_det` in `pauxy/estimators/mixed.py` (439-448), of
`construct_force_bias_multi_det` in `pauxy/propagation/generic.py` (154-157) and of the steps of
`pauxy/propagation/continuous.py` with such walkers.  Arrays indexed by the determinant are functions;
a loop that updates entry `ix` of several arrays in iteration `ix` is one function of `ix`.  Exact
arithmetic; `scipy.linalg.inv` of a singular matrix, an error in the code, is 0 here.
-/

namespace Verif.MultiDet

open Matrix

variable {n nx nb nu nd : Nat}

/-- The determinants and coefficients of a `MultiSlater` trial, multi_slater.py 20-35, and the determinant used
for energies with `split_trial_local_energy`, lines 41-47. -/
structure Trial (n nb nu nd : Nat) where
  coeffs : Fin n → ℂ
  psi : Fin n → Slater.Wfn nb nu nd
  /-- `split_trial_local_energy`; the index is `numpy.argmax(numpy.abs(coeffs))` -/
  split : Option (Fin n)

/-- The part of `MultiDetWalker` that is modelled, multi_det.py 27-79. -/
structure Wk (n nb nu nd : Nat) where
  phi : Slater.Wfn nb nu nd
  weight : ℝ
  phase : ℂ
  ot : ℂ
  ovlp : ℂ
  /-- `inv_ovlp` -/
  invUp : Fin n → Matrix (Fin nu) (Fin nu) ℂ
  invDn : Fin n → Matrix (Fin nd) (Fin nd) ℂ
  weights : Fin n → ℂ
  ovlps : Fin n → ℂ
  /-- `Gi` -/
  gi : Fin n → Fin 2 → Matrix (Fin nb) (Fin nb) ℂ
  /-- `le_Gi`, `le_weights` (of the single determinant), `le_oratio` -/
  leG : Fin 2 → Matrix (Fin nb) (Fin nb) ℂ
  leWeight : ℂ
  leOratio : ℂ

/-- `1e-16`. -/
noncomputable def tol : ℝ := 1 / 10 ^ 16

/-! ## Overlaps -/

/-- `overlap_direct`, lines 88-98; the return value is the field `ot` (line 48). -/
noncomputable def overlapDirect (T : Trial n nb nu nd) (w : Wk n nb nu nd) : Wk n nb nu nd × ℂ :=
  let oup := fun i => (Slater.up (T.psi i))ᴴ * Slater.up w.phi
  let odn := fun i => (Slater.dn (T.psi i))ᴴ * Slater.dn w.phi
  let ovlps := fun i => (oup i).det * (odn i).det
  let weights := fun i => star (T.coeffs i) * ovlps i
  ({ w with
      ovlps := ovlps
      weights := weights
      invUp := fun i => if ‖ovlps i‖ > tol then (oup i)⁻¹ else w.invUp i
      invDn := fun i => if ‖ovlps i‖ > tol then (odn i)⁻¹ else w.invDn i }, ∑ i, weights i)

/-- `inverse_overlap`, lines 100-113. -/
noncomputable def inverseOverlap (T : Trial n nb nu nd) (w : Wk n nb nu nd) : Wk n nb nu nd :=
  { w with
    invUp := fun i => ((Slater.up (T.psi i))ᴴ * Slater.up w.phi)⁻¹
    invDn := fun i => ((Slater.dn (T.psi i))ᴴ * Slater.dn w.phi)⁻¹ }

/-- `calc_otrial`, lines 115-133. -/
noncomputable def calcOtrial (T : Trial n nb nu nd) (w : Wk n nb nu nd) : Wk n nb nu nd × ℂ :=
  let ovlps := fun i => 1 / (w.invUp i).det * (1 / (w.invDn i).det)
  let weights := fun i => star (T.coeffs i) * ovlps i
  ({ w with ovlps := ovlps, weights := weights }, ∑ i, weights i)

/-- `calc_overlap`, lines 135-162. -/
noncomputable def calcOverlap (T : Trial n nb nu nd) (w : Wk n nb nu nd) : Wk n nb nu nd × ℂ :=
  let ovlps := fun i => ((Slater.up (T.psi i))ᴴ * Slater.up w.phi).det * ((Slater.dn (T.psi i))ᴴ * Slater.dn w.phi).det
  let weights := fun i => star (T.coeffs i) * ovlps i
  ({ w with ovlps := ovlps, weights := weights }, ∑ i, weights i)

/-- `reortho`, lines 164-192, and its return value.  Only `phi` and `ot` change. -/
noncomputable def reortho (qr : Slater.QR nb) (w : Wk n nb nu nd) : Wk n nb nu nd × ℂ :=
  let fu := qr nu (Slater.up w.phi)
  let fd := qr nd (Slater.dn w.phi)
  let drup := (Slater.signs fu.2 * fu.2).det
  let drdn := if 0 < nd then (Slater.signs fd.2 * fd.2).det else 1
  let detR := drup * drdn
  ({ w with
      phi := Slater.join (fu.1 * Slater.signs fu.2) (fd.1 * Slater.signs fd.2)
      ot := w.ot / detR }, detR)

/-- Loop body of `Walkers.orthogonalise`, handler.py 176-181. -/
noncomputable def orthogonalise (qr : Slater.QR nb) (free : Bool) (w : Wk n nb nu nd) : Wk n nb nu nd :=
  let r := reortho qr w
  if free then
    { r.1 with
      weight := w.weight * ‖r.2‖
      phase := w.phase * Complex.exp (Complex.I * (Complex.arg r.2 : ℂ)) }
  else r.1

/-! ## Green's functions -/

/-- Green's functions of a determinant and the walker, lines 206-225 and 233-252: for each spin the matrix, if it is
computed, and the overlap, if both overlaps pass the thresholds. -/
noncomputable def detGreens (D phi : Slater.Wfn nb nu nd) :
    Option (Matrix (Fin nb) (Fin nb) ℂ) × Option (Matrix (Fin nb) (Fin nb) ℂ × ℂ) :=
  let oup := (Slater.up phi)ᵀ * (Slater.up D).map star
  let ou := oup.det
  if ‖ou‖ < tol then (none, none) else
  let gup := (Slater.up D).map star * (oup⁻¹ * (Slater.up phi)ᵀ)
  let odn := (Slater.dn phi)ᵀ * (Slater.dn D).map star
  let o := ou * odn.det
  if ‖o‖ < tol then (some gup, none) else
  (some gup, some ((Slater.dn D).map star * (odn⁻¹ * (Slater.dn phi)ᵀ), o))

/-- New value of an entry of `Gi`. -/
noncomputable def newG (D phi : Slater.Wfn nb nu nd) (old : Fin 2 → Matrix (Fin nb) (Fin nb) ℂ) :
    Fin 2 → Matrix (Fin nb) (Fin nb) ℂ :=
  ![(detGreens D phi).1.getD (old 0), ((detGreens D phi).2.map Prod.fst).getD (old 1)]

/-- `greens_function`, lines 194-257, and its return value `tot_ovlp`.  `self.ovlps[ix]` in line 253 is entry 0:
with `split_trial_local_energy` there is one determinant. -/
noncomputable def greensFunction (T : Trial n nb nu nd) (w : Wk n nb nu nd) : Wk n nb nu nd × ℂ :=
  let r := fun i => (detGreens (T.psi i) w.phi).2
  let ovlps := fun i => ((r i).map Prod.snd).getD (w.ovlps i)
  let weights := fun i => ((r i).map fun g => star (T.coeffs i) * g.2).getD (w.weights i)
  let tot := ∑ i, ((r i).map fun g => star (T.coeffs i) * g.2).getD 0
  let w1 := { w with
    gi := fun i => newG (T.psi i) w.phi (w.gi i)
    ovlps := ovlps
    weights := weights }
  match T.split with
  | none => (w1, tot)
  | some j =>
    ({ w1 with
        leG := newG (T.psi j) w.phi w.leG
        leWeight := ((r j).map fun _ => star (T.coeffs j) * ovlps ⟨0, Nat.lt_of_le_of_lt (Nat.zero_le _) j.2⟩).getD
          w.leWeight
        leOratio := ((r j).map fun g => star (T.coeffs j) * g.2).getD 0 / tot }, tot)

/-- `local_energy_multi_det`, mixed.py 439-448, total energy; `eloc` is `local_energy(system, G)[0]`. -/
noncomputable def localEnergyMultiDet {k : Nat} (eloc : (Fin 2 → Matrix (Fin nb) (Fin nb) ℂ) → ℂ)
    (gi : Fin k → Fin 2 → Matrix (Fin nb) (Fin nb) ℂ) (weights : Fin k → ℂ) : ℂ :=
  (∑ i, weights i * eloc (gi i)) / ∑ i, weights i

/-- `local_energy`, lines 259-281. -/
noncomputable def localEnergy (T : Trial n nb nu nd) (eloc : (Fin 2 → Matrix (Fin nb) (Fin nb) ℂ) → ℂ)
    (w : Wk n nb nu nd) : ℂ :=
  if T.split.isSome then localEnergyMultiDet (k := 1) eloc (fun _ => w.leG) fun _ => w.leWeight
  else localEnergyMultiDet eloc w.gi w.weights

/-- `contract_one_body`, lines 283-290. -/
noncomputable def contractOneBody (T : Trial n nb nu nd) (w : Wk n nb nu nd) (ints : Matrix (Fin nb) (Fin nb) ℂ) : ℂ :=
  (∑ i, star (T.coeffs i) * w.ovlps i * ∑ p, ∑ q, (w.gi i 0 + w.gi i 1) p q * ints p q) /
    ∑ i, star (T.coeffs i) * w.ovlps i

/-- `construct_force_bias_multi_det`, generic.py 154-157. -/
noncomputable def forceBias (dt : ℝ) (g : Step.Gen nx nb) (mf : Fin nx → ℂ) (T : Trial n nb nu nd) (w : Wk n nb nu nd)
    (a : Fin nx) : ℂ :=
  -(Real.sqrt dt : ℂ) * (Complex.I * contractOneBody T w (g.chol a) - mf a)

/-! ## Steps -/

/-- `propagate_walker_free`, continuous.py 187-200. -/
noncomputable def propagateFree (k : Nat) (dt : ℝ) (t : Step.Tables nx nb) (T : Trial n nb nu nd) (eshift : ℂ)
    (xi : Fin nx → ℝ) (w : Wk n nb nu nd) : Wk n nb nu nd :=
  let r := Step.twoBodyPropagator k dt t xi (fun _ => 0) (Step.kineticReal t.BH1 w.phi)
  let w1 := { w with phi := Step.kineticReal t.BH1 r.1 }
  let o := calcOverlap T w1
  let z := Complex.exp (r.2.1 + dt * eshift)
  { o.1 with
    weight := w.weight * ‖z‖
    phase := w.phase * Complex.exp (Complex.I * (Complex.arg z : ℂ))
    ot := o.2
    ovlp := o.2 }

/-- `propagate_walker_phaseless`, continuous.py 232-262, up to the call of `update_weight`; the force bias is
computed after `greens_function` (line 245) and the first half step of the one-body part, which does not touch
what it reads. -/
noncomputable def phaseless (k : Nat) (dt : ℝ) (t : Step.Tables nx nb)
    (fb : Trial n nb nu nd → Wk n nb nu nd → Fin nx → ℂ) (eloc : (Fin 2 → Matrix (Fin nb) (Fin nb) ℂ) → ℂ)
    (T : Trial n nb nu nd) (xi : Fin nx → ℝ) (w : Wk n nb nu nd) : Weights.Step × Wk n nb nu nd :=
  let g := greensFunction T w
  let r := Step.twoBodyPropagator k dt t xi (fb T g.1) (Step.kineticReal t.BH1 w.phi)
  let o := calcOverlap T { g.1 with phi := Step.kineticReal t.BH1 r.1 }
  (⟨g.2, o.2, r.2.2.1, r.2.1, localEnergy T eloc o.1⟩, o.1)

end Verif.MultiDet
