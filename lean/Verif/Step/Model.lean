import Verif.Slater.Props
import Verif.Weights.Model
import Verif.UEG.Integrals
import Verif.Energy.Model
import Mathlib.Analysis.SpecialFunctions.Pow.Complex

/-!
# One step of the continuous propagator

Model of `propagate_walker_free`, `propagate_walker_phaseless` and `two_body_propagator` of `pauxy/propagation/continuous.py` and of
the tables of the four propagators selected by `get_continuous_propagator`: `GenericContinuous`
(`propagation/generic.py`), `HubbardContinuous` and `HubbardContinuousSpin` (`propagation/hubbard.py`)
and `PlaneWave` (`propagation/planewave.py`).  The random fields are an argument.  Exact arithmetic;
`scipy.linalg.expm` is the exponential of matrices.  Arrays of Cholesky vectors of shape
`[M*M, nchol]` are functions of the vector and the two orbitals.
-/

namespace Verif.Step

open Matrix

variable {nx nb nu nd : Nat}

/-- What `Continuous` reads of the propagator object. -/
structure Tables (nx nb : Nat) where
  /-- `mf_shift` -/
  mfShift : Fin nx → ℂ
  /-- `mf_core` -/
  mfCore : ℂ
  /-- `BH1`, one matrix for each spin -/
  BH1 : Fin 2 → Matrix (Fin nb) (Fin nb) ℂ
  /-- `construct_VHS`, for each spin; where the code returns one matrix it is used for both spins
  (continuous.py 161-171) -/
  vhs : (Fin nx → ℂ) → Fin 2 → Matrix (Fin nb) (Fin nb) ℂ

/-- `kinetic_real`, operations.py 51-52. -/
noncomputable def kineticReal (bt2 : Fin 2 → Matrix (Fin nb) (Fin nb) ℂ) (phi : Slater.Wfn nb nu nd) :
    Slater.Wfn nb nu nd :=
  Slater.join (bt2 0 * Slater.up phi) (bt2 1 * Slater.dn phi)

/-- `two_body_propagator`, continuous.py 132-173, with the fields `xi` and the force bias before
rescaling `fb`: the new orbitals, `cmf`, `cfb` and the shifted fields. -/
noncomputable def twoBodyPropagator (n : Nat) (dt : ℝ) (t : Tables nx nb) (xi : Fin nx → ℝ)
    (fb : Fin nx → ℂ) (phi : Slater.Wfn nb nu nd) :
    Slater.Wfn nb nu nd × ℂ × ℂ × (Fin nx → ℂ) :=
  let xbar := fun i => Weights.rescale (fb i)
  let xs := Weights.xshifted xi xbar
  (Slater.join (Slater.applyExponential n (t.vhs xs 0) (Slater.up phi))
    (Slater.applyExponential n (t.vhs xs 1) (Slater.dn phi)),
    Weights.cmf dt t.mfShift xi xbar, Weights.cfb xi xbar, xs)

/-- `propagate_walker_free`, continuous.py 187-200; the force bias is switched off (lines 30-33, 136). -/
noncomputable def propagateFree (n : Nat) (dt : ℝ) (t : Tables nx nb) (psi : Slater.Wfn nb nu nd)
    (eshift : ℂ) (xi : Fin nx → ℝ) (w : Slater.Wk nb nu nd) : Slater.Wk nb nu nd :=
  let r := twoBodyPropagator n dt t xi (fun _ => 0) (kineticReal t.BH1 w.phi)
  let w1 := { w with phi := kineticReal t.BH1 r.1 }
  let o := Slater.calcOverlap psi w1
  let z := Complex.exp (r.2.1 + dt * eshift)
  { w1 with
    weight := w.weight * ‖z‖
    phase := w.phase * Complex.exp (Complex.I * (Complex.arg z : ℂ))
    ot := o
    ovlp := o }

/-- `propagate_walker_phaseless`, continuous.py 232-262, up to the call of `update_weight`: what is passed
to it and the walker with the new orbitals.  The force bias `fb` and the local energy `eloc` (line 296)
read the Green's function computed in line 245, before the step. -/
noncomputable def phaseless (n : Nat) (dt : ℝ) (t : Tables nx nb) (fb : Slater.GF nb nu nd → Fin nx → ℂ)
    (eloc : Slater.GF nb nu nd → ℂ) (psi : Slater.Wfn nb nu nd) (xi : Fin nx → ℝ) (w : Slater.Wk nb nu nd) :
    Weights.Step × Slater.Wk nb nu nd :=
  let G := Slater.greensFunction psi w
  let r := twoBodyPropagator n dt t xi (fb G) (kineticReal t.BH1 w.phi)
  let w1 := { w with phi := kineticReal t.BH1 r.1 }
  (⟨G.det, Slater.calcOverlap psi w1, r.2.2.1, r.2.1, eloc G⟩, w1)

/-! ## Generic systems -/

/-- A generic system: `H1`, `hs_pot` (the Cholesky vectors, real or complex, systems/generic.py 154),
`ecore`. -/
structure Gen (nx nb : Nat) where
  h1 : Fin 2 → Matrix (Fin nb) (Fin nb) ℂ
  chol : Fin nx → Matrix (Fin nb) (Fin nb) ℂ
  ecore : ℂ

/-- `construct_h1e_mod`, systems/generic.py 202-210: `einsum('ikn,jkn->ij')`. -/
noncomputable def Gen.h1eMod (g : Gen nx nb) (s : Fin 2) : Matrix (Fin nb) (Fin nb) ℂ :=
  Matrix.of fun i j => g.h1 s i j - 1 / 2 * ∑ k, ∑ n, g.chol n i k * g.chol n j k

/-- `construct_mean_field_shift`, generic.py 66-80. -/
noncomputable def Gen.mfShift (g : Gen nx nb) (G : Fin 2 → Matrix (Fin nb) (Fin nb) ℂ) (n : Fin nx) : ℂ :=
  Complex.I * ∑ i, ∑ k, g.chol n i k * (G 0 i k + G 1 i k)

/-- `GenericContinuous` for a mean-field shift `mf` (of one determinant, lines 62-76, or of several,
lines 78-82): lines 51, 84-104 and 158-176. -/
noncomputable def Gen.tables (dt : ℝ) (g : Gen nx nb) (mf : Fin nx → ℂ) : Tables nx nb where
  mfShift := mf
  mfCore := g.ecore + 1 / 2 * ∑ n, mf n * mf n
  BH1 := fun s => NormedSpace.exp ((-(1 / 2) * dt : ℂ) •
    (g.h1eMod s - Matrix.of fun i k => Complex.I * ∑ n, g.chol n i k * mf n))
  vhs := fun x _ => Matrix.of fun i k => Complex.I * (Real.sqrt dt : ℂ) * ∑ n, g.chol n i k * x n

/-- `construct_force_bias_slow`, generic.py 109-128. -/
noncomputable def Gen.forceBias (dt : ℝ) (g : Gen nx nb) (mf : Fin nx → ℂ) (G : Slater.GF nb nu nd)
    (n : Fin nx) : ℂ :=
  -(Real.sqrt dt : ℂ) * (Complex.I * (∑ i, ∑ k, g.chol n i k * G.gUp i k +
    ∑ i, ∑ k, g.chol n i k * G.gDn i k) - mf n)

/-- `construct_force_bias_fast`, generic.py 130-152 (dense), with the half-rotated vectors of the trial
(multi_slater.py 402-420). -/
noncomputable def Gen.forceBiasFast (dt : ℝ) (g : Gen nx nb) (mf : Fin nx → ℂ) (psi : Slater.Wfn nb nu nd)
    (G : Slater.GF nb nu nd) (n : Fin nx) : ℂ :=
  -(Real.sqrt dt : ℂ) * (Complex.I * (∑ a, ∑ k, Energy.halfRotate (Slater.up psi) g.chol n a k * G.gmodUp a k +
    ∑ a, ∑ k, Energy.halfRotate (Slater.dn psi) g.chol n a k * G.gmodDn a k) - mf n)

/-! ## Hubbard model -/

/-- A Hubbard system: `H1`, `U`, `symmetric` (systems/hubbard.py). -/
structure Hub (nb : Nat) where
  h1 : Fin 2 → Matrix (Fin nb) (Fin nb) ℂ
  U : ℝ
  symmetric : Bool

/-- `x**0.5` for a real number: a negative number has an imaginary root. -/
noncomputable def root (x : ℝ) : ℂ := (x : ℂ) ^ (1 / 2 : ℂ)

/-- `construct_h1e_mod`, systems/hubbard.py 148-155. -/
noncomputable def Hub.h1eMod (h : Hub nb) (s : Fin 2) : Matrix (Fin nb) (Fin nb) ℂ :=
  if h.symmetric then h.h1 s else h.h1 s - (1 / 2 * h.U : ℂ) • 1

/-- `construct_mean_field_shift` of `HubbardContinuous`, hubbard.py 402-404. -/
noncomputable def Hub.mfShift (h : Hub nb) (G : Fin 2 → Matrix (Fin nb) (Fin nb) ℂ) (i : Fin nb) : ℂ :=
  Complex.I * root h.U * (G 0 i i + G 1 i i)

/-- `HubbardContinuous` for a mean-field shift `mf`, hubbard.py 377, 387, 393-415. -/
noncomputable def Hub.charge (dt : ℝ) (h : Hub nb) (mf : Fin nb → ℂ) : Tables nb nb where
  mfShift := mf
  mfCore := 1 / 2 * ∑ n, mf n * mf n
  BH1 := fun s => NormedSpace.exp ((-(1 / 2) * dt : ℂ) •
    (h.h1eMod s - (Complex.I * root h.U) • diagonal mf))
  vhs := fun x _ => diagonal fun i => (Real.sqrt dt : ℂ) * (Complex.I * root h.U) * x i

/-- `construct_force_bias` of `HubbardContinuous`, hubbard.py 406-409. -/
noncomputable def Hub.forceBias (dt : ℝ) (h : Hub nb) (mf : Fin nb → ℂ) (G : Slater.GF nb nu nd) (i : Fin nb) : ℂ :=
  -(Real.sqrt dt : ℂ) * (Complex.I * root h.U * (G.gUp i i + G.gDn i i) - mf i)

/-- `construct_mean_field_shift` of `HubbardContinuousSpin`, hubbard.py 465-468. -/
noncomputable def Hub.mfShiftSpin (h : Hub nb) (G : Fin 2 → Matrix (Fin nb) (Fin nb) ℂ) (i : Fin nb) : ℂ :=
  root h.U * (G 0 i i - G 1 i i)

/-- `HubbardContinuousSpin` for a mean-field shift `mf`, hubbard.py 444, 451, 455-481; the unmodified
one-body Hamiltonian is used (line 459). -/
noncomputable def Hub.spin (dt : ℝ) (h : Hub nb) (mf : Fin nb → ℂ) : Tables nb nb where
  mfShift := mf
  mfCore := 1 / 2 * ∑ n, mf n * mf n
  BH1 := fun s => NormedSpace.exp ((-(1 / 2) * dt : ℂ) •
    (h.h1 s + (1 / 2 * h.U : ℂ) • 1 - root h.U • diagonal mf))
  vhs := fun x s => if s = 0 then diagonal fun i => -root (dt * h.U) * x i
    else diagonal fun i => root (dt * h.U) * x i

/-- `construct_force_bias` of `HubbardContinuousSpin`, hubbard.py 470-474. -/
noncomputable def Hub.forceBiasSpin (dt : ℝ) (h : Hub nb) (mf : Fin nb → ℂ) (G : Slater.GF nb nu nd)
    (i : Fin nb) : ℂ :=
  -(Real.sqrt dt : ℂ) * (root h.U * (G.gUp i i - G.gDn i i) - mf i)

/-! ## Plane waves -/

/-- `PlaneWave`, planewave.py 20-24, 52-55, 97-117, for `nq` momentum transfers: modified one-body
Hamiltonian `h1eMod`, tables `iA` and `iB`. -/
noncomputable def planeWave {nq : Nat} (dt : ℝ) (h1eMod : Fin 2 → Matrix (Fin nb) (Fin nb) ℂ)
    (iA iB : Fin nq → Matrix (Fin nb) (Fin nb) ℂ) : Tables (nq + nq) nb where
  mfShift := fun _ => 0
  mfCore := 0
  BH1 := fun s => NormedSpace.exp ((-(1 / 2) * dt : ℂ) • h1eMod s)
  vhs := fun x _ => (Real.sqrt dt : ℂ) • (∑ q, x (Fin.castAdd nq q) • iA q +
    ∑ q, x (Fin.natAdd nq q) • iB q)

/-- `construct_force_bias_incore`, planewave.py 57-76. -/
noncomputable def planeWaveForceBias {nq : Nat} (dt : ℝ) (iA iB : Fin nq → Matrix (Fin nb) (Fin nb) ℂ)
    (G : Slater.GF nb nu nd) : Fin (nq + nq) → ℂ :=
  Fin.addCases
    (fun q => -(Real.sqrt dt : ℂ) * (∑ i, ∑ k, G.gUp i k * iA q i k + ∑ i, ∑ k, G.gDn i k * iA q i k))
    (fun q => -(Real.sqrt dt : ℂ) * (∑ i, ∑ k, G.gUp i k * iB q i k + ∑ i, ∑ k, G.gDn i k * iB q i k))

end Verif.Step
