import Verif.Thermal.Model
import Mathlib.Analysis.SpecialFunctions.Log.Basic
import Mathlib.Analysis.SpecialFunctions.Complex.Log
import Mathlib.Analysis.SpecialFunctions.Complex.Arg

/-!
# Slater determinants: overlaps, Green's functions, reorthogonalisation, back propagation

Model of `pauxy/walkers/single_det.py` (without bosons), `pauxy/estimators/greens_function.py`,
parts of `pauxy/utils/linalg.py` and the back propagation routines.  A wavefunction is one array
with `nu + nd` columns, sliced as in the code.  `scipy.linalg.inv` is `⁻¹`, used only where the
inverse exists (scipy raises an error otherwise).  When there are no down electrons the code guards
the down-spin statements with `if ndown > 0`; the model runs them on matrices with no columns, whose
determinant is 1.
-/

namespace Verif.Slater

open Matrix

variable {nb nu nd : Nat}

/-- A wavefunction: `nb` basis functions, `nu` up and `nd` down orbitals. -/
abbrev Wfn (nb nu nd : Nat) := Matrix (Fin nb) (Fin (nu + nd)) ℂ

/-- `phi[:, :nup]`. -/
def up (φ : Wfn nb nu nd) : Matrix (Fin nb) (Fin nu) ℂ := φ.submatrix id (Fin.castAdd nd)

/-- `phi[:, nup:]`. -/
def dn (φ : Wfn nb nu nd) : Matrix (Fin nb) (Fin nd) ℂ := φ.submatrix id (Fin.natAdd nu)

/-- Array with the two blocks of columns given. -/
def join (a : Matrix (Fin nb) (Fin nu) ℂ) (b : Matrix (Fin nb) (Fin nd) ℂ) : Wfn nb nu nd :=
  fun i j => Fin.addCases (fun k => a i k) (fun k => b i k) j

/-- `phi[:, :ndown]`. -/
def firstNd (φ : Wfn nb nu nd) : Matrix (Fin nb) (Fin nd) ℂ :=
  φ.submatrix id (Fin.castLE (Nat.le_add_left nd nu))

/-- `phi[:, ndown:]`. -/
def afterNd (φ : Wfn nb nu nd) : Matrix (Fin nb) (Fin nu) ℂ :=
  φ.submatrix id (fun k => Fin.cast (Nat.add_comm nd nu) (Fin.natAdd nd k))

/-- The part of `SingleDetWalker` that is modelled (walker.py 24-61, single_det.py 31-94). -/
structure Wk (nb nu nd : Nat) where
  phi : Wfn nb nu nd
  invUp : Matrix (Fin nu) (Fin nu) ℂ
  invDn : Matrix (Fin nd) (Fin nd) ℂ
  ot : ℂ
  ovlp : ℂ
  weight : ℝ
  phase : ℂ
  logShift : ℝ
  detRShift : ℝ
  detR : ℝ
  logDetR : ℝ

/-! ## Overlaps -/

/-- Sign returned by `numpy.linalg.slogdet`. -/
noncomputable def slogSign (z : ℂ) : ℂ := z / (‖z‖ : ℂ)

/-- Logarithm returned by `numpy.linalg.slogdet`.  For a singular matrix numpy returns sign 0 and
logarithm `-inf`; here the logarithm is 0, the products below are 0 in both cases. -/
noncomputable def slogLog (z : ℂ) : ℝ := Real.log ‖z‖

/-- `sign_a*sign_b*numpy.exp(logdet_a+logdet_b-self.log_shift)`. -/
noncomputable def slogProd (a b : ℂ) (shift : ℝ) : ℂ :=
  slogSign a * slogSign b * Complex.exp ((slogLog a + slogLog b - shift : ℝ) : ℂ)

/-- `inverse_overlap`, single_det.py 96-115. -/
noncomputable def inverseOverlap (psi : Wfn nb nu nd) (w : Wk nb nu nd) : Wk nb nu nd :=
  { w with
    invUp := ((up psi)ᴴ * up w.phi)⁻¹
    invDn := ((dn psi)ᴴ * dn w.phi)⁻¹ }

/-- `calc_otrial`, single_det.py 141-168. -/
noncomputable def calcOtrial (w : Wk nb nu nd) : ℂ :=
  1 / slogProd w.invUp.det w.invDn.det w.logShift

/-- `calc_overlap`, single_det.py 170-199.  The columns are split at `ndown` (line 183), and the
second factor is only computed if there are down electrons (line 188). -/
noncomputable def calcOverlap (psi : Wfn nb nu nd) (w : Wk nb nu nd) : ℂ :=
  slogProd ((firstNd psi)ᴴ * firstNd w.phi).det
    (if 0 < nd then ((afterNd psi)ᴴ * afterNd w.phi).det else 1) w.logShift

/-- `sherman_morrison`, linalg.py 6-30. -/
noncomputable def shermanMorrison {k : Nat} (Ainv : Matrix (Fin k) (Fin k) ℂ) (u vt : Fin k → ℂ) :
    Matrix (Fin k) (Fin k) ℂ :=
  Ainv - (1 / (1 + (vt ᵥ* Ainv) ⬝ᵥ u)) • (Ainv * vecMulVec u vt * Ainv)

/-- `update_inverse_overlap`, single_det.py 117-139. -/
noncomputable def updateInverseOverlap (psi : Wfn nb nu nd) (w : Wk nb nu nd) (vtup : Fin nu → ℂ)
    (vtdn : Fin nd → ℂ) (i : Fin nb) : Wk nb nu nd :=
  { w with
    invUp := shermanMorrison w.invUp (fun k => star (up psi i k)) vtup
    invDn := shermanMorrison w.invDn (fun k => star (dn psi i k)) vtdn }

/-! ## Green's functions -/

variable {k : Nat}

/-- `gab`, greens_function.py 5-38. -/
noncomputable def gab (A B : Matrix (Fin nb) (Fin k) ℂ) : Matrix (Fin nb) (Fin nb) ℂ :=
  B * ((Aᴴ * B)⁻¹ * Aᴴ)

/-- `gab_mod` and `gab_mod_ovlp`, greens_function.py 41-73 and 82-114: the Green's function, the
half-rotated one, the inverse overlap. -/
noncomputable def gabMod (A B : Matrix (Fin nb) (Fin k) ℂ) :
    Matrix (Fin nb) (Fin nb) ℂ × Matrix (Fin k) (Fin nb) ℂ × Matrix (Fin k) (Fin k) ℂ :=
  let invO := (Bᵀ * A.map star)⁻¹
  let ghalf := invO * Bᵀ
  (A.map star * ghalf, ghalf, invO)

/-- What `greens_function` (single_det.py 295-321) stores and returns. -/
structure GF (nb nu nd : Nat) where
  gUp : Matrix (Fin nb) (Fin nb) ℂ
  gDn : Matrix (Fin nb) (Fin nb) ℂ
  gmodUp : Matrix (Fin nu) (Fin nb) ℂ
  gmodDn : Matrix (Fin nd) (Fin nb) ℂ
  det : ℂ

/-- `greens_function`, single_det.py 295-321. -/
noncomputable def greensFunction (psi : Wfn nb nu nd) (w : Wk nb nu nd) : GF nb nu nd :=
  let oa := (up w.phi)ᵀ * (up psi).map star
  let ob := (dn w.phi)ᵀ * (dn psi).map star
  let ga := oa⁻¹ * (up w.phi)ᵀ
  let gb := ob⁻¹ * (dn w.phi)ᵀ
  ⟨(up psi).map star * ga, (dn psi).map star * gb, ga, gb, slogProd oa.det ob.det w.logShift⟩

/-! ## Reorthogonalisation -/

/-- `Q, R = scipy.linalg.qr(A, mode='economic')`; LAPACK's Householder reflections leave a real
diagonal. -/
structure IsQRe (A Q : Matrix (Fin nb) (Fin k) ℂ) (R : Matrix (Fin k) (Fin k) ℂ) : Prop where
  isometry : Qᴴ * Q = 1
  upper : R.BlockTriangular id
  real : ∀ i, (R i i).im = 0
  eq : A = Q * R

/-- A QR routine. -/
abbrev QR (nb : Nat) := ∀ k : Nat, Matrix (Fin nb) (Fin k) ℂ →
  Matrix (Fin nb) (Fin k) ℂ × Matrix (Fin k) (Fin k) ℂ

/-- Contract of the routine on matrices with independent columns. -/
def QRSpec (qr : QR nb) : Prop :=
  ∀ (k : Nat) (A : Matrix (Fin nb) (Fin k) ℂ), (Aᴴ * A).det ≠ 0 → IsQRe A (qr k A).1 (qr k A).2

/-- `numpy.diag(numpy.sign(numpy.diag(R)))`. -/
noncomputable def signs (R : Matrix (Fin k) (Fin k) ℂ) : Matrix (Fin k) (Fin k) ℂ :=
  diagonal fun i => Thermal.npSign (R i i)

/-- `SingleDetWalker.reortho`, single_det.py 215-255; the return value is the field `detR`. -/
noncomputable def reortho (qr : QR nb) (w : Wk nb nu nd) : Wk nb nu nd :=
  let fu := qr nu (up w.phi)
  let fd := qr nd (dn w.phi)
  let logDet := (∑ i, Real.log ‖fu.2 i i‖) + ∑ i, Real.log ‖fd.2 i i‖
  let detR := Real.exp (logDet - w.detRShift)
  { w with
    phi := join (fu.1 * signs fu.2) (fd.1 * signs fd.2)
    detR := detR
    logDetR := w.logDetR + Real.log detR
    ot := w.ot / detR
    ovlp := w.ot / detR }

/-- Loop body of `Walkers.orthogonalise`, handler.py 176-181. -/
noncomputable def orthogonalise (qr : QR nb) (free : Bool) (w : Wk nb nu nd) : Wk nb nu nd :=
  let w' := reortho qr w
  if free then
    { w' with
      weight := w'.weight * ‖(w'.detR : ℂ)‖
      phase := w'.phase * Complex.exp (Complex.I * (Complex.arg (w'.detR : ℂ) : ℂ)) }
  else w'

/-- `utils.linalg.reortho`, linalg.py 82-105. -/
noncomputable def linReortho (qr : QR nb) (A : Matrix (Fin nb) (Fin k) ℂ) :
    Matrix (Fin nb) (Fin k) ℂ × ℂ :=
  let f := qr k A
  (f.1 * signs f.2, (signs f.2 * f.2).det)

/-! ## Truncated exponential -/

/-- `apply_exponential`, continuous.py 82-111: state is `(Temp, phi)`. -/
noncomputable def applyExponential (nmax : Nat) (V : Matrix (Fin nb) (Fin nb) ℂ)
    (φ : Matrix (Fin nb) (Fin k) ℂ) : Matrix (Fin nb) (Fin k) ℂ :=
  ((List.range nmax).foldl (fun (s : Matrix (Fin nb) (Fin k) ℂ × Matrix (Fin nb) (Fin k) ℂ) n =>
    let T := (1 / ((n + 1 : Nat) : ℂ)) • (V * s.1)
    (T, s.2 + T)) (φ, φ)).2

/-- `exponentiate_matrix`, linalg.py 163-170: state is `(T, EXPM)`. -/
noncomputable def exponentiateMatrix (order : Nat) (M : Matrix (Fin nb) (Fin nb) ℂ) :
    Matrix (Fin nb) (Fin nb) ℂ :=
  ((List.range order).foldl
    (fun (s : Matrix (Fin nb) (Fin nb) ℂ × Matrix (Fin nb) (Fin nb) ℂ) n =>
      ((1 / ((n + 2 : Nat) : ℂ)) • (M * s.1), s.2 + s.1)) (M, 1)).2

/-- One forward step of the continuous propagator on one spin: half a one-body step, the exponential
of the auxiliary-field potential, half a one-body step (continuous.py 243-258, operations.py
`kinetic_real`). -/
noncomputable def forwardStep (expNmax : Nat) (BH1 V : Matrix (Fin nb) (Fin nb) ℂ)
    (φ : Matrix (Fin nb) (Fin k) ℂ) : Matrix (Fin nb) (Fin k) ℂ :=
  BH1 * applyExponential expNmax V (BH1 * φ)

/-- `construct_propagator_matrix_generic`, generic.py 181-211, one spin; the order of the
exponential is the default of `exponentiate_matrix`. -/
noncomputable def propMatrix (BT2 V : Matrix (Fin nb) (Fin nb) ℂ) : Matrix (Fin nb) (Fin nb) ℂ :=
  BT2 * exponentiateMatrix 6 V * BT2

/-! ## Back propagation -/

/-- Loop of `back_propagate` (hubbard.py 659-671) and `back_propagate_generic` (generic.py 277-288),
one spin: iteration `i` applies the next matrix, which the caller gives in the order of the loop,
i.e. latest field configuration first, and reorthogonalises if `i ≠ 0` and `nstblz` divides `i`. -/
noncomputable def backLoop (qr : QR nb) (nstblz : Nat) : Nat → List (Matrix (Fin nb) (Fin nb) ℂ) →
    Matrix (Fin nb) (Fin k) ℂ → Matrix (Fin nb) (Fin k) ℂ
  | _, [], φ => φ
  | i, B :: l, φ =>
    let φ1 := Bᴴ * φ
    backLoop qr nstblz (i + 1) l
      (if i ≠ 0 ∧ i % nstblz = 0 then (linReortho qr φ1).1 else φ1)

/-- Back propagation of `φ` with the step matrices `Bs` in the order of forward propagation. -/
noncomputable def backPropagate (qr : QR nb) (nstblz : Nat) (Bs : List (Matrix (Fin nb) (Fin nb) ℂ))
    (φ : Matrix (Fin nb) (Fin k) ℂ) : Matrix (Fin nb) (Fin k) ℂ :=
  backLoop qr nstblz 0 Bs.reverse φ

/-- Forward propagation with reorthogonalisation after the steps marked `true` (the driver does it
every `nstblz` steps, afqmc.py 215-216). -/
noncomputable def forwardPropagate (qr : QR nb) : List (Matrix (Fin nb) (Fin nb) ℂ × Bool) →
    Matrix (Fin nb) (Fin k) ℂ → Matrix (Fin nb) (Fin k) ℂ
  | [], φ => φ
  | (B, o) :: l, φ =>
    forwardPropagate qr l (if o then (linReortho qr (B * φ)).1 else B * φ)

end Verif.Slater
