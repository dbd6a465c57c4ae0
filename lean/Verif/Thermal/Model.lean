import Mathlib.LinearAlgebra.Matrix.NonsingularInverse
import Mathlib.LinearAlgebra.Matrix.Block
import Mathlib.LinearAlgebra.Matrix.ConjTranspose
import Mathlib.Analysis.Complex.Basic

/-!
# Thermal Green's functions

Model of the Green's function routines of `pauxy/walkers/thermal.py` and
`pauxy/estimators/thermal.py`, for one spin (the code runs the same statements for both).  The
factorisations of scipy are parameters, see `IsQR`, `IsQRP`, `IsSVD` for their contracts;
`scipy.linalg.inv` is `⁻¹` (the statements only use it where the inverse exists, otherwise scipy
raises an error).
-/

namespace Verif.Thermal

open Matrix

/-- Square complex matrices. -/
abbrev Mat (n : Nat) := Matrix (Fin n) (Fin n) ℂ

variable {n : Nat}

/-! ## Contracts of the factorisations -/

/-- `Q, R = scipy.linalg.qr(A)`. -/
structure IsQR (A Q R : Mat n) : Prop where
  unitary : Qᴴ * Q = 1
  upper : R.BlockTriangular id
  eq : A = Q * R

/-- `Q, R, P = scipy.linalg.qr(A, pivoting=True)`: `A[:, P] = Q R`. LAPACK's Householder
reflections leave a real diagonal. -/
structure IsQRP (A Q R : Mat n) (P : Equiv.Perm (Fin n)) : Prop where
  unitary : Qᴴ * Q = 1
  upper : R.BlockTriangular id
  eq : A.submatrix id P = Q * R
  real : ∀ i, (R i i).im = 0

/-- `U, S, V = scipy.linalg.svd(A)`: `A = U diag(S) V`, `S` real. -/
structure IsSVD (A U : Mat n) (S : Fin n → ℝ) (V : Mat n) : Prop where
  unitaryU : Uᴴ * U = 1
  unitaryV : Vᴴ * V = 1
  eq : A = U * diagonal (fun i => (S i : ℂ)) * V

/-! ## Bins -/

/-- `bin_ix` (thermal.py 145-149 and 477-481): the bin of a slice; past the last bin it is -1. -/
def binIx (nbins stackSize sliceIx : Nat) : Int :=
  if sliceIx / stackSize = nbins then -1 else (sliceIx / stackSize : Nat)

/-- Index of a bin, Python's `%` of possibly negative numbers. -/
def cyc (nbins : Nat) (b : Int) (i : Nat) : Nat := ((b + i) % (nbins : Int)).toNat

/-- `self.stack.get(ix)`; the index is always in range here. -/
def getBin (bins : List (Mat n)) (ix : Nat) : Mat n := bins.getD ix 0

/-- The bins visited after the first one: `i in range(2, nbins+1)`. -/
def rest (bins : List (Mat n)) (b : Int) : List (Mat n) :=
  (List.range (bins.length - 1)).map (fun i => getBin bins (cyc bins.length b (i + 2)))

/-! ## Stratified product, thermal.py 486-518, 176-206, 420-454; estimators/thermal.py 154-195 -/

/-- `Q D T`. -/
structure QDT (n : Nat) where
  Q : Mat n
  D : Fin n → ℂ
  T : Mat n

/-- `einsum('ii,ij->ij', D1inv, R1)` followed by `tmp[:,P1] = tmp[:,range(nbasis)]`. -/
noncomputable def scaledR (R : Mat n) (P : Equiv.Perm (Fin n)) : Mat n :=
  fun i j => 1 / R i i * R i (P.symm j)

/-- Factorisation of the first bin (thermal.py 489-496). -/
noncomputable def stratFirst (qrp : Mat n → Mat n × Mat n × Equiv.Perm (Fin n)) (B : Mat n) :
    QDT n :=
  let f := qrp B
  ⟨f.1, fun i => f.2.1 i i, scaledR f.2.1 f.2.2⟩

/-- One more bin from the left (thermal.py 498-509). -/
noncomputable def stratStep (qrp : Mat n → Mat n × Mat n × Equiv.Perm (Fin n)) (s : QDT n)
    (B : Mat n) : QDT n :=
  let f := qrp (B * s.Q * diagonal s.D)
  ⟨f.1, fun i => f.2.1 i i, scaledR f.2.1 f.2.2 * s.T⟩

/-- The end of the stratification: `C = Db Q^† T^{-1} + Ds`, `G = T^{-1} C^{-1} Db Q^†`
(thermal.py 526-540). -/
noncomputable def stratG (Db Ds : Fin n → ℂ) (s : QDT n) : Mat n :=
  let T1inv := s.T⁻¹
  let C := diagonal Db * s.Qᴴ * T1inv + diagonal Ds
  T1inv * C⁻¹ * (diagonal Db * s.Qᴴ)

/-- The scale splitting of `greens_function_qr_strat` (thermal.py 514-525) and `one_rdm_stable`
(estimators/thermal.py 176-185).  The test reads `Db[i,i]`, which is still zero, so the second
branch is always taken. -/
noncomputable def splitDead (D : Fin n → ℂ) : (Fin n → ℂ) × (Fin n → ℂ) :=
  (fun _ => if ‖(0 : ℂ)‖ > 1 then 1 / ‖(0 : ℂ)‖ else 1,
   fun i => if ‖(0 : ℂ)‖ > 1 then D i / ‖D i‖ else D i)

open Classical in
/-- `numpy.sign` of a complex number: sign of the real part, or of the imaginary part if the real
part is zero. -/
noncomputable def npSign (z : ℂ) : ℂ :=
  if z.re > 0 then 1 else if z.re < 0 then -1 else if z.im > 0 then 1 else if z.im < 0 then -1
  else 0

open Classical in
/-- The scale splitting of `greens_function_left_right_no_truncation` (thermal.py 451-459). -/
noncomputable def splitLive (D : Fin n → ℂ) : (Fin n → ℂ) × (Fin n → ℂ) :=
  (fun i => if ‖D i‖ > 1 then 1 / (‖D i‖ : ℂ) else 1,
   fun i => if ‖D i‖ > 1 then npSign (D i) else D i)

/-- `greens_function_qr_strat`, thermal.py 470-541. -/
noncomputable def gfStrat (qrp : Mat n → Mat n × Mat n × Equiv.Perm (Fin n)) (bins : List (Mat n))
    (stackSize sliceIx : Nat) : Mat n :=
  let b := binIx bins.length stackSize sliceIx
  let s := (rest bins b).foldl (stratStep qrp)
    (stratFirst qrp (getBin bins (cyc bins.length b 1)))
  stratG (splitDead s.D).1 (splitDead s.D).2 s

/-- `one_rdm_stable`, estimators/thermal.py 147-196, one spin: `1 - G^T`. -/
noncomputable def oneRdmStable (qrp : Mat n → Mat n × Mat n × Equiv.Perm (Fin n)) (BT : Mat n)
    (numSlices : Nat) : Mat n :=
  let s := (List.replicate (numSlices - 1) BT).foldl (stratStep qrp) (stratFirst qrp BT)
  1 - (stratG (splitDead s.D).1 (splitDead s.D).2 s)ᵀ

/-! ## Plain QR, thermal.py 141-184 -/

/-- `scipy.linalg.solve_triangular(V, I)`: reads the upper triangle only. -/
noncomputable def solveUpper (V : Mat n) : Mat n := (Matrix.of fun i j => if i ≤ j then V i j else 0)⁻¹

/-- Loop of `greens_function_qr` (thermal.py 166-171). -/
noncomputable def qrStep (qr : Mat n → Mat n × Mat n) (s : Mat n × Mat n) (B : Mat n) :
    Mat n × Mat n :=
  let f := qr (B * s.1)
  (f.1, f.2 * s.2)

/-- End of `greens_function_qr` (thermal.py 173-184). -/
noncomputable def qrG (qr : Mat n → Mat n × Mat n) (s : Mat n × Mat n) : Mat n :=
  let V1inv := solveUpper s.2
  let T3 := s.1ᴴ * V1inv + 1
  let f := qr T3
  let U3 := s.1 * f.1
  let V3 := f.2 * s.2
  solveUpper V3 * U3ᴴ

/-- `greens_function_qr`, thermal.py 141-184. -/
noncomputable def gfQR (qr : Mat n → Mat n × Mat n) (bins : List (Mat n))
    (stackSize sliceIx : Nat) : Mat n :=
  let b := binIx bins.length stackSize sliceIx
  qrG qr ((rest bins b).foldl (qrStep qr) (qr (getBin bins (cyc bins.length b 1))))

/-- `inverse_greens_function_qr`, estimators/thermal.py 70-89. -/
noncomputable def invGreensQR (qr : Mat n → Mat n × Mat n) (A : Mat n) : Mat n :=
  let f := qr A
  let T := f.1ᴴ * solveUpper f.2 + 1
  let g := qr T
  (f.1 * g.1) * (g.2 * f.2)

/-! ## SVD, thermal.py 97-139 and estimators/thermal.py 31-69 -/

/-- `U S V`. -/
structure USV (n : Nat) where
  U : Mat n
  S : Fin n → ℝ
  V : Mat n

/-- `numpy.diag(S)`. -/
noncomputable def cdiag (S : Fin n → ℝ) : Mat n := diagonal (fun i => (S i : ℂ))

/-- Loop of `greens_function_svd` (thermal.py 116-123). -/
noncomputable def svdStep (svd : Mat n → USV n) (s : USV n) (B : Mat n) : USV n :=
  let f := svd (B * s.U * cdiag s.S)
  ⟨f.U, f.S, f.V * s.V⟩

/-- End of `greens_function_svd` (thermal.py 125-138) and of `greens_function`
(estimators/thermal.py 49-54). -/
noncomputable def svdG (svd : Mat n → USV n) (s : USV n) : Mat n :=
  let T3 := s.Uᴴ * s.Vᴴ + cdiag s.S
  let f := svd T3
  let U3 := s.U * f.U
  let V3 := f.V * s.V
  V3ᴴ * diagonal (fun i => 1 / (f.S i : ℂ)) * U3ᴴ

/-- `greens_function_svd`, thermal.py 97-139. -/
noncomputable def gfSVD (svd : Mat n → USV n) (bins : List (Mat n)) (stackSize sliceIx : Nat) :
    Mat n :=
  let b := binIx bins.length stackSize sliceIx
  svdG svd ((rest bins b).foldl (svdStep svd) (svd (getBin bins (cyc bins.length b 1))))

/-- `greens_function(A)`, estimators/thermal.py 28-55. -/
noncomputable def gfOfA (svd : Mat n → USV n) (A : Mat n) : Mat n := svdG svd (svd A)

/-- `inverse_greens_function(A)`, estimators/thermal.py 57-69. -/
noncomputable def invGreens (svd : Mat n → USV n) (A : Mat n) : Mat n :=
  let s := svd A
  let T := s.Uᴴ * s.Vᴴ + cdiag s.S
  let f := svd T
  let U3 := s.U * f.U
  let V3 := f.V * s.V
  V3ᴴ * cdiag f.S * U3ᴴ

/-! ## Left-right scheme, thermal.py 188-226 and 403-468 -/

/-- Right part of `compute_left_right` (thermal.py 192-217): bins `0 .. center-1`; only run for
`center > 0`. -/
noncomputable def rightPart (qrp : Mat n → Mat n × Mat n × Equiv.Perm (Fin n))
    (bins : List (Mat n)) (center : Nat) : QDT n :=
  ((List.range (center - 1)).map (fun i => getBin bins (i + 1))).foldl (stratStep qrp)
    (stratFirst qrp (getBin bins 0))

/-- Left part (thermal.py 219-232): the product of the diagonals of bins `center+1 ..`. -/
noncomputable def leftPart (bins : List (Mat n)) (center : Nat) : Fin n → ℂ :=
  ((List.range (bins.length - (center + 2))).map (fun i => getBin bins (center + 2 + i))).foldl
    (fun D B => fun i => B i i * D i) (fun i => getBin bins (center + 1) i i)

/-- `greens_function_left_right_no_truncation`, thermal.py 403-468, after
`compute_left_right(center)`. -/
noncomputable def gfLeftRight (qrp : Mat n → Mat n × Mat n × Equiv.Perm (Fin n))
    (bins : List (Mat n)) (center : Nat) : Mat n :=
  let Bc := getBin bins center
  let s := if 0 < center then stratStep qrp (rightPart qrp bins center) Bc else stratFirst qrp Bc
  let s := if center < bins.length - 1 then stratStep qrp s (diagonal (leftPart bins center)) else s
  stratG (splitLive s.D).1 (splitLive s.D).2 s

/-! ## Woodbury form, thermal.py 383-391, stack.py 353-372 and 411-431 -/

/-- The Green's function of a truncated product `Q diag(D) T` with `Q` of size `N × m`. -/
noncomputable def woodburyG {k : Nat} (Q : Matrix (Fin n) (Fin k) ℂ) (D : Fin k → ℂ)
    (T : Matrix (Fin k) (Fin n) ℂ) : Mat n :=
  let TQ := T * Q
  let TQinv := TQ⁻¹
  let tmp := (TQinv * diagonal (splitLive D).1 + diagonal (splitLive D).2)⁻¹
  let A := diagonal (splitLive D).1 * (tmp * TQinv)
  1 - Q * diagonal D * A * T

/-- `self.ovlp[s] = det(M)` of the low-rank update (stack.py 357-359). -/
noncomputable def woodburyOvlp {k : Nat} (Q : Matrix (Fin n) (Fin k) ℂ) (D : Fin k → ℂ)
    (T : Matrix (Fin k) (Fin n) ℂ) : ℂ :=
  let TQ := T * Q
  let TQinv := TQ⁻¹
  let tmp := TQinv * diagonal (splitLive D).1 + diagonal (splitLive D).2
  (tmp * diagonal (fun i => 1 / (splitLive D).1 i) * TQ).det

end Verif.Thermal
