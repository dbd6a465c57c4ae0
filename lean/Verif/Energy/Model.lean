import Verif.Slater.Model

/-!
# Local energies

Model of `pauxy/estimators/generic.py`, of `local_energy_hubbard` in `pauxy/estimators/hubbard.py`,
of the half rotation in `pauxy/trial_wavefunction/multi_slater.py` and of the variational energies
in `pauxy/estimators/mixed.py`.  `einsum` and `tensordot` are finite sums; `reshape` and `ravel`
only rename indices and are dropped: a Cholesky vector is a matrix `L x` for each `x`.
-/

namespace Verif.Energy

open Matrix Finset

variable {m na nb nx : Nat}

/-- `numpy.sum(A*B)` and `einsum('ij,ij->')`. -/
def dot2 {p q : Nat} (A B : Matrix (Fin p) (Fin q) ℂ) : ℂ := ∑ i, ∑ j, A i j * B i j

/-- Four-index integrals `eri[p,r,q,s]`. -/
abbrev Eri (m : Nat) := Fin m → Fin m → Fin m → Fin m → ℂ

/-- `local_energy_generic`, generic.py 4-32. -/
noncomputable def localGeneric (h1 : Fin 2 → Matrix (Fin m) (Fin m) ℂ) (eri : Eri m)
    (G : Fin 2 → Matrix (Fin m) (Fin m) ℂ) (ecore : ℂ) : ℂ × ℂ × ℂ :=
  let e1 := dot2 (h1 0) (G 0) + dot2 (h1 1) (G 1)
  let J := fun s t => ∑ p, ∑ r, ∑ q, ∑ u, eri p r q u * G s p r * G t q u
  let K := fun s => ∑ p, ∑ r, ∑ q, ∑ u, eri p r q u * G s p u * G s q r
  let euu := (1 / 2 : ℂ) * (J 0 0 - K 0)
  let edd := (1 / 2 : ℂ) * (J 1 1 - K 1)
  let eud := (1 / 2 : ℂ) * J 0 1
  let edu := (1 / 2 : ℂ) * J 1 0
  let e2 := euu + edd + eud + edu
  (e1 + e2 + ecore, e1 + ecore, e2)

/-- The integrals of a set of Cholesky vectors. -/
def cholEri (L : Fin nx → Matrix (Fin m) (Fin m) ℂ) : Eri m :=
  fun p r q s => ∑ x, L x p r * L x q s

/-- `local_energy_generic_cholesky`, generic.py 398-434. -/
noncomputable def localChol (h1 : Fin 2 → Matrix (Fin m) (Fin m) ℂ)
    (L : Fin nx → Matrix (Fin m) (Fin m) ℂ) (G : Fin 2 → Matrix (Fin m) (Fin m) ℂ) (ecore : ℂ) :
    ℂ × ℂ × ℂ :=
  let e1b := dot2 (h1 0) (G 0) + dot2 (h1 1) (G 1)
  let X := fun s x => dot2 (L x) (G s)
  let ecoul := ∑ x, X 0 x * X 0 x + ∑ x, X 1 x * X 1 x + 2 * ∑ x, X 0 x * X 1 x
  let T := fun s (x : Fin nx) (l k : Fin m) => ∑ i, G s i l * L x i k
  let exx := fun s => ∑ l, ∑ k, ∑ x, T s x l k * T s x k l
  let e2b := (1 / 2 : ℂ) * (ecoul - (exx 0 + exx 1))
  (e1b + e2b + ecore, e1b + ecore, e2b)

/-- Half rotation of the Cholesky vectors by the orbitals of one spin, multi_slater.py 402-409:
`rchol[a k, x] = sum_i conj(A[i,a]) L[i,k,x]`. -/
noncomputable def halfRotate {k : Nat} (A : Matrix (Fin m) (Fin k) ℂ)
    (L : Fin nx → Matrix (Fin m) (Fin m) ℂ) : Fin nx → Matrix (Fin k) (Fin m) ℂ :=
  fun x a r => ∑ i, star (A i a) * L x i r

/-- `local_energy_generic_cholesky_opt`, generic.py 156-221: `ra`, `rb` are the half-rotated vectors
of the two spins and `Ga`, `Gb` the half-rotated Green's functions. -/
noncomputable def localCholOpt (h1 : Fin 2 → Matrix (Fin m) (Fin m) ℂ)
    (G : Fin 2 → Matrix (Fin m) (Fin m) ℂ) (ra : Fin nx → Matrix (Fin na) (Fin m) ℂ)
    (rb : Fin nx → Matrix (Fin nb) (Fin m) ℂ) (Ga : Matrix (Fin na) (Fin m) ℂ)
    (Gb : Matrix (Fin nb) (Fin m) ℂ) (ecore : ℂ) : ℂ × ℂ × ℂ :=
  let e1b := dot2 (h1 0) (G 0) + dot2 (h1 1) (G 1)
  let Xa := fun x => dot2 (ra x) Ga
  let Xb := fun x => dot2 (rb x) Gb
  let ecoul := ∑ x, Xa x * Xa x + ∑ x, Xb x * Xb x + 2 * ∑ x, Xa x * Xb x
  let Ta := fun x => ra x * Gaᵀ
  let Tb := fun x => rb x * Gbᵀ
  let exxa := ∑ x, ∑ i, ∑ j, Ta x i j * Ta x j i
  let exxb := ∑ x, ∑ i, ∑ j, Tb x i j * Tb x j i
  let e2b := (1 / 2 : ℂ) * (ecoul - (exxa + exxb))
  (e1b + e2b + ecore, e1b + ecore, e2b)

/-- Half-rotated integrals `vipjq`, multi_slater.py 286-289. -/
noncomputable def halfEri {k l : Nat} (A : Matrix (Fin m) (Fin k) ℂ) (B : Matrix (Fin m) (Fin l) ℂ)
    (L : Fin nx → Matrix (Fin m) (Fin m) ℂ) (i : Fin k) (p : Fin m) (j : Fin l) (q : Fin m) : ℂ :=
  ∑ u, ∑ x, ∑ r, L x u p * L x r q * star (A u i) * star (B r j)

/-- `local_energy_generic_opt`, generic.py 130-154 (`exact_eri`). -/
noncomputable def localOpt (h1 : Fin 2 → Matrix (Fin m) (Fin m) ℂ)
    (G : Fin 2 → Matrix (Fin m) (Fin m) ℂ)
    (vaa : Fin na → Fin m → Fin na → Fin m → ℂ) (vbb : Fin nb → Fin m → Fin nb → Fin m → ℂ)
    (vab : Fin na → Fin m → Fin nb → Fin m → ℂ) (Ga : Matrix (Fin na) (Fin m) ℂ)
    (Gb : Matrix (Fin nb) (Fin m) ℂ) (ecore : ℂ) : ℂ × ℂ × ℂ :=
  let e1b := dot2 (h1 0) (G 0) + dot2 (h1 1) (G 1)
  let eJaa := (1 / 2 : ℂ) * ∑ i, ∑ r, ∑ j, ∑ s, vaa i r j s * Ga i r * Ga j s
  let eJbb := (1 / 2 : ℂ) * ∑ i, ∑ r, ∑ j, ∑ s, vbb i r j s * Gb i r * Gb j s
  let eJab := ∑ i, ∑ r, ∑ j, ∑ s, vab i r j s * Ga i r * Gb j s
  let eKaa := -(1 / 2 : ℂ) * ∑ i, ∑ r, ∑ j, ∑ s, vaa i r j s * Ga i s * Ga j r
  let eKbb := -(1 / 2 : ℂ) * ∑ i, ∑ r, ∑ j, ∑ s, vbb i r j s * Gb i s * Gb j r
  let e2b := eJaa + eJbb + eJab + eKaa + eKbb
  (e1b + e2b + ecore, e1b + ecore, e2b)

/-- `local_energy_hubbard`, hubbard.py 93-114: the symmetric term is computed and then overwritten
(lines 110-112), so the result does not depend on `symmetric`. -/
noncomputable def localHubbard (T : Fin 2 → Matrix (Fin m) (Fin m) ℂ) (U : ℂ) (symmetric : Bool)
    (G : Fin 2 → Matrix (Fin m) (Fin m) ℂ) : ℂ × ℂ × ℂ :=
  let ke := dot2 (T 0) (G 0) + dot2 (T 1) (G 1)
  let pe := if symmetric then -(1 / 2 : ℂ) * U * ((G 0).trace + (G 1).trace) else 0
  let _ := pe
  let pe := U * ∑ i, G 0 i i * G 1 i i
  (ke + pe, ke, pe)

/-! ## Stochastic resolution of the identity -/

/-- A sign vector (`2*randint(0,2)-1`) for each auxiliary index and sample. -/
abbrev Signs (nx ns : Nat) := Fin nx → Fin ns → Bool

/-- The value of a sign. -/
def sgn (b : Bool) : ℂ := if b then 1 else -1

/-- `rchol.dot(theta) * sqrt(1/nsamples)`, generic.py 342-343 and 379. -/
noncomputable def contractSigns {k ns : Nat} (r : Fin nx → Matrix (Fin k) (Fin m) ℂ)
    (θ : Signs nx ns) : Fin ns → Matrix (Fin k) (Fin m) ℂ :=
  fun s i p => (∑ x, r x i p * sgn (θ x s)) * (Real.sqrt (1 / ns) : ℂ)

/-- Exchange of one spin from the contracted vectors (lines 379-381): `Gra[l,k,s]`. -/
noncomputable def stochExx {k ns : Nat} (r : Fin nx → Matrix (Fin k) (Fin m) ℂ)
    (Gh : Matrix (Fin k) (Fin m) ℂ) (θ : Signs nx ns) : ℂ :=
  let ra := contractSigns r θ
  let Gr := fun (l j : Fin k) (s : Fin ns) => ∑ q, Gh j q * ra s l q
  ∑ l, ∑ j, ∑ s, Gr l j s * Gr j l s

/-- `local_energy_generic_cholesky_opt_stochastic` without control variate, generic.py 293-396. -/
noncomputable def localStoch {ns : Nat} (h1 : Fin 2 → Matrix (Fin m) (Fin m) ℂ)
    (G : Fin 2 → Matrix (Fin m) (Fin m) ℂ) (ra : Fin nx → Matrix (Fin na) (Fin m) ℂ)
    (rb : Fin nx → Matrix (Fin nb) (Fin m) ℂ) (Ga : Matrix (Fin na) (Fin m) ℂ)
    (Gb : Matrix (Fin nb) (Fin m) ℂ) (ecore : ℂ) (θ : Signs nx ns) : ℂ × ℂ × ℂ :=
  let e1b := dot2 (h1 0) (G 0) + dot2 (h1 1) (G 1)
  let Xa := fun x => dot2 (ra x) Ga
  let Xb := fun x => dot2 (rb x) Gb
  let ecoul := ∑ x, Xa x * Xa x + ∑ x, Xb x * Xb x + 2 * ∑ x, Xa x * Xb x
  let e2b := (1 / 2 : ℂ) * (ecoul - (stochExx ra Ga θ + stochExx rb Gb θ))
  (e1b + e2b + ecore, e1b + ecore, e2b)

/-- The same with control variate (lines 341-372): `C0a`, `C0b` are the trial orbitals and `exxa0`,
`exxb0` its exchange energies. -/
noncomputable def localStochControl {ns : Nat} (h1 : Fin 2 → Matrix (Fin m) (Fin m) ℂ)
    (G : Fin 2 → Matrix (Fin m) (Fin m) ℂ) (ra : Fin nx → Matrix (Fin na) (Fin m) ℂ)
    (rb : Fin nx → Matrix (Fin nb) (Fin m) ℂ) (Ga : Matrix (Fin na) (Fin m) ℂ)
    (Gb : Matrix (Fin nb) (Fin m) ℂ) (C0a : Matrix (Fin m) (Fin na) ℂ)
    (C0b : Matrix (Fin m) (Fin nb) ℂ) (exxa0 exxb0 : ℂ) (ecore : ℂ) (θ : Signs nx ns) : ℂ × ℂ × ℂ :=
  let e1b := dot2 (h1 0) (G 0) + dot2 (h1 1) (G 1)
  let Xa := fun x => dot2 (ra x) Ga
  let Xb := fun x => dot2 (rb x) Gb
  let ecoul := ∑ x, Xa x * Xa x + ∑ x, Xb x * Xb x + 2 * ∑ x, Xa x * Xb x
  let tr := fun {k : Nat} (r : Fin ns → Matrix (Fin k) (Fin m) ℂ) (Gt : Matrix (Fin m) (Fin k) ℂ) =>
    ∑ s, ∑ i, ∑ j, (r s * Gt) i j * (r s * Gt) j i
  let exxa := exxa0 + (tr (contractSigns ra θ) Gaᵀ - tr (contractSigns ra θ) C0a)
  let exxb := exxb0 + (tr (contractSigns rb θ) Gbᵀ - tr (contractSigns rb θ) C0b)
  let e2b := (1 / 2 : ℂ) * (ecoul - (exxa + exxb))
  (e1b + e2b + ecore, e1b + ecore, e2b)

/-- `kinetic_real_stochastic` for one spin, operations.py 54-88. -/
noncomputable def kineticStoch {k ns : Nat} (B : Matrix (Fin m) (Fin m) ℂ) (φ : Matrix (Fin m) (Fin k) ℂ)
    (θ : Signs m ns) : Matrix (Fin m) (Fin k) ℂ :=
  let t : Matrix (Fin m) (Fin ns) ℂ := Matrix.of fun i s => sgn (θ i s)
  (1 / (ns : ℂ)) • ((B * t) * (tᵀ * φ))

/-! ## Variational energies -/

/-- `variational_energy_multi_det`, mixed.py 511-535: `loc i j` is the local energy for bra `i` and
ket `j`, `ov i j` their overlap; first component. -/
noncomputable def varMultiDet {n : Nat} (c : Fin n → ℂ) (ov loc : Fin n → Fin n → ℂ) : ℂ :=
  (∑ i, ∑ j, star (c i) * c j * ov i j * loc i j) / ∑ i, ∑ j, star (c i) * c j * ov i j

/-- `variational_energy_ortho_det`, mixed.py 537-572, first component; `H i j` are the matrix
elements `get_hmatel`. -/
noncomputable def varOrthoDet {n : Nat} (c : Fin n → ℂ) (H : Fin n → Fin n → ℂ) : ℂ :=
  (∑ i, ∑ j, if j ≤ i then
      (star (c i) * c j * H i j + if j < i then star (c i) * c j * H i j else 0) else 0) /
    ∑ i, star (c i) * c i

/-- `contract_one_body`, multi_slater.py 234-257, for an orthogonal expansion. -/
noncomputable def contractOrtho {n : Nat} (c : Fin n → ℂ) (t : Fin n → Fin n → ℂ) : ℂ :=
  (∑ i, ∑ j, star (c i) * star (c j) * t i j) / ∑ i, star (c i) * star (c i)

/-- `contract_one_body` for a non-orthogonal expansion: `ga`, `gb` the Green's functions of the pairs
of determinants. -/
noncomputable def contractNonOrtho {n : Nat} (c : Fin n → ℂ) (ints : Matrix (Fin m) (Fin m) ℂ)
    (ov : Fin n → Fin n → ℂ) (ga gb : Fin n → Fin n → Matrix (Fin m) (Fin m) ℂ) : ℂ :=
  (∑ i, ∑ j, star (c i) * star (c j) * ov i j * dot2 ints (ga i j + gb i j)) /
    ∑ i, ∑ j, star (c i) * star (c j) * ov i j

end Verif.Energy
