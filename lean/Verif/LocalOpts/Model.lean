import Verif.Energy.Model
import Verif.Setup.Model

/-!
# How the options choose the energy routine

Model of the dispatch `local_energy` in `pauxy/estimators/mixed.py` 383-437, of what
`half_rotate` in `pauxy/trial_wavefunction/multi_slater.py` stores for it, of the energy routines in
`pauxy/estimators/generic.py` as they act on the stored flat arrays, and of what the walkers of
`pauxy/walkers/single_det.py` hand over.  An exception is `none`.

Arrays are functions of natural numbers together with their shape where the code may fail on it;
`ravel` and `reshape` are the row-major index maps.  `scipy.linalg.inv` is the matrix inverse
(`Slater.gabMod`); `numpy.linalg.svd` is a parameter.  Chosen: `system.sparse = False`.
-/

namespace Verif.LocalOpts

open Matrix Finset Energy

variable {M na nb : Nat}

/-- Energies (total, one-body, two-body). -/
abbrev E3 := ℂ × ℂ × ℂ

/-- The options of `Generic.__init__`, `pauxy/systems/generic.py` 71-124. -/
structure Opts where
  stochastic : Bool
  control : Bool
  exact : Bool
  pno : Bool
  nsamples : Nat
  thresh : ℝ

/-- A two-index numpy array. -/
structure Arr2 where
  rows : Nat
  cols : Nat
  val : Nat → Nat → ℂ

/-- Half-rotated Green's functions of the two spins. -/
structure Half (M na nb : Nat) where
  a : Matrix (Fin na) (Fin M) ℂ
  b : Matrix (Fin nb) (Fin M) ℂ

/-! ## Half-rotated Cholesky vectors -/

/-- Rows `first, …` of column `x`, `rchol[first:...].T[x].reshape((k, M))`,
`pauxy/estimators/generic.py` 188 and 201-207. -/
def block (R : Arr2) (first k M x : Nat) : Matrix (Fin k) (Fin M) ℂ :=
  Matrix.of fun i p => R.val (first + ((i : Nat) * M + (p : Nat))) x

/-- `local_energy_generic_cholesky_opt` on the stored array, `pauxy/estimators/generic.py` 156-221.
Without the array slicing `None` fails; the second slice has to have `nb*M` rows. -/
noncomputable def cholOpt (h1 G : Fin 2 → Matrix (Fin M) (Fin M) ℂ) (ecore : ℂ) (g : Half M na nb) :
    Option Arr2 → Option E3
  | none => none
  | some R =>
    if R.rows = na * M + nb * M then
      some (localCholOpt h1 G (fun x : Fin R.cols => block R 0 na M x)
        (fun x : Fin R.cols => block R (na * M) nb M x) g.a g.b ecore)
    else none

/-- `local_energy_2body`, `pauxy/trial_wavefunction/multi_slater.py` 99-142 and
`pauxy/walkers/single_det.py` 366-411: Coulomb energy and the two exchange energies, each without
the factor one half. -/
noncomputable def twoBody (g : Half M na nb) (R : Arr2) : Option (ℂ × ℂ × ℂ) :=
  if R.rows = na * M + nb * M then
    let ra := fun x : Fin R.cols => block R 0 na M x
    let rb := fun x : Fin R.cols => block R (na * M) nb M x
    let Xa := fun x => dot2 (ra x) g.a
    let Xb := fun x => dot2 (rb x) g.b
    let ecoul := ∑ x, Xa x * Xa x + ∑ x, Xb x * Xb x + 2 * ∑ x, Xa x * Xb x
    let Ta := fun x => ra x * g.aᵀ
    let Tb := fun x => rb x * g.bᵀ
    some (ecoul, ∑ x, ∑ i, ∑ j, Ta x i j * Ta x j i, ∑ x, ∑ i, ∑ j, Tb x i j * Tb x j i)
  else none

/-! ## Stochastic resolution of the identity -/

/-- What the control variate needs: the trial orbitals and the reference energies
`(ecoul0, exxa0, exxb0)`. -/
structure Ref (M na nb : Nat) where
  Ca : Matrix (Fin M) (Fin na) ℂ
  Cb : Matrix (Fin M) (Fin nb) ℂ
  e0 : ℂ × ℂ × ℂ

/-- `local_energy_generic_cholesky_opt_stochastic`, `pauxy/estimators/generic.py` 293-396, on what it
is given: `rchol` is one array for both spins, so that `rchol[0]` and `rchol[1]` (324-332) are its
first two rows.  Without the array `system.rchol_vecs` (320) is read, which no system has.  The
scalar products (324-325) need as many columns as there are entries in the Green's functions; the
reshapes (362-363 with control variate, 379-380 without) need the sizes to agree; without samples
`1.0/nsamples` fails. -/
noncomputable def stoch (h1 G : Fin 2 → Matrix (Fin M) (Fin M) ℂ) (ecore : ℂ) (g : Half M na nb)
    (ns : Nat) (θ : Nat → Nat → Bool) (c0 : Option (Ref M na nb)) : Option Arr2 → Option E3
  | none => none
  | some R =>
    if R.rows < 2 ∨ ns = 0 ∨ R.cols ≠ na * M ∨ R.cols ≠ nb * M then none
    else
      let e1b := dot2 (h1 0) (G 0) + dot2 (h1 1) (G 1)
      let Xa := ∑ i : Fin na, ∑ p : Fin M, R.val 0 ((i : Nat) * M + (p : Nat)) * g.a i p
      let Xb := ∑ i : Fin nb, ∑ p : Fin M, R.val 1 ((i : Nat) * M + (p : Nat)) * g.b i p
      let ecoul := Xa * Xa + Xb * Xb + 2 * (Xa * Xb)
      let done := fun exxa exxb : ℂ =>
        let e2b := (1 / 2 : ℂ) * (ecoul - (exxa + exxb))
        some (e1b + e2b + ecore, e1b + ecore, e2b)
      let θ' : Signs R.cols ns := fun x s => θ x s
      match c0 with
      | some c =>
        if na * M = 1 ∧ nb * M = 1 then
          let r := fun (row : Nat) (s : Fin ns) =>
            (∑ x : Fin R.cols, R.val row x * sgn (θ' x s)) * (Real.sqrt (1 / ns) : ℂ)
          let tr := fun {k : Nat} (row : Nat) (Gt : Matrix (Fin M) (Fin k) ℂ) =>
            ∑ s, ∑ i, ∑ j, ((Matrix.of fun (_ : Fin k) (_ : Fin M) => r row s) * Gt) i j *
              ((Matrix.of fun (_ : Fin k) (_ : Fin M) => r row s) * Gt) j i
          done (c.e0.2.1 + (tr 0 g.aᵀ - tr 0 c.Ca)) (c.e0.2.2 + (tr 1 g.bᵀ - tr 1 c.Cb))
        else none
      | none =>
        if R.cols = na * M * R.cols ∧ R.cols = nb * M * R.cols then
          let r := fun (k row : Nat) (x : Fin R.cols) =>
            (Matrix.of fun (i : Fin k) (p : Fin M) =>
              R.val row (((i : Nat) * M + (p : Nat)) * R.cols + (x : Nat)) : Matrix (Fin k) (Fin M) ℂ)
          done (stochExx (r na 0) g.a θ') (stochExx (r nb 1) g.b θ')
        else none

/-! ## Half-rotated four-index integrals -/

/-- `einsum("mpX,rqX,mi,rj->ipjq", ...)`, `pauxy/trial_wavefunction/multi_slater.py` 288-290, for the
columns from `o` and `o'` on of the orbitals. -/
noncomputable def vipjq (M nchol : Nat) (chol : Nat → Nat → Nat → ℂ) (psi : Nat → Nat → ℂ)
    (o o' : Nat) (i p j q : Nat) : ℂ :=
  ∑ u : Fin M, ∑ x : Fin nchol, ∑ r : Fin M,
    chol u p x * chol r q x * star (psi u (o + i)) * star (psi r (o' + j))

/-- `ravel` of an array of shape `(_, M, l, M)`. -/
def ravel4 (M l : Nat) (v : Nat → Nat → Nat → Nat → ℂ) (n : Nat) : ℂ :=
  v (n / (M * (l * M))) (n / (l * M) % M) (n / M % l) (n % M)

/-- `reshape` to an array of shape `(_, M, l, M)`. -/
def reshape4 (M l : Nat) (f : Nat → ℂ) (i p j q : Nat) : ℂ := f (((i * M + p) * l + j) * M + q)

/-- One row of `_eri`, `pauxy/trial_wavefunction/multi_slater.py` 291-293. -/
noncomputable def eriRow (M na nb nchol : Nat) (chol : Nat → Nat → Nat → ℂ) (psi : Nat → Nat → ℂ)
    (n : Nat) : ℂ :=
  let A := M ^ 2 * na ^ 2
  let B := M ^ 2 * nb ^ 2
  if n < A then ravel4 M na (vipjq M nchol chol psi 0 0) n
  else if n < A + B then ravel4 M nb (vipjq M nchol chol psi na na) (n - A)
  else ravel4 M nb (vipjq M nchol chol psi 0 na) (n - (A + B))

/-- `local_energy_generic_opt` on the stored array, `pauxy/estimators/generic.py` 130-154: only the
first row is used. -/
noncomputable def optEri (h1 G : Fin 2 → Matrix (Fin M) (Fin M) ℂ) (ecore : ℂ) (g : Half M na nb) :
    Option (Nat → Nat → ℂ) → Option E3
  | none => none
  | some eri =>
    let A := na ^ 2 * M ^ 2
    let B := nb ^ 2 * M ^ 2
    some (localOpt h1 G
      (fun i p j q => reshape4 M na (fun n => eri 0 n) i p j q)
      (fun i p j q => reshape4 M nb (fun n => eri 0 (A + n)) i p j q)
      (fun i p j q => reshape4 M nb (fun n => eri 0 (A + B + n)) i p j q) g.a g.b ecore)

/-! ## Pair natural orbitals -/

/-- The two factors kept for a pair of electrons. -/
structure Factor (M : Nat) where
  r : Nat
  U : Matrix (Fin M) (Fin r) ℂ
  VT : Matrix (Fin r) (Fin M) ℂ

/-- The indices with `s > thresh_pno`. -/
noncomputable def kept (thresh : ℝ) (s : Fin M → ℝ) : List (Fin M) :=
  open Classical in (List.finRange M).filter fun k => thresh < s k

/-- Truncated singular value decomposition, `pauxy/trial_wavefunction/multi_slater.py` 310-318 (also
327-334 and 345-352). -/
noncomputable def truncate (thresh : ℝ)
    (d : Matrix (Fin M) (Fin M) ℂ × (Fin M → ℝ) × Matrix (Fin M) (Fin M) ℂ) : Factor M :=
  let idx := kept thresh d.2.1
  ⟨idx.length, Matrix.of fun p a => d.1 p (idx.get a) * (Real.sqrt (d.2.1 (idx.get a)) : ℂ),
    Matrix.of fun a q => (Real.sqrt (d.2.1 (idx.get a)) : ℂ) * d.2.2 (idx.get a) q⟩

/-- `ij_list_aa`, `pauxy/systems/generic.py` 99-101; the loops of
`pauxy/trial_wavefunction/multi_slater.py` 307-308 run in the same order. -/
def pairsSame (k : Nat) : List (Fin k × Fin k) :=
  (List.finRange k).flatMap fun i => ((List.finRange k).filter fun j => i ≤ j).map fun j => (i, j)

/-- `ij_list_ab`, `pauxy/systems/generic.py` 107-109. -/
def pairsMixed (k l : Nat) : List (Fin k × Fin l) :=
  (List.finRange k).flatMap fun i => (List.finRange l).map fun j => (i, j)

/-- The factors of the pairs, `_UVT`. -/
structure UVT (M : Nat) where
  aa : List (Factor M)
  bb : List (Factor M)
  ab : List (Factor M)

/-- The matrix of a pair, `vipjq[i,:,j,:]`. -/
noncomputable def pairMatrix (M nchol : Nat) (chol : Nat → Nat → Nat → ℂ) (psi : Nat → Nat → ℂ)
    (o o' i j : Nat) : Matrix (Fin M) (Fin M) ℂ :=
  Matrix.of fun p q => vipjq M nchol chol psi o o' i p j q

/-- The loops over pairs, `pauxy/trial_wavefunction/multi_slater.py` 301-359. -/
noncomputable def makeUVT
    (svd : Matrix (Fin M) (Fin M) ℂ → Matrix (Fin M) (Fin M) ℂ × (Fin M → ℝ) × Matrix (Fin M) (Fin M) ℂ)
    (na nb nchol : Nat) (thresh : ℝ) (chol : Nat → Nat → Nat → ℂ) (psi : Nat → Nat → ℂ) : UVT M :=
  let f := fun o o' i j => truncate thresh (svd (pairMatrix M nchol chol psi o o' i j))
  ⟨(pairsSame na).map fun x => f 0 0 x.1 x.2, (pairsSame nb).map fun x => f na na x.1 x.2,
    (pairsMixed na nb).map fun x => f 0 na x.1 x.2⟩

/-- `dot(einsum("p,pk->k", x, U), einsum("p,kp->k", y, VT))`, `pauxy/estimators/generic.py` 73-79. -/
noncomputable def viaFactor (F : Factor M) (x y : Fin M → ℂ) : ℂ :=
  ∑ k, (∑ p, x p * F.U p k) * ∑ q, y q * F.VT k q

/-- One pair of equal spins, `pauxy/estimators/generic.py` 57-86: `t` the half-rotated Green's function
and `t0` the transposed orbitals. -/
noncomputable def pairTerm {k : Nat} (t t0 : Matrix (Fin k) (Fin M) ℂ) (x : (Fin k × Fin k) × Factor M) :
    ℂ :=
  let i := x.1.1
  let j := x.1.2
  let c : ℂ := if i = j then 1 / 2 else 1
  c * (viaFactor x.2 (t i) (t j) - viaFactor x.2 (t0 i) (t0 j)) -
    c * (viaFactor x.2 (t j) (t i) - viaFactor x.2 (t0 j) (t0 i))

/-- One pair of opposite spins, `pauxy/estimators/generic.py` 113-122. -/
noncomputable def mixedTerm {k l : Nat} (ta t0a : Matrix (Fin k) (Fin M) ℂ)
    (tb t0b : Matrix (Fin l) (Fin M) ℂ) (x : (Fin k × Fin l) × Factor M) : ℂ :=
  viaFactor x.2 (ta x.1.1) (tb x.1.2) - viaFactor x.2 (t0a x.1.1) (t0b x.1.2)

/-- `local_energy_generic_pno`, `pauxy/estimators/generic.py` 34-128. -/
noncomputable def pnoEnergy (h1 G : Fin 2 → Matrix (Fin M) (Fin M) ℂ) (ecore : ℂ) (g : Half M na nb)
    (c0 : Option (Ref M na nb)) (uvt : Option (UVT M)) : Option E3 :=
  match c0, uvt with
  | some c, some u =>
    let e1b := dot2 (h1 0) (G 0) + dot2 (h1 1) (G 1)
    let e2b := (1 / 2 : ℂ) * (c.e0.1 - c.e0.2.1 - c.e0.2.2) +
      (((pairsSame na).zip u.aa).map (pairTerm g.a c.Caᵀ)).sum +
      (((pairsSame nb).zip u.bb).map (pairTerm g.b c.Cbᵀ)).sum +
      (((pairsMixed na nb).zip u.ab).map (mixedTerm g.a c.Caᵀ g.b c.Cbᵀ)).sum
    some (e1b + e2b + ecore, e1b + ecore, e2b)
  | _, _ => none

/-! ## Dispatch -/

/-- `local_energy` for a generic system with half-rotated Green's functions,
`pauxy/estimators/mixed.py` 413-437. -/
noncomputable def localEnergy (o : Opts) (h1 G : Fin 2 → Matrix (Fin M) (Fin M) ℂ) (ecore : ℂ)
    (g : Half M na nb) (θ : Nat → Nat → Bool) (rchol : Option Arr2) (eri : Option (Nat → Nat → ℂ))
    (c0 : Option (Ref M na nb)) (uvt : Option (UVT M)) : Option E3 :=
  if o.stochastic && o.control then stoch h1 G ecore g o.nsamples θ c0 rchol
  else if o.stochastic && !o.control then stoch h1 G ecore g o.nsamples θ none rchol
  else if o.exact && !o.pno then optEri h1 G ecore g eri
  else if o.pno then
    if o.exact && o.control then pnoEnergy h1 G ecore g c0 uvt else none
  else cholOpt h1 G ecore g rchol

/-! ## The trial -/

/-- What `half_rotate` leaves in the trial wavefunction. -/
structure Trial (M na nb : Nat) where
  rchol : Arr2
  eri : Option (Nat → Nat → ℂ)
  uvt : Option (UVT M)
  e0 : Option (ℂ × ℂ × ℂ)

/-- The loop over determinants for `exact_eri`, `pauxy/trial_wavefunction/multi_slater.py` 287-360:
row `i` of `_eri` is written; with `pno` the array is dropped afterwards (360), and the next row
cannot be written. -/
noncomputable def eriLoop (pno : Bool) (row : Nat → Nat → ℂ) :
    Nat → Option (Option (Nat → Nat → ℂ))
  | 0 => some (some fun _ _ => 0)
  | i + 1 =>
    match eriLoop pno row i with
    | some (some e) =>
      let e := fun d n => if d = i then row i n else e d n
      some (if pno then none else some e)
    | _ => none

/-- The orbitals of the first determinant. -/
def orbA (M na : Nat) (psi : Nat → Nat → Nat → ℂ) : Matrix (Fin M) (Fin na) ℂ :=
  Matrix.of fun i a => psi 0 i a

/-- The orbitals of the first determinant, second spin. -/
def orbB (M na nb : Nat) (psi : Nat → Nat → Nat → ℂ) : Matrix (Fin M) (Fin nb) ℂ :=
  Matrix.of fun i a => psi 0 i (na + a)

/-- Green's functions of a determinant with the trial, `pauxy/estimators/greens_function.py` 75-79 and
`pauxy/walkers/single_det.py` 310-319. -/
noncomputable def green (A : Matrix (Fin M) (Fin na) ℂ) (B : Matrix (Fin M) (Fin nb) ℂ)
    (φ : Matrix (Fin M) (Fin na) ℂ) (χ : Matrix (Fin M) (Fin nb) ℂ) :
    (Fin 2 → Matrix (Fin M) (Fin M) ℂ) × Half M na nb :=
  (![(Slater.gabMod A φ).1, (Slater.gabMod B χ).1],
    ⟨(Slater.gabMod A φ).2.1, (Slater.gabMod B χ).2.1⟩)

/-- `half_rotate`, `pauxy/trial_wavefunction/multi_slater.py` 267-420, on `size` ranks in any order of
the ranks' work.  `self.GH` exists for one determinant only (60-66). -/
noncomputable def setupTrial
    (svd : Matrix (Fin M) (Fin M) ℂ → Matrix (Fin M) (Fin M) ℂ × (Fin M → ℝ) × Matrix (Fin M) (Fin M) ℂ)
    (o : Opts) (na nb nchol ndets size : Nat) (order : List (Nat × Nat))
    (chol : Nat → Nat → Nat → ℂ) (psi : Nat → Nat → Nat → ℂ) : Option (Trial M na nb) :=
  let rchol : Arr2 := ⟨ndets * (M * (na + nb)), nchol,
    Setup.halfRotateAll M na nb nchol size chol psi order (fun _ _ => 0)⟩
  let e0 : Option (Option (ℂ × ℂ × ℂ)) :=
    if o.control then
      if ndets = 1 then
        (twoBody (green (orbA M na psi) (orbB M na nb psi) (orbA M na psi) (orbB M na nb psi)).2
          rchol).map some
      else none
    else some none
  let eri : Option (Option (Nat → Nat → ℂ)) :=
    if o.exact then eriLoop o.pno (fun i => eriRow M na nb nchol chol (psi i)) ndets else some none
  let uvt : Option (UVT M) :=
    if o.exact && o.pno then some (makeUVT svd na nb nchol o.thresh chol (psi (ndets - 1))) else none
  eri.bind fun e => e0.map fun r => ⟨rchol, e, uvt, r⟩

/-- `calculate_energy` for a single determinant, `pauxy/trial_wavefunction/multi_slater.py` 156-166.
Simplified: `C0` is `psi` with its leading index of length one, on which the stochastic routine would
fail as well. -/
noncomputable def trialEnergy (o : Opts) (h1 : Fin 2 → Matrix (Fin M) (Fin M) ℂ) (ecore : ℂ)
    (θ : Nat → Nat → Bool) (A : Matrix (Fin M) (Fin na) ℂ) (B : Matrix (Fin M) (Fin nb) ℂ)
    (t : Trial M na nb) : Option E3 :=
  let G := green A B A B
  localEnergy o h1 G.1 ecore G.2 θ (some t.rchol) t.eri (t.e0.map fun e => ⟨A, B, e⟩) t.uvt

/-! ## Walkers -/

/-- A new walker, `pauxy/walkers/single_det.py` 69-91, starting from the orbitals `φ`, `χ` of
`trial.init`: its reference energies are those of its first Green's function, and its orbitals `C0`
those of the trial.  Its energy is evaluated once. -/
noncomputable def newWalker (o : Opts) (h1 : Fin 2 → Matrix (Fin M) (Fin M) ℂ) (ecore : ℂ)
    (θ : Nat → Nat → Bool) (A : Matrix (Fin M) (Fin na) ℂ) (B : Matrix (Fin M) (Fin nb) ℂ)
    (φ : Matrix (Fin M) (Fin na) ℂ) (χ : Matrix (Fin M) (Fin nb) ℂ) (t : Trial M na nb) :
    Option (Option (Ref M na nb)) :=
  let G := green A B φ χ
  let ref : Option (Option (Ref M na nb)) :=
    if o.control then (twoBody G.2 t.rchol).map fun e => some ⟨A, B, e⟩ else some none
  ref.bind fun r =>
    (localEnergy o h1 G.1 ecore G.2 θ (some t.rchol) t.eri r t.uvt).map fun _ => r

/-- `SingleDetWalker.local_energy`, `pauxy/walkers/single_det.py` 355-364: with control variates the
half-rotated vectors are not handed over. -/
noncomputable def walkerEnergy (o : Opts) (h1 G : Fin 2 → Matrix (Fin M) (Fin M) ℂ) (ecore : ℂ)
    (g : Half M na nb) (θ : Nat → Nat → Bool) (ref : Option (Ref M na nb)) (rchol : Option Arr2)
    (eri : Option (Nat → Nat → ℂ)) (uvt : Option (UVT M)) : Option E3 :=
  if o.control then localEnergy o h1 G ecore g θ none eri ref uvt
  else localEnergy o h1 G ecore g θ rchol eri none uvt

/-- The energy the mixed estimator adds for a walker with orbitals `φ'`, `χ'` that was created with
orbitals `φ`, `χ`: set-up of the trial (`pauxy/trial_wavefunction/utils.py` 75-77), its energy
(`pauxy/qmc/afqmc.py` 146), new walker, and the evaluation in
`pauxy/estimators/mixed.py` 161 (free projection: no `UVT`) or 214.  `θ` are the random signs of the
three evaluations. -/
noncomputable def runEnergy
    (svd : Matrix (Fin M) (Fin M) ℂ → Matrix (Fin M) (Fin M) ℂ × (Fin M → ℝ) × Matrix (Fin M) (Fin M) ℂ)
    (o : Opts) (free : Bool) (h1 : Fin 2 → Matrix (Fin M) (Fin M) ℂ) (ecore : ℂ)
    (nchol size : Nat) (order : List (Nat × Nat)) (chol : Nat → Nat → Nat → ℂ)
    (psi : Nat → Nat → Nat → ℂ) (θ : Fin 3 → Nat → Nat → Bool)
    (φ φ' : Matrix (Fin M) (Fin na) ℂ) (χ χ' : Matrix (Fin M) (Fin nb) ℂ) : Option E3 :=
  let A := orbA M na psi
  let B := orbB M na nb psi
  (setupTrial svd o na nb nchol 1 size order chol psi).bind fun t =>
    (trialEnergy o h1 ecore (θ 0) A B t).bind fun _ =>
      (newWalker o h1 ecore (θ 1) A B φ χ t).bind fun ref =>
        let G := green A B φ' χ'
        walkerEnergy o h1 G.1 ecore G.2 (θ 2) ref (some t.rchol) t.eri (if free then none else t.uvt)

end Verif.LocalOpts
