import Verif.Energy.Model
import Mathlib.Analysis.SpecialFunctions.Trigonometric.Basic
import Mathlib.Analysis.Real.Sqrt
import Mathlib.Algebra.Order.Floor.Ring

/-!
# Uniform electron gas

Model of `pauxy/systems/ueg.py`, of `pauxy/estimators/ueg.py` and of the kernels in
`pauxy/estimators/ueg_kernels.pyx`.  Momenta are integer vectors, energies are real numbers.  A sparse
matrix built from (row, column, value) triplets is the function with these values; the index
`row * nbasis + col` of the flattened pair is kept as the pair.
-/

namespace Verif.UEG

open Finset

/-- An integer momentum vector. -/
abbrev Vec := ℤ × ℤ × ℤ

/-- `numpy.dot(k, k)`. -/
def nsq (k : Vec) : ℤ := k.1 ^ 2 + k.2.1 ^ 2 + k.2.2 ^ 2

/-- The input of the constructor (ueg.py 43-58). -/
structure Inp where
  ecut : ℝ
  kfac : ℝ
  vol : ℝ
  twist : ℝ × ℝ × ℝ

/-- `nmax = int(math.ceil(numpy.sqrt((2*ecut))))`, ueg.py 214. -/
noncomputable def nmax (ecut : ℝ) : ℤ := ⌈Real.sqrt (2 * ecut)⌉

/-- `range(-nmax, nmax+1)`. -/
def irange (n : ℤ) : List ℤ := (List.range (2 * n + 1).toNat).map (fun (i : Nat) => (i : ℤ) - n)

open Classical in
/-- The triple loop of `sp_energies`, ueg.py 221-227. -/
noncomputable def kvals (ecut : ℝ) : List Vec :=
  let n := nmax ecut
  (irange n).flatMap fun ni => (irange n).flatMap fun nj => (irange n).filterMap fun nk =>
    let k : Vec := (ni, nj, nk)
    if (1 / 2 : ℝ) * (nsq k : ℝ) ≤ ecut then some k else none

/-- The energy of a vector, ueg.py 228-231. -/
noncomputable def energy (I : Inp) (k : Vec) : ℝ :=
  I.kfac ^ 2 * ((1 / 2) * ((k.1 + I.twist.1) ^ 2 + (k.2.1 + I.twist.2.1) ^ 2 + (k.2.2 + I.twist.2.2) ^ 2))

open Classical in
/-- The vectors in order of increasing energy, ueg.py 233-237: a stable sort (merge sort). -/
noncomputable def sorted (I : Inp) (ecut : ℝ) : List Vec :=
  (kvals ecut).mergeSort (fun a b => decide (energy I a ≤ energy I b))

/-- `self.basis`, ueg.py 100. -/
noncomputable def basis (I : Inp) : List Vec := sorted I I.ecut

/-- `map_basis_to_index`, ueg.py 261-264, with `shifted_nmax = 2*nmax` (line 102). -/
noncomputable def mapIx (I : Inp) (k : Vec) : ℤ :=
  let n := nmax I.ecut
  (k.1 + n) + 2 * n * (k.2.1 + n) + 2 * n * (2 * n) * (k.2.2 + n)

/-- `max(basis_ix)`; an error (`none`) for an empty list. -/
noncomputable def maxIx (I : Inp) : Option ℤ := ((basis I).map (mapIx I)).max?

/-- `create_lookup_table`, ueg.py 241-248. -/
noncomputable def table (I : Inp) (mx : ℤ) : List Nat :=
  ((basis I).zipIdx).foldl (fun t ki => t.set (mapIx I ki.1).toNat ki.2)
    (List.replicate (mx + 1).toNat 0)

/-- `lookup_basis`, ueg.py 250-259, with `imax_sq` from line 103.  A negative index counts from the
end, as in Python. -/
noncomputable def lookup (I : Inp) (v : Vec) : Option Nat :=
  match (basis I).getLast?, maxIx I with
  | some l, some mx =>
    if nsq v ≤ nsq l then
      let t := table I mx
      let ix := mapIx I v
      if ix < 0 then t[(t.length + ix).toNat]?
      else if (t.length : ℤ) ≤ ix then none else t[ix.toNat]?
    else none
  | _, _ => none

/-- The check of the constructor, ueg.py 105-106: it fails unless every basis vector is found. -/
def SetupOk (I : Inp) : Prop := ∀ i k, (basis I)[i]? = some k → lookup I k = some i

/-- `self.qvecs`, ueg.py 115-117: all momentum transfers but the first. -/
noncomputable def qvecs (I : Inp) : List Vec := (sorted I (4 * I.ecut)).tail

/-- `vq(kfac*q)`, ueg.py 285-296. -/
noncomputable def vq (I : Inp) (q : Vec) : ℝ := 4 * Real.pi / (I.kfac ^ 2 * (nsq q : ℝ))

/-- Number of plane waves. -/
noncomputable abbrev nb (I : Inp) : Nat := (basis I).length

/-- Basis vector number `i`. -/
noncomputable def bv (I : Inp) (i : Fin (nb I)) : Vec := (basis I)[i]

/-- `mod_one_body`, ueg.py 298-317; the diagonal of the result. -/
noncomputable def modOneBody (I : Inp) (i : Fin (nb I)) : ℝ :=
  energy I (bv I i) - ∑ j, if i ≠ j then 1 / (2 * I.vol) * vq I (bv I i - bv I j) else 0

/-- One column of `scaled_density_operator_incore(False)`, ueg.py 336-401: row index
`idxkpq*nbasis + i` as the pair `(idxkpq, i)`. -/
noncomputable def rho (I : Inp) (q : Vec) : Matrix (Fin (nb I)) (Fin (nb I)) ℝ :=
  Matrix.of fun a b => if lookup I (bv I b + q) = some a.val then
    Real.sqrt (Real.pi / I.vol / (I.kfac ^ 2 * (nsq q : ℝ))) else 0

/-- One column of `scaled_density_operator_incore(True)`: row index `idxkpq + i*nbasis`, that is the
pair `(i, idxkpq)`. -/
noncomputable def rhoH (I : Inp) (q : Vec) : Matrix (Fin (nb I)) (Fin (nb I)) ℝ :=
  Matrix.of fun a b => if lookup I (bv I a + q) = some b.val then
    Real.sqrt (Real.pi / I.vol / (I.kfac ^ 2 * (nsq q : ℝ))) else 0

/-- `iA` of `two_body_potentials_incore`, ueg.py 425. -/
noncomputable def iA (I : Inp) (q : Vec) : Matrix (Fin (nb I)) (Fin (nb I)) ℂ :=
  Matrix.of fun a b => Complex.I * ((rho I q a b : ℂ) + rhoH I q a b)

/-- `iB` of `two_body_potentials_incore`, ueg.py 426. -/
noncomputable def iB (I : Inp) (q : Vec) : Matrix (Fin (nb I)) (Fin (nb I)) ℂ :=
  Matrix.of fun a b => -((rho I q a b : ℂ) - rhoH I q a b)

/-- `eri_4`, ueg.py 487-491, after the transposition of the last two indices. -/
noncomputable def eri4 (I : Inp) (p r q s : Fin (nb I)) : ℝ :=
  4 * ((qvecs I).map fun k => rho I k p r * rho I k s q).sum

/-- `hijkl`, ueg.py 435-456; integer vectors, so that the tolerances are exact tests. -/
noncomputable def hijkl (I : Inp) (i j k l : Fin (nb I)) : ℝ :=
  let q1 := bv I k - bv I i
  let q2 := bv I j - bv I l
  if 0 < nsq q1 ∧ nsq (q1 - q2) = 0 then 1 / I.vol * vq I q1 else 0

/-- `ikpq_i`, `ikpq_kpq` of one vector `q`, ueg.py 144-156; `ipmq_i`, `ipmq_pmq` (158-170) are the
lists of `-q`. -/
noncomputable def pairs (I : Inp) (nlimit : Nat) (q : Vec) : List (Nat × Nat) :=
  (((basis I).take nlimit).zipIdx).filterMap fun ki => (lookup I (ki.1 + q)).map fun j => (ki.2, j)

/-- An entry of a matrix by natural indices; in range for all entries used. -/
noncomputable def ent {n : Nat} (G : Matrix (Fin n) (Fin n) ℂ) (i j : Nat) : ℂ :=
  if h : i < n ∧ j < n then G ⟨i, h.1⟩ ⟨j, h.2⟩ else 0

/-- `Gkpq` and `Gpmq`: `coulomb_greens_function_per_qvec`, ueg_kernels.pyx 42-56. -/
noncomputable def gSum {n : Nat} (l : List (Nat × Nat)) (G : Matrix (Fin n) (Fin n) ℂ) : ℂ :=
  (l.map fun x => ent G x.1 x.2).sum

/-- `exchange_greens_function_per_qvec`, ueg_kernels.pyx 58-75. -/
noncomputable def gProd {n : Nat} (kpq pmq : List (Nat × Nat)) (G : Matrix (Fin n) (Fin n) ℂ) : ℂ :=
  (kpq.map fun x => (pmq.map fun y => ent G y.1 x.2 * ent G x.1 y.2).sum).sum

/-- `local_energy_ueg`, estimators/ueg.py 27-88 (diagonal one-body part). -/
noncomputable def localUEG (I : Inp) (nlimit : Nat) (G : Fin 2 → Matrix (Fin (nb I)) (Fin (nb I)) ℂ) :
    ℂ × ℂ × ℂ :=
  let ke := ∑ s, ∑ i, (energy I (bv I i) : ℂ) * G s i i
  let gk := fun q s => gSum (pairs I nlimit q) (G s)
  let gp := fun q s => gSum (pairs I nlimit (-q)) (G s)
  let gx := fun q s => gProd (pairs I nlimit q) (pairs I nlimit (-q)) (G s)
  let dotv := fun (f : Vec → ℂ) => 1 / (2 * (I.vol : ℂ)) * ((qvecs I).map fun q => (vq I q : ℂ) * f q).sum
  let essa := dotv fun q => gk q 0 * gp q 0 - gx q 0
  let essb := dotv fun q => gk q 1 * gp q 1 - gx q 1
  let eos := dotv (fun q => gk q 0 * gp q 1) + dotv (fun q => gk q 1 * gp q 0)
  let pe := essa + essb + eos
  (ke + pe, ke, pe)

/-- One contribution `M[a,b] += v`. -/
noncomputable def at1 {n : Nat} (a b : Nat) (v : ℂ) (i j : Fin n) : ℂ :=
  if a = i.val ∧ b = j.val then v else 0

/-- `build_J_opt`, ueg_kernels.pyx 135-149. -/
noncomputable def buildJ (I : Inp) (nlimit : Nat) (G : Fin 2 → Matrix (Fin (nb I)) (Fin (nb I)) ℂ) :
    Matrix (Fin (nb I)) (Fin (nb I)) ℂ :=
  Matrix.of fun a b => ((qvecs I).map fun q =>
    let c := 1 / (2 * (I.vol : ℂ)) * (vq I q : ℂ)
    let gp := gSum (pairs I nlimit (-q)) (G 0) + gSum (pairs I nlimit (-q)) (G 1)
    let gk := gSum (pairs I nlimit q) (G 0) + gSum (pairs I nlimit q) (G 1)
    ((pairs I nlimit (-q)).map fun x => at1 x.2 x.1 (c * gp) a b).sum +
      ((pairs I nlimit q).map fun x => at1 x.2 x.1 (c * gk) a b).sum).sum

/-- `build_K_opt`, ueg_kernels.pyx 151-166, one spin. -/
noncomputable def buildK (I : Inp) (nlimit : Nat) (G : Matrix (Fin (nb I)) (Fin (nb I)) ℂ) :
    Matrix (Fin (nb I)) (Fin (nb I)) ℂ :=
  Matrix.of fun a b => ((qvecs I).map fun q =>
    let c := 1 / (2 * (I.vol : ℂ)) * (vq I q : ℂ)
    ((pairs I nlimit (-q)).map fun x => ((pairs I nlimit q).map fun y =>
        at1 x.1 y.2 (-c * ent G x.2 y.1) a b).sum).sum +
      ((pairs I nlimit q).map fun x => ((pairs I nlimit (-q)).map fun y =>
        at1 x.1 y.2 (-c * ent G x.2 y.1) a b).sum).sum).sum

/-- `fock_ueg`, estimators/ueg.py 130-168: the Fock matrix of one spin. -/
noncomputable def fock (I : Inp) (nlimit : Nat) (G : Fin 2 → Matrix (Fin (nb I)) (Fin (nb I)) ℂ)
    (s : Fin 2) : Matrix (Fin (nb I)) (Fin (nb I)) ℂ :=
  Matrix.diagonal (fun i => (energy I (bv I i) : ℂ)) + buildJ I nlimit G + buildK I nlimit (G s)

end Verif.UEG
