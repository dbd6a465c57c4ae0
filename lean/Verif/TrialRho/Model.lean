import Verif.ChemPot.Model
import Verif.Stack.Model
import Mathlib.Analysis.Normed.Algebra.MatrixExponential
import Mathlib.Analysis.SpecialFunctions.Log.Base

/-!
# Trial density matrices

Model of `OneBody` (`pauxy/trial_density_matrices/onebody.py`), `MeanField` (`pauxy/trial_density_matrices/mean_field.py`), `entropy`
(`pauxy/estimators/thermal.py`) and `fock_hubbard` (`pauxy/estimators/hubbard.py`).  Floating-point numbers are real or complex numbers,
`scipy.linalg.expm` is the exponential.
-/

namespace Verif.TrialRho

open Matrix Verif.ChemPot
open Verif.Thermal (Mat oneRdmStable)

variable {m : Nat}

/-- `num_slices`, onebody.py 53, for positive `beta` and `dt`. -/
noncomputable def numSlices (beta dt : ℝ) : Nat := ⌊beta / dt⌋₊

/-- The stack size before it is adjusted, onebody.py 54-68: the option, or an estimate from the condition number `cond` of the density
matrix of a slice.  If the condition number is one, `3.0/log10(cond)` is infinite and `int` raises. -/
noncomputable def stackGuess (opt : Option Nat) (n : Nat) (cond : ℝ) : Option Nat :=
  match opt with
  | some s => some s
  | none => if Real.logb 10 cond = 0 then none else some (min n ⌊3 / Real.logb 10 cond⌋₊)

/-- `stack_size` after `update_stack`, onebody.py 74. -/
noncomputable def stackSize (opt : Option Nat) (n : Nat) (cond : ℝ) : Option Nat :=
  match stackGuess opt n cond with
  | none => none
  | some s => match Stack.updateStack (n + 1) s n with
    | .done r => some r
    | _ => none

/-- What the constructor is given: the one-body Hamiltonian, `beta`, `dt`, the options `stack_size`, `mu`, `threshold`, `max_it`, the target
number of particles and `system._alt_convention`.  `cond` is `numpy.linalg.cond(dmat[0])`, `qrp` is `scipy.linalg.qr` with pivoting. -/
structure Inp (m : Nat) where
  H1 : Fin 2 → Mat m
  beta : ℝ
  dt : ℝ
  stack : Option Nat
  cond : ℝ
  nav : ℝ
  deps : ℝ
  maxIt : Nat
  mu : Option ℝ
  alt : Bool
  qrp : Mat m → Mat m × Mat m × Equiv.Perm (Fin m)

/-- The attributes of the trial density matrix. -/
structure Out (m : Nat) where
  dmat : Fin 2 → Mat m
  P : Fin 2 → Mat m
  mu : ℝ
  nav : ℝ
  numSlices : Nat
  stackSize : Nat
  numBins : Nat

/-- `sign`, onebody.py 80-84. -/
def Inp.sign (I : Inp m) : ℝ := if I.alt then -1 else 1

/-- `expm(-t*H1)`, onebody.py 33-35 and 89-97. -/
noncomputable def expH (t : ℝ) (H : Fin 2 → Mat m) (s : Fin 2) : Mat m := NormedSpace.exp (-(t : ℂ) • H s)

/-- `particle_number(P).real`, onebody.py 103 and estimators/thermal.py 131-145. -/
noncomputable def navOf (P : Fin 2 → Mat m) : ℝ := ((P 0).trace + (P 1).trace).re

/-- The attributes for a stack size and a chemical potential, onebody.py 75-107 (`dmat_inv` and `G`, which are functions of `dmat`, are left
out). -/
noncomputable def build (I : Inp m) (ss : Nat) (mu : ℝ) : Out m :=
  let numBins := ⌊I.beta / (ss * I.dt)⌋₊
  let dtau := ss * I.dt
  let P := fun s => oneRdmStable I.qrp (computeRho (expH dtau I.H1 s) mu dtau I.sign) numBins
  { dmat := fun s => computeRho (expH I.dt I.H1 s) mu I.dt I.sign
    P := P
    mu := mu
    nav := navOf P
    numSlices := numSlices I.beta I.dt
    stackSize := ss
    numBins := numBins }

/-- `OneBody.__init__`, onebody.py 17-113: the constructor returns with the attributes `o`.  The search for the chemical potential may run
forever, so this is a relation; `find_chemical_potential` returning `None` makes line 100 or 102 raise. -/
def OneBody (I : Inp m) (o : Out m) : Prop :=
  ∃ ss mu, stackSize I.stack (numSlices I.beta I.dt) I.cond = some ss ∧
    (I.mu = some mu ∨ I.mu = none ∧
      Finds (deltaNav I.qrp (expH (ss * I.dt) I.H1) (ss * I.dt) I.sign ⌊I.beta / (ss * I.dt)⌋₊ I.nav) I.deps I.maxIt (some mu)) ∧
    o = build I ss mu

/-! ## `entropy` -/

/-- `numpy.linalg.norm` of a stack of matrices. -/
noncomputable def normF {κ : Type} [Fintype κ] (A : κ → Mat m) : ℝ := Real.sqrt (∑ k, ∑ i, ∑ j, ‖A k i j‖ ^ 2)

open Classical in
/-- `entropy`, estimators/thermal.py 198-210, with the eigenvalues `eigh` of a Hermitian matrix; `none` if the assertion fails. -/
noncomputable def entropy (eigh : Mat m → Fin m → ℝ) (beta mu : ℝ) (H : Fin 2 → Mat m) : Option ℝ :=
  if normF (fun _ : Fin 1 => H 0 - H 1) < 1e-12 then
    let p := fun i => fermiFactor (eigh (H 0) i) beta mu
    some (-2 * ∑ i, (p i * Real.log (p i) + (1 - p i) * Real.log (1 - p i)))
  else none

/-! ## `MeanField` -/

/-- The options of `MeanField` (mean_field.py 21-24) and the Fock matrix of the system (`fock_matrix`, estimators/fock.py 5-14). -/
structure MInp (m : Nat) extends Inp m where
  fock : (Fin 2 → Mat m) → Fin 2 → Mat m
  alpha : ℝ
  maxScf : Nat
  maxMacro : Nat
  findMu : Bool

/-- `one_rdm_stable(expm(-dt*(HMF-muN)), num_bins)`, mean_field.py 67-71. -/
noncomputable def rdmMu (I : Inp m) (dtau : ℝ) (nb : Nat) (mu : ℝ) (HMF : Fin 2 → Mat m) (s : Fin 2) : Mat m :=
  oneRdmStable I.qrp (NormedSpace.exp (-(dtau : ℂ) • (HMF s - (mu : ℂ) • 1))) nb

/-- `Pnew`, mean_field.py 75-78. -/
noncomputable def mixed (I : MInp m) (dtau : ℝ) (nb : Nat) (mu : ℝ) (Pold : Fin 2 → Mat m) (s : Fin 2) : Mat m :=
  ((1 - I.alpha : ℝ) : ℂ) • rdmMu I.toInp dtau nb mu (I.fock Pold) s + (I.alpha : ℂ) • Pold s

open Classical in
/-- The loop of `scf`, mean_field.py 74-89, with the number of iterations left; the Fock matrix of the last iteration. -/
noncomputable def scfLoop (I : MInp m) (dtau : ℝ) (nb : Nat) (mu : ℝ) : Nat → (Fin 2 → Mat m) → (Fin 2 → Mat m) → Fin 2 → Mat m
  | 0, HMF, _ => HMF
  | k + 1, _, Pold =>
    let HMF := I.fock Pold
    let Pnew := mixed I dtau nb mu Pold
    if normF (fun s => Pnew s - Pold s) < I.deps then HMF else scfLoop I dtau nb mu k HMF Pnew

/-- `scf`, mean_field.py 64-93. -/
noncomputable def scf (I : MInp m) (dtau : ℝ) (nb : Nat) (mu : ℝ) (P : Fin 2 → Mat m) : Fin 2 → Mat m :=
  let HMF := I.fock P
  scfLoop I dtau nb mu I.maxScf HMF (rdmMu I.toInp dtau nb mu HMF)

/-- What `thermal_hartree_fock` returns. -/
structure MOut (m : Nat) where
  P : Fin 2 → Mat m
  HMF : Fin 2 → Mat m
  mu : ℝ

/-- The new chemical potential, mean_field.py 46-52: `o` is the density matrix the constructor of `OneBody` has built. -/
def newMu (I : MInp m) (o : Out m) (rho : Fin 2 → Mat m) (mu : ℝ) : Prop :=
  if I.findMu then Finds (deltaNav I.qrp rho (o.stackSize * I.dt) I.sign o.numBins o.nav) I.deps I.maxIt (some mu) else mu = o.mu

/-- The loop of `thermal_hartree_fock`, mean_field.py 40-62, with the number of iterations left: `muOld`, `P`, and what is returned.  Without
an iteration `HMF` is not defined and the function raises. -/
inductive Macro (I : MInp m) (o : Out m) : Nat → ℝ → (Fin 2 → Mat m) → MOut m → Prop
  | last (k : Nat) (muOld mu : ℝ) (P : Fin 2 → Mat m) (HMF : Fin 2 → Mat m)
      (hF : HMF = scf I (o.stackSize * I.dt) o.numBins muOld P) (hm : newMu I o (expH (o.stackSize * I.dt) HMF) mu)
      (h : |mu - muOld| < I.deps ∨ k = 0) : Macro I o (k + 1) muOld P
        ⟨fun s => oneRdmStable I.qrp (computeRho (expH (o.stackSize * I.dt) HMF s) muOld (o.stackSize * I.dt) 1) o.numBins, HMF, mu⟩
  | more (k : Nat) (muOld mu : ℝ) (P : Fin 2 → Mat m) (HMF : Fin 2 → Mat m) (r : MOut m)
      (hF : HMF = scf I (o.stackSize * I.dt) o.numBins muOld P) (hm : newMu I o (expH (o.stackSize * I.dt) HMF) mu)
      (h : ¬ |mu - muOld| < I.deps)
      (hr : Macro I o k mu
        (fun s => oneRdmStable I.qrp (computeRho (expH (o.stackSize * I.dt) HMF s) muOld (o.stackSize * I.dt) 1) o.numBins) r) :
      Macro I o (k + 1) muOld P r

/-- `MeanField.__init__`, mean_field.py 16-32. -/
def MeanField (I : MInp m) (o : Out m) (r : MOut m) (dmat : Fin 2 → Mat m) (nav : ℝ) : Prop :=
  OneBody I.toInp o ∧ Macro I o I.maxMacro o.mu o.P r ∧
    (dmat = fun s => NormedSpace.exp (-(I.dt : ℂ) • (r.HMF s - (r.mu : ℂ) • 1))) ∧ nav = navOf r.P

/-- `fock_hubbard`, estimators/hubbard.py 208-214. -/
noncomputable def fockHubbard (T : Fin 2 → Mat m) (U : ℝ) (P : Fin 2 → Mat m) (s : Fin 2) : Mat m :=
  let niu := diagonal fun i => P 0 i i
  let nid := diagonal fun i => P 1 i i
  T s + (U : ℂ) • (if s = 0 then nid else niu)

/-- `fock_generic` with dense vectors, estimators/generic.py 464-466: `einsum('lpq,spq->l', hs_pot, P)` for an array of the given shape;
`none` if the shapes do not fit. -/
def fockGenericShape (shape : List Nat) (nb : Nat) : Option Nat :=
  match shape with
  | [l, p, q] => if p = nb ∧ q = nb then some l else none
  | _ => none

/-- The shape of `hs_pot` of a `Generic` system: the vectors are stored as `nbasis²` rows, systems/generic.py 126 and 154. -/
def hsPotShape (nb nchol : Nat) : List Nat := [nb * nb, nchol]

end Verif.TrialRho
