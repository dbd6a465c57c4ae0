import Verif.Files.Fcidump
import Mathlib.Algebra.BigOperators.Fin

/-!
# FCIDUMP files of Hamiltonians with k-points

Model of `write_fcidump_kpoint`, `get_kpoint_chol` and the Cholesky vectors of `read_qmcpack_cholesky_kpoint`
(pauxy/utils/hamiltonian_converter.py 356-419, 462-543).

Simplified: as for `Files.Fcidump`; there are as many momentum transfers as k-points; an array is a function of its indices,
its numbers of rows and columns are those that the loops use.  `none` is an exception or the exit of the program.
-/

namespace Verif.KPoint

open Files

/-- The sizes of a Hamiltonian: orbitals for each k-point, vectors for each momentum transfer, and `qk_k2[Q,k]`. -/
structure Sizes (nkp : Nat) where
  nmo : Fin nkp → Nat
  nchol : Fin nkp → Nat
  qk : Fin nkp → Fin nkp → Fin nkp

/-- What the list `chol` holds for one momentum transfer: a row of numbers for each k-point, or a matrix for each. -/
inductive KArr (nkp : Nat) where
  | flat (v : Fin nkp → Nat → ℂ)
  | mats (A : Fin nkp → Nat → Nat → ℂ)

variable {nkp : Nat}

/-- `offsets`, hamiltonian_converter.py 496-498. -/
def offset (nmo : Fin nkp → Nat) : Nat → Nat
  | 0 => 0
  | i + 1 => offset nmo i + if h : i < nkp then nmo ⟨i, h⟩ else 0

/-- The pairs in the order of the loops with the counter `ik` or `lj`, hamiltonian_converter.py 510-515, 517-520, 529, 530. -/
def pairsK (a b : Nat) : List ((Fin a × Fin b) × Nat) :=
  ((List.finRange a).flatMap fun i => (List.finRange b).map fun k => (i, k)).zipIdx

/-- Orbital numbers and positions in `eri` for one block, hamiltonian_converter.py 511-530. -/
def block (y : Sizes nkp) (Q ki kl : Fin nkp) : List (Quad × Nat × Nat) :=
  let kk := y.qk Q ki
  let kj := y.qk Q kl
  (pairsK (y.nmo ki) (y.nmo kk)).flatMap fun p => (pairsK (y.nmo kl) (y.nmo kj)).map fun r =>
    (((p.1.1 : Nat) + offset y.nmo ki, (p.1.2 : Nat) + offset y.nmo kk, (r.1.2 : Nat) + offset y.nmo kj, (r.1.1 : Nat) + offset y.nmo kl),
      p.2, r.2)

/-- `eri[ik,lj]`, hamiltonian_converter.py 505. -/
noncomputable def eriAt (y : Sizes nkp) (Q : Fin nkp) (A : Fin nkp → Nat → Nat → ℂ) (ki kl : Fin nkp) (ik lj : Nat) : ℂ :=
  ∑ n : Fin (y.nchol Q), A ki ik n * star (A kl lj n)

open Classical in
/-- The lines of one block, hamiltonian_converter.py 504-530.  `len(numpy.where(...))` is the number of axes, two, whatever
the integrals are, and zero axes do not occur; the product of two rows is a number, which cannot be indexed. -/
noncomputable def blockLines (rnd : ℝ → ℝ) (y : Sizes nkp) (nmoTot : Nat) (tol : ℝ) (sym : Nat) (cplx paren : Bool) (c : KArr nkp)
    (Q ki kl : Fin nkp) : Option (List Line) :=
  if cplx = false then none
  else match c with
    | .flat _ => if block y Q ki kl = [] then some [] else none
    | .mats A => some (((block y Q ki kl).filter fun b =>
        decide (tol < ‖eriAt y Q A ki kl b.2.1 b.2.2‖ ∧ checkSym b.1 nmoTot sym = true)).map fun b =>
          fmt rnd (eriAt y Q A ki kl b.2.1 b.2.2) (b.1.1 + 1, b.1.2.1 + 1, b.1.2.2.1 + 1, b.1.2.2.2 + 1) cplx paren)

/-- The lines of all iterations of a loop, if none raises. -/
def collect {α β : Type} (f : α → Option (List β)) : List α → Option (List β)
  | [] => some []
  | a :: l => (f a).bind fun x => (collect f l).map fun r => x ++ r

open Classical in
/-- The one-electron lines, hamiltonian_converter.py 532-540. -/
noncomputable def oneLinesK (rnd : ℝ → ℝ) (y : Sizes nkp) (hcore : Fin nkp → Nat → Nat → ℂ) (tol : ℝ) (cplx paren : Bool) : List Line :=
  (List.finRange nkp).flatMap fun k => (List.finRange (y.nmo k)).flatMap fun i : Fin (y.nmo k) =>
    ((List.finRange (y.nmo k)).filter fun j : Fin (y.nmo k) => decide ((j : Nat) + offset y.nmo k ≤ (i : Nat) + offset y.nmo k ∧ tol < ‖hcore k i j‖)).map
      fun j : Fin (y.nmo k) => fmt rnd (hcore k i j) ((i : Nat) + offset y.nmo k + 1, (j : Nat) + offset y.nmo k + 1, 0, 0) cplx paren

/-- `write_fcidump_kpoint`, hamiltonian_converter.py 462-543. -/
noncomputable def writeK (rnd : ℝ → ℝ) (y : Sizes nkp) (hcore : Fin nkp → Nat → Nat → ℂ) (chol : Fin nkp → KArr nkp) (enuc : ℝ)
    (nmoTot : Nat) (nelec : Nat × Nat) (tol : ℝ) (sym : Nat) (paren cplx : Bool) : Option FFile :=
  (collect (fun Q => collect (fun ki => collect (fun kl => blockLines rnd y nmoTot tol sym cplx paren (chol Q) Q ki kl) (List.finRange nkp))
    (List.finRange nkp)) (List.finRange nkp)).map fun ls =>
    { norb := nmoTot
      nelec := nelec.1 + nelec.2
      ms2 := nelec.1 - nelec.2
      lines := ls ++ oneLinesK rnd y hcore tol cplx paren ++ [fmt rnd enuc (0, 0, 0, 0) cplx paren] }

/-- `get_kpoint_chol`, hamiltonian_converter.py 409-419, for a file that stores rows of numbers for some momentum transfers;
`none` is the `KeyError` for the opposite one. -/
def getChol (stored : Fin nkp → Option (Fin nkp → Nat → ℂ)) (minusK : Fin nkp → Fin nkp) (Q : Fin nkp) : Option (KArr nkp) :=
  match stored Q with
  | some v => some (.flat v)
  | none => (stored (minusK Q)).map fun v => .flat fun k x => star (v k x)

/-- `reshape(nkp, -1, nchol)`, which neither function does and the writer needs. -/
def reshape (nchol : Nat) : KArr nkp → KArr nkp
  | .flat v => .mats fun k r n => v k (r * nchol + n)
  | .mats A => .mats A

end Verif.KPoint
