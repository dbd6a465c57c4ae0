import Verif.Chol.Model
import Verif.Files.Fcidump
import Mathlib.Logic.Equiv.Fin.Basic
import Mathlib.Data.Complex.BigOperators

/-!
# From an FCIDUMP file to the Hamiltonian of a run

Model of `bin/fcidump_to_afqmc.py` (`main`, lines 53-79), of `write_qmcpack_dense` and `from_qmcpack_dense` (`pauxy/utils/io.py`), of
`read_integrals` and `hijkl` (`pauxy/systems/generic.py`).  A data set of the file is its shape and its numbers in row-major order.
-/

namespace Verif.Convert

open Verif.Files (FFile FRead readFcidump Quad)

/-- A data set of floats in an HDF5 file. -/
structure DSet where
  shape : List Nat
  data : List ℝ

/-- A two-dimensional array of real numbers is stored as it is. -/
def realSet {r c : Nat} (M : Fin r → Fin c → ℝ) : DSet :=
  ⟨[r, c], (List.finRange r).flatMap fun i => (List.finRange c).map (M i)⟩

/-- `to_qmcpack_complex`, io.py 562-564: an axis for real and imaginary part is added. -/
def cplxSet {r c : Nat} (M : Fin r → Fin c → ℂ) : DSet :=
  ⟨[r, c, 2], (List.finRange r).flatMap fun i => (List.finRange c).flatMap fun j => [(M i j).re, (M i j).im]⟩

/-- Two floats as a complex number. -/
def pairUp : List ℝ → List ℂ
  | a :: b :: l => ⟨a, b⟩ :: pairUp l
  | _ => []

/-- A two-dimensional array in memory. -/
structure Arr where
  rows : Nat
  cols : Nat
  data : List ℂ

def Arr.at (a : Arr) (i j : Nat) : ℂ := a.data.getD (i * a.cols + j) 0

/-- `data.view(numpy.complex128)`: a `ValueError` if the last axis is odd. -/
def view (d : DSet) : Option (List ℂ) :=
  match d.shape.getLast? with
  | some m => if m % 2 = 0 then some (pairUp d.data) else none
  | none => none

/-- `from_qmcpack_complex(data, (r, c))`, io.py 126-127. -/
def fromComplex (d : DSet) (r c : Nat) : Option Arr :=
  (view d).bind fun l => if l.length = r * c then some ⟨r, c, l⟩ else none

/-- `from_qmcpack_complex(data, (r, -1))`, io.py 126-127. -/
def fromComplexFree (d : DSet) (r : Nat) : Option Arr :=
  (view d).bind fun l => if r ≠ 0 ∧ r ∣ l.length then some ⟨r, l.length / r, l⟩ else none

/-- The data set itself, of real numbers. -/
def asReal (d : DSet) : Arr := ⟨d.shape.getD 0 0, d.shape.getD 1 0, d.data.map Complex.ofReal⟩

/-- A dense Hamiltonian file: `Energies`, `hcore`, `DenseFactorized/L`, `dims`. -/
structure HFile where
  energies : List ℂ
  hcore : DSet
  chol : DSet
  dims : List Int

/-- `write_qmcpack_dense`, io.py 176-193. -/
def writeDense {n m : Nat} (hcore : Fin n → Fin n → ℂ) (chol : Fin (n * n) → Fin m → ℂ) (nelec : Int × Int) (enuc : ℂ)
    (realChol : Bool) : HFile :=
  { energies := [enuc, 0]
    hcore := if realChol then realSet fun i j => (hcore i j).re else cplxSet hcore
    chol := if realChol then realSet fun i j => (chol i j).re else cplxSet chol
    dims := [0, 0, 0, n, nelec.1, nelec.2, 0, m] }

/-- What is read: one-body matrix, vectors, core energy, number of orbitals and of electrons. -/
structure HRead where
  hcore : Arr
  chol : Arr
  enuc : ℂ
  nmo : Nat
  nelec : Int × Int

/-- `from_qmcpack_dense`, io.py 195-214.  (`read_integrals`, generic.py 186-200, comes here by the `KeyError` that reading the dense file
as a sparse one raises at `block_sizes`.) -/
def readDense (f : HFile) : HRead :=
  let nmo := (f.dims.getD 3 0).toNat
  let arrays := match fromComplex f.hcore nmo nmo, fromComplexFree f.chol (nmo * nmo) with
    | some h, some c => (h, c)
    | _, _ => (asReal f.hcore, asReal f.chol)
  { hcore := arrays.1
    chol := arrays.2
    enuc := f.energies.getD 0 0
    nmo := nmo
    nelec := (f.dims.getD 4 0, f.dims.getD 5 0) }

/-- `hijkl`, generic.py 168-171. -/
noncomputable def hijkl (s : HRead) (i j k l : Nat) : ℂ :=
  ∑ x ∈ Finset.range s.chol.cols, s.chol.at (i * s.nmo + k) x * s.chol.at (j * s.nmo + l) x

/-- The matrix that is factorised: `transpose(eri, (0,1,3,2)).reshape(norb**2, norb**2)`, fcidump_to_afqmc.py 69-72. -/
def eriMatrix (n : Nat) (h2 : Quad → ℂ) : Matrix (Fin (n * n)) (Fin (n * n)) ℂ := Matrix.of fun a b =>
  let p := finProdFinEquiv.symm a
  let q := finProdFinEquiv.symm b
  h2 (p.1, p.2, q.2, q.1)

open Classical in
/-- `cplx_chol`, fcidump_to_afqmc.py 74. -/
noncomputable def cplxChol (n : Nat) (h2 : Quad → ℂ) (writeComplex : Bool) : Bool :=
  writeComplex || decide (∃ i k j l : Fin n, 1 / 10 ^ 14 < |(h2 (i, k, j, l)).im|)

/-- `main`, fcidump_to_afqmc.py 61-77; `cmax` is twenty, so there are `20 norb` rows for vectors
(`int(20*(norb**2)**0.5)`).  `amax` is `numpy.argmax`. -/
noncomputable def convert (f : FFile) (amax : (Fin (f.norb * f.norb) → ℝ) → Fin (f.norb * f.norb)) (sym : Nat) (thresh : ℝ)
    (writeComplex : Bool) : Option HFile :=
  (readFcidump f sym).bind fun r =>
    (Chol.modifiedCholesky amax (eriMatrix f.norb r.h2) thresh (20 * f.norb)).map fun vs =>
      writeDense (fun i j : Fin f.norb => r.h1 i j) (fun p (x : Fin vs.length) => vs[x] p) r.nelec r.ecore
        (!cplxChol f.norb r.h2 writeComplex)

end Verif.Convert
