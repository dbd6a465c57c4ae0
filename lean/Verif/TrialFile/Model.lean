import Mathlib.Data.Matrix.Mul
import Mathlib.LinearAlgebra.Matrix.Determinant.Basic
import Mathlib.LinearAlgebra.Matrix.ConjTranspose
import Mathlib.Analysis.Complex.Norm

/-!
# Trial wavefunctions in text files

Model of `write_phfmol_wavefunction`, `read_phfmol`, `dump_qmcpack_trial_wfn` and `read_qmcpack_wfn` (`pauxy/utils/io.py` 216-302), of the
`HartreeFock` trial (`pauxy/trial_wavefunction/hartree_fock.py` 22-77) and of the file option of the `FreeElectron` trial
(`pauxy/trial_wavefunction/free_electron.py` 26-50).  A text file is the list of its lines, a line the list of its words.  A word is one of
the three words that are looked for, an integer, a complex number in brackets, or anything else.  `none` is an exception.
-/

namespace Verif.TrialFile

open Matrix

variable {α : Type} [Zero α]

/-- A word of a text file. -/
inductive Tok (α : Type)
  | nci | coefs | det | word
  | int (n : Nat)
  | num (a : α)

/-- `ast.literal_eval` followed by taking both parts, io.py 273-274. -/
def Tok.value : Tok α → Option α
  | .num a => some a
  | _ => none

/-- `int(…)`, which raises `ValueError` for everything else. -/
def Tok.toInt : Tok α → Option Nat
  | .int n => some n
  | _ => none

/-- `qmcpack_wfn_namelist`, io.py 216-217, for `fullmo`. -/
def namelist (α : Type) (nci uhf : Nat) : List (List (Tok α)) :=
  [[.word], [.word, .word, .int uhf], [.nci, .word, .int nci], [.word], [.word, .word, .word], [.word]]

/-- `numpy.pad(C, [(0, p), (0, p)], 'constant')`, io.py 298. -/
def pad {r c : Nat} (p : Nat) (C : Matrix (Fin r) (Fin c) α) : Matrix (Fin (r + p)) (Fin (c + p)) α :=
  Matrix.of fun i j => Fin.addCases (fun i => Fin.addCases (fun j => C i j) (fun _ => 0) j) (fun _ => 0) i

/-- `numpy.ravel(…, order='F')`. -/
def ravelF {r c : Nat} (C : Matrix (Fin r) (Fin c) α) : List α := (List.finRange c).flatMap fun j => (List.finRange r).map fun i => C i j

/-- One determinant in the file, io.py 295-302; `rnd` is the rounding to nine digits. -/
def detLines {r c : Nat} (rnd : α → α) (p : Nat) (x : Matrix (Fin r) (Fin c) α × Nat) : List (List (Tok α)) :=
  [.det, .int (x.2 + 1)] :: (ravelF (pad p x.1)).map fun z => [.num (rnd z)]

/-- `write_phfmol_wavefunction`, io.py 288-302, for determinants of one matrix each. -/
def writePhf {r c : Nat} (rnd : α → α) (coeffs : List α) (dets : List (Matrix (Fin r) (Fin c) α)) (p : Nat) : List (List (Tok α)) :=
  namelist α coeffs.length 0 ++ [[.coefs]] ++ coeffs.map (fun z => [.num (rnd z)]) ++ dets.zipIdx.flatMap (detLines rnd p)

/-- The first loop of `read_phfmol`, io.py 257-270: number of determinants, words of the coefficients, words after the first `Determinant:`
and its number. -/
def scan : List (Tok α) → Option Nat → Option (List (Tok α)) → Option (Option Nat × Option (List (Tok α)) × List (Tok α))
  | [], nd, cs => some (nd, cs, [])
  | .det :: l, nd, cs => some (nd, cs, l.drop 1)
  | .nci :: l, _, cs =>
    match l[0]? with
    | none => none
    | some t =>
      match t.toInt with
      | some n => scan l (some n) cs
      | none => (l[1]?.bind Tok.toInt).bind fun n => scan l (some n) cs
  | .coefs :: l, nd, _ => nd.bind fun n => scan l nd (some (l.take n))
  | _ :: l, nd, cs => scan l nd cs

/-- `numpy.array(data).reshape(nmo, nmo).T`, io.py 282. -/
def square (nmo : Nat) (data : List α) : Option (Matrix (Fin nmo) (Fin nmo) α) :=
  if data.length = nmo * nmo then some (Matrix.of fun i j => data[j.val * nmo + i.val]?.getD 0) else none

/-- The second loop of `read_phfmol`, io.py 276-286. -/
def readDets (nmo : Nat) : Nat → List (Tok α) → Option (List (Matrix (Fin nmo) (Fin nmo) α))
  | 0, _ => some []
  | n + 1, l => do
    let data ← (l.take (nmo * nmo)).mapM Tok.value
    let C ← square nmo data
    let r ← readDets nmo n (l.drop (nmo * nmo + 2))
    some (C :: r)

/-- The occupied columns. -/
def occ {r c k : Nat} (h : k ≤ c) (C : Matrix (Fin r) (Fin c) α) : Matrix (Fin r) (Fin k) α := C.submatrix id (Fin.castLE h)

/-- `read_phfmol`, io.py 251-286: coefficients, and up and down orbitals of every determinant. -/
def readPhf (lines : List (List (Tok α))) {nmo na nb : Nat} (ha : na ≤ nmo) (hb : nb ≤ nmo) :
    Option (List α × List (Matrix (Fin nmo) (Fin na) α × Matrix (Fin nmo) (Fin nb) α)) := do
  let s ← scan lines.flatten none none
  let nd ← s.1
  let cs ← s.2.1
  let coeffs ← cs.mapM Tok.value
  let dets ← readDets nmo nd s.2.2
  some (coeffs, dets.map fun C => (occ ha C, occ hb C))

/-! ## Hartree-Fock trials -/

/-- The loops of the first `write_qmcpack_wfn`, io.py 236-241. -/
def rows {r c : Nat} (C : Matrix (Fin r) (Fin c) α) : List (List (Tok α)) := (List.finRange r).map fun i => (List.finRange c).map fun j => .num (C i j)

/-- The text that `dump_qmcpack_trial_wfn` (io.py 219-234) is meant to write; the second definition of `write_qmcpack_wfn` in the file, with
other arguments, makes it raise. -/
def dumpText {n : Nat} (C : Matrix (Fin n) (Fin n) α) (D : Option (Matrix (Fin n) (Fin n) α)) : List (List (Tok α)) :=
  namelist α 1 (if D.isSome then 1 else 0) ++ [[.coefs, .word], [.det, .int 1]] ++ rows C ++ (D.map rows).getD []

/-- `read_qmcpack_wfn`, io.py 243-249: lines of different lengths do not make an array. -/
def readText (skip : Nat) (lines : List (List (Tok α))) : Option (List α) :=
  if ∀ x ∈ lines.drop skip, ∀ y ∈ lines.drop skip, x.length = y.length then (lines.drop skip).flatten.mapM Tok.value else none

/-- `reshape((n, n))`. -/
def reshape (n : Nat) (data : List α) : Option (Matrix (Fin n) (Fin n) α) :=
  if data.length = n * n then some (Matrix.of fun i j => data[i.val * n + j.val]?.getD 0) else none

/-- hartree_fock.py 31-39: one matrix for both spins, or two. -/
def hfOrbs (n : Nat) (data : List α) : Option (Matrix (Fin n) (Fin n) α × Option (Matrix (Fin n) (Fin n) α)) :=
  if data.length = n * n then (reshape n data).map fun C => (C, none)
  else do
    let C ← reshape n (data.take (n * n))
    let D ← reshape n (data.drop (n * n))
    some (C, some D)

/-- hartree_fock.py 49-77: occupied orbitals and excitation; with orbitals for both spins the excitation assigns an array of shape
`(2, n)` to a column and raises. -/
def hfPsi {n nu nd : Nat} (hu : nu ≤ n) (hd : nd ≤ n) (o : Matrix (Fin n) (Fin n) α × Option (Matrix (Fin n) (Fin n) α))
    (excite : Option (Fin (nu + nd) × Fin n)) : Option (Matrix (Fin n) (Fin (nu + nd)) α) :=
  let base : Matrix (Fin n) (Fin (nu + nd)) α :=
    Matrix.of fun x c => Fin.addCases (fun k => occ hu o.1 x k) (fun k => occ hd (o.2.getD o.1) x k) c
  match excite, o.2 with
  | none, _ => some base
  | some ia, none => some (Matrix.of fun x c => if c = ia.1 then o.1 x ia.2 else base x c)
  | some _, some _ => none

/-- The trial made from a file, hartree_fock.py 22-77. -/
def hartreeFock {n nu nd : Nat} (hu : nu ≤ n) (hd : nd ≤ n) (lines : List (List (Tok α))) (excite : Option (Fin (nu + nd) × Fin n)) :
    Option (Matrix (Fin n) (Fin (nu + nd)) α) := do
  let data ← readText 9 lines
  let o ← hfOrbs n data
  hfPsi hu hd o excite

/-! ## Free-electron trials from a Fortran file -/

/-- `orbitals.reshape((2*nbasis, ne), order='F')`, free_electron.py 38-40. -/
noncomputable def ghfMatrix (nb ne : Nat) (data : List ℂ) : Option (Matrix (Fin (nb + nb)) (Fin ne) ℂ) :=
  if data.length = (nb + nb) * ne then some (Matrix.of fun r c => data[c.val * (nb + nb) + r.val]?.getD 0) else none

/-- Assignment of columns to `k` columns of an array: numpy repeats a single column. -/
noncomputable def assign {nb : Nat} (k : Nat) (cols : List (Fin nb → ℂ)) : Option (Matrix (Fin nb) (Fin k) ℂ) :=
  if cols.length = k then some (Matrix.of fun x j => (cols[j.val]?.getD 0 : Fin nb → ℂ) x)
  else if cols.length = 1 then some (Matrix.of fun x _ => (cols[0]?.getD 0 : Fin nb → ℂ) x) else none

open Classical in
/-- free_electron.py 41-50: columns without zeros in the up rows are the up orbitals, the others the down orbitals.  `tol` is `1e-10`. -/
noncomputable def readFortran (tol : ℝ) (nb nup ndn : Nat) (data : List ℂ) : Option (Matrix (Fin nb) (Fin nup) ℂ × Matrix (Fin nb) (Fin ndn) ℂ) := do
  let M ← ghfMatrix nb (nup + ndn) data
  let ups := (List.finRange (nup + ndn)).filter fun c => ∀ x : Fin nb, tol < ‖M (Fin.castAdd nb x) c‖
  let downs := (List.finRange (nup + ndn)).filter fun c => ¬ ∀ x : Fin nb, tol < ‖M (Fin.castAdd nb x) c‖
  let U ← assign nup (ups.map fun c x => M (Fin.castAdd nb x) c)
  let D ← assign ndn (downs.map fun c x => M (Fin.natAdd nb x) c)
  some (U, D)

end Verif.TrialFile
