import Verif.Chol.Model

/-!
# Cholesky decomposition of integrals of atomic orbitals

Model of `chunked_cholesky` and `chunked_cholesky_outcore`, pauxy/utils/from_pyscf.py lines 286-549.
`mol.intor('int2e_sph', shls_slice=…)` gives blocks of one array `eri` of integrals, cut at the boundaries of the shells.
Exceptions are `none`.  Simplified: real numbers for floats (the root of a negative `delta_max` and division by zero are
not followed, they do not occur for positive semidefinite integrals unless the vector is dropped).
-/

namespace Verif.AoChol

open Finset

/-! ## Shells -/

/-- A shell: `bas_angular(i)` and `bas_nctr(i)`. -/
structure Shell where
  l : Nat
  nctr : Nat

/-- Its number of orbitals, from_pyscf.py 321-323. -/
def Shell.size (s : Shell) : Nat := (2 * s.l + 1) * s.nctr

/-- The loop of from_pyscf.py 320-324 from the running sum `n`. -/
def dimsFrom (n : Nat) : List Shell → List Nat
  | [] => []
  | s :: ss => (n + s.size) :: dimsFrom (n + s.size) ss

/-- `dims`, from_pyscf.py 318-324. -/
def dims (sh : List Shell) : List Nat := 0 :: dimsFrom 0 sh

/-- `mol.nao_nr()` -/
def nao (sh : List Shell) : Nat := (sh.map Shell.size).sum

/-- `numpy.searchsorted(dims, j)`: the first position with `j ≤ dims[s]`. -/
def searchsorted (d : List Nat) (j : Nat) : Nat := d.findIdx fun x => j ≤ x

/-- `sj`, from_pyscf.py 340-345 and 372-377. -/
def shellOf (d : List Nat) (j : Nat) : Nat :=
  let s := searchsorted d j
  if d.getD s 0 ≠ j ∧ j ≠ 0 then s - 1 else s

/-- Integrals `(pq|rs)` of atomic orbitals. -/
abbrev Eri := Nat → Nat → Nat → Nat → ℝ

/-- The pair of orbitals of a row. -/
def pair (n : Nat) (p : Fin (n * n)) : Nat × Nat := (p / n, p % n)

/-- The column of integrals for the pair `nu`, from_pyscf.py 338-351 and 369-383: the block of shells `sj` and `sl`, of which
`[:,:,cj,cl]` is taken. -/
def column (sh : List Shell) (eri : Eri) (nu : Fin (nao sh * nao sh)) : Option (Fin (nao sh * nao sh) → ℝ) :=
  let j := (nu : Nat) / nao sh
  let l := (nu : Nat) % nao sh
  let sj := shellOf (dims sh) j
  let sl := shellOf (dims sh) l
  let cj := j - (dims sh).getD sj 0
  let cl := l - (dims sh).getD sl 0
  match sh[sj]?, sh[sl]? with
  | some a, some b =>
    if cj < a.size ∧ cl < b.size then
      some fun p => eri (p / nao sh) (p % nao sh) ((dims sh).getD sj 0 + cj) ((dims sh).getD sl 0 + cl)
    else none
  | _, _ => none

/-- The diagonal, from_pyscf.py 326-331: one piece for each shell, `buf[a,b,a,b]` in the order of `a*nao+b`. -/
def diagFrom (n : Nat) (eri : Eri) (off : Nat) : List Shell → List ℝ
  | [] => []
  | s :: ss => ((List.range s.size).flatMap fun a => (List.range n).map fun b => eri (off + a) b (off + a) b) ++
      diagFrom n eri (off + s.size) ss

/-- `diag` -/
def diag (sh : List Shell) (eri : Eri) (p : Fin (nao sh * nao sh)) : ℝ := (diagFrom (nao sh) eri 0 sh).getD p 0

/-! ## In memory -/

/-- Variables of the loop. -/
structure State (n : Nat) where
  vecs : List (Fin n → ℝ)
  next : Fin n → ℝ
  approx : Fin n → ℝ
  dmax : ℝ

/-- Before the loop, from_pyscf.py 332-351. -/
noncomputable def start (sh : List Shell) (eri : Eri) (amax : (Fin (nao sh * nao sh) → ℝ) → Fin (nao sh * nao sh)) :
    Option (State (nao sh * nao sh)) :=
  let nu := amax (diag sh eri)
  let dmax := diag sh eri nu
  (column sh eri nu).map fun c => { vecs := [], next := fun p => c p / Real.sqrt dmax, approx := fun _ => 0, dmax := dmax }

/-- One pass, from_pyscf.py 355-387. -/
noncomputable def step (sh : List Shell) (eri : Eri) (amax : (Fin (nao sh * nao sh) → ℝ) → Fin (nao sh * nao sh))
    (s : State (nao sh * nao sh)) : Option (State (nao sh * nao sh)) :=
  let approx := fun p => s.approx p + s.next p * s.next p
  let delta := fun p => diag sh eri p - approx p
  let nu := amax fun p => |delta p|
  let dmax := |delta nu|
  let vecs := s.vecs ++ [s.next]
  let R := fun p => (vecs.map fun v => v nu * v p).sum
  (column sh eri nu).map fun c => { vecs := vecs, next := fun p => (c p - R p) / Real.sqrt dmax, approx := approx, dmax := dmax }

open Classical in
/-- The loop, with the number of rows still free. -/
noncomputable def loop (sh : List Shell) (eri : Eri) (amax : (Fin (nao sh * nao sh) → ℝ) → Fin (nao sh * nao sh)) (tol : ℝ) :
    Nat → State (nao sh * nao sh) → Option (List (Fin (nao sh * nao sh) → ℝ))
  | 0, s => if |s.dmax| > tol then none else some s.vecs
  | k + 1, s => if |s.dmax| > tol then (step sh eri amax s).bind (loop sh eri amax tol k) else some s.vecs

/-- `chunked_cholesky` with `nmax = cmax * nao` rows, from_pyscf.py 286-393. -/
noncomputable def chunked (sh : List Shell) (eri : Eri) (amax : (Fin (nao sh * nao sh) → ℝ) → Fin (nao sh * nao sh)) (tol : ℝ) :
    Nat → Option (List (Fin (nao sh * nao sh) → ℝ))
  | 0 => none
  | k + 1 => (start sh eri amax).bind (loop sh eri amax tol k)

/-! ## Out of memory -/

/-- Variables of the loop with a file: rows of the buffer `chol_vecs`, rows of the data set `Lao`. -/
structure Out (n : Nat) where
  buf : Nat → Fin n → ℝ
  file : Nat → Fin n → ℝ
  ichunk : Nat
  nchol : Nat
  approx : Fin n → ℝ
  dmax : ℝ

/-- Before the loop, from_pyscf.py 422-474. -/
noncomputable def outStart (sh : List Shell) (eri : Eri) (amax : (Fin (nao sh * nao sh) → ℝ) → Fin (nao sh * nao sh)) :
    Option (Out (nao sh * nao sh)) :=
  let nu := amax (diag sh eri)
  let dmax := diag sh eri nu
  (column sh eri nu).map fun c =>
    { buf := fun k => if k = 0 then fun p => c p / Real.sqrt dmax else 0
      file := fun _ => 0
      ichunk := 0
      nchol := 0
      approx := fun _ => 0
      dmax := dmax }

/-- `compute_residual`, from_pyscf.py 476-490, with chunks of `c` rows. -/
def residual {n : Nat} (c : Nat) (s : Out n) (nu p : Fin n) : ℝ :=
  ∑ ic ∈ range s.ichunk, ∑ k ∈ range c, s.file (ic * c + k) nu * s.file (ic * c + k) p +
    ∑ k ∈ range (s.nchol % c + 1), s.buf k nu * s.buf k p

/-- One pass, from_pyscf.py 495-540.  `nmax` is the number of rows of the data set; writing a chunk beyond them is an error. -/
noncomputable def outStep (sh : List Shell) (eri : Eri) (amax : (Fin (nao sh * nao sh) → ℝ) → Fin (nao sh * nao sh))
    (c nmax : Nat) (s : Out (nao sh * nao sh)) : Option (Out (nao sh * nao sh)) :=
  let approx := fun p => s.approx p + s.buf (s.nchol % c) p * s.buf (s.nchol % c) p
  let delta := fun p => diag sh eri p - approx p
  let nu := amax fun p => |delta p|
  let dmax := |delta nu|
  (column sh eri nu).bind fun col =>
    let next := fun p => (col p - residual c s nu p) / Real.sqrt dmax
    if 0 < s.nchol ∧ (s.nchol + 1) % c = 0 then
      if (s.ichunk + 1) * c ≤ nmax then
        some { buf := fun k => if k = (s.nchol + 1) % c then next else 0
               file := fun x => if s.ichunk * c ≤ x ∧ x < (s.ichunk + 1) * c then s.buf (x - s.ichunk * c) else s.file x
               ichunk := s.ichunk + 1
               nchol := s.nchol + 1
               approx := approx
               dmax := dmax }
      else none
    else some { buf := fun k => if k = (s.nchol + 1) % c then next else s.buf k
                file := s.file
                ichunk := s.ichunk
                nchol := s.nchol + 1
                approx := approx
                dmax := dmax }

/-- The loop ends with the file and the number of vectors written to `dims`, from_pyscf.py 492-548. -/
inductive Run (sh : List Shell) (eri : Eri) (amax : (Fin (nao sh * nao sh) → ℝ) → Fin (nao sh * nao sh)) (tol : ℝ)
    (c nmax : Nat) : Out (nao sh * nao sh) → (Nat → Fin (nao sh * nao sh) → ℝ) → Nat → Prop
  | stop {s} : ¬|s.dmax| > tol → Run sh eri amax tol c nmax s s.file s.nchol
  | next {s s' f n} : |s.dmax| > tol → outStep sh eri amax c nmax s = some s' → Run sh eri amax tol c nmax s' f n →
      Run sh eri amax tol c nmax s f n

/-- `chunked_cholesky_outcore` leaves the file `f` and returns `n`, from_pyscf.py 395-549. -/
def Outcore (sh : List Shell) (eri : Eri) (amax : (Fin (nao sh * nao sh) → ℝ) → Fin (nao sh * nao sh)) (tol : ℝ)
    (c nmax : Nat) (f : Nat → Fin (nao sh * nao sh) → ℝ) (n : Nat) : Prop :=
  ∃ s, outStart sh eri amax = some s ∧ Run sh eri amax tol c nmax s f n

end Verif.AoChol
