import Mathlib.Analysis.Complex.Basic
import Mathlib.Data.List.GetD

/-!
# Wavefunction files

Model of `write_qmcpack_wfn`, `write_nomsd`, `write_nomsd_single`, `write_phmsd`, `orbs_from_dset`,
`read_qmcpack_nomsd_hdf5` and `read_qmcpack_phmsd_hdf5` (pauxy/utils/io.py 339-560).  Arrays are a shape and a function
of the indices.  Datasets of the file are fields; sparse matrices are kept in the compressed-row form that is stored.
Storing a complex array as pairs of numbers is the identity (see `Sparse`), so arrays are assumed complex.
-/

namespace Verif.Files

/-- A two-dimensional array: shape and elements. -/
structure Arr where
  r : Nat
  c : Nat
  f : Nat → Nat → ℂ

/-- Equality of shapes and of all elements inside. -/
def Arr.Same (a b : Arr) : Prop := a.r = b.r ∧ a.c = b.c ∧ ∀ i < a.r, ∀ j < a.c, a.f i j = b.f i j

/-- `a[:,:k]` -/
def Arr.left (a : Arr) (k : Nat) : Arr := ⟨a.r, min k a.c, a.f⟩

/-- `a[:,k:]` -/
def Arr.right (a : Arr) (k : Nat) : Arr := ⟨a.r, a.c - k, fun i j => a.f i (k + j)⟩

/-- `a.conj().T` -/
def Arr.ct (a : Arr) : Arr := ⟨a.c, a.r, fun i j => star (a.f j i)⟩

/-- `dst[:,lo:lo+w] = src` with numpy's broadcasting; `none` is the shape error. -/
def Arr.setCols (dst : Arr) (lo w : Nat) (src : Arr) : Option Arr :=
  if (src.r = dst.r ∨ src.r = 1) ∧ (src.c = w ∨ src.c = 1) then
    some ⟨dst.r, dst.c, fun i j =>
      if lo ≤ j ∧ j < lo + w then src.f (if src.r = 1 then 0 else i) (if src.c = 1 then 0 else j - lo) else dst.f i j⟩
  else none

def Arr.zeros (r c : Nat) : Arr := ⟨r, c, fun _ _ => 0⟩

/-! ### Sparse matrices -/

/-- What `write_nomsd_single` stores, io.py 497-515. -/
structure CsrDset where
  rows : Nat
  cols : Nat
  nnz : Nat
  data : List ℂ
  jdata : List Nat
  begins : List Nat
  ends : List Nat

open Classical in
/-- The stored elements of a row: the nonzero ones in column order, `scipy.sparse.csr_matrix(dense)`. -/
noncomputable def rowEntries (a : Arr) (i : Nat) : List (Nat × ℂ) :=
  ((List.range a.c).filter fun j => a.f i j ≠ 0).map fun j => (j, a.f i j)

noncomputable def entries (a : Arr) (k : Nat) : List (Nat × ℂ) := (List.range k).flatMap (rowEntries a)

/-- `indptr` of the compressed-row form. -/
noncomputable def indptr (a : Arr) : List Nat := (List.range (a.r + 1)).map fun k => (entries a k).length

/-- `write_nomsd_single`, io.py 497-515. -/
noncomputable def writeSingle (a : Arr) : CsrDset :=
  { rows := a.r
    cols := a.c
    nnz := (entries a a.r).length
    data := (entries a a.r).map Prod.snd
    jdata := (entries a a.r).map Prod.fst
    begins := (indptr a).dropLast
    ends := (indptr a).tail }

/-- `csr_matrix((data, indices, indptr)).toarray()`: entries with equal position add up. -/
def toarray (rows cols : Nat) (data : List ℂ) (idx ptr : List Nat) : Arr :=
  ⟨rows, cols, fun i j => ((((idx.zip data).drop (ptr.getD i 0)).take (ptr.getD (i + 1) 0 - ptr.getD i 0)).filter
    fun e => e.1 == j).map Prod.snd |>.sum⟩

/-- `orbs_from_dset`, io.py 546-560; `none` is the index error for a matrix without rows. -/
def orbsFromDset (d : CsrDset) : Option Arr :=
  match d.ends.getLast? with
  | none => none
  | some e => some (toarray d.rows d.cols d.data d.jdata (d.begins ++ [e])).ct

/-! ### Non-orthogonal expansions -/

inductive WType where
  | rhf
  | uhf
deriving DecidableEq

/-- The group `Wavefunction/NOMSD`. -/
structure Nomsd where
  nmo : Nat
  na : Nat
  nb : Nat
  wtype : Nat
  nci : Nat
  coeffs : List ℂ
  psi0a : Arr
  psi0b : Option Arr
  psiT : List (Nat × CsrDset)

open Classical in
/-- `wfn[abs(wfn) < thresh] = 0.0`, io.py 469 with the default threshold. -/
noncomputable def cut (a : Arr) : Arr := ⟨a.r, a.c, fun i j => if ‖a.f i j‖ < 1 / 10 ^ 8 then 0 else a.f i j⟩

/-- The loop over determinants of `write_nomsd`, io.py 485-495; the arrays have passed the threshold. -/
noncomputable def writeDets (uhf : Bool) (na : Nat) : Nat → List Arr → List (Nat × CsrDset)
  | _, [] => []
  | idet, w :: ws =>
    (if uhf then [(2 * idet, writeSingle (w.left na).ct), (2 * idet + 1, writeSingle (w.right na).ct)]
     else [(idet, writeSingle (w.left na).ct)]) ++ writeDets uhf na (idet + 1) ws

/-- `write_qmcpack_wfn` for a pair of coefficients and determinants with `walker_type` `'uhf'` or `'rhf'`, io.py 407-495.
`none` is the index error for an empty list of determinants. -/
noncomputable def writeNomsd (coeffs : List ℂ) (wfn : List Arr) (wt : WType) (nelec : Nat × Nat) (norb : Nat)
    (init : Option (Arr × Arr)) : Option Nomsd :=
  let uhf := wt == .uhf
  let ws := wfn.map cut
  let mk := fun a b => some
    { nmo := norb
      na := nelec.1
      nb := nelec.2
      wtype := if uhf then 2 else 1
      nci := coeffs.length
      coeffs := coeffs
      psi0a := a
      psi0b := b
      psiT := writeDets uhf nelec.1 0 ws }
  match init, ws with
  | some (a, b), _ => mk a (some b)
  | none, w :: _ => mk (w.left nelec.1) (if uhf then some (w.right nelec.1) else none)
  | none, [] => none

def lookupPsi (g : Nomsd) (ix : Nat) : Option Arr := (g.psiT.lookup ix).bind orbsFromDset

/-- One determinant of `read_qmcpack_nomsd_hdf5`, io.py 365-373: the alpha orbitals are looked up under the number of the
determinant. -/
def readDet (g : Nomsd) (uhf : Bool) (idet : Nat) : Option Arr :=
  (lookupPsi g idet).bind fun pa =>
  ((Arr.zeros g.nmo (g.na + g.nb)).setCols 0 g.na pa).bind fun w =>
  if uhf then (lookupPsi g (2 * idet + 1)).bind fun pb => w.setCols g.na g.nb pb
  else w.setCols g.na g.nb (pa.left g.nb)

/-- The reference, io.py 353-363. -/
def readPsi0 (g : Nomsd) (uhf : Bool) : Option Arr :=
  ((Arr.zeros g.nmo (g.na + g.nb)).setCols 0 g.na g.psi0a).bind fun w =>
  if uhf then g.psi0b.bind fun b => w.setCols g.na g.nb b
  else w.setCols g.na g.nb (g.psi0a.left g.nb)

/-- The assertions on the electron numbers, io.py 344-347 (and 381-384): both compare with the number of alpha
electrons. -/
def electronsOk (na nb : Nat) : Option (Nat × Nat) → Bool
  | none => true
  | some ne => na == ne.1 && nb == ne.1

/-- `read_qmcpack_nomsd_hdf5`, io.py 339-374. -/
def readNomsd (g : Nomsd) (nelec : Option (Nat × Nat)) : Option (List ℂ × List Arr × Arr) :=
  if electronsOk g.na g.nb nelec then
    let uhf := g.wtype == 2
    if g.coeffs.length = g.nci then
      (readPsi0 g uhf).bind fun psi0 =>
      ((List.range g.nci).mapM (readDet g uhf)).map fun ws => (g.coeffs, ws, psi0)
    else none
  else none

/-! ### Particle-hole expansions -/

structure Phmsd where
  nmo : Nat
  na : Nat
  nb : Nat
  wtype : Nat
  nci : Nat
  coeffs : List ℂ
  psi0a : Arr
  psi0b : Option Arr
  occs : List Int

/-- `numpy.eye(norb)[:, occ]` -/
def eyeCols (norb : Nat) (occ : List Nat) : Option Arr :=
  if ∀ o ∈ occ, o < norb then some ⟨norb, occ.length, fun i j => if occ[j]? = some i then 1 else 0⟩ else none

/-- `write_qmcpack_wfn` for coefficients and two lists of occupations, io.py 407-452 and `write_phmsd`, 517-544.  The
occupation lists must have the stated lengths (a list of one orbital would be broadcast; not modelled). -/
def writePhmsd (coeffs : List ℂ) (occa occb : List (List Nat)) (nelec : Nat × Nat) (norb : Nat)
    (init : Option (Arr × Arr)) : Option Phmsd :=
  if (∀ o ∈ occa, o.length = nelec.1) ∧ (∀ o ∈ occb, o.length = nelec.2) ∧ occa.length = occb.length then
    let psi0 := match init, occa, occb with
      | some (a, b), _, _ => some (a, b)
      | none, a :: _, b :: _ => (eyeCols norb a).bind fun a => (eyeCols norb b).map fun b => (a, b)
      | none, _, _ => none
    psi0.map fun p =>
      { nmo := norb
        na := nelec.1
        nb := nelec.2
        wtype := 2
        nci := coeffs.length
        coeffs := coeffs
        psi0a := p.1
        psi0b := some p.2
        occs := (List.zipWith (fun a b => a.map (fun (o : Nat) => (o : Int)) ++
          b.map (fun (o : Nat) => (norb : Int) + o)) occa occb).flatten }
  else none

/-- `x.reshape((nci, k))`; `none` is the shape error. -/
def reshape (nci k : Nat) (l : List Int) : Option (List (List Int)) :=
  if l.length = nci * k then some ((List.range nci).map fun i => (l.drop (i * k)).take k) else none

/-- `read_qmcpack_phmsd_hdf5`, io.py 376-405. -/
def readPhmsd (g : Phmsd) (nelec : Option (Nat × Nat)) :
    Option ((List ℂ × List (List Int) × List (List Int)) × Arr) :=
  if electronsOk g.na g.nb nelec then
    let uhf := g.wtype == 2
    (reshape g.nci (g.na + g.nb) g.occs).bind fun occs =>
    ((Arr.zeros g.nmo (g.na + g.nb)).setCols 0 g.na g.psi0a).bind fun w =>
    (if uhf then g.psi0b.bind fun b => w.setCols g.na g.nb b else w.setCols g.na g.nb g.psi0a).map fun psi0 =>
    ((g.coeffs, occs.map (fun o => o.take g.na), occs.map fun o => (o.drop g.na).map fun x => x - g.nmo), psi0)
  else none

end Verif.Files
