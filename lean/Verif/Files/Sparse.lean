import Mathlib.Analysis.Complex.Basic
import Mathlib.Data.List.FinRange

/-!
# Sparse Hamiltonian files

Model of `to_sparse`, `write_qmcpack_sparse` (pauxy/utils/io.py 73-124), `to_qmcpack_complex` (562-564) and of
`read_qmcpack_sparse`, `read_cholesky`, `get_chunk` (pauxy/utils/hamiltonian_converter.py 162-246).  HDF5 is trusted
to return what was stored.  Simplified: integers are unbounded, the old sparse format of the one-body Hamiltonian and
the broadcasting of blocks of length one are left out, errors are `none`.
-/

namespace Verif.Files

/-- `to_qmcpack_complex`, io.py 562-564: real and imaginary parts. -/
def toPairs (l : List ℂ) : List (ℝ × ℝ) := l.map fun z => (z.re, z.im)

/-- `from_qmcpack_complex`, io.py 126-127, and `.view(numpy.complex128)`. -/
def fromPairs (l : List (ℝ × ℝ)) : List ℂ := l.map fun p => ⟨p.1, p.2⟩

/-- A floating point data set: pairs of reals, reals or HDF5's own complex numbers. -/
inductive Data where
  | pairs (l : List (ℝ × ℝ))
  | reals (l : List ℝ)
  | native (l : List ℂ)

open Classical in
/-- `numpy.where(numpy.abs(vals) > cutoff)` in row-major order, io.py 74. -/
noncomputable def support {r c : Nat} (A : Fin r → Fin c → ℂ) (cutoff : ℝ) : List (Fin r × Fin c) :=
  (List.finRange r).flatMap fun i => ((List.finRange c).filter fun j => decide (cutoff < ‖A i j‖)).map fun j => (i, j)

/-- `to_sparse`, io.py 73-79: interleaved indices and values. -/
noncomputable def toSparse {r c : Nat} (A : Fin r → Fin c → ℂ) (cutoff : ℝ) : List Nat × List ℂ :=
  ((support A cutoff).flatMap fun p => [p.1.val, p.2.val], (support A cutoff).map fun p => A p.1 p.2)

/-- A block of the file: indices and values. -/
structure Block where
  ix : List Nat
  vals : Data

structure HFile where
  enuc : ℝ
  hcore : Data
  nmo : Nat
  nalpha : Nat
  nbeta : Nat
  nchol : Nat
  sizes : List Nat
  blocks : List Block

/-- An `n × n` array in row-major order. -/
def flat {α : Type} (n : Nat) (h : Fin n → Fin n → α) : List α :=
  (List.finRange n).flatMap fun i => (List.finRange n).map fun j => h i j

/-- `write_qmcpack_sparse`, io.py 81-124. -/
noncomputable def writeSparse {nmo nchol : Nat} (hcore : Fin nmo → Fin nmo → ℂ) (chol : Fin (nmo * nmo) → Fin nchol → ℂ)
    (nelec : Nat × Nat) (enuc : ℝ) (realChol : Bool) (cutoff : ℝ) : HFile :=
  let s := toSparse chol cutoff
  { enuc := enuc
    hcore := if realChol then .reals (flat nmo fun i j => (hcore i j).re) else .pairs (toPairs (flat nmo hcore))
    nmo := nmo
    nalpha := nelec.1
    nbeta := nelec.2
    nchol := nchol
    sizes := [s.2.length]
    blocks := [{ ix := s.1, vals := if realChol then .native s.2 else .pairs (toPairs s.2) }] }

/-- `ixs[::2]`. -/
def evens : List Nat → List Nat
  | [] => []
  | [a] => [a]
  | a :: _ :: l => a :: evens l

/-- `ixs[1::2]`. -/
def odds : List Nat → List Nat
  | [] => []
  | [_] => []
  | _ :: b :: l => b :: odds l

/-- `get_chunk`, hamiltonian_converter.py 240-246, followed by the assignment to an array of reals or of complex
numbers, 230. -/
def chunkVals (real : Bool) : Data → Option (List ℂ)
  | .native l => some (if real then l.map fun z => (z.re : ℂ) else l)
  | .pairs l => if real then none else some (fromPairs l)
  | .reals l => if real then some (l.map fun (x : ℝ) => (x : ℂ)) else none

/-- The triplets of one block; the slices must have the announced length, hamiltonian_converter.py 226-231. -/
def blockTriplets (real : Bool) (size : Nat) (b : Block) : Option (List (Nat × Nat × ℂ)) :=
  (chunkVals real b.vals).bind fun v =>
    if (evens b.ix).length = size ∧ (odds b.ix).length = size ∧ v.length = size then
      some ((evens b.ix).zip ((odds b.ix).zip v))
    else none

/-- The loop over blocks, hamiltonian_converter.py 226-231. -/
def allTriplets (real : Bool) : List Nat → List Block → Option (List (Nat × Nat × ℂ))
  | [], _ => some []
  | _ :: _, [] => none
  | s :: ss, b :: bs => (blockTriplets real s b).bind fun t => (allTriplets real ss bs).map fun ts => t ++ ts

/-- `csr_matrix((vals, (row_ix, col_ix)), shape)` as a dense matrix: repeated positions add up, positions outside the
shape are an error. -/
def fromTriplets (r c : Nat) (ts : List (Nat × Nat × ℂ)) : Option (Fin r → Fin c → ℂ) :=
  if ∀ t ∈ ts, t.1 < r ∧ t.2.1 < c then
    some fun i j => ((ts.filter fun t => decide (t.1 = i.val ∧ t.2.1 = j.val)).map fun t => t.2.2).sum
  else none

/-- `read_cholesky` with `full=True`, hamiltonian_converter.py 213-236. -/
def readChol (f : HFile) (real : Bool) : Option (Fin (f.nmo * f.nmo) → Fin f.nchol → ℂ) :=
  (allTriplets real f.sizes f.blocks).bind (fromTriplets (f.nmo * f.nmo) f.nchol)

/-- The one-body part, hamiltonian_converter.py 191-206: the flat list and whether it was real. -/
def readHcore (f : HFile) : Option (List ℂ × Bool) :=
  match f.hcore with
  | .pairs l => if l.length = f.nmo * f.nmo then some (fromPairs l, false) else none
  | .reals l => some (l.map fun (x : ℝ) => (x : ℂ), true)
  | .native _ => none

structure HRead (f : HFile) where
  hcore : List ℂ
  chol : Fin (f.nmo * f.nmo) → Fin f.nchol → ℂ
  enuc : ℝ
  nmo : Nat
  nelec : Nat × Nat

/-- `read_qmcpack_sparse`, hamiltonian_converter.py 162-211. -/
def readSparse (f : HFile) : Option (HRead f) :=
  (readHcore f).bind fun h => (readChol f h.2).map fun c =>
    { hcore := h.1, chol := c, enuc := f.enuc, nmo := f.nmo, nelec := (f.nalpha, f.nbeta) }

/-! ## Properties (C45) -/

theorem fromPairs_toPairs (l : List ℂ) : fromPairs (toPairs l) = l := by
  rw [fromPairs, toPairs, List.map_map]
  exact List.map_id l

theorem evens_flatMap {r c : Nat} (l : List (Fin r × Fin c)) :
    evens (l.flatMap fun p => [p.1.val, p.2.val]) = l.map fun p => p.1.val := by
  induction l with
  | nil => rfl
  | cons p l ih => simp [evens, ih]

theorem odds_flatMap {r c : Nat} (l : List (Fin r × Fin c)) :
    odds (l.flatMap fun p => [p.1.val, p.2.val]) = l.map fun p => p.2.val := by
  induction l with
  | nil => rfl
  | cons p l ih => simp [odds, ih]

theorem mem_support {r c : Nat} (A : Fin r → Fin c → ℂ) (cutoff : ℝ) (p : Fin r × Fin c) :
    p ∈ support A cutoff ↔ cutoff < ‖A p.1 p.2‖ := by
  obtain ⟨i, j⟩ := p
  simp [support]

theorem nodup_support {r c : Nat} (A : Fin r → Fin c → ℂ) (cutoff : ℝ) : (support A cutoff).Nodup := by
  classical
  unfold support
  rw [List.nodup_flatMap]
  refine ⟨fun i _ => ((List.nodup_finRange c).filter _).map fun a b h => by simpa using h, ?_⟩
  refine List.Pairwise.imp ?_ (List.nodup_finRange r)
  intro a b hab p h1 h2
  simp only [List.mem_map] at h1 h2
  obtain ⟨_, _, rfl⟩ := h1
  obtain ⟨_, _, h⟩ := h2
  simp at h
  exact hab h.1.symm

/-- The entries of a matrix as triplets. -/
def trip {r c : Nat} (A : Fin r → Fin c → ℂ) (l : List (Fin r × Fin c)) : List (Nat × Nat × ℂ) :=
  l.map fun p => (p.1.val, p.2.val, A p.1 p.2)

/-- A block holding the entries `l` of `A`. -/
def blockOf {r c : Nat} (A : Fin r → Fin c → ℂ) (l : List (Fin r × Fin c)) : Block :=
  { ix := l.flatMap fun p => [p.1.val, p.2.val], vals := .pairs (toPairs (l.map fun p => A p.1 p.2)) }

theorem zip_trip {r c : Nat} (A : Fin r → Fin c → ℂ) (l : List (Fin r × Fin c)) :
    (l.map fun p => p.1.val).zip ((l.map fun p => p.2.val).zip (l.map fun p => A p.1 p.2)) = trip A l := by
  induction l with
  | nil => rfl
  | cons p l ih => simp only [List.map_cons, List.zip_cons_cons, ih, trip]

theorem blockTriplets_blockOf {r c : Nat} (A : Fin r → Fin c → ℂ) (l : List (Fin r × Fin c)) :
    blockTriplets false l.length (blockOf A l) = some (trip A l) := by
  simp only [blockTriplets, blockOf, chunkVals, Bool.false_eq_true, if_false, Option.bind_some, fromPairs_toPairs,
    evens_flatMap, odds_flatMap, List.length_map, and_self, if_true, zip_trip]

theorem allTriplets_chunks {r c : Nat} (A : Fin r → Fin c → ℂ) (ls : List (List (Fin r × Fin c))) :
    allTriplets false (ls.map List.length) (ls.map (blockOf A)) = some (trip A ls.flatten) := by
  induction ls with
  | nil => rfl
  | cons l ls ih =>
    rw [List.map_cons, List.map_cons, allTriplets, blockTriplets_blockOf, Option.bind_some, ih]
    simp [trip]

theorem fromTriplets_trip {r c : Nat} (A : Fin r → Fin c → ℂ) (l : List (Fin r × Fin c)) (hl : l.Nodup) :
    fromTriplets r c (trip A l) = some fun i j => if (i, j) ∈ l then A i j else 0 := by
  unfold fromTriplets
  rw [if_pos]
  · congr 1
    funext i j
    induction l with
    | nil => simp [trip]
    | cons p l ih =>
      obtain ⟨a, b⟩ := p
      have hn := List.nodup_cons.1 hl
      have ih' := ih hn.2
      simp only [trip, List.map_cons] at ih' ⊢
      by_cases h : a.val = i.val ∧ b.val = j.val
      · obtain ⟨rfl, rfl⟩ : a = i ∧ b = j := ⟨Fin.ext h.1, Fin.ext h.2⟩
        rw [List.filter_cons_of_pos (by simp), List.map_cons, List.sum_cons, ih', if_neg hn.1, if_pos (by simp), add_zero]
      · rw [List.filter_cons_of_neg (by simpa using h), ih']
        have : (i, j) ≠ (a, b) := fun hc => h (by cases hc; exact ⟨rfl, rfl⟩)
        rw [if_congr (show ((i, j) ∈ (a, b) :: l ↔ (i, j) ∈ l) by simp [this]) rfl rfl]
  · intro t ht
    obtain ⟨p, -, rfl⟩ := List.mem_map.1 ht
    exact ⟨p.1.isLt, p.2.isLt⟩

/-- C45: writing and reading returns the electron numbers, the core energy, the one-body Hamiltonian and the Cholesky
matrix with the entries not above the cutoff set to zero. -/
theorem sparse_roundtrip {nmo nchol : Nat} (hcore : Fin nmo → Fin nmo → ℂ) (chol : Fin (nmo * nmo) → Fin nchol → ℂ)
    (nelec : Nat × Nat) (enuc cutoff : ℝ) :
    ∃ r : HRead (writeSparse hcore chol nelec enuc false cutoff),
      readSparse (writeSparse hcore chol nelec enuc false cutoff) = some r ∧ r.hcore = flat nmo hcore ∧
      r.enuc = enuc ∧ r.nmo = nmo ∧ r.nelec = nelec ∧
      (∀ i j, cutoff < ‖chol i j‖ → r.chol i j = chol i j) ∧ (∀ i j, ¬ cutoff < ‖chol i j‖ → r.chol i j = 0) := by
  have hc : readChol (writeSparse hcore chol nelec enuc false cutoff) false =
      some fun i j => if (i, j) ∈ support chol cutoff then chol i j else 0 := by
    have h1 := allTriplets_chunks chol [support chol cutoff]
    rw [List.flatten_singleton] at h1
    have h2 : allTriplets false (writeSparse hcore chol nelec enuc false cutoff).sizes
        (writeSparse hcore chol nelec enuc false cutoff).blocks = some (trip chol (support chol cutoff)) := by
      rw [← h1]
      simp only [writeSparse, toSparse, List.length_map, Bool.false_eq_true, if_false, List.map_cons, List.map_nil, blockOf]
    rw [readChol, h2, Option.bind_some]
    exact fromTriplets_trip chol _ (nodup_support chol cutoff)
  have hl : (toPairs (flat nmo hcore)).length = nmo * nmo := by simp [toPairs, flat, List.length_flatMap]
  have hh : readHcore (writeSparse hcore chol nelec enuc false cutoff) = some (flat nmo hcore, false) := by
    simp only [readHcore, writeSparse, Bool.false_eq_true, if_false]
    rw [if_pos hl, fromPairs_toPairs]
  refine ⟨⟨flat nmo hcore, fun (i : Fin (nmo * nmo)) (j : Fin nchol) => if (i, j) ∈ support chol cutoff then chol i j else 0,
    enuc, nmo, nelec⟩, ?_, rfl, rfl, rfl, rfl, ?_, ?_⟩
  · rw [readSparse, hh, Option.bind_some, hc]
    rfl
  · intro i j h
    exact if_pos ((mem_support chol cutoff (i, j)).2 h)
  · intro i j h
    exact if_neg (fun hm => h ((mem_support chol cutoff (i, j)).1 hm))

/-- C45: no entry changes by more than the cutoff. -/
theorem sparse_error {nmo nchol : Nat} (hcore : Fin nmo → Fin nmo → ℂ) (chol : Fin (nmo * nmo) → Fin nchol → ℂ)
    (nelec : Nat × Nat) (enuc cutoff : ℝ) (h0 : 0 ≤ cutoff)
    (r : HRead (writeSparse hcore chol nelec enuc false cutoff))
    (hr : readSparse (writeSparse hcore chol nelec enuc false cutoff) = some r) (i : Fin (nmo * nmo)) (j : Fin nchol) :
    ‖r.chol i j - chol i j‖ ≤ cutoff := by
  obtain ⟨r', hr', -, -, -, -, h1, h2⟩ := sparse_roundtrip hcore chol nelec enuc cutoff
  rw [hr] at hr'
  cases hr'
  by_cases h : cutoff < ‖chol i j‖
  · rw [h1 i j h, sub_self, norm_zero]; exact h0
  · rw [h2 i j h, zero_sub, norm_neg]; exact not_lt.1 h

/-- C45: the real format returns a real Hamiltonian. -/
theorem sparse_roundtrip_real {nmo nchol : Nat} (hcore : Fin nmo → Fin nmo → ℂ)
    (chol : Fin (nmo * nmo) → Fin nchol → ℂ) (nelec : Nat × Nat) (enuc cutoff : ℝ)
    (hr : ∀ i j, (hcore i j).im = 0) (cr : ∀ i j, (chol i j).im = 0) :
    ∃ r : HRead (writeSparse hcore chol nelec enuc true cutoff),
      readSparse (writeSparse hcore chol nelec enuc true cutoff) = some r ∧ r.hcore = flat nmo hcore ∧
      r.enuc = enuc ∧ r.nmo = nmo ∧ r.nelec = nelec ∧
      (∀ i j, cutoff < ‖chol i j‖ → r.chol i j = chol i j) ∧ (∀ i j, ¬ cutoff < ‖chol i j‖ → r.chol i j = 0) := by
  have cr' : ∀ i j, ((chol i j).re : ℂ) = chol i j := fun i j => Complex.ext rfl (by simp [cr i j])
  have hr' : ∀ i j, ((hcore i j).re : ℂ) = hcore i j := fun i j => Complex.ext rfl (by simp [hr i j])
  have hc : readChol (writeSparse hcore chol nelec enuc true cutoff) true =
      some fun i j => if (i, j) ∈ support chol cutoff then chol i j else 0 := by
    have h2 : allTriplets true (writeSparse hcore chol nelec enuc true cutoff).sizes
        (writeSparse hcore chol nelec enuc true cutoff).blocks = some (trip chol (support chol cutoff)) := by
      simp only [writeSparse, toSparse, if_true, allTriplets, blockTriplets, chunkVals, Option.bind_some, evens_flatMap,
        odds_flatMap, List.length_map, and_self, Option.map_some, List.append_nil, List.map_map, Function.comp_def, cr',
        zip_trip]
    rw [readChol, h2, Option.bind_some]
    exact fromTriplets_trip chol _ (nodup_support chol cutoff)
  have hh : readHcore (writeSparse hcore chol nelec enuc true cutoff) = some (flat nmo hcore, true) := by
    simp only [readHcore, writeSparse, if_true, flat, List.map_flatMap, List.map_map, Function.comp_def, hr']
  refine ⟨⟨flat nmo hcore, fun (i : Fin (nmo * nmo)) (j : Fin nchol) => if (i, j) ∈ support chol cutoff then chol i j else 0,
    enuc, nmo, nelec⟩, ?_, rfl, rfl, rfl, rfl, ?_, ?_⟩
  · rw [readSparse, hh, Option.bind_some, hc]
    rfl
  · intro i j h
    exact if_pos ((mem_support chol cutoff (i, j)).2 h)
  · intro i j h
    exact if_neg (fun hm => h ((mem_support chol cutoff (i, j)).1 hm))

/-- C45: a file in which the entries are distributed over blocks in any way and order reads the same. -/
theorem chunks_roundtrip (f : HFile) (A : Fin (f.nmo * f.nmo) → Fin f.nchol → ℂ)
    (ls : List (List (Fin (f.nmo * f.nmo) × Fin f.nchol))) (cutoff : ℝ) (hp : ls.flatten.Perm (support A cutoff))
    (hs : f.sizes = ls.map List.length) (hb : f.blocks = ls.map (blockOf A)) :
    ∃ B, readChol f false = some B ∧ (∀ i j, cutoff < ‖A i j‖ → B i j = A i j) ∧
      (∀ i j, ¬ cutoff < ‖A i j‖ → B i j = 0) := by
  refine ⟨fun i j => if (i, j) ∈ ls.flatten then A i j else 0, ?_, ?_, ?_⟩
  · rw [readChol, hs, hb, allTriplets_chunks, Option.bind_some]
    exact fromTriplets_trip A _ (hp.nodup_iff.2 (nodup_support A cutoff))
  · intro i j h
    exact if_pos (hp.mem_iff.2 ((mem_support A cutoff (i, j)).2 h))
  · intro i j h
    exact if_neg (fun hm => h ((mem_support A cutoff (i, j)).1 (hp.mem_iff.1 hm)))

/-- Case: one orbital, two Cholesky vectors, the second below the cutoff. -/
example : support (fun (_ : Fin 1) (j : Fin 2) => if j = 0 then (2 : ℂ) else 0) 1 = [(0, 0)] := by
  have h : ∀ j : Fin 2, decide ((1 : ℝ) < ‖(if j = 0 then (2 : ℂ) else 0)‖) = decide (j = 0) := by
    intro j
    by_cases hj : j = 0
    · simp [hj]
    · simp [hj]
  simp only [support, List.finRange_succ, List.finRange_zero]
  simp [List.filter]

end Verif.Files
