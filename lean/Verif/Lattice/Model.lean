import Mathlib.Analysis.SpecialFunctions.Trigonometric.Basic
import Mathlib.Data.Matrix.Basic

/-!
# Lattice models

Model of the lattice functions in `pauxy/systems/hubbard_holstein.py` (the functions of the same names
in `pauxy/systems/hubbard.py` are copies; `hubbard.py` imports `kinetic` from
`hubbard_holstein.py`).  Coordinate vectors are lists; the two equal spin blocks are one matrix.
-/

namespace Verif.Lattice

/-- `decode_basis`, hubbard_holstein.py 372-395. -/
def decode (nx ny i : Nat) : List Nat := if ny = 1 then [i % nx] else [i % nx, i / nx]

/-- `encode_basis`, hubbard_holstein.py 397-416. -/
def encode (i j nx : Nat) : Nat := i + j * nx

/-- `abs(a - b)` of two numbers. -/
def dist (a b : Nat) : Nat := (a - b) + (b - a)

/-- `abs(xy1 - xy2)`. -/
def absDiff (a b : List Nat) : List Nat := List.zipWith dist a b

/-- `(dij == [a, b]).all()`; an array of length one is compared with both entries (broadcasting). -/
def allEq (dij : List Nat) (a b : Nat) : Prop := dij = [a, b] ∨ (dij = [a] ∧ a = b)

instance (dij : List Nat) (a b : Nat) : Decidable (allEq dij a b) := by unfold allEq; infer_instance

/-- The phase of a hop across the boundary in direction `d`, hubbard_holstein.py 249-265; no twist gives
one. -/
noncomputable def phase (ks : Option (List ℝ)) (d : Nat) : ℂ :=
  match ks with
  | none => 1
  | some k => Complex.exp (Complex.I * ((Real.pi * k.getD d 0 : ℝ) : ℂ))

/-- The entry `T[i,j]`, `i < j`, after the loop of `kinetic`, hubbard_holstein.py 239-265. -/
noncomputable def upper (t : ℝ) (nx ny : Nat) (ks : Option (List ℝ)) (xpbc ypbc : Bool) (i j : Nat) : ℂ :=
  let dij := absDiff (decode nx ny i) (decode nx ny j)
  (if dij.sum = 1 then -(t : ℂ) else 0) +
    (if ny = 1 ∧ dij = [nx - 1] ∧ xpbc = true then -(t : ℂ) * phase ks 0
     else if allEq dij (nx - 1) 0 ∧ xpbc = true then -(t : ℂ) * phase ks 0
     else if allEq dij 0 (ny - 1) ∧ ypbc = true then -(t : ℂ) * phase ks 1
     else 0)

/-- `kinetic`, hubbard_holstein.py 214-268: `T + T.conj().T` with `T` strictly upper triangular. -/
noncomputable def kinetic (t : ℝ) (nx ny : Nat) (ks : Option (List ℝ)) (xpbc ypbc : Bool) :
    Matrix (Fin (ny * nx)) (Fin (ny * nx)) ℂ :=
  let T : Matrix (Fin (ny * nx)) (Fin (ny * nx)) ℂ :=
    Matrix.of fun i j => if i < j then upper t nx ny ks xpbc ypbc i j else 0
  T + T.conjTranspose

/-- `kpoints`, hubbard_holstein.py 421-461: the list of momenta. -/
def kpoints (nx ny : Nat) : List (List Nat) :=
  if ny = 1 then (List.range nx).map fun n => [n]
  else (List.range nx).flatMap fun n => (List.range ny).map fun m => [n, m]

/-- `kfac` of `kpoints`. -/
noncomputable def kfac (nx ny : Nat) : List ℝ :=
  if ny = 1 then [2 * Real.pi / nx] else [2 * Real.pi / nx, 2 * Real.pi / ny]

/-- `ek`, hubbard_holstein.py 463-482. -/
noncomputable def ek (t : ℝ) (k : List Nat) (kc : List ℝ) (ny : Nat) : ℝ :=
  if ny = 1 then -2 * t * Real.cos (kc.getD 0 0 * k.getD 0 0)
  else -2 * t * (Real.cos (kc.getD 0 0 * k.getD 0 0) + Real.cos (kc.getD 1 0 * k.getD 1 0))

/-- `eigs` of `kpoints`. -/
noncomputable def eigs (t : ℝ) (nx ny : Nat) : List ℝ := (kpoints nx ny).map fun k => ek t k (kfac nx ny) ny

/-- `numpy.dot(kc*k, r)`. -/
noncomputable def dotk (kc : List ℝ) (k r : List Nat) : ℝ :=
  (List.zipWith (· * ·) (List.zipWith (fun c (n : Nat) => c * (n : ℝ)) kc k) (r.map fun (n : Nat) => (n : ℝ))).sum

/-- A row of `transform_matrix`, hubbard_holstein.py 204-211. -/
noncomputable def wave (nx ny : Nat) (k : List Nat) : Fin (ny * nx) → ℂ :=
  fun j => Complex.exp (Complex.I * (dotk (kfac nx ny) k (decode nx ny j) : ℂ))

end Verif.Lattice
