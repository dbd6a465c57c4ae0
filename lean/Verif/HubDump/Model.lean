import Verif.Lattice.Model
import Verif.Files.Fcidump

/-!
# Pinning fields and the FCIDUMP of a Hubbard system

Model of `kinetic_pinning`, `kinetic_pinning_alt`, `Hubbard.fcidump`, `Hubbard.hijkl` and of the choice of the hopping in
`Hubbard.__init__` (pauxy/systems/hubbard.py 78-88, 106-146, 157-162, 176-277; the pinning functions in hubbard_holstein.py
270-370 are copies).

Simplified: floats are exact; a line of the file is its tokens and printing a number is the function `rnd` of `Files.fmt`.
`none` is an exception.
-/

namespace Verif.HubDump

open Matrix Files

/-- The options of `Hubbard` that are used here, hubbard.py 46-58, 70-72, 78. -/
structure Sys where
  nup : Nat
  ndown : Nat
  t : ℝ
  U : ℝ
  nx : Nat
  ny : Nat
  ktwist : Option (List ℝ)
  xpbc : Bool
  ypbc : Bool
  pinning : Bool

/-- The sign of the field on a site: `(-1.0)**(p)` for the first spin and `(-1.0)**(p+1)` for the second. -/
def stag (s : Fin 2) (p : Nat) : ℂ := if s = 0 then (-1) ^ p else (-1) ^ (p + 1)

/-- Entry `[i,j]`, `i < j`, in `kinetic_pinning_alt`, hubbard.py 266-275. -/
noncomputable def altUpper (t : ℝ) (nx ny : Nat) (i j : Nat) : ℂ :=
  let dij := Lattice.absDiff (Lattice.decode nx ny i) (Lattice.decode nx ny j)
  (if dij.sum = 1 then -(t : ℂ) else 0) + if Lattice.allEq dij 0 (ny - 1) then -(t : ℂ) else 0

/-- Entry `[i,i]` there, hubbard.py 262-265. -/
noncomputable def altDiag (t : ℝ) (nx ny : Nat) (s : Fin 2) (i : Nat) : ℂ :=
  let xy := Lattice.decode nx ny i
  if xy.getD 0 0 = 0 then stag s (xy.getD 1 0) * (1 / 10 * t) else 0

/-- `kinetic_pinning_alt`, hubbard.py 227-277.  On a single row the coordinate `xy1[1]` of the first site does not exist. -/
noncomputable def pinningAlt (t : ℝ) (nx ny : Nat) : Option (Fin 2 → Matrix (Fin (ny * nx)) (Fin (ny * nx)) ℂ) :=
  if ny = 1 ∧ 0 < nx then none
  else some fun s =>
    let T : Matrix (Fin (ny * nx)) (Fin (ny * nx)) ℂ := Matrix.of fun i j =>
      if i = j then altDiag t nx ny s i else if i < j then altUpper t nx ny i j else 0
    T + Matrix.of fun i j => if j < i then T j i else 0

/-- Entry `[i,j]`, `i < j`, in `kinetic_pinning`, hubbard.py 215-223. -/
noncomputable def docUpper (t : ℝ) (nx ny : Nat) (i j : Nat) : ℂ :=
  let dij := Lattice.absDiff (Lattice.decode nx ny i) (Lattice.decode nx ny j)
  (if dij.sum = 1 then -(t : ℂ) else 0) + if Lattice.allEq dij (nx - 1) 0 then -(t : ℂ) else 0

/-- Entry `[i,i]` there, hubbard.py 211-214. -/
noncomputable def docDiag (t : ℝ) (nx ny : Nat) (s : Fin 2) (i : Nat) : ℂ :=
  let xy := Lattice.decode nx ny i
  if xy.getD 1 0 = 0 ∨ xy.getD 1 0 + 1 = ny then stag s (xy.getD 0 0 + xy.getD 1 0) * (1 / 4 * t) else 0

/-- `kinetic_pinning`, hubbard.py 176-225, which no code calls. -/
noncomputable def pinningDoc (t : ℝ) (nx ny : Nat) : Option (Fin 2 → Matrix (Fin (ny * nx)) (Fin (ny * nx)) ℂ) :=
  if ny = 1 ∧ 0 < nx then none
  else some fun s =>
    let T : Matrix (Fin (ny * nx)) (Fin (ny * nx)) ℂ := Matrix.of fun i j =>
      if i = j then docDiag t nx ny s i else if i < j then docUpper t nx ny i j else 0
    T + Matrix.of fun i j => if j < i then T j i else 0

/-- `self.T`, hubbard.py 78-88. -/
noncomputable def hopping (y : Sys) : Option (Fin 2 → Matrix (Fin (y.ny * y.nx)) (Fin (y.ny * y.nx)) ℂ) :=
  if y.pinning then pinningAlt y.t y.nx y.ny else some fun _ => Lattice.kinetic y.t y.nx y.ny y.ktwist y.xpbc y.ypbc

/-- `self.T.dtype == complex`: the twist decides (hubbard_holstein.py 232-235). -/
def isComplex (y : Sys) : Bool := !y.pinning && y.ktwist.isSome

/-- `hijkl`, hubbard.py 157-162. -/
def hijkl (y : Sys) (i j k l : Nat) : ℂ := if i = j ∧ j = k ∧ k = l then (y.U : ℂ) else 0

open Classical in
/-- The pairs with a one-electron line, hubbard.py 123-126. -/
noncomputable def pairs {n : Nat} (T : Matrix (Fin n) (Fin n) ℂ) : List (Fin n × Fin n) :=
  (List.finRange n).flatMap fun i => ((List.finRange n).filter fun j => decide (i < j ∧ 1 / 10 ^ 8 < ‖T i j‖)).map fun j => (i, j)

/-- The text made by `fcidump`, hubbard.py 114-142. -/
noncomputable def text (rnd : ℝ → ℝ) (y : Sys) (T : Fin 2 → Matrix (Fin (y.ny * y.nx)) (Fin (y.ny * y.nx)) ℂ) : FFile :=
  { norb := y.ny * y.nx
    nelec := y.nup + y.ndown
    ms2 := (y.nup : ℤ) - y.ndown
    lines := ((List.finRange (y.ny * y.nx)).map fun i : Fin (y.ny * y.nx) => fmt rnd (y.U : ℂ) (i + 1, i + 1, i + 1, i + 1) (isComplex y) true) ++
      ((pairs (T 0)).map fun p => fmt rnd (T 0 p.1 p.2) (p.1 + 1, p.2 + 1, 0, 0) (isComplex y) true) ++
      [fmt rnd 0 (0, 0, 0, 0) (isComplex y) true] }

/-- What `fcidump` does with the text. -/
inductive Out where
  | returned (f : FFile)
  | printed (f : FFile)

/-- `fcidump`, hubbard.py 106-146. -/
noncomputable def fcidump (rnd : ℝ → ℝ) (y : Sys) (toString : Bool) : Option Out :=
  (hopping y).map fun T => if toString then .printed (text rnd y T) else .returned (text rnd y T)

end Verif.HubDump
