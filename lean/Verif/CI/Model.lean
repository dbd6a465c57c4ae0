import Mathlib.Data.Finset.Sort
import Mathlib.Algebra.Field.Basic
import Mathlib.Data.List.Sublists
import Mathlib.Tactic.Ring

/-!
# Determinant matrix elements

Model of `get_hmatel`, `get_perm`, `slater_condon0`, `slater_condon1`, `slater_condon2`, `map_orb`,
`get_one_body_matel` and of the matrix of `simple_fci` (pauxy/estimators/ci.py 159-312).  A determinant is the sorted list
of its spin orbitals; the system is its core energy, its spin independent one-body integrals `H1[0]`, the function
`hijkl` and its numbers of orbitals and electrons.  Orbital indices are natural numbers.
-/

namespace Verif.CI

structure System (K : Type*) where
  nbasis : Nat
  nup : Nat
  ndown : Nat
  ecore : K
  H1 : Nat → Nat → K
  hijkl : Nat → Nat → Nat → Nat → K

/-- `map_orb`, ci.py 281-289 -/
def mapOrb (orb nbasis : Nat) : Nat × Nat := if orb / nbasis = 0 then (orb, 0) else (orb - nbasis, 1)

/-- `sorted(set(d) - set(d'))` -/
def diff (d d' : List Nat) : List Nat := (d.toFinset \ d'.toFinset).sort (· ≤ ·)

/-- One loop of `get_perm`, ci.py 218-227: positions minus the number of orbitals moved before. -/
def permLoop (d : List Nat) : List Nat → Nat → Int → Int
  | [], _, perm => perm
  | o :: os, nmove, perm => permLoop d os (nmove + 1) (perm + ((d.idxOf o : Int) - nmove))

/-- `get_perm`, ci.py 212-228 -/
def getPerm (fromOrb toOrb di dj : List Nat) : Bool :=
  permLoop di toOrb 0 (permLoop dj fromOrb 0 0) % 2 == 1

section

variable {K : Type*} [Field K]

/-- The inner loop of `slater_condon0`, ci.py 238-242. -/
def sc0Inner (sys : System K) (i : Nat) : List Nat → K
  | [] => 0
  | j :: js =>
    let ii := mapOrb i sys.nbasis
    let jj := mapOrb j sys.nbasis
    (sys.hijkl ii.1 jj.1 ii.1 jj.1 - if ii.2 = jj.2 then sys.hijkl ii.1 jj.1 jj.1 ii.1 else 0) + sc0Inner sys i js

/-- The loops of `slater_condon0`, ci.py 234-242: one-body and two-body sums. -/
def sc0Loop (sys : System K) : List Nat → K × K
  | [] => (0, 0)
  | i :: is =>
    let r := sc0Loop sys is
    (sys.H1 (mapOrb i sys.nbasis).1 (mapOrb i sys.nbasis).1 + r.1, sc0Inner sys i is + r.2)

/-- `slater_condon0`, ci.py 230-244 -/
def sc0 (sys : System K) (occs : List Nat) : K × K × K :=
  let r := sc0Loop sys occs
  (sys.ecore + r.1 + r.2, sys.ecore + r.1, r.2)

/-- The loop of `slater_condon1`, ci.py 252-260. -/
def sc1Loop (sys : System K) (ii si aa : Nat) : List Nat → K
  | [] => 0
  | o :: os =>
    let oj := mapOrb o sys.nbasis
    (if 2 * oj.1 + oj.2 ≠ 2 * ii + si then
      sys.hijkl ii oj.1 aa oj.1 - if oj.2 = si then sys.hijkl ii oj.1 oj.1 aa else 0
     else 0) + sc1Loop sys ii si aa os

/-- `slater_condon1`, ci.py 246-264; the loop runs over the first `nup + ndown` spin orbitals. -/
def sc1 (sys : System K) (i a : Nat × Nat) (occs : List Nat) (perm : Bool) : K × K × K :=
  let e1b := sys.H1 i.1 a.1
  let e2b := sc1Loop sys i.1 i.2 a.1 (occs.take (sys.nup + sys.ndown))
  if perm then (-(e1b + e2b), -e1b, -e2b) else (e1b + e2b, e1b, e2b)

/-- `slater_condon2`, ci.py 266-279 -/
def sc2 (sys : System K) (i j a b : Nat × Nat) (perm : Bool) : K :=
  let h := if i.2 = a.2 then sys.hijkl i.1 j.1 a.1 b.1 else 0
  let h := if i.2 = b.2 then h - sys.hijkl i.1 j.1 b.1 a.1 else h
  if perm then -h else h

/-- `get_hmatel`, ci.py 184-210: total, one-body and two-body part. -/
def getHmatel (sys : System K) (di dj : List Nat) : K × K × K :=
  let fromOrb := diff dj di
  let toOrb := diff di dj
  let perm := getPerm fromOrb toOrb di dj
  match fromOrb, toOrb with
  | [], _ => sc0 sys di
  | [i], a :: _ => sc1 sys (mapOrb i sys.nbasis) (mapOrb a sys.nbasis) di perm
  | [i, j], a :: b :: _ =>
    let h := sc2 sys (mapOrb i sys.nbasis) (mapOrb j sys.nbasis) (mapOrb a sys.nbasis) (mapOrb b sys.nbasis) perm
    (h, 0, h)
  | _, _ => (0, 0, 0)

/-- `get_one_body_matel`, ci.py 291-312; `none` is the failed assertion on the spins (the unsorted order of the
differences only matters for more than one orbital, where the result is zero). -/
def oneBodyMatel (ints : Nat → Nat → K) (n : Nat) (di dj : List Nat) : Option K :=
  let fromOrb := diff dj di
  let toOrb := diff di dj
  let perm := getPerm fromOrb toOrb di dj
  let r : Option K := match fromOrb, toOrb with
    | [], _ => some ((di.map fun i => ints (mapOrb i n).1 (mapOrb i n).1).sum)
    | [i], a :: _ =>
      if (mapOrb i n).2 = (mapOrb a n).2 then some (ints (mapOrb i n).1 (mapOrb a n).1) else none
    | _, _ => some 0
  r.map fun x => if perm then -x else x

/-- `itertools.combinations`, in its order. -/
def combinations {A : Type*} : List A → Nat → List (List A)
  | _, 0 => [[]]
  | [], _ + 1 => []
  | x :: xs, k + 1 => (combinations xs k).map (x :: ·) ++ combinations xs (k + 1)

/-- The determinants of `simple_fci`, ci.py 161-170: all combinations for each spin, converted to spin orbitals. -/
def fciDets (sys : System K) : List (List Nat) :=
  (combinations (List.range sys.nbasis) sys.nup).flatMap fun a =>
    (combinations (List.range sys.nbasis) sys.ndown).map fun b => a ++ b.map (· + sys.nbasis)

end

end Verif.CI
