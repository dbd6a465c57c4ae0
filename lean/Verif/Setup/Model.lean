import Mathlib.Analysis.Complex.Norm
import Mathlib.Algebra.BigOperators.Fin

/-!
# Set-up and searches

Models of the distribution of walkers and seeds over ranks, of the half rotation on several ranks, of
the determinant threshold, of the enumeration of bounded compositions, of the chemical potential fit
and of the search for a UHF wavefunction.
-/

namespace Verif.Setup

/-! ## Walkers and seeds -/

/-- Walkers per rank, `pauxy/qmc/afqmc.py` lines 168-175 and `pauxy/qmc/thermal_afqmc.py` 146-156.
`int(n/size)` is exact division (the float quotient of numbers beyond 2^53 is not modelled). -/
def walkersPerRank (n size : Nat) : Nat := if n / size = 0 then 1 else n / size

/-- `ntot_walkers`, afqmc.py 176. -/
def totalWalkers (n size : Nat) : Nat := walkersPerRank n size * size

/-- `set_rng_seed`, `pauxy/qmc/utils.py` 3-17, on every rank: without a given seed the root draws one
and broadcasts it. -/
def seeds (given : Option Int) (drawn : Int) (size : Nat) : List Int :=
  (List.range size).map fun (r : Nat) => given.getD drawn + (r : Int)

/-! ## Half rotation on several ranks -/

/-- The columns a rank works on, `pauxy/trial_wavefunction/multi_slater.py` lines 380-395; `none` if
it does not compute. -/
def columns (nchol size rank : Nat) : Option (Nat × Nat) :=
  let n := nchol / size
  if n = 0 then
    if rank ≠ 0 then none else some (0, nchol)
  else
    some (rank * n, if rank = size - 1 then nchol else (rank + 1) * n)

/-- The shared array: row and column to value. -/
abbrev Arr := Nat → Nat → ℂ

/-- Assignment to a rectangle `A[r0:r1, c0:c1] = B`, where `B` is indexed from zero. -/
def assign (A : Arr) (r0 r1 c0 c1 : Nat) (B : Arr) : Arr :=
  fun r c => if r0 ≤ r ∧ r < r1 ∧ c0 ≤ c ∧ c < c1 then B (r - r0) (c - c0) else A r c

/-- `tensordot(psi[:,o:].conj(), chol[:,:,start:end]).reshape((k*M, ...))` (lines 402-409): row
`a*M + k` belongs to orbital `a` and basis function `k`. -/
noncomputable def rotBlock (M : Nat) (psi : Nat → Nat → ℂ) (o : Nat) (chol : Nat → Nat → Nat → ℂ)
    (start : Nat) : Arr :=
  fun r c => ∑ i : Fin M, star (psi i (o + r / M)) * chol i (r % M) (start + c)

/-- What one rank does for one determinant (lines 376-409). -/
noncomputable def rankDet (M na nb nchol size : Nat) (chol : Nat → Nat → Nat → ℂ)
    (psi : Nat → Nat → Nat → ℂ) (rank i : Nat) (A : Arr) : Arr :=
  let start := i * (M * (na + nb))
  match columns nchol size rank with
  | none => A
  | some (s, e) =>
    let A := assign A start (start + M * na) s e (rotBlock M (psi i) 0 chol s)
    assign A (start + M * na) (start + M * (na + nb)) s e (rotBlock M (psi i) na chol s)

/-- All determinants on all ranks, in the given order of (rank, determinant). -/
noncomputable def halfRotateAll (M na nb nchol size : Nat) (chol : Nat → Nat → Nat → ℂ)
    (psi : Nat → Nat → Nat → ℂ) (order : List (Nat × Nat)) (A : Arr) : Arr :=
  order.foldl (fun A x => rankDet M na nb nchol size chol psi x.1 x.2 A) A

/-- `rot_chol(idet, spin)`, lines 422-434: first and last row of the slice. -/
def rotCholRows (M na nb idet : Nat) (spin : Option Nat) : Nat × Nat :=
  let stride := M * (na + nb)
  match spin with
  | none => (idet * stride, (idet + 1) * stride)
  | some 0 => (idet * stride, idet * stride + M * na)
  | some _ => (idet * stride + M * na, idet * stride + M * na + M * nb)

/-! ## Determinant threshold -/

/-- `pauxy/trial_wavefunction/utils.py` lines 44-62: `ndets` coefficients have magnitude above the
threshold, and the first `ndets` determinants are kept. -/
noncomputable def thresholdDets {D : Type*} (thresh : ℝ) (wfn : List (ℂ × D)) : List (ℂ × D) :=
  open Classical in
  let ndets := (wfn.filter fun x => thresh < ‖x.1‖).length
  wfn.take ndets

/-! ## Bounded compositions -/

/-- `_unlabeled_balls_in_labeled_boxes`, `pauxy/estimators/ci.py` lines 357-385, the generated tuples
in order. -/
def ballsInBoxes : Nat → List Nat → List (List Nat)
  | 0, boxes => [List.replicate boxes.length 0]
  | _ + 1, [] => []
  | n + 1, [b] => if n + 1 ≤ b then [[n + 1]] else []
  | n + 1, b :: bs@(_ :: _) =>
    (List.range (min (n + 1) b + 1)).reverse.flatMap fun k =>
      (ballsInBoxes (n + 1 - k) bs).map (k :: ·)
  termination_by _ bs => bs.length

/-- `unlabeled_balls_in_labeled_boxes`, lines 314-354: `none` is an exception.  The type tests are
the types of the arguments here; zero is the only non-positive size left. -/
def enumerate (balls : Int) (boxes : List Int) : Option (List (List Nat)) :=
  if balls < 0 then none
  else if boxes.any (· < 1) then none
  else if boxes.sum < balls then none
  else some (ballsInBoxes balls.toNat (boxes.map Int.toNat))

/-! ## Chemical potential fit -/

/-- What `find_chem_pot` (`pauxy/analysis/thermal.py` lines 46-99) gets for one window: the residual
of the fit and, if a root was found, the root and whether it converged. -/
abbrev Fit := ℝ × Option (ℝ × Bool)

/-- The loop, lines 59-80: `rmin`, `mu_min`, and `mu`/`r` of the last window. -/
noncomputable def fitLoop : List Fit → Option (ℝ × ℝ) → Option (Option (ℝ × Bool)) →
    Option (ℝ × ℝ) × Option (Option (ℝ × Bool))
  | [], best, last => (best, last)
  | (res, none) :: fs, best, _ => fitLoop fs best (some none)
  | (res, some (mu, conv)) :: fs, best, _ =>
    open Classical in
    let best' := match best with
      | none => some (res, mu)
      | some (rmin, muMin) => if res < rmin then some (rmin, mu) else some (rmin, muMin)
    fitLoop fs best' (some (some (mu, conv)))

/-- The result, lines 95-99: outer `none` is an exception (`mu` unbound without any window), inner
`none` is Python's `None`. -/
noncomputable def findChemPot (fits : List Fit) : Option (Option ℝ) :=
  match fitLoop fits none none with
  | (_, none) => none
  | (_, some none) => some none
  | (best, some (some (_, conv))) => some (if conv then best.map Prod.snd else none)

/-! ## UHF search -/

/-- Outcome of one attempt of `find_uhf_wfn` (`pauxy/trial_wavefunction/uhf.py` lines 101-160): the
wavefunction and densities at its end, and the energy if it is self-consistent. -/
structure Attempt (P : Type*) where
  converged : Bool
  energy : ℝ
  psi : P
  dens : P

/-- Variables of the search: `minima`, `psi_accept`, `system.U`, and the densities left behind. -/
structure Search (P : Type*) where
  minima : List ℝ
  accepted : Option P
  U : ℝ
  dens : Option P

open Classical in
/-- One attempt, lines 112-146. -/
noncomputable def uhfAttempt {P : Type*} (deps : ℝ) (first : Bool) (s : Search P) (a : Attempt P) :
    Search P :=
  let s := { s with dens := some a.dens }
  if a.converged then
    if first ∨ ∀ m ∈ s.minima, deps < m - a.energy then
      { s with minima := s.minima ++ [a.energy], accepted := some a.psi }
    else s
  else s

/-- All attempts; `U` of the system is replaced during the search and restored (lines 104-105, 151). -/
noncomputable def uhfSearch {P : Type*} (deps U ueff : ℝ) : List (Attempt P) → Search P
  | [] => { minima := [], accepted := none, U := U, dens := none }
  | a :: as =>
    let s0 : Search P := { minima := [], accepted := none, U := ueff, dens := none }
    { as.foldl (uhfAttempt deps false) (uhfAttempt deps true s0 a) with U := U }

/-- The result: wavefunction, energy `min(minima)`, densities; `none` is an exception (line 155 with
`verbose`, or the undefined names of lines 168-170). -/
noncomputable def uhfResult {P : Type*} (s : Search P) : Option (P × ℝ × Option P) :=
  match s.accepted, s.minima with
  | some psi, m :: ms => some (psi, ms.foldl min m, s.dens)
  | _, _ => none

end Verif.Setup
