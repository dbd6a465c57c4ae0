import Mathlib.Data.Real.Basic
import Mathlib.Data.List.GetD
import Mathlib.Data.List.Basic

/-!
# Determinants of an active-space calculation

Model of `multi_det_wavefunction`, pauxy/utils/from_pyscf.py 552-609.  `numpy.argsort` is a parameter; the text of a line is
its coefficient and its list of orbital numbers (rounding to 13 decimals is left out).
-/

namespace Verif.CasWfn

/-- The fields of the solver that are used: `ncas`, `ncore`, the occupation lists `_gen_occslst(range(ncas), nelecas[0])`
and `ci.ravel()`, from_pyscf.py 576-578. -/
structure Solver where
  ncas : Nat
  ncore : Nat
  occ : List (List Nat)
  ci : List ℝ

/-- `cumsum(ci_coeffs[ix_sort]**2)`, from_pyscf.py 581: the sum of the first `k` squares. -/
noncomputable def cumw (s : Solver) (ix : List Nat) (k : Nat) : ℝ := ((ix.take k).map fun i => s.ci.getD i 0 ^ 2).sum

open Classical in
/-- `numpy.searchsorted(cweight, weight_cutoff)`, from_pyscf.py 582: the first position with `cutoff ≤ cweight[k]`. -/
noncomputable def maxDet (s : Solver) (ix : List Nat) (cutoff : ℝ) : Nat :=
  (List.range ix.length).findIdx fun k => cutoff ≤ cumw s ix (k + 1)

/-- A line of the file, from_pyscf.py 596-609; `none` if an occupation list does not exist (`IndexError`). -/
noncomputable def line (s : Solver) (norb i : Nat) : Option (ℝ × List Nat) := do
  let a ← s.occ[i / s.occ.length]?
  let b ← s.occ[i % s.occ.length]?
  some (s.ci.getD i 0, (List.range s.ncore).map (· + 1) ++ a.map (· + 1 + s.ncore) ++
    ((List.range s.ncore).map (· + 1 + norb) ++ b.map (· + norb + 1 + s.ncore)))

/-- The lines written, from_pyscf.py 588-609, with `ix` for `ix_sort`; `norb` is `ncas` by default. -/
noncomputable def file (s : Solver) (ix : List Nat) (cutoff : ℝ) (norb : Option Nat) : Option (List (ℝ × List Nat)) :=
  (ix.take (maxDet s ix cutoff)).mapM (line s (norb.getD s.ncas))

end Verif.CasWfn
