import Mathlib.Analysis.SpecialFunctions.Complex.Circle
import Mathlib.Analysis.SpecialFunctions.Pow.NNReal
import Mathlib.Data.Nat.Log

/-!
# Time series analysis

Model of `pauxy/analysis/autocorr.py` and of `average_ratio` in `pauxy/analysis/blocking.py`.
Floats are real numbers, `nan` is `none`.
-/

namespace Verif.Analysis

/-- The loop of `next_pow_two`, autocorr.py 6-10. -/
def nextPowLoop (n i : Nat) : Nat :=
  if h : i < n ∧ 0 < i then nextPowLoop n (2 * i) else i
  termination_by n - i
  decreasing_by omega

/-- `next_pow_two`. -/
def nextPowTwo (n : Nat) : Nat := nextPowLoop n 1

/-- `numpy.mean`; `nan` for an empty list. -/
noncomputable def mean (x : List ℝ) : Option ℝ :=
  if x.length = 0 then none else some (x.sum / x.length)

/-- Mean of a non-empty list. -/
noncomputable def avg (x : List ℝ) : ℝ := x.sum / x.length

/-- `exp(2πi a / N)`. -/
noncomputable def root (N : Nat) (a : ℤ) : ℂ :=
  Complex.exp (2 * Real.pi * Complex.I * (a / N))

/-- `numpy.fft.fft(x, n=N)`: the series is padded with zeros (`N` is at least its length here). -/
noncomputable def fft (x : List ℝ) (N k : Nat) : ℂ :=
  ∑ j ∈ Finset.range N, ((x.getD j 0 : ℝ) : ℂ) * root N (-(j * k : ℤ))

/-- `numpy.fft.ifft`. -/
noncomputable def ifft (g : Nat → ℂ) (N t : Nat) : ℂ :=
  1 / (N : ℂ) * ∑ k ∈ Finset.range N, g k * root N (k * t : ℤ)

/-- `autocorr_func_1d(x, norm=False)`, autocorr.py 12-21, at lag `t`. -/
noncomputable def acf (x : List ℝ) (t : Nat) : ℝ :=
  let n := nextPowTwo x.length
  let y := x.map (· - avg x)
  let f := fft y (2 * n)
  (ifft (fun k => f k * star (f k)) (2 * n) t).re / (4 * n)

/-- `autocorr_func_1d(x)`, lines 23-27: division by `acf[0]`, all `nan` if that is zero. -/
noncomputable def acfNorm (x : List ℝ) : Option (List ℝ) :=
  open Classical in
  if acf x 0 = 0 then none
  else some ((List.range x.length).map fun t => acf x t / acf x 0)

/-- `2.0*numpy.cumsum(f)-1.0`. -/
noncomputable def cumul (f : List ℝ) : List ℝ :=
  (List.range f.length).map fun w => 2 * (f.take (w + 1)).sum - 1

/-- Position of the first `false`, 0 if there is none: `numpy.argmin` of a boolean array. -/
def argminBool (m : List Bool) : Nat := if m.all id then 0 else m.idxOf false

/-- `auto_window`, lines 30-34 (an empty array would give -1, not modelled). -/
noncomputable def autoWindow (taus : List ℝ) (c : ℝ) : Nat :=
  open Classical in
  let m := (List.range taus.length).map fun (i : Nat) => decide ((i : ℝ) < c * taus.getD i 0)
  if m.any id then argminBool m else taus.length - 1

/-- `autocorr_gw2010`, lines 37-41, with `c = 5`; `none` is `nan`. -/
noncomputable def autocorrTime (y : List ℝ) : Option ℝ :=
  (acfNorm y).map fun f => (cumul f).getD (autoWindow (cumul f) 5) 0

/-- The block averages, lines 56-63. -/
noncomputable def blockMeans (y : List ℝ) (b : Nat) : List ℝ :=
  (List.range (y.length / b)).map fun i => avg ((y.drop (i * b)).take b)

/-- `numpy.std` of a non-empty list. -/
noncomputable def std (x : List ℝ) : ℝ :=
  Real.sqrt (avg (x.map fun a => (a - avg x) ^ 2))

/-- One row of the frame returned. -/
structure Row where
  avg : Option ℝ
  err : Option ℝ
  nblocks : Nat
  size : Nat

/-- `reblock_by_autocorr`, lines 44-71.  `rnd` is `numpy.round` followed by `int`.  The result is
`none` if an exception is raised: for a single sample (`max` of an empty list), for a `nan` among the
autocorrelation times (`int(nan)`) and for a block size of zero; a negative block size, which would
lead to an average over no blocks, is treated in the same way. -/
noncomputable def reblock (rnd : ℝ → ℤ) (y : List ℝ) : Option Row :=
  let nmax := Nat.log 2 y.length
  match (List.range nmax).mapM fun i => autocorrTime (y.take (y.length / 2 ^ i)) with
  | none => none
  | some [] => none
  | some (t :: ts) =>
    let size := rnd (ts.foldl max t)
    if size ≤ 0 then none
    else
      let b := size.toNat
      let means := blockMeans y b
      let nblocks := y.length / b
      some { avg := mean means
             err := if nblocks = 0 then none else some (std means / Real.sqrt nblocks)
             nblocks := nblocks
             size := b }

/-! ## Ratios -/

/-- Sample covariance, `numpy.cov(x, y)[0,1]` (with `n - 1`). -/
noncomputable def cov (x y : List ℝ) : ℝ :=
  ((x.zip y).map fun p => (p.1 - avg x) * (p.2 - avg y)).sum / (x.length - 1)

/-- `scipy.stats.sem`: `std(ddof=1)/sqrt(n)`. -/
noncomputable def sem (x : List ℝ) : ℝ :=
  Real.sqrt ((x.map fun a => (a - avg x) ^ 2).sum / (x.length - 1)) / Real.sqrt x.length

/-- `average_ratio`, blocking.py 46-67: mean and error.  Meaningful if there are at least two samples
and no mean divided by vanishes. -/
noncomputable def averageRatio (num den : List ℂ) : ℝ × ℝ :=
  let reNum := num.map Complex.re
  let reDen := den.map Complex.re
  let imNum := num.map Complex.im
  let imDen := den.map Complex.im
  let numAv := avg reNum * avg reDen + avg imNum * avg imDen
  let denAv := avg reDen ^ 2 + avg imDen ^ 2
  let m := numAv / denAv
  let e := |m| * Real.sqrt ((sem reNum / avg reNum) ^ 2 + (sem reDen / avg reDen) ^ 2 -
    2 * cov reNum reDen / (reNum.length * avg reNum * avg reDen))
  (m, e)

end Verif.Analysis
