import Verif.Analysis.Model

/-!
# Averages over blocks and runs

Model of `pauxy/analysis/blocking.py`, `extraction.py`, `rdm.py` and `thermal.py`: which rows of the
output files enter an average, how rows of several files are put together, and the means and errors
printed.  Floats are real numbers; `none` stands for an exception.  Blocked errors (`pyblock`) are a
parameter.
-/

namespace Verif.Stats

open Verif.Analysis

/-! ## Metadata of a run -/

/-- What the JSON string of a run holds.  A missing key and `null` look the same to `dict.get`. -/
inductive Json where
  | null
  | num (x : ℝ)
  | str (s : String)
  | bool (b : Bool)
  | obj (f : String → Json)

/-- `d.get(k)`.  Simplified: `None` also if `d` is not a dictionary. -/
def Json.get : Json → String → Json
  | .obj f, k => f k
  | _, _ => .null

/-- `get_from_dict`, utils/misc.py 196-216: `reduce(dict.get, k, d)`, `None` on a `TypeError`. -/
def Json.path (d : Json) (ks : List String) : Json := ks.foldl Json.get d

/-- `x or default`, for `system.get(k, 0)`. -/
def Json.orNum : Json → ℝ → Json
  | .null, x => .num x
  | j, _ => j

/-- Truth value of a JSON value (`None`, `False`, `0` and `''` are false). -/
noncomputable def Json.truthy : Json → Bool
  | .null => false
  | .bool b => b
  | .num x => open Classical in decide (x ≠ 0)
  | .str s => s != ""
  | .obj _ => true

/-- Columns added to a frame, in order. -/
abbrev Cols := List (String × Json)

/-- `frame[k] = v`: a new column at the end, or the values of an existing one replaced. -/
def put (l : Cols) (k : String) (v : Json) : Cols :=
  if k ∈ l.map Prod.fst then l.map fun p => if p.1 = k then (k, v) else p else l ++ [(k, v)]

/-- `if v is not None: frame[k] = v`. -/
def putSome (l : Cols) (k : String) : Json → Cols
  | .null => l
  | v => put l k v

/-- The part of `set_info` that depends on the system, extraction.py 95-115. -/
noncomputable def systemInfo (s : Json) (l : Cols) : Cols :=
  match s.get "name" with
  | .str "UEG" =>
    put (put (put (put l "rs" (s.get "rs")) "ecut" (s.get "ecut")) "nup" (s.get "nup"))
      "ndown" (s.get "ndown")
  | .str "Hubbard" =>
    put (put (put (put (put l "U" (s.get "U")) "nx" (s.get "nx")) "ny" (s.get "ny"))
      "nup" (s.get "nup")) "ndown" (s.get "ndown")
  | .str "Generic" =>
    put (put (put (putSome (putSome l "integrals" (s.get "integral_file"))
      "cholesky_treshold" (s.get "threshold")) "nup" (s.get "nup")) "ndown" (s.get "ndown"))
      "nbasis" ((s.get "nbasis").orNum 0)
  | _ => l

/-- The part of `set_info` on temperature and trial, extraction.py 77 and 82-94. -/
noncomputable def thermalInfo (md : Json) (l : Cols) : Cols :=
  match md.path ["qmc", "beta"] with
  | .null => put l "E_T" (md.path ["trial", "energy"])
  | beta =>
    let l := put l "beta" beta
    let l := putSome l "beta_red" (md.path ["qmc", "beta_scaled"])
    let l := putSome l "mu" (md.path ["system", "mu"])
    match md.get "trial" with
    | .null => l
    | t => put (put l "mu_T" (t.get "mu")) "Nav_T" (t.get "nav")

/-- `set_info`, extraction.py 64-116. -/
noncomputable def setInfo (md : Json) : Cols :=
  let l := put [] "dt" (md.path ["qmc", "dt"])
  let l := putSome l "nwalkers" (md.path ["qmc", "ntot_walkers"])
  let l := putSome l "free_projection" (md.path ["propagators", "free_projection"])
  let l := put l "nbasis" ((md.path ["system", "nbasis"]).orNum 0)
  let l := match md.path ["estimates", "estimates", "back_prop"] with
    | .null => l
    | bp => put l "tau_bp" (bp.get "tau_bp")
  let l := thermalInfo md l
  systemInfo (md.get "system") l

/-! ## Rows -/

/-- `int(x)` of a float: the fraction is cut off. -/
noncomputable def trunc (x : ℝ) : ℤ := if 0 ≤ x then ⌊x⌋ else ⌈x⌉

/-- `data[s:]` of Python, with counting from the end for a negative `s`. -/
def sliceFrom {α : Type*} (l : List α) (s : ℤ) : List α :=
  if 0 ≤ s then l.drop s.toNat else l.drop (l.length - (-s).toNat)

/-- One line of the output of a run: the step it was written at and its columns. -/
structure Line where
  iter : ℕ
  val : String → ℝ

/-- A file: its metadata and the lines of `basic/energies`. -/
structure File where
  md : Json
  lines : List Line

/-- First line kept, blocking.py 306-312: `int(start_time/(step*dt)) + 1`, or 0 if the walkers were
read from a file. -/
noncomputable def startRow (startTime step dt : ℝ) (readRs : Bool) : ℤ :=
  if readRs then 0 else trunc (startTime / (step * dt)) + 1

/-- A line with the columns of its file. -/
structure Row where
  cols : Cols
  val : String → ℝ

/-- Number in a JSON value, 0 otherwise (then the code would raise). -/
def Json.toNum : Json → ℝ
  | .num x => x
  | _ => 0

/-- The rows of one file in `analyse_estimates`, blocking.py 305-315. -/
noncomputable def fileRows (startTime : ℝ) (f : File) : List Row :=
  let s := startRow startTime (f.md.path ["qmc", "nsteps"]).toNum (f.md.path ["qmc", "dt"]).toNum
    (f.md.path ["psi", "read_rs"]).truthy
  (sliceFrom f.lines s).map fun l => ⟨setInfo f.md, l.val⟩

/-- The grouping columns, blocking.py 318-322: those of the last file but for `E_T`. -/
noncomputable def groupCols (files : List File) : List String :=
  match files.getLast? with
  | none => []
  | some f => ((setInfo f.md).map Prod.fst).filter (· ≠ "E_T")

/-- Value of a row in a column, `none` if it is missing or `None`. -/
def Row.key (r : Row) (c : String) : Option Json :=
  match r.cols.lookup c with
  | some .null => none
  | o => o

/-- Key of a row for `groupby(columns)`.  A row lacking one of the values belongs to no group. -/
def Row.keys (r : Row) (cs : List String) : Option (List Json) := cs.mapM r.key

/-- The rows with a given key, in order. -/
noncomputable def ofKey {α κ : Type*} (key : α → Option κ) (k : κ) (rows : List α) : List α :=
  open Classical in rows.filter fun r => key r = some k

/-- `pandas` `groupby`: the groups (in order of first appearance; pandas sorts them). -/
noncomputable def groupBy {α κ : Type*} (key : α → Option κ) (rows : List α) : List (κ × List α) :=
  open Classical in
  (rows.filterMap key).reverse.dedup.reverse.map fun k => (k, ofKey key k rows)

/-- Flag of free projection of the last file, blocking.py 309 and 325. -/
noncomputable def lastFp (files : List File) : Bool :=
  match files.getLast? with
  | none => false
  | some f => (f.md.path ["propagators", "free_projection"]).truthy

/-- `analyse_estimates` without `av_tau`, blocking.py 302-328, with `reblock_mixed`, lines 98-136.
`blk` is the blocking of the rows of a group, `ac` the analysis of the total energies of the last
group.  With free projection `reblock_free_projection` is called with an argument too many; with no
group `pd.concat` raises; with several groups the single value of the last group is assigned to a
longer column, which raises. -/
noncomputable def analyseEstimates {S A : Type*} (blk : List (String → ℝ) → S) (ac : List ℝ → A)
    (startTime : ℝ) (files : List File) : Option ((List Json × S) × A) :=
  if lastFp files then none
  else match groupBy (fun r : Row => r.keys (groupCols files)) (files.flatMap (fileRows startTime)) with
    | [g] => some ((g.1, blk (g.2.map Row.val)), ac (g.2.map fun r => r.val "ETotal"))
    | _ => none

/-- `analyse_back_prop`, blocking.py 276-290: first line kept. -/
noncomputable def bpStart (startTime tbp : ℝ) : ℤ := min 1 (trunc (startTime / tbp) + 1)

/-- Names of the data sets the back propagation estimator writes for one of its times,
back_propagation.py 286-306. -/
def bpNames (energy : Bool) (ix : String) : List String :=
  (if energy then ["energies_" ++ ix] else []) ++ ["denominator_" ++ ix, "one_rdm_" ++ ix]

/-- `analyse_back_prop` on one file, lines 279-290: mean and error of a column.  `names` are the data
sets present; the frame is sorted by `tau_bp`, which has to be one of its columns. -/
noncomputable def analyseBackProp (names : List String) (md : Json) (startTime : ℝ)
    (col : List ℝ) : Option (ℝ × ℝ) :=
  let tbp := (md.path ["estimators", "estimators", "back_prop", "tau_bp"]).toNum
  let d := sliceFrom col (bpStart startTime tbp)
  if "energies" ∉ names then none
  else if "tau_bp" ∉ (setInfo md).map Prod.fst then none
  else some (avg d, sem d)

/-- Columns added to the last file. -/
noncomputable def allCols (files : List File) : List String :=
  match files.getLast? with
  | none => []
  | some f => (setInfo f.md).map Prod.fst

/-- `analyse_energy` without free projection, thermal.py 8-41: for every group the mean and the error
of a column.  The first line of each file is left out; the groups are by all columns of the last
file (the files are sorted by name before). -/
noncomputable def analyseEnergy (files : List File) (c : String) : List (List Json × ℝ × ℝ) :=
  let rows := files.flatMap fun f => (f.lines.drop 1).map fun l => (⟨setInfo f.md, l.val⟩ : Row)
  (groupBy (fun r : Row => r.keys (allCols files)) rows).map fun g =>
    (g.1, avg (g.2.map fun r => r.val c), sem (g.2.map fun r => r.val c))

/-! ## Density matrices -/

/-- Mean of complex numbers. -/
noncomputable def avgC (z : List ℂ) : ℂ := z.sum / z.length

/-- `std(ddof=1)` of complex numbers: deviations are taken in modulus. -/
noncomputable def stdC (z : List ℂ) : ℝ :=
  Real.sqrt ((z.map fun a => ‖a - avgC z‖ ^ 2).sum / (z.length - 1))

/-- `extract_rdm` for back propagation, extraction.py 36-62: every block divided by its denominator. -/
noncomputable def extractRdm {ι : Type*} (blocks : List ((ι → ℂ) × ℂ)) : List (ι → ℂ) :=
  blocks.map fun b i => b.1 i / b.2

/-- `average_rdm`, blocking.py 181-186: mean and error of every entry. -/
noncomputable def averageRdm {ι : Type*} (series : List (ι → ℂ)) (skip : ℕ) (i : ι) : ℂ × ℝ :=
  let kept := (series.drop skip).map (· i)
  (avgC kept, stdC kept / Real.sqrt series.length)

/-- `analyse_split`, rdm.py 5-9: the values of a one-body operator. -/
noncomputable def splitVals {M : ℕ} (A : Fin M → Fin M → ℂ) (Ps : List (Fin 2 × Fin M × Fin M → ℂ)) :
    List ℝ :=
  Ps.map fun P => (∑ i, ∑ j, A i j * (P (0, i, j) + P (1, i, j))).re

/-- `analyse_split`. -/
noncomputable def analyseSplit {M : ℕ} (A : Fin M → Fin M → ℂ)
    (Ps : List (Fin 2 × Fin M × Fin M → ℂ)) : ℝ × ℝ :=
  (avg (splitVals A Ps), sem (splitVals A Ps))

/-- `analyse_one_body`, rdm.py 11-31, for one of the times: `skip` is not used. -/
noncomputable def analyseOneBody {M : ℕ} (A : Fin M → Fin M → ℂ)
    (blocks : List ((Fin 2 × Fin M × Fin M → ℂ) × ℂ)) (_skip : ℕ) : ℝ × ℝ :=
  analyseSplit A (extractRdm blocks)

/-- `average_correlation`, blocking.py 189-196, at a site: hole and spin density with errors, from
the diagonals of the two spin blocks. -/
noncomputable def averageCorrelation {M : ℕ} (gf : List (Fin 2 × Fin M × Fin M → ℝ)) (i : Fin M) :
    (ℝ × ℝ) × (ℝ × ℝ) :=
  let hole := gf.map fun g => 1 - (g (0, i, i) + g (1, i, i))
  let spin := gf.map fun g => 0.5 * (g (0, i, i) - g (1, i, i))
  ((avg hole, sem hole), (avg spin, sem spin))

/-! ## Averages at equal imaginary time -/

/-- A line for `average_fp` and `average_tau`: iteration, numerator, denominator, projected energy
and weight. -/
structure Entry where
  iter : ℕ
  num : ℂ
  den : ℂ
  etot : ℝ
  weight : ℝ

/-- Lines of one iteration. -/
def atIter (rows : List Entry) (k : ℕ) : List Entry := rows.filter fun r => r.iter = k

/-- The different iterations. -/
def iters (rows : List Entry) : List ℕ := (rows.map Entry.iter).dedup

/-- `sqrt` of `numpy`, which is `nan` for a negative number. -/
noncomputable def nsqrt (x : ℝ) : Option ℝ := open Classical in if x < 0 then none else some (Real.sqrt x)

/-- `average_fp`, blocking.py 69-96, at iteration `k`: energy and error.  `nsamp` is the number of
rows of the frame of means, which is the number of iterations. -/
noncomputable def averageFp (rows : List Entry) (k : ℕ) : ℝ × Option ℝ :=
  let g := atIter rows k
  let re_num := g.map fun r => r.num.re
  let re_den := g.map fun r => r.den.re
  let im_num := g.map fun r => r.num.im
  let im_den := g.map fun r => r.den.im
  let e := (avg re_num * avg re_den + avg im_num * avg im_den) / (avg re_den ^ 2 + avg im_den ^ 2)
  let nsamp := (iters rows).length
  (e, (nsqrt ((sem re_num / avg re_num) ^ 2 + (sem re_den / avg re_den) ^ 2 -
    2 * cov re_num re_den / (nsamp * avg re_num * avg re_den))).map fun s => |e| * s)

/-- Columns of `average_tau`, blocking.py 199-226. -/
structure Tau where
  energy : ℝ
  energyErr : Option ℝ
  eproj : ℝ
  eprojErr : ℝ
  weight : ℝ
  weightErr : ℝ
  numer : ℝ
  numerErr : ℝ

/-- `sqrt(var())` of `pandas` (with `n - 1`). -/
noncomputable def sd (x : List ℝ) : ℝ := Real.sqrt ((x.map fun a => (a - avg x) ^ 2).sum / (x.length - 1))

/-- `average_tau`, blocking.py 199-226, for the lines of one iteration (real parts). -/
noncomputable def averageTau (g : List Entry) : Tau :=
  let num := g.map fun r => r.num.re
  let den := g.map fun r => r.den.re
  let et := g.map Entry.etot
  let w := g.map Entry.weight
  let e := avg num / avg den
  { energy := e
    energyErr := (nsqrt ((sd num / avg num) ^ 2 + (sd den / avg den) ^ 2 -
      2 * cov num den / (avg num * avg den))).map fun s => |e / Real.sqrt g.length| * s
    eproj := avg et
    eprojErr := sd et / Real.sqrt g.length
    weight := avg w
    weightErr := sd w
    numer := avg num
    numerErr := sd num }

/-! ## Chemical potential -/

/-- Outcome of the fit in one window, thermal.py 60-78: residual of the fit and the root with its
convergence flag, `none` if the fit does not change sign. -/
structure Window where
  res : ℝ
  root : Option (ℝ × Bool)

/-- State of the loop: smallest residual so far (as the code keeps it), chemical potential for it,
and the outcome of the last window (`none` before the first). -/
structure Chem where
  rmin : Option ℝ
  muMin : ℝ
  r : Bool
  mu : Option (Option ℝ)

/-- One pass of the loop of `find_chem_pot`, thermal.py 59-80.  `rmin` is set once. -/
noncomputable def chemStep (c : Chem) (w : Window) : Chem :=
  match w.root with
  | none => ⟨c.rmin, c.muMin, c.r, some none⟩
  | some (mu, conv) =>
    match c.rmin with
    | none => ⟨some w.res, mu, conv, some (some mu)⟩
    | some rm => open Classical in
      if w.res < rm then ⟨some rm, mu, conv, some (some mu)⟩ else ⟨some rm, c.muMin, conv, some (some mu)⟩

/-- Windows `[s, n - s)` of `n` points with more than `order + 1` of them, thermal.py 56-59 and 79-80. -/
def windows (n order : ℕ) : List (ℕ × ℕ) :=
  ((List.range n).filter fun s => order + 1 + 2 * s < n).map fun s => (s, n - s)

/-- `find_chem_pot` given the outcomes of the fits, thermal.py 46-101: `none` if the name `mu` is not
bound, `some none` if nothing is returned. -/
noncomputable def findChemPot (ws : List Window) : Option (Option ℝ) :=
  let c := ws.foldl chemStep ⟨none, 0, false, none⟩
  match c.mu with
  | none => none
  | some none => some none
  | some (some _) => if c.r then some (some c.muMin) else some none

end Verif.Stats
