import Verif.Buffer.Model
import Mathlib.Data.Complex.Basic
import Mathlib.Analysis.Complex.Norm

/-!
# Field history and back-propagation windows: `pauxy/walkers/stack.py` 5-127,
`pauxy/estimators/back_propagation.py` 62-70, 145-147, 220-225
-/

namespace Verif.FieldHistory

open Verif.Buffer

/-- One entry of the history: field configuration, weight factor, cosine factor (the last two are
`wfac[0]` and `wfac[1]`). -/
structure Entry where
  config : List ℂ
  w0 : ℂ
  w1 : ℂ

/-- `FieldConfig` (stack.py 19-32).  Rows of the three arrays are list elements; `cos_fac` has a
real dtype at first and a complex one after `set_buffer`, its values are complex numbers here.
`tot_wfac` carries its dynamic type. -/
structure FC where
  configs : List (List ℂ)
  cosFac : List ℂ
  weightFac : List ℂ
  totWfac : Scal ℝ
  step : Nat
  block : Int
  ib : Nat
  nfields : Nat
  nbp : Nat
  npropTot : Nat
  nblock : Nat

/-- `numpy.complex128` as a pair. -/
def toPair (z : ℂ) : Cx ℝ := ⟨z.re, z.im⟩

/-- The number a pair stands for. -/
def ofPair (c : Cx ℝ) : ℂ := ⟨c.re, c.im⟩

/-- `FieldConfig.__init__`, stack.py 19-32.  `none`: division by zero for `nbp = 0`. -/
def FC.make (nfields npropTot nbp : Nat) : Option FC :=
  if nbp = 0 then none else
  some { configs := List.replicate npropTot (List.replicate nfields 0)
         cosFac := List.replicate npropTot 0
         weightFac := List.replicate npropTot 0
         totWfac := .cplx (toPair 1)
         step := 0
         block := -1
         ib := 0
         nfields := nfields
         nbp := nbp
         npropTot := npropTot
         nblock := npropTot / nbp }

/-- End of `update` and `push`: `self.step += 1` and the block counter (stack.py 45-48, 73-76).
`none`: modulus by `nblock = 0`. -/
def FC.advance (c : FC) : Option FC :=
  if (c.step + 1) % c.nbp = 0 then
    if c.nblock = 0 then none
    else some { c with step := c.step + 1, block := (c.block + 1) % (c.nblock : Int) }
  else some { c with step := c.step + 1 }

open Classical in
/-- New accumulated factor (stack.py 67-71): Python's `int` zero if the cosine factor is tiny. -/
noncomputable def newWfac (tot : Scal ℝ) (w0 w1 : ℂ) : Scal ℝ :=
  if ‖w1‖ > 1e-16 then .cplx (toPair (ofPair tot.toCx * (w0 / w1))) else .int 0

/-- `update`, stack.py 50-76.  `none`: IndexError when the buffer is full (the rows are assigned at
index `step`), or a configuration of the wrong size. -/
noncomputable def FC.update (c : FC) (e : Entry) : Option FC :=
  if c.step < c.npropTot ∧ e.config.length = c.nfields then
    FC.advance { c with
      configs := c.configs.set c.step e.config
      weightFac := c.weightFac.set c.step e.w0
      cosFac := c.cosFac.set c.step ((e.w1.re : ℝ) : ℂ)
      totWfac := newWfac c.totWfac e.w0 e.w1 }
  else none

/-- `push`, stack.py 34-48: one field of a configuration. -/
def FC.push (c : FC) (x : ℂ) : Option FC :=
  if c.step < c.npropTot ∧ c.ib < c.nfields then
    let c' := { c with
      configs := c.configs.modify c.step (fun row => row.set c.ib x)
      ib := (c.ib + 1) % c.nfields }
    if c'.ib = 0 then c'.advance else some c'
  else none

/-- `get_block`, stack.py 78-81. -/
def FC.getBlock (c : FC) : List (List ℂ) × List ℂ × List ℂ :=
  (c.configs.take c.step, c.cosFac.take c.step, c.weightFac.take c.step)

/-- `get_wfac`, stack.py 118-121. -/
noncomputable def FC.getWfac (c : FC) : ℂ × ℂ :=
  ((c.cosFac.take c.step).prod, (c.weightFac.take c.step).prod)

/-- `reset`, stack.py 124-127.  `none`: modulus by zero. -/
def FC.reset (c : FC) : Option FC :=
  if c.npropTot = 0 then none
  else some { c with
    step := if c.step % c.npropTot = 0 then 0 else c.step
    totWfac := .cplx (toPair 1) }

/-- Operations on a history. -/
inductive Op where
  | update (e : Entry)
  | reset

noncomputable def FC.apply (c : FC) : Op → Option FC
  | .update e => c.update e
  | .reset => c.reset

noncomputable def FC.run (c : FC) : List Op → Option FC
  | [] => some c
  | o :: os => match c.apply o with
    | none => none
    | some c' => c'.run os

/-! ## Exchange, stack.py 87-118 -/

/-- The buffered attributes in the order of `__dict__` (stack.py 20-31). -/
def FC.attrs (c : FC) : List (Attr ℝ) :=
  [.arr [c.npropTot, c.nfields] (c.configs.flatten.map toPair),
   .arr [c.npropTot, 1] (c.cosFac.map toPair),
   .arr [c.npropTot, 1] (c.weightFac.map toPair),
   .scal c.totWfac, .scal (.int c.step), .scal (.int c.block), .scal (.int c.ib),
   .scal (.int c.nfields), .scal (.int c.nbp), .scal (.int c.npropTot), .scal (.int c.nblock)]

/-- Cut a list into rows of `n` elements (`reshape`); `m` rows. -/
def rows {α : Type} (n : Nat) : Nat → List α → List (List α)
  | 0, _ => []
  | m + 1, l => l.take n :: rows n m (l.drop n)

/-- The history read off from its attributes. -/
def ofAttrs : List (Attr ℝ) → Option FC
  | [.arr [m, n] cs, .arr _ cf, .arr _ wf, .scal t, .scal (.int s), .scal (.int b),
      .scal (.int ib), .scal (.int nf), .scal (.int nbp), .scal (.int np), .scal (.int nb)] =>
    some { configs := rows n m (cs.map ofPair), cosFac := cf.map ofPair, weightFac := wf.map ofPair,
           totWfac := t, step := s.toNat, block := b, ib := ib.toNat, nfields := nf.toNat,
           nbp := nbp.toNat, npropTot := np.toNat, nblock := nb.toNat }
  | _ => none

/-- `get_buffer`, stack.py 87-99. -/
noncomputable def FC.getBuffer (c : FC) : Option (List (Cx ℝ)) :=
  getAttrs (buffSize c.attrs) c.attrs

/-- `set_buffer`, stack.py 101-116. -/
noncomputable def FC.setBuffer (c : FC) (buff : List (Cx ℝ)) : Option FC :=
  (setLoop buff 0 c.attrs).bind ofAttrs

/-! ## Back-propagation windows -/

/-- `self.splits`, back_propagation.py 69-70. -/
def splits (nmax nsplit : Nat) : List Nat :=
  (List.range nsplit).map (fun i => (i + 1) * (nmax / nsplit))

/-- Apply a partial operation to all elements. -/
def mapAll {α β : Type} (f : α → Option β) : List α → Option (List β)
  | [] => some []
  | a :: as => match f a, mapAll f as with
    | some b, some bs => some (b :: bs)
    | _, _ => none

/-- `BackPropagation.update_uhf` as far as the schedule is concerned (back_propagation.py 145-147
and 220-225): result is whether a measurement is made, and the histories afterwards. -/
def bpUpdate (nmax nsplit : Nat) (ws : List FC) : Option (Bool × List FC) :=
  match ws with
  | [] => none
  | w0 :: _ =>
    if w0.step ∈ splits nmax nsplit then
      if some w0.step = (splits nmax nsplit).getLast? then
        (mapAll FC.reset ws).map (fun ws' => (true, ws'))
      else some (true, ws)
    else some (false, ws)

/-- Propagation of one walker as far as its history is concerned (afqmc.py 229-233): recorded fields,
or nothing for a walker of negligible weight. -/
noncomputable def record (p : FC × Option Entry) : Option FC :=
  match p.2 with
  | none => some p.1
  | some e => p.1.update e

/-- One step of the run as far as the histories are concerned (afqmc.py 229-247): every walker with
non-negligible weight is propagated and records its fields (`none` for the others), population
control copies walkers (`src i` is the walker that walker `i` is a copy of afterwards), and the
estimator is updated. -/
noncomputable def tick (nmax nsplit : Nat) (ws : List FC) (es : List (Option Entry))
    (src : Nat → Nat) : Option (Bool × List FC) :=
  match mapAll record (ws.zip es) with
  | none => none
  | some ws' =>
    match mapAll (fun i => ws'[src i]?) (List.range ws'.length) with
    | none => none
    | some ws'' => bpUpdate nmax nsplit ws''

/-- A run of `t` steps; also returns for every step whether a measurement was made. -/
noncomputable def runBP (nmax nsplit : Nat) (es : Nat → List (Option Entry)) (src : Nat → Nat → Nat)
    (ws : List FC) : Nat → Option (List Bool × List FC)
  | 0 => some ([], ws)
  | t + 1 => match runBP nmax nsplit es src ws t with
    | none => none
    | some (ms, ws') => match tick nmax nsplit ws' (es t) (src t) with
      | none => none
      | some (m, ws'') => some (ms ++ [m], ws'')

end Verif.FieldHistory
