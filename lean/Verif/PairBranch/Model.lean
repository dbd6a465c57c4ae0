import Mathlib.Algebra.Field.Defs
import Mathlib.Algebra.Order.Group.Unbundled.Abs
import Mathlib.Order.Defs.LinearOrder
import Mathlib.Data.List.Range
import Verif.Mpi.Exchange

/-!
# Population control by pair branching: `pauxy/walkers/handler.py` 340-412

Weights are elements of an ordered field.  Ranks, counts and partners, kept by the code in a float
array, are natural numbers here.
-/

namespace Verif.PairBranch

variable {K : Type} [Field K] [LinearOrder K]

/-- A row of `glob_inf`: `[weight, count, rank, partner]` (handler.py 341). -/
structure Info (K : Type) where
  w : K
  cnt : Nat
  rank : Nat
  partner : Nat

/-- What the exchange moves: the weight of a walker and the rest of it. -/
structure Walker (K S : Type) where
  weight : K
  state : S

variable {S : Type}

/-- `walker_info` of all ranks, gathered and flattened (handler.py 341-346).  `ws p` is the walker
at global position `p`, which lives on rank `p / nw` in slot `p % nw`. -/
def gathered (nw size : Nat) (ws : Nat → Walker K S) : List (Info K) :=
  (List.range (nw * size)).map (fun p => ⟨|(ws p).weight|, 1, p / nw, p / nw⟩)

/-- `numpy.argsort(key, kind='mergesort')` (handler.py 348-349): stable sort of the positions. -/
def argsort {α : Type} [LE α] [DecidableLE α] (n : Nat) (key : Nat → α) : List Nat :=
  (List.range n).mergeSort (fun i j => decide (key i ≤ key j))

/-- One pair, handler.py 359-381: `a` is the light walker (index `s`), `b` the heavy one (index
`e`), `r` the random number.  When both weights vanish the code compares with `NaN` (false); here
`0 / 0 = 0` and the comparison is false as well because `r ≥ 0`. -/
def branch (r : K) (a b : Info K) : Info K × Info K :=
  let wab := a.w + b.w
  if r < b.w / wab then
    ({ w := 0, cnt := 0, rank := a.rank, partner := b.rank },
     { w := 1 / 2 * wab, cnt := 2, rank := b.rank, partner := a.rank })
  else
    ({ w := 1 / 2 * wab, cnt := 2, rank := a.rank, partner := b.rank },
     { w := 0, cnt := 0, rank := b.rank, partner := a.rank })

/-- The `while s < e` loop, handler.py 355-386.  The k-th random number drawn is `draw k`; since
one number is drawn per pair and `s` counts the pairs, it is `draw s`.  `none` would be an
`IndexError`. -/
def pairLoop (mn mx : K) (draw : Nat → K) (arr : List (Info K)) (s e : Nat) :
    Option (List (Info K)) :=
  if s < e then
    match arr[s]?, arr[e]? with
    | some a, some b =>
      if a.w < mn ∨ b.w > mx then
        pairLoop mn mx draw ((arr.set s (branch (draw s) a b).1).set e (branch (draw s) a b).2)
          (s + 1) (e - 1)
      else some arr
    | _, _ => none
  else some arr
termination_by e - s

/-- Everything rank 0 does: gather, sort, pair, undo the sorting (handler.py 344-388).  The result
is the array that `scatter` cuts into pieces of `nw` rows. -/
def pairBranchRoot (mn mx : K) (draw : Nat → K) (nw size : Nat) (ws : Nat → Walker K S) :
    Option (List (Info K)) :=
  let glob := gathered nw size ws
  let n := glob.length
  let sort := argsort n (fun i => ((glob[i]?).map (·.w)).getD 0)
  let isort := argsort n (fun i => sort.getD i 0)
  let sorted := sort.filterMap (fun i => glob[i]?)
  (pairLoop mn mx draw sorted 0 (n - 1)).map (fun out => isort.filterMap (fun i => out[i]?))

/-- The row of the scattered array for slot `iw` of rank `rank`. -/
def row (nw : Nat) (fin : List (Info K)) (rank iw : Nat) : Option (Info K) := fin[nw * rank + iw]?

/-- Sends of a rank, handler.py 396-403: slot `iw`, destination `walker[3]`, tag
`rank * nw + walker[3]`. -/
def pbSends (nw : Nat) (fin : List (Info K)) (rank : Nat) : List (Nat × Nat × Nat) :=
  (List.range nw).filterMap (fun iw =>
    match row nw fin rank iw with
    | some x => if x.cnt > 1 then some (iw, x.partner, rank * nw + x.partner) else none
    | none => none)

/-- Receives of a rank, handler.py 404-410: slot `iw`, source `walker[3]`, tag
`walker[3] * nw + rank`. -/
def pbRecvs (nw : Nat) (fin : List (Info K)) (rank : Nat) : List (Nat × Nat × Nat) :=
  (List.range nw).filterMap (fun iw =>
    match row nw fin rank iw with
    | some x => if x.cnt = 0 then some (iw, x.partner, x.partner * nw + rank) else none
    | none => none)

/-- The walkers at the time the messages are sent: a walker with count above one has got its new
weight (handler.py 399). -/
def pbMem (nw : Nat) (fin : List (Info K)) (ws : Nat → Walker K S) (rank slot : Nat) :
    Walker K S :=
  match row nw fin rank slot with
  | some x => if x.cnt > 1 then { ws (nw * rank + slot) with weight := x.w }
      else ws (nw * rank + slot)
  | none => ws (nw * rank + slot)

/-- The calls of a rank: all sends, then all receives (handler.py 396-410). -/
def pbProg (nw : Nat) (fin : List (Info K)) : Nat → List Mpi.Instr :=
  Mpi.sendsFirst (pbSends nw fin) (pbRecvs nw fin)

end Verif.PairBranch
