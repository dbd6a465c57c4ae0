import Mathlib.Algebra.Field.Defs
import Mathlib.Algebra.Order.Group.Unbundled.Abs
import Mathlib.Algebra.Order.Ring.Defs
import Mathlib.Data.List.Range
import Verif.Mpi.Exchange

/-!
# Population control by rescaling and comb: `pauxy/walkers/handler.py` 225-338

Weights are elements of an ordered field instead of floats.
-/

namespace Verif.Comb

variable {K : Type} [Field K] [LinearOrder K]

/-! ## `Walkers.pop_control`, handler.py 225-254 -/

/-- The attributes of a walker that population control reads or writes; `state` stands for all the
rest (wavefunction, overlap, …). -/
structure Walker (K S : Type) where
  weight : K
  unscaledWeight : K
  totalWeight : K
  oldTotalWeight : K
  state : S

variable {S : Type}

/-- `sum(global_weights)` after `Allgather` of `[abs(w.weight) for w in self.walkers]`
(handler.py 230-233).  The outer list runs over ranks. -/
def totalWeight (ranks : List (List (Walker K S))) : K :=
  ((ranks.flatten).map (fun w => |w.weight|)).sum

/-- What `pop_control` does to one walker (`set_total_weight`, handler.py 243 and 418-421, and the
loop 245-247). -/
def rescaleWalker (total scale : K) (w : Walker K S) : Walker K S :=
  { w with
    totalWeight := total
    oldTotalWeight := total
    unscaledWeight := w.weight
    weight := w.weight / scale }

/-- `pop_control` up to the choice of the branching method (handler.py 225-247).  `none` is
`sys.exit()` (line 242).  The threshold `1e-8` is the parameter `tiny`.  Not modelled: the optional
`update_log_ovlp` (line 229). -/
def popControlRescale (tiny target : K) (ranks : List (List (Walker K S))) :
    Option (List (List (Walker K S))) :=
  let total := totalWeight ranks
  let scale := total / target
  if total < tiny then none
  else some (ranks.map (fun ws => ws.map (rescaleWalker total scale)))

/-- The early return of handler.py 226-227 for a population of one walker. -/
def popControl (tiny target : K) (ntot : Nat) (ranks : List (List (Walker K S))) :
    Option (List (List (Walker K S))) :=
  if ntot = 1 then some ranks else popControlRescale tiny target ranks

/-! ## `Walkers.comb`: selection, handler.py 266-287 -/

/-- `numpy.cumsum(weights)` (handler.py 275), started at `acc`. -/
def cumsumFrom (acc : K) : List K → List K
  | [] => []
  | w :: ws => (acc + w) :: cumsumFrom (acc + w) ws

/-- The teeth of the comb, handler.py 277-278. -/
def teeth (total : K) (target : Nat) (r : K) : List K :=
  (List.range target).map (fun i : Nat => ((i : K) + r) * (total / (target : K)))

/-- The `while` loop, handler.py 281-286.  `none` is the `IndexError` of `cprobs[iw]`. -/
def combLoop (comb cprobs : List K) (ic iw : Nat) (parent : List Nat) : Option (List Nat) :=
  if hic : ic < comb.length then
    match hc : cprobs[iw]? with
    | none => none
    | some c =>
      if comb[ic] < c then combLoop comb cprobs (ic + 1) iw (parent.modify iw (· + 1))
      else combLoop comb cprobs ic (iw + 1) parent
  else some parent
termination_by (comb.length - ic) + (cprobs.length - iw)
decreasing_by
  · omega
  · have := (List.getElem?_eq_some_iff.1 hc).1
    omega

/-- The whole selection on rank 0: handler.py 267, 273-286. -/
def combSelect (weights : List K) (target : Nat) (r : K) : Option (List Nat) :=
  combLoop (teeth weights.sum target r) (cumsumFrom 0 weights) 0 0
    (List.replicate weights.length 0)

/-! ## `Walkers.comb`: exchange, handler.py 294-338 -/

/-- `numpy.where(parent_ix == 0)[0]`, handler.py 296. -/
def kill (parent : List Nat) : List Nat :=
  (List.range parent.length).filter (fun i => parent.getD i 0 = 0)

/-- `numpy.where(parent_ix > 1)[0]`, handler.py 297. -/
def clone (parent : List Nat) : List Nat :=
  (List.range parent.length).filter (fun i => parent.getD i 0 > 1)

/-- `enumerate(zip(clone, kill))`, handler.py 302 and 317: entries `((c, k), i)`. -/
def pairs (parent : List Nat) : List ((Nat × Nat) × Nat) :=
  ((clone parent).zip (kill parent)).zipIdx

/-- Sends posted by a rank, handler.py 302-314: slot `c % nw`, destination `k // nw`, tag `i`. -/
def combSends (nw : Nat) (parent : List Nat) (rank : Nat) : List (Nat × Nat × Nat) :=
  ((pairs parent).filter (fun x => x.1.1 / nw = rank)).map
    (fun x => (x.1.1 % nw, x.1.2 / nw, x.2))

/-- Receives of a rank, handler.py 317-329: slot `k % nw`, source `c // nw`, tag `i`. -/
def combRecvs (nw : Nat) (parent : List Nat) (rank : Nat) : List (Nat × Nat × Nat) :=
  ((pairs parent).filter (fun x => x.1.2 / nw = rank)).map
    (fun x => (x.1.2 % nw, x.1.1 / nw, x.2))

/-- The calls rank `rank` makes during the exchange: all sends, then all receives. -/
def combProg (nw : Nat) (parent : List Nat) : Nat → List Mpi.Instr :=
  Mpi.sendsFirst (combSends nw parent) (combRecvs nw parent)

/-- `for w in self.walkers: w.weight = 1.0`, handler.py 337-338. -/
def combResetWeights (ws : List (Walker K S)) : List (Walker K S) :=
  ws.map (fun w => { w with weight := 1 })

end Verif.Comb
