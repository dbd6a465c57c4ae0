import Mathlib.Logic.Function.Basic

/-!
# Message passing: the semantics of the exchange loops

Model of the point-to-point communication used in `pauxy/walkers/handler.py`
(`comb`, lines 290-329, and `pair_branch`, lines 390-412): each rank runs a fixed list of
`Isend`/`Recv` calls on the walkers it owns.

* `comm.Isend(buff, dest, tag)` is called on a fresh buffer (`get_buffer` builds a new array)
  and never blocks, so the message carries the value the walker has at that moment.
* `comm.Recv(buffer, source, tag)` blocks until a message of that source and tag is there, and
  `set_buffer` then overwrites the walker.
* MPI keeps the order of messages with equal source, destination and tag; all other
  messages may be delivered in any order.  Hence one queue per (source, destination, tag).

Simplifications: ranks, slots and tags are natural numbers without upper bound; the wait on the
send requests and the barriers are not modelled (they never block once every receive has
completed).
-/

namespace Verif.Mpi

/-- One communication call of a rank.  `slot` is the position of the walker in the rank's own
list (handler.py 297-304 for the send, 309-317 for the receive). -/
inductive Instr where
  | send (slot dst tag : Nat)
  | recv (slot src tag : Nat)
deriving DecidableEq, Repr

/-- Global configuration: the calls each rank still has to make, the walkers of each rank, and the
messages under way. -/
structure Cfg (V : Type) where
  prog : Nat → List Instr
  mem : Nat → Nat → V
  /-- queue of the channel (source, destination, tag), oldest message first -/
  net : Nat × Nat × Nat → List V

variable {V : Type}

/-- Rank `r` makes its next call.  `none`: nothing left to do, or a `Recv` with no matching
message (the rank is blocked). -/
def stepAt (s : Cfg V) (r : Nat) : Option (Cfg V) :=
  match s.prog r with
  | [] => none
  | .send slot dst tag :: rest =>
    some { prog := Function.update s.prog r rest
           mem := s.mem
           net := Function.update s.net (r, dst, tag) (s.net (r, dst, tag) ++ [s.mem r slot]) }
  | .recv slot src tag :: rest =>
    match s.net (src, r, tag) with
    | [] => none
    | v :: q =>
      some { prog := Function.update s.prog r rest
             mem := Function.update s.mem r (Function.update (s.mem r) slot v)
             net := Function.update s.net (src, r, tag) q }

/-- Run a schedule: the sequence of ranks that make their next call. -/
def exec (s : Cfg V) : List Nat → Option (Cfg V)
  | [] => some s
  | r :: rs => (stepAt s r).bind (exec · rs)

/-- All ranks have made all their calls. -/
def Done (s : Cfg V) : Prop := ∀ r, s.prog r = []

end Verif.Mpi
