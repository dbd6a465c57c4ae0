import Verif.Util.Decimal

/-!
# Restart files

Model of the restart part of `pauxy/walkers/handler.py`.
-/

namespace Verif.Restart

open Verif.Util

variable {V : Type}

/-- The part of a walker that is stored: `weight`, `phase`, `ot` and the flattened `phi`
(walkers/walker.py 25-33).  All numbers are complex, in particular a real weight is stored and
restored as the complex number with that value. -/
structure Walker (V : Type) where
  weight : V
  phase : V
  ot : V
  phi : List V
  deriving DecidableEq

/-- HDF5 file: dataset name to data. -/
abbrev File (V : Type) := List Char → Option (List V)

/-- Name of the dataset of walker `ix`: `'walker_%d' % ix` (handler.py 153, 442, 483). -/
def name (ix : Nat) : List Char := "walker_".toList ++ decimal ix

/-- `Walkers.get_write_buffer` (handler.py 431-434). -/
def toBuffer (w : Walker V) : List V := [w.weight, w.phase, w.ot] ++ w.phi

/-- `Walkers.set_walker_from_buffer` (handler.py 436-441): `none` if `reshape` fails because the
dataset does not have the walker's number of elements. -/
def fromBuffer (w : Walker V) (b : List V) : Option (Walker V) :=
  match b with
  | a :: p :: o :: phi => if phi.length = w.phi.length then some ⟨a, p, o, phi⟩ else none
  | _ => none

/-- Creation of the file (handler.py 147-154): opened with mode `'w'`, so previous contents are
lost, and one dataset per walker filled with zeros. -/
def create (z : V) (ntot size : Nat) : File V :=
  fun n => if n ∈ (List.range ntot).map name then some (List.replicate size z) else none

/-- `fh5[name][:] = buff` (handler.py 447): `KeyError` for a missing dataset, an error if the
sizes differ. -/
def writeOne (f : File V) (n : List Char) (b : List V) : Option (File V) :=
  match f n with
  | none => none
  | some old => if old.length = b.length then some (fun m => if m = n then some b else f m) else none

/-- Execution of the writes of all ranks in a given order; an operation is (rank, local index), its
dataset index is `i + nwalkers * rank` (handler.py 443-448). -/
def writeAll (nw : Nat) (ws : Nat → Nat → Walker V) : List (Nat × Nat) → File V → Option (File V)
  | [], f => some f
  | (r, i) :: ops, f => match writeOne f (name (i + nw * r)) (toBuffer (ws r i)) with
    | none => none
    | some f' => writeAll nw ws ops f'

/-- The writes of all ranks: every walker of every rank once (handler.py 445). -/
def writeOps (nr nw : Nat) : List (Nat × Nat) :=
  (List.range nr).flatMap (fun r => (List.range nw).map (fun i => (r, i)))

/-- One iteration of `Walkers.read_walkers` (handler.py 477-485): a missing dataset is reported and
the walker keeps its state, a dataset of wrong size raises an error (`none`). -/
def readOne (nw : Nat) (f : File V) (r i : Nat) (w : Walker V) : Option (Walker V) :=
  match f (name (i + nw * r)) with
  | none => some w
  | some b => fromBuffer w b

/-- Set-up of the walkers of one rank (handler.py 36-165) as far as restart files are concerned:
with `write_freq > 0` the output file is created first (lines 149-154), then the input file is read
(159-162).  The two files may be the same. -/
def setup (z : V) (writeFreq ntot size nw r i : Nat) (sameFile : Bool) (input : File V)
    (w : Walker V) : Option (Walker V) :=
  let input' := if 0 < writeFreq ∧ sameFile then create z ntot size else input
  readOne nw input' r i w

end Verif.Restart
