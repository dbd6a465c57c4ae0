import Verif.Util.Decimal

/-!
# Output files

Model of the choice of the output file name (`pauxy/estimators/handler.py` lines 59-71) and of
`H5EstimatorHelper` (`pauxy/estimators/utils.py` lines 279-327), and of reading the datasets back
(`pauxy/analysis/extraction.py` lines 14-29).

Names are lists of characters.  An exception is `none`.
-/

namespace Verif.Output

open Verif.Util

/-! ## File names -/

/-- Python's `str.split('.')`. -/
def splitDot : List Char → List (List Char)
  | [] => [[]]
  | c :: cs =>
    if c = '.' then [] :: splitDot cs
    else
      match splitDot cs with
      | [] => [[c]]
      | p :: ps => (c :: p) :: ps

/-- Python's `int(s)` for a string of digits.  Simplified: signs, underscores and surrounding blanks,
which Python also accepts, are treated as errors. -/
def parseInt (s : List Char) : Option Nat :=
  if s = [] ∨ ¬ s.all (fun c => decide (48 ≤ c.toNat ∧ c.toNat < 58)) then none
  else some (s.foldl (fun n c => 10 * n + (c.toNat - 48)) 0)

/-- `basename + '.%s.h5' % index` (line 65). -/
def fileName (base : List Char) (index : Nat) : List Char :=
  base ++ '.' :: decimal index ++ ".h5".toList

/-- Lines 67-69: the next index, read back from the current file name. -/
def nextIndex (base : List Char) (index : Nat) : Option Nat :=
  match (splitDot (fileName base index))[1]? with
  | none => none
  | some p => (parseInt p).map (· + 1)

/-- The `while` loop of lines 66-69: `Search base ex ow i j` means that started at index `i` it ends
with index `j`.  It has no result if the loop does not end or an exception is raised. -/
inductive Search (base : List Char) (ex : List Char → Bool) (overwrite : Bool) : Nat → Nat → Prop
  | stop {i : Nat} (h : ¬ (ex (fileName base i) ∧ ¬ overwrite)) : Search base ex overwrite i i
  | next {i j k : Nat} (h : ex (fileName base i) ∧ ¬ overwrite) (hn : nextIndex base i = some j)
      (hr : Search base ex overwrite j k) : Search base ex overwrite i k

/-! ## Datasets -/

/-- The helper object and the datasets in its group, in order of creation. -/
structure Helper (α : Type*) where
  index : Nat
  nzero : Nat
  nav : Nat
  store : List (List Char × α)

/-- `__init__`, lines 301-307. -/
def mkHelper (α : Type*) (nav : Nat) : Helper α := ⟨0, 9, nav, []⟩

/-- The padded name of a dataset, lines 316-318. -/
def padded (nzero index : Nat) : List Char :=
  List.replicate (nzero - (decimal index).length) '0' ++ decimal index

/-- `push`, lines 309-321; creating a dataset that exists raises an error. -/
def push {α : Type*} (h : Helper α) (data : α) : Option (Helper α) :=
  if (h.store.map (·.1)).contains (padded h.nzero h.index) then none
  else some { h with store := h.store ++ [(padded h.nzero h.index, data)] }

/-- `increment`, line 324. -/
def increment {α : Type*} (h : Helper α) : Helper α := { h with index := (h.index + 1) / h.nav }

/-- Pushing and incrementing once per block. -/
def pushAll {α : Type*} : Helper α → List α → Option (Helper α)
  | h, [] => some h
  | h, d :: ds => (push h d).bind fun h' => pushAll (increment h') ds

/-- Character-wise comparison of names, as HDF5 orders the members of a group. -/
def nameLe : List Char → List Char → Bool
  | [], _ => true
  | _ :: _, [] => false
  | a :: as, b :: bs =>
    if a.toNat < b.toNat then true else if b.toNat < a.toNat then false else nameLe as bs

/-- `extract_data`, lines 16-18: the datasets in the order of `keys()`. -/
def extract {α : Type*} (h : Helper α) : List α :=
  (h.store.mergeSort fun a b => nameLe a.1 b.1).map (·.2)

end Verif.Output
