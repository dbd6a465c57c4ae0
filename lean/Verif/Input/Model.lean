import Mathlib.Data.Option.Basic
import Mathlib.Data.List.Basic

/-!
# Input options and nested dictionaries

Model of `get_input_value` (`pauxy/utils/io.py` lines 304-323) and of `merge_dicts` and
`get_from_dict` (`pauxy/utils/misc.py` lines 182-216).

A dictionary is the list of its items in insertion order.  Python's `None` is a value `null` of the
leaf type.  Simplified: `==` on leaves is equality of values; comparing numpy arrays (which raises)
is not modelled, and neither is sharing of sub-dictionaries between the arguments after a merge.
-/

namespace Verif.Input

/-! ## Option lookup -/

/-- `inputs.get(key, None)` for a flat dictionary whose values may be `None` (`none`). -/
def get {α : Type*} : List (String × Option α) → String → Option α
  | [], _ => none
  | (k, v) :: d, key => if k = key then v else get d key

/-- The loop over aliases, io.py 311-316: `val` keeps the value of the last alias looked at. -/
def aliasLoop {α : Type*} (inputs : List (String × Option α)) : List String → Option α → Option α
  | [], val => val
  | a :: as, _ =>
    match get inputs a with
    | some v => some v
    | none => aliasLoop inputs as none

/-- `get_input_value`, io.py 304-323. -/
def getInputValue {α : Type*} (inputs : List (String × Option α)) (key : String) (default : α)
    (alts : Option (List String)) : α :=
  match get inputs key with
  | some v => v
  | none =>
    let val := match alts with
      | some as => aliasLoop inputs as none
      | none => none
    match val with
    | some v => v
    | none => default

/-! ## Nested dictionaries -/

mutual
/-- A value: a leaf or a dictionary. -/
inductive Val (α : Type) where
  | leaf (a : α)
  | node (d : Dict α)
/-- The items of a dictionary. -/
inductive Dict (α : Type) where
  | nil
  | cons (k : String) (v : Val α) (d : Dict α)
end

variable {α : Type}

/-- `d[k]`, `none` if the key is missing. -/
def Dict.get : Dict α → String → Option (Val α)
  | .nil, _ => none
  | .cons k v d, key => if k = key then some v else Dict.get d key

/-- `d[k] = v`: replaces the value of an existing key, else appends. -/
def Dict.set : Dict α → String → Val α → Dict α
  | .nil, key, x => .cons key x .nil
  | .cons k v d, key, x => if k = key then .cons k x d else .cons k v (Dict.set d key x)

mutual
/-- `merge_dicts`, misc.py 182-194; `none` is the exception. -/
def mergeDicts [DecidableEq α] (a : Dict α) : Dict α → Option (Dict α)
  | .nil => some a
  | .cons k v b =>
    match a.get k with
    | some x => (mergeVals x v).bind fun y => mergeDicts (a.set k y) b
    | none => mergeDicts (a.set k v) b
/-- The comparison of two values under the same key (lines 186-192). -/
def mergeVals [DecidableEq α] (x : Val α) : Val α → Option (Val α)
  | .node db =>
    match x with
    | .node da => (mergeDicts da db).map .node
    | .leaf _ => none
  | .leaf v =>
    match x with
    | .leaf u => if u = v then some (.leaf u) else none
    | .node _ => none
end

/-- `get_from_dict`, misc.py 196-216: `reduce(dict.get, k, d)`, where `dict.get` on anything but a
dictionary raises a `TypeError`, caught. -/
def getFromDict (null : α) : Val α → List String → Val α
  | v, [] => v
  | .leaf _, _ :: _ => .leaf null
  | .node d, k :: ks => getFromDict null ((d.get k).getD (.leaf null)) ks

end Verif.Input
