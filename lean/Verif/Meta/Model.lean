import Verif.Stats.Runs

/-!
# Metadata of output files

`serialise` (`pauxy/utils/misc.py` 64-135), `to_json` (`pauxy/utils/io.py` 44-48), `dump_metadata` (`pauxy/estimators/handler.py` 118-120) and `get_metadata`, `get_param`
(`pauxy/analysis/extraction.py` 118-131): the attributes of the driver object, and of the objects and dictionaries it holds, are written as JSON.
-/

namespace Verif.Meta

open Verif.Stats

mutual
/-- Values of attributes.  `npInt`, `npBool` are scalars of numpy that are no Python numbers; a scalar `numpy.float64` is a Python float and `numpy.complex128` a
Python complex number.  Of a list or tuple only the strings of its items are kept, of arrays with several dimensions nothing; `other` is anything that no
branch of `serialise` knows. -/
inductive Py where
  | int (z : ℤ)
  | float (x : ℝ)
  | bool (b : Bool)
  | str (s : String)
  | null
  | cplx (re im : ℝ)
  | npInt (z : ℤ)
  | npBool (b : Bool)
  | seq (items : List String)
  | arr (cplx : Bool) (re im : List ℝ)
  | grid
  | func (name : String)
  | sparse
  | h5 (filename : String)
  | other
  | obj (f : Fields)
  | dict (f : Fields)
/-- Attributes of an object or items of a dictionary, in order. -/
inductive Fields where
  | nil
  | cons (k : String) (v : Py) (rest : Fields)
end

mutual
/-- JSON values.  `nums` is a list of lists of numbers, `nest` a list that holds one; `tensor` is what arrays with several dimensions become. -/
inductive J where
  | null
  | num (x : ℝ)
  | bool (b : Bool)
  | str (s : String)
  | nums (l : List (List ℝ))
  | nest (l : List (List ℝ))
  | tensor
  | obj (f : JF)
inductive JF where
  | nil
  | cons (k : String) (v : J) (rest : JF)
end

/-- The first item as a string, for the key `walkers`, misc.py 100-101: `none` if the value cannot be iterated over or is empty.  Simplified: arrays
with several dimensions and files count as not iterable. -/
def first (show' : ℝ → String) : Py → Option String
  | .seq l => l.head?
  | .str s => s.toList.head?.map fun c => String.ofList [c]
  | .arr _ re _ => re.head?.map show'
  | _ => none

/-- One-dimensional arrays, misc.py 102-119: `none` if `v[0]` raises. -/
noncomputable def array (vb : Nat) (c : Bool) (re im : List ℝ) : Option (Option J) :=
  if vb = 3 then some (some (.nums (if c then [re, im] else [re])))
  else if re = [] then none
  else if vb = 2 then some (some (if c then .nest [re, im] else .nums [re]))
  else open Classical in
    if (1e-8 : ℝ) < Real.sqrt ((re.map (· ^ 2)).sum + if c then (im.map (· ^ 2)).sum else 0) then
      some (some (if c then .nest [re, im] else .nums [re]))
    else some none

/-- The branches on values that hold no others, misc.py 80-133: `none` if it raises, `some none` if nothing is recorded.  `show'` is `str` of a number,
`text` is `str` of any value. -/
noncomputable def leaf (show' : ℝ → String) (text : Py → String) (vb : Nat) (k : String) (v : Py) : Option (Option J) :=
  match v with
  | .sparse => some none
  | .func s => some (if vb = 1 then some (.str s) else none)
  | v =>
    if k = "estimates" ∨ k = "global_estimates" then some none
    else if k = "walkers" then (first show' v).map fun s => some (.str s)
    else match v with
      | .arr c re im => array vb c re im
      | .grid => some (if vb = 3 then some .tensor else none)
      | v =>
        if k = "store" then some (if vb = 1 then some (.str (text v)) else none)
        else match v with
          | .int z => some (some (.num z))
          | .float x => some (some (.num x))
          | .bool b => some (some (.bool b))
          | .str s => some (some (.str s))
          | .cplx re _ => some (some (.num re))
          | .null => some (some .null)
          | .h5 s => some (if vb = 1 then some (.str s) else none)
          | _ => some none

/-- A recorded value before the values recorded after it. -/
def JF.add (k : String) : Option J → JF → JF
  | none, l => l
  | some j, l => .cons k j l

mutual
/-- `serialise`, misc.py 72-135; the items of a dictionary are serialised with the default `verbose=0`. -/
noncomputable def serialise (show' : ℝ → String) (text : Py → String) : Nat → Fields → Option JF
  | _, .nil => some .nil
  | vb, .cons k v r => match entry show' text vb k v, serialise show' text vb r with
    | some j, some l => some (JF.add k j l)
    | _, _ => none
/-- What is recorded for one attribute. -/
noncomputable def entry (show' : ℝ → String) (text : Py → String) : Nat → String → Py → Option (Option J)
  | vb, _, .obj f => (serialise show' text vb f).map fun l => some (.obj l)
  | _, _, .dict f => (serialise show' text 0 f).map fun l => some (.obj l)
  | vb, k, v => leaf show' text vb k v
end

/-- The value of a key. -/
def Fields.find (k : String) : Fields → Option Py
  | .nil => none
  | .cons k' v r => if k' = k then some v else r.find k

/-- The value of a key. -/
def JF.find (k : String) : JF → Option J
  | .nil => none
  | .cons k' v r => if k' = k then some v else r.find k

mutual
/-- What `json.loads` returns, as the dictionaries of `Stats`.  Simplified: lists have no counterpart there (`set_info` reads none). -/
noncomputable def J.load : J → Json
  | .null => .null
  | .num x => .num x
  | .bool b => .bool b
  | .str s => .str s
  | .obj f => .obj f.load
  | _ => .null
noncomputable def JF.load : JF → String → Json
  | .nil, _ => .null
  | .cons k' v r, k => if k' = k then v.load else r.load k
end

/-- Metadata of a run as they are read by the analysis: `none` if the run raises when it writes them. -/
noncomputable def metadata (show' : ℝ → String) (text : Py → String) (vb : Nat) (run : Fields) : Option Json :=
  (serialise show' text vb run).map fun l => .obj l.load

end Verif.Meta
