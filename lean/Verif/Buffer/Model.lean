import Mathlib.Algebra.Order.Floor.Ring
import Mathlib.Algebra.Field.Defs

/-!
# Exchange buffers: `pauxy/walkers/walker.py` 63-131, `pauxy/walkers/stack.py` 87-118,
`pauxy/utils/misc.py` 218-235

A buffer is a flat list of complex numbers.  Real and imaginary parts lie in an ordered field `K`
with a floor function (floats in the code).
-/

namespace Verif.Buffer

variable {K : Type}

/-- A complex number of the buffer (`numpy.complex128`). -/
structure Cx (K : Type) where
  re : K
  im : K

/-- A Python number with its dynamic type (`int`, `float` or `complex`; numpy's `float64` and
`complex128` are subclasses of the latter two). -/
inductive Scal (K : Type) where
  | int (z : Int)
  | flt (x : K)
  | cplx (z : Cx K)

/-- An element of a list attribute: an array (its shape and its elements in row order), a number,
or some other object. -/
inductive Item (K : Type) where
  | arr (shape : List Nat) (data : List (Cx K))
  | scal (s : Scal K)
  | other

/-- A buffered attribute: an array, a number, or a list.  Array elements are taken as complex
numbers whatever the dtype; `set_buffer` always leaves a complex array. -/
inductive Attr (K : Type) where
  | arr (shape : List Nat) (data : List (Cx K))
  | scal (s : Scal K)
  | list (items : List (Item K))

section
variable [Field K]

/-- Conversion to complex128 on assignment into the buffer (`buff[s:s+1] = data`). -/
def Scal.toCx : Scal K → Cx K
  | .int z => ⟨(z : K), 0⟩
  | .flt x => ⟨x, 0⟩
  | .cplx z => z

/-- What an item puts into the buffer (walker.py 78-84). -/
def Item.flat : Item K → List (Cx K)
  | .arr _ d => d
  | .scal s => [s.toCx]
  | .other => []

/-- Pieces an attribute writes one after another (walker.py 75-87). -/
def Attr.pieces : Attr K → List (List (Cx K))
  | .arr _ d => [d]
  | .scal s => [[s.toCx]]
  | .list l => l.filterMap (fun i => match i with
      | .arr _ d => some d
      | .scal s => some [s.toCx]
      | .other => none)

/-- The size an item is counted with (misc.py 230-234). -/
def Item.size : Item K → Nat
  | .arr _ d => d.length
  | .scal _ => 1
  | .other => 0

/-- The size an attribute is counted with in `get_numeric_names` (misc.py 221-234). -/
def Attr.size : Attr K → Nat
  | .arr _ d => d.length
  | .scal _ => 1
  | .list l => (l.map Item.size).sum

/-- `buff_size` of `get_numeric_names` (misc.py 218-235): computed once, when the object is made. -/
def buffSize (as : List (Attr K)) : Nat := (as.map Attr.size).sum

/-- The numpy assignment `buff[s:s+n] = data` with `n = len(data)`.  If the slice is cut short by
the end of the buffer, numpy raises an error (`none`), except that a single element is broadcast
into the empty slice, which writes nothing. -/
def writeAt (buff : List (Cx K)) (s : Nat) (data : List (Cx K)) : Option (List (Cx K)) :=
  if s + data.length ≤ buff.length then
    some (buff.take s ++ data ++ buff.drop (s + data.length))
  else if data.length = 1 then some buff
  else none

/-- The loop of `get_buffer` (walker.py 71-87; stack.py 88-98 without lists). -/
def getLoop (buff : List (Cx K)) (s : Nat) : List (List (Cx K)) → Option (List (Cx K))
  | [] => some buff
  | p :: ps => match writeAt buff s p with
    | none => none
    | some b => getLoop b (s + p.length) ps

/-- `get_buffer` of the attributes themselves: `numpy.zeros(self.buff_size)` filled by the loop. -/
def getAttrs (size : Nat) (as : List (Attr K)) : Option (List (Cx K)) :=
  getLoop (List.replicate size ⟨0, 0⟩) 0 (as.flatMap Attr.pieces)

variable [LinearOrder K] [FloorRing K]

/-- Python's `int(x)` for a float: truncation towards zero. -/
def truncInt (x : K) : Int := if 0 ≤ x then ⌊x⌋ else ⌈x⌉

/-- A received number is converted to the type the *receiver* has at that moment
(walker.py 120-125, stack.py 111-116). -/
def Scal.recv (old : Scal K) (z : Cx K) : Scal K :=
  match old with
  | .int _ => .int (truncInt z.re)
  | .flt _ => .flt z.re
  | .cplx _ => .cplx z

/-- Items of a list attribute in `set_buffer` (walker.py 111-118); a number becomes complex.
The second component is the new position in the buffer; `none` is an error (a slice that cannot be
reshaped, an index past the end). -/
def setItems (buff : List (Cx K)) (s : Nat) : List (Item K) → Option (List (Item K) × Nat)
  | [] => some ([], s)
  | .arr sh d :: r =>
    if ((buff.drop s).take d.length).length = d.length then
      match setItems buff (s + d.length) r with
      | some (r', s') => some (.arr sh ((buff.drop s).take d.length) :: r', s')
      | none => none
    else none
  | .scal _ :: r =>
    match buff[s]? with
    | some z => match setItems buff (s + 1) r with
      | some (r', s') => some (.scal (.cplx z) :: r', s')
      | none => none
    | none => none
  | .other :: r =>
    match setItems buff s r with
    | some (r', s') => some (.other :: r', s')
    | none => none

/-- The loop of `set_buffer` (walker.py 105-126, stack.py 102-118).  Shapes are the receiver's. -/
def setLoop (buff : List (Cx K)) (s : Nat) : List (Attr K) → Option (List (Attr K))
  | [] => some []
  | .arr sh d :: r =>
    if ((buff.drop s).take d.length).length = d.length then
      (setLoop buff (s + d.length) r).map (.arr sh ((buff.drop s).take d.length) :: ·)
    else none
  | .list l :: r =>
    match setItems buff s l with
    | some (l', s') => (setLoop buff s' r).map (.list l' :: ·)
    | none => none
  | .scal old :: r =>
    match buff[s]? with
    | some z => (setLoop buff (s + 1) r).map (.scal (old.recv z) :: ·)
    | none => none

/-- A walker as the exchange sees it: its buffered attributes in the order of `buff_names`, the
size `buff_size` computed at construction, and the attributes of its field history or propagator
stack, if it has one, with their size.  (A walker never has both: single determinant walkers have
`stack = None`, thermal walkers `field_configs = None`.) -/
structure Obj (K : Type) where
  attrs : List (Attr K)
  size : Nat
  sub : Option (List (Attr K) × Nat)

/-- `Walker.get_buffer`, walker.py 63-96. -/
def Obj.get (o : Obj K) : Option (List (Cx K)) :=
  match getAttrs o.size o.attrs with
  | none => none
  | some b => match o.sub with
    | none => some b
    | some (as, n) => (getAttrs n as).map (b ++ ·)

/-- `Walker.set_buffer`, walker.py 98-131. -/
def Obj.set (o : Obj K) (buff : List (Cx K)) : Option (Obj K) :=
  match setLoop buff 0 o.attrs with
  | none => none
  | some as => match o.sub with
    | none => some { o with attrs := as }
    | some (fs, n) => (setLoop (buff.drop o.size) 0 fs).map
        (fun fs' => { o with attrs := as, sub := some (fs', n) })

end

end Verif.Buffer
