import Mathlib.Data.Matrix.Mul
import Mathlib.Data.Matrix.Diagonal

/-!
# Propagator stack

Model of `PropagatorStack` in `pauxy/walkers/stack.py` (the low-rank update is in `Verif.LowRank`) and of
`update_stack` in `pauxy/utils/misc.py`.
-/

namespace Verif.Stack

/-! ## `update_stack` -/

/-- Outcome of a Python loop after some number of iterations. -/
inductive Out (α : Type) where
  | running
  | error
  | done (a : α)

/-- `while (num_slices//lower_bound)*lower_bound < num_slices: lower_bound -= 1`
(misc.py 146-147), at most `fuel` tests of the condition; division by zero is an error. -/
def lowerLoop (n : Nat) : Nat → Nat → Out Nat
  | 0, _ => .running
  | f + 1, b =>
    if b = 0 then .error
    else if n / b * b < n then lowerLoop n f (b - 1) else .done b

/-- `while (num_slices//upper_bound)*upper_bound < num_slices: upper_bound += 1`
(misc.py 148-149). -/
def upperLoop (n : Nat) : Nat → Nat → Out Nat
  | 0, _ => .running
  | f + 1, b =>
    if b = 0 then .error
    else if n / b * b < n then upperLoop n f (b + 1) else .done b

/-- `update_stack`, misc.py 142-159, with `fuel` loop tests for each loop. The differences are
Python integers and may be negative. -/
def updateStack (fuel s n : Nat) : Out Nat :=
  match lowerLoop n fuel (min s n) with
  | .running => .running
  | .error => .error
  | .done lo => match upperLoop n fuel (min s n) with
    | .running => .running
    | .error => .error
    | .done hi => if (s : Int) - lo ≤ (hi : Int) - s then .done lo else .done hi

/-! ## The stack -/

variable {m : Type} [Fintype m] [DecidableEq m] {R : Type} [CommRing R]

/-- `PropagatorStack` for one spin (the two spin components are updated by the same statements and
never mix); stack.py 131-172. `left` and `right` are only used by the full-rank update. -/
structure St (m R : Type) where
  stackSize : Nat
  nslices : Nat
  nbins : Nat
  stack : List (Matrix m m R)
  left : List (Matrix m m R)
  right : List (Matrix m m R)
  timeSlice : Nat
  block : Nat
  counter : Nat

/-- `reset`, stack.py 252-269: the counter is not reset. -/
def St.reset (s : St m R) : St m R :=
  { s with
    timeSlice := 0
    block := 0
    stack := List.replicate s.nbins 1
    left := List.replicate s.nbins 1
    right := List.replicate s.nbins 1 }

/-- The object before `reset` is called in `__init__` (stack.py 131-192). -/
def blank (stackSize nslices nbins : Nat) : St m R :=
  { stackSize := stackSize, nslices := nslices, nbins := nbins,
    stack := [], left := [], right := [], timeSlice := 0, block := 0, counter := 0 }

/-- `__init__`, stack.py 131-189. `none`: division by zero, or the assertion that the stack size
divides the number of slices. -/
def St.make (stackSize nslices : Nat) : Option (St m R) :=
  if stackSize = 0 then none
  else if nslices / stackSize * stackSize < nslices then none
  else some (St.reset (blank stackSize nslices (nslices / stackSize)))

/-- The product of two matrices the code treats as diagonal when `diagonal_trial` is set
(`numpy.diag(numpy.multiply(A.diagonal(), B.diagonal()))`), otherwise `A.dot(B)`. -/
def dmul (diag : Bool) (A B : Matrix m m R) : Matrix m m R :=
  if diag then Matrix.diagonal (fun i => A i i * B i i) else A * B

/-- The product of a matrix treated as diagonal and a general one
(`einsum('ii,ij->ij', A, B)`), otherwise `A.dot(B)`. -/
def rmul (diag : Bool) (A B : Matrix m m R) : Matrix m m R :=
  if diag then Matrix.of (fun i j => A i i * B i j) else A * B

/-- One iteration of the loop of `set_all` (stack.py 230-250). -/
def St.setOne (diag : Bool) (BT : Matrix m m R) (s : St m R) (i : Nat) : St m R :=
  let ix := i / s.stackSize
  let l := dmul diag BT (s.left.getD ix 0)
  { s with left := s.left.set ix l, stack := s.stack.set ix l }

/-- `set_all`, stack.py 227-250 (without the low-rank part). -/
def St.setAll (diag : Bool) (BT : Matrix m m R) (s : St m R) : St m R :=
  (List.range s.nslices).foldl (St.setOne diag BT) s

/-- `update`, stack.py 287-297. `none`: index error. -/
def St.update (s : St m R) (B : Matrix m m R) : Option (St m R) :=
  match s.stack[s.block]? with
  | none => none
  | some cur =>
    let cur := if s.counter = 0 then 1 else cur
    some { s with
      stack := s.stack.set s.block (B * cur)
      timeSlice := s.timeSlice + 1
      block := (s.timeSlice + 1) / s.stackSize
      counter := (s.counter + 1) % s.stackSize }

/-- `update_full_rank`, stack.py 299-324. -/
def St.updateFull (diag : Bool) (BTinv : Matrix m m R) (s : St m R) (B : Matrix m m R) :
    Option (St m R) :=
  match s.right[s.block]?, s.left[s.block]? with
  | some r, some l =>
    let r := if s.counter = 0 then 1 else r
    let l := dmul diag l BTinv
    let r := B * r
    some { s with
      left := s.left.set s.block l
      right := s.right.set s.block r
      stack := s.stack.set s.block (rmul diag l r)
      timeSlice := s.timeSlice + 1
      block := (s.timeSlice + 1) / s.stackSize
      counter := (s.counter + 1) % s.stackSize }
  | _, _ => none

/-- A sequence of updates. -/
def St.updates (s : St m R) : List (Matrix m m R) → Option (St m R)
  | [] => some s
  | B :: Bs => match s.update B with
    | none => none
    | some s' => s'.updates Bs

/-- A sequence of full-rank updates. -/
def St.updatesFull (diag : Bool) (BTinv : Matrix m m R) (s : St m R) :
    List (Matrix m m R) → Option (St m R)
  | [] => some s
  | B :: Bs => match s.updateFull diag BTinv B with
    | none => none
    | some s' => s'.updatesFull diag BTinv Bs

end Verif.Stack
