import Verif.Step.Run
import Verif.FieldHistory.Model
import Mathlib.Analysis.SpecialFunctions.Arcosh

/-!
# Back-propagated estimates

Model of `BackPropagation` (`pauxy/estimators/back_propagation.py`) for walkers with one determinant, on top of the models of the
phaseless step (`Verif.Step`), of the weights (`Verif.Weights`), of the determinants (`Verif.Slater`) and of the field history
(`Verif.FieldHistory`).  Exact arithmetic; nan is `none`.
-/

namespace Verif.BackProp

open Matrix Verif.Step

variable {nx nb nu nd : Nat}

/-- What stays the same during a run: order of the Taylor expansion, time step, tables of the propagator, force bias, local energy,
trial, energy shift, QR routine, number of steps between reorthogonalisations in the back propagation. -/
structure Setup (nx nb nu nd : Nat) where
  n : Nat
  dt : ℝ
  t : Tables nx nb
  fb : Slater.GF nb nu nd → Fin nx → ℂ
  eloc : Slater.GF nb nu nd → ℂ
  psi : Slater.Wfn nb nu nd
  eshift : ℝ
  qr : Slater.QR nb
  nstblz : Nat

/-- A walker: orbitals, what the weight update reads and writes, field history (fields, factor of the weight and cosine of every
step since the last reset). -/
structure BW (nx nb nu nd : Nat) where
  s : Slater.Wk nb nu nd
  w : Weights.Wk
  hist : List ((Fin nx → ℂ) × ℂ × ℂ)

/-- The fields returned by `two_body_propagator` in a phaseless step (continuous.py 152-157, 250), which are recorded. -/
noncomputable def fields (R : Setup nx nb nu nd) (xi : Fin nx → ℝ) (s : Slater.Wk nb nu nd) : Fin nx → ℂ :=
  (twoBodyPropagator R.n R.dt R.t xi (R.fb (Slater.greensFunction R.psi s)) (kineticReal R.t.BH1 s.phi)).2.2.2

/-- One phaseless step with the hybrid weight (continuous.py 232-291), which records the fields and the two factors (lines 282-287,
stack.py 50-76: the cosine is stored in an array of floats), followed, if `o`, by `orthogonalise` (handler.py 176-181). -/
noncomputable def step (R : Setup nx nb nu nd) (o : Bool) (xi : Fin nx → ℝ) (v : BW nx nb nu nd) : BW nx nb nu nd :=
  let p := phaseless R.n R.dt R.t R.fb R.eloc R.psi xi v.s
  let u := Weights.updateHybrid R.dt R.eshift p.1 v.w
  let q : Slater.Wk nb nu nd := { p.2 with weight := u.1.weight }
  let s := if o then Slater.orthogonalise R.qr false q else q
  ⟨s, { u.1 with weight := s.weight }, v.hist ++ [(fields R xi v.s, u.2.1, ((u.2.2.re : ℝ) : ℂ))]⟩

/-- The steps of a window. -/
noncomputable def run (R : Setup nx nb nu nd) (l : List (Bool × (Fin nx → ℝ))) (v : BW nx nb nu nd) : BW nx nb nu nd :=
  l.foldl (fun v a => step R a.1 a.2 v) v

/-- One free step (continuous.py 187-200): nothing is recorded. -/
noncomputable def freeStep (R : Setup nx nb nu nd) (e : ℂ) (xi : Fin nx → ℝ) (v : BW nx nb nu nd) : BW nx nb nu nd :=
  { v with s := propagateFree R.n R.dt R.t R.psi e xi v.s }

/-- One phaseless step with the local-energy weight (continuous.py 293-317). -/
noncomputable def stepLocal (R : Setup nx nb nu nd) (xi : Fin nx → ℝ) (v : BW nx nb nu nd) : BW nx nb nu nd :=
  let p := phaseless R.n R.dt R.t R.fb R.eloc R.psi xi v.s
  let u := Weights.updateLocal R.dt R.eshift p.1 v.w
  ⟨p.2, u.1, v.hist ++ [(fields R xi v.s, u.2.1, ((u.2.2.re : ℝ) : ℂ))]⟩

/-- The trial after `back_propagate_generic` or `back_propagate_planewave` (back_propagation.py 151-157, generic.py 275-290,
planewave.py 166-178): matrices from the recorded fields, latest first. -/
noncomputable def bpOrbitals (R : Setup nx nb nu nd) (hist : List ((Fin nx → ℂ) × ℂ × ℂ)) : Slater.Wfn nb nu nd :=
  Slater.join
    (Slater.backPropagate R.qr R.nstblz (hist.map fun e => Slater.propMatrix (R.t.BH1 0) (R.t.vhs e.1 0)) (Slater.up R.psi))
    (Slater.backPropagate R.qr R.nstblz (hist.map fun e => Slater.propMatrix (R.t.BH1 1) (R.t.vhs e.1 1)) (Slater.dn R.psi))

/-- The Green's function, back_propagation.py 158-159. -/
noncomputable def bpG (R : Setup nx nb nu nd) (old : Slater.Wfn nb nu nd) (hist : List ((Fin nx → ℂ) × ℂ × ℂ)) :
    Fin 2 → Matrix (Fin nb) (Fin nb) ℂ :=
  ![(Slater.gab (Slater.up (bpOrbitals R hist)) (Slater.up old))ᵀ, (Slater.gab (Slater.dn (bpOrbitals R hist)) (Slater.dn old))ᵀ]

/-- `two_rdm`, back_propagation.py 169-176. -/
def twoRdm (G : Fin 2 → Matrix (Fin nb) (Fin nb) ℂ) (p r q s : Fin nb) : ℂ :=
  G 0 p r * G 0 q s - G 0 p s * G 0 q r + (G 1 p r * G 1 q s - G 1 p s * G 1 q r) + (G 0 p r * G 1 q s + G 1 p r * G 0 q s)

/-- `restore_weights`: absent, `"full"`, anything else. -/
inductive Restore where
  | no
  | part
  | full

open Classical in
/-- The weight of a walker, back_propagation.py 189-201, with `get_wfac` (stack.py 118-121).  `none`: nan, from a division by a
product of cosines that is zero (the weight of the walker is then zero too). -/
noncomputable def bpWeight (r : Restore) (v : BW nx nb nu nd) : Option ℂ :=
  let c := (v.hist.map fun e => e.2.2).prod
  let p := (v.hist.map fun e => e.2.1).prod
  match r with
  | .no => some v.w.weight
  | .part => some (v.w.weight * p)
  | .full => if c = 0 then none else some (v.w.weight * (p / c))

/-- One of the numbers summed over the walkers (back_propagation.py 203-226), for a quantity `E` computed from the Green's function;
every walker comes with `phi_old`. -/
noncomputable def total (R : Setup nx nb nu nd) (r : Restore) (E : (Fin 2 → Matrix (Fin nb) (Fin nb) ℂ) → ℂ) :
    List (Slater.Wfn nb nu nd × BW nx nb nu nd) → Option ℂ
  | [] => some 0
  | a :: l =>
    match bpWeight r a.2, total R r E l with
    | some w, some t => some (w * E (bpG R a.1 a.2.hist) + t)
    | _, _ => none

open Classical in
/-- `update_uhf` (back_propagation.py 144-148): what is added to the estimate `acc` of a quantity; nothing if the number of recorded
steps of the first walker is not in `splits`.  `none` inside: nan. -/
noncomputable def update (R : Setup nx nb nu nd) (nmax nsplit : Nat) (r : Restore)
    (E : (Fin 2 → Matrix (Fin nb) (Fin nb) ℂ) → ℂ) (ws : List (Slater.Wfn nb nu nd × BW nx nb nu nd)) (acc : Option ℂ) : Option ℂ :=
  match ws with
  | [] => acc
  | a :: l =>
    if a.2.hist.length ∈ FieldHistory.splits nmax nsplit then
      match acc, total R r E (a :: l) with
      | some x, some y => some (x + y)
      | _, _ => none
    else acc

/-! ## Hubbard model -/

/-- `auxf[int(xi.real), c]`, hubbard.py 590-593: Python's `int` rounds towards zero, negative indices count from the end.
`none`: IndexError. -/
noncomputable def auxEntry (γ : ℝ) (x : ℂ) (c : Fin 2) : Option ℝ :=
  let i : Int := if 0 ≤ x.re then ⌊x.re⌋ else ⌈x.re⌉
  if i = 0 ∨ i = -2 then some (Real.exp (if c = 0 then γ else -γ))
  else if i = 1 ∨ i = -1 then some (Real.exp (if c = 0 then -γ else γ))
  else none

/-- `bv_up` and `bv_down`, hubbard.py 592-593. -/
noncomputable def auxAll (γ : ℝ) (x : Fin nb → ℂ) (c : Fin 2) : Option (Fin nb → ℝ) :=
  if (∀ i, (auxEntry γ (x i) c).isSome) then some fun i => (auxEntry γ (x i) c).getD 0 else none

/-- `construct_propagator_matrix`, hubbard.py 589-595, one spin; this is the matrix which `back_propagate` (hubbard.py 662-666)
uses for every Hubbard system (back_propagation.py 122-126). -/
noncomputable def hubbardMatrix (dt U : ℝ) (BT2 : Fin 2 → Matrix (Fin nb) (Fin nb) ℂ) (x : Fin nb → ℂ) (c : Fin 2) :
    Option (Matrix (Fin nb) (Fin nb) ℂ) :=
  (auxAll (Real.arcosh (Real.exp (1 / 2 * dt * U))) x c).map fun b => BT2 c * (diagonal (fun i => (b i : ℂ)) * BT2 c)

end Verif.BackProp
