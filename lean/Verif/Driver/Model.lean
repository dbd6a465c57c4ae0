import Mathlib.Analysis.Complex.Basic

/-!
# The drivers

Model of `AFQMC.run` (pauxy/qmc/afqmc.py 200-255) and `ThermalAFQMC.run` (pauxy/qmc/thermal_afqmc.py 190-232) as
seen by one rank.  The operations they call are arbitrary functions (a random walk is covered because they may
depend on the step and on the position of the walker in any way); what the drivers themselves do is modelled
exactly and recorded in a trace.
-/

namespace Verif.Driver

/-- What the drivers read and write of a walker; `data` is the rest. -/
structure Walker (D : Type) where
  weight : ℂ
  total : ℝ
  data : D

/-- The recorded actions.  `walked` stores the walkers as the propagation loop of the step leaves them. -/
inductive Ev (D : Type) where
  | ortho (s : Nat)
  | prop (s i : Nat) (shift : ℝ)
  | walked (s : Nat) (ws : List (Walker D))
  | pop (s : Nat)
  | update (s : Nat) (ws : List (Walker D))
  | row (s : Nat)
  | write (s : Nat)

/-- Options read by the driver (qmc/options.py 81-110; `write_freq`, walkers/handler.py 43 and 148-157;
`nsteps` is the period of the mixed estimator's output, estimators/mixed.py 252). -/
structure Cfg where
  nstblz : Nat
  npop : Nat
  nsteps : Nat
  neqlb : Nat
  hybrid : Bool
  writeFreq : Nat

/-- The operations called.  `pop` returns `none` when population control aborts (walkers/handler.py 236-241). -/
structure Ops (D E : Type) where
  ortho : Nat → List (Walker D) → List (Walker D)
  prop : Nat → Nat → ℝ → Walker D → Walker D
  pop : Nat → List (Walker D) → Option (List (Walker D))
  update : Nat → List (Walker D) → E → E
  print : Nat → E → E
  shift : Bool → E → ℝ

structure St (D E : Type) where
  ws : List (Walker D)
  est : E
  eshift : ℝ
  trace : List (Ev D)

open Classical in
/-- The cap, afqmc.py 235-236 and thermal_afqmc.py 220-221; `late` is `step > 1` respectively `ts > 0`. -/
noncomputable def cap {D : Type} (late : Bool) (w : Walker D) : Walker D :=
  if ‖w.weight‖ > w.total * (1 / 10) ∧ late = true then { w with weight := ((w.total * (1 / 10) : ℝ) : ℂ) } else w

open Classical in
/-- One pass of the walker loop, afqmc.py 231-236. -/
noncomputable def walk1 {D E : Type} (o : Ops D E) (s : Nat) (e : ℝ) (i : Nat) (w : Walker D) :
    Walker D × List (Ev D) :=
  if ‖w.weight‖ > 1 / 10 ^ 8 then (cap (decide (1 < s)) (o.prop s i e w), [.prop s i e])
  else (cap (decide (1 < s)) w, [])

/-- The walker loop; `i` is the position of the first walker of the list. -/
noncomputable def walkAll {D E : Type} (o : Ops D E) (s : Nat) (e : ℝ) :
    Nat → List (Walker D) → List (Walker D) × List (Ev D)
  | _, [] => ([], [])
  | i, w :: ws =>
    let r := walk1 o s e i w
    let rs := walkAll o s e (i + 1) ws
    (r.1 :: rs.1, r.2 ++ rs.2)

/-- The end of a step, afqmc.py 242-254: estimators, output, restart file and the next energy shift.
`eshift += x - eshift` is `eshift = x`. -/
noncomputable def finish {D E : Type} (c : Cfg) (o : Ops D E) (s : Nat) (ws : List (Walker D)) (st : St D E)
    (evs : List (Ev D)) : St D E :=
  let est := o.print s (o.update s ws st.est)
  { ws := ws
    est := est
    eshift := if s < c.neqlb then o.shift c.hybrid est else st.eshift + (o.shift true est - st.eshift)
    trace := st.trace ++ evs ++ [Ev.update s ws] ++ (if s % c.nsteps = 0 then [Ev.row s] else []) ++
      (if 0 < c.writeFreq ∧ s % c.writeFreq = 0 then [Ev.write s] else []) }

/-- One step, afqmc.py 223-254. -/
noncomputable def step {D E : Type} (c : Cfg) (o : Ops D E) (s : Nat) (st : St D E) : Option (St D E) :=
  let ws0 := if s % c.nstblz = 0 then o.ortho s st.ws else st.ws
  let e0 := if s % c.nstblz = 0 then [Ev.ortho s] else []
  let r := walkAll o s st.eshift 0 ws0
  let e1 := e0 ++ r.2 ++ [Ev.walked s r.1]
  if s % c.npop = 0 then
    match o.pop s r.1 with
    | none => none
    | some ws2 => some (finish c o s ws2 st (e1 ++ [Ev.pop s]))
  else some (finish c o s r.1 st e1)

/-- The loop over steps `1, …, n`. -/
noncomputable def steps {D E : Type} (c : Cfg) (o : Ops D E) (st : St D E) : Nat → Option (St D E)
  | 0 => some st
  | n + 1 => (steps c o st n).bind (step c o (n + 1))

/-- `AFQMC.run`; the first step divides by each period, so a zero period is an error (`none`).
The estimates of step 0 are part of the initial estimator state. -/
noncomputable def run {D E : Type} (c : Cfg) (o : Ops D E) (ws : List (Walker D)) (est : E) (n : Nat) :
    Option (St D E) :=
  if 0 < n ∧ (c.nstblz = 0 ∨ c.npop = 0 ∨ c.nsteps = 0) then none
  else steps c o { ws := ws, est := est, eshift := 0, trace := [] } n

/-- What `pop_control` does to the walkers of a rank before branching, walkers/handler.py 230-247: `total` is the sum
of the moduli of all weights. -/
noncomputable def rescale {D : Type} (target total : ℝ) (w : Walker D) : Walker D :=
  { w with weight := w.weight / ((total / target : ℝ) : ℂ), total := total }

/-! ## Thermal driver -/

/-- The recorded actions of the thermal driver: path, slice. -/
inductive TEv (D : Type) where
  | prop (p ts i : Nat)
  | walked (p ts : Nat) (ws : List (Walker D))
  | pop (p ts : Nat)
  | update (p : Nat) (ws : List (Walker D))
  | reset (p : Nat)

structure TOps (D E : Type) where
  prop : Nat → Nat → Nat → Walker D → Walker D
  pop : Nat → Nat → List (Walker D) → Option (List (Walker D))
  update : Nat → List (Walker D) → E → E
  /-- New contents of a walker after `Walkers.reset`. -/
  fresh : D → D

structure TSt (D E : Type) where
  ws : List (Walker D)
  est : E
  trace : List (TEv D)

/-- The walker loop of a slice, thermal_afqmc.py 218-221. -/
noncomputable def twalk {D E : Type} (o : TOps D E) (p ts : Nat) (ws : List (Walker D)) : List (Walker D) :=
  ws.mapIdx fun i w => cap (decide (0 < ts)) (o.prop p ts i w)

/-- One slice, thermal_afqmc.py 214-226. -/
noncomputable def slice {D E : Type} (npop : Nat) (o : TOps D E) (p ts : Nat) (st : TSt D E) : Option (TSt D E) :=
  let ws1 := twalk o p ts st.ws
  let tr := st.trace ++ (List.range st.ws.length).map (fun i => TEv.prop p ts i) ++ [TEv.walked p ts ws1]
  if ts % npop = 0 ∧ ts ≠ 0 then
    match o.pop p ts ws1 with
    | none => none
    | some ws2 => some { st with ws := ws2, trace := tr ++ [TEv.pop p ts] }
  else some { st with ws := ws1, trace := tr }

/-- The slices `0, …, m - 1` of a path. -/
noncomputable def slices {D E : Type} (npop : Nat) (o : TOps D E) (p : Nat) (st : TSt D E) : Nat → Option (TSt D E)
  | 0 => some st
  | m + 1 => (slices npop o p st m).bind (slice npop o p m)

/-- `Walkers.reset`, walkers/handler.py 424-430: the total weight is kept. -/
def resetW {D E : Type} (o : TOps D E) (w : Walker D) : Walker D := { w with weight := 1, data := o.fresh w.data }

/-- One path, thermal_afqmc.py 211-232. -/
noncomputable def path {D E : Type} (npop m : Nat) (o : TOps D E) (p : Nat) (st : TSt D E) : Option (TSt D E) :=
  (slices npop o p st m).map fun s =>
    { ws := s.ws.map (resetW o)
      est := o.update p s.ws s.est
      trace := s.trace ++ [TEv.update p s.ws, TEv.reset p] }

noncomputable def paths {D E : Type} (npop m : Nat) (o : TOps D E) (st : TSt D E) : Nat → Option (TSt D E)
  | 0 => some st
  | n + 1 => (paths npop m o st n).bind (path npop m o (n + 1))

/-- `ThermalAFQMC.run` with `n` paths of `m` slices. -/
noncomputable def trun {D E : Type} (npop m : Nat) (o : TOps D E) (ws : List (Walker D)) (est : E) (n : Nat) :
    Option (TSt D E) :=
  if 0 < n ∧ 0 < m ∧ npop = 0 then none else paths npop m o { ws := ws, est := est, trace := [] } n

end Verif.Driver
