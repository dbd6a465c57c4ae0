import Verif.Slater.Props
import Mathlib.LinearAlgebra.Matrix.SchurComplement

/-!
# Imaginary-time Green's functions

Model of `ITCF` (`pauxy/estimators/itcf.py`) for walkers with one determinant (`uhf` routines) and `back_propagate_generic`
(`pauxy/propagation/generic.py` 253-290).  Exact complex arithmetic; LAPACK's QR is the parameter `qr`; a walker gives the list of
its propagators, latest last, both for `get_block` and for `get`, with one propagator per slice of the stack.
-/

namespace Verif.Itcf

open Matrix
open Verif.Slater (QR gab linReortho)

variable {nb : Nat} {nocc : Fin 2 → Nat}

abbrev Mat (nb : Nat) := Matrix (Fin nb) (Fin nb) ℂ

/-- Orbitals of both spins. -/
abbrev Orbs (nb : Nat) (nocc : Fin 2 → Nat) := ∀ s, Matrix (Fin nb) (Fin (nocc s)) ℂ

/-- `back_propagate_generic` with `store=True`, generic.py 275-290: the orbitals after every iteration, for propagators in the order
of the loop. -/
noncomputable def backStore (qr : QR nb) (nstblz : Nat) : Nat → List (Fin 2 → Mat nb) → Orbs nb nocc → List (Orbs nb nocc)
  | _, [], _ => []
  | i, B :: l, φ =>
    let φ1 : Orbs nb nocc := fun s => (B s)ᴴ * φ s
    let φ2 : Orbs nb nocc := fun s => if i ≠ 0 ∧ i % nstblz = 0 then (linReortho qr (φ1 s)).1 else φ1 s
    φ2 :: backStore qr nstblz (i + 1) l φ2

/-- `l[i]` of python. -/
def pyGet {α : Type} (l : List α) (i : ℤ) : Option α :=
  if 0 ≤ i then l[i.toNat]? else if -(l.length : ℤ) ≤ i then l[(l.length + i).toNat]? else none

/-- `initial_greens_function_uhf`, itcf.py 332-336: the greater and the lesser function at equal times. -/
noncomputable def initialG (A B : Orbs nb nocc) : (Fin 2 → Mat nb) × (Fin 2 → Mat nb) :=
  let gr := fun s => 1 - gab (A s) (B s)
  (gr, fun s => 1 - gr s)

/-- What the loop of `calculate_spgf_stable` carries. -/
structure St (nb : Nat) (nocc : Fin 2 → Nat) where
  gr : Fin 2 → Mat nb
  ls : Fin 2 → Mat nb
  grnn : Fin 2 → Mat nb
  lsnn : Fin 2 → Mat nb
  right : Orbs nb nocc

/-- Two places of the code that decide the result: the position of the stored left orbitals counted from the end (itcf.py 292), and
the spin whose lesser function is multiplied for the down spin (itcf.py 494). -/
structure Places where
  back : Nat
  src : Fin 2

/-- The code as it is. -/
def code : Places := ⟨1, 0⟩

/-- The places that give the Green's functions. -/
def right : Places := ⟨2, 1⟩

/-- `increment_tau_uhf_stable`, itcf.py 491-495; the second assignment of `Gls` reads what the first has written. -/
noncomputable def incrementStable (p : Places) (st : St nb nocc) (B : Fin 2 → Mat nb) : (Fin 2 → Mat nb) × (Fin 2 → Mat nb) :=
  let gr := fun s => (B s * st.grnn s) * st.gr s
  let ls0 := st.ls 0 * (st.lsnn 0 * (B 0)⁻¹)
  let ls1 := (if p.src = 0 then ls0 else st.ls 1) * (st.lsnn 1 * (B 1)⁻¹)
  (gr, ![ls0, ls1])

/-- `increment_tau_uhf_unstable`, itcf.py 462-466. -/
noncomputable def incrementUnstable (g : (Fin 2 → Mat nb) × (Fin 2 → Mat nb)) (B : Fin 2 → Mat nb) :
    (Fin 2 → Mat nb) × (Fin 2 → Mat nb) :=
  (fun s => B s * g.1 s, fun s => g.2 s * (B s)⁻¹)

/-- The state before the loop, itcf.py 252-270: `phi_left` is the last of the stored orbitals, or the trial if there are none. -/
noncomputable def start (qr : QR nb) (nstblz : Nat) (psi right : Orbs nb nocc) (Bs : List (Fin 2 → Mat nb)) : St nb nocc :=
  let left := (backStore qr nstblz 0 Bs.reverse psi).getLastD psi
  let g := initialG left right
  ⟨fun _ => 1, fun _ => 1, g.1, g.2, right⟩

/-- One iteration, itcf.py 278-299. -/
noncomputable def iter (p : Places) (qr : QR nb) (nstblz : Nat) (psi : Orbs nb nocc) (Bs : List (Fin 2 → Mat nb)) (ic : Nat)
    (st : St nb nocc) : Option (St nb nocc) :=
  match Bs[ic]? with
  | none => none
  | some B =>
    let Ls := backStore qr nstblz 0 Bs.reverse psi
    match pyGet Ls ((Ls.length : ℤ) - ic - p.back) with
    | none => none
    | some L =>
      let g := incrementStable p st B
      let r1 : Orbs nb nocc := fun s => B s * st.right s
      let r2 : Orbs nb nocc := fun s => if ic ≠ 0 ∧ ic % nstblz = 0 then (linReortho qr (r1 s)).1 else r1 s
      let e := initialG L r2
      some ⟨g.1, g.2, e.1, e.2, r2⟩

/-- The state after `n` iterations. -/
noncomputable def stateAt (p : Places) (qr : QR nb) (nstblz : Nat) (psi rt : Orbs nb nocc) (Bs : List (Fin 2 → Mat nb)) :
    Nat → Option (St nb nocc)
  | 0 => some (start qr nstblz psi rt Bs)
  | n + 1 => (stateAt p qr nstblz psi rt Bs n).bind (iter p qr nstblz psi Bs n)

/-- What `calculate_spgf_stable` (itcf.py 227-303) adds, with the weight, at time `n` for one walker: the greater and the lesser
functions of both spins. -/
noncomputable def stable (p : Places) (qr : QR nb) (nstblz : Nat) (psi rt : Orbs nb nocc) (Bs : List (Fin 2 → Mat nb)) (n : Nat) :
    Option ((Fin 2 → Mat nb) × (Fin 2 → Mat nb)) :=
  (stateAt p qr nstblz psi rt Bs n).map fun st => if n = 0 then (st.grnn, st.lsnn) else (st.gr, st.ls)

/-- The same for `calculate_spgf_unstable` (itcf.py 171-225); the loop reads the undefined name `it` (line 219). -/
noncomputable def unstable (qr : QR nb) (nstblz : Nat) (psi rt : Orbs nb nocc) (Bs : List (Fin 2 → Mat nb)) :
    Nat → Option ((Fin 2 → Mat nb) × (Fin 2 → Mat nb))
  | 0 => some (initialG ((backStore qr nstblz 0 Bs.reverse psi).getLastD psi) rt)
  | _ + 1 => none

/-- The same with the name replaced by the loop variable. -/
noncomputable def unstableRepaired (qr : QR nb) (nstblz : Nat) (psi rt : Orbs nb nocc) (Bs : List (Fin 2 → Mat nb)) :
    Nat → Option ((Fin 2 → Mat nb) × (Fin 2 → Mat nb))
  | 0 => some (initialG ((backStore qr nstblz 0 Bs.reverse psi).getLastD psi) rt)
  | n + 1 => match unstableRepaired qr nstblz psi rt Bs n, Bs[n]? with
    | some g, some B => some (incrementUnstable g B)
    | _, _ => none

/-! ## The average over walkers -/

/-- What a walker gives: weight, the two factors kept for restoring it, the function at one time. -/
structure Sample (nb : Nat) where
  weight : ℂ
  wfac : ℂ × ℂ
  G : Mat nb

/-- `wfac`, itcf.py 273-276. -/
noncomputable def wfac (restore : Bool) (x : Sample nb) : ℂ := if restore then x.weight * x.wfac.1 / x.wfac.2 else x.weight

/-- One entry of the file: `accumulate_uhf` (itcf.py 370-389) on every process, `Reduce` and the division of `print_step`
(itcf.py 536-546). -/
noncomputable def estimate (restore : Bool) (ranks : List (List (Sample nb))) (i j : Fin nb) : ℂ :=
  let num := fun l : List (Sample nb) => l.foldl (fun a x => a + wfac restore x * ((x.G i j).re : ℂ)) 0
  let den := fun l : List (Sample nb) => l.foldl (fun a x => a + wfac restore x) 0
  (ranks.map num).sum / (ranks.map den).sum

/-! ## Specification -/

/-- The propagator from the start to time `n`. -/
noncomputable def U (Bs : List (Fin 2 → Mat nb)) (n : Nat) (s : Fin 2) : Mat nb := ((Bs.take n).map (· s)).reverse.prod

/-- The propagator from time `n` to the end. -/
noncomputable def V (Bs : List (Fin 2 → Mat nb)) (n : Nat) (s : Fin 2) : Mat nb := ((Bs.drop n).map (· s)).reverse.prod

/-- The determinant with one more electron, in orbital `i`. -/
def adjoin {k : Nat} (A : Matrix (Fin nb) (Fin k) ℂ) (i : Fin nb) : Matrix (Fin nb) (Fin k ⊕ Unit) ℂ :=
  Matrix.of fun p c => Sum.elim (A p) (fun _ => if p = i then 1 else 0) c

/-- Overlap of two determinants of any number of electrons. -/
noncomputable def ovl {c : Type} [Fintype c] [DecidableEq c] (A B : Matrix (Fin nb) c ℂ) : ℂ := (Aᴴ * B).det

/-- `⟨ψ| V(n) c_i U(n) c†_j |φ⟩ / ⟨ψ| V(0) |φ⟩`: an electron is added at the start and removed at time `n`. -/
noncomputable def greater {k : Nat} (V U V0 : Mat nb) (psi phi : Matrix (Fin nb) (Fin k) ℂ) (i j : Fin nb) : ℂ :=
  ovl (adjoin (Vᴴ * psi) i) (U * adjoin phi j) / ovl (V0ᴴ * psi) phi

/-- `⟨ψ| V(n) c†_j U(n) c_i |φ⟩ / ⟨ψ| V(0) |φ⟩`: an electron is removed at the start, as the sum over the orbitals it may leave, and
added at time `n`. -/
noncomputable def lesser {k : Nat} (V U V0 : Mat nb) (psi phi : Matrix (Fin nb) (Fin (k + 1)) ℂ) (i j : Fin nb) : ℂ :=
  (∑ c : Fin (k + 1), ∑ d : Fin (k + 1), (-1) ^ (c + d : ℕ) * phi i c * star ((Vᴴ * psi) j d) *
    ovl ((Vᴴ * psi).submatrix id d.succAbove) (U * phi.submatrix id c.succAbove)) / ovl (V0ᴴ * psi) phi

end Verif.Itcf
