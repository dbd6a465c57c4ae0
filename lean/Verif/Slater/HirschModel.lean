import Verif.Slater.Model
import Mathlib.Analysis.SpecialFunctions.Arcosh

/-!
# Discrete Hubbard propagation of Slater determinants

Model of the class `Hirsch` in `pauxy/propagation/hubbard.py` for single-determinant UHF-type trial
wavefunctions.  Random numbers are arguments.  Spins are `0, 1`, fields are `0, 1`.
-/

namespace Verif.Hirsch

open Matrix Slater

variable {nb nu nd : Nat}

/-- The data of the propagator that the propagation uses. -/
structure Par (nb : Nat) where
  auxf : Fin 2 → Fin 2 → ℂ
  wfac : Fin 2 → ℂ
  bt2 : Fin 2 → Matrix (Fin nb) (Fin nb) ℂ
  dt : ℝ

/-- `self.delta` (line 80). -/
def Par.delta (p : Par nb) (xi s : Fin 2) : ℂ := p.auxf xi s - 1

/-- `auxf` of the spin decomposition for a given `gamma`, before the factor (lines 76-77). -/
noncomputable def spinAux (γ : ℝ) (xi s : Fin 2) : ℂ :=
  if xi = s then Complex.exp γ else Complex.exp (-γ)

/-- `auxf` of the charge decomposition for a given `gamma`, before the factor (lines 69-70). -/
noncomputable def chargeAux (γ : ℂ) (xi _s : Fin 2) : ℂ :=
  if xi = 0 then Complex.exp γ else Complex.exp (-γ)

/-- `aux_wfac` of the charge decomposition (lines 72-73). -/
noncomputable def chargeWfac (dt U : ℝ) (γ : ℂ) (xi : Fin 2) : ℂ :=
  Complex.exp (dt * U / 2) * (if xi = 0 then Complex.exp (-γ) else Complex.exp γ)

/-- `numpy.arccosh(numpy.exp(0.5*dt*U))` (line 75); for `U < 0` numpy returns nan. -/
noncomputable def spinGamma (dt U : ℝ) : ℝ := Real.arcosh (Real.exp (dt * U / 2))

/-- Propagator of the spin decomposition, lines 74-80. -/
noncomputable def spinPar (dt U : ℝ) (bt2 : Fin 2 → Matrix (Fin nb) (Fin nb) ℂ) : Par nb :=
  ⟨fun xi s => spinAux (spinGamma dt U) xi s * Complex.exp (-(dt * U / 2)), fun _ => 1, bt2, dt⟩

/-- Propagator of the charge decomposition, lines 67-73 and 79-80.  `γ` is the value of the complex
`numpy.arccosh(numpy.exp(-0.5*dt*U+0j))`, see `IsChargeGamma`. -/
noncomputable def chargePar (dt U : ℝ) (γ : ℂ) (bt2 : Fin 2 → Matrix (Fin nb) (Fin nb) ℂ) : Par nb :=
  ⟨fun xi s => chargeAux γ xi s * Complex.exp (-(dt * U / 2)), chargeWfac dt U γ, bt2, dt⟩

/-- What is assumed of the complex `numpy.arccosh`. -/
def IsChargeGamma (dt U : ℝ) (γ : ℂ) : Prop := Complex.cosh γ = Complex.exp (-(dt * U / 2))

/-! ## One-body step -/

/-- `kinetic_real`, operations.py 28-53. -/
def kineticReal (bt2 : Fin 2 → Matrix (Fin nb) (Fin nb) ℂ) (φ : Wfn nb nu nd) : Wfn nb nu nd :=
  join (bt2 0 * up φ) (bt2 1 * dn φ)

open Classical in
/-- `kinetic_importance_sampling`, lines 146-170. -/
noncomputable def kineticIS (p : Par nb) (psi : Wfn nb nu nd) (w : Wk nb nu nd) : Wk nb nu nd :=
  let w1 := inverseOverlap psi { w with phi := kineticReal p.bt2 w.phi }
  let otNew := calcOtrial w1
  let ratio := otNew / w.ot
  if |Complex.arg ratio| < Real.pi / 2 then
    { w1 with weight := w.weight * ratio.re, ot := otNew }
  else { w1 with weight := 0 }

/-! ## Single-site updates -/

/-- `update_greens_function_uhf`, lines 104-128: the diagonal elements for site `i`. -/
noncomputable def gii (psi : Wfn nb nu nd) (w : Wk nb nu nd) (i : Fin nb) (s : Fin 2) : ℂ :=
  if s = 0 then (fun a => star (up psi i a)) ⬝ᵥ (w.invUpᵀ *ᵥ fun a => up w.phi i a)
  else (fun a => star (dn psi i a)) ⬝ᵥ (w.invDnᵀ *ᵥ fun a => dn w.phi i a)

/-- `calculate_overlap_ratio_single_det`, lines 536-551, times `aux_wfac` (line 198). -/
noncomputable def probs (p : Par nb) (psi : Wfn nb nu nd) (w : Wk nb nu nd) (i : Fin nb)
    (xi : Fin 2) : ℂ :=
  (1 / 2) * ((1 + p.delta xi 0 * gii psi w i 0) * (1 + p.delta xi 1 * gii psi w i 1)) * p.wfac xi

/-- `phaseless_ratio` (line 200). -/
noncomputable def trunc (p : Par nb) (psi : Wfn nb nu nd) (w : Wk nb nu nd) (i : Fin nb)
    (xi : Fin 2) : ℝ := max (probs p psi w i xi).re 0

/-- `norm` (line 201). -/
noncomputable def norm (p : Par nb) (psi : Wfn nb nu nd) (w : Wk nb nu nd) (i : Fin nb) : ℝ :=
  trunc p psi w i 0 + trunc p psi w i 1

open Classical in
/-- The field chosen with the random number `r` (lines 206-209). -/
noncomputable def choose (p : Par nb) (psi : Wfn nb nu nd) (w : Wk nb nu nd) (i : Fin nb) (r : ℝ) :
    Fin 2 :=
  if r < trunc p psi w i 0 / norm p psi w i then 0 else 1

/-- `phi[i] = phi[i] + phi[i]*delta` for the rows of one spin (lines 210-213). -/
def addRow {k : Nat} (φ : Matrix (Fin nb) (Fin k) ℂ) (i : Fin nb) (δ : ℂ) :
    Matrix (Fin nb) (Fin k) ℂ := fun a j => if a = i then φ a j + φ a j * δ else φ a j

/-- The update of the walker for site `i` and field `xi` (lines 205 and 210-217). -/
noncomputable def applyField (p : Par nb) (psi : Wfn nb nu nd) (w : Wk nb nu nd) (i : Fin nb)
    (xi : Fin 2) : Wk nb nu nd :=
  let w1 := { w with
    weight := w.weight * norm p psi w i
    phi := join (addRow (up w.phi) i (p.delta xi 0)) (addRow (dn w.phi) i (p.delta xi 1))
    ot := 2 * w.ot * probs p psi w i xi }
  updateInverseOverlap psi w1 (fun j => up w.phi i j * p.delta xi 0)
    (fun j => dn w.phi i j * p.delta xi 1) i

open Classical in
/-- `two_body_single_site`, lines 172-220, over the given sites, with the random numbers `rs`; also
returns the fields chosen, in the order in which they are pushed to `field_configs`. -/
noncomputable def singleSite (p : Par nb) (psi : Wfn nb nu nd) (rs : Fin nb → ℝ) :
    List (Fin nb) → Wk nb nu nd → Wk nb nu nd × List (Fin 2)
  | [], w => (w, [])
  | i :: l, w =>
    if 0 < norm p psi w i then
      let xi := choose p psi w i (rs i)
      let r := singleSite p psi rs l (applyField p psi w i xi)
      (r.1, xi :: r.2)
    else ({ w with weight := 0 }, [])

open Classical in
/-- Probability with which `singleSite` chooses the fields it chooses. -/
noncomputable def pathProb (p : Par nb) (psi : Wfn nb nu nd) (rs : Fin nb → ℝ) :
    List (Fin nb) → Wk nb nu nd → ℝ
  | [], _ => 1
  | i :: l, w =>
    if 0 < norm p psi w i then
      trunc p psi w i (choose p psi w i (rs i)) / norm p psi w i *
        pathProb p psi rs l (applyField p psi w i (choose p psi w i (rs i)))
    else 1

open Classical in
/-- `propagate_walker_constrained`, lines 277-301, with single-site updates. -/
noncomputable def constrainedStep (p : Par nb) (psi : Wfn nb nu nd) (eshift : ℝ) (rs : Fin nb → ℝ)
    (w : Wk nb nu nd) : Wk nb nu nd :=
  let w1 := if 0 < |w.weight| then kineticIS p psi w else w
  let w2 := if 0 < |w1.weight| then (singleSite p psi rs (List.finRange nb) w1).1 else w1
  let w3 := if 0 < |w2.weight| then kineticIS p psi w2 else w2
  { w3 with weight := w3.weight * Real.exp (p.dt * eshift) }

/-! ## Dynamic force bias -/

/-- `0.5*numpy.exp(±gamma*fb_term[i]).real` (lines 248-249). -/
noncomputable def fbWeight (γ f : ℂ) (xi : Fin 2) : ℝ :=
  if xi = 0 then 1 / 2 * (Complex.exp (γ * f)).re else 1 / 2 * (Complex.exp (-γ * f)).re

open Classical in
/-- The field chosen at a site (lines 250-257). -/
noncomputable def fbChoose (γ f : ℂ) (r : ℝ) : Fin 2 :=
  if r < fbWeight γ f 0 / (fbWeight γ f 0 + fbWeight γ f 1) then 0 else 1

/-- The factor that a site contributes to `fb_fac` (lines 254, 257). -/
noncomputable def fbFactor (γ f : ℂ) (xi : Fin 2) : ℝ :=
  if xi = 0 then 1 / 2 * (fbWeight γ f 0 + fbWeight γ f 1) * (Complex.exp (-γ * f)).re
  else 1 / 2 * (fbWeight γ f 0 + fbWeight γ f 1) * (Complex.exp (γ * f)).re

/-- The loop over sites of `two_body_direct` (lines 247-257): fields and `fb_fac`. -/
noncomputable def fbLoop (γ : ℂ) : List (ℂ × ℝ) → List (Fin 2) × ℝ → List (Fin 2) × ℝ
  | [], s => s
  | (f, r) :: l, s => fbLoop γ l (s.1 ++ [fbChoose γ f r], s.2 * fbFactor γ f (fbChoose γ f r))

/-- `fb_term` (lines 243-246). -/
def fbTerm (charge : Bool) (nia nib : ℂ) : ℂ := if charge then nia + nib - 1 else nia - nib

open Classical in
/-- `two_body_direct`, lines 222-275. -/
noncomputable def direct (p : Par nb) (charge : Bool) (γ : ℂ) (psi : Wfn nb nu nd) (rs : Fin nb → ℝ)
    (w : Wk nb nu nd) : Wk nb nu nd :=
  let g := greensFunction psi w
  let s := fbLoop γ ((List.finRange nb).map fun i =>
    (fbTerm charge (g.gUp i i) (g.gDn i i), rs i)) ([], 1)
  let fields : Fin nb → Fin 2 := fun i => s.1.getD i 0
  let φ := join (diagonal (fun i => p.auxf (fields i) 0) * up w.phi)
    (diagonal (fun i => p.auxf (fields i) 1) * dn w.phi)
  let ovlp := calcOverlap psi { w with phi := φ }
  let ratio := (∏ i, p.wfac (fields i)) * ovlp / w.ot
  if |Complex.arg ratio| < Real.pi / 2 then
    { w with phi := φ, ot := ovlp, ovlp := ovlp, weight := w.weight * (s.2 * ratio).re }
  else { w with phi := φ, weight := 0 }

/-! ## Free projection -/

/-- `propagate_walker_free`, lines 303-343, for a walker of non-zero weight. The fields of the sites
are given (line 324-328 draw them uniformly); `phi[i] + phi[i]*delta` for every site is
multiplication by the diagonal matrix of `1 + delta`. -/
noncomputable def freeStep (p : Par nb) (psi : Wfn nb nu nd) (eshift : ℝ) (fields : Fin nb → Fin 2)
    (w : Wk nb nu nd) : Wk nb nu nd :=
  let φ1 := kineticReal p.bt2 w.phi
  let φ2 : Wfn nb nu nd := join
    ((List.finRange nb).foldl (fun φ i => addRow φ i (p.delta (fields i) 0)) (up φ1))
    ((List.finRange nb).foldl (fun φ i => addRow φ i (p.delta (fields i) 1)) (dn φ1))
  let w1 := inverseOverlap psi { w with phi := kineticReal p.bt2 φ2 }
  let ovlp := calcOtrial w1
  let wfac := ∏ i, p.wfac (fields i)
  { w1 with
    weight := w.weight * (Real.exp (p.dt * eshift) * ‖wfac‖)
    phase := w.phase * Complex.exp (Complex.I * (Complex.arg wfac : ℂ))
    ot := ovlp
    ovlp := ovlp }

/-! ## Back propagation -/

/-- `construct_propagator_matrix`, lines 568-600, one spin, not conjugated: always the factors of
the spin decomposition, without the factor `exp(-dt*U/2)`. -/
noncomputable def bpMatrix (dt U : ℝ) (bt2 : Matrix (Fin nb) (Fin nb) ℂ) (fields : Fin nb → Fin 2)
    (s : Fin 2) : Matrix (Fin nb) (Fin nb) ℂ :=
  bt2 * (diagonal (fun i => spinAux (spinGamma dt U) (fields i) s) * bt2)

/-- Matrix that the forward step applies to the orbitals of one spin for given fields. -/
noncomputable def forwardMatrix (p : Par nb) (fields : Fin nb → Fin 2) (s : Fin 2) :
    Matrix (Fin nb) (Fin nb) ℂ :=
  p.bt2 s * diagonal (fun i => p.auxf (fields i) s) * p.bt2 s

end Verif.Hirsch
