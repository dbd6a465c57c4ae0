import Verif.BackProp.Average

/-!
# The limit of small time steps of back-propagated estimates (C111)

For generic Hamiltonians and the charge decomposition of the Hubbard model.
-/

namespace Verif.BackProp

open Matrix Finset MeasureTheory Verif.Step Filter Topology
open Verif.Slater (QRSpec)

variable {nx nb nu nd k : Nat}

/-- A sequence of windows of imaginary time `β` with more and more steps. -/
structure Refines (t : ℝ → Tables nx nb) (β : ℝ) (psi : Slater.Wfn nb k k) (eshift : ℝ)
    (R : Nat → Setup nx nb k k) (os : Nat → List Bool) : Prop where
  steps : Tendsto (fun N => (os N).length) atTop atTop
  dt : ∀ N, (R N).dt = β / (os N).length
  t : ∀ N, (R N).t = t (R N).dt
  n : ∀ N, (R N).n = 6
  qr : ∀ N, QRSpec (R N).qr
  psi : ∀ N, (R N).psi = psi
  eshift : ∀ N, (R N).eshift = eshift

theorem tendsto_estimate_partial {t : ℝ → Tables nx nb} {K : Fin 2 → Matrix (Fin nb) (Fin nb) ℂ}
    {W : Fin nx → Fin 2 → Matrix (Fin nb) (Fin nb) ℂ} {mf : Fin nx → ℂ} (hL : Linear t K W mf) {β : ℝ} (hβ : 0 < β)
    {psi : Slater.Wfn nb k k} {eshift : ℝ} {v : BW nx nb k k} (hv : v.hist = []) (h0 : ovl2 psi v.s.phi ≠ 0)
    {R : Nat → Setup nx nb k k} {os : Nat → List Bool} (hR : Refines t β psi eshift R os)
    {E : (Fin 2 → Matrix (Fin nb) (Fin nb) ℂ) → ℂ} {O : Matrix (Fin k ⊕ Fin k → Fin nb) (Fin k ⊕ Fin k → Fin nb) ℂ}
    (hE : Measures E O) :
    Tendsto (fun N => avgList (os N).length (corrected (R N) E O (os N) v)) atTop
      (𝓝 (v.w.weight / ovl2 psi v.s.phi * Complex.exp (β * eshift) *
        (slater psi ⬝ᵥ (NormedSpace.exp (-(β : ℂ) • genOp K W mf spin) *ᵥ (O *ᵥ prodState (orbs v.s.phi)))))) := by
  obtain ⟨L, h⟩ := limit_estimate_partial hL hβ psi eshift v hv h0 hE
  rw [tendsto_iff_norm_sub_tendsto_zero]
  have hlim : Tendsto (fun N => L / Real.sqrt (os N).length) atTop (𝓝 0) :=
    Tendsto.div_atTop tendsto_const_nhds
      (Real.tendsto_sqrt_atTop.comp (tendsto_natCast_atTop_atTop.comp hR.steps))
  refine squeeze_zero' (Eventually.of_forall fun _ => norm_nonneg _) ?_ hlim
  have h1 : ∀ᶠ N in atTop, max 1 ⌈β⌉₊ ≤ (os N).length := hR.steps.eventually_ge_atTop _
  filter_upwards [h1] with N hN
  have hN1 : 0 < (os N).length := lt_of_lt_of_le zero_lt_one ((le_max_left _ _).trans hN)
  have hN2 : β ≤ (os N).length := (Nat.le_ceil β).trans (by exact_mod_cast (le_max_right _ _).trans hN)
  exact h (R N) (os N) hN1 hN2 (hR.dt N) (hR.t N) (hR.n N) (hR.qr N) (hR.psi N) (hR.eshift N)

/-- The ratio of the averages approaches the ratio of matrix elements of the exponential of the Hamiltonian. -/
theorem tendsto_ratio_partial {t : ℝ → Tables nx nb} {K : Fin 2 → Matrix (Fin nb) (Fin nb) ℂ}
    {W : Fin nx → Fin 2 → Matrix (Fin nb) (Fin nb) ℂ} {mf : Fin nx → ℂ} (hL : Linear t K W mf) {β : ℝ} (hβ : 0 < β)
    {psi : Slater.Wfn nb k k} {eshift : ℝ} {v : BW nx nb k k} (hv : v.hist = []) (hw : v.w.weight ≠ 0)
    (h0 : ovl2 psi v.s.phi ≠ 0)
    {R : Nat → Setup nx nb k k} {os : Nat → List Bool} (hR : Refines t β psi eshift R os)
    {H : Matrix (Fin k ⊕ Fin k → Fin nb) (Fin k ⊕ Fin k → Fin nb) ℂ} {c : ℂ}
    (hH : slater psi ᵥ* NormedSpace.exp (-(β : ℂ) • genOp K W mf spin) = slater psi ᵥ* NormedSpace.exp (-(β : ℂ) • (H - c • 1)))
    (hne : slater psi ⬝ᵥ (NormedSpace.exp (-(β : ℂ) • H) *ᵥ prodState (orbs v.s.phi)) ≠ 0)
    {E : (Fin 2 → Matrix (Fin nb) (Fin nb) ℂ) → ℂ} {O : Matrix (Fin k ⊕ Fin k → Fin nb) (Fin k ⊕ Fin k → Fin nb) ℂ}
    (hE : Measures E O) :
    Tendsto (fun N => avgList (os N).length (corrected (R N) E O (os N) v) /
        avgList (os N).length (corrected (R N) (fun _ => 1) 1 (os N) v)) atTop
      (𝓝 ((slater psi ⬝ᵥ (NormedSpace.exp (-(β : ℂ) • H) *ᵥ (O *ᵥ prodState (orbs v.s.phi)))) /
        (slater psi ⬝ᵥ (NormedSpace.exp (-(β : ℂ) • H) *ᵥ prodState (orbs v.s.phi))))) := by
  have h1 := tendsto_estimate_partial hL hβ hv h0 hR hE
  have h2 := tendsto_estimate_partial hL hβ hv h0 hR measures_weight
  have e : ∀ u, slater psi ⬝ᵥ (NormedSpace.exp (-(β : ℂ) • genOp K W mf spin) *ᵥ u) =
      Complex.exp (β * c) * (slater psi ⬝ᵥ (NormedSpace.exp (-(β : ℂ) • H) *ᵥ u)) := by
    intro u
    rw [Matrix.dotProduct_mulVec, hH, ← Matrix.dotProduct_mulVec, exp_sub_smul, Matrix.smul_mulVec, dotProduct_smul, smul_eq_mul]
  rw [e] at h1 h2
  rw [Matrix.one_mulVec] at h2
  have hk : (v.w.weight : ℂ) / ovl2 psi v.s.phi * Complex.exp (β * eshift) * Complex.exp (β * c) ≠ 0 :=
    mul_ne_zero (mul_ne_zero (div_ne_zero (by exact_mod_cast hw) h0) (Complex.exp_ne_zero _)) (Complex.exp_ne_zero _)
  rw [← mul_assoc] at h1 h2
  have := h1.div h2 (mul_ne_zero hk hne)
  rwa [mul_div_mul_left _ _ hk] at this

/-- **C111 (generic Hamiltonians)**: the estimates of every quantity that measures an operator `O`, with the limit of small time steps
at fixed length `β` of the window: `⟨trial| exp(-β H) O |φ⟩ / ⟨trial| exp(-β H) |φ⟩`. -/
theorem generic_ratio_partial (g : Gen nx nb) (hL : ∀ a, (g.chol a)ᵀ = g.chol a) (mf : Fin nx → ℂ) {β : ℝ} (hβ : 0 < β)
    {psi : Slater.Wfn nb k k} {eshift : ℝ} {v : BW nx nb k k} (hv : v.hist = []) (hw : v.w.weight ≠ 0)
    (h0 : ovl2 psi v.s.phi ≠ 0)
    {R : Nat → Setup nx nb k k} {os : Nat → List Bool} (hR : Refines (fun dt => g.tables dt mf) β psi eshift R os)
    (hne : slater psi ⬝ᵥ (NormedSpace.exp (-(β : ℂ) • hamOp g.h1 g.chol g.ecore spin) *ᵥ prodState (orbs v.s.phi)) ≠ 0)
    {E : (Fin 2 → Matrix (Fin nb) (Fin nb) ℂ) → ℂ} {O : Matrix (Fin k ⊕ Fin k → Fin nb) (Fin k ⊕ Fin k → Fin nb) ℂ}
    (hE : Measures E O) :
    Tendsto (fun N => avgList (os N).length (corrected (R N) E O (os N) v) /
        avgList (os N).length (corrected (R N) (fun _ => 1) 1 (os N) v)) atTop
      (𝓝 ((slater psi ⬝ᵥ (NormedSpace.exp (-(β : ℂ) • hamOp g.h1 g.chol g.ecore spin) *ᵥ (O *ᵥ prodState (orbs v.s.phi)))) /
        (slater psi ⬝ᵥ (NormedSpace.exp (-(β : ℂ) • hamOp g.h1 g.chol g.ecore spin) *ᵥ prodState (orbs v.s.phi))))) :=
  tendsto_ratio_partial (g.linear mf) hβ hv hw h0 hR (by rw [g.genOp_symm hL mf spin]) hne hE

/-- The energy: it measures the Hamiltonian. -/
theorem generic_energy_partial (g : Gen nx nb) (hL : ∀ a, (g.chol a)ᵀ = g.chol a) (mf : Fin nx → ℂ) {β : ℝ} (hβ : 0 < β)
    {psi : Slater.Wfn nb k k} {eshift : ℝ} {v : BW nx nb k k} (hv : v.hist = []) (hw : v.w.weight ≠ 0)
    (h0 : ovl2 psi v.s.phi ≠ 0)
    {R : Nat → Setup nx nb k k} {os : Nat → List Bool} (hR : Refines (fun dt => g.tables dt mf) β psi eshift R os)
    (hne : slater psi ⬝ᵥ (NormedSpace.exp (-(β : ℂ) • hamOp g.h1 g.chol g.ecore spin) *ᵥ prodState (orbs v.s.phi)) ≠ 0) :
    Tendsto (fun N => avgList (os N).length
          (corrected (R N) (fun G => (Energy.localChol g.h1 g.chol G g.ecore).1) (hamOp g.h1 g.chol g.ecore spin) (os N) v) /
        avgList (os N).length (corrected (R N) (fun _ => 1) 1 (os N) v)) atTop
      (𝓝 ((slater psi ⬝ᵥ (NormedSpace.exp (-(β : ℂ) • hamOp g.h1 g.chol g.ecore spin) *ᵥ
          (hamOp g.h1 g.chol g.ecore spin *ᵥ prodState (orbs v.s.phi)))) /
        (slater psi ⬝ᵥ (NormedSpace.exp (-(β : ℂ) • hamOp g.h1 g.chol g.ecore spin) *ᵥ prodState (orbs v.s.phi))))) :=
  generic_ratio_partial g hL mf hβ hv hw h0 hR hne (measures_energy g)

/-! ## The factor that the averages leave out -/

/-- The factor from the averaging of successive hybrid energies: with a shift it is within `exp(±√(2 dt))`. -/
theorem boundary_factor (R : Setup nx nb nu nd) (hdt : 0 < R.dt) (hs : 1e-10 ≤ |R.eshift|) (l : List (Bool × (Fin nx → ℝ)))
    (v : BW nx nb nu nd) (hv : |v.w.hyb.re - R.eshift| ≤ Weights.ebound R.dt) :
    ‖Complex.exp (-(R.dt / 2) * ((run R l v).w.hyb - v.w.hyb))‖ ≤ Real.exp (Real.sqrt (2 * R.dt)) ∧
    Real.exp (-Real.sqrt (2 * R.dt)) ≤ ‖Complex.exp (-(R.dt / 2) * ((run R l v).w.hyb - v.w.hyb))‖ := by
  have hr : ∀ (l : List (Bool × (Fin nx → ℝ))) (v : BW nx nb nu nd), |v.w.hyb.re - R.eshift| ≤ Weights.ebound R.dt →
      |(run R l v).w.hyb.re - R.eshift| ≤ Weights.ebound R.dt := by
    intro l
    induction l with
    | nil => exact fun v h => h
    | cons a l ih => exact fun v _ => ih _ (Weights.boundHybrid_within R.dt _ R.eshift hs)
  have h1 := abs_le.1 (hr l v hv)
  have h2 := abs_le.1 hv
  have hm := Weights.dt_mul_ebound hdt
  have e : (-(R.dt / 2 : ℂ) * ((run R l v).w.hyb - v.w.hyb)).re = -(R.dt / 2) * ((run R l v).w.hyb.re - v.w.hyb.re) := by
    have : (-(R.dt / 2 : ℂ)) = ((-(R.dt / 2) : ℝ) : ℂ) := by push_cast; ring
    rw [this, Complex.re_ofReal_mul, Complex.sub_re]
  rw [Complex.norm_exp, e, Real.exp_le_exp, Real.exp_le_exp, ← hm]
  constructor <;> nlinarith [mul_nonneg hdt.le (sub_nonneg.2 h1.1), mul_nonneg hdt.le (sub_nonneg.2 h1.2), mul_nonneg hdt.le (sub_nonneg.2 h2.1), mul_nonneg hdt.le (sub_nonneg.2 h2.2)]

end Verif.BackProp
