import Verif.HubRun.Charge
import Mathlib.Analysis.Analytic.Order
import Mathlib.Analysis.Analytic.Constructions
import Mathlib.Analysis.SpecialFunctions.Complex.Analytic
import Mathlib.Analysis.SpecialFunctions.ExpDeriv
import Mathlib.Analysis.Meromorphic.Basic

/-!
# Attractive interaction with equal numbers of electrons of both spins: C131

The charge decomposition multiplies the rows of both spins by the same real factors.  If the hopping is real and the trial wave function
has the same real orbitals for both spins, the overlap of a walker is a square, whatever the lattice and the number of electrons.  The
constraint acts only where this square vanishes, and for all but countably many time steps it vanishes nowhere.
-/

namespace Verif.HubRun

open Matrix Finset Filter Topology
open Verif.Slater
open Verif.Hirsch
open Verif.Fields (rowStep)
open Verif.Step (Hub spin spinOp hubOp prodState orbs slater Lowest)
open Verif.Uhf (Eig Eigh)

variable {nb n : Nat}

/-- The entries are real. -/
def Real' {ι κ : Type*} (A : Matrix ι κ ℂ) : Prop := ∀ i j, star (A i j) = A i j

theorem Real'.adj {ι κ : Type*} {A : Matrix ι κ ℂ} (h : Real' A) : Aᴴ = Aᵀ := by
  ext i j
  exact h j i

theorem Real'.of_adj {ι κ : Type*} {A : Matrix ι κ ℂ} (h : Aᴴ = Aᵀ) : Real' A := fun i j => congrFun (congrFun h j) i

theorem Real'.mul {ι κ μ : Type*} [Fintype κ] {A : Matrix ι κ ℂ} {B : Matrix κ μ ℂ} (hA : Real' A) (hB : Real' B) : Real' (A * B) :=
  .of_adj (by rw [Matrix.conjTranspose_mul, Matrix.transpose_mul, hA.adj, hB.adj])

theorem Real'.transpose {ι κ : Type*} {A : Matrix ι κ ℂ} (h : Real' A) : Real' Aᴴ := fun i j => by
  rw [Matrix.conjTranspose_apply, star_star, h]

theorem Real'.exp {T : Matrix (Fin nb) (Fin nb) ℂ} (h : Real' T) : Real' (NormedSpace.exp T) :=
  .of_adj (by rw [← Matrix.exp_conjTranspose, ← Matrix.exp_transpose, h.adj])

theorem Real'.det {A : Matrix (Fin n) (Fin n) ℂ} (h : Real' A) : star A.det = A.det := by
  rw [← Matrix.det_conjTranspose, h.adj, Matrix.det_transpose]

theorem sq_pos {z : ℂ} (h : star z = z) (h0 : z ≠ 0) : IsPos (z * z) := by
  obtain ⟨r, rfl⟩ := Complex.conj_eq_iff_real.1 h
  have h0 : r ≠ 0 := by exact_mod_cast h0
  exact ⟨r * r, mul_self_pos.2 h0, by push_cast; rfl⟩

/-- The matrix of a sequence of hops of all electrons (`none`, propagation/hubbard.py 146-170) and fields (172-220), the last first. -/
noncomputable def path (p : Par nb) : List (Option (Fin nb × Fin 2)) → Matrix (Fin nb) (Fin nb) ℂ
  | [] => 1
  | none :: l => p.bt2 0 * path p l
  | some (i, xi) :: l => diagonal (fun j => if j = i then p.auxf xi 0 else 1) * path p l

/-- No determinant that can be reached from the trial wave function is orthogonal to it. -/
def Clear (p : Par nb) (psi : Wfn nb n n) : Prop := ∀ l, ((up psi)ᴴ * path p l * up psi).det ≠ 0

/-- Walkers that can be reached from the trial wave function: both spins have the same orbitals. -/
def Twin (p : Par nb) (psi φ : Wfn nb n n) : Prop :=
  dn φ = up φ ∧ ∃ l, ∃ X : Matrix (Fin n) (Fin n) ℂ, IsPos X.det ∧ up φ = path p l * up psi * X

/-- A lattice with real hopping, the same for both spins. -/
structure Plain (h : Hub nb) : Prop where
  herm : (h.h1 0)ᴴ = h.h1 0
  real : Real' (h.h1 0)
  same : h.h1 1 = h.h1 0

/-- A trial wave function with the same real orbitals for both spins, which are linearly independent. -/
structure Paired (psi : Wfn nb n n) : Prop where
  real : Real' (up psi)
  same : dn psi = up psi
  indep : FullRank (up psi)

theorem IsPos.real {z : ℂ} (h : IsPos z) : star z = z := IsPos.star h

theorem bt2_real {h : Hub nb} (hh : Plain h) (dt : ℝ) : Real' ((chPar h dt).bt2 0) := by
  show Real' (NormedSpace.exp (-((dt : ℂ) / 2) • h.h1 0))
  refine Real'.exp fun i j => ?_
  have e : -((dt : ℂ) / 2) = ((-(dt / 2) : ℝ) : ℂ) := by push_cast; rfl
  rw [Matrix.smul_apply, e, smul_eq_mul, star_mul', hh.real]
  congr 1
  exact Complex.conj_ofReal _

theorem path_real {h : Hub nb} (hh : Plain h) (dt : ℝ) : ∀ l, Real' (path (chPar h dt) l)
  | [] => fun i j => by rw [path, Matrix.one_apply]; split_ifs <;> simp
  | none :: l => (bt2_real hh dt).mul (path_real hh dt l)
  | some (i, xi) :: l => by
    refine Real'.mul (fun a b => ?_) (path_real hh dt l)
    rw [Matrix.diagonal_apply]
    split_ifs
    · exact (charge_aux_pos h dt xi 0).star
    · simp
    · simp

theorem overlap_twin {p : Par nb} {psi φ : Wfn nb n n} (hψ : Paired psi) (h : dn φ = up φ) {l : List (Option (Fin nb × Fin 2))}
    {X : Matrix (Fin n) (Fin n) ℂ} (e : up φ = path p l * up psi * X) :
    overlap psi φ = (((up psi)ᴴ * path p l * up psi).det * ((up psi)ᴴ * path p l * up psi).det) * (X.det * X.det) := by
  rw [overlap, hψ.same, h, e, ← Matrix.mul_assoc, ← Matrix.mul_assoc, Matrix.det_mul]
  ring

open scoped ComplexOrder in
theorem twin_rank {p : Par nb} {psi φ : Wfn nb n n} (hc : Clear p psi) (h : Twin p psi φ) : FullRank (up φ) := by
  obtain ⟨-, l, X, hX, e⟩ := h
  have h1 : ((up psi)ᴴ * up φ).det ≠ 0 := by
    rw [e, ← Matrix.mul_assoc, ← Matrix.mul_assoc, Matrix.det_mul]
    exact mul_ne_zero (hc l) hX.ne
  intro h0
  obtain ⟨v, hv, hv0⟩ := Matrix.exists_mulVec_eq_zero_iff.2 h0
  refine h1 (Matrix.exists_mulVec_eq_zero_iff.1 ⟨v, hv, ?_⟩)
  rw [Matrix.conjTranspose_mul_self_mulVec_eq_zero] at hv0
  rw [← Matrix.mulVec_mulVec, hv0, Matrix.mulVec_zero]

theorem twin_cone {h : Hub nb} (hh : Plain h) {dt : ℝ} {psi : Wfn nb n n} (hψ : Paired psi) (hc : Clear (chPar h dt) psi) :
    Cone (chPar h dt) psi (Twin (chPar h dt) psi) := by
  refine ⟨?_, ?_, ?_, charge_wfac_pos h dt⟩
  · rintro φ ⟨hd, l, X, hX, e⟩
    rw [overlap_twin hψ hd e]
    exact (sq_pos (Real'.det ((hψ.real.transpose.mul (path_real hh dt l)).mul hψ.real)) (hc l)).mul (hX.mul hX)
  · rintro φ ⟨hd, l, X, hX, e⟩
    have hb : (chPar h dt).bt2 1 = (chPar h dt).bt2 0 := by
      show NormedSpace.exp (-((dt : ℂ) / 2) • h.h1 1) = NormedSpace.exp (-((dt : ℂ) / 2) • h.h1 0)
      rw [hh.same]
    refine ⟨?_, none :: l, X, hX, ?_⟩
    · rw [kineticReal, dn_join, up_join, hb, hd]
    · rw [kineticReal, up_join, e, path]
      simp only [Matrix.mul_assoc]
  · rintro φ ⟨hd, l, X, hX, e⟩ i xi
    have ha : (chPar h dt).auxf xi 1 = (chPar h dt).auxf xi 0 := rfl
    rw [rowStep_diag]
    refine ⟨?_, some (i, xi) :: l, X, hX, ?_⟩
    · rw [dn_join, up_join, ha, hd]
    · rw [up_join, e, path]
      simp only [Matrix.mul_assoc]

theorem twin_kept {p : Par nb} {psi : Wfn nb n n} (hc : Clear p psi) {qr : QR nb} (hqr : QRSpec qr) : Kept qr (Twin p psi) := by
  intro w hw
  have hu := twin_rank hc hw
  have ou := ortho_signs (hqr _ _ hu) hu
  obtain ⟨hd, l, X, hX, e⟩ := hw
  have eu : up (reortho qr w).phi = (qr n (up w.phi)).1 * signs (qr n (up w.phi)).2 := up_join _ _
  have ed : dn (reortho qr w).phi = (qr n (dn w.phi)).1 * signs (qr n (dn w.phi)).2 := dn_join _ _
  refine ⟨by rw [eu, ed, hd], l, X * (signs (qr n (up w.phi)).2 * (qr n (up w.phi)).2)⁻¹, ?_, ?_⟩
  · rw [Matrix.det_mul, Matrix.det_nonsing_inv, Ring.inverse_eq_inv', ← div_eq_mul_inv]
    exact hX.div ⟨_, ou.pos, ou.det⟩
  · have hdet : IsUnit (signs (qr n (up w.phi)).2 * (qr n (up w.phi)).2).det := by
      rw [ou.det, isUnit_iff_ne_zero]
      exact_mod_cast ou.pos.ne'
    have h1 := congrArg (· * (signs (qr n (up w.phi)).2 * (qr n (up w.phi)).2)⁻¹) ou.eq
    beta_reduce at h1
    rw [Matrix.mul_assoc (_ * signs _), Matrix.mul_nonsing_inv _ hdet, Matrix.mul_one] at h1
    rw [eu, ← Matrix.mul_assoc, ← e, h1]

theorem twin_start {p : Par nb} {psi : Wfn nb n n} (hψ : Paired psi) : Twin p psi psi :=
  ⟨hψ.same, [], 1, ⟨1, one_pos, by simp⟩, by simp [path]⟩

/-! ## Time steps for which no overlap vanishes -/

section
attribute [local instance] Matrix.linftyOpNormedRing Matrix.linftyOpNormedAlgebra

theorem exp_analytic {κ : Type} [Fintype κ] [DecidableEq κ] (T : Matrix κ κ ℂ) {c : ℝ → ℂ} {x : ℝ} (hc : AnalyticAt ℝ c x) (i j : κ) :
    AnalyticAt ℝ (fun y => NormedSpace.exp (c y • T) i j) x := by
  have h1 : AnalyticAt ℝ (fun y => c y • T) x := hc.smul analyticAt_const
  have h2 : AnalyticAt ℝ (fun M : Matrix κ κ ℂ => NormedSpace.exp M) (c x • T) :=
    (NormedSpace.exp_analytic (𝕂 := ℂ) (c x • T)).restrictScalars
  have h3 : AnalyticAt ℝ (fun M : Matrix κ κ ℂ => M i j) (NormedSpace.exp (c x • T)) :=
    (Matrix.entryLinearMap ℝ ℂ i j).toContinuousLinearMap.analyticAt _
  have h4 : AnalyticAt ℝ (fun y => NormedSpace.exp (c y • T)) x := AnalyticAt.comp' (f := fun y => c y • T) h2 h1
  exact AnalyticAt.comp' (f := fun y => NormedSpace.exp (c y • T)) h3 h4

end

theorem zeros_countable {f : ℝ → ℂ} (hf : ∀ x, AnalyticAt ℝ f x) (h0 : f 0 ≠ 0) : {x | f x = 0}.Countable := by
  have h := AnalyticOnNhd.preimage_zero_mem_codiscrete (f := f) (x := 0) (fun x _ => hf x) h0
  have hd : IsDiscrete (f ⁻¹' {0}ᶜ)ᶜ := by
    have h2 := isDiscrete_of_codiscreteWithin (U := Set.univ) (s := (f ⁻¹' {0}ᶜ)ᶜ) (by rw [compl_compl]; exact h)
    rwa [Set.inter_univ] at h2
  have := (HereditarilyLindelofSpace.isLindelof (f ⁻¹' {0}ᶜ)ᶜ).countable_of_isDiscrete hd
  refine this.mono fun x hx => ?_
  simpa using hx

/-- The time step as a function of `gamma`. -/
noncomputable def stepOfGamma (U g : ℝ) : ℝ := -(2 * Real.log (Real.cosh g) / U)

/-- The propagator as a function of `gamma`. -/
noncomputable def gPar (h : Hub nb) (g : ℝ) : Par nb :=
  chargePar (stepOfGamma h.U g) h.U g fun s => NormedSpace.exp (-((stepOfGamma h.U g : ℂ) / 2) • h.h1 s)

theorem gPar_gamma {h : Hub nb} (hU : h.U < 0) {dt : ℝ} (hdt : 0 ≤ dt) : chPar h dt = gPar h (chargeGamma dt h.U) := by
  have e : stepOfGamma h.U (chargeGamma dt h.U) = dt := by
    rw [stepOfGamma, chargeGamma, Real.cosh_arcosh (Real.one_le_exp (by nlinarith)), Real.log_exp]
    have := hU.ne
    field_simp
  rw [gPar, e, chPar]

theorem stepOfGamma_analytic (U x : ℝ) : AnalyticAt ℝ (stepOfGamma U) x := by
  have h : AnalyticAt ℝ (fun g => Real.log (Real.cosh g)) x := by
    have h1 : AnalyticAt ℝ (fun g : ℝ => Real.cosh g) x := by
      have : (fun g : ℝ => Real.cosh g) = fun g => (Real.exp g + Real.exp (-g)) / 2 := funext Real.cosh_eq
      rw [this]
      fun_prop
    exact h1.log (Real.cosh_pos x)
  unfold stepOfGamma
  fun_prop

theorem step_cast_analytic (U x : ℝ) : AnalyticAt ℝ (fun g => (stepOfGamma U g : ℂ)) x :=
  (Complex.ofRealCLM.analyticAt _).comp (stepOfGamma_analytic U x)

theorem aux_analytic (h : Hub nb) (xi : Fin 2) (x : ℝ) : AnalyticAt ℝ (fun g => (gPar h g).auxf xi 0) x := by
  have h1 := step_cast_analytic h.U x
  have h2 : AnalyticAt ℝ (fun g : ℝ => (g : ℂ)) x := Complex.ofRealCLM.analyticAt _
  have he : ∀ {c : ℝ → ℂ}, AnalyticAt ℝ c x → AnalyticAt ℝ (fun y => Complex.exp (c y)) x := fun hc =>
    AnalyticAt.comp' (AnalyticAt.restrictScalars (𝕜 := ℝ) analyticAt_cexp) hc
  show AnalyticAt ℝ (fun g : ℝ => (if xi = 0 then Complex.exp g else Complex.exp (-g)) * Complex.exp (-(stepOfGamma h.U g * h.U / 2))) x
  refine AnalyticAt.mul ?_ (he ?_)
  · split_ifs
    · exact he h2
    · exact he h2.neg
  · exact ((h1.mul analyticAt_const).div analyticAt_const two_ne_zero).neg

theorem path_analytic (h : Hub nb) (x : ℝ) : ∀ (l : List (Option (Fin nb × Fin 2))) (i j : Fin nb),
    AnalyticAt ℝ (fun g => path (gPar h g) l i j) x
  | [], i, j => analyticAt_const
  | none :: l, i, j => by
    simp only [path, Matrix.mul_apply]
    refine Finset.analyticAt_fun_sum _ fun k _ => AnalyticAt.mul ?_ (path_analytic h x l k j)
    exact exp_analytic (h.h1 0) ((step_cast_analytic h.U x).div analyticAt_const two_ne_zero).neg i k
  | some (a, xi) :: l, i, j => by
    simp only [path, Matrix.diagonal_mul]
    refine AnalyticAt.mul ?_ (path_analytic h x l i j)
    split_ifs
    · exact aux_analytic h xi x
    · exact analyticAt_const

theorem path_zero (h : Hub nb) : ∀ l, path (gPar h 0) l = 1
  | [] => rfl
  | none :: l => by
    rw [path, path_zero h l, Matrix.mul_one]
    simp [gPar, chargePar, stepOfGamma]
  | some (a, xi) :: l => by
    rw [path, path_zero h l, Matrix.mul_one]
    have : (gPar h 0).auxf xi 0 = 1 := by simp [gPar, chargePar, chargeAux, stepOfGamma]
    simp [this]

theorem det_analytic {M : ℝ → Matrix (Fin n) (Fin n) ℂ} {x : ℝ} (h : ∀ i j, AnalyticAt ℝ (fun g => M g i j) x) :
    AnalyticAt ℝ (fun g => (M g).det) x := by
  simp only [Matrix.det_apply']
  exact Finset.analyticAt_fun_sum _ fun s _ => analyticAt_const.mul (Finset.analyticAt_fun_prod _ fun i _ => h _ _)

/-- **C131** For all but countably many time steps no determinant that can be reached is orthogonal to the trial wave function. -/
theorem clear_countable (h : Hub nb) (hU : h.U < 0) {psi : Wfn nb n n} (hψ : FullRank (up psi)) :
    {dt : ℝ | 0 ≤ dt ∧ ¬Clear (chPar h dt) psi}.Countable := by
  have h1 : ∀ l, {g : ℝ | ((up psi)ᴴ * path (gPar h g) l * up psi).det = 0}.Countable := by
    intro l
    refine zeros_countable (fun x => det_analytic fun i j => ?_) ?_
    · simp only [Matrix.mul_apply]
      exact Finset.analyticAt_fun_sum _ fun k _ => (Finset.analyticAt_fun_sum _ fun m _ =>
        analyticAt_const.mul (path_analytic h x l m k)).mul analyticAt_const
    · rw [path_zero, Matrix.mul_one]
      exact hψ
  refine ((Set.countable_iUnion h1).image (stepOfGamma h.U)).mono ?_
  rintro dt ⟨hdt, hc⟩
  rw [Clear] at hc
  push Not at hc
  obtain ⟨l, hl⟩ := hc
  refine ⟨chargeGamma dt h.U, Set.mem_iUnion.2 ⟨l, ?_⟩, ?_⟩
  · rw [Set.mem_ofPred_eq, ← gPar_gamma hU hdt]
    exact hl
  · have := congrArg Par.dt (gPar_gamma hU hdt)
    exact this.symm

/-! ## Runs -/

/-- Many short steps of a population, with a set of determinants for every time step. -/
theorem pop_tendsto_sets {nu nd : Nat} (h : Hub nb) {psi : Wfn nb nu nd} {S : Nat → Wfn nb nu nd → Prop} {qr : QR nb} (hqr : QRSpec qr)
    (hk : ∀ N, Kept qr (S N)) {β : ℝ} (p : Nat → Par nb) (k : Nat → ℂ) (hk0 : ∀ N, k N ≠ 0)
    (Y : Nat → Matrix (Fin nu ⊕ Fin nd → Fin nb) (Fin nu ⊕ Fin nd → Fin nb) ℂ) (hX : ∀ N, Steps (p N) psi (S N) (k N • Y N))
    (hY : Tendsto (fun N => Y N ^ (N + 1)) atTop (𝓝 (NormedSpace.exp (-(β : ℂ) • hubOp h.h1 h.U spin))))
    (c : Nat → Ctl) (hc : ∀ N, 0 < (c N).target ∧ 0 < (c N).num) (l : Nat → List (Ev nb nu nd)) (hl : ∀ N, evSteps (l N) = N + 1) (T : Nat → ℝ)
    {w : Wk nb nu nd} (hw : ∀ N, Ready psi (S N) 0 w) (hcalm : ∀ N, Calm (c N) (p N) psi qr (l N) [] (T N) fun _ => w)
    (hne : slater psi ⬝ᵥ (NormedSpace.exp (-(β : ℂ) • hubOp h.h1 h.U spin) *ᵥ prodState (orbs w.phi)) ≠ 0) :
    Tendsto (fun N => popEnergy (c N) h (p N) psi qr (l N) (T N) fun _ => w) atTop (𝓝 (exactEnergy h psi w.phi β)) := by
  have hcv : ∀ v : (Fin nu ⊕ Fin nd → Fin nb) → ℂ, Tendsto (fun N : Nat => v ⬝ᵥ (Y N ^ (N + 1) *ᵥ prodState (orbs w.phi))) atTop
      (𝓝 (v ⬝ᵥ (NormedSpace.exp (-(β : ℂ) • hubOp h.h1 h.U spin) *ᵥ prodState (orbs w.phi)))) := by
    intro v
    have hcont : Continuous fun M : Matrix (Fin nu ⊕ Fin nd → Fin nb) (Fin nu ⊕ Fin nd → Fin nb) ℂ => v ⬝ᵥ (M *ᵥ prodState (orbs w.phi)) := by
      simp only [Matrix.mulVec, dotProduct]
      fun_prop
    exact (hcont.tendsto _).comp hY
  refine ((hcv _).div (hcv _) hne).congr fun N => ?_
  rw [popEnergy_formula h (hX N) hqr (hk N) (c N) (hc N).1 (hc N).2 (l N) (T N) (fun _ => rfl) (hw N) (hcalm N), hl, smul_pow,
    Matrix.smul_mulVec, dotProduct_smul, dotProduct_smul, smul_eq_mul, smul_eq_mul, mul_div_mul_left _ _ (pow_ne_zero _ (hk0 N)), Pi.div_apply]

theorem evolved_countable (h : Hub nb) {psi : Wfn nb n n} (h0 : overlap psi psi ≠ 0) :
    {β : ℝ | slater psi ⬝ᵥ (NormedSpace.exp (-(β : ℂ) • hubOp h.h1 h.U spin) *ᵥ prodState (orbs psi)) = 0}.Countable := by
  refine zeros_countable (fun x => ?_) ?_
  · simp only [Matrix.mulVec, dotProduct]
    exact Finset.analyticAt_fun_sum _ fun i _ => analyticAt_const.mul (Finset.analyticAt_fun_sum _ fun j _ =>
      (exp_analytic _ (Complex.ofRealCLM.analyticAt x).neg i j).mul analyticAt_const)
  · simp only [Complex.ofReal_zero, neg_zero, zero_smul, NormedSpace.exp_zero, Matrix.one_mulVec]
    rw [← Step.ovl2_eq]
    exact h0

/-- **C131** Attractive interaction, equal numbers of electrons of both spins, real hopping on any lattice, the same real orbitals for both
spins: but for countably many imaginary times, the energies of runs of populations converge for short steps to the energy of the state
evolved in imaginary time, and this to the lowest energy with which the trial wave function overlaps. -/
theorem paired_run (h : Hub nb) (hU : h.U < 0) (hh : Plain h) {psi : Wfn nb n n} (hψ : Paired psi) {qr : QR nb} (hqr : QRSpec qr) :
    ∃ E0 : ℝ, Lowest (hubOp h.h1 h.U (spin : Fin n ⊕ Fin n → Fin 2)) (slater psi) (prodState (orbs psi)) E0 ∧
      ∃ Z : Set ℝ, Z.Countable ∧
      (∀ β, 0 ≤ β → β ∉ Z → ∀ (c : Nat → Ctl) (l : Nat → List (Ev nb n n)) (T : Nat → ℝ), (∀ N, 0 < (c N).target ∧ 0 < (c N).num) →
        (∀ N, evSteps (l N) = N + 1) → (∀ N : Nat, Calm (c N) (chPar h (β / (N + 1 : Nat))) psi qr (l N) [] (T N) fun _ => start psi) →
        Tendsto (fun N => popEnergy (c N) h (chPar h (β / (N + 1 : Nat))) psi qr (l N) (T N) fun _ => start psi) atTop
          (𝓝 (exactEnergy h psi psi β))) ∧
      Tendsto (exactEnergy h psi psi) atTop (𝓝 (E0 : ℂ)) := by
  have h0 : overlap psi psi ≠ 0 := by
    rw [overlap, hψ.same]
    exact mul_ne_zero hψ.indep hψ.indep
  have hT : ∀ s, (h.h1 s)ᴴ = h.h1 s := by
    intro s
    fin_cases s
    · exact hh.herm
    · show (h.h1 1)ᴴ = h.h1 1
      rw [hh.same, hh.herm]
  have hne : slater psi ⬝ᵥ prodState (orbs psi) ≠ 0 := by
    rw [← Step.ovl2_eq]
    exact h0
  obtain ⟨E0, hE⟩ := Step.lowest_exists (Step.hubOp_herm h.U hT spin) hne
  have hZ : (⋃ N : Nat, (fun x : ℝ => ((N + 1 : Nat) : ℝ) * x) '' {dt : ℝ | 0 ≤ dt ∧ ¬Clear (chPar h dt) psi}).Countable :=
    Set.countable_iUnion fun N => (clear_countable h hU hψ.indep).image _
  refine ⟨E0, hE, _, hZ.union (evolved_countable h h0), fun β hβ hβZ c l T hc hev hcalm => ?_, ?_⟩
  · rw [Set.mem_union, not_or] at hβZ
    have hdt : ∀ N : Nat, 0 ≤ β / ((N + 1 : Nat) : ℝ) := fun N => div_nonneg hβ (Nat.cast_nonneg _)
    have hcl : ∀ N : Nat, Clear (chPar h (β / ((N + 1 : Nat) : ℝ))) psi := by
      intro N
      by_contra hcon
      refine hβZ.1 (Set.mem_iUnion.2 ⟨N, _, ⟨hdt N, hcon⟩, ?_⟩)
      exact mul_div_cancel₀ _ (Nat.cast_ne_zero.2 (Nat.succ_ne_zero N))
    have hY := strang_limit_coupling (spinOp spin h.h1) (hubOp (fun _ => 0) 1 (spin : Fin n ⊕ Fin n → Fin 2)) hβ h.U _ (effU_tendsto h.U hβ)
    simp only [← hubOp_coupling] at hY
    rw [← hubOp_split] at hY
    exact pop_tendsto_sets h hqr (fun N => twin_kept (hcl N) hqr) _
      (fun N => Complex.exp (-((β / ((N + 1 : Nat) : ℝ) : ℝ) * h.U)) ^ (n + n)) (fun N => pow_ne_zero _ (Complex.exp_ne_zero _))
      (fun N => stepOf { h with U := effU (β / ((N + 1 : Nat) : ℝ)) h.U } (β / ((N + 1 : Nat) : ℝ)))
      (fun N => charge_steps h (mul_nonpos_of_nonneg_of_nonpos (hdt N) hU.le) (twin_cone hh hψ (hcl N))) hY c hc l hev T
      (fun N => start_ready (twin_start hψ)) hcalm hβZ.2
  · obtain ⟨S, u, hu, hsum, hl, hS, h0⟩ := hE
    have h0' : ∑ j ∈ univ.filter (fun j : S => (j : ℝ) = E0), slater psi ⬝ᵥ u j ≠ 0 := by
      have : (univ.filter fun j : S => (j : ℝ) = E0) = {⟨E0, hS⟩} := by
        ext j
        simp [Subtype.ext_iff]
      rw [this, sum_singleton]
      exact h0
    have hsum' : ∑ j : S, u j = prodState (orbs psi) := by rw [← hsum]; exact sum_coe_sort S u
    have hp := Step.project (fun j : S => hu j j.2) (slater psi) E0 (fun j : S => hl j j.2) h0'
    rw [hsum'] at hp
    exact hp

/-- **C131** But for countably many time steps, whatever the random numbers, no walker is lost and no weight becomes negative, both spins
of the walkers keep the same orbitals, and an average step is that of the Hamiltonian with the interaction `effU`, not constrained. -/
theorem paired_step (h : Hub nb) (hU : h.U < 0) (hh : Plain h) {psi : Wfn nb n n} (hψ : Paired psi) {qr : QR nb} (hqr : QRSpec qr) :
    ∃ Z : Set ℝ, Z.Countable ∧ ∀ dt, 0 ≤ dt → dt ∉ Z → ∃ S : Wfn nb n n → Prop, S psi ∧ (∀ φ, S φ → dn φ = up φ) ∧ Kept qr S ∧
      (∀ (w : Wk nb n n), Valid psi S w → 0 < w.weight → ∀ e rs,
        0 < (constrainedStep (chPar h dt) psi e rs w).weight ∧ Valid psi S (constrainedStep (chPar h dt) psi e rs w)) ∧
      Steps (chPar h dt) psi S (Complex.exp (-(dt * h.U)) ^ (n + n) • stepOf { h with U := effU dt h.U } dt) := by
  refine ⟨_, clear_countable h hU hψ.indep, fun dt hdt hZ => ?_⟩
  have hc : Clear (chPar h dt) psi := by
    by_contra hcon
    exact hZ ⟨hdt, hcon⟩
  have hS := twin_cone hh hψ hc
  exact ⟨Twin (chPar h dt) psi, twin_start hψ, fun φ hφ => hφ.1, twin_kept hc hqr, fun w hv hw e rs => ⟨step_pos hS hv hw e rs, (hv.step hS e rs).1⟩,
    charge_steps h (mul_nonpos_of_nonneg_of_nonpos hdt hU.le) hS⟩

/-! ## Lattices in one and two dimensions -/

/-- The Hubbard system on a rectangular lattice, without twist (systems/hubbard_holstein.py 214-268, imported by systems/hubbard.py). -/
noncomputable def lattice (t U : ℝ) (sy : Bool) (nx ny : Nat) (xpbc ypbc : Bool) : Hub (ny * nx) :=
  ⟨fun _ => Lattice.kinetic t nx ny none xpbc ypbc, U, sy⟩

theorem lattice_plain (t U : ℝ) (sy : Bool) (nx ny : Nat) (xpbc ypbc : Bool) : Plain (lattice t U sy nx ny xpbc ypbc) := by
  refine ⟨Lattice.kinetic_hermitian t nx ny none xpbc ypbc, fun i j => ?_, rfl⟩
  have hu : ∀ i j : Nat, star (Lattice.upper t nx ny none xpbc ypbc i j) = Lattice.upper t nx ny none xpbc ypbc i j := by
    intro i j
    simp only [Lattice.upper, Lattice.phase]
    split_ifs <;> simp
  show star (Lattice.kinetic t nx ny none xpbc ypbc i j) = Lattice.kinetic t nx ny none xpbc ypbc i j
  simp only [Lattice.kinetic, Matrix.add_apply, Matrix.conjTranspose_apply, Matrix.of_apply, star_add, star_star]
  split_ifs <;> simp [hu]

/-- `scipy.linalg.eigh` (linalg.py 33-57) returns real eigenvectors of real matrices. -/
def RealEig {m : Nat} (eig : Eig m) : Prop := ∀ H, Real' H → Real' (eig H).2

theorem cols_paired {eig : Eig nb} (he : Eigh eig) (hr : RealEig eig) {h : Hub nb} (hh : Plain h) (hn : n ≤ nb) :
    Paired (freeElectron eig h.h1 hn hn : Wfn nb n n) := by
  have e : up (freeElectron eig h.h1 hn hn : Wfn nb n n) = Uhf.cols hn (eig (h.h1 0)).2 := up_join _ _
  refine ⟨?_, ?_, ?_⟩
  · rw [e]
    exact fun i j => hr _ hh.real _ _
  · rw [e, freeElectron, dn_join, hh.same]
  · rw [e, FullRank, Uhf.cols_orth he hn hh.herm, Matrix.det_one]
    exact one_ne_zero

/-- There is such an eigensolver. -/
theorem realEig_exists (m : Nat) : ∃ eig : Eig m, Eigh eig ∧ RealEig eig := by
  classical
  obtain ⟨eig0, he0⟩ := Uhf.eigh_exists m
  have h : ∀ H : Matrix (Fin m) (Fin m) ℂ, ∃ r : (Fin m → ℝ) × Matrix (Fin m) (Fin m) ℂ, (H.IsHermitian →
      Monotone r.1 ∧ r.2ᴴ * r.2 = 1 ∧ H * r.2 = r.2 * diagonal fun a => (r.1 a : ℂ)) ∧ (Real' H → Real' r.2) := by
    intro H
    by_cases hH : H.IsHermitian
    · by_cases hR : Real' H
      · have hre : ∀ i j, ((H i j).re : ℂ) = H i j := fun i j => Complex.conj_eq_iff_re.1 (hR i j)
        have hB : (H.map Complex.re).IsHermitian := by
          ext i j
          have := congrFun (congrFun hH i) j
          rw [Matrix.conjTranspose_apply, hR] at this
          simp [this]
        let σ := Tuple.sort hB.eigenvalues
        let V : Matrix (Fin m) (Fin m) ℝ := (hB.eigenvectorUnitary : Matrix (Fin m) (Fin m) ℝ).submatrix id σ
        have hV : (hB.eigenvectorUnitary : Matrix (Fin m) (Fin m) ℝ)ᴴ * (hB.eigenvectorUnitary : Matrix (Fin m) (Fin m) ℝ) = 1 := by
          rw [← star_eq_conjTranspose]; exact Unitary.coe_star_mul_self hB.eigenvectorUnitary
        refine ⟨(hB.eigenvalues ∘ σ, V.map Complex.ofReal), fun _ => ⟨Tuple.monotone_sort hB.eigenvalues, ?_, ?_⟩, fun _ i j => Complex.conj_ofReal _⟩
        · ext a b
          have := congrFun (congrFun hV (σ a)) (σ b)
          rw [one_apply] at this ⊢
          simp only [σ.injective.eq_iff, Matrix.mul_apply, Matrix.conjTranspose_apply] at this
          have h2 := congrArg (fun x : ℝ => (x : ℂ)) this
          simp only [Complex.ofReal_sum, Complex.ofReal_mul] at h2
          rw [Matrix.mul_apply]
          simp only [Matrix.conjTranspose_apply, Matrix.map_apply]
          refine Eq.trans (sum_congr rfl fun k _ => ?_) (h2.trans (by split_ifs <;> simp))
          congr 1
          exact Complex.conj_ofReal _
        · ext i a
          rw [mul_diagonal, mul_apply]
          have := congrFun (hB.mulVec_eigenvectorBasis (σ a)) i
          simp only [mulVec, dotProduct, Pi.smul_apply] at this
          have h2 := congrArg (fun x : ℝ => (x : ℂ)) this
          simp only [Complex.ofReal_sum, Complex.ofReal_mul, Matrix.map_apply, hre, smul_eq_mul] at h2
          refine Eq.trans ?_ (h2.trans (mul_comm _ _))
          rfl
      · exact ⟨eig0 H, fun h => he0 H h, fun h => absurd h hR⟩
    · exact ⟨(fun _ => 0, 0), fun h => absurd h hH, fun _ i j => by simp⟩
  choose eig heig using h
  exact ⟨eig, fun H => (heig H).1, fun H => (heig H).2⟩

/-- **C131** Case: an attractive lattice of 3 × 2 sites with 2 + 2 electrons, free-electron trial, twelve walkers on three ranks.  The
energies converge as described; but for countably many time steps, for any sequence of steps, population controls, reorthogonalisations and restarts with twelve walkers there are thresholds for which nothing
drastic happens. -/
theorem paired_case : ∃ (eig : Eig (2 * 3)) (qr : QR (2 * 3)), Eigh eig ∧ RealEig eig ∧ QRSpec qr ∧
    Plain (lattice 1 (-4) false 3 2 true true) ∧
    Paired (freeElectron eig (lattice 1 (-4) false 3 2 true true).h1 (by norm_num) (by norm_num) : Wfn (2 * 3) 2 2) ∧
    ∃ Z : Set ℝ, Z.Countable ∧ ∀ dt, 0 ≤ dt → dt ∉ Z → ∀ l : List (Ev (2 * 3) 2 2), Keeps 12 l → ∃ tiny share : ℝ, 0 < tiny ∧
      Calm ⟨1 / 10, 4, 12, 4, 3, tiny, share⟩ (chPar (lattice 1 (-4) false 3 2 true true) dt)
        (freeElectron eig (lattice 1 (-4) false 3 2 true true).h1 (by norm_num) (by norm_num)) qr l [] 12
        (fun _ => start (freeElectron eig (lattice 1 (-4) false 3 2 true true).h1 (by norm_num) (by norm_num))) := by
  obtain ⟨eig, he, hr⟩ := realEig_exists (2 * 3)
  have hh := lattice_plain 1 (-4) false 3 2 true true
  have hψ := cols_paired he hr hh (n := 2) (by norm_num)
  refine ⟨eig, someQR _, he, hr, someQR_spec _, hh, hψ, _, clear_countable (lattice 1 (-4) false 3 2 true true)
    (by norm_num [lattice]) hψ.indep, fun dt hdt hZ l hK => ?_⟩
  have hc : Clear (chPar (lattice 1 (-4) false 3 2 true true) dt) (freeElectron eig (lattice 1 (-4) false 3 2 true true).h1 (by norm_num) (by norm_num) : Wfn (2 * 3) 2 2) := by
    by_contra hcon
    exact hZ ⟨hdt, hcon⟩
  have hn : 0 < (⟨1 / 10, 4, 12, 4, 3, 0, 1⟩ : Ctl).num := by norm_num [Ctl.num]
  have hev := calm_eventually (twin_cone hh hψ hc) (someQR_spec _) (twin_kept hc (someQR_spec _)) ⟨1 / 10, 4, 12, 4, 3, 0, 1⟩ (by norm_num) hn l [] 12
    (fun _ => start _) hK (fun _ => rfl) (by norm_num) fun _ => start_ready (twin_start hψ)
  obtain ⟨b, hb, hb0⟩ := (hev.and self_mem_nhdsWithin).exists
  exact ⟨b, b⁻¹, hb0, hb b b⁻¹ le_rfl le_rfl⟩

end Verif.HubRun
