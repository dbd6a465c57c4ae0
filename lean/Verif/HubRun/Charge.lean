import Verif.HubRun.Calm
import Verif.HolStep.Step

/-!
# Attractive interaction with the charge decomposition: C122

For an attractive interaction the spin decomposition has no real `gamma` (`numpy.arccosh` of a number below one), and
`charge_decomposition` is the option to use.  The factors that complete it cancel (C31), so a step projects with another interaction,
which tends to the right one for short steps.
-/

namespace Verif.HubRun

open Matrix Finset Filter Topology
open Verif.Slater
open Verif.Hirsch
open Verif.Fields (Proc Ground Hops avg stepOp)
open Verif.Step (Hub spin spinOp hubOp Anti prodState orbs)
open Verif.Uhf (Eig Eigh Inp Orbs Random build)

variable {nb nu nd : Nat}

/-- `gamma` of the charge decomposition for an attractive interaction, where the argument of `numpy.arccosh` is at least one (hubbard.py
line 68). -/
noncomputable def chargeGamma (dt U : ℝ) : ℝ := Real.arcosh (Real.exp (-(dt * U / 2)))

theorem chargeGamma_spec {dt U : ℝ} (h : dt * U ≤ 0) : IsChargeGamma dt U (chargeGamma dt U) := by
  have := Real.cosh_arcosh (Real.one_le_exp (show (0 : ℝ) ≤ -(dt * U / 2) by linarith))
  rw [IsChargeGamma, chargeGamma, ← Complex.ofReal_cosh, this]
  push_cast
  rfl

/-- The propagator of `hubbard.py` 67-73, 79-80 and 58-61 for the charge decomposition. -/
noncomputable def chPar (h : Hub nb) (dt : ℝ) : Par nb :=
  chargePar dt h.U (chargeGamma dt h.U) fun s => NormedSpace.exp (-((dt : ℂ) / 2) • h.h1 s)

/-- The interaction with which a step of the charge decomposition projects. -/
noncomputable def effU (dt U : ℝ) : ℝ := -Real.log (2 - Real.exp (dt * U)) / dt

theorem effU_spec {dt U : ℝ} (h : dt * U ≤ 0) : Real.exp (-(dt * effU dt U)) = 2 - Real.exp (dt * U) := by
  have h1 : Real.exp (dt * U) ≤ 1 := Real.exp_le_one_iff.2 h
  rcases eq_or_ne dt 0 with rfl | hd
  · norm_num
  · rw [effU, mul_div_cancel₀ _ hd, neg_neg, Real.exp_log (by linarith)]

theorem charge_avg {dt U : ℝ} {γ : ℂ} (hγ : IsChargeGamma dt U γ) (bt2 : Fin 2 → Matrix (Fin nb) (Fin nb) ℂ) (n0 n1 : Fin 2) :
    avg (chargePar dt U γ bt2).auxf n0 n1 =
      Complex.exp (-(dt * U)) ^ ((n0 : Nat) + n1) * if n0 = 1 ∧ n1 = 1 then 2 - Complex.exp (dt * U) else 1 := by
  have hcc : Complex.exp γ + Complex.exp (-γ) = 2 * Complex.exp (-(dt * U / 2)) := by
    rw [← hγ, Complex.cosh]
    ring
  have hg : Complex.exp γ * Complex.exp (-γ) = 1 := by rw [← Complex.exp_add]; simp
  have hE : Complex.exp (-(dt * U / 2)) * Complex.exp (-(dt * U / 2)) = Complex.exp (-(dt * U)) := by
    rw [← Complex.exp_add]; congr 1; ring
  have hEE : Complex.exp (-(dt * U)) * Complex.exp (dt * U) = 1 := by rw [← Complex.exp_add]; simp
  simp only [avg, Fin.sum_univ_two, chargePar, chargeAux]
  generalize Complex.exp γ = a at *
  generalize Complex.exp (-γ) = b at *
  generalize Complex.exp (-(dt * U / 2)) = c at *
  generalize Complex.exp (-(dt * U)) = E at *
  generalize Complex.exp (dt * U) = E' at *
  fin_cases n0 <;> fin_cases n1
  · simp; norm_num
  · simp; linear_combination (1 / 2) * c * hcc + hE
  · simp; linear_combination (1 / 2) * c * hcc + hE
  · simp
    linear_combination ((1 / 2) * c ^ 2 * (a + b + 2 * c)) * hcc - c ^ 2 * hg + (2 * c ^ 2 + 2 * E - 1) * hE + E * hEE

/-- **C122** (one step) A step of the charge decomposition projects with the interaction `effU`, with a factor for every electron. -/
theorem charge_steps (h : Hub nb) {dt : ℝ} (hU : dt * h.U ≤ 0) {psi : Wfn nb nu nd} {S : Wfn nb nu nd → Prop} (hS : Cone (chPar h dt) psi S) :
    Steps (chPar h dt) psi S (Complex.exp (-(dt * h.U)) ^ (nu + nd) • stepOf { h with U := effU dt h.U } dt) := by
  refine ⟨hS, ?_, fun e w hw v hv => ?_⟩
  · exact (stepOf_sym _ _).smul _
  · rw [step_average hS e hw fun φ => v ⬝ᵥ prodState (orbs φ)]
    congr 1
    have hE : Complex.exp (-(dt * h.U)) ≠ 0 := Complex.exp_ne_zero _
    have hγ := chargeGamma_spec hU
    set A := (chargePar dt h.U (chargeGamma dt h.U) fun s => NormedSpace.exp (-((dt : ℂ) / 2) • h.h1 s)).auxf with hA
    set B : Fin 2 → Fin 2 → ℂ := fun xi s => (Complex.exp (-(dt * h.U)))⁻¹ * A xi s with hB
    have hs : ∀ n0 n1 : Nat, avg A n0 n1 = Complex.exp (-(dt * h.U)) ^ (n0 + n1) * avg B n0 n1 := by
      intro n0 n1
      simp only [avg, hB, mul_pow, mul_sum]
      refine sum_congr rfl fun x _ => ?_
      rw [pow_add, inv_pow, inv_pow]
      field_simp
    have he : Complex.exp (-(dt * (effU dt h.U : ℂ))) = 2 - Complex.exp (dt * h.U) := by
      have := effU_spec hU
      exact_mod_cast congrArg (fun x : ℝ => (x : ℂ)) this
    have hb : ∀ n0 n1 : Fin 2, avg B n0 n1 = Complex.exp (-(dt * (effU dt h.U : ℂ) * (n0 : Nat) * (n1 : Nat))) := by
      intro n0 n1
      rw [Hirsch.exp_occ, he]
      have h1 := charge_avg hγ (fun s => NormedSpace.exp (-((dt : ℂ) / 2) • h.h1 s)) n0 n1
      rw [← hA, hs] at h1
      exact mul_left_cancel₀ (pow_ne_zero _ hE) h1
    rw [Fields.field_average, show (chPar h dt).auxf = A from rfl, HolStep.stepOp_scale _ _ _ hs, Matrix.smul_mulVec, Matrix.smul_mulVec,
      dotProduct_smul, dotProduct_smul, Matrix.dotProduct_mulVec,
      show (chPar h dt).bt2 = fun s => NormedSpace.exp (-((dt : ℂ) / 2) • h.h1 s) from rfl,
      Fields.stepOp_anti B dt (effU dt h.U) h.h1 hb v hv, ← Matrix.dotProduct_mulVec]
    rfl

/-! ## Many short steps -/

section
variable {κ : Type} [Fintype κ] [DecidableEq κ]

attribute [local instance] Matrix.linftyOpNormedRing Matrix.linftyOpNormedAlgebra

theorem norm_exp_sub_one {𝔸 : Type*} [NormedRing 𝔸] [NormedAlgebra ℂ 𝔸] [CompleteSpace 𝔸] (Y : 𝔸) :
    ‖NormedSpace.exp Y - 1‖ ≤ ‖Y‖ * Real.exp ‖Y‖ := by
  have h := (hasSum_nat_add_iff' 1).2 (NormedSpace.exp_series_hasSum_exp' (𝕂 := ℂ) Y)
  have hg : HasSum (fun n : ℕ => ‖Y‖ * (‖Y‖ ^ n / n.factorial)) (‖Y‖ * Real.exp ‖Y‖) := by
    rw [Real.exp_eq_exp_ℝ]
    exact (NormedSpace.expSeries_div_hasSum_exp ‖Y‖).mul_left _
  have hb := h.norm_le_of_bounded hg fun n => ?_
  · simpa using hb
  · rw [norm_smul, norm_inv, RCLike.norm_natCast]
    have h1 : ‖Y ^ (n + 1)‖ ≤ ‖Y‖ ^ (n + 1) := norm_pow_le' Y (Nat.succ_pos n)
    have h2 : ((n.factorial : ℕ) : ℝ) ≤ ((n + 1).factorial : ℕ) := by exact_mod_cast Nat.factorial_le (Nat.le_succ n)
    have h3 : (0 : ℝ) < n.factorial := by exact_mod_cast n.factorial_pos
    calc (((n + 1).factorial : ℕ) : ℝ)⁻¹ * ‖Y ^ (n + 1)‖ ≤ ((n.factorial : ℕ) : ℝ)⁻¹ * ‖Y‖ ^ (n + 1) :=
          mul_le_mul (inv_anti₀ h3 h2) h1 (norm_nonneg _) (inv_nonneg.2 h3.le)
      _ = ‖Y‖ * (‖Y‖ ^ n / n.factorial) := by rw [pow_succ]; ring

/-- Many short symmetric steps with a coupling that tends to the right one. -/
theorem strang_limit_coupling (A C : Matrix κ κ ℂ) {β : ℝ} (hβ : 0 ≤ β) (U : ℝ) (u : Nat → ℝ)
    (hu : Tendsto (fun N => β * |u N - U|) atTop (𝓝 0)) : Tendsto (fun N : Nat =>
    (NormedSpace.exp (-(((β / (N + 1 : Nat) : ℝ) : ℂ) / 2) • A) * NormedSpace.exp (-((β / (N + 1 : Nat) : ℝ) : ℂ) • ((u N : ℂ) • C)) *
      NormedSpace.exp (-(((β / (N + 1 : Nat) : ℝ) : ℂ) / 2) • A)) ^ (N + 1)) atTop
    (𝓝 (NormedSpace.exp (-(β : ℂ) • (A + (U : ℂ) • C)))) := by
  have hlim := Fields.strang_limit A ((U : ℂ) • C) hβ
  obtain ⟨M, hM⟩ : ∃ M, ∀ N, β * |u N - U| ≤ M := by
    obtain ⟨M, hM⟩ := hu.bddAbove_range
    exact ⟨M, fun N => hM ⟨N, rfl⟩⟩
  have hM0 : 0 ≤ M := (mul_nonneg hβ (abs_nonneg _)).trans (hM 0)
  set K : ℝ := β * ‖A‖ + β * |U| * ‖C‖ + M * ‖C‖ with hK
  have hAn := norm_nonneg A
  have hCn := norm_nonneg C
  have hK0 : 0 ≤ K := by positivity
  refine tendsto_of_tendsto_of_dist hlim ?_
  refine squeeze_zero (fun _ => dist_nonneg) (fun N => ?_)
    (show Tendsto (fun N => Real.exp K * (Real.exp K * (Real.exp K * (β * |u N - U| * ‖C‖)))) atTop (𝓝 0) from ?_)
  swap
  · simpa using (((hu.mul_const ‖C‖).const_mul (Real.exp K)).const_mul (Real.exp K)).const_mul (Real.exp K)
  rw [dist_eq_norm, norm_sub_rev]
  have hN : (0 : ℝ) < ((N + 1 : Nat) : ℝ) := Nat.cast_pos.2 (Nat.succ_pos N)
  have hN1 : (1 : ℝ) ≤ ((N + 1 : Nat) : ℝ) := by exact_mod_cast Nat.succ_pos N
  set τ : ℝ := β / ((N + 1 : Nat) : ℝ) with hτ
  have hτ0 : 0 ≤ τ := div_nonneg hβ hN.le
  have hNτ : ((N + 1 : Nat) : ℝ) * τ = β := mul_div_cancel₀ _ hN.ne'
  have hτβ : τ ≤ β := by nlinarith
  set E := NormedSpace.exp (-((τ : ℂ) / 2) • A) with hE
  have nE : ‖E‖ ≤ Real.exp (τ / 2 * ‖A‖) := by
    refine (Grand.norm_exp_le _).trans (Real.exp_le_exp.2 ?_)
    rw [norm_smul, norm_neg, norm_div, Complex.norm_real, Real.norm_eq_abs, abs_of_nonneg hτ0]
    simp
  have nV : ∀ x : ℝ, ‖NormedSpace.exp (-(τ : ℂ) • ((x : ℂ) • C))‖ ≤ Real.exp (τ * |x| * ‖C‖) := by
    intro x
    refine (Grand.norm_exp_le _).trans (Real.exp_le_exp.2 ?_)
    rw [norm_smul, norm_smul, norm_neg, Complex.norm_real, Complex.norm_real, Real.norm_eq_abs, Real.norm_eq_abs, abs_of_nonneg hτ0,
      mul_assoc]
  have hδ : ((N + 1 : Nat) : ℝ) * (τ * |u N - U|) ≤ M := by
    rw [← mul_assoc, hNτ]
    exact hM N
  have hr : ∀ x : ℝ, |x| ≤ |U| + |u N - U| → ‖E * NormedSpace.exp (-(τ : ℂ) • ((x : ℂ) • C)) * E‖ ≤ Real.exp (K / ((N + 1 : Nat) : ℝ)) := by
    intro x hx
    have e : Real.exp (τ / 2 * ‖A‖) * Real.exp (τ * |x| * ‖C‖) * Real.exp (τ / 2 * ‖A‖) = Real.exp (τ * ‖A‖ + τ * |x| * ‖C‖) := by
      rw [← Real.exp_add, ← Real.exp_add]
      congr 1
      ring
    refine (norm_mul_le _ _).trans ((mul_le_mul ((norm_mul_le _ _).trans (mul_le_mul nE (nV x) (norm_nonneg _) (Real.exp_pos _).le)) nE
      (norm_nonneg _) (by positivity)).trans (e.le.trans (Real.exp_le_exp.2 ?_)))
    rw [le_div_iff₀ hN, hK]
    have h1 : τ * |x| * ((N + 1 : Nat) : ℝ) ≤ β * |U| + M := by
      have h2 := mul_le_mul_of_nonneg_left hx (mul_nonneg hN.le hτ0)
      rw [mul_add, mul_assoc _ _ |u N - U|] at h2
      have h4 : ((N + 1 : Nat) : ℝ) * τ * |U| = β * |U| := by rw [hNτ]
      linarith
    have h3 := mul_le_mul_of_nonneg_right h1 hCn
    nlinarith
  have hr1 : 1 ≤ Real.exp (K / ((N + 1 : Nat) : ℝ)) := Real.one_le_exp (div_nonneg hK0 hN.le)
  have hu1 : |u N| ≤ |U| + |u N - U| := by
    have := abs_add_le U (u N - U)
    rwa [add_sub_cancel] at this
  have hp := Step.norm_pow_sub_pow_le (Step.norm_one_le_one (κ := κ)) hr1 (hr (u N) hu1) (hr U (le_add_of_nonneg_right (abs_nonneg _))) (N + 1)
  refine hp.trans ?_
  rw [← Real.exp_nat_mul, mul_div_cancel₀ _ hN.ne', mul_comm ((N + 1 : Nat) : ℝ), mul_assoc]
  refine mul_le_mul_of_nonneg_left ?_ (Real.exp_pos _).le
  -- one step
  have e1 : E * NormedSpace.exp (-(τ : ℂ) • ((u N : ℂ) • C)) * E - E * NormedSpace.exp (-(τ : ℂ) • ((U : ℂ) • C)) * E =
      E * NormedSpace.exp (-(τ : ℂ) • ((U : ℂ) • C)) * (NormedSpace.exp (-(τ : ℂ) • (((u N - U : ℝ) : ℂ) • C)) - 1) * E := by
    have : NormedSpace.exp (-(τ : ℂ) • ((u N : ℂ) • C)) =
        NormedSpace.exp (-(τ : ℂ) • ((U : ℂ) • C)) * NormedSpace.exp (-(τ : ℂ) • (((u N - U : ℝ) : ℂ) • C)) := by
      rw [← Matrix.exp_add_of_commute, ← smul_add, ← add_smul]
      · push_cast
        rw [add_sub_cancel]
      · exact ((((Commute.refl C).smul_left _).smul_right _).smul_left _).smul_right _
    rw [this]
    noncomm_ring
  set y := τ * |u N - U| * ‖C‖ with hy
  have hy0 : 0 ≤ y := by positivity
  have nD : ‖NormedSpace.exp (-(τ : ℂ) • (((u N - U : ℝ) : ℂ) • C)) - 1‖ ≤ y * Real.exp y := by
    have e : ‖-(τ : ℂ) • (((u N - U : ℝ) : ℂ) • C)‖ = y := by
      rw [norm_smul, norm_smul, norm_neg, Complex.norm_real, Complex.norm_real, Real.norm_eq_abs, Real.norm_eq_abs, abs_of_nonneg hτ0, hy,
        mul_assoc]
    have := norm_exp_sub_one (-(τ : ℂ) • (((u N - U : ℝ) : ℂ) • C))
    rwa [e] at this
  have hyK : y ≤ K := by
    have : τ * |u N - U| ≤ M := by
      have h0 : 0 ≤ τ * |u N - U| := by positivity
      nlinarith
    have h3 := mul_le_mul_of_nonneg_right this hCn
    have : 0 ≤ β * ‖A‖ + β * |U| * ‖C‖ := by positivity
    rw [hK, hy]
    linarith
  rw [e1]
  have hb : ‖E * NormedSpace.exp (-(τ : ℂ) • ((U : ℂ) • C)) * (NormedSpace.exp (-(τ : ℂ) • (((u N - U : ℝ) : ℂ) • C)) - 1) * E‖ ≤
      Real.exp (τ / 2 * ‖A‖) * Real.exp (τ * |U| * ‖C‖) * (y * Real.exp y) * Real.exp (τ / 2 * ‖A‖) := by
    refine (norm_mul_le _ _).trans (mul_le_mul ((norm_mul_le _ _).trans (mul_le_mul ((norm_mul_le _ _).trans
      (mul_le_mul nE (nV U) (norm_nonneg _) (Real.exp_pos _).le)) nD (norm_nonneg _) (by positivity))) nE (norm_nonneg _) (by positivity))
  have hc : Real.exp (τ / 2 * ‖A‖) * Real.exp (τ * |U| * ‖C‖) * (y * Real.exp y) * Real.exp (τ / 2 * ‖A‖) =
      Real.exp (τ * ‖A‖ + τ * |U| * ‖C‖) * (Real.exp y * y) := by
    rw [show τ * ‖A‖ + τ * |U| * ‖C‖ = τ / 2 * ‖A‖ + τ * |U| * ‖C‖ + τ / 2 * ‖A‖ by ring, Real.exp_add, Real.exp_add]
    ring
  have hd : Real.exp (τ * ‖A‖ + τ * |U| * ‖C‖) ≤ Real.exp K := by
    refine Real.exp_le_exp.2 ?_
    have h1 := mul_le_mul_of_nonneg_right hτβ hAn
    have h2 := mul_le_mul_of_nonneg_right hτβ (mul_nonneg (abs_nonneg U) hCn)
    have h3 : 0 ≤ M * ‖C‖ := by positivity
    rw [hK]
    nlinarith
  have he : Real.exp y ≤ Real.exp K := Real.exp_le_exp.2 hyK
  calc ((N + 1 : Nat) : ℝ) * ‖_‖ ≤ ((N + 1 : Nat) : ℝ) * (Real.exp K * (Real.exp K * y)) := by
        refine mul_le_mul_of_nonneg_left (hb.trans (hc.le.trans ?_)) hN.le
        exact mul_le_mul hd (mul_le_mul_of_nonneg_right he hy0) (by positivity) (Real.exp_pos _).le
    _ = Real.exp K * (Real.exp K * (β * |u N - U| * ‖C‖)) := by
        rw [hy, ← hNτ]
        ring

end

/-- The interaction of a step tends to that of the Hamiltonian. -/
theorem effU_tendsto (U : ℝ) {β : ℝ} (hβ : 0 ≤ β) : Tendsto (fun N : Nat => β * |effU (β / ((N + 1 : Nat) : ℝ)) U - U|) atTop (𝓝 0) := by
  rcases hβ.eq_or_lt with rfl | hβ
  · simp
  have hd : HasDerivAt (fun x : ℝ => -Real.log (2 - Real.exp (x * U))) U 0 := by
    have h1 : HasDerivAt (fun x : ℝ => 2 - Real.exp (x * U)) (-(Real.exp (0 * U) * (1 * U))) 0 :=
      (((hasDerivAt_id (0 : ℝ)).mul_const U).exp).const_sub 2
    have h2 := (h1.log (by norm_num)).neg
    refine h2.congr_deriv ?_
    norm_num
  have h1 := hasDerivAt_iff_tendsto_slope.1 hd
  have hz : Tendsto (fun N : Nat => β / ((N + 1 : Nat) : ℝ)) atTop (𝓝[≠] 0) := by
    refine tendsto_nhdsWithin_iff.2 ⟨(tendsto_const_div_atTop_nhds_zero_nat (𝕜 := ℝ) β).comp (tendsto_add_atTop_nat 1), ?_⟩
    exact Eventually.of_forall fun N => (div_pos hβ (Nat.cast_pos.2 (Nat.succ_pos N))).ne'
  have h2 : Tendsto (fun N : Nat => effU (β / ((N + 1 : Nat) : ℝ)) U) atTop (𝓝 U) := by
    refine (h1.comp hz).congr fun N => ?_
    have hl : Real.log (2 - 1) = 0 := by norm_num
    simp only [Function.comp, slope, vsub_eq_sub, sub_zero, effU, zero_mul, Real.exp_zero, smul_eq_mul, hl, neg_zero]
    rw [div_eq_inv_mul (-Real.log _)]
  have := ((h2.sub_const U).abs).const_mul β
  simpa using this

/-! ## Runs -/

theorem charge_aux_pos (h : Hub nb) (dt : ℝ) (xi s : Fin 2) : IsPos ((chPar h dt).auxf xi s) := by
  have e : (chPar h dt).auxf xi s = chargeAux (chargeGamma dt h.U) xi s * Complex.exp (-(dt * h.U / 2)) := rfl
  rw [e]
  refine IsPos.mul ?_ ?_
  · rw [chargeAux]
    split_ifs
    · exact IsPos.exp _
    · have := IsPos.exp (-chargeGamma dt h.U)
      rwa [Complex.ofReal_neg] at this
  · have := IsPos.exp (-(dt * h.U / 2))
    push_cast at this
    exact this

theorem charge_wfac_pos (h : Hub nb) (dt : ℝ) (xi : Fin 2) : IsPos ((chPar h dt).wfac xi) := by
  have e : (chPar h dt).wfac xi = chargeWfac dt h.U (chargeGamma dt h.U) xi := rfl
  rw [e, chargeWfac]
  refine IsPos.mul ?_ ?_
  · have := IsPos.exp (dt * h.U / 2)
    push_cast at this
    exact this
  · split_ifs
    · have := IsPos.exp (-chargeGamma dt h.U)
      rwa [Complex.ofReal_neg] at this
    · exact IsPos.exp _

theorem signFree_charge (h : Hub nb) {dt : ℝ} (hdt : 0 ≤ dt) (h0 : Hops (h.h1 0) nu) (h1 : Hops (h.h1 1) nd) (hnu : nu ≤ nb) (hnd : nd ≤ nb)
    {c c' : ℂ} {psi : Wfn nb nu nd} (hψ : SignFree c c' psi) : Cone (chPar h dt) psi (SignFree c c') := by
  have hc := signFree_cone h hdt h0 h1 hnu hnd hψ
  refine ⟨hc.pos, hc.kin, fun φ hφ i xi => ?_, charge_wfac_pos h dt⟩
  have hd : ∀ s j, IsPos (if j = i then (chPar h dt).auxf xi s else 1 : ℂ) := by
    intro s j
    split_ifs
    · exact charge_aux_pos h dt xi s
    · exact ⟨1, one_pos, by simp⟩
  rw [rowStep_diag]
  refine ⟨?_, ?_⟩
  · rw [up_join]
    exact hφ.1.diagonal (hd 0)
  · rw [dn_join]
    exact hφ.2.diagonal (hd 1)

theorem hubOp_coupling (U : ℂ) : (hubOp (fun _ => 0) U spin : Matrix (Fin nu ⊕ Fin nd → Fin nb) _ ℂ) = U • hubOp (fun _ => 0) 1 spin := by
  have : (∑ a : Fin nu ⊕ Fin nd, Step.onP a (0 : Matrix (Fin nb) (Fin nb) ℂ)) = 0 := Step.allP_zero
  rw [hubOp, hubOp, this, zero_add, zero_add, one_smul]

/-- **C122** Runs of populations with an attractive interaction and the charge decomposition, without a sign problem in the hops. -/
theorem charge_popExact (h : Hub nb) (hU : h.U ≤ 0) (hT : ∀ s, (h.h1 s)ᴴ = h.h1 s) (h0 : Hops (h.h1 0) nu)
    (h1 : Hops (h.h1 1) nd) (hnu : nu ≤ nb) (hnd : nd ≤ nb) {c c' : ℂ} {psi : Wfn nb nu nd} (hψ : SignFree c c' psi) {qr : QR nb}
    (hqr : QRSpec qr) : PopExact h (chPar h) psi qr := by
  obtain ⟨hden, E0, hE0, hlim⟩ := Fields.ground hT h0 h1 h.U hnu hnd hψ hψ
  refine ⟨E0, hE0, exactEnergy h psi psi, fun β hβ c l T hc hev hcalm => ?_, hlim⟩
  have hdt : ∀ N : Nat, 0 ≤ β / ((N + 1 : Nat) : ℝ) := fun N => div_nonneg hβ (Nat.cast_nonneg _)
  have hY := strang_limit_coupling (spinOp spin h.h1) (hubOp (fun _ => 0) 1 (spin : Fin nu ⊕ Fin nd → Fin 2)) hβ h.U _ (effU_tendsto h.U hβ)
  simp only [← hubOp_coupling] at hY
  rw [← hubOp_split] at hY
  exact pop_tendsto h hqr (signFree_kept hqr hnu hnd) _ (fun N => Complex.exp (-((β / ((N + 1 : Nat) : ℝ) : ℝ) * h.U)) ^ (nu + nd))
    (fun N => pow_ne_zero _ (Complex.exp_ne_zero _))
    (fun N => stepOf { h with U := effU (β / ((N + 1 : Nat) : ℝ)) h.U } (β / ((N + 1 : Nat) : ℝ)))
    (fun N => charge_steps h (mul_nonpos_of_nonneg_of_nonpos (hdt N) hU) (signFree_charge h (hdt N) h0 h1 hnu hnd hψ)) hY c hc l hev T
    (fun _ _ => rfl) (start_ready hψ) hcalm (hden β hβ)

section

variable {nx : Nat}

/-- **C122** Open chains, free-electron trial. -/
theorem charge_open_free {t U : ℝ} (ht : 0 < t) (hU : U ≤ 0) (sy : Bool) (hn : 2 ≤ nx) (ks : Option (List ℝ)) (ypbc : Bool)
    (hu : nu ≤ 1 * nx) (hd : nd ≤ 1 * nx) {eig : Eig (1 * nx)} (he : Eigh eig) {qr : QR (1 * nx)} (hqr : QRSpec qr) :
    PopExact (chain t U sy nx ks false ypbc) (chPar (chain t U sy nx ks false ypbc)) (freeElectron eig (chain t U sy nx ks false ypbc).h1 hu hd) qr := by
  have hf := fit_open ht U sy hn ks ypbc nu nd
  have hT := chain_herm t U sy nx ks false ypbc
  obtain ⟨c, c', hψ⟩ := freeElectron_signFree hf hT he hu hd
  exact charge_popExact _ hU hT hf.up hf.dn hu hd hψ hqr

/-- **C122** Rings with odd numbers of electrons of both spins, free-electron trial. -/
theorem charge_ring_free {t U : ℝ} (ht : 0 < t) (hU : U ≤ 0) (sy : Bool) (hn : 2 ≤ nx) (ypbc : Bool) (ou : Odd nu) (od : Odd nd)
    (hu : nu ≤ 1 * nx) (hd : nd ≤ 1 * nx) {eig : Eig (1 * nx)} (he : Eigh eig) {qr : QR (1 * nx)} (hqr : QRSpec qr) :
    PopExact (chain t U sy nx none true ypbc) (chPar (chain t U sy nx none true ypbc)) (freeElectron eig (chain t U sy nx none true ypbc).h1 hu hd) qr := by
  have hf := fit_ring ht U sy hn ypbc ou od
  have hT := chain_herm t U sy nx none true ypbc
  obtain ⟨c, c', hψ⟩ := freeElectron_signFree hf hT he hu hd
  exact charge_popExact _ hU hT hf.up hf.dn hu hd hψ hqr

/-- **C122** Open chains, UHF trial. -/
theorem charge_open_uhf {t U : ℝ} (ht : 0 < t) (hU : U ≤ 0) (sy : Bool) (hn : 2 ≤ nx) (ks : Option (List ℝ)) (ypbc : Bool)
    {I : Inp (1 * nx) nu nd} (hI : I.T = (chain t U sy nx ks false ypbc).h1) {eig : Eig (1 * nx)} (he : Eigh eig) (hd : 0 ≤ I.deps)
    {Rs : List (Random (1 * nx))} {o : Orbs (1 * nx) nu nd} {emin etrial : ℝ} (hb : build I eig Rs = some (o, emin, etrial))
    {qr : QR (1 * nx)} (hqr : QRSpec qr) : PopExact (chain t U sy nx ks false ypbc) (chPar (chain t U sy nx ks false ypbc)) (join o.up o.dn) qr := by
  have hf := fit_open ht U sy hn ks ypbc nu nd
  have hT := chain_herm t U sy nx ks false ypbc
  obtain ⟨c, c', hψ⟩ := uhf_signFree hI hf hT he hd hb
  exact charge_popExact _ hU hT hf.up hf.dn I.hu I.hd hψ hqr

/-- **C122** Rings, UHF trial. -/
theorem charge_ring_uhf {t U : ℝ} (ht : 0 < t) (hU : U ≤ 0) (sy : Bool) (hn : 2 ≤ nx) (ypbc : Bool) (ou : Odd nu) (od : Odd nd)
    {I : Inp (1 * nx) nu nd} (hI : I.T = (chain t U sy nx none true ypbc).h1) {eig : Eig (1 * nx)} (he : Eigh eig) (hd : 0 ≤ I.deps)
    {Rs : List (Random (1 * nx))} {o : Orbs (1 * nx) nu nd} {emin etrial : ℝ} (hb : build I eig Rs = some (o, emin, etrial))
    {qr : QR (1 * nx)} (hqr : QRSpec qr) : PopExact (chain t U sy nx none true ypbc) (chPar (chain t U sy nx none true ypbc)) (join o.up o.dn) qr := by
  have hf := fit_ring ht U sy hn ypbc ou od
  have hT := chain_herm t U sy nx none true ypbc
  obtain ⟨c, c', hψ⟩ := uhf_signFree hI hf hT he hd hb
  exact charge_popExact _ hU hT hf.up hf.dn I.hu I.hd hψ hqr

end

/-- **C122** At a finite step the interaction of the steps is not that of the Hamiltonian. -/
theorem effU_ne {dt U : ℝ} (h : dt * U < 0) : dt * U < dt * effU dt U := by
  have h1 := effU_spec h.le
  have hx : Real.exp (dt * U) < 1 := Real.exp_lt_one_iff.2 h
  have h2 : Real.exp (-(dt * effU dt U)) < Real.exp (-(dt * U)) := by
    rw [h1, Real.exp_neg, ← one_div, lt_div_iff₀ (Real.exp_pos _)]
    nlinarith [sq_nonneg (1 - Real.exp (dt * U)), mul_pos (sub_pos.2 hx) (sub_pos.2 hx)]
  have := Real.exp_lt_exp.1 h2
  linarith

/-- **C122** For an attractive interaction the spin decomposition has no real `gamma`: the argument of `numpy.arccosh` in hubbard.py line
75 is below one. -/
theorem no_spin_gamma {dt U : ℝ} (h : dt * U < 0) : ¬∃ γ : ℝ, Real.cosh γ = Real.exp (dt * U / 2) := by
  rintro ⟨γ, hγ⟩
  have h1 := Real.one_le_cosh γ
  have h2 : Real.exp (dt * U / 2) < 1 := Real.exp_lt_one_iff.2 (by linarith)
  linarith

/-- The free-electron trial of an attractive ring of six sites with 3 + 1 electrons. -/
noncomputable def ringTrial (eig : Eig (1 * 6)) : Wfn (1 * 6) 3 1 :=
  freeElectron eig (chain 1 (-4) false 6 none true true).h1 (by norm_num) (by norm_num)

/-- **C122** Case: an attractive ring of six sites with 3 + 1 electrons, twelve walkers on three ranks.  For any sequence of steps,
population controls, reorthogonalisations and restarts with twelve walkers there are thresholds for which nothing drastic happens, and the energies converge as
described. -/
theorem charge_case : ∃ (eig : Eig (1 * 6)) (qr : QR (1 * 6)), Eigh eig ∧ QRSpec qr ∧
    PopExact (chain 1 (-4) false 6 none true true) (chPar (chain 1 (-4) false 6 none true true)) (ringTrial eig) qr ∧
    ∀ (dt : ℝ) (l : List (Ev (1 * 6) 3 1)), 0 ≤ dt → Keeps 12 l → ∃ tiny share : ℝ, 0 < tiny ∧
      Calm ⟨1 / 10, 4, 12, 4, 3, tiny, share⟩ (chPar (chain 1 (-4) false 6 none true true) dt) (ringTrial eig) qr l [] 12
        (fun _ => start (ringTrial eig)) := by
  obtain ⟨eig, he⟩ := Uhf.eigh_exists (1 * 6)
  have o1 : Odd 3 := ⟨1, rfl⟩
  have o2 : Odd 1 := ⟨0, rfl⟩
  refine ⟨eig, someQR _, he, someQR_spec _, charge_ring_free one_pos (by norm_num) false (by norm_num) true o1 o2 (by norm_num) (by norm_num) he
    (someQR_spec _), fun dt l hdt hK => ?_⟩
  have hf := fit_ring (t := 1) one_pos (-4) false (by norm_num : 2 ≤ 6) true o1 o2
  have hT := chain_herm 1 (-4) false 6 none true true
  obtain ⟨c, c', hψ⟩ := freeElectron_signFree hf hT he (by norm_num : 3 ≤ 1 * 6) (by norm_num : 1 ≤ 1 * 6)
  have hS := signFree_charge _ hdt hf.up hf.dn (by norm_num) (by norm_num) hψ
  have hk := signFree_kept (someQR_spec (1 * 6)) (by norm_num : 3 ≤ 1 * 6) (by norm_num : 1 ≤ 1 * 6) (c := c) (c' := c')
  have hn : 0 < (⟨1 / 10, 4, 12, 4, 3, 0, 1⟩ : Ctl).num := by norm_num [Ctl.num]
  have hev := calm_eventually hS (someQR_spec _) hk ⟨1 / 10, 4, 12, 4, 3, 0, 1⟩ (by norm_num) hn l [] 12
    (fun _ => start (ringTrial eig)) hK (fun _ => rfl) (by norm_num) fun _ => start_ready hψ
  obtain ⟨b, hb, hb0⟩ := (hev.and self_mem_nhdsWithin).exists
  exact ⟨b, b⁻¹, hb0, hb b b⁻¹ le_rfl le_rfl⟩

end Verif.HubRun
