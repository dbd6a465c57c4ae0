import Verif.Holstein.Steps
import Verif.Holstein.Oscillator
import Verif.Util.StepIntegral
import Mathlib.MeasureTheory.Integral.Pi
import Mathlib.MeasureTheory.Integral.Prod
import Mathlib.Analysis.SpecialFunctions.Gaussian.GaussianIntegral
import Mathlib.MeasureTheory.Group.Integral

/-!
# C96: the first coordinates of the walkers are sampled from the square of the trial
-/

namespace Verif.Holstein

open MeasureTheory ProbabilityTheory

variable {n : Nat}

/-- Normal variables for all sites. -/
noncomputable def normals (n : Nat) : Measure (Fin n → ℝ) := Measure.pi fun _ => gaussianReal 0 1

instance : IsProbabilityMeasure (normals n) := by unfold normals; infer_instance

instance : (gaussianReal 0 1).IsNegInvariant := ⟨by
  have := gaussianReal_map_neg (μ := 0) (v := 1)
  rw [neg_zero] at this
  exact this⟩

instance : (normals n).IsNegInvariant := by unfold normals; infer_instance

/-- Averages of an antisymmetric function of the old and the new place vanish. -/
theorem antisymmetric_zero (σ : ℝ) (G : (Fin n → ℝ) → (Fin n → ℝ) → ℝ) (hG : ∀ x y, G x y = -G y x)
    (hi : Integrable (fun q : (Fin n → ℝ) × (Fin n → ℝ) => G q.1 (q.1 + σ • q.2)) (volume.prod (normals n))) :
    ∫ x, ∫ χ, G x (x + σ • χ) ∂normals n = 0 := by
  have h1 : ∫ x, ∫ χ, G x (x + σ • χ) ∂normals n = ∫ χ, (∫ x, G x (x + σ • χ)) ∂normals n :=
    integral_integral_swap hi
  have h2 : ∀ χ : Fin n → ℝ, ∫ x, G x (x + σ • χ) = -∫ x, G x (x + σ • -χ) := by
    intro χ
    rw [← integral_neg, ← integral_add_right_eq_self (fun x => G x (x + σ • χ)) (σ • -χ)]
    refine integral_congr_ae (Filter.Eventually.of_forall fun x => ?_)
    beta_reduce
    rw [hG, smul_neg, neg_add_cancel_right]
  have h3 : ∫ χ, (∫ x, G x (x + σ • χ)) ∂normals n = -∫ χ, (∫ x, G x (x + σ • χ)) ∂normals n := by
    conv_lhs => rw [← integral_neg_eq_self]
    rw [← integral_neg]
    refine integral_congr_ae (Filter.Eventually.of_forall fun χ => ?_)
    beta_reduce
    rw [h2, neg_neg]
  rw [h1]
  linarith

theorem value_measurable (o : Osc n) : Measurable o.value := by
  unfold Osc.value
  fun_prop

theorem value_sq_integrable (o : Osc n) (h : 0 < o.m * o.w) : Integrable fun X => o.value X ^ 2 := by
  have h1 : (fun X => o.value X ^ 2) = fun X : Fin n → ℝ => ∏ i, Real.exp (-(o.m * o.w) * (X i - o.shift i) ^ 2) := by
    funext X
    rw [Osc.value, ← Finset.prod_pow]
    refine Finset.prod_congr rfl fun i _ => ?_
    rw [← Real.exp_nat_mul]
    congr 1
    push_cast
    ring
  rw [h1]
  refine Integrable.fintype_prod (f := fun i x => Real.exp (-(o.m * o.w) * (x - o.shift i) ^ 2)) fun i => ?_
  exact (integrable_exp_neg_mul_sq h).comp_sub_right (o.shift i)

/-- Probability of the move. -/
theorem accept (p A B : ℝ) (hp : 0 ≤ p) : ∫ u in (0 : ℝ)..1, (if u < p then A else B) = min 1 p * A + (1 - min 1 p) * B := by
  rcases le_or_gt p 1 with h1 | h1
  · rw [StepIntegral.integral_step p A B hp h1, min_eq_right h1]
    ring
  · rw [min_eq_left h1.le, intervalIntegral.integral_congr (g := fun _ => A)]
    · simp
    · intro u hu
      rw [Set.uIcc_of_le zero_le_one] at hu
      exact if_pos (lt_of_le_of_lt hu.2 h1)

/-- **C96 (first coordinates)**: a Metropolis step of the walkers' set-up leaves the density `value²` as it is: the average of any bounded
function after a step from a place drawn from the density is its average over the density. -/
theorem metropolis_invariant (o : Osc n) (h : 0 < o.m * o.w) (f : (Fin n → ℝ) → ℝ) (hf : Measurable f) (C : ℝ) (hC : ∀ X, |f X| ≤ C) :
    ∫ X, (∫ χ, (∫ u in (0 : ℝ)..1, f (metropolis o χ u X)) ∂normals n) * o.value X ^ 2 = ∫ X, f X * o.value X ^ 2 := by
  set σ := Real.sqrt 0.005
  set G : (Fin n → ℝ) → (Fin n → ℝ) → ℝ := fun x y => min (o.value x ^ 2) (o.value y ^ 2) * (f y - f x) with hGdef
  have hG : ∀ x y, G x y = -G y x := by
    intro x y
    simp only [hGdef, min_comm (o.value x ^ 2)]
    ring
  have hv := value_measurable o
  have hle : ∀ x y, ‖G x y‖ ≤ o.value x ^ 2 * (2 * C) := by
    intro x y
    simp only [hGdef, Real.norm_eq_abs, abs_mul]
    refine mul_le_mul ?_ ?_ (abs_nonneg _) (by positivity)
    · rw [abs_of_nonneg (le_min (by positivity) (by positivity))]
      exact min_le_left _ _
    · have h1 := abs_le.mp (hC x)
      have h2 := abs_le.mp (hC y)
      rw [abs_le]
      constructor <;> linarith
  have hi : Integrable (fun q : (Fin n → ℝ) × (Fin n → ℝ) => G q.1 (q.1 + σ • q.2)) (volume.prod (normals n)) := by
    have hb : Integrable (fun q : (Fin n → ℝ) × (Fin n → ℝ) => o.value q.1 ^ 2 * (2 * C)) (volume.prod (normals n)) :=
      Integrable.mul_prod (value_sq_integrable o h) (integrable_const (2 * C))
    refine hb.mono' ?_ (Filter.Eventually.of_forall fun q => ?_)
    · refine Measurable.aestronglyMeasurable ?_
      simp only [hGdef]
      fun_prop
    · exact hle q.1 _
  have hstep : ∀ X, (∫ χ, (∫ u in (0 : ℝ)..1, f (metropolis o χ u X)) ∂normals n) * o.value X ^ 2 =
      ∫ χ, (G X (X + σ • χ) + f X * o.value X ^ 2) ∂normals n := by
    intro X
    rw [← integral_mul_const]
    refine integral_congr_ae (Filter.Eventually.of_forall fun χ => ?_)
    beta_reduce
    have hp := value_pos o X
    have hq := value_pos o (X + σ • χ)
    have hm : ∀ u, f (metropolis o χ u X) = if u < o.value (X + σ • χ) ^ 2 / o.value X ^ 2 then f (X + σ • χ) else f X := by
      intro u
      have : metropolis o χ u X = if u < o.value (X + σ • χ) ^ 2 / o.value X ^ 2 then X + σ • χ else X := by
        rw [sq, sq]
        rfl
      rw [this]
      split_ifs <;> rfl
    simp only [hm]
    rw [accept _ _ _ (by positivity)]
    simp only [hGdef]
    have hm' : min 1 (o.value (X + σ • χ) ^ 2 / o.value X ^ 2) * o.value X ^ 2 = min (o.value X ^ 2) (o.value (X + σ • χ) ^ 2) := by
      rw [min_mul_of_nonneg _ _ (by positivity), one_mul, div_mul_cancel₀ _ (by positivity)]
    rw [← hm']
    ring
  have hbd : ∀ X, Integrable (fun χ => G X (X + σ • χ)) (normals n) := by
    intro X
    refine Integrable.of_bound (C := o.value X ^ 2 * (2 * C)) (Measurable.aestronglyMeasurable ?_) (Filter.Eventually.of_forall fun χ => ?_)
    · simp only [hGdef]
      fun_prop
    · exact hle X _
  have hfv : Integrable fun X => f X * o.value X ^ 2 := by
    refine ((value_sq_integrable o h).mul_const C).mono' (Measurable.aestronglyMeasurable (by fun_prop))
      (Filter.Eventually.of_forall fun X => ?_)
    rw [Real.norm_eq_abs, abs_mul, abs_of_nonneg (sq_nonneg (o.value X)), mul_comm]
    exact mul_le_mul_of_nonneg_left (hC X) (sq_nonneg _)
  simp only [hstep]
  have hadd : ∀ X, ∫ χ, (G X (X + σ • χ) + f X * o.value X ^ 2) ∂normals n = (∫ χ, G X (X + σ • χ) ∂normals n) + f X * o.value X ^ 2 := by
    intro X
    rw [integral_add (hbd X) (integrable_const _)]
    simp
  simp only [hadd]
  rw [integral_add hi.integral_prod_left hfv, antisymmetric_zero σ G hG hi, zero_add]

end Verif.Holstein
