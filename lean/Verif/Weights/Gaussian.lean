import Verif.Weights.Model
import Mathlib.Analysis.SpecialFunctions.Gaussian.FourierTransform
import Mathlib.Tactic.LinearCombination

/-!
# Continuous auxiliary fields with force bias are unbiased: C70

The average over normally distributed fields of the factor `exp (cmf + cfb)` times the exponential of
the shifted fields does not depend on the force bias, whether rescaled or not, and is the exponential
of half the sum of squares of the operators less their mean-field values.
-/

namespace Verif.Weights

open MeasureTheory

/-- Density of `numpy.random.normal(0, 1, n)` (continuous.py line 131). -/
noncomputable def density {n : Nat} (xi : Fin n → ℝ) : ℝ :=
  ∏ i, Real.exp (-(xi i) ^ 2 / 2) / Real.sqrt (2 * Real.pi)

/-- The density is one of a probability distribution. -/
theorem integral_density (n : Nat) : ∫ xi : Fin n → ℝ, density xi = 1 := by
  unfold density
  rw [integral_fintype_prod_volume_eq_prod
    (f := fun (_ : Fin n) (x : ℝ) => Real.exp (-x ^ 2 / 2) / Real.sqrt (2 * Real.pi))]
  rw [Finset.prod_const]
  have : ∫ x : ℝ, Real.exp (-x ^ 2 / 2) / Real.sqrt (2 * Real.pi) = 1 := by
    rw [integral_div]
    have h := integral_gaussian (1 / 2)
    have h2 : (fun x : ℝ => Real.exp (-x ^ 2 / 2)) = fun x => Real.exp (-(1 / 2) * x ^ 2) := by
      funext x; ring_nf
    rw [h2, h]
    have h3 : Real.pi / (1 / 2) = 2 * Real.pi := by ring
    rw [h3, div_self]
    positivity
  rw [this, one_pow]

/-- One field. -/
theorem integral_one_field (b v : ℂ) :
    ∫ x : ℝ, ((Real.exp (-x ^ 2 / 2) / Real.sqrt (2 * Real.pi) : ℝ) : ℂ) *
      Complex.exp ((x : ℂ) * b - 1 / 2 * (b * b) + (x - b) * v) = Complex.exp (1 / 2 * v ^ 2) := by
  have hp : (0 : ℝ) < 2 * Real.pi := by positivity
  have hs : (Real.sqrt (2 * Real.pi) : ℂ) ≠ 0 := by
    exact_mod_cast (Real.sqrt_pos.mpr hp).ne'
  have h1 : (fun x : ℝ => ((Real.exp (-x ^ 2 / 2) / Real.sqrt (2 * Real.pi) : ℝ) : ℂ) *
      Complex.exp ((x : ℂ) * b - 1 / 2 * (b * b) + (x - b) * v)) =
      fun x : ℝ => (Real.sqrt (2 * Real.pi) : ℂ)⁻¹ *
        Complex.exp ((-(1 / 2 : ℂ)) * x ^ 2 + (b + v) * x + (-(1 / 2) * (b * b) - b * v)) := by
    funext x
    push_cast
    rw [div_mul_eq_mul_div, ← Complex.exp_add, div_eq_inv_mul]
    congr 2
    ring
  rw [h1, integral_const_mul, integral_cexp_quadratic (by norm_num)]
  have h2 : ((Real.pi : ℂ) / -(-(1 / 2 : ℂ))) ^ (1 / 2 : ℂ) = (Real.sqrt (2 * Real.pi) : ℂ) := by
    rw [Real.sqrt_eq_rpow, Complex.ofReal_cpow hp.le]
    push_cast
    congr 1
    ring
  rw [h2, ← mul_assoc, inv_mul_cancel₀ hs, one_mul]
  congr 1
  ring

/-- **C70**, scalar operators (all one-body operators evaluated in a joint eigenstate): for every
force bias, the average over the fields is the exact two-body factor. -/
theorem force_bias_unbiased {n : Nat} {dt : ℝ} (hdt : 0 ≤ dt) (v mf : Fin n → ℂ)
    (xbar : Fin n → ℂ) :
    ∫ xi : Fin n → ℝ, (density xi : ℂ) * (Complex.exp (cmf dt mf xi xbar + cfb xi xbar) *
        Complex.exp (Real.sqrt dt * ∑ i, xshifted xi xbar i * v i)) =
      Complex.exp (dt / 2 * ∑ i, (v i - mf i) ^ 2) := by
  have h1 : (fun xi : Fin n → ℝ => (density xi : ℂ) * (Complex.exp (cmf dt mf xi xbar + cfb xi xbar) *
        Complex.exp (Real.sqrt dt * ∑ i, xshifted xi xbar i * v i))) =
      fun xi => ∏ i, (((Real.exp (-(xi i) ^ 2 / 2) / Real.sqrt (2 * Real.pi) : ℝ) : ℂ) *
        Complex.exp ((xi i : ℂ) * xbar i - 1 / 2 * (xbar i * xbar i) +
          (xi i - xbar i) * (Real.sqrt dt * (v i - mf i)))) := by
    funext xi
    rw [Finset.prod_mul_distrib, density, ← Complex.ofReal_prod, ← Complex.exp_add,
      ← Complex.exp_sum]
    congr 2
    simp only [cmf, cfb, xshifted]
    rw [Finset.mul_sum, Finset.mul_sum, Finset.mul_sum, ← Finset.sum_sub_distrib,
      ← Finset.sum_add_distrib, ← Finset.sum_add_distrib]
    refine Finset.sum_congr rfl fun i _ => ?_
    ring
  rw [h1, integral_fintype_prod_volume_eq_prod
    (f := fun (i : Fin n) (x : ℝ) => ((Real.exp (-x ^ 2 / 2) / Real.sqrt (2 * Real.pi) : ℝ) : ℂ) *
      Complex.exp ((x : ℂ) * xbar i - 1 / 2 * (xbar i * xbar i) +
        (x - xbar i) * (Real.sqrt dt * (v i - mf i))))]
  simp_rw [integral_one_field]
  rw [← Complex.exp_sum, Finset.mul_sum]
  congr 1
  refine Finset.sum_congr rfl fun i _ => ?_
  have : (Real.sqrt dt : ℂ) ^ 2 = dt := by
    rw [← Complex.ofReal_pow, Real.sq_sqrt hdt]
  rw [mul_pow, this]
  ring

/-- In particular the rescaled force bias of the code gives the same average as no force bias. -/
theorem rescaled_force_bias_unbiased {n : Nat} {dt : ℝ} (hdt : 0 ≤ dt) (v mf : Fin n → ℂ)
    (xbar : Fin n → ℂ) :
    ∫ xi : Fin n → ℝ, (density xi : ℂ) *
        (Complex.exp (cmf dt mf xi (fun i => rescale (xbar i)) + cfb xi (fun i => rescale (xbar i))) *
        Complex.exp (Real.sqrt dt * ∑ i, xshifted xi (fun i => rescale (xbar i)) i * v i)) =
      ∫ xi : Fin n → ℝ, (density xi : ℂ) *
        Complex.exp (Real.sqrt dt * ∑ i, (xi i : ℂ) * (v i - mf i)) := by
  rw [force_bias_unbiased hdt v mf]
  have := force_bias_unbiased hdt v mf (fun _ => 0)
  rw [← this]
  congr 1
  funext xi
  simp only [cmf, cfb, xshifted, sub_zero, mul_zero, Finset.sum_const_zero, add_zero]
  rw [← Complex.exp_add]
  congr 2
  rw [Finset.mul_sum, Finset.mul_sum, Finset.mul_sum, ← Finset.sum_add_distrib]
  refine Finset.sum_congr rfl fun i _ => ?_
  ring

/-- **C70**, any operators: for a real force bias the average of any function of the shifted fields
(matrices and non-commuting operators included) is its average without force bias. -/
theorem force_bias_unbiased_real {n : Nat} {E : Type*} [NormedAddCommGroup E] [NormedSpace ℝ E]
    (F : (Fin n → ℝ) → E) (xbar : Fin n → ℝ) :
    ∫ xi : Fin n → ℝ, (density xi * (cfb xi (fun i => (xbar i : ℂ))).re.exp) •
        F (fun i => (xshifted xi (fun i => (xbar i : ℂ)) i).re) =
      ∫ xi : Fin n → ℝ, density xi • F xi := by
  have h := integral_sub_right_eq_self (μ := (volume : Measure (Fin n → ℝ)))
    (fun xi : Fin n → ℝ => density xi • F xi) xbar
  rw [← h]
  congr 1
  funext xi
  have h1 : (fun i => (xshifted xi (fun i => (xbar i : ℂ)) i).re) = xi - xbar := by
    funext i; simp [xshifted]
  rw [h1]
  congr 1
  have h2 : (cfb xi (fun i => (xbar i : ℂ))).re = ∑ i, (xi i * xbar i - 1 / 2 * (xbar i * xbar i)) := by
    have : cfb xi (fun i => (xbar i : ℂ)) =
        ((∑ i, (xi i * xbar i - 1 / 2 * (xbar i * xbar i)) : ℝ) : ℂ) := by
      rw [cfb]; push_cast
      rw [Finset.sum_sub_distrib, Finset.mul_sum]
    rw [this, Complex.ofReal_re]
  rw [h2, density, density, Real.exp_sum, ← Finset.prod_mul_distrib]
  refine Finset.prod_congr rfl fun i _ => ?_
  rw [div_mul_eq_mul_div, ← Real.exp_add]
  congr 2
  simp only [Pi.sub_apply]
  ring

/-- Rescaling limits the modulus to one, keeps the direction, and leaves small components alone. -/
theorem rescale_spec (x : ℂ) : ‖rescale x‖ ≤ 1 ∧ (∃ c : ℝ, 0 < c ∧ c ≤ 1 ∧ rescale x = c * x) ∧
    (‖x‖ ≤ 1 → rescale x = x) := by
  rw [rescale]
  split_ifs with h
  · have h0 : (0 : ℝ) < ‖x‖ := zero_lt_one.trans h
    refine ⟨?_, ⟨‖x‖⁻¹, inv_pos.mpr h0, inv_le_one_of_one_le₀ h.le, ?_⟩, fun h' => absurd h (not_lt.mpr h')⟩
    · rw [norm_div, Complex.norm_real, norm_norm, div_self h0.ne']
    · push_cast; rw [div_eq_inv_mul]
  · exact ⟨not_lt.mp h, ⟨1, zero_lt_one, le_refl _, by simp⟩, fun _ => rfl⟩

/-- A force bias for which rescaling does something. -/
example : rescale (3 + 4 * Complex.I) ≠ 3 + 4 * Complex.I := by
  have h : ‖(3 + 4 * Complex.I : ℂ)‖ = 5 := by
    have := Complex.norm_add_mul_I 3 4
    push_cast at this
    rw [this]
    rw [show (3 : ℝ) ^ 2 + 4 ^ 2 = 5 ^ 2 by norm_num]
    exact Real.sqrt_sq (by norm_num)
  intro h2
  have := (rescale_spec (3 + 4 * Complex.I)).1
  rw [h2, h] at this
  norm_num at this

end Verif.Weights
