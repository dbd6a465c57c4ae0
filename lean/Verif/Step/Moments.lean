import Verif.Step.Expand
import Verif.Weights.Gaussian
import Mathlib.MeasureTheory.Integral.IntegralEqImproper

/-!
# Averages over normally distributed fields

Integrability of functions of at most exponential growth, the first and second moments of the fields,
and the average of an expansion in `√dt`.  Nothing here refers to the model of the code.
-/

namespace Verif.Step

open MeasureTheory Finset Polynomial
open Verif.Weights (density integral_density)

variable {nx : Nat}

/-- The normal density of one field. -/
noncomputable def phi (x : ℝ) : ℝ := Real.exp (-x ^ 2 / 2) / Real.sqrt (2 * Real.pi)

theorem density_eq (x : Fin nx → ℝ) : density x = ∏ i, phi (x i) := rfl

theorem phi_nonneg (x : ℝ) : 0 ≤ phi x := by unfold phi; positivity

theorem continuous_phi : Continuous phi := by unfold phi; fun_prop

theorem continuous_density : Continuous (density (n := nx)) := by
  unfold density; fun_prop

theorem density_nonneg (x : Fin nx → ℝ) : 0 ≤ density x := by
  rw [density_eq]; exact prod_nonneg fun i _ => phi_nonneg _

theorem integrable_phi_exp (c : ℝ) : Integrable fun x : ℝ => phi x * Real.exp (c * x) := by
  have h := (integrable_cexp_quadratic (b := 1 / 2) (by norm_num) (c : ℂ) 0).norm
  have e : (fun x : ℝ => phi x * Real.exp (c * x)) = fun x : ℝ =>
      (Real.sqrt (2 * Real.pi))⁻¹ * ‖Complex.exp (-(1 / 2 : ℂ) * x ^ 2 + c * x + 0)‖ := by
    funext x
    rw [Complex.norm_exp, phi, div_eq_inv_mul, mul_assoc, ← Real.exp_add]
    congr 2
    have : (-(1 / 2 : ℂ) * x ^ 2 + c * x + 0) = ((-(1 / 2) * x ^ 2 + c * x : ℝ) : ℂ) := by
      push_cast; ring
    rw [this, Complex.ofReal_re]
    ring
  rw [e]
  exact h.const_mul _

theorem integrable_phi_abs (c : ℝ) : Integrable fun x : ℝ => phi x * Real.exp (c * |x|) := by
  refine ((integrable_phi_exp c).add (integrable_phi_exp (-c))).mono'
    (by have := continuous_phi; exact (by fun_prop : Continuous _).aestronglyMeasurable) ?_
  refine Filter.Eventually.of_forall fun x => ?_
  rw [Real.norm_of_nonneg (mul_nonneg (phi_nonneg _) (Real.exp_pos _).le)]
  simp only [Pi.add_apply]
  rw [← mul_add]
  refine mul_le_mul_of_nonneg_left ?_ (phi_nonneg _)
  rcases abs_cases x with ⟨h, _⟩ | ⟨h, _⟩
  · rw [h]; have := Real.exp_pos (-c * x); linarith
  · rw [h]
    have e : c * -x = -c * x := by ring
    rw [e]
    have := Real.exp_pos (c * x); linarith

theorem integrable_wt (c : ℝ) : Integrable fun x : Fin nx → ℝ => density x * wt c x := by
  have h : Integrable (fun x : Fin nx → ℝ => ∏ i, (phi (x i) * Real.exp (c * |x i|))) :=
    Integrable.fintype_prod (f := fun (_ : Fin nx) (x : ℝ) => phi x * Real.exp (c * |x|))
      fun _ => integrable_phi_abs c
  have e : (fun x : Fin nx → ℝ => density x * wt c x) =
      fun x => ∏ i, (phi (x i) * Real.exp (c * |x i|)) := by
    funext x
    rw [prod_mul_distrib, ← density_eq, wt, mul_sum, Real.exp_sum]
  rw [e]
  exact h

/-- Functions of one field of at most exponential growth. -/
theorem integrable_one {f : ℝ → ℂ} (hf : Continuous f) {C c : ℝ}
    (h : ∀ x, ‖f x‖ ≤ C * Real.exp (c * |x|)) : Integrable fun x : ℝ => (phi x : ℂ) * f x := by
  refine ((integrable_phi_abs c).const_mul C).mono'
    (by have := continuous_phi; exact (by fun_prop : Continuous _).aestronglyMeasurable) ?_
  refine Filter.Eventually.of_forall fun x => ?_
  rw [norm_mul, Complex.norm_real, Real.norm_of_nonneg (phi_nonneg _)]
  calc phi x * ‖f x‖ ≤ phi x * (C * Real.exp (c * |x|)) :=
        mul_le_mul_of_nonneg_left (h x) (phi_nonneg _)
    _ = _ := by ring

/-- Functions of all fields of at most exponential growth. -/
theorem integrable_growth {f : (Fin nx → ℝ) → ℂ} (hf : Continuous f) {C c : ℝ}
    (h : ∀ x, ‖f x‖ ≤ C * wt c x) : Integrable fun x => (density x : ℂ) * f x := by
  refine ((integrable_wt c).const_mul C).mono'
    (by have := continuous_density (nx := nx); exact (by fun_prop : Continuous _).aestronglyMeasurable) ?_
  refine Filter.Eventually.of_forall fun x => ?_
  rw [norm_mul, Complex.norm_real, Real.norm_of_nonneg (density_nonneg _)]
  calc density x * ‖f x‖ ≤ density x * (C * wt c x) :=
        mul_le_mul_of_nonneg_left (h x) (density_nonneg _)
    _ = _ := by ring

/-- Average over the fields drawn by `numpy.random.normal(0, 1, nfields)`. -/
noncomputable def avg (f : (Fin nx → ℝ) → ℂ) : ℂ := ∫ x : Fin nx → ℝ, (density x : ℂ) * f x

theorem avg_const (a : ℂ) : avg (fun _ : Fin nx → ℝ => a) = a := by
  rw [avg, integral_mul_const]
  have : ∫ x : Fin nx → ℝ, (density x : ℂ) = ((∫ x : Fin nx → ℝ, density x : ℝ) : ℂ) := integral_ofReal
  rw [this, integral_density, Complex.ofReal_one, one_mul]

theorem phi_integral : ∫ x : ℝ, (phi x : ℂ) = 1 := by
  have h := avg_const (nx := 1) 1
  simp only [avg, mul_one, density_eq, Fin.prod_univ_one] at h
  rw [← h]
  have := integral_fintype_prod_volume_eq_prod (ι := Fin 1) (E := fun _ => ℝ)
    (f := fun _ (x : ℝ) => (phi x : ℂ))
  simp only [Fin.prod_univ_one] at this
  exact this.symm

theorem abs_pow_le_exp (k : Nat) (x : ℝ) : |x| ^ k ≤ k.factorial * Real.exp |x| := by
  have h := Real.pow_div_factorial_le_exp |x| (abs_nonneg _) k
  rw [div_le_iff₀ (by positivity)] at h
  linarith

theorem integrable_pow (k : Nat) : Integrable fun x : ℝ => (phi x : ℂ) * (x : ℂ) ^ k := by
  refine integrable_one (by fun_prop) (C := k.factorial) (c := 1) fun x => ?_
  rw [norm_pow, Complex.norm_real, Real.norm_eq_abs, one_mul]
  exact abs_pow_le_exp k x

theorem phi_integral_one : ∫ x : ℝ, (phi x : ℂ) * (x : ℂ) ^ 1 = 0 := by
  have h := integral_neg_eq_self (fun x : ℝ => (phi x : ℂ) * (x : ℂ) ^ 1) volume
  have e : (fun x : ℝ => (phi (-x) : ℂ) * ((-x : ℝ) : ℂ) ^ 1) =
      fun x : ℝ => -((phi x : ℂ) * (x : ℂ) ^ 1) := by
    funext x
    have : phi (-x) = phi x := by simp [phi]
    rw [this]; push_cast; ring
  rw [e, integral_neg] at h
  have : (2 : ℂ) * ∫ x : ℝ, (phi x : ℂ) * (x : ℂ) ^ 1 = 0 := by linear_combination -h
  simpa using this

theorem hasDerivAt_phi (x : ℝ) : HasDerivAt phi (-x * phi x) x := by
  unfold phi
  have h1 : HasDerivAt (fun x : ℝ => -x ^ 2 / 2) (-x) x := by
    have := ((hasDerivAt_pow 2 x).neg).div_const 2
    convert! this using 1
    norm_num
    ring
  have h2 := (h1.exp).div_const (Real.sqrt (2 * Real.pi))
  convert! h2 using 1
  ring

theorem hasDerivAt_phiC (x : ℝ) : HasDerivAt (fun x : ℝ => (phi x : ℂ)) (-(x : ℂ) * phi x) x := by
  have := (hasDerivAt_phi x).ofReal_comp
  convert! this using 1
  push_cast; ring

theorem phi_integral_two : ∫ x : ℝ, (phi x : ℂ) * (x : ℂ) ^ 2 = 1 := by
  have hd : ∀ x : ℝ, HasDerivAt (fun x : ℝ => (phi x : ℂ) * (x : ℂ) ^ 1)
      ((phi x : ℂ) * (x : ℂ) ^ 0 - (phi x : ℂ) * (x : ℂ) ^ 2) x := by
    intro x
    have h1 : HasDerivAt (fun x : ℝ => (x : ℂ)) 1 x := Complex.ofRealCLM.hasDerivAt
    have := (hasDerivAt_phiC x).mul h1
    simp only [pow_one]
    convert! this using 1
    ring
  have h := integral_eq_zero_of_hasDerivAt_of_integrable hd
    ((integrable_pow 0).sub (integrable_pow 2)) (integrable_pow 1)
  rw [integral_sub (integrable_pow 0) (integrable_pow 2)] at h
  simp only [pow_zero, mul_one] at h
  rw [phi_integral] at h
  linear_combination -h

/-- Averages of products of functions of single fields. -/
theorem avg_prod (g : Fin nx → ℝ → ℂ) :
    avg (fun x => ∏ i, g i (x i)) = ∏ i, ∫ x : ℝ, (phi x : ℂ) * g i x := by
  rw [avg, ← integral_fintype_prod_volume_eq_prod (f := fun i (x : ℝ) => (phi x : ℂ) * g i x)]
  congr 1
  funext x
  rw [density_eq, Complex.ofReal_prod, prod_mul_distrib]

theorem avg_field (a : Fin nx) : avg (fun x => (x a : ℂ)) = 0 := by
  have h := avg_prod (nx := nx) fun i x => if i = a then (x : ℂ) ^ 1 else 1
  have e : (fun x : Fin nx → ℝ => ∏ i, if i = a then ((x i : ℝ) : ℂ) ^ 1 else 1) =
      fun x => (x a : ℂ) := by
    funext x
    rw [prod_ite_eq']
    simp
  rw [e] at h
  rw [h]
  refine prod_eq_zero (mem_univ a) ?_
  simp only [if_true]
  exact phi_integral_one

theorem avg_field_field (a b : Fin nx) :
    avg (fun x => (x a : ℂ) * (x b : ℂ)) = if a = b then 1 else 0 := by
  by_cases hab : a = b
  · subst hab
    rw [if_pos rfl]
    have h := avg_prod (nx := nx) fun i x => if i = a then (x : ℂ) ^ 2 else 1
    have e : (fun x : Fin nx → ℝ => ∏ i, if i = a then ((x i : ℝ) : ℂ) ^ 2 else 1) =
        fun x => (x a : ℂ) * (x a : ℂ) := by
      funext x
      rw [prod_ite_eq']
      simp [sq]
    rw [e] at h
    rw [h]
    refine prod_eq_one fun i _ => ?_
    by_cases hi : i = a
    · simp only [hi, if_true]; exact phi_integral_two
    · simp only [hi, if_false, mul_one]; exact phi_integral
  · rw [if_neg hab]
    have h := avg_prod (nx := nx) fun i x => (if i = a then (x : ℂ) ^ 1 else 1) *
      (if i = b then (x : ℂ) ^ 1 else 1)
    have e : (fun x : Fin nx → ℝ => ∏ i, ((if i = a then ((x i : ℝ) : ℂ) ^ 1 else 1) *
        (if i = b then ((x i : ℝ) : ℂ) ^ 1 else 1))) = fun x => (x a : ℂ) * (x b : ℂ) := by
      funext x
      rw [prod_mul_distrib, prod_ite_eq', prod_ite_eq']
      simp
    rw [e] at h
    rw [h]
    refine prod_eq_zero (mem_univ a) ?_
    simp only [if_true, if_neg hab, mul_one]
    exact phi_integral_one

theorem growth_field (a : Fin nx) (x : Fin nx → ℝ) : ‖(x a : ℂ)‖ ≤ 1 * wt 1 x := by
  rw [Complex.norm_real, Real.norm_eq_abs, one_mul]
  exact (single_le_sum (f := fun i => |x i|) (fun _ _ => abs_nonneg _) (mem_univ a)).trans
    (sum_abs_le_wt x)

theorem growth_field_field (a b : Fin nx) (x : Fin nx → ℝ) :
    ‖(x a : ℂ) * (x b : ℂ)‖ ≤ 1 * wt 2 x := by
  rw [norm_mul]
  calc ‖(x a : ℂ)‖ * ‖(x b : ℂ)‖ ≤ (1 * wt 1 x) * (1 * wt 1 x) :=
        mul_le_mul (growth_field a x) (growth_field b x) (norm_nonneg _)
          (by have := wt_pos 1 x; positivity)
    _ = _ := by rw [one_mul, wt_mul, one_mul]; norm_num

/-- The average of a linear form vanishes. -/
theorem avg_lin (l : Fin nx → ℂ) : avg (fun x => ∑ a, (x a : ℂ) * l a) = 0 := by
  have e : avg (fun x => ∑ a, (x a : ℂ) * l a) = ∑ a, avg (fun x => (x a : ℂ)) * l a := by
    simp only [avg]
    have : (fun x : Fin nx → ℝ => (density x : ℂ) * ∑ a, (x a : ℂ) * l a) =
        fun x => ∑ a, ((density x : ℂ) * (x a : ℂ)) * l a := by
      funext x; rw [mul_sum]; exact sum_congr rfl fun a _ => by ring
    rw [this, integral_finsetSum]
    · exact sum_congr rfl fun a _ => integral_mul_const _ _
    · exact fun a _ => (integrable_growth (by fun_prop) (growth_field a)).mul_const _
  rw [e]
  exact sum_eq_zero fun a _ => by rw [avg_field, zero_mul]

/-- The average of a quadratic polynomial is its constant plus its trace. -/
theorem avg_quad (k : ℂ) (q : Fin nx → Fin nx → ℂ) :
    avg (fun x => k + ∑ a, ∑ b, (x a : ℂ) * (x b : ℂ) * q a b) = k + ∑ a, q a a := by
  have hI : ∀ a b, Integrable fun x : Fin nx → ℝ => (density x : ℂ) * ((x a : ℂ) * (x b : ℂ)) :=
    fun a b => integrable_growth (by fun_prop) (growth_field_field a b)
  have hk : Integrable fun x : Fin nx → ℝ => (density x : ℂ) * k :=
    integrable_growth (C := ‖k‖) (c := 0) (by fun_prop) fun x => by simp [wt]
  have e : (fun x : Fin nx → ℝ => (density x : ℂ) * (k + ∑ a, ∑ b, (x a : ℂ) * (x b : ℂ) * q a b)) =
      fun x => (density x : ℂ) * k + ∑ a, ∑ b, (density x : ℂ) * ((x a : ℂ) * (x b : ℂ)) * q a b := by
    funext x
    rw [mul_add, mul_sum]
    congr 1
    refine sum_congr rfl fun a _ => ?_
    rw [mul_sum]
    exact sum_congr rfl fun b _ => by ring
  rw [avg, e, integral_add hk (integrable_finsetSum _ fun a _ => integrable_finsetSum _ fun b _ =>
    (hI a b).mul_const _)]
  congr 1
  · exact avg_const k
  · rw [integral_finsetSum _ fun a _ => integrable_finsetSum _ fun b _ => (hI a b).mul_const _]
    refine sum_congr rfl fun a _ => ?_
    rw [integral_finsetSum _ fun b _ => (hI a b).mul_const _]
    have : ∀ b, ∫ x : Fin nx → ℝ, (density x : ℂ) * ((x a : ℂ) * (x b : ℂ)) * q a b =
        (if a = b then 1 else 0) * q a b := by
      intro b
      rw [integral_mul_const]
      congr 1
      exact avg_field_field a b
    rw [sum_congr rfl fun b _ => this b]
    simp

/-- Average of an expansion whose coefficients are a constant, a linear form and a quadratic
polynomial of the fields. -/
theorem avg_expansion {f : ℝ → (Fin nx → ℝ) → ℂ} {p : (Fin nx → ℝ) → ℂ[X]} (h : Ex f p)
    (hf : ∀ s, Continuous (f s)) {c0 k : ℂ} {l : Fin nx → ℂ} {q : Fin nx → Fin nx → ℂ}
    (h0 : ∀ x, (p x).coeff 0 = c0) (h1 : ∀ x, (p x).coeff 1 = ∑ a, (x a : ℂ) * l a)
    (h2 : ∀ x, (p x).coeff 2 = k + ∑ a, ∑ b, (x a : ℂ) * (x b : ℂ) * q a b) :
    ∃ K : ℝ, ∀ s, 0 ≤ s → s ≤ 1 →
      ‖avg (f s) - (c0 + (s : ℂ) ^ 2 * (k + ∑ a, q a a))‖ ≤ K * s ^ 3 := by
  obtain ⟨C, c, hC, hc, h⟩ := h
  refine ⟨C * ∫ x : Fin nx → ℝ, density x * wt c x, fun s hs hs1 => ?_⟩
  have hp0 : Continuous fun x => (p x).coeff 0 := by simp_rw [h0]; fun_prop
  have hp1 : Continuous fun x => (p x).coeff 1 := by simp_rw [h1]; fun_prop
  have hp2 : Continuous fun x => (p x).coeff 2 := by simp_rw [h2]; fun_prop
  have i0 := integrable_growth hp0 fun x => (h x).1.1
  have i1 := integrable_growth hp1 fun x => (h x).1.2.1
  have i2 := integrable_growth hp2 fun x => (h x).1.2.2
  have hT : (fun x => (density x : ℂ) * tr (p x) s) = fun x => (density x : ℂ) * (p x).coeff 0 +
      ((s : ℂ) * ((density x : ℂ) * (p x).coeff 1) +
      (s : ℂ) ^ 2 * ((density x : ℂ) * (p x).coeff 2)) := by
    funext x; rw [tr]; ring
  have i12 : Integrable fun x => (s : ℂ) * ((density x : ℂ) * (p x).coeff 1) +
      (s : ℂ) ^ 2 * ((density x : ℂ) * (p x).coeff 2) := (i1.const_mul _).add (i2.const_mul _)
  have iT : Integrable fun x => (density x : ℂ) * tr (p x) s := by
    rw [hT]
    exact i0.add i12
  have hTi : ∫ x, (density x : ℂ) * tr (p x) s = c0 + (s : ℂ) ^ 2 * (k + ∑ a, q a a) := by
    rw [hT, integral_add i0 i12, integral_add (i1.const_mul _) (i2.const_mul _), integral_const_mul,
      integral_const_mul]
    have e0 : ∫ x, (density x : ℂ) * (p x).coeff 0 = c0 := by
      simp_rw [h0]; exact avg_const c0
    have e1 : ∫ x, (density x : ℂ) * (p x).coeff 1 = 0 := by
      simp_rw [h1]; exact avg_lin l
    have e2 : ∫ x, (density x : ℂ) * (p x).coeff 2 = k + ∑ a, q a a := by
      simp_rw [h2]; exact avg_quad k q
    rw [e0, e1, e2, mul_zero, zero_add]
  have hd : Continuous fun x => f s x - tr (p x) s := by
    have h3 := hf s
    unfold tr
    fun_prop
  have iD : Integrable fun x => (density x : ℂ) * (f s x - tr (p x) s) :=
    integrable_growth (C := s ^ 3 * C) (c := c) hd fun x => by
      rw [mul_assoc]; exact (h x).2 s hs hs1
  have hsum : avg (f s) = (∫ x, (density x : ℂ) * (f s x - tr (p x) s)) +
      ∫ x, (density x : ℂ) * tr (p x) s := by
    rw [← integral_add iD iT, avg]
    congr 1
    funext x
    ring
  rw [← hTi, hsum, add_sub_cancel_right]
  calc ‖∫ x, (density x : ℂ) * (f s x - tr (p x) s)‖
      ≤ ∫ x, (s ^ 3 * C) * (density x * wt c x) := by
        refine norm_integral_le_of_norm_le ((integrable_wt c).const_mul _)
          (Filter.Eventually.of_forall fun x => ?_)
        rw [norm_mul, Complex.norm_real, Real.norm_of_nonneg (density_nonneg _)]
        calc density x * ‖f s x - tr (p x) s‖ ≤ density x * (s ^ 3 * (C * wt c x)) :=
              mul_le_mul_of_nonneg_left ((h x).2 s hs hs1) (density_nonneg _)
          _ = _ := by ring
    _ = _ := by rw [integral_const_mul]; ring

end Verif.Step
