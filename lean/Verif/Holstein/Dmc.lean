import Verif.Holstein.Steps
import Verif.Holstein.Oscillator
import Mathlib.MeasureTheory.Integral.Pi
import Mathlib.Analysis.SpecialFunctions.Complex.LogBounds
import Mathlib.Algebra.Order.Field.GeomSum
import Mathlib.Topology.Algebra.Order.Field

/-!
# C96: repeated phonon steps converge to imaginary-time evolution
-/

namespace Verif.Holstein

open MeasureTheory ProbabilityTheory Filter Topology

variable {n : Nat}

theorem gauss_integral (v : NNReal) (A B : ℝ) : ∫ x, Real.exp (A + B * x) ∂gaussianReal 0 v = Real.exp (A + v * B ^ 2 / 2) := by
  have h := congrFun (mgf_id_gaussianReal (μ := 0) (v := v)) B
  simp only [mgf, id, zero_mul, zero_add] at h
  simp only [Real.exp_add A, integral_const_mul, h]

theorem gauss_integrable (v : NNReal) (A B : ℝ) : Integrable (fun x => Real.exp (A + B * x)) (gaussianReal 0 v) := by
  simp only [Real.exp_add A]
  exact (integrable_exp_mul_gaussianReal B).const_mul _

/-- Ratio of two coherent states whose shifts differ by `δ`. -/
noncomputable def ratio (c s δ x : ℝ) : ℝ := Real.exp (c * δ * (x - s) - c * δ ^ 2 / 2)

/-- The difference of the shifts after a step. -/
noncomputable def next (w h s δ : ℝ) : ℝ := (δ - h * w * s / 2) * (1 - w * h) - h * w * s / 2

/-- Logarithm of the factor gained in a step. -/
noncomputable def gain (c w h s δ : ℝ) : ℝ := c / 2 * (next w h s δ ^ 2 - δ ^ 2 + w * h * (δ - h * w * s / 2) ^ 2)

/-- What one site contributes in a step. -/
noncomputable def site (m w h s δ X x : ℝ) : ℝ :=
  Real.exp (-(1 / 2) * h * (m * w * w * s * ((X + x + h / m * (-m * w * (X - s))) + X - 2 * s))) *
    ratio (m * w) s δ (X + x + h / m * (-m * w * (X - s)))

theorem site_eq (m w h s δ X x : ℝ) (hm : m ≠ 0) : site m w h s δ X x = Real.exp (
    (-(1 / 2) * h * (m * w * w * s * ((X - h * w * (X - s)) + X - 2 * s)) + (m * w * δ * (X - h * w * (X - s) - s) - m * w * δ ^ 2 / 2)) +
      m * w * (δ - h * w * s / 2) * x) := by
  rw [site, ratio, ← Real.exp_add]
  have : h / m * (-m * w * (X - s)) = -(h * w * (X - s)) := by field_simp
  rw [this]
  congr 1
  ring

theorem site_integrable (m w h s δ X : ℝ) (hm : m ≠ 0) (v : NNReal) : Integrable (site m w h s δ X) (gaussianReal 0 v) := by
  have : site m w h s δ X = fun x => _ := funext fun x => site_eq m w h s δ X x hm
  rw [this]
  exact gauss_integrable v _ _

theorem site_integral (m w h s δ X : ℝ) (hm : 0 < m) (hh : 0 ≤ h) :
    ∫ x, site m w h s δ X x ∂gaussianReal 0 (h / m).toNNReal =
      Real.exp (gain (m * w) w h s δ) * ratio (m * w) s (next w h s δ) X := by
  simp only [site_eq m w h s δ X _ hm.ne']
  rw [gauss_integral, Real.coe_toNNReal _ (div_nonneg hh hm.le), ratio, gain, next, ← Real.exp_add]
  congr 1
  field_simp
  ring

/-- Shift differences after `N` steps. -/
noncomputable def iterNext (w h s : ℝ) : Nat → ℝ → ℝ
  | 0, δ => δ
  | N + 1, δ => next w h s (iterNext w h s N δ)

/-- Logarithm of the factor gained in `N` steps. -/
noncomputable def iterGain (c w h s : ℝ) : Nat → ℝ → ℝ
  | 0, _ => 0
  | N + 1, δ => iterGain c w h s N δ + gain c w h s (iterNext w h s N δ)

theorem ratio_eq (o : Osc n) (s' X : Fin n → ℝ) :
    gprod (o.m * o.w / 2) s' X = o.value X * ∏ i, ratio (o.m * o.w) (o.shift i) (s' i - o.shift i) (X i) := by
  rw [value_eq, gprod, gprod, ← Finset.prod_mul_distrib]
  refine Finset.prod_congr rfl fun i _ => ?_
  rw [ratio, ← Real.exp_add]
  congr 1
  ring

theorem step_weight (o : Osc n) (hm : o.m ≠ 0) (dt : ℝ) (dX : Fin n → ℝ) (p : PhWalker n) :
    Real.exp (-(1 / 2) * dt * (o.localEnergy (bosonStep o dt dX p).X + o.localEnergy p.X - 2 * eshift o)) =
      ∏ i, Real.exp (-(1 / 2) * dt * (o.m * o.w * o.w * o.shift i *
        ((p.X i + dX i + dt / o.m * (-o.m * o.w * (p.X i - o.shift i))) + p.X i - 2 * o.shift i))) := by
  rw [← Real.exp_sum]
  congr 1
  rw [eshift, localEnergy_linear o hm, localEnergy_linear o hm, localEnergy_linear o hm, ← Finset.mul_sum, mul_assoc (-(1/2)), mul_assoc (-(1/2))]
  congr 2
  rw [← mul_add, ← mul_assoc 2, mul_comm 2, mul_assoc (1 / 2 * o.m * o.w ^ 2) 2, ← mul_sub, Finset.mul_sum (a := (2 : ℝ)),
    ← Finset.sum_add_distrib, ← Finset.sum_sub_distrib, Finset.mul_sum]
  refine Finset.sum_congr rfl fun i _ => ?_
  simp only [bosonStep, Osc.gradient]
  ring

variable {J : Type} [Fintype J]

/-- A finite combination of coherent states. -/
noncomputable def comb (m w : ℝ) (a : J → ℝ) (s' : J → Fin n → ℝ) (X : Fin n → ℝ) : ℝ := ∑ j, a j * gprod (m * w / 2) (s' j) X

/-- The average after `N` steps in closed form. -/
theorem meanAfter_eq (o : Osc n) (hm : 0 < o.m) (dt : ℝ) (hdt : 0 ≤ dt) (a : J → ℝ) (s' : J → Fin n → ℝ) (N : Nat) :
    ∀ p : PhWalker n, meanAfter o dt (comb o.m o.w a s') N p = p.weight / p.ot * ((o.value p.X * ∑ j, a j * ∏ i,
      (Real.exp (iterGain (o.m * o.w) o.w dt (o.shift i) N (s' j i - o.shift i)) *
        ratio (o.m * o.w) (o.shift i) (iterNext o.w dt (o.shift i) N (s' j i - o.shift i)) (p.X i)) : ℝ) : ℂ) := by
  induction N with
  | zero =>
    intro p
    simp only [meanAfter, comb, iterGain, iterNext, Real.exp_zero, one_mul, ratio_eq]
    rw [Finset.mul_sum, mul_div_right_comm]
    congr 2
    exact Finset.sum_congr rfl fun j _ => by ring
  | succ N ih =>
    intro p
    rw [meanAfter]
    have hv : (o.value p.X : ℂ) ≠ 0 := by exact_mod_cast (value_pos o p.X).ne'
    have h1 : ∀ dX, meanAfter o dt (comb o.m o.w a s') N (bosonStep o dt dX p) = p.weight / p.ot * o.value p.X *
        ((∑ j, a j * ∏ i, (Real.exp (iterGain (o.m * o.w) o.w dt (o.shift i) N (s' j i - o.shift i)) *
          site o.m o.w dt (o.shift i) (iterNext o.w dt (o.shift i) N (s' j i - o.shift i)) (p.X i) (dX i)) : ℝ) : ℂ) := by
      intro dX
      rw [ih]
      have hv' : (o.value (bosonStep o dt dX p).X : ℂ) ≠ 0 := by exact_mod_cast (value_pos o _).ne'
      have hw : ((bosonStep o dt dX p).weight : ℂ) = p.weight * ((∏ i, Real.exp (-(1 / 2) * dt * (o.m * o.w * o.w * o.shift i *
        ((p.X i + dX i + dt / o.m * (-o.m * o.w * (p.X i - o.shift i))) + p.X i - 2 * o.shift i))) : ℝ) : ℂ) := by
        rw [← step_weight o hm.ne']
        rw [← Complex.ofReal_mul]
        rfl
      have hot : (bosonStep o dt dX p).ot = p.ot * (o.value (bosonStep o dt dX p).X / o.value p.X) := by
        rw [← Complex.ofReal_div]
        rfl
      have hs : ∑ j, a j * ∏ i, (Real.exp (iterGain (o.m * o.w) o.w dt (o.shift i) N (s' j i - o.shift i)) *
          site o.m o.w dt (o.shift i) (iterNext o.w dt (o.shift i) N (s' j i - o.shift i)) (p.X i) (dX i)) =
          (∏ i, Real.exp (-(1 / 2) * dt * (o.m * o.w * o.w * o.shift i *
            ((p.X i + dX i + dt / o.m * (-o.m * o.w * (p.X i - o.shift i))) + p.X i - 2 * o.shift i)))) *
          ∑ j, a j * ∏ i, (Real.exp (iterGain (o.m * o.w) o.w dt (o.shift i) N (s' j i - o.shift i)) *
            ratio (o.m * o.w) (o.shift i) (iterNext o.w dt (o.shift i) N (s' j i - o.shift i)) ((bosonStep o dt dX p).X i)) := by
        rw [Finset.mul_sum]
        refine Finset.sum_congr rfl fun j _ => ?_
        rw [mul_left_comm, ← Finset.prod_mul_distrib]
        congr 1
        refine Finset.prod_congr rfl fun i _ => ?_
        rw [site]
        simp only [bosonStep, Osc.gradient]
        ring
      rw [hs, hw, hot, Complex.ofReal_mul, Complex.ofReal_mul]
      by_cases h0 : p.ot = 0
      · simp [h0]
      field_simp
    simp only [h1]
    rw [integral_const_mul, integral_complex_ofReal]
    have h2 : ∀ j, Integrable (fun dX : Fin n → ℝ => ∏ i, (Real.exp (iterGain (o.m * o.w) o.w dt (o.shift i) N (s' j i - o.shift i)) *
          site o.m o.w dt (o.shift i) (iterNext o.w dt (o.shift i) N (s' j i - o.shift i)) (p.X i) (dX i))) (moves n o.m dt) := by
      intro j
      exact Integrable.fintype_prod (f := fun i x => Real.exp (iterGain (o.m * o.w) o.w dt (o.shift i) N (s' j i - o.shift i)) *
          site o.m o.w dt (o.shift i) (iterNext o.w dt (o.shift i) N (s' j i - o.shift i)) (p.X i) x)
        fun i => (site_integrable _ _ _ _ _ _ hm.ne' _).const_mul _
    rw [integral_finsetSum _ fun j _ => (h2 j).const_mul _, Complex.ofReal_mul, ← mul_assoc]
    congr 2
    refine Finset.sum_congr rfl fun j _ => ?_
    rw [integral_const_mul, moves, integral_fintype_prod_eq_prod (𝕜 := ℝ) (fun i x =>
      Real.exp (iterGain (o.m * o.w) o.w dt (o.shift i) N (s' j i - o.shift i)) *
        site o.m o.w dt (o.shift i) (iterNext o.w dt (o.shift i) N (s' j i - o.shift i)) (p.X i) x)]
    congr 1
    refine Finset.prod_congr rfl fun i _ => ?_
    rw [integral_const_mul, site_integral _ _ _ _ _ _ hm hdt, iterGain, iterNext, Real.exp_add]
    ring

/-! ## The limit of small steps -/

theorem iterNext_eq (w h s δ : ℝ) (N : Nat) :
    iterNext w h s N δ - h * w * s / 2 = -s + (1 - w * h) ^ N * (δ + s - h * w * s / 2) := by
  induction N with
  | zero => simp only [iterNext, pow_zero, one_mul]; ring
  | succ N ih =>
    have : iterNext w h s (N + 1) δ = (iterNext w h s N δ - h * w * s / 2) * (1 - w * h) - h * w * s / 2 := rfl
    rw [this, ih, pow_succ]
    ring

theorem iterGain_eq (c w h s δ : ℝ) (N : Nat) : iterGain c w h s N δ = c / 2 * (iterNext w h s N δ ^ 2 - δ ^ 2 +
    w * h * ∑ k ∈ Finset.range N, (iterNext w h s k δ - h * w * s / 2) ^ 2) := by
  induction N with
  | zero => simp [iterGain, iterNext]
  | succ N ih =>
    rw [iterGain, ih, gain, Finset.sum_range_succ, iterNext]
    ring

theorem iterGain_closed (c w h s δ : ℝ) (h2 : 2 - w * h ≠ 0) (N : Nat) : iterGain c w h s N δ = c / 2 * (iterNext w h s N δ ^ 2 - δ ^ 2 +
    (w * (N * h) * s ^ 2 - 2 * s * (δ + s - h * w * s / 2) * (1 - (1 - w * h) ^ N) +
      (δ + s - h * w * s / 2) ^ 2 * (1 - ((1 - w * h) ^ N) ^ 2) / (2 - w * h))) := by
  rw [iterGain_eq]
  congr 2
  simp only [iterNext_eq]
  have e1 : w * h * ∑ k ∈ Finset.range N, (1 - w * h) ^ k = 1 - (1 - w * h) ^ N := by
    have := mul_neg_geom_sum (1 - w * h) N
    rw [sub_sub_cancel] at this
    exact this
  have e2 : w * h * ∑ k ∈ Finset.range N, ((1 - w * h) ^ k) ^ 2 = (1 - ((1 - w * h) ^ N) ^ 2) / (2 - w * h) := by
    rw [eq_div_iff h2]
    have := mul_neg_geom_sum ((1 - w * h) ^ 2) N
    simp only [← pow_mul, mul_comm 2] at this
    simp only [← pow_mul]
    rw [← this]
    ring
  have e3 : ∀ k, (-s + (1 - w * h) ^ k * (δ + s - h * w * s / 2)) ^ 2 = s ^ 2 - 2 * s * (δ + s - h * w * s / 2) * (1 - w * h) ^ k +
      (δ + s - h * w * s / 2) ^ 2 * ((1 - w * h) ^ k) ^ 2 := fun k => by ring
  simp only [e3]
  rw [Finset.sum_add_distrib, Finset.sum_sub_distrib, ← Finset.mul_sum, ← Finset.mul_sum, Finset.sum_const, Finset.card_range,
    nsmul_eq_mul, mul_add, mul_sub, mul_left_comm (w * h) (2 * s * _), e1, mul_left_comm (w * h) ((δ + s - h * w * s / 2) ^ 2), e2]
  ring

theorem pow_limit (w τ : ℝ) : Tendsto (fun N : ℕ => (1 - w * (τ / N)) ^ N) atTop (𝓝 (Real.exp (-w * τ))) := by
  have := Real.tendsto_one_add_div_pow_exp (-w * τ)
  refine this.congr fun N => ?_
  congr 1
  ring

theorem step_limit (τ : ℝ) : Tendsto (fun N : ℕ => τ / (N : ℝ)) atTop (𝓝 0) := tendsto_const_div_atTop_nhds_zero_nat τ

theorem iterNext_limit (w s δ τ : ℝ) :
    Tendsto (fun N : ℕ => iterNext w (τ / N) s N δ) atTop (𝓝 ((δ + s) * Real.exp (-w * τ) - s)) := by
  have h : ∀ N : ℕ, iterNext w (τ / N) s N δ = -s + (1 - w * (τ / N)) ^ N * (δ + s - (τ / N) * w * s / 2) + (τ / N) * w * s / 2 :=
    fun N => by rw [← iterNext_eq]; ring
  simp only [h]
  have hs : Tendsto (fun N : ℕ => τ / (N : ℝ) * w * s / 2) atTop (𝓝 0) := by
    have := (((step_limit τ).mul_const w).mul_const s).div_const 2
    simpa using this
  have := ((((pow_limit w τ).mul (hs.const_sub (δ + s))).const_add (-s)).add hs)
  convert this using 2
  ring

theorem iterGain_limit (c w s δ τ : ℝ) : Tendsto (fun N : ℕ => iterGain c w (τ / N) s N δ) atTop
    (𝓝 (c / 2 * (((δ + s) * Real.exp (-w * τ) - s) ^ 2 - δ ^ 2 + (w * τ * s ^ 2 - 2 * s * (δ + s) * (1 - Real.exp (-w * τ)) +
      (δ + s) ^ 2 * (1 - Real.exp (-w * τ) ^ 2) / 2)))) := by
  have hs : Tendsto (fun N : ℕ => τ / (N : ℝ) * w * s / 2) atTop (𝓝 0) := by
    have := (((step_limit τ).mul_const w).mul_const s).div_const 2
    simpa using this
  have hw : Tendsto (fun N : ℕ => 2 - w * (τ / (N : ℝ))) atTop (𝓝 2) := by
    have := ((step_limit τ).const_mul w).const_sub 2
    simpa using this
  have hd : Tendsto (fun N : ℕ => δ + s - τ / (N : ℝ) * w * s / 2) atTop (𝓝 (δ + s)) := by
    have := hs.const_sub (δ + s)
    simpa using this
  have hp := pow_limit w τ
  have hn : Tendsto (fun N : ℕ => w * (N * (τ / (N : ℝ))) * s ^ 2) atTop (𝓝 (w * τ * s ^ 2)) := by
    refine tendsto_const_nhds.congr' ?_
    filter_upwards [eventually_ne_atTop 0] with N hN
    have : (N : ℝ) ≠ 0 := by exact_mod_cast hN
    field_simp
  have hall := ((((iterNext_limit w s δ τ).pow 2).sub_const (δ ^ 2)).add ((hn.sub ((hd.const_mul (2 * s)).mul (hp.const_sub 1))).add
    (((hd.pow 2).mul ((hp.pow 2).const_sub 1)).div hw two_ne_zero))).const_mul (c / 2)
  refine hall.congr' ?_
  filter_upwards [hw.eventually_ne two_ne_zero] with N hN
  rw [iterGain_closed _ _ _ _ _ hN]
  rfl

/-! ## Imaginary-time evolution -/

/-- The exact evolution of a combination of coherent states under the phonon Hamiltonian, with the zero-point energy and the trial's
energy taken off. -/
noncomputable def evolve (o : Osc n) (a : J → ℝ) (s' : J → Fin n → ℝ) (τ : ℝ) (X : Fin n → ℝ) : ℝ :=
  comb o.m o.w (fun j => a j * Real.exp (o.m * o.w / 2 * ∑ i, (o.w * τ * o.shift i ^ 2 - s' j i ^ 2 / 2 * (1 - Real.exp (-o.w * τ) ^ 2))))
    (fun j i => s' j i * Real.exp (-o.w * τ)) X

theorem evolve_zero (o : Osc n) (a : J → ℝ) (s' : J → Fin n → ℝ) : evolve o a s' 0 = comb o.m o.w a s' := by
  funext X
  simp [evolve]

theorem comb_second (m w : ℝ) (a : J → ℝ) (s' : J → Fin n → ℝ) (X : Fin n → ℝ) (i : Fin n) :
    second (comb m w a s') X i = ∑ j, a j * ((4 * (m * w / 2) ^ 2 * (X i - s' j i) ^ 2 - 2 * (m * w / 2)) * gprod (m * w / 2) (s' j) X) := by
  have h1 : deriv (fun t => comb m w a s' (Function.update X i t)) = fun t => ∑ j, a j * (-2 * (m * w / 2) * (t - s' j i) *
      gprod (m * w / 2) (s' j) (Function.update X i t)) :=
    funext fun t => (HasDerivAt.fun_sum fun j _ => (gprod_deriv _ (s' j) X i t).const_mul (a j)).deriv
  rw [second, h1]
  refine (HasDerivAt.fun_sum fun j _ => HasDerivAt.const_mul (a j) ?_).deriv
  have h2 : HasDerivAt (fun t : ℝ => -2 * (m * w / 2) * (t - s' j i)) (-2 * (m * w / 2) * 1) (X i) :=
    ((hasDerivAt_id (X i)).sub_const (s' j i)).const_mul _
  refine (h2.mul (gprod_deriv _ (s' j) X i (X i))).congr_deriv ?_
  rw [Function.update_eq_self]
  ring

/-- The phonon Hamiltonian on a combination of coherent states. -/
theorem comb_phonon (m w : ℝ) (hm : m ≠ 0) (a : J → ℝ) (s' : J → Fin n → ℝ) (X : Fin n → ℝ) : phonon m w (comb m w a s') X =
    ∑ j, a j * ((1 / 2 * m * w ^ 2 * ∑ i, (2 * X i * s' j i - s' j i ^ 2) + 1 / 2 * w * n) * gprod (m * w / 2) (s' j) X) := by
  have hn : (n : ℝ) = ∑ _i : Fin n, (1 : ℝ) := by simp
  simp only [phonon, comb_second, comb, smul_eq_mul]
  simp only [Finset.mul_sum, ← Finset.sum_add_distrib]
  rw [Finset.sum_comm]
  refine Finset.sum_congr rfl fun j _ => ?_
  rw [hn, Finset.mul_sum, ← Finset.sum_add_distrib, Finset.sum_mul, Finset.mul_sum]
  refine Finset.sum_congr rfl fun i _ => ?_
  field_simp
  ring

/-- `evolve` solves the imaginary-time Schrödinger equation. -/
theorem evolve_deriv (o : Osc n) (hm : o.m ≠ 0) (a : J → ℝ) (s' : J → Fin n → ℝ) (X : Fin n → ℝ) (τ : ℝ) :
    HasDerivAt (fun t => evolve o a s' t X)
      (-(phonon o.m o.w (evolve o a s' τ) X - (1 / 2 * o.w * n + eshift o) * evolve o a s' τ X)) τ := by
  have hE : eshift o = 1 / 2 * o.m * o.w ^ 2 * ∑ i, o.shift i ^ 2 := by
    rw [eshift, localEnergy_linear o hm]
    congr 1
    exact Finset.sum_congr rfl fun i _ => by ring
  have hex : ∀ t, HasDerivAt (fun t => Real.exp (-o.w * t)) (Real.exp (-o.w * t) * (-o.w * 1)) t :=
    fun t => ((hasDerivAt_id t).const_mul (-o.w)).exp
  have hg : ∀ (j : J) (t : ℝ), gprod (o.m * o.w / 2) (fun i => s' j i * Real.exp (-o.w * t)) X =
      Real.exp (∑ i, -(o.m * o.w / 2) * (X i - s' j i * Real.exp (-o.w * t)) * (X i - s' j i * Real.exp (-o.w * t))) :=
    fun j t => (Real.exp_sum _ _).symm
  have hj : ∀ j, HasDerivAt (fun t => a j * Real.exp (o.m * o.w / 2 * ∑ i, (o.w * t * o.shift i ^ 2 - s' j i ^ 2 / 2 *
      (1 - Real.exp (-o.w * t) ^ 2))) * gprod (o.m * o.w / 2) (fun i => s' j i * Real.exp (-o.w * t)) X)
      (-(a j * Real.exp (o.m * o.w / 2 * ∑ i, (o.w * τ * o.shift i ^ 2 - s' j i ^ 2 / 2 * (1 - Real.exp (-o.w * τ) ^ 2))) *
        ((1 / 2 * o.m * o.w ^ 2 * ∑ i, (2 * X i * (s' j i * Real.exp (-o.w * τ)) - (s' j i * Real.exp (-o.w * τ)) ^ 2) - eshift o) *
          gprod (o.m * o.w / 2) (fun i => s' j i * Real.exp (-o.w * τ)) X))) τ := by
    intro j
    have h1 : HasDerivAt (fun t => o.m * o.w / 2 * ∑ i, (o.w * t * o.shift i ^ 2 - s' j i ^ 2 / 2 * (1 - Real.exp (-o.w * t) ^ 2)))
        (o.m * o.w / 2 * ∑ i, (o.w * 1 * o.shift i ^ 2 - s' j i ^ 2 / 2 *
          -(2 * Real.exp (-o.w * τ) ^ 1 * (Real.exp (-o.w * τ) * (-o.w * 1))))) τ := by
      refine (HasDerivAt.fun_sum fun i _ => ?_).const_mul _
      refine ((((hasDerivAt_id τ).const_mul o.w).mul_const _).sub ?_)
      exact (((hex τ).pow 2).const_sub 1).const_mul _
    have h2 : HasDerivAt (fun t => ∑ i, -(o.m * o.w / 2) * (X i - s' j i * Real.exp (-o.w * t)) * (X i - s' j i * Real.exp (-o.w * t)))
        (∑ i, (-(o.m * o.w / 2) * -(s' j i * (Real.exp (-o.w * τ) * (-o.w * 1))) * (X i - s' j i * Real.exp (-o.w * τ)) +
          -(o.m * o.w / 2) * (X i - s' j i * Real.exp (-o.w * τ)) * -(s' j i * (Real.exp (-o.w * τ) * (-o.w * 1))))) τ := by
      refine HasDerivAt.fun_sum fun i _ => ?_
      have h3 := ((hex τ).const_mul (s' j i)).const_sub (X i)
      exact (h3.const_mul _).mul h3
    simp only [hg]
    refine ((h1.exp.const_mul (a j)).mul h2.exp).congr_deriv ?_
    have key : o.m * o.w / 2 * ∑ i, (o.w * 1 * o.shift i ^ 2 - s' j i ^ 2 / 2 *
          -(2 * Real.exp (-o.w * τ) ^ 1 * (Real.exp (-o.w * τ) * (-o.w * 1)))) +
        ∑ i, (-(o.m * o.w / 2) * -(s' j i * (Real.exp (-o.w * τ) * (-o.w * 1))) * (X i - s' j i * Real.exp (-o.w * τ)) +
          -(o.m * o.w / 2) * (X i - s' j i * Real.exp (-o.w * τ)) * -(s' j i * (Real.exp (-o.w * τ) * (-o.w * 1)))) =
        -(1 / 2 * o.m * o.w ^ 2 * ∑ i, (2 * X i * (s' j i * Real.exp (-o.w * τ)) - (s' j i * Real.exp (-o.w * τ)) ^ 2) - eshift o) := by
      rw [hE, ← mul_sub, ← Finset.sum_sub_distrib, Finset.mul_sum, Finset.mul_sum, ← Finset.sum_add_distrib, ← Finset.sum_neg_distrib]
      exact Finset.sum_congr rfl fun i _ => by ring
    generalize Real.exp (o.m * o.w / 2 * ∑ i, (o.w * τ * o.shift i ^ 2 - s' j i ^ 2 / 2 * (1 - Real.exp (-o.w * τ) ^ 2))) = E at *
    generalize Real.exp (∑ i, -(o.m * o.w / 2) * (X i - s' j i * Real.exp (-o.w * τ)) * (X i - s' j i * Real.exp (-o.w * τ))) = G at *
    linear_combination a j * E * G * key
  refine (HasDerivAt.fun_sum fun j _ => hj j).congr_deriv ?_
  have he : evolve o a s' τ = comb o.m o.w _ _ := rfl
  rw [he, comb_phonon _ _ hm, comb, Finset.mul_sum, ← Finset.sum_sub_distrib, ← Finset.sum_neg_distrib]
  exact Finset.sum_congr rfl fun j _ => by ring

/-- **C96**: the average of what a walker contributes to `⟨f|Ψ⟩` after `N` phonon steps of length `τ/N` tends, as `N` grows, to what
the imaginary-time evolution over `τ` gives: for every finite combination `f` of coherent states, every trial shift and every walker. -/
theorem meanAfter_limit (o : Osc n) (hm : 0 < o.m) (τ : ℝ) (hτ : 0 ≤ τ) (a : J → ℝ) (s' : J → Fin n → ℝ) (p : PhWalker n) :
    Tendsto (fun N : ℕ => meanAfter o (τ / N) (comb o.m o.w a s') N p) atTop (𝓝 (p.weight * evolve o a s' τ p.X / p.ot)) := by
  have h1 : ∀ N : ℕ, meanAfter o (τ / N) (comb o.m o.w a s') N p = _ :=
    fun N => meanAfter_eq o hm (τ / N) (div_nonneg hτ N.cast_nonneg) a s' N p
  simp only [h1]
  have h2 : Tendsto (fun N : ℕ => o.value p.X * ∑ j, a j * ∏ i,
      (Real.exp (iterGain (o.m * o.w) o.w (τ / N) (o.shift i) N (s' j i - o.shift i)) *
        ratio (o.m * o.w) (o.shift i) (iterNext o.w (τ / N) (o.shift i) N (s' j i - o.shift i)) (p.X i))) atTop
      (𝓝 (evolve o a s' τ p.X)) := by
    have : evolve o a s' τ p.X = o.value p.X * ∑ j, a j * ∏ i, (Real.exp (o.m * o.w / 2 * (((s' j i - o.shift i + o.shift i) *
        Real.exp (-o.w * τ) - o.shift i) ^ 2 - (s' j i - o.shift i) ^ 2 + (o.w * τ * o.shift i ^ 2 - 2 * o.shift i *
        (s' j i - o.shift i + o.shift i) * (1 - Real.exp (-o.w * τ)) +
        (s' j i - o.shift i + o.shift i) ^ 2 * (1 - Real.exp (-o.w * τ) ^ 2) / 2))) *
        ratio (o.m * o.w) (o.shift i) ((s' j i - o.shift i + o.shift i) * Real.exp (-o.w * τ) - o.shift i) (p.X i)) := by
      rw [evolve, comb, Finset.mul_sum]
      refine Finset.sum_congr rfl fun j _ => ?_
      rw [ratio_eq, mul_assoc, mul_left_comm (o.value p.X), mul_left_comm (Real.exp _) (o.value p.X), Finset.prod_mul_distrib,
        ← Real.exp_sum, ← Finset.mul_sum]
      congr 4
      · congr 1
        exact Finset.sum_congr rfl fun i _ => by ring
      · funext i
        rw [sub_add_cancel]
    rw [this]
    refine Tendsto.const_mul _ (tendsto_finset_sum _ fun j _ => Tendsto.const_mul _ (tendsto_finset_prod _ fun i _ => ?_))
    refine ((Real.continuous_exp.tendsto _).comp (iterGain_limit _ _ _ _ _)).mul ?_
    have hr : Continuous fun δ => ratio (o.m * o.w) (o.shift i) δ (p.X i) := by
      unfold ratio
      fun_prop
    exact (hr.tendsto _).comp (iterNext_limit _ _ _ _)
  have h3 := ((Complex.continuous_ofReal.tendsto _).comp h2).const_mul (p.weight / p.ot : ℂ)
  rw [← div_mul_eq_mul_div]
  exact h3

/-- The `sorella` branch splits the interaction and the coupling so that, site by site, what is left for the phonons is
`Ev + Ev2` up to a constant. -/
theorem sorella_split (o : Osc 1) (U g : ℝ) (hU : U ≠ 0) (hm : 0 < o.m) (hw : 0 < o.w) (X : Fin 1 → ℝ) (nu nd : ℝ) (hu : nu ^ 2 = nu)
    (hd : nd ^ 2 = nd) : U * (nu * nd) - g * Real.sqrt (2 * o.m * o.w) * (nu + nd) * X 0 + 1 / 2 * o.m * o.w ^ 2 * X 0 ^ 2 =
      U / 2 * (nu + nd - 1 / 2 - g * Real.sqrt (2 * o.m * o.w) / U * X 0) ^ 2 + sorellaPotential o U g X - U / 8 := by
  have hs : Real.sqrt (2 * o.m * o.w) ^ 2 = 2 * o.m * o.w := Real.sq_sqrt (by positivity)
  simp only [sorellaPotential, Finset.univ_unique, Finset.sum_singleton, Fin.default_eq_zero]
  field_simp
  linear_combination (-32 * U ^ 2) * hu + (-32 * U ^ 2) * hd + (-32 * g ^ 2 * X 0 ^ 2) * hs

/-- **C96 fails** in the `sorella` branch: its kinetic energy is not that of the trial, not even up to a constant. -/
theorem sorella_wrong : ∃ (o : Osc 1), o.m = 1 ∧ o.w = 1 ∧ ¬ ∃ C, ∀ X, sorellaKinetic o X * o.value X + C * o.value X =
    ∑ i, -(1 / (2 * o.m)) * second o.value X i := by
  refine ⟨⟨1, 1, fun _ => 0⟩, rfl, rfl, ?_⟩
  rintro ⟨C, h⟩
  have h0 := h fun _ => 0
  have h1 := h fun _ => 2
  simp only [laplacian_eq, sorellaKinetic, Finset.univ_unique, Finset.sum_singleton, Osc.laplacian] at h0 h1
  have p0 := (value_pos (⟨1, 1, fun _ => 0⟩ : Osc 1) fun _ => 0).ne'
  have p1 := (value_pos (⟨1, 1, fun _ => 0⟩ : Osc 1) fun _ => 2).ne'
  rw [← add_mul] at h0 h1
  have e0 := mul_right_cancel₀ p0 (h0.trans (mul_assoc _ _ _).symm)
  have e1 := mul_right_cancel₀ p1 (h1.trans (mul_assoc _ _ _).symm)
  norm_num at e0 e1
  linarith

end Verif.Holstein
