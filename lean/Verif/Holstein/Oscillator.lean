import Verif.Holstein.Model
import Mathlib.Analysis.SpecialFunctions.ExpDeriv
import Mathlib.Analysis.Calculus.Deriv.Mul
import Mathlib.Analysis.Calculus.Deriv.Add
import Mathlib.Analysis.Calculus.Deriv.Pow
import Mathlib.Tactic.FieldSimp
import Mathlib.Tactic.Ring
import Mathlib.Tactic.LinearCombination

/-!
# C95: the phonon functions of the trial and their derivatives
-/

namespace Verif.Holstein

variable {n K : Nat}

/-- A product of Gaussians. -/
noncomputable def gprod (a : ℝ) (s X : Fin n → ℝ) : ℝ := ∏ i, Real.exp (-a * (X i - s i) * (X i - s i))

theorem gprod_pos (a : ℝ) (s X : Fin n → ℝ) : 0 < gprod a s X := Finset.prod_pos fun _ _ => Real.exp_pos _

theorem gprod_update (a : ℝ) (s X : Fin n → ℝ) (i : Fin n) (t : ℝ) :
    gprod a s (Function.update X i t) =
      Real.exp (-a * (t - s i) * (t - s i)) * ∏ j ∈ Finset.univ.erase i, Real.exp (-a * (X j - s j) * (X j - s j)) := by
  rw [gprod, ← Finset.mul_prod_erase _ _ (Finset.mem_univ i), Function.update_self]
  congr 1
  refine Finset.prod_congr rfl fun j hj => ?_
  rw [Function.update_of_ne (Finset.ne_of_mem_erase hj)]

theorem gauss_deriv (a s t : ℝ) : HasDerivAt (fun t => Real.exp (-a * (t - s) * (t - s)))
    (-2 * a * (t - s) * Real.exp (-a * (t - s) * (t - s))) t := by
  have h1 : HasDerivAt (fun t : ℝ => t - s) 1 t := (hasDerivAt_id t).sub_const s
  have h2 : HasDerivAt (fun t : ℝ => -a * (t - s) * (t - s)) (-a * 1 * (t - s) + -a * (t - s) * 1) t :=
    (h1.const_mul (-a)).mul h1
  exact h2.exp.congr_deriv (by ring)

theorem gprod_deriv (a : ℝ) (s X : Fin n → ℝ) (i : Fin n) (t : ℝ) :
    HasDerivAt (fun t => gprod a s (Function.update X i t)) (-2 * a * (t - s i) * gprod a s (Function.update X i t)) t := by
  simp only [gprod_update]
  exact ((gauss_deriv a (s i) t).mul_const _).congr_deriv (by ring)

theorem gprod_second (a : ℝ) (s X : Fin n → ℝ) (i : Fin n) :
    second (gprod a s) X i = (4 * a ^ 2 * (X i - s i) ^ 2 - 2 * a) * gprod a s X := by
  have h1 : deriv (fun t => gprod a s (Function.update X i t)) = fun t => -2 * a * (t - s i) * gprod a s (Function.update X i t) :=
    funext fun t => (gprod_deriv a s X i t).deriv
  have h2 : HasDerivAt (fun t : ℝ => -2 * a * (t - s i)) (-2 * a * 1) (X i) :=
    ((hasDerivAt_id (X i)).sub_const (s i)).const_mul (-2 * a)
  have h3 := (h2.mul (gprod_deriv a s X i (X i))).deriv
  rw [second, h1]
  refine h3.trans ?_
  rw [Function.update_eq_self]
  ring

theorem value_eq (o : Osc n) (X : Fin n → ℝ) : o.value X = gprod (o.m * o.w / 2) o.shift X := rfl

theorem valueP_eq (o : Osc n) (P : Fin n → ℝ) : o.valueP P = gprod (1 / (2 * o.m * o.w)) o.shift P := rfl

theorem value_pos (o : Osc n) (X : Fin n → ℝ) : 0 < o.value X := gprod_pos _ _ _

/-- **C95 (drift)**: `gradient` times `value` is the derivative of `value` in every coordinate. -/
theorem gradient_eq (o : Osc n) (X : Fin n → ℝ) (i : Fin n) :
    HasDerivAt (fun t => o.value (Function.update X i t)) (o.gradient X i * o.value X) (X i) := by
  have := gprod_deriv (o.m * o.w / 2) o.shift X i (X i)
  rw [Function.update_eq_self] at this
  simp only [value_eq]
  exact this.congr_deriv (by rw [Osc.gradient]; ring)

/-- **C95 (Laplacian)**: `laplacian` times `value` is the second derivative of `value`. -/
theorem laplacian_eq (o : Osc n) (X : Fin n → ℝ) (i : Fin n) : second o.value X i = o.laplacian X i * o.value X := by
  change second (gprod (o.m * o.w / 2) o.shift) X i = _
  rw [gprod_second, value_eq, Osc.laplacian]
  ring

/-- **C95 (energy)**: `local_energy` is the phonon Hamiltonian on `value`, divided by `value`, less the zero-point energy. -/
theorem localEnergy_eq (o : Osc n) (X : Fin n → ℝ) :
    phonon o.m o.w o.value X = (o.localEnergy X + 1 / 2 * o.w * n) * o.value X := by
  simp only [phonon, laplacian_eq, Osc.localEnergy, smul_eq_mul]
  rw [Finset.sum_add_distrib, ← Finset.mul_sum, ← Finset.sum_mul, ← Finset.sum_mul, ← Finset.mul_sum]
  have h : ∀ m : ℝ, 1 / (2 * m) = 1 / 2 * m⁻¹ := fun m => by rw [one_div, mul_inv, one_div]
  have h2 : ∑ i, X i * X i = ∑ i, X i ^ 2 := Finset.sum_congr rfl fun i _ => (sq _).symm
  rw [h, h2, div_eq_mul_inv]
  ring

/-- The local energy depends on the coordinates only through the shift. -/
theorem localEnergy_linear (o : Osc n) (hm : o.m ≠ 0) (X : Fin n → ℝ) :
    o.localEnergy X = 1 / 2 * o.m * o.w ^ 2 * ∑ i, (2 * X i * o.shift i - o.shift i ^ 2) := by
  have h1 : ∑ i, o.laplacian X i = o.m * o.m * o.w * o.w * (∑ i, X i * X i - ∑ i, (2 * X i * o.shift i - o.shift i ^ 2)) -
      o.w * o.m * n := by
    simp only [Osc.laplacian]
    rw [Finset.sum_sub_distrib, Finset.sum_const, Finset.card_univ, Fintype.card_fin, nsmul_eq_mul, ← Finset.sum_sub_distrib,
      Finset.mul_sum, mul_comm (n : ℝ)]
    congr 1
    exact Finset.sum_congr rfl fun i _ => by ring
  simp only [Osc.localEnergy, h1]
  field_simp
  ring

/-- Without a shift the trial is the ground state: no fluctuation and no energy above the zero point. -/
theorem localEnergy_zero (o : Osc n) (hm : o.m ≠ 0) (hs : ∀ i, o.shift i = 0) (X : Fin n → ℝ) : o.localEnergy X = 0 := by
  rw [localEnergy_linear o hm]
  simp [hs]

/-- **C95 (momentum)**: the functions of the momenta are the derivatives too. -/
theorem gradientP_eq (o : Osc n) (P : Fin n → ℝ) (i : Fin n) :
    HasDerivAt (fun t => o.valueP (Function.update P i t)) (o.gradientP P i * o.valueP P) (P i) := by
  have := gprod_deriv (1 / (2 * o.m * o.w)) o.shift P i (P i)
  rw [Function.update_eq_self] at this
  simp only [valueP_eq]
  refine this.congr_deriv ?_
  rw [Osc.gradientP, show 1 / (2 * o.m * o.w) = 1 / 2 * (1 / (o.m * o.w)) by rw [mul_assoc, one_div_mul_one_div]]
  ring

theorem laplacianP_eq (o : Osc n) (P : Fin n → ℝ) (i : Fin n) : second o.valueP P i = o.laplacianP P i * o.valueP P := by
  change second (gprod (1 / (2 * o.m * o.w)) o.shift) P i = _
  rw [gprod_second, valueP_eq, Osc.laplacianP, show 1 / (2 * o.m * o.w) = 1 / 2 * (1 / (o.m * o.w)) by
    rw [mul_assoc, one_div_mul_one_div]]
  ring

theorem localEnergyP_eq (o : Osc n) (P : Fin n → ℝ) :
    phononP o.m o.w o.valueP P = (o.localEnergyP P + 1 / 2 * o.w * n) * o.valueP P := by
  simp only [phononP, laplacianP_eq, Osc.localEnergyP]
  rw [Finset.sum_sub_distrib, ← Finset.sum_mul, ← Finset.mul_sum, ← Finset.sum_mul, ← Finset.sum_div]
  have h2 : ∑ i, P i * P i = ∑ i, P i ^ 2 := Finset.sum_congr rfl fun i _ => (sq _).symm
  rw [h2]
  ring

/-! ## Several coherent states -/

theorem several_hasDeriv (t : Several n K) (X : Fin n → ℝ) (i : Fin n) (u : ℝ) :
    HasDerivAt (fun u => t.value (Function.update X i u))
      (∑ k, (((t.osc k).gradient (Function.update X i u) i * (t.osc k).value (Function.update X i u) : ℝ) : ℂ) * t.ots k *
        star (t.coeff k)) u := by
  simp only [Several.value]
  refine HasDerivAt.fun_sum fun k _ => ?_
  have h := gradient_eq (t.osc k) (Function.update X i u) i
  simp only [Function.update_idem, Function.update_self] at h
  exact (h.ofReal_comp.mul_const (t.ots k)).mul_const (star (t.coeff k))

/-- **C95 (several states, Laplacian)**: `laplacian` times `value` is the second derivative of the trial. -/
theorem several_laplacian (t : Several n K) (X : Fin n → ℝ) (h : t.value X ≠ 0) (i : Fin n) :
    second t.value X i = t.laplacian X i * t.value X := by
  have h1 : deriv (fun u => t.value (Function.update X i u)) = fun u => ∑ k,
      (((t.osc k).gradient (Function.update X i u) i * (t.osc k).value (Function.update X i u) : ℝ) : ℂ) * t.ots k * star (t.coeff k) :=
    funext fun u => (several_hasDeriv t X i u).deriv
  rw [Several.laplacian, div_mul_cancel₀ _ h, second, h1]
  refine (HasDerivAt.fun_sum (A' := fun k => (((t.osc k).laplacian X i * (t.osc k).value X : ℝ) : ℂ) * t.ots k * star (t.coeff k))
    fun k _ => ?_).deriv.trans ?_
  · have hd : HasDerivAt (fun u => (t.osc k).gradient (Function.update X i u) i * (t.osc k).value (Function.update X i u))
        ((t.osc k).laplacian X i * (t.osc k).value X) (X i) := by
      have h2 : HasDerivAt (fun u => (t.osc k).gradient (Function.update X i u) i) (-(t.osc k).m * (t.osc k).w * 1) (X i) := by
        simp only [Osc.gradient, Function.update_self]
        exact ((hasDerivAt_id (X i)).sub_const _).const_mul _
      have h3 := h2.mul (gradient_eq (t.osc k) X i)
      refine h3.congr_deriv ?_
      rw [Function.update_eq_self, Osc.gradient, Osc.laplacian]
      ring
    exact (hd.ofReal_comp.mul_const (t.ots k)).mul_const (star (t.coeff k))
  · refine Finset.sum_congr rfl fun k _ => ?_
    push_cast
    ring

/-- **C95 (several states, drift)**, for real coefficients: `gradient` times `value` is the derivative of the trial.  Missing: complex
coefficients, for which it is wrong (`drift_wrong`). -/
theorem several_gradient_partial (t : Several n K) (hc : ∀ k, star (t.coeff k) = t.coeff k) (X : Fin n → ℝ) (h : t.value X ≠ 0)
    (i : Fin n) : HasDerivAt (fun u => t.value (Function.update X i u)) (t.gradient X i * t.value X) (X i) := by
  refine (several_hasDeriv t X i (X i)).congr_deriv ?_
  rw [Several.gradient, div_mul_cancel₀ _ h, Function.update_eq_self]
  refine Finset.sum_congr rfl fun k _ => ?_
  rw [hc k]
  push_cast
  ring

/-- **C95 (several states, energy)**: `bosonic_local_energy` is the phonon Hamiltonian on the trial, divided by the trial, less the
zero-point energy. -/
theorem several_energy (t : Several n K) (X : Fin n → ℝ) (h : t.value X ≠ 0) :
    phonon t.m t.w t.value X = (t.bosonicEnergy X + 1 / 2 * t.w * n) * t.value X := by
  simp only [phonon, several_laplacian t X h, Several.bosonicEnergy, Complex.real_smul]
  rw [Finset.sum_add_distrib, ← Finset.mul_sum, ← Finset.sum_mul, ← Finset.sum_mul]
  have h1 : ∀ m : ℂ, 1 / (2 * m) = 1 / 2 * m⁻¹ := fun m => by rw [one_div, mul_inv, one_div]
  have h2 : ∑ i, ((1 / 2 * t.m * t.w ^ 2 * X i ^ 2 : ℝ) : ℂ) = 1 / 2 * t.m * t.w ^ 2 * ∑ i, (X i : ℂ) * X i := by
    rw [Finset.mul_sum]
    exact Finset.sum_congr rfl fun i _ => by push_cast; ring
  rw [h2]
  push_cast
  rw [h1, div_eq_mul_inv]
  ring

/-- One state with coefficient and overlap one gives the functions of the oscillator. -/
theorem several_one (o : Osc n) (X : Fin n → ℝ) (i : Fin n) :
    let t : Several n 1 := ⟨o.m, o.w, fun _ => 1, fun _ => o.shift, fun _ => 1⟩
    t.value X = o.value X ∧ t.gradient X i = o.gradient X i ∧ t.laplacian X i = o.laplacian X i ∧
      t.bosonicEnergy X = o.localEnergy X := by
  intro t
  have hv : t.value X = o.value X := by simp [t, Several.value, Several.osc]
  have h0 : (o.value X : ℂ) ≠ 0 := by exact_mod_cast (value_pos o X).ne'
  have hl : ∀ i, t.laplacian X i = o.laplacian X i := by
    intro i
    rw [Several.laplacian, hv]
    simp only [t, Several.osc, Finset.univ_unique, Finset.sum_singleton, star_one, mul_one]
    rw [mul_comm, mul_div_cancel_right₀ _ h0]
  refine ⟨hv, ?_, hl i, ?_⟩
  · rw [Several.gradient, hv]
    simp only [t, Several.osc, Finset.univ_unique, Finset.sum_singleton, mul_one]
    rw [mul_comm, mul_div_cancel_right₀ _ h0]
  · simp only [Several.bosonicEnergy, hl, Osc.localEnergy]
    push_cast
    rfl

theorem exp_half_im : (Complex.exp (-2⁻¹)).im = 0 := by
  have := Complex.exp_ofReal_im (-2⁻¹)
  push_cast at this
  exact this

theorem exp_half_re : 0 < (Complex.exp (-2⁻¹)).re := by
  have := Complex.exp_ofReal_re (-2⁻¹)
  push_cast at this
  rw [this]
  exact Real.exp_pos _

/-- Two coherent states with coefficients `1` and `i`. -/
def twoStates : Several 1 2 := ⟨1, 1, ![1, Complex.I], ![fun _ => 0, fun _ => 1], fun _ => 1⟩

theorem twoStates_ne : twoStates.value (fun _ => 0) ≠ 0 := by
  simp only [twoStates, Several.value, Several.osc, Osc.value, Fin.sum_univ_two, Finset.univ_unique, Finset.prod_singleton]
  intro h
  have := congrArg Complex.re h
  simp [exp_half_im] at this

/-- **C95 fails** for complex coefficients: with coefficients `1` and `i` the drift is not the derivative of the trial. -/
theorem drift_wrong : ∃ (t : Several 1 2) (X : Fin 1 → ℝ), t.value X ≠ 0 ∧ t.m = 1 ∧ t.w = 1 ∧
    ¬ HasDerivAt (fun u => t.value (Function.update X 0 u)) (t.gradient X 0 * t.value X) (X 0) := by
  refine ⟨twoStates, fun _ => 0, twoStates_ne, rfl, rfl, fun hd => ?_⟩
  have := hd.unique (several_hasDeriv _ _ 0 _)
  rw [Several.gradient, div_mul_cancel₀ _ twoStates_ne] at this
  simp only [twoStates, Function.update_eq_self, Several.osc, Osc.value, Osc.gradient, Fin.sum_univ_two, Finset.univ_unique,
    Finset.prod_singleton] at this
  have := congrArg Complex.im this
  simp [exp_half_im] at this
  have hp := exp_half_re
  linarith

end Verif.Holstein
