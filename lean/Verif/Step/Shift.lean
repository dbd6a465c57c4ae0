import Verif.Step.PlaneWave
import Mathlib.Algebra.MvPolynomial.Eval
import Mathlib.MeasureTheory.Integral.Pi

/-!
# Complex shifts of the fields

The average over normally distributed fields of a polynomial times the exponential of a linear form is
unchanged when the fields are shifted by complex numbers and the factor of the force bias is included.
The quantities a step computes (overlaps of propagated determinants, constants) are of this form, so
the force bias does not change their averages (C70, C80).
-/

namespace Verif.Step

open MeasureTheory Finset Matrix
open Verif.Weights (density cfb cmf xshifted integral_one_field)
open Verif.Energy (ovl oneBody twoBody hamil)

variable {nx : Nat}

/-! ## One field -/

/-- Integrand for one field. -/
noncomputable def shifted (b v : ℂ) (k : Nat) (x : ℝ) : ℂ :=
  Complex.exp ((x : ℂ) * b - 1 / 2 * (b * b) + (x - b) * v) * ((x : ℂ) - b) ^ k

theorem integrable_shifted (b v : ℂ) (k : Nat) :
    Integrable fun x : ℝ => (phi x : ℂ) * shifted b v k x := by
  refine integrable_one (by unfold shifted; fun_prop)
    (C := Real.exp (‖1 / 2 * (b * b)‖ + ‖b * v‖) * (k.factorial * Real.exp ‖b‖)) (c := ‖b + v‖ + 1) fun x => ?_
  rw [shifted, norm_mul, norm_pow]
  have h1 : ‖Complex.exp ((x : ℂ) * b - 1 / 2 * (b * b) + (x - b) * v)‖ ≤
      Real.exp (‖1 / 2 * (b * b)‖ + ‖b * v‖) * Real.exp (‖b + v‖ * |x|) := by
    rw [← Real.exp_add]
    refine (Complex.norm_exp_le_exp_norm _).trans (Real.exp_le_exp.2 ?_)
    have e : (x : ℂ) * b - 1 / 2 * (b * b) + (x - b) * v = (b + v) * x - (1 / 2 * (b * b)) - b * v := by ring
    rw [e]
    refine (norm_sub_le _ _).trans ?_
    have := norm_sub_le ((b + v) * (x : ℂ)) (1 / 2 * (b * b))
    rw [norm_mul (b + v), Complex.norm_real, Real.norm_eq_abs] at this
    linarith
  have h2 : ‖(x : ℂ) - b‖ ^ k ≤ k.factorial * Real.exp ‖b‖ * Real.exp |x| := by
    have h3 : ‖(x : ℂ) - b‖ ≤ |x| + ‖b‖ := by
      refine (norm_sub_le _ _).trans ?_
      rw [Complex.norm_real, Real.norm_eq_abs]
    have h4 := Real.pow_div_factorial_le_exp ‖(x : ℂ) - b‖ (norm_nonneg _) k
    rw [div_le_iff₀ (by positivity)] at h4
    calc _ ≤ Real.exp ‖(x : ℂ) - b‖ * k.factorial := h4
      _ ≤ Real.exp (|x| + ‖b‖) * k.factorial :=
        mul_le_mul_of_nonneg_right (Real.exp_le_exp.2 h3) (by positivity)
      _ = _ := by rw [Real.exp_add]; ring
  calc _ ≤ _ := mul_le_mul h1 h2 (by positivity) (by positivity)
    _ = _ := by rw [add_mul ‖b + v‖, one_mul, Real.exp_add (‖b + v‖ * |x|)]; ring

theorem shifted_recursion (b v : ℂ) (k : Nat) :
    ∫ x : ℝ, (phi x : ℂ) * shifted b v (k + 1) x = v * (∫ x : ℝ, (phi x : ℂ) * shifted b v k x) +
      k * ∫ x : ℝ, (phi x : ℂ) * shifted b v (k - 1) x := by
  have hd : ∀ x : ℝ, HasDerivAt (fun x : ℝ => (phi x : ℂ) * shifted b v k x)
      (v * ((phi x : ℂ) * shifted b v k x) + k * ((phi x : ℂ) * shifted b v (k - 1) x) -
        (phi x : ℂ) * shifted b v (k + 1) x) x := by
    intro x
    have h1 : HasDerivAt (fun x : ℝ => (x : ℂ)) 1 x := Complex.ofRealCLM.hasDerivAt
    have h2 : HasDerivAt (fun x : ℝ => (x : ℂ) * b - 1 / 2 * (b * b) + (x - b) * v) (1 * b + 1 * v) x :=
      ((h1.mul_const b).sub_const _).add ((h1.sub_const b).mul_const v)
    have h3 := ((h2.cexp).mul ((h1.sub_const b).pow k))
    have h4 := (hasDerivAt_phiC x).mul h3
    unfold shifted
    convert! h4 using 1
    simp only [Pi.pow_apply, Pi.mul_apply]
    ring
  have h := integral_eq_zero_of_hasDerivAt_of_integrable hd
    ((((integrable_shifted b v k).const_mul v).add ((integrable_shifted b v (k - 1)).const_mul _)).sub
      (integrable_shifted b v (k + 1))) (integrable_shifted b v k)
  have hI : Integrable fun x : ℝ => v * ((phi x : ℂ) * shifted b v k x) +
      k * ((phi x : ℂ) * shifted b v (k - 1) x) :=
    ((integrable_shifted b v k).const_mul v).add ((integrable_shifted b v (k - 1)).const_mul _)
  rw [integral_sub hI (integrable_shifted b v (k + 1)), integral_add ((integrable_shifted b v k).const_mul v) ((integrable_shifted b v (k - 1)).const_mul _),
    integral_const_mul, integral_const_mul] at h
  linear_combination -h

/-- One field: the shift drops out. -/
theorem shifted_eq (b v : ℂ) (k : Nat) :
    ∫ x : ℝ, (phi x : ℂ) * shifted b v k x = ∫ x : ℝ, (phi x : ℂ) * shifted 0 v k x := by
  have h0 : ∀ b : ℂ, ∫ x : ℝ, (phi x : ℂ) * shifted b v 0 x = Complex.exp (1 / 2 * v ^ 2) := by
    intro b
    have := integral_one_field b v
    rw [← this]
    congr 1
    funext x
    rw [shifted, pow_zero, mul_one]
    rfl
  induction k using Nat.strong_induction_on with
  | _ k ih =>
    rcases k with _ | k
    · rw [h0, h0]
    · rw [shifted_recursion, shifted_recursion, ih k (by omega), ih (k - 1) (by omega)]

/-! ## Several fields -/

/-- A polynomial in the fields. -/
def IsPoly (g : (Fin nx → ℂ) → ℂ) : Prop := ∃ P : MvPolynomial (Fin nx) ℂ, ∀ x, g x = MvPolynomial.eval x P

theorem IsPoly.const (c : ℂ) : IsPoly (nx := nx) fun _ => c := ⟨MvPolynomial.C c, fun x => by simp⟩

theorem IsPoly.var (a : Fin nx) : IsPoly fun x : Fin nx → ℂ => x a := ⟨MvPolynomial.X a, fun x => by simp⟩

theorem IsPoly.add {f g : (Fin nx → ℂ) → ℂ} (hf : IsPoly f) (hg : IsPoly g) : IsPoly fun x => f x + g x := by
  obtain ⟨P, hP⟩ := hf
  obtain ⟨Q, hQ⟩ := hg
  exact ⟨P + Q, fun x => by simp only [hP, hQ, map_add]⟩

theorem IsPoly.mul {f g : (Fin nx → ℂ) → ℂ} (hf : IsPoly f) (hg : IsPoly g) : IsPoly fun x => f x * g x := by
  obtain ⟨P, hP⟩ := hf
  obtain ⟨Q, hQ⟩ := hg
  exact ⟨P * Q, fun x => by simp only [hP, hQ, map_mul]⟩

theorem IsPoly.sum {ι : Type*} (S : Finset ι) {f : ι → (Fin nx → ℂ) → ℂ} (h : ∀ i ∈ S, IsPoly (f i)) :
    IsPoly fun x => ∑ i ∈ S, f i x := by
  classical
  induction S using Finset.induction_on with
  | empty => simpa using IsPoly.const 0
  | insert a S ha ih =>
    simp only [sum_insert ha]
    exact (h a (mem_insert_self _ _)).add (ih fun i hi => h i (mem_insert_of_mem hi))

theorem IsPoly.prod {ι : Type*} (S : Finset ι) {f : ι → (Fin nx → ℂ) → ℂ} (h : ∀ i ∈ S, IsPoly (f i)) :
    IsPoly fun x => ∏ i ∈ S, f i x := by
  classical
  induction S using Finset.induction_on with
  | empty => simpa using IsPoly.const 1
  | insert a S ha ih =>
    simp only [prod_insert ha]
    exact (h a (mem_insert_self _ _)).mul (ih fun i hi => h i (mem_insert_of_mem hi))

/-- Matrices whose entries are polynomials. -/
def IsPolyM {a b : Type*} (M : (Fin nx → ℂ) → Matrix a b ℂ) : Prop := ∀ i j, IsPoly fun x => M x i j

theorem IsPolyM.const {a b : Type*} (A : Matrix a b ℂ) : IsPolyM (nx := nx) fun _ => A :=
  fun i j => IsPoly.const (A i j)

theorem IsPolyM.mul {a b c : Type*} [Fintype b] {M : (Fin nx → ℂ) → Matrix a b ℂ}
    {N : (Fin nx → ℂ) → Matrix b c ℂ} (hM : IsPolyM M) (hN : IsPolyM N) : IsPolyM fun x => M x * N x := by
  intro i j
  simp only [Matrix.mul_apply]
  exact IsPoly.sum _ fun k _ => (hM i k).mul (hN k j)

theorem IsPolyM.sum {ι a b : Type*} (S : Finset ι) {M : ι → (Fin nx → ℂ) → Matrix a b ℂ}
    (h : ∀ i ∈ S, IsPolyM (M i)) : IsPolyM fun x => ∑ i ∈ S, M i x := by
  intro i j
  simp only [Matrix.sum_apply]
  exact IsPoly.sum _ fun k hk => h k hk i j

theorem IsPolyM.smul {a b : Type*} {f : (Fin nx → ℂ) → ℂ} {M : (Fin nx → ℂ) → Matrix a b ℂ} (hf : IsPoly f)
    (hM : IsPolyM M) : IsPolyM fun x => f x • M x := by
  intro i j
  simp only [Matrix.smul_apply, smul_eq_mul]
  exact hf.mul (hM i j)

theorem IsPolyM.pow {a : Type*} [Fintype a] [DecidableEq a] {M : (Fin nx → ℂ) → Matrix a a ℂ}
    (hM : IsPolyM M) (k : Nat) : IsPolyM fun x => M x ^ k := by
  induction k with
  | zero => simp only [pow_zero]; exact IsPolyM.const 1
  | succ k ih => simp only [pow_succ]; exact ih.mul hM

theorem IsPolyM.det {a : Type*} [Fintype a] [DecidableEq a] {M : (Fin nx → ℂ) → Matrix a a ℂ}
    (hM : IsPolyM M) : IsPoly fun x => (M x).det := by
  simp only [Matrix.det_apply']
  exact IsPoly.sum _ fun s _ => (IsPoly.const _).mul (IsPoly.prod _ fun i _ => hM _ _)

/-- **C70 (complex shifts, any operators)**: for every complex force bias, the average with shifted
fields and the factor of the force bias of the exponential of a linear form times a polynomial is the
average without force bias. -/
theorem force_bias_polynomial (xbar l : Fin nx → ℂ) {g : (Fin nx → ℂ) → ℂ} (hg : IsPoly g) :
    avg (fun xi => Complex.exp (cfb xi xbar) * (Complex.exp (∑ a, xshifted xi xbar a * l a) *
        g (xshifted xi xbar))) =
      avg (fun xi => Complex.exp (∑ a, (xi a : ℂ) * l a) * g fun a => (xi a : ℂ)) := by
  obtain ⟨P, hP⟩ := hg
  have key : ∀ b : Fin nx → ℂ, avg (fun xi => Complex.exp (cfb xi b) *
      (Complex.exp (∑ a, xshifted xi b a * l a) * g (xshifted xi b))) =
      ∑ m ∈ P.support, P.coeff m * ∏ a, ∫ x : ℝ, (phi x : ℂ) * shifted (b a) (l a) (m a) x := by
    intro b
    have e : (fun xi : Fin nx → ℝ => Complex.exp (cfb xi b) *
        (Complex.exp (∑ a, xshifted xi b a * l a) * g (xshifted xi b))) =
        fun xi => ∑ m ∈ P.support, P.coeff m * ∏ a, shifted (b a) (l a) (m a) (xi a) := by
      funext xi
      rw [hP, MvPolynomial.eval_eq', mul_sum, mul_sum]
      refine sum_congr rfl fun m _ => ?_
      have h1 : Complex.exp (cfb xi b) * Complex.exp (∑ a, xshifted xi b a * l a) =
          ∏ a, Complex.exp ((xi a : ℂ) * b a - 1 / 2 * (b a * b a) + (xi a - b a) * l a) := by
        rw [← Complex.exp_add, ← Complex.exp_sum]
        congr 1
        rw [cfb, mul_sum, ← sum_sub_distrib, ← sum_add_distrib]
        rfl
      have h2 : ∏ a, shifted (b a) (l a) (m a) (xi a) =
          (∏ a, Complex.exp ((xi a : ℂ) * b a - 1 / 2 * (b a * b a) + (xi a - b a) * l a)) *
          ∏ a, xshifted xi b a ^ m a := by
        rw [← prod_mul_distrib]; rfl
      rw [h2, ← h1]
      ring
    rw [e, avg]
    simp only [mul_sum]
    rw [integral_finsetSum]
    · refine sum_congr rfl fun m _ => ?_
      rw [← avg_prod, ← avg_smul, avg]
    · intro m _
      have hi := Integrable.fintype_prod (f := fun (a : Fin nx) (x : ℝ) => (phi x : ℂ) * shifted (b a) (l a) (m a) x)
        (μ := fun _ => volume) fun a => integrable_shifted (b a) (l a) (m a)
      have h3 : (fun x : Fin nx → ℝ => (density x : ℂ) * (P.coeff m * ∏ a, shifted (b a) (l a) (m a) (x a))) =
          fun x => P.coeff m * ∏ a, ((phi (x a) : ℂ) * shifted (b a) (l a) (m a) (x a)) := by
        funext x
        rw [density_eq, Complex.ofReal_prod, prod_mul_distrib]
        ring
      rw [h3]
      exact hi.const_mul _
  rw [key xbar]
  have h0 := key fun _ => 0
  have e0 : (fun xi : Fin nx → ℝ => Complex.exp (∑ a, (xi a : ℂ) * l a) * g fun a => (xi a : ℂ)) =
      fun xi => Complex.exp (cfb xi fun _ => 0) * (Complex.exp (∑ a, xshifted xi (fun _ => 0) a * l a) *
        g (xshifted xi fun _ => 0)) := by
    funext xi
    have hx : xshifted xi (fun _ => 0) = fun a => (xi a : ℂ) := by funext a; simp [xshifted]
    rw [hx]
    simp [cfb]
  rw [e0, h0]
  refine sum_congr rfl fun m _ => ?_
  congr 1
  exact prod_congr rfl fun a _ => shifted_eq _ _ _

end Verif.Step
