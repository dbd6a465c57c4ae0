import Verif.Stats.Errors
import Mathlib.MeasureTheory.Function.L2Space
import Mathlib.MeasureTheory.Integral.Bochner.Basic
import Mathlib.Probability.ProbabilityMassFunction.Integrals
import Mathlib.Probability.Distributions.Uniform

/-!
# Errors are right on average

For samples that are not correlated and have the same mean and variance, the square of the standard
error has the variance of the mean as its average.
-/

namespace Verif.Stats

open Verif.Analysis MeasureTheory

variable {Ω : Type*} [MeasurableSpace Ω] (P : Measure Ω) [IsProbabilityMeasure P]

/-- Samples with mean `m` and variance `v` that are not correlated. -/
structure Samples {n : ℕ} (X : Fin n → Ω → ℝ) (m v : ℝ) : Prop where
  memLp : ∀ i, MemLp (X i) 2 P
  mean : ∀ i, ∫ ω, X i ω ∂P = m
  var : ∀ i, ∫ ω, X i ω ^ 2 ∂P = m ^ 2 + v
  cov : ∀ i j, i ≠ j → ∫ ω, X i ω * X j ω ∂P = m ^ 2

theorem avg_ofFn {n : ℕ} (x : Fin n → ℝ) : avg (List.ofFn x) = (∑ i, x i) / n := by
  unfold avg
  rw [List.length_ofFn, List.sum_ofFn]

theorem ss_ofFn {n : ℕ} (x : Fin n → ℝ) (hn : 0 < n) :
    ss (List.ofFn x) = ∑ i, x i ^ 2 - (∑ i, x i) ^ 2 / n := by
  have hn' : (n : ℝ) ≠ 0 := by exact_mod_cast hn.ne'
  unfold ss
  rw [avg_ofFn, List.map_ofFn, List.sum_ofFn]
  simp only [Function.comp_apply]
  set S := ∑ i, x i with hS
  have : ∀ i, (x i - S / n) ^ 2 = x i ^ 2 - 2 * (S / n) * x i + (S / n) ^ 2 := fun i => by ring
  simp only [this, Finset.sum_add_distrib, Finset.sum_sub_distrib, ← Finset.mul_sum, ← hS,
    Finset.sum_const, Finset.card_univ, Fintype.card_fin, nsmul_eq_mul]
  field_simp
  ring

variable {P}

section
variable {n : ℕ} {X : Fin n → Ω → ℝ} {m v : ℝ}

theorem Samples.integrable (h : Samples P X m v) (i : Fin n) : Integrable (X i) P :=
  (h.memLp i).integrable (by norm_num)

theorem Samples.integrable_mul (h : Samples P X m v) (i j : Fin n) :
    Integrable (fun ω => X i ω * X j ω) P := (h.memLp i).integrable_mul (h.memLp j)

theorem Samples.integral_mul (h : Samples P X m v) (i j : Fin n) :
    ∫ ω, X i ω * X j ω ∂P = m ^ 2 + if i = j then v else 0 := by
  by_cases hij : i = j
  · subst hij
    rw [if_pos rfl, ← h.var i]
    simp only [sq]
  · rw [if_neg hij, h.cov i j hij, add_zero]

theorem Samples.integral_sum (h : Samples P X m v) : ∫ ω, ∑ i, X i ω ∂P = n * m := by
  rw [integral_finsetSum _ fun i _ => h.integrable i]
  simp [h.mean]

theorem sum_sq_expand (x : Fin n → ℝ) : (∑ i, x i) ^ 2 = ∑ i, ∑ j, x i * x j := by
  rw [sq, Finset.sum_mul_sum]

theorem Samples.integrable_sum_sq (h : Samples P X m v) : Integrable (fun ω => (∑ i, X i ω) ^ 2) P := by
  simp only [sum_sq_expand]
  exact integrable_finsetSum _ fun i _ => integrable_finsetSum _ fun j _ => h.integrable_mul i j

theorem Samples.integral_sum_sq (h : Samples P X m v) :
    ∫ ω, (∑ i, X i ω) ^ 2 ∂P = n ^ 2 * m ^ 2 + n * v := by
  simp only [sum_sq_expand]
  rw [integral_finsetSum _ fun i _ => integrable_finsetSum _ fun j _ => h.integrable_mul i j]
  have : ∀ i, ∫ ω, ∑ j, X i ω * X j ω ∂P = n * m ^ 2 + v := by
    intro i
    rw [integral_finsetSum _ fun j _ => h.integrable_mul i j]
    simp [h.integral_mul, Finset.sum_add_distrib]
  simp only [this, Finset.sum_const, Finset.card_univ, Fintype.card_fin, nsmul_eq_mul]
  ring

theorem Samples.integrable_sq (h : Samples P X m v) (i : Fin n) : Integrable (fun ω => X i ω ^ 2) P := by
  simp only [sq]
  exact h.integrable_mul i i

/-- Average of the sum of squares of the deviations. -/
theorem Samples.integral_ss (h : Samples P X m v) (hn : 0 < n) :
    ∫ ω, ss (List.ofFn fun i => X i ω) ∂P = (n - 1) * v := by
  have hn' : (n : ℝ) ≠ 0 := by exact_mod_cast hn.ne'
  simp only [ss_ofFn _ hn]
  rw [integral_sub (integrable_finsetSum _ fun i _ => h.integrable_sq i)
    (h.integrable_sum_sq.div_const _), integral_finsetSum _ fun i _ => h.integrable_sq i,
    integral_div, h.integral_sum_sq]
  simp only [h.var, Finset.sum_const, Finset.card_univ, Fintype.card_fin, nsmul_eq_mul]
  field_simp
  ring

theorem Samples.integrable_ss (h : Samples P X m v) (hn : 0 < n) :
    Integrable (fun ω => ss (List.ofFn fun i => X i ω)) P := by
  simp only [ss_ofFn _ hn]
  exact (integrable_finsetSum _ fun i _ => h.integrable_sq i).sub (h.integrable_sum_sq.div_const _)

/-- Variance of the mean. -/
theorem Samples.mean_var (h : Samples P X m v) (hn : 0 < n) :
    ∫ ω, (avg (List.ofFn fun i => X i ω) - m) ^ 2 ∂P = v / n := by
  have hn' : (n : ℝ) ≠ 0 := by exact_mod_cast hn.ne'
  have : ∀ ω, (avg (List.ofFn fun i => X i ω) - m) ^ 2 =
      (∑ i, X i ω) ^ 2 * (1 / n ^ 2) - (∑ i, X i ω) * (2 * m / n) + m ^ 2 := by
    intro ω
    rw [avg_ofFn]
    field_simp
    ring
  simp only [this]
  have hs : Integrable (fun ω => ∑ i, X i ω) P := integrable_finsetSum _ fun i _ => h.integrable i
  have hi : Integrable (fun ω => (∑ i, X i ω) ^ 2 * (1 / (n : ℝ) ^ 2) - (∑ i, X i ω) * (2 * m / n)) P :=
    (h.integrable_sum_sq.mul_const _).sub (hs.mul_const _)
  rw [integral_add hi (integrable_const _),
    integral_sub (h.integrable_sum_sq.mul_const _) (hs.mul_const _), integral_mul_const,
    integral_mul_const, h.integral_sum_sq, h.integral_sum]
  simp only [integral_const, probReal_univ, one_smul]
  field_simp
  ring

theorem Samples.integrable_mean (h : Samples P X m v) :
    Integrable (fun ω => (avg (List.ofFn fun i => X i ω) - m) ^ 2) P := by
  by_cases hn : (n : ℝ) = 0
  · have : ∀ ω, (avg (List.ofFn fun i => X i ω) - m) ^ 2 = m ^ 2 := by
      intro ω
      rw [avg_ofFn, hn]
      simp
    simp only [this]
    exact integrable_const _
  · have : ∀ ω, (avg (List.ofFn fun i => X i ω) - m) ^ 2 =
        (∑ i, X i ω) ^ 2 * (1 / n ^ 2) - (∑ i, X i ω) * (2 * m / n) + m ^ 2 := by
      intro ω
      rw [avg_ofFn]
      field_simp
      ring
    simp only [this]
    have hs : Integrable (fun ω => ∑ i, X i ω) P := integrable_finsetSum _ fun i _ => h.integrable i
    exact ((h.integrable_sum_sq.mul_const _).sub (hs.mul_const _)).add (integrable_const _)

/-- **The standard error is right on average**: its square has the variance of the mean as its
expectation, for samples that are not correlated. -/
theorem sem_unbiased (h : Samples P X m v) (hn : 2 ≤ n) :
    ∫ ω, sem (List.ofFn fun i => X i ω) ^ 2 ∂P =
      ∫ ω, (avg (List.ofFn fun i => X i ω) - m) ^ 2 ∂P := by
  have h1 : ∀ ω, sem (List.ofFn fun i => X i ω) ^ 2 =
      ss (List.ofFn fun i => X i ω) / (n - 1) / n := by
    intro ω
    rw [sem_sq _ (by rw [List.length_ofFn]; exact hn), List.length_ofFn]
  have hn1 : (n : ℝ) - 1 ≠ 0 := by
    have : (2 : ℝ) ≤ n := by exact_mod_cast hn
    linarith
  simp only [h1]
  rw [integral_div, integral_div, h.integral_ss (by omega), h.mean_var (by omega)]
  field_simp

/-- The reported mean is the true one on average. -/
theorem mean_unbiased (h : Samples P X m v) (hn : 0 < n) :
    ∫ ω, avg (List.ofFn fun i => X i ω) ∂P = m := by
  have hn' : (n : ℝ) ≠ 0 := by exact_mod_cast hn.ne'
  simp only [avg_ofFn]
  rw [integral_div, h.integral_sum]
  field_simp

end

/-! ## Entries of density matrices -/

theorem avgC_re (z : List ℂ) : (avgC z).re = avg (z.map Complex.re) := (avg_map_re z).symm
theorem avgC_im (z : List ℂ) : (avgC z).im = avg (z.map Complex.im) := (avg_map_im z).symm

theorem stdC_sq (z : List ℂ) (h : 2 ≤ z.length) :
    stdC z ^ 2 = (ss (z.map Complex.re) + ss (z.map Complex.im)) / (z.length - 1) := by
  have h2 : (2 : ℝ) ≤ z.length := by exact_mod_cast h
  have hsum : ∀ (l : List ℂ) (c : ℂ), (l.map fun a => ‖a - c‖ ^ 2).sum =
      ((l.map Complex.re).map fun a => (a - c.re) ^ 2).sum +
        ((l.map Complex.im).map fun a => (a - c.im) ^ 2).sum := by
    intro l c
    induction l with
    | nil => simp
    | cons a t ih =>
      simp only [List.map_cons, List.sum_cons, ih]
      rw [← Complex.normSq_eq_norm_sq, Complex.normSq_apply]
      simp only [Complex.sub_re, Complex.sub_im]
      ring
  have key : (z.map fun a => ‖a - avgC z‖ ^ 2).sum = ss (z.map Complex.re) + ss (z.map Complex.im) := by
    rw [hsum, avgC_re, avgC_im]
    rfl
  unfold stdC
  rw [key, Real.sq_sqrt (div_nonneg (add_nonneg (ss_nonneg _) (ss_nonneg _)) (by linarith))]

/-- **Error of a density matrix**: on average the square of the reported error is the mean square
deviation of the reported mean, times the fraction of blocks kept. -/
theorem rdm_error_average {ι : Type*} {n : ℕ} (pre : Ω → List (ι → ℂ)) (Z : Fin n → Ω → ι → ℂ) (i : ι)
    (skip : ℕ) (hpre : ∀ ω, (pre ω).length = skip) (hn : 2 ≤ n) (m : ℂ) (v w : ℝ)
    (hre : Samples P (fun b ω => (Z b ω i).re) m.re v)
    (him : Samples P (fun b ω => (Z b ω i).im) m.im w) :
    ∫ ω, (averageRdm (pre ω ++ List.ofFn fun b => Z b ω) skip i).2 ^ 2 ∂P =
      (n / (skip + n) : ℝ) *
        ∫ ω, ‖(averageRdm (pre ω ++ List.ofFn fun b => Z b ω) skip i).1 - m‖ ^ 2 ∂P := by
  have hn0 : (0 : ℝ) < n := by exact_mod_cast (by omega : 0 < n)
  have hn1 : (n : ℝ) - 1 ≠ 0 := by
    have : (2 : ℝ) ≤ n := by exact_mod_cast hn
    linarith
  have hkept : ∀ ω, ((pre ω ++ List.ofFn fun b => Z b ω).drop skip).map (· i) =
      List.ofFn fun b => Z b ω i := by
    intro ω
    rw [← hpre ω, List.drop_left, List.map_ofFn]
    rfl
  have hlen : ∀ ω, ((pre ω ++ List.ofFn fun b => Z b ω).length : ℝ) = skip + n := by
    intro ω
    rw [List.length_append, hpre ω, List.length_ofFn]
    push_cast
    ring
  have e1 : ∀ ω, (averageRdm (pre ω ++ List.ofFn fun b => Z b ω) skip i).2 ^ 2 =
      (ss (List.ofFn fun b => (Z b ω i).re) + ss (List.ofFn fun b => (Z b ω i).im)) / (n - 1) /
        (skip + n) := by
    intro ω
    simp only [averageRdm]
    rw [hkept, hlen, div_pow, Real.sq_sqrt (by positivity), stdC_sq _ (by rw [List.length_ofFn]; exact hn),
      List.length_ofFn, List.map_ofFn, List.map_ofFn]
    rfl
  have e2 : ∀ ω, ‖(averageRdm (pre ω ++ List.ofFn fun b => Z b ω) skip i).1 - m‖ ^ 2 =
      (avg (List.ofFn fun b => (Z b ω i).re) - m.re) ^ 2 +
        (avg (List.ofFn fun b => (Z b ω i).im) - m.im) ^ 2 := by
    intro ω
    simp only [averageRdm]
    rw [hkept, ← Complex.normSq_eq_norm_sq, Complex.normSq_apply, Complex.sub_re, Complex.sub_im,
      avgC_re, avgC_im, List.map_ofFn, List.map_ofFn]
    simp only [Function.comp_def]
    ring
  simp only [e1, e2]
  rw [integral_div, integral_div, integral_add (hre.integrable_ss (by omega)) (him.integrable_ss (by omega)),
    integral_add hre.integrable_mean him.integrable_mean, hre.integral_ss (by omega),
    him.integral_ss (by omega), hre.mean_var (by omega), him.mean_var (by omega)]
  have : (skip : ℝ) + n ≠ 0 := by positivity
  field_simp

/-- Value of a throw. -/
noncomputable def coin {n : ℕ} (i : Fin n) (ω : Fin n → Bool) : ℝ := if ω i then 1 else -1

/-- Turning over one coin. -/
def flip {n : ℕ} (i : Fin n) : (Fin n → Bool) ≃ (Fin n → Bool) :=
  Equiv.piCongrRight fun k => if k = i then ⟨not, not, Bool.not_not, Bool.not_not⟩ else Equiv.refl _

theorem coin_flip {n : ℕ} (i : Fin n) (ω : Fin n → Bool) : coin i (flip i ω) = -coin i ω := by
  cases h : ω i <;> simp [coin, flip, h]

theorem coin_flip_ne {n : ℕ} (i j : Fin n) (h : j ≠ i) (ω : Fin n → Bool) :
    coin j (flip i ω) = coin j ω := by
  simp [coin, flip, h]

theorem coin_sq {n : ℕ} (i : Fin n) (ω : Fin n → Bool) : coin i ω ^ 2 = 1 := by
  cases h : ω i <;> simp [coin, h]

/-- The hypotheses are met: independent throws of a coin with values `-1` and `1`. -/
theorem samples_example (n : ℕ) :
    Samples (PMF.uniformOfFintype (Fin n → Bool)).toMeasure (fun i => coin i) 0 1 := by
  have hint : ∀ f : (Fin n → Bool) → ℝ, ∫ ω, f ω ∂(PMF.uniformOfFintype (Fin n → Bool)).toMeasure =
      (∑ ω, f ω) / 2 ^ n := by
    intro f
    rw [PMF.integral_eq_sum]
    simp only [PMF.uniformOfFintype_apply, smul_eq_mul, ← Finset.mul_sum]
    simp
    ring
  have hodd : ∀ (f : (Fin n → Bool) → ℝ) (i : Fin n), (∀ ω, f (flip i ω) = -f ω) → ∑ ω, f ω = 0 := by
    intro f i h
    have h1 : ∑ ω, f (flip i ω) = ∑ ω, f ω := Equiv.sum_comp (flip i) f
    simp only [h, Finset.sum_neg_distrib] at h1
    linarith
  refine ⟨fun i => MemLp.of_discrete, fun i => ?_, fun i => ?_, fun i j hij => ?_⟩
  · rw [hint, hodd _ i (coin_flip i), zero_div]
  · rw [hint]
    simp [coin_sq]
  · rw [hint, hodd (fun ω => coin i ω * coin j ω) i fun ω => by
      rw [coin_flip, coin_flip_ne i j (Ne.symm hij)]; ring]
    simp

end Verif.Stats
