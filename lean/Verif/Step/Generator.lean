import Verif.Step.Moments
import Verif.Energy.Wick
import Mathlib.Analysis.Normed.Algebra.MatrixExponential
import Mathlib.Analysis.Matrix.Normed

/-!
# One step with normally distributed fields, to first order in the time step

For any one-body matrices, the average over the fields of the overlap of a trial determinant with the
determinant propagated by half a one-body step, a truncated exponential of the fields and another half
one-body step is, up to third order in `√dt`, the overlap plus `dt` times a matrix element which is
half the sum of squares of the operators less their shifts, minus the one-body operator.
Nothing here refers to the model of the code.
-/

namespace Verif.Step

open MeasureTheory Finset Polynomial Matrix
open Verif.Energy (ovl oneBody twoBody)
open Verif.Slater (taylor)

variable {nx m k : Nat}

/-! ## Linearity of matrix elements -/

theorem oneBody_add (S T : Matrix (Fin m) (Fin m) ℂ) (A B : Matrix (Fin m) (Fin k) ℂ) :
    oneBody (S + T) A B = oneBody S A B + oneBody T A B := by
  simp only [oneBody, ← sum_add_distrib]
  refine sum_congr rfl fun i _ => ?_
  simp only [Matrix.mul_updateCol, Matrix.add_mulVec, Matrix.mulVec_add, Matrix.det_updateCol_add]

theorem oneBody_smul (r : ℂ) (T : Matrix (Fin m) (Fin m) ℂ) (A B : Matrix (Fin m) (Fin k) ℂ) :
    oneBody (r • T) A B = r * oneBody T A B := by
  simp only [oneBody, mul_sum]
  refine sum_congr rfl fun i _ => ?_
  simp only [Matrix.mul_updateCol, Matrix.smul_mulVec, Matrix.mulVec_smul, Matrix.det_updateCol_smul]

theorem oneBody_zero (A B : Matrix (Fin m) (Fin k) ℂ) : oneBody 0 A B = 0 := by
  have := oneBody_smul 0 0 A B
  simpa using this

theorem oneBody_sub (S T : Matrix (Fin m) (Fin m) ℂ) (A B : Matrix (Fin m) (Fin k) ℂ) :
    oneBody (S - T) A B = oneBody S A B - oneBody T A B := by
  have h := oneBody_add S ((-1 : ℂ) • T) A B
  rw [oneBody_smul] at h
  have e : S + (-1 : ℂ) • T = S - T := by rw [neg_smul, one_smul, sub_eq_add_neg]
  rw [e] at h
  rw [h]; ring

theorem oneBody_sum {ι : Type*} (s : Finset ι) (T : ι → Matrix (Fin m) (Fin m) ℂ)
    (A B : Matrix (Fin m) (Fin k) ℂ) : oneBody (∑ a ∈ s, T a) A B = ∑ a ∈ s, oneBody (T a) A B := by
  classical
  induction s using Finset.induction_on with
  | empty => simpa using oneBody_zero A B
  | insert a s ha ih => rw [sum_insert ha, sum_insert ha, oneBody_add, ih]

theorem twoBody_add_left (S S' T : Matrix (Fin m) (Fin m) ℂ) (A B : Matrix (Fin m) (Fin k) ℂ) :
    twoBody (S + S') T A B = twoBody S T A B + twoBody S' T A B := by
  simp only [twoBody, ← sum_add_distrib]
  refine sum_congr rfl fun i _ => sum_congr rfl fun j _ => ?_
  split_ifs with h
  · simp
  · rw [Matrix.updateCol_comm _ h, Matrix.updateCol_comm _ h, Matrix.updateCol_comm _ h]
    simp only [Matrix.mul_updateCol, Matrix.add_mulVec, Matrix.mulVec_add, Matrix.det_updateCol_add]

theorem twoBody_smul_left (r : ℂ) (S T : Matrix (Fin m) (Fin m) ℂ) (A B : Matrix (Fin m) (Fin k) ℂ) :
    twoBody (r • S) T A B = r * twoBody S T A B := by
  simp only [twoBody, mul_sum]
  refine sum_congr rfl fun i _ => sum_congr rfl fun j _ => ?_
  split_ifs with h
  · simp
  · rw [Matrix.updateCol_comm _ h, Matrix.updateCol_comm _ h]
    simp only [Matrix.mul_updateCol, Matrix.smul_mulVec, Matrix.mulVec_smul,
      Matrix.det_updateCol_smul]

theorem twoBody_symm (S T : Matrix (Fin m) (Fin m) ℂ) (A B : Matrix (Fin m) (Fin k) ℂ) :
    twoBody S T A B = twoBody T S A B := by
  rw [twoBody, twoBody, sum_comm]
  refine sum_congr rfl fun i _ => sum_congr rfl fun j _ => ?_
  by_cases h : j = i
  · rw [if_pos h, if_pos h.symm]
  · rw [if_neg h, if_neg (Ne.symm h), Matrix.updateCol_comm _ h]

theorem twoBody_sum_left {ι : Type*} (s : Finset ι) (S : ι → Matrix (Fin m) (Fin m) ℂ)
    (T : Matrix (Fin m) (Fin m) ℂ) (A B : Matrix (Fin m) (Fin k) ℂ) :
    twoBody (∑ a ∈ s, S a) T A B = ∑ a ∈ s, twoBody (S a) T A B := by
  classical
  induction s using Finset.induction_on with
  | empty =>
    have := twoBody_smul_left 0 0 T A B
    simpa using this
  | insert a s ha ih => rw [sum_insert ha, sum_insert ha, twoBody_add_left, ih]

/-- A quadratic form of the fields. -/
theorem twoBody_lin (W : Fin nx → Matrix (Fin m) (Fin m) ℂ) (x : Fin nx → ℂ)
    (A B : Matrix (Fin m) (Fin k) ℂ) :
    twoBody (∑ a, x a • W a) (∑ a, x a • W a) A B =
      ∑ a, ∑ b, x a * x b * twoBody (W a) (W b) A B := by
  rw [twoBody_sum_left]
  refine sum_congr rfl fun a _ => ?_
  rw [twoBody_smul_left, twoBody_symm, twoBody_sum_left, mul_sum]
  refine sum_congr rfl fun b _ => ?_
  rw [twoBody_smul_left, twoBody_symm]
  ring

theorem oneBody_lin (W : Fin nx → Matrix (Fin m) (Fin m) ℂ) (x : Fin nx → ℂ)
    (A B : Matrix (Fin m) (Fin k) ℂ) :
    oneBody (∑ a, x a • W a) A B = ∑ a, x a * oneBody (W a) A B := by
  rw [oneBody_sum]
  exact sum_congr rfl fun a _ => oneBody_smul _ _ _ _

theorem oneBody_sq_lin (W : Fin nx → Matrix (Fin m) (Fin m) ℂ) (x : Fin nx → ℂ)
    (A B : Matrix (Fin m) (Fin k) ℂ) :
    oneBody ((∑ a, x a • W a) ^ 2) A B = ∑ a, ∑ b, x a * x b * oneBody (W a * W b) A B := by
  rw [sq, sum_mul_sum, oneBody_sum]
  refine sum_congr rfl fun a _ => ?_
  rw [oneBody_sum]
  refine sum_congr rfl fun b _ => ?_
  rw [smul_mul_smul_comm, oneBody_smul]

/-! ## The half one-body step -/

section Exp

attribute [local instance] Matrix.linftyOpNormedRing Matrix.linftyOpNormedAlgebra

theorem norm_exp_sub_le {𝔸 : Type*} [NormedRing 𝔸] [NormedAlgebra ℂ 𝔸] [CompleteSpace 𝔸] (Y : 𝔸) :
    ‖NormedSpace.exp Y - (1 + Y)‖ ≤ ‖Y‖ ^ 2 * Real.exp ‖Y‖ := by
  have h := NormedSpace.exp_series_hasSum_exp' (𝕂 := ℂ) Y
  have h2 := (hasSum_nat_add_iff' 2).mpr h
  have e : ∑ i ∈ range 2, ((i.factorial : ℂ)⁻¹) • Y ^ i = 1 + Y := by
    simp [sum_range_succ]
  rw [e] at h2
  have hg : HasSum (fun n : ℕ => ‖Y‖ ^ 2 * (‖Y‖ ^ n / n.factorial)) (‖Y‖ ^ 2 * Real.exp ‖Y‖) := by
    refine HasSum.mul_left _ ?_
    rw [Real.exp_eq_exp_ℝ]
    exact NormedSpace.expSeries_div_hasSum_exp ‖Y‖
  rw [← h2.tsum_eq]
  refine tsum_of_norm_bounded hg fun n => ?_
  rw [norm_smul, norm_inv, Complex.norm_natCast]
  have hn : ‖Y ^ (n + 2)‖ ≤ ‖Y‖ ^ (n + 2) := norm_pow_le' _ (by omega)
  have hf : (n.factorial : ℝ) ≤ ((n + 2).factorial : ℝ) := by
    exact_mod_cast Nat.factorial_le (by omega)
  have hp : (0 : ℝ) < n.factorial := by positivity
  calc (((n + 2).factorial : ℝ))⁻¹ * ‖Y ^ (n + 2)‖
      ≤ ((n.factorial : ℝ))⁻¹ * ‖Y‖ ^ (n + 2) :=
        mul_le_mul (inv_anti₀ hp hf) hn (norm_nonneg _) (by positivity)
    _ = _ := by rw [pow_add]; ring

theorem entry_le_norm (Y : Matrix (Fin m) (Fin m) ℂ) (i j : Fin m) : ‖Y i j‖ ≤ ‖Y‖ := by
  rw [Matrix.linfty_opNorm_def]
  have h : ‖Y i j‖₊ ≤ univ.sup fun i => ∑ j, ‖Y i j‖₊ :=
    (single_le_sum (f := fun j => ‖Y i j‖₊) (fun _ _ => zero_le) (mem_univ j)).trans
      (le_sup (f := fun i => ∑ j, ‖Y i j‖₊) (mem_univ i))
  exact_mod_cast h

theorem exp_half_bound (K : Matrix (Fin m) (Fin m) ℂ) : ∃ L : ℝ, ∀ s : ℝ, 0 ≤ s → s ≤ 1 → ∀ i j,
    ‖NormedSpace.exp ((-(1 / 2 : ℂ) * (s : ℂ) ^ 2) • K) i j -
      ((1 : Matrix (Fin m) (Fin m) ℂ) i j + (s : ℂ) ^ 2 * (-(1 / 2 : ℂ) * K i j))‖ ≤ L * s ^ 4 := by
  refine ⟨‖K‖ ^ 2 * Real.exp ‖K‖, fun s hs hs1 i j => ?_⟩
  set Y := (-(1 / 2 : ℂ) * (s : ℂ) ^ 2) • K with hY
  have hn : ‖Y‖ ≤ s ^ 2 * ‖K‖ := by
    rw [hY, norm_smul, norm_mul, norm_neg, norm_pow, Complex.norm_real, Real.norm_of_nonneg hs]
    have : ‖(1 / 2 : ℂ)‖ = 1 / 2 := by norm_num
    rw [this]
    have h0 : 0 ≤ s ^ 2 * ‖K‖ := by positivity
    nlinarith
  have hn1 : ‖Y‖ ≤ ‖K‖ := hn.trans (by
    calc s ^ 2 * ‖K‖ ≤ 1 * ‖K‖ := mul_le_mul_of_nonneg_right (pow_le_one₀ hs hs1) (norm_nonneg _)
      _ = ‖K‖ := one_mul _)
  have he : (NormedSpace.exp Y - (1 + Y)) i j = NormedSpace.exp Y i j -
      ((1 : Matrix (Fin m) (Fin m) ℂ) i j + (s : ℂ) ^ 2 * (-(1 / 2 : ℂ) * K i j)) := by
    rw [Matrix.sub_apply, Matrix.add_apply, hY, Matrix.smul_apply, smul_eq_mul]
    ring
  rw [← he]
  refine (entry_le_norm _ i j).trans ((norm_exp_sub_le Y).trans ?_)
  calc ‖Y‖ ^ 2 * Real.exp ‖Y‖ ≤ (s ^ 2 * ‖K‖) ^ 2 * Real.exp ‖K‖ :=
        mul_le_mul (pow_le_pow_left₀ (norm_nonneg _) hn 2) (Real.exp_le_exp.mpr hn1)
          (Real.exp_pos _).le (by positivity)
    _ = _ := by ring

end Exp

/-- The half one-body step. -/
noncomputable def half (K : Matrix (Fin m) (Fin m) ℂ) (s : ℝ) : Matrix (Fin m) (Fin m) ℂ :=
  NormedSpace.exp ((-(1 / 2 : ℂ) * (s : ℂ) ^ 2) • K)

theorem ExM.half (K : Matrix (Fin m) (Fin m) ℂ) :
    ExM (nx := nx) (fun s _ => half K s)
      (fun _ => Matrix.of fun i j => C ((1 : Matrix (Fin m) (Fin m) ℂ) i j) +
        X ^ 2 * C (-(1 / 2 : ℂ) * K i j)) := by
  intro i j
  obtain ⟨L, hL⟩ := exp_half_bound K
  exact Ex.ofBound fun s hs hs1 => hL s hs hs1 i j

/-- The operator of the fields. -/
noncomputable def field (W : Fin nx → Matrix (Fin m) (Fin m) ℂ) (x : Fin nx → ℝ) :
    Matrix (Fin m) (Fin m) ℂ := ∑ a, (x a : ℂ) • W a

theorem ExM.field (W : Fin nx → Matrix (Fin m) (Fin m) ℂ) :
    ExM (fun s x => (s : ℂ) • field W x) (fun x => (X : ℂ[X]) • (field W x).map C) := by
  intro i j
  have h := Ex.lin (nx := nx) fun a => W a i j
  have e : ∀ x : Fin nx → ℝ, Step.field W x i j = ∑ a, (x a : ℂ) * W a i j := by
    intro x; simp [Step.field, Matrix.sum_apply]
  simpa only [Matrix.smul_apply, smul_eq_mul, Matrix.map_apply, e] using h

/-- The polynomial of the truncated exponential. -/
noncomputable def taylorP (n : Nat) (V : Matrix (Fin m) (Fin m) ℂ) : Matrix (Fin m) (Fin m) ℂ[X] :=
  ∑ j ∈ range (n + 1), (C (1 / (j.factorial : ℂ))) • ((X : ℂ[X]) • V.map (C : ℂ → ℂ[X])) ^ j

theorem ExM.taylor (n : Nat) (W : Fin nx → Matrix (Fin m) (Fin m) ℂ) :
    ExM (fun s x => Slater.taylor n ((s : ℂ) • Step.field W x)) (fun x => taylorP n (Step.field W x)) :=
  ExM.sum _ fun j _ => ExM.smul _ ((ExM.field W).pow j)

theorem cm_taylorP (n : Nat) (hn : 2 ≤ n) (V : Matrix (Fin m) (Fin m) ℂ) (l : Nat) (hl : l ≤ 2) :
    cm l (taylorP n V) = (1 / (l.factorial : ℂ)) • V ^ l := by
  have hp : ∀ j, ((X : ℂ[X]) • V.map (C : ℂ → ℂ[X])) ^ j = (X : ℂ[X]) ^ j • (V ^ j).map C := by
    intro j
    rw [smul_pow]
    congr 1
    have := map_pow (C : ℂ →+* ℂ[X]).mapMatrix V j
    simpa using this.symm
  ext a b
  simp only [cm, taylorP, Matrix.map_apply, Matrix.sum_apply, finset_sum_coeff, hp, Matrix.smul_apply,
    smul_eq_mul, coeff_C_mul]
  rw [sum_eq_single l]
  · congr 1
    rw [mul_comm, coeff_C_mul, coeff_X_pow, if_pos rfl, mul_one]
  · intro j _ hj
    rw [mul_comm ((X : ℂ[X]) ^ j), coeff_C_mul, coeff_X_pow, if_neg (Ne.symm hj)]
    simp
  · intro h
    exact absurd (mem_range.mpr (by omega)) h

theorem cm_half (K : Matrix (Fin m) (Fin m) ℂ) :
    let P : Matrix (Fin m) (Fin m) ℂ[X] := Matrix.of fun i j =>
      C ((1 : Matrix (Fin m) (Fin m) ℂ) i j) + X ^ 2 * C (-(1 / 2 : ℂ) * K i j)
    cm 0 P = 1 ∧ cm 1 P = 0 ∧ cm 2 P = -(1 / 2 : ℂ) • K := by
  refine ⟨?_, ?_, ?_⟩ <;> ext i j
  · simp [cm]
  · simp only [cm, Matrix.map_apply, Matrix.of_apply, coeff_add, coeff_C, coeff_X_pow_mul']
    simp
  · simp only [cm, Matrix.map_apply, Matrix.of_apply, coeff_add, coeff_C, coeff_X_pow_mul', Matrix.smul_apply,
      smul_eq_mul]
    simp

/-- One spin: the overlap after a step. -/
noncomputable def stepOvl (n : Nat) (K : Matrix (Fin m) (Fin m) ℂ) (W : Fin nx → Matrix (Fin m) (Fin m) ℂ)
    (A B : Matrix (Fin m) (Fin k) ℂ) (s : ℝ) (x : Fin nx → ℝ) : ℂ :=
  ovl A (half K s * (taylor n ((s : ℂ) • field W x) * (half K s * B)))

theorem Ex.stepOvl (n : Nat) (hn : 2 ≤ n) (K : Matrix (Fin m) (Fin m) ℂ)
    (W : Fin nx → Matrix (Fin m) (Fin m) ℂ) (A B : Matrix (Fin m) (Fin k) ℂ) :
    ∃ p, Ex (stepOvl n K W A B) p ∧ ∀ x, (p x).coeff 0 = ovl A B ∧
      (p x).coeff 1 = oneBody (field W x) A B ∧
      (p x).coeff 2 = (1 / 2 : ℂ) * oneBody (field W x ^ 2) A B - oneBody K A B +
        (1 / 2 : ℂ) * twoBody (field W x) (field W x) A B := by
  refine ⟨_, ((ExM.const Aᴴ).mul ((ExM.half K).mul ((ExM.taylor n W).mul
    ((ExM.half K).mul (ExM.const B))))).det, fun x => ?_⟩
  obtain ⟨h0, h1, h2⟩ := cm_half K
  obtain ⟨a0, a1, a2⟩ := cm_const Aᴴ
  obtain ⟨b0, b1, b2⟩ := cm_const B
  have t0 := cm_taylorP n hn (field W x) 0 (by omega)
  have t1 := cm_taylorP n hn (field W x) 1 (by omega)
  have t2 := cm_taylorP n hn (field W x) 2 (by omega)
  rw [Nat.factorial_zero, Nat.cast_one, div_one, one_smul, pow_zero] at t0
  rw [Nat.factorial_one, Nat.cast_one, div_one, one_smul, pow_one] at t1
  rw [Nat.factorial_two] at t2
  set V := field W x with hV
  set P := Aᴴ.map C * ((Matrix.of fun i j => C ((1 : Matrix (Fin m) (Fin m) ℂ) i j) +
        X ^ 2 * C (-(1 / 2 : ℂ) * K i j)) * (taylorP n V *
        ((Matrix.of fun i j => C ((1 : Matrix (Fin m) (Fin m) ℂ) i j) +
        X ^ 2 * C (-(1 / 2 : ℂ) * K i j)) * B.map C))) with hP
  have P0 : cm 0 P = Aᴴ * B := by
    rw [hP]
    simp only [cm_mul_zero, h0, a0, b0, t0, Matrix.one_mul]
  have P1 : cm 1 P = Aᴴ * (V * B) := by
    rw [hP]
    simp only [cm_mul_zero, cm_mul_one, h0, h1, a0, a1, b0, b1, t0, t1, Matrix.one_mul, Matrix.zero_mul,
      Matrix.mul_zero, add_zero, zero_add]
  have P2 : cm 2 P = Aᴴ * (((1 / 2 : ℂ) • V ^ 2 - K) * B) := by
    rw [hP]
    simp only [cm_mul_zero, cm_mul_one, cm_mul_two, h0, h1, h2, a0, a1, a2, b0, b1, b2, t0, t1, t2,
      Matrix.one_mul, Matrix.zero_mul, Matrix.mul_zero, add_zero, zero_add]
    congr 1
    rw [← Matrix.add_mul, ← Matrix.add_mul]
    congr 1
    ext i j
    simp only [Matrix.add_apply, Matrix.sub_apply, Matrix.smul_apply, smul_eq_mul]
    norm_num
    ring
  have hc : ∀ (T : Matrix (Fin m) (Fin m) ℂ) (i : Fin k), (Aᴴ * (T * B)).col i = Aᴴ *ᵥ (T *ᵥ B.col i) := by
    intro T i
    rw [Matrix.mulVec_mulVec, ← Matrix.mul_assoc]
    rfl
  refine ⟨?_, ?_, ?_⟩
  · rw [det_coeff_zero, P0]; rfl
  · rw [det_coeff_one, P0, P1, oneBody]
    refine sum_congr rfl fun i _ => ?_
    rw [hc, Matrix.mul_updateCol]
  · rw [det_coeff_two, P0, P1, P2]
    congr 1
    · rw [← oneBody_smul, ← oneBody_sub, oneBody]
      refine sum_congr rfl fun i _ => ?_
      rw [hc, Matrix.mul_updateCol]
    · congr 1
      rw [twoBody]
      refine sum_congr rfl fun i _ => sum_congr rfl fun j _ => ?_
      split_ifs
      · rfl
      · rw [hc, hc, Matrix.mul_updateCol, Matrix.mul_updateCol]

theorem continuous_field (W : Fin nx → Matrix (Fin m) (Fin m) ℂ) : Continuous (field W) := by
  unfold field; fun_prop

theorem continuous_stepOvl (n : Nat) (K : Matrix (Fin m) (Fin m) ℂ)
    (W : Fin nx → Matrix (Fin m) (Fin m) ℂ) (A B : Matrix (Fin m) (Fin k) ℂ) (s : ℝ) :
    Continuous (stepOvl n K W A B s) := by
  have := continuous_field W
  unfold stepOvl ovl Slater.taylor
  refine Continuous.matrix_det ?_
  fun_prop

/-- Matrix element of the square of a one-body operator acting on both spins. -/
noncomputable def sqElem {nu nd : Nat} (W : Fin 2 → Matrix (Fin m) (Fin m) ℂ)
    (Au Bu : Matrix (Fin m) (Fin nu) ℂ) (Ad Bd : Matrix (Fin m) (Fin nd) ℂ) : ℂ :=
  (oneBody (W 0 * W 0) Au Bu + twoBody (W 0) (W 0) Au Bu) * ovl Ad Bd +
    ovl Au Bu * (oneBody (W 1 * W 1) Ad Bd + twoBody (W 1) (W 1) Ad Bd) +
    2 * (oneBody (W 0) Au Bu * oneBody (W 1) Ad Bd)

/-- Matrix element of a one-body operator acting on both spins. -/
noncomputable def oneElem {nu nd : Nat} (W : Fin 2 → Matrix (Fin m) (Fin m) ℂ)
    (Au Bu : Matrix (Fin m) (Fin nu) ℂ) (Ad Bd : Matrix (Fin m) (Fin nd) ℂ) : ℂ :=
  oneBody (W 0) Au Bu * ovl Ad Bd + ovl Au Bu * oneBody (W 1) Ad Bd

/-- Matrix element of half the sum of squares of the operators less their shifts, minus the one-body
operator. -/
noncomputable def generator {nu nd : Nat} (K : Fin 2 → Matrix (Fin m) (Fin m) ℂ)
    (W : Fin nx → Fin 2 → Matrix (Fin m) (Fin m) ℂ) (mf : Fin nx → ℂ)
    (Au Bu : Matrix (Fin m) (Fin nu) ℂ) (Ad Bd : Matrix (Fin m) (Fin nd) ℂ) : ℂ :=
  -oneElem K Au Bu Ad Bd + ∑ a, (1 / 2 : ℂ) * (sqElem (W a) Au Bu Ad Bd -
    2 * mf a * oneElem (W a) Au Bu Ad Bd + mf a ^ 2 * (ovl Au Bu * ovl Ad Bd))

/-- First order: for every one-body matrices, fields operators, shifts, determinants and truncation
order at least two. -/
theorem avg_step {nu nd : Nat} (n : Nat) (hn : 2 ≤ n) (K : Fin 2 → Matrix (Fin m) (Fin m) ℂ)
    (W : Fin nx → Fin 2 → Matrix (Fin m) (Fin m) ℂ) (mf : Fin nx → ℂ)
    (Au Bu : Matrix (Fin m) (Fin nu) ℂ) (Ad Bd : Matrix (Fin m) (Fin nd) ℂ) :
    ∃ L : ℝ, ∀ s : ℝ, 0 ≤ s → s ≤ 1 →
      ‖avg (fun x : Fin nx → ℝ => Complex.exp ((s : ℂ) * ∑ a, (x a : ℂ) * -mf a) *
          (stepOvl n (K 0) (fun a => W a 0) Au Bu s x * stepOvl n (K 1) (fun a => W a 1) Ad Bd s x)) -
        (ovl Au Bu * ovl Ad Bd + (s : ℂ) ^ 2 * generator K W mf Au Bu Ad Bd)‖ ≤ L * s ^ 3 := by
  obtain ⟨pu, hu, cu⟩ := Ex.stepOvl n hn (K 0) (fun a => W a 0) Au Bu
  obtain ⟨pd, hd, cd⟩ := Ex.stepOvl n hn (K 1) (fun a => W a 1) Ad Bd
  have hE := (Ex.exp_lin fun a => -mf a).mul (hu.mul hd)
  have e0 : ∀ y : ℂ, (1 + X * C y + X ^ 2 * C (y ^ 2 / 2) : ℂ[X]).coeff 0 = 1 := by
    intro y; simp [coeff_one]
  have e1 : ∀ y : ℂ, (1 + X * C y + X ^ 2 * C (y ^ 2 / 2) : ℂ[X]).coeff 1 = y := by
    intro y; simp [coeff_one, coeff_X_pow]
  have e2 : ∀ y : ℂ, (1 + X * C y + X ^ 2 * C (y ^ 2 / 2) : ℂ[X]).coeff 2 = y ^ 2 / 2 := by
    intro y; simp [coeff_one, coeff_X]
  have key := avg_expansion hE (fun s => by
    have h1 := continuous_stepOvl n (K 0) (fun a => W a 0) Au Bu s
    have h2 := continuous_stepOvl n (K 1) (fun a => W a 1) Ad Bd s
    fun_prop)
    (c0 := ovl Au Bu * ovl Ad Bd)
    (k := -oneElem K Au Bu Ad Bd)
    (l := fun a => oneElem (W a) Au Bu Ad Bd - mf a * (ovl Au Bu * ovl Ad Bd))
    (q := fun a b => (1 / 2 : ℂ) * ((oneBody (W a 0 * W b 0) Au Bu + twoBody (W a 0) (W b 0) Au Bu) *
        ovl Ad Bd + ovl Au Bu * (oneBody (W a 1 * W b 1) Ad Bd + twoBody (W a 1) (W b 1) Ad Bd) +
        2 * (oneBody (W a 0) Au Bu * oneBody (W b 1) Ad Bd) -
        2 * mf a * oneElem (W b) Au Bu Ad Bd + mf a * mf b * (ovl Au Bu * ovl Ad Bd)))
    (fun x => by rw [mul_coeff_zero, mul_coeff_zero, e0, (cu x).1, (cd x).1, one_mul])
    (fun x => by
      rw [coeff_one_mul, coeff_one_mul, mul_coeff_zero, e0, e1, (cu x).1, (cd x).1, (cu x).2.1,
        (cd x).2.1, field, field, oneBody_lin, oneBody_lin]
      simp only [oneElem, mul_sum, sum_mul, ← sum_add_distrib, one_mul]
      refine sum_congr rfl fun a _ => ?_
      ring)
    (fun x => by
      rw [coeff_two_mul, coeff_one_mul, coeff_two_mul, mul_coeff_zero, e0, e1, e2, (cu x).1, (cd x).1,
        (cu x).2.1, (cd x).2.1, (cu x).2.2, (cd x).2.2, field, field, oneBody_lin, oneBody_lin,
        oneBody_sq_lin, oneBody_sq_lin, twoBody_lin, twoBody_lin]
      have s1 : ∀ (f g : Fin nx → ℂ), (∑ a, f a) * (∑ b, g b) = ∑ a, ∑ b, f a * g b :=
        fun f g => sum_mul_sum _ _ _ _
      have hq : ∑ a, ∑ b, (x a : ℂ) * (x b : ℂ) * ((1 / 2 : ℂ) * ((oneBody (W a 0 * W b 0) Au Bu +
          twoBody (W a 0) (W b 0) Au Bu) *
          ovl Ad Bd + ovl Au Bu * (oneBody (W a 1 * W b 1) Ad Bd + twoBody (W a 1) (W b 1) Ad Bd) +
          2 * (oneBody (W a 0) Au Bu * oneBody (W b 1) Ad Bd) -
          2 * mf a * oneElem (W b) Au Bu Ad Bd + mf a * mf b * (ovl Au Bu * ovl Ad Bd))) =
          (1 / 2 : ℂ) * (∑ a, ∑ b, (x a : ℂ) * (x b : ℂ) * oneBody (W a 0 * W b 0) Au Bu) * ovl Ad Bd +
          (1 / 2 : ℂ) * (∑ a, ∑ b, (x a : ℂ) * (x b : ℂ) * twoBody (W a 0) (W b 0) Au Bu) * ovl Ad Bd +
          (1 / 2 : ℂ) * (∑ a, ∑ b, (x a : ℂ) * (x b : ℂ) * oneBody (W a 1 * W b 1) Ad Bd) * ovl Au Bu +
          (1 / 2 : ℂ) * (∑ a, ∑ b, (x a : ℂ) * (x b : ℂ) * twoBody (W a 1) (W b 1) Ad Bd) * ovl Au Bu +
          (∑ a, (x a : ℂ) * oneBody (W a 0) Au Bu) * (∑ b, (x b : ℂ) * oneBody (W b 1) Ad Bd) +
          (∑ a, (x a : ℂ) * -mf a) * ((∑ b, (x b : ℂ) * oneBody (W b 0) Au Bu) * ovl Ad Bd +
            ovl Au Bu * ∑ b, (x b : ℂ) * oneBody (W b 1) Ad Bd) +
          (∑ a, (x a : ℂ) * -mf a) ^ 2 / 2 * (ovl Au Bu * ovl Ad Bd) := by
        have p1 : (∑ b, (x b : ℂ) * oneBody (W b 0) Au Bu) * ovl Ad Bd +
            ovl Au Bu * ∑ b, (x b : ℂ) * oneBody (W b 1) Ad Bd =
            ∑ b, (x b : ℂ) * oneElem (W b) Au Bu Ad Bd := by
          rw [sum_mul, mul_sum, ← sum_add_distrib]
          refine sum_congr rfl fun b _ => ?_
          rw [oneElem]; ring
        rw [p1, sq, s1, s1, s1]
        simp only [mul_sum, sum_mul, sum_div, ← sum_add_distrib]
        refine sum_congr rfl fun a _ => sum_congr rfl fun b _ => ?_
        ring
      rw [hq, oneElem]
      ring)
  obtain ⟨L, hL⟩ := key
  refine ⟨L, fun s hs hs1 => ?_⟩
  have h := hL s hs hs1
  have eg : -oneElem K Au Bu Ad Bd + ∑ a, (1 / 2 : ℂ) * ((oneBody (W a 0 * W a 0) Au Bu +
        twoBody (W a 0) (W a 0) Au Bu) * ovl Ad Bd + ovl Au Bu * (oneBody (W a 1 * W a 1) Ad Bd +
        twoBody (W a 1) (W a 1) Ad Bd) + 2 * (oneBody (W a 0) Au Bu * oneBody (W a 1) Ad Bd) -
        2 * mf a * oneElem (W a) Au Bu Ad Bd + mf a * mf a * (ovl Au Bu * ovl Ad Bd)) =
      generator K W mf Au Bu Ad Bd := by
    rw [generator]
    congr 1
    refine sum_congr rfl fun a _ => ?_
    rw [sqElem]
    ring
  rw [eg] at h
  exact h

end Verif.Step
