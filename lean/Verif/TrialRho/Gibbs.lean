import Mathlib.Analysis.Matrix.Spectrum
import Mathlib.Analysis.Normed.Algebra.MatrixExponential
import Mathlib.Analysis.SpecialFunctions.Exponential

/-!
# The variational principle of Gibbs and Bogoliubov

For Hermitian matrices `A` and `B`: `log tr e^{-A} ≥ log tr e^{-B} - ⟨A - B⟩`, the average taken with `e^{-B}`; here for families of
matrices, the trace being summed over the family.
-/

namespace Verif.TrialRho

open Matrix Finset

variable {κ : Type} [Fintype κ] [DecidableEq κ]

/-- A Hermitian matrix in its eigenvectors, and its exponential. -/
theorem herm_decomp {A : Matrix κ κ ℂ} (hA : A.IsHermitian) : ∃ (V : Matrix κ κ ℂ) (a : κ → ℝ), Vᴴ * V = 1 ∧ V * Vᴴ = 1 ∧
    A = V * diagonal (fun i => (a i : ℂ)) * Vᴴ ∧
    ∀ t : ℝ, NormedSpace.exp ((t : ℂ) • A) = V * diagonal (fun i => (Real.exp (t * a i) : ℂ)) * Vᴴ := by
  set V : Matrix κ κ ℂ := (hA.eigenvectorUnitary : Matrix κ κ ℂ) with hV
  have h1 : Vᴴ * V = 1 := Unitary.coe_star_mul_self hA.eigenvectorUnitary
  have h2 : V * Vᴴ = 1 := Unitary.coe_mul_star_self hA.eigenvectorUnitary
  have h3 : A = V * diagonal (fun i => (hA.eigenvalues i : ℂ)) * Vᴴ := by
    conv_lhs => rw [hA.spectral_theorem]
    rfl
  refine ⟨V, hA.eigenvalues, h1, h2, h3, fun t => ?_⟩
  have hi : V⁻¹ = Vᴴ := Matrix.inv_eq_left_inv h1
  have hu : IsUnit V := (Matrix.isUnit_iff_isUnit_det V).2 (Matrix.isUnit_det_of_left_inverse h1)
  have h4 : (t : ℂ) • A = V * ((t : ℂ) • diagonal fun i => (hA.eigenvalues i : ℂ)) * V⁻¹ := by
    conv_lhs => rw [h3]
    rw [hi, Matrix.mul_smul, Matrix.smul_mul]
  rw [h4, Matrix.exp_conj V _ hu, hi, ← diagonal_smul, Matrix.exp_diagonal]
  congr 2
  refine congrArg diagonal (funext fun i => ?_)
  rw [Pi.coe_exp, Pi.smul_apply, smul_eq_mul, ← Complex.exp_eq_exp_ℂ, ← Complex.ofReal_mul, Complex.ofReal_exp]

/-- The weights of a vector in an orthonormal basis. -/
theorem sum_conj (X : Matrix κ κ ℂ) (a : κ → ℝ) (i : κ) : (X * diagonal (fun j => (a j : ℂ)) * Xᴴ) i i = ((∑ j, ‖X i j‖ ^ 2 * a j : ℝ) : ℂ) := by
  rw [Matrix.mul_apply]
  push_cast
  refine sum_congr rfl fun j _ => ?_
  rw [Matrix.mul_diagonal, Matrix.conjTranspose_apply, mul_right_comm, ← Complex.mul_conj']
  rfl

/-- Peierls' inequality. -/
theorem peierls {A : Matrix κ κ ℂ} (hA : A.IsHermitian) {V : Matrix κ κ ℂ} (hV : V * Vᴴ = 1) :
    ∑ i, Real.exp (-((Vᴴ * A * V) i i).re) ≤ (NormedSpace.exp (-A)).trace.re := by
  obtain ⟨W, a, h1, h2, h3, h4⟩ := herm_decomp hA
  have hV' : Vᴴ * V = 1 := mul_eq_one_comm.1 hV
  set X := Vᴴ * W with hX
  have hXX : X * Xᴴ = 1 := by
    rw [hX, conjTranspose_mul, conjTranspose_conjTranspose, Matrix.mul_assoc, ← Matrix.mul_assoc W, h2, Matrix.one_mul, hV']
  have hrow : ∀ i, ∑ j, ‖X i j‖ ^ 2 = 1 := by
    intro i
    have := sum_conj X (fun _ => 1) i
    simp only [Complex.ofReal_one, diagonal_one, Matrix.mul_one, mul_one, hXX, Matrix.one_apply_eq] at this
    exact_mod_cast this.symm
  have hd : ∀ i, ((Vᴴ * A * V) i i).re = ∑ j, ‖X i j‖ ^ 2 * a j := by
    intro i
    have : Vᴴ * A * V = X * diagonal (fun j => (a j : ℂ)) * Xᴴ := by
      rw [h3, hX, conjTranspose_mul, conjTranspose_conjTranspose]
      simp only [Matrix.mul_assoc]
    rw [this, sum_conj, Complex.ofReal_re]
  have he : (NormedSpace.exp (-A)).trace.re = ∑ i, ∑ j, ‖X i j‖ ^ 2 * Real.exp (-a j) := by
    have e1 := h4 (-1)
    rw [Complex.ofReal_neg, Complex.ofReal_one, neg_one_smul] at e1
    have e2 : (NormedSpace.exp (-A)).trace = (X * diagonal (fun j => (Real.exp (-a j) : ℂ)) * Xᴴ).trace := by
      have : X * diagonal (fun j => (Real.exp (-a j) : ℂ)) * Xᴴ = Vᴴ * NormedSpace.exp (-A) * V := by
        rw [e1, hX, conjTranspose_mul, conjTranspose_conjTranspose]
        simp only [Matrix.mul_assoc, neg_one_mul]
      rw [this, Matrix.trace_mul_cycle, hV, Matrix.one_mul]
    rw [e2, Matrix.trace]
    simp only [Matrix.diag_apply, sum_conj]
    rw [← Complex.ofReal_sum, Complex.ofReal_re]
  rw [he]
  refine sum_le_sum fun i _ => ?_
  rw [hd]
  set d := ∑ j, ‖X i j‖ ^ 2 * a j with hdd
  have h5 : ∀ j, ‖X i j‖ ^ 2 * (Real.exp (-d) * (d - a j + 1)) ≤ ‖X i j‖ ^ 2 * Real.exp (-a j) := by
    intro j
    refine mul_le_mul_of_nonneg_left ?_ (by positivity)
    have h6 := Real.add_one_le_exp (d - a j)
    calc Real.exp (-d) * (d - a j + 1) ≤ Real.exp (-d) * Real.exp (d - a j) := mul_le_mul_of_nonneg_left h6 (Real.exp_nonneg _)
      _ = Real.exp (-a j) := by rw [← Real.exp_add]; congr 1; ring
  refine le_trans (le_of_eq ?_) (sum_le_sum fun j _ => h5 j)
  have h7 : ∑ j, ‖X i j‖ ^ 2 * (Real.exp (-d) * (d - a j + 1)) =
      Real.exp (-d) * (d + 1) * (∑ j, ‖X i j‖ ^ 2) - Real.exp (-d) * ∑ j, ‖X i j‖ ^ 2 * a j := by
    rw [mul_sum, mul_sum, ← sum_sub_distrib]
    exact sum_congr rfl fun j _ => by ring
  rw [h7, hrow, ← hdd]
  ring

/-- **The inequality of Gibbs and Bogoliubov.** -/
theorem bogoliubov {K : Type} (S : Finset K) {ι : K → Type} [∀ k, Fintype (ι k)] [∀ k, DecidableEq (ι k)]
    (A B : ∀ k, Matrix (ι k) (ι k) ℂ) (hA : ∀ k, (A k).IsHermitian) (hB : ∀ k, (B k).IsHermitian)
    {Z D : ℝ} (hZ : ∑ k ∈ S, (NormedSpace.exp (-B k)).trace.re = Z) (hZ0 : 0 < Z)
    (hD : ∑ k ∈ S, ((A k - B k) * NormedSpace.exp (-B k)).trace.re = D) :
    Z * Real.exp (-D / Z) ≤ ∑ k ∈ S, (NormedSpace.exp (-A k)).trace.re := by
  choose V b h1 h2 h3 h4 using fun k => herm_decomp (hB k)
  have e1 : ∀ k, NormedSpace.exp (-B k) = V k * diagonal (fun i => (Real.exp (-b k i) : ℂ)) * (V k)ᴴ := by
    intro k
    have := h4 k (-1)
    simp only [Complex.ofReal_neg, Complex.ofReal_one, neg_one_smul, neg_one_mul] at this
    exact this
  set d : ∀ k, ι k → ℝ := fun k i => (((V k)ᴴ * A k * V k) i i).re with hd
  have eZ : ∀ k, (NormedSpace.exp (-B k)).trace.re = ∑ i, Real.exp (-b k i) := by
    intro k
    rw [e1, Matrix.trace_mul_comm, ← Matrix.mul_assoc, h1, Matrix.one_mul, Matrix.trace_diagonal, ← Complex.ofReal_sum, Complex.ofReal_re]
  have eD : ∀ k, ((A k - B k) * NormedSpace.exp (-B k)).trace.re = ∑ i, (d k i - b k i) * Real.exp (-b k i) := by
    intro k
    have f1 : ((A k - B k) * NormedSpace.exp (-B k)).trace =
        ((((V k)ᴴ * A k * V k) - diagonal fun i => (b k i : ℂ)) * diagonal fun i => (Real.exp (-b k i) : ℂ)).trace := by
      have f2 : (V k)ᴴ * B k * V k = diagonal fun i => (b k i : ℂ) := by
        conv_lhs => rw [h3 k]
        rw [← Matrix.mul_assoc, ← Matrix.mul_assoc, h1, Matrix.one_mul, Matrix.mul_assoc, h1, Matrix.mul_one]
      rw [← f2, ← Matrix.sub_mul, ← Matrix.mul_sub, e1, ← Matrix.mul_assoc, Matrix.trace_mul_comm _ (V k)ᴴ]
      simp only [Matrix.mul_assoc]
    rw [f1, Matrix.trace, Complex.re_sum]
    refine sum_congr rfl fun i _ => ?_
    rw [Matrix.diag_apply, Matrix.mul_diagonal, Complex.re_mul_ofReal, Matrix.sub_apply, diagonal_apply_eq, Complex.sub_re, Complex.ofReal_re]
  have key : ∀ k, ∑ i, Real.exp (-b k i) * (Real.exp (-D / Z) * (-(d k i - b k i) - -D / Z + 1)) ≤ (NormedSpace.exp (-A k)).trace.re := by
    intro k
    refine le_trans (sum_le_sum fun i _ => ?_) (peierls (hA k) (h2 k))
    have h6 := Real.add_one_le_exp (-(d k i - b k i) - -D / Z)
    calc Real.exp (-b k i) * (Real.exp (-D / Z) * (-(d k i - b k i) - -D / Z + 1))
        ≤ Real.exp (-b k i) * (Real.exp (-D / Z) * Real.exp (-(d k i - b k i) - -D / Z)) := by gcongr
      _ = Real.exp (-d k i) := by rw [← Real.exp_add, ← Real.exp_add]; congr 1; ring
  refine le_trans (le_of_eq ?_) (sum_le_sum fun k _ => key k)
  have f3 : ∀ k, ∑ i, Real.exp (-b k i) * (Real.exp (-D / Z) * (-(d k i - b k i) - -D / Z + 1)) =
      Real.exp (-D / Z) * ((D / Z + 1) * (∑ i, Real.exp (-b k i)) - ∑ i, (d k i - b k i) * Real.exp (-b k i)) := by
    intro k
    rw [mul_sum, ← sum_sub_distrib, mul_sum]
    exact sum_congr rfl fun i _ => by ring
  rw [sum_congr rfl fun k _ => f3 k, ← mul_sum, sum_sub_distrib, ← mul_sum, ← sum_congr rfl fun k _ => eZ k, ← sum_congr rfl fun k _ => eD k,
    hZ, hD]
  field_simp
  ring

end Verif.TrialRho
