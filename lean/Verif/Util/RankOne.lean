import Mathlib.LinearAlgebra.Matrix.SchurComplement

/-!
# Rank-one changes of a matrix

Determinant lemma and Sherman-Morrison formula, for use in several models.
-/

namespace Verif.RankOne

open Matrix

variable {m : Type*} [Fintype m] [DecidableEq m] {K : Type*} [Field K]

theorem det_one_add (u v : m → K) : (1 + vecMulVec u v).det = 1 + v ⬝ᵥ u := by
  rw [vecMulVec_eq Unit, det_one_add_replicateCol_mul_replicateRow]

theorem one_add_mul (u v : m → K) (h : 1 + v ⬝ᵥ u ≠ 0) :
    (1 + vecMulVec u v) * (1 - (1 + v ⬝ᵥ u)⁻¹ • vecMulVec u v) = 1 := by
  have hN : vecMulVec u v * vecMulVec u v = (v ⬝ᵥ u) • vecMulVec u v := by
    rw [vecMulVec_mul_vecMulVec, vecMulVec_smul]
  rw [mul_sub, mul_one, add_mul, one_mul, Matrix.mul_smul, hN, smul_smul, ← add_smul]
  have : (1 + v ⬝ᵥ u)⁻¹ + (1 + v ⬝ᵥ u)⁻¹ * v ⬝ᵥ u = 1 := by field_simp
  rw [this, one_smul, add_sub_cancel_right]

theorem inv_one_add (u v : m → K) (h : 1 + v ⬝ᵥ u ≠ 0) :
    (1 + vecMulVec u v)⁻¹ = 1 - (1 + v ⬝ᵥ u)⁻¹ • vecMulVec u v :=
  Matrix.inv_eq_right_inv (one_add_mul u v h)

/-- Determinant lemma. -/
theorem det_add (A : Matrix m m K) (hA : A.det ≠ 0) (u v : m → K) :
    (A + vecMulVec u v).det = A.det * (1 + v ⬝ᵥ (A⁻¹ *ᵥ u)) := by
  rw [← det_one_add, ← mul_vecMulVec, ← det_mul, mul_add, mul_one, ← Matrix.mul_assoc,
    Matrix.mul_nonsing_inv _ (isUnit_iff_ne_zero.2 hA), one_mul]

/-- Sherman-Morrison. -/
theorem inv_add (A : Matrix m m K) (hA : A.det ≠ 0) (u v : m → K)
    (h : 1 + v ⬝ᵥ (A⁻¹ *ᵥ u) ≠ 0) :
    (A + vecMulVec u v)⁻¹ =
      A⁻¹ - (1 + v ⬝ᵥ (A⁻¹ *ᵥ u))⁻¹ • vecMulVec (A⁻¹ *ᵥ u) (v ᵥ* A⁻¹) := by
  have hu := isUnit_iff_ne_zero.2 hA
  have e : A + vecMulVec u v = A * (1 + vecMulVec (A⁻¹ *ᵥ u) v) := by
    rw [← mul_vecMulVec, mul_add, mul_one, ← Matrix.mul_assoc, Matrix.mul_nonsing_inv _ hu, one_mul]
  rw [e, Matrix.mul_inv_rev, inv_one_add _ _ h, sub_mul, one_mul, Matrix.smul_mul, vecMulVec_mul]

end Verif.RankOne
