import Verif.Thermal.Lemmas
import Mathlib.Analysis.InnerProductSpace.GramSchmidtOrtho
import Mathlib.Analysis.InnerProductSpace.PiL2
import Mathlib.Analysis.Matrix.Spectrum

/-!
# The contracts of the factorisations can be met

Every complex matrix has QR, pivoted QR and singular value decompositions in the sense of `IsQR`,
`IsQRP` and `IsSVD`; so the theorems that take such routines as parameters are not vacuous.
-/

namespace Verif.Thermal

open Matrix InnerProductSpace

variable {n : Nat}

/-- Column `j` as a vector. -/
noncomputable def colVec (A : Mat n) (j : Fin n) : EuclideanSpace ℂ (Fin n) :=
  WithLp.toLp 2 (fun i => A i j)

/-- Matrix with the vectors of a basis as columns. -/
noncomputable def ofBasis (b : OrthonormalBasis (Fin n) ℂ (EuclideanSpace ℂ (Fin n))) : Mat n :=
  fun i j => b j i

theorem ofBasis_unitary (b : OrthonormalBasis (Fin n) ℂ (EuclideanSpace ℂ (Fin n))) :
    (ofBasis b)ᴴ * ofBasis b = 1 := by
  ext i j
  have h := orthonormal_iff_ite.1 b.orthonormal i j
  rw [PiLp.inner_apply] at h
  simp only [RCLike.inner_apply] at h
  rw [Matrix.one_apply, ← h, Matrix.mul_apply]
  refine Finset.sum_congr rfl fun k _ => ?_
  simp [ofBasis, Matrix.conjTranspose_apply, mul_comm]

theorem inner_colVec (b : OrthonormalBasis (Fin n) ℂ (EuclideanSpace ℂ (Fin n))) (A : Mat n)
    (i j : Fin n) : ((ofBasis b)ᴴ * A) i j = inner ℂ (b i) (colVec A j) := by
  rw [PiLp.inner_apply, Matrix.mul_apply]
  refine Finset.sum_congr rfl fun k _ => ?_
  simp [ofBasis, colVec, Matrix.conjTranspose_apply, mul_comm]

theorem exists_qr (A : Mat n) : ∃ Q R, IsQR A Q R := by
  let b := gramSchmidtOrthonormalBasis (𝕜 := ℂ) (E := EuclideanSpace ℂ (Fin n)) (ι := Fin n)
    (by simp) (colVec A)
  refine ⟨ofBasis b, (ofBasis b)ᴴ * A, ofBasis_unitary b, ?_, ?_⟩
  · intro i j hij
    rw [inner_colVec]
    exact gramSchmidtOrthonormalBasis_inv_triangular _ _ hij
  · rw [← Matrix.mul_assoc, mul_conj_of (ofBasis_unitary b), one_mul]

theorem exists_phase (z : ℂ) : ∃ p : ℂ, star p * p = 1 ∧ (star p * z).im = 0 := by
  by_cases h : z = 0
  · exact ⟨1, by simp, by simp [h]⟩
  · refine ⟨z / ‖z‖, ?_, ?_⟩
    · have h1 : (‖z‖ : ℂ) ≠ 0 := by exact_mod_cast norm_ne_zero_iff.2 h
      simp only [star_div₀, RCLike.star_def, Complex.conj_ofReal]
      rw [div_mul_div_comm, Complex.conj_mul', ← sq]
      field_simp
    · simp only [star_div₀, RCLike.star_def, Complex.conj_ofReal]
      rw [div_mul_eq_mul_div, Complex.conj_mul', ← Complex.ofReal_pow, ← Complex.ofReal_div,
        Complex.ofReal_im]

theorem exists_qrp (A : Mat n) : ∃ Q R P, IsQRP A Q R P := by
  obtain ⟨Q, R, h⟩ := exists_qr A
  choose p hp1 hp2 using fun i => exists_phase (R i i)
  have hu : (diagonal p)ᴴ * diagonal p = 1 := by
    rw [diagonal_conjTranspose, diagonal_mul_diagonal, ← diagonal_one]
    congr 1; funext i; exact hp1 i
  refine ⟨Q * diagonal p, (diagonal p)ᴴ * R, 1, unitary_mul h.unitary hu, ?_, ?_, ?_⟩
  · intro i j hij
    rw [diagonal_conjTranspose, diagonal_mul, h.upper hij, mul_zero]
  · rw [Matrix.mul_assoc, ← Matrix.mul_assoc (diagonal p), mul_conj_of hu, one_mul, ← h.eq]
    ext i j; simp
  · intro i
    rw [diagonal_conjTranspose, diagonal_mul]
    exact hp2 i

theorem exists_svd (A : Mat n) : ∃ U S V, IsSVD A U S V := by
  have hA : (Aᴴ * A).IsHermitian := isHermitian_conjTranspose_mul_self A
  let W : Mat n := hA.eigenvectorUnitary
  have hW : Wᴴ * W = 1 := (Matrix.mem_unitaryGroup_iff'.1 hA.eigenvectorUnitary.2)
  have hM : (A * W)ᴴ * (A * W) = diagonal (fun i => (hA.eigenvalues i : ℂ)) := by
    have h1 := hA.spectral_theorem
    rw [Unitary.conjStarAlgAut_apply] at h1
    rw [conjTranspose_mul, Matrix.mul_assoc, ← Matrix.mul_assoc Aᴴ]
    conv_lhs => rw [h1]
    change Wᴴ * (W * diagonal _ * Wᴴ * W) = _
    rw [Matrix.mul_assoc _ Wᴴ, hW, mul_one, ← Matrix.mul_assoc, hW, one_mul]
    rfl
  have horth : Pairwise fun i j => inner ℂ (colVec (A * W) i) (colVec (A * W) j) = 0 := by
    intro i j hij
    have := congrFun (congrFun hM i) j
    rw [diagonal_apply_ne _ hij, Matrix.mul_apply] at this
    rw [PiLp.inner_apply, ← this]
    refine Finset.sum_congr rfl fun k _ => ?_
    simp [colVec, Matrix.conjTranspose_apply, mul_comm]
  let b := gramSchmidtOrthonormalBasis (𝕜 := ℂ) (E := EuclideanSpace ℂ (Fin n)) (ι := Fin n)
    (by simp) (colVec (A * W))
  refine ⟨ofBasis b, fun i => ‖colVec (A * W) i‖, Wᴴ, ofBasis_unitary b, ?_, ?_⟩
  · rw [conjTranspose_conjTranspose]; exact mul_conj_of hW
  · have key : A * W = ofBasis b * diagonal (fun i => (‖colVec (A * W) i‖ : ℂ)) := by
      ext i j
      rw [mul_diagonal]
      by_cases h : colVec (A * W) j = 0
      · rw [h]
        have : (A * W) i j = colVec (A * W) j i := rfl
        rw [this, h]; simp
      · have hb := gramSchmidtOrthonormalBasis_apply_of_orthogonal (𝕜 := ℂ)
          (E := EuclideanSpace ℂ (Fin n)) (ι := Fin n) (by simp) horth h
        have hn : (‖colVec (A * W) j‖ : ℂ) ≠ 0 := by exact_mod_cast norm_ne_zero_iff.2 h
        have : ofBasis b i j = (‖colVec (A * W) j‖ : ℂ)⁻¹ * (A * W) i j := by
          show (b j) i = _
          rw [hb]; simp [colVec]
        rw [this]; field_simp
    rw [← key, Matrix.mul_assoc, mul_conj_of hW, mul_one]

end Verif.Thermal
