import Verif.Uhf.Model
import Mathlib.Analysis.Complex.Basic
import Mathlib.LinearAlgebra.Matrix.NonsingularInverse
import Mathlib.Tactic.LinearCombination
import Mathlib.Tactic.Linarith

/-!
# Lowest orbitals (C107)

The sum of the lowest eigenvalues is the least energy of orthonormal orbitals.
-/

namespace Verif.Uhf

open Matrix Finset

variable {m k : Nat}

/-- Energy of orbitals in a one-body Hamiltonian. -/
noncomputable def kin (T : Matrix (Fin m) (Fin m) ℂ) (A : Matrix (Fin m) (Fin k) ℂ) : ℝ := (Aᴴ * T * A).trace.re

theorem density_diag (A : Matrix (Fin m) (Fin k) ℂ) (i : Fin m) : (A * Aᴴ) i i = (density A i : ℂ) := by
  rw [mul_apply, density, Complex.ofReal_sum]
  refine sum_congr rfl fun a _ => ?_
  rw [conjTranspose_apply, Complex.star_def, Complex.mul_conj, Complex.normSq_eq_norm_sq]

theorem density_nonneg (A : Matrix (Fin m) (Fin k) ℂ) (i : Fin m) : 0 ≤ density A i :=
  sum_nonneg fun _ _ => by positivity

theorem density_sum (A : Matrix (Fin m) (Fin k) ℂ) (h : Aᴴ * A = 1) : ∑ i, density A i = k := by
  have h1 : (A * Aᴴ).trace = (k : ℂ) := by
    rw [trace_mul_comm, h, trace_one, Fintype.card_fin]
  rw [trace] at h1
  simp only [diag_apply, density_diag] at h1
  exact_mod_cast h1

theorem density_le_one (A : Matrix (Fin m) (Fin k) ℂ) (h : Aᴴ * A = 1) (i : Fin m) : density A i ≤ 1 := by
  have hP : (A * Aᴴ) * (A * Aᴴ) = A * Aᴴ := by
    rw [Matrix.mul_assoc, ← Matrix.mul_assoc Aᴴ, h, Matrix.one_mul]
  have hH : (A * Aᴴ)ᴴ = A * Aᴴ := by rw [conjTranspose_mul, conjTranspose_conjTranspose]
  have h1 : (A * Aᴴ) i i = ∑ j, ((‖(A * Aᴴ) i j‖ ^ 2 : ℝ) : ℂ) := by
    conv_lhs => rw [← hP, mul_apply]
    refine sum_congr rfl fun j _ => ?_
    have : (A * Aᴴ) j i = star ((A * Aᴴ) i j) := by
      conv_lhs => rw [← hH]
      rw [conjTranspose_apply]
    rw [this, Complex.star_def, Complex.mul_conj, Complex.normSq_eq_norm_sq]
  rw [density_diag, ← Complex.ofReal_sum, Complex.ofReal_inj] at h1
  have h2 : ‖(A * Aᴴ) i i‖ ^ 2 ≤ ∑ j, ‖(A * Aᴴ) i j‖ ^ 2 :=
    single_le_sum (f := fun j => ‖(A * Aᴴ) i j‖ ^ 2) (fun _ _ => by positivity) (mem_univ i)
  rw [density_diag, Complex.norm_real, Real.norm_eq_abs, sq_abs] at h2
  have h3 := density_nonneg A i
  nlinarith

theorem kin_add (T S : Matrix (Fin m) (Fin m) ℂ) (A : Matrix (Fin m) (Fin k) ℂ) : kin (T + S) A = kin T A + kin S A := by
  unfold kin
  rw [Matrix.mul_add, Matrix.add_mul, trace_add, Complex.add_re]

theorem kin_diagonal (d : Fin m → ℝ) (A : Matrix (Fin m) (Fin k) ℂ) :
    kin (diagonal fun i => (d i : ℂ)) A = ∑ i, d i * density A i := by
  unfold kin
  rw [Matrix.mul_assoc, trace_mul_comm, Matrix.mul_assoc, trace, Complex.re_sum]
  refine sum_congr rfl fun i _ => ?_
  rw [diag_apply, diagonal_mul, density_diag, ← Complex.ofReal_mul, Complex.ofReal_re]

theorem kin_meanField (T : Matrix (Fin m) (Fin m) ℂ) (u : ℝ) (n : Fin m → ℝ) (A : Matrix (Fin m) (Fin k) ℂ) :
    kin (meanField T u n) A = kin T A + u * ∑ i, n i * density A i := by
  unfold meanField
  rw [kin_add, kin_diagonal, mul_sum]
  congr 1
  exact sum_congr rfl fun i _ => by ring

theorem meanField_herm {T : Matrix (Fin m) (Fin m) ℂ} (h : T.IsHermitian) (u : ℝ) (n : Fin m → ℝ) :
    (meanField T u n).IsHermitian := by
  refine h.add ?_
  rw [IsHermitian, diagonal_conjTranspose]
  congr 1
  funext i
  simp

theorem cols_orth {eig : Eig m} (hE : Eigh eig) (h : k ≤ m) {H : Matrix (Fin m) (Fin m) ℂ} (hH : H.IsHermitian) :
    (cols h (eig H).2)ᴴ * cols h (eig H).2 = 1 := by
  have h1 := (hE H hH).2.1
  have e : (cols h (eig H).2)ᴴ * cols h (eig H).2 = ((eig H).2ᴴ * (eig H).2).submatrix (Fin.castLE h) (Fin.castLE h) := by
    ext a b
    rfl
  rw [e, h1, submatrix_one _ (Fin.castLE_injective h)]

/-- Energy of orbitals in terms of the eigenvalues. -/
theorem kin_eig {eig : Eig m} (hE : Eigh eig) {H : Matrix (Fin m) (Fin m) ℂ} (hH : H.IsHermitian)
    (A : Matrix (Fin m) (Fin k) ℂ) : kin H A = ∑ a, (eig H).1 a * density ((eig H).2ᴴ * A) a := by
  obtain ⟨-, h1, h2⟩ := hE H hH
  have h3 : (eig H).2 * (eig H).2ᴴ = 1 := mul_eq_one_comm.1 h1
  rw [← kin_diagonal]
  unfold kin
  congr 2
  have : H = (eig H).2 * diagonal (fun a => ((eig H).1 a : ℂ)) * (eig H).2ᴴ := by
    rw [← h2, Matrix.mul_assoc, h3, Matrix.mul_one]
  rw [conjTranspose_mul, conjTranspose_conjTranspose]
  conv_lhs => rw [this]
  simp only [Matrix.mul_assoc]

theorem sum_castLE (h : k ≤ m) (f : Fin m → ℝ) :
    ∑ a : Fin m, f a * (if (a : Nat) < k then 1 else 0) = ∑ a : Fin k, f (Fin.castLE h a) := by
  simp only [mul_ite, mul_one, mul_zero]
  rw [← sum_filter]
  symm
  refine sum_bij (fun a _ => Fin.castLE h a) (fun a _ => ?_) (fun a _ b _ hab => Fin.castLE_injective h hab)
    (fun b hb => ?_) (fun _ _ => rfl)
  · simp
  · exact ⟨⟨b, (mem_filter.1 hb).2⟩, mem_univ _, rfl⟩

theorem kin_cols {eig : Eig m} (hE : Eigh eig) (h : k ≤ m) {H : Matrix (Fin m) (Fin m) ℂ} (hH : H.IsHermitian) :
    kin H (cols h (eig H).2) = ∑ a : Fin k, (eig H).1 (Fin.castLE h a) := by
  rw [kin_eig hE hH, ← sum_castLE h]
  refine sum_congr rfl fun a _ => ?_
  congr 1
  have e : ∀ b : Fin k, ((eig H).2ᴴ * cols h (eig H).2) a b = if a = Fin.castLE h b then 1 else 0 := by
    intro b
    have : ((eig H).2ᴴ * cols h (eig H).2) a b = ((eig H).2ᴴ * (eig H).2) a (Fin.castLE h b) := rfl
    rw [this, (hE H hH).2.1, one_apply]
  unfold density
  simp only [e, apply_ite norm, norm_one, norm_zero, ite_pow, one_pow, ne_eq, OfNat.ofNat_ne_zero, not_false_eq_true,
    zero_pow]
  split_ifs with hk
  · rw [Fintype.sum_eq_single ⟨a, hk⟩]
    · exact if_pos rfl
    · intro b hb
      rw [if_neg]
      rintro rfl
      exact hb rfl
  · refine sum_eq_zero fun b _ => if_neg ?_
    rintro rfl
    exact hk b.2

/-- No orthonormal orbitals have a lower energy than the first eigenvectors. -/
theorem aufbau {eig : Eig m} (hE : Eigh eig) (h : k ≤ m) {H : Matrix (Fin m) (Fin m) ℂ} (hH : H.IsHermitian)
    (A : Matrix (Fin m) (Fin k) ℂ) (hA : Aᴴ * A = 1) : kin H (cols h (eig H).2) ≤ kin H A := by
  rw [kin_cols hE h hH, kin_eig hE hH, ← sum_castLE h]
  obtain ⟨hmono, h1, h2⟩ := hE H hH
  have h3 : (eig H).2 * (eig H).2ᴴ = 1 := mul_eq_one_comm.1 h1
  have hW : ((eig H).2ᴴ * A)ᴴ * ((eig H).2ᴴ * A) = 1 := by
    rw [conjTranspose_mul, conjTranspose_conjTranspose, Matrix.mul_assoc, ← Matrix.mul_assoc (eig H).2, h3,
      Matrix.one_mul, hA]
  have hle := density_le_one _ hW
  have hge := density_nonneg ((eig H).2ᴴ * A)
  have hs := density_sum _ hW
  generalize density ((eig H).2ᴴ * A) = w at *
  generalize (eig H).1 = v at *
  rcases Nat.eq_zero_or_pos k with rfl | hk
  · have hw : ∀ a, w a = 0 := fun a => (sum_eq_zero_iff_of_nonneg fun a _ => hge a).1 (by simpa using hs) a (mem_univ a)
    simp [hw]
  · have hm : k - 1 < m := by omega
    have hz : ∑ a : Fin m, (w a - if (a : Nat) < k then 1 else 0) = 0 := by
      rw [sum_sub_distrib, hs]
      have := sum_castLE h (fun _ => 1)
      simp only [one_mul] at this
      rw [this]
      simp
    have hp : 0 ≤ ∑ a : Fin m, (v a - v ⟨k - 1, hm⟩) * (w a - if (a : Nat) < k then 1 else 0) := by
      refine sum_nonneg fun a _ => ?_
      split_ifs with ha
      · refine mul_nonneg_of_nonpos_of_nonpos (sub_nonpos.2 (hmono ?_)) (sub_nonpos.2 (hle a))
        exact Fin.le_def.2 (by simp; omega)
      · refine mul_nonneg (sub_nonneg.2 (hmono ?_)) (by simpa using hge a)
        exact Fin.le_def.2 (by simp; omega)
    have e : ∑ a : Fin m, (v a - v ⟨k - 1, hm⟩) * (w a - if (a : Nat) < k then 1 else 0) =
        (∑ a, v a * w a - ∑ a : Fin m, v a * if (a : Nat) < k then 1 else 0) -
          v ⟨k - 1, hm⟩ * ∑ a : Fin m, (w a - if (a : Nat) < k then 1 else 0) := by
      rw [mul_sum, ← sum_sub_distrib, ← sum_sub_distrib]
      exact sum_congr rfl fun a _ => by ring
    rw [e, hz] at hp
    linarith

end Verif.Uhf
