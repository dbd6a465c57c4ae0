import Verif.Slater.Props
import Mathlib.LinearAlgebra.Matrix.SchurComplement
import Mathlib.LinearAlgebra.Matrix.RowCol

/-!
# Matrix elements between Slater determinants

Matrix elements of one- and two-body operators between two Slater determinants, defined by applying
the operator to the orbitals (sum over particles, or over ordered pairs of different particles), and
their evaluation by the one-particle Green's function (Wick's theorem).  Nothing here refers to the
model of the energy routines.
-/

namespace Verif.Energy

open Matrix Finset

variable {m k : Nat}

/-- Overlap of two determinants. -/
noncomputable def ovl (A B : Matrix (Fin m) (Fin k) ℂ) : ℂ := (Aᴴ * B).det

/-- `⟨A| ∑_i T(i) |B⟩`: the operator acts on one orbital at a time. -/
noncomputable def oneBody (T : Matrix (Fin m) (Fin m) ℂ) (A B : Matrix (Fin m) (Fin k) ℂ) : ℂ :=
  ∑ i, (Aᴴ * B.updateCol i (T *ᵥ B.col i)).det

/-- `⟨A| ∑_{i≠j} S(i) T(j) |B⟩`. -/
noncomputable def twoBody (S T : Matrix (Fin m) (Fin m) ℂ) (A B : Matrix (Fin m) (Fin k) ℂ) : ℂ :=
  ∑ i, ∑ j, if i = j then 0 else
    (Aᴴ * (B.updateCol i (S *ᵥ B.col i)).updateCol j (T *ᵥ B.col j)).det

/-- Determinant of the identity with two columns replaced. -/
theorem det_one_updateCol_two {i j : Fin k} (hij : i ≠ j) (u v : Fin k → ℂ) :
    (((1 : Matrix (Fin k) (Fin k) ℂ).updateCol i u).updateCol j v).det = u i * v j - u j * v i := by
  have h : ((1 : Matrix (Fin k) (Fin k) ℂ).updateCol i u).updateCol j v =
      1 + (Matrix.of fun r (c : Fin 2) =>
        if c = 0 then u r - (1 : Matrix (Fin k) (Fin k) ℂ) r i
        else v r - (1 : Matrix (Fin k) (Fin k) ℂ) r j) *
      (Matrix.of fun (c : Fin 2) s => if c = 0 then (1 : Matrix (Fin k) (Fin k) ℂ) i s
        else (1 : Matrix (Fin k) (Fin k) ℂ) j s) := by
    ext r s
    rw [Matrix.add_apply, Matrix.mul_apply, Fin.sum_univ_two]
    simp only [Matrix.of_apply, if_true, Fin.isValue, one_ne_zero, if_false, Matrix.updateCol_apply]
    by_cases hsj : s = j
    · subst hsj
      rw [if_pos rfl, Matrix.one_apply_ne hij, Matrix.one_apply_eq]
      ring
    · rw [if_neg hsj, Matrix.one_apply_ne (Ne.symm hsj)]
      by_cases hsi : s = i
      · subst hsi
        rw [if_pos rfl, Matrix.one_apply_eq]
        ring
      · rw [if_neg hsi, Matrix.one_apply_ne (Ne.symm hsi)]
        ring
  rw [h, Matrix.det_one_add_mul_comm, Matrix.det_fin_two]
  simp only [Matrix.add_apply, Matrix.mul_apply, Matrix.of_apply, if_true, Fin.isValue,
    one_ne_zero, if_false, Matrix.one_apply_eq, ite_mul, one_mul, zero_mul,
    Matrix.one_apply, Finset.sum_ite_eq, Finset.mem_univ, hij, Ne.symm hij, zero_ne_one]
  simp
  ring

theorem det_updateCol_mulVec (M : Matrix (Fin k) (Fin k) ℂ) (i : Fin k) (u : Fin k → ℂ) :
    (M.updateCol i (M *ᵥ u)).det = M.det * u i := by
  have h : M.updateCol i (M *ᵥ u) = M * (1 : Matrix (Fin k) (Fin k) ℂ).updateCol i u := by
    rw [Matrix.mul_updateCol, Matrix.mul_one]
  rw [h, Matrix.det_mul]
  congr 1
  rw [← Matrix.cramer_apply, Matrix.cramer_one]
  rfl

theorem det_updateCol_two {M : Matrix (Fin k) (Fin k) ℂ} {i j : Fin k} (hij : i ≠ j)
    (u v : Fin k → ℂ) :
    ((M.updateCol i (M *ᵥ u)).updateCol j (M *ᵥ v)).det = M.det * (u i * v j - u j * v i) := by
  have h : (M.updateCol i (M *ᵥ u)).updateCol j (M *ᵥ v) =
      M * ((1 : Matrix (Fin k) (Fin k) ℂ).updateCol i u).updateCol j v := by
    rw [Matrix.mul_updateCol, Matrix.mul_updateCol, Matrix.mul_one]
  rw [h, Matrix.det_mul, det_one_updateCol_two hij]

/-- The image of an orbital in terms of the overlap matrix. -/
theorem conj_mulVec (A B : Matrix (Fin m) (Fin k) ℂ) (h : ovl A B ≠ 0)
    (T : Matrix (Fin m) (Fin m) ℂ) (i : Fin k) :
    Aᴴ *ᵥ (T *ᵥ B.col i) = (Aᴴ * B) *ᵥ ((Aᴴ * B)⁻¹ * Aᴴ * T * B).col i := by
  have hu : IsUnit (Aᴴ * B).det := isUnit_iff_ne_zero.2 h
  have h1 : ∀ X : Matrix (Fin k) (Fin k) ℂ, (Aᴴ * B) *ᵥ X.col i = ((Aᴴ * B) * X).col i := by
    intro X; rfl
  rw [h1]
  have h2 : (Aᴴ * B) * ((Aᴴ * B)⁻¹ * Aᴴ * T * B) = Aᴴ * (T * B) := by
    calc (Aᴴ * B) * ((Aᴴ * B)⁻¹ * Aᴴ * T * B)
        = ((Aᴴ * B) * (Aᴴ * B)⁻¹) * (Aᴴ * (T * B)) := by simp only [Matrix.mul_assoc]
      _ = _ := by rw [Matrix.mul_nonsing_inv _ hu, Matrix.one_mul]
  rw [h2, Matrix.mulVec_mulVec]
  rw [← Matrix.mul_assoc]
  rfl

/-- The operator between the orbitals, in the basis where the overlap matrix is the identity. -/
noncomputable def sandwich (A B : Matrix (Fin m) (Fin k) ℂ) (T : Matrix (Fin m) (Fin m) ℂ) :
    Matrix (Fin k) (Fin k) ℂ := (Aᴴ * B)⁻¹ * Aᴴ * T * B

theorem trace_sandwich (A B : Matrix (Fin m) (Fin k) ℂ) (T : Matrix (Fin m) (Fin m) ℂ) :
    (T * Slater.gab A B).trace = (sandwich A B T).trace := by
  rw [Slater.gab, ← Matrix.mul_assoc, Matrix.trace_mul_comm (T * B), ← Matrix.mul_assoc, sandwich]

theorem trace_sandwich_two (A B : Matrix (Fin m) (Fin k) ℂ) (S T : Matrix (Fin m) (Fin m) ℂ) :
    (S * Slater.gab A B * T * Slater.gab A B).trace = (sandwich A B S * sandwich A B T).trace := by
  have h : S * Slater.gab A B * T * Slater.gab A B =
      (S * B) * (sandwich A B T * ((Aᴴ * B)⁻¹ * Aᴴ)) := by
    simp only [Slater.gab, sandwich, Matrix.mul_assoc]
  rw [h, Matrix.trace_mul_comm, Matrix.trace_mul_comm (sandwich A B S)]
  congr 1
  simp only [sandwich, Matrix.mul_assoc]

theorem element_one (T : Matrix (Fin m) (Fin m) ℂ) (A B : Matrix (Fin m) (Fin k) ℂ)
    (h : ovl A B ≠ 0) (i : Fin k) :
    (Aᴴ * B.updateCol i (T *ᵥ B.col i)).det = ovl A B * sandwich A B T i i := by
  rw [Matrix.mul_updateCol, conj_mulVec A B h T i, det_updateCol_mulVec]
  rfl

theorem element_two (S T : Matrix (Fin m) (Fin m) ℂ) (A B : Matrix (Fin m) (Fin k) ℂ)
    (h : ovl A B ≠ 0) (i j : Fin k) :
    (if i = j then 0 else
      (Aᴴ * (B.updateCol i (S *ᵥ B.col i)).updateCol j (T *ᵥ B.col j)).det) =
      ovl A B * (sandwich A B S i i * sandwich A B T j j -
        sandwich A B S j i * sandwich A B T i j) := by
  split_ifs with hij
  · subst hij; ring
  · rw [Matrix.mul_updateCol, Matrix.mul_updateCol, conj_mulVec A B h S i, conj_mulVec A B h T j,
      det_updateCol_two hij]
    rfl

/-- One-body elements. -/
theorem oneBody_eq (T : Matrix (Fin m) (Fin m) ℂ) (A B : Matrix (Fin m) (Fin k) ℂ)
    (h : ovl A B ≠ 0) : oneBody T A B = ovl A B * (T * Slater.gab A B).trace := by
  rw [oneBody, Finset.sum_congr rfl fun i _ => element_one T A B h i, ← Finset.mul_sum,
    trace_sandwich]
  rfl

/-- Two-body elements: Coulomb minus exchange. -/
theorem twoBody_eq (S T : Matrix (Fin m) (Fin m) ℂ) (A B : Matrix (Fin m) (Fin k) ℂ)
    (h : ovl A B ≠ 0) : twoBody S T A B = ovl A B *
      ((S * Slater.gab A B).trace * (T * Slater.gab A B).trace -
        (S * Slater.gab A B * T * Slater.gab A B).trace) := by
  rw [twoBody, Finset.sum_congr rfl fun i _ => Finset.sum_congr rfl fun j _ =>
    element_two S T A B h i j, trace_sandwich, trace_sandwich, trace_sandwich_two]
  generalize sandwich A B S = P
  generalize sandwich A B T = Q
  simp only [← Finset.mul_sum, Finset.sum_sub_distrib]
  have h1 : P.trace * Q.trace = ∑ i, ∑ j, P i i * Q j j := by
    simp only [Matrix.trace, Matrix.diag_apply, Finset.sum_mul_sum]
  have h2 : (P * Q).trace = ∑ i, ∑ j, P j i * Q i j := by
    simp only [Matrix.trace, Matrix.diag_apply, Matrix.mul_apply]
    exact Finset.sum_comm
  rw [h1, h2]
  simp only [Finset.mul_sum]

/-- Matrix element of a Hamiltonian with spin-dependent one-body part `h`, two-body part
`1/2 ∑_x ∑_{i≠j} L_x(i) L_x(j)` (over electrons of both spins) and a constant, between products of an
up and a down determinant. -/
noncomputable def hamil {na nb nx : Nat} (h : Fin 2 → Matrix (Fin m) (Fin m) ℂ)
    (L : Fin nx → Matrix (Fin m) (Fin m) ℂ) (ecore : ℂ) (Au Bu : Matrix (Fin m) (Fin na) ℂ)
    (Ad Bd : Matrix (Fin m) (Fin nb) ℂ) : ℂ :=
  ecore * (ovl Au Bu * ovl Ad Bd) +
  (oneBody (h 0) Au Bu * ovl Ad Bd + ovl Au Bu * oneBody (h 1) Ad Bd) +
  (1 / 2 : ℂ) * ∑ x, (twoBody (L x) (L x) Au Bu * ovl Ad Bd + ovl Au Bu * twoBody (L x) (L x) Ad Bd +
    2 * (oneBody (L x) Au Bu * oneBody (L x) Ad Bd))

end Verif.Energy
