import Verif.LowRank.Model
import Verif.Thermal.Exist
import Mathlib.GroupTheory.Perm.Fin

/-!
# The pivoted factorisation exists

Every rectangular matrix has a factorisation that meets the contract `IsQRPr`: the column of largest norm first, then the
remaining block.
-/

namespace Verif.LowRank

open Matrix Finset
open Verif.Thermal (Mat)

/-- The block matrix of one and `Q`. -/
def bord {a : Nat} (Q : RMat a a) : RMat (a + 1) (a + 1) :=
  Matrix.of fun i j => Fin.cases (Fin.cases 1 (fun _ => 0) j) (fun i => Fin.cases 0 (fun j => Q i j) j) i

/-- The block matrix with first row `x` and first column zero below. -/
def bordR {a b : Nat} (x : Fin (b + 1) → ℂ) (R : RMat a b) : RMat (a + 1) (b + 1) :=
  Matrix.of fun i j => Fin.cases (x j) (fun i => Fin.cases 0 (fun j => R i j) j) i

theorem bord_unitary {a : Nat} {Q : RMat a a} (h : Qᴴ * Q = 1) : (bord Q)ᴴ * bord Q = 1 := by
  ext i j
  rw [mul_apply, Fin.sum_univ_succ]
  simp only [conjTranspose_apply]
  refine Fin.cases ?_ (fun i => ?_) i <;> refine Fin.cases ?_ (fun j => ?_) j
  · simp [bord]
  · simp [bord, one_apply, Fin.ext_iff]
  · simp [bord, one_apply]
  · have := congrFun (congrFun h i) j
    rw [mul_apply] at this
    simp only [conjTranspose_apply] at this
    have e : ∑ k, (starRingEnd ℂ) (Q k i) * Q k j = (1 : Mat a) i j := this
    simp [bord, e, one_apply]

theorem colsum {a b : Nat} {Q : RMat a a} (h : Qᴴ * Q = 1) (R : RMat a b) (j : Fin b) :
    ∑ i, ‖(Q * R) i j‖ ^ 2 = ∑ i, ‖R i j‖ ^ 2 := by
  have key : ∀ M : RMat a b, ((∑ i, ‖M i j‖ ^ 2 : ℝ) : ℂ) = (Mᴴ * M) j j := by
    intro M
    rw [mul_apply]
    push_cast
    refine sum_congr rfl fun i _ => ?_
    rw [conjTranspose_apply, RCLike.star_def, Complex.conj_mul']
  apply Complex.ofReal_injective
  rw [key, key, conjTranspose_mul, Matrix.mul_assoc, ← Matrix.mul_assoc Qᴴ, h, Matrix.one_mul]

theorem entry_le {a b : Nat} (R : RMat a b) (i : Fin a) (j : Fin b) : ‖R i j‖ ^ 2 ≤ ∑ i, ‖R i j‖ ^ 2 :=
  single_le_sum (f := fun i => ‖R i j‖ ^ 2) (fun _ _ => sq_nonneg _) (mem_univ i)

/-- A unitary matrix that maps a vector to a real multiple of the first unit vector. -/
theorem exists_reflect {a : Nat} (v : Fin (a + 1) → ℂ) : ∃ Q : RMat (a + 1) (a + 1), Qᴴ * Q = 1 ∧
    (∀ i : Fin a, (Qᴴ *ᵥ v) i.succ = 0) ∧ ((Qᴴ *ᵥ v) 0).im = 0 := by
  obtain ⟨Q, R, h⟩ := Thermal.exists_qr (Matrix.of fun i (_ : Fin (a + 1)) => v i)
  obtain ⟨p, hp1, hp2⟩ := Thermal.exists_phase (R 0 0)
  have hR : ∀ i, (Qᴴ *ᵥ v) i = R i 0 := by
    intro i
    have e : Qᴴ * (Matrix.of fun i (_ : Fin (a + 1)) => v i) = R := by
      rw [h.eq, ← Matrix.mul_assoc, h.unitary, Matrix.one_mul]
    rw [← e, mul_apply, mulVec, dotProduct]
    rfl
  have hc : ∀ i, ((p • Q)ᴴ *ᵥ v) i = star p * R i 0 := by
    intro i
    rw [conjTranspose_smul, smul_mulVec, Pi.smul_apply, smul_eq_mul, hR]
  refine ⟨p • Q, ?_, fun i => ?_, ?_⟩
  · rw [conjTranspose_smul, Matrix.smul_mul, Matrix.mul_smul, smul_smul, hp1, one_smul, h.unitary]
  · have e : R i.succ 0 = 0 := h.upper (Fin.succ_pos i)
    rw [hc, e, mul_zero]
  · rw [hc]; exact hp2

theorem exists_qrpr : ∀ (a b : Nat) (A : RMat a b), ∃ Q R P, IsQRPr A Q R P
  | 0, b, A => ⟨1, A, 1, by simp, fun i => i.elim0, by ext i; exact i.elim0, fun i => i.elim0, fun k h => absurd h (by omega)⟩
  | a + 1, 0, A => ⟨1, A, 1, by simp, fun _ j => j.elim0, by ext i j; exact j.elim0, fun _ j => j.elim0,
      fun k _ h => absurd h (by omega)⟩
  | a + 1, b + 1, A => by
    obtain ⟨j0, hj0⟩ := Finite.exists_max fun j => ∑ i, ‖A i j‖ ^ 2
    obtain ⟨Q0, hQ0, hz, hre⟩ := exists_reflect fun i => A i j0
    set P0 : Equiv.Perm (Fin (b + 1)) := Equiv.swap 0 j0 with hP0
    set A1 : RMat (a + 1) (b + 1) := Q0ᴴ * A.submatrix id P0 with hA1
    have hA : A.submatrix id P0 = Q0 * A1 := by
      rw [hA1, ← Matrix.mul_assoc, Thermal.mul_conj_of hQ0, Matrix.one_mul]
    have h0 : ∀ i, A1 i 0 = (Q0ᴴ *ᵥ fun i => A i j0) i := by
      intro i
      rw [hA1, mul_apply, mulVec, dotProduct]
      refine sum_congr rfl fun k _ => ?_
      rw [submatrix_apply, id, hP0, Equiv.swap_apply_left]
    obtain ⟨Q', R', P', h'⟩ := exists_qrpr a b (A1.submatrix Fin.succ Fin.succ)
    set P1 : Equiv.Perm (Fin (b + 1)) := Equiv.Perm.decomposeFin.symm (0, P') with hP1
    have p0 : P1 0 = 0 := by rw [hP1, Equiv.Perm.decomposeFin_symm_apply_zero]
    have ps : ∀ j : Fin b, P1 j.succ = (P' j).succ := by
      intro j; rw [hP1, Equiv.Perm.decomposeFin_symm_apply_succ, Equiv.swap_self]; rfl
    have hblk : A1.submatrix id P1 = bord Q' * bordR (fun j => A1 0 (P1 j)) R' := by
      ext i j
      rw [mul_apply, Fin.sum_univ_succ, submatrix_apply, id]
      refine Fin.cases ?_ (fun i => ?_) i
      · simp [bord, bordR]
      · refine Fin.cases ?_ (fun j => ?_) j
        · rw [p0, h0, hz]
          simp [bord, bordR]
        · rw [ps]
          have := congrFun (congrFun h'.eq i) j
          rw [mul_apply, submatrix_apply, submatrix_apply] at this
          simpa [bord, bordR] using this
    set R := bordR (fun j => A1 0 (P1 j)) R' with hR
    have hu := Thermal.unitary_mul hQ0 (bord_unitary h'.unitary)
    have heq : A.submatrix id (P0 * P1) = Q0 * bord Q' * R := by
      rw [Matrix.mul_assoc, ← hblk]
      have : A.submatrix id (P0 * P1) = (A.submatrix id P0).submatrix id P1 := by ext; rfl
      rw [this, hA]
      ext i j
      rw [submatrix_apply, mul_apply, mul_apply]
      rfl
    have hR00 : ‖R 0 0‖ ^ 2 = ∑ i, ‖A i j0‖ ^ 2 := by
      have e := colsum hu R 0
      rw [← heq] at e
      have e2 : ∀ i, A.submatrix id (P0 * P1) i 0 = A i j0 := by
        intro i
        rw [submatrix_apply, Equiv.Perm.mul_apply, p0, hP0, Equiv.swap_apply_left, id]
      simp only [e2] at e
      rw [e, Fin.sum_univ_succ]
      simp [hR, bordR]
    refine ⟨Q0 * bord Q', R, P0 * P1, hu, ?_, heq, ?_, ?_⟩
    · intro i j
      refine Fin.cases ?_ (fun i => ?_) i
      · intro h; simp at h
      · refine Fin.cases ?_ (fun j => ?_) j
        · intro _; rfl
        · intro h
          exact h'.upper i j (by simpa using h)
    · intro i j
      refine Fin.cases ?_ (fun i => ?_) i
      · refine Fin.cases ?_ (fun j => ?_) j
        · intro _
          show (A1 0 (P1 0)).im = 0
          rw [p0, h0]; exact hre
        · intro h; simp at h
      · refine Fin.cases ?_ (fun j => ?_) j
        · intro h; simp at h
        · intro h
          exact h'.real i j (by simpa using h)
    · intro k ha hb i j hki hkj
      rcases k with _ | k
      · have h1 : ‖R i j‖ ^ 2 ≤ ‖R 0 0‖ ^ 2 := by
          refine (entry_le R i j).trans ?_
          rw [← colsum hu, ← heq, hR00]
          exact hj0 ((P0 * P1) j)
        exact (sq_le_sq₀ (norm_nonneg _) (norm_nonneg _)).1 h1
      · revert hki hkj
        refine Fin.cases ?_ (fun i => ?_) i
        · intro h; simp at h
        · refine Fin.cases ?_ (fun j => ?_) j
          · intro _ h; simp at h
          · intro h1 h2
            exact h'.pivot k (by omega) (by omega) i j (by simpa using h1) (by simpa using h2)

/-- A routine that meets the contract. -/
noncomputable def someQRPr : QRPr := fun a b A =>
  ((exists_qrpr a b A).choose, (exists_qrpr a b A).choose_spec.choose, (exists_qrpr a b A).choose_spec.choose_spec.choose)

theorem someQRPr_spec (a b : Nat) (A : RMat a b) :
    IsQRPr A (someQRPr a b A).1 (someQRPr a b A).2.1 (someQRPr a b A).2.2 :=
  (exists_qrpr a b A).choose_spec.choose_spec.choose_spec

end Verif.LowRank
