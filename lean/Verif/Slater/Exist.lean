import Verif.Slater.Model
import Verif.Thermal.Exist
import Mathlib.LinearAlgebra.Matrix.Rank

/-!
# The contract of the QR routine can be met
-/

namespace Verif.Slater

open Matrix

variable {nb k : Nat}

theorem le_of_gram (A : Matrix (Fin nb) (Fin k) ℂ) (h : (Aᴴ * A).det ≠ 0) : k ≤ nb := by
  have h1 : (Aᴴ * A).rank = k := by
    rw [Matrix.rank_of_isUnit _ ((Matrix.isUnit_iff_isUnit_det _).2 (isUnit_iff_ne_zero.2 h))]
    simp
  have h2 : (Aᴴ * A).rank ≤ A.rank := Matrix.rank_mul_le_right _ _
  have h3 := A.rank_le_height
  omega

theorem exists_qre (A : Matrix (Fin nb) (Fin k) ℂ) (hk : k ≤ nb) : ∃ Q R, IsQRe A Q R := by
  let A' : Thermal.Mat nb := fun i j => if h : j.val < k then A i ⟨j, h⟩ else 0
  obtain ⟨Q, R, hqr⟩ := Thermal.exists_qr A'
  let c : Fin k → Fin nb := Fin.castLE hk
  have hc : ∀ i j, A' i (c j) = A i j := fun i j => by simp [A', c]
  choose p hp1 hp2 using fun i => Thermal.exists_phase (R (c i) (c i))
  have hcol : ∀ i j, A i j = ∑ l, Q i (c l) * R (c l) (c j) := by
    intro i j
    rw [← hc, hqr.eq, Matrix.mul_apply]
    have hinj : Function.Injective c := Fin.castLE_injective hk
    rw [← Finset.sum_image (f := fun l => Q i l * R l (c j)) (s := Finset.univ) (g := c)
      (fun a _ b _ h => hinj h)]
    symm
    refine Finset.sum_subset (Finset.subset_univ _) fun l _ hl => ?_
    have : c j < l := by
      by_contra hlt
      apply hl
      rw [Finset.mem_image]
      have h1 : l.val ≤ j.val := by
        have : l ≤ c j := not_lt.1 hlt
        exact this
      exact ⟨⟨l, lt_of_le_of_lt h1 j.2⟩, Finset.mem_univ _, Fin.ext rfl⟩
    rw [show R l (c j) = 0 from hqr.upper this, mul_zero]
  refine ⟨Matrix.of fun i j => Q i (c j) * p j, Matrix.of fun i j => star (p i) * R (c i) (c j),
    ?_, ?_, ?_, ?_⟩
  · ext i j
    have h1 : (Qᴴ * Q) (c i) (c j) = (1 : Thermal.Mat nb) (c i) (c j) := by rw [hqr.unitary]
    rw [Matrix.mul_apply, Matrix.one_apply] at h1
    rw [Matrix.mul_apply]
    have h2 : ∀ l, (Matrix.of fun i j => Q i (c j) * p j : Matrix (Fin nb) (Fin k) ℂ)ᴴ i l *
        (Matrix.of fun i j => Q i (c j) * p j : Matrix (Fin nb) (Fin k) ℂ) l j = (star (p i) * p j) * (Qᴴ (c i) l * Q l (c j)) := by
      intro l
      simp only [Matrix.conjTranspose_apply, Matrix.of_apply, star_mul']
      ring
    rw [Finset.sum_congr rfl fun l _ => h2 l, ← Finset.mul_sum, h1, Matrix.one_apply]
    by_cases hij : i = j
    · subst hij; rw [if_pos rfl, if_pos rfl, mul_one, hp1]
    · rw [if_neg hij, if_neg (fun h => hij (Fin.castLE_injective hk h)), mul_zero]
  · intro i j hij
    show star (p i) * R (c i) (c j) = 0
    have hlt : c j < c i := hij
    rw [show R (c i) (c j) = 0 from hqr.upper hlt, mul_zero]
  · exact hp2
  · ext i j
    rw [hcol, Matrix.mul_apply]
    refine Finset.sum_congr rfl fun l _ => ?_
    simp only [Matrix.of_apply]
    have : p l * star (p l) = 1 := by rw [mul_comm]; exact hp1 l
    rw [show Q i (c l) * p l * (star (p l) * R (c l) (c j)) =
      Q i (c l) * (p l * star (p l)) * R (c l) (c j) by ring, this, mul_one]

open Classical in
/-- Some QR routine that meets the contract. -/
noncomputable def someQR (nb : Nat) : QR nb := fun k A =>
  if h : ∃ f : Matrix (Fin nb) (Fin k) ℂ × Matrix (Fin k) (Fin k) ℂ, IsQRe A f.1 f.2
  then h.choose else (0, 0)

theorem someQR_spec (nb : Nat) : QRSpec (someQR nb) := by
  intro k A h
  have hx : ∃ f : Matrix (Fin nb) (Fin k) ℂ × Matrix (Fin k) (Fin k) ℂ, IsQRe A f.1 f.2 := by
    obtain ⟨Q, R, h⟩ := exists_qre A (le_of_gram A h)
    exact ⟨(Q, R), h⟩
  rw [someQR, dif_pos hx]
  exact hx.choose_spec

end Verif.Slater
