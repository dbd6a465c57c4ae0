import Verif.BoseCI.Bounds
import Mathlib.Analysis.Matrix.Spectrum

/-!
# The contract of the eigensolver can be met
-/

namespace Verif.BoseCI

open Matrix

/-- For every symmetric matrix there is an answer that meets the contract. -/
theorem exists_eigsh {N : Nat} (H : Matrix (Fin N) (Fin N) ℝ) (hH : Hᵀ = H) : ∃ out, Eigsh H out := by
  by_cases hN : N ≤ 3
  · exact ⟨none, hN⟩
  have hA : H.IsHermitian := by
    rw [Matrix.IsHermitian, Matrix.conjTranspose_eq_transpose_of_trivial, hH]
  set U : Matrix (Fin N) (Fin N) ℝ := (hA.eigenvectorUnitary : Matrix (Fin N) (Fin N) ℝ) with hU
  have hUU : Uᵀ * U = 1 := by
    have := Unitary.coe_star_mul_self hA.eigenvectorUnitary
    rwa [Matrix.star_eq_conjTranspose, Matrix.conjTranspose_eq_transpose_of_trivial] at this
  have hUU' : U * Uᵀ = 1 := mul_eq_one_comm.1 hUU
  set b : Fin N → Fin N → ℝ := fun j => Uᵀ j with hb
  have hbo : ∀ i j, b i ⬝ᵥ b j = if i = j then 1 else 0 := by
    intro i j
    have := congrFun (congrFun hUU i) j
    rw [Matrix.mul_apply, Matrix.one_apply] at this
    exact this
  have hbe : ∀ j, H *ᵥ b j = hA.eigenvalues j • b j := fun j => hA.mulVec_eigenvectorBasis j
  have hexp : ∀ v : Fin N → ℝ, v = ∑ j, (b j ⬝ᵥ v) • b j := by
    intro v
    have h1 : v = U *ᵥ (Uᵀ *ᵥ v) := by rw [Matrix.mulVec_mulVec, hUU', Matrix.one_mulVec]
    conv_lhs => rw [h1]
    funext i
    simp only [mulVec, dotProduct, Finset.sum_apply, Pi.smul_apply, smul_eq_mul, hb, Matrix.transpose_apply]
    exact Finset.sum_congr rfl fun j _ => mul_comm _ _
  set E : Fin (Fintype.card (Fin N)) ≃ Fin N := Fintype.equivOfCardEq (Fintype.card_fin _) with hE
  have hcard : Fintype.card (Fin N) = N := Fintype.card_fin N
  have hev : ∀ j, hA.eigenvalues (E j) = hA.eigenvalues₀ j := by
    intro j
    unfold Matrix.IsHermitian.eigenvalues
    rw [← hE, Equiv.symm_apply_apply]
  let r : Fin 3 → Fin (Fintype.card (Fin N)) := fun k => ⟨N - 1 - k, by omega⟩
  have hrinj : ∀ k l, E (r k) = E (r l) ↔ k = l := by
    intro k l
    rw [E.apply_eq_iff_eq, Fin.mk.injEq]
    omega
  refine ⟨some (fun k => hA.eigenvalues (E (r k)), fun k => b (E (r k))), by omega, fun k => hbe _, fun k l => ?_,
    fun k l hkl => ?_, fun v hv => ?_⟩
  · rw [hbo]
    simp only [hrinj]
  · simp only [hev]
    refine hA.eigenvalues₀_antitone ?_
    rw [Fin.mk_le_mk]
    have : (k : Nat) ≤ l := hkl
    omega
  · have hHv : H *ᵥ v = ∑ j, (b j ⬝ᵥ v) • hA.eigenvalues j • b j := by
      conv_lhs => rw [hexp v]
      rw [Matrix.mulVec_sum]
      exact Finset.sum_congr rfl fun j _ => by rw [Matrix.mulVec_smul, hbe]
    have e1 : v ⬝ᵥ (H *ᵥ v) = ∑ j, hA.eigenvalues j * (b j ⬝ᵥ v) ^ 2 := by
      rw [hHv, dotProduct_sum]
      refine Finset.sum_congr rfl fun j _ => ?_
      rw [dotProduct_smul, dotProduct_smul, dotProduct_comm v, smul_eq_mul, smul_eq_mul]
      ring
    have e2 : v ⬝ᵥ v = ∑ j, (b j ⬝ᵥ v) ^ 2 := by
      conv_lhs => rw [hexp v]
      rw [sum_dotProduct]
      refine Finset.sum_congr rfl fun j _ => ?_
      rw [smul_dotProduct, smul_eq_mul, ← hexp v, sq]
    rw [e1, e2, Finset.mul_sum]
    refine Finset.sum_le_sum fun j _ => ?_
    by_cases h3 : ∃ k, j = E (r k)
    · obtain ⟨k, rfl⟩ := h3
      have := hv k
      simp only at this
      rw [this]
      simp
    · refine mul_le_mul_of_nonneg_right ?_ (sq_nonneg _)
      push Not at h3
      obtain ⟨i, rfl⟩ := E.surjective j
      simp only [hev]
      refine hA.eigenvalues₀_antitone ?_
      rw [Fin.le_def]
      change (i : Nat) ≤ N - 1 - ((2 : Fin 3) : Nat)
      by_contra hlt
      have hi : (i : Nat) < N := by have := i.2; omega
      have h2 : ((2 : Fin 3) : Nat) = 2 := rfl
      refine h3 ⟨N - 1 - i, by omega⟩ ?_
      congr 1
      apply Fin.ext
      change (i : Nat) = N - 1 - (N - 1 - i)
      omega

/-- There is an eigensolver that meets the contract. -/
theorem exists_solver : ∃ eigsh : Solver, Solves eigsh := by
  classical
  refine ⟨fun N H => if h : Hᵀ = H then (exists_eigsh H h).choose else none, fun N H h => ?_⟩
  simp only [dif_pos h]
  exact (exists_eigsh H h).choose_spec

end Verif.BoseCI
