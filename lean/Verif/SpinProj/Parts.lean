import Verif.SpinProj.Props
import Mathlib.Analysis.Matrix.Spectrum

/-!
# Every trial is a sum of parts with definite spin
-/

namespace Verif.SpinProj

open Matrix Finset

variable {nb nu nd : Nat}

/-- `S²` as a linear map. -/
noncomputable def spinSqL : (Conf nb nu nd → ℂ) →ₗ[ℂ] (Conf nb nu nd → ℂ) where
  toFun := spinSq
  map_add' A B := by
    funext g
    simp only [spinSq, lower, raise, sz, Pi.add_apply, mul_add, sum_add_distrib, ite_add_zero]
    ring
  map_smul' c A := by
    funext g
    simp only [spinSq, lower, raise, sz, Pi.smul_apply, smul_eq_mul, RingHom.id_apply, mul_add, mul_sum, mul_ite,
      mul_zero]
    congr 1
    · congr 1
      exact sum_congr rfl fun b _ => sum_congr rfl fun b _ => by ring
    · exact sum_congr rfl fun b _ => by ring

theorem spinSq_hermitian : (LinearMap.toMatrix' (spinSqL (nb := nb) (nu := nu) (nd := nd))).IsHermitian := by
  ext g g'
  have e : ∀ a b : Conf nb nu nd, inner (Pi.single a 1) (spinSq (Pi.single b 1)) =
      LinearMap.toMatrix' (spinSqL (nb := nb) (nu := nu) (nd := nd)) a b := by
    intro a b
    have h1 : LinearMap.toMatrix' (spinSqL (nb := nb) (nu := nu) (nd := nd)) a b = spinSq (Pi.single b 1) a := by
      rw [LinearMap.toMatrix'_apply]
      rfl
    rw [h1, inner, sum_eq_single a]
    · rw [Pi.single_eq_same, star_one, one_mul]
    · intro c _ hc
      rw [Pi.single_eq_of_ne hc, star_zero, zero_mul]
    · intro h; exact absurd (mem_univ _) h
  rw [conjTranspose_apply, ← e, ← e, inner_star, inner_spinSq]

/-- **The spin parts of a wave function.** -/
theorem exists_parts (Psi : Conf nb nu nd → ℂ) (s : ℝ) :
    ∃ (Theta : Conf nb nu nd → ℂ) (Other : Conf nb nu nd → Conf nb nu nd → ℂ) (t : Conf nb nu nd → ℝ),
      spinSq Theta = (s : ℂ) • Theta ∧ (∀ k, spinSq (Other k) = (t k : ℂ) • Other k) ∧ (∀ k, t k ≠ s) ∧
      Psi = Theta + ∑ k, Other k := by
  classical
  set M := LinearMap.toMatrix' (spinSqL (nb := nb) (nu := nu) (nd := nd)) with hM
  have hH : M.IsHermitian := spinSq_hermitian
  have hmul : ∀ v, spinSq v = M *ᵥ v := by
    intro v
    rw [hM, LinearMap.toMatrix'_mulVec]
    rfl
  set v : Conf nb nu nd → Conf nb nu nd → ℂ := fun k => (hH.eigenvectorBasis k).ofLp with hv
  have hvk : ∀ k, spinSq (v k) = (hH.eigenvalues k : ℂ) • v k := by
    intro k
    rw [hmul]
    exact (hH.mulVec_eigenvectorBasis k).trans (by funext g; simp [hv])
  have hz : ∀ k (c : ℂ), spinSq (c • v k) = (hH.eigenvalues k : ℂ) • c • v k := by
    intro k c
    rw [show spinSq (c • v k) = c • spinSq (v k) from spinSqL.map_smul c (v k), hvk, smul_comm]
  set a : Conf nb nu nd → ℂ := fun k => hH.eigenvectorBasis.repr (WithLp.toLp 2 Psi) k with ha
  have hsum : Psi = ∑ k, a k • v k := by
    have := hH.eigenvectorBasis.sum_repr (WithLp.toLp 2 Psi)
    have h2 := congrArg WithLp.ofLp this
    rw [WithLp.ofLp_sum] at h2
    exact h2.symm
  have h0 : ∀ c : ℂ, spinSq (0 : Conf nb nu nd → ℂ) = c • (0 : Conf nb nu nd → ℂ) := by
    intro c
    rw [smul_zero]
    exact spinSqL.map_zero
  refine ⟨∑ k, if hH.eigenvalues k = s then a k • v k else 0,
    fun k => if hH.eigenvalues k = s then 0 else a k • v k,
    fun k => if hH.eigenvalues k = s then s + 1 else hH.eigenvalues k, ?_, ?_, ?_, ?_⟩
  · rw [show spinSq (∑ k, if hH.eigenvalues k = s then a k • v k else 0) =
      ∑ k, spinSq (if hH.eigenvalues k = s then a k • v k else 0) from map_sum spinSqL _ _, smul_sum]
    refine sum_congr rfl fun k _ => ?_
    split_ifs with h
    · rw [hz, h]
    · exact h0 _
  · intro k
    beta_reduce
    split_ifs with h
    · exact h0 _
    · exact hz k _
  · intro k
    beta_reduce
    split_ifs with h
    · linarith
    · exact h
  · rw [← sum_add_distrib, hsum]
    refine sum_congr rfl fun k _ => ?_
    split_ifs <;> simp

/-- **C123, the estimator.**  For every trial (any sum of determinants, of any spins) there is a part `Theta` of
it with the spin `s = (nu - nd) / 2` of the walkers such that the mixed estimate from walkers of this spin, with
any weights, of any operator that does not act on the spins is that with the trial `Theta`. -/
theorem mixed_projected (Psi : Conf nb nu nd → ℂ) : ∃ Theta : Conf nb nu nd → ℂ,
    spinSq Theta = (((nu - nd : ℝ) / 2 * ((nu - nd : ℝ) / 2 + 1) : ℝ) : ℂ) • Theta ∧
    (∀ X, spinSq X = (((nu - nd : ℝ) / 2 * ((nu - nd : ℝ) / 2 + 1) : ℝ) : ℂ) • X → inner X (Psi - Theta) = 0) ∧
    ∀ (ι : Type) (_ : Fintype ι) (phi : ι → Slater.Wfn nb nu nd) (_ : ∀ i, SpinPure (phi i)) (c : ι → ℂ)
      (K : Matrix (Fin nu ⊕ Fin nd → Fin nb) (Fin nu ⊕ Fin nd → Fin nb) ℂ),
      (∑ i, c i * inner Psi (spatial K (wave (phi i)))) / (∑ i, c i * inner Psi (wave (phi i))) =
        (∑ i, c i * inner Theta (spatial K (wave (phi i)))) / (∑ i, c i * inner Theta (wave (phi i))) := by
  obtain ⟨Theta, Other, t, hT, hO, ht, hP⟩ := exists_parts Psi ((nu - nd : ℝ) / 2 * ((nu - nd : ℝ) / 2 + 1))
  refine ⟨Theta, hT, fun X hX => ?_, fun ι _ phi hphi c K => ?_⟩
  · rw [hP, add_sub_cancel_left, ← inner_star, inner_sum_left, star_sum]
    refine sum_eq_zero fun k _ => ?_
    rw [inner_eq_zero (hO k) hX (fun h => ht k (by exact_mod_cast h)), star_zero]
  · rw [hP]
    exact mixed_contamination Theta Other t hO ht phi hphi c K

end Verif.SpinProj
