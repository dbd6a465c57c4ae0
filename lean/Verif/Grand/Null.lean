import Mathlib.MeasureTheory.Measure.Lebesgue.EqHaar
import Mathlib.MeasureTheory.Measure.Prod
import Mathlib.Algebra.Polynomial.Roots
import Mathlib.Analysis.Complex.Basic

/-!
# Zeros of polynomials in several variables

A continuous function that is a polynomial along every line through a point where it does not vanish is nonzero
almost everywhere.  Nothing here refers to the model of the code.
-/

namespace Verif.Grand

open MeasureTheory Polynomial

theorem ae_ne_zero {n : Nat} {f : (Fin n → ℝ) → ℂ} (hf : Continuous f) {x0 : Fin n → ℝ} (h0 : f x0 ≠ 0)
    (hp : ∀ v : Fin n → ℝ, ∃ p : ℂ[X], ∀ t : ℝ, f (x0 + t • v) = p.eval (t : ℂ)) : ∀ᵐ x, f x ≠ 0 := by
  set Z : Set (Fin n → ℝ) := {x | f (x0 + x) = 0} with hZ
  have hS : MeasurableSet {q : ℝ × (Fin n → ℝ) | f (x0 + q.1 • q.2) = 0} := by
    have hc : Continuous fun q : ℝ × (Fin n → ℝ) => f (x0 + q.1 • q.2) := by fun_prop
    exact (isClosed_eq hc continuous_const).measurableSet
  have hline : ∀ v : Fin n → ℝ, volume {t : ℝ | f (x0 + t • v) = 0} = 0 := by
    intro v
    obtain ⟨p, hp⟩ := hp v
    have hp0 : p ≠ 0 := by
      intro h
      have := hp 0
      rw [zero_smul, add_zero, h, eval_zero] at this
      exact h0 this
    refine Set.Finite.measure_zero ?_ _
    have hfin : (p.roots.toFinset : Set ℂ).Finite := Finset.finite_toSet _
    refine (hfin.preimage (f := fun t : ℝ => (t : ℂ)) (Complex.ofReal_injective.injOn)).subset fun t ht => ?_
    rw [Set.mem_preimage, Finset.mem_coe, Multiset.mem_toFinset, mem_roots hp0, IsRoot, ← hp t]
    exact ht
  have hprod : (volume : Measure ℝ).prod (volume : Measure (Fin n → ℝ))
      {q : ℝ × (Fin n → ℝ) | f (x0 + q.1 • q.2) = 0} = 0 := by
    rw [Measure.prod_apply_symm hS]
    rw [lintegral_eq_zero_iff (measurable_measure_prodMk_right hS)]
    exact Filter.Eventually.of_forall fun v => hline v
  have hae := Measure.measure_ae_null_of_prod_null hprod
  have hne : ∀ᵐ t : ℝ, t ≠ 0 := by
    rw [ae_iff]
    simp
  obtain ⟨t, ht, ht0⟩ := (hae.and hne).exists
  have hZ0 : volume Z = 0 := by
    have ht' : volume ((fun x => t • x) ⁻¹' Z) = 0 := ht
    rw [Measure.addHaar_preimage_smul _ ht0, mul_eq_zero] at ht'
    rcases ht' with ht | ht
    · exfalso
      rw [ENNReal.ofReal_eq_zero, ← not_lt] at ht
      exact ht (abs_pos.2 (inv_ne_zero (pow_ne_zero _ ht0)))
    · exact ht
  rw [ae_iff]
  have e2 : {x | ¬ f x ≠ 0} = (fun x => x + -x0) ⁻¹' Z := by
    ext x
    simp [hZ]
  rw [e2, measure_preimage_add_right, hZ0]

end Verif.Grand
