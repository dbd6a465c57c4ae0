import Mathlib.MeasureTheory.Integral.IntervalIntegral.Basic

/-!
# Average of a two-valued function of a uniform number
-/

namespace Verif.StepIntegral

open MeasureTheory intervalIntegral Set

theorem integral_step (q c d : ℝ) (hq0 : 0 ≤ q) (hq1 : q ≤ 1) :
    ∫ r in (0 : ℝ)..1, (if r < q then c else d) = c * q + d * (1 - q) := by
  have e1 : EqOn (fun _ : ℝ => c) (fun r : ℝ => if r < q then c else d) (Ioo 0 q) := by
    intro r hr; simp [hr.2]
  have e2 : EqOn (fun _ : ℝ => d) (fun r : ℝ => if r < q then c else d) (Ioo q 1) := by
    intro r hr; simp [hr.1.le]
  have i1 : IntervalIntegrable (fun r : ℝ => if r < q then c else d) volume 0 q :=
    IntervalIntegrable.congr_uIoo intervalIntegrable_const (by rw [uIoo_of_le hq0]; exact e1)
  have i2 : IntervalIntegrable (fun r : ℝ => if r < q then c else d) volume q 1 :=
    IntervalIntegrable.congr_uIoo intervalIntegrable_const (by rw [uIoo_of_le hq1]; exact e2)
  rw [← integral_add_adjacent_intervals i1 i2, ← integral_congr_Ioo_of_le hq0 e1,
    ← integral_congr_Ioo_of_le hq1 e2]
  simp only [intervalIntegral.integral_const, smul_eq_mul]
  ring

end Verif.StepIntegral
