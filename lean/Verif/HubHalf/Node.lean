import Verif.HubHalf.Alive

/-!
# A time step for which a walker becomes orthogonal to the trial wave function: C136
-/

namespace Verif.HubHalf

open Matrix Finset
open Verif.Slater
open Verif.Hirsch
open Verif.HubRun (par start)
open Verif.Step (Hub)

/-- Two sites with hopping `log (5/3)` and the interaction of `pair`; the time step is one. -/
noncomputable def knot : Hub 2 :=
  ⟨fun _ => !![0, -((2 * (Real.log (5 / 3) / 2) : ℝ) : ℂ); -((2 * (Real.log (5 / 3) / 2) : ℝ) : ℂ), 0], 2 * Real.log (5 / 4), false⟩

/-- One electron in the upper level. -/
def upper : Wfn 2 1 0 := join !![1; -1] (Matrix.of fun _ j => j.elim0)

theorem up_upper : up upper = !![1; -1] := up_join _ _

theorem hop_exp (L : ℝ) : NormedSpace.exp (-(((1 : ℝ) : ℂ) / 2) • (!![0, -((2 * L : ℝ) : ℂ); -((2 * L : ℝ) : ℂ), 0] : Matrix (Fin 2) (Fin 2) ℂ)) =
    !![(Complex.exp L + Complex.exp (-L)) / 2, (Complex.exp L - Complex.exp (-L)) / 2;
      (Complex.exp L - Complex.exp (-L)) / 2, (Complex.exp L + Complex.exp (-L)) / 2] := by
  have hi : (!![1, 1; 1, -1] : Matrix (Fin 2) (Fin 2) ℂ) * !![1 / 2, 1 / 2; 1 / 2, -(1 / 2)] = 1 := by
    ext i j
    fin_cases i <;> fin_cases j <;> norm_num [Matrix.mul_apply, Fin.sum_univ_two]
  have hinv : (!![1, 1; 1, -1] : Matrix (Fin 2) (Fin 2) ℂ)⁻¹ = !![1 / 2, 1 / 2; 1 / 2, -(1 / 2)] := Matrix.inv_eq_right_inv hi
  have hU : IsUnit (!![1, 1; 1, -1] : Matrix (Fin 2) (Fin 2) ℂ) := by
    rw [Matrix.isUnit_iff_isUnit_det, Matrix.det_fin_two_of]
    norm_num
  have e : -(((1 : ℝ) : ℂ) / 2) • (!![0, -((2 * L : ℝ) : ℂ); -((2 * L : ℝ) : ℂ), 0] : Matrix (Fin 2) (Fin 2) ℂ) =
      !![1, 1; 1, -1] * diagonal ![(L : ℂ), -(L : ℂ)] * (!![1, 1; 1, -1])⁻¹ := by
    rw [hinv, diag2, Matrix.mul_fin_two, Matrix.mul_fin_two]
    push_cast
    generalize (L : ℂ) = L
    ext i j
    fin_cases i <;> fin_cases j <;> simp <;> ring
  rw [e, Matrix.exp_conj _ _ hU, Matrix.exp_diagonal, hinv, Pi.exp_def, ← Complex.exp_eq_exp_ℂ, diag2, Matrix.mul_fin_two, Matrix.mul_fin_two]
  show !![(1 * Complex.exp (L : ℂ) + 1 * 0) * (1 / 2) + (1 * 0 + 1 * Complex.exp (-(L : ℂ))) * (1 / 2),
    (1 * Complex.exp (L : ℂ) + 1 * 0) * (1 / 2) + (1 * 0 + 1 * Complex.exp (-(L : ℂ))) * -(1 / 2);
    (1 * Complex.exp (L : ℂ) + -1 * 0) * (1 / 2) + (1 * 0 + -1 * Complex.exp (-(L : ℂ))) * (1 / 2),
    (1 * Complex.exp (L : ℂ) + -1 * 0) * (1 / 2) + (1 * 0 + -1 * Complex.exp (-(L : ℂ))) * -(1 / 2)] = _
  ext i j
  fin_cases i <;> fin_cases j <;> simp <;> ring

theorem knot_hop (s : Fin 2) : ∃ a b : ℂ, 4 * (a ^ 2 + b ^ 2) = 17 * (a * b) ∧ (par knot 1).bt2 s = !![a, b; b, a] := by
  refine ⟨_, _, ?_, hop_exp (Real.log (5 / 3) / 2)⟩
  have h1 : Complex.exp ((Real.log (5 / 3) / 2 : ℝ) : ℂ) ^ 2 = 5 / 3 := by
    rw [← Complex.exp_nat_mul, show ((2 : ℕ) : ℂ) * ((Real.log (5 / 3) / 2 : ℝ) : ℂ) = ((Real.log (5 / 3) : ℝ) : ℂ) by push_cast; ring,
      ← Complex.ofReal_exp, Real.exp_log (by norm_num)]
    norm_num
  have h2 : Complex.exp ((Real.log (5 / 3) / 2 : ℝ) : ℂ) * Complex.exp (-((Real.log (5 / 3) / 2 : ℝ) : ℂ)) = 1 := by
    rw [← Complex.exp_add, add_neg_cancel, Complex.exp_zero]
  generalize Complex.exp ((Real.log (5 / 3) / 2 : ℝ) : ℂ) = e at *
  generalize Complex.exp (-((Real.log (5 / 3) / 2 : ℝ) : ℂ)) = d at *
  have h3 : d ^ 2 = 3 / 5 := by
    have : e ^ 2 * d ^ 2 = 1 := by rw [← mul_pow, h2, one_pow]
    rw [h1] at this
    linear_combination (3 / 5) * this
  linear_combination (2 - 17 / 4) * h1 + (2 + 17 / 4) * h3

/-- **C136** The exception is needed: here a walker becomes orthogonal to the trial wave function in two steps, with fields up-down and then down-up. -/
theorem node_met (qr : QR 2) (hqr : QRSpec qr) :
    (([some (![1, 0], 0), some (![0, 1], 0)] : List (FreeOp 2)).foldl (freeOp (par knot 1) qr upper) (start upper)).ot = 0 := by
  have ru : FullRank (up upper) := by
    rw [up_upper, FullRank, Matrix.det_fin_one]
    simp [Matrix.mul_apply, Fin.sum_univ_two]
  have rd : FullRank (dn upper) := by
    rw [FullRank, Matrix.det_fin_zero]
    exact one_ne_zero
  obtain ⟨h1, h2⟩ := free_run (par knot 1) qr hqr upper (spin_forward_det knot 1) [some (![1, 0], 0), some (![0, 1], 0)] (start upper) ru rd rfl rfl rfl
  obtain ⟨u1, u2⟩ := free_unit (p := par knot 1) (fun _ => one_ne_zero) qr upper [some (![1, 0], 0), some (![0, 1], 0)] (start upper) one_pos (by simp [start])
  have h3 := h1 upper
  rw [← h2] at h3
  have h4 : overlap upper (join (opsMatrix (par knot 1) 0 [some (![1, 0], 0), some (![0, 1], 0)] * up (start upper).phi)
      (opsMatrix (par knot 1) 1 [some (![1, 0], 0), some (![0, 1], 0)] * dn (start upper).phi)) = 0 := by
    show overlap upper (join (opsMatrix (par knot 1) 0 [some (![1, 0], 0), some (![0, 1], 0)] * up upper)
      (opsMatrix (par knot 1) 1 [some (![1, 0], 0), some (![0, 1], 0)] * dn upper)) = 0
    obtain ⟨a, b, hab, hB⟩ := knot_hop 0
    have ha : ∀ x, (par knot 1).auxf x 0 = if x = 0 then 8 / 5 else 2 / 5 := fun x => pair_aux x 0
    rw [overlap, up_join, opsMatrix, opsMatrix, opsMatrix, Matrix.one_mul, forwardMatrix, forwardMatrix, hB, up_upper, diag2, diag2, ha, ha, ha, ha]
    refine mul_eq_zero_of_left ?_ _
    rw [Matrix.det_fin_one]
    simp [Matrix.mul_apply, Fin.sum_univ_two]
    linear_combination (8 / 25) * (a - b) ^ 2 * hab
  rw [h4, mul_zero] at h3
  have hw : (((([some (![1, 0], 0), some (![0, 1], 0)] : List (FreeOp 2)).foldl (freeOp (par knot 1) qr upper) (start upper)).weight : ℝ) : ℂ) ≠ 0 :=
    Complex.ofReal_ne_zero.2 u1.ne'
  have hp : (([some (![1, 0], 0), some (![0, 1], 0)] : List (FreeOp 2)).foldl (freeOp (par knot 1) qr upper) (start upper)).phase ≠ 0 := by
    intro h0
    rw [h0, norm_zero] at u2
    exact zero_ne_one u2
  exact (mul_eq_zero.1 h3).resolve_left (mul_ne_zero hw hp)

/-- The time step one belongs to every set of exceptions of this repulsive model. -/
theorem node_excluded : 0 < knot.U ∧ FullRank (up upper) ∧ FullRank (dn upper) ∧ ∀ Z : Set ℝ, (∀ dt, 0 ≤ dt → dt ∉ Z → ∀ qr : QR 2, QRSpec qr →
    ∀ ops : List (FreeOp 2), (ops.foldl (freeOp (par knot dt) qr upper) (start upper)).ot ≠ 0) → (1 : ℝ) ∈ Z := by
  refine ⟨mul_pos two_pos (Real.log_pos (by norm_num)), ?_, ?_, fun Z hZ => by_contra fun h => hZ 1 zero_le_one h (someQR 2) (someQR_spec 2) _
    (node_met (someQR 2) (someQR_spec 2))⟩
  · rw [up_upper, FullRank, Matrix.det_fin_one]
    simp [Matrix.mul_apply, Fin.sum_univ_two]
  · rw [FullRank, Matrix.det_fin_zero]
    exact one_ne_zero

end Verif.HubHalf
