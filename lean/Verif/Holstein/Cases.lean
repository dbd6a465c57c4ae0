import Verif.Holstein.Permuted
import Verif.Holstein.Dmc
import Verif.Holstein.Metropolis

/-!
# C95-C97: cases that meet the hypotheses
-/

namespace Verif.Holstein

open Matrix MeasureTheory Filter Topology
open Verif.Energy (ovl oneBody)

theorem filled_ovl : ovl filled.up filled.up = 1 := by simp [ovl, filled]

theorem filled_ovl_dn : ovl filled.dn filled.dn = 1 := by simp [ovl]

/-- `walkerEnergy_eq_partial` on two coherent states; the energy is not zero. -/
example : mixed oneSite (fun _ => 1) (fun _ => filled) shifts filled (fun _ => 1) /
      trialOn oneSite (fun _ => 1) (fun _ => filled) shifts filled (fun _ => 1) - 1 / 2 * oneSite.w * (1 : ℕ) =
    ((1 / 2 / (Real.exp (-(1 / 2)) + 1) : ℝ) : ℂ) := by
  rw [← walkerEnergy_eq_partial _ _ _ _ _ _ (fun _ => by rw [filled_ovl]; exact one_ne_zero)
    (fun _ => by rw [filled_ovl_dn]; exact one_ne_zero) (filled_trial _), filled_energy]
  norm_num

/-- `several_gradient_partial` on two states with real coefficients. -/
example : ∃ t : Several 1 2, (∀ k, star (t.coeff k) = t.coeff k) ∧ t.value (fun _ => 0) ≠ 0 ∧ t.shift 0 ≠ t.shift 1 := by
  refine ⟨asSeveral oneSite (fun _ => 1) (fun _ => filled) shifts filled, fun k => star_one _, ?_, ?_⟩
  · rw [asSeveral_value]
    exact filled_trial _
  · intro h
    have := congrFun h 0
    norm_num [asSeveral, shifts] at this

/-- `meanAfter_limit` on two sites with a shifted trial and a test function of two coherent states. -/
example : Tendsto (fun N : ℕ => meanAfter (⟨1, 1, ![1, 2]⟩ : Osc 2) (1 / N) (comb 1 1 ![1, -2] ![![0, 1], ![3, 1]]) N ⟨![0, 1], 2, 3⟩) atTop
    (𝓝 (2 * evolve (⟨1, 1, ![1, 2]⟩ : Osc 2) ![1, -2] ![![0, 1], ![3, 1]] 1 ![0, 1] / 3)) := by
  have h := meanAfter_limit (⟨1, 1, ![1, 2]⟩ : Osc 2) one_pos 1 zero_le_one ![1, -2] ![![0, 1], ![3, 1]] ⟨![0, 1], 2, 3⟩
  simpa using h

/-- `metropolis_invariant` for the probability that the first coordinate is positive. -/
example : ∫ X, (∫ χ, (∫ u in (0 : ℝ)..1, (if 0 < metropolis (⟨1, 1, ![1, 2]⟩ : Osc 2) χ u X 0 then (1 : ℝ) else 0)) ∂normals 2) *
      (⟨1, 1, ![1, 2]⟩ : Osc 2).value X ^ 2 =
    ∫ X : Fin 2 → ℝ, (if 0 < X 0 then (1 : ℝ) else 0) * (⟨1, 1, ![1, 2]⟩ : Osc 2).value X ^ 2 := by
  refine metropolis_invariant (⟨1, 1, ![1, 2]⟩ : Osc 2) (by norm_num) (fun X => if 0 < X 0 then (1 : ℝ) else 0) ?_ 1 ?_
  · exact Measurable.ite (measurableSet_lt measurable_const (measurable_pi_apply 0)) measurable_const measurable_const
  · intro X
    split_ifs <;> norm_num

/-- The norm of a sum of states with positive coefficients and overlaps. -/
theorem cohNorm_ne {n K na nb : Nat} [NeZero K] (y : Sys n) (ha : 0 < y.m * y.w) (c : Fin K → ℝ) (hc : ∀ k, 0 < c k) (d : Fin K → Det n na nb)
    (s : Fin K → Fin n → ℝ) (o : Fin K → Fin K → ℝ) (ho : ∀ k l, 0 < o k l)
    (h : ∀ k l, ovl (d k).up (d l).up * ovl (d k).dn (d l).dn = o k l) : cohNorm y (fun k => c k) d s ≠ 0 := by
  have : cohNorm y (fun k => (c k : ℂ)) d s = ((∑ k, ∑ l, c k * c l * (o k l *
      (znorm n (y.m * y.w / 2) * cohOvl (y.m * y.w / 2) (s k) (s l))) : ℝ) : ℂ) := by
    rw [cohNorm, Complex.ofReal_sum]
    refine Finset.sum_congr rfl fun k _ => ?_
    rw [Complex.ofReal_sum]
    refine Finset.sum_congr rfl fun l _ => ?_
    rw [h, gprod_overlap, show star (c k : ℂ) = c k from Complex.conj_ofReal _]
    push_cast
    ring
  rw [this]
  refine Complex.ofReal_ne_zero.mpr (ne_of_gt ?_)
  refine Finset.sum_pos (fun k _ => Finset.sum_pos (fun l _ => ?_) ⟨0, Finset.mem_univ _⟩) ⟨0, Finset.mem_univ _⟩
  have h1 := znorm_pos (n := n) (y.m * y.w / 2) (by linarith)
  have h2 : 0 < cohOvl (y.m * y.w / 2) (s k) (s l) := Finset.prod_pos fun i _ => Real.exp_pos _
  have h3 := ho k l
  have h4 := hc k
  have h5 := hc l
  positivity

/-- `energySeveral_eq_partial` on two coherent states. -/
example : energySeveral oneSite (fun k : Fin 2 => ((![1, 2] k : ℝ) : ℂ)) (fun _ => filled) shifts =
    cohH oneSite (fun k : Fin 2 => ((![1, 2] k : ℝ) : ℂ)) (fun _ => filled) shifts /
      cohNorm oneSite (fun k : Fin 2 => ((![1, 2] k : ℝ) : ℂ)) (fun _ => filled) shifts - 1 / 2 * oneSite.w * (1 : ℕ) := by
  refine energySeveral_eq_partial oneSite (by norm_num [oneSite]) (by norm_num [oneSite]) (fun σ => by ext; simp [oneSite]) _
    (fun k => Complex.conj_ofReal _) _ (fun k => ⟨by ext i j; simp [filled, Matrix.one_apply], by ext i j; exact j.elim0⟩) _
    (fun _ _ => by rw [filled_ovl]; exact one_ne_zero) (fun _ _ => by rw [filled_ovl_dn]; exact one_ne_zero)
    (cohNorm_ne oneSite (by norm_num [oneSite]) ![1, 2] (fun k => by fin_cases k <;> norm_num) _ _ (fun _ _ => 1) (fun _ _ => one_pos)
      fun _ _ => by rw [filled_ovl, filled_ovl_dn]; norm_num)

/-- Two sites. -/
def pairT : Matrix (Fin 2) (Fin 2) ℂ := !![0, -1; -1, 0]

noncomputable def pairSys : Sys 2 := ⟨fun _ => pairT, 4, 1, 1, 1, false⟩

noncomputable def pairPsi : Matrix (Fin 2) (Fin 1) ℂ := Matrix.of fun i _ => ((![3 / 5, 4 / 5] i : ℝ) : ℂ)

noncomputable def pairDet : Det 2 1 1 := ⟨pairPsi, pairPsi⟩

def pairPerms : Fin 2 → Equiv.Perm (Fin 2) := ![1, Equiv.swap 0 1]

theorem pair_ovl (k l : Fin 2) : ovl (pairPsi.submatrix (pairPerms k) id) (pairPsi.submatrix (pairPerms l) id) =
    ((if k = l then 1 else 24 / 25 : ℝ) : ℂ) := by
  rw [ovl, Matrix.det_fin_one, Matrix.mul_apply, Fin.sum_univ_two]
  have h : ∀ r : ℝ, star (r : ℂ) = r := fun r => Complex.conj_ofReal r
  simp only [Matrix.conjTranspose_apply, Matrix.submatrix_apply, pairPsi, Matrix.of_apply, h, ← Complex.ofReal_mul, ← Complex.ofReal_add]
  congr 1
  fin_cases k <;> fin_cases l <;> norm_num [pairPerms]

/-- `energyPermuted_eq_partial` on two sites with interaction and coupling and both permutations, as the code sets them up. -/
example (s : Fin 2 → ℝ) : energyPermuted pairSys (fun _ => ((1 / Real.sqrt 2 : ℝ) : ℂ)) (fun k => pairPerms k) pairDet s =
    cohH pairSys (fun _ => ((1 / Real.sqrt 2 : ℝ) : ℂ)) (fun k => pairDet.perm (pairPerms k)) (fun k i => s (pairPerms k i)) /
      cohNorm pairSys (fun _ => ((1 / Real.sqrt 2 : ℝ) : ℂ)) (fun k => pairDet.perm (pairPerms k)) (fun k i => s (pairPerms k i)) -
        1 / 2 * pairSys.w * (2 : ℕ) := by
  have h00 := pair_ovl 0 0
  rw [show pairPsi.submatrix (pairPerms 0) id = pairPsi from rfl, if_pos rfl, Complex.ofReal_one] at h00
  have hne : ∀ k l, ovl (pairPsi.submatrix (pairPerms k) id) (pairPsi.submatrix (pairPerms l) id) ≠ 0 := fun k l => by
    rw [pair_ovl]
    exact Complex.ofReal_ne_zero.mpr (by split_ifs <;> norm_num)
  have hr : pairPsi.map star = pairPsi := by
    ext i j
    exact Complex.conj_ofReal _
  refine energyPermuted_eq_partial pairSys (by norm_num [pairSys]) (by norm_num [pairSys]) ?_ _ (fun k => Complex.conj_ofReal _) pairPerms ?_
    pairDet ⟨hr, hr⟩ h00 h00 s hne hne ?_
  · intro σ
    ext i j
    fin_cases i <;> fin_cases j <;> simp [pairSys, pairT]
  · intro k σ
    ext i j
    fin_cases k <;> fin_cases i <;> fin_cases j <;> simp [pairSys, pairT, pairPerms]
  · refine cohNorm_ne pairSys (by norm_num [pairSys]) (fun _ => 1 / Real.sqrt 2) (fun k => by positivity) _ _
      (fun k l => (if k = l then 1 else 24 / 25) * (if k = l then 1 else 24 / 25)) (fun k l => by split_ifs <;> norm_num) ?_
    intro k l
    simp only [Det.perm, pairDet, pair_ovl, Complex.ofReal_mul]

end Verif.Holstein
