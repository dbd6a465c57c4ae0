import Verif.HolStep.Sweep

/-!
# Average of the electron part of a Hubbard-Holstein step: C119
-/

namespace Verif.HolStep

open Matrix Finset
open Verif.Slater (Wfn up dn join overlap)
open Verif.Hirsch (addRow kineticReal)
open Verif.Holstein (Sys Osc)
open Verif.Step (spin spinOp Anti prodState orbs hubOp)
open Verif.Fields (rowStep rows fieldSum meanOver Proc avg stepOp)

variable {np nb nu nd : Nat}

/-! ## The kinetic step -/

/-- The determinant after a kinetic step. -/
noncomputable def kin (o : Mode) (y : Sys nb) (dt : ℝ) (X : Fin nb → ℝ) (φ : Wfn nb nu nd) : Wfn nb nu nd :=
  if o = .sorella then φ else kineticReal (tv y dt X) φ

theorem kin_state (o : Mode) (y : Sys nb) (t : Trial np nb nu nd) (dt : ℝ) (w : Wk np nb nu nd) :
    (kineticIS o y t dt w).phi = kin o y dt w.X w.phi ∧ (kineticIS o y t dt w).X = w.X ∧ Fresh y t (kineticIS o y t dt w) ∧
      (kineticIS o y t dt w).ot = total y t w.X (kin o y dt w.X w.phi) := by
  rw [kineticIS]
  by_cases ho : o = .sorella
  · simp only [ho, if_true, kin]
    obtain ⟨hf, hs⟩ := calc_fresh y t w
    split_ifs
    · exact ⟨rfl, rfl, ⟨⟨hf.1.1, hf.1.2, hf.1.3, hf.1.4⟩, hf.2⟩, hs⟩
    · exact ⟨rfl, rfl, ⟨⟨hf.1.1, hf.1.2, hf.1.3, hf.1.4⟩, hf.2⟩, hs⟩
  · simp only [ho, if_false, kin]
    obtain ⟨hf, hs⟩ := calc_fresh y t { w with phi := kineticReal (tv y dt w.X) w.phi }
    split_ifs
    · exact ⟨rfl, rfl, ⟨⟨hf.1.1, hf.1.2, hf.1.3, hf.1.4⟩, hf.2⟩, hs⟩
    · exact ⟨rfl, rfl, ⟨⟨hf.1.1, hf.1.2, hf.1.3, hf.1.4⟩, hf.2⟩, hs⟩

/-- The factor of the weight: the real part of the ratio of overlaps if positive, otherwise zero. -/
theorem kin_weight (o : Mode) (y : Sys nb) (t : Trial np nb nu nd) (dt : ℝ) (w : Wk np nb nu nd) :
    (kineticIS o y t dt w).weight = w.weight * if |Complex.arg (total y t w.X (kin o y dt w.X w.phi) / w.ot)| < Real.pi / 2 then
      (total y t w.X (kin o y dt w.X w.phi) / w.ot).re else 0 := by
  have key : ∀ z : ℂ, |Complex.arg z| < Real.pi / 2 → ‖z‖ * max 0 (Real.cos (Complex.arg z)) = z.re := by
    intro z hz
    rw [abs_lt] at hz
    rw [max_eq_right (Real.cos_nonneg_of_mem_Icc ⟨by linarith [hz.1], hz.2.le⟩)]
    exact Complex.norm_mul_cos_arg z
  rw [kineticIS]
  by_cases ho : o = .sorella
  · simp only [ho, if_true, kin]
    rw [(calc_fresh y t w).2]
    split_ifs with h
    · rw [key _ h]
    · rw [mul_zero]
  · simp only [ho, if_false, kin]
    rw [(calc_fresh y t { w with phi := kineticReal (tv y dt w.X) w.phi }).2]
    split_ifs with h
    · rw [key _ h]
    · rw [mul_zero]

theorem kin_ratio (o : Mode) (y : Sys nb) (t : Trial np nb nu nd) (dt : ℝ) (w : Wk np nb nu nd) (h0 : w.ot ≠ 0)
    (h : ∃ p : ℝ, 0 < p ∧ total y t w.X (kin o y dt w.X w.phi) = p * w.ot) :
    ((kineticIS o y t dt w).weight : ℂ) / (kineticIS o y t dt w).ot = w.weight / w.ot ∧
      (w.weight ≠ 0 → (kineticIS o y t dt w).weight ≠ 0) := by
  obtain ⟨p, hp, he⟩ := h
  have hr : total y t w.X (kin o y dt w.X w.phi) / w.ot = (p : ℂ) := by rw [he, mul_div_cancel_right₀ _ h0]
  rw [(kin_state o y t dt w).2.2.2, kin_weight, hr, Complex.arg_ofReal_of_nonneg hp.le, abs_zero, if_pos (by positivity),
    Complex.ofReal_re, he]
  have hpc : (p : ℂ) ≠ 0 := Complex.ofReal_ne_zero.2 hp.ne'
  refine ⟨?_, fun hw => mul_ne_zero hw hp.ne'⟩
  push_cast
  field_simp

/-! ## The electron part of a step -/

/-- Along the step no overlap of a state of the trial vanishes and no number that decides a field or multiplies the weight is cut. -/
def StepOk (o : Mode) (y : Sys nb) (dt : ℝ) (t : Trial np nb nu nd) (X : Fin nb → ℝ) (φ : Wfn nb nu nd) (ot : ℂ) : Prop :=
  ot ≠ 0 ∧ Ok t (kin o y (dt / 2) X φ) ∧ (∃ p : ℝ, 0 < p ∧ total y t X (kin o y (dt / 2) X φ) = p * ot) ∧
    Along o y dt t X (fun φ' c => Ok t (kin o y (dt / 2) X φ') ∧ ∃ p : ℝ, 0 < p ∧
      total y t X (kin o y (dt / 2) X φ') = p * (c * total y t X φ')) (List.finRange nb) (kin o y (dt / 2) X φ) 1

/-- The average over the random numbers of weight over overlap times any function of the determinant. -/
theorem electron_average (o : Mode) (y : Sys nb) (dt : ℝ) (t : Trial np nb nu nd) (hc : ∀ k, star (t.coeffs k) = t.coeffs k)
    (w : Wk np nb nu nd) (h : StepOk o y dt t w.X w.phi w.ot) (L : Wfn nb nu nd → ℂ) :
    (meanOver (List.finRange nb) fun rs => (electronStep o y dt t rs w).weight / (electronStep o y dt t rs w).ot *
      L (electronStep o y dt t rs w).phi) =
      w.weight / w.ot * ((1 / 2) ^ nb * ∑ f : Fin nb → Fin 2,
        L (kin o y (dt / 2) w.X (rows (auxf o dt y.U) f (kin o y (dt / 2) w.X w.phi)))) := by
  obtain ⟨h0, hk, hp, hA⟩ := h
  by_cases hw : w.weight = 0
  · have e : ∀ rs, electronStep o y dt t rs w = w := by
      intro rs
      simp only [electronStep, hw, abs_zero, lt_irrefl, if_false]
    simp only [e, hw]
    rw [Fields.meanOver_const]
    simp
  · set w1 := kineticIS o y t (dt / 2) w with hw1
    obtain ⟨k1, k2, k3, k4⟩ := kin_state o y t (dt / 2) w
    rw [← hw1] at k1 k2 k3 k4
    obtain ⟨r1, r2⟩ := kin_ratio o y t (dt / 2) w h0 hp
    rw [← hw1] at r1 r2
    have hT : total y t w.X w1.phi ≠ 0 := by
      rw [k1]
      obtain ⟨p, hp0, he⟩ := hp
      rw [he]
      exact mul_ne_zero (Complex.ofReal_ne_zero.2 hp0.ne') h0
    let F : Wk np nb nu nd → ℂ := fun v =>
      let v' := if 0 < |v.weight| then kineticIS o y t (dt / 2) v else v
      v'.weight / v'.ot * L v'.phi
    have e : ∀ rs, ((electronStep o y dt t rs w).weight / (electronStep o y dt t rs w).ot * L (electronStep o y dt t rs w).phi : ℂ) =
        F ((proc o y dt t).sweep rs (List.finRange nb) w1) := by
      intro rs
      rw [← sweep_eq]
      simp only [electronStep]
      rw [if_pos (abs_pos.2 hw), ← hw1, if_pos (abs_pos.2 (r2 hw))]
    simp only [e]
    rw [Proc.mean_sweep _ (fun s i xi => trunc_nonneg o y dt t s i xi) F _ (List.nodup_finRange nb),
      tree_eq o y dt t hc w.X (fun φ' c => Ok t (kin o y (dt / 2) w.X φ') ∧ ∃ p : ℝ, 0 < p ∧
        total y t w.X (kin o y (dt / 2) w.X φ') = p * (c * total y t w.X φ')) F (fun φ => L (kin o y (dt / 2) w.X φ)) ?_
        (List.finRange nb) w1 k3 (by rw [k1]; exact hk) k2 hT 1 one_ne_zero (by rw [k4, one_mul, k1]) (by rw [k1]; exact hA),
      r1, Fields.fieldSum_eq _ _ _ (List.nodup_finRange nb), k1]
    · simp only [Fields.rowStep_all]
    · intro v hv hvk hvX hvT c hc0 hvo hE
      by_cases hv0 : v.weight = 0
      · simp only [F, hv0, abs_zero, lt_irrefl, if_false]
        simp [hv0]
      · simp only [F]
        rw [if_pos (abs_pos.2 hv0)]
        have hvo0 : v.ot ≠ 0 := by rw [hvo]; exact mul_ne_zero hc0 hvT
        obtain ⟨-, hE2⟩ := hE
        have := kin_ratio o y t (dt / 2) v hvo0 (by rw [hvX, hvo]; exact hE2)
        rw [this.1, (kin_state o y t (dt / 2) v).1, hvX]

/-! ## The decompositions -/

/-- `cosh` of the computed `gamma`. -/
theorem cosh_arccosh (z : ℂ) : Complex.cosh (arccosh z) = z := by
  have hs : ((z * z - 1) ^ (1 / 2 : ℂ)) ^ 2 = z * z - 1 := by
    have := Complex.cpow_nat_inv_pow (z * z - 1) (two_ne_zero)
    simpa using this
  rw [arccosh]
  generalize (z * z - 1) ^ (1 / 2 : ℂ) = s at hs
  have h1 : (z - s) * (z + s) = 1 := by linear_combination -hs
  have h2 : z - s ≠ 0 := left_ne_zero_of_mul_eq_one h1
  rw [Complex.cosh, Complex.exp_neg, Complex.exp_log h2, inv_eq_of_mul_eq_one_right h1]
  ring

theorem spin_avg (dt U : ℝ) (n0 n1 : Fin 2) :
    avg (auxf .spin dt U) n0 n1 = Complex.exp (-(dt * U * (n0 : Nat) * (n1 : Nat))) := by
  have hcc : Complex.exp (gamma .spin dt U) + Complex.exp (-gamma .spin dt U) = 2 * Complex.exp (1 / 2 * dt * U) := by
    rw [← cosh_arccosh (Complex.exp (1 / 2 * dt * U)), Complex.cosh]
    simp only [gamma]
    ring
  have hg : Complex.exp (gamma .spin dt U) * Complex.exp (-gamma .spin dt U) = 1 := by rw [← Complex.exp_add]; simp
  have he : Complex.exp (1 / 2 * dt * U) * Complex.exp (-(1 / 2) * dt * U) = 1 := by rw [← Complex.exp_add]; ring_nf; simp
  have hE : Complex.exp (-(1 / 2) * dt * U) * Complex.exp (-(1 / 2) * dt * U) = Complex.exp (-(dt * U)) := by
    rw [← Complex.exp_add]; congr 1; ring
  have h10 : ¬ (1 : Fin 2) = 0 := by decide
  have h01 : ¬ (0 : Fin 2) = 1 := by decide
  have := Hirsch.hs_algebra (auxf .spin dt U) (fun _ => 1) (Complex.exp (-(dt * U))) (by norm_num)
    (by simp only [auxf, reduceIte, one_mul, if_neg h10]; linear_combination Complex.exp (-(1 / 2) * dt * U) * hcc + 2 * he)
    (by simp only [auxf, reduceIte, one_mul, if_neg h01]; linear_combination Complex.exp (-(1 / 2) * dt * U) * hcc + 2 * he)
    (by simp only [auxf, reduceIte, one_mul, if_neg h01, if_neg h10]; linear_combination 2 * Complex.exp (-(1 / 2) * dt * U) * Complex.exp (-(1 / 2) * dt * U) * hg + 2 * hE) n0 n1
  rw [Hirsch.exp_occ, ← this, avg]
  simp

/-- Without the charge factors the charge decomposition averages to another interaction and a factor for every electron. -/
theorem charge_avg (dt U : ℝ) (n0 n1 : Fin 2) : avg (auxf .charge dt U) n0 n1 =
    Complex.exp (-(dt * U)) ^ ((n0 : Nat) + n1) * if n0 = 1 ∧ n1 = 1 then 2 - Complex.exp (dt * U) else 1 := by
  have hcc : Complex.exp (gamma .charge dt U) + Complex.exp (-gamma .charge dt U) = 2 * Complex.exp (-(1 / 2) * dt * U) := by
    rw [← cosh_arccosh (Complex.exp (-(1 / 2) * dt * U)), Complex.cosh]
    simp only [gamma]
    ring
  have hg : Complex.exp (gamma .charge dt U) * Complex.exp (-gamma .charge dt U) = 1 := by rw [← Complex.exp_add]; simp
  have hE : Complex.exp (-(1 / 2) * dt * U) * Complex.exp (-(1 / 2) * dt * U) = Complex.exp (-(dt * U)) := by
    rw [← Complex.exp_add]; congr 1; ring
  have hEE : Complex.exp (-(dt * U)) * Complex.exp (dt * U) = 1 := by rw [← Complex.exp_add]; simp
  simp only [avg, Fin.sum_univ_two, auxf]
  generalize Complex.exp (gamma .charge dt U) = a at *
  generalize Complex.exp (-gamma .charge dt U) = b at *
  generalize Complex.exp (-(1 / 2) * dt * U) = c at *
  generalize Complex.exp (-(dt * U)) = E at *
  generalize Complex.exp (dt * U) = E' at *
  fin_cases n0 <;> fin_cases n1
  · simp; norm_num
  · simp; linear_combination (1 / 2) * c * hcc + hE
  · simp; linear_combination (1 / 2) * c * hcc + hE
  · simp
    linear_combination ((1 / 2) * c ^ 2 * (a + b + 2 * c)) * hcc - c ^ 2 * hg + (2 * c ^ 2 + 2 * E - 1) * hE + E * hEE

/-! ## C119 -/

/-- The one-body Hamiltonian of the electrons at given coordinates. -/
noncomputable def oneBody (y : Sys nb) (X : Fin nb → ℝ) (s : Fin 2) : Matrix (Fin nb) (Fin nb) ℂ :=
  y.T s - diagonal fun i => ((y.g * Real.sqrt (2 * y.m * y.w) * X i : ℝ) : ℂ)

theorem tv_eq (y : Sys nb) (dt : ℝ) (X : Fin nb → ℝ) : tv y (dt / 2) X = fun s => NormedSpace.exp (-((dt : ℂ) / 2) • oneBody y X s) := by
  funext s
  simp only [tv, oneBody]
  congr 1
  rw [smul_sub, sub_eq_add_neg, ← Matrix.diagonal_smul, Matrix.diagonal_neg]
  congr 2
  · push_cast
    rfl
  · funext i
    simp only [Pi.smul_apply, smul_eq_mul, Pi.neg_apply]
    rw [show y.m * y.w * 2 = 2 * y.m * y.w by ring]
    push_cast
    ring

/-- **C119** Spin decomposition: if no ratio of overlaps vanishes, is negative or is complex along the step, then the average over the
random numbers of weight over overlap times the overlap of the determinant with any antisymmetric wave function is that of the
determinant evolved by half the one-body Hamiltonian at the coordinates of the phonons, the interaction and again half the one-body
Hamiltonian. -/
theorem spin_step (y : Sys nb) (dt : ℝ) (t : Trial np nb nu nd) (hc : ∀ k, star (t.coeffs k) = t.coeffs k)
    (w : Wk np nb nu nd) (h : StepOk .spin y dt t w.X w.phi w.ot) (v : (Fin nu ⊕ Fin nd → Fin nb) → ℂ) (hv : Anti spin v) :
    (meanOver (List.finRange nb) fun rs => (electronStep .spin y dt t rs w).weight / (electronStep .spin y dt t rs w).ot *
      (v ⬝ᵥ prodState (orbs (electronStep .spin y dt t rs w).phi))) =
      w.weight / w.ot * (v ⬝ᵥ ((NormedSpace.exp (-((dt : ℂ) / 2) • spinOp spin (oneBody y w.X)) *
        NormedSpace.exp (-(dt : ℂ) • hubOp (fun _ => 0) (y.U : ℂ) spin) *
        NormedSpace.exp (-((dt : ℂ) / 2) • spinOp spin (oneBody y w.X))) *ᵥ prodState (orbs w.phi))) := by
  rw [electron_average .spin y dt t hc w h fun φ => v ⬝ᵥ prodState (orbs φ)]
  congr 1
  simp only [kin, reduceCtorEq, if_false]
  rw [Fields.field_average, Matrix.dotProduct_mulVec, tv_eq,
    Fields.stepOp_anti (auxf .spin dt y.U) dt y.U (oneBody y w.X) (spin_avg dt y.U) v hv, ← Matrix.dotProduct_mulVec]

/-- Scaling the factors of the fields. -/
theorem stepOp_scale (c : ℂ) (A B : Fin 2 → Fin 2 → ℂ) (hAB : ∀ n0 n1 : Nat, avg A n0 n1 = c ^ (n0 + n1) * avg B n0 n1)
    (K : Fin 2 → Matrix (Fin nb) (Fin nb) ℂ) :
    (stepOp A K : Matrix (Fin nu ⊕ Fin nd → Fin nb) (Fin nu ⊕ Fin nd → Fin nb) ℂ) = c ^ (nu + nd) • stepOp B K := by
  rw [stepOp, stepOp, ← Matrix.smul_mul, ← Matrix.mul_smul, ← Matrix.diagonal_smul]
  congr 3
  funext g
  rw [Pi.smul_apply, smul_eq_mul]
  have hcard : Fintype.card (Fin nu ⊕ Fin nd) = nu + nd := by simp
  rw [← hcard, ← Grand.count_sum (spin : Fin nu ⊕ Fin nd → Fin 2) g, ← prod_pow_eq_pow_sum, ← prod_mul_distrib]
  exact prod_congr rfl fun i _ => hAB _ _

/-- **C119** Charge decomposition: the factors that complete it multiply the weight and the stored overlap, and the kinetic step that
follows divides them out.  The step projects with the interaction `U'` given by `exp(-dt U') = 2 - exp(dt U)`, with a factor
`exp(-dt U)` for every electron. -/
theorem charge_step (y : Sys nb) (dt : ℝ) (t : Trial np nb nu nd) (hc : ∀ k, star (t.coeffs k) = t.coeffs k)
    (w : Wk np nb nu nd) (h : StepOk .charge y dt t w.X w.phi w.ot) (v : (Fin nu ⊕ Fin nd → Fin nb) → ℂ) (hv : Anti spin v)
    (U' : ℂ) (hU : Complex.exp (-(dt * U')) = 2 - Complex.exp (dt * y.U)) :
    (meanOver (List.finRange nb) fun rs => (electronStep .charge y dt t rs w).weight / (electronStep .charge y dt t rs w).ot *
      (v ⬝ᵥ prodState (orbs (electronStep .charge y dt t rs w).phi))) =
      w.weight / w.ot * (Complex.exp (-(dt * y.U)) ^ (nu + nd) *
        (v ⬝ᵥ ((NormedSpace.exp (-((dt : ℂ) / 2) • spinOp spin (oneBody y w.X)) *
        NormedSpace.exp (-(dt : ℂ) • hubOp (fun _ => 0) U' spin) *
        NormedSpace.exp (-((dt : ℂ) / 2) • spinOp spin (oneBody y w.X))) *ᵥ prodState (orbs w.phi)))) := by
  rw [electron_average .charge y dt t hc w h fun φ => v ⬝ᵥ prodState (orbs φ)]
  congr 1
  simp only [kin, reduceCtorEq, if_false]
  have hE : Complex.exp (-(dt * y.U)) ≠ 0 := Complex.exp_ne_zero _
  set B : Fin 2 → Fin 2 → ℂ := fun xi s => (Complex.exp (-(dt * y.U)))⁻¹ * auxf .charge dt y.U xi s with hB
  have hs : ∀ n0 n1 : Nat, avg (auxf .charge dt y.U) n0 n1 = Complex.exp (-(dt * y.U)) ^ (n0 + n1) * avg B n0 n1 := by
    intro n0 n1
    simp only [avg, hB, mul_pow, mul_sum]
    refine sum_congr rfl fun x _ => ?_
    rw [pow_add, inv_pow, inv_pow]
    field_simp
  have hb : ∀ n0 n1 : Fin 2, avg B n0 n1 = Complex.exp (-(dt * U' * (n0 : Nat) * (n1 : Nat))) := by
    intro n0 n1
    rw [Hirsch.exp_occ, hU]
    have h1 := charge_avg dt y.U n0 n1
    rw [hs] at h1
    exact mul_left_cancel₀ (pow_ne_zero _ hE) h1
  rw [Fields.field_average, stepOp_scale _ _ _ hs, Matrix.smul_mulVec, dotProduct_smul, smul_eq_mul, Matrix.dotProduct_mulVec, tv_eq,
    Fields.stepOp_anti B dt U' (oneBody y w.X) hb v hv, ← Matrix.dotProduct_mulVec]

/-- The interaction of the charge decomposition is not the one of the Hamiltonian. -/
theorem charge_other (dt U : ℝ) (h : dt * U ≠ 0) (U' : ℂ) (hU : Complex.exp (-(dt * U')) = 2 - Complex.exp (dt * U)) :
    Complex.exp (-(dt * U')) ≠ Complex.exp (-(dt * U)) := by
  rw [hU]
  intro he
  have h1 : Complex.exp (-(dt * U)) * Complex.exp (dt * U) = 1 := by rw [← Complex.exp_add]; simp
  have h2 : (Complex.exp (dt * U) - 1) ^ 2 = 0 := by
    linear_combination -Complex.exp (dt * U) * he - h1
  have h3 : Complex.exp (dt * U) = 1 := by
    have := pow_eq_zero_iff (two_ne_zero) |>.1 h2
    linear_combination this
  have h4 : Real.exp (dt * U) = 1 := by
    have : ((Real.exp (dt * U) : ℝ) : ℂ) = 1 := by push_cast; exact h3
    exact_mod_cast this
  exact h (Real.exp_eq_one_iff _ |>.1 h4)

end Verif.HolStep
