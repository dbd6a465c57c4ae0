import Verif.Slater.Hirsch
import Mathlib.Analysis.Normed.Algebra.MatrixExponential

/-!
# Auxiliary factors of thermal discrete propagation: C30 (thermal part) and C67

Model of `ThermalDiscrete.__init__` and `construct_one_body_propagator`
(`pauxy/thermal_propagation/hubbard.py` 25-87).  The matrix exponential of scipy is Mathlib's.
-/

namespace Verif.Hirsch

open Matrix

variable {nb : Nat}

/-- `self.auxf` before the chemical potential factor, lines 25-39; `γ` is `self.gamma`. -/
noncomputable def thermalAux0 (charge symmetric : Bool) (dt U : ℝ) (γ : ℂ) (xi s : Fin 2) : ℂ :=
  (if charge then (if xi = 0 then Complex.exp γ else Complex.exp (-γ))
    else (if xi = s then Complex.exp γ else Complex.exp (-γ))) *
  (if symmetric then 1 else Complex.exp (-(dt * U / 2)))

/-- `self.aux_wfac`, lines 30-36. -/
noncomputable def thermalWfac (charge : Bool) (dt U : ℝ) (γ : ℂ) (xi : Fin 2) : ℂ :=
  if charge then chargeWfac dt U γ xi else 1

/-- `self.gamma` satisfies this (lines 26, 33). -/
def IsThermalGamma (charge : Bool) (dt U : ℝ) (γ : ℂ) : Prop :=
  Complex.cosh γ = if charge then Complex.exp (-(dt * U / 2)) else Complex.exp (dt * U / 2)

/-- `sign` (lines 41, 85). -/
def convSign (alt : Bool) : ℝ := if alt then 1 else -1

/-- `self.dmu` (line 42). -/
def dmu (alt : Bool) (mu muT : ℝ) : ℝ := convSign alt * (mu - muT)

/-- `self.auxf` (line 43). -/
noncomputable def thermalAux (charge symmetric alt : Bool) (dt U mu muT : ℝ) (γ : ℂ) (xi s : Fin 2) : ℂ :=
  thermalAux0 charge symmetric dt U γ xi s * Complex.exp (-(dt * dmu alt mu muT))

open Classical in
/-- `self._mu` (lines 44-49). -/
noncomputable def usedMu (alt : Bool) (mu muT : ℝ) : ℝ :=
  if (1e-16 : ℝ) < |dmu alt mu muT| then muT else mu

/-- `self.BH1` for one spin (lines 83-87). -/
noncomputable def thermalBH1 (alt : Bool) (dt mu muT : ℝ) (H1 : Matrix (Fin nb) (Fin nb) ℂ) :
    Matrix (Fin nb) (Fin nb) ℂ :=
  NormedSpace.exp (-(dt : ℂ) • (H1 + ((convSign alt * usedMu alt mu muT : ℝ) : ℂ) • 1))

/-- The propagator of one slice for given fields (lines 132-141): `BV` times `BH1`. -/
noncomputable def thermalSlice (charge symmetric alt : Bool) (dt U mu muT : ℝ) (γ : ℂ)
    (H1 : Matrix (Fin nb) (Fin nb) ℂ) (f : Fin nb → Fin 2) (s : Fin 2) : Matrix (Fin nb) (Fin nb) ℂ :=
  diagonal (fun i => thermalAux charge symmetric alt dt U mu muT γ (f i) s) *
    thermalBH1 alt dt mu muT H1

/-- Energy of a site with occupations `n0`, `n1` in the Hubbard interaction, in the form symmetric
under particle-hole exchange (up to a constant) or the plain one. -/
noncomputable def siteEnergy (symmetric : Bool) (U : ℝ) (n0 n1 : Nat) : ℝ :=
  if symmetric then U * n0 * n1 - U / 2 * (n0 + n1) else U * n0 * n1

/-- **C30** (thermal part) Averaging the factors of the two fields of a site, with the scalar
factor of the field, gives the two-body factor for every occupation, for both decompositions and
both forms of the interaction. -/
theorem thermal_hs (charge symmetric : Bool) (dt U : ℝ) (γ : ℂ) (h : IsThermalGamma charge dt U γ)
    (n0 n1 : Fin 2) :
    (1 / 2) * ∑ xi : Fin 2, thermalWfac charge dt U γ xi *
      (thermalAux0 charge symmetric dt U γ xi 0 ^ (n0 : Nat) *
        thermalAux0 charge symmetric dt U γ xi 1 ^ (n1 : Nat)) =
      Complex.exp (-(dt * siteEnergy symmetric U n0 n1)) := by
  have hg : Complex.exp γ * Complex.exp (-γ) = 1 := by rw [← Complex.exp_add]; simp
  have he := exp_half ((dt : ℂ) * U)
  have hdu : Complex.exp (-(dt * U : ℂ)) =
      Complex.exp (-(dt * U / 2)) * Complex.exp (-(dt * U / 2)) := (exp_neg_half_sq _).symm
  rw [IsThermalGamma, Complex.cosh] at h
  rw [Fin.sum_univ_two]
  have e1 : Complex.exp (-(dt * siteEnergy symmetric U n0 n1)) =
      Complex.exp (-(dt * U : ℂ)) ^ ((n0 : Nat) * n1) *
        (if symmetric then Complex.exp (dt * U / 2) ^ ((n0 : Nat) + n1) else 1) := by
    rw [← Complex.exp_nat_mul, ← Complex.exp_nat_mul]
    cases symmetric
    · simp [siteEnergy]; congr 1; ring
    · simp only [siteEnergy, if_true]
      rw [← Complex.exp_add]; congr 1; push_cast; ring
  rw [e1, hdu]
  cases charge
  · simp only [thermalWfac, thermalAux0, Bool.false_eq_true, if_false] at h ⊢
    generalize Complex.exp γ = a at *
    generalize Complex.exp (-γ) = b at *
    generalize Complex.exp (dt * U / 2) = d at *
    generalize Complex.exp (-(dt * U / 2)) = c at *
    cases symmetric <;> fin_cases n0 <;> fin_cases n1 <;> simp
    · norm_num
    · linear_combination (c : ℂ) * h + he
    · linear_combination (c : ℂ) * h + he
    · linear_combination c * c * hg
    · norm_num
    · linear_combination h
    · linear_combination h
    · linear_combination hg - (c * d + 1) * he
  · simp only [thermalWfac, thermalAux0, chargeWfac, if_true] at h ⊢
    generalize Complex.exp γ = a at *
    generalize Complex.exp (-γ) = b at *
    generalize Complex.exp (dt * U / 2) = d at *
    generalize Complex.exp (-(dt * U / 2)) = c at *
    cases symmetric <;> fin_cases n0 <;> fin_cases n1 <;> simp
    · linear_combination d * h + he
    · linear_combination c * d * hg + he
    · linear_combination c * d * hg + he
    · linear_combination c * c * d * ((a + b) / 2) * hg + c * c * d * h + c * c * he
    · linear_combination d * h + he
    · linear_combination d * hg
    · linear_combination d * hg
    · linear_combination d * ((a + b) / 2) * hg + d * h + (1 - (c * d + 1)) * he

/-- What the constrained propagation uses for a site (`calculate_overlap_ratio` has no `aux_wfac`,
lines 107-112): the average without the scalar factor. -/
noncomputable def thermalSite (charge symmetric : Bool) (dt U : ℝ) (γ : ℂ) (n0 n1 : Nat) : ℂ :=
  (1 / 2) * ∑ xi : Fin 2, (thermalAux0 charge symmetric dt U γ xi 0 ^ n0 *
    thermalAux0 charge symmetric dt U γ xi 1 ^ n1)

/-- **C67** (part that holds) Spin decomposition: the site factors that the constrained propagation
averages are the two-body factors.  What is missing: the charge decomposition
(`thermal_charge_wrong`). -/
theorem thermal_site_partial (symmetric : Bool) (dt U : ℝ) (γ : ℂ)
    (h : IsThermalGamma false dt U γ) (n0 n1 : Fin 2) :
    thermalSite false symmetric dt U γ n0 n1 = Complex.exp (-(dt * siteEnergy symmetric U n0 n1)) := by
  rw [← thermal_hs false symmetric dt U γ h n0 n1]
  simp [thermalSite, thermalWfac]

/-- **C67** (failure) Charge decomposition: the site factors are those of no Hubbard interaction with
this `U`, whatever constant and chemical potential one allows for. -/
theorem thermal_charge_wrong (symmetric : Bool) (dt U : ℝ) (hU : dt * U ≠ 0) (γ : ℂ)
    (h : IsThermalGamma true dt U γ) :
    ¬ ∃ a b : ℂ, ∀ n0 n1 : Fin 2, thermalSite true symmetric dt U γ n0 n1 =
      a * b ^ ((n0 : Nat) + n1) * Complex.exp (-(dt * U * (n0 : Nat) * (n1 : Nat))) := by
  rintro ⟨a, b, hab⟩
  have h00 := hab 0 0
  have h10 := hab 1 0
  have h11 := hab 1 1
  have hg : Complex.exp γ * Complex.exp (-γ) = 1 := by rw [← Complex.exp_add]; simp
  have he := exp_half ((dt : ℂ) * U)
  have hdu : Complex.exp (-(dt * U : ℂ)) =
      Complex.exp (-(dt * U / 2)) * Complex.exp (-(dt * U / 2)) := (exp_neg_half_sq _).symm
  rw [IsThermalGamma, Complex.cosh, if_pos rfl] at h
  have key : Complex.exp (-(dt * U / 2)) ^ 2 * (Complex.exp (-(dt * U / 2)) ^ 2) =
      2 * Complex.exp (-(dt * U / 2)) ^ 2 - 1 := by
    simp only [thermalSite, thermalAux0, Fin.sum_univ_two, if_true] at h00 h10 h11
    simp at h00 h10 h11
    rw [hdu] at h11
    generalize Complex.exp γ = x at *
    generalize Complex.exp (-γ) = y at *
    generalize Complex.exp (dt * U / 2) = d at *
    generalize hc : Complex.exp (-(dt * U / 2)) = c at *
    have hc0 : c ≠ 0 := by rw [← hc]; exact Complex.exp_ne_zero _
    have a1 : a = 1 := by rw [← h00]; norm_num
    rw [a1, one_mul] at h10 h11
    have hxy : x + y = 2 * c := by linear_combination 2 * h
    have hsq : x * x + y * y = 4 * c ^ 2 - 2 := by linear_combination (x + y + 2 * c) * hxy - 2 * hg
    cases symmetric
    · simp at h10 h11
      have hb : b = c ^ 2 := by linear_combination -h10 + c / 2 * hxy
      rw [hb] at h11
      have : c ^ 2 * (c ^ 2 * c ^ 2 - (2 * c ^ 2 - 1)) = 0 := by
        linear_combination -h11 + c ^ 2 / 2 * hsq
      rcases mul_eq_zero.1 this with h0 | h0
      · exact absurd (pow_eq_zero_iff (by norm_num) |>.1 h0) hc0
      · linear_combination h0
    · simp at h10 h11
      have hb : b = c := by linear_combination -h10 + 1 / 2 * hxy
      rw [hb] at h11
      linear_combination -h11 + 1 / 2 * hsq
  have hq : (Complex.exp (-(dt * U / 2)) ^ 2 - 1) ^ 2 = 0 := by linear_combination key
  have hq' : Complex.exp (-(dt * U : ℂ)) = 1 := by
    have := pow_eq_zero_iff (two_ne_zero) |>.1 hq
    rw [hdu]; linear_combination this
  have : Real.exp (-(dt * U)) = 1 := by
    have h2 : ((Real.exp (-(dt * U)) : ℝ) : ℂ) = 1 := by push_cast; exact hq'
    exact_mod_cast h2
  rw [Real.exp_eq_one_iff] at this
  exact hU (by linarith)

theorem exp_add_smul_one (A : Matrix (Fin nb) (Fin nb) ℂ) (c : ℂ) :
    NormedSpace.exp (A + c • (1 : Matrix (Fin nb) (Fin nb) ℂ)) = Complex.exp c • NormedSpace.exp A := by
  have hc : Commute A (c • (1 : Matrix (Fin nb) (Fin nb) ℂ)) :=
    (Commute.one_right A).smul_right c
  rw [Matrix.exp_add_of_commute _ _ hc]
  have : c • (1 : Matrix (Fin nb) (Fin nb) ℂ) = diagonal fun _ => c := by
    rw [← diagonal_one, ← diagonal_smul]; congr 1; funext i; simp
  rw [this, Matrix.exp_diagonal]
  have : NormedSpace.exp (fun _ : Fin nb => c) = fun _ : Fin nb => Complex.exp c := by
    rw [Pi.exp_def]; funext i; rw [Complex.exp_eq_exp_ℂ]
  rw [this]
  ext i j
  rw [Matrix.mul_diagonal, Matrix.smul_apply, smul_eq_mul, mul_comm]

/-- **C68** The propagator of a slice contains the chemical potential of the system, whatever
chemical potential the trial density matrix has: it is the diagonal matrix of the field factors
times `exp(-dt (H1 ± mu))`.  The two chemical potentials must be equal or differ by more than
`1e-16`. -/
theorem thermalSlice_mu (charge symmetric alt : Bool) (dt U mu muT : ℝ) (γ : ℂ)
    (H1 : Matrix (Fin nb) (Fin nb) ℂ) (f : Fin nb → Fin 2) (s : Fin 2)
    (h : mu = muT ∨ (1e-16 : ℝ) < |mu - muT|) :
    thermalSlice charge symmetric alt dt U mu muT γ H1 f s =
      diagonal (fun i => thermalAux0 charge symmetric dt U γ (f i) s) *
        NormedSpace.exp (-(dt : ℂ) • (H1 + ((if alt then mu else -mu : ℝ) : ℂ) • 1)) := by
  have e : ∀ c : ℂ, NormedSpace.exp (-(dt : ℂ) • (H1 + c • (1 : Matrix (Fin nb) (Fin nb) ℂ))) =
      Complex.exp (-(dt : ℂ) * c) • NormedSpace.exp (-(dt : ℂ) • H1) := fun c => by
    rw [smul_add, smul_smul, exp_add_smul_one]
  rw [thermalSlice, thermalBH1, e, e]
  have hd : diagonal (fun i => thermalAux charge symmetric alt dt U mu muT γ (f i) s) =
      Complex.exp (-(dt * dmu alt mu muT)) •
        diagonal (fun i => thermalAux0 charge symmetric dt U γ (f i) s) := by
    rw [← diagonal_smul]; congr 1; funext i
    rw [thermalAux, Pi.smul_apply, smul_eq_mul, mul_comm]
  rw [hd, Matrix.mul_smul, Matrix.mul_smul, Matrix.smul_mul, smul_smul, ← Complex.exp_add]
  congr 2
  have hs : |dmu alt mu muT| = |mu - muT| := by
    rw [dmu, abs_mul]
    cases alt <;> simp [convSign]
  have hm : convSign alt * usedMu alt mu muT + dmu alt mu muT = convSign alt * mu := by
    rw [usedMu, hs]
    rcases h with h | h
    · rw [dmu, h]; simp
    · rw [if_pos h, dmu]; ring
  have hm' : (((if alt then mu else -mu : ℝ)) : ℂ) = ((convSign alt * mu : ℝ) : ℂ) := by
    cases alt <;> simp [convSign]
  rw [hm', ← hm]
  push_cast
  ring

example : ∃ γ : ℂ, IsThermalGamma false (1 / 20) 4 γ ∧ ∀ n0 n1 : Fin 2,
    thermalSite false true (1 / 20) 4 γ n0 n1 =
      Complex.exp (-((1 / 20 : ℝ) * siteEnergy true 4 n0 n1 : ℂ)) := by
  refine ⟨spinGamma (1 / 20) 4, ?_, fun n0 n1 => thermal_site_partial _ _ _ _ ?_ n0 n1⟩ <;>
  · have := cosh_spinGamma (show (0 : ℝ) ≤ 1 / 20 * 4 by norm_num)
    have h2 : ((Real.cosh (spinGamma (1 / 20) 4) : ℝ) : ℂ) = ((Real.exp (1 / 20 * 4 / 2) : ℝ) : ℂ) := by
      rw [this]
    rw [IsThermalGamma]
    push_cast at h2 ⊢
    exact h2

example : ∃ γ : ℂ, IsThermalGamma true (1 / 20) 4 γ := exists_chargeGamma (1 / 20) 4

end Verif.Hirsch
