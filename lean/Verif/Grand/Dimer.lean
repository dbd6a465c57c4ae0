import Verif.Grand.Discrete

/-!
# Runs of the Hubbard dimer

With the spin decomposition no path of the repulsive Hubbard dimer has a vanishing determinant: `DRunOk` is met for
every number of slices.
-/

namespace Verif.Grand

open Matrix Finset
open Verif.Thermal (Mat)
open Verif.Stack (ordered)
open Verif.Hirsch (thermalSlice thermalAux thermalAux0 thermalBH1 IsThermalGamma spinGamma)

/-- Real with entries not negative and positive determinant. -/
def Pos2 (A : Mat 2) : Prop :=
  ∃ R : Matrix (Fin 2) (Fin 2) ℝ, A = Complex.ofRealHom.mapMatrix R ∧ (∀ i j, 0 ≤ R i j) ∧ 0 < R.det

theorem Pos2.one : Pos2 1 := ⟨1, by rw [map_one], fun i j => by rw [Matrix.one_apply]; split_ifs <;> norm_num, by simp⟩

theorem Pos2.mul {A B : Mat 2} (hA : Pos2 A) (hB : Pos2 B) : Pos2 (A * B) := by
  obtain ⟨R, rfl, h1, h2⟩ := hA
  obtain ⟨Q, rfl, h3, h4⟩ := hB
  refine ⟨R * Q, by rw [map_mul], fun i j => ?_, by rw [Matrix.det_mul]; positivity⟩
  rw [Matrix.mul_apply]
  exact sum_nonneg fun k _ => mul_nonneg (h1 _ _) (h3 _ _)

theorem Pos2.pow {A : Mat 2} (hA : Pos2 A) : ∀ k : Nat, Pos2 (A ^ k)
  | 0 => by rw [pow_zero]; exact .one
  | k + 1 => by rw [pow_succ]; exact (hA.pow k).mul hA

theorem Pos2.list : ∀ l : List (Mat 2), (∀ A ∈ l, Pos2 A) → Pos2 l.prod
  | [], _ => .one
  | A :: l, h => by
    rw [List.prod_cons]
    exact (h A (by simp)).mul (Pos2.list l fun B hB => h B (by simp [hB]))

theorem Pos2.det {A : Mat 2} (hA : Pos2 A) : (1 + A).det ≠ 0 := by
  obtain ⟨R, rfl, h1, h2⟩ := hA
  rw [← map_one Complex.ofRealHom.mapMatrix, ← map_add, ← RingHom.map_det]
  have : (1 + R).det ≠ 0 := by
    rw [Matrix.det_fin_two] at h2 ⊢
    have h00 := h1 0 0
    have h11 := h1 1 1
    simp only [Matrix.add_apply, Matrix.one_apply_eq, Matrix.one_apply_ne (zero_ne_one (α := Fin 2)),
      Matrix.one_apply_ne (one_ne_zero (α := Fin 2))]
    nlinarith
  exact fun h => this (Complex.ofRealHom.injective (by rw [h, map_zero]))

theorem Pos2.diagonal {d : Fin 2 → ℝ} (h : ∀ i, 0 < d i) : Pos2 (Matrix.diagonal fun i => (d i : ℂ)) := by
  refine ⟨Matrix.diagonal d, ?_, fun i j => ?_, ?_⟩
  · ext i j
    by_cases hij : i = j
    · subst hij; simp
    · simp [hij]
  · by_cases hij : i = j
    · subst hij; simp [(h i).le]
    · simp [hij]
  · rw [Matrix.det_diagonal]
    exact prod_pos fun i _ => h i

theorem det_exp_pos (R : Matrix (Fin 2) (Fin 2) ℝ) : 0 < (NormedSpace.exp R).det := by
  have e : NormedSpace.exp R = NormedSpace.exp ((1 / 2 : ℝ) • R) * NormedSpace.exp ((1 / 2 : ℝ) • R) := by
    rw [← Matrix.exp_add_of_commute _ _ (Commute.refl _), ← add_smul]
    norm_num
  have hu := Matrix.isUnit_exp ((1 / 2 : ℝ) • R)
  rw [e]
  generalize NormedSpace.exp ((1 / 2 : ℝ) • R) = Q at hu
  rw [Matrix.isUnit_iff_isUnit_det] at hu
  rw [Matrix.det_mul]
  exact mul_self_pos.2 hu.ne_zero

/-- The exponential of a real matrix with entries not negative. -/
theorem Pos2.exp {R : Matrix (Fin 2) (Fin 2) ℝ} (h : ∀ i j, 0 ≤ R i j) : Pos2 (NormedSpace.exp (Complex.ofRealHom.mapMatrix R)) := by
  letI : NormedRing (Matrix (Fin 2) (Fin 2) ℝ) := Matrix.linftyOpNormedRing
  letI : NormedAlgebra ℝ (Matrix (Fin 2) (Fin 2) ℝ) := Matrix.linftyOpNormedAlgebra
  letI : NormedRing (Matrix (Fin 2) (Fin 2) ℂ) := Matrix.linftyOpNormedRing
  letI : NormedAlgebra ℝ (Matrix (Fin 2) (Fin 2) ℂ) := Matrix.linftyOpNormedAlgebra
  have hs := NormedSpace.exp_series_hasSum_exp' (𝕂 := ℝ) R
  refine ⟨NormedSpace.exp R, ?_, fun i j => ?_, ?_⟩
  · have hc : Continuous (Complex.ofRealHom.mapMatrix : Matrix (Fin 2) (Fin 2) ℝ →+* Matrix (Fin 2) (Fin 2) ℂ) := by
      show Continuous fun R : Matrix (Fin 2) (Fin 2) ℝ => R.map Complex.ofReal
      exact continuous_id.matrix_map Complex.continuous_ofReal
    exact (NormedSpace.map_exp_of_mem_ball (𝕂 := ℝ) (Complex.ofRealHom.mapMatrix) hc R
      (by rw [NormedSpace.expSeries_radius_eq_top ℝ (Matrix (Fin 2) (Fin 2) ℝ)]; exact edist_lt_top _ _)).symm
  · have hp : ∀ k : Nat, ∀ i j, 0 ≤ (R ^ k) i j := by
      intro k
      induction k with
      | zero => intro i j; rw [pow_zero, Matrix.one_apply]; split_ifs <;> norm_num
      | succ k ih =>
        intro i j
        rw [pow_succ, Matrix.mul_apply]
        exact sum_nonneg fun l _ => mul_nonneg (ih _ _) (h _ _)
    have he : Continuous fun M : Matrix (Fin 2) (Fin 2) ℝ => M i j := continuous_id.matrix_elem i j
    have h2 := hs.map (Matrix.entryAddMonoidHom ℝ i j) he
    refine h2.nonneg fun k => ?_
    show 0 ≤ (((k.factorial : ℝ))⁻¹ • R ^ k) i j
    rw [Matrix.smul_apply, smul_eq_mul]
    exact mul_nonneg (by positivity) (hp k i j)
  · exact det_exp_pos R

/-- The hopping of the dimer. -/
def dimer (t : ℝ) : Mat 2 := !![0, -(t : ℂ); -(t : ℂ), 0]

theorem dimer_exp {t dt : ℝ} (ht : 0 ≤ t) (hdt : 0 ≤ dt) (c : ℝ) :
    Pos2 (NormedSpace.exp (-(dt : ℂ) • (dimer t + (c : ℂ) • 1))) := by
  have e : -(dt : ℂ) • (dimer t + (c : ℂ) • 1) = Complex.ofRealHom.mapMatrix (!![0, dt * t; dt * t, 0]) +
      (-(dt * c : ℝ) : ℂ) • 1 := by
    ext i j
    fin_cases i <;> fin_cases j <;> simp [dimer]
  rw [e, Hirsch.exp_add_smul_one]
  have h1 : Pos2 (NormedSpace.exp (Complex.ofRealHom.mapMatrix (!![0, dt * t; dt * t, 0]))) := by
    refine Pos2.exp fun i j => ?_
    have := mul_nonneg hdt ht
    fin_cases i <;> fin_cases j <;> simp [this]
  have h2 : Pos2 (Matrix.diagonal fun _ => ((Real.exp (-(dt * c)) : ℝ) : ℂ)) := Pos2.diagonal fun _ => Real.exp_pos _
  have h3 := h2.mul h1
  have e2 : (Matrix.diagonal fun _ => ((Real.exp (-(dt * c)) : ℝ) : ℂ) : Mat 2) * NormedSpace.exp
      (Complex.ofRealHom.mapMatrix (!![0, dt * t; dt * t, 0])) =
      Complex.exp (-(dt * c : ℝ) : ℂ) • NormedSpace.exp (Complex.ofRealHom.mapMatrix (!![0, dt * t; dt * t, 0])) := by
    ext i j
    rw [Matrix.diagonal_mul, Matrix.smul_apply, smul_eq_mul, Complex.ofReal_exp, Complex.ofReal_neg]
  rwa [e2] at h3

/-- **C84 is not empty**: for the dimer with any hopping, chemical potential, form of the interaction and sign
convention, every number of slices has a run with a one-body trial density matrix: spin decomposition for repulsion,
charge decomposition for attraction. -/
theorem dimer_run {t U : ℝ} (ht : 0 ≤ t) (charge symmetric alt : Bool) (hU : if charge then U ≤ 0 else 0 ≤ U) (mu : ℝ)
    {β : ℝ} (hβ : 0 ≤ β) (ss nb : Nat) (hs : 0 < ss) (hb : 0 < nb) :
    ∃ BT p, DRunOk ⟨charge, symmetric, alt, U, mu, fun _ => dimer t⟩ β (ss * nb) ss BT p := by
  set dt := β / (ss * nb : Nat) with hdt
  have hdt0 : 0 ≤ dt := by positivity
  set BT : Mat 2 := NormedSpace.exp (-(dt : ℂ) • (dimer t + (mu : ℂ) • 1))
  have hBT : Pos2 BT := dimer_exp ht hdt0 mu
  set γ := spinGamma dt |U|
  refine ⟨fun _ => BT, ⟨⟨charge, symmetric, alt, U, mu, fun _ => dimer t⟩, dt, mu, γ, fun _ => BT⁻¹, false,
    Thermal.someQRP⟩, Nat.mul_pos hs hb, ⟨nb, rfl⟩, rfl, rfl, ?_, Or.inl rfl, ?_, ?_⟩
  · have h1 := Hirsch.cosh_spinGamma (mul_nonneg hdt0 (abs_nonneg U))
    have h2 : ((Real.cosh γ : ℝ) : ℂ) = ((Real.exp (dt * |U| / 2) : ℝ) : ℂ) := by rw [h1]
    rw [IsThermalGamma]
    cases charge
    · have hU' : 0 ≤ U := by simpa using hU
      rw [abs_of_nonneg hU'] at h2
      push_cast at h2 ⊢
      exact h2
    · have hU' : U ≤ 0 := by simpa using hU
      rw [abs_of_nonpos hU', mul_neg, neg_div] at h2
      push_cast at h2 ⊢
      exact h2
  · refine ⟨Thermal.someQRP_spec, hs, fun s => ?_, fun s hd => ?_, fun s hd => ?_, fun hd => ?_⟩
    · exact Matrix.mul_nonsing_inv _ (isUnit_iff_ne_zero.2 (Step.exp_det_ne_zero _))
    · simp [DPar.setup] at hd
    · simp [DPar.setup] at hd
    · simp [DPar.setup] at hd
  · intro xs _ s
    refine Pos2.det ((hBT.pow _).mul ?_)
    rw [mul_one]
    refine Pos2.list _ fun A hA => ?_
    obtain ⟨x, -, rfl⟩ := List.mem_map.1 (List.mem_reverse.1 hA)
    rw [discSlice, Hirsch.thermalSlice_mu _ _ _ _ _ _ _ _ _ _ _ (Or.inl rfl)]
    refine Pos2.mul ?_ (dimer_exp ht hdt0 _)
    have e : (fun i => thermalAux0 charge symmetric dt U (γ : ℂ) (x i) s) = fun i =>
        (((if (if charge then x i = 0 else x i = s) then Real.exp γ else Real.exp (-γ)) *
          (if symmetric then 1 else Real.exp (-(dt * U / 2))) : ℝ) : ℂ) := by
      funext i
      rw [thermalAux0]
      push_cast
      cases charge <;> simp <;> split_ifs <;> simp
    simp only [e]
    refine Pos2.diagonal fun i => ?_
    split_ifs <;> positivity

end Verif.Grand
