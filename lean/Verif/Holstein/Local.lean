import Verif.Holstein.Oscillator

/-!
# C95: the local energy is the mixed estimate of the Hubbard-Holstein Hamiltonian
-/

namespace Verif.Holstein

open Matrix
open Verif.Energy (ovl oneBody)

variable {n K na nb : Nat}

/-- The trial on walkers: `⟨Ψ_T | X, φ⟩` for coherent states with coefficients `c`, determinants `d`, shifts `s`. -/
noncomputable def trialOn (y : Sys n) (c : Fin K → ℂ) (d : Fin K → Det n na nb) (s : Fin K → Fin n → ℝ) (φ : Det n na nb)
    (X : Fin n → ℝ) : ℂ :=
  ∑ k, star (c k) * (ovl (d k).up φ.up * ovl (d k).dn φ.dn) * (gprod (y.m * y.w / 2) (s k) X : ℂ)

/-- `⟨D| h + U ∑ n↑ n↓ − g √(2 m w) ∑ᵢ Xᵢ ρᵢ |φ⟩` for electrons with the phonons at `X`. -/
noncomputable def electrons (y : Sys n) (D φ : Det n na nb) (X : Fin n → ℝ) : ℂ :=
  oneBody (y.T 0) D.up φ.up * ovl D.dn φ.dn + ovl D.up φ.up * oneBody (y.T 1) D.dn φ.dn +
    y.U * ∑ i, oneBody (Matrix.single i i 1) D.up φ.up * oneBody (Matrix.single i i 1) D.dn φ.dn -
    y.g * (Real.sqrt (2 * y.m * y.w) : ℂ) * ∑ i, (X i : ℂ) *
      (oneBody (Matrix.single i i 1) D.up φ.up * ovl D.dn φ.dn + ovl D.up φ.up * oneBody (Matrix.single i i 1) D.dn φ.dn)

/-- `⟨Ψ_T | H | X, φ⟩` for the Hubbard-Holstein Hamiltonian. -/
noncomputable def mixed (y : Sys n) (c : Fin K → ℂ) (d : Fin K → Det n na nb) (s : Fin K → Fin n → ℝ) (φ : Det n na nb)
    (X : Fin n → ℝ) : ℂ :=
  phonon y.m y.w (trialOn y c d s φ) X + ∑ k, star (c k) * (gprod (y.m * y.w / 2) (s k) X : ℂ) * electrons y (d k) φ X

theorem single_trace (i : Fin n) (X : Matrix (Fin n) (Fin n) ℂ) : (Matrix.single i i (1 : ℂ) * X).trace = X i i := by
  rw [Matrix.trace, Finset.sum_eq_single i]
  · simp [Matrix.single_mul_apply_same]
  · intro j _ hj
    rw [Matrix.diag_apply, Matrix.single_mul_apply_of_ne _ _ _ _ _ hj]
  · simp

theorem walkerG_eq (d : Fin K → Det n na nb) (φ : Det n na nb) (k : Fin K) :
    walkerG d φ k = ![(Slater.gabMod (d k).up φ.up).1, (Slater.gabMod (d k).dn φ.dn).1] := by
  rw [walkerG, Slater.gabMod_eq, Slater.gabMod_eq, Slater.gab, Slater.gab, Matrix.mul_assoc, Matrix.mul_assoc]

/-- The electrons' part of the local energy. -/
theorem electrons_eq (y : Sys n) (d : Fin K → Det n na nb) (φ : Det n na nb) (X : Fin n → ℝ) (k : Fin K)
    (hu : ovl (d k).up φ.up ≠ 0) (hd : ovl (d k).dn φ.dn ≠ 0) :
    electrons y (d k) φ X = ((Energy.localHubbard y.T y.U y.symmetric (walkerG d φ k)).1 +
      -y.g * (Real.sqrt (y.m * y.w * 2) : ℂ) * ∑ i, (walkerG d φ k 0 i i + walkerG d φ k 1 i i) * X i) *
        (ovl (d k).up φ.up * ovl (d k).dn φ.dn) := by
  rw [add_mul, walkerG_eq, Energy.localHubbard_expectation y.T y.U _ _ _ _ hu hd, electrons, sub_eq_add_neg]
  congr 1
  simp only [Energy.oneBody_eq _ _ _ hu, Energy.oneBody_eq _ _ _ hd, single_trace, Matrix.cons_val_zero, Matrix.cons_val_one,
    Slater.gabMod_eq, Matrix.transpose_apply]
  rw [← neg_mul, ← neg_mul, mul_assoc, mul_assoc, mul_assoc, mul_assoc, show 2 * (y.m * y.w) = y.m * y.w * 2 by ring, Finset.sum_mul]
  congr 2
  exact Finset.sum_congr rfl fun i _ => by ring

/-- The trial as the sum used by the phonon steps. -/
noncomputable def asSeveral (y : Sys n) (c : Fin K → ℂ) (d : Fin K → Det n na nb) (s : Fin K → Fin n → ℝ) (φ : Det n na nb) :
    Several n K := ⟨y.m, y.w, c, s, fun k => ovl (d k).up φ.up * ovl (d k).dn φ.dn⟩

theorem asSeveral_value (y : Sys n) (c : Fin K → ℂ) (d : Fin K → Det n na nb) (s : Fin K → Fin n → ℝ) (φ : Det n na nb) :
    (asSeveral y c d s φ).value = trialOn y c d s φ := by
  funext X
  simp only [Several.value, trialOn]
  exact Finset.sum_congr rfl fun k _ => by rw [value_eq]; simp only [Several.osc, asSeveral]; ring

theorem weights_sum (y : Sys n) (c : Fin K → ℂ) (d : Fin K → Det n na nb) (s : Fin K → Fin n → ℝ) (φ : Det n na nb) (X : Fin n → ℝ) :
    ∑ k, walkerWeights y c d s φ X k = trialOn y c d s φ X := rfl

/-- **C95 (walker's energy)**: with `weights` computed at the walker's coordinates, the local energy of a walker is
`⟨Ψ_T|H|X, φ⟩ / ⟨Ψ_T|X, φ⟩` less the zero-point energy, for any number of coherent states with any coefficients. -/
theorem walkerEnergy_eq_partial (y : Sys n) (c : Fin K → ℂ) (d : Fin K → Det n na nb) (s : Fin K → Fin n → ℝ) (φ : Det n na nb)
    (X : Fin n → ℝ) (hu : ∀ k, ovl (d k).up φ.up ≠ 0) (hd : ∀ k, ovl (d k).dn φ.dn ≠ 0) (h : trialOn y c d s φ X ≠ 0) :
    walkerEnergy y c d s φ X X = mixed y c d s φ X / trialOn y c d s φ X - 1 / 2 * y.w * n := by
  rw [eq_sub_iff_add_eq, eq_div_iff h, walkerEnergy, localSeveral, weights_sum, add_mul, div_mul_cancel₀ _ h]
  have hp := several_energy (asSeveral y c d s φ) X (by rw [asSeveral_value]; exact h)
  rw [asSeveral_value] at hp
  rw [mixed, show phonon y.m y.w (trialOn y c d s φ) X = _ from hp, add_mul]
  have hl : (∑ i, (asSeveral y c d s φ).laplacian X i) * trialOn y c d s φ X =
      ∑ k, walkerWeights y c d s φ X k * ∑ i, walkerLap y s X k i := by
    rw [Finset.sum_mul]
    simp only [Several.laplacian, asSeveral_value, div_mul_cancel₀ _ h, Finset.mul_sum]
    rw [Finset.sum_comm]
    refine Finset.sum_congr rfl fun k _ => Finset.sum_congr rfl fun i _ => ?_
    simp only [walkerWeights, walkerLap, asSeveral, Several.osc, ovl]
    ring
  have hb : (asSeveral y c d s φ).bosonicEnergy X * trialOn y c d s φ X =
      ∑ k, walkerWeights y c d s φ X k * (1 / 2 * y.w ^ 2 * y.m * ∑ i, (X i : ℂ) * X i +
        (-(1 / 2) * (∑ i, walkerLap y s X k i) / y.m - 1 / 2 * y.w * n)) := by
    have : ∀ k, walkerWeights y c d s φ X k * (1 / 2 * y.w ^ 2 * y.m * ∑ i, (X i : ℂ) * X i +
        (-(1 / 2) * (∑ i, walkerLap y s X k i) / y.m - 1 / 2 * y.w * n)) =
        walkerWeights y c d s φ X k * (1 / 2 * y.w ^ 2 * y.m * (∑ i, (X i : ℂ) * X i) - 1 / 2 * y.w * n) +
        -(1 / 2) * (walkerWeights y c d s φ X k * ∑ i, walkerLap y s X k i) / y.m := fun k => by ring
    simp only [this]
    rw [Finset.sum_add_distrib, ← Finset.sum_mul, weights_sum, ← Finset.sum_div, ← Finset.mul_sum, ← hl]
    simp only [Several.bosonicEnergy, asSeveral]
    ring
  rw [hb]
  have he : ∀ k, star (c k) * (gprod (y.m * y.w / 2) (s k) X : ℂ) * electrons y (d k) φ X = walkerWeights y c d s φ X k *
      ((Energy.localHubbard y.T y.U y.symmetric (walkerG d φ k)).1 +
      -y.g * (Real.sqrt (y.m * y.w * 2) : ℂ) * ∑ i, (walkerG d φ k 0 i i + walkerG d φ k 1 i i) * X i) := by
    intro k
    rw [electrons_eq y d φ X k (hu k) (hd k), walkerWeights, value_eq]
    simp only [ovl]
    ring
  simp only [he]
  rw [add_right_comm, ← Finset.sum_add_distrib]
  congr 1
  · refine Finset.sum_congr rfl fun k _ => ?_
    simp only [localHH]
    ring

/-- One electron on one site, two coherent states. -/
noncomputable def oneSite : Sys 1 := ⟨fun _ => 0, 0, 0, 1, 1, false⟩

def filled : Det 1 1 0 := ⟨1, 0⟩

def shifts : Fin 2 → Fin 1 → ℝ := ![fun _ => 0, fun _ => 1]

theorem filled_weight (X : Fin 1 → ℝ) (k : Fin 2) : walkerWeights oneSite (fun _ => 1) (fun _ => filled) shifts filled X k =
    (Real.exp (-(1 / 2) * (X 0 - shifts k 0) * (X 0 - shifts k 0)) : ℂ) := by
  simp [walkerWeights, oneSite, filled, Osc.value]

theorem filled_energy (Xw X : Fin 1 → ℝ) : walkerEnergy oneSite (fun _ => 1) (fun _ => filled) shifts filled Xw X =
    ((Real.exp (-(1 / 2) * (Xw 0 - 1) * (Xw 0 - 1)) * (X 0 - 1 / 2) /
      (Real.exp (-(1 / 2) * (Xw 0 - 0) * (Xw 0 - 0)) + Real.exp (-(1 / 2) * (Xw 0 - 1) * (Xw 0 - 1))) : ℝ) : ℂ) := by
  have h0 : (localHH oneSite (walkerG (fun _ : Fin 2 => filled) filled 0) X (walkerLap oneSite shifts X 0)).1 = 0 := by
    simp only [localHH, walkerLap, Osc.laplacian, oneSite, Energy.localHubbard, Energy.dot2, shifts]
    simp
    ring
  have h1 : (localHH oneSite (walkerG (fun _ : Fin 2 => filled) filled 1) X (walkerLap oneSite shifts X 1)).1 = X 0 - 1 / 2 := by
    simp only [localHH, walkerLap, Osc.laplacian, oneSite, Energy.localHubbard, Energy.dot2, shifts]
    simp
    ring
  rw [walkerEnergy, localSeveral, Fin.sum_univ_two, Fin.sum_univ_two, filled_weight, filled_weight, h0, h1, mul_zero, zero_add]
  simp only [shifts, Matrix.cons_val_zero, Matrix.cons_val_one]
  push_cast
  rfl

theorem filled_trial (X : Fin 1 → ℝ) : trialOn oneSite (fun _ => 1) (fun _ => filled) shifts filled X ≠ 0 := by
  rw [← weights_sum, Fin.sum_univ_two, filled_weight, filled_weight, ← Complex.ofReal_add]
  exact_mod_cast (add_pos (Real.exp_pos _) (Real.exp_pos _)).ne'

/-- **C95 fails** after a phonon step: `weights` still belongs to the old coordinates, and the energy is not the mixed estimate. -/
theorem stale_wrong : ∃ (y : Sys 1) (c : Fin 2 → ℂ) (d : Fin 2 → Det 1 1 0) (s : Fin 2 → Fin 1 → ℝ) (φ : Det 1 1 0) (Xw X : Fin 1 → ℝ),
    (∀ k, ovl (d k).up φ.up ≠ 0) ∧ (∀ k, ovl (d k).dn φ.dn ≠ 0) ∧ trialOn y c d s φ X ≠ 0 ∧ trialOn y c d s φ Xw ≠ 0 ∧
      walkerEnergy y c d s φ Xw X ≠ mixed y c d s φ X / trialOn y c d s φ X - 1 / 2 * y.w * (1 : ℕ) := by
  have hu : ovl filled.up filled.up ≠ 0 := by simp [ovl, filled]
  have hd : ovl filled.dn filled.dn ≠ 0 := by simp [ovl]
  refine ⟨oneSite, fun _ => 1, fun _ => filled, shifts, filled, fun _ => 0, fun _ => 1, fun _ => hu, fun _ => hd, filled_trial _,
    filled_trial _, ?_⟩
  rw [← walkerEnergy_eq_partial _ _ _ _ _ _ (fun _ => hu) (fun _ => hd) (filled_trial _), filled_energy, filled_energy]
  intro h
  have h := Complex.ofReal_injective h
  norm_num at h
  have h1 : Real.exp (-1 / 2) < 1 := Real.exp_lt_one_iff.mpr (by norm_num)
  have h2 := Real.exp_pos (-1 / 2)
  rw [div_eq_div_iff (by positivity) (by positivity)] at h
  nlinarith

end Verif.Holstein
