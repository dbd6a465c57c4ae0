import Verif.Ghf.Model

/-!
# Generalised Hartree-Fock: C125

Overlaps, energies, sampling of the fields and back propagation.
-/

namespace Verif.Ghf

open Matrix Finset
open Verif.Slater (QR QRSpec FullRank linReortho gab)
open Verif.Energy (ovl oneBody twoBody oneBody_eq twoBody_eq)

variable {m n d : Nat}

/-! ## Independent definitions -/

/-- The operator that counts electrons in spin orbital `a`. -/
def number (a : Fin (m + m)) : Big m := Matrix.single a a 1

/-- `⟨A| H |B⟩` for the Hubbard Hamiltonian `∑ T(i) + U ∑_x n_{x,up} n_{x,down}` between determinants of spin orbitals. -/
noncomputable def hub (T : Big m) (U : ℂ) (A B : Det m n) : ℂ :=
  oneBody T A B + U * ∑ x : Fin m, twoBody (number (up x)) (number (dn x)) A B

/-- `⟨Ψ|φ⟩` for the trial `∑ conj(c_k) |ψ_k⟩`. -/
noncomputable def bra (t : Trial m n d) (phi : Det m n) : ℂ := ∑ k, t.coeffs k * ovl (t.psi k) phi

/-! ## Green's functions -/

theorem up_ne_dn (x y : Fin m) : (up x : Fin (m + m)) ≠ dn y := by
  intro h
  have := congrArg Fin.val h
  simp [up, dn] at this
  have h1 := x.isLt
  omega

theorem trace_number (a : Fin (m + m)) (G : Big m) : (number a * G).trace = G a a := by
  rw [number, Matrix.trace_single_mul]
  simp

theorem trace_number_two (a b : Fin (m + m)) (G : Big m) : (number a * G * number b * G).trace = G a b * G b a := by
  rw [number, number, Matrix.mul_assoc, Matrix.mul_assoc, Matrix.trace_single_mul, one_smul, Matrix.mul_apply, Finset.sum_eq_single b]
  · rw [Matrix.single_mul_apply_same, one_mul]
  · intro c _ hc
    rw [Matrix.single_mul_apply_of_ne (h := hc), mul_zero]
  · simp

/-- The energy of a pair of determinants in terms of the Green's function. -/
theorem hub_eq (T : Big m) (U : ℂ) (A B : Det m n) (h : ovl A B ≠ 0) : hub T U A B = ovl A B *
    ((T * gab A B).trace + U * ∑ x : Fin m, (gab A B (up x) (up x) * gab A B (dn x) (dn x) - gab A B (up x) (dn x) * gab A B (dn x) (up x))) := by
  rw [hub, oneBody_eq T A B h]
  simp only [twoBody_eq _ _ A B h, trace_number, trace_number_two]
  rw [← mul_sum]
  ring

theorem one_div_det_inv (M : Matrix (Fin n) (Fin n) ℂ) : 1 / (M⁻¹).det = M.det := by
  rw [Matrix.det_nonsing_inv, Ring.inverse_eq_inv', one_div, inv_inv]

theorem sum_mul_trace (T G : Big m) : ∑ a, ∑ b, G a b * T a b = (Tᵀ * G).trace := by
  simp only [Matrix.trace, Matrix.diag_apply, Matrix.mul_apply, Matrix.transpose_apply]
  rw [sum_comm]
  exact sum_congr rfl fun b _ => sum_congr rfl fun a _ => mul_comm _ _

/-- The walker after `inverse_overlap`, `calc_otrial` and `greens_function`. -/
noncomputable def fresh (t : Trial m n d) (w : Wk m n d) : Wk m n d := greens t (storeOverlaps t (inverseOverlap t w))

theorem fresh_weights (t : Trial m n d) (w : Wk m n d) (k : Fin d) : (fresh t w).weights k = t.coeffs k * ovl (t.psi k) w.phi := by
  show t.coeffs k * (1 / (((t.psi k)ᴴ * w.phi)⁻¹).det) = _
  rw [one_div_det_inv, ovl]

theorem fresh_Gi (t : Trial m n d) (w : Wk m n d) (k : Fin d) : (fresh t w).Gi k = (gab (t.psi k) w.phi)ᵀ := by
  show (w.phi * ((t.psi k)ᴴ * w.phi)⁻¹ * (t.psi k)ᴴ)ᵀ = _
  rw [gab, Matrix.mul_assoc]

/-- **C125** The overlap. -/
theorem overlap_eq (t : Trial m n d) (w : Wk m n d) : calcOtrial t (inverseOverlap t w) = bra t w.phi :=
  sum_congr rfl fun k _ => fresh_weights t w k

/-- **C125** The contracted Green's function: element `(a, b)` is `⟨Ψ|c†_a c_b|φ⟩ / ⟨Ψ|φ⟩`. -/
theorem green_eq (t : Trial m n d) (w : Wk m n d) (hne : ∀ k, ovl (t.psi k) w.phi ≠ 0) (a b : Fin (m + m)) :
    contracted (fresh t w) a b = (∑ k, t.coeffs k * oneBody (Matrix.single a b 1) (t.psi k) w.phi) / bra t w.phi := by
  rw [contracted, Matrix.smul_apply, smul_eq_mul, Matrix.sum_apply, one_div, inv_mul_eq_div]
  congr 1
  · refine sum_congr rfl fun k _ => ?_
    rw [Matrix.smul_apply, smul_eq_mul, fresh_weights, fresh_Gi, oneBody_eq _ _ _ (hne k), Matrix.trace_single_mul, one_smul,
      Matrix.transpose_apply]
    ring
  · exact sum_congr rfl fun k _ => fresh_weights t w k

/-- The energy routine for transposed Green's functions. -/
theorem energy_sum (T : Big m) (U : ℂ) (G : Fin d → Big m) (weights : Fin d → ℂ) (denom : ℂ) :
    (localEnergy T U G weights denom).1 = (∑ k, weights k * ((Tᵀ * G k).trace +
      U * ∑ x : Fin m, (G k (up x) (up x) * G k (dn x) (dn x) - G k (up x) (dn x) * G k (dn x) (up x)))) / denom := by
  rw [localEnergy]
  simp only [kinEnergy, potEnergy]
  rw [← add_div]
  congr 1
  rw [mul_sum, ← sum_add_distrib]
  refine sum_congr rfl fun k _ => ?_
  rw [← sum_mul_trace]
  simp only [mul_sum, mul_add]
  congr 1
  · exact sum_congr rfl fun a _ => sum_congr rfl fun b _ => by ring
  · exact sum_congr rfl fun x _ => by ring

/-- **C125** The local energy of a walker is `⟨Ψ|H|φ⟩ / ⟨Ψ|φ⟩`. -/
theorem local_energy (T : Big m) (U : ℂ) (t : Trial m n d) (w : Wk m n d) (hne : ∀ k, ovl (t.psi k) w.phi ≠ 0) :
    (localEnergy T U (fresh t w).Gi (fresh t w).weights (calcOtrial t (inverseOverlap t w))).1 =
      (∑ k, t.coeffs k * hub T U (t.psi k) w.phi) / bra t w.phi := by
  rw [energy_sum, overlap_eq]
  congr 1
  refine sum_congr rfl fun k _ => ?_
  rw [fresh_weights, fresh_Gi, hub_eq T U _ _ (hne k), ← Matrix.transpose_mul, Matrix.trace_transpose, Matrix.trace_mul_comm, mul_assoc]
  simp only [Matrix.transpose_apply]
  congr 4
  exact sum_congr rfl fun x _ => by ring

/-- **C125** With the Green's functions of `gab_multi_ghf` the energy routine gives the energy of the transposed hopping. -/
theorem gab_energy (T : Big m) (U : ℂ) (t : Trial m n d) (phi : Det m n) (hne : ∀ k, ovl (t.psi k) phi ≠ 0) :
    (localEnergy T U (gabMultiGhf t.psi phi).1 (fun k => t.coeffs k * (gabMultiGhf t.psi phi).2 k) (bra t phi)).1 =
      (∑ k, t.coeffs k * hub Tᵀ U (t.psi k) phi) / bra t phi := by
  rw [energy_sum]
  congr 1
  refine sum_congr rfl fun k _ => ?_
  rw [hub_eq _ U _ _ (hne k)]
  show t.coeffs k * (1 / (((t.psi k)ᴴ * phi)⁻¹).det) * _ = _
  rw [one_div_det_inv, mul_assoc]
  rfl

/-- **C125** Energies between two expansions: `local_energy_hubbard_ghf_full` gives `⟨Ψ_A|H|Ψ_B⟩ / ⟨Ψ_A|Ψ_B⟩` for the transposed hopping;
the coefficients of both are given conjugated. -/
theorem full_energy {e : Nat} (T : Big m) (U : ℂ) (A : Fin d → Det m n) (B : Fin e → Det m n) (ca : Fin d → ℂ) (cb : Fin e → ℂ)
    (hne : ∀ i j, ovl (A i) (B j) ≠ 0) :
    localEnergyFull T U (gabFull A B ca cb).1 (gabFull A B ca cb).2 =
      (∑ i, ∑ j, ca i * star (cb j) * hub Tᵀ U (A i) (B j)) / ∑ i, ∑ j, ca i * star (cb j) * ovl (A i) (B j) := by
  have hw : ∀ i j, (gabFull A B ca cb).2 i j = ca i * star (cb j) * ovl (A i) (B j) := by
    intro i j
    show ca i * star (cb j) / (((A i)ᴴ * B j)⁻¹).det = _
    rw [div_eq_mul_one_div, one_div_det_inv, ovl]
  have hg : ∀ i j, (gabFull A B ca cb).1 i j = gab (A i) (B j) := by
    intro i j
    show B j * ((A i)ᴴ * B j)⁻¹ * (A i)ᴴ = _
    rw [gab, Matrix.mul_assoc]
  rw [localEnergyFull, ← add_div]
  simp only [hw, hg]
  congr 1
  rw [mul_sum, ← sum_add_distrib]
  refine sum_congr rfl fun i _ => ?_
  rw [mul_sum, ← sum_add_distrib]
  refine sum_congr rfl fun j _ => ?_
  rw [hub_eq _ U _ _ (hne i j), ← sum_mul_trace]
  simp only [mul_sum, mul_add]
  congr 1
  · exact sum_congr rfl fun a _ => sum_congr rfl fun b _ => by ring
  · exact sum_congr rfl fun x _ => by ring

theorem text_transpose {T : Fin 2 → Matrix (Fin m) (Fin m) ℂ} (h : ∀ s, (T s)ᵀ = T s) : (text T)ᵀ = text T := by
  rw [text, Matrix.transpose_submatrix, Matrix.fromBlocks_transpose, h, h, Matrix.transpose_zero]

end Verif.Ghf
