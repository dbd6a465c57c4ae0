import Verif.Freeze.Props

/-!
# Frozen core: superpositions, electron counts, and complex Cholesky vectors (C88)
-/

namespace Verif.Freeze

open Matrix Finset
open Verif.Energy (localChol ovl hamil)

variable {m nx nc ncas nu nd n : Nat}

/-- **C88 (superpositions)**: norm and energy of a superposition of determinants of active orbitals with the frozen-core
Hamiltonian are those of the superposition with the core filled and the full Hamiltonian. -/
theorem freeze_superposition (h : nc + ncas ≤ m) (h1e : Matrix (Fin m) (Fin m) ℂ) {L : Fin nx → Matrix (Fin m) (Fin m) ℂ}
    (hL : ∀ x, (L x)ᵀ = L x) (ecore : ℂ) (hnu : nu ≤ ncas) (hnd : nd ≤ ncas) (c : Fin n → ℂ)
    (U : Fin n → Matrix (Fin ncas) (Fin nu) ℂ) (D : Fin n → Matrix (Fin ncas) (Fin nd) ℂ) :
    ∑ i, ∑ j, star (c i) * c j * (ovl (fill m nc (U i)) (fill m nc (U j)) * ovl (fill m nc (D i)) (fill m nc (D j))) =
      ∑ i, ∑ j, star (c i) * c j * (ovl (U i) (U j) * ovl (D i) (D j)) ∧
    ∑ i, ∑ j, star (c i) * c j *
        hamil (fun _ => h1e) L ecore (fill m nc (U i)) (fill m nc (U j)) (fill m nc (D i)) (fill m nc (D j)) =
      ∑ i, ∑ j, star (c i) * c j * hamil (freezeCore h h1e L ecore).h1 (freezeCore h h1e L ecore).chol
        (freezeCore h h1e L ecore).ecore (U i) (U j) (D i) (D j) :=
  ⟨sum_congr rfl fun i _ => sum_congr rfl fun j _ => by rw [fill_ovl h, fill_ovl h],
    sum_congr rfl fun i _ => sum_congr rfl fun j _ => by rw [freeze_hamil h h1e hL ecore hnu hnd]⟩

/-- **C88 (electrons)**: `cas[0]` electrons are left exactly when the rest come in pairs; otherwise there is one more.
The spin does not change. -/
theorem cas_electrons (na nb cas : Int) :
    (casCounts na nb cas).2.1 - (casCounts na nb cas).2.2 = na - nb ∧
    ((na + nb - cas) % 2 = 0 → (casCounts na nb cas).2.1 + (casCounts na nb cas).2.2 = cas ∧
      2 * (casCounts na nb cas).1 + cas = na + nb) ∧
    ((na + nb - cas) % 2 ≠ 0 → (casCounts na nb cas).2.1 + (casCounts na nb cas).2.2 = cas + 1) := by
  simp only [casCounts]
  rw [Int.fdiv_eq_ediv_of_nonneg _ (by norm_num)]
  refine ⟨by omega, fun h => by omega, fun h => by omega⟩

/-- The hypotheses are met with one core and two active orbitals and a Cholesky vector that couples them. -/
example (h : 1 + 2 ≤ 3) :
    let L : Fin 1 → Matrix (Fin 3) (Fin 3) ℂ := fun _ => !![1, 1, 1; 1, 0, 2; 1, 2, 0]
    let a : Matrix (Fin 2) (Fin 1) ℂ := !![1; 2]
    let b : Matrix (Fin 2) (Fin 1) ℂ := !![3; 1]
    (∀ x, (L x)ᵀ = L x) ∧ ovl a b = 5 ∧
      (localChol (freezeCore h 1 L 7).h1 (freezeCore h 1 L 7).chol ![(Slater.gabMod a b).1, (Slater.gabMod b a).1]
        (freezeCore h 1 L 7).ecore).1 =
      (localChol (fun _ => 1) L ![(Slater.gabMod (fill 3 1 a) (fill 3 1 b)).1, (Slater.gabMod (fill 3 1 b) (fill 3 1 a)).1] 7).1 := by
  have hL : ∀ x : Fin 1, ((fun _ => !![1, 1, 1; 1, 0, 2; 1, 2, 0] : Fin 1 → Matrix (Fin 3) (Fin 3) ℂ) x)ᵀ =
      !![1, 1, 1; 1, 0, 2; 1, 2, 0] := by
    intro x
    ext i j
    fin_cases i <;> fin_cases j <;> simp
  have ho : ovl (!![1; 2] : Matrix (Fin 2) (Fin 1) ℂ) !![3; 1] = 5 := by
    simp [ovl, Matrix.mul_apply, Fin.sum_univ_two, Complex.conj_ofNat]; norm_num
  have ho' : ovl (!![3; 1] : Matrix (Fin 2) (Fin 1) ℂ) !![1; 2] = 5 := by
    simp [ovl, Matrix.mul_apply, Fin.sum_univ_two, Complex.conj_ofNat]; norm_num
  exact ⟨hL, ho, (freeze_local_energy h 1 hL 7 _ _ _ _ (by rw [ho]; norm_num) (by rw [ho']; norm_num)).symm⟩

/-! ## Complex Cholesky vectors -/

/-- A Hermitian Cholesky vector over three orbitals. -/
def twist : Fin 1 → Matrix (Fin 3) (Fin 3) ℂ := fun _ => !![0, 1, Complex.I; 1, 0, 0; -Complex.I, 0, 0]

/-- One electron in the two active orbitals. -/
def elec : Matrix (Fin 2) (Fin 1) ℂ := !![1; Complex.I]

def none' : Matrix (Fin 2) (Fin 0) ℂ := Matrix.of fun _ j => j.elim0

theorem fill_elec : fill 3 1 elec = !![1, 0; 0, 1; 0, Complex.I] := by
  ext i j
  fin_cases i <;> fin_cases j <;>
    simp [fill, elec, sel, corePsi, Matrix.fromCols, finSumFinEquiv, Fin.addCases, Matrix.mul_apply]

theorem fill_none : fill 3 1 none' = !![1; 0; 0] := by
  ext i j
  fin_cases i <;> fin_cases j <;>
    simp [fill, none', sel, corePsi, Matrix.fromCols, finSumFinEquiv, Fin.addCases, Matrix.mul_apply]

theorem twist_herm (x : Fin 1) : (twist x)ᴴ = twist x := by
  ext i j
  fin_cases i <;> fin_cases j <;> simp [twist]

theorem frozen_h1 (h : 1 + 2 ≤ 3) (s : Fin 2) :
    (freezeCore h 0 twist 0).h1 s = !![-1, Complex.I; -Complex.I, -1] := by
  have hg : Slater.gab (corePsi 3 1) (corePsi 3 1) = !![1, 0, 0; 0, 0, 0; 0, 0, 0] := by
    rw [core_gab h]
    ext i j
    fin_cases i <;> fin_cases j <;> simp [corePsi, Matrix.mul_apply]
  ext i j
  fin_cases i <;> fin_cases j <;>
    simp [freezeCore, hg, slice, coreContribution, twist, Energy.dot2, Fin.sum_univ_three, Matrix.vecHead, Matrix.vecTail]

theorem frozen_chol (h : 1 + 2 ≤ 3) (x : Fin 1) : (freezeCore h 0 twist 0).chol x = 0 := by
  ext i j
  fin_cases i <;> fin_cases j <;> simp [freezeCore, slice, twist]

theorem frozen_ecore (h : 1 + 2 ≤ 3) : (freezeCore h 0 twist 0).ecore = 0 := by
  have hg : Slater.gab (corePsi 3 1) (corePsi 3 1) = !![1, 0, 0; 0, 0, 0; 0, 0, 0] := by
    rw [core_gab h]
    ext i j
    fin_cases i <;> fin_cases j <;> simp [corePsi, Matrix.mul_apply]
  simp only [freezeCore, hg, localChol, twist]
  simp [Energy.dot2, Fin.sum_univ_three]

/-- **C88 fails for complex Cholesky vectors**: the exchange part is transposed, so that the frozen-core Hamiltonian gives an
energy of -4 (for a state of norm squared two) where the full Hamiltonian gives none. -/
theorem freeze_complex (h : 1 + 2 ≤ 3) :
    hamil (fun _ => 0) twist 0 (fill 3 1 elec) (fill 3 1 elec) (fill 3 1 none') (fill 3 1 none') = 0 ∧
    hamil (freezeCore h 0 twist 0).h1 (freezeCore h 0 twist 0).chol (freezeCore h 0 twist 0).ecore elec elec none' none' =
      -4 := by
  constructor
  · rw [fill_elec, fill_none]
    simp only [hamil, ovl, Energy.oneBody, Energy.twoBody, twist, Fin.sum_univ_two, Fin.sum_univ_one]
    simp [Matrix.updateCol_apply, Matrix.mulVec, dotProduct, Fin.sum_univ_three, Matrix.det_fin_two, Matrix.mul_apply]
  · rw [frozen_ecore]
    simp only [hamil, ovl, Energy.oneBody, Energy.twoBody, frozen_h1, frozen_chol]
    simp [elec, Matrix.mul_apply, Matrix.mulVec, dotProduct, Fin.sum_univ_two]
    linear_combination 2 * Complex.I_sq

end Verif.Freeze
