import Verif.Freeze.Model
import Verif.Energy.Props
import Verif.CI.ExpansionProps
import Mathlib.Data.Matrix.ColumnRowPartitioned

/-!
# Freezing core orbitals (C88)
-/

namespace Verif.Freeze

open Matrix Finset
open Verif.Energy (dot2 dot2_trace localChol ovl hamil)

variable {m nx nc ncas k nu nd : Nat}

/-- Selects the active orbitals. -/
def sel (m nc ncas : Nat) : Matrix (Fin m) (Fin ncas) ℂ := Matrix.of fun p i => if (p : Nat) = nc + i then 1 else 0

/-- A determinant of active orbitals together with the filled core. -/
def fill (m nc : Nat) (A : Matrix (Fin ncas) (Fin k) ℂ) : Matrix (Fin m) (Fin (nc + k)) ℂ :=
  (Matrix.fromCols (corePsi m nc) (sel m nc ncas * A)).submatrix id finSumFinEquiv.symm

/-! ## Blocks -/

theorem core_core (h : nc + ncas ≤ m) : (corePsi m nc)ᴴ * corePsi m nc = 1 := by
  ext i j
  rw [Matrix.mul_apply, Fintype.sum_eq_single ⟨i, by omega⟩]
  · simp [corePsi, Matrix.conjTranspose_apply, Matrix.one_apply, Fin.ext_iff]
  · intro p hp
    have : ¬(p : Nat) = i := fun e => hp (Fin.ext e)
    simp [corePsi, Matrix.conjTranspose_apply, this]

theorem core_sel : (corePsi m nc)ᴴ * sel m nc ncas = 0 := by
  ext i j
  rw [Matrix.mul_apply]
  refine sum_eq_zero fun p _ => ?_
  simp only [corePsi, sel, Matrix.conjTranspose_apply, Matrix.of_apply]
  by_cases h1 : (p : Nat) = i
  · rw [if_neg (show ¬(p : Nat) = nc + j by omega), mul_zero]
  · simp [h1]

theorem sel_sel (h : nc + ncas ≤ m) : (sel m nc ncas)ᴴ * sel m nc ncas = 1 := by
  ext i j
  rw [Matrix.mul_apply, Fintype.sum_eq_single ⟨nc + i, by omega⟩]
  · simp [sel, Matrix.conjTranspose_apply, Matrix.one_apply, Fin.ext_iff]
  · intro p hp
    have : ¬(p : Nat) = nc + i := fun e => hp (Fin.ext e)
    simp [sel, Matrix.conjTranspose_apply, this]

theorem sel_core : (sel m nc ncas)ᴴ * corePsi m nc = 0 := by
  have := congrArg Matrix.conjTranspose (core_sel (m := m) (nc := nc) (ncas := ncas))
  rwa [Matrix.conjTranspose_mul, Matrix.conjTranspose_conjTranspose, Matrix.conjTranspose_zero] at this

theorem sel_real : (sel m nc ncas)ᴴ = (sel m nc ncas)ᵀ := by
  ext i j
  simp only [Matrix.conjTranspose_apply, Matrix.transpose_apply, sel, Matrix.of_apply]
  split_ifs <;> simp

theorem core_real : (corePsi m nc)ᴴ = (corePsi m nc)ᵀ := by
  ext i j
  simp only [Matrix.conjTranspose_apply, Matrix.transpose_apply, corePsi, Matrix.of_apply]
  split_ifs <;> simp

theorem slice_eq (h : nc + ncas ≤ m) (X : Matrix (Fin m) (Fin m) ℂ) :
    slice h X = (sel m nc ncas)ᵀ * X * sel m nc ncas := by
  ext i j
  rw [Matrix.mul_apply, Fintype.sum_eq_single ⟨nc + j, by omega⟩, Matrix.mul_apply, Fintype.sum_eq_single ⟨nc + i, by omega⟩]
  · simp [slice, sel]
  · intro p hp
    have : ¬(p : Nat) = nc + i := fun e => hp (Fin.ext e)
    simp [sel, this]
  · intro p hp
    have : ¬(p : Nat) = nc + j := fun e => hp (Fin.ext e)
    simp [sel, this]

theorem fill_mul (h : nc + ncas ≤ m) (A B : Matrix (Fin ncas) (Fin k) ℂ) :
    (fill m nc A)ᴴ * fill m nc B = (Matrix.fromBlocks 1 0 0 (Aᴴ * B)).submatrix finSumFinEquiv.symm finSumFinEquiv.symm := by
  rw [fill, fill, Matrix.conjTranspose_submatrix, ← Matrix.submatrix_mul _ _ _ _ _ Function.bijective_id,
    Matrix.conjTranspose_fromCols_eq_fromRows_conjTranspose, Matrix.fromRows_mul_fromCols, core_core h, ← Matrix.mul_assoc, core_sel,
    Matrix.zero_mul, Matrix.conjTranspose_mul, Matrix.mul_assoc, sel_core, Matrix.mul_zero, Matrix.mul_assoc,
    ← Matrix.mul_assoc (sel m nc ncas)ᴴ, sel_sel h, Matrix.one_mul]

/-- Filling the core does not change overlaps. -/
theorem fill_ovl (h : nc + ncas ≤ m) (A B : Matrix (Fin ncas) (Fin k) ℂ) : ovl (fill m nc A) (fill m nc B) = ovl A B := by
  rw [ovl, fill_mul h, Matrix.det_submatrix_equiv_self, Matrix.det_fromBlocks_zero₂₁, Matrix.det_one, one_mul]; rfl

/-- The Green's function of filled determinants. -/
theorem fill_gab (h : nc + ncas ≤ m) (A B : Matrix (Fin ncas) (Fin k) ℂ) (hO : ovl A B ≠ 0) :
    Slater.gab (fill m nc A) (fill m nc B) =
      corePsi m nc * (corePsi m nc)ᵀ + sel m nc ncas * Slater.gab A B * (sel m nc ncas)ᵀ := by
  have hu : IsUnit (Aᴴ * B).det := isUnit_iff_ne_zero.2 hO
  have hi : ((fill m nc A)ᴴ * fill m nc B)⁻¹ =
      (Matrix.fromBlocks 1 0 0 (Aᴴ * B)⁻¹).submatrix finSumFinEquiv.symm finSumFinEquiv.symm := by
    refine Matrix.inv_eq_right_inv ?_
    rw [fill_mul h, Matrix.submatrix_mul_equiv, Matrix.fromBlocks_multiply]
    simp only [Matrix.mul_zero, Matrix.zero_mul, Matrix.one_mul, add_zero, zero_add, Matrix.mul_nonsing_inv _ hu,
      Matrix.fromBlocks_one, Matrix.submatrix_one_equiv]
  rw [Slater.gab, hi, fill, fill, Matrix.conjTranspose_submatrix, Matrix.submatrix_mul_equiv, Matrix.submatrix_mul_equiv,
    Matrix.conjTranspose_fromCols_eq_fromRows_conjTranspose, Matrix.fromBlocks_mul_fromRows, Matrix.fromCols_mul_fromRows]
  simp only [Matrix.zero_mul, Matrix.one_mul, add_zero, zero_add, Matrix.conjTranspose_mul, core_real, sel_real,
    Slater.gab, Matrix.mul_assoc]
  rfl

theorem core_gab (h : nc + ncas ≤ m) : Slater.gab (corePsi m nc) (corePsi m nc) = corePsi m nc * (corePsi m nc)ᵀ := by
  rw [Slater.gab, core_core h, inv_one, Matrix.one_mul, core_real]

/-! ## Energies -/

theorem localChol_eq (h1 : Fin 2 → Matrix (Fin m) (Fin m) ℂ) (L : Fin nx → Matrix (Fin m) (Fin m) ℂ)
    (G : Fin 2 → Matrix (Fin m) (Fin m) ℂ) (ecore : ℂ) : (localChol h1 L G ecore).1 =
      ecore + (h1 0 * (G 0)ᵀ).trace + (h1 1 * (G 1)ᵀ).trace + (1 / 2 : ℂ) * ∑ x,
        (((L x * (G 0)ᵀ).trace + (L x * (G 1)ᵀ).trace) ^ 2 - ((G 0)ᵀ * L x * ((G 0)ᵀ * L x)).trace -
          ((G 1)ᵀ * L x * ((G 1)ᵀ * L x)).trace) := by
  have hT : ∀ s, ∑ l, ∑ k, ∑ x, (∑ i, G s i l * L x i k) * (∑ i, G s i k * L x i l) =
      ∑ x, ((G s)ᵀ * L x * ((G s)ᵀ * L x)).trace := by
    intro s
    have e : ∀ l, ∑ k, ∑ x, (∑ i, G s i l * L x i k) * (∑ i, G s i k * L x i l) =
        ∑ x, ((G s)ᵀ * L x * ((G s)ᵀ * L x)) l l := by
      intro l
      rw [sum_comm]
      refine sum_congr rfl fun x _ => ?_
      rw [Matrix.mul_apply]
      rfl
    rw [sum_congr rfl fun l _ => e l, sum_comm]
    rfl
  show dot2 (h1 0) (G 0) + dot2 (h1 1) (G 1) + (1 / 2 : ℂ) * (∑ x, dot2 (L x) (G 0) * dot2 (L x) (G 0) +
    ∑ x, dot2 (L x) (G 1) * dot2 (L x) (G 1) + 2 * ∑ x, dot2 (L x) (G 0) * dot2 (L x) (G 1) -
    (∑ l, ∑ k, ∑ x, (∑ i, G 0 i l * L x i k) * (∑ i, G 0 i k * L x i l) +
      ∑ l, ∑ k, ∑ x, (∑ i, G 1 i l * L x i k) * (∑ i, G 1 i k * L x i l))) + ecore = _
  rw [hT, hT]
  simp only [dot2_trace]
  rw [sum_sub_distrib, sum_sub_distrib]
  simp only [add_sq, sum_add_distrib, mul_sum]
  have e1 : ∀ s, ∑ x, (L x * (G s)ᵀ).trace * (L x * (G s)ᵀ).trace = ∑ x, (L x * (G s)ᵀ).trace ^ 2 := fun s =>
    sum_congr rfl fun x _ => (sq _).symm
  rw [e1, e1]
  have e2 : ∑ x, 2 * ((L x * (G 0)ᵀ).trace * (L x * (G 1)ᵀ).trace) =
      ∑ x, 2 * (L x * (G 0)ᵀ).trace * (L x * (G 1)ᵀ).trace := sum_congr rfl fun x _ => (mul_assoc _ _ _).symm
  rw [e2]
  ring

/-- The core contribution for symmetric Cholesky vectors and a symmetric density matrix. -/
theorem coreContribution_eq {L : Fin nx → Matrix (Fin m) (Fin m) ℂ} (hL : ∀ x, (L x)ᵀ = L x) {P : Matrix (Fin m) (Fin m) ℂ}
    (hP : Pᵀ = P) : coreContribution L P = ∑ x, ((L x * P).trace • L x - (1 / 2 : ℂ) • (L x * P * L x)) := by
  have hL' : ∀ x p q, L x p q = L x q p := fun x p q => congrFun (congrFun (hL x) q) p
  ext k r
  rw [Matrix.sum_apply, coreContribution]
  simp only [Matrix.sub_apply, Matrix.smul_apply, Matrix.of_apply, smul_eq_mul, mul_sum, sum_sub_distrib]
  congr 1
  · refine sum_congr rfl fun x _ => ?_
    rw [dot2_trace, hP, mul_comm]
  · refine sum_congr rfl fun x _ => ?_
    rw [Matrix.mul_apply, mul_sum]
    refine sum_congr rfl fun l _ => ?_
    rw [Matrix.mul_apply, hL' x r l]
    congr 2
    exact sum_congr rfl fun i _ => by rw [hL' x i k]

/-- The energy of a Green's function with filled core. -/
theorem freeze_green (h : nc + ncas ≤ m) (h1e : Matrix (Fin m) (Fin m) ℂ) {L : Fin nx → Matrix (Fin m) (Fin m) ℂ}
    (hL : ∀ x, (L x)ᵀ = L x) (ecore : ℂ) (G : Fin 2 → Matrix (Fin ncas) (Fin ncas) ℂ) :
    (localChol (fun _ => h1e) L (fun s => corePsi m nc * (corePsi m nc)ᵀ + sel m nc ncas * G s * (sel m nc ncas)ᵀ) ecore).1 =
      (localChol (freezeCore h h1e L ecore).h1 (freezeCore h h1e L ecore).chol G (freezeCore h h1e L ecore).ecore).1 := by
  have hP : (corePsi m nc * (corePsi m nc)ᵀ)ᵀ = corePsi m nc * (corePsi m nc)ᵀ := by
    rw [Matrix.transpose_mul, Matrix.transpose_transpose]
  have hc : coreContribution L (Slater.gab (corePsi m nc) (corePsi m nc)) =
      ∑ x, ((L x * (corePsi m nc * (corePsi m nc)ᵀ)).trace • L x -
        (1 / 2 : ℂ) • (L x * (corePsi m nc * (corePsi m nc)ᵀ) * L x)) := by
    rw [core_gab h, coreContribution_eq hL hP]
  rw [localChol_eq, localChol_eq]
  simp only [freezeCore, slice_eq, hc]
  rw [localChol_eq, core_gab h]
  generalize sel m nc ncas = E
  generalize hPg : corePsi m nc * (corePsi m nc)ᵀ = P at hP
  have ht : ∀ s, (P + E * G s * Eᵀ)ᵀ = P + E * (G s)ᵀ * Eᵀ := by
    intro s
    rw [Matrix.transpose_add, hP, Matrix.transpose_mul, Matrix.transpose_mul, Matrix.transpose_transpose, Matrix.mul_assoc]
  simp only [ht, hP]
  have one : ∀ (X : Matrix (Fin m) (Fin m) ℂ) (g : Matrix (Fin ncas) (Fin ncas) ℂ), (X * (P + E * g * Eᵀ)).trace =
      (X * P).trace + (Eᵀ * X * E * g).trace := by
    intro X g
    rw [Matrix.mul_add, Matrix.trace_add, ← Matrix.mul_assoc X (E * g), Matrix.trace_mul_comm (X * (E * g))]
    simp only [Matrix.mul_assoc]
  have two : ∀ (X : Matrix (Fin m) (Fin m) ℂ) (g : Matrix (Fin ncas) (Fin ncas) ℂ),
      ((P + E * g * Eᵀ) * X * ((P + E * g * Eᵀ) * X)).trace = (P * X * (P * X)).trace +
        2 * (Eᵀ * (X * P * X) * E * g).trace + (g * (Eᵀ * X * E) * (g * (Eᵀ * X * E))).trace := by
    intro X g
    have a : (P * X * (E * g * Eᵀ * X)).trace = (Eᵀ * (X * P * X) * E * g).trace := by
      rw [show P * X * (E * g * Eᵀ * X) = (P * X * E * g) * (Eᵀ * X) by simp only [Matrix.mul_assoc], Matrix.trace_mul_comm]
      simp only [Matrix.mul_assoc]
    have b : (E * g * Eᵀ * X * (P * X)).trace = (Eᵀ * (X * P * X) * E * g).trace := by
      rw [Matrix.trace_mul_comm, a]
    have c : (E * g * Eᵀ * X * (E * g * Eᵀ * X)).trace = (g * (Eᵀ * X * E) * (g * (Eᵀ * X * E))).trace := by
      rw [show E * g * Eᵀ * X * (E * g * Eᵀ * X) = E * (g * Eᵀ * X * E * g * Eᵀ * X) by simp only [Matrix.mul_assoc],
        Matrix.trace_mul_comm]
      simp only [Matrix.mul_assoc]
    rw [Matrix.add_mul, Matrix.add_mul, Matrix.mul_add, Matrix.mul_add, Matrix.trace_add, Matrix.trace_add, Matrix.trace_add,
      a, b, c]
    ring
  simp only [one, two]
  have heff : ∀ g : Matrix (Fin ncas) (Fin ncas) ℂ, (Eᵀ * (h1e + (2 : ℂ) • ∑ x, ((L x * P).trace • L x -
      (1 / 2 : ℂ) • (L x * P * L x))) * E * g).trace = (Eᵀ * h1e * E * g).trace +
        ∑ x, (2 * (L x * P).trace * (Eᵀ * L x * E * g).trace - (Eᵀ * (L x * P * L x) * E * g).trace) := by
    intro g
    rw [Matrix.mul_add, Matrix.add_mul, Matrix.add_mul, Matrix.trace_add, Matrix.mul_smul, Matrix.mul_sum, Matrix.smul_mul,
      Matrix.smul_mul, Matrix.sum_mul, Matrix.sum_mul, Matrix.trace_smul, Matrix.trace_sum, smul_eq_mul, mul_sum]
    congr 1
    refine sum_congr rfl fun x _ => ?_
    simp only [Matrix.mul_sub, Matrix.sub_mul, Matrix.mul_smul, Matrix.smul_mul, Matrix.trace_sub, Matrix.trace_smul, smul_eq_mul]
    ring
  simp only [heff]
  have key : ∑ x, (((L x * P).trace + (Eᵀ * L x * E * (G 0)ᵀ).trace + ((L x * P).trace + (Eᵀ * L x * E * (G 1)ᵀ).trace)) ^ 2 -
      ((P * L x * (P * L x)).trace + 2 * (Eᵀ * (L x * P * L x) * E * (G 0)ᵀ).trace +
        ((G 0)ᵀ * (Eᵀ * L x * E) * ((G 0)ᵀ * (Eᵀ * L x * E))).trace) -
      ((P * L x * (P * L x)).trace + 2 * (Eᵀ * (L x * P * L x) * E * (G 1)ᵀ).trace +
        ((G 1)ᵀ * (Eᵀ * L x * E) * ((G 1)ᵀ * (Eᵀ * L x * E))).trace)) =
      ∑ x, (((L x * P).trace + (L x * P).trace) ^ 2 - (P * L x * (P * L x)).trace - (P * L x * (P * L x)).trace) +
      2 * ∑ x, (2 * (L x * P).trace * (Eᵀ * L x * E * (G 0)ᵀ).trace - (Eᵀ * (L x * P * L x) * E * (G 0)ᵀ).trace) +
      2 * ∑ x, (2 * (L x * P).trace * (Eᵀ * L x * E * (G 1)ᵀ).trace - (Eᵀ * (L x * P * L x) * E * (G 1)ᵀ).trace) +
      ∑ x, (((Eᵀ * L x * E * (G 0)ᵀ).trace + (Eᵀ * L x * E * (G 1)ᵀ).trace) ^ 2 -
        ((G 0)ᵀ * (Eᵀ * L x * E) * ((G 0)ᵀ * (Eᵀ * L x * E))).trace -
        ((G 1)ᵀ * (Eᵀ * L x * E) * ((G 1)ᵀ * (Eᵀ * L x * E))).trace) := by
    rw [mul_sum, mul_sum, ← sum_add_distrib, ← sum_add_distrib, ← sum_add_distrib]
    refine sum_congr rfl fun x _ => ?_
    ring
  rw [key]
  ring

/-- **C88 (local energy)**: the local energy of a walker of active orbitals with the frozen-core Hamiltonian is that of the
walker with the core filled and the full Hamiltonian. -/
theorem freeze_local_energy (h : nc + ncas ≤ m) (h1e : Matrix (Fin m) (Fin m) ℂ) {L : Fin nx → Matrix (Fin m) (Fin m) ℂ}
    (hL : ∀ x, (L x)ᵀ = L x) (ecore : ℂ) (Au Bu : Matrix (Fin ncas) (Fin nu) ℂ) (Ad Bd : Matrix (Fin ncas) (Fin nd) ℂ)
    (hu : ovl Au Bu ≠ 0) (hd : ovl Ad Bd ≠ 0) :
    (localChol (fun _ => h1e) L ![(Slater.gabMod (fill m nc Au) (fill m nc Bu)).1,
        (Slater.gabMod (fill m nc Ad) (fill m nc Bd)).1] ecore).1 =
      (localChol (freezeCore h h1e L ecore).h1 (freezeCore h h1e L ecore).chol
        ![(Slater.gabMod Au Bu).1, (Slater.gabMod Ad Bd).1] (freezeCore h h1e L ecore).ecore).1 := by
  rw [← freeze_green h h1e hL]
  congr 2
  have hP : (corePsi m nc * (corePsi m nc)ᵀ)ᵀ = corePsi m nc * (corePsi m nc)ᵀ := by
    rw [Matrix.transpose_mul, Matrix.transpose_transpose]
  have e : ∀ {k : Nat} (A B : Matrix (Fin ncas) (Fin k) ℂ), ovl A B ≠ 0 → (Slater.gabMod (fill m nc A) (fill m nc B)).1 =
      corePsi m nc * (corePsi m nc)ᵀ + sel m nc ncas * (Slater.gabMod A B).1 * (sel m nc ncas)ᵀ := by
    intro k A B hO
    rw [Slater.gabMod_eq, Slater.gabMod_eq, fill_gab h A B hO, Matrix.transpose_add, hP, Matrix.transpose_mul,
      Matrix.transpose_mul, Matrix.transpose_transpose, Matrix.mul_assoc]
  funext s
  fin_cases s
  · exact e _ _ hu
  · exact e _ _ hd

/-- Matrix elements, for overlapping determinants. -/
theorem freeze_hamil' (h : nc + ncas ≤ m) (h1e : Matrix (Fin m) (Fin m) ℂ) {L : Fin nx → Matrix (Fin m) (Fin m) ℂ}
    (hL : ∀ x, (L x)ᵀ = L x) (ecore : ℂ) (Au Bu : Matrix (Fin ncas) (Fin nu) ℂ) (Ad Bd : Matrix (Fin ncas) (Fin nd) ℂ)
    (hu : ovl Au Bu ≠ 0) (hd : ovl Ad Bd ≠ 0) :
    hamil (fun _ => h1e) L ecore (fill m nc Au) (fill m nc Bu) (fill m nc Ad) (fill m nc Bd) =
      hamil (freezeCore h h1e L ecore).h1 (freezeCore h h1e L ecore).chol (freezeCore h h1e L ecore).ecore Au Bu Ad Bd := by
  rw [← Energy.localChol_expectation _ _ _ _ _ _ _ hu hd,
    ← Energy.localChol_expectation _ _ _ _ _ _ _ ((fill_ovl h Au Bu).trans_ne hu) ((fill_ovl h Ad Bd).trans_ne hd),
    freeze_local_energy h h1e hL ecore Au Bu Ad Bd hu hd, fill_ovl h, fill_ovl h]

/-! ## Determinants without overlap -/

theorem continuous_fill {κ : Type*} [TopologicalSpace κ] {A : κ → Matrix (Fin ncas) (Fin k) ℂ} (hA : Continuous A) :
    Continuous fun t => fill m nc (A t) := by
  refine continuous_pi fun p => continuous_pi fun a => ?_
  simp only [fill, Matrix.submatrix_apply, id]
  rcases finSumFinEquiv.symm a with c | i
  · simpa using continuous_const
  · simpa using (continuous_const.matrix_mul hA).matrix_elem p i

theorem continuous_ovl {κ : Type*} [TopologicalSpace κ] {A B : κ → Matrix (Fin m) (Fin k) ℂ} (hA : Continuous A)
    (hB : Continuous B) : Continuous fun t => ovl (A t) (B t) :=
  (hA.matrix_conjTranspose.matrix_mul hB).matrix_det

theorem continuous_oneBody {κ : Type*} [TopologicalSpace κ] {A B : κ → Matrix (Fin m) (Fin k) ℂ} (hA : Continuous A)
    (hB : Continuous B) (X : Matrix (Fin m) (Fin m) ℂ) : Continuous fun t => Energy.oneBody X (A t) (B t) := by
  unfold Energy.oneBody
  refine continuous_finset_sum _ fun i _ => Continuous.matrix_det (Continuous.matrix_mul hA.matrix_conjTranspose ?_)
  exact hB.matrix_updateCol i (continuous_const.matrix_mulVec (continuous_pi fun p => hB.matrix_elem p i))

theorem continuous_twoBody {κ : Type*} [TopologicalSpace κ] {A B : κ → Matrix (Fin m) (Fin k) ℂ} (hA : Continuous A)
    (hB : Continuous B) (X Y : Matrix (Fin m) (Fin m) ℂ) : Continuous fun t => Energy.twoBody X Y (A t) (B t) := by
  unfold Energy.twoBody
  refine continuous_finset_sum _ fun i _ => continuous_finset_sum _ fun j _ => ?_
  split_ifs
  · exact continuous_const
  · have h : ∀ (Z : Matrix (Fin m) (Fin m) ℂ) (j : Fin k), Continuous fun t => Z *ᵥ (B t).col j := fun Z j =>
      continuous_const.matrix_mulVec (continuous_pi fun p => hB.matrix_elem p j)
    exact Continuous.matrix_det (hA.matrix_conjTranspose.matrix_mul
      ((hB.matrix_updateCol i (h X i)).matrix_updateCol j (h Y j)))

theorem continuous_hamil {κ : Type*} [TopologicalSpace κ] (h1 : Fin 2 → Matrix (Fin m) (Fin m) ℂ)
    (L : Fin nx → Matrix (Fin m) (Fin m) ℂ) (ecore : ℂ) {Au Bu : κ → Matrix (Fin m) (Fin nu) ℂ}
    {Ad Bd : κ → Matrix (Fin m) (Fin nd) ℂ} (hAu : Continuous Au) (hBu : Continuous Bu) (hAd : Continuous Ad)
    (hBd : Continuous Bd) : Continuous fun t => hamil h1 L ecore (Au t) (Bu t) (Ad t) (Bd t) := by
  unfold hamil
  have o1 := continuous_ovl hAu hBu
  have o2 := continuous_ovl hAd hBd
  refine ((continuous_const.mul (o1.mul o2)).add (((continuous_oneBody hAu hBu _).mul o2).add
    (o1.mul (continuous_oneBody hAd hBd _)))).add (continuous_const.mul (continuous_finset_sum _ fun x _ => ?_))
  exact (((continuous_twoBody hAu hBu _ _).mul o2).add (o1.mul (continuous_twoBody hAd hBd _ _))).add
    (continuous_const.mul ((continuous_oneBody hAu hBu _).mul (continuous_oneBody hAd hBd _)))

open Polynomial in
/-- Moved towards a common determinant, two determinants overlap. -/
theorem overlap_near (hk : k ≤ m) (A B : Matrix (Fin m) (Fin k) ℂ) :
    ∀ᶠ t : ℝ in nhdsWithin 0 {0}ᶜ, ovl (A + (t : ℂ) • corePsi m k) (B + (t : ℂ) • corePsi m k) ≠ 0 := by
  set M := Aᴴ * corePsi m k + (corePsi m k)ᴴ * B with hM
  set Q : ℂ[X] := (((1 : Matrix (Fin k) (Fin k) ℂ).map C) + (X : ℂ[X]) • M.map C + (X ^ 2 : ℂ[X]) • (Aᴴ * B).map C).det with hQ
  have hev : ∀ s : ℂ, Q.eval s = (1 + s • M + s ^ 2 • (Aᴴ * B)).det := by
    intro s
    rw [hQ, ← Polynomial.coe_evalRingHom, RingHom.map_det]
    congr 1
    ext i j
    simp [Matrix.one_apply, apply_ite (Polynomial.eval s), apply_ite C, -Matrix.map_mul]
    ring
  have hQ0 : Q ≠ 0 := by
    intro h0
    have := hev 0
    rw [h0] at this
    simp at this
  have hfin : {t : ℝ | t ≠ 0 ∧ Q.eval ((t : ℂ)⁻¹) = 0}.Finite := by
    have hr : {s : ℂ | Q.eval s = 0}.Finite := by
      refine (Q.roots.toFinset.finite_toSet).subset fun s hs => ?_
      simpa [hQ0] using hs
    refine Set.Finite.of_injOn (f := fun t : ℝ => (t : ℂ)⁻¹) (fun t ht => ht.2) (fun s _ t _ hst => ?_) hr
    exact Complex.ofReal_injective (inv_injective hst)
  have hnh : {t : ℝ | t ≠ 0 ∧ Q.eval ((t : ℂ)⁻¹) = 0}ᶜ ∈ nhds (0 : ℝ) :=
    hfin.isClosed.isOpen_compl.mem_nhds (by simp)
  filter_upwards [nhdsWithin_le_nhds hnh, self_mem_nhdsWithin] with t ht ht0 hO
  have ht0' : (t : ℂ) ≠ 0 := by exact_mod_cast ht0
  refine ht ⟨ht0, ?_⟩
  have hcc : (corePsi m k)ᴴ * corePsi m k = 1 := core_core (ncas := 0) (by simpa using hk)
  have e : (A + (t : ℂ) • corePsi m k)ᴴ * (B + (t : ℂ) • corePsi m k) =
      ((t : ℂ) ^ 2) • (1 + (t : ℂ)⁻¹ • M + ((t : ℂ)⁻¹) ^ 2 • (Aᴴ * B)) := by
    rw [Matrix.conjTranspose_add, Matrix.conjTranspose_smul, Complex.star_def, Complex.conj_ofReal, Matrix.add_mul, Matrix.mul_add,
      Matrix.mul_add, Matrix.smul_mul, Matrix.mul_smul, Matrix.smul_mul, Matrix.mul_smul, hcc, hM, smul_add, smul_add, smul_smul,
      smul_smul, smul_add, smul_smul]
    have e1 : (t : ℂ) ^ 2 * (t : ℂ)⁻¹ = t := by field_simp
    have e2 : (t : ℂ) ^ 2 * (t : ℂ)⁻¹ ^ 2 = 1 := by field_simp
    rw [e1, e2, one_smul, ← sq]
    abel
  rw [ovl, e, Matrix.det_smul] at hO
  rw [hev]
  exact (mul_eq_zero.1 hO).resolve_left (pow_ne_zero _ (pow_ne_zero _ ht0'))

/-- **C88 (matrix elements)**: matrix elements of the frozen-core Hamiltonian between any determinants of active orbitals
are those of the full Hamiltonian between the determinants with the core filled. -/
theorem freeze_hamil (h : nc + ncas ≤ m) (h1e : Matrix (Fin m) (Fin m) ℂ) {L : Fin nx → Matrix (Fin m) (Fin m) ℂ}
    (hL : ∀ x, (L x)ᵀ = L x) (ecore : ℂ) (hnu : nu ≤ ncas) (hnd : nd ≤ ncas)
    (Au Bu : Matrix (Fin ncas) (Fin nu) ℂ) (Ad Bd : Matrix (Fin ncas) (Fin nd) ℂ) :
    hamil (fun _ => h1e) L ecore (fill m nc Au) (fill m nc Bu) (fill m nc Ad) (fill m nc Bd) =
      hamil (freezeCore h h1e L ecore).h1 (freezeCore h h1e L ecore).chol (freezeCore h h1e L ecore).ecore Au Bu Ad Bd := by
  have hc : ∀ {k : Nat} (A : Matrix (Fin ncas) (Fin k) ℂ), Continuous fun t : ℝ => A + (t : ℂ) • corePsi ncas k := fun A =>
    continuous_const.add (Complex.continuous_ofReal.smul continuous_const)
  have h0 : ∀ {k : Nat} (A : Matrix (Fin ncas) (Fin k) ℂ), A + ((0 : ℝ) : ℂ) • corePsi ncas k = A := fun A => by simp
  have c1 := (continuous_hamil (fun _ => h1e) L ecore (continuous_fill (m := m) (nc := nc) (hc Au)) (continuous_fill (hc Bu))
    (continuous_fill (nc := nc) (hc Ad)) (continuous_fill (hc Bd))).tendsto 0
  have c2 := (continuous_hamil (freezeCore h h1e L ecore).h1 (freezeCore h h1e L ecore).chol (freezeCore h h1e L ecore).ecore
    (hc Au) (hc Bu) (hc Ad) (hc Bd)).tendsto 0
  simp only [h0] at c1 c2
  refine tendsto_nhds_unique (c1.mono_left nhdsWithin_le_nhds) ((c2.mono_left (nhdsWithin_le_nhds (s := {0}ᶜ))).congr' ?_)
  filter_upwards [overlap_near hnu Au Bu, overlap_near hnd Ad Bd] with t hu hd
  exact (freeze_hamil' h h1e hL ecore _ _ _ _ hu hd).symm

end Verif.Freeze
