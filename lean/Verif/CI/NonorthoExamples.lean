import Verif.CI.Nonortho
import Verif.CI.ExpansionExamples

/-!
# Non-orthogonal expansions: a small overlap, and a case that works (C87)
-/

namespace Verif.CI.Nonortho

open Finset Matrix
open Verif.Step (slater prodState orbs spin ovl2 Hub hubOp hubOp_elem)
open Verif.MultiDet (Trial)
open Verif.CI.Bridge (r2 r2_sq r2_star)

/-- One electron on two sites. -/
noncomputable def pair (U : ℝ) : Hub 2 := ⟨fun _ => !![0, 1; 1, 0], U, false⟩

theorem pair_herm (U : ℝ) (s : Fin 2) : ((pair U).h1 s)ᴴ = (pair U).h1 s := by
  ext i j
  fin_cases i <;> fin_cases j <;> simp [pair, Matrix.conjTranspose_apply]

/-- The up orbital `(x, y)`. -/
def orb (x y : ℂ) : Slater.Wfn 2 1 0 := Slater.join !![x; y] 0

theorem orb_ovl (a b x y : ℂ) : ovl2 (orb a b) (orb x y) = star a * x + star b * y := by
  rw [ovl2, orb, orb, Slater.up_join, Slater.up_join]
  simp [Energy.ovl, Matrix.det_fin_one, Matrix.mul_apply, Fin.sum_univ_two, Matrix.conjTranspose_apply]

theorem orb_elem (U : ℝ) (a b x y : ℂ) :
    slater (orb a b) ⬝ᵥ (hubOp (pair U).h1 (pair U).U spin *ᵥ prodState (orbs (orb x y))) = star a * y + star b * x := by
  rw [hubOp_elem, orb, orb, Slater.up_join, Slater.up_join, Step.hubbardElem]
  simp [Step.oneElem, Energy.oneBody, Energy.ovl, Matrix.det_fin_one, Matrix.mul_apply, Fin.sum_univ_two, Matrix.conjTranspose_apply,
    pair, Matrix.mulVec, dotProduct]

/-- Energy routine of the model. -/
noncomputable def eloc (U : ℝ) (G : Fin 2 → Matrix (Fin 2) (Fin 2) ℂ) : ℂ :=
  (Energy.localHubbard (pair U).h1 (pair U).U (pair U).symmetric G).1

theorem entry_orb (U : ℝ) (a b x y : ℂ) (h : ciTol < ‖star a * x + star b * y‖) :
    entry (eloc U) (orb a b) (orb x y) = (star a * y + star b * x, star a * x + star b * y) := by
  rw [entry_eq (show MultiDet.Local (eloc U) _ from MultiDet.local_hubbard (pair U)) (by rwa [orb_ovl]), orb_ovl, orb_elem]

/-- Two determinants. -/
noncomputable def two (c : Fin 2 → ℂ) (x : ℂ) : Trial 2 2 1 0 := ⟨c, ![orb 1 0, orb x 1], none⟩

theorem form_two (U : ℝ) (c : Fin 2 → ℂ) (x : ℂ) : form (hubOp (pair U).h1 (pair U).U spin) (two c x) =
    star (c 0) * c 1 + star (c 1) * c 0 + star (c 1) * c 1 * (star x + x) := by
  rw [form_eq]
  simp only [dotProduct, Fin.sum_univ_two, Matrix.mulVec, Matrix.of_apply, two, Pi.star_apply, Matrix.cons_val_zero,
    Matrix.cons_val_one]
  have h := orb_elem U
  simp only [dotProduct, Matrix.mulVec] at h
  rw [h, h, h, h]
  simp only [star_one, star_zero]
  ring

theorem norm_two (c : Fin 2 → ℂ) (x : ℂ) : form 1 (two c x) =
    star (c 0) * c 0 + star (c 0) * c 1 * x + star (c 1) * c 0 * star x + star (c 1) * c 1 * (star x * x + 1) := by
  rw [form_eq]
  simp only [slater_identity]
  simp only [dotProduct, Fin.sum_univ_two, Matrix.mulVec, Matrix.of_apply, two, Pi.star_apply, Matrix.cons_val_zero,
    Matrix.cons_val_one, orb_ovl, star_one, star_zero]
  ring

theorem two_psi (c : Fin 2 → ℂ) (x : ℂ) (i : Fin 2) : (two c x).psi i = if i = 0 then orb 1 0 else orb x 1 := by
  fin_cases i <;> rfl

/-- An overlap below the threshold. -/
noncomputable def tiny : ℝ := 1 / 10 ^ 13

theorem tiny_pos : 0 < tiny := by unfold tiny; positivity

theorem entry_tiny (U : ℝ) : entry (eloc U) (orb 1 0) (orb tiny 1) = (0, 0) := by
  unfold entry
  simp only [gab_ovlp, orb_ovl]
  rw [if_neg]
  rw [star_one, star_zero, one_mul, zero_mul, add_zero, Complex.norm_of_nonneg tiny_pos.le, not_lt]
  unfold tiny ciTol
  norm_num

theorem tol_le (x : ℝ) (h : 1 ≤ x) : ciTol < ‖(x : ℂ)‖ := by
  rw [Complex.norm_of_nonneg (by linarith)]
  refine lt_of_lt_of_le ?_ h
  unfold ciTol; norm_num

theorem tiny_matrices (U : ℝ) : matrices (eloc U) (two 0 tiny).psi =
    some (!![0, 0; 0, ((2 * tiny : ℝ) : ℂ)], !![1, 0; 0, ((tiny ^ 2 + 1 : ℝ) : ℂ)]) := by
  have hpos := tiny_pos
  have e00 : entry (eloc U) (orb 1 0) (orb 1 0) = (0, 1) := by
    rw [entry_orb]
    · simp
    · simpa using tol_le 1 le_rfl
  have e11 : entry (eloc U) (orb tiny 1) (orb tiny 1) = (((2 * tiny : ℝ) : ℂ), ((tiny ^ 2 + 1 : ℝ) : ℂ)) := by
    rw [entry_orb]
    · simp; ring_nf; trivial
    · have := tol_le (tiny ^ 2 + 1) (by nlinarith)
      have e : star (tiny : ℂ) * tiny + star 1 * 1 = ((tiny ^ 2 + 1 : ℝ) : ℂ) := by simp; ring
      rwa [e]
  rw [matrices, if_neg]
  · rw [Option.some.injEq, Prod.mk.injEq]
    constructor <;> ext i j <;> fin_cases i <;> fin_cases j <;> simp [upper, two, e00, e11, entry_tiny] <;> norm_cast
  · rintro ⟨i, j, hij, hs⟩
    refine not_singular ?_ hs
    rw [two_psi, two_psi]
    fin_cases i <;> fin_cases j <;> simp [orb_ovl] at hij ⊢
    · exact_mod_cast hpos.ne'
    · have : ((tiny : ℂ) * tiny + 1) = ((tiny * tiny + 1 : ℝ) : ℂ) := by push_cast; ring
      rw [this]
      exact_mod_cast (by positivity : (0:ℝ) < tiny * tiny + 1).ne'

/-- **C87 (small overlaps)**: two determinants with overlap 1e-13: their coupling is dropped, the recomputed coefficients
give the energy 0 although the same determinants reach -1. -/
theorem recompute_small_overlap (U : ℝ) : ∃ (T : Trial 2 2 1 0) (H S ev : Matrix (Fin 2) (Fin 2) ℂ) (e : Fin 2 → ℝ)
    (c : Fin 2 → ℂ), matrices (eloc U) T.psi = some (H, S) ∧ GenEigh H S e ev ∧ form 1 (recompute T ev) = 1 ∧
      form (hubOp (pair U).h1 (pair U).U spin) (recompute T ev) = 0 ∧
      form 1 { T with coeffs := c } = 2 ∧ form (hubOp (pair U).h1 (pair U).U spin) { T with coeffs := c } = -2 := by
  have hpos := tiny_pos
  have hs : 0 < tiny ^ 2 + 1 := by positivity
  set r : ℝ := Real.sqrt (tiny ^ 2 + 1) with hr
  have hrr : r * r = tiny ^ 2 + 1 := Real.mul_self_sqrt hs.le
  have hr0 : r ≠ 0 := (Real.sqrt_pos.2 hs).ne'
  have hrC : ((r : ℂ))⁻¹ * ((tiny : ℂ) ^ 2 + 1) * (r : ℂ)⁻¹ = 1 := by
    have : ((tiny : ℂ) ^ 2 + 1) = r * r := by exact_mod_cast hrr.symm
    rw [this]
    have : (r : ℂ) ≠ 0 := by exact_mod_cast hr0
    field_simp
  have hre : ∀ ev : Matrix (Fin 2) (Fin 2) ℂ, recompute (two 0 tiny) ev = two (fun i => ev i 0) tiny := fun _ => rfl
  have hco : ∀ c : Fin 2 → ℂ, ({ two 0 tiny with coeffs := c } : Trial 2 2 1 0) = two c tiny := fun _ => rfl
  refine ⟨two 0 tiny, _, _, !![1, 0; 0, ((r⁻¹ : ℝ) : ℂ)], ![0, 2 * tiny / (tiny ^ 2 + 1)], ![1 + tiny, -1],
    tiny_matrices U, ⟨?_, ?_, ?_⟩, ?_, ?_, ?_, ?_⟩
  · ext i j
    fin_cases i <;> fin_cases j <;> simp [Matrix.mul_apply, Fin.sum_univ_two, Matrix.conjTranspose_apply]
    exact hrC
  · have h2 : ((tiny : ℂ) ^ 2 + 1) ≠ 0 := by exact_mod_cast hs.ne'
    ext i j
    fin_cases i <;> fin_cases j <;> simp [Matrix.mul_apply, Fin.sum_univ_two, Matrix.diagonal]
    field_simp
  · intro i j hij
    fin_cases i <;> fin_cases j <;> simp at hij ⊢
    positivity
  · rw [hre, norm_two]; simp
  · rw [hre, form_two]; simp
  · rw [hco, norm_two]; simp; ring
  · rw [hco, form_two]; simp; ring

/-- A case with non-orthogonal determinants that works: `(1, 0)` and `(1, 1)`, for every interaction. -/
theorem pass_two (i j : Fin 2) : ciTol < ‖ovl2 ((two 0 1).psi i) ((two 0 1).psi j)‖ := by
  have h1 := tol_le 1 le_rfl
  have h2 := tol_le 2 (by norm_num)
  rw [two_psi, two_psi]
  fin_cases i <;> fin_cases j <;> simp [orb_ovl] at h1 h2 ⊢
  · exact h1
  · exact h1
  · exact h1
  · norm_num; exact h2

theorem two_matrices (U : ℝ) : matrices (eloc U) (two 0 1).psi = some (!![0, 1; 1, 2], !![1, 1; 1, 2]) := by
  rw [matrices_eq (show MultiDet.Local (eloc U) _ from MultiDet.local_hubbard (pair U)) (Step.hubOp_sym _ _ _)
    (Step.hubOp_herm (pair U).U (pair_herm U) spin) pass_two, Option.some.injEq, Prod.mk.injEq]
  constructor <;> ext i j <;> rw [Matrix.of_apply, two_psi, two_psi] <;> fin_cases i <;> fin_cases j <;>
    simp [orb_ovl, orb_elem] <;> norm_num

theorem two_eigh : GenEigh !![0, 1; 1, 2] !![1, 1; 1, 2] ![-1, 1] !![2 * r2, 0; -r2, r2] where
  norm := by
    have h := r2_sq
    have c2 : (starRingEnd ℂ) 2 = 2 := Complex.conj_ofNat 2
    ext i j
    fin_cases i <;> fin_cases j <;> simp only [Matrix.mul_apply, Fin.sum_univ_two, Matrix.conjTranspose_apply, Matrix.of_apply,
      Matrix.cons_val', Matrix.cons_val_zero, Matrix.cons_val_one, Matrix.cons_val_fin_one, Fin.zero_eta, Fin.mk_one,
      RCLike.star_def, map_mul, map_neg, r2_star, c2, map_zero, Matrix.one_apply, if_true, Fin.isValue, zero_ne_one, one_ne_zero,
      if_false]
    · linear_combination 2 * h
    · ring
    · ring
    · linear_combination 2 * h
  eigen := by
    ext i j
    fin_cases i <;> fin_cases j <;> simp [Matrix.mul_apply, Fin.sum_univ_two, Matrix.diagonal] <;> ring
  sorted := by
    intro i j hij
    fin_cases i <;> fin_cases j <;> simp at hij ⊢ <;> norm_num

example (U : ℝ) : form (hubOp (pair U).h1 (pair U).U spin) (recompute (two 0 1) !![2 * r2, 0; -r2, r2]) = -1 := by
  have := (hub_recompute_partial (pair U) (pair_herm U) (two 0 1) pass_two (two_matrices U) two_eigh).2.1
  rw [this]
  simp

/-- Determinants orthogonal to each other raise an exception. -/
example (U : ℝ) : matrices (eloc U) (two 0 0).psi = none :=
  matrices_singular _ (i := 0) (j := 1) (by decide) (by rw [two_psi, two_psi]; simp [orb_ovl])

end Verif.CI.Nonortho
