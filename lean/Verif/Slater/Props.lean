import Verif.Slater.Model
import Verif.Slater.Exist
import Verif.Util.RankOne
import Mathlib.LinearAlgebra.Matrix.Trace
import Mathlib.Tactic.FieldSimp
import Mathlib.Tactic.NormNum
import Mathlib.Tactic.FinCases

/-!
# Slater determinants: properties C15, C22, C23, C24, C25, C27
-/

namespace Verif.Slater

open Matrix

variable {nb nu nd k : Nat}

/-! ## Lemmas -/

theorem up_join (a : Matrix (Fin nb) (Fin nu) ℂ) (b : Matrix (Fin nb) (Fin nd) ℂ) :
    up (join a b) = a := by
  ext i j; simp [up, join]

theorem dn_join (a : Matrix (Fin nb) (Fin nu) ℂ) (b : Matrix (Fin nb) (Fin nd) ℂ) :
    dn (join a b) = b := by
  ext i j; simp [dn, join]

theorem join_up_dn (φ : Wfn nb nu nd) : join (up φ) (dn φ) = φ := by
  ext i j
  refine Fin.addCases (fun a => ?_) (fun a => ?_) j <;> simp [up, dn, join]

theorem slog_eq (z : ℂ) (hz : z ≠ 0) : slogSign z * Complex.exp (slogLog z) = z := by
  have h : ‖z‖ ≠ 0 := norm_ne_zero_iff.2 hz
  have hc : (‖z‖ : ℂ) ≠ 0 := by exact_mod_cast h
  rw [slogSign, slogLog, ← Complex.ofReal_exp, Real.exp_log (norm_pos_iff.2 hz)]
  field_simp

/-- The signed logarithms recombine to the product. -/
theorem slogProd_eq (a b : ℂ) (s : ℝ) : slogProd a b s = a * b * Complex.exp (-(s : ℂ)) := by
  by_cases ha : a = 0
  · simp [slogProd, slogSign, ha]
  by_cases hb : b = 0
  · simp [slogProd, slogSign, hb]
  have h : ((slogLog a + slogLog b - s : ℝ) : ℂ) = slogLog a + (slogLog b + -(s : ℂ)) := by
    push_cast; ring
  rw [slogProd, h, Complex.exp_add, Complex.exp_add]
  calc _ = (slogSign a * Complex.exp (slogLog a)) * (slogSign b * Complex.exp (slogLog b)) *
        Complex.exp (-(s : ℂ)) := by ring
    _ = _ := by rw [slog_eq a ha, slog_eq b hb]

theorem transpose_overlap (A B : Matrix (Fin nb) (Fin k) ℂ) : Bᵀ * A.map star = (Aᴴ * B)ᵀ := by
  rw [Matrix.transpose_mul, Matrix.conjTranspose, Matrix.transpose_map, Matrix.transpose_transpose]

theorem gabMod_eq (A B : Matrix (Fin nb) (Fin k) ℂ) : (gabMod A B).1 = (gab A B)ᵀ := by
  show A.map star * ((Bᵀ * A.map star)⁻¹ * Bᵀ) = _
  rw [transpose_overlap, ← Matrix.transpose_nonsing_inv, gab, Matrix.transpose_mul,
    Matrix.transpose_mul, Matrix.conjTranspose, Matrix.transpose_map, Matrix.transpose_transpose,
    Matrix.mul_assoc]

/-- Independent columns. -/
def FullRank (A : Matrix (Fin nb) (Fin k) ℂ) : Prop := (Aᴴ * A).det ≠ 0

theorem eq_zero_of_gram (A : Matrix (Fin nb) (Fin k) ℂ) (x : Fin k → ℂ) (h : (Aᴴ * A) *ᵥ x = 0) :
    A *ᵥ x = 0 := by
  open ComplexOrder in
  exact (Matrix.conjTranspose_mul_self_mulVec_eq_zero A x).1 h

theorem fullRank_iff (A : Matrix (Fin nb) (Fin k) ℂ) :
    FullRank A ↔ ∀ x : Fin k → ℂ, A *ᵥ x = 0 → x = 0 := by
  constructor
  · intro h x hx
    have h1 : (Aᴴ * A) *ᵥ x = 0 := by rw [← Matrix.mulVec_mulVec, hx, Matrix.mulVec_zero]
    exact Matrix.eq_zero_of_mulVec_eq_zero h h1
  · intro h hd
    obtain ⟨x, hx, h0⟩ := Matrix.exists_mulVec_eq_zero_iff.2 hd
    exact hx (h x (eq_zero_of_gram A x h0))

theorem fullRank_of_overlap {A B : Matrix (Fin nb) (Fin k) ℂ} (h : (Aᴴ * B).det ≠ 0) :
    FullRank B := by
  rw [fullRank_iff]
  intro x hx
  refine Matrix.eq_zero_of_mulVec_eq_zero h ?_
  rw [← Matrix.mulVec_mulVec, hx, Matrix.mulVec_zero]

theorem FullRank.mul {A : Matrix (Fin nb) (Fin k) ℂ} (h : FullRank A)
    {B : Matrix (Fin nb) (Fin nb) ℂ} (hB : B.det ≠ 0) : FullRank (B * A) := by
  rw [fullRank_iff] at *
  intro x hx
  refine h x (Matrix.eq_zero_of_mulVec_eq_zero hB ?_)
  rw [Matrix.mulVec_mulVec, hx]

theorem npSign_sq {z : ℂ} (hr : z.im = 0) (hz : z ≠ 0) :
    Thermal.npSign z * Thermal.npSign z = 1 := by
  have hre : z.re ≠ 0 := fun h => hz (Complex.ext h hr)
  unfold Thermal.npSign
  rcases lt_or_gt_of_ne hre with h | h
  · rw [if_neg (not_lt.2 h.le), if_pos h]; norm_num
  · rw [if_pos h]; norm_num

theorem npSign_mul {z : ℂ} (hr : z.im = 0) : Thermal.npSign z * z = (‖z‖ : ℂ) := by
  have hz : z = (z.re : ℂ) := Complex.ext rfl (by simp [hr])
  unfold Thermal.npSign
  rcases lt_trichotomy z.re 0 with h | h | h
  · rw [if_neg (not_lt.2 h.le), if_pos h]
    conv_lhs => rw [hz]
    conv_rhs => rw [hz, Complex.norm_real, Real.norm_eq_abs, abs_of_neg h]
    push_cast; ring
  · have : z = 0 := Complex.ext h hr
    subst this; simp
  · rw [if_pos h]
    conv_lhs => rw [hz]
    conv_rhs => rw [hz, Complex.norm_real, Real.norm_eq_abs, abs_of_pos h]
    ring

theorem npSign_star {z : ℂ} : star (Thermal.npSign z) = Thermal.npSign z := by
  unfold Thermal.npSign
  split_ifs <;> simp

/-- What reorthogonalisation does to a full-rank set of orbitals. -/
structure Ortho (A Q : Matrix (Fin nb) (Fin k) ℂ) (X : Matrix (Fin k) (Fin k) ℂ) (d : ℝ) : Prop where
  isometry : Qᴴ * Q = 1
  eq : A = Q * X
  upper : X.BlockTriangular id
  det : X.det = (d : ℂ)
  pos : 0 < d

theorem det_diag_ne {A Q : Matrix (Fin nb) (Fin k) ℂ} {R : Matrix (Fin k) (Fin k) ℂ}
    (h : IsQRe A Q R) (hA : FullRank A) (i : Fin k) : R i i ≠ 0 := by
  have h1 : (Aᴴ * A).det = star R.det * R.det := by
    rw [h.eq, Matrix.conjTranspose_mul, Matrix.mul_assoc, ← Matrix.mul_assoc Qᴴ, h.isometry,
      Matrix.one_mul, Matrix.det_mul, Matrix.det_conjTranspose]
  have h2 : R.det ≠ 0 := by
    intro h0
    exact hA (by rw [h1, h0, mul_zero])
  rw [Matrix.det_of_upperTriangular h.upper] at h2
  exact Finset.prod_ne_zero_iff.1 h2 i (Finset.mem_univ _)

theorem ortho_signs {A Q : Matrix (Fin nb) (Fin k) ℂ} {R : Matrix (Fin k) (Fin k) ℂ}
    (h : IsQRe A Q R) (hA : FullRank A) :
    Ortho A (Q * signs R) (signs R * R) (Real.exp (∑ i, Real.log ‖R i i‖)) := by
  have hne := det_diag_ne h hA
  have hss : signs R * signs R = 1 := by
    rw [signs, diagonal_mul_diagonal, ← diagonal_one]
    congr 1; funext i; exact npSign_sq (h.real i) (hne i)
  have hst : (signs R)ᴴ = signs R := by
    rw [signs, diagonal_conjTranspose]
    congr 1; funext i; exact npSign_star
  refine ⟨?_, ?_, ?_, ?_, Real.exp_pos _⟩
  · rw [Matrix.conjTranspose_mul, Matrix.mul_assoc, ← Matrix.mul_assoc Qᴴ, h.isometry,
      Matrix.one_mul, hst, hss]
  · rw [Matrix.mul_assoc, ← Matrix.mul_assoc (signs R), hss, Matrix.one_mul, ← h.eq]
  · intro i j hij
    rw [signs, diagonal_mul, h.upper hij, mul_zero]
  · have hup : (signs R * R).BlockTriangular id := by
      intro i j hij
      rw [signs, diagonal_mul, h.upper hij, mul_zero]
    rw [Matrix.det_of_upperTriangular hup, Real.exp_sum]
    push_cast
    refine Finset.prod_congr rfl fun i _ => ?_
    rw [signs, diagonal_mul, npSign_mul (h.real i), ← Complex.ofReal_exp,
      Real.exp_log (norm_pos_iff.2 (hne i))]

/-! ## C22 -/

/-- Rank-one update of an inverse, whatever matrix it is the inverse of. -/
theorem shermanMorrison_eq (A : Matrix (Fin k) (Fin k) ℂ) (u vt : Fin k → ℂ) (hA : A.det ≠ 0)
    (hA' : (A + vecMulVec u vt).det ≠ 0) :
    shermanMorrison A⁻¹ u vt = (A + vecMulVec u vt)⁻¹ := by
  have h1 : 1 + vt ⬝ᵥ (A⁻¹ *ᵥ u) ≠ 0 := by
    rw [RankOne.det_add A hA] at hA'
    exact right_ne_zero_of_mul hA'
  rw [RankOne.inv_add A hA u vt h1, shermanMorrison, Matrix.mul_vecMulVec, Matrix.vecMulVec_mul,
    ← Matrix.dotProduct_mulVec, one_div]

/-- The overlap matrix after adding `vt` to row `i` of the walker's orbitals. -/
theorem overlap_row (A B : Matrix (Fin nb) (Fin k) ℂ) (i : Fin nb) (vt : Fin k → ℂ) :
    Aᴴ * (B + Matrix.of fun a j => if a = i then vt j else 0) =
      Aᴴ * B + vecMulVec (fun j => star (A i j)) vt := by
  rw [Matrix.mul_add]
  congr 1
  ext a j
  rw [Matrix.mul_apply, Finset.sum_eq_single i]
  · simp [vecMulVec_apply, Matrix.conjTranspose_apply]
  · intro b _ hb; simp [hb]
  · simp

/-- **C22** `update_inverse_overlap`: after adding `vtup` to row `i` of the up orbitals and `vtdn` to
row `i` of the down orbitals, updating the stored inverses gives the inverse overlap matrices of the
changed walker, for every trial, walker, row and change with non-singular overlaps. -/
theorem updateInverseOverlap_eq (psi : Wfn nb nu nd) (w w' : Wk nb nu nd) (i : Fin nb)
    (vtup : Fin nu → ℂ) (vtdn : Fin nd → ℂ)
    (hup : ∀ a j, up w'.phi a j = up w.phi a j + if a = i then vtup j else 0)
    (hdn : ∀ a j, dn w'.phi a j = dn w.phi a j + if a = i then vtdn j else 0)
    (h0u : ((up psi)ᴴ * up w.phi).det ≠ 0) (h0d : ((dn psi)ᴴ * dn w.phi).det ≠ 0)
    (h1u : ((up psi)ᴴ * up w'.phi).det ≠ 0) (h1d : ((dn psi)ᴴ * dn w'.phi).det ≠ 0)
    (hinvu : w.invUp = ((up psi)ᴴ * up w.phi)⁻¹) (hinvd : w.invDn = ((dn psi)ᴴ * dn w.phi)⁻¹) :
    (updateInverseOverlap psi w vtup vtdn i).invUp = ((up psi)ᴴ * up w'.phi)⁻¹ ∧
    (updateInverseOverlap psi w vtup vtdn i).invDn = ((dn psi)ᴴ * dn w'.phi)⁻¹ := by
  have eu : up w'.phi = up w.phi + Matrix.of fun a j => if a = i then vtup j else 0 := by
    ext a j; exact hup a j
  have ed : dn w'.phi = dn w.phi + Matrix.of fun a j => if a = i then vtdn j else 0 := by
    ext a j; exact hdn a j
  rw [eu, overlap_row] at h1u ⊢
  rw [ed, overlap_row] at h1d ⊢
  constructor
  · show shermanMorrison w.invUp _ _ = _
    rw [hinvu, shermanMorrison_eq _ _ _ h0u h1u]
  · show shermanMorrison w.invDn _ _ = _
    rw [hinvd, shermanMorrison_eq _ _ _ h0d h1d]

/-! ## C23 -/

theorem gab_facts (A B : Matrix (Fin nb) (Fin k) ℂ) (h : (Aᴴ * B).det ≠ 0) :
    gab A B * gab A B = gab A B ∧ (gab A B).trace = k ∧ gab A B * B = B ∧ Aᴴ * gab A B = Aᴴ := by
  have hu := isUnit_iff_ne_zero.2 h
  have hB : gab A B * B = B := by
    rw [gab, Matrix.mul_assoc, Matrix.mul_assoc, Matrix.nonsing_inv_mul _ hu, Matrix.mul_one]
  refine ⟨?_, ?_, hB, ?_⟩
  · conv_lhs => rw [show gab A B * gab A B = (gab A B * B) * ((Aᴴ * B)⁻¹ * Aᴴ) by
      rw [Matrix.mul_assoc]; rfl]
    rw [hB]; rfl
  · rw [gab, Matrix.trace_mul_comm, Matrix.mul_assoc, Matrix.nonsing_inv_mul _ hu, Matrix.trace_one]
    simp
  · rw [gab, ← Matrix.mul_assoc, ← Matrix.mul_assoc, Matrix.mul_nonsing_inv _ hu, Matrix.one_mul]

/-- Mixing the orbitals of either wavefunction does not change the Green's function. -/
theorem gab_mix (A B : Matrix (Fin nb) (Fin k) ℂ) (X Y : Matrix (Fin k) (Fin k) ℂ)
    (hX : X.det ≠ 0) (hY : Y.det ≠ 0) : gab (A * X) (B * Y) = gab A B := by
  have hX' : Xᴴ.det ≠ 0 := by rw [Matrix.det_conjTranspose]; exact star_ne_zero.2 hX
  have e : (A * X)ᴴ * (B * Y) = Xᴴ * (Aᴴ * B) * Y := by
    rw [Matrix.conjTranspose_mul]; simp only [Matrix.mul_assoc]
  rw [gab, e, Matrix.mul_inv_rev, Matrix.mul_inv_rev, Matrix.conjTranspose_mul]
  have h1 := Matrix.mul_nonsing_inv _ (isUnit_iff_ne_zero.2 hY)
  have h2 := Matrix.nonsing_inv_mul _ (isUnit_iff_ne_zero.2 hX')
  calc B * Y * (Y⁻¹ * ((Aᴴ * B)⁻¹ * Xᴴ⁻¹) * (Xᴴ * Aᴴ))
      = B * ((Y * Y⁻¹) * ((Aᴴ * B)⁻¹ * ((Xᴴ⁻¹ * Xᴴ) * Aᴴ))) := by simp only [Matrix.mul_assoc]
    _ = gab A B := by rw [h1, h2, Matrix.one_mul, Matrix.one_mul]; rfl

/-- Green's function stored by `greens_function`, up spin, is the transpose of `gab`. -/
theorem greensFunction_eq (psi : Wfn nb nu nd) (w : Wk nb nu nd) :
    (greensFunction psi w).gUp = (gab (up psi) (up w.phi))ᵀ ∧
    (greensFunction psi w).gDn = (gab (dn psi) (dn w.phi))ᵀ :=
  ⟨gabMod_eq _ _, gabMod_eq _ _⟩

/-- **C23** The Green's functions stored for a walker are idempotent, have trace equal to the number
of electrons of the spin, leave the walker's and the trial's orbitals unchanged, are the products of
trial and half-rotated Green's function, and stay the same when the walker's orbitals of each spin
are mixed by an invertible matrix. -/
theorem greensFunction_projector (psi : Wfn nb nu nd) (w : Wk nb nu nd)
    (hu : ((up psi)ᴴ * up w.phi).det ≠ 0) (hd : ((dn psi)ᴴ * dn w.phi).det ≠ 0) :
    let g := greensFunction psi w
    (g.gUp * g.gUp = g.gUp ∧ g.gDn * g.gDn = g.gDn) ∧
    (g.gUp.trace = nu ∧ g.gDn.trace = nd) ∧
    (g.gUpᵀ * up w.phi = up w.phi ∧ g.gDnᵀ * dn w.phi = dn w.phi) ∧
    (g.gUp * (up psi).map star = (up psi).map star ∧ g.gDn * (dn psi).map star = (dn psi).map star) ∧
    (g.gUp = (up psi).map star * g.gmodUp ∧ g.gDn = (dn psi).map star * g.gmodDn) ∧
    (g.gmodUp * (up psi).map star = 1 ∧ g.gmodDn * (dn psi).map star = 1) ∧
    ∀ (w' : Wk nb nu nd) (X : Matrix (Fin nu) (Fin nu) ℂ) (Y : Matrix (Fin nd) (Fin nd) ℂ),
      X.det ≠ 0 → Y.det ≠ 0 → up w'.phi = up w.phi * X → dn w'.phi = dn w.phi * Y →
      (greensFunction psi w').gUp = g.gUp ∧ (greensFunction psi w').gDn = g.gDn := by
  intro g
  obtain ⟨eu, ed⟩ := greensFunction_eq psi w
  obtain ⟨u1, u2, u3, u4⟩ := gab_facts _ _ hu
  obtain ⟨d1, d2, d3, d4⟩ := gab_facts _ _ hd
  have mapstar : ∀ {l : Nat} (A : Matrix (Fin nb) (Fin l) ℂ), A.map star = (Aᴴ)ᵀ := by
    intro l A; ext i j; simp [Matrix.conjTranspose_apply]
  have hgm : ∀ {l : Nat} (A B : Matrix (Fin nb) (Fin l) ℂ), (Aᴴ * B).det ≠ 0 →
      (Bᵀ * A.map star)⁻¹ * Bᵀ * A.map star = 1 := by
    intro l A B h
    rw [Matrix.mul_assoc]
    refine Matrix.nonsing_inv_mul _ (isUnit_iff_ne_zero.2 ?_)
    rw [transpose_overlap, Matrix.det_transpose]; exact h
  refine ⟨⟨?_, ?_⟩, ⟨?_, ?_⟩, ⟨?_, ?_⟩, ⟨?_, ?_⟩, ⟨rfl, rfl⟩, ⟨hgm _ _ hu, hgm _ _ hd⟩, ?_⟩
  · show (greensFunction psi w).gUp * (greensFunction psi w).gUp = _
    rw [eu, ← Matrix.transpose_mul, u1]
  · show (greensFunction psi w).gDn * (greensFunction psi w).gDn = _
    rw [ed, ← Matrix.transpose_mul, d1]
  · show ((greensFunction psi w).gUp).trace = _
    rw [eu, Matrix.trace_transpose, u2]
  · show ((greensFunction psi w).gDn).trace = _
    rw [ed, Matrix.trace_transpose, d2]
  · show ((greensFunction psi w).gUp)ᵀ * up w.phi = up w.phi
    rw [eu, Matrix.transpose_transpose, u3]
  · show ((greensFunction psi w).gDn)ᵀ * dn w.phi = dn w.phi
    rw [ed, Matrix.transpose_transpose, d3]
  · show (greensFunction psi w).gUp * (up psi).map star = (up psi).map star
    rw [eu, mapstar, ← Matrix.transpose_mul, u4]
  · show (greensFunction psi w).gDn * (dn psi).map star = (dn psi).map star
    rw [ed, mapstar, ← Matrix.transpose_mul, d4]
  · intro w' X Y hX hY hwu hwd
    obtain ⟨eu', ed'⟩ := greensFunction_eq psi w'
    refine ⟨?_, ?_⟩
    · show _ = (greensFunction psi w).gUp
      rw [eu, eu', hwu]
      have := gab_mix (up psi) (up w.phi) 1 X (by simp) hX
      rw [Matrix.mul_one] at this
      rw [this]
    · show _ = (greensFunction psi w).gDn
      rw [ed, ed', hwd]
      have := gab_mix (dn psi) (dn w.phi) 1 Y (by simp) hY
      rw [Matrix.mul_one] at this
      rw [this]

/-! ## C25 -/

/-- The overlap of a wavefunction with the trial. -/
noncomputable def overlap (psi φ : Wfn nb nu nd) : ℂ :=
  ((up psi)ᴴ * up φ).det * ((dn psi)ᴴ * dn φ).det

theorem greensFunction_det (psi : Wfn nb nu nd) (w : Wk nb nu nd) :
    (greensFunction psi w).det = overlap psi w.phi * Complex.exp (-(w.logShift : ℂ)) := by
  show slogProd _ _ _ = _
  rw [slogProd_eq, transpose_overlap, transpose_overlap, Matrix.det_transpose, Matrix.det_transpose]
  rfl

theorem calcOtrial_eq (psi : Wfn nb nu nd) (w : Wk nb nu nd)
    (hu : w.invUp = ((up psi)ᴴ * up w.phi)⁻¹) (hd : w.invDn = ((dn psi)ᴴ * dn w.phi)⁻¹) :
    calcOtrial w = overlap psi w.phi * Complex.exp (w.logShift : ℂ) := by
  rw [calcOtrial, slogProd_eq, hu, hd, Matrix.det_nonsing_inv, Matrix.det_nonsing_inv,
    Ring.inverse_eq_inv', one_div, mul_inv, mul_inv, inv_inv, inv_inv,
    ← Complex.exp_neg, neg_neg]
  rfl

theorem calcOverlap_eq (psi : Wfn nb nu nu) (w : Wk nb nu nu) :
    calcOverlap psi w = overlap psi w.phi * Complex.exp (-(w.logShift : ℂ)) := by
  have e1 : ∀ φ : Wfn nb nu nu, firstNd φ = up φ := fun φ => by
    ext i j; simp only [firstNd, up, Matrix.submatrix_apply]; congr 1
  have e2 : ∀ φ : Wfn nb nu nu, afterNd φ = dn φ := fun φ => by
    ext i j; simp only [afterNd, dn, Matrix.submatrix_apply]; congr 1
  rw [calcOverlap, slogProd_eq, e1, e1, e2, e2]
  by_cases h : 0 < nu
  · rw [if_pos h]; rfl
  · have : nu = 0 := by omega
    subst this
    rw [if_neg h, overlap]
    simp

/-- **C25** (part that holds) With equally many up and down electrons and no log shift, the three
routines that compute the overlap of a walker agree with each other and with the determinant of the
overlap matrices.  What is missing: unequal numbers of electrons (`calcOverlap_unequal`,
`calcOverlap_no_down`) and a non-zero log shift (`calcOtrial_shift`). -/
theorem overlap_routines_partial (psi : Wfn nb nu nu) (w : Wk nb nu nu) (h : w.logShift = 0) :
    calcOverlap psi w = overlap psi w.phi ∧ (greensFunction psi w).det = overlap psi w.phi ∧
    calcOtrial (inverseOverlap psi w) = overlap psi w.phi := by
  refine ⟨?_, ?_, ?_⟩
  · rw [calcOverlap_eq, h]; simp
  · rw [greensFunction_det, h]; simp
  · rw [calcOtrial_eq psi (inverseOverlap psi w) rfl rfl]
    show overlap psi w.phi * Complex.exp (w.logShift : ℂ) = _
    rw [h]; simp

/-- **C25** (any electron numbers, any shift) The overlap from the inverse and the one from the
Green's function differ by the square of the shift factor: the shift enters with opposite signs. -/
theorem calcOtrial_shift (psi : Wfn nb nu nd) (w : Wk nb nu nd) :
    calcOtrial (inverseOverlap psi w) =
      (greensFunction psi w).det * Complex.exp (2 * (w.logShift : ℂ)) := by
  rw [calcOtrial_eq psi (inverseOverlap psi w) rfl rfl, greensFunction_det]
  show overlap psi w.phi * Complex.exp (w.logShift : ℂ) = _
  rw [mul_assoc, ← Complex.exp_add]
  congr 2; ring

/-- **C25** (failure) Without down electrons `calc_overlap` returns the shift factor, whatever the
walker and the trial are. -/
theorem calcOverlap_no_down (psi : Wfn nb nu 0) (w : Wk nb nu 0) :
    calcOverlap psi w = Complex.exp (-(w.logShift : ℂ)) := by
  rw [calcOverlap, slogProd_eq, if_neg (lt_irrefl 0)]
  simp

/-- A walker with the given orbitals and the default values of the other fields. -/
noncomputable def fresh (φ : Wfn nb nu nd) : Wk nb nu nd := ⟨φ, 0, 0, 1, 1, 1, 1, 0, 0, 1, 0⟩

/-- **C25** (failure) With two up electrons and one down electron `calc_overlap` is wrong. -/
theorem calcOverlap_unequal : ∃ (psi : Wfn 2 2 1) (w : Wk 2 2 1), w.logShift = 0 ∧
    (greensFunction psi w).det ≠ calcOverlap psi w ∧ (greensFunction psi w).det = 2 ∧
    calcOverlap psi w = 3 := by
  let psi : Wfn 2 2 1 := !![1, 0, 1; 0, 1, 0]
  let w : Wk 2 2 1 := fresh !![1, 1, 1; 1, 3, 0]
  have h1 : (greensFunction psi w).det = 2 := by
    rw [greensFunction_det]
    have e1 : (up psi)ᴴ * up w.phi = !![1, 1; 1, 3] := by
      ext i j
      fin_cases i <;> fin_cases j <;>
        simp [psi, w, up, fresh, Matrix.mul_apply, Fin.sum_univ_two]
    have e2 : (dn psi)ᴴ * dn w.phi = !![1] := by
      ext i j
      fin_cases i; fin_cases j
      simp [psi, w, dn, fresh, Matrix.mul_apply, Fin.sum_univ_two]
    rw [overlap, e1, e2, Matrix.det_fin_two_of]
    simp [w, fresh]
    norm_num
  have h2 : calcOverlap psi w = 3 := by
    rw [calcOverlap, slogProd_eq, if_pos Nat.one_pos]
    have e1 : (firstNd psi)ᴴ * firstNd w.phi = !![1] := by
      ext i j
      fin_cases i; fin_cases j
      simp [psi, w, firstNd, fresh, Matrix.mul_apply, Fin.sum_univ_two]
    have e2 : (afterNd psi)ᴴ * afterNd w.phi = !![3, 0; 1, 1] := by
      ext i j
      fin_cases i <;> fin_cases j <;>
        simp [psi, w, afterNd, fresh, Matrix.mul_apply, Fin.sum_univ_two]
    rw [e1, e2, Matrix.det_fin_two_of]
    simp [w, fresh]
  exact ⟨psi, w, rfl, by rw [h1, h2]; norm_num, h1, h2⟩

/-! ## C24 -/

theorem overlap_mix (psi φ φ' : Wfn nb nu nd) (X : Matrix (Fin nu) (Fin nu) ℂ)
    (Y : Matrix (Fin nd) (Fin nd) ℂ) (hu : up φ = up φ' * X) (hd : dn φ = dn φ' * Y) :
    overlap psi φ = X.det * Y.det * overlap psi φ' := by
  rw [overlap, overlap, hu, hd, ← Matrix.mul_assoc, ← Matrix.mul_assoc, Matrix.det_mul,
    Matrix.det_mul]
  ring

/-- Reorthogonalisation of full-rank orbitals, without assuming anything about the stored overlap:
the new orbitals are orthonormal and span the same space, the returned number is positive and is the
ratio of the old and the new overlap with every trial, divided by the shift factor. -/
theorem reortho_facts (qr : QR nb) (hqr : QRSpec qr) (w : Wk nb nu nd) (hu : FullRank (up w.phi))
    (hd : FullRank (dn w.phi)) :
    let w' := reortho qr w
    ((up w'.phi)ᴴ * up w'.phi = 1 ∧ (dn w'.phi)ᴴ * dn w'.phi = 1) ∧
    (∃ (X : Matrix (Fin nu) (Fin nu) ℂ) (Y : Matrix (Fin nd) (Fin nd) ℂ), X.det ≠ 0 ∧ Y.det ≠ 0 ∧
      up w.phi = up w'.phi * X ∧ dn w.phi = dn w'.phi * Y) ∧
    0 < w'.detR ∧
    (∀ psi : Wfn nb nu nd, overlap psi w.phi =
      w'.detR * Complex.exp (w.detRShift : ℂ) * overlap psi w'.phi) ∧
    w'.ot = w.ot / w'.detR ∧ w'.ovlp = w'.ot ∧
    Real.exp w'.logDetR = Real.exp w.logDetR * w'.detR := by
  intro w'
  have ou := ortho_signs (hqr _ _ hu) hu
  have od := ortho_signs (hqr _ _ hd) hd
  have eu : up w'.phi = (qr nu (up w.phi)).1 * signs (qr nu (up w.phi)).2 := up_join _ _
  have ed : dn w'.phi = (qr nd (dn w.phi)).1 * signs (qr nd (dn w.phi)).2 := dn_join _ _
  rw [← eu] at ou
  rw [← ed] at od
  have hpos : 0 < w'.detR := Real.exp_pos _
  refine ⟨⟨ou.isometry, od.isometry⟩, ⟨_, _, ?_, ?_, ou.eq, od.eq⟩, hpos, ?_, rfl, rfl, ?_⟩
  · rw [ou.det]; exact_mod_cast ou.pos.ne'
  · rw [od.det]; exact_mod_cast od.pos.ne'
  · intro psi
    rw [overlap_mix psi w.phi w'.phi _ _ ou.eq od.eq, ou.det, od.det]
    congr 1
    rw [← Complex.ofReal_exp, ← Complex.ofReal_mul, ← Complex.ofReal_mul]
    congr 1
    show _ = Real.exp (_ - w.detRShift) * Real.exp w.detRShift
    rw [← Real.exp_add, ← Real.exp_add]
    congr 1; ring
  · show Real.exp (w.logDetR + Real.log w'.detR) = _
    rw [Real.exp_add, Real.exp_log hpos]

/-- **C24** (part that holds) Without a determinant shift: if the stored overlap of a walker is its
overlap with the trial (times the factor of the log shift) and not zero, then after
reorthogonalisation it is the overlap of the new orbitals with the trial, the returned number is the
positive ratio of the old overlap to the new one, and the accumulated logarithm grows by its
logarithm.  What is missing: walkers with a determinant shift (`reortho_shift`). -/
theorem reortho_partial (qr : QR nb) (hqr : QRSpec qr) (psi : Wfn nb nu nd) (w : Wk nb nu nd)
    (hne : overlap psi w.phi ≠ 0) (hs : w.detRShift = 0)
    (hot : w.ot = overlap psi w.phi * Complex.exp (-(w.logShift : ℂ))) :
    let w' := reortho qr w
    w'.ot = overlap psi w'.phi * Complex.exp (-(w'.logShift : ℂ)) ∧ w'.ovlp = w'.ot ∧
    (w'.detR : ℂ) = overlap psi w.phi / overlap psi w'.phi ∧ 0 < w'.detR ∧
    w'.logDetR = w.logDetR + Real.log w'.detR ∧
    ((up w'.phi)ᴴ * up w'.phi = 1 ∧ (dn w'.phi)ᴴ * dn w'.phi = 1) := by
  intro w'
  have hu : FullRank (up w.phi) := fullRank_of_overlap (left_ne_zero_of_mul hne)
  have hd : FullRank (dn w.phi) := fullRank_of_overlap (right_ne_zero_of_mul hne)
  obtain ⟨h1, -, h3, h4, h5, h6, h7⟩ := reortho_facts qr hqr w hu hd
  have h4' := h4 psi
  rw [hs] at h4'
  simp only [Complex.ofReal_zero, Complex.exp_zero, mul_one] at h4'
  have hdR : (w'.detR : ℂ) ≠ 0 := by exact_mod_cast h3.ne'
  refine ⟨?_, h6, ?_, h3, ?_, h1⟩
  · rw [h5, hot, h4']
    show _ = overlap psi w'.phi * Complex.exp (-(w.logShift : ℂ))
    have hdR' : ((reortho qr w).detR : ℂ) ≠ 0 := hdR
    field_simp
    rfl
  · have : overlap psi w'.phi ≠ 0 := by
      intro h0
      apply hne
      rw [h4']
      show _ * overlap psi w'.phi = 0
      rw [h0, mul_zero]
    rw [h4', mul_div_assoc]
    show _ = _ * (overlap psi w'.phi / overlap psi w'.phi)
    rw [div_self this, mul_one]
  · rfl

/-- **C24** (failure) With a determinant shift the stored overlap after reorthogonalisation is too
large by the exponential of the shift, and the returned number too small by the same factor. -/
theorem reortho_shift (qr : QR nb) (hqr : QRSpec qr) (psi : Wfn nb nu nd) (w : Wk nb nu nd)
    (hne : overlap psi w.phi ≠ 0)
    (hot : w.ot = overlap psi w.phi * Complex.exp (-(w.logShift : ℂ))) :
    let w' := reortho qr w
    w'.ot = overlap psi w'.phi * Complex.exp (-(w'.logShift : ℂ)) * Complex.exp (w.detRShift : ℂ) ∧
    (w.detRShift ≠ 0 → w'.ot ≠ overlap psi w'.phi * Complex.exp (-(w'.logShift : ℂ))) := by
  intro w'
  have hu : FullRank (up w.phi) := fullRank_of_overlap (left_ne_zero_of_mul hne)
  have hd : FullRank (dn w.phi) := fullRank_of_overlap (right_ne_zero_of_mul hne)
  obtain ⟨-, -, h3, h4, h5, -, -⟩ := reortho_facts qr hqr w hu hd
  have hdR : (w'.detR : ℂ) ≠ 0 := by exact_mod_cast h3.ne'
  have h4' : overlap psi w.phi = (w'.detR : ℂ) * Complex.exp (w.detRShift : ℂ) * overlap psi w'.phi :=
    h4 psi
  have key : w'.ot = overlap psi w'.phi * Complex.exp (-(w'.logShift : ℂ)) *
      Complex.exp (w.detRShift : ℂ) := by
    show w.ot / (w'.detR : ℂ) = overlap psi w'.phi * Complex.exp (-(w.logShift : ℂ)) * _
    rw [hot, h4']
    field_simp
  refine ⟨key, fun hs h => ?_⟩
  have hne' : overlap psi w'.phi * Complex.exp (-(w'.logShift : ℂ)) ≠ 0 := by
    refine mul_ne_zero (fun h0 => hne ?_) (Complex.exp_ne_zero _)
    rw [h4', h0, mul_zero]
  rw [h] at key
  have h1 : Complex.exp (w.detRShift : ℂ) = 1 := by
    have := mul_left_cancel₀ hne' ((mul_one _).trans key)
    exact this.symm
  rw [← Complex.ofReal_exp] at h1
  have h2 : Real.exp w.detRShift = 1 := by exact_mod_cast h1
  exact hs (Real.exp_eq_one_iff _ |>.1 h2)

/-- **C24** In free projection, weight times phase times stored overlap does not change, for every
walker (also with shifts) and any number of reorthogonalisations. -/
theorem orthogonalise_free (qr : QR nb) (w : Wk nb nu nd) (n : Nat) :
    let w' := (orthogonalise qr true)^[n] w
    (w'.weight : ℂ) * w'.phase * w'.ot = w.weight * w.phase * w.ot ∧ w'.ovlp = (if n = 0 then w.ovlp
      else w'.ot) := by
  have one : ∀ v : Wk nb nu nd, (((orthogonalise qr true v).weight : ℝ) : ℂ) *
      (orthogonalise qr true v).phase * (orthogonalise qr true v).ot =
      v.weight * v.phase * v.ot := by
    intro v
    have hpos : 0 < (reortho qr v).detR := Real.exp_pos _
    have hne : ((reortho qr v).detR : ℂ) ≠ 0 := by exact_mod_cast hpos.ne'
    show ((v.weight * ‖((reortho qr v).detR : ℂ)‖ : ℝ) : ℂ) * (v.phase *
      Complex.exp (Complex.I * (Complex.arg ((reortho qr v).detR : ℂ) : ℂ))) *
      (v.ot / ((reortho qr v).detR : ℂ)) = _
    have hp := Complex.norm_mul_exp_arg_mul_I ((reortho qr v).detR : ℂ)
    rw [mul_comm (Complex.arg _ : ℂ)] at hp
    push_cast
    calc _ = v.weight * v.phase * v.ot * ((‖((reortho qr v).detR : ℂ)‖ : ℂ) *
        Complex.exp (Complex.I * (Complex.arg ((reortho qr v).detR : ℂ) : ℂ))) /
        ((reortho qr v).detR : ℂ) := by ring
      _ = _ := by rw [hp]; field_simp
  induction n with
  | zero => exact ⟨rfl, rfl⟩
  | succ n ih =>
    intro w'
    have e : w' = orthogonalise qr true ((orthogonalise qr true)^[n] w) :=
      Function.iterate_succ_apply' _ _ _
    refine ⟨?_, ?_⟩
    · rw [e, one]; exact ih.1
    · rw [if_neg (Nat.succ_ne_zero n), e]; rfl

/-! ## C27 -/

/-- The Taylor sum of the exponential up to order `n`. -/
noncomputable def taylor (n : Nat) (V : Matrix (Fin nb) (Fin nb) ℂ) : Matrix (Fin nb) (Fin nb) ℂ :=
  ∑ j ∈ Finset.range (n + 1), (1 / (j.factorial : ℂ)) • V ^ j

theorem inv_fact_succ (n : Nat) : (1 / ((n + 1 : Nat) : ℂ)) * (1 / (n.factorial : ℂ)) =
    1 / ((n + 1).factorial : ℂ) := by
  rw [Nat.factorial_succ, Nat.cast_mul, one_div_mul_one_div]

theorem applyExponential_taylor (n : Nat) (V : Matrix (Fin nb) (Fin nb) ℂ)
    (φ : Matrix (Fin nb) (Fin k) ℂ) : applyExponential n V φ = taylor n V * φ := by
  have key : ∀ n, (List.range n).foldl
      (fun (s : Matrix (Fin nb) (Fin k) ℂ × Matrix (Fin nb) (Fin k) ℂ) n =>
        let T := (1 / ((n + 1 : Nat) : ℂ)) • (V * s.1)
        (T, s.2 + T)) (φ, φ) = ((1 / (n.factorial : ℂ)) • (V ^ n * φ), taylor n V * φ) := by
    intro n
    induction n with
    | zero => simp [taylor]
    | succ n ih =>
      rw [List.range_succ, List.foldl_append, ih]
      simp only [List.foldl_cons, List.foldl_nil]
      have e : (1 / ((n + 1 : Nat) : ℂ)) • (V * ((1 / (n.factorial : ℂ)) • (V ^ n * φ))) =
          (1 / ((n + 1).factorial : ℂ)) • (V ^ (n + 1) * φ) := by
        rw [Matrix.mul_smul, smul_smul, inv_fact_succ, ← Matrix.mul_assoc, ← pow_succ']
      rw [e]
      congr 1
      rw [taylor, taylor, Finset.sum_range_succ _ (n + 1), Matrix.add_mul, Matrix.smul_mul]
  rw [applyExponential, key]

theorem exponentiateMatrix_taylor (n : Nat) (M : Matrix (Fin nb) (Fin nb) ℂ) :
    exponentiateMatrix n M = taylor n M := by
  have key : ∀ n, (List.range n).foldl
      (fun (s : Matrix (Fin nb) (Fin nb) ℂ × Matrix (Fin nb) (Fin nb) ℂ) n =>
        ((1 / ((n + 2 : Nat) : ℂ)) • (M * s.1), s.2 + s.1)) (M, 1) =
      ((1 / ((n + 1).factorial : ℂ)) • M ^ (n + 1), taylor n M) := by
    intro n
    induction n with
    | zero => simp [taylor]
    | succ n ih =>
      rw [List.range_succ, List.foldl_append, ih]
      simp only [List.foldl_cons, List.foldl_nil]
      have e : (1 / ((n + 2 : Nat) : ℂ)) • (M * ((1 / ((n + 1).factorial : ℂ)) • M ^ (n + 1))) =
          (1 / ((n + 1 + 1).factorial : ℂ)) • M ^ (n + 1 + 1) := by
        rw [Matrix.mul_smul, smul_smul, ← pow_succ', show n + 2 = n + 1 + 1 from rfl, inv_fact_succ]
      rw [e]
      congr 1
      rw [taylor, taylor, Finset.sum_range_succ _ (n + 1)]
  rw [exponentiateMatrix, key]

/-- **C27** The exponential applied in forward propagation and the matrix exponential used in back
propagation are the same Taylor sum, for every matrix, wavefunction and order. -/
theorem exponential_agree (n : Nat) (V : Matrix (Fin nb) (Fin nb) ℂ) (φ : Matrix (Fin nb) (Fin k) ℂ) :
    applyExponential n V φ = (∑ j ∈ Finset.range (n + 1), (1 / (j.factorial : ℂ)) • V ^ j) * φ ∧
    exponentiateMatrix n V = ∑ j ∈ Finset.range (n + 1), (1 / (j.factorial : ℂ)) • V ^ j ∧
    applyExponential n V φ = exponentiateMatrix n V * φ :=
  ⟨applyExponential_taylor n V φ, exponentiateMatrix_taylor n V, by
    rw [applyExponential_taylor, exponentiateMatrix_taylor]⟩

/-- **C27, C15** The matrix used in back propagation is the matrix of the forward step when the
expansion order has its default value. -/
theorem forwardStep_eq (BH1 V : Matrix (Fin nb) (Fin nb) ℂ) (φ : Matrix (Fin nb) (Fin k) ℂ) :
    forwardStep 6 BH1 V φ = propMatrix BH1 V * φ := by
  rw [forwardStep, propMatrix, applyExponential_taylor, exponentiateMatrix_taylor]
  simp only [Matrix.mul_assoc]

/-- **C27, C15** (failure) With any other expansion order it is not: the back-propagation matrix
ignores the option. -/
theorem forwardStep_ne (n : Nat) (hn : n ≠ 6) : ∃ (BH1 V : Matrix (Fin 1) (Fin 1) ℂ)
    (φ : Matrix (Fin 1) (Fin 1) ℂ), forwardStep n BH1 V φ ≠ propMatrix BH1 V * φ := by
  refine ⟨1, 1, 1, fun h => ?_⟩
  have ht : ∀ n, taylor n (1 : Matrix (Fin 1) (Fin 1) ℂ) 0 0 =
      ((∑ j ∈ Finset.range (n + 1), (1 / (j.factorial : ℝ)) : ℝ) : ℂ) := by
    intro n
    rw [taylor, Matrix.sum_apply]
    push_cast
    refine Finset.sum_congr rfl fun j _ => ?_
    simp
  have h0 := congrFun (congrFun h 0) 0
  rw [forwardStep, propMatrix, applyExponential_taylor, exponentiateMatrix_taylor] at h0
  simp only [Matrix.mul_one, Matrix.one_mul] at h0
  rw [ht, ht] at h0
  have h1 : (∑ j ∈ Finset.range (n + 1), (1 / (j.factorial : ℝ))) =
      ∑ j ∈ Finset.range (6 + 1), (1 / (j.factorial : ℝ)) := by exact_mod_cast h0
  have hmono : StrictMono fun n => ∑ j ∈ Finset.range (n + 1), (1 / (j.factorial : ℝ)) := by
    refine strictMono_nat_of_lt_succ fun m => ?_
    rw [Finset.sum_range_succ _ (m + 1)]
    have : (0 : ℝ) < 1 / ((m + 1).factorial : ℝ) := by positivity
    linarith
  exact hn (hmono.injective h1)

/-! ## C15 -/

theorem linReortho_ortho (qr : QR nb) (hqr : QRSpec qr) (A : Matrix (Fin nb) (Fin k) ℂ)
    (hA : FullRank A) : ∃ X d, Ortho A (linReortho qr A).1 X d ∧ (linReortho qr A).2 = (d : ℂ) := by
  have h := ortho_signs (hqr _ _ hA) hA
  exact ⟨_, _, h, h.det⟩

theorem Ortho.fullRank {A Q : Matrix (Fin nb) (Fin k) ℂ} {X : Matrix (Fin k) (Fin k) ℂ} {d : ℝ}
    (h : Ortho A Q X d) : FullRank Q := by
  rw [FullRank, h.isometry]; simp

/-- Product of the determinants of the triangular factors met by back propagation; the code
discards them. -/
noncomputable def backDets (qr : QR nb) (nstblz : Nat) : Nat → List (Matrix (Fin nb) (Fin nb) ℂ) →
    Matrix (Fin nb) (Fin k) ℂ → ℂ
  | _, [], _ => 1
  | i, B :: l, φ =>
    if i ≠ 0 ∧ i % nstblz = 0 then
      (linReortho qr (Bᴴ * φ)).2 * backDets qr nstblz (i + 1) l (linReortho qr (Bᴴ * φ)).1
    else backDets qr nstblz (i + 1) l (Bᴴ * φ)

theorem backLoop_spec (qr : QR nb) (hqr : QRSpec qr) (nstblz : Nat)
    (l : List (Matrix (Fin nb) (Fin nb) ℂ)) : ∀ (i : Nat) (φ : Matrix (Fin nb) (Fin k) ℂ),
    FullRank φ → (∀ B ∈ l, B.det ≠ 0) →
    ∃ (X : Matrix (Fin k) (Fin k) ℂ) (d : ℝ), 0 < d ∧ X.det = d ∧
      backDets qr nstblz i l φ = (d : ℂ) ∧
      l.prodᴴ * φ = backLoop qr nstblz i l φ * X ∧ FullRank (backLoop qr nstblz i l φ) := by
  induction l with
  | nil =>
    intro i φ h _
    refine ⟨1, 1, one_pos, by simp, by simp [backDets], ?_, h⟩
    simp [backLoop]
  | cons B l ih =>
    intro i φ h hB
    have hBd : B.det ≠ 0 := hB B List.mem_cons_self
    have hBc : Bᴴ.det ≠ 0 := by rw [Matrix.det_conjTranspose]; exact star_ne_zero.2 hBd
    have h1 : FullRank (Bᴴ * φ) := h.mul hBc
    have hl : ∀ B ∈ l, B.det ≠ 0 := fun C hC => hB C (List.mem_cons_of_mem _ hC)
    have hprod : (B :: l).prodᴴ * φ = l.prodᴴ * (Bᴴ * φ) := by
      rw [List.prod_cons, Matrix.conjTranspose_mul, Matrix.mul_assoc]
    rw [hprod, backLoop, backDets]
    by_cases hc : i ≠ 0 ∧ i % nstblz = 0
    · simp only [if_pos hc]
      obtain ⟨Y, e, ho, he⟩ := linReortho_ortho qr hqr _ h1
      obtain ⟨X, d, hd, hX, hdet, heq, hfr⟩ := ih (i + 1) (linReortho qr (Bᴴ * φ)).1 ho.fullRank hl
      refine ⟨X * Y, e * d, mul_pos ho.pos hd, ?_, ?_, ?_, hfr⟩
      · rw [Matrix.det_mul, hX, ho.det]; push_cast; ring
      · rw [he, hdet]; push_cast; ring
      · conv_lhs => rw [ho.eq, ← Matrix.mul_assoc, heq, Matrix.mul_assoc]
    · simp only [if_neg hc]
      exact ih (i + 1) _ h1 hl

/-- **C15** Back propagation of the trial `psi` with the step matrices `Bs` (in forward order; all
invertible, any number, any reorthogonalisation frequency, any QR routine), for every walker `φ` at
the start of the window:
* the overlap of the trial with the propagated walker is the overlap of the back-propagated trial
  with the starting walker, times the product of the (positive) determinants of the triangular
  factors;
* the Green's function of back-propagated trial and walker is the same as without
  reorthogonalisation, and this is `M⁻¹` times the Green's function of trial and propagated walker
  times `M`. -/
theorem backPropagate_adjoint (qr : QR nb) (hqr : QRSpec qr) (nstblz : Nat)
    (Bs : List (Matrix (Fin nb) (Fin nb) ℂ)) (hBs : ∀ B ∈ Bs, B.det ≠ 0)
    (psi φ : Matrix (Fin nb) (Fin k) ℂ) (hpsi : FullRank psi) :
    let M := Bs.foldl (fun M B => B * M) 1
    let bp := backPropagate qr nstblz Bs psi
    ∃ d : ℝ, 0 < d ∧ backDets qr nstblz 0 Bs.reverse psi = (d : ℂ) ∧
      (psiᴴ * (M * φ)).det = d * (bpᴴ * φ).det ∧
      gab bp φ = gab (Mᴴ * psi) φ ∧
      ((psiᴴ * (M * φ)).det ≠ 0 → gab psi (M * φ) * M = M * gab bp φ) := by
  intro M bp
  have hM : M = Bs.reverse.prod := by
    have : ∀ (l : List (Matrix (Fin nb) (Fin nb) ℂ)) N,
        l.foldl (fun M B => B * M) N = l.reverse.prod * N := by
      intro l
      induction l with
      | nil => simp
      | cons B l ih => intro N; simp [ih, Matrix.mul_assoc]
    simp only [M, this, mul_one]
  have hrev : ∀ B ∈ Bs.reverse, B.det ≠ 0 := fun B hB => hBs B (List.mem_reverse.1 hB)
  obtain ⟨X, d, hd, hX, hdet, heq, hfr⟩ := backLoop_spec qr hqr nstblz Bs.reverse 0 psi hpsi hrev
  rw [← hM] at heq
  have heq' : Mᴴ * psi = bp * X := heq
  have hX0 : X.det ≠ 0 := by rw [hX]; exact_mod_cast hd.ne'
  have hg : gab bp φ = gab (Mᴴ * psi) φ := by
    have := gab_mix bp φ X 1 hX0 (by simp)
    rw [Matrix.mul_one] at this
    rw [heq', this]
  have hadj : psiᴴ * (M * φ) = (Mᴴ * psi)ᴴ * φ := by
    rw [Matrix.conjTranspose_mul, Matrix.conjTranspose_conjTranspose, Matrix.mul_assoc]
  refine ⟨d, hd, hdet, ?_, hg, fun hne => ?_⟩
  · rw [hadj, heq', Matrix.conjTranspose_mul, Matrix.mul_assoc, Matrix.det_mul,
      Matrix.det_conjTranspose, hX]
    simp
  · rw [hg, gab, gab, ← hadj]
    rw [Matrix.conjTranspose_mul, Matrix.conjTranspose_conjTranspose]
    simp only [Matrix.mul_assoc]

/-- **C15** Without a reorthogonalisation in the window the two overlaps are equal. -/
theorem backPropagate_no_ortho (qr : QR nb) (nstblz : Nat)
    (Bs : List (Matrix (Fin nb) (Fin nb) ℂ)) (hlen : Bs.length ≤ nstblz)
    (psi φ : Matrix (Fin nb) (Fin k) ℂ) :
    ((backPropagate qr nstblz Bs psi)ᴴ * φ).det =
      (psiᴴ * (Bs.foldl (fun M B => B * M) 1 * φ)).det := by
  have key : ∀ (l : List (Matrix (Fin nb) (Fin nb) ℂ)) i (χ : Matrix (Fin nb) (Fin k) ℂ),
      i + l.length ≤ nstblz → backLoop qr nstblz i l χ = l.prodᴴ * χ := by
    intro l
    induction l with
    | nil => intro i χ _; simp [backLoop]
    | cons B l ih =>
      intro i χ h
      rw [List.length_cons] at h
      have hc : ¬ (i ≠ 0 ∧ i % nstblz = 0) := by
        rintro ⟨h0, h1⟩
        rw [Nat.mod_eq_of_lt (by omega)] at h1
        exact h0 h1
      rw [backLoop]
      simp only [if_neg hc]
      rw [ih _ _ (by omega), List.prod_cons, Matrix.conjTranspose_mul, Matrix.mul_assoc]
  have hM : ∀ (l : List (Matrix (Fin nb) (Fin nb) ℂ)) N,
      l.foldl (fun M B => B * M) N = l.reverse.prod * N := by
    intro l
    induction l with
    | nil => simp
    | cons B l ih => intro N; simp [ih, Matrix.mul_assoc]
  rw [backPropagate, key _ _ _ (by simpa using hlen), hM, mul_one, Matrix.conjTranspose_mul,
    Matrix.conjTranspose_conjTranspose, Matrix.mul_assoc]

/-- **C15** Reorthogonalising the walker during forward propagation, at whatever steps, changes
neither the Green's function with any trial nor, up to one positive factor common to all trials, the
overlap. -/
theorem forwardPropagate_gauge (qr : QR nb) (hqr : QRSpec qr)
    (l : List (Matrix (Fin nb) (Fin nb) ℂ × Bool)) : ∀ (φ : Matrix (Fin nb) (Fin k) ℂ),
    (∀ x ∈ l, x.1.det ≠ 0) → FullRank φ →
    let φ0 := l.foldl (fun χ x => x.1 * χ) φ
    let φ1 := forwardPropagate qr l φ
    FullRank φ1 ∧ ∃ d : ℝ, 0 < d ∧ ∀ psi : Matrix (Fin nb) (Fin k) ℂ,
      (psiᴴ * φ0).det = d * (psiᴴ * φ1).det ∧ gab psi φ0 = gab psi φ1 := by
  suffices h : ∀ (φ : Matrix (Fin nb) (Fin k) ℂ),
      (∀ x ∈ l, x.1.det ≠ 0) → FullRank φ → FullRank (forwardPropagate qr l φ) ∧
      ∃ (X : Matrix (Fin k) (Fin k) ℂ) (d : ℝ), 0 < d ∧ X.det = d ∧
        l.foldl (fun χ x => x.1 * χ) φ = forwardPropagate qr l φ * X by
    intro φ hl hφ φ0 φ1
    obtain ⟨h1, X, d, hd, hX, he⟩ := h φ hl hφ
    refine ⟨h1, d, hd, fun psi => ⟨?_, ?_⟩⟩
    · show (psiᴴ * l.foldl (fun χ x => x.1 * χ) φ).det = _
      rw [he, ← Matrix.mul_assoc, Matrix.det_mul, hX, mul_comm]
    · show gab psi (l.foldl (fun χ x => x.1 * χ) φ) = _
      have := gab_mix psi (forwardPropagate qr l φ) 1 X (by simp)
        (by rw [hX]; exact_mod_cast hd.ne')
      rw [Matrix.mul_one] at this
      rw [he, this]
  induction l with
  | nil => intro φ _ h; exact ⟨h, 1, 1, one_pos, by simp, by simp [forwardPropagate]⟩
  | cons x l ih =>
    obtain ⟨B, o⟩ := x
    intro φ hl hφ
    have hB : B.det ≠ 0 := hl (B, o) List.mem_cons_self
    have hl' : ∀ x ∈ l, x.1.det ≠ 0 := fun x hx => hl x (List.mem_cons_of_mem _ hx)
    have h1 : FullRank (B * φ) := hφ.mul hB
    have hlin : ∀ (l : List (Matrix (Fin nb) (Fin nb) ℂ × Bool)) (χ : Matrix (Fin nb) (Fin k) ℂ)
        (Y : Matrix (Fin k) (Fin k) ℂ), l.foldl (fun χ x => x.1 * χ) (χ * Y) =
        l.foldl (fun χ x => x.1 * χ) χ * Y := by
      intro l
      induction l with
      | nil => intro χ Y; rfl
      | cons x l ih2 => intro χ Y; simp only [List.foldl_cons, ← Matrix.mul_assoc, ih2]
    rw [forwardPropagate, List.foldl_cons]
    cases o with
    | false =>
      simp only [Bool.false_eq_true, if_false]
      exact ih _ hl' h1
    | true =>
      simp only [if_true]
      obtain ⟨Y, e, ho, -⟩ := linReortho_ortho qr hqr _ h1
      obtain ⟨h2, X, d, hd, hX, he⟩ := ih _ hl' ho.fullRank
      refine ⟨h2, X * Y, d * e, mul_pos hd ho.pos, ?_, ?_⟩
      · rw [Matrix.det_mul, hX, ho.det]; push_cast; ring
      · conv_lhs => rw [ho.eq, hlin, he, Matrix.mul_assoc]

/-! ## The hypotheses can be met -/

/-- Two basis functions, one electron of each spin. -/
def exPsi : Wfn 2 1 1 := !![1, 0; 0, 1]

/-- A walker that is not orthonormal, with overlap `2 * 3`. -/
noncomputable def exW : Wk 2 1 1 := { fresh (!![2, 1; 1, 3] : Wfn 2 1 1) with ot := 6 }

theorem exW_overlap : ((up exPsi)ᴴ * up exW.phi).det = 2 ∧ ((dn exPsi)ᴴ * dn exW.phi).det = 3 ∧
    overlap exPsi exW.phi = 6 := by
  have h1 : ((up exPsi)ᴴ * up exW.phi).det = 2 := by
    simp [Matrix.det_fin_one, exPsi, exW, fresh, up, Matrix.mul_apply, Fin.sum_univ_two]
  have h2 : ((dn exPsi)ᴴ * dn exW.phi).det = 3 := by
    simp [Matrix.det_fin_one, exPsi, exW, fresh, dn, Matrix.mul_apply, Fin.sum_univ_two]
  exact ⟨h1, h2, by rw [overlap, h1, h2]; norm_num⟩

example : (greensFunction exPsi exW).gUp.trace = 1 := by
  have h := (greensFunction_projector exPsi exW (by rw [exW_overlap.1]; norm_num)
    (by rw [exW_overlap.2.1]; norm_num)).2.1.1
  simpa using h

example : (reortho (someQR 2) exW).ot = overlap exPsi (reortho (someQR 2) exW).phi *
    Complex.exp (-((reortho (someQR 2) exW).logShift : ℂ)) :=
  (reortho_partial (someQR 2) (someQR_spec 2) exPsi exW (by rw [exW_overlap.2.2]; norm_num) rfl
    (by rw [exW_overlap.2.2]; simp [exW, fresh])).1

/-- The walker with a determinant shift, as set by the log-shift option. -/
example : (reortho (someQR 2) { exW with detRShift := 1 }).ot ≠
    overlap exPsi (reortho (someQR 2) { exW with detRShift := 1 }).phi *
    Complex.exp (-((reortho (someQR 2) { exW with detRShift := 1 }).logShift : ℂ)) :=
  (reortho_shift (someQR 2) (someQR_spec 2) exPsi { exW with detRShift := 1 }
    (by show overlap exPsi exW.phi ≠ 0; rw [exW_overlap.2.2]; norm_num)
    (by
      show (6 : ℂ) = overlap exPsi exW.phi * _
      rw [exW_overlap.2.2]; simp [exW, fresh])).2 one_ne_zero

/-- Row update: add 1 to the first element of the up orbital and 2 to that of the down orbital. -/
example : (updateInverseOverlap exPsi (inverseOverlap exPsi exW) (fun _ => 1) (fun _ => 2) 0).invUp =
    ((up exPsi)ᴴ * @up 2 1 1 !![3, 3; 1, 3])⁻¹ :=
  (updateInverseOverlap_eq exPsi (inverseOverlap exPsi exW)
    { exW with phi := (!![3, 3; 1, 3] : Wfn 2 1 1) } 0 (fun _ => 1) (fun _ => 2)
    (by
      intro a j
      fin_cases a <;> fin_cases j <;>
        simp [inverseOverlap, exW, fresh, up, show (Fin.castAdd 1 (0 : Fin 1)) = 0 from rfl] <;>
        norm_num)
    (by
      intro a j
      fin_cases a <;> fin_cases j <;> norm_num [inverseOverlap, exW, fresh, dn])
    (by show ((up exPsi)ᴴ * up exW.phi).det ≠ 0; rw [exW_overlap.1]; norm_num)
    (by show ((dn exPsi)ᴴ * dn exW.phi).det ≠ 0; rw [exW_overlap.2.1]; norm_num)
    (by simp [Matrix.det_fin_one, exPsi, up, Matrix.mul_apply, Fin.sum_univ_two])
    (by simp [Matrix.det_fin_one, exPsi, dn, Matrix.mul_apply, Fin.sum_univ_two])
    rfl rfl).1

/-- Back propagation over three steps with reorthogonalisation in every step but the first. -/
example : ∃ d : ℝ, 0 < d ∧
    ((up exPsi)ᴴ * (([!![1, 1; 0, 1], !![2, 0; 1, 1], !![0, 1; 1, 0]] :
      List (Matrix (Fin 2) (Fin 2) ℂ)).foldl (fun M B => B * M) 1 * up exW.phi)).det =
    d * ((backPropagate (someQR 2) 1 [!![1, 1; 0, 1], !![2, 0; 1, 1], !![0, 1; 1, 0]]
      (up exPsi))ᴴ * up exW.phi).det := by
  obtain ⟨d, h, -, h2, -⟩ := backPropagate_adjoint (someQR 2) (someQR_spec 2) 1
    [!![1, 1; 0, 1], !![2, 0; 1, 1], !![0, 1; 1, 0]]
    (by intro B hB; simp only [List.mem_cons, List.not_mem_nil, or_false] at hB
        rcases hB with rfl | rfl | rfl <;> simp [Matrix.det_fin_two_of])
    (up exPsi) (up exW.phi)
    (by simp [FullRank, Matrix.det_fin_one, exPsi, up, Matrix.mul_apply, Fin.sum_univ_two])
  exact ⟨d, h, h2⟩

end Verif.Slater
