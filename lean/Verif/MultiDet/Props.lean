import Verif.MultiDet.Model
import Verif.Step.Run

/-!
# Multi-determinant trials (C85)

Overlaps, force bias and local energy of a walker with a multi-determinant trial are those of the trial state
`∑ cᵢ Dᵢ`, as long as no determinant is orthogonal to the walker.  A determinant orthogonal to the walker is left
out of force bias and energy although it contributes to both.
-/

namespace Verif.MultiDet

open MeasureTheory Matrix Finset Filter Topology
open Verif.Step (slater prodState orbs ovl2 ovl2_eq spin spinOp onP slater_one hamOp hamOp_elem hubOp hubOp_elem Gen Hub)
open Verif.Energy (ovl oneBody hamil dot2 localChol localHubbard dot2_trace oneBody_eq)

variable {n nx nb nu nd : Nat}

/-- The trial state, complex conjugated: `∑ conj cᵢ Dᵢ*`. -/
noncomputable def bra (T : Trial n nb nu nd) : (Fin nu ⊕ Fin nd → Fin nb) → ℂ :=
  ∑ i, star (T.coeffs i) • slater (T.psi i)

/-- The state of the walker. -/
noncomputable def ket (w : Wk n nb nu nd) : (Fin nu ⊕ Fin nd → Fin nb) → ℂ := prodState (orbs w.phi)

/-- Both overlaps of the determinant with the walker pass the thresholds of `greens_function`. -/
def Pass (D phi : Slater.Wfn nb nu nd) : Prop :=
  tol ≤ ‖ovl (Slater.up D) (Slater.up phi)‖ ∧ tol ≤ ‖ovl2 D phi‖

theorem tol_pos : 0 < tol := by unfold tol; positivity

theorem Pass.ne {D phi : Slater.Wfn nb nu nd} (h : Pass D phi) : ovl2 D phi ≠ 0 :=
  norm_pos_iff.1 (tol_pos.trans_le h.2)

theorem bra_dot (T : Trial n nb nu nd) (v : (Fin nu ⊕ Fin nd → Fin nb) → ℂ) :
    bra T ⬝ᵥ v = ∑ i, star (T.coeffs i) * (slater (T.psi i) ⬝ᵥ v) := by
  rw [bra, sum_dotProduct]
  exact sum_congr rfl fun i _ => by rw [smul_dotProduct, smul_eq_mul]

theorem bra_ket (T : Trial n nb nu nd) (w : Wk n nb nu nd) :
    bra T ⬝ᵥ ket w = ∑ i, star (T.coeffs i) * ovl2 (T.psi i) w.phi := by
  rw [bra_dot]
  exact sum_congr rfl fun i _ => by rw [ket, ovl2_eq]

/-! ## Overlaps -/

/-- **C85 (overlap)**: `calc_overlap` returns the overlap with the trial state. -/
theorem calcOverlap_eq (T : Trial n nb nu nd) (w : Wk n nb nu nd) : (calcOverlap T w).2 = bra T ⬝ᵥ ket w := by
  rw [bra_ket]; rfl

/-- The same for `overlap_direct`. -/
theorem overlapDirect_eq (T : Trial n nb nu nd) (w : Wk n nb nu nd) :
    (overlapDirect T w).2 = bra T ⬝ᵥ ket w := by
  rw [bra_ket]; rfl

theorem one_div_det_inv {k : Nat} (A : Matrix (Fin k) (Fin k) ℂ) : 1 / (A⁻¹).det = A.det := by
  rw [Matrix.det_nonsing_inv, Ring.inverse_eq_inv', one_div, inv_inv]

/-- The same for `calc_otrial` after `inverse_overlap`. -/
theorem calcOtrial_eq (T : Trial n nb nu nd) (w : Wk n nb nu nd) :
    (calcOtrial T (inverseOverlap T w)).2 = bra T ⬝ᵥ ket w := by
  rw [bra_ket]
  show ∑ i, star (T.coeffs i) * (1 / (((Slater.up (T.psi i))ᴴ * Slater.up w.phi)⁻¹).det *
    (1 / (((Slater.dn (T.psi i))ᴴ * Slater.dn w.phi)⁻¹).det)) = _
  refine sum_congr rfl fun i _ => ?_
  rw [one_div_det_inv, one_div_det_inv]
  rfl

/-! ## Green's functions -/

theorem det_flip {k : Nat} (A B : Matrix (Fin nb) (Fin k) ℂ) : (Bᵀ * A.map star).det = ovl A B := by
  rw [ovl, ← det_transpose, Matrix.transpose_mul, Matrix.transpose_transpose]
  rfl

theorem detGreens_pass {D phi : Slater.Wfn nb nu nd} (h : Pass D phi) :
    detGreens D phi = (some (Slater.gabMod (Slater.up D) (Slater.up phi)).1,
      some ((Slater.gabMod (Slater.dn D) (Slater.dn phi)).1, ovl2 D phi)) := by
  unfold detGreens
  simp only [det_flip]
  have h2 : tol ≤ ‖ovl (Slater.up D) (Slater.up phi) * ovl (Slater.dn D) (Slater.dn phi)‖ := h.2
  rw [if_neg (not_lt.2 h.1), if_neg (not_lt.2 h2)]
  rfl

theorem detGreens_skip {D phi : Slater.Wfn nb nu nd} (h : ¬Pass D phi) : (detGreens D phi).2 = none := by
  unfold detGreens
  simp only [det_flip]
  by_cases h1 : ‖ovl (Slater.up D) (Slater.up phi)‖ < tol
  · rw [if_pos h1]
  · rw [if_neg h1]
    have h2 : ‖ovl (Slater.up D) (Slater.up phi) * ovl (Slater.dn D) (Slater.dn phi)‖ < tol := by
      by_contra h2
      exact h ⟨not_lt.1 h1, not_lt.1 h2⟩
    rw [if_pos h2]

/-- The Green's functions of a determinant and the walker. -/
noncomputable def green (D phi : Slater.Wfn nb nu nd) : Fin 2 → Matrix (Fin nb) (Fin nb) ℂ :=
  ![(Slater.gabMod (Slater.up D) (Slater.up phi)).1, (Slater.gabMod (Slater.dn D) (Slater.dn phi)).1]

theorem greens_gi {T : Trial n nb nu nd} {w : Wk n nb nu nd} {i : Fin n} (h : Pass (T.psi i) w.phi) :
    (greensFunction T w).1.gi i = green (T.psi i) w.phi := by
  have e : (greensFunction T w).1.gi i = newG (T.psi i) w.phi (w.gi i) := by
    unfold greensFunction; cases T.split <;> rfl
  rw [e, newG, detGreens_pass h]; rfl

theorem greens_ovlps (T : Trial n nb nu nd) (w : Wk n nb nu nd) (i : Fin n) :
    (greensFunction T w).1.ovlps i = ((detGreens (T.psi i) w.phi).2.map Prod.snd).getD (w.ovlps i) := by
  unfold greensFunction; cases T.split <;> rfl

theorem greens_weights (T : Trial n nb nu nd) (w : Wk n nb nu nd) (i : Fin n) :
    (greensFunction T w).1.weights i =
      ((detGreens (T.psi i) w.phi).2.map fun g => star (T.coeffs i) * g.2).getD (w.weights i) := by
  unfold greensFunction; cases T.split <;> rfl

theorem greens_total (T : Trial n nb nu nd) (w : Wk n nb nu nd) :
    (greensFunction T w).2 =
      ∑ i, ((detGreens (T.psi i) w.phi).2.map fun g => star (T.coeffs i) * g.2).getD 0 := by
  unfold greensFunction; cases T.split <;> rfl

theorem greens_phi (T : Trial n nb nu nd) (w : Wk n nb nu nd) : (greensFunction T w).1.phi = w.phi := by
  unfold greensFunction; cases T.split <;> rfl

/-- **C85 (overlap returned with the Green's functions)**: it differs from the overlap with the trial state at most
by the determinants below the threshold. -/
theorem greens_overlap_error (T : Trial n nb nu nd) (w : Wk n nb nu nd) :
    ‖(greensFunction T w).2 - bra T ⬝ᵥ ket w‖ ≤
      tol * ∑ i, ‖T.coeffs i‖ * max 1 ‖ovl (Slater.dn (T.psi i)) (Slater.dn w.phi)‖ := by
  rw [greens_total, bra_ket, ← sum_sub_distrib, mul_sum]
  refine (norm_sum_le _ _).trans (sum_le_sum fun i _ => ?_)
  have hp : 0 ≤ tol * (‖T.coeffs i‖ * max 1 ‖ovl (Slater.dn (T.psi i)) (Slater.dn w.phi)‖) := by
    have := tol_pos; positivity
  by_cases h : Pass (T.psi i) w.phi
  · rw [detGreens_pass h]
    simpa using hp
  · rw [detGreens_skip h]
    simp only [Option.map_none, Option.getD_none, zero_sub, norm_neg, norm_mul, norm_star]
    have hle : ‖ovl2 (T.psi i) w.phi‖ ≤ tol * max 1 ‖ovl (Slater.dn (T.psi i)) (Slater.dn w.phi)‖ := by
      unfold Pass at h
      rw [not_and_or, not_le, not_le] at h
      rcases h with h | h
      · rw [ovl2, norm_mul]
        exact mul_le_mul h.le (le_max_right _ _) (norm_nonneg _) tol_pos.le
      · exact h.le.trans (le_mul_of_one_le_right tol_pos.le (le_max_left _ _))
    calc _ ≤ ‖T.coeffs i‖ * (tol * max 1 ‖ovl (Slater.dn (T.psi i)) (Slater.dn w.phi)‖) :=
          mul_le_mul_of_nonneg_left hle (norm_nonneg _)
      _ = _ := by ring

/-- It is exact if each determinant passes or is orthogonal to the walker. -/
theorem greens_overlap (T : Trial n nb nu nd) (w : Wk n nb nu nd)
    (h : ∀ i, Pass (T.psi i) w.phi ∨ ovl2 (T.psi i) w.phi = 0) :
    (greensFunction T w).2 = bra T ⬝ᵥ ket w := by
  rw [greens_total, bra_ket]
  refine sum_congr rfl fun i _ => ?_
  by_cases hp : Pass (T.psi i) w.phi
  · rw [detGreens_pass hp]; rfl
  · rw [detGreens_skip hp, (h i).resolve_left hp, mul_zero]; rfl

/-! ## Force bias -/

theorem green_one (D phi : Slater.Wfn nb nu nd) (hO : ovl2 D phi ≠ 0) (X : Fin 2 → Matrix (Fin nb) (Fin nb) ℂ) :
    ovl2 D phi * (dot2 (X 0) (green D phi 0) + dot2 (X 1) (green D phi 1)) =
      slater D ⬝ᵥ (spinOp spin X *ᵥ prodState (orbs phi)) := by
  have hu : ovl (Slater.up D) (Slater.up phi) ≠ 0 := left_ne_zero_of_mul hO
  have hd : ovl (Slater.dn D) (Slater.dn phi) ≠ 0 := right_ne_zero_of_mul hO
  have e := slater_one D phi X
  have e2 : spinOp (spin : Fin nu ⊕ Fin nd → Fin 2) X = ∑ a, onP a (X (spin a)) := rfl
  rw [e2, e, oneBody_eq _ _ _ hu, oneBody_eq _ _ _ hd, dot2_trace, dot2_trace]
  show ovl2 D phi * ((X 0 * (Slater.gabMod (Slater.up D) (Slater.up phi)).1ᵀ).trace +
    (X 1 * (Slater.gabMod (Slater.dn D) (Slater.dn phi)).1ᵀ).trace) = _
  rw [Slater.gabMod_eq, Slater.gabMod_eq, Matrix.transpose_transpose, Matrix.transpose_transpose, ovl2]
  ring

theorem dot_both (X : Matrix (Fin nb) (Fin nb) ℂ) (G : Fin 2 → Matrix (Fin nb) (Fin nb) ℂ) :
    ∑ p, ∑ q, (G 0 + G 1) p q * X p q = dot2 X (G 0) + dot2 X (G 1) := by
  simp only [dot2, ← sum_add_distrib, Matrix.add_apply]
  exact sum_congr rfl fun p _ => sum_congr rfl fun q _ => by ring

/-- **C85 (one-body operators, partial)**: if every determinant passes, the contraction used for the force bias is the
mixed expectation `⟨Ψ|X|φ⟩ / ⟨Ψ|φ⟩` with the trial state.  Missing: determinants orthogonal to the walker, for which
`force_bias_skips` shows what is left out. -/
theorem contract_partial (T : Trial n nb nu nd) (w : Wk n nb nu nd) (h : ∀ i, Pass (T.psi i) w.phi)
    (X : Matrix (Fin nb) (Fin nb) ℂ) :
    contractOneBody T (greensFunction T w).1 X =
      (bra T ⬝ᵥ (spinOp spin (fun _ => X) *ᵥ ket w)) / (bra T ⬝ᵥ ket w) := by
  rw [contractOneBody, bra_ket, bra_dot]
  have ho : ∀ i, (greensFunction T w).1.ovlps i = ovl2 (T.psi i) w.phi := fun i => by
    rw [greens_ovlps, detGreens_pass (h i)]; rfl
  congr 1
  · refine sum_congr rfl fun i _ => ?_
    rw [ho, greens_gi (h i), dot_both, mul_assoc, green_one _ _ (h i).ne fun _ => X]
    rfl
  · exact sum_congr rfl fun i _ => by rw [ho]

/-! ## Local energy -/

/-- `eloc` is the mixed expectation of `H` for single determinants. -/
def Local (eloc : (Fin 2 → Matrix (Fin nb) (Fin nb) ℂ) → ℂ)
    (H : Matrix (Fin nu ⊕ Fin nd → Fin nb) (Fin nu ⊕ Fin nd → Fin nb) ℂ) : Prop :=
  ∀ D phi : Slater.Wfn nb nu nd, ovl2 D phi ≠ 0 →
    eloc (green D phi) * ovl2 D phi = slater D ⬝ᵥ (H *ᵥ prodState (orbs phi))

/-- It is so for `local_energy_generic_cholesky`. -/
theorem local_generic (g : Gen nx nb) :
    Local (nu := nu) (nd := nd) (fun G => (localChol g.h1 g.chol G g.ecore).1) (hamOp g.h1 g.chol g.ecore spin) := by
  intro D phi hO
  rw [hamOp_elem, ← Energy.localChol_expectation g.h1 g.chol g.ecore (Slater.up D) (Slater.up phi) (Slater.dn D)
    (Slater.dn phi) (left_ne_zero_of_mul hO) (right_ne_zero_of_mul hO)]
  rfl

/-- It is so for `local_energy_hubbard`. -/
theorem local_hubbard (h : Hub nb) :
    Local (nu := nu) (nd := nd) (fun G => (localHubbard h.h1 h.U h.symmetric G).1) (hubOp h.h1 h.U spin) := by
  intro D phi hO
  have e := Energy.localHubbard_expectation h.h1 h.U (Slater.up D) (Slater.up phi) (Slater.dn D)
    (Slater.dn phi) (left_ne_zero_of_mul hO) (right_ne_zero_of_mul hO) h.symmetric
  rw [hubOp_elem]
  exact e

/-- The energy computed after `greens_function`, whatever was stored before: the determinants that pass contribute
their matrix elements, the others what was stored. -/
theorem localEnergy_skips {T : Trial n nb nu nd} (hT : T.split = none) {eloc : (Fin 2 → Matrix (Fin nb) (Fin nb) ℂ) → ℂ}
    {H : Matrix (Fin nu ⊕ Fin nd → Fin nb) (Fin nu ⊕ Fin nd → Fin nb) ℂ} (hl : Local eloc H) (w : Wk n nb nu nd)
    (h : ∀ i, Pass (T.psi i) w.phi ∨ (ovl2 (T.psi i) w.phi = 0 ∧ w.weights i = 0)) :
    localEnergy T eloc (greensFunction T w).1 =
      (∑ i, open scoped Classical in if Pass (T.psi i) w.phi then
        star (T.coeffs i) * (slater (T.psi i) ⬝ᵥ (H *ᵥ ket w)) else 0) / (bra T ⬝ᵥ ket w) := by
  classical
  rw [localEnergy, hT, if_neg (by simp), localEnergyMultiDet, bra_ket]
  have hw : ∀ i, (greensFunction T w).1.weights i = star (T.coeffs i) * ovl2 (T.psi i) w.phi := by
    intro i
    rw [greens_weights]
    by_cases hp : Pass (T.psi i) w.phi
    · rw [detGreens_pass hp]; rfl
    · rw [detGreens_skip hp, ((h i).resolve_left hp).1, mul_zero]
      exact ((h i).resolve_left hp).2
  congr 1
  · refine sum_congr rfl fun i _ => ?_
    by_cases hp : Pass (T.psi i) w.phi
    · rw [if_pos hp, hw, greens_gi hp, ket, ← hl _ _ hp.ne]
      ring
    · rw [if_neg hp, hw, ((h i).resolve_left hp).1]
      ring
  · exact sum_congr rfl fun i _ => hw i

/-- **C85 (local energy, partial)**: if every determinant passes, the local energy is `⟨Ψ|H|φ⟩ / ⟨Ψ|φ⟩` with the trial
state.  Missing: determinants orthogonal to the walker (`localEnergy_skips`, `energy_wrong`). -/
theorem localEnergy_partial {T : Trial n nb nu nd} (hT : T.split = none)
    {eloc : (Fin 2 → Matrix (Fin nb) (Fin nb) ℂ) → ℂ}
    {H : Matrix (Fin nu ⊕ Fin nd → Fin nb) (Fin nu ⊕ Fin nd → Fin nb) ℂ} (hl : Local eloc H) (w : Wk n nb nu nd)
    (h : ∀ i, Pass (T.psi i) w.phi) :
    localEnergy T eloc (greensFunction T w).1 = (bra T ⬝ᵥ (H *ᵥ ket w)) / (bra T ⬝ᵥ ket w) := by
  classical
  rw [localEnergy_skips hT hl w fun i => Or.inl (h i), bra_dot T (H *ᵥ ket w)]
  congr 1
  exact sum_congr rfl fun i _ => by rw [if_pos (h i)]

/-- **C85 (zero variance)**: if the trial state is an eigenstate, the local energy of every walker that no determinant
is orthogonal to is the eigenvalue. -/
theorem zero_variance {T : Trial n nb nu nd} (hT : T.split = none)
    {eloc : (Fin 2 → Matrix (Fin nb) (Fin nb) ℂ) → ℂ}
    {H : Matrix (Fin nu ⊕ Fin nd → Fin nb) (Fin nu ⊕ Fin nd → Fin nb) ℂ} (hl : Local eloc H) {E : ℂ}
    (hE : bra T ᵥ* H = E • bra T) (w : Wk n nb nu nd) (h : ∀ i, Pass (T.psi i) w.phi) (h0 : bra T ⬝ᵥ ket w ≠ 0) :
    localEnergy T eloc (greensFunction T w).1 = E := by
  rw [localEnergy_partial hT hl w h, Matrix.dotProduct_mulVec, hE, smul_dotProduct, smul_eq_mul, mul_div_assoc,
    div_self h0, mul_one]

/-- **C85 (separate trial for energies)**: with `split_trial_local_energy` energy times ratio of overlaps is
`⟨cⱼDⱼ|H|φ⟩ / ⟨Ψ|φ⟩` and the ratio is `⟨cⱼDⱼ|φ⟩ / ⟨Ψ|φ⟩`, provided the first determinant has a stored overlap
(line 253 reads its entry for every determinant). -/
theorem split_energy_partial {T : Trial n nb nu nd} {j : Fin n} (hT : T.split = some j)
    {eloc : (Fin 2 → Matrix (Fin nb) (Fin nb) ℂ) → ℂ}
    {H : Matrix (Fin nu ⊕ Fin nd → Fin nb) (Fin nu ⊕ Fin nd → Fin nb) ℂ} (hl : Local eloc H) (w : Wk n nb nu nd)
    (h : ∀ i, Pass (T.psi i) w.phi) (hc : T.coeffs j ≠ 0) :
    (greensFunction T w).1.leOratio * localEnergy T eloc (greensFunction T w).1 =
        star (T.coeffs j) * (slater (T.psi j) ⬝ᵥ (H *ᵥ ket w)) / (bra T ⬝ᵥ ket w) ∧
      (greensFunction T w).1.leOratio = star (T.coeffs j) * (slater (T.psi j) ⬝ᵥ ket w) / (bra T ⬝ᵥ ket w) := by
  set z : Fin n := ⟨0, Nat.lt_of_le_of_lt (Nat.zero_le _) j.2⟩ with hz
  have e1 : (greensFunction T w).1.leOratio = star (T.coeffs j) * ovl2 (T.psi j) w.phi / (bra T ⬝ᵥ ket w) := by
    rw [← greens_overlap T w fun i => Or.inl (h i), greens_total]
    unfold greensFunction
    rw [hT]
    simp only [detGreens_pass (h j)]
    rfl
  have e2 : (greensFunction T w).1.leG = green (T.psi j) w.phi := by
    unfold greensFunction
    rw [hT]
    simp only [newG, detGreens_pass (h j)]
    rfl
  have e3 : (greensFunction T w).1.leWeight = star (T.coeffs j) * ovl2 (T.psi z) w.phi := by
    unfold greensFunction
    rw [hT]
    simp only [detGreens_pass (h j)]
    rw [← hz, detGreens_pass (h z)]
    rfl
  have hne : star (T.coeffs j) * ovl2 (T.psi z) w.phi ≠ 0 := mul_ne_zero (star_ne_zero.2 hc) (h z).ne
  constructor
  · rw [localEnergy, hT, if_pos (by simp), localEnergyMultiDet, Fin.sum_univ_one, Fin.sum_univ_one, e2, e3, e1,
      mul_div_cancel_left₀ _ hne, ket, ← hl _ _ (h j).ne]
    ring
  · rw [e1, ket, ovl2_eq]

end Verif.MultiDet
