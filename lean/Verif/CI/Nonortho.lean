import Verif.CI.ExpansionProps
import Verif.Grand.Sector

/-!
# Recomputed coefficients of a non-orthogonal expansion (C87)

Model of the second branch of `MultiSlater.recompute_ci_coeffs` (pauxy/trial_wavefunction/multi_slater.py 207-227).
`scipy.linalg.inv` of a singular matrix raises an exception (`none`); the generalised `scipy.linalg.eigh` is a parameter
with the contract `GenEigh`.  The energy routine is an argument.
-/

namespace Verif.CI.Nonortho

open Finset Matrix
open Verif.Step (slater prodState orbs spin Anti Sym ovl2 ovl2_eq unit Hub hubOp)
open Verif.MultiDet (Trial Local green bra bra_dot)
open Verif.Energy (ovl)

variable {n nb nu nd : Nat}

/-! ## Model -/

/-- The threshold of line 216. -/
noncomputable def ciTol : ℝ := 1 / 10 ^ 12

/-- One pass of the loops, lines 211-225: the entries of `H` and `S`, zero if below the threshold. -/
noncomputable def entry (eloc : (Fin 2 → Matrix (Fin nb) (Fin nb) ℂ) → ℂ) (di dj : Slater.Wfn nb nu nd) : ℂ × ℂ :=
  let a := Slater.gabMod (Slater.up di) (Slater.up dj)
  let b := Slater.gabMod (Slater.dn di) (Slater.dn dj)
  let ovlp := 1 / (a.2.2.det * b.2.2.det)
  if ciTol < ‖ovlp‖ then (ovlp * eloc ![a.1, b.1], ovlp) else (0, 0)

/-- `inv` raises an exception in this pass. -/
def Singular (di dj : Slater.Wfn nb nu nd) : Prop :=
  ¬IsUnit ((Slater.up dj)ᵀ * (Slater.up di).map star).det ∨ ¬IsUnit ((Slater.dn dj)ᵀ * (Slater.dn di).map star).det

/-- The Hermitian matrix that `eigh(..., lower=False)` reads from the upper triangle. -/
noncomputable def upper (f : Fin n → Fin n → ℂ) : Matrix (Fin n) (Fin n) ℂ := Matrix.of fun i j =>
  if i < j then f i j else if j < i then star (f j i) else ((f i i).re : ℂ)

open scoped Classical in
/-- The matrices `H` and `S`, lines 207-226. -/
noncomputable def matrices (eloc : (Fin 2 → Matrix (Fin nb) (Fin nb) ℂ) → ℂ) (psi : Fin n → Slater.Wfn nb nu nd) :
    Option (Matrix (Fin n) (Fin n) ℂ × Matrix (Fin n) (Fin n) ℂ) :=
  if ∃ i j, i ≤ j ∧ Singular (psi i) (psi j) then none else
    some (upper fun i j => (entry eloc (psi i) (psi j)).1, upper fun i j => (entry eloc (psi i) (psi j)).2)

/-- What `scipy.linalg.eigh(H, S)` returns. -/
structure GenEigh (H S : Matrix (Fin n) (Fin n) ℂ) (e : Fin n → ℝ) (ev : Matrix (Fin n) (Fin n) ℂ) : Prop where
  norm : evᴴ * S * ev = 1
  eigen : H * ev = S * ev * Matrix.diagonal fun i => (e i : ℂ)
  sorted : Monotone e

/-- The trial state after `recompute_ci`, line 232 and trial_wavefunction/utils.py 78-87. -/
def recompute (T : Trial (n + 1) nb nu nd) (ev : Matrix (Fin (n + 1)) (Fin (n + 1)) ℂ) : Trial (n + 1) nb nu nd :=
  { T with coeffs := fun i => ev i 0 }

/-! ## Matrix elements between determinants -/

/-- `⟨Ψ|X|Ψ⟩` for the trial state. -/
noncomputable def form (X : Matrix (Fin nu ⊕ Fin nd → Fin nb) (Fin nu ⊕ Fin nd → Fin nb) ℂ) (T : Trial n nb nu nd) : ℂ :=
  bra T ⬝ᵥ (X *ᵥ ∑ j, T.coeffs j • prodState (orbs (T.psi j)))

theorem ovl_conj {k : Nat} (A B : Matrix (Fin nb) (Fin k) ℂ) : star (ovl A B) = ovl B A := by
  rw [ovl, ovl, ← det_conjTranspose, conjTranspose_mul, conjTranspose_conjTranspose]

theorem ovl2_conj (A B : Slater.Wfn nb nu nd) : star (ovl2 A B) = ovl2 B A := by
  rw [ovl2, star_mul', ovl_conj, ovl_conj]; rfl

theorem slater_coord (A : Slater.Wfn nb nu nd) (f : Fin nu ⊕ Fin nd → Fin nb) : slater A f = ovl2 A (unit f) := by
  rw [ovl2_eq, Bridge.dot_unit]

theorem unit_symm (f h : Fin nu ⊕ Fin nd → Fin nb) : slater (unit h) f = slater (unit f) h := by
  rw [← Grand.slater_unit_real, slater_coord, ovl2_conj, ← slater_coord]

/-- An antisymmetric functional on a product state. -/
theorem anti_prod {α : (Fin nu ⊕ Fin nd → Fin nb) → ℂ} (hα : Anti spin α) (B : Slater.Wfn nb nu nd) :
    (nu.factorial * nd.factorial : ℂ) * (α ⬝ᵥ prodState (orbs B)) = α ⬝ᵥ star (slater B) := by
  have h1 : (nu.factorial * nd.factorial : ℂ) * (α ⬝ᵥ prodState (orbs B)) =
      ∑ h, (slater (unit h) ⬝ᵥ α) * prodState (orbs B) h := by
    rw [dotProduct, mul_sum]
    exact sum_congr rfl fun h _ => by rw [Grand.anti_slater hα]; ring
  rw [h1]
  simp only [dotProduct, sum_mul]
  rw [sum_comm]
  refine sum_congr rfl fun f _ => ?_
  rw [Pi.star_apply, slater_coord, ovl2_conj, ovl2_eq, dotProduct, mul_sum]
  exact sum_congr rfl fun h _ => by rw [unit_symm]; ring

theorem star_dot {κ : Type*} [Fintype κ] (u v : κ → ℂ) : star (u ⬝ᵥ v) = star u ⬝ᵥ star v := by
  simp only [dotProduct, star_sum, star_mul', Pi.star_apply]

/-- Matrix elements of a Hermitian operator between determinants are Hermitian. -/
theorem elem_herm {X : Matrix (Fin nu ⊕ Fin nd → Fin nb) (Fin nu ⊕ Fin nd → Fin nb) ℂ} (hX : Sym spin X) (hH : Xᴴ = X)
    (A B : Slater.Wfn nb nu nd) : star (slater A ⬝ᵥ (X *ᵥ prodState (orbs B))) = slater B ⬝ᵥ (X *ᵥ prodState (orbs A)) := by
  have hN : (nu.factorial * nd.factorial : ℂ) ≠ 0 := by
    exact_mod_cast mul_ne_zero (Nat.factorial_ne_zero _) (Nat.factorial_ne_zero _)
  have hs : star (nu.factorial * nd.factorial : ℂ) = nu.factorial * nd.factorial := by simp
  refine mul_left_cancel₀ hN ?_
  rw [Matrix.dotProduct_mulVec (slater B), anti_prod ((Step.slater_anti B).vecMul hX), ← hs, ← star_mul',
    Matrix.dotProduct_mulVec, anti_prod ((Step.slater_anti A).vecMul hX), star_dot, star_star, Matrix.star_vecMul, hH,
    dotProduct_comm, Matrix.dotProduct_mulVec]

/-! ## The matrices -/

theorem gab_ovlp (A B : Slater.Wfn nb nu nd) : 1 / ((Slater.gabMod (Slater.up A) (Slater.up B)).2.2.det *
    (Slater.gabMod (Slater.dn A) (Slater.dn B)).2.2.det) = ovl2 A B := by
  have h : ∀ {k : Nat} (A B : Matrix (Fin nb) (Fin k) ℂ), (Slater.gabMod A B).2.2.det = (ovl A B)⁻¹ := by
    intro k A B
    show ((Bᵀ * A.map star)⁻¹).det = _
    rw [Matrix.det_nonsing_inv, Ring.inverse_eq_inv', MultiDet.det_flip]
  rw [h, h, ← mul_inv, one_div, inv_inv]; rfl

theorem entry_eq {eloc : (Fin 2 → Matrix (Fin nb) (Fin nb) ℂ) → ℂ}
    {X : Matrix (Fin nu ⊕ Fin nd → Fin nb) (Fin nu ⊕ Fin nd → Fin nb) ℂ} (hl : Local eloc X) {A B : Slater.Wfn nb nu nd}
    (h : ciTol < ‖ovl2 A B‖) : entry eloc A B = (slater A ⬝ᵥ (X *ᵥ prodState (orbs B)), ovl2 A B) := by
  have h0 : ovl2 A B ≠ 0 := norm_pos_iff.1 (lt_trans (by unfold ciTol; positivity) h)
  unfold entry
  simp only [gab_ovlp]
  rw [if_pos h, ← hl A B h0, mul_comm]
  rfl

theorem upper_eq {f : Fin n → Fin n → ℂ} (hf : ∀ i j, star (f i j) = f j i) : upper f = Matrix.of f := by
  ext i j
  rw [upper, Matrix.of_apply, Matrix.of_apply]
  rcases lt_trichotomy i j with h | h | h
  · rw [if_pos h]
  · subst h
    rw [if_neg (lt_irrefl _), if_neg (lt_irrefl _)]
    exact Complex.conj_eq_iff_re.1 (hf i i)
  · rw [if_neg (not_lt.2 h.le), if_pos h, hf]

theorem not_singular {A B : Slater.Wfn nb nu nd} (h0 : ovl2 A B ≠ 0) : ¬Singular A B := by
  rw [Singular, MultiDet.det_flip, MultiDet.det_flip, isUnit_iff_ne_zero, isUnit_iff_ne_zero, not_or, not_not, not_not]
  exact ⟨left_ne_zero_of_mul h0, right_ne_zero_of_mul h0⟩

theorem ciTol_pos : 0 < ciTol := by unfold ciTol; positivity

/-- **C87 (matrices)**: if all overlaps are above the threshold, the matrices are those of the Hamiltonian and of the
overlaps. -/
theorem matrices_eq {eloc : (Fin 2 → Matrix (Fin nb) (Fin nb) ℂ) → ℂ}
    {X : Matrix (Fin nu ⊕ Fin nd → Fin nb) (Fin nu ⊕ Fin nd → Fin nb) ℂ} (hl : Local eloc X) (hX : Sym spin X)
    (hH : Xᴴ = X) {psi : Fin n → Slater.Wfn nb nu nd} (h : ∀ i j, ciTol < ‖ovl2 (psi i) (psi j)‖) :
    matrices eloc psi = some (Matrix.of fun i j => slater (psi i) ⬝ᵥ (X *ᵥ prodState (orbs (psi j))),
      Matrix.of fun i j => ovl2 (psi i) (psi j)) := by
  rw [matrices, if_neg (by rintro ⟨i, j, _, hs⟩; exact not_singular (norm_pos_iff.1 (ciTol_pos.trans (h i j))) hs)]
  simp only [entry_eq hl (h _ _)]
  rw [upper_eq fun i j => elem_herm hX hH _ _, upper_eq fun i j => ovl2_conj _ _]

/-- Orthogonal determinants raise an exception. -/
theorem matrices_singular (eloc : (Fin 2 → Matrix (Fin nb) (Fin nb) ℂ) → ℂ) {psi : Fin n → Slater.Wfn nb nu nd} {i j : Fin n}
    (hij : i ≤ j) (h : ovl2 (psi i) (psi j) = 0) : matrices eloc psi = none := by
  rw [matrices, if_pos]
  refine ⟨i, j, hij, ?_⟩
  rw [Singular, MultiDet.det_flip, MultiDet.det_flip, isUnit_iff_ne_zero, isUnit_iff_ne_zero, not_not, not_not]
  exact mul_eq_zero.1 h

/-! ## Quadratic forms -/

theorem form_eq (X : Matrix (Fin nu ⊕ Fin nd → Fin nb) (Fin nu ⊕ Fin nd → Fin nb) ℂ) (T : Trial n nb nu nd) :
    form X T = star T.coeffs ⬝ᵥ ((Matrix.of fun i j => slater (T.psi i) ⬝ᵥ (X *ᵥ prodState (orbs (T.psi j)))) *ᵥ T.coeffs) := by
  rw [form, bra_dot]
  refine sum_congr rfl fun i _ => ?_
  rw [Pi.star_apply, Matrix.mulVec_sum, dotProduct_sum]
  congr 1
  refine sum_congr rfl fun j _ => ?_
  rw [Matrix.mulVec_smul, dotProduct_smul, smul_eq_mul, mul_comm]
  rfl

theorem genEigh_lowest {H S ev : Matrix (Fin (n + 1)) (Fin (n + 1)) ℂ} {e : Fin (n + 1) → ℝ} (h : GenEigh H S e ev)
    (c : Fin (n + 1) → ℂ) : e 0 * (star c ⬝ᵥ (S *ᵥ c)).re ≤ (star c ⬝ᵥ (H *ᵥ c)).re := by
  have hu' : ev * (evᴴ * S) = 1 := mul_eq_one_comm.1 h.norm
  set y := (evᴴ * S) *ᵥ c with hy
  have hc : c = ev *ᵥ y := by rw [hy, Matrix.mulVec_mulVec, hu', Matrix.one_mulVec]
  have h1 : star c ⬝ᵥ (S *ᵥ c) = ∑ k, ((Complex.normSq (y k) : ℝ) : ℂ) := by
    rw [hc, Matrix.star_mulVec, Matrix.mulVec_mulVec, ← Matrix.dotProduct_mulVec, Matrix.mulVec_mulVec, ← Matrix.mul_assoc,
      h.norm, Matrix.one_mulVec, dotProduct]
    exact sum_congr rfl fun k _ => by rw [Pi.star_apply, Complex.normSq_eq_conj_mul_self]; rfl
  have h2 : star c ⬝ᵥ (H *ᵥ c) = ∑ k, ((e k * Complex.normSq (y k) : ℝ) : ℂ) := by
    rw [hc, Matrix.star_mulVec, Matrix.mulVec_mulVec, h.eigen, ← Matrix.dotProduct_mulVec, Matrix.mulVec_mulVec,
      ← Matrix.mul_assoc, ← Matrix.mul_assoc, h.norm, Matrix.one_mul, dotProduct]
    refine sum_congr rfl fun k _ => ?_
    rw [Matrix.mulVec_diagonal, Pi.star_apply, Complex.ofReal_mul, Complex.normSq_eq_conj_mul_self]
    show star (y k) * _ = _ * (star (y k) * _)
    ring
  rw [h1, h2, ← Complex.ofReal_sum, ← Complex.ofReal_sum, Complex.ofReal_re, Complex.ofReal_re, mul_sum]
  exact sum_le_sum fun k _ => mul_le_mul_of_nonneg_right (h.sorted (Fin.zero_le k)) (Complex.normSq_nonneg _)

theorem slater_identity (A B : Slater.Wfn nb nu nd) :
    slater A ⬝ᵥ ((1 : Matrix (Fin nu ⊕ Fin nd → Fin nb) (Fin nu ⊕ Fin nd → Fin nb) ℂ) *ᵥ prodState (orbs B)) = ovl2 A B := by
  rw [Matrix.one_mulVec, ovl2_eq]

/-- **C87 (recomputed coefficients, partial)**: if the overlaps of all pairs of determinants are above the threshold, the
trial state with recomputed coefficients is normalised and its energy is the lowest eigenvalue, which no other choice of
coefficients goes below.  Missing: small overlaps (`recompute_small_overlap`), orthogonal determinants
(`matrices_singular`). -/
theorem recompute_variational_partial {eloc : (Fin 2 → Matrix (Fin nb) (Fin nb) ℂ) → ℂ}
    {X : Matrix (Fin nu ⊕ Fin nd → Fin nb) (Fin nu ⊕ Fin nd → Fin nb) ℂ} (hl : Local eloc X) (hX : Sym spin X)
    (hH : Xᴴ = X) (T : Trial (n + 1) nb nu nd) (h : ∀ i j, ciTol < ‖ovl2 (T.psi i) (T.psi j)‖)
    {H S ev : Matrix (Fin (n + 1)) (Fin (n + 1)) ℂ} {e : Fin (n + 1) → ℝ} (hm : matrices eloc T.psi = some (H, S))
    (he : GenEigh H S e ev) :
    form 1 (recompute T ev) = 1 ∧ form X (recompute T ev) = e 0 ∧
      ∀ c : Fin (n + 1) → ℂ, e 0 * (form 1 { T with coeffs := c }).re ≤ (form X { T with coeffs := c }).re := by
  rw [matrices_eq hl hX hH h, Option.some.injEq, Prod.mk.injEq] at hm
  obtain ⟨rfl, rfl⟩ := hm
  have h0 : star (fun i => ev i 0) ⬝ᵥ ((Matrix.of fun i j => ovl2 (T.psi i) (T.psi j)) *ᵥ fun i => ev i 0) = 1 := by
    have := congrFun (congrFun he.norm 0) 0
    rw [Matrix.one_apply_eq, Matrix.mul_assoc] at this
    rw [← this]
    rfl
  have hM : (Matrix.of fun i j => slater (T.psi i) ⬝ᵥ (X *ᵥ prodState (orbs (T.psi j)))) *ᵥ (fun i => ev i 0) =
      (e 0 : ℂ) • ((Matrix.of fun i j => ovl2 (T.psi i) (T.psi j)) *ᵥ fun i => ev i 0) := by
    funext i
    have := congrFun (congrFun he.eigen i) 0
    rw [Matrix.mul_diagonal, Matrix.mul_apply, Matrix.mul_apply] at this
    rw [Matrix.mulVec, dotProduct, this, Pi.smul_apply, smul_eq_mul, mul_comm]
    rfl
  refine ⟨?_, ?_, fun c => ?_⟩
  · rw [form_eq]
    simp only [slater_identity]
    exact h0
  · rw [form_eq]
    show star (fun i => ev i 0) ⬝ᵥ ((Matrix.of fun i j => slater (T.psi i) ⬝ᵥ (X *ᵥ prodState (orbs (T.psi j)))) *ᵥ
      fun i => ev i 0) = _
    rw [hM, dotProduct_smul, h0, smul_eq_mul, mul_one]
  · rw [form_eq, form_eq]
    simp only [slater_identity]
    exact genEigh_lowest he c

/-- **C87**: the Hubbard model. -/
theorem hub_recompute_partial (h : Hub nb) (hh : ∀ s, (h.h1 s)ᴴ = h.h1 s) (T : Trial (n + 1) nb nu nd)
    (ho : ∀ i j, ciTol < ‖ovl2 (T.psi i) (T.psi j)‖) {H S ev : Matrix (Fin (n + 1)) (Fin (n + 1)) ℂ} {e : Fin (n + 1) → ℝ}
    (hm : matrices (fun G => (Energy.localHubbard h.h1 h.U h.symmetric G).1) T.psi = some (H, S)) (he : GenEigh H S e ev) :
    form 1 (recompute T ev) = 1 ∧ form (hubOp h.h1 h.U spin) (recompute T ev) = e 0 ∧
      ∀ c : Fin (n + 1) → ℂ, e 0 * (form 1 { T with coeffs := c }).re ≤ (form (hubOp h.h1 h.U spin) { T with coeffs := c }).re :=
  recompute_variational_partial (MultiDet.local_hubbard h) (Step.hubOp_sym _ _ _) (Step.hubOp_herm h.U hh spin) T ho hm he

end Verif.CI.Nonortho
