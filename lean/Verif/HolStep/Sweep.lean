import Verif.HolStep.Model
import Verif.Fields.Mean
import Verif.Fields.Fock

/-!
# The sweep over the sites of the Hubbard-Holstein propagation
-/

namespace Verif.HolStep

open Matrix Finset
open Verif.Slater (Wfn up dn join overlap shermanMorrison)
open Verif.Hirsch (addRow kineticReal)
open Verif.Holstein (Sys Osc)
open Verif.Fields (rowStep fieldSum meanOver Proc)

variable {np nb nu nd : Nat}

/-- The stored inverses, overlaps and values of the phonons are those of the walker. -/
structure Tables (y : Sys nb) (t : Trial np nb nu nd) (w : Wk np nb nu nd) : Prop where
  invUp : ∀ k, w.invUp k = ((up (t.psi k))ᴴ * up w.phi)⁻¹
  invDn : ∀ k, w.invDn k = ((dn (t.psi k))ᴴ * dn w.phi)⁻¹
  ots : ∀ k, w.ots k = overlap (t.psi k) w.phi
  phiB : ∀ k, w.phiB k = phiBoson y t w.X k

/-- All stored tables are those of the walker. -/
structure Fresh (y : Sys nb) (t : Trial np nb nu nd) (w : Wk np nb nu nd) : Prop extends Tables y t w where
  weights : ∀ k, w.weights k = star (t.coeffs k) * overlap (t.psi k) w.phi * phiBoson y t w.X k

/-- No state of the trial is orthogonal to the determinant. -/
def Ok (t : Trial np nb nu nd) (φ : Wfn nb nu nd) : Prop := ∀ k, overlap (t.psi k) φ ≠ 0

/-- After a kinetic step the tables are those of the determinant. -/
theorem calc_fresh (y : Sys nb) (t : Trial np nb nu nd) (w : Wk np nb nu nd) :
    Fresh y t (calcOtrial y t (inverseOverlap y t w)) ∧ ∑ k, (calcOtrial y t (inverseOverlap y t w)).weights k = total y t w.X w.phi := by
  have ho : ∀ k, (calcOtrial y t (inverseOverlap y t w)).ots k = overlap (t.psi k) w.phi := by
    intro k
    simp only [calcOtrial, inverseOverlap, Matrix.det_nonsing_inv, Ring.inverse_eq_inv', one_div, inv_inv]
    rfl
  have hw : ∀ k, (calcOtrial y t (inverseOverlap y t w)).weights k = star (t.coeffs k) * overlap (t.psi k) w.phi * phiBoson y t w.X k := by
    intro k
    rw [← ho k]
    rfl
  refine ⟨⟨⟨fun _ => rfl, fun _ => rfl, ho, fun _ => rfl⟩, hw⟩, ?_⟩
  rw [total]
  exact sum_congr rfl fun k _ => hw k

theorem applyField_phi (o : Mode) (y : Sys nb) (dt : ℝ) (t : Trial np nb nu nd) (w : Wk np nb nu nd) (i : Fin nb) (xi : Fin 2) :
    (applyField o y dt t w i xi).phi = rowStep (auxf o dt y.U) w.phi i xi := rfl

/-- The diagonal element of the Green's function gives the ratio of determinants. -/
theorem det_ratio {k : Nat} (A B : Matrix (Fin nb) (Fin k) ℂ) (i : Fin nb) (δ : ℂ) (h : (Aᴴ * B).det ≠ 0) :
    1 + δ * ((fun a => B i a) ⬝ᵥ ((Aᴴ * B)⁻¹ *ᵥ fun a => star (A i a))) = (Aᴴ * addRow B i δ).det / (Aᴴ * B).det := by
  rw [Hirsch.det_addRow A B i δ h, mul_div_cancel_left₀ _ h]
  congr 2
  rw [Matrix.mulVec_transpose, dotProduct_comm (fun a => star (A i a)), ← Matrix.dotProduct_mulVec]

theorem ratioR_eq (o : Mode) {y : Sys nb} (dt : ℝ) {t : Trial np nb nu nd} {w : Wk np nb nu nd} (h : Tables y t w) (hk : Ok t w.phi)
    (i : Fin nb) (k : Fin np) (xi : Fin 2) :
    ratioR (delta o dt y.U) t w i k xi = overlap (t.psi k) (rowStep (auxf o dt y.U) w.phi i xi) / overlap (t.psi k) w.phi := by
  have hu := left_ne_zero_of_mul (hk k)
  have hd := right_ne_zero_of_mul (hk k)
  have e0 : gii t w k i 0 = (fun a => up w.phi i a) ⬝ᵥ (((up (t.psi k))ᴴ * up w.phi)⁻¹ *ᵥ fun a => star (up (t.psi k) i a)) := by
    rw [gii, if_pos rfl, h.invUp]
  have e1 : gii t w k i 1 = (fun a => dn w.phi i a) ⬝ᵥ (((dn (t.psi k))ᴴ * dn w.phi)⁻¹ *ᵥ fun a => star (dn (t.psi k) i a)) := by
    rw [gii, if_neg (by decide), h.invDn]
  rw [ratioR, e0, e1, det_ratio _ _ _ _ hu, det_ratio _ _ _ _ hd, overlap, overlap, rowStep, Slater.up_join, Slater.dn_join,
    div_mul_div_comm]
  rfl

theorem weights_sum {y : Sys nb} {t : Trial np nb nu nd} {w : Wk np nb nu nd} (h : Fresh y t w) :
    ∑ k, w.weights k = total y t w.X w.phi := by
  rw [total]
  exact sum_congr rfl fun k _ => h.weights k

/-- The number computed for a field at a site is half the ratio of the overlaps with the whole trial, times the factor of the field. -/
theorem probs_eq (o : Mode) {y : Sys nb} (dt : ℝ) {t : Trial np nb nu nd} {w : Wk np nb nu nd} (h : Fresh y t w) (hk : Ok t w.phi)
    (i : Fin nb) (xi : Fin 2) : probs o y dt t w i xi =
      1 / 2 * (total y t w.X (rowStep (auxf o dt y.U) w.phi i xi) / total y t w.X w.phi) * wfac o y dt w.X i xi := by
  rw [probs, ratioMulti, weights_sum h]
  congr 3
  rw [total]
  refine sum_congr rfl fun k _ => ?_
  rw [h.weights, ratioR_eq o dt h.toTables hk]
  have := hk k
  rw [phiBoson]
  field_simp

/-- The single-determinant formula is the case of one state. -/
theorem ratio_single (d : Fin 2 → Fin 2 → ℂ) (t : Trial 1 nb nu nd) (w : Wk 1 nb nu nd) (h : w.weights 0 ≠ 0) (i : Fin nb) (xi : Fin 2) :
    ratioMulti d t w i xi = ratioSingle d t w i xi := by
  rw [ratioMulti, ratioSingle, Fin.sum_univ_one, Fin.sum_univ_one, mul_div_cancel_left₀ _ h]
  rfl

theorem inverse_row {k : Nat} (A B : Matrix (Fin nb) (Fin k) ℂ) (i : Fin nb) (δ : ℂ) (h : (Aᴴ * B).det ≠ 0)
    (h' : (Aᴴ * addRow B i δ).det ≠ 0) :
    shermanMorrison (Aᴴ * B)⁻¹ (fun a => star (A i a)) (fun j => B i j * δ) = (Aᴴ * addRow B i δ)⁻¹ := by
  rw [Hirsch.addRow_eq, Slater.overlap_row] at h' ⊢
  exact Slater.shermanMorrison_eq _ _ _ h h'

/-- The update of a site keeps the inverses and overlaps those of the determinant. -/
theorem applyField_tables (o : Mode) {y : Sys nb} (dt : ℝ) {t : Trial np nb nu nd} {w : Wk np nb nu nd} (h : Tables y t w) (hk : Ok t w.phi)
    (i : Fin nb) (xi : Fin 2) (hk' : Ok t (rowStep (auxf o dt y.U) w.phi i xi)) : Tables y t (applyField o y dt t w i xi) := by
  have hup : ∀ k, ((up (t.psi k))ᴴ * addRow (up w.phi) i (delta o dt y.U xi 0)).det ≠ 0 := by
    intro k
    have := left_ne_zero_of_mul (hk' k)
    rwa [rowStep, Slater.up_join] at this
  have hdn : ∀ k, ((dn (t.psi k))ᴴ * addRow (dn w.phi) i (delta o dt y.U xi 1)).det ≠ 0 := by
    intro k
    have := right_ne_zero_of_mul (hk' k)
    rwa [rowStep, Slater.dn_join] at this
  refine ⟨fun k => ?_, fun k => ?_, fun k => ?_, fun k => h.phiB k⟩
  · show shermanMorrison (w.invUp k) _ _ = ((up (t.psi k))ᴴ * up (join _ _))⁻¹
    rw [h.invUp, Slater.up_join]
    exact inverse_row _ _ _ _ (left_ne_zero_of_mul (hk k)) (hup k)
  · show shermanMorrison (w.invDn k) _ _ = ((dn (t.psi k))ᴴ * dn (join _ _))⁻¹
    rw [h.invDn, Slater.dn_join]
    exact inverse_row _ _ _ _ (right_ne_zero_of_mul (hk k)) (hdn k)
  · show ratioR (delta o dt y.U) t w i k xi * w.ots k = _
    rw [applyField_phi, ratioR_eq o dt h hk, h.ots, div_mul_cancel₀ _ (hk k)]

/-- The weights of the states after a site: the coefficients are not conjugated. -/
theorem applyField_weights (o : Mode) {y : Sys nb} (dt : ℝ) {t : Trial np nb nu nd} {w : Wk np nb nu nd} (h : Tables y t w)
    (hk : Ok t w.phi) (i : Fin nb) (xi : Fin 2) (k : Fin np) : (applyField o y dt t w i xi).weights k =
      t.coeffs k * overlap (t.psi k) (rowStep (auxf o dt y.U) w.phi i xi) * phiBoson y t w.X k := by
  show t.coeffs k * (ratioR (delta o dt y.U) t w i k xi * w.ots k) * w.phiB k = _
  rw [ratioR_eq o dt h hk, h.ots, h.phiB, div_mul_cancel₀ _ (hk k)]

/-- With real coefficients the update of a site keeps all tables those of the determinant. -/
theorem applyField_fresh (o : Mode) {y : Sys nb} (dt : ℝ) {t : Trial np nb nu nd} (hc : ∀ k, star (t.coeffs k) = t.coeffs k)
    {w : Wk np nb nu nd} (h : Fresh y t w) (hk : Ok t w.phi) (i : Fin nb) (xi : Fin 2)
    (hk' : Ok t (rowStep (auxf o dt y.U) w.phi i xi)) : Fresh y t (applyField o y dt t w i xi) :=
  ⟨applyField_tables o dt h.toTables hk i xi hk', fun k => by
    rw [applyField_weights o dt h.toTables hk, hc]
    rfl⟩

theorem trunc_nonneg (o : Mode) (y : Sys nb) (dt : ℝ) (t : Trial np nb nu nd) (w : Wk np nb nu nd) (i : Fin nb) (xi : Fin 2) :
    0 ≤ trunc o y dt t w i xi := le_max_right _ _

/-- Weights stay non-negative. -/
theorem sweep_weight (o : Mode) (y : Sys nb) (dt : ℝ) (t : Trial np nb nu nd) (rs : Fin nb → ℝ) : ∀ (l : List (Fin nb)) (w : Wk np nb nu nd),
    0 ≤ w.weight → 0 ≤ (sweep o y dt t rs l w).weight
  | [], _, h => h
  | i :: l, w, h => by
    rw [sweep]
    split_ifs with hn
    · exact sweep_weight o y dt t rs l _ (mul_nonneg h hn.le)
    · exact le_rfl

/-- The sweep as a random process. -/
noncomputable def proc (o : Mode) (y : Sys nb) (dt : ℝ) (t : Trial np nb nu nd) : Proc (Wk np nb nu nd) nb :=
  ⟨trunc o y dt t, applyField o y dt t, fun w => { w with weight := 0 }⟩

theorem sweep_eq (o : Mode) (y : Sys nb) (dt : ℝ) (t : Trial np nb nu nd) (rs : Fin nb → ℝ) : ∀ (l : List (Fin nb)) (w : Wk np nb nu nd),
    sweep o y dt t rs l w = (proc o y dt t).sweep rs l w
  | [], _ => rfl
  | i :: l, w => by
    rw [sweep, Proc.sweep, sweep_eq o y dt t rs l]
    rfl

/-- No overlap vanishes along the sweep, and with the factors of the fields no ratio of overlaps is negative or complex; at the end `E`
holds for the determinant and the product of the factors. -/
def Along (o : Mode) (y : Sys nb) (dt : ℝ) (t : Trial np nb nu nd) (X : Fin nb → ℝ) (E : Wfn nb nu nd → ℂ → Prop) :
    List (Fin nb) → Wfn nb nu nd → ℂ → Prop
  | [], φ, c => E φ c
  | i :: l, φ, c => ∀ xi, Ok t (rowStep (auxf o dt y.U) φ i xi) ∧
      (∃ p : ℝ, 0 < p ∧ total y t X (rowStep (auxf o dt y.U) φ i xi) * wfac o y dt X i xi = p * total y t X φ) ∧
      Along o y dt t X E l (rowStep (auxf o dt y.U) φ i xi) (c * wfac o y dt X i xi)

/-- The average of weight over overlap along the sweep: the factors of the fields cancel. -/
theorem tree_eq (o : Mode) (y : Sys nb) (dt : ℝ) (t : Trial np nb nu nd) (hc : ∀ k, star (t.coeffs k) = t.coeffs k) (X : Fin nb → ℝ)
    (E : Wfn nb nu nd → ℂ → Prop) (F : Wk np nb nu nd → ℂ) (L : Wfn nb nu nd → ℂ)
    (hF : ∀ w, Fresh y t w → Ok t w.phi → w.X = X → total y t X w.phi ≠ 0 → ∀ c, c ≠ 0 → w.ot = c * total y t X w.phi → E w.phi c →
      F w = w.weight / w.ot * L w.phi) : ∀ (l : List (Fin nb)) (w : Wk np nb nu nd), Fresh y t w → Ok t w.phi → w.X = X →
      total y t X w.phi ≠ 0 → ∀ c, c ≠ 0 → w.ot = c * total y t X w.phi → Along o y dt t X E l w.phi c →
      (proc o y dt t).tree F l w = w.weight / w.ot * fieldSum (rowStep (auxf o dt y.U)) L l w.phi
  | [], w, h, hk, hX, h0, c, hc0, hot, hE => hF w h hk hX h0 c hc0 hot hE
  | i :: l, w, h, hk, hX, h0, c, hc0, hot, hA => by
    have hp : ∀ xi, ∃ p : ℝ, 0 < p ∧ probs o y dt t w i xi = p ∧ trunc o y dt t w i xi = p := by
      intro xi
      obtain ⟨-, ⟨p, hp, he⟩, -⟩ := hA xi
      have : probs o y dt t w i xi = ((1 / 2 * p : ℝ) : ℂ) := by
        rw [probs_eq o dt h hk, hX]
        push_cast
        field_simp
        linear_combination he
      refine ⟨1 / 2 * p, by positivity, this, ?_⟩
      rw [trunc, this, Complex.ofReal_re, max_eq_left (by positivity)]
    choose p hp0 hp1 hp2 using hp
    have hot0 : w.ot ≠ 0 := by rw [hot]; exact mul_ne_zero hc0 h0
    rw [Proc.tree, fieldSum]
    have htr : ∀ xi, (proc o y dt t).tr w i xi = p xi := hp2
    have happ : ∀ xi, (proc o y dt t).app w i xi = applyField o y dt t w i xi := fun _ => rfl
    simp only [htr, happ]
    rw [if_pos (add_pos (hp0 0) (hp0 1)), mul_sum]
    refine sum_congr rfl fun xi _ => ?_
    obtain ⟨hk', ⟨q, hq, he⟩, hA'⟩ := hA xi
    have hw0 : wfac o y dt X i xi ≠ 0 := by
      intro hz
      rw [hz, mul_zero] at he
      exact mul_ne_zero (Complex.ofReal_ne_zero.2 hq.ne') h0 he.symm
    have h0' : total y t X (rowStep (auxf o dt y.U) w.phi i xi) ≠ 0 := by
      intro hz
      rw [hz, zero_mul] at he
      exact mul_ne_zero (Complex.ofReal_ne_zero.2 hq.ne') h0 he.symm
    have hot' : (applyField o y dt t w i xi).ot = 2 * w.ot * p xi := by
      rw [← hp1 xi]; rfl
    have hot2 : (applyField o y dt t w i xi).ot =
        (c * wfac o y dt X i xi) * total y t X (applyField o y dt t w i xi).phi := by
      rw [applyField_phi, hot', ← hp1 xi, probs_eq o dt h hk, hX, hot]
      field_simp
    rw [tree_eq o y dt t hc X E F L hF l _ (applyField_fresh o dt hc h hk i xi hk') hk' hX h0' (c * wfac o y dt X i xi) (mul_ne_zero hc0 hw0)
      hot2 hA', hot', applyField_phi]
    have hwt : (applyField o y dt t w i xi).weight = w.weight * (p 0 + p 1) := by
      rw [← hp2 0, ← hp2 1]; rfl
    rw [hwt]
    have hpx : (p xi : ℂ) ≠ 0 := Complex.ofReal_ne_zero.2 (hp0 xi).ne'
    have hs : ((p 0 : ℂ) + p 1) ≠ 0 := by
      rw [← Complex.ofReal_add]
      exact Complex.ofReal_ne_zero.2 (add_pos (hp0 0) (hp0 1)).ne'
    push_cast
    field_simp

end Verif.HolStep
