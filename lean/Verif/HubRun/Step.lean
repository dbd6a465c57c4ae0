import Verif.Fields.Mean
import Verif.Fields.Fock

/-!
# Average of a constrained step of the Hubbard propagation: C120

The step is `Hirsch.constrainedStep` (`pauxy/propagation/hubbard.py` 277-301 with 146-220).
-/

namespace Verif.HubRun

open Matrix Finset
open Verif.Slater
open Verif.Hirsch
open Verif.Step (spin spinOp Anti prodState orbs hubOp)
open Verif.Fields (rowStep rows fieldSum meanOver Proc avg stepOp)

variable {nb nu nd : Nat}

/-- A set of determinants that the steps do not leave and on which the overlap with the trial is positive. -/
structure Cone (p : Par nb) (psi : Wfn nb nu nd) (S : Wfn nb nu nd → Prop) : Prop where
  pos : ∀ φ, S φ → IsPos (overlap psi φ)
  kin : ∀ φ, S φ → S (kineticReal p.bt2 φ)
  row : ∀ φ, S φ → ∀ i xi, S (rowStep p.auxf φ i xi)
  wfac : ∀ xi, IsPos (p.wfac xi)

/-- The walker is in the set and its stored overlap is right. -/
structure Valid (psi : Wfn nb nu nd) (S : Wfn nb nu nd → Prop) (w : Wk nb nu nd) : Prop where
  mem : S w.phi
  ot : w.ot = overlap psi w.phi * Complex.exp (w.logShift : ℂ)

/-- The state of a walker inside a sweep: the stored overlap is right up to a positive factor. -/
structure Inside (psi : Wfn nb nu nd) (S : Wfn nb nu nd → Prop) (w : Wk nb nu nd) : Prop where
  good : Good psi w
  mem : S w.phi
  ot : ∃ c, IsPos c ∧ w.ot = c * overlap psi w.phi

theorem applyField_row (p : Par nb) (psi : Wfn nb nu nd) (w : Wk nb nu nd) (i : Fin nb) (xi : Fin 2) :
    (applyField p psi w i xi).phi = rowStep p.auxf w.phi i xi := rfl

theorem ratio_pos {p : Par nb} {psi : Wfn nb nu nd} {S : Wfn nb nu nd → Prop} (hS : Cone p psi S) {w : Wk nb nu nd}
    (h : Inside psi S w) (i : Fin nb) (xi : Fin 2) :
    IsPos (probs p psi w i xi) ∧ (trunc p psi w i xi : ℂ) = probs p psi w i xi ∧ 0 < trunc p psi w i xi := by
  have hp : IsPos (probs p psi w i xi) := by
    rw [probs_eq p psi w i xi h.good, applyField_row]
    have h2 : IsPos (1 / 2 : ℂ) := ⟨1 / 2, by norm_num, by push_cast; rfl⟩
    exact (h2.mul ((hS.pos _ (hS.row _ h.mem i xi)).div (hS.pos _ h.mem))).mul (hS.wfac xi)
  obtain ⟨r, hr, e⟩ := hp
  refine ⟨⟨r, hr, e⟩, ?_, ?_⟩
  · rw [trunc, e, Complex.ofReal_re, max_eq_left hr.le]
  · rw [trunc, e, Complex.ofReal_re, max_eq_left hr.le]
    exact hr

theorem Inside.apply {p : Par nb} {psi : Wfn nb nu nd} {S : Wfn nb nu nd → Prop} (hS : Cone p psi S) {w : Wk nb nu nd}
    (h : Inside psi S w) (i : Fin nb) (xi : Fin 2) : Inside psi S (applyField p psi w i xi) := by
  obtain ⟨hp, -, -⟩ := ratio_pos hS h i xi
  refine ⟨applyField_good p psi w i xi h.good hp.ne, hS.row _ h.mem i xi, ?_⟩
  obtain ⟨c, hc, e⟩ := h.ot
  refine ⟨c * p.wfac xi, hc.mul (hS.wfac xi), ?_⟩
  have e1 : (applyField p psi w i xi).ot = 2 * w.ot * probs p psi w i xi := rfl
  rw [e1, probs_eq p psi w i xi h.good, e]
  have := h.good.ne
  field_simp

/-- The sweep as a random process. -/
noncomputable def proc (p : Par nb) (psi : Wfn nb nu nd) : Proc (Wk nb nu nd) nb :=
  ⟨trunc p psi, applyField p psi, fun w => { w with weight := 0 }⟩

theorem singleSite_eq (p : Par nb) (psi : Wfn nb nu nd) (rs : Fin nb → ℝ) : ∀ (l : List (Fin nb)) (w : Wk nb nu nd),
    (singleSite p psi rs l w).1 = (proc p psi).sweep rs l w
  | [], _ => rfl
  | i :: l, w => by
    rw [singleSite, Proc.sweep]
    have hn : 0 < Hirsch.norm p psi w i ↔ 0 < (proc p psi).tr w i 0 + (proc p psi).tr w i 1 := Iff.rfl
    by_cases h : 0 < Hirsch.norm p psi w i
    · rw [if_pos h, if_pos (hn.1 h)]
      exact singleSite_eq p psi rs l _
    · rw [if_neg h, if_neg (fun h' => h (hn.2 h'))]
      rfl

theorem Inside.sweep {p : Par nb} {psi : Wfn nb nu nd} {S : Wfn nb nu nd → Prop} (hS : Cone p psi S) (rs : Fin nb → ℝ) :
    ∀ (l : List (Fin nb)) {w : Wk nb nu nd}, Inside psi S w → Inside psi S (singleSite p psi rs l w).1 ∧
      (w.weight ≠ 0 → (singleSite p psi rs l w).1.weight ≠ 0) ∧ (singleSite p psi rs l w).1.logShift = w.logShift ∧
      (singleSite p psi rs l w).1.detRShift = w.detRShift
  | [], _, h => ⟨h, fun h => h, rfl, rfl⟩
  | i :: l, w, h => by
    have hn : 0 < Hirsch.norm p psi w i := add_pos (ratio_pos hS h i 0).2.2 (ratio_pos hS h i 1).2.2
    rw [singleSite, if_pos hn]
    obtain ⟨h1, h2, h3, h4⟩ := Inside.sweep hS rs l (h.apply hS i (choose p psi w i (rs i)))
    exact ⟨h1, fun hw => h2 (mul_ne_zero hw hn.ne'), h3, h4⟩

/-- The kinetic step of a walker inside the set. -/
theorem kinetic_valid {p : Par nb} {psi : Wfn nb nu nd} {S : Wfn nb nu nd → Prop} (hS : Cone p psi S) {w : Wk nb nu nd} (hm : S w.phi)
    (ho : ∃ c, IsPos c ∧ w.ot = c * overlap psi w.phi) (hw : w.weight ≠ 0) :
    Valid psi S (kineticIS p psi w) ∧ Inside psi S (kineticIS p psi w) ∧ (kineticIS p psi w).phi = kineticReal p.bt2 w.phi ∧
      (kineticIS p psi w).weight ≠ 0 ∧ (kineticIS p psi w).logShift = w.logShift ∧ (kineticIS p psi w).detRShift = w.detRShift ∧
      ((kineticIS p psi w).weight : ℂ) / (kineticIS p psi w).ot = w.weight / w.ot := by
  obtain ⟨c, hc, e⟩ := ho
  have hmem := hS.kin _ hm
  have hratio : IsPos (overlap psi (kineticReal p.bt2 w.phi) * Complex.exp (w.logShift : ℂ) / w.ot) := by
    rw [e]
    exact ((hS.pos _ hmem).mul (IsPos.exp _)).div (hc.mul (hS.pos _ hm))
  have hw' := kineticIS_survives (p := p) psi w hw hratio
  obtain ⟨g, h1, h2, h3, h4⟩ := kineticIS_spec p psi w hw'
  have hv : Valid psi S (kineticIS p psi w) := ⟨by rw [h1]; exact hmem, by rw [h3, h2]⟩
  refine ⟨hv, ⟨g, hv.mem, Complex.exp (w.logShift : ℂ), IsPos.exp _, by rw [h3, mul_comm]⟩, h1, hw', h2, ?_, ?_⟩
  · rw [kineticIS]
    split_ifs <;> rfl
  · rw [h1] at h3
    rw [← h3] at hratio
    obtain ⟨r, hr, er⟩ := hratio
    have hot : w.ot ≠ 0 := by rw [e]; exact (hc.mul (hS.pos _ hm)).ne
    have e5 : (kineticIS p psi w).ot = r * w.ot := by rw [← er, div_mul_cancel₀ _ hot]
    rw [h4, er, Complex.ofReal_re, e5]
    have : (r : ℂ) ≠ 0 := Complex.ofReal_ne_zero.2 hr.ne'
    push_cast
    field_simp

/-- The step stays inside the set. -/
theorem Valid.step {p : Par nb} {psi : Wfn nb nu nd} {S : Wfn nb nu nd → Prop} (hS : Cone p psi S) (e : ℝ) (rs : Fin nb → ℝ)
    {w : Wk nb nu nd} (h : Valid psi S w) : Valid psi S (constrainedStep p psi e rs w) ∧
      (constrainedStep p psi e rs w).logShift = w.logShift ∧ (constrainedStep p psi e rs w).detRShift = w.detRShift := by
  by_cases hw : w.weight = 0
  · rw [constrainedStep]
    simp only [hw, abs_zero, lt_irrefl, if_false]
    exact ⟨⟨h.mem, h.ot⟩, trivial, trivial⟩
  · obtain ⟨-, i1, -, k2, k3, k4, -⟩ := kinetic_valid hS h.mem ⟨_, IsPos.exp w.logShift, by rw [h.ot, mul_comm]⟩ hw
    obtain ⟨i2, s2, s3, s4⟩ := i1.sweep hS rs (List.finRange nb)
    obtain ⟨v3, -, -, n2, n3, n4, -⟩ := kinetic_valid hS i2.mem i2.ot (s2 k2)
    rw [constrainedStep]
    simp only [if_pos (abs_pos.2 hw), if_pos (abs_pos.2 k2), if_pos (abs_pos.2 (s2 k2))]
    exact ⟨⟨v3.mem, v3.ot⟩, n3.trans (s3.trans k3), n4.trans (s4.trans k4)⟩

/-- The average of weight over overlap along the sweep. -/
theorem tree_eq {p : Par nb} {psi : Wfn nb nu nd} {S : Wfn nb nu nd → Prop} (hS : Cone p psi S) (F : Wk nb nu nd → ℂ)
    (L : Wfn nb nu nd → ℂ) (hF : ∀ w, Inside psi S w → F w = w.weight / w.ot * L w.phi) : ∀ (l : List (Fin nb)) (w : Wk nb nu nd),
    Inside psi S w → (proc p psi).tree F l w = w.weight / w.ot * fieldSum (rowStep p.auxf) L l w.phi
  | [], w, h => hF w h
  | i :: l, w, h => by
    have hr := ratio_pos hS h i
    rw [Proc.tree, fieldSum]
    have htr : ∀ xi, (proc p psi).tr w i xi = trunc p psi w i xi := fun _ => rfl
    have happ : ∀ xi, (proc p psi).app w i xi = applyField p psi w i xi := fun _ => rfl
    simp only [htr, happ]
    rw [if_pos (add_pos (hr 0).2.2 (hr 1).2.2), mul_sum]
    refine sum_congr rfl fun xi _ => ?_
    rw [tree_eq hS F L hF l _ (h.apply hS i xi), applyField_row]
    have e1 : (applyField p psi w i xi).ot = 2 * w.ot * trunc p psi w i xi := by rw [(hr xi).2.1]; rfl
    have e2 : (applyField p psi w i xi).weight = w.weight * (trunc p psi w i 0 + trunc p psi w i 1) := rfl
    have hot : w.ot ≠ 0 := by
      obtain ⟨c, hc, e⟩ := h.ot
      rw [e]
      exact (hc.mul (hS.pos _ h.mem)).ne
    have ht : (trunc p psi w i xi : ℂ) ≠ 0 := Complex.ofReal_ne_zero.2 (hr xi).2.2.ne'
    have hs : ((trunc p psi w i 0 : ℂ) + trunc p psi w i 1) ≠ 0 := by
      rw [← Complex.ofReal_add]
      exact Complex.ofReal_ne_zero.2 (add_pos (hr 0).2.2 (hr 1).2.2).ne'
    rw [e1, e2]
    push_cast
    field_simp

/-- The average over the random numbers of a step. -/
theorem step_average {p : Par nb} {psi : Wfn nb nu nd} {S : Wfn nb nu nd → Prop} (hS : Cone p psi S) (e : ℝ) {w : Wk nb nu nd}
    (h : Valid psi S w) (L : Wfn nb nu nd → ℂ) :
    (meanOver (List.finRange nb) fun rs => (constrainedStep p psi e rs w).weight / (constrainedStep p psi e rs w).ot *
      L (constrainedStep p psi e rs w).phi) =
      Real.exp (p.dt * e) * (w.weight / w.ot) * ((1 / 2) ^ nb * ∑ f : Fin nb → Fin 2,
        L (kineticReal p.bt2 (rows p.auxf f (kineticReal p.bt2 w.phi)))) := by
  by_cases hw : w.weight = 0
  · have e0 : ∀ rs, (constrainedStep p psi e rs w).weight = 0 := by
      intro rs
      simp only [constrainedStep, hw, abs_zero, lt_irrefl, if_false, zero_mul]
    simp only [e0, hw, Complex.ofReal_zero, zero_div, zero_mul, mul_zero]
    exact Fields.meanOver_const _ _
  · obtain ⟨-, i1, k1, k2, -, -, kr⟩ := kinetic_valid hS h.mem ⟨_, IsPos.exp w.logShift, by rw [h.ot, mul_comm]⟩ hw
    set w1 := kineticIS p psi w with hw1
    let F : Wk nb nu nd → ℂ := fun v =>
      let v' := if 0 < |v.weight| then kineticIS p psi v else v
      v'.weight / v'.ot * (Real.exp (p.dt * e) * L v'.phi)
    have e1 : ∀ rs, ((constrainedStep p psi e rs w).weight / (constrainedStep p psi e rs w).ot * L (constrainedStep p psi e rs w).phi : ℂ) =
        F ((proc p psi).sweep rs (List.finRange nb) w1) := by
      intro rs
      rw [← singleSite_eq]
      simp only [constrainedStep]
      rw [if_pos (abs_pos.2 hw), ← hw1, if_pos (abs_pos.2 k2)]
      simp only [F]
      push_cast
      ring
    simp only [e1]
    rw [Proc.mean_sweep _ (fun s i xi => trunc_nonneg p psi s i xi) F _ (List.nodup_finRange nb),
      tree_eq hS F (fun φ => Real.exp (p.dt * e) * L (kineticReal p.bt2 φ)) ?_ (List.finRange nb) w1 i1, kr,
      Fields.fieldSum_eq _ _ _ (List.nodup_finRange nb), k1]
    · simp only [Fields.rowStep_all, mul_sum]
      refine sum_congr rfl fun f _ => ?_
      ring
    · intro v hv
      by_cases hv0 : v.weight = 0
      · simp only [F, hv0, abs_zero, lt_irrefl, if_false]
        simp [hv0]
      · obtain ⟨-, -, m1, -, -, -, mr⟩ := kinetic_valid hS hv.mem hv.ot hv0
        simp only [F]
        rw [if_pos (abs_pos.2 hv0), mr, m1]

end Verif.HubRun
