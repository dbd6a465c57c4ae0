import Verif.MultiDet.Run
import Verif.Grand.Path

/-!
# Force bias and importance factor with multi-determinant trials (C85)

The importance factor of a phaseless step averages to the local energy with the trial state.  The force bias of the
code keeps the hybrid energy bounded if no determinant is orthogonal to the walker; what the determinants orthogonal to
the walker contribute to the one-body operators is left.
-/

namespace Verif.MultiDet

open MeasureTheory Matrix Finset
open Verif.Step (slater prodState orbs ovl2 ovl2_eq spin spinOp onP slater_one hamOp hamOp_elem Gen Tables avg avg_smul
  Linear FirstOrder HybridLimit HybridBounded IsPoly IsPolyM oneElem biasOvl wt phi shifted importance)
open Verif.Energy (ovl oneBody hamil dot2)
open Verif.Weights (density cfb xshifted)

variable {n nx nb nu nd : Nat}

/-! ## The step -/

/-- The walker as a walker of the single-determinant model. -/
noncomputable def asSingle (w : Wk n nb nu nd) : Slater.Wk nb nu nd :=
  ⟨w.phi, 0, 0, w.ot, w.ovlp, 1, 1, 0, 0, 0, 0⟩

theorem phaseless_single (k : Nat) (dt : ℝ) (t : Tables nx nb)
    (fb : Trial n nb nu nd → Wk n nb nu nd → Fin nx → ℂ) (eloc : (Fin 2 → Matrix (Fin nb) (Fin nb) ℂ) → ℂ)
    (T : Trial n nb nu nd) (xi : Fin nx → ℝ) (w : Wk n nb nu nd) :
    let s := phaseless k dt t fb eloc T xi w
    let r := Step.phaseless k dt t (fun _ => fb T (greensFunction T w).1) (fun _ => 0) w.phi xi (asSingle w)
    s.2.phi = r.2.phi ∧ s.1.cfb = r.1.cfb ∧ s.1.cmf = r.1.cmf ∧ s.1.ovlp = (greensFunction T w).2 ∧
      s.1.ovlpNew = ∑ i, star (T.coeffs i) * ovl2 (T.psi i) r.2.phi := by
  refine ⟨rfl, rfl, rfl, rfl, ?_⟩
  have := calcOverlap_eq T { (greensFunction T w).1 with phi := (Step.phaseless k dt t
    (fun _ => fb T (greensFunction T w).1) (fun _ => 0) w.phi xi (asSingle w)).2.phi }
  rw [bra_ket] at this
  exact this

/-! ## Average of the importance factor -/

theorem poly_integrable (b l : Fin nx → ℂ) {g : (Fin nx → ℂ) → ℂ} (hg : IsPoly g) :
    Integrable fun xi : Fin nx → ℝ => (density xi : ℂ) * (Complex.exp (cfb xi b) *
      (Complex.exp (∑ a, xshifted xi b a * l a) * g (xshifted xi b))) := by
  obtain ⟨P, hP⟩ := hg
  have e : (fun xi : Fin nx → ℝ => (density xi : ℂ) * (Complex.exp (cfb xi b) *
        (Complex.exp (∑ a, xshifted xi b a * l a) * g (xshifted xi b)))) =
      fun xi => ∑ m ∈ P.support, P.coeff m * ∏ a, ((phi (xi a) : ℂ) * shifted (b a) (l a) (m a) (xi a)) := by
    funext xi
    rw [hP, MvPolynomial.eval_eq', mul_sum, mul_sum, mul_sum]
    refine sum_congr rfl fun m _ => ?_
    have h1 : Complex.exp (cfb xi b) * Complex.exp (∑ a, xshifted xi b a * l a) =
        ∏ a, Complex.exp ((xi a : ℂ) * b a - 1 / 2 * (b a * b a) + (xi a - b a) * l a) := by
      rw [← Complex.exp_add, ← Complex.exp_sum]
      congr 1
      rw [cfb, mul_sum, ← sum_sub_distrib, ← sum_add_distrib]
      rfl
    have h2 : ∏ a, shifted (b a) (l a) (m a) (xi a) =
        (∏ a, Complex.exp ((xi a : ℂ) * b a - 1 / 2 * (b a * b a) + (xi a - b a) * l a)) *
        ∏ a, xshifted xi b a ^ m a := by
      rw [← prod_mul_distrib]; rfl
    rw [prod_mul_distrib, h2, ← h1, Step.density_eq, Complex.ofReal_prod]
    ring
  rw [e]
  refine integrable_finset_sum _ fun m _ => Integrable.const_mul ?_ _
  exact Integrable.fintype_prod (f := fun (a : Fin nx) (x : ℝ) => (phi x : ℂ) * shifted (b a) (l a) (m a) x)
    (μ := fun _ => volume) fun a => Step.integrable_shifted (b a) (l a) (m a)

theorem step_integrable (k : Nat) {t : ℝ → Tables nx nb} {K : Fin 2 → Matrix (Fin nb) (Fin nb) ℂ}
    {W : Fin nx → Fin 2 → Matrix (Fin nb) (Fin nb) ℂ} {mf : Fin nx → ℂ} (hL : Linear t K W mf) {dt : ℝ}
    (h0 : 0 ≤ dt) (fb : Slater.GF nb nu nd → Fin nx → ℂ) (eloc : Slater.GF nb nu nd → ℂ)
    (psi A : Slater.Wfn nb nu nd) (w : Slater.Wk nb nu nd) :
    Integrable fun xi : Fin nx → ℝ => (density xi : ℂ) *
      (Complex.exp ((Step.phaseless k dt (t dt) fb eloc psi xi w).1.cfb +
        (Step.phaseless k dt (t dt) fb eloc psi xi w).1.cmf) *
        ovl2 A (Step.phaseless k dt (t dt) fb eloc psi xi w).2.phi) := by
  set g : (Fin nx → ℂ) → ℂ := fun x =>
    ovl (Slater.up A) ((t dt).BH1 0 * (Slater.taylor k ((t dt).vhs x 0) * ((t dt).BH1 0 * Slater.up w.phi))) *
    ovl (Slater.dn A) ((t dt).BH1 1 * (Slater.taylor k ((t dt).vhs x 1) * ((t dt).BH1 1 * Slater.dn w.phi))) with hg
  have hpoly : IsPoly g := by
    have hv : ∀ s, IsPolyM fun x => (t dt).vhs x s := by
      intro s
      simp only [hL.field dt h0]
      exact IsPolyM.smul (IsPoly.const _) (IsPolyM.sum _ fun a _ => IsPolyM.smul (IsPoly.var a) (IsPolyM.const _))
    have ht : ∀ s, IsPolyM fun x => Slater.taylor k ((t dt).vhs x s) := fun s =>
      IsPolyM.sum _ fun j _ => IsPolyM.smul (IsPoly.const _) ((hv s).pow j)
    exact (((IsPolyM.const _).mul ((IsPolyM.const _).mul ((ht 0).mul (IsPolyM.const _)))).det).mul
      (((IsPolyM.const _).mul ((IsPolyM.const _).mul ((ht 1).mul (IsPolyM.const _)))).det)
  have key := poly_integrable (fun a => Weights.rescale (fb (Slater.greensFunction psi w) a))
    (fun a => -(Real.sqrt dt : ℂ) * mf a) hpoly
  convert! key using 1
  funext xi
  have e1 : (Step.phaseless k dt (t dt) fb eloc psi xi w).1.cmf = ∑ a, Weights.xshifted xi
      (fun a => Weights.rescale (fb (Slater.greensFunction psi w) a)) a * (-(Real.sqrt dt : ℂ) * mf a) := by
    simp only [Step.phaseless, Step.twoBodyPropagator, Weights.cmf, hL.shift, mul_sum]
    exact sum_congr rfl fun a _ => by ring
  have e2 : (Step.phaseless k dt (t dt) fb eloc psi xi w).1.cfb = Weights.cfb xi
      (fun a => Weights.rescale (fb (Slater.greensFunction psi w) a)) := rfl
  have e3 : ovl2 A (Step.phaseless k dt (t dt) fb eloc psi xi w).2.phi = g (Weights.xshifted xi
      (fun a => Weights.rescale (fb (Slater.greensFunction psi w) a))) := by
    simp only [Step.phaseless, Step.twoBodyPropagator, Step.kineticReal, ovl2, Step.up_join, Step.dn_join, hg,
      Slater.applyExponential_taylor]
  rw [Complex.exp_add, e1, e2, e3]
  ring

/-- The importance factor averages to one minus the time step times the mixed expectation with the trial state. -/
theorem importance_first_order (k : Nat) {t : ℝ → Tables nx nb} {K : Fin 2 → Matrix (Fin nb) (Fin nb) ℂ}
    {W : Fin nx → Fin 2 → Matrix (Fin nb) (Fin nb) ℂ} {mf : Fin nx → ℂ} (hL : Linear t K W mf)
    (fb : ℝ → Trial n nb nu nd → Wk n nb nu nd → Fin nx → ℂ) (eloc : (Fin 2 → Matrix (Fin nb) (Fin nb) ℂ) → ℂ)
    (T : Trial n nb nu nd) (w : Wk n nb nu nd) (hO : bra T ⬝ᵥ ket w ≠ 0)
    (hg : (greensFunction T w).2 = bra T ⬝ᵥ ket w)
    (H : Matrix (Fin nu ⊕ Fin nd → Fin nb) (Fin nu ⊕ Fin nd → Fin nb) ℂ) (c : ℂ)
    (hf : ∀ A, FirstOrder (fun dt xi => Step.propagateFree k dt (t dt) w.phi 0 xi (asSingle w)) (asSingle w) A
      (slater A ⬝ᵥ (H *ᵥ ket w)) c) :
    ∃ L : ℝ, ∀ dt : ℝ, 0 ≤ dt → dt ≤ 1 →
      ‖avg (fun xi => importance (phaseless k dt (t dt) (fb dt) eloc T xi w).1) -
        (1 - dt * ((bra T ⬝ᵥ (H *ᵥ ket w)) / (bra T ⬝ᵥ ket w) - c))‖ ≤ L * dt ^ (3 / 2 : ℝ) := by
  have h1 := fun i => Step.biased_first_order k hL (fun dt _ => fb dt T (greensFunction T w).1) (fun _ => 0) w.phi
    (T.psi i) (asSingle w) _ _ (hf (T.psi i))
  choose L h1 using h1
  have hOn : 0 < ‖bra T ⬝ᵥ ket w‖ := norm_pos_iff.2 hO
  refine ⟨(∑ i, ‖T.coeffs i‖ * L i) / ‖bra T ⬝ᵥ ket w‖, fun dt h0 hdt => ?_⟩
  set F : Fin n → (Fin nx → ℝ) → ℂ := fun i xi =>
    let r := Step.phaseless k dt (t dt) (fun _ => fb dt T (greensFunction T w).1) (fun _ => 0) w.phi xi (asSingle w)
    Complex.exp (r.1.cfb + r.1.cmf) * ovl2 (T.psi i) r.2.phi with hF
  have e : (fun xi => importance (phaseless k dt (t dt) (fb dt) eloc T xi w).1) =
      fun xi => (bra T ⬝ᵥ ket w)⁻¹ * ∑ i, star (T.coeffs i) * F i xi := by
    funext xi
    obtain ⟨a1, a2, a3, a4, a5⟩ := phaseless_single k dt (t dt) (fb dt) eloc T xi w
    rw [importance, a2, a3, a4, a5, hg, div_eq_inv_mul, mul_assoc, sum_mul]
    congr 1
    refine sum_congr rfl fun i _ => ?_
    rw [hF]
    ring
  have hI : ∀ i, Integrable fun xi => (density xi : ℂ) * F i xi := fun i =>
    step_integrable k hL h0 (fun _ => fb dt T (greensFunction T w).1) (fun _ => 0) w.phi (T.psi i) (asSingle w)
  rw [e, avg_smul, Grand.avg_sum univ (fun i xi => star (T.coeffs i) * F i xi) fun i _ => by
    have := (hI i).const_mul (star (T.coeffs i))
    convert! this using 1
    funext xi
    ring]
  simp only [avg_smul]
  have h2 : ∀ i, ‖avg (F i) - (ovl2 (T.psi i) w.phi - dt * (slater (T.psi i) ⬝ᵥ (H *ᵥ ket w) -
      c * ovl2 (T.psi i) w.phi))‖ ≤ L i * dt ^ (3 / 2 : ℝ) := fun i => h1 i dt h0 hdt
  have e2 : (bra T ⬝ᵥ ket w)⁻¹ * ∑ i, star (T.coeffs i) * avg (F i) -
      (1 - dt * ((bra T ⬝ᵥ (H *ᵥ ket w)) / (bra T ⬝ᵥ ket w) - c)) =
      (∑ i, star (T.coeffs i) * (avg (F i) - (ovl2 (T.psi i) w.phi - dt * (slater (T.psi i) ⬝ᵥ (H *ᵥ ket w) -
      c * ovl2 (T.psi i) w.phi)))) / (bra T ⬝ᵥ ket w) := by
    have e3 : ∑ i, star (T.coeffs i) * (avg (F i) - (ovl2 (T.psi i) w.phi - dt * (slater (T.psi i) ⬝ᵥ (H *ᵥ ket w) -
        c * ovl2 (T.psi i) w.phi))) = ∑ i, star (T.coeffs i) * avg (F i) - (bra T ⬝ᵥ ket w) +
        dt * (bra T ⬝ᵥ (H *ᵥ ket w) - c * (bra T ⬝ᵥ ket w)) := by
      rw [bra_ket, bra_dot T (H *ᵥ ket w), mul_sum, ← sum_sub_distrib, ← sum_sub_distrib, mul_sum, ← sum_add_distrib]
      exact sum_congr rfl fun i _ => by ring
    rw [e3]
    generalize bra T ⬝ᵥ ket w = O at *
    field_simp
    ring
  rw [e2, norm_div, div_mul_eq_mul_div]
  refine div_le_div_of_nonneg_right ((norm_sum_le _ _).trans ?_) hOn.le
  rw [sum_mul]
  refine sum_le_sum fun i _ => ?_
  rw [norm_mul, norm_star, mul_assoc]
  exact mul_le_mul_of_nonneg_left (h2 i) (norm_nonneg _)

/-- **C85 (average of the importance factor, generic systems)**: for every force bias, if each determinant passes or is
orthogonal to the walker, the average over the fields is one minus the time step times the local energy
`⟨Ψ|H|φ⟩ / ⟨Ψ|φ⟩`, up to the constant. -/
theorem generic_importance (k : Nat) (hk : 2 ≤ k) (g : Gen nx nb) (hL : ∀ a, (g.chol a)ᵀ = g.chol a)
    (mf : Fin nx → ℂ) (fb : ℝ → Trial n nb nu nd → Wk n nb nu nd → Fin nx → ℂ)
    (eloc : (Fin 2 → Matrix (Fin nb) (Fin nb) ℂ) → ℂ) (T : Trial n nb nu nd) (w : Wk n nb nu nd)
    (hO : bra T ⬝ᵥ ket w ≠ 0) (h : ∀ i, Pass (T.psi i) w.phi ∨ ovl2 (T.psi i) w.phi = 0) :
    ∃ L : ℝ, ∀ dt : ℝ, 0 ≤ dt → dt ≤ 1 →
      ‖avg (fun xi => importance (phaseless k dt (g.tables dt mf) (fb dt) eloc T xi w).1) -
        (1 - dt * ((bra T ⬝ᵥ (hamOp g.h1 g.chol g.ecore spin *ᵥ ket w)) / (bra T ⬝ᵥ ket w) -
          (g.tables dt mf).mfCore))‖ ≤ L * dt ^ (3 / 2 : ℝ) := by
  refine importance_first_order k (g.linear mf) fb eloc T w hO (greens_overlap T w h) _
    (g.ecore + 1 / 2 * ∑ n, mf n * mf n) fun A => ?_
  have h := Step.generic_first_order k hk g hL mf w.phi A 0 (asSingle w)
  rw [add_zero] at h
  rw [ket, hamOp_elem]
  exact h

/-! ## The hybrid energy -/

/-- The hybrid energy of a step without capping. -/
noncomputable def hyb (k : Nat) (dt : ℝ) (t : ℝ → Tables nx nb)
    (fb : ℝ → Trial n nb nu nd → Wk n nb nu nd → Fin nx → ℂ) (T : Trial n nb nu nd) (w : Wk n nb nu nd)
    (xi : Fin nx → ℝ) : ℂ :=
  Weights.hybridEnergy dt 0 (phaseless k dt (t dt) (fb dt) (fun _ => 0) T xi w).1

theorem oneElem_slater (X : Fin 2 → Matrix (Fin nb) (Fin nb) ℂ) (D phi : Slater.Wfn nb nu nd) :
    oneElem X (Slater.up D) (Slater.up phi) (Slater.dn D) (Slater.dn phi) =
      slater D ⬝ᵥ (spinOp spin X *ᵥ prodState (orbs phi)) := (slater_one D phi X).symm

/-- The hybrid energy to leading order, for force biases of the form `√dt β`. -/
theorem hybrid_linear (k : Nat) (hk : 2 ≤ k) {t : ℝ → Tables nx nb} {K : Fin 2 → Matrix (Fin nb) (Fin nb) ℂ}
    {W : Fin nx → Fin 2 → Matrix (Fin nb) (Fin nb) ℂ} {mf : Fin nx → ℂ} (hL : Linear t K W mf)
    (fb : ℝ → Trial n nb nu nd → Wk n nb nu nd → Fin nx → ℂ) (T : Trial n nb nu nd) (w : Wk n nb nu nd)
    (hO : bra T ⬝ᵥ ket w ≠ 0) (hg : (greensFunction T w).2 = bra T ⬝ᵥ ket w) (β : Fin nx → ℂ)
    (hfb : ∀ dt a, fb dt T (greensFunction T w).1 a = (Real.sqrt dt : ℂ) * β a) :
    HybridLimit (fun dt xi => hyb k dt t fb T w xi) fun a =>
      (bra T ⬝ᵥ (spinOp spin (W a) *ᵥ ket w)) / (bra T ⬝ᵥ ket w) + (β a - mf a) := by
  have hx := fun i => Step.bias_linear k hk K W β (Slater.up (T.psi i)) (Slater.up w.phi) (Slater.dn (T.psi i))
    (Slater.dn w.phi)
  choose D d hD hd hx using hx
  have hOn : 0 < ‖bra T ⬝ᵥ ket w‖ := norm_pos_iff.2 hO
  have hDs : 0 ≤ ∑ i, ‖T.coeffs i‖ * D i := sum_nonneg fun i _ => mul_nonneg (norm_nonneg _) (hD i)
  obtain ⟨N, e, hΛ, he, hc⟩ := Step.hybrid_core
    (fun a => (bra T ⬝ᵥ (spinOp spin (W a) *ᵥ ket w)) / (bra T ⬝ᵥ ket w))
    (fun a => β a - mf a) ((∑ i, ‖T.coeffs i‖ * D i) / ‖bra T ⬝ᵥ ket w‖) (∑ i, d i)
    ‖∑ a, (β a * mf a - 1 / 2 * (β a * β a))‖ (∑ a, ‖β a‖)
    (by positivity) (by positivity) (∑ a, (β a * mf a - 1 / 2 * (β a * β a))) le_rfl
  have hN0 : 0 ≤ N := le_trans (by positivity) hΛ
  refine ⟨N, e, hN0, he, fun dt h0 h1 xi hs => ?_⟩
  have hs0 : 0 < Real.sqrt dt := Real.sqrt_pos.2 h0
  have hs1 : Real.sqrt dt ≤ 1 := Real.sqrt_le_one.mpr h1
  have hsq : (Real.sqrt dt : ℂ) ^ 2 = dt := by rw [← Complex.ofReal_pow, Real.sq_sqrt h0.le]
  have hb : ∀ a, Real.sqrt dt * ‖β a‖ ≤ 1 := by
    intro a
    refine le_trans (mul_le_mul_of_nonneg_left ?_ hs0.le) hs
    have ha : ‖β a‖ ≤ ∑ a, ‖β a‖ := single_le_sum (f := fun a => ‖β a‖) (fun _ _ => norm_nonneg _) (mem_univ a)
    nlinarith [Step.one_le_wt he xi]
  obtain ⟨a1, a2, a3, a4, a5⟩ := phaseless_single k dt (t dt) (fb dt) (fun _ => 0) T xi w
  have hnew := fun A => Step.phaseless_ovl k hL h0.le (fun _ => fb dt T (greensFunction T w).1) (fun _ => 0) w.phi A xi
    (asSingle w) β hb (hfb dt)
  have hcon := Step.phaseless_const k hL h0.le (fun _ => fb dt T (greensFunction T w).1) (fun _ => 0) w.phi xi
    (asSingle w) β hb (hfb dt)
  set r := Step.phaseless k dt (t dt) (fun _ => fb dt T (greensFunction T w).1) (fun _ => 0) w.phi xi (asSingle w)
  have hsum : ‖(∑ i, star (T.coeffs i) * ovl2 (T.psi i) r.2.phi) - (bra T ⬝ᵥ ket w +
      Real.sqrt dt * ∑ a, (xi a : ℂ) * (bra T ⬝ᵥ (spinOp spin (W a) *ᵥ ket w)))‖ ≤
      Real.sqrt dt ^ 2 * ((∑ i, ‖T.coeffs i‖ * D i) * wt (∑ i, d i) xi) := by
    have e1 : (∑ i, star (T.coeffs i) * ovl2 (T.psi i) r.2.phi) - (bra T ⬝ᵥ ket w +
        Real.sqrt dt * ∑ a, (xi a : ℂ) * (bra T ⬝ᵥ (spinOp spin (W a) *ᵥ ket w))) =
        ∑ i, star (T.coeffs i) * (ovl2 (T.psi i) r.2.phi - (ovl2 (T.psi i) w.phi +
          Real.sqrt dt * ∑ a, (xi a : ℂ) * (slater (T.psi i) ⬝ᵥ (spinOp spin (W a) *ᵥ ket w)))) := by
      have e2 : ∑ a, (xi a : ℂ) * (bra T ⬝ᵥ (spinOp spin (W a) *ᵥ ket w)) =
          ∑ i, star (T.coeffs i) * ∑ a, (xi a : ℂ) * (slater (T.psi i) ⬝ᵥ (spinOp spin (W a) *ᵥ ket w)) := by
        simp only [bra_dot, mul_sum]
        rw [sum_comm]
        exact sum_congr rfl fun i _ => sum_congr rfl fun a _ => by ring
      rw [e2, bra_ket, mul_sum, ← sum_add_distrib, ← sum_sub_distrib]
      exact sum_congr rfl fun i _ => by ring
    rw [e1, sum_mul, mul_sum]
    refine (norm_sum_le _ _).trans (sum_le_sum fun i _ => ?_)
    have h2 := hx i (Real.sqrt dt) xi hs0.le hs1
    have h3 : ovl2 (T.psi i) r.2.phi = _ := hnew (T.psi i)
    have h4 : ∀ a, oneElem (W a) (Slater.up (T.psi i)) (Slater.up w.phi) (Slater.dn (T.psi i)) (Slater.dn w.phi) =
      slater (T.psi i) ⬝ᵥ (spinOp spin (W a) *ᵥ ket w) := fun a => oneElem_slater _ _ _
    have h5 : biasOvl k (K 0) (fun a => W a 0) β (Slater.up (T.psi i)) (Slater.up w.phi) (Real.sqrt dt) xi *
        biasOvl k (K 1) (fun a => W a 1) β (Slater.dn (T.psi i)) (Slater.dn w.phi) (Real.sqrt dt) xi =
        ovl2 (T.psi i) r.2.phi := h3.symm
    rw [h5] at h2
    simp only [h4] at h2
    have h6 : wt (d i) xi ≤ wt (∑ i, d i) xi :=
      Step.wt_mono (single_le_sum (f := d) (fun j _ => hd j) (mem_univ i)) xi
    rw [norm_mul, norm_star]
    calc _ ≤ ‖T.coeffs i‖ * (Real.sqrt dt ^ 2 * (D i * wt (d i) xi)) :=
          mul_le_mul_of_nonneg_left h2 (norm_nonneg _)
      _ ≤ ‖T.coeffs i‖ * (Real.sqrt dt ^ 2 * (D i * wt (∑ i, d i) xi)) := by
          have := hD i
          gcongr
      _ = _ := by ring
  have h3 := hc (Real.sqrt dt) xi ((∑ i, star (T.coeffs i) * ovl2 (T.psi i) r.2.phi) / (bra T ⬝ᵥ ket w)) hs0 hs1 hs (by
      generalize ∑ i, star (T.coeffs i) * ovl2 (T.psi i) r.2.phi = q at hsum
      generalize bra T ⬝ᵥ ket w = O at *
      have e3 : q / O - 1 - Real.sqrt dt * ∑ a, (xi a : ℂ) * ((bra T ⬝ᵥ (spinOp spin (W a) *ᵥ ket w)) / O) =
          (q - (O + Real.sqrt dt * ∑ a, (xi a : ℂ) * (bra T ⬝ᵥ (spinOp spin (W a) *ᵥ ket w)))) / O := by
        simp only [mul_div_assoc', ← sum_div]
        field_simp
        ring
      rw [e3, norm_div, div_le_iff₀ hOn]
      refine hsum.trans (le_of_eq ?_)
      field_simp)
  have hh : hyb k dt t fb T w xi =
      -(Complex.log ((∑ i, star (T.coeffs i) * ovl2 (T.psi i) r.2.phi) / (bra T ⬝ᵥ ket w)) +
        (r.1.cfb + r.1.cmf)) / dt := by
    rw [hyb, Weights.hybridEnergy, Weights.boundHybrid, if_pos (by norm_num), a2, a3, a4, a5, hg, add_assoc]
  beta_reduce
  rw [hh, hcon, ← hsq]
  exact h3

/-! ## Determinants orthogonal to the walker -/

open scoped Classical in
/-- What force bias and mixed expectation of a one-body operator have in common: the determinants that pass. -/
theorem contract_skips (T : Trial n nb nu nd) (w : Wk n nb nu nd)
    (h : ∀ i, Pass (T.psi i) w.phi ∨ (ovl2 (T.psi i) w.phi = 0 ∧ w.ovlps i = 0)) (X : Matrix (Fin nb) (Fin nb) ℂ) :
    contractOneBody T (greensFunction T w).1 X =
      (∑ i, if Pass (T.psi i) w.phi then star (T.coeffs i) * (slater (T.psi i) ⬝ᵥ (spinOp spin (fun _ => X) *ᵥ ket w))
        else 0) / (bra T ⬝ᵥ ket w) := by
  have ho : ∀ i, (greensFunction T w).1.ovlps i = ovl2 (T.psi i) w.phi := by
    intro i
    rw [greens_ovlps]
    by_cases hp : Pass (T.psi i) w.phi
    · rw [detGreens_pass hp]; rfl
    · rw [detGreens_skip hp, ((h i).resolve_left hp).1]
      exact ((h i).resolve_left hp).2
  rw [contractOneBody, bra_ket]
  congr 1
  · refine sum_congr rfl fun i _ => ?_
    by_cases hp : Pass (T.psi i) w.phi
    · rw [if_pos hp, ho, greens_gi hp, dot_both, mul_assoc, green_one _ _ hp.ne fun _ => X]
      rfl
    · rw [if_neg hp, ho, ((h i).resolve_left hp).1]
      ring
  · exact sum_congr rfl fun i _ => by rw [ho]

open scoped Classical in
/-- **C85 (force bias)**: with the force bias of the code the hybrid energy stays bounded for small time steps exactly
if the determinants orthogonal to the walker contribute nothing to the one-body operators of the fields; what they
contribute is left out. -/
theorem force_bias_skips (k : Nat) (hk : 2 ≤ k) (g : Gen nx nb) (mf : Fin nx → ℂ) (T : Trial n nb nu nd)
    (w : Wk n nb nu nd) (hO : bra T ⬝ᵥ ket w ≠ 0)
    (h : ∀ i, Pass (T.psi i) w.phi ∨ (ovl2 (T.psi i) w.phi = 0 ∧ w.ovlps i = 0)) :
    (HybridBounded fun dt xi => hyb k dt (fun dt => g.tables dt mf) (fun dt => forceBias dt g mf) T w xi) ↔
      ∀ a, ∑ i, (if Pass (T.psi i) w.phi then 0 else
        star (T.coeffs i) * (slater (T.psi i) ⬝ᵥ (spinOp spin (fun _ => g.chol a) *ᵥ ket w))) = 0 := by
  have hl := hybrid_linear k hk (g.linear mf) (fun dt => forceBias dt g mf) T w hO
    (greens_overlap T w fun i => (h i).imp id And.left)
    (fun a => -(Complex.I * contractOneBody T (greensFunction T w).1 (g.chol a) - mf a))
    (fun dt a => by rw [forceBias]; ring)
  rw [hl.bounded_iff]
  refine forall_congr' fun a => ?_
  have e1 : bra T ⬝ᵥ (spinOp spin (fun _ => Complex.I • g.chol a) *ᵥ ket w) =
      Complex.I * ∑ i, star (T.coeffs i) * (slater (T.psi i) ⬝ᵥ (spinOp spin (fun _ => g.chol a) *ᵥ ket w)) := by
    have e2 : spinOp (spin : Fin nu ⊕ Fin nd → Fin 2) (fun _ => Complex.I • g.chol a) =
        Complex.I • spinOp spin (fun _ => g.chol a) := Step.spinOp_smul _ _ _
    rw [e2, Matrix.smul_mulVec, dotProduct_smul, smul_eq_mul, bra_dot]
  rw [contract_skips T w h, e1]
  have e3 : (∑ i, star (T.coeffs i) * (slater (T.psi i) ⬝ᵥ (spinOp spin (fun _ => g.chol a) *ᵥ ket w))) =
      (∑ i, if Pass (T.psi i) w.phi then star (T.coeffs i) *
        (slater (T.psi i) ⬝ᵥ (spinOp spin (fun _ => g.chol a) *ᵥ ket w)) else 0) +
      ∑ i, (if Pass (T.psi i) w.phi then 0 else
        star (T.coeffs i) * (slater (T.psi i) ⬝ᵥ (spinOp spin (fun _ => g.chol a) *ᵥ ket w))) := by
    rw [← sum_add_distrib]
    refine sum_congr rfl fun i _ => ?_
    split_ifs <;> ring
  rw [e3]
  generalize (∑ i, if Pass (T.psi i) w.phi then star (T.coeffs i) *
        (slater (T.psi i) ⬝ᵥ (spinOp spin (fun _ => g.chol a) *ᵥ ket w)) else 0) = P
  generalize (∑ i, (if Pass (T.psi i) w.phi then 0 else
        star (T.coeffs i) * (slater (T.psi i) ⬝ᵥ (spinOp spin (fun _ => g.chol a) *ᵥ ket w)))) = Q
  have e4 : Complex.I * (P + Q) / (bra T ⬝ᵥ ket w) + (-(Complex.I * (P / (bra T ⬝ᵥ ket w)) - mf a) - mf a) =
      Complex.I * Q / (bra T ⬝ᵥ ket w) := by
    field_simp
    ring
  rw [e4]
  constructor
  · intro h0
    rcases div_eq_zero_iff.1 h0 with h0 | h0
    · exact (mul_eq_zero.1 h0).resolve_left Complex.I_ne_zero
    · exact absurd h0 hO
  · rintro rfl
    rw [mul_zero, zero_div]

/-- **C85 (force bias, partial)**: it stays bounded if every determinant passes. -/
theorem generic_bounded_partial (k : Nat) (hk : 2 ≤ k) (g : Gen nx nb) (mf : Fin nx → ℂ) (T : Trial n nb nu nd)
    (w : Wk n nb nu nd) (hO : bra T ⬝ᵥ ket w ≠ 0) (h : ∀ i, Pass (T.psi i) w.phi) :
    HybridBounded fun dt xi => hyb k dt (fun dt => g.tables dt mf) (fun dt => forceBias dt g mf) T w xi := by
  classical
  exact (force_bias_skips k hk g mf T w hO fun i => Or.inl (h i)).2 fun a => sum_eq_zero fun i _ => if_pos (h i)

/-- **C85 (start from one determinant)**: if the walker overlaps with one determinant only, energy and one-body
contractions are those of this determinant, whatever the coefficients of the others. -/
theorem energy_start {T : Trial n nb nu nd} (hT : T.split = none) {eloc : (Fin 2 → Matrix (Fin nb) (Fin nb) ℂ) → ℂ}
    {H : Matrix (Fin nu ⊕ Fin nd → Fin nb) (Fin nu ⊕ Fin nd → Fin nb) ℂ} (hl : Local eloc H) (w : Wk n nb nu nd)
    (j : Fin n) (hc : T.coeffs j ≠ 0) (hj : Pass (T.psi j) w.phi) (h : ∀ i, i ≠ j → ovl2 (T.psi i) w.phi = 0) :
    localEnergy T eloc (greensFunction T (calcOverlap T w).1).1 =
      (slater (T.psi j) ⬝ᵥ (H *ᵥ ket w)) / (slater (T.psi j) ⬝ᵥ ket w) := by
  classical
  have hn : ∀ i, i ≠ j → ¬Pass (T.psi i) w.phi := fun i hi hp => hp.ne (h i hi)
  have hs := localEnergy_skips hT hl (calcOverlap T w).1 fun i => by
    by_cases hi : i = j
    · subst hi; exact Or.inl hj
    · refine Or.inr ⟨h i hi, ?_⟩
      show star (T.coeffs i) * ovl2 (T.psi i) w.phi = 0
      rw [h i hi, mul_zero]
  rw [hs]
  have hk : ket (calcOverlap T w).1 = ket w := rfl
  have hp : (calcOverlap T w).1.phi = w.phi := rfl
  simp only [hk, hp]
  rw [bra_ket, sum_eq_single j (fun i _ hi => if_neg (hn i hi)) (fun h => absurd (mem_univ _) h), if_pos hj,
    sum_eq_single j (fun i _ hi => by rw [h i hi, mul_zero]) (fun h => absurd (mem_univ _) h), ket, ← ovl2_eq,
    mul_div_mul_left _ _ (star_ne_zero.2 hc)]

/-! ## Two sites -/

/-- The up electron on site `i`, the down electron on the first site. -/
def det2 (i : Fin 2) : Slater.Wfn 2 1 1 :=
  Slater.join (Matrix.of fun p _ => if p = i then 1 else 0) (Matrix.of fun p _ => if p = 0 then 1 else 0)

/-- The difference of the two determinants. -/
def trial2 : Trial 2 2 1 1 := ⟨![1, -1], det2, none⟩

/-- Hopping of the up electron between the sites, no interaction. -/
def hop2 : Gen 0 2 := ⟨![!![0, 1; 1, 0], 0], fun _ => 0, 0⟩

/-- One Cholesky vector. -/
def sys2 : Gen 1 2 := ⟨0, fun _ => !![0, 1; 1, 0], 0⟩

/-- A walker with these orbitals as first set up: overlaps computed, nothing else stored. -/
noncomputable def start (T : Trial n nb nu nd) (phi : Slater.Wfn nb nu nd) : Wk n nb nu nd :=
  (calcOverlap T ⟨phi, 1, 1, 0, 0, 0, 0, 0, 0, 0, 0, 0, 0⟩).1

theorem ovl_det2 (i : Fin 2) (phi : Slater.Wfn 2 1 1) : ovl2 (det2 i) phi = Slater.up phi i 0 * Slater.dn phi 0 0 := by
  rw [ovl2, det2, Slater.up_join, Slater.dn_join, ovl, ovl, Matrix.det_unique, Matrix.det_unique]
  fin_cases i <;> simp [Matrix.mul_apply, Fin.sum_univ_two]

theorem one_det2 (i : Fin 2) (X : Fin 2 → Matrix (Fin 2) (Fin 2) ℂ) (phi : Slater.Wfn 2 1 1) :
    slater (det2 i) ⬝ᵥ (spinOp spin X *ᵥ prodState (orbs phi)) =
      (X 0 * Slater.up phi) i 0 * Slater.dn phi 0 0 + Slater.up phi i 0 * (X 1 * Slater.dn phi) 0 0 := by
  rw [← oneElem_slater, oneElem, det2, Slater.up_join, Slater.dn_join, oneBody, oneBody, ovl, ovl,
    Fin.sum_univ_one, Fin.sum_univ_one]
  simp only [Matrix.det_unique]
  fin_cases i <;> simp [Matrix.mul_apply, Fin.sum_univ_two, Matrix.mulVec, dotProduct, Matrix.updateCol_apply]

theorem hop_det2 (i : Fin 2) (phi : Slater.Wfn 2 1 1) :
    slater (det2 i) ⬝ᵥ (hamOp hop2.h1 hop2.chol hop2.ecore spin *ᵥ prodState (orbs phi)) =
      Slater.up phi (1 - i) 0 * Slater.dn phi 0 0 := by
  have e : hamOp hop2.h1 hop2.chol hop2.ecore (spin : Fin 1 ⊕ Fin 1 → Fin 2) = spinOp spin hop2.h1 := by
    rw [hamOp, univ_eq_empty (α := Fin 0), sum_empty, smul_zero, add_zero]
    show (0 : ℂ) • _ + _ = _
    rw [zero_smul, zero_add]
    rfl
  rw [e, one_det2]
  fin_cases i <;> simp [hop2, Matrix.mul_apply, Fin.sum_univ_two]

theorem tol_le_one : tol ≤ 1 := by unfold tol; norm_num

theorem pass_det2 (i : Fin 2) (phi : Slater.Wfn 2 1 1) :
    Pass (det2 i) phi ↔ tol ≤ ‖Slater.up phi i 0‖ ∧ tol ≤ ‖Slater.up phi i 0 * Slater.dn phi 0 0‖ := by
  have e : ovl (Slater.up (det2 i)) (Slater.up phi) = Slater.up phi i 0 := by
    rw [det2, Slater.up_join, ovl, Matrix.det_unique]
    fin_cases i <;> simp [Matrix.mul_apply, Fin.sum_univ_two]
  rw [Pass, ovl_det2, e]

theorem up_det2 (i p : Fin 2) : Slater.up (det2 i) p 0 = if p = i then 1 else 0 := by
  rw [det2, Slater.up_join]; rfl

theorem dn_det2 (i p : Fin 2) : Slater.dn (det2 i) p 0 = if p = 0 then 1 else 0 := by
  rw [det2, Slater.dn_join]; rfl

theorem pass0 : Pass (det2 0) (det2 0) := by
  rw [pass_det2, up_det2, dn_det2]; simp [tol_le_one]

theorem orth1 : ovl2 (det2 1) (det2 0) = 0 := by
  rw [ovl_det2, up_det2, dn_det2]; simp

/-- **C85 fails for walkers orthogonal to a determinant (energy)**: the difference of the two determinants is an
eigenstate of the hopping of the up electron with eigenvalue -1, a walker with the orbitals of the first determinant
overlaps with it, and the code gives the local energy 0. -/
theorem energy_wrong :
    (∀ w : Wk 2 2 1 1, bra trial2 ⬝ᵥ (hamOp hop2.h1 hop2.chol hop2.ecore spin *ᵥ ket w) = -1 * (bra trial2 ⬝ᵥ ket w)) ∧
    bra trial2 ⬝ᵥ ket (start trial2 (det2 0)) = 1 ∧
    localEnergy trial2 (fun G => (Energy.localChol hop2.h1 hop2.chol G hop2.ecore).1)
      (greensFunction trial2 (start trial2 (det2 0))).1 = 0 := by
  refine ⟨fun w => ?_, ?_, ?_⟩
  · rw [bra_ket, bra_dot, Fin.sum_univ_two, Fin.sum_univ_two]
    show star (![1, -1] 0 : ℂ) * (slater (det2 0) ⬝ᵥ _) + star (![1, -1] 1 : ℂ) * (slater (det2 1) ⬝ᵥ _) =
      -1 * (star (![1, -1] 0 : ℂ) * ovl2 (det2 0) _ + star (![1, -1] 1 : ℂ) * ovl2 (det2 1) _)
    rw [ket, hop_det2, hop_det2, ovl_det2, ovl_det2]
    simp
  · rw [bra_ket, Fin.sum_univ_two]
    show star (![1, -1] 0 : ℂ) * ovl2 (det2 0) (det2 0) + star (![1, -1] 1 : ℂ) * ovl2 (det2 1) (det2 0) = 1
    rw [orth1, ovl_det2, up_det2, dn_det2]
    simp
  · have h := energy_start (T := trial2) rfl (local_generic hop2) ⟨det2 0, 1, 1, 0, 0, 0, 0, 0, 0, 0, 0, 0, 0⟩ 0
      (by show (![1, -1] 0 : ℂ) ≠ 0; simp) pass0 (fun i hi => by
        obtain rfl : i = 1 := by omega
        exact orth1)
    refine h.trans ?_
    show (slater (det2 0) ⬝ᵥ (hamOp hop2.h1 hop2.chol hop2.ecore spin *ᵥ prodState (orbs (det2 0)))) / _ = 0
    rw [hop_det2, up_det2]
    simp

/-- **C85 fails for walkers orthogonal to a determinant (force bias)**: the hybrid energy of that walker is not
bounded for small time steps, for a system with one Cholesky vector and any mean-field shift. -/
theorem bias_unbounded (k : Nat) (hk : 2 ≤ k) (mf : Fin 1 → ℂ) :
    ¬ HybridBounded fun dt xi => hyb k dt (fun dt => sys2.tables dt mf) (fun dt => forceBias dt sys2 mf) trial2
      (start trial2 (det2 0)) xi := by
  classical
  have hn : ¬Pass (det2 1) (det2 0) := fun hp => hp.ne orth1
  rw [force_bias_skips k hk sys2 mf trial2 (start trial2 (det2 0))
    (by rw [energy_wrong.2.1]; exact one_ne_zero) (Fin.forall_fin_two.2 ⟨Or.inl pass0, Or.inr ⟨orth1, orth1⟩⟩)]
  intro h
  have h := h 0
  rw [Fin.sum_univ_two] at h
  have e0 : Pass (trial2.psi 0) (start trial2 (det2 0)).phi := pass0
  have e1 : ¬Pass (trial2.psi 1) (start trial2 (det2 0)).phi := hn
  rw [if_pos e0, if_neg e1, zero_add] at h
  have e2 : slater (trial2.psi 1) ⬝ᵥ (spinOp spin (fun _ => sys2.chol 0) *ᵥ ket (start trial2 (det2 0))) = 1 := by
    show slater (det2 1) ⬝ᵥ (spinOp spin (fun _ => sys2.chol 0) *ᵥ prodState (orbs (det2 0))) = 1
    rw [one_det2]
    simp [sys2, Matrix.mul_apply, Fin.sum_univ_two, up_det2, dn_det2]
  rw [e2] at h
  have e3 : star (trial2.coeffs 1) = -1 := by show star (![1, -1] 1 : ℂ) = -1; simp
  rw [e3] at h
  norm_num at h

/-- Orbitals for which both determinants pass. -/
noncomputable def tilt2 : Slater.Wfn 2 1 1 :=
  Slater.join (Matrix.of fun p _ => if p = 0 then 1 else 2) (Matrix.of fun p _ => if p = 0 then 1 else 0)

theorem pass_tilt (i : Fin 2) : Pass (trial2.psi i) tilt2 := by
  have hu : ∀ p, Slater.up tilt2 p 0 = if p = 0 then 1 else 2 := fun p => by rw [tilt2, Slater.up_join]; rfl
  have hd : Slater.dn tilt2 0 0 = 1 := by rw [tilt2, Slater.dn_join]; rfl
  show Pass (det2 i) tilt2
  have := tol_le_one
  rw [pass_det2, hu, hd]
  fin_cases i <;> simp <;> linarith

theorem start_phi (T : Trial n nb nu nd) (phi : Slater.Wfn nb nu nd) : (start T phi).phi = phi := rfl

theorem bra_tilt : bra trial2 ⬝ᵥ ket (start trial2 tilt2) = -1 := by
  have hu : ∀ p, Slater.up tilt2 p 0 = if p = 0 then 1 else 2 := fun p => by rw [tilt2, Slater.up_join]; rfl
  have hd : Slater.dn tilt2 0 0 = 1 := by rw [tilt2, Slater.dn_join]; rfl
  rw [bra_ket, Fin.sum_univ_two]
  show star (![1, -1] 0 : ℂ) * ovl2 (det2 0) tilt2 + star (![1, -1] 1 : ℂ) * ovl2 (det2 1) tilt2 = -1
  rw [ovl_det2, ovl_det2, hu, hu, hd]
  norm_num

/-- The hypotheses of `zero_variance`, `generic_bounded_partial` and `generic_importance` are met. -/
example : localEnergy trial2 (fun G => (Energy.localChol hop2.h1 hop2.chol G hop2.ecore).1)
    (greensFunction trial2 (start trial2 tilt2)).1 = -1 := by
  rw [localEnergy_partial rfl (local_generic hop2) _ (by rw [start_phi]; exact pass_tilt), energy_wrong.1, bra_tilt]
  norm_num

example (mf : Fin 1 → ℂ) : HybridBounded fun dt xi => hyb 6 dt (fun dt => sys2.tables dt mf)
    (fun dt => forceBias dt sys2 mf) trial2 (start trial2 tilt2) xi :=
  generic_bounded_partial 6 (by norm_num) sys2 mf trial2 _ (by rw [bra_tilt]; norm_num)
    (by rw [start_phi]; exact pass_tilt)

/-- The hypotheses of `generic_projects` are met. -/
example (qr : Slater.QR 2) (hqr : Slater.QRSpec qr) (mf : Fin 0 → ℂ) :
    ∃ E0, Step.Lowest (hamOp hop2.h1 hop2.chol hop2.ecore spin) (bra trial2)
        (ket { start trial2 tilt2 with ot := -1 }) E0 ∧
      ProjectsRun (fun dt xi v => propagateFree 6 dt (hop2.tables dt mf) trial2 0 xi v) (orthogonalise qr true) trial2
        (hamOp hop2.h1 hop2.chol hop2.ecore spin) { start trial2 tilt2 with ot := -1 } E0 := by
  have hk : ket { start trial2 tilt2 with ot := -1 } = ket (start trial2 tilt2) := rfl
  refine generic_projects hop2 (fun s => ?_) (fun a => a.elim0) (fun a => a.elim0) (by simp [hop2]) mf qr hqr trial2 0 _
    ?_ ?_ ?_ ?_ ?_
  · fin_cases s
    · ext i j; fin_cases i <;> fin_cases j <;> simp [hop2]
    · simp [hop2]
  · show ((1 : ℝ) : ℂ) * 1 ≠ 0
    simp
  · rw [hk, bra_tilt]
  · rw [hk, bra_tilt]; norm_num
  · show ((Slater.up tilt2)ᴴ * Slater.up tilt2).det ≠ 0
    rw [tilt2, Slater.up_join, Matrix.det_unique]
    simp [Matrix.mul_apply, Fin.sum_univ_two]
    rw [map_ofNat]
    norm_num
  · show ((Slater.dn tilt2)ᴴ * Slater.dn tilt2).det ≠ 0
    rw [tilt2, Slater.dn_join, Matrix.det_unique]
    simp [Matrix.mul_apply, Fin.sum_univ_two]

end Verif.MultiDet
