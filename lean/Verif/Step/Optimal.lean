import Verif.Step.Bias
import Verif.Energy.Props

/-!
# The force biases of the code are optimal, and the importance factor averages to the local energy
-/

namespace Verif.Step

open Matrix Finset Verif.Energy

variable {nx nb nu nd : Nat}

/-! ## Averages -/

/-- **C80 (unbiased)**: for any force bias whatever, the average of the factor of fields and force bias
times the overlap with any determinant after the step is the average without force bias. -/
theorem bias_unbiased (n : Nat) {t : ℝ → Tables nx nb} {K : Fin 2 → Matrix (Fin nb) (Fin nb) ℂ}
    {W : Fin nx → Fin 2 → Matrix (Fin nb) (Fin nb) ℂ} {mf : Fin nx → ℂ} (hL : Linear t K W mf) {dt : ℝ}
    (h0 : 0 ≤ dt) (fb : Slater.GF nb nu nd → Fin nx → ℂ) (eloc : Slater.GF nb nu nd → ℂ)
    (psi A : Slater.Wfn nb nu nd) (w : Slater.Wk nb nu nd) :
    avg (fun xi => Complex.exp ((phaseless n dt (t dt) fb eloc psi xi w).1.cfb +
        (phaseless n dt (t dt) fb eloc psi xi w).1.cmf) * ovl2 A (phaseless n dt (t dt) fb eloc psi xi w).2.phi) =
      avg (fun xi => Complex.exp ((phaseless n dt (t dt) (fun _ _ => 0) eloc psi xi w).1.cfb +
        (phaseless n dt (t dt) (fun _ _ => 0) eloc psi xi w).1.cmf) *
          ovl2 A (phaseless n dt (t dt) (fun _ _ => 0) eloc psi xi w).2.phi) := by
  set g : (Fin nx → ℂ) → ℂ := fun x =>
    ovl (Slater.up A) ((t dt).BH1 0 * (Slater.taylor n ((t dt).vhs x 0) * ((t dt).BH1 0 * Slater.up w.phi))) *
    ovl (Slater.dn A) ((t dt).BH1 1 * (Slater.taylor n ((t dt).vhs x 1) * ((t dt).BH1 1 * Slater.dn w.phi))) with hg
  have hpoly : IsPoly g := by
    have hv : ∀ s, IsPolyM fun x => (t dt).vhs x s := by
      intro s
      simp only [hL.field dt h0]
      exact IsPolyM.smul (IsPoly.const _) (IsPolyM.sum _ fun a _ => IsPolyM.smul (IsPoly.var a) (IsPolyM.const _))
    have ht : ∀ s, IsPolyM fun x => Slater.taylor n ((t dt).vhs x s) := fun s =>
      IsPolyM.sum _ fun j _ => IsPolyM.smul (IsPoly.const _) ((hv s).pow j)
    exact (((IsPolyM.const _).mul ((IsPolyM.const _).mul ((ht 0).mul (IsPolyM.const _)))).det).mul
      (((IsPolyM.const _).mul ((IsPolyM.const _).mul ((ht 1).mul (IsPolyM.const _)))).det)
  have key : ∀ fb : Slater.GF nb nu nd → Fin nx → ℂ,
      avg (fun xi => Complex.exp ((phaseless n dt (t dt) fb eloc psi xi w).1.cfb +
        (phaseless n dt (t dt) fb eloc psi xi w).1.cmf) * ovl2 A (phaseless n dt (t dt) fb eloc psi xi w).2.phi) =
      avg (fun xi => Complex.exp (∑ a, (xi a : ℂ) * (-(Real.sqrt dt : ℂ) * mf a)) * g fun a => (xi a : ℂ)) := by
    intro fb
    rw [← force_bias_polynomial (fun a => Weights.rescale (fb (Slater.greensFunction psi w) a)) _ hpoly]
    congr 1
    funext xi
    have e1 : (phaseless n dt (t dt) fb eloc psi xi w).1.cmf = ∑ a, Weights.xshifted xi
        (fun a => Weights.rescale (fb (Slater.greensFunction psi w) a)) a * (-(Real.sqrt dt : ℂ) * mf a) := by
      simp only [phaseless, twoBodyPropagator, Weights.cmf, hL.shift, mul_sum]
      exact sum_congr rfl fun a _ => by ring
    have e2 : (phaseless n dt (t dt) fb eloc psi xi w).1.cfb = Weights.cfb xi
        (fun a => Weights.rescale (fb (Slater.greensFunction psi w) a)) := rfl
    have e3 : ovl2 A (phaseless n dt (t dt) fb eloc psi xi w).2.phi = g (Weights.xshifted xi
        (fun a => Weights.rescale (fb (Slater.greensFunction psi w) a))) := by
      simp only [phaseless, twoBodyPropagator, kineticReal, ovl2, up_join, dn_join, hg,
        Slater.applyExponential_taylor]
    rw [Complex.exp_add, e1, e2, e3, mul_assoc]
  rw [key, key]

/-- With any force bias the step is accurate to the same order as the free one. -/
theorem biased_first_order (n : Nat) {t : ℝ → Tables nx nb} {K : Fin 2 → Matrix (Fin nb) (Fin nb) ℂ}
    {W : Fin nx → Fin 2 → Matrix (Fin nb) (Fin nb) ℂ} {mf : Fin nx → ℂ} (hL : Linear t K W mf)
    (fb : ℝ → Slater.GF nb nu nd → Fin nx → ℂ) (eloc : Slater.GF nb nu nd → ℂ) (psi A : Slater.Wfn nb nu nd)
    (w : Slater.Wk nb nu nd) (H c : ℂ)
    (hf : FirstOrder (fun dt xi => propagateFree n dt (t dt) psi 0 xi { w with weight := 1, phase := 1 })
      { w with weight := 1, phase := 1 } A H c) :
    ∃ L : ℝ, ∀ dt : ℝ, 0 ≤ dt → dt ≤ 1 →
      ‖avg (fun xi => Complex.exp ((phaseless n dt (t dt) (fb dt) eloc psi xi w).1.cfb +
        (phaseless n dt (t dt) (fb dt) eloc psi xi w).1.cmf) *
          ovl2 A (phaseless n dt (t dt) (fb dt) eloc psi xi w).2.phi) -
        (ovl2 A w.phi - dt * (H - c * ovl2 A w.phi))‖ ≤ L * dt ^ (3 / 2 : ℝ) := by
  obtain ⟨L, hf⟩ := hf
  refine ⟨L, fun dt h0 h1 => ?_⟩
  have h := hf dt h0 h1
  rw [bias_unbiased n hL h0]
  have e : (fun xi => Complex.exp ((phaseless n dt (t dt) (fun _ _ => 0) eloc psi xi w).1.cfb +
        (phaseless n dt (t dt) (fun _ _ => 0) eloc psi xi w).1.cmf) *
          ovl2 A (phaseless n dt (t dt) (fun _ _ => 0) eloc psi xi w).2.phi) =
      fun xi => ((propagateFree n dt (t dt) psi 0 xi { w with weight := 1, phase := 1 }).weight : ℂ) *
        (propagateFree n dt (t dt) psi 0 xi { w with weight := 1, phase := 1 }).phase *
        ovl2 A (propagateFree n dt (t dt) psi 0 xi { w with weight := 1, phase := 1 }).phi := by
    funext xi
    rw [weight_phase]
    have e1 : (phaseless n dt (t dt) (fun _ _ => 0) eloc psi xi w).2.phi =
        (propagateFree n dt (t dt) psi 0 xi { w with weight := 1, phase := 1 }).phi := rfl
    have e2 : (phaseless n dt (t dt) (fun _ _ => 0) eloc psi xi w).1.cfb +
        (phaseless n dt (t dt) (fun _ _ => 0) eloc psi xi w).1.cmf =
        (Real.sqrt dt : ℂ) * ∑ a, (xi a : ℂ) * -(t dt).mfShift a := by
      simp only [phaseless, twoBodyPropagator, Weights.cfb, Weights.cmf, Weights.xshifted, rescale_zero, mul_zero,
        sub_zero, sum_const_zero, zero_add, mul_neg, sum_neg_distrib]
      ring
    rw [e1, e2]
    simp
  rw [e]
  simpa using h

theorem FirstOrder.congr {step : ℝ → (Fin nx → ℝ) → Slater.Wk nb nu nd} {w : Slater.Wk nb nu nd}
    {A : Slater.Wfn nb nu nd} {H c H' c' : ℂ} (h : FirstOrder step w A H c)
    (e : H - c * ovl2 A w.phi = H' - c' * ovl2 A w.phi) : FirstOrder step w A H' c' := by
  obtain ⟨L, h⟩ := h
  exact ⟨L, fun dt h0 h1 => by rw [← e]; exact h dt h0 h1⟩

/-- The importance factor of a step: ratio of overlaps times the factor of fields and force bias. -/
noncomputable def importance (s : Weights.Step) : ℂ := s.ovlpNew / s.ovlp * Complex.exp (s.cfb + s.cmf)

/-- It is the exponential of minus the time step times the hybrid energy. -/
theorem importance_eq {dt : ℝ} (hdt : 0 < dt) (s : Weights.Step) (h0 : s.ovlp ≠ 0) (h1 : s.ovlpNew ≠ 0) :
    Complex.exp (-(dt : ℂ) * Weights.hybridEnergy dt 0 s) = importance s := by
  have hd : (dt : ℂ) ≠ 0 := by exact_mod_cast hdt.ne'
  rw [Weights.hybridEnergy, Weights.boundHybrid, if_pos (by norm_num), importance]
  have : -(dt : ℂ) * (-(Complex.log (s.ovlpNew / s.ovlp) + s.cfb + s.cmf) / dt) =
      Complex.log (s.ovlpNew / s.ovlp) + (s.cfb + s.cmf) := by
    field_simp
    ring
  rw [this, Complex.exp_add, Complex.exp_log (div_ne_zero h1 h0)]

/-- The average of the importance factor, for equal electron numbers. -/
theorem importance_first_order (n : Nat) {t : ℝ → Tables nx nb} {K : Fin 2 → Matrix (Fin nb) (Fin nb) ℂ}
    {W : Fin nx → Fin 2 → Matrix (Fin nb) (Fin nb) ℂ} {mf : Fin nx → ℂ} (hL : Linear t K W mf)
    (fb : ℝ → Slater.GF nb nu nu → Fin nx → ℂ) (eloc : Slater.GF nb nu nu → ℂ) (psi : Slater.Wfn nb nu nu)
    (w : Slater.Wk nb nu nu) (hO : ovl2 psi w.phi ≠ 0) (E c : ℂ)
    (hf : FirstOrder (fun dt xi => propagateFree n dt (t dt) psi 0 xi { w with weight := 1, phase := 1 })
      { w with weight := 1, phase := 1 } psi (E * ovl2 psi w.phi) c) :
    ∃ L : ℝ, ∀ dt : ℝ, 0 ≤ dt → dt ≤ 1 →
      ‖avg (fun xi => importance (phaseless n dt (t dt) (fb dt) eloc psi xi w).1) - (1 - dt * (E - c))‖ ≤
        L * dt ^ (3 / 2 : ℝ) := by
  obtain ⟨L, h⟩ := biased_first_order n hL fb eloc psi psi w _ _ hf
  have hOn : 0 < ‖ovl2 psi w.phi‖ := norm_pos_iff.2 hO
  refine ⟨L / ‖ovl2 psi w.phi‖, fun dt h0 h1 => ?_⟩
  have h := h dt h0 h1
  have e : (fun xi => importance (phaseless n dt (t dt) (fb dt) eloc psi xi w).1) = fun xi =>
      (ovl2 psi w.phi)⁻¹ * (Complex.exp ((phaseless n dt (t dt) (fb dt) eloc psi xi w).1.cfb +
        (phaseless n dt (t dt) (fb dt) eloc psi xi w).1.cmf) *
          ovl2 psi (phaseless n dt (t dt) (fb dt) eloc psi xi w).2.phi) := by
    funext xi
    have e1 : (phaseless n dt (t dt) (fb dt) eloc psi xi w).1.ovlpNew =
        ovl2 psi (phaseless n dt (t dt) (fb dt) eloc psi xi w).2.phi * Complex.exp (-(w.logShift : ℂ)) :=
      Slater.calcOverlap_eq psi (phaseless n dt (t dt) (fb dt) eloc psi xi w).2
    have e2 : (phaseless n dt (t dt) (fb dt) eloc psi xi w).1.ovlp =
        ovl2 psi w.phi * Complex.exp (-(w.logShift : ℂ)) := Slater.greensFunction_det psi w
    rw [importance, e1, e2, mul_div_mul_right _ _ (Complex.exp_ne_zero _), div_eq_inv_mul]
    ring
  rw [e, avg_smul]
  generalize avg (fun xi => Complex.exp ((phaseless n dt (t dt) (fb dt) eloc psi xi w).1.cfb +
        (phaseless n dt (t dt) (fb dt) eloc psi xi w).1.cmf) *
          ovl2 psi (phaseless n dt (t dt) (fb dt) eloc psi xi w).2.phi) = F at h
  generalize ovl2 psi w.phi = O at *
  have e2 : O⁻¹ * F - (1 - dt * (E - c)) = (F - (O - dt * (E * O - c * O))) / O := by
    field_simp
  rw [e2, norm_div, div_mul_eq_mul_div]
  exact div_le_div_of_nonneg_right h hOn.le

/-! ## Green's functions and matrix elements -/

theorem oneElem_green (psi : Slater.Wfn nb nu nd) (w : Slater.Wk nb nu nd) (hO : ovl2 psi w.phi ≠ 0)
    (T : Fin 2 → Matrix (Fin nb) (Fin nb) ℂ) :
    oneElem T (Slater.up psi) (Slater.up w.phi) (Slater.dn psi) (Slater.dn w.phi) / ovl2 psi w.phi =
      dot2 (T 0) (Slater.greensFunction psi w).gUp + dot2 (T 1) (Slater.greensFunction psi w).gDn := by
  have hu : ovl (Slater.up psi) (Slater.up w.phi) ≠ 0 := left_ne_zero_of_mul hO
  have hd : ovl (Slater.dn psi) (Slater.dn w.phi) ≠ 0 := right_ne_zero_of_mul hO
  rw [oneElem, oneBody_eq _ _ _ hu, oneBody_eq _ _ _ hd, dot2_trace, dot2_trace,
    (Slater.greensFunction_eq psi w).1, (Slater.greensFunction_eq psi w).2, Matrix.transpose_transpose,
    Matrix.transpose_transpose, ovl2]
  field_simp

theorem dot2_smul (c : ℂ) (A B : Matrix (Fin nb) (Fin nb) ℂ) : dot2 (c • A) B = c * dot2 A B := by
  simp only [dot2, Matrix.smul_apply, smul_eq_mul, mul_sum]
  exact sum_congr rfl fun i _ => sum_congr rfl fun j _ => by ring

theorem dot2_site (i : Fin nb) (B : Matrix (Fin nb) (Fin nb) ℂ) : dot2 (site i) B = B i i := by
  rw [dot2, sum_eq_single i]
  · rw [sum_eq_single i]
    · simp [site]
    · intro j _ hj; simp [site, Matrix.single_apply, Ne.symm hj]
    · intro h; exact absurd (mem_univ _) h
  · intro j _ hj
    refine sum_eq_zero fun r _ => ?_
    simp [site, Matrix.single_apply, Ne.symm hj]
  · intro h; exact absurd (mem_univ _) h

/-! ## Generic systems -/

theorem Gen.linear (g : Gen nx nb) (mf : Fin nx → ℂ) : Linear (fun dt => g.tables dt mf)
    (fun s => g.h1eMod s - Matrix.of fun i k => Complex.I * ∑ n, g.chol n i k * mf n)
    (fun a _ => Complex.I • g.chol a) mf :=
  ⟨fun _ => rfl, fun _ _ => rfl, fun dt _ x s => Gen.vhs_eq dt g mf x s⟩

/-- **C80 (generic, fast and slow force bias)**: the two routines for the force bias agree. -/
theorem forceBias_fast (dt : ℝ) (g : Gen nx nb) (mf : Fin nx → ℂ) (psi : Slater.Wfn nb nu nd)
    (w : Slater.Wk nb nu nd) :
    g.forceBiasFast dt mf psi (Slater.greensFunction psi w) = g.forceBias dt mf (Slater.greensFunction psi w) := by
  have h : ∀ {k : Nat} (A : Matrix (Fin nb) (Fin k) ℂ) (Y : Matrix (Fin k) (Fin nb) ℂ) (n : Fin nx),
      ∑ a, ∑ q, halfRotate A g.chol n a q * Y a q = ∑ i, ∑ q, g.chol n i q * (A.map star * Y) i q := by
    intro k A Y n
    simp only [halfRotate, Matrix.mul_apply, Matrix.map_apply, sum_mul, mul_sum]
    rw [sum_comm]
    refine (sum_congr rfl fun q _ => sum_comm).trans ?_
    rw [sum_comm]
    refine sum_congr rfl fun i _ => sum_congr rfl fun q _ => sum_congr rfl fun a _ => ?_
    ring
  funext n
  rw [Gen.forceBiasFast, Gen.forceBias, h, h]
  rfl

/-- The hybrid energy with any force bias `√dt β`, in particular none. -/
theorem generic_limit (n : Nat) (hn : 2 ≤ n) (g : Gen nx nb) (mf β : Fin nx → ℂ) (psi : Slater.Wfn nb nu nu)
    (w : Slater.Wk nb nu nu) (hO : ovl2 psi w.phi ≠ 0) :
    HybridLimit (fun dt xi => hyb n dt (fun dt => g.tables dt mf) (fun dt _ a => (Real.sqrt dt : ℂ) * β a) psi w xi)
      fun a => Complex.I * (dot2 (g.chol a) (Slater.greensFunction psi w).gUp +
        dot2 (g.chol a) (Slater.greensFunction psi w).gDn) - mf a + β a := by
  have h := hybrid_linear n hn (g.linear mf) (fun dt _ a => (Real.sqrt dt : ℂ) * β a) psi w hO β
    fun _ _ => rfl
  simp only [oneElem_green psi w hO, dot2_smul] at h
  convert! h using 2
  ring

/-- **C80 (generic)**: with the force bias of the code the hybrid energy stays bounded as the time step
goes to zero. -/
theorem generic_bounded (n : Nat) (hn : 2 ≤ n) (g : Gen nx nb) (mf : Fin nx → ℂ) (psi : Slater.Wfn nb nu nu)
    (w : Slater.Wk nb nu nu) (hO : ovl2 psi w.phi ≠ 0) :
    HybridBounded fun dt xi => hyb n dt (fun dt => g.tables dt mf) (fun dt => g.forceBias dt mf) psi w xi := by
  set β : Fin nx → ℂ := fun a => -(Complex.I * (dot2 (g.chol a) (Slater.greensFunction psi w).gUp +
        dot2 (g.chol a) (Slater.greensFunction psi w).gDn) - mf a) with hβ
  refine (hybrid_linear n hn (g.linear mf) (fun dt => g.forceBias dt mf) psi w hO β
    fun dt a => ?_).bounded_iff.2 fun a => ?_
  · rw [Gen.forceBias, hβ]
    simp only [dot2]
    ring
  · rw [oneElem_green psi w hO, dot2_smul, dot2_smul, hβ]
    ring

/-- The same for the fast routine. -/
theorem generic_bounded_fast (n : Nat) (hn : 2 ≤ n) (g : Gen nx nb) (mf : Fin nx → ℂ)
    (psi : Slater.Wfn nb nu nu) (w : Slater.Wk nb nu nu) (hO : ovl2 psi w.phi ≠ 0) :
    HybridBounded fun dt xi => hyb n dt (fun dt => g.tables dt mf)
      (fun dt => g.forceBiasFast dt mf psi) psi w xi := by
  obtain ⟨D, d, hD, hd, h⟩ := generic_bounded n hn g mf psi w hO
  refine ⟨D, d, hD, hd, fun dt h0 h1 xi hx => ?_⟩
  have e : hyb n dt (fun dt => g.tables dt mf) (fun dt => g.forceBiasFast dt mf psi) psi w xi =
      hyb n dt (fun dt => g.tables dt mf) (fun dt => g.forceBias dt mf) psi w xi := by
    simp only [hyb, phaseless, forceBias_fast]
  beta_reduce
  rw [e]
  exact h dt h0 h1 xi hx

/-- **C80 (mean-field shift)**: for a walker equal to the trial the mean-field shift of the trial makes the
force bias vanish, so the hybrid energy stays bounded without force bias. -/
theorem generic_trial (n : Nat) (hn : 2 ≤ n) (g : Gen nx nb) (psi : Slater.Wfn nb nu nu)
    (w : Slater.Wk nb nu nu) (hw : w.phi = psi) (hO : ovl2 psi psi ≠ 0) (G : Fin 2 → Matrix (Fin nb) (Fin nb) ℂ)
    (hG : G = ![(Slater.gabMod (Slater.up psi) (Slater.up psi)).1,
      (Slater.gabMod (Slater.dn psi) (Slater.dn psi)).1]) :
    (∀ dt a, g.forceBias dt (g.mfShift G) (Slater.greensFunction psi w) a = 0) ∧
      HybridBounded fun dt xi => hyb n dt (fun dt => g.tables dt (g.mfShift G)) (fun _ _ _ => 0) psi w xi := by
  have e0 : G 0 = (Slater.greensFunction psi w).gUp := by
    rw [hG, (Slater.greensFunction_eq psi w).1, ← Slater.gabMod_eq, hw]; rfl
  have e1 : G 1 = (Slater.greensFunction psi w).gDn := by
    rw [hG, (Slater.greensFunction_eq psi w).2, ← Slater.gabMod_eq, hw]; rfl
  have em : ∀ a, g.mfShift G a = Complex.I * (dot2 (g.chol a) (Slater.greensFunction psi w).gUp +
        dot2 (g.chol a) (Slater.greensFunction psi w).gDn) := by
    intro a
    rw [Gen.mfShift, e0, e1]
    simp only [dot2, mul_add, sum_add_distrib]
  constructor
  · intro dt a
    rw [Gen.forceBias, em]
    simp only [dot2]
    ring
  · have h := generic_limit n hn g (g.mfShift G) (fun _ => 0) psi w (by rwa [hw])
    have hb := h.bounded_iff.2 fun a => by rw [em, sub_self, add_zero]
    simpa only [mul_zero] using hb

/-- **C80 (generic, average)**: whatever the force bias, the importance factor averages to one minus the
time step times the local energy, up to the constant. -/
theorem generic_importance (n : Nat) (hn : 2 ≤ n) (g : Gen nx nb) (hL : ∀ a, (g.chol a)ᵀ = g.chol a)
    (mf : Fin nx → ℂ) (fb : ℝ → Slater.GF nb nu nu → Fin nx → ℂ) (eloc : Slater.GF nb nu nu → ℂ)
    (psi : Slater.Wfn nb nu nu) (w : Slater.Wk nb nu nu) (hO : ovl2 psi w.phi ≠ 0) :
    ∃ L : ℝ, ∀ dt : ℝ, 0 ≤ dt → dt ≤ 1 →
      ‖avg (fun xi => importance (phaseless n dt (g.tables dt mf) (fb dt) eloc psi xi w).1) -
        (1 - dt * ((localChol g.h1 g.chol ![(Slater.greensFunction psi w).gUp, (Slater.greensFunction psi w).gDn]
          g.ecore).1 - (g.tables dt mf).mfCore))‖ ≤ L * dt ^ (3 / 2 : ℝ) := by
  refine importance_first_order n (g.linear mf) fb eloc psi w hO _ _ ?_
  have h := generic_first_order n hn g hL mf psi psi 0 { w with weight := 1, phase := 1 }
  have e := localChol_expectation g.h1 g.chol g.ecore (Slater.up psi) (Slater.up w.phi) (Slater.dn psi)
    (Slater.dn w.phi) (left_ne_zero_of_mul hO) (right_ne_zero_of_mul hO)
  rw [add_zero] at h
  have e2 : (localChol g.h1 g.chol ![(Slater.greensFunction psi w).gUp, (Slater.greensFunction psi w).gDn]
      g.ecore).1 * ovl2 psi w.phi = hamil g.h1 g.chol g.ecore (Slater.up psi) (Slater.up w.phi) (Slater.dn psi)
      (Slater.dn w.phi) := e
  rw [e2]
  exact h

/-! ## Hubbard model -/

theorem Hub.charge_linear (h : Hub nb) (mf : Fin nb → ℂ) : Linear (fun dt => h.charge dt mf)
    (fun s => h.h1eMod s - (Complex.I * root h.U) • diagonal mf)
    (fun i _ => (Complex.I * root h.U) • site i) mf := by
  refine ⟨fun _ => rfl, fun _ _ => rfl, fun dt _ x s => ?_⟩
  simp only [Hub.charge]
  rw [diagonal_eq, smul_sum]
  refine sum_congr rfl fun i _ => ?_
  rw [smul_smul, smul_smul]
  congr 1
  ring

theorem Hub.spin_linear (h : Hub nb) (mf : Fin nb → ℂ) : Linear (fun dt => h.spin dt mf)
    (fun s => h.h1 s + (1 / 2 * h.U : ℂ) • 1 - root h.U • diagonal mf)
    (fun i s => if s = 0 then (-root h.U) • site i else root h.U • site i) mf := by
  refine ⟨fun _ => rfl, fun _ _ => rfl, fun dt h0 x s => ?_⟩
  simp only [Hub.spin, root_mul h0]
  split_ifs with hs <;>
  · rw [diagonal_eq, smul_sum]
    refine sum_congr rfl fun i _ => ?_
    rw [smul_smul, smul_smul]
    congr 1
    ring

/-- **C80 (charge decomposition)** -/
theorem charge_bounded (n : Nat) (hn : 2 ≤ n) (h : Hub nb) (mf : Fin nb → ℂ) (psi : Slater.Wfn nb nu nu)
    (w : Slater.Wk nb nu nu) (hO : ovl2 psi w.phi ≠ 0) :
    HybridBounded fun dt xi => hyb n dt (fun dt => h.charge dt mf) (fun dt => h.forceBias dt mf) psi w xi := by
  set β : Fin nb → ℂ := fun i => -(Complex.I * root h.U * ((Slater.greensFunction psi w).gUp i i +
        (Slater.greensFunction psi w).gDn i i) - mf i) with hβ
  refine (hybrid_linear n hn (h.charge_linear mf) (fun dt => h.forceBias dt mf) psi w hO β
    fun dt a => ?_).bounded_iff.2 fun a => ?_
  · rw [Hub.forceBias, hβ]
    ring
  · rw [oneElem_green psi w hO, dot2_smul, dot2_smul, dot2_site, dot2_site, hβ]
    ring

/-- The local energy of the code is the mixed expectation of the Hubbard Hamiltonian. -/
theorem hubbardElem_local (h : Hub nb) (psi : Slater.Wfn nb nu nd) (w : Slater.Wk nb nu nd)
    (hO : ovl2 psi w.phi ≠ 0) :
    (localHubbard h.h1 h.U h.symmetric ![(Slater.greensFunction psi w).gUp, (Slater.greensFunction psi w).gDn]).1 *
      ovl2 psi w.phi =
    hubbardElem h.h1 h.U (Slater.up psi) (Slater.up w.phi) (Slater.dn psi) (Slater.dn w.phi) := by
  have hu : ovl (Slater.up psi) (Slater.up w.phi) ≠ 0 := left_ne_zero_of_mul hO
  have hd : ovl (Slater.dn psi) (Slater.dn w.phi) ≠ 0 := right_ne_zero_of_mul hO
  have e1 := oneElem_green psi w hO h.h1
  rw [div_eq_iff hO] at e1
  have tr : ∀ (i : Fin nb) (T : Matrix (Fin nb) (Fin nb) ℂ), (site i * T).trace = T i i := by
    intro i T
    rw [← dot2_site i T, dot2]
    simp only [Matrix.trace, Matrix.diag, Matrix.mul_apply, site, Matrix.single_apply]
    refine sum_congr rfl fun a _ => sum_congr rfl fun b _ => ?_
    by_cases hab : i = a ∧ i = b
    · obtain ⟨rfl, rfl⟩ := hab; rfl
    · rw [if_neg hab, zero_mul, zero_mul]
  have e2 : ∀ i, oneBody (site i) (Slater.up psi) (Slater.up w.phi) * oneBody (site i) (Slater.dn psi) (Slater.dn w.phi) =
      (Slater.greensFunction psi w).gUp i i * (Slater.greensFunction psi w).gDn i i * ovl2 psi w.phi := by
    intro i
    rw [oneBody_eq _ _ _ hu, oneBody_eq _ _ _ hd, tr, tr, (Slater.greensFunction_eq psi w).1,
      (Slater.greensFunction_eq psi w).2, Matrix.transpose_apply, Matrix.transpose_apply, ovl2]
    ring
  rw [hubbardElem, e1, sum_congr rfl fun i _ => e2 i, ← sum_mul]
  show (dot2 (h.h1 0) _ + dot2 (h.h1 1) _ + h.U * _) * _ = _
  simp only [Matrix.cons_val_zero, Matrix.cons_val_one]
  ring

/-- **C80 (charge decomposition, average)** -/
theorem charge_importance (n : Nat) (hn : 2 ≤ n) (h : Hub nb) (mf : Fin nb → ℂ)
    (fb : ℝ → Slater.GF nb nu nu → Fin nb → ℂ) (eloc : Slater.GF nb nu nu → ℂ)
    (psi : Slater.Wfn nb nu nu) (w : Slater.Wk nb nu nu) (hO : ovl2 psi w.phi ≠ 0) :
    ∃ L : ℝ, ∀ dt : ℝ, 0 ≤ dt → dt ≤ 1 →
      ‖avg (fun xi => importance (phaseless n dt (h.charge dt mf) (fb dt) eloc psi xi w).1) -
        (1 - dt * ((localHubbard h.h1 h.U h.symmetric
          ![(Slater.greensFunction psi w).gUp, (Slater.greensFunction psi w).gDn]).1 -
          ((h.charge dt mf).mfCore - if h.symmetric then (h.U : ℂ) * nu else 0)))‖ ≤ L * dt ^ (3 / 2 : ℝ) := by
  refine importance_first_order n (h.charge_linear mf) fb eloc psi w hO
    (localHubbard h.h1 h.U h.symmetric ![(Slater.greensFunction psi w).gUp, (Slater.greensFunction psi w).gDn]).1
    (1 / 2 * ∑ n, mf n * mf n - if h.symmetric then (h.U : ℂ) * nu else 0) ?_
  refine (charge_first_order n hn h mf psi psi 0 { w with weight := 1, phase := 1 }).congr ?_
  rw [hubbardElem_local h psi w hO]
  split_ifs <;> ring

/-- The spin decomposition: to leading order the hybrid energy is twice what it would be without force bias
and mean-field shift, since the sign of the force bias is opposite to the one of the field potential. -/
theorem spin_limit (n : Nat) (hn : 2 ≤ n) (h : Hub nb) (mf : Fin nb → ℂ) (psi : Slater.Wfn nb nu nu)
    (w : Slater.Wk nb nu nu) (hO : ovl2 psi w.phi ≠ 0) :
    HybridLimit (fun dt xi => hyb n dt (fun dt => h.spin dt mf) (fun dt => h.forceBiasSpin dt mf) psi w xi)
        (fun i => -2 * (root h.U * ((Slater.greensFunction psi w).gUp i i - (Slater.greensFunction psi w).gDn i i))) ∧
      HybridLimit (fun dt xi => hyb n dt (fun dt => h.spin dt fun _ => 0) (fun _ _ _ => 0) psi w xi)
        (fun i => -1 * (root h.U * ((Slater.greensFunction psi w).gUp i i - (Slater.greensFunction psi w).gDn i i))) := by
  have e : ∀ i, dot2 (if (0 : Fin 2) = 0 then (-root h.U) • site i else root h.U • site i)
        (Slater.greensFunction psi w).gUp + dot2 (if (1 : Fin 2) = 0 then (-root h.U) • site i else root h.U • site i)
        (Slater.greensFunction psi w).gDn = -1 * (root h.U * ((Slater.greensFunction psi w).gUp i i -
          (Slater.greensFunction psi w).gDn i i)) := by
    intro i
    rw [if_pos rfl, if_neg (by decide), dot2_smul, dot2_smul, dot2_site, dot2_site]
    ring
  constructor
  · have hl := hybrid_linear n hn (h.spin_linear mf) (fun dt => h.forceBiasSpin dt mf) psi w hO
      (fun i => -(root h.U * ((Slater.greensFunction psi w).gUp i i - (Slater.greensFunction psi w).gDn i i) - mf i))
      fun dt a => by rw [Hub.forceBiasSpin]; ring
    convert! hl using 2
    rw [oneElem_green psi w hO, e]
    ring
  · have hl := hybrid_linear n hn (h.spin_linear fun _ => 0) (fun _ _ _ => 0) psi w hO (fun _ => 0)
      fun dt a => by simp
    convert! hl using 2
    rw [oneElem_green psi w hO, e]
    ring

/-- **C80 (spin decomposition, partial and refuted)**: the hybrid energy stays bounded exactly for walkers
that are not spin polarised on any site. -/
theorem spin_bounded_partial (n : Nat) (hn : 2 ≤ n) (h : Hub nb) (hU : h.U ≠ 0) (mf : Fin nb → ℂ)
    (psi : Slater.Wfn nb nu nu) (w : Slater.Wk nb nu nu) (hO : ovl2 psi w.phi ≠ 0) :
    (HybridBounded fun dt xi => hyb n dt (fun dt => h.spin dt mf) (fun dt => h.forceBiasSpin dt mf) psi w xi) ↔
      ∀ i, (Slater.greensFunction psi w).gUp i i = (Slater.greensFunction psi w).gDn i i := by
  rw [(spin_limit n hn h mf psi w hO).1.bounded_iff]
  refine forall_congr' fun i => ?_
  have hr : root h.U ≠ 0 := by
    intro h0
    have := root_sq h.U
    rw [h0, mul_zero] at this
    exact hU (by exact_mod_cast this.symm)
  constructor
  · intro h1
    have h2 := (mul_eq_zero.1 h1).resolve_left (by norm_num)
    exact sub_eq_zero.1 ((mul_eq_zero.1 h2).resolve_left hr)
  · intro h1
    rw [h1, sub_self, mul_zero, mul_zero]

/-- One up electron on the first and one down electron on the second site. -/
def neel : Slater.Wfn 2 1 1 := fun i j => if i.val = j.val then 1 else 0

theorem neel_up : Slater.up neel = !![1; 0] := by
  ext i j; fin_cases i <;> fin_cases j <;> simp [Slater.up, neel]

theorem neel_dn : Slater.dn neel = !![0; 1] := by
  ext i j; fin_cases i <;> fin_cases j <;> simp [Slater.dn, neel]

theorem ovl_neel : ovl2 neel neel = 1 := by
  rw [ovl2, neel_up, neel_dn]
  simp [ovl, Matrix.det_unique, Matrix.mul_apply, Fin.sum_univ_two]

/-- **C80 fails for the spin decomposition**: an antiferromagnetic trial, the walker equal to it, every
`U ≠ 0` and mean-field shift. -/
theorem spin_unbounded (n : Nat) (hn : 2 ≤ n) (h : Hub 2) (hU : h.U ≠ 0) (mf : Fin 2 → ℂ) :
    ¬ HybridBounded fun dt xi => hyb n dt (fun dt => h.spin dt mf) (fun dt => h.forceBiasSpin dt mf) neel
      (wk0 neel) xi := by
  rw [spin_bounded_partial n hn h hU mf neel (wk0 neel) (by show ovl2 neel neel ≠ 0; rw [ovl_neel]; exact one_ne_zero)]
  intro hG
  have h0 := hG 0
  rw [(Slater.greensFunction_eq neel (wk0 neel)).1, (Slater.greensFunction_eq neel (wk0 neel)).2] at h0
  have i1 : ((!![1; 0] : Matrix (Fin 2) (Fin 1) ℂ)ᴴ * (!![1; 0] : Matrix (Fin 2) (Fin 1) ℂ)) = 1 := by
    ext i j; fin_cases i; fin_cases j; simp [Matrix.mul_apply, Fin.sum_univ_two]
  have i2 : ((!![0; 1] : Matrix (Fin 2) (Fin 1) ℂ)ᴴ * (!![0; 1] : Matrix (Fin 2) (Fin 1) ℂ)) = 1 := by
    ext i j; fin_cases i; fin_cases j; simp [Matrix.mul_apply, Fin.sum_univ_two]
  have e1 : Slater.up (wk0 neel).phi = !![1; 0] := neel_up
  have e2 : Slater.dn (wk0 neel).phi = !![0; 1] := neel_dn
  rw [e1, e2, neel_up, neel_dn, Slater.gab, Slater.gab, i1, i2] at h0
  simp [Matrix.mul_apply, Matrix.vecMul, dotProduct] at h0

/-- The hypotheses of the theorems on boundedness are met: this trial and walker have overlap one. -/
example (g : Gen 3 2) (mf : Fin 3 → ℂ) : HybridBounded fun dt xi =>
    hyb 6 dt (fun dt => g.tables dt mf) (fun dt => g.forceBias dt mf) neel (wk0 neel) xi :=
  generic_bounded 6 (by norm_num) g mf neel (wk0 neel) (by show ovl2 neel neel ≠ 0; rw [ovl_neel]; exact one_ne_zero)

/-! ## Plane waves -/

theorem ueg_linear (I : UEG.Inp) : Linear (fun dt => uegTables dt I)
    (fun _ => diagonal fun i => (UEG.modOneBody I i : ℂ))
    (fun a _ => Fin.addCases (fun q => UEG.iA I (UEG.qvecs I)[q]) (fun q => UEG.iB I (UEG.qvecs I)[q]) a)
    (fun _ => 0) := by
  refine ⟨fun _ => rfl, fun _ _ => rfl, fun dt _ x s => ?_⟩
  simp only [uegTables, planeWave, Fin.sum_univ_add, Fin.addCases_left, Fin.addCases_right]

/-- **C80 (plane waves)** -/
theorem planeWave_bounded (n : Nat) (hn : 2 ≤ n) (I : UEG.Inp) (psi : Slater.Wfn (UEG.nb I) nu nu)
    (w : Slater.Wk (UEG.nb I) nu nu) (hO : ovl2 psi w.phi ≠ 0) :
    HybridBounded fun dt xi => hyb n dt (fun dt => uegTables dt I) (fun dt => planeWaveForceBias dt
      (fun q => UEG.iA I (UEG.qvecs I)[q]) (fun q => UEG.iB I (UEG.qvecs I)[q])) psi w xi := by
  have hd : ∀ A B : Matrix (Fin (UEG.nb I)) (Fin (UEG.nb I)) ℂ, ∑ i, ∑ k, B i k * A i k = dot2 A B := by
    intro A B
    exact sum_congr rfl fun i _ => sum_congr rfl fun k _ => mul_comm _ _
  refine (hybrid_linear n hn (ueg_linear I) _ psi w hO
    (fun a => -(dot2 (Fin.addCases (fun q => UEG.iA I (UEG.qvecs I)[q]) (fun q => UEG.iB I (UEG.qvecs I)[q]) a)
        (Slater.greensFunction psi w).gUp +
      dot2 (Fin.addCases (fun q => UEG.iA I (UEG.qvecs I)[q]) (fun q => UEG.iB I (UEG.qvecs I)[q]) a)
        (Slater.greensFunction psi w).gDn)) fun dt a => ?_).bounded_iff.2 fun a => ?_
  · refine Fin.addCases (fun q => ?_) (fun q => ?_) a
    · simp only [planeWaveForceBias, Fin.addCases_left, hd]
      ring
    · simp only [planeWaveForceBias, Fin.addCases_right, hd]
      ring
  · rw [oneElem_green psi w hO]
    ring

end Verif.Step
