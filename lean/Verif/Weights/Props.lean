import Verif.Weights.Model
import Mathlib.Analysis.Complex.ExponentialBounds
import Mathlib.Tactic.LinearCombination

/-!
# Weights of continuous propagation: C33, C34, C69

C33 and C34 concern one weight update and sequences of them.  C69: without capping the product of
the hybrid importance factors is the ratio of the overlaps times the factors of the fields and the
shift, up to a boundary factor of the first and last hybrid energy.
-/

namespace Verif.Weights

theorem ebound_nonneg (dt : ℝ) : 0 ≤ ebound dt := Real.sqrt_nonneg _

theorem dt_mul_ebound {dt : ℝ} (h : 0 < dt) : dt * ebound dt = Real.sqrt (2 * dt) := by
  have h2 : dt = Real.sqrt (dt ^ 2) := by rw [Real.sqrt_sq h.le]
  rw [ebound]
  nth_rewrite 1 [h2]
  rw [← Real.sqrt_mul (by positivity)]
  congr 1
  field_simp

/-! ## C33 -/

/-- Once the shift is set the energy used lies within `sqrt (2/dt)` of it. -/
theorem boundHybrid_within (dt : ℝ) (e : ℂ) (eshift : ℝ) (hs : 1e-10 ≤ |eshift|) :
    |(boundHybrid dt e eshift).re - eshift| ≤ ebound dt := by
  have hb := ebound_nonneg dt
  rw [boundHybrid, if_neg (not_lt.mpr hs)]
  split_ifs with h1 h2
  · have : (((eshift + ebound dt : ℝ) : ℂ) + Complex.I * e.im).re = eshift + ebound dt := by simp
    rw [this, add_sub_cancel_left, abs_of_nonneg hb]
  · have : (((eshift - ebound dt : ℝ) : ℂ) + Complex.I * e.im).re = eshift - ebound dt := by simp
    rw [this, sub_sub_cancel_left, abs_neg, abs_of_nonneg hb]
  · rw [abs_le]; constructor <;> linarith [not_lt.mp h1, not_lt.mp h2]

/-- Capping leaves the imaginary part alone, and leaves an energy within the bound alone. -/
theorem boundHybrid_im (dt : ℝ) (e : ℂ) (eshift : ℝ) : (boundHybrid dt e eshift).im = e.im := by
  rw [boundHybrid]; split_ifs <;> simp

theorem boundHybrid_of_within (dt : ℝ) (e : ℂ) (eshift : ℝ) (h : |e.re - eshift| ≤ ebound dt) :
    boundHybrid dt e eshift = e := by
  rw [abs_le] at h
  rw [boundHybrid]
  split_ifs with h0 h1 h2
  · rfl
  · linarith [h.2]
  · linarith [h.1]
  · rfl

theorem norm_importance (dt eshift : ℝ) (h h' : ℂ) :
    ‖Complex.exp (-(dt : ℂ) * (1 / 2 * (h + h') - eshift))‖ =
      Real.exp (-dt * (1 / 2 * (h.re + h'.re) - eshift)) := by
  rw [Complex.norm_exp]
  congr 1
  have : (-(dt : ℂ) * (1 / 2 * (h + h') - eshift)) =
      ((-dt : ℝ) : ℂ) * (((1 / 2 : ℝ) : ℂ) * (h + h') - ((eshift : ℝ) : ℂ)) := by push_cast; ring
  rw [this, Complex.re_ofReal_mul, Complex.sub_re, Complex.re_ofReal_mul, Complex.add_re,
    Complex.ofReal_re]

/-- The new weight in closed form. -/
theorem weight_updateHybrid (dt eshift : ℝ) (s : Step) (w : Wk) :
    (updateHybrid dt eshift s w).1.weight =
      w.weight * (Real.exp (-dt * (1 / 2 * ((hybridEnergy dt eshift s).re + w.hyb.re) - eshift)) *
        max 0 (Real.cos (-(dt : ℂ) * hybridEnergy dt eshift s - s.cfb).im)) := by
  rw [← norm_importance]; rfl

theorem cosine_mem (x : ℝ) : 0 ≤ max 0 (Real.cos x) ∧ max 0 (Real.cos x) ≤ 1 :=
  ⟨le_max_left _ _, max_le zero_le_one (Real.cos_le_one x)⟩

/-- **C33**, one step: the energy stored is within the bound, the weight stays non-negative, it
grows at most by `exp (sqrt (2 dt))` if the previous energy was within the bound of the same shift;
and the cosine factor reported is between zero and one. -/
theorem updateHybrid_bound {dt : ℝ} (hdt : 0 < dt) (eshift : ℝ) (hs : 1e-10 ≤ |eshift|) (s : Step)
    (w : Wk) (hw : 0 ≤ w.weight) :
    let r := updateHybrid dt eshift s w
    |r.1.hyb.re - eshift| ≤ Real.sqrt (2 / dt) ∧ 0 ≤ r.1.weight ∧
      (∃ c : ℝ, r.2.2 = c ∧ 0 ≤ c ∧ c ≤ 1) ∧
      (|w.hyb.re - eshift| ≤ Real.sqrt (2 / dt) →
        r.1.weight ≤ w.weight * Real.exp (Real.sqrt (2 * dt))) := by
  intro r
  have hin : |(hybridEnergy dt eshift s).re - eshift| ≤ ebound dt :=
    boundHybrid_within dt _ eshift hs
  refine ⟨hin, ?_, ?_, ?_⟩
  · show 0 ≤ (updateHybrid dt eshift s w).1.weight
    rw [weight_updateHybrid]
    exact mul_nonneg hw (mul_nonneg (Real.exp_pos _).le (cosine_mem _).1)
  · show ∃ c : ℝ, (updateHybrid dt eshift s w).2.2 = c ∧ 0 ≤ c ∧ c ≤ 1
    rw [updateHybrid]
    dsimp only
    split_ifs
    · exact ⟨_, rfl, cosine_mem _⟩
    · exact ⟨0, by simp, le_refl _, zero_le_one⟩
  · intro hold
    show (updateHybrid dt eshift s w).1.weight ≤ _
    rw [weight_updateHybrid]
    refine mul_le_mul_of_nonneg_left ?_ hw
    have hc := cosine_mem (-(dt : ℂ) * hybridEnergy dt eshift s - s.cfb).im
    refine (mul_le_of_le_one_right (Real.exp_pos _).le hc.2).trans (Real.exp_le_exp.mpr ?_)
    rw [← dt_mul_ebound hdt]
    have h1 := (abs_le.mp hin).1
    have h2 := (abs_le.mp hold).1
    have h2' : -ebound dt ≤ w.hyb.re - eshift := h2
    nlinarith

/-- **C33**, any number of steps with the same shift. -/
theorem runHybrid_bound {dt : ℝ} (hdt : 0 < dt) (eshift : ℝ) (hs : 1e-10 ≤ |eshift|)
    (ss : List Step) (w : Wk) (hw : 0 ≤ w.weight)
    (hold : |w.hyb.re - eshift| ≤ Real.sqrt (2 / dt)) :
    0 ≤ (runHybrid dt eshift ss w).weight ∧
      (runHybrid dt eshift ss w).weight ≤ w.weight * Real.exp (ss.length * Real.sqrt (2 * dt)) := by
  induction ss generalizing w with
  | nil => simpa [runHybrid] using hw
  | cons s ss ih =>
    have h := updateHybrid_bound hdt eshift hs s w hw
    have := ih (updateHybrid dt eshift s w).1 h.2.1 h.1
    refine ⟨this.1, this.2.trans ?_⟩
    have h4 := mul_le_mul_of_nonneg_right (h.2.2.2 hold)
      (Real.exp_pos (ss.length * Real.sqrt (2 * dt))).le
    refine h4.trans (le_of_eq ?_)
    rw [mul_assoc, ← Real.exp_add, List.length_cons]
    push_cast
    ring_nf

/-- On the first step after the shift changes from `e0` to `e1` the bound has the extra factor
`exp (dt |e1 - e0| / 2)`. -/
theorem updateHybrid_bound_changed {dt : ℝ} (hdt : 0 < dt) (e0 e1 : ℝ) (hs : 1e-10 ≤ |e1|)
    (s : Step) (w : Wk) (hw : 0 ≤ w.weight) (hold : |w.hyb.re - e0| ≤ Real.sqrt (2 / dt)) :
    (updateHybrid dt e1 s w).1.weight ≤
      w.weight * Real.exp (Real.sqrt (2 * dt) + dt / 2 * |e1 - e0|) := by
  have hin : |(hybridEnergy dt e1 s).re - e1| ≤ ebound dt := boundHybrid_within dt _ e1 hs
  rw [weight_updateHybrid]
  refine mul_le_mul_of_nonneg_left ?_ hw
  have hc := cosine_mem (-(dt : ℂ) * hybridEnergy dt e1 s - s.cfb).im
  refine (mul_le_of_le_one_right (Real.exp_pos _).le hc.2).trans (Real.exp_le_exp.mpr ?_)
  rw [← dt_mul_ebound hdt]
  have h1 := (abs_le.mp hin).1
  have h2 : -ebound dt ≤ w.hyb.re - e0 := (abs_le.mp hold).1
  have h3 := le_abs_self (e1 - e0)
  nlinarith [mul_nonneg hdt.le (sub_nonneg.mpr h3)]

/-- A step whose hybrid energy has prescribed real value `e` (within the bound or not). -/
noncomputable def realStep (dt e : ℝ) : Step :=
  { ovlp := 1, ovlpNew := 1, cfb := 0, cmf := ((-dt * e : ℝ) : ℂ), eloc := e }

theorem hybridEnergy_realStep {dt : ℝ} (hdt : 0 < dt) (eshift e : ℝ)
    (h : |e - eshift| ≤ Real.sqrt (2 / dt)) : hybridEnergy dt eshift (realStep dt e) = e := by
  have : -(Complex.log ((realStep dt e).ovlpNew / (realStep dt e).ovlp) + (realStep dt e).cfb +
      (realStep dt e).cmf) / (dt : ℂ) = (e : ℂ) := by
    have hd : (dt : ℂ) ≠ 0 := by exact_mod_cast hdt.ne'
    simp only [realStep]
    push_cast
    simp only [div_one, Complex.log_one]
    field_simp
    ring
  rw [hybridEnergy, this]
  exact boundHybrid_of_within dt _ _ (by simpa [ebound] using h)

theorem weight_realStep {dt : ℝ} (hdt : 0 < dt) (eshift e : ℝ)
    (h : |e - eshift| ≤ Real.sqrt (2 / dt)) (w : Wk) :
    (updateHybrid dt eshift (realStep dt e) w).1.weight =
      w.weight * Real.exp (-dt * (1 / 2 * (e + w.hyb.re) - eshift)) := by
  rw [weight_updateHybrid, hybridEnergy_realStep hdt eshift e h]
  have : (-(dt : ℂ) * (e : ℂ) - (realStep dt e).cfb).im = 0 := by simp [realStep]
  rw [this, Real.cos_zero]
  simp

theorem abs_sqrt_self (e x : ℝ) : |e - Real.sqrt x - e| ≤ Real.sqrt x := by
  rw [sub_sub_cancel_left, abs_neg, abs_of_nonneg (Real.sqrt_nonneg x)]

/-- The bound is attained: both energies at the lower cap multiply the weight by exactly
`exp (sqrt (2 dt))`. -/
theorem bound_attained {dt : ℝ} (hdt : 0 < dt) (eshift : ℝ) (w : Wk)
    (hw : w.hyb = ((eshift - Real.sqrt (2 / dt) : ℝ) : ℂ)) :
    (updateHybrid dt eshift (realStep dt (eshift - Real.sqrt (2 / dt))) w).1.weight =
      w.weight * Real.exp (Real.sqrt (2 * dt)) := by
  rw [weight_realStep hdt _ _ (abs_sqrt_self _ _), hw, Complex.ofReal_re,
    ← dt_mul_ebound hdt, ebound]
  congr 2
  ring

/-- Finding: when the shift moves up by `d` the weight can grow by more than `exp (sqrt (2 dt))`,
because the stored energy was capped around the old shift. -/
theorem bound_fails_when_shift_changes {dt : ℝ} (hdt : 0 < dt) (e0 d : ℝ) (hd : 0 < d) (w : Wk)
    (hw : 0 < w.weight) (h : w.hyb = ((e0 - Real.sqrt (2 / dt) : ℝ) : ℂ)) :
    |w.hyb.re - e0| ≤ Real.sqrt (2 / dt) ∧
    w.weight * Real.exp (Real.sqrt (2 * dt)) <
      (updateHybrid dt (e0 + d) (realStep dt (e0 + d - Real.sqrt (2 / dt))) w).1.weight := by
  constructor
  · rw [h, Complex.ofReal_re]; exact abs_sqrt_self _ _
  · rw [weight_realStep hdt _ _ (abs_sqrt_self _ _), h, Complex.ofReal_re,
      ← dt_mul_ebound hdt, ebound]
    refine mul_lt_mul_of_pos_left (Real.exp_lt_exp.mpr ?_) hw
    nlinarith

/-- Finding: while the shift is below `1e-10` in magnitude there is no bound at all. -/
theorem no_bound_before_shift {dt : ℝ} (hdt : 0 < dt) (w : Wk) (hw : 0 < w.weight) (B : ℝ) :
    ∃ s : Step, B < (updateHybrid dt 0 s w).1.weight := by
  have hz : ∀ e : ℝ, hybridEnergy dt 0 (realStep dt e) = e := by
    intro e
    have : -(Complex.log ((realStep dt e).ovlpNew / (realStep dt e).ovlp) + (realStep dt e).cfb +
        (realStep dt e).cmf) / (dt : ℂ) = (e : ℂ) := by
      have hd : (dt : ℂ) ≠ 0 := by exact_mod_cast hdt.ne'
      simp only [realStep]
      push_cast
      simp only [div_one, Complex.log_one]
      field_simp
      ring
    rw [hybridEnergy, this, boundHybrid, if_pos (by norm_num)]
  refine ⟨realStep dt (-(2 * (|B| / w.weight + 1)) / dt - w.hyb.re), ?_⟩
  rw [weight_updateHybrid, hz]
  have h0 : (-(dt : ℂ) * ((-(2 * (|B| / w.weight + 1)) / dt - w.hyb.re : ℝ) : ℂ) -
      (realStep dt (-(2 * (|B| / w.weight + 1)) / dt - w.hyb.re)).cfb).im = 0 := by
    simp only [realStep, sub_zero]
    rw [← Complex.ofReal_neg, ← Complex.ofReal_mul, Complex.ofReal_im]
  rw [h0, Real.cos_zero, Complex.ofReal_re]
  have h1 : -dt * (1 / 2 * (-(2 * (|B| / w.weight + 1)) / dt - w.hyb.re + w.hyb.re) - 0) =
      |B| / w.weight + 1 := by
    field_simp
    ring
  rw [h1, max_eq_right zero_le_one, mul_one]
  have h2 := Real.add_one_le_exp (|B| / w.weight + 1)
  calc B ≤ |B| := le_abs_self B
    _ = w.weight * (|B| / w.weight) := by field_simp
    _ < w.weight * (|B| / w.weight + 1 + 1) := mul_lt_mul_of_pos_left (by linarith) hw
    _ ≤ _ := mul_le_mul_of_nonneg_left h2 hw.le

/-- The hypotheses of `runHybrid_bound` are met by the walkers produced by the code itself: after
any step with the shift the stored energy is within the bound; and a run on a list of steps with a
strictly positive final weight exists. -/
example : ∃ (dt eshift : ℝ) (w : Wk), 0 < dt ∧ 1e-10 ≤ |eshift| ∧ 0 ≤ w.weight ∧
    |w.hyb.re - eshift| ≤ Real.sqrt (2 / dt) ∧
    0 < (runHybrid dt eshift [realStep dt eshift] w).weight := by
  refine ⟨1 / 100, -3, ⟨1, -3, 0, 1⟩, by norm_num, by norm_num [abs_of_neg], by norm_num, ?_, ?_⟩
  · simp
  · show 0 < (updateHybrid (1 / 100) (-3) (realStep (1 / 100) (-3)) _).1.weight
    rw [weight_realStep (by norm_num) _ _ (by simp)]
    simp only [one_mul]
    exact Real.exp_pos _

/-! ## C34 -/

/-- **C34**, hybrid update: energies equal to the shift leave the weight alone. -/
theorem updateHybrid_keeps {dt : ℝ} (eshift : ℝ) (s : Step) (w : Wk)
    (hnew : -(Complex.log (s.ovlpNew / s.ovlp) + s.cfb + s.cmf) / dt = eshift)
    (hold : w.hyb = eshift) (hcfb : s.cfb.im = 0) :
    (updateHybrid dt eshift s w).1.weight = w.weight := by
  have hh : hybridEnergy dt eshift s = eshift := by
    rw [hybridEnergy, hnew]
    exact boundHybrid_of_within dt _ _ (by simp [ebound_nonneg])
  rw [weight_updateHybrid, hh, hold]
  have : (-(dt : ℂ) * (eshift : ℂ) - s.cfb).im = 0 := by
    rw [Complex.sub_im, hcfb, ← Complex.ofReal_neg, ← Complex.ofReal_mul, Complex.ofReal_im,
      sub_zero]
  rw [this, Real.cos_zero, Complex.ofReal_re]
  ring_nf
  simp

/-- For any force bias the weight is multiplied by the cosine of the force-bias phase only. -/
theorem updateHybrid_keeps_cos {dt : ℝ} (eshift : ℝ) (s : Step) (w : Wk)
    (hnew : -(Complex.log (s.ovlpNew / s.ovlp) + s.cfb + s.cmf) / dt = eshift)
    (hold : w.hyb = eshift) :
    (updateHybrid dt eshift s w).1.weight = w.weight * max 0 (Real.cos s.cfb.im) := by
  have hh : hybridEnergy dt eshift s = eshift := by
    rw [hybridEnergy, hnew]
    exact boundHybrid_of_within dt _ _ (by simp [ebound_nonneg])
  rw [weight_updateHybrid, hh, hold]
  have : (-(dt : ℂ) * (eshift : ℂ) - s.cfb).im = -s.cfb.im := by
    rw [Complex.sub_im, ← Complex.ofReal_neg, ← Complex.ofReal_mul, Complex.ofReal_im, zero_sub]
  rw [this, Real.cos_neg, Complex.ofReal_re]
  have h0 : -dt * (1 / 2 * (eshift + eshift) - eshift) = 0 := by ring
  rw [h0, Real.exp_zero, one_mul]

theorem boundLocal_self (dt eshift : ℝ) : boundLocal dt eshift eshift = eshift := by
  have hb := ebound_nonneg dt
  rw [boundLocal]
  split_ifs with h0 h1 h2
  · rfl
  · simp only [Complex.ofReal_re] at h1; linarith
  · simp only [Complex.ofReal_re] at h2; linarith
  · rfl

/-- **Finding**: the local-energy update subtracts only half of the shift, so a walker whose old and
new energies equal the shift is multiplied by `exp (-dt * eshift / 2)`. -/
theorem updateLocal_weight_at_shift {dt : ℝ} (eshift : ℝ) (s : Step) (w : Wk)
    (hnew : s.eloc = eshift) (hold : w.eloc = eshift) (hov : s.ovlpNew = s.ovlp)
    (hne : s.ovlp ≠ 0) :
    (updateLocal dt eshift s w).1.weight = w.weight * Real.exp (-(dt / 2) * eshift) := by
  show w.weight * (Real.exp (-(1 / 2) * dt * (boundLocal dt s.eloc eshift + w.eloc - eshift).re) *
    max 0 (Real.cos (Complex.arg (s.ovlpNew / s.ovlp)))) = _
  rw [hnew, hold, boundLocal_self, hov, div_self hne]
  simp only [Complex.arg_one, Real.cos_zero, add_sub_cancel_right, Complex.ofReal_re]
  rw [max_eq_right zero_le_one, mul_one]
  ring_nf

/-- **C34 fails** for the local-energy update: the weight is kept exactly when the shift is zero. -/
theorem updateLocal_keeps_iff {dt : ℝ} (hdt : 0 < dt) (eshift : ℝ) (s : Step) (w : Wk)
    (hw : 0 < w.weight) (hnew : s.eloc = eshift) (hold : w.eloc = eshift)
    (hov : s.ovlpNew = s.ovlp) (hne : s.ovlp ≠ 0) :
    (updateLocal dt eshift s w).1.weight = w.weight ↔ eshift = 0 := by
  rw [updateLocal_weight_at_shift eshift s w hnew hold hov hne]
  constructor
  · intro h
    have h1 : Real.exp (-(dt / 2) * eshift) = 1 := by
      have : w.weight * (Real.exp (-(dt / 2) * eshift) - 1) = 0 := by linarith
      rcases mul_eq_zero.mp this with h | h
      · exact absurd h hw.ne'
      · linarith
    rw [Real.exp_eq_one_iff] at h1
    rcases mul_eq_zero.mp h1 with h | h
    · linarith
    · exact h
  · rintro rfl; simp

/-- After `n` such steps the local-energy weight is `exp (-n dt eshift / 2)` times the first: the
drift is exponential in imaginary time. -/
theorem updateLocal_drift {dt : ℝ} (eshift : ℝ) (s : Step) (w : Wk) (n : Nat)
    (hnew : s.eloc = eshift) (hold : w.eloc = eshift) (hov : s.ovlpNew = s.ovlp)
    (hne : s.ovlp ≠ 0) :
    ((List.replicate n s).foldl (fun w s => (updateLocal dt eshift s w).1) w).weight =
      w.weight * Real.exp (-(n * (dt / 2)) * eshift) := by
  induction n generalizing w with
  | zero => simp
  | succ n ih =>
    rw [List.replicate_succ, List.foldl_cons, ih _ hnew,
      updateLocal_weight_at_shift eshift s w hnew hold hov hne, mul_assoc, ← Real.exp_add]
    push_cast
    ring_nf

/-- The local-energy update keeps weights non-negative as well. -/
theorem updateLocal_nonneg (dt eshift : ℝ) (s : Step) (w : Wk) (hw : 0 ≤ w.weight) :
    0 ≤ (updateLocal dt eshift s w).1.weight :=
  mul_nonneg hw (mul_nonneg (Real.exp_pos _).le (le_max_left _ _))

/-- A concrete step that meets the hypotheses of `updateHybrid_keeps`. -/
example : ∃ (s : Step) (w : Wk), -(Complex.log (s.ovlpNew / s.ovlp) + s.cfb + s.cmf) /
    ((1 / 100 : ℝ) : ℂ) = ((-3 : ℝ) : ℂ) ∧ w.hyb = ((-3 : ℝ) : ℂ) ∧ s.cfb.im = 0 ∧ s.cfb ≠ 0 := by
  refine ⟨⟨2, 2, 1 / 2, 3 / 100 - 1 / 2, 0⟩, ⟨1, -3, 0, 1⟩, ?_, by simp, ?_, by norm_num⟩
  · rw [div_self (by norm_num), Complex.log_one]; push_cast; ring
  · simp

/-- A concrete step that meets the hypotheses of `updateLocal_keeps_iff`, where the claim fails. -/
example : ∃ (s : Step) (w : Wk), (updateLocal (1 / 100) (-3) s w).1.weight ≠ w.weight ∧
    s.eloc = ((-3 : ℝ) : ℂ) ∧ w.eloc = ((-3 : ℝ) : ℂ) := by
  refine ⟨⟨2, 2, 0, 0, -3⟩, ⟨1, 0, -3, 1⟩, ?_, by simp, by simp⟩
  rw [Ne, updateLocal_keeps_iff (by norm_num) (-3) _ _ (by norm_num) (by simp) (by simp) rfl
    (by norm_num)]
  norm_num

/-! ## C69: telescoping of the importance factors -/

/-- The importance factors of a run (the complex number whose modulus multiplies the weight). -/
noncomputable def importances (dt eshift : ℝ) : List Step → Wk → List ℂ
  | [], _ => []
  | s :: ss, w =>
    Complex.exp (-(dt : ℂ) * (1 / 2 * (hybridEnergy dt eshift s + w.hyb) - eshift)) ::
      importances dt eshift ss (updateHybrid dt eshift s w).1

/-- No capping happens in the step. -/
def Uncapped (dt eshift : ℝ) (s : Step) : Prop :=
  s.ovlp ≠ 0 ∧ s.ovlpNew ≠ 0 ∧
  hybridEnergy dt eshift s = -(Complex.log (s.ovlpNew / s.ovlp) + s.cfb + s.cmf) / dt

/-- The steps of one walker: each starts from the overlap left by the previous one. -/
def Chained : ℂ → List Step → Prop
  | _, [] => True
  | o, s :: ss => s.ovlp = o ∧ Chained s.ovlpNew ss

/-- **C69**: without capping, the product of the importance factors of a run is the ratio of last to
first overlap times the exponentials of the field constants and of the shift, up to the boundary
factor from the averaging of successive hybrid energies. -/
theorem prod_importances {dt : ℝ} (hdt : 0 < dt) (eshift : ℝ) (ss : List Step) (w : Wk)
    (hc : Chained w.ot ss) (hu : ∀ s ∈ ss, Uncapped dt eshift s) (ho : w.ot ≠ 0) :
    (importances dt eshift ss w).prod * Complex.exp (-(dt / 2) * (runHybrid dt eshift ss w).hyb) =
      (runHybrid dt eshift ss w).ot / w.ot * Complex.exp ((ss.map fun s => s.cfb + s.cmf).sum) *
        Complex.exp (ss.length * dt * eshift) * Complex.exp (-(dt / 2) * w.hyb) := by
  have hd : (dt : ℂ) ≠ 0 := by exact_mod_cast hdt.ne'
  induction ss generalizing w with
  | nil => simp [importances, runHybrid, div_self ho]
  | cons s ss ih =>
    obtain ⟨h1, h2⟩ := hc
    obtain ⟨n1, n2, he⟩ := hu s (by simp)
    have := ih (updateHybrid dt eshift s w).1 h2 (fun t ht => hu t (by simp [ht])) n2
    rw [importances, List.prod_cons]
    have hrun : runHybrid dt eshift (s :: ss) w =
      runHybrid dt eshift ss (updateHybrid dt eshift s w).1 := rfl
    rw [hrun, mul_assoc, this]
    show _ * ((runHybrid dt eshift ss (updateHybrid dt eshift s w).1).ot / s.ovlpNew * _ * _ *
      Complex.exp (-(dt / 2) * hybridEnergy dt eshift s)) = _
    have hr : s.ovlpNew / s.ovlp = Complex.exp (Complex.log (s.ovlpNew / s.ovlp)) :=
      (Complex.exp_log (div_ne_zero n2 n1)).symm
    have hkey : Complex.exp (-(dt : ℂ) * (1 / 2 * (hybridEnergy dt eshift s + w.hyb) - eshift)) *
        Complex.exp (-(dt / 2) * hybridEnergy dt eshift s) =
        s.ovlpNew / w.ot * Complex.exp (s.cfb + s.cmf) * Complex.exp (dt * eshift) *
          Complex.exp (-(dt / 2) * w.hyb) := by
      rw [← h1, hr, ← Complex.exp_add, ← Complex.exp_add, ← Complex.exp_add, ← Complex.exp_add, he]
      congr 1
      field_simp
      ring
    rw [List.map_cons, List.sum_cons, List.length_cons, Complex.exp_add (s.cfb + s.cmf)]
    push_cast
    rw [add_mul, add_mul, Complex.exp_add (ss.length * (dt : ℂ) * eshift), one_mul]
    linear_combination
      ((runHybrid dt eshift ss (updateHybrid dt eshift s w).1).ot / s.ovlpNew *
        Complex.exp ((ss.map fun s => s.cfb + s.cmf).sum) *
        Complex.exp (ss.length * dt * eshift)) * hkey +
      ((runHybrid dt eshift ss (updateHybrid dt eshift s w).1).ot *
        Complex.exp ((ss.map fun s => s.cfb + s.cmf).sum) *
        Complex.exp (ss.length * dt * eshift) * Complex.exp (s.cfb + s.cmf) *
        Complex.exp (dt * eshift) * Complex.exp (-(dt / 2) * w.hyb) / w.ot) *
        (div_self n2)

/-- The weight is the modulus of the product of importance factors as long as the cosine factors
are one. -/
theorem weight_run_le (dt eshift : ℝ) (ss : List Step) (w : Wk) (hw : 0 ≤ w.weight) :
    (runHybrid dt eshift ss w).weight ≤ w.weight * ‖(importances dt eshift ss w).prod‖ := by
  induction ss generalizing w with
  | nil => simp [runHybrid, importances]
  | cons s ss ih =>
    have hn : 0 ≤ (updateHybrid dt eshift s w).1.weight := by
      rw [weight_updateHybrid]
      exact mul_nonneg hw (mul_nonneg (Real.exp_pos _).le (cosine_mem _).1)
    refine (ih _ hn).trans ?_
    rw [importances, List.prod_cons, norm_mul, ← mul_assoc]
    refine mul_le_mul_of_nonneg_right ?_ (norm_nonneg _)
    rw [weight_updateHybrid, norm_importance]
    exact mul_le_mul_of_nonneg_left
      (mul_le_of_le_one_right (Real.exp_pos _).le (cosine_mem _).2) hw

/-- **C69**, the factors handed to the field history: the first has modulus one, and weight times
first factor is the complex importance factor times the second (the cosine). -/
theorem updateHybrid_pushed (dt eshift : ℝ) (s : Step) (w : Wk)
    (h : (1e-16 : ℝ) < ‖Complex.exp (-(dt : ℂ) *
      (1 / 2 * (hybridEnergy dt eshift s + w.hyb) - eshift))‖) :
    ‖(updateHybrid dt eshift s w).2.1‖ = 1 ∧
    ((updateHybrid dt eshift s w).1.weight : ℂ) * (updateHybrid dt eshift s w).2.1 =
      w.weight * (importances dt eshift [s] w).prod * (updateHybrid dt eshift s w).2.2 := by
  have h0 : ‖Complex.exp (-(dt : ℂ) *
      (1 / 2 * (hybridEnergy dt eshift s + w.hyb) - eshift))‖ ≠ 0 := by
    intro h1; rw [h1] at h; norm_num at h
  have h0c : ((‖Complex.exp (-(dt : ℂ) *
      (1 / 2 * (hybridEnergy dt eshift s + w.hyb) - eshift))‖ : ℝ) : ℂ) ≠ 0 := by exact_mod_cast h0
  simp only [updateHybrid, if_pos h, importances, List.prod_cons, List.prod_nil, mul_one]
  constructor
  · rw [norm_div, Complex.norm_real, norm_norm, div_self h0]
  · rw [Complex.ofReal_mul, Complex.ofReal_mul]
    field_simp

/-- The hypotheses of `prod_importances` are met by a run of two steps with different overlaps. -/
example : ∃ (ss : List Step) (w : Wk), ss.length = 2 ∧ Chained w.ot ss ∧ w.ot ≠ 0 ∧
    ∀ s ∈ ss, Uncapped 1 0 s := by
  refine ⟨[⟨1, 2, 0, 1, 0⟩, ⟨2, 3, 1, 0, 0⟩], ⟨1, 0, 0, 1⟩, rfl, ⟨rfl, rfl, trivial⟩, by simp, ?_⟩
  intro s hs
  have hz : ∀ e : ℂ, boundHybrid 1 e 0 = e := fun e => by
    rw [boundHybrid, if_pos (by norm_num)]
  simp only [List.mem_cons, List.not_mem_nil, or_false] at hs
  rcases hs with rfl | rfl
  · exact ⟨by norm_num, by norm_num, hz _⟩
  · exact ⟨by norm_num, by norm_num, hz _⟩

end Verif.Weights
