import Verif.BackProp.Average
import Verif.Slater.Exist

/-!
# A run that meets the hypotheses of C111

One orbital, one electron of each spin, one field that couples to the density with a real factor: the hypotheses of the theorems about
averages hold for all fields.
-/

namespace Verif.BackProp

open Matrix Finset MeasureTheory Verif.Step
open Verif.Energy (ovl)
open Verif.Slater (QRSpec)
open Verif.Weights (hybridEnergy Uncapped updateHybrid cfb cmf xshifted)

/-- The tables of the example. -/
noncomputable def exT (dt : ℝ) : Tables 1 1 :=
  ⟨fun _ => 0, 0, fun _ => 1, fun x _ => (Real.sqrt dt : ℂ) • ∑ a, x a • 1⟩

/-- The setup of the example. -/
noncomputable def exR (dt : ℝ) : Setup 1 1 1 1 :=
  ⟨6, dt, exT dt, fun _ _ => 0, fun _ => 0, Matrix.of fun _ _ => 1, 0, Slater.someQR 1, 5⟩

theorem ex_linear : Linear exT (fun _ => 0) (fun _ _ => 1) (fun _ => 0) :=
  ⟨fun _ => rfl, fun dt s => by simp [exT], fun _ _ _ _ => rfl⟩

/-- The Taylor polynomial that `mat` contains. -/
noncomputable def tay (y : ℝ) : ℝ := 1 + y + y ^ 2 / 2 + y ^ 3 / 6 + y ^ 4 / 24 + y ^ 5 / 120 + y ^ 6 / 720

theorem tay_ge (y : ℝ) : 1 / 200 ≤ tay y := by
  unfold tay
  nlinarith [sq_nonneg (y ^ 3 + 3 * y ^ 2 + 9 * y + 20), sq_nonneg (y ^ 2 + 13 / 3 * y), sq_nonneg (y + 7 / 4)]

theorem ex_fields (dt : ℝ) (xi : Fin 1 → ℝ) (s : Slater.Wk 1 1 1) : fields (exR dt) xi s = fun a => (xi a : ℂ) := by
  funext a
  have : fields (exR dt) xi s = xshifted xi fun _ => Weights.rescale 0 := rfl
  rw [this, xshifted, show Weights.rescale 0 = 0 by simp [Weights.rescale]]
  simp

theorem ex_mat (dt : ℝ) (xi : Fin 1 → ℝ) (s : Slater.Wk 1 1 1) (c : Fin 2) :
    mat (exR dt) (fields (exR dt) xi s) c = Matrix.of fun _ _ => (tay (Real.sqrt dt * xi 0) : ℂ) := by
  rw [ex_fields]
  ext i j
  have h1 : i = 0 := Subsingleton.elim _ _
  have h2 : j = 0 := Subsingleton.elim _ _
  subst h1 h2
  have : mat (exR dt) (fun a => (xi a : ℂ)) c = Slater.taylor 6 (((Real.sqrt dt * xi 0 : ℝ) : ℂ) • (1 : Matrix (Fin 1) (Fin 1) ℂ)) := by
    show (1 : Matrix (Fin 1) (Fin 1) ℂ) * (Slater.taylor 6 _ * (1 : Matrix (Fin 1) (Fin 1) ℂ)) = _
    rw [mul_one, one_mul]
    congr 1
    show (Real.sqrt dt : ℂ) • ∑ a, (xi a : ℂ) • (1 : Matrix (Fin 1) (Fin 1) ℂ) = _
    rw [Fin.sum_univ_one, smul_smul, Complex.ofReal_mul]
  rw [this]
  simp only [Slater.taylor, smul_pow, one_pow, sum_range_succ, range_zero, sum_empty, Nat.factorial, tay, Matrix.of_apply]
  simp only [Matrix.add_apply, Matrix.smul_apply, Matrix.one_apply_eq, Matrix.zero_apply, smul_eq_mul]
  push_cast
  ring

theorem ex_ovl (A : Slater.Wfn 1 1 1) (r : ℂ) (phi : Slater.Wfn 1 1 1) :
    ovl2 A (mulBoth (fun _ => Matrix.of fun _ _ => r) phi) = r ^ 2 * ovl2 A phi := by
  have : ∀ (B C : Matrix (Fin 1) (Fin 1) ℂ), ovl B ((Matrix.of fun _ _ => r) * C) = r * ovl B C := by
    intro B C
    simp [Energy.ovl, Matrix.det_fin_one, Matrix.mul_apply]
    ring
  rw [ovl2, ovl2, mulBoth, Slater.up_join, Slater.dn_join, this, this]
  ring

/-- One step of the example. -/
theorem ex_step {dt : ℝ} (hdt : 0 < dt) (o : Bool) (xi : Fin 1 → ℝ) (v : BW 1 1 1 1) (h0 : ovl2 (exR dt).psi v.s.phi ≠ 0)
    (hh : 1 / 200 ≤ ‖Complex.exp (-(dt / 2) * v.w.hyb)‖) :
    Uncapped dt 0 (phaseless 6 dt (exT dt) (exR dt).fb (exR dt).eloc (exR dt).psi xi v.s).1 ∧
    (updateHybrid dt 0 (phaseless 6 dt (exT dt) (exR dt).fb (exR dt).eloc (exR dt).psi xi v.s).1 v.w).2.2 = 1 ∧
    ovl2 (exR dt).psi (step (exR dt) o xi v).s.phi ≠ 0 ∧
    1 / 200 ≤ ‖Complex.exp (-(dt / 2) * (step (exR dt) o xi v).w.hyb)‖ := by
  set T := tay (Real.sqrt dt * xi 0) with hT
  have hTp : 1 / 200 ≤ T := tay_ge _
  have hT0 : (T : ℂ) ≠ 0 := by exact_mod_cast (by linarith : 0 < T).ne'
  have hm : mulBoth (mat (exR dt) (fields (exR dt) xi v.s)) v.s.phi = mulBoth (fun _ => Matrix.of fun _ _ => (T : ℂ)) v.s.phi := by
    congr 1
    funext c
    rw [ex_mat]
  have o1 : ovl2 (exR dt).psi (mulBoth (mat (exR dt) (fields (exR dt) xi v.s)) v.s.phi) = (T : ℂ) ^ 2 * ovl2 (exR dt).psi v.s.phi := by
    rw [hm, ex_ovl]
  have o1n : ovl2 (exR dt).psi (mulBoth (mat (exR dt) (fields (exR dt) xi v.s)) v.s.phi) ≠ 0 := by
    rw [o1]; exact mul_ne_zero (pow_ne_zero _ hT0) h0
  set p := (phaseless 6 dt (exT dt) (exR dt).fb (exR dt).eloc (exR dt).psi xi v.s).1 with hp
  have hE := Complex.exp_ne_zero (-(v.s.logShift : ℂ))
  have e1 : p.ovlpNew = (T : ℂ) ^ 2 * ovl2 (exR dt).psi v.s.phi * Complex.exp (-(v.s.logShift : ℂ)) := by
    rw [← o1, ← orbitals' (exR dt) rfl]
    exact Slater.calcOverlap_eq _ (phaseless 6 dt (exT dt) (exR dt).fb (exR dt).eloc (exR dt).psi xi v.s).2
  have e2 : p.ovlp = ovl2 (exR dt).psi v.s.phi * Complex.exp (-(v.s.logShift : ℂ)) := Slater.greensFunction_det _ v.s
  have e3 : p.cfb = 0 := by
    show cfb xi (fun _ => Weights.rescale 0) = 0
    simp [cfb, Weights.rescale]
  have e4 : p.cmf = 0 := by
    show cmf dt (fun _ => 0) xi (fun _ => Weights.rescale 0) = 0
    simp [cmf]
  have hr : p.ovlpNew / p.ovlp = ((T ^ 2 : ℝ) : ℂ) := by
    rw [e1, e2]
    push_cast
    field_simp
  have hhyb : hybridEnergy dt 0 p = ((-(Real.log (T ^ 2)) / dt : ℝ) : ℂ) := by
    rw [hybridEnergy, Weights.boundHybrid, if_pos (by norm_num), hr, e3, e4, ← Complex.ofReal_log (by positivity)]
    push_cast
    ring
  have hw : (step (exR dt) o xi v).w.hyb = hybridEnergy dt 0 p := rfl
  have hx : Complex.exp (-(dt / 2) * hybridEnergy dt 0 p) = (T : ℂ) := by
    rw [hhyb, Real.log_pow]
    have : (-(dt / 2) * ((-(((2 : ℕ) : ℝ) * Real.log T) / dt : ℝ) : ℂ) : ℂ) = ((Real.log T : ℝ) : ℂ) := by
      have hd : (dt : ℂ) ≠ 0 := by exact_mod_cast hdt.ne'
      push_cast
      field_simp
    rw [this, ← Complex.ofReal_exp, Real.exp_log (by linarith)]
  refine ⟨⟨?_, ?_, ?_⟩, ?_, ?_, ?_⟩
  · rw [e2]; exact mul_ne_zero h0 hE
  · rw [e1]; exact mul_ne_zero (mul_ne_zero (pow_ne_zero _ hT0) h0) hE
  · rw [hybridEnergy, Weights.boundHybrid, if_pos (by norm_num)]
  · have hmag : (1e-16 : ℝ) < ‖Complex.exp (-(dt : ℂ) * (1 / 2 * (hybridEnergy dt 0 p + v.w.hyb) - (0 : ℝ)))‖ := by
      have : (-(dt : ℂ) * (1 / 2 * (hybridEnergy dt 0 p + v.w.hyb) - (0 : ℝ))) =
          -(dt / 2) * hybridEnergy dt 0 p + -(dt / 2) * v.w.hyb := by push_cast; ring
      rw [this, Complex.exp_add, hx, norm_mul, Complex.norm_real, Real.norm_of_nonneg (by linarith)]
      calc (1e-16 : ℝ) < 1 / 200 * (1 / 200) := by norm_num
        _ ≤ _ := mul_le_mul hTp hh (by norm_num) (by linarith)
    simp only [updateHybrid]
    rw [if_pos hmag]
    have hd : (-(dt : ℂ) * hybridEnergy dt 0 p - p.cfb).im = 0 := by
      rw [hhyb, e3, sub_zero, ← Complex.ofReal_neg, ← Complex.ofReal_mul, Complex.ofReal_im]
    rw [hd]
    simp
  · obtain ⟨d, hd, hov⟩ := step_ovl (exR dt) rfl (Slater.someQR_spec 1) o xi v o1n
    intro h
    exact o1n (by rw [hov, h, mul_zero])
  · rw [hw, hx, Complex.norm_real, Real.norm_of_nonneg (by linarith)]
    exact hTp

/-- All fields of the example are fine. -/
theorem ex_fine {dt : ℝ} (hdt : 0 < dt) (l : List (Bool × (Fin 1 → ℝ))) (v : BW 1 1 1 1)
    (h0 : ovl2 (exR dt).psi v.s.phi ≠ 0) (hh : 1 / 200 ≤ ‖Complex.exp (-(dt / 2) * v.w.hyb)‖) : Fine (exR dt) l v := by
  induction l generalizing v with
  | nil => trivial
  | cons a l ih =>
    obtain ⟨h1, h2, h3, h4⟩ := ex_step hdt a.1 a.2 v h0 hh
    refine ⟨h1, ?_, fun s => ?_, ih _ h3 h4⟩
    · intro h
      exact one_ne_zero (h2.symm.trans h)
    · rw [ex_mat, Matrix.det_fin_one, Matrix.of_apply]
      have := tay_ge (Real.sqrt dt * a.2 0)
      exact_mod_cast (by linarith : 0 < tay (Real.sqrt dt * a.2 0)).ne'

/-- The walker that starts as the trial. -/
noncomputable def exV : BW 1 1 1 1 :=
  ⟨⟨Matrix.of fun _ _ => 1, 1, 1, 1, 1, 1, 1, 0, 0, 1, 0⟩, ⟨1, 0, 0, 1⟩, []⟩

theorem ex_start (dt : ℝ) : ovl2 (exR dt).psi exV.s.phi = 1 := by
  simp [ovl2, Energy.ovl, exR, exV, Slater.up, Slater.dn, Matrix.det_fin_one, Matrix.mul_apply]

/-- The hypotheses of `average_contribution_partial`, and with them those of the other theorems, are met. -/
theorem ex_hypotheses {dt : ℝ} (hdt : 0 < dt) (os : List Bool) :
    Linear exT (fun _ => 0) (fun _ _ => 1) (fun _ => 0) ∧ (exR dt).t = exT (exR dt).dt ∧ (exR dt).n = 6 ∧ QRSpec (exR dt).qr ∧
    exV.hist = [] ∧ exV.w.weight ≠ 0 ∧ ovl2 (exR dt).psi exV.s.phi ≠ 0 ∧
    aeList os.length fun xs => Fine (exR dt) (os.zip xs) exV := by
  have h1 : ovl2 (exR dt).psi exV.s.phi ≠ 0 := by rw [ex_start]; exact one_ne_zero
  refine ⟨ex_linear, rfl, rfl, Slater.someQR_spec 1, rfl, one_ne_zero, h1, aeList_of_forall fun xs _ => ?_⟩
  refine ex_fine hdt _ _ h1 ?_
  simp only [exV, mul_zero, Complex.exp_zero, norm_one]
  norm_num

end Verif.BackProp
