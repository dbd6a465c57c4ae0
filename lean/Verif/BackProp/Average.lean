import Verif.BackProp.Window
import Verif.Step.Shift

/-!
# Averages of back-propagated estimates (C111)

The average over the fields of a window of a back-propagated estimate with restored weights, for every force bias and every choice of
steps after which the walkers are reorthogonalised.
-/

namespace Verif.BackProp

open Matrix Finset MeasureTheory Verif.Step
open Verif.Energy (ovl oneBody twoBody hamil)
open Verif.Slater (FullRank QRSpec propMatrix)
open Verif.Weights (hybridEnergy Uncapped updateHybrid density cfb cmf xshifted)

variable {nx nb nu nd k : Nat}

/-! ## Averages over the fields of several steps -/

/-- The average over independent fields in each of `N` steps. -/
noncomputable def avgList : Nat → (List (Fin nx → ℝ) → ℂ) → ℂ
  | 0, F => F []
  | N + 1, F => avg fun xi => avgList N fun l => F (xi :: l)

/-- For almost all fields of the first step, almost all of the second, and so on. -/
def aeList : Nat → (List (Fin nx → ℝ) → Prop) → Prop
  | 0, P => P []
  | N + 1, P => ∀ᵐ xi : Fin nx → ℝ, aeList N fun l => P (xi :: l)

theorem aeList_mono {N : Nat} {P Q : List (Fin nx → ℝ) → Prop} (h : ∀ l, l.length = N → P l → Q l) (hP : aeList N P) :
    aeList N Q := by
  induction N generalizing P Q with
  | zero => exact h [] rfl hP
  | succ N ih => exact Filter.Eventually.mono hP fun xi hxi => ih (fun l hl => h (xi :: l) (by simp [hl])) hxi

theorem aeList_of_forall {N : Nat} {P : List (Fin nx → ℝ) → Prop} (h : ∀ l, l.length = N → P l) : aeList N P := by
  induction N generalizing P with
  | zero => exact h [] rfl
  | succ N ih => exact Filter.Eventually.of_forall fun xi => ih fun l hl => h (xi :: l) (by simp [hl])

theorem avg_congr {f g : (Fin nx → ℝ) → ℂ} (h : ∀ᵐ xi, f xi = g xi) : avg f = avg g := by
  refine integral_congr_ae ?_
  filter_upwards [h] with xi hxi
  rw [hxi]

theorem avgList_congr {N : Nat} {F G : List (Fin nx → ℝ) → ℂ} (h : aeList N fun l => F l = G l) : avgList N F = avgList N G := by
  induction N generalizing F G with
  | zero => exact h
  | succ N ih =>
    rw [avgList, avgList]
    refine avg_congr ?_
    exact Filter.Eventually.mono h fun xi hxi => ih hxi

theorem avgList_smul (c : ℂ) (N : Nat) (F : List (Fin nx → ℝ) → ℂ) : avgList N (fun l => c * F l) = c * avgList N F := by
  induction N generalizing F with
  | zero => rfl
  | succ N ih => simp only [avgList, ih, avg_smul]

/-! ## One step -/

theorem isPoly_op (R : Setup nx nb nu nd) {W : Fin nx → Fin 2 → Matrix (Fin nb) (Fin nb) ℂ}
    (hV : ∀ x s, R.t.vhs x s = (Real.sqrt R.dt : ℂ) • ∑ a, x a • W a s) (α u : (Fin nu ⊕ Fin nd → Fin nb) → ℂ) :
    IsPoly fun x => α ⬝ᵥ (op R x *ᵥ u) := by
  have hv : ∀ s, IsPolyM fun x : Fin nx → ℂ => R.t.vhs x s := by
    intro s
    simp only [hV]
    exact IsPolyM.smul (IsPoly.const _) (IsPolyM.sum _ fun a _ => IsPolyM.smul (IsPoly.var a) (IsPolyM.const _))
  have hm : ∀ s, IsPolyM fun x : Fin nx → ℂ => mat R x s := by
    intro s
    refine (IsPolyM.const _).mul (IsPolyM.mul ?_ (IsPolyM.const _))
    exact IsPolyM.sum _ fun j _ => IsPolyM.smul (IsPoly.const _) ((hv s).pow j)
  simp only [dotProduct, Matrix.mulVec]
  refine IsPoly.sum _ fun f _ => (IsPoly.const _).mul (IsPoly.sum _ fun g _ => IsPoly.mul ?_ (IsPoly.const _))
  simp only [op, tens, Matrix.of_apply]
  exact IsPoly.prod _ fun a _ => hm (spin a) (f a) (g a)

theorem op_real (R : Setup nx nb nu nd) {t : ℝ → Tables nx nb} {K : Fin 2 → Matrix (Fin nb) (Fin nb) ℂ}
    {W : Fin nx → Fin 2 → Matrix (Fin nb) (Fin nb) ℂ} {mf : Fin nx → ℂ} (hL : Linear t K W mf) (hdt : 0 ≤ R.dt)
    (ht : R.t = t R.dt) (xi : Fin nx → ℝ) : op R (fun a => (xi a : ℂ)) = stepTens 6 K W spin (Real.sqrt R.dt) xi := by
  have hsqc : (Real.sqrt R.dt : ℂ) ^ 2 = R.dt := by rw [← Complex.ofReal_pow, Real.sq_sqrt hdt]
  rw [op, stepTens]
  congr 1
  funext a
  rw [mat, ht, hL.oneBody, hL.field R.dt hdt, half, hsqc, field]

/-- The average of the operator of a step with the constants of its fields does not depend on the force bias. -/
theorem avg_step (R : Setup nx nb nu nd) {t : ℝ → Tables nx nb} {K : Fin 2 → Matrix (Fin nb) (Fin nb) ℂ}
    {W : Fin nx → Fin 2 → Matrix (Fin nb) (Fin nb) ℂ} {mf : Fin nx → ℂ} (hL : Linear t K W mf) (hdt : 0 ≤ R.dt) (hdt1 : R.dt ≤ 1)
    (ht : R.t = t R.dt) (s : Slater.Wk nb nu nd) (α u : (Fin nu ⊕ Fin nd → Fin nb) → ℂ) :
    avg (fun xi => Complex.exp ((phaseless R.n R.dt R.t R.fb R.eloc R.psi xi s).1.cfb +
        (phaseless R.n R.dt R.t R.fb R.eloc R.psi xi s).1.cmf) * (α ⬝ᵥ (op R (fields R xi s) *ᵥ u))) =
      α ⬝ᵥ (avgOp 6 K W mf spin (Real.sqrt R.dt) *ᵥ u) := by
  set xbar : Fin nx → ℂ := fun i => Weights.rescale (R.fb (Slater.greensFunction R.psi s) i) with hxb
  have hV : ∀ x s, R.t.vhs x s = (Real.sqrt R.dt : ℂ) • ∑ a, x a • W a s := by rw [ht]; exact hL.field R.dt hdt
  have h := force_bias_polynomial xbar (fun a => -(Real.sqrt R.dt : ℂ) * mf a) (isPoly_op R hV α u)
  have e1 : (fun xi => Complex.exp ((phaseless R.n R.dt R.t R.fb R.eloc R.psi xi s).1.cfb +
        (phaseless R.n R.dt R.t R.fb R.eloc R.psi xi s).1.cmf) * (α ⬝ᵥ (op R (fields R xi s) *ᵥ u))) =
      fun xi => Complex.exp (cfb xi xbar) * (Complex.exp (∑ a, xshifted xi xbar a * (-(Real.sqrt R.dt : ℂ) * mf a)) *
        (α ⬝ᵥ (op R (xshifted xi xbar) *ᵥ u))) := by
    funext xi
    have c1 : (phaseless R.n R.dt R.t R.fb R.eloc R.psi xi s).1.cfb = cfb xi xbar := rfl
    have c2 : (phaseless R.n R.dt R.t R.fb R.eloc R.psi xi s).1.cmf = ∑ a, xshifted xi xbar a * (-(Real.sqrt R.dt : ℂ) * mf a) := by
      show cmf R.dt R.t.mfShift xi xbar = _
      rw [cmf, ht, hL.shift, mul_sum]
      exact sum_congr rfl fun a _ => by ring
    have c3 : fields R xi s = xshifted xi xbar := rfl
    rw [c1, c2, c3, Complex.exp_add, mul_assoc]
  rw [e1, h, ← avg_bilinear 6 (by norm_num) K W mf spin (Real.sqrt_nonneg _) (Real.sqrt_le_one.mpr hdt1) α u]
  congr 1
  funext xi
  rw [op_real R hL hdt ht]
  congr 2
  rw [mul_sum]
  exact sum_congr rfl fun a _ => by ring

/-! ## A window -/

/-- The average of the product of the operators of a window, with the constants of its fields. -/
theorem avg_window (R : Setup nx nb nu nd) {t : ℝ → Tables nx nb} {K : Fin 2 → Matrix (Fin nb) (Fin nb) ℂ}
    {W : Fin nx → Fin 2 → Matrix (Fin nb) (Fin nb) ℂ} {mf : Fin nx → ℂ} (hL : Linear t K W mf) (hdt : 0 ≤ R.dt) (hdt1 : R.dt ≤ 1)
    (ht : R.t = t R.dt) (os : List Bool) (v : BW nx nb nu nd) (α u : (Fin nu ⊕ Fin nd → Fin nb) → ℂ) :
    avgList os.length (fun xs => Complex.exp (windowConst R (os.zip xs) v) * (α ⬝ᵥ (windowOp R (os.zip xs) v *ᵥ u))) =
      α ⬝ᵥ (avgOp 6 K W mf spin (Real.sqrt R.dt) ^ os.length *ᵥ u) := by
  induction os generalizing v u with
  | nil => simp [avgList, windowConst, windowOp]
  | cons o os ih =>
    rw [List.length_cons, avgList]
    have e1 : ∀ xi : Fin nx → ℝ, avgList os.length (fun xs => Complex.exp (windowConst R ((o :: os).zip (xi :: xs)) v) *
        (α ⬝ᵥ (windowOp R ((o :: os).zip (xi :: xs)) v *ᵥ u))) =
        Complex.exp ((phaseless R.n R.dt R.t R.fb R.eloc R.psi xi v.s).1.cfb +
          (phaseless R.n R.dt R.t R.fb R.eloc R.psi xi v.s).1.cmf) *
          ((α ᵥ* avgOp 6 K W mf spin (Real.sqrt R.dt) ^ os.length) ⬝ᵥ (op R (fields R xi v.s) *ᵥ u)) := by
      intro xi
      rw [← Matrix.dotProduct_mulVec, ← ih (step R o xi v), ← avgList_smul]
      congr 1
      funext xs
      rw [List.zip_cons_cons, windowConst, windowOp, Complex.exp_add, ← Matrix.mulVec_mulVec, mul_assoc]
    simp only [e1]
    rw [avg_step R hL hdt hdt1 ht, ← Matrix.dotProduct_mulVec, Matrix.mulVec_mulVec, ← pow_succ]

/-- What a walker with the fields `xs` in the window adds to an estimate with fully restored weights, without the factor from the
averaging of successive hybrid energies. -/
noncomputable def contribution (R : Setup nx nb nu nd) (E : (Fin 2 → Matrix (Fin nb) (Fin nb) ℂ) → ℂ) (os : List Bool)
    (v : BW nx nb nu nd) (xs : List (Fin nx → ℝ)) : ℂ :=
  (bpWeight .full (run R (os.zip xs) v)).getD 0 * E (bpG R v.s.phi (run R (os.zip xs) v).hist) *
    Complex.exp (-(R.dt / 2) * ((run R (os.zip xs) v).w.hyb - v.w.hyb))

/-- What it would add if no energy were capped, no cosine cut off and no factor dropped. -/
noncomputable def intended (R : Setup nx nb nu nd) (O : Matrix (Fin nu ⊕ Fin nd → Fin nb) (Fin nu ⊕ Fin nd → Fin nb) ℂ)
    (os : List Bool) (v : BW nx nb nu nd) (xs : List (Fin nx → ℝ)) : ℂ :=
  v.w.weight / ovl2 R.psi v.s.phi * Complex.exp (os.length * R.dt * R.eshift) * Complex.exp (windowConst R (os.zip xs) v) *
    (slater R.psi ⬝ᵥ (windowOp R (os.zip xs) v *ᵥ (O *ᵥ prodState (orbs v.s.phi))))

open Classical in
/-- What it adds, with the fields for which something is capped, cut off or dropped put right. -/
noncomputable def corrected (R : Setup nx nb nu nd) (E : (Fin 2 → Matrix (Fin nb) (Fin nb) ℂ) → ℂ)
    (O : Matrix (Fin nu ⊕ Fin nd → Fin nb) (Fin nu ⊕ Fin nd → Fin nb) ℂ) (os : List Bool)
    (v : BW nx nb nu nd) (xs : List (Fin nx → ℝ)) : ℂ :=
  if Fine R (os.zip xs) v then contribution R E os v xs else intended R O os v xs

theorem contribution_eq (R : Setup nx nb k k) (hdt : 0 < R.dt) (hn : R.n = 6) (hqr : QRSpec R.qr) (os : List Bool)
    (v : BW nx nb k k) (hv : v.hist = []) (h0 : ovl2 R.psi v.s.phi ≠ 0)
    {E : (Fin 2 → Matrix (Fin nb) (Fin nb) ℂ) → ℂ} {O : Matrix (Fin k ⊕ Fin k → Fin nb) (Fin k ⊕ Fin k → Fin nb) ℂ}
    (hE : Measures E O) (xs : List (Fin nx → ℝ)) (hl : xs.length = os.length) (h : Fine R (os.zip xs) v) :
    contribution R E os v xs = intended R O os v xs := by
  obtain ⟨r, h1, h2⟩ := window_estimate R hdt hn hqr (os.zip xs) v hv h h0 hE
  rw [contribution, h1, Option.getD_some, h2, List.length_zip, hl, min_self, intended]

/-- **C111 (average)**: the average over all fields of a window of an estimate with fully restored weights, less the factor from the
averaging of successive hybrid energies and with capped steps put right, is the weight at the start of the window times the matrix
element between trial and starting state of the measured operator followed by the averaged operators of the steps, over the overlap at
the start.  It does not depend on the force bias nor on the reorthogonalisations. -/
theorem average_estimate_partial (R : Setup nx nb k k) {t : ℝ → Tables nx nb} {K : Fin 2 → Matrix (Fin nb) (Fin nb) ℂ}
    {W : Fin nx → Fin 2 → Matrix (Fin nb) (Fin nb) ℂ} {mf : Fin nx → ℂ} (hL : Linear t K W mf) (hdt : 0 < R.dt) (hdt1 : R.dt ≤ 1)
    (ht : R.t = t R.dt) (hn : R.n = 6) (hqr : QRSpec R.qr) (os : List Bool) (v : BW nx nb k k) (hv : v.hist = [])
    (h0 : ovl2 R.psi v.s.phi ≠ 0)
    {E : (Fin 2 → Matrix (Fin nb) (Fin nb) ℂ) → ℂ} {O : Matrix (Fin k ⊕ Fin k → Fin nb) (Fin k ⊕ Fin k → Fin nb) ℂ}
    (hE : Measures E O) :
    avgList os.length (corrected R E O os v) =
      v.w.weight / ovl2 R.psi v.s.phi * Complex.exp (os.length * R.dt * R.eshift) *
        (slater R.psi ⬝ᵥ (avgOp 6 K W mf spin (Real.sqrt R.dt) ^ os.length *ᵥ (O *ᵥ prodState (orbs v.s.phi)))) := by
  rw [← avg_window R hL hdt.le hdt1 ht os v, ← avgList_smul]
  refine avgList_congr (aeList_of_forall fun xs hl => ?_)
  have : corrected R E O os v xs = intended R O os v xs := by
    rw [corrected]
    split_ifs with h
    · exact contribution_eq R hdt hn hqr os v hv h0 hE xs hl h
    · rfl
  rw [this, intended]
  ring

/-- If almost no fields are capped nothing needs to be put right. -/
theorem average_contribution_partial (R : Setup nx nb k k) {t : ℝ → Tables nx nb} {K : Fin 2 → Matrix (Fin nb) (Fin nb) ℂ}
    {W : Fin nx → Fin 2 → Matrix (Fin nb) (Fin nb) ℂ} {mf : Fin nx → ℂ} (hL : Linear t K W mf) (hdt : 0 < R.dt) (hdt1 : R.dt ≤ 1)
    (ht : R.t = t R.dt) (hn : R.n = 6) (hqr : QRSpec R.qr) (os : List Bool) (v : BW nx nb k k) (hv : v.hist = [])
    (h0 : ovl2 R.psi v.s.phi ≠ 0) (hf : aeList os.length fun xs => Fine R (os.zip xs) v)
    {E : (Fin 2 → Matrix (Fin nb) (Fin nb) ℂ) → ℂ} {O : Matrix (Fin k ⊕ Fin k → Fin nb) (Fin k ⊕ Fin k → Fin nb) ℂ}
    (hE : Measures E O) :
    avgList os.length (contribution R E os v) =
      v.w.weight / ovl2 R.psi v.s.phi * Complex.exp (os.length * R.dt * R.eshift) *
        (slater R.psi ⬝ᵥ (avgOp 6 K W mf spin (Real.sqrt R.dt) ^ os.length *ᵥ (O *ᵥ prodState (orbs v.s.phi)))) := by
  rw [← average_estimate_partial R hL hdt hdt1 ht hn hqr os v hv h0 hE]
  refine avgList_congr (aeList_mono (fun xs hl h => ?_) hf)
  rw [corrected, if_pos h]

/-- **C111 (ratio)**: the ratio of the averages of an estimate and of the denominator. -/
theorem ratio_estimate_partial (R : Setup nx nb k k) {t : ℝ → Tables nx nb} {K : Fin 2 → Matrix (Fin nb) (Fin nb) ℂ}
    {W : Fin nx → Fin 2 → Matrix (Fin nb) (Fin nb) ℂ} {mf : Fin nx → ℂ} (hL : Linear t K W mf) (hdt : 0 < R.dt) (hdt1 : R.dt ≤ 1)
    (ht : R.t = t R.dt) (hn : R.n = 6) (hqr : QRSpec R.qr) (os : List Bool) (v : BW nx nb k k) (hv : v.hist = [])
    (hw : v.w.weight ≠ 0) (h0 : ovl2 R.psi v.s.phi ≠ 0)
    {E : (Fin 2 → Matrix (Fin nb) (Fin nb) ℂ) → ℂ} {O : Matrix (Fin k ⊕ Fin k → Fin nb) (Fin k ⊕ Fin k → Fin nb) ℂ}
    (hE : Measures E O) :
    avgList os.length (corrected R E O os v) / avgList os.length (corrected R (fun _ => 1) 1 os v) =
      (slater R.psi ⬝ᵥ (avgOp 6 K W mf spin (Real.sqrt R.dt) ^ os.length *ᵥ (O *ᵥ prodState (orbs v.s.phi)))) /
        (slater R.psi ⬝ᵥ (avgOp 6 K W mf spin (Real.sqrt R.dt) ^ os.length *ᵥ prodState (orbs v.s.phi))) := by
  rw [average_estimate_partial R hL hdt hdt1 ht hn hqr os v hv h0 hE,
    average_estimate_partial R hL hdt hdt1 ht hn hqr os v hv h0 measures_weight, Matrix.one_mulVec,
    mul_div_mul_left]
  exact mul_ne_zero (div_ne_zero (by exact_mod_cast hw) h0) (Complex.exp_ne_zero _)

/-- **C111 (limit)**: the imaginary time `β` of the window divided into more and more steps: the averages approach the matrix elements
of the measured operator followed by the exponential of the Hamiltonian that the tables stand for. -/
theorem limit_estimate_partial {t : ℝ → Tables nx nb} {K : Fin 2 → Matrix (Fin nb) (Fin nb) ℂ}
    {W : Fin nx → Fin 2 → Matrix (Fin nb) (Fin nb) ℂ} {mf : Fin nx → ℂ} (hL : Linear t K W mf) {β : ℝ} (hβ : 0 < β)
    (psi : Slater.Wfn nb k k) (eshift : ℝ) (v : BW nx nb k k) (hv : v.hist = []) (h0 : ovl2 psi v.s.phi ≠ 0)
    {E : (Fin 2 → Matrix (Fin nb) (Fin nb) ℂ) → ℂ} {O : Matrix (Fin k ⊕ Fin k → Fin nb) (Fin k ⊕ Fin k → Fin nb) ℂ}
    (hE : Measures E O) :
    ∃ L : ℝ, ∀ (R : Setup nx nb k k) (os : List Bool), 0 < os.length → β ≤ os.length → R.dt = β / os.length → R.t = t R.dt →
      R.n = 6 → QRSpec R.qr → R.psi = psi → R.eshift = eshift →
      ‖avgList os.length (corrected R E O os v) - v.w.weight / ovl2 psi v.s.phi * Complex.exp (β * eshift) *
        (slater psi ⬝ᵥ (NormedSpace.exp (-(β : ℂ) • genOp K W mf spin) *ᵥ (O *ᵥ prodState (orbs v.s.phi))))‖ ≤
        L / Real.sqrt os.length := by
  obtain ⟨L, hLb⟩ := avgOp_pow 6 (by norm_num) K W mf (spin : Fin k ⊕ Fin k → Fin 2) hβ.le
  refine ⟨‖(v.w.weight : ℂ) / ovl2 psi v.s.phi * Complex.exp (β * eshift)‖ *
    ((∑ i, ∑ j, ‖slater psi i‖ * ‖(O *ᵥ prodState (orbs v.s.phi)) j‖) * L), fun R os hN hNβ hdt ht hn hqr hpsi hes => ?_⟩
  have hN0 : (0 : ℝ) < os.length := by exact_mod_cast hN
  have hNc : (os.length : ℂ) ≠ 0 := by exact_mod_cast hN.ne'
  have hd0 : 0 < R.dt := by rw [hdt]; positivity
  have hd1 : R.dt ≤ 1 := by rw [hdt, div_le_one hN0]; exact hNβ
  rw [average_estimate_partial R hL hd0 hd1 ht hn hqr os v hv (hpsi ▸ h0) hE, hpsi, hes, hdt]
  have hE' : (os.length : ℂ) * ((β / os.length : ℝ) : ℂ) * eshift = β * eshift := by push_cast; field_simp
  rw [hE', ← mul_sub, norm_mul, mul_div_assoc, mul_div_assoc]
  refine mul_le_mul_of_nonneg_left ?_ (norm_nonneg _)
  exact dotProduct_mulVec_bound _ _ _ _ (hLb _ hN hNβ)

end Verif.BackProp
