import Verif.Step.Generator
import Verif.Step.Model
import Verif.Energy.Props

/-!
# One free step averages to the Hamiltonian, to first order in the time step (C79)

For every walker and every determinant `A`, the average over the normally distributed fields of the
weight times the phase times the overlap of `A` with the propagated walker is the same quantity before the
step minus `dt` times the matrix element of `H - c`, up to order `dt^(3/2)`, where the constant `c` is the
energy shift plus `mf_core`.
-/

namespace Verif.Step

open MeasureTheory Finset Matrix
open Verif.Energy (ovl oneBody twoBody hamil)
open Verif.Slater (taylor)

variable {nx nb nu nd : Nat}

/-! ## Statement -/

/-- Overlap of a determinant of both spins with the orbitals of a walker. -/
noncomputable def ovl2 (A phi : Slater.Wfn nb nu nd) : ℂ :=
  ovl (Slater.up A) (Slater.up phi) * ovl (Slater.dn A) (Slater.dn phi)

/-- The average over the fields of weight × phase × overlap after a step equals, up to order
`dt^(3/2)`, weight × phase × (overlap − dt (`H` − `c`)), where `H` is a matrix element between the
determinant `A` and the walker. -/
def FirstOrder (step : ℝ → (Fin nx → ℝ) → Slater.Wk nb nu nd) (w : Slater.Wk nb nu nd)
    (A : Slater.Wfn nb nu nd) (H c : ℂ) : Prop :=
  ∃ L : ℝ, ∀ dt : ℝ, 0 ≤ dt → dt ≤ 1 →
    ‖avg (fun xi => ((step dt xi).weight : ℂ) * (step dt xi).phase * ovl2 A (step dt xi).phi) -
      (w.weight : ℂ) * w.phase * (ovl2 A w.phi - dt * (H - c * ovl2 A w.phi))‖ ≤ L * dt ^ (3 / 2 : ℝ)

/-! ## Any tables -/

theorem up_join (a : Matrix (Fin nb) (Fin nu) ℂ) (b : Matrix (Fin nb) (Fin nd) ℂ) :
    Slater.up (Slater.join a b) = a := by
  ext i j; simp [Slater.up, Slater.join]

theorem dn_join (a : Matrix (Fin nb) (Fin nu) ℂ) (b : Matrix (Fin nb) (Fin nd) ℂ) :
    Slater.dn (Slater.join a b) = b := by
  ext i j; simp [Slater.dn, Slater.join]

theorem rescale_zero : Weights.rescale 0 = 0 := by simp [Weights.rescale]

/-- The weight and phase of the step. -/
theorem weight_phase (n : Nat) (dt : ℝ) (t : Tables nx nb) (psi : Slater.Wfn nb nu nd) (e : ℂ)
    (xi : Fin nx → ℝ) (w : Slater.Wk nb nu nd) :
    ((propagateFree n dt t psi e xi w).weight : ℂ) * (propagateFree n dt t psi e xi w).phase =
      w.weight * w.phase * (Complex.exp (dt * e) *
        Complex.exp ((Real.sqrt dt : ℂ) * ∑ a, (xi a : ℂ) * -t.mfShift a)) := by
  have hz : ∀ z : ℂ, (‖z‖ : ℂ) * Complex.exp (Complex.I * (Complex.arg z : ℂ)) = z := by
    intro z; rw [mul_comm Complex.I]; exact Complex.norm_mul_exp_arg_mul_I z
  simp only [propagateFree, twoBodyPropagator, Complex.ofReal_mul]
  have h1 : Weights.cmf dt t.mfShift xi (fun _ => Weights.rescale 0) =
      (Real.sqrt dt : ℂ) * ∑ a, (xi a : ℂ) * -t.mfShift a := by
    simp only [Weights.cmf, Weights.xshifted, rescale_zero, sub_zero, mul_neg, sum_neg_distrib, neg_mul]
  rw [h1]
  generalize hg : Complex.exp ((Real.sqrt dt : ℂ) * ∑ a, (xi a : ℂ) * -t.mfShift a + dt * e) = g
  have hg' : Complex.exp (dt * e) * Complex.exp ((Real.sqrt dt : ℂ) * ∑ a, (xi a : ℂ) * -t.mfShift a) = g := by
    rw [← Complex.exp_add, add_comm, hg]
  rw [hg']
  calc _ = (w.weight : ℂ) * w.phase * ((‖g‖ : ℂ) * Complex.exp (Complex.I * (Complex.arg g : ℂ))) := by ring
    _ = _ := by rw [hz]

/-- The orbitals of the step. -/
theorem step_orbitals (n : Nat) (dt : ℝ) (t : Tables nx nb) (psi : Slater.Wfn nb nu nd) (e : ℂ)
    (xi : Fin nx → ℝ) (w : Slater.Wk nb nu nd) :
    Slater.up (propagateFree n dt t psi e xi w).phi =
        t.BH1 0 * (taylor n (t.vhs (fun a => (xi a : ℂ)) 0) * (t.BH1 0 * Slater.up w.phi)) ∧
      Slater.dn (propagateFree n dt t psi e xi w).phi =
        t.BH1 1 * (taylor n (t.vhs (fun a => (xi a : ℂ)) 1) * (t.BH1 1 * Slater.dn w.phi)) := by
  have hx : Weights.xshifted xi (fun _ => Weights.rescale 0) = fun a => (xi a : ℂ) := by
    funext a; simp [Weights.xshifted, rescale_zero]
  simp only [propagateFree, twoBodyPropagator, kineticReal, up_join, dn_join,
    Slater.applyExponential_taylor, hx, and_self]

theorem avg_smul (c : ℂ) (f : (Fin nx → ℝ) → ℂ) : avg (fun x => c * f x) = c * avg f := by
  rw [avg, avg, ← integral_const_mul]
  congr 1
  funext x
  ring

theorem exp_dt_bound (e : ℂ) {dt : ℝ} (h0 : 0 ≤ dt) (h1 : dt ≤ 1) :
    ‖Complex.exp (dt * e) - (1 + dt * e)‖ ≤ ‖e‖ ^ 2 * Real.exp ‖e‖ * dt ^ 2 := by
  have h := norm_exp_sub_le (dt * e : ℂ)
  rw [← Complex.exp_eq_exp_ℂ] at h
  have hn : ‖(dt * e : ℂ)‖ = dt * ‖e‖ := by rw [norm_mul, Complex.norm_real, Real.norm_of_nonneg h0]
  rw [hn] at h
  refine h.trans ?_
  have he : Real.exp (dt * ‖e‖) ≤ Real.exp ‖e‖ :=
    Real.exp_le_exp.2 (by nlinarith [norm_nonneg e])
  calc (dt * ‖e‖) ^ 2 * Real.exp (dt * ‖e‖) ≤ (dt * ‖e‖) ^ 2 * Real.exp ‖e‖ :=
        mul_le_mul_of_nonneg_left he (sq_nonneg _)
    _ = _ := by ring

/-- Any tables whose one-body factor is the exponential of `K` and whose field potential is linear in the
fields with operators `W`: the average is given by `generator`. -/
theorem free_first_order (n : Nat) (hn : 2 ≤ n) (t : ℝ → Tables nx nb)
    (K : Fin 2 → Matrix (Fin nb) (Fin nb) ℂ) (W : Fin nx → Fin 2 → Matrix (Fin nb) (Fin nb) ℂ)
    (mf : Fin nx → ℂ) (hmf : ∀ dt, (t dt).mfShift = mf)
    (hB : ∀ dt s, (t dt).BH1 s = NormedSpace.exp ((-(1 / 2) * dt : ℂ) • K s))
    (hV : ∀ dt, 0 ≤ dt → ∀ x s, (t dt).vhs x s = (Real.sqrt dt : ℂ) • ∑ a, x a • W a s)
    (psi A : Slater.Wfn nb nu nd) (e : ℂ) (w : Slater.Wk nb nu nd) (H c : ℂ)
    (hH : generator K W mf (Slater.up A) (Slater.up w.phi) (Slater.dn A) (Slater.dn w.phi) =
      -H + c * ovl2 A w.phi) :
    FirstOrder (fun dt xi => propagateFree n dt (t dt) psi e xi w) w A H (c + e) := by
  obtain ⟨L, hL⟩ := avg_step n hn K W mf (Slater.up A) (Slater.up w.phi) (Slater.dn A) (Slater.dn w.phi)
  rw [hH] at hL
  change ∃ L' : ℝ, _
  set O := ovl2 A w.phi with hO
  set g := -H + c * O with hg
  refine ⟨‖(w.weight : ℂ) * w.phase‖ * (Real.exp ‖e‖ * L + ‖e‖ ^ 2 * Real.exp ‖e‖ * (‖O‖ + ‖g‖) +
    ‖e‖ * ‖g‖), fun dt h0 h1 => ?_⟩
  have hs0 : 0 ≤ Real.sqrt dt := Real.sqrt_nonneg _
  have hs1 : Real.sqrt dt ≤ 1 := Real.sqrt_le_one.mpr h1
  have hsq : Real.sqrt dt ^ 2 = dt := Real.sq_sqrt h0
  have hsqc : (Real.sqrt dt : ℂ) ^ 2 = dt := by rw [← Complex.ofReal_pow, hsq]
  have h32 : dt ^ (3 / 2 : ℝ) = Real.sqrt dt ^ 3 := by
    rw [Real.sqrt_eq_rpow, ← Real.rpow_natCast, ← Real.rpow_mul h0]; norm_num
  have key := hL (Real.sqrt dt) hs0 hs1
  rw [hsqc] at key
  have hF : avg (fun xi => ((propagateFree n dt (t dt) psi e xi w).weight : ℂ) *
      (propagateFree n dt (t dt) psi e xi w).phase * ovl2 A (propagateFree n dt (t dt) psi e xi w).phi) =
      (w.weight * w.phase * Complex.exp (dt * e)) *
      avg (fun x : Fin nx → ℝ => Complex.exp ((Real.sqrt dt : ℂ) * ∑ a, (x a : ℂ) * -mf a) *
          (stepOvl n (K 0) (fun a => W a 0) (Slater.up A) (Slater.up w.phi) (Real.sqrt dt) x *
            stepOvl n (K 1) (fun a => W a 1) (Slater.dn A) (Slater.dn w.phi) (Real.sqrt dt) x)) := by
    rw [← avg_smul]
    congr 1
    funext xi
    rw [weight_phase, hmf, ovl2, (step_orbitals n dt (t dt) psi e xi w).1,
      (step_orbitals n dt (t dt) psi e xi w).2]
    have hs : ∀ (s : Fin 2) {k : Nat} (A B : Matrix (Fin nb) (Fin k) ℂ),
        ovl A ((t dt).BH1 s * (taylor n ((t dt).vhs (fun a => (xi a : ℂ)) s) * ((t dt).BH1 s * B))) =
        stepOvl n (K s) (fun a => W a s) A B (Real.sqrt dt) xi := by
      intro s k A B
      rw [hB, hV dt h0, stepOvl, half, hsqc, field]
    rw [hs, hs]
    ring
  rw [hF, h32]
  generalize avg (fun x : Fin nx → ℝ => Complex.exp ((Real.sqrt dt : ℂ) * ∑ a, (x a : ℂ) * -mf a) *
          (stepOvl n (K 0) (fun a => W a 0) (Slater.up A) (Slater.up w.phi) (Real.sqrt dt) x *
            stepOvl n (K 1) (fun a => W a 1) (Slater.dn A) (Slater.dn w.phi) (Real.sqrt dt) x)) = F at key ⊢
  have hO' : ovl (Slater.up A) (Slater.up w.phi) * ovl (Slater.dn A) (Slater.dn w.phi) = O := rfl
  rw [hO'] at key
  generalize hE : Complex.exp (dt * e) = E
  have hexp := exp_dt_bound e h0 h1
  rw [hE] at hexp
  have hEn : ‖E‖ ≤ Real.exp ‖e‖ := by
    rw [← hE]
    refine (Complex.norm_exp_le_exp_norm _).trans (Real.exp_le_exp.2 ?_)
    rw [norm_mul, Complex.norm_real, Real.norm_of_nonneg h0]
    nlinarith [norm_nonneg e]
  have hid : (w.weight : ℂ) * w.phase * E * F -
      (w.weight : ℂ) * w.phase * (O - dt * (H - (c + e) * O)) =
      (w.weight : ℂ) * w.phase * (E * (F - (O + dt * g)) + (E - (1 + dt * e)) * (O + dt * g) +
        dt ^ 2 * (e * g)) := by
    rw [hg]; ring
  have hdt2 : dt ^ 2 ≤ Real.sqrt dt ^ 3 := by
    have : dt ^ 2 = Real.sqrt dt ^ 4 := by rw [← hsq]; ring_nf; rw [hsq]
    rw [this]
    exact pow_le_pow_of_le_one hs0 hs1 (by norm_num)
  have hdtn : ‖(dt : ℂ)‖ = dt := by rw [Complex.norm_real, Real.norm_of_nonneg h0]
  rw [hid, norm_mul, mul_assoc]
  refine mul_le_mul_of_nonneg_left ?_ (norm_nonneg _)
  have b1 : ‖E * (F - (O + dt * g))‖ ≤ Real.exp ‖e‖ * (L * Real.sqrt dt ^ 3) := by
    rw [norm_mul]
    exact mul_le_mul hEn key (norm_nonneg _) (Real.exp_pos _).le
  have hOg : ‖O + dt * g‖ ≤ ‖O‖ + ‖g‖ := by
    refine (norm_add_le _ _).trans ?_
    rw [norm_mul, hdtn]
    nlinarith [norm_nonneg g]
  have b2 : ‖(E - (1 + dt * e)) * (O + dt * g)‖ ≤
      ‖e‖ ^ 2 * Real.exp ‖e‖ * Real.sqrt dt ^ 3 * (‖O‖ + ‖g‖) := by
    rw [norm_mul]
    refine mul_le_mul (hexp.trans ?_) hOg (norm_nonneg _) (by positivity)
    exact mul_le_mul_of_nonneg_left hdt2 (by positivity)
  have b3 : ‖(dt : ℂ) ^ 2 * (e * g)‖ ≤ Real.sqrt dt ^ 3 * (‖e‖ * ‖g‖) := by
    rw [norm_mul, norm_pow, hdtn, norm_mul]
    exact mul_le_mul_of_nonneg_right hdt2 (by positivity)
  calc _ ≤ _ := (norm_add_le _ _).trans (add_le_add ((norm_add_le _ _).trans (add_le_add b1 b2)) b3)
    _ = _ := by ring

/-- The first-order coefficient is determined by the step. -/
theorem FirstOrder.unique {step : ℝ → (Fin nx → ℝ) → Slater.Wk nb nu nd} {w : Slater.Wk nb nu nd}
    {A : Slater.Wfn nb nu nd} {H c H' c' : ℂ} (h : FirstOrder step w A H c)
    (h' : FirstOrder step w A H' c') (hw : (w.weight : ℂ) * w.phase ≠ 0) :
    H - c * ovl2 A w.phi = H' - c' * ovl2 A w.phi := by
  obtain ⟨L, hL⟩ := h
  obtain ⟨L', hL'⟩ := h'
  by_contra hne
  set D := (w.weight : ℂ) * w.phase * ((H - c * ovl2 A w.phi) - (H' - c' * ovl2 A w.phi)) with hD
  have hD0 : 0 < ‖D‖ := norm_pos_iff.2 (mul_ne_zero hw (sub_ne_zero.2 hne))
  have hb : ∀ s : ℝ, 0 < s → s ≤ 1 → ‖D‖ ≤ (L + L') * s := by
    intro s hs hs1
    have h0 : 0 ≤ s ^ 2 := sq_nonneg s
    have h1 : s ^ 2 ≤ 1 := pow_le_one₀ hs.le hs1
    have h32 : (s ^ 2) ^ (3 / 2 : ℝ) = s ^ 3 := by
      rw [← Real.rpow_natCast, ← Real.rpow_mul hs.le]
      rw [← Real.rpow_natCast]; norm_num
    have a := hL (s ^ 2) h0 h1
    have b := hL' (s ^ 2) h0 h1
    rw [h32] at a b
    generalize avg (fun xi => ((step (s ^ 2) xi).weight : ℂ) * (step (s ^ 2) xi).phase *
      ovl2 A (step (s ^ 2) xi).phi) = F at a b
    have e : ((s ^ 2 : ℝ) : ℂ) * D =
        (F - (w.weight : ℂ) * w.phase * (ovl2 A w.phi - ((s ^ 2 : ℝ) : ℂ) * (H - c * ovl2 A w.phi))) -
        (F - (w.weight : ℂ) * w.phase * (ovl2 A w.phi - ((s ^ 2 : ℝ) : ℂ) * (H' - c' * ovl2 A w.phi))) := by
      rw [hD]; ring
    have n1 : ‖((s ^ 2 : ℝ) : ℂ) * D‖ ≤ (L + L') * s ^ 3 := by
      rw [e]
      refine (norm_sub_le _ _).trans ?_
      linarith
    rw [norm_mul, Complex.norm_real, Real.norm_of_nonneg h0] at n1
    have : s ^ 2 * ‖D‖ ≤ s ^ 2 * ((L + L') * s) := by linarith [n1]
    exact le_of_mul_le_mul_left this (by positivity)
  have hL0 : 0 < L + L' := by
    have := hb 1 one_pos le_rfl
    linarith
  have hs := hb (min 1 (‖D‖ / (2 * (L + L')))) (lt_min one_pos (by positivity)) (min_le_left _ _)
  have : (L + L') * min 1 (‖D‖ / (2 * (L + L'))) ≤ ‖D‖ / 2 := by
    calc (L + L') * min 1 (‖D‖ / (2 * (L + L'))) ≤ (L + L') * (‖D‖ / (2 * (L + L'))) :=
          mul_le_mul_of_nonneg_left (min_le_right _ _) hL0.le
      _ = ‖D‖ / 2 := by field_simp
  linarith

/-! ## Generic systems -/

theorem oneElem_add (S T : Fin 2 → Matrix (Fin nb) (Fin nb) ℂ) (Au Bu : Matrix (Fin nb) (Fin nu) ℂ)
    (Ad Bd : Matrix (Fin nb) (Fin nd) ℂ) :
    oneElem (fun s => S s + T s) Au Bu Ad Bd = oneElem S Au Bu Ad Bd + oneElem T Au Bu Ad Bd := by
  simp only [oneElem, oneBody_add]; ring

theorem oneElem_sub (S T : Fin 2 → Matrix (Fin nb) (Fin nb) ℂ) (Au Bu : Matrix (Fin nb) (Fin nu) ℂ)
    (Ad Bd : Matrix (Fin nb) (Fin nd) ℂ) :
    oneElem (fun s => S s - T s) Au Bu Ad Bd = oneElem S Au Bu Ad Bd - oneElem T Au Bu Ad Bd := by
  simp only [oneElem, oneBody_sub]; ring

theorem oneElem_smul (r : ℂ) (T : Fin 2 → Matrix (Fin nb) (Fin nb) ℂ) (Au Bu : Matrix (Fin nb) (Fin nu) ℂ)
    (Ad Bd : Matrix (Fin nb) (Fin nd) ℂ) :
    oneElem (fun s => r • T s) Au Bu Ad Bd = r * oneElem T Au Bu Ad Bd := by
  simp only [oneElem, oneBody_smul]; ring

theorem oneElem_sum {ι : Type*} (S : Finset ι) (T : ι → Fin 2 → Matrix (Fin nb) (Fin nb) ℂ)
    (Au Bu : Matrix (Fin nb) (Fin nu) ℂ) (Ad Bd : Matrix (Fin nb) (Fin nd) ℂ) :
    oneElem (fun s => ∑ a ∈ S, T a s) Au Bu Ad Bd = ∑ a ∈ S, oneElem (T a) Au Bu Ad Bd := by
  simp only [oneElem, oneBody_sum, sum_mul, mul_sum, sum_add_distrib]

theorem twoBody_smul_both (r : ℂ) (S : Matrix (Fin nb) (Fin nb) ℂ) {k : Nat} (A B : Matrix (Fin nb) (Fin k) ℂ) :
    twoBody (r • S) (r • S) A B = r ^ 2 * twoBody S S A B := by
  rw [twoBody_smul_left, twoBody_symm, twoBody_smul_left]; ring

theorem sqElem_smul (r : ℂ) (T : Fin 2 → Matrix (Fin nb) (Fin nb) ℂ) (Au Bu : Matrix (Fin nb) (Fin nu) ℂ)
    (Ad Bd : Matrix (Fin nb) (Fin nd) ℂ) :
    sqElem (fun s => r • T s) Au Bu Ad Bd = r ^ 2 * sqElem T Au Bu Ad Bd := by
  simp only [sqElem, twoBody_smul_both, smul_mul_smul_comm, oneBody_smul]; ring

/-- What the code subtracts from the one-body Hamiltonian in place of half the squares of the Cholesky
vectors. -/
noncomputable def Gen.extra (g : Gen nx nb) : Matrix (Fin nb) (Fin nb) ℂ :=
  (1 / 2 : ℂ) • ∑ n, (g.chol n * (g.chol n)ᵀ - g.chol n * g.chol n)

theorem Gen.h1eMod_eq (g : Gen nx nb) (s : Fin 2) :
    g.h1eMod s = g.h1 s - (1 / 2 : ℂ) • ∑ n, g.chol n * (g.chol n)ᵀ := by
  ext i j
  simp only [Gen.h1eMod, Matrix.of_apply, Matrix.sub_apply, Matrix.smul_apply, Matrix.sum_apply,
    Matrix.mul_apply, Matrix.transpose_apply, smul_eq_mul]
  rw [sum_comm]

theorem Gen.generator_eq (g : Gen nx nb) (mf : Fin nx → ℂ) (Au Bu : Matrix (Fin nb) (Fin nu) ℂ)
    (Ad Bd : Matrix (Fin nb) (Fin nd) ℂ) :
    generator (fun s => g.h1eMod s - Matrix.of fun i k => Complex.I * ∑ n, g.chol n i k * mf n)
      (fun a _ => Complex.I • g.chol a) mf Au Bu Ad Bd =
      -hamil g.h1 g.chol g.ecore Au Bu Ad Bd + oneElem (fun _ => g.extra) Au Bu Ad Bd +
        (g.ecore + 1 / 2 * ∑ n, mf n * mf n) * (ovl Au Bu * ovl Ad Bd) := by
  have e1 : (Matrix.of fun i k => Complex.I * ∑ n, g.chol n i k * mf n) =
      ∑ n, mf n • (Complex.I • g.chol n) := by
    ext i k
    simp only [Matrix.of_apply, Matrix.sum_apply, Matrix.smul_apply, smul_eq_mul, mul_sum]
    exact sum_congr rfl fun n _ => by ring
  have e2 : (fun s => g.h1eMod s - Matrix.of fun i k => Complex.I * ∑ n, g.chol n i k * mf n) =
      fun s => (g.h1 s - (1 / 2 : ℂ) • ∑ n, g.chol n * (g.chol n)ᵀ) -
        ∑ n, mf n • (Complex.I • g.chol n) := by
    funext s; rw [e1, Gen.h1eMod_eq]
  rw [e2, generator, oneElem_sub (fun s => g.h1 s - (1 / 2 : ℂ) • ∑ n, g.chol n * (g.chol n)ᵀ)
    (fun _ => ∑ n, mf n • (Complex.I • g.chol n)), oneElem_sub g.h1
    (fun _ => (1 / 2 : ℂ) • ∑ n, g.chol n * (g.chol n)ᵀ),
    oneElem_sum univ (fun n _ => mf n • (Complex.I • g.chol n)),
    oneElem_smul (1 / 2) (fun _ => ∑ n, g.chol n * (g.chol n)ᵀ),
    oneElem_sum univ (fun n _ => g.chol n * (g.chol n)ᵀ)]
  have ex : oneElem (fun _ => g.extra) Au Bu Ad Bd = 1 / 2 * (∑ n, (oneElem (fun _ => g.chol n * (g.chol n)ᵀ)
      Au Bu Ad Bd - oneElem (fun _ => g.chol n * g.chol n) Au Bu Ad Bd)) := by
    have := oneElem_smul (1 / 2 : ℂ) (fun _ => ∑ n, (g.chol n * (g.chol n)ᵀ - g.chol n * g.chol n)) Au Bu Ad Bd
    rw [Gen.extra, this, oneElem_sum univ (fun n _ => g.chol n * (g.chol n)ᵀ - g.chol n * g.chol n)]
    congr 1
    refine sum_congr rfl fun n _ => ?_
    exact oneElem_sub (fun _ => g.chol n * (g.chol n)ᵀ) (fun _ => g.chol n * g.chol n) Au Bu Ad Bd
  rw [ex, hamil]
  have e3 : ∀ a, oneElem (fun _ => mf a • (Complex.I • g.chol a)) Au Bu Ad Bd =
      mf a * oneElem (fun _ => Complex.I • g.chol a) Au Bu Ad Bd := fun a =>
    oneElem_smul (mf a) (fun _ => Complex.I • g.chol a) Au Bu Ad Bd
  have e4 : ∀ a, sqElem (fun _ => Complex.I • g.chol a) Au Bu Ad Bd =
      -(oneElem (fun _ => g.chol a * g.chol a) Au Bu Ad Bd +
        (twoBody (g.chol a) (g.chol a) Au Bu * ovl Ad Bd + ovl Au Bu * twoBody (g.chol a) (g.chol a) Ad Bd +
          2 * (oneBody (g.chol a) Au Bu * oneBody (g.chol a) Ad Bd))) := by
    intro a
    rw [sqElem_smul Complex.I (fun _ => g.chol a), Complex.I_sq, sqElem, oneElem]; ring
  simp only [e3, e4]
  have e5 : oneElem g.h1 Au Bu Ad Bd = oneBody (g.h1 0) Au Bu * ovl Ad Bd + ovl Au Bu * oneBody (g.h1 1) Ad Bd :=
    rfl
  rw [e5]
  have e6 : ∀ a, (1 / 2 : ℂ) * (-(oneElem (fun _ => g.chol a * g.chol a) Au Bu Ad Bd +
        (twoBody (g.chol a) (g.chol a) Au Bu * ovl Ad Bd + ovl Au Bu * twoBody (g.chol a) (g.chol a) Ad Bd +
          2 * (oneBody (g.chol a) Au Bu * oneBody (g.chol a) Ad Bd))) -
      2 * mf a * oneElem (fun _ => Complex.I • g.chol a) Au Bu Ad Bd + mf a ^ 2 * (ovl Au Bu * ovl Ad Bd)) =
      -(1 / 2) * oneElem (fun _ => g.chol a * g.chol a) Au Bu Ad Bd -
      (1 / 2) * (twoBody (g.chol a) (g.chol a) Au Bu * ovl Ad Bd + ovl Au Bu * twoBody (g.chol a) (g.chol a) Ad Bd +
          2 * (oneBody (g.chol a) Au Bu * oneBody (g.chol a) Ad Bd)) -
      mf a * oneElem (fun _ => Complex.I • g.chol a) Au Bu Ad Bd +
      (1 / 2) * (ovl Au Bu * ovl Ad Bd) * (mf a * mf a) := fun a => by ring
  simp only [e6, sum_add_distrib, sum_sub_distrib, ← mul_sum]
  ring

theorem Gen.vhs_eq (dt : ℝ) (g : Gen nx nb) (mf x : Fin nx → ℂ) (s : Fin 2) :
    (g.tables dt mf).vhs x s = (Real.sqrt dt : ℂ) • ∑ a, x a • (Complex.I • g.chol a) := by
  ext i k
  simp only [Gen.tables, Matrix.of_apply, Matrix.sum_apply, Matrix.smul_apply, smul_eq_mul, mul_sum]
  exact sum_congr rfl fun n _ => by ring

/-- Generic systems with any Cholesky vectors: the matrix element contains the one-body term `extra`. -/
theorem generic_exact (n : Nat) (hn : 2 ≤ n) (g : Gen nx nb) (mf : Fin nx → ℂ)
    (psi A : Slater.Wfn nb nu nd) (e : ℂ) (w : Slater.Wk nb nu nd) :
    FirstOrder (fun dt xi => propagateFree n dt (g.tables dt mf) psi e xi w) w A
      (hamil g.h1 g.chol g.ecore (Slater.up A) (Slater.up w.phi) (Slater.dn A) (Slater.dn w.phi) -
        oneElem (fun _ => g.extra) (Slater.up A) (Slater.up w.phi) (Slater.dn A) (Slater.dn w.phi))
      (g.ecore + 1 / 2 * ∑ a, mf a * mf a + e) := by
  refine free_first_order n hn (fun dt => g.tables dt mf) _ (fun a _ => Complex.I • g.chol a) mf
    (fun _ => rfl) (fun _ _ => rfl) (fun dt _ x s => Gen.vhs_eq dt g mf x s) psi A e w _ _ ?_
  rw [Gen.generator_eq]
  unfold ovl2
  ring

/-- **C79 (generic systems)**: for symmetric Cholesky vectors the step averages to the Hamiltonian with
the integrals and core energy of the system. -/
theorem generic_first_order (n : Nat) (hn : 2 ≤ n) (g : Gen nx nb) (hL : ∀ a, (g.chol a)ᵀ = g.chol a)
    (mf : Fin nx → ℂ) (psi A : Slater.Wfn nb nu nd) (e : ℂ) (w : Slater.Wk nb nu nd) :
    FirstOrder (fun dt xi => propagateFree n dt (g.tables dt mf) psi e xi w) w A
      (hamil g.h1 g.chol g.ecore (Slater.up A) (Slater.up w.phi) (Slater.dn A) (Slater.dn w.phi))
      (g.ecore + 1 / 2 * ∑ a, mf a * mf a + e) := by
  have h := generic_exact n hn g mf psi A e w
  have he : g.extra = 0 := by simp [Gen.extra, hL]
  have h0 : oneElem (fun _ => g.extra) (Slater.up A) (Slater.up w.phi) (Slater.dn A) (Slater.dn w.phi) = 0 := by
    rw [he]; simp only [oneElem, oneBody_zero]; ring
  rwa [h0, sub_zero] at h

end Verif.Step
