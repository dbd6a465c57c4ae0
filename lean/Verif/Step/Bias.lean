import Verif.Step.PlaneWave
import Verif.Step.Shift
import Mathlib.Analysis.SpecialFunctions.Complex.LogBounds

/-!
# Force bias and hybrid energy of one phaseless step

Expansion of the overlap after a step with force bias, of the hybrid energy and of the averaged
importance factor in the time step.
-/

namespace Verif.Step

open Matrix Finset Polynomial Verif.Energy

variable {nx nb nu nd m k : Nat}

/-- Tables whose one-body factor is the exponential of `K` and whose field potential is linear in the
fields with operators `W`. -/
structure Linear (t : ℝ → Tables nx nb) (K : Fin 2 → Matrix (Fin nb) (Fin nb) ℂ)
    (W : Fin nx → Fin 2 → Matrix (Fin nb) (Fin nb) ℂ) (mf : Fin nx → ℂ) : Prop where
  shift : ∀ dt, (t dt).mfShift = mf
  oneBody : ∀ dt s, (t dt).BH1 s = NormedSpace.exp ((-(1 / 2) * dt : ℂ) • K s)
  field : ∀ dt, 0 ≤ dt → ∀ x s, (t dt).vhs x s = (Real.sqrt dt : ℂ) • ∑ a, x a • W a s

/-! ## The overlap after a step with force bias -/

/-- One spin: the overlap after a step with the fields shifted by `s β`. -/
noncomputable def biasOvl (n : Nat) (K : Matrix (Fin m) (Fin m) ℂ) (W : Fin nx → Matrix (Fin m) (Fin m) ℂ)
    (β : Fin nx → ℂ) (A B : Matrix (Fin m) (Fin k) ℂ) (s : ℝ) (x : Fin nx → ℝ) : ℂ :=
  ovl A (half K s * (Slater.taylor n ((s : ℂ) • Step.field W x + (s : ℂ) ^ 2 • -∑ a, β a • W a) *
    (half K s * B)))

theorem ExM.sq (V : Matrix (Fin m) (Fin m) ℂ) :
    ExM (nx := nx) (fun s _ => (s : ℂ) ^ 2 • V) (fun _ => Matrix.of fun i j => C 0 + X ^ 2 * C (V i j)) := by
  intro i j
  refine Ex.ofBound (K := 0) fun s _ _ => ?_
  rw [Matrix.smul_apply, smul_eq_mul]; simp

theorem cm_add {a b : Type*} (l : Nat) (P Q : Matrix a b ℂ[X]) : cm l (P + Q) = cm l P + cm l Q := by
  ext i j; simp [cm]

theorem cm_pow_zero {P : Matrix (Fin m) (Fin m) ℂ[X]} (h : cm 0 P = 0) (j : Nat) : cm 0 (P ^ (j + 1)) = 0 := by
  rw [pow_succ, cm_mul_zero, h, Matrix.mul_zero]

theorem cm_pow_one {P : Matrix (Fin m) (Fin m) ℂ[X]} (h : cm 0 P = 0) (j : Nat) : cm 1 (P ^ (j + 2)) = 0 := by
  rw [pow_succ, cm_mul_one, h, cm_pow_zero h, Matrix.mul_zero, Matrix.zero_mul, add_zero]

theorem Ex.biasOvl (n : Nat) (hn : 2 ≤ n) (K : Matrix (Fin m) (Fin m) ℂ)
    (W : Fin nx → Matrix (Fin m) (Fin m) ℂ) (β : Fin nx → ℂ) (A B : Matrix (Fin m) (Fin k) ℂ) :
    ∃ p, Ex (biasOvl n K W β A B) p ∧ ∀ x, (p x).coeff 0 = ovl A B ∧
      (p x).coeff 1 = oneBody (Step.field W x) A B := by
  have hV := (ExM.field W).add (ExM.sq (nx := nx) (-∑ a, β a • W a))
  have hT : ExM (fun s x => Slater.taylor n ((s : ℂ) • Step.field W x + (s : ℂ) ^ 2 • -∑ a, β a • W a)) _ :=
    ExM.sum (range (n + 1)) fun j _ => ExM.smul (1 / (j.factorial : ℂ)) (hV.pow j)
  refine ⟨_, ((ExM.const Aᴴ).mul ((ExM.half K).mul (hT.mul ((ExM.half K).mul (ExM.const B))))).det, fun x => ?_⟩
  obtain ⟨h0, h1, -⟩ := cm_half K
  obtain ⟨a0, a1, -⟩ := cm_const Aᴴ
  obtain ⟨b0, b1, -⟩ := cm_const B
  set V := Step.field W x with hVd
  set P : Matrix (Fin m) (Fin m) ℂ[X] := (X : ℂ[X]) • V.map C +
    Matrix.of fun i j => C 0 + X ^ 2 * C ((-∑ a, β a • W a) i j) with hP
  have p0 : cm 0 P = 0 := by
    ext i j
    simp [hP, cm]
  have p1 : cm 1 P = V := by
    ext i j
    simp [hP, cm, coeff_X_pow_mul']
  set Q : Matrix (Fin m) (Fin m) ℂ[X] := ∑ j ∈ range (n + 1), (C (1 / (j.factorial : ℂ))) • P ^ j with hQ
  have cs : ∀ l, cm l Q = ∑ j ∈ range (n + 1), (1 / (j.factorial : ℂ)) • cm l (P ^ j) := by
    intro l
    ext i j
    simp only [hQ, cm, Matrix.map_apply, Matrix.sum_apply, finset_sum_coeff, Matrix.smul_apply, smul_eq_mul,
      coeff_C_mul]
  have q0 : cm 0 Q = 1 := by
    rw [cs, sum_range_succ', sum_eq_zero fun j _ => by rw [cm_pow_zero p0, smul_zero], zero_add, pow_zero]
    ext i j
    by_cases h : i = j <;> simp [cm, Matrix.one_apply, h]
  have q1 : cm 1 Q = V := by
    obtain ⟨r, rfl⟩ : ∃ r, n = r + 1 := ⟨n - 1, by omega⟩
    rw [cs, sum_range_succ', sum_range_succ', sum_eq_zero fun j _ => by rw [cm_pow_one p0, smul_zero], zero_add,
      pow_zero, pow_one, p1]
    ext i j
    by_cases h : i = j <;> simp [cm, Matrix.one_apply, h, coeff_one]
  have c0 : cm 0 (Aᴴ.map C * ((Matrix.of fun i j => C ((1 : Matrix (Fin m) (Fin m) ℂ) i j) +
        X ^ 2 * C (-(1 / 2 : ℂ) * K i j)) * (Q * ((Matrix.of fun i j => C ((1 : Matrix (Fin m) (Fin m) ℂ) i j) +
        X ^ 2 * C (-(1 / 2 : ℂ) * K i j)) * B.map C)))) = Aᴴ * B := by
    simp only [cm_mul_zero, h0, a0, b0, q0, Matrix.one_mul]
  have c1 : cm 1 (Aᴴ.map C * ((Matrix.of fun i j => C ((1 : Matrix (Fin m) (Fin m) ℂ) i j) +
        X ^ 2 * C (-(1 / 2 : ℂ) * K i j)) * (Q * ((Matrix.of fun i j => C ((1 : Matrix (Fin m) (Fin m) ℂ) i j) +
        X ^ 2 * C (-(1 / 2 : ℂ) * K i j)) * B.map C)))) = Aᴴ * (V * B) := by
    simp only [cm_mul_zero, cm_mul_one, h0, h1, a0, a1, b0, b1, q0, q1, Matrix.one_mul, Matrix.zero_mul,
      Matrix.mul_zero, add_zero, zero_add]
  have hc : ∀ (T : Matrix (Fin m) (Fin m) ℂ) (i : Fin k), (Aᴴ * (T * B)).col i = Aᴴ *ᵥ (T *ᵥ B.col i) := by
    intro T i
    rw [Matrix.mulVec_mulVec, ← Matrix.mul_assoc]
    rfl
  refine ⟨?_, ?_⟩
  · rw [det_coeff_zero, c0]; rfl
  · rw [det_coeff_one, c0, c1, oneBody]
    refine sum_congr rfl fun i _ => ?_
    rw [hc, Matrix.mul_updateCol]

theorem bias_linear (n : Nat) (hn : 2 ≤ n) (K : Fin 2 → Matrix (Fin m) (Fin m) ℂ)
    (W : Fin nx → Fin 2 → Matrix (Fin m) (Fin m) ℂ) (β : Fin nx → ℂ)
    (Au Bu : Matrix (Fin m) (Fin nu) ℂ) (Ad Bd : Matrix (Fin m) (Fin nd) ℂ) :
    ∃ D d : ℝ, 0 ≤ D ∧ 0 ≤ d ∧ ∀ (s : ℝ) (x : Fin nx → ℝ), 0 ≤ s → s ≤ 1 →
      ‖biasOvl n (K 0) (fun a => W a 0) β Au Bu s x * biasOvl n (K 1) (fun a => W a 1) β Ad Bd s x -
        (ovl Au Bu * ovl Ad Bd + s * ∑ a, (x a : ℂ) * oneElem (W a) Au Bu Ad Bd)‖ ≤ s ^ 2 * (D * wt d x) := by
  obtain ⟨pu, hu, cu⟩ := Ex.biasOvl n hn (K 0) (fun a => W a 0) β Au Bu
  obtain ⟨pd, hd, cd⟩ := Ex.biasOvl n hn (K 1) (fun a => W a 1) β Ad Bd
  obtain ⟨D, d, hD, hd0, h⟩ := hu.mul hd
  refine ⟨2 * D, d, by positivity, hd0, fun s x hs hs1 => ?_⟩
  obtain ⟨⟨-, -, h2⟩, h3⟩ := h x
  have h3 := h3 s hs hs1
  set F := biasOvl n (K 0) (fun a => W a 0) β Au Bu s x * biasOvl n (K 1) (fun a => W a 1) β Ad Bd s x with hF
  have e : ovl Au Bu * ovl Ad Bd + s * ∑ a, (x a : ℂ) * oneElem (W a) Au Bu Ad Bd =
      tr (pu x * pd x) s - (s : ℂ) ^ 2 * (pu x * pd x).coeff 2 := by
    rw [tr, mul_coeff_zero, coeff_one_mul, (cu x).1, (cd x).1, (cu x).2, (cd x).2, Step.field, Step.field,
      oneBody_lin, oneBody_lin]
    have : ovl Au Bu * ∑ a, (x a : ℂ) * oneBody (W a 1) Ad Bd + (∑ a, (x a : ℂ) * oneBody (W a 0) Au Bu) * ovl Ad Bd =
        ∑ a, (x a : ℂ) * oneElem (W a) Au Bu Ad Bd := by
      rw [mul_sum, sum_mul, ← sum_add_distrib]
      refine sum_congr rfl fun a _ => ?_
      rw [oneElem]; ring
    rw [this]; ring
  have e2 : F - (tr (pu x * pd x) s - (s : ℂ) ^ 2 * (pu x * pd x).coeff 2) =
      (F - tr (pu x * pd x) s) + (s : ℂ) ^ 2 * (pu x * pd x).coeff 2 := by ring
  rw [e, e2]
  have hw := wt_pos d x
  have hs3 : s ^ 3 ≤ s ^ 2 := pow_le_pow_of_le_one hs hs1 (by norm_num)
  calc _ ≤ ‖F - tr (pu x * pd x) s‖ + ‖(s : ℂ) ^ 2 * (pu x * pd x).coeff 2‖ := norm_add_le _ _
    _ ≤ s ^ 2 * (D * wt d x) + s ^ 2 * (D * wt d x) := by
      refine add_le_add (h3.trans (mul_le_mul_of_nonneg_right hs3 (by positivity))) ?_
      rw [norm_mul, norm_pow, Complex.norm_real, Real.norm_of_nonneg hs]
      exact mul_le_mul_of_nonneg_left h2 (by positivity)
    _ = _ := by ring

/-! ## The phaseless step -/

theorem rescale_small {z : ℂ} (h : ‖z‖ ≤ 1) : Weights.rescale z = z := by
  rw [Weights.rescale, if_neg (not_lt.2 h)]

theorem phaseless_ovl (n : Nat) {t : ℝ → Tables nx nb} {K : Fin 2 → Matrix (Fin nb) (Fin nb) ℂ}
    {W : Fin nx → Fin 2 → Matrix (Fin nb) (Fin nb) ℂ} {mf : Fin nx → ℂ} (hL : Linear t K W mf) {dt : ℝ}
    (h0 : 0 ≤ dt) (fb : Slater.GF nb nu nd → Fin nx → ℂ) (eloc : Slater.GF nb nu nd → ℂ)
    (psi A : Slater.Wfn nb nu nd) (xi : Fin nx → ℝ) (w : Slater.Wk nb nu nd) (β : Fin nx → ℂ)
    (hb : ∀ a, Real.sqrt dt * ‖β a‖ ≤ 1)
    (hfb : ∀ a, fb (Slater.greensFunction psi w) a = (Real.sqrt dt : ℂ) * β a) :
    ovl2 A (phaseless n dt (t dt) fb eloc psi xi w).2.phi =
      biasOvl n (K 0) (fun a => W a 0) β (Slater.up A) (Slater.up w.phi) (Real.sqrt dt) xi *
        biasOvl n (K 1) (fun a => W a 1) β (Slater.dn A) (Slater.dn w.phi) (Real.sqrt dt) xi := by
  have hr : ∀ a, Weights.rescale (fb (Slater.greensFunction psi w) a) = (Real.sqrt dt : ℂ) * β a := by
    intro a
    rw [hfb, rescale_small]
    rw [norm_mul, Complex.norm_real, Real.norm_of_nonneg (Real.sqrt_nonneg _)]
    exact hb a
  have hsqc : (Real.sqrt dt : ℂ) ^ 2 = dt := by rw [← Complex.ofReal_pow, Real.sq_sqrt h0]
  have hv : ∀ s, (t dt).vhs (Weights.xshifted xi fun a => (Real.sqrt dt : ℂ) * β a) s =
      (Real.sqrt dt : ℂ) • Step.field (fun a => W a s) xi + (Real.sqrt dt : ℂ) ^ 2 • -∑ a, β a • W a s := by
    intro s
    rw [hL.field dt h0, Step.field, pow_two, mul_smul, ← smul_add, ← sum_neg_distrib]
    congr 1
    rw [smul_sum, ← sum_add_distrib]
    refine sum_congr rfl fun a _ => ?_
    rw [Weights.xshifted, sub_smul, smul_neg, smul_smul, sub_eq_add_neg]
  simp only [phaseless, twoBodyPropagator, kineticReal, ovl2, up_join, dn_join, hr, hv, hL.oneBody, biasOvl, half,
    hsqc, Slater.applyExponential_taylor]

theorem phaseless_const (n : Nat) {t : ℝ → Tables nx nb} {K : Fin 2 → Matrix (Fin nb) (Fin nb) ℂ}
    {W : Fin nx → Fin 2 → Matrix (Fin nb) (Fin nb) ℂ} {mf : Fin nx → ℂ} (hL : Linear t K W mf) {dt : ℝ}
    (h0 : 0 ≤ dt) (fb : Slater.GF nb nu nd → Fin nx → ℂ) (eloc : Slater.GF nb nu nd → ℂ)
    (psi : Slater.Wfn nb nu nd) (xi : Fin nx → ℝ) (w : Slater.Wk nb nu nd) (β : Fin nx → ℂ)
    (hb : ∀ a, Real.sqrt dt * ‖β a‖ ≤ 1)
    (hfb : ∀ a, fb (Slater.greensFunction psi w) a = (Real.sqrt dt : ℂ) * β a) :
    (phaseless n dt (t dt) fb eloc psi xi w).1.cfb + (phaseless n dt (t dt) fb eloc psi xi w).1.cmf =
      (Real.sqrt dt : ℂ) * ∑ a, (xi a : ℂ) * (β a - mf a) +
        dt * ∑ a, (β a * mf a - 1 / 2 * (β a * β a)) := by
  have hr : ∀ a, Weights.rescale (fb (Slater.greensFunction psi w) a) = (Real.sqrt dt : ℂ) * β a := by
    intro a
    rw [hfb, rescale_small]
    rw [norm_mul, Complex.norm_real, Real.norm_of_nonneg (Real.sqrt_nonneg _)]
    exact hb a
  have hsqc : (dt : ℂ) = (Real.sqrt dt : ℂ) * Real.sqrt dt := by
    rw [← Complex.ofReal_mul, Real.mul_self_sqrt h0]
  simp only [phaseless, twoBodyPropagator, hr, Weights.cfb, Weights.cmf, Weights.xshifted, hL.shift]
  rw [hsqc]
  simp only [mul_sum, ← sum_add_distrib, ← sum_sub_distrib]
  refine sum_congr rfl fun a _ => ?_
  ring

/-- The hybrid energy of a step without capping, for equal electron numbers. -/
noncomputable def hyb (n : Nat) (dt : ℝ) (t : ℝ → Tables nx nb) (fb : ℝ → Slater.GF nb nu nu → Fin nx → ℂ)
    (psi : Slater.Wfn nb nu nu) (w : Slater.Wk nb nu nu) (xi : Fin nx → ℝ) : ℂ :=
  Weights.hybridEnergy dt 0 (phaseless n dt (t dt) (fb dt) (fun _ => 0) psi xi w).1

/-- For small time steps, the square root of the time step times the hybrid energy approaches the linear
form in the fields with coefficients `-γ`. -/
def HybridLimit (h : ℝ → (Fin nx → ℝ) → ℂ) (γ : Fin nx → ℂ) : Prop :=
  ∃ D d : ℝ, 0 ≤ D ∧ 0 ≤ d ∧ ∀ dt : ℝ, 0 < dt → dt ≤ 1 → ∀ xi : Fin nx → ℝ, Real.sqrt dt * (D * wt d xi) ≤ 1 →
    ‖(Real.sqrt dt : ℂ) * h dt xi + ∑ a, (xi a : ℂ) * γ a‖ ≤ Real.sqrt dt * (D * wt d xi)

/-- For small time steps the hybrid energy stays bounded. -/
def HybridBounded (h : ℝ → (Fin nx → ℝ) → ℂ) : Prop :=
  ∃ D d : ℝ, 0 ≤ D ∧ 0 ≤ d ∧ ∀ dt : ℝ, 0 < dt → dt ≤ 1 → ∀ xi : Fin nx → ℝ, Real.sqrt dt * (D * wt d xi) ≤ 1 →
    ‖h dt xi‖ ≤ D * wt d xi

theorem HybridLimit.bounded_iff {h : ℝ → (Fin nx → ℝ) → ℂ} {γ : Fin nx → ℂ} (hl : HybridLimit h γ) :
    HybridBounded h ↔ ∀ a, γ a = 0 := by
  obtain ⟨D, d, hD, hd, hl⟩ := hl
  constructor
  · rintro ⟨E, e, hE, he, hb⟩ a
    by_contra hne
    set xi : Fin nx → ℝ := fun b => if b = a then 1 else 0 with hxi
    have hsum : ∑ b, (xi b : ℂ) * γ b = γ a := by
      rw [sum_eq_single a]
      · simp [hxi]
      · intro b _ hb; simp [hxi, hb]
      · intro h; exact absurd (mem_univ _) h
    set P := D * wt d xi with hP
    set Q := E * wt e xi with hQ
    have hP0 : 0 ≤ P := mul_nonneg hD (wt_pos _ _).le
    have hQ0 : 0 ≤ Q := mul_nonneg hE (wt_pos _ _).le
    have hg : 0 < ‖γ a‖ := norm_pos_iff.2 hne
    -- a small time step
    set s := min (1 / (P + Q + 1)) (‖γ a‖ / (2 * (P + Q + 1))) with hs
    have hs0 : 0 < s := lt_min (by positivity) (by positivity)
    have hs1 : s * (P + Q + 1) ≤ 1 := by
      have := min_le_left (1 / (P + Q + 1)) (‖γ a‖ / (2 * (P + Q + 1)))
      rw [← hs, le_div_iff₀ (by positivity)] at this
      exact this
    have hs2 : s * (2 * (P + Q + 1)) ≤ ‖γ a‖ := by
      have := min_le_right (1 / (P + Q + 1)) (‖γ a‖ / (2 * (P + Q + 1)))
      rw [← hs, le_div_iff₀ (by positivity)] at this
      exact this
    have hsq : Real.sqrt (s ^ 2) = s := Real.sqrt_sq hs0.le
    have hsl : s ≤ 1 := by nlinarith
    have h1 := hl (s ^ 2) (by positivity) (pow_le_one₀ hs0.le hsl) xi (by rw [hsq]; nlinarith)
    have h2 := hb (s ^ 2) (by positivity) (pow_le_one₀ hs0.le hsl) xi (by rw [hsq]; nlinarith)
    rw [hsq, hsum] at h1
    have h3 : ‖γ a‖ ≤ ‖(s : ℂ) * h (s ^ 2) xi + γ a‖ + ‖(s : ℂ) * h (s ^ 2) xi‖ := by
      have := norm_sub_le ((s : ℂ) * h (s ^ 2) xi + γ a) ((s : ℂ) * h (s ^ 2) xi)
      rwa [add_sub_cancel_left] at this
    rw [norm_mul, Complex.norm_real, Real.norm_of_nonneg hs0.le] at h3
    have h4 : s * ‖h (s ^ 2) xi‖ ≤ s * Q := mul_le_mul_of_nonneg_left h2 hs0.le
    nlinarith
  · intro hγ
    refine ⟨D, d, hD, hd, fun dt h0 h1 xi hx => ?_⟩
    have h2 := hl dt h0 h1 xi hx
    have hs : 0 < Real.sqrt dt := Real.sqrt_pos.2 h0
    simp only [hγ, mul_zero, sum_const_zero, add_zero] at h2
    rw [norm_mul, Complex.norm_real, Real.norm_of_nonneg hs.le] at h2
    exact le_of_mul_le_mul_left h2 hs

/-- The limit is unique. -/
theorem HybridLimit.unique {h : ℝ → (Fin nx → ℝ) → ℂ} {γ γ' : Fin nx → ℂ} (hl : HybridLimit h γ)
    (hl' : HybridLimit h γ') : γ = γ' := by
  obtain ⟨D, d, hD, hd, hl⟩ := hl
  have hb : HybridLimit (fun dt xi => h dt xi + (Real.sqrt dt : ℂ)⁻¹ * ∑ a, (xi a : ℂ) * γ a)
      (fun a => γ' a - γ a) := by
    obtain ⟨D', d', hD', hd', hl'⟩ := hl'
    refine ⟨D', d', hD', hd', fun dt h0 h1 xi hx => ?_⟩
    have := hl' dt h0 h1 xi hx
    have hs : (Real.sqrt dt : ℂ) ≠ 0 := by exact_mod_cast (Real.sqrt_pos.2 h0).ne'
    convert! this using 2
    rw [mul_add, mul_inv_cancel_left₀ hs, add_assoc, ← sum_add_distrib]
    congr 1
    refine sum_congr rfl fun a _ => ?_
    ring
  have hz := hb.bounded_iff.1 ⟨D, d, hD, hd, fun dt h0 h1 xi hx => by
    have hs := Real.sqrt_pos.2 h0
    have hsc : (Real.sqrt dt : ℂ) ≠ 0 := by exact_mod_cast hs.ne'
    have h2 := hl dt h0 h1 xi hx
    have e : (Real.sqrt dt : ℂ) * h dt xi + ∑ a, (xi a : ℂ) * γ a =
        (Real.sqrt dt : ℂ) * (h dt xi + (Real.sqrt dt : ℂ)⁻¹ * ∑ a, (xi a : ℂ) * γ a) := by
      rw [mul_add, mul_inv_cancel_left₀ hsc]
    rw [e, norm_mul, Complex.norm_real, Real.norm_of_nonneg hs.le] at h2
    exact le_of_mul_le_mul_left h2 hs⟩
  funext a
  exact (sub_eq_zero.1 (hz a)).symm

theorem le_wt_one (l : Fin nx → ℂ) (x : Fin nx → ℝ) {d : ℝ} (hd : 1 ≤ d) :
    ‖∑ a, (x a : ℂ) * l a‖ ≤ (∑ a, ‖l a‖) * wt d x :=
  (lin_le l x).trans (mul_le_mul_of_nonneg_left ((sum_abs_le_wt x).trans (wt_mono hd x))
    (sum_nonneg fun _ _ => norm_nonneg _))

/-- The numbers of a step: ratio of overlaps `r` and constant `c`. -/
theorem hybrid_core (u v : Fin nx → ℂ) (D d κn Λ : ℝ) (hD : 0 ≤ D) (hΛ : 0 ≤ Λ) (κ : ℂ) (hκ : ‖κ‖ ≤ κn) :
    ∃ N e : ℝ, Λ ≤ N ∧ 0 ≤ e ∧ ∀ (s : ℝ) (xi : Fin nx → ℝ) (r : ℂ), 0 < s → s ≤ 1 →
      s * (N * wt e xi) ≤ 1 → ‖r - 1 - s * ∑ a, (xi a : ℂ) * u a‖ ≤ s ^ 2 * (D * wt d xi) →
      ‖(s : ℂ) * (-(Complex.log r + (s * ∑ a, (xi a : ℂ) * v a + (s : ℂ) ^ 2 * κ)) / (s : ℂ) ^ 2) +
        ∑ a, (xi a : ℂ) * (u a + v a)‖ ≤ s * (N * wt e xi) := by
  set M := D + ∑ a, ‖u a‖ with hM
  have hM0 : 0 ≤ M := by positivity
  have hκ0 : 0 ≤ κn := (norm_nonneg _).trans hκ
  set e := max d 1 with he
  have he1 : 1 ≤ e := le_max_right _ _
  have he0 : 0 ≤ e := zero_le_one.trans he1
  set N := 2 * M + Λ + (D + M ^ 2 + κn) with hN
  have hN0 : 0 ≤ N := by positivity
  refine ⟨N, 2 * e, by rw [hN]; nlinarith, by positivity, fun s xi r hs0 hs1 hs hr => ?_⟩
  have w1 : 1 ≤ wt e xi := one_le_wt he0 xi
  have w2 : wt (2 * e) xi = wt e xi * wt e xi := by rw [wt_mul, two_mul]
  have wle : wt e xi ≤ wt (2 * e) xi := by rw [w2]; nlinarith
  have w3 : 1 ≤ wt (2 * e) xi := w1.trans wle
  have wd : wt d xi ≤ wt e xi := wt_mono (le_max_left _ _) xi
  have wp := wt_pos (2 * e) xi
  obtain ⟨z, rfl⟩ : ∃ z, r = 1 + z := ⟨r - 1, by ring⟩
  rw [add_sub_cancel_left] at hr
  have hlin : ‖(s : ℂ) * ∑ a, (xi a : ℂ) * u a‖ ≤ s * ((∑ a, ‖u a‖) * wt e xi) := by
    rw [norm_mul, Complex.norm_real, Real.norm_of_nonneg hs0.le]
    exact mul_le_mul_of_nonneg_left (le_wt_one u xi he1) hs0.le
  have hr2 : ‖z - s * ∑ a, (xi a : ℂ) * u a‖ ≤ s ^ 2 * (D * wt e xi) :=
    hr.trans (mul_le_mul_of_nonneg_left (mul_le_mul_of_nonneg_left wd hD) (by positivity))
  generalize hU : ∑ a, (xi a : ℂ) * u a = U at *
  have hzn : ‖z‖ ≤ s * (M * wt e xi) := by
    have h3 : ‖z‖ ≤ ‖z - s * U‖ + ‖(s : ℂ) * U‖ := by
      have := norm_add_le (z - s * U) ((s : ℂ) * U)
      rwa [sub_add_cancel] at this
    have h4 : s ^ 2 * (D * wt e xi) ≤ s * (D * wt e xi) :=
      mul_le_mul_of_nonneg_right (by nlinarith) (by positivity)
    calc ‖z‖ ≤ s * (D * wt e xi) + s * ((∑ a, ‖u a‖) * wt e xi) := by linarith
      _ = _ := by rw [hM]; ring
  have hzh : ‖z‖ ≤ 1 / 2 := by
    refine hzn.trans ?_
    have hle : 2 * (M * wt e xi) ≤ N * wt (2 * e) xi := by
      have : 2 * M ≤ N := by
        have : 0 ≤ Λ + (D + M ^ 2 + κn) := by positivity
        rw [hN]; linarith
      calc 2 * (M * wt e xi) = (2 * M) * wt e xi := by ring
        _ ≤ N * wt (2 * e) xi := mul_le_mul this wle (by positivity) hN0
    nlinarith [mul_le_mul_of_nonneg_left hle hs0.le]
  have hlog : ‖Complex.log (1 + z) - z‖ ≤ s ^ 2 * (M ^ 2 * wt (2 * e) xi) := by
    refine (Complex.norm_log_one_add_sub_self_le (by linarith)).trans ?_
    have hi : (1 - ‖z‖)⁻¹ ≤ 2 := by
      rw [inv_le_comm₀ (by linarith) (by norm_num)]; linarith
    have h5 : ‖z‖ ^ 2 * (1 - ‖z‖)⁻¹ / 2 ≤ ‖z‖ ^ 2 := by
      have : ‖z‖ ^ 2 * (1 - ‖z‖)⁻¹ ≤ ‖z‖ ^ 2 * 2 := mul_le_mul_of_nonneg_left hi (by positivity)
      linarith
    refine h5.trans ((pow_le_pow_left₀ (norm_nonneg _) hzn 2).trans (le_of_eq ?_))
    rw [w2]; ring
  have hsc : (s : ℂ) ≠ 0 := by exact_mod_cast hs0.ne'
  have e1 : ∑ a, (xi a : ℂ) * (u a + v a) = U + ∑ a, (xi a : ℂ) * v a := by
    rw [← hU, ← sum_add_distrib]
    exact sum_congr rfl fun a _ => by ring
  rw [e1]
  generalize ∑ a, (xi a : ℂ) * v a = Vv
  have hid : (s : ℂ) * (-(Complex.log (1 + z) + (s * Vv + (s : ℂ) ^ 2 * κ)) / (s : ℂ) ^ 2) + (U + Vv) =
      -((Complex.log (1 + z) - z) + (z - s * U) + (s : ℂ) ^ 2 * κ) / s := by
    field_simp
    ring
  rw [hid, norm_div, norm_neg, Complex.norm_real, Real.norm_of_nonneg hs0.le, div_le_iff₀ hs0]
  have hk : ‖(s : ℂ) ^ 2 * κ‖ ≤ s ^ 2 * (κn * wt (2 * e) xi) := by
    rw [norm_mul, norm_pow, Complex.norm_real, Real.norm_of_nonneg hs0.le]
    refine mul_le_mul_of_nonneg_left ?_ (by positivity)
    nlinarith [norm_nonneg κ]
  have hz2 : s ^ 2 * (D * wt e xi) ≤ s ^ 2 * (D * wt (2 * e) xi) :=
    mul_le_mul_of_nonneg_left (mul_le_mul_of_nonneg_left wle (by positivity)) (by positivity)
  have hfin : s ^ 2 * (M ^ 2 * wt (2 * e) xi) + s ^ 2 * (D * wt (2 * e) xi) +
      s ^ 2 * (κn * wt (2 * e) xi) ≤ s * (N * wt (2 * e) xi) * s := by
    have e1 : s * (N * wt (2 * e) xi) * s - (s ^ 2 * (M ^ 2 * wt (2 * e) xi) + s ^ 2 * (D * wt (2 * e) xi) +
      s ^ 2 * (κn * wt (2 * e) xi)) = s ^ 2 * wt (2 * e) xi * (2 * M + Λ) := by rw [hN]; ring
    have : 0 ≤ s ^ 2 * wt (2 * e) xi * (2 * M + Λ) := by positivity
    linarith
  calc _ ≤ ‖Complex.log (1 + z) - z‖ + ‖z - s * U‖ + ‖(s : ℂ) ^ 2 * κ‖ := norm_add₃_le
    _ ≤ _ := by linarith

/-- For every tables and force biases of the form `√dt β`: the hybrid energy to leading order. -/
theorem hybrid_linear (n : Nat) (hn : 2 ≤ n) {t : ℝ → Tables nx nb} {K : Fin 2 → Matrix (Fin nb) (Fin nb) ℂ}
    {W : Fin nx → Fin 2 → Matrix (Fin nb) (Fin nb) ℂ} {mf : Fin nx → ℂ} (hL : Linear t K W mf)
    (fb : ℝ → Slater.GF nb nu nu → Fin nx → ℂ) (psi : Slater.Wfn nb nu nu) (w : Slater.Wk nb nu nu)
    (hO : ovl2 psi w.phi ≠ 0) (β : Fin nx → ℂ)
    (hfb : ∀ dt a, fb dt (Slater.greensFunction psi w) a = (Real.sqrt dt : ℂ) * β a) :
    HybridLimit (fun dt xi => hyb n dt t fb psi w xi) fun a =>
      oneElem (W a) (Slater.up psi) (Slater.up w.phi) (Slater.dn psi) (Slater.dn w.phi) / ovl2 psi w.phi +
        (β a - mf a) := by
  obtain ⟨D, d, hD, hd, hx⟩ := bias_linear n hn K W β (Slater.up psi) (Slater.up w.phi) (Slater.dn psi)
    (Slater.dn w.phi)
  have hOn : 0 < ‖ovl2 psi w.phi‖ := norm_pos_iff.2 hO
  obtain ⟨N, e, hΛ, he, hc⟩ := hybrid_core
    (fun a => oneElem (W a) (Slater.up psi) (Slater.up w.phi) (Slater.dn psi) (Slater.dn w.phi) / ovl2 psi w.phi)
    (fun a => β a - mf a) (D / ‖ovl2 psi w.phi‖) d ‖∑ a, (β a * mf a - 1 / 2 * (β a * β a))‖ (∑ a, ‖β a‖)
    (by positivity) (by positivity) (∑ a, (β a * mf a - 1 / 2 * (β a * β a))) le_rfl
  have hN0 : 0 ≤ N := le_trans (by positivity) hΛ
  refine ⟨N, e, hN0, he, fun dt h0 h1 xi hs => ?_⟩
  have hs0 : 0 < Real.sqrt dt := Real.sqrt_pos.2 h0
  have hs1 : Real.sqrt dt ≤ 1 := Real.sqrt_le_one.mpr h1
  have hsq : (Real.sqrt dt : ℂ) ^ 2 = dt := by rw [← Complex.ofReal_pow, Real.sq_sqrt h0.le]
  have hb : ∀ a, Real.sqrt dt * ‖β a‖ ≤ 1 := by
    intro a
    refine le_trans (mul_le_mul_of_nonneg_left ?_ hs0.le) hs
    have ha : ‖β a‖ ≤ ∑ a, ‖β a‖ := single_le_sum (f := fun a => ‖β a‖) (fun _ _ => norm_nonneg _) (mem_univ a)
    nlinarith [one_le_wt he xi]
  have hnew := phaseless_ovl n hL h0.le (fb dt) (fun _ => 0) psi psi xi w β hb (hfb dt)
  have hcon := phaseless_const n hL h0.le (fb dt) (fun _ => 0) psi xi w β hb (hfb dt)
  have e1 : (phaseless n dt (t dt) (fb dt) (fun _ => 0) psi xi w).1.ovlpNew =
      ovl2 psi (phaseless n dt (t dt) (fb dt) (fun _ => 0) psi xi w).2.phi * Complex.exp (-(w.logShift : ℂ)) :=
    Slater.calcOverlap_eq psi (phaseless n dt (t dt) (fb dt) (fun _ => 0) psi xi w).2
  have e2 : (phaseless n dt (t dt) (fb dt) (fun _ => 0) psi xi w).1.ovlp =
      ovl2 psi w.phi * Complex.exp (-(w.logShift : ℂ)) := Slater.greensFunction_det psi w
  have h2 := hx (Real.sqrt dt) xi hs0.le hs1
  rw [← hnew] at h2
  have h3 := hc (Real.sqrt dt) xi (ovl2 psi (phaseless n dt (t dt) (fb dt) (fun _ => 0) psi xi w).2.phi /
    ovl2 psi w.phi) hs0 hs1 hs (by
      generalize ovl2 psi (phaseless n dt (t dt) (fb dt) (fun _ => 0) psi xi w).2.phi = q at h2
      have hO' : ovl (Slater.up psi) (Slater.up w.phi) * ovl (Slater.dn psi) (Slater.dn w.phi) =
        ovl2 psi w.phi := rfl
      rw [hO'] at h2
      generalize ovl2 psi w.phi = O at *
      have e3 : q / O - 1 - Real.sqrt dt * ∑ a, (xi a : ℂ) *
          (oneElem (W a) (Slater.up psi) (Slater.up w.phi) (Slater.dn psi) (Slater.dn w.phi) / O) =
          (q - (O + Real.sqrt dt * ∑ a, (xi a : ℂ) *
            oneElem (W a) (Slater.up psi) (Slater.up w.phi) (Slater.dn psi) (Slater.dn w.phi))) / O := by
        simp only [mul_div_assoc', ← sum_div]
        field_simp
        ring
      rw [e3, norm_div, div_le_iff₀ hOn]
      refine h2.trans (le_of_eq ?_)
      field_simp)
  have hh : hyb n dt t fb psi w xi =
      -(Complex.log (ovl2 psi (phaseless n dt (t dt) (fb dt) (fun _ => 0) psi xi w).2.phi / ovl2 psi w.phi) +
        ((phaseless n dt (t dt) (fb dt) (fun _ => 0) psi xi w).1.cfb +
        (phaseless n dt (t dt) (fb dt) (fun _ => 0) psi xi w).1.cmf)) / dt := by
    rw [hyb, Weights.hybridEnergy, Weights.boundHybrid, if_pos (by norm_num), e1, e2,
      mul_div_mul_right _ _ (Complex.exp_ne_zero _), add_assoc]
  beta_reduce
  rw [hh, hcon, ← hsq]
  exact h3

end Verif.Step
