import Verif.ChemPot.Model
import Verif.Thermal.Props
import Mathlib.Analysis.SpecialFunctions.Sigmoid
import Mathlib.Analysis.Calculus.MeanValue
import Mathlib.Tactic.Linarith
import Mathlib.Tactic.Ring
import Mathlib.Tactic.FieldSimp

/-!
# C60: the search for the chemical potential
-/

namespace Verif.ChemPot

open Matrix Verif.Thermal Filter

/-- **C60**: a returned chemical potential meets the tolerance. -/
theorem bisect_sound (f : ℝ → ℝ) (deps : ℝ) (k : Nat) (s : Bracket) (mu : ℝ)
    (h : bisect f deps k s = some mu) : |f mu| < deps := by
  classical
  induction k generalizing s with
  | zero => simp [bisect] at h
  | succ k ih =>
    unfold bisect at h
    simp only at h
    split_ifs at h with h1 h2 h3
    · cases h; exact h1
    · exact ih _ h
    · exact ih _ h
    · exact ih _ h

theorem finds_sound (f : ℝ → ℝ) (deps : ℝ) (maxIt : Nat) (mu : ℝ)
    (h : Finds f deps maxIt (some mu)) : |f mu| < deps := by
  obtain ⟨s, _, h⟩ := h
  exact bisect_sound f deps maxIt s mu h.symm

/-- The bracket the bisection keeps: the signs at the ends are those of the stored differences, which
differ. -/
structure Good (f : ℝ → ℝ) (s : Bracket) : Prop where
  left : 0 < f s.mu1 * s.dmu1
  right : 0 < f s.mu2 * s.dmu2
  opp : s.dmu1 * s.dmu2 < 0
  le : s.mu1 ≤ s.mu2

theorem bisect_found (f : ℝ → ℝ) (K : ℝ) (hK : ∀ x y, |f x - f y| ≤ K * |x - y|) (deps : ℝ)
    (hd : 0 < deps) (k : Nat) (s : Bracket) (hs : Good f s)
    (hw : K * (s.mu2 - s.mu1) / 2 ^ (k + 1) < deps) : ∃ mu, bisect f deps (k + 1) s = some mu ∧
      s.mu1 ≤ mu ∧ mu ≤ s.mu2 := by
  classical
  induction k generalizing s with
  | zero =>
    set mu := 1 / 2 * (s.mu1 + s.mu2) with hmu
    have hb1 : |mu - s.mu1| = (s.mu2 - s.mu1) / 2 := by
      have : mu - s.mu1 = (s.mu2 - s.mu1) / 2 := by rw [hmu]; ring
      rw [this, abs_of_nonneg]; linarith [hs.le]
    have hb2 : |mu - s.mu2| = (s.mu2 - s.mu1) / 2 := by
      have : mu - s.mu2 = -((s.mu2 - s.mu1) / 2) := by rw [hmu]; ring
      rw [this, abs_neg, abs_of_nonneg]; linarith [hs.le]
    have hsmall : |f mu| < deps := by
      have h1 := hK mu s.mu1
      have h2 := hK mu s.mu2
      rw [hb1] at h1
      rw [hb2] at h2
      have hw' : K * ((s.mu2 - s.mu1) / 2) < deps := by
        have : K * (s.mu2 - s.mu1) / 2 ^ (0 + 1) = K * ((s.mu2 - s.mu1) / 2) := by ring
        linarith
      -- the signs at the two ends differ
      have hopp : f s.mu1 * f s.mu2 < 0 := by
        have h3 := mul_pos hs.left hs.right
        have h4 : f s.mu1 * s.dmu1 * (f s.mu2 * s.dmu2) =
            (f s.mu1 * f s.mu2) * (s.dmu1 * s.dmu2) := by ring
        rw [h4] at h3
        by_contra hc
        push Not at hc
        nlinarith [hs.opp]
      rw [abs_le] at h1 h2
      rw [abs_lt]
      rcases mul_neg_iff.mp hopp with ⟨p, q⟩ | ⟨p, q⟩
      · constructor <;> linarith
      · constructor <;> linarith
    refine ⟨mu, ?_, by rw [hmu]; linarith [hs.le], by rw [hmu]; linarith [hs.le]⟩
    unfold bisect
    simp only
    rw [if_pos hsmall]
  | succ k ih =>
    set mu := 1 / 2 * (s.mu1 + s.mu2) with hmu
    by_cases hsmall : |f mu| < deps
    · refine ⟨mu, ?_, by rw [hmu]; linarith [hs.le], by rw [hmu]; linarith [hs.le]⟩
      unfold bisect
      simp only
      rw [if_pos hsmall]
    have hne : f mu ≠ 0 := by
      intro h0
      rw [h0, abs_zero] at hsmall
      exact hsmall hd
    have hd1 : s.dmu1 ≠ 0 := fun h => by have := hs.left; rw [h, mul_zero] at this; exact lt_irrefl _ this
    by_cases h1 : f mu * s.dmu1 > 0
    · obtain ⟨m, hm, hle, hge⟩ := ih { s with mu1 := mu } ⟨h1, hs.right, hs.opp, by
        show mu ≤ s.mu2; rw [hmu]; linarith [hs.le]⟩ (by
        show K * (s.mu2 - mu) / 2 ^ (k + 1) < deps
        have : K * (s.mu2 - mu) / 2 ^ (k + 1) = K * (s.mu2 - s.mu1) / 2 ^ (k + 1 + 1) := by
          rw [hmu, pow_succ 2 (k + 1)]; field_simp; ring
        rw [this]; exact hw)
      refine ⟨m, ?_, ?_, hge⟩
      · rw [← hm]
        conv_lhs => unfold bisect
        simp only
        rw [if_neg hsmall, if_pos h1]
      · have : mu ≤ m := hle
        have h0 : s.mu1 ≤ mu := by rw [hmu]; linarith [hs.le]
        linarith
    · have h1' : f mu * s.dmu1 < 0 := lt_of_le_of_ne (not_lt.mp h1) (mul_ne_zero hne hd1)
      have h2 : f mu * s.dmu2 > 0 := by
        have := mul_pos_of_neg_of_neg h1' hs.opp
        have h3 : f mu * s.dmu1 * (s.dmu1 * s.dmu2) = (f mu * s.dmu2) * (s.dmu1 * s.dmu1) := by ring
        rw [h3] at this
        exact (pos_iff_pos_of_mul_pos this).mpr (mul_self_pos.mpr hd1)
      obtain ⟨m, hm, hle, hge⟩ := ih { s with mu2 := mu } ⟨hs.left, h2, hs.opp, by
        show s.mu1 ≤ mu; rw [hmu]; linarith [hs.le]⟩ (by
        show K * (mu - s.mu1) / 2 ^ (k + 1) < deps
        have : K * (mu - s.mu1) / 2 ^ (k + 1) = K * (s.mu2 - s.mu1) / 2 ^ (k + 1 + 1) := by
          rw [hmu, pow_succ 2 (k + 1)]; field_simp; ring
        rw [this]; exact hw)
      refine ⟨m, ?_, hle, ?_⟩
      · rw [← hm]
        conv_lhs => unfold bisect
        simp only
        rw [if_neg hsmall, if_neg h1, if_pos h2]
      · have : m ≤ mu := hge
        have h0 : mu ≤ s.mu2 := by rw [hmu]; linarith [hs.le]
        linarith

/-- A bracket with a strict change of sign is good. -/
theorem good_of_sign (f : ℝ → ℝ) (a b : ℝ) (hab : a ≤ b) (h : f a * f b < 0) :
    Good f ⟨a, b, f a, f b⟩ := by
  have ha : f a ≠ 0 := fun h0 => by rw [h0, zero_mul] at h; exact lt_irrefl _ h
  have hb : f b ≠ 0 := fun h0 => by rw [h0, mul_zero] at h; exact lt_irrefl _ h
  exact ⟨mul_self_pos.mpr ha, mul_self_pos.mpr hb, h, hab⟩

theorem sign_mul_neg (x y : ℝ) : SignType.sign x * SignType.sign y < 0 ↔ x * y < 0 := by
  rw [← sign_mul, ← sign_eq_neg_one_iff (a := x * y)]
  generalize SignType.sign (x * y) = s
  cases s <;> decide

theorem sign_mul_pos (x y : ℝ) : 0 < SignType.sign x * SignType.sign y ↔ 0 < x * y := by
  rw [← sign_mul, ← sign_eq_one_iff (a := x * y)]
  generalize SignType.sign (x * y) = s
  cases s <;> decide

/-- The intervals tried. -/
theorem widen_of (f : ℝ → ℝ) (k : Nat) (a b : ℝ)
    (hpos : ∀ j < k, 0 < f (a - 2 * j) * f (b + 2 * j))
    (hneg : f (a - 2 * k) * f (b + 2 * k) < 0) :
    Widen f a b ⟨a - 2 * k, b + 2 * k, f (a - 2 * k), f (b + 2 * k)⟩ := by
  induction k generalizing a b with
  | zero =>
    simp only [Nat.cast_zero, mul_zero, sub_zero, add_zero] at hneg ⊢
    exact Widen.stop a b ((sign_mul_neg _ _).mpr hneg)
  | succ k ih =>
    have h0 := hpos 0 (Nat.succ_pos k)
    simp only [Nat.cast_zero, mul_zero, sub_zero, add_zero] at h0
    refine Widen.more a b _ ((sign_mul_pos _ _).mpr h0) ?_
    have e1 : a - 2 * ((k + 1 : ℕ) : ℝ) = a - 2 - 2 * k := by push_cast; ring
    have e2 : b + 2 * ((k + 1 : ℕ) : ℝ) = b + 2 + 2 * k := by push_cast; ring
    rw [e1, e2] at hneg ⊢
    refine ih (a - 2) (b + 2) ?_ hneg
    intro j hj
    have := hpos (j + 1) (Nat.succ_lt_succ hj)
    have e3 : a - 2 * ((j + 1 : ℕ) : ℝ) = a - 2 - 2 * j := by push_cast; ring
    have e4 : b + 2 * ((j + 1 : ℕ) : ℝ) = b + 2 + 2 * j := by push_cast; ring
    rwa [e3, e4] at this

/-- The loop is deterministic. -/
theorem widen_unique (f : ℝ → ℝ) (a b : ℝ) (r r' : Bracket) (h : Widen f a b r)
    (h' : Widen f a b r') : r = r' := by
  induction h with
  | stop a b h =>
    cases h' with
    | stop => rfl
    | zero _ _ h2 => rw [h2] at h; exact absurd h (lt_irrefl _)
    | more _ _ _ h2 => exact absurd (h.trans h2) (lt_irrefl _)
  | zero a b h =>
    cases h' with
    | stop _ _ h2 => rw [h] at h2; exact absurd h2 (lt_irrefl _)
    | zero => rfl
    | more _ _ _ h2 => rw [h] at h2; exact absurd h2 (lt_irrefl _)
  | more a b r h hr ih =>
    cases h' with
    | stop _ _ h2 => exact absurd (h2.trans h) (lt_irrefl _)
    | zero _ _ h2 => rw [h2] at h; exact absurd h (lt_irrefl _)
    | more _ _ _ _ hr' => exact ih hr'

/-- The result is determined. -/
theorem finds_unique (f : ℝ → ℝ) (deps : ℝ) (maxIt : Nat) (r r' : Option ℝ)
    (h : Finds f deps maxIt r) (h' : Finds f deps maxIt r') : r = r' := by
  obtain ⟨s, h1, rfl⟩ := h
  obtain ⟨s', h2, rfl⟩ := h'
  rw [widen_unique f _ _ _ _ h1 h2]

/-- **C60 (no exact hit at an end)**: for a difference that is Lipschitz, has opposite signs at some
tried interval, and is not exactly zero at an end of an interval tried, the search returns a chemical
potential as soon as the number of bisections reaches the base-two logarithm of the Lipschitz
constant times the bracket over the tolerance. -/
theorem finds_partial (f : ℝ → ℝ) (K : ℝ) (hK : ∀ x y, |f x - f y| ≤ K * |x - y|) (deps : ℝ)
    (hd : 0 < deps) (k maxIt : Nat)
    (hpos : ∀ j < k, 0 < f (-1 - 2 * j) * f (1 + 2 * j))
    (hneg : f (-1 - 2 * k) * f (1 + 2 * k) < 0) (hm : 0 < maxIt)
    (hw : K * (2 + 4 * k) / 2 ^ maxIt < deps) :
    ∃ mu, Finds f deps maxIt (some mu) ∧ |f mu| < deps ∧ |mu| ≤ 1 + 2 * k := by
  have hwid := widen_of f k (-1) 1 hpos hneg
  obtain ⟨m, rfl⟩ : ∃ m, maxIt = m + 1 := ⟨maxIt - 1, by omega⟩
  have hk0 : (0 : ℝ) ≤ k := Nat.cast_nonneg k
  obtain ⟨mu, hmu, h1, h2⟩ := bisect_found f K hK deps hd m _
    (good_of_sign f (-1 - 2 * k) (1 + 2 * k) (by linarith) hneg) (by
      show K * ((1 + 2 * k) - (-1 - 2 * k)) / 2 ^ (m + 1) < deps
      have : K * ((1 + 2 * (k : ℝ)) - (-1 - 2 * k)) = K * (2 + 4 * k) := by ring
      rw [this]; exact hw)
  refine ⟨mu, ⟨_, hwid, hmu.symm⟩, bisect_sound f deps _ _ mu hmu, ?_⟩
  rw [abs_le]
  constructor
  · have : -1 - 2 * (k : ℝ) ≤ mu := h1
    linarith
  · exact h2

/-- **C60 fails** when the particle number hits the target exactly at an end: for the difference
`mu + 1`, which is zero at the first lower end, nothing is returned whatever the number of
iterations (the interval becomes `[-3, 3]` with the differences of `[-1, 1]`, and the bisection gets
stuck at `-3/2`). -/
theorem finds_exact_end (deps : ℝ) (hd : deps ≤ 1 / 2) (maxIt : Nat) :
    Finds (fun mu => mu + 1) deps maxIt none := by
  classical
  refine ⟨⟨-1 - 2, 1 + 2, -1 + 1, 1 + 1⟩, ?_, ?_⟩
  · exact Widen.zero (-1) 1 (by norm_num)
  · have stuck : ∀ k, bisect (fun mu => mu + 1) deps k ⟨-3, 0, 0, 2⟩ = none := by
      intro k
      induction k with
      | zero => rfl
      | succ k ih =>
        unfold bisect
        simp only
        rw [if_neg, if_neg, if_neg]
        · exact ih
        · norm_num
        · norm_num
        · have h : |(1 / 2 * (-3 + 0) + 1 : ℝ)| = 1 / 2 := by norm_num
          rw [h]; linarith
    have e : (⟨-1 - 2, 1 + 2, -1 + 1, 1 + 1⟩ : Bracket) = ⟨-3, 3, 0, 2⟩ := by norm_num
    rw [e]
    cases maxIt with
    | zero => rfl
    | succ k =>
      symm
      unfold bisect
      simp only
      rw [if_neg, if_neg, if_pos]
      · have e2 : (1 / 2 * (-3 + 3) : ℝ) = 0 := by norm_num
        rw [e2]
        exact stuck k
      · norm_num
      · norm_num
      · have h : |(1 / 2 * (-3 + 3) + 1 : ℝ)| = 1 := by norm_num
        rw [h]; linarith

/-- A case of `finds_partial`: the difference `mu - 1/3`. -/
example : ∃ mu, Finds (fun mu => mu - 1 / 3) (1 / 100) 8 (some mu) ∧ |mu - 1 / 3| < 1 / 100 ∧
    |mu| ≤ 1 + 2 * ((0 : ℕ) : ℝ) := by
  refine finds_partial (fun mu => mu - 1 / 3) 1 (fun x y => ?_) (1 / 100) (by norm_num) 0 8
    (by simp) (by norm_num) (by norm_num) (by norm_num)
  have : x - 1 / 3 - (y - 1 / 3) = x - y := by ring
  simp [this]

/-! ## The particle number of a one-body density matrix -/

variable {n : Nat}

theorem fermiFactor_eq (ek beta mu : ℝ) : fermiFactor ek beta mu = Real.sigmoid (beta * (mu - ek)) := by
  unfold fermiFactor
  rw [Real.sigmoid_def, one_div, add_comm]
  congr 3
  ring

/-- **Particle number (C60)**: for a density matrix with eigenvalues `exp(-dtau e_i)`, the particle
number computed is the sum of the Fermi factors at inverse temperature `num_bins * dtau`. -/
theorem navAt_fermi (qrp : Mat n → Mat n × Mat n × Equiv.Perm (Fin n))
    (hq : ∀ A, IsQRP A (qrp A).1 (qrp A).2.1 (qrp A).2.2) (rho V : Fin 2 → Mat n)
    (e : Fin 2 → Fin n → ℝ) (dtau sign : ℝ) (hV : ∀ s, (V s).det ≠ 0)
    (hrho : ∀ s, rho s = V s * diagonal (fun i => (Real.exp (-dtau * e s i) : ℂ)) * (V s)⁻¹)
    (numBins : Nat) (hb : 0 < numBins) (mu : ℝ) :
    navAt qrp rho dtau sign numBins mu =
      ((∑ s, ∑ i, fermiFactor (e s i) (numBins * dtau) (sign * mu) : ℝ) : ℂ) := by
  have key : ∀ s, (oneRdmStable qrp (computeRho (rho s) mu dtau sign) numBins).trace =
      ((∑ i, fermiFactor (e s i) (numBins * dtau) (sign * mu) : ℝ) : ℂ) := by
    intro s
    have hVu : IsUnit (V s).det := isUnit_iff_ne_zero.mpr (hV s)
    have h1 : (V s)⁻¹ * V s = 1 := Matrix.nonsing_inv_mul _ hVu
    have h2 : V s * (V s)⁻¹ = 1 := Matrix.mul_nonsing_inv _ hVu
    set d : Fin n → ℂ := fun i => (Real.exp (dtau * (sign * mu - e s i)) : ℂ) with hdd
    have hB : computeRho (rho s) mu dtau sign = V s * diagonal d * (V s)⁻¹ := by
      have : computeRho (rho s) mu dtau sign = (Real.exp (sign * dtau * mu) : ℂ) • rho s := by
        ext i k
        simp [computeRho, mul_comm]
      rw [this, hrho s, ← Matrix.smul_mul, ← Matrix.mul_smul]
      congr 2
      ext i k
      by_cases hik : i = k
      · subst hik
        simp only [Matrix.smul_apply, diagonal_apply_eq, smul_eq_mul, hdd]
        rw [← Complex.ofReal_mul, ← Real.exp_add]
        congr 2
        ring
      · simp [diagonal_apply_ne _ hik]
    have hpow : ∀ L : ℕ, (V s * diagonal d * (V s)⁻¹) ^ L =
        V s * diagonal (fun i => d i ^ L) * (V s)⁻¹ := by
      intro L
      induction L with
      | zero =>
        simp only [pow_zero]
        rw [diagonal_one, Matrix.mul_one, h2]
      | succ L ih =>
        rw [pow_succ, ih]
        calc V s * diagonal (fun i => d i ^ L) * (V s)⁻¹ * (V s * diagonal d * (V s)⁻¹)
            = V s * diagonal (fun i => d i ^ L) * ((V s)⁻¹ * V s) * diagonal d * (V s)⁻¹ := by
              simp only [Matrix.mul_assoc]
          _ = _ := by
              rw [h1, Matrix.mul_one, Matrix.mul_assoc (V s), diagonal_mul_diagonal]
              simp only [← pow_succ]
    have hpos : ∀ i, d i ^ numBins = (Real.exp (numBins * dtau * (sign * mu - e s i)) : ℂ) := by
      intro i
      rw [hdd, ← Complex.ofReal_pow, ← Real.exp_nat_mul]
      congr 2
      ring
    set x : Fin n → ℂ := fun i => 1 + d i ^ numBins with hx
    have hx0 : ∀ i, x i ≠ 0 := by
      intro i
      rw [hx]
      simp only
      rw [hpos, ← Complex.ofReal_one, ← Complex.ofReal_add]
      exact Complex.ofReal_ne_zero.mpr (by positivity)
    have h1A : 1 + (V s * diagonal d * (V s)⁻¹) ^ numBins = V s * diagonal x * (V s)⁻¹ := by
      rw [hpow]
      have : diagonal x = 1 + diagonal (fun i => d i ^ numBins) := by
        rw [← diagonal_one, diagonal_add]
      rw [this, Matrix.mul_add, Matrix.add_mul, Matrix.mul_one, h2]
    have hdetx : (diagonal x).det ≠ 0 := by
      rw [det_diagonal]
      exact Finset.prod_ne_zero_iff.mpr fun i _ => hx0 i
    have hdetVi : (V s)⁻¹.det ≠ 0 := by
      intro h0
      have := congrArg Matrix.det h1
      rw [det_mul, h0, zero_mul, det_one] at this
      exact zero_ne_one this
    rw [hB, oneRdmStable_eq qrp hq _ (by
        rw [det_mul, det_mul]
        refine mul_ne_zero (mul_ne_zero (hV s) ?_) hdetVi
        rw [det_diagonal]
        exact Finset.prod_ne_zero_iff.mpr fun i _ => by
          rw [hdd]; exact Complex.ofReal_ne_zero.mpr (Real.exp_ne_zero _))
      numBins hb (by
        rw [h1A, det_mul, det_mul]
        exact mul_ne_zero (mul_ne_zero (hV s) hdetx) hdetVi), h1A]
    have hinv : (V s * diagonal x * (V s)⁻¹)⁻¹ = V s * diagonal (fun i => (x i)⁻¹) * (V s)⁻¹ := by
      apply Matrix.inv_eq_right_inv
      calc V s * diagonal x * (V s)⁻¹ * (V s * diagonal (fun i => (x i)⁻¹) * (V s)⁻¹)
          = V s * diagonal x * ((V s)⁻¹ * V s) * diagonal (fun i => (x i)⁻¹) * (V s)⁻¹ := by
            simp only [Matrix.mul_assoc]
        _ = 1 := by
            rw [h1, Matrix.mul_one, Matrix.mul_assoc (V s), diagonal_mul_diagonal]
            have : (fun i => x i * (x i)⁻¹) = fun _ => (1 : ℂ) :=
              funext fun i => mul_inv_cancel₀ (hx0 i)
            rw [this, diagonal_one, Matrix.mul_one, h2]
    rw [hinv, Matrix.trace_sub, Matrix.trace_transpose, Matrix.trace_mul_comm, ← Matrix.mul_assoc, h1,
      Matrix.one_mul, Matrix.trace_diagonal, Matrix.trace_one, Complex.ofReal_sum]
    have : (Fintype.card (Fin n) : ℂ) = ∑ _i : Fin n, (1 : ℂ) := by simp
    rw [this, ← Finset.sum_sub_distrib]
    refine Finset.sum_congr rfl fun i _ => ?_
    have hne : (1 + Real.exp (numBins * dtau * (sign * mu - e s i)) : ℝ) ≠ 0 := by positivity
    have hxi : x i = ((1 + Real.exp (numBins * dtau * (sign * mu - e s i)) : ℝ) : ℂ) := by
      rw [hx]; simp only; rw [hpos]; push_cast; rfl
    rw [hxi, ← Complex.ofReal_inv, ← Complex.ofReal_one, ← Complex.ofReal_sub]
    congr 1
    unfold fermiFactor
    have hexp : Real.exp (numBins * dtau * (e s i - sign * mu)) =
        (Real.exp (numBins * dtau * (sign * mu - e s i)))⁻¹ := by
      rw [← Real.exp_neg]; congr 1; ring
    rw [hexp]
    have hE : Real.exp (numBins * dtau * (sign * mu - e s i)) ≠ 0 := Real.exp_ne_zero _
    field_simp
    ring
  unfold navAt
  rw [key 0, key 1, Fin.sum_univ_two, Complex.ofReal_add]

theorem sigmoid_lipschitz (x y : ℝ) : |Real.sigmoid x - Real.sigmoid y| ≤ 1 / 4 * |x - y| := by
  have := Convex.norm_image_sub_le_of_norm_hasDerivWithin_le (f := Real.sigmoid)
    (f' := fun x => Real.sigmoid x * (1 - Real.sigmoid x)) (s := Set.univ) (x := y) (y := x)
    (C := 1 / 4)
    (fun z _ => (Real.hasDerivAt_sigmoid z).hasDerivWithinAt)
    (fun z _ => by
      have h0 := Real.sigmoid_pos z
      have h1 := Real.sigmoid_lt_one z
      rw [Real.norm_eq_abs, abs_of_nonneg (by nlinarith)]
      nlinarith [sq_nonneg (Real.sigmoid z - 1 / 2)])
    convex_univ (Set.mem_univ _) (Set.mem_univ _)
  simpa [Real.norm_eq_abs] using this

/-- **C60 for the trial density matrix**: with `sign = 1` or the alternate sign convention, positive
temperature and a target strictly between zero and the number of spin orbitals, the search returns a
chemical potential whose Fermi-Dirac particle number is within the tolerance of the target, for all
sufficiently large iteration limits; provided that the target is not met exactly at an end of an
interval tried. -/
theorem finds_fermi_partial (qrp : Mat n → Mat n × Mat n × Equiv.Perm (Fin n))
    (hq : ∀ A, IsQRP A (qrp A).1 (qrp A).2.1 (qrp A).2.2) (rho V : Fin 2 → Mat n)
    (e : Fin 2 → Fin n → ℝ) (dtau sign : ℝ) (hdt : 0 < dtau) (hsg : sign = 1 ∨ sign = -1)
    (hV : ∀ s, (V s).det ≠ 0)
    (hrho : ∀ s, rho s = V s * diagonal (fun i => (Real.exp (-dtau * e s i) : ℂ)) * (V s)⁻¹)
    (numBins : Nat) (hb : 0 < numBins) (target deps : ℝ) (hd : 0 < deps) (h0 : 0 < target)
    (h1 : target < 2 * n)
    (hhit : ∀ k : ℕ, deltaNav qrp rho dtau sign numBins target (-1 - 2 * k) ≠ 0 ∧
      deltaNav qrp rho dtau sign numBins target (1 + 2 * k) ≠ 0) :
    ∃ N, ∀ maxIt ≥ N, ∃ mu, Finds (deltaNav qrp rho dtau sign numBins target) deps maxIt (some mu) ∧
      |(∑ s, ∑ i, fermiFactor (e s i) (numBins * dtau) (sign * mu)) - target| < deps := by
  set f := deltaNav qrp rho dtau sign numBins target with hf
  have hfe : ∀ mu, f mu = (∑ s, ∑ i, fermiFactor (e s i) (numBins * dtau) (sign * mu)) - target := by
    intro mu
    rw [hf]
    unfold deltaNav
    rw [navAt_fermi qrp hq rho V e dtau sign hV hrho numBins hb, Complex.ofReal_re]
  set B : ℝ := numBins * dtau with hB
  have hBpos : 0 < B := mul_pos (Nat.cast_pos.mpr hb) hdt
  set K : ℝ := 2 * n * (B / 4) with hKdef
  have hK : ∀ x y, |f x - f y| ≤ K * |x - y| := by
    intro x y
    rw [hfe, hfe, sub_sub_sub_cancel_right, ← Finset.sum_sub_distrib]
    have hsabs : |sign * x - sign * y| = |x - y| := by
      rw [← mul_sub, abs_mul]
      rcases hsg with h | h <;> simp [h]
    have hterm : ∀ s i, |fermiFactor (e s i) B (sign * x) - fermiFactor (e s i) B (sign * y)| ≤
        B / 4 * |x - y| := by
      intro s i
      rw [fermiFactor_eq, fermiFactor_eq]
      refine (sigmoid_lipschitz _ _).trans (le_of_eq ?_)
      have : B * (sign * x - e s i) - B * (sign * y - e s i) = B * (sign * x - sign * y) := by ring
      rw [this, abs_mul, abs_of_pos hBpos, hsabs]
      ring
    calc _ ≤ ∑ s : Fin 2, |∑ i, fermiFactor (e s i) B (sign * x) -
            ∑ i, fermiFactor (e s i) B (sign * y)| := Finset.abs_sum_le_sum_abs _ _
      _ ≤ ∑ _s : Fin 2, ∑ _i : Fin n, B / 4 * |x - y| := by
          refine Finset.sum_le_sum fun s _ => ?_
          rw [← Finset.sum_sub_distrib]
          exact (Finset.abs_sum_le_sum_abs _ _).trans (Finset.sum_le_sum fun i _ => hterm s i)
      _ = K * |x - y| := by
          simp [hKdef]; ring
  -- monotone in `sign * mu`, with limits
  set g : ℝ → ℝ := fun nu => (∑ s : Fin 2, ∑ i, fermiFactor (e s i) B nu) - target with hg
  have hfg : ∀ mu, f mu = g (sign * mu) := hfe
  have hmono : Monotone g := by
    intro x y hxy
    refine sub_le_sub_right (Finset.sum_le_sum fun s _ => Finset.sum_le_sum fun i _ => ?_) _
    rw [fermiFactor_eq, fermiFactor_eq]
    exact Real.sigmoid_le (by nlinarith)
  have htop : Tendsto g atTop (nhds (2 * n - target)) := by
    have : Tendsto (fun nu => ∑ s : Fin 2, ∑ i, fermiFactor (e s i) B nu) atTop
        (nhds (∑ _s : Fin 2, ∑ _i : Fin n, (1 : ℝ))) := by
      refine tendsto_finset_sum _ fun s _ => tendsto_finset_sum _ fun i _ => ?_
      have hfe : fermiFactor (e s i) B = Real.sigmoid ∘ fun nu => B * (nu - e s i) :=
        funext fun nu => fermiFactor_eq _ _ _
      rw [hfe]
      refine Real.tendsto_sigmoid_atTop.comp ?_
      exact Tendsto.const_mul_atTop hBpos (tendsto_atTop_add_const_right _ _ tendsto_id)
    have h2 := this.sub_const target
    have h3 : (∑ _s : Fin 2, ∑ _i : Fin n, (1 : ℝ)) = 2 * n := by simp
    rw [h3] at h2
    exact h2
  have hbot : Tendsto g atBot (nhds (0 - target)) := by
    have : Tendsto (fun nu => ∑ s : Fin 2, ∑ i, fermiFactor (e s i) B nu) atBot
        (nhds (∑ _s : Fin 2, ∑ _i : Fin n, (0 : ℝ))) := by
      refine tendsto_finset_sum _ fun s _ => tendsto_finset_sum _ fun i _ => ?_
      have hfe : fermiFactor (e s i) B = Real.sigmoid ∘ fun nu => B * (nu - e s i) :=
        funext fun nu => fermiFactor_eq _ _ _
      rw [hfe]
      refine Real.tendsto_sigmoid_atBot.comp ?_
      exact Tendsto.const_mul_atBot hBpos (tendsto_atBot_add_const_right _ _ tendsto_id)
    have h2 := this.sub_const target
    have h3 : (∑ _s : Fin 2, ∑ _i : Fin n, (0 : ℝ)) = 0 := by simp
    rw [h3] at h2
    exact h2
  have hex : ∃ k : ℕ, g (-(1 + 2 * k)) < 0 ∧ 0 < g (1 + 2 * k) := by
    have ev1 : ∀ᶠ nu in atTop, 0 < g nu := htop.eventually (lt_mem_nhds (by linarith))
    have ev2 : ∀ᶠ nu in atBot, g nu < 0 := hbot.eventually (gt_mem_nhds (by linarith))
    obtain ⟨x, hx⟩ := eventually_atTop.mp ev1
    obtain ⟨y, hy⟩ := eventually_atBot.mp ev2
    obtain ⟨k, hk⟩ := exists_nat_ge (max x (-y))
    have hk0 : (0 : ℝ) ≤ k := Nat.cast_nonneg k
    have hx' := (le_max_left x (-y)).trans hk
    have hy' := (le_max_right x (-y)).trans hk
    exact ⟨k, hy _ (by linarith), hx _ (by linarith)⟩
  have hprod : ∀ k : ℕ, f (-1 - 2 * k) * f (1 + 2 * k) = g (-(1 + 2 * k)) * g (1 + 2 * k) := by
    intro k
    rw [hfg, hfg]
    rcases hsg with h | h
    · rw [h]; congr 2 <;> ring
    · rw [h, mul_comm]; congr 2 <;> ring
  have hexneg : ∃ k : ℕ, f (-1 - 2 * k) * f (1 + 2 * k) < 0 := by
    obtain ⟨k, h1, h2⟩ := hex
    exact ⟨k, by rw [hprod]; exact mul_neg_of_neg_of_pos h1 h2⟩
  classical
  set k := Nat.find hexneg with hkdef
  have hneg := Nat.find_spec hexneg
  rw [← hkdef] at hneg
  have hpos : ∀ j < k, 0 < f (-1 - 2 * j) * f (1 + 2 * j) := by
    intro j hj
    have h2 := Nat.find_min hexneg hj
    push Not at h2
    exact lt_of_le_of_ne h2 (mul_ne_zero (hhit j).1 (hhit j).2).symm
  -- enough bisections
  have hlim : ∃ N : ℕ, ∀ m ≥ N, K * (2 + 4 * k) / 2 ^ m < deps := by
    have hK0 : 0 ≤ K * (2 + 4 * k) := by positivity
    obtain ⟨N, hN⟩ := pow_unbounded_of_one_lt (K * (2 + 4 * k) / deps) (one_lt_two (α := ℝ))
    refine ⟨N, fun m hm => ?_⟩
    have h2 : (2 : ℝ) ^ N ≤ 2 ^ m := pow_le_pow_right₀ one_le_two hm
    rw [div_lt_iff₀ (by positivity)]
    rw [div_lt_iff₀ hd] at hN
    nlinarith
  obtain ⟨N, hN⟩ := hlim
  refine ⟨max N 1, fun maxIt hm => ?_⟩
  obtain ⟨mu, h2, h3, _⟩ := finds_partial f K hK deps hd k maxIt hpos hneg
    (lt_of_lt_of_le Nat.one_pos ((le_max_right N 1).trans hm)) (hN _ ((le_max_left N 1).trans hm))
  refine ⟨mu, h2, ?_⟩
  rw [← hfe]
  exact h3

/-- The hypotheses of `finds_fermi_partial` are met by one orbital at zero energy and target one. -/
example (qrp : Mat 1 → Mat 1 × Mat 1 × Equiv.Perm (Fin 1))
    (hq : ∀ A, IsQRP A (qrp A).1 (qrp A).2.1 (qrp A).2.2) :
    ∃ N, ∀ maxIt ≥ N, ∃ mu, Finds (deltaNav qrp (fun _ => 1) 1 1 3 1) (1 / 100) maxIt (some mu) ∧
      |(∑ _s : Fin 2, ∑ _i : Fin 1, fermiFactor 0 ((3 : ℕ) * 1) (1 * mu)) - 1| < 1 / 100 := by
  have hrho : ∀ s : Fin 2, (fun _ => (1 : Mat 1)) s = (fun _ => (1 : Mat 1)) s *
      diagonal (fun i => (Real.exp (-1 * (fun (_ : Fin 2) (_ : Fin 1) => (0 : ℝ)) s i) : ℂ)) *
      ((fun _ => (1 : Mat 1)) s)⁻¹ := by
    intro s
    simp
  have hd : ∀ mu : ℝ, deltaNav qrp (fun _ => 1) 1 1 3 1 mu = 2 * Real.sigmoid (3 * mu) - 1 := by
    intro mu
    unfold deltaNav
    rw [navAt_fermi qrp hq (fun _ => 1) (fun _ => 1) (fun _ _ => 0) 1 1 (fun _ => by simp) hrho 3
      (by norm_num), Complex.ofReal_re]
    simp only [fermiFactor_eq]
    simp
  refine finds_fermi_partial qrp hq (fun _ => 1) (fun _ => 1) (fun _ _ => 0) 1 1 one_pos (Or.inl rfl)
    (fun _ => by simp) hrho 3 (by norm_num) 1 (1 / 100) (by norm_num) one_pos (by norm_num) ?_
  intro k
  have hk : (0 : ℝ) ≤ k := Nat.cast_nonneg k
  rw [hd, hd]
  have h0 : Real.sigmoid 0 = 2⁻¹ := Real.sigmoid_zero
  constructor
  · have : Real.sigmoid (3 * (-1 - 2 * k)) < Real.sigmoid 0 := Real.sigmoid_lt (by linarith)
    rw [h0] at this
    intro h
    linarith
  · have : Real.sigmoid 0 < Real.sigmoid (3 * (1 + 2 * k)) := Real.sigmoid_lt (by linarith)
    rw [h0] at this
    intro h
    linarith

end Verif.ChemPot
