import Verif.Step.Tensor

/-!
# Many averaged steps converge to the exponential

The average over the fields of the product operator of one step is, up to third order in `√dt`, the identity
minus `dt` times `genOp`; the `N`-th power of the averaged operator with `dt = β / N` converges to the
exponential of `-β` times `genOp`.  Nothing here refers to the model of the code.
-/

namespace Verif.Step

open MeasureTheory Matrix Finset Polynomial
open Verif.Slater (taylor)

variable {ι : Type} [Fintype ι] [DecidableEq ι] {m nx : Nat}

/-! ## One step -/

/-- The product operator of a step; `σ` is the spin of each particle. -/
noncomputable def stepTens (n : Nat) (K : Fin 2 → Matrix (Fin m) (Fin m) ℂ)
    (W : Fin nx → Fin 2 → Matrix (Fin m) (Fin m) ℂ) (σ : ι → Fin 2) (s : ℝ) (x : Fin nx → ℝ) :
    Matrix (ι → Fin m) (ι → Fin m) ℂ :=
  tens fun a => half (K (σ a)) s * (taylor n ((s : ℂ) • field (fun c => W c (σ a)) x) * half (K (σ a)) s)

/-- One-body operator with a matrix for each spin. -/
def spinOp (σ : ι → Fin 2) (X : Fin 2 → Matrix (Fin m) (Fin m) ℂ) : Matrix (ι → Fin m) (ι → Fin m) ℂ :=
  allP fun a => X (σ a)

theorem ExM.stepTens (n : Nat) (hn : 2 ≤ n) (K : Fin 2 → Matrix (Fin m) (Fin m) ℂ)
    (W : Fin nx → Fin 2 → Matrix (Fin m) (Fin m) ℂ) (σ : ι → Fin 2) :
    ∃ p, ExM (stepTens n K W σ) p ∧ ∀ x f g,
      (p x f g).coeff 0 = (1 : Matrix (ι → Fin m) (ι → Fin m) ℂ) f g ∧
      (p x f g).coeff 1 = (∑ c, (x c : ℂ) • spinOp σ (W c)) f g ∧
      (p x f g).coeff 2 = ((1 / 2 : ℂ) • ((∑ c, (x c : ℂ) • spinOp σ (W c)) *
        (∑ c, (x c : ℂ) • spinOp σ (W c))) - spinOp σ K) f g := by
  refine ⟨fun x => tens fun a => (Matrix.of fun i j => C ((1 : Matrix (Fin m) (Fin m) ℂ) i j) +
        X ^ 2 * C (-(1 / 2 : ℂ) * K (σ a) i j)) * (taylorP n (Step.field (fun c => W c (σ a)) x) *
        (Matrix.of fun i j => C ((1 : Matrix (Fin m) (Fin m) ℂ) i j) +
        X ^ 2 * C (-(1 / 2 : ℂ) * K (σ a) i j))), ?_, fun x f g => ?_⟩
  · intro f g
    exact Ex.prod _ fun a _ => ((ExM.half (K (σ a))).mul ((ExM.taylor n fun c => W c (σ a)).mul
      (ExM.half (K (σ a))))) (f a) (g a)
  · set P : ι → Matrix (Fin m) (Fin m) ℂ[X] := fun a =>
        (Matrix.of fun i j => C ((1 : Matrix (Fin m) (Fin m) ℂ) i j) +
        X ^ 2 * C (-(1 / 2 : ℂ) * K (σ a) i j)) * (taylorP n (Step.field (fun c => W c (σ a)) x) *
        (Matrix.of fun i j => C ((1 : Matrix (Fin m) (Fin m) ℂ) i j) +
        X ^ 2 * C (-(1 / 2 : ℂ) * K (σ a) i j))) with hP
    have hc : ∀ a, cm 0 (P a) = 1 ∧ cm 1 (P a) = Step.field (fun c => W c (σ a)) x ∧
        cm 2 (P a) = (1 / 2 : ℂ) • (Step.field (fun c => W c (σ a)) x * Step.field (fun c => W c (σ a)) x) - K (σ a) := by
      intro a
      obtain ⟨h0, h1, h2⟩ := cm_half (K (σ a))
      have t0 := cm_taylorP n hn (Step.field (fun c => W c (σ a)) x) 0 (by omega)
      have t1 := cm_taylorP n hn (Step.field (fun c => W c (σ a)) x) 1 (by omega)
      have t2 := cm_taylorP n hn (Step.field (fun c => W c (σ a)) x) 2 (by omega)
      rw [Nat.factorial_zero, Nat.cast_one, div_one, one_smul, pow_zero] at t0
      rw [Nat.factorial_one, Nat.cast_one, div_one, one_smul, pow_one] at t1
      rw [Nat.factorial_two, sq] at t2
      refine ⟨?_, ?_, ?_⟩
      · simp only [hP, cm_mul_zero, h0, t0, Matrix.one_mul]
      · simp only [hP, cm_mul_zero, cm_mul_one, h0, h1, t0, t1, Matrix.one_mul, Matrix.mul_one,
          Matrix.zero_mul, Matrix.mul_zero, add_zero, zero_add]
      · simp only [hP, cm_mul_zero, cm_mul_one, cm_mul_two, h0, h1, h2, t0, t1, t2,
          Matrix.one_mul, Matrix.mul_one, Matrix.zero_mul, Matrix.mul_zero, add_zero, zero_add]
        ext i j
        simp only [Matrix.add_apply, Matrix.sub_apply, Matrix.smul_apply, smul_eq_mul]
        norm_num
        ring
    have hS : allP (fun a => Step.field (fun c => W c (σ a)) x) = ∑ c, (x c : ℂ) • spinOp σ (W c) := by
      simp only [Step.field]
      rw [allP_sum univ fun c a => (x c : ℂ) • W c (σ a)]
      refine sum_congr rfl fun c _ => ?_
      rw [allP_smul (x c : ℂ) fun a => W c (σ a), spinOp]
    obtain ⟨q0, q1, q2⟩ := tens_coeff P (fun a => (hc a).1) f g
    refine ⟨q0, ?_, ?_⟩
    · rw [q1, ← hS]
      simp only [(hc _).2.1]
    · rw [q2, ← hS]
      simp only [(hc _).2.1, (hc _).2.2]
      rw [allP_sub (fun a => (1 / 2 : ℂ) • (Step.field (fun c => W c (σ a)) x * Step.field (fun c => W c (σ a)) x))
        fun a => K (σ a), allP_smul (1 / 2 : ℂ) fun a => Step.field (fun c => W c (σ a)) x *
          Step.field (fun c => W c (σ a)) x, spinOp]
      simp only [Matrix.add_apply, Matrix.sub_apply, Matrix.smul_apply, smul_eq_mul]
      ring

theorem continuous_stepTens (n : Nat) (K : Fin 2 → Matrix (Fin m) (Fin m) ℂ)
    (W : Fin nx → Fin 2 → Matrix (Fin m) (Fin m) ℂ) (σ : ι → Fin 2) (s : ℝ) (f g : ι → Fin m) :
    Continuous fun x => stepTens n K W σ s x f g := by
  simp only [stepTens, tens, Matrix.of_apply]
  refine continuous_finsetProd _ fun a _ => ?_
  have h := continuous_field fun c => W c (σ a)
  have h2 : Continuous fun x => half (K (σ a)) s * (taylor n ((s : ℂ) • field (fun c => W c (σ a)) x) *
      half (K (σ a)) s) := by
    unfold Slater.taylor
    fun_prop
  exact (continuous_apply (g a)).comp ((continuous_apply (f a)).comp h2)

/-- The averaged operator of a step, with the scalar factor of the mean-field shift. -/
noncomputable def avgOp (n : Nat) (K : Fin 2 → Matrix (Fin m) (Fin m) ℂ)
    (W : Fin nx → Fin 2 → Matrix (Fin m) (Fin m) ℂ) (mf : Fin nx → ℂ) (σ : ι → Fin 2) (s : ℝ) :
    Matrix (ι → Fin m) (ι → Fin m) ℂ :=
  Matrix.of fun f g => avg fun x : Fin nx → ℝ =>
    Complex.exp ((s : ℂ) * ∑ a, (x a : ℂ) * -mf a) * stepTens n K W σ s x f g

/-- The one-body operator minus half the sum of squares of the operators of the fields less their shifts. -/
noncomputable def genOp (K : Fin 2 → Matrix (Fin m) (Fin m) ℂ)
    (W : Fin nx → Fin 2 → Matrix (Fin m) (Fin m) ℂ) (mf : Fin nx → ℂ) (σ : ι → Fin 2) :
    Matrix (ι → Fin m) (ι → Fin m) ℂ :=
  spinOp σ K - (1 / 2 : ℂ) • ∑ c, (spinOp σ (W c) - mf c • 1) * (spinOp σ (W c) - mf c • 1)

theorem expand_coeff (y : ℂ) : (1 + X * C y + X ^ 2 * C (y ^ 2 / 2) : ℂ[X]).coeff 0 = 1 ∧
    (1 + X * C y + X ^ 2 * C (y ^ 2 / 2) : ℂ[X]).coeff 1 = y ∧
    (1 + X * C y + X ^ 2 * C (y ^ 2 / 2) : ℂ[X]).coeff 2 = y ^ 2 / 2 := by
  refine ⟨?_, ?_, ?_⟩
  · simp [coeff_one]
  · simp [coeff_one, coeff_X_pow]
  · simp [coeff_one, coeff_X]

theorem avgOp_expansion (n : Nat) (hn : 2 ≤ n) (K : Fin 2 → Matrix (Fin m) (Fin m) ℂ)
    (W : Fin nx → Fin 2 → Matrix (Fin m) (Fin m) ℂ) (mf : Fin nx → ℂ) (σ : ι → Fin 2) (f g : ι → Fin m) :
    ∃ L : ℝ, ∀ s : ℝ, 0 ≤ s → s ≤ 1 →
      ‖avgOp n K W mf σ s f g - (1 - (s : ℂ) ^ 2 • genOp K W mf σ) f g‖ ≤ L * s ^ 3 := by
  obtain ⟨p, hp, cp⟩ := ExM.stepTens n hn K W σ
  have hE := (Ex.exp_lin fun a => -mf a).mul (hp f g)
  set D : Fin nx → Matrix (ι → Fin m) (ι → Fin m) ℂ := fun c => spinOp σ (W c) - mf c • 1 with hD
  have hsum : ∀ x : Fin nx → ℝ, (∑ c, (x c : ℂ) • spinOp σ (W c)) =
      (∑ c, (x c : ℂ) • D c) - (∑ c, (x c : ℂ) * -mf c) • 1 := by
    intro x
    rw [sum_smul, ← sum_sub_distrib]
    refine sum_congr rfl fun c _ => ?_
    simp only [hD, smul_sub, mul_smul, neg_smul, smul_neg]
    abel
  obtain ⟨L, hL⟩ := avg_expansion hE (fun s => by
      have := continuous_stepTens n K W σ s f g
      fun_prop)
    (c0 := (1 : Matrix (ι → Fin m) (ι → Fin m) ℂ) f g) (k := -spinOp σ K f g) (l := fun c => D c f g)
    (q := fun a b => (1 / 2 : ℂ) * (D a * D b) f g)
    (fun x => by rw [mul_coeff_zero, (expand_coeff _).1, (cp x f g).1, one_mul])
    (fun x => by
      rw [coeff_one_mul, (expand_coeff _).1, (expand_coeff _).2.1, (cp x f g).1, (cp x f g).2.1, hsum]
      simp only [Matrix.sub_apply, Matrix.smul_apply, Matrix.sum_apply, smul_eq_mul]
      ring)
    (fun x => by
      rw [coeff_two_mul, (expand_coeff _).1, (expand_coeff _).2.1, (expand_coeff _).2.2, (cp x f g).1,
        (cp x f g).2.1, (cp x f g).2.2, hsum]
      set y : ℂ := ∑ c, (x c : ℂ) * -mf c
      have e : ∑ a, ∑ b, (x a : ℂ) * (x b : ℂ) * ((1 / 2 : ℂ) * (D a * D b) f g) =
          ((1 / 2 : ℂ) • ((∑ c, (x c : ℂ) • D c) * (∑ c, (x c : ℂ) • D c))) f g := by
        rw [sum_mul_sum, Matrix.smul_apply, Matrix.sum_apply, smul_eq_mul, mul_sum]
        refine sum_congr rfl fun a _ => ?_
        rw [Matrix.sum_apply, mul_sum]
        refine sum_congr rfl fun b _ => ?_
        rw [smul_mul_smul_comm, Matrix.smul_apply, smul_eq_mul]
        ring
      rw [e, sub_mul, mul_sub, mul_sub, mul_smul_comm, smul_mul_assoc, smul_mul_smul_comm, mul_one, one_mul,
        mul_one]
      simp only [Matrix.sub_apply, Matrix.smul_apply, smul_eq_mul, one_mul]
      ring)
  refine ⟨L, fun s h0 h1 => ?_⟩
  have h := hL s h0 h1
  have e : (1 : Matrix (ι → Fin m) (ι → Fin m) ℂ) f g + (s : ℂ) ^ 2 * (-spinOp σ K f g +
      ∑ a, (1 / 2 : ℂ) * (D a * D a) f g) = (1 - (s : ℂ) ^ 2 • genOp K W mf σ) f g := by
    simp only [genOp, Matrix.sub_apply, Matrix.smul_apply, Matrix.sum_apply, smul_eq_mul, mul_sum]
    rw [mul_sub, mul_sum, mul_add, mul_sum, mul_neg]
    ring
  rw [e] at h
  exact h

/-! ## Powers -/

theorem norm_pow_le_of {𝔸 : Type*} [NormedRing 𝔸] (h1 : ‖(1 : 𝔸)‖ ≤ 1) {X : 𝔸} {r : ℝ} (hr : 1 ≤ r)
    (hX : ‖X‖ ≤ r) (N : Nat) : ‖X ^ N‖ ≤ r ^ N := by
  induction N with
  | zero => simpa using h1
  | succ N ih =>
    rw [pow_succ, pow_succ]
    exact (norm_mul_le _ _).trans (mul_le_mul ih hX (norm_nonneg _) (by positivity))

theorem norm_pow_sub_pow_le {𝔸 : Type*} [NormedRing 𝔸] (h1 : ‖(1 : 𝔸)‖ ≤ 1) {X Y : 𝔸} {r : ℝ} (hr : 1 ≤ r)
    (hX : ‖X‖ ≤ r) (hY : ‖Y‖ ≤ r) (N : Nat) : ‖X ^ N - Y ^ N‖ ≤ N * r ^ N * ‖X - Y‖ := by
  induction N with
  | zero => simp
  | succ N ih =>
    have e : X ^ (N + 1) - Y ^ (N + 1) = X ^ N * (X - Y) + (X ^ N - Y ^ N) * Y := by
      rw [pow_succ, pow_succ]; noncomm_ring
    rw [e]
    refine (norm_add_le _ _).trans ?_
    have a1 : ‖X ^ N * (X - Y)‖ ≤ r ^ N * ‖X - Y‖ :=
      (norm_mul_le _ _).trans (mul_le_mul_of_nonneg_right (norm_pow_le_of h1 hr hX N) (norm_nonneg _))
    have a2 : ‖(X ^ N - Y ^ N) * Y‖ ≤ N * r ^ N * ‖X - Y‖ * r :=
      (norm_mul_le _ _).trans (mul_le_mul ih hY (norm_nonneg _) (by positivity))
    have a3 : r ^ N * ‖X - Y‖ ≤ r ^ (N + 1) * ‖X - Y‖ :=
      mul_le_mul_of_nonneg_right (pow_le_pow_right₀ hr (by omega)) (norm_nonneg _)
    calc _ ≤ r ^ (N + 1) * ‖X - Y‖ + N * r ^ N * ‖X - Y‖ * r := add_le_add (a1.trans a3) a2
      _ = _ := by rw [pow_succ]; push_cast; ring

section Norm

attribute [local instance] Matrix.linftyOpNormedRing Matrix.linftyOpNormedAlgebra

variable {κ : Type} [Fintype κ] [DecidableEq κ]

theorem norm_one_le_one : ‖(1 : Matrix κ κ ℂ)‖ ≤ 1 := by
  rw [Matrix.linfty_opNorm_def]
  have h : (univ.sup fun i => ∑ j, ‖(1 : Matrix κ κ ℂ) i j‖₊) ≤ 1 := by
    refine Finset.sup_le fun i _ => ?_
    rw [sum_eq_single i]
    · simp
    · intro j _ hj; simp [Matrix.one_apply_ne (Ne.symm hj)]
    · simp
  exact_mod_cast h

theorem entry_le_norm' (Y : Matrix κ κ ℂ) (i j : κ) : ‖Y i j‖ ≤ ‖Y‖ := by
  rw [Matrix.linfty_opNorm_def]
  have h : ‖Y i j‖₊ ≤ univ.sup fun i => ∑ j, ‖Y i j‖₊ :=
    (single_le_sum (f := fun j => ‖Y i j‖₊) (fun _ _ => zero_le) (mem_univ j)).trans
      (le_sup (f := fun i => ∑ j, ‖Y i j‖₊) (mem_univ i))
  exact_mod_cast h

theorem norm_le_of_entries (Y : Matrix κ κ ℂ) {r : ℝ} (hr : 0 ≤ r) (h : ∀ i j, ‖Y i j‖ ≤ r) :
    ‖Y‖ ≤ Fintype.card κ * r := by
  rw [Matrix.linfty_opNorm_def]
  have h' : (univ.sup fun i => ∑ j, ‖Y i j‖₊) ≤ Fintype.card κ * r.toNNReal := by
    refine Finset.sup_le fun i _ => ?_
    calc ∑ j, ‖Y i j‖₊ ≤ ∑ _j : κ, r.toNNReal := by
          refine sum_le_sum fun j _ => ?_
          rw [Real.le_toNNReal_iff_coe_le hr]
          exact h i j
      _ = _ := by simp
  have := NNReal.coe_le_coe.2 h'
  simpa [Real.coe_toNNReal r hr] using this

/-- Powers of matrices which differ from `1 - t G` by order `t^(3/2)` converge to the exponential. -/
theorem chernoff (M : ℝ → Matrix κ κ ℂ) (G : Matrix κ κ ℂ)
    (h : ∀ i j, ∃ L : ℝ, ∀ s : ℝ, 0 ≤ s → s ≤ 1 → ‖M s i j - (1 - (s : ℂ) ^ 2 • G) i j‖ ≤ L * s ^ 3)
    {β : ℝ} (hβ : 0 ≤ β) : ∃ L : ℝ, ∀ N : Nat, 0 < N → β ≤ N → ∀ i j,
      ‖(M (Real.sqrt (β / N)) ^ N) i j - NormedSpace.exp (-(β : ℂ) • G) i j‖ ≤ L / Real.sqrt N := by
  choose L hL using h
  set B : ℝ := ∑ i, ∑ j, |L i j| with hB
  have hLB : ∀ i j, L i j ≤ B := fun i j => (le_abs_self _).trans
    ((single_le_sum (f := fun j => |L i j|) (fun _ _ => abs_nonneg _) (mem_univ j)).trans
      (single_le_sum (f := fun i => ∑ j, |L i j|) (fun _ _ => sum_nonneg fun _ _ => abs_nonneg _)
        (mem_univ i)))
  have hB0 : 0 ≤ B := sum_nonneg fun _ _ => sum_nonneg fun _ _ => abs_nonneg _
  set D : ℝ := Fintype.card κ * B with hD
  have hD0 : 0 ≤ D := by positivity
  set E : ℝ := ‖G‖ ^ 2 * Real.exp ‖G‖ with hE
  have hE0 : 0 ≤ E := by positivity
  set c : ℝ := ‖G‖ + D + E with hc
  have hc0 : 0 ≤ c := by positivity
  refine ⟨Real.exp (c * β) * (D + E) * β * Real.sqrt β, fun N hN hNβ i j => ?_⟩
  have hN0 : (0 : ℝ) < N := by exact_mod_cast hN
  set s := Real.sqrt (β / N) with hs
  have hs0 : 0 ≤ s := Real.sqrt_nonneg _
  have hs2 : s ^ 2 = β / N := Real.sq_sqrt (by positivity)
  have hs1 : s ≤ 1 := Real.sqrt_le_one.mpr (by rw [div_le_one hN0]; exact hNβ)
  have hs21 : s ^ 2 ≤ 1 := pow_le_one₀ hs0 hs1
  have hs3 : s ^ 3 ≤ s ^ 2 := pow_le_pow_of_le_one hs0 hs1 (by norm_num)
  set Z : Matrix κ κ ℂ := -((s : ℂ) ^ 2) • G with hZ
  set Y := NormedSpace.exp Z with hY
  have hZn : ‖Z‖ = s ^ 2 * ‖G‖ := by
    rw [hZ, norm_smul, norm_neg, norm_pow, Complex.norm_real, Real.norm_of_nonneg hs0]
  have hZ1 : ‖Z‖ ≤ ‖G‖ := by
    rw [hZn]
    calc s ^ 2 * ‖G‖ ≤ 1 * ‖G‖ := mul_le_mul_of_nonneg_right hs21 (norm_nonneg _)
      _ = ‖G‖ := one_mul _
  have hYd : ‖Y - (1 + Z)‖ ≤ E * s ^ 3 := by
    refine (norm_exp_sub_le Z).trans ?_
    calc ‖Z‖ ^ 2 * Real.exp ‖Z‖ ≤ (s ^ 2 * ‖G‖) ^ 2 * Real.exp ‖G‖ := by
          rw [hZn]
          refine mul_le_mul_of_nonneg_left (Real.exp_le_exp.mpr ?_) (by positivity)
          rw [← hZn]; exact hZ1
      _ = E * s ^ 4 := by rw [hE]; ring
      _ ≤ E * s ^ 3 := mul_le_mul_of_nonneg_left (pow_le_pow_of_le_one hs0 hs1 (by norm_num)) hE0
  have hMd : ‖M s - (1 + Z)‖ ≤ D * s ^ 3 := by
    have e : (1 : Matrix κ κ ℂ) + Z = 1 - (s : ℂ) ^ 2 • G := by rw [hZ, neg_smul, sub_eq_add_neg]
    rw [e]
    refine (norm_le_of_entries _ (r := B * s ^ 3) (by positivity) fun i j => ?_).trans (by rw [hD, mul_assoc])
    rw [Matrix.sub_apply]
    exact (hL i j s hs0 hs1).trans (mul_le_mul_of_nonneg_right (hLB i j) (by positivity))
  have hMY : ‖M s - Y‖ ≤ (D + E) * s ^ 3 := by
    have e : M s - Y = (M s - (1 + Z)) - (Y - (1 + Z)) := by abel
    rw [e]
    refine (norm_sub_le _ _).trans ?_
    linarith
  have h1Z : ‖(1 : Matrix κ κ ℂ) + Z‖ ≤ 1 + s ^ 2 * ‖G‖ :=
    (norm_add_le _ _).trans (add_le_add norm_one_le_one hZn.le)
  have hbound : ∀ {V : Matrix κ κ ℂ} {d : ℝ}, 0 ≤ d → ‖G‖ + d ≤ c → ‖V - (1 + Z)‖ ≤ d * s ^ 3 →
      ‖V‖ ≤ Real.exp (c * s ^ 2) := by
    intro V d hd hdc hV
    have e : V = (V - (1 + Z)) + (1 + Z) := by abel
    calc ‖V‖ = ‖(V - (1 + Z)) + (1 + Z)‖ := by rw [← e]
      _ ≤ d * s ^ 3 + (1 + s ^ 2 * ‖G‖) := (norm_add_le _ _).trans (add_le_add hV h1Z)
      _ ≤ d * s ^ 2 + (1 + s ^ 2 * ‖G‖) := by
          have := mul_le_mul_of_nonneg_left hs3 hd; linarith
      _ = (‖G‖ + d) * s ^ 2 + 1 := by ring
      _ ≤ c * s ^ 2 + 1 := by
          have := mul_le_mul_of_nonneg_right hdc (sq_nonneg s); linarith
      _ ≤ _ := Real.add_one_le_exp _
  have hMn : ‖M s‖ ≤ Real.exp (c * s ^ 2) := hbound hD0 (by rw [hc]; linarith) hMd
  have hYn : ‖Y‖ ≤ Real.exp (c * s ^ 2) := hbound hE0 (by rw [hc]; linarith) hYd
  have hr : (1 : ℝ) ≤ Real.exp (c * s ^ 2) := Real.one_le_exp (by positivity)
  have hpow := norm_pow_sub_pow_le (norm_one_le_one (κ := κ)) hr hMn hYn N
  have hYN : Y ^ N = NormedSpace.exp (-(β : ℂ) • G) := by
    rw [hY, ← Matrix.exp_nsmul]
    congr 1
    rw [hZ, ← Nat.cast_smul_eq_nsmul ℂ, smul_smul]
    congr 1
    have : (s : ℂ) ^ 2 = (β : ℂ) / N := by
      rw [← Complex.ofReal_pow, hs2]; push_cast; rfl
    rw [this]
    have hNc : (N : ℂ) ≠ 0 := by exact_mod_cast hN.ne'
    field_simp
  rw [hYN] at hpow
  have hexp : Real.exp (c * s ^ 2) ^ N = Real.exp (c * β) := by
    rw [← Real.exp_nat_mul, hs2]
    congr 1
    field_simp
  rw [hexp] at hpow
  rw [← Matrix.sub_apply]
  refine (entry_le_norm' _ i j).trans (hpow.trans ?_)
  have hs3' : (N : ℝ) * s ^ 3 = β * Real.sqrt β / Real.sqrt N := by
    have : s ^ 3 = s ^ 2 * s := by ring
    rw [this, hs2, hs, Real.sqrt_div' _ hN0.le]
    field_simp
  calc (N : ℝ) * Real.exp (c * β) * ‖M s - Y‖ ≤ N * Real.exp (c * β) * ((D + E) * s ^ 3) :=
        mul_le_mul_of_nonneg_left hMY (by positivity)
    _ = Real.exp (c * β) * (D + E) * (N * s ^ 3) := by ring
    _ = _ := by rw [hs3']; ring

end Norm

/-- Powers of the averaged operator. -/
theorem avgOp_pow (n : Nat) (hn : 2 ≤ n) (K : Fin 2 → Matrix (Fin m) (Fin m) ℂ)
    (W : Fin nx → Fin 2 → Matrix (Fin m) (Fin m) ℂ) (mf : Fin nx → ℂ) (σ : ι → Fin 2) {β : ℝ} (hβ : 0 ≤ β) :
    ∃ L : ℝ, ∀ N : Nat, 0 < N → β ≤ N → ∀ f g,
      ‖(avgOp n K W mf σ (Real.sqrt (β / N)) ^ N) f g -
        NormedSpace.exp (-(β : ℂ) • genOp K W mf σ) f g‖ ≤ L / Real.sqrt N :=
  chernoff _ _ (fun f g => avgOp_expansion n hn K W mf σ f g) hβ

end Verif.Step
