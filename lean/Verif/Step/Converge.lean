import Verif.Step.States

/-!
# Free projection converges to imaginary-time evolution (C82)

The average over the fields of all steps of weight × phase × (a linear functional of the state of the
walker) after `N` free steps of length `β / N` converges, as `N` grows, to weight × phase × the functional of
the exponential of `-β (H - c)` applied to the initial state.
-/

namespace Verif.Step

open MeasureTheory Matrix Finset
open Verif.Energy (ovl oneBody twoBody hamil)
open Verif.Slater (taylor)
open Verif.Weights (density)

variable {ι : Type} [Fintype ι] [DecidableEq ι] {m nx nb nu nd : Nat}

/-! ## Statement -/

/-- The average of `F` of the walker after `N` steps, over independent fields in each step. -/
noncomputable def avgSteps (step : (Fin nx → ℝ) → Slater.Wk nb nu nd → Slater.Wk nb nu nd)
    (F : Slater.Wk nb nu nd → ℂ) : Nat → Slater.Wk nb nu nd → ℂ
  | 0, w => F w
  | N + 1, w => avg fun xi => avgSteps step F N (step xi w)

/-- Weight × phase × the functional `α` of the state of the walker. -/
noncomputable def signal (α : (Fin nu ⊕ Fin nd → Fin nb) → ℂ) (w : Slater.Wk nb nu nd) : ℂ :=
  w.weight * w.phase * (α ⬝ᵥ prodState (orbs w.phi))

/-- The average of the functional after `N` steps of length `β / N` converges to that of the state evolved by
`exp (-β (H - c))`, with error of order `N^(-1/2)`. -/
def Converges (step : ℝ → (Fin nx → ℝ) → Slater.Wk nb nu nd → Slater.Wk nb nu nd) (w : Slater.Wk nb nu nd)
    (α : (Fin nu ⊕ Fin nd → Fin nb) → ℂ) (H : Matrix (Fin nu ⊕ Fin nd → Fin nb) (Fin nu ⊕ Fin nd → Fin nb) ℂ)
    (c : ℂ) : Prop :=
  ∀ β : ℝ, 0 ≤ β → ∃ L : ℝ, ∀ N : Nat, 0 < N → β ≤ N →
    ‖avgSteps (step (β / N)) (signal α) N w - w.weight * w.phase *
      (α ⬝ᵥ (NormedSpace.exp (-(β : ℂ) • (H - c • 1)) *ᵥ prodState (orbs w.phi)))‖ ≤ L / Real.sqrt N

/-! ## One step -/

theorem Ex.growth {f : ℝ → (Fin nx → ℝ) → ℂ} {p : (Fin nx → ℝ) → Polynomial ℂ} (h : Ex f p) {s : ℝ}
    (h0 : 0 ≤ s) (h1 : s ≤ 1) : ∃ C c : ℝ, ∀ x, ‖f s x‖ ≤ C * wt c x := by
  obtain ⟨C, c, hC, hc, h⟩ := h
  refine ⟨4 * C, c, fun x => ?_⟩
  obtain ⟨⟨a0, a1, a2⟩, a3⟩ := h x
  have hK : 0 ≤ C * wt c x := mul_nonneg hC (wt_pos c x).le
  have b3 : ‖f s x - tr (p x) s‖ ≤ C * wt c x := (a3 s h0 h1).trans (by
    calc s ^ 3 * (C * wt c x) ≤ 1 * (C * wt c x) := mul_le_mul_of_nonneg_right (pow_le_one₀ h0 h1) hK
      _ = _ := one_mul _)
  have hsn : ‖(s : ℂ)‖ ≤ 1 := by rw [Complex.norm_real, Real.norm_of_nonneg h0]; exact h1
  have b1 : ‖(s : ℂ) * (p x).coeff 1‖ ≤ C * wt c x := by
    rw [norm_mul]
    calc ‖(s : ℂ)‖ * ‖(p x).coeff 1‖ ≤ 1 * (C * wt c x) := mul_le_mul hsn a1 (norm_nonneg _) one_pos.le
      _ = _ := one_mul _
  have b2 : ‖(s : ℂ) ^ 2 * (p x).coeff 2‖ ≤ C * wt c x := by
    rw [norm_mul, norm_pow]
    calc ‖(s : ℂ)‖ ^ 2 * ‖(p x).coeff 2‖ ≤ 1 * (C * wt c x) :=
          mul_le_mul (pow_le_one₀ (norm_nonneg _) hsn) a2 (norm_nonneg _) one_pos.le
      _ = _ := one_mul _
  have e : f s x = (f s x - tr (p x) s) + ((p x).coeff 0 + (s : ℂ) * (p x).coeff 1 + (s : ℂ) ^ 2 * (p x).coeff 2) := by
    rw [tr]; ring
  rw [e]
  calc _ ≤ C * wt c x + (C * wt c x + C * wt c x + C * wt c x) :=
        (norm_add_le _ _).trans (add_le_add b3 ((norm_add_le _ _).trans (add_le_add
          ((norm_add_le _ _).trans (add_le_add a0 b1)) b2)))
    _ = _ := by ring

/-- The integrand of the averaged operator is integrable. -/
theorem integrable_step (n : Nat) (hn : 2 ≤ n) (K : Fin 2 → Matrix (Fin m) (Fin m) ℂ)
    (W : Fin nx → Fin 2 → Matrix (Fin m) (Fin m) ℂ) (mf : Fin nx → ℂ) (σ : ι → Fin 2) {s : ℝ} (h0 : 0 ≤ s)
    (h1 : s ≤ 1) (f g : ι → Fin m) : Integrable fun x : Fin nx → ℝ => (density x : ℂ) *
      (Complex.exp ((s : ℂ) * ∑ a, (x a : ℂ) * -mf a) * stepTens n K W σ s x f g) := by
  obtain ⟨p, hp, -⟩ := ExM.stepTens n hn K W σ
  obtain ⟨C, c, h⟩ := ((Ex.exp_lin fun a => -mf a).mul (hp f g)).growth h0 h1
  refine integrable_growth (C := C) (c := c) ?_ h
  have := continuous_stepTens n K W σ s f g
  fun_prop

/-- The average of a bilinear form of the step. -/
theorem avg_bilinear (n : Nat) (hn : 2 ≤ n) (K : Fin 2 → Matrix (Fin m) (Fin m) ℂ)
    (W : Fin nx → Fin 2 → Matrix (Fin m) (Fin m) ℂ) (mf : Fin nx → ℂ) (σ : ι → Fin 2) {s : ℝ} (h0 : 0 ≤ s)
    (h1 : s ≤ 1) (α v : (ι → Fin m) → ℂ) :
    avg (fun x : Fin nx → ℝ => Complex.exp ((s : ℂ) * ∑ a, (x a : ℂ) * -mf a) *
      (α ⬝ᵥ (stepTens n K W σ s x *ᵥ v))) = α ⬝ᵥ (avgOp n K W mf σ s *ᵥ v) := by
  have e : ∀ x : Fin nx → ℝ, (density x : ℂ) * (Complex.exp ((s : ℂ) * ∑ a, (x a : ℂ) * -mf a) *
      (α ⬝ᵥ (stepTens n K W σ s x *ᵥ v))) = ∑ f, ∑ g, ((density x : ℂ) *
        (Complex.exp ((s : ℂ) * ∑ a, (x a : ℂ) * -mf a) * stepTens n K W σ s x f g)) * (α f * v g) := by
    intro x
    simp only [dotProduct, Matrix.mulVec, mul_sum]
    refine sum_congr rfl fun f _ => sum_congr rfl fun g _ => ?_
    ring
  rw [avg]
  simp only [e]
  have hI : ∀ f g, Integrable fun x : Fin nx → ℝ => ((density x : ℂ) *
        (Complex.exp ((s : ℂ) * ∑ a, (x a : ℂ) * -mf a) * stepTens n K W σ s x f g)) * (α f * v g) :=
    fun f g => (integrable_step n hn K W mf σ h0 h1 f g).mul_const _
  rw [integral_finsetSum _ fun f _ => integrable_finsetSum _ fun g _ => hI f g]
  rw [dotProduct]
  refine sum_congr rfl fun f _ => ?_
  rw [integral_finsetSum _ fun g _ => hI f g, Matrix.mulVec, dotProduct, mul_sum]
  refine sum_congr rfl fun g _ => ?_
  rw [integral_mul_const]
  have : ∫ x : Fin nx → ℝ, (density x : ℂ) * (Complex.exp ((s : ℂ) * ∑ a, (x a : ℂ) * -mf a) *
      stepTens n K W σ s x f g) = avgOp n K W mf σ s f g := rfl
  rw [this]
  ring

/-- The state of the walker after a step. -/
theorem step_state (n : Nat) {t : ℝ → Tables nx nb} {K : Fin 2 → Matrix (Fin nb) (Fin nb) ℂ}
    {W : Fin nx → Fin 2 → Matrix (Fin nb) (Fin nb) ℂ} {mf : Fin nx → ℂ} (hL : Linear t K W mf) {dt : ℝ}
    (h0 : 0 ≤ dt) (psi : Slater.Wfn nb nu nd) (e : ℂ) (xi : Fin nx → ℝ) (w : Slater.Wk nb nu nd) :
    prodState (orbs (propagateFree n dt (t dt) psi e xi w).phi) =
      stepTens n K W spin (Real.sqrt dt) xi *ᵥ prodState (orbs w.phi) := by
  have hsqc : (Real.sqrt dt : ℂ) ^ 2 = dt := by rw [← Complex.ofReal_pow, Real.sq_sqrt h0]
  have hm : ∀ s : Fin 2, half (K s) (Real.sqrt dt) * (taylor n ((Real.sqrt dt : ℂ) •
      field (fun c => W c s) xi) * half (K s) (Real.sqrt dt)) =
      (t dt).BH1 s * (taylor n ((t dt).vhs (fun a => (xi a : ℂ)) s) * (t dt).BH1 s) := by
    intro s
    rw [hL.oneBody, hL.field dt h0, half, hsqc, field]
  obtain ⟨ho, hd⟩ := step_orbitals n dt (t dt) psi e xi w
  rw [stepTens, tens_mulVec]
  congr 1
  funext a
  rcases a with a | a
  · have h1 : orbs (propagateFree n dt (t dt) psi e xi w).phi (Sum.inl a) =
        (Slater.up (propagateFree n dt (t dt) psi e xi w).phi).col a := rfl
    rw [h1, ho, show spin (Sum.inl a : Fin nu ⊕ Fin nd) = 0 from rfl, hm]
    have h2 : orbs w.phi (Sum.inl a) = (Slater.up w.phi).col a := rfl
    rw [h2]
    funext i
    simp only [Matrix.col_apply, ← Matrix.mul_assoc]
    rfl
  · have h1 : orbs (propagateFree n dt (t dt) psi e xi w).phi (Sum.inr a) =
        (Slater.dn (propagateFree n dt (t dt) psi e xi w).phi).col a := rfl
    rw [h1, hd, show spin (Sum.inr a : Fin nu ⊕ Fin nd) = 1 from rfl, hm]
    have h2 : orbs w.phi (Sum.inr a) = (Slater.dn w.phi).col a := rfl
    rw [h2]
    funext i
    simp only [Matrix.col_apply, ← Matrix.mul_assoc]
    rfl

/-! ## Many steps -/

theorem exp_sub_smul {κ : Type} [Fintype κ] [DecidableEq κ] (β e : ℂ) (G : Matrix κ κ ℂ) :
    NormedSpace.exp (-β • (G - e • (1 : Matrix κ κ ℂ))) = Complex.exp (β * e) • NormedSpace.exp (-β • G) := by
  have e1 : -β • (G - e • (1 : Matrix κ κ ℂ)) = (β * e) • 1 + -β • G := by module
  rw [e1, Matrix.exp_add_of_commute _ _ (by exact (Commute.one_left _).smul_left _)]
  have e2 : NormedSpace.exp ((β * e : ℂ) • (1 : Matrix κ κ ℂ)) = Complex.exp (β * e) • 1 := by
    rw [smul_one_eq_diagonal, Matrix.exp_diagonal, smul_one_eq_diagonal]
    congr 1
    funext i
    rw [Pi.exp_def, Complex.exp_eq_exp_ℂ]
  rw [e2, smul_mul_assoc, one_mul]

/-- The average over `N` steps is the `N`-th power of the averaged operator. -/
theorem avgSteps_eq (n : Nat) (hn : 2 ≤ n) {t : ℝ → Tables nx nb} {K : Fin 2 → Matrix (Fin nb) (Fin nb) ℂ}
    {W : Fin nx → Fin 2 → Matrix (Fin nb) (Fin nb) ℂ} {mf : Fin nx → ℂ} (hL : Linear t K W mf) {dt : ℝ}
    (h0 : 0 ≤ dt) (h1 : dt ≤ 1) (psi : Slater.Wfn nb nu nd) (e : ℂ) (α : (Fin nu ⊕ Fin nd → Fin nb) → ℂ)
    (N : Nat) (w : Slater.Wk nb nu nd) :
    avgSteps (fun xi v => propagateFree n dt (t dt) psi e xi v) (signal α) N w =
      w.weight * w.phase * (Complex.exp (dt * e) ^ N *
        (α ⬝ᵥ (avgOp n K W mf spin (Real.sqrt dt) ^ N *ᵥ prodState (orbs w.phi)))) := by
  induction N generalizing w with
  | zero => simp [avgSteps, signal]
  | succ N ih =>
    rw [avgSteps]
    simp only [ih, weight_phase, hL.shift, step_state n hL h0]
    set M := avgOp n K W mf (spin : Fin nu ⊕ Fin nd → Fin 2) (Real.sqrt dt) with hM
    have e1 : ∀ xi : Fin nx → ℝ, (w.weight * w.phase * (Complex.exp (dt * e) *
        Complex.exp ((Real.sqrt dt : ℂ) * ∑ a, (xi a : ℂ) * -mf a)) * (Complex.exp (dt * e) ^ N *
        (α ⬝ᵥ (M ^ N *ᵥ (stepTens n K W spin (Real.sqrt dt) xi *ᵥ prodState (orbs w.phi)))))) =
        (w.weight * w.phase * Complex.exp (dt * e) ^ (N + 1)) *
        (Complex.exp ((Real.sqrt dt : ℂ) * ∑ a, (xi a : ℂ) * -mf a) *
        ((α ᵥ* M ^ N) ⬝ᵥ (stepTens n K W spin (Real.sqrt dt) xi *ᵥ prodState (orbs w.phi)))) := by
      intro xi
      rw [Matrix.dotProduct_mulVec, pow_succ]
      ring
    simp only [e1]
    rw [avg_smul, avg_bilinear n hn K W mf spin (Real.sqrt_nonneg _) (Real.sqrt_le_one.mpr h1), ← hM,
      ← Matrix.dotProduct_mulVec, Matrix.mulVec_mulVec, ← pow_succ]
    ring

theorem dotProduct_mulVec_bound {κ : Type} [Fintype κ] (α v : κ → ℂ) (X Y : Matrix κ κ ℂ) {r : ℝ}
    (h : ∀ i j, ‖X i j - Y i j‖ ≤ r) :
    ‖α ⬝ᵥ (X *ᵥ v) - α ⬝ᵥ (Y *ᵥ v)‖ ≤ (∑ i, ∑ j, ‖α i‖ * ‖v j‖) * r := by
  rw [← dotProduct_sub, ← Matrix.sub_mulVec, dotProduct, sum_mul]
  refine (norm_sum_le _ _).trans (sum_le_sum fun i _ => ?_)
  rw [Matrix.mulVec, dotProduct, mul_sum, sum_mul]
  refine (norm_sum_le _ _).trans (sum_le_sum fun j _ => ?_)
  rw [norm_mul, norm_mul, Matrix.sub_apply]
  calc ‖α i‖ * (‖X i j - Y i j‖ * ‖v j‖) ≤ ‖α i‖ * (r * ‖v j‖) :=
        mul_le_mul_of_nonneg_left (mul_le_mul_of_nonneg_right (h i j) (norm_nonneg _)) (norm_nonneg _)
    _ = _ := by ring

/-- Any tables: the limit is the exponential of `genOp`. -/
theorem free_converges (n : Nat) (hn : 2 ≤ n) {t : ℝ → Tables nx nb} {K : Fin 2 → Matrix (Fin nb) (Fin nb) ℂ}
    {W : Fin nx → Fin 2 → Matrix (Fin nb) (Fin nb) ℂ} {mf : Fin nx → ℂ} (hL : Linear t K W mf)
    (psi : Slater.Wfn nb nu nd) (e : ℂ) (w : Slater.Wk nb nu nd) (α : (Fin nu ⊕ Fin nd → Fin nb) → ℂ) :
    Converges (fun dt xi v => propagateFree n dt (t dt) psi e xi v) w α (genOp K W mf spin) e := by
  intro β hβ
  obtain ⟨L, hLb⟩ := avgOp_pow n hn K W mf (spin : Fin nu ⊕ Fin nd → Fin 2) hβ
  refine ⟨‖(w.weight : ℂ) * w.phase‖ * (‖Complex.exp (β * e)‖ *
    ((∑ i, ∑ j, ‖α i‖ * ‖prodState (orbs w.phi) j‖) * L)), fun N hN hNβ => ?_⟩
  have hN0 : (0 : ℝ) < N := by exact_mod_cast hN
  have hNc : (N : ℂ) ≠ 0 := by exact_mod_cast hN.ne'
  have hd0 : 0 ≤ β / N := by positivity
  have hd1 : β / N ≤ 1 := by rw [div_le_one hN0]; exact hNβ
  rw [avgSteps_eq n hn hL hd0 hd1]
  have hE : Complex.exp (((β / N : ℝ) : ℂ) * e) ^ N = Complex.exp (β * e) := by
    rw [← Complex.exp_nat_mul]
    congr 1
    push_cast
    field_simp
  rw [hE, exp_sub_smul, Matrix.smul_mulVec, dotProduct_smul, smul_eq_mul, ← mul_sub, ← mul_sub, norm_mul,
    norm_mul (Complex.exp _), mul_div_assoc, mul_div_assoc, mul_div_assoc]
  refine mul_le_mul_of_nonneg_left (mul_le_mul_of_nonneg_left ?_ (norm_nonneg _)) (norm_nonneg _)
  exact dotProduct_mulVec_bound _ _ _ _ (hLb N hN hNβ)

/-- Operators that agree under a functional. -/
theorem Converges.congr {step : ℝ → (Fin nx → ℝ) → Slater.Wk nb nu nd → Slater.Wk nb nu nd}
    {w : Slater.Wk nb nu nd} {α : (Fin nu ⊕ Fin nd → Fin nb) → ℂ}
    {G H : Matrix (Fin nu ⊕ Fin nd → Fin nb) (Fin nu ⊕ Fin nd → Fin nb) ℂ} {c e : ℂ}
    (h : Converges step w α G e) (hG : Sym spin G) (hα : Anti spin α)
    (hH : ∀ α, Anti spin α → α ᵥ* G = α ᵥ* (H - c • 1)) : Converges step w α H (c + e) := by
  intro β hβ
  obtain ⟨L, hL⟩ := h β hβ
  refine ⟨L, fun N hN hNβ => ?_⟩
  have key : α ᵥ* NormedSpace.exp (-(β : ℂ) • (G - e • 1)) = α ᵥ* NormedSpace.exp (-(β : ℂ) • (H - (c + e) • 1)) := by
    refine vecMul_exp_eq ((hG.sub (Sym.one.smul e)).smul _) (fun α hα => ?_) hα
    rw [Matrix.vecMul_smul, Matrix.vecMul_smul, Matrix.vecMul_sub, hH α hα, ← Matrix.vecMul_sub]
    congr 2
    module
  have := hL N hN hNβ
  rwa [Matrix.dotProduct_mulVec, key, ← Matrix.dotProduct_mulVec] at this

theorem Converges.of_eq {step : ℝ → (Fin nx → ℝ) → Slater.Wk nb nu nd → Slater.Wk nb nu nd}
    {w : Slater.Wk nb nu nd} {α : (Fin nu ⊕ Fin nd → Fin nb) → ℂ}
    {G H : Matrix (Fin nu ⊕ Fin nd → Fin nb) (Fin nu ⊕ Fin nd → Fin nb) ℂ} {c e : ℂ}
    (h : Converges step w α G e) (hH : G = H - c • 1) : Converges step w α H (c + e) := by
  intro β hβ
  obtain ⟨L, hL⟩ := h β hβ
  refine ⟨L, fun N hN hNβ => ?_⟩
  have e1 : H - (c + e) • (1 : Matrix (Fin nu ⊕ Fin nd → Fin nb) (Fin nu ⊕ Fin nd → Fin nb) ℂ) = G - e • 1 := by
    rw [hH]; module
  rw [e1]
  exact hL N hN hNβ

/-! ## Determinants are antisymmetric -/

theorem slater1_perm {k : Nat} (A : Matrix (Fin m) (Fin k) ℂ) (f : Fin k → Fin m) (π : Equiv.Perm (Fin k)) :
    slater1 A (fun b => f (π b)) = Equiv.Perm.sign π * slater1 A f := by
  have := Matrix.det_permute' π (Matrix.of fun a b => star (A (f b) a))
  rw [slater1, slater1, ← this]
  rfl

theorem slater_anti (A : Slater.Wfn nb nu nd) : Anti spin (slater A) := by
  intro a b hab h f
  have hf : ∀ c, swapP a b f c = f (Equiv.swap a b c) := fun c => by simp [swapP, Equiv.arrowCongr]
  have hs : ∀ {k : Nat} (i j : Fin k), i ≠ j → ((Equiv.Perm.sign (Equiv.swap i j) : ℤ) : ℂ) = -1 := by
    intro k i j hij; rw [Equiv.Perm.sign_swap hij]; simp
  rcases a with a | a <;> rcases b with b | b
  · have hab' : a ≠ b := fun h => hab (by rw [h])
    have e1 : (fun c : Fin nu => swapP (Sum.inl a) (Sum.inl b) f (Sum.inl c)) =
        fun c => f (Sum.inl (Equiv.swap a b c)) := by
      funext c; rw [hf]
      congr 1
      simp only [Equiv.swap_apply_def, Sum.inl.injEq]
      split_ifs <;> rfl
    have e2 : (fun c : Fin nd => swapP (Sum.inl a) (Sum.inl b) f (Sum.inr c)) = fun c => f (Sum.inr c) := by
      funext c; rw [hf, Equiv.swap_apply_of_ne_of_ne (by simp) (by simp)]
    rw [slater, slater, e1, e2, slater1_perm (Slater.up A) (fun c => f (Sum.inl c)), hs a b hab']
    ring
  · exact absurd (show (0 : Fin 2) = 1 from h) (by decide)
  · exact absurd (show (1 : Fin 2) = 0 from h) (by decide)
  · have hab' : a ≠ b := fun h => hab (by rw [h])
    have e1 : (fun c : Fin nd => swapP (Sum.inr a) (Sum.inr b) f (Sum.inr c)) =
        fun c => f (Sum.inr (Equiv.swap a b c)) := by
      funext c; rw [hf]
      congr 1
      simp only [Equiv.swap_apply_def, Sum.inr.injEq]
      split_ifs <;> rfl
    have e2 : (fun c : Fin nu => swapP (Sum.inr a) (Sum.inr b) f (Sum.inl c)) = fun c => f (Sum.inl c) := by
      funext c; rw [hf, Equiv.swap_apply_of_ne_of_ne (by simp) (by simp)]
    rw [slater, slater, e1, e2, slater1_perm (Slater.dn A) (fun c => f (Sum.inr c)), hs a b hab']
    ring

/-! ## The four propagators -/

/-- **C82 (generic systems)** -/
theorem generic_converges (n : Nat) (hn : 2 ≤ n) (g : Gen nx nb) (hL : ∀ a, (g.chol a)ᵀ = g.chol a)
    (mf : Fin nx → ℂ) (psi : Slater.Wfn nb nu nd) (e : ℂ) (w : Slater.Wk nb nu nd)
    (α : (Fin nu ⊕ Fin nd → Fin nb) → ℂ) :
    Converges (fun dt xi v => propagateFree n dt (g.tables dt mf) psi e xi v) w α
      (hamOp g.h1 g.chol g.ecore spin) (g.ecore + 1 / 2 * ∑ a, mf a * mf a + e) :=
  (free_converges n hn (g.linear mf) psi e w α).of_eq (g.genOp_symm hL mf spin)

/-- **C82 (charge decomposition)** -/
theorem charge_converges (n : Nat) (hn : 2 ≤ n) (h : Hub nb) (mf : Fin nb → ℂ) (psi : Slater.Wfn nb nu nd) (e : ℂ)
    (w : Slater.Wk nb nu nd) (α : (Fin nu ⊕ Fin nd → Fin nb) → ℂ) (hα : Anti spin α) :
    Converges (fun dt xi v => propagateFree n dt (h.charge dt mf) psi e xi v) w α (hubOp h.h1 h.U spin)
      (1 / 2 * ∑ a, mf a * mf a - (if h.symmetric then (h.U : ℂ) / 2 * (nu + nd) else 0) + e) := by
  refine (free_converges n hn (h.charge_linear mf) psi e w α).congr (Sym.genOp _ _ _ _) hα fun α hα => ?_
  rw [h.charge_genOp mf spin hα]
  simp

/-- **C82 (spin decomposition)** without mean-field shift; with one, `spin_wrong` shows one step wrong. -/
theorem spin_converges_partial (n : Nat) (hn : 2 ≤ n) (h : Hub nb) (G : Fin 2 → Matrix (Fin nb) (Fin nb) ℂ)
    (hG : ∀ i, G 0 i i = G 1 i i) (psi : Slater.Wfn nb nu nd) (e : ℂ)
    (w : Slater.Wk nb nu nd) (α : (Fin nu ⊕ Fin nd → Fin nb) → ℂ) (hα : Anti spin α) :
    Converges (fun dt xi v => propagateFree n dt (h.spin dt (h.mfShiftSpin G)) psi e xi v) w α
      (hubOp h.h1 h.U spin) e := by
  have h0 : h.mfShiftSpin G = fun _ => 0 := by
    funext i; rw [Hub.mfShiftSpin, hG, sub_self, mul_zero]
  rw [h0]
  have := (free_converges n hn (h.spin_linear fun _ => 0) psi e w α).congr (H := hubOp h.h1 h.U spin) (c := 0)
    (Sym.genOp _ _ _ _) hα fun α hα => by rw [h.spin_genOp spin hα, zero_smul, sub_zero]
  rwa [zero_add] at this

/-- **C82 (plane waves)** -/
theorem planeWave_converges (n : Nat) (hn : 2 ≤ n) (I : UEG.Inp) (hk : 0 < I.kfac) (hv : 0 < I.vol)
    (ht : I.twist = 0) (psi : Slater.Wfn (UEG.nb I) nu nd) (e : ℂ) (w : Slater.Wk (UEG.nb I) nu nd)
    (α : (Fin nu ⊕ Fin nd → Fin (UEG.nb I)) → ℂ) :
    Converges (fun dt xi v => propagateFree n dt (uegTables dt I) psi e xi v) w α
      (coulombOp (UEG.kin I) (UEG.coulomb I) spin) e := by
  have := (free_converges n hn (ueg_linear I) psi e w α).of_eq (H := coulombOp (UEG.kin I) (UEG.coulomb I) spin)
    (c := 0) (by rw [ueg_genOp I hk hv ht, zero_smul, sub_zero])
  rwa [zero_add] at this

end Verif.Step
