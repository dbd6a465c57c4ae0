import Verif.Step.Ground

/-!
# Free projection with reorthogonalisations (C82)

Reorthogonalising the walkers between steps, at any times, does not change the averages of weight × phase ×
any functional that is antisymmetric in electrons of equal spin.
-/

namespace Verif.Step

open MeasureTheory Matrix Finset
open Verif.Energy (ovl)
open Verif.Slater (taylor FullRank QRSpec)

variable {κ : Type} [Fintype κ] [DecidableEq κ] {ι : Type} [Fintype ι] [DecidableEq ι] {m nx nb nu nd : Nat}

/-! ## Statement -/

/-- The average of `F` of the walker after a run: `false` is a step, over independent fields, `true` a
reorthogonalisation. -/
noncomputable def avgOps (step : (Fin nx → ℝ) → Slater.Wk nb nu nd → Slater.Wk nb nu nd)
    (ortho : Slater.Wk nb nu nd → Slater.Wk nb nu nd) (F : Slater.Wk nb nu nd → ℂ) :
    List Bool → Slater.Wk nb nu nd → ℂ
  | [], w => F w
  | false :: l, w => avg fun xi => avgOps step ortho F l (step xi w)
  | true :: l, w => avgOps step ortho F l (ortho w)

/-- As `Converges`, for runs with reorthogonalisations anywhere. -/
def ConvergesOps (step : ℝ → (Fin nx → ℝ) → Slater.Wk nb nu nd → Slater.Wk nb nu nd)
    (ortho : Slater.Wk nb nu nd → Slater.Wk nb nu nd) (w : Slater.Wk nb nu nd)
    (α : (Fin nu ⊕ Fin nd → Fin nb) → ℂ) (H : Matrix (Fin nu ⊕ Fin nd → Fin nb) (Fin nu ⊕ Fin nd → Fin nb) ℂ)
    (c : ℂ) : Prop :=
  ∀ β : ℝ, 0 ≤ β → ∃ L : ℝ, ∀ ops : List Bool, 0 < ops.count false → β ≤ ops.count false →
    ‖avgOps (step (β / ops.count false)) ortho (signal α) ops w - w.weight * w.phase *
      (α ⬝ᵥ (NormedSpace.exp (-(β : ℂ) • (H - c • 1)) *ᵥ prodState (orbs w.phi)))‖ ≤
      L / Real.sqrt (ops.count false)

/-! ## Antisymmetric functionals are sums of determinants -/

theorem Anti.perm_up {α : (Fin nu ⊕ Fin nd → Fin m) → ℂ} (hα : Anti spin α) (π : Equiv.Perm (Fin nu))
    (f : Fin nu ⊕ Fin nd → Fin m) :
    α (fun a => f (Equiv.Perm.sumCongr π 1 a)) = (Equiv.Perm.sign π : ℂ) * α f := by
  induction π using Equiv.Perm.swap_induction_on' generalizing f with
  | one => simp
  | mul_swap π x y hxy ih =>
    have h := hα (Sum.inl x) (Sum.inl y) (by simpa using hxy) rfl fun a => f (Equiv.Perm.sumCongr π 1 a)
    rw [ih] at h
    have e : swapP (Sum.inl x) (Sum.inl y) (fun a => f (Equiv.Perm.sumCongr π 1 a)) =
        fun a => f (Equiv.Perm.sumCongr (π * Equiv.swap x y) 1 a) := by
      funext a
      have hs : Equiv.swap (Sum.inl x : Fin nu ⊕ Fin nd) (Sum.inl y) = Equiv.Perm.sumCongr (Equiv.swap x y) 1 :=
        (Equiv.Perm.sumCongr_swap_one x y).symm
      simp only [swapP, Equiv.arrowCongr, Equiv.coe_fn_mk, Function.comp, Equiv.refl_apply, Equiv.symm_swap, hs]
      rcases a with a | a <;> rfl
    rw [e] at h
    rw [h, Equiv.Perm.sign_mul, Equiv.Perm.sign_swap hxy]
    simp

theorem Anti.perm_dn {α : (Fin nu ⊕ Fin nd → Fin m) → ℂ} (hα : Anti spin α) (π : Equiv.Perm (Fin nd))
    (f : Fin nu ⊕ Fin nd → Fin m) :
    α (fun a => f (Equiv.Perm.sumCongr 1 π a)) = (Equiv.Perm.sign π : ℂ) * α f := by
  induction π using Equiv.Perm.swap_induction_on' generalizing f with
  | one => simp
  | mul_swap π x y hxy ih =>
    have h := hα (Sum.inr x) (Sum.inr y) (by simpa using hxy) rfl fun a => f (Equiv.Perm.sumCongr 1 π a)
    rw [ih] at h
    have e : swapP (Sum.inr x) (Sum.inr y) (fun a => f (Equiv.Perm.sumCongr 1 π a)) =
        fun a => f (Equiv.Perm.sumCongr 1 (π * Equiv.swap x y) a) := by
      funext a
      have hs : Equiv.swap (Sum.inr x : Fin nu ⊕ Fin nd) (Sum.inr y) = Equiv.Perm.sumCongr 1 (Equiv.swap x y) :=
        (Equiv.Perm.sumCongr_one_swap x y).symm
      simp only [swapP, Equiv.arrowCongr, Equiv.coe_fn_mk, Function.comp, Equiv.refl_apply, Equiv.symm_swap, hs]
      rcases a with a | a <;> rfl
    rw [e] at h
    rw [h, Equiv.Perm.sign_mul, Equiv.Perm.sign_swap hxy]
    simp

/-- The determinant of unit vectors. -/
def unit (h : Fin nu ⊕ Fin nd → Fin nb) : Slater.Wfn nb nu nd :=
  Slater.join (Matrix.of fun p a => if p = h (Sum.inl a) then 1 else 0)
    (Matrix.of fun p a => if p = h (Sum.inr a) then 1 else 0)

theorem slater1_unit {k : Nat} (h f : Fin k → Fin m) :
    slater1 (Matrix.of fun p a => if p = h a then 1 else 0) f =
      ∑ π : Equiv.Perm (Fin k), (Equiv.Perm.sign π : ℂ) * if f = fun b => h (π b) then 1 else 0 := by
  rw [slater1, Matrix.det_apply']
  refine sum_congr rfl fun π _ => ?_
  congr 1
  have e : ∀ b, (Matrix.of fun a b => star ((Matrix.of fun p a => if p = h a then (1 : ℂ) else 0) (f b) a)) (π b) b =
      if f b = h (π b) then 1 else 0 := by
    intro b
    simp only [Matrix.of_apply]
    split_ifs <;> simp
  simp only [e, Finset.prod_ite_one, prod_boole, mem_univ, true_implies, funext_iff]

theorem anti_span {α : (Fin nu ⊕ Fin nd → Fin nb) → ℂ} (hα : Anti spin α) :
    ∃ c : (Fin nu ⊕ Fin nd → Fin nb) → ℂ, α = ∑ h, c h • slater (unit h) := by
  refine ⟨fun h => ((nu.factorial : ℂ) * nd.factorial)⁻¹ * α h, ?_⟩
  funext g
  have hf : ((nu.factorial : ℂ) * nd.factorial) ≠ 0 := by
    exact_mod_cast mul_ne_zero (Nat.factorial_ne_zero _) (Nat.factorial_ne_zero _)
  have key : ∑ h, α h * slater (unit h) g = (nu.factorial : ℂ) * nd.factorial * α g := by
    have e1 : ∀ h : Fin nu ⊕ Fin nd → Fin nb, α h * slater (unit h) g =
        ∑ π : Equiv.Perm (Fin nu), ∑ ρ : Equiv.Perm (Fin nd), if (fun a => h (Equiv.Perm.sumCongr π ρ a)) = g then
          α g else 0 := by
      intro h
      have hu : Slater.up (unit h) = Matrix.of fun p a => if p = h (Sum.inl a) then 1 else 0 := Slater.up_join _ _
      have hd : Slater.dn (unit h) = Matrix.of fun p a => if p = h (Sum.inr a) then 1 else 0 := Slater.dn_join _ _
      rw [slater, hu, hd, slater1_unit (fun a => h (Sum.inl a)), slater1_unit (fun a => h (Sum.inr a)), sum_mul_sum,
        mul_sum]
      refine sum_congr rfl fun π _ => ?_
      rw [mul_sum]
      refine sum_congr rfl fun ρ _ => ?_
      have hiff : (fun a => h (Equiv.Perm.sumCongr π ρ a)) = g ↔
          ((fun a => g (Sum.inl a)) = fun b => h (Sum.inl (π b))) ∧
          ((fun a => g (Sum.inr a)) = fun b => h (Sum.inr (ρ b))) := by
        constructor
        · rintro rfl; exact ⟨rfl, rfl⟩
        · rintro ⟨h1, h2⟩
          funext a
          rcases a with a | a
          · exact (congrFun h1 a).symm
          · exact (congrFun h2 a).symm
      have hP : α (fun a => h (Equiv.Perm.sumCongr π ρ a)) =
          (Equiv.Perm.sign π : ℂ) * ((Equiv.Perm.sign ρ : ℂ) * α h) := by
        have h1 := hα.perm_up π fun a => h (Equiv.Perm.sumCongr 1 ρ a)
        rw [hα.perm_dn] at h1
        rw [← h1]
        congr 1
        funext a
        rcases a with a | a <;> rfl
      by_cases hg : (fun a => h (Equiv.Perm.sumCongr π ρ a)) = g
      · rw [if_pos hg, if_pos (hiff.1 hg).1, if_pos (hiff.1 hg).2, ← hg, hP]
        ring
      · rw [if_neg hg]
        have : ¬(((fun a => g (Sum.inl a)) = fun b => h (Sum.inl (π b))) ∧
          ((fun a => g (Sum.inr a)) = fun b => h (Sum.inr (ρ b)))) := fun hh => hg (hiff.2 hh)
        by_cases ha : (fun a => g (Sum.inl a)) = fun b => h (Sum.inl (π b))
        · rw [if_neg fun hb => this ⟨ha, hb⟩]; ring
        · rw [if_neg ha]; ring
    simp only [e1]
    rw [sum_comm]
    have e2 : ∀ (π : Equiv.Perm (Fin nu)) (ρ : Equiv.Perm (Fin nd)), (∑ h : Fin nu ⊕ Fin nd → Fin nb,
        if (fun a => h (Equiv.Perm.sumCongr π ρ a)) = g then α g else 0) = α g := by
      intro π ρ
      rw [Fintype.sum_eq_single (fun a => g ((Equiv.Perm.sumCongr π ρ).symm a))]
      · rw [if_pos]; funext a; simp
      · intro h hh
        rw [if_neg]
        rintro rfl
        apply hh
        funext a
        simp
    have e3 : ∀ π : Equiv.Perm (Fin nu), (∑ h : Fin nu ⊕ Fin nd → Fin nb, ∑ ρ : Equiv.Perm (Fin nd),
        if (fun a => h (Equiv.Perm.sumCongr π ρ a)) = g then α g else 0) = nd.factorial * α g := by
      intro π
      rw [sum_comm, sum_congr rfl fun ρ _ => e2 π ρ, sum_const, card_univ, Fintype.card_perm, Fintype.card_fin,
        nsmul_eq_mul]
    rw [sum_congr rfl fun π _ => e3 π, sum_const, card_univ, Fintype.card_perm, Fintype.card_fin, nsmul_eq_mul]
    ring
  rw [Finset.sum_apply]
  have e4 : ∀ h, ((((nu.factorial : ℂ) * nd.factorial)⁻¹ * α h) • slater (unit h)) g =
      ((nu.factorial : ℂ) * nd.factorial)⁻¹ * (α h * slater (unit h) g) := fun h => by
    rw [Pi.smul_apply, smul_eq_mul]; ring
  simp only [e4]
  rw [← mul_sum, key, inv_mul_cancel_left₀ hf]

/-! ## Walkers that represent the same state -/

/-- The walkers give the same weight × phase × overlap with every determinant. -/
def Same (w v : Slater.Wk nb nu nd) : Prop :=
  ∀ A : Slater.Wfn nb nu nd, (w.weight : ℂ) * w.phase * ovl2 A w.phi = v.weight * v.phase * ovl2 A v.phi

theorem Same.signal {w v : Slater.Wk nb nu nd} (h : Same w v) {α : (Fin nu ⊕ Fin nd → Fin nb) → ℂ}
    (hα : Anti spin α) : signal α w = signal α v := by
  obtain ⟨c, hc⟩ := anti_span hα
  have e : ∀ w : Slater.Wk nb nu nd, Step.signal α w = ∑ h, c h * (w.weight * w.phase * ovl2 (unit h) w.phi) := by
    intro w
    rw [Step.signal, hc, sum_dotProduct, mul_sum]
    refine sum_congr rfl fun h _ => ?_
    rw [smul_dotProduct, ← ovl2_eq, smul_eq_mul]
    ring
  rw [e, e]
  exact sum_congr rfl fun g _ => by rw [h (unit g)]

theorem ovl_adj (A : Matrix (Fin nb) (Fin m) ℂ) (B : Matrix (Fin nb) (Fin nb) ℂ) (X : Matrix (Fin nb) (Fin m) ℂ) :
    ovl A (B * X) = ovl (Bᴴ * A) X := by
  rw [ovl, ovl, Matrix.conjTranspose_mul, Matrix.conjTranspose_conjTranspose, Matrix.mul_assoc]

theorem Same.step {w v : Slater.Wk nb nu nd} (h : Same w v) (n : Nat) (dt : ℝ) (t : Tables nx nb)
    (psi : Slater.Wfn nb nu nd) (e : ℂ) (xi : Fin nx → ℝ) :
    Same (propagateFree n dt t psi e xi w) (propagateFree n dt t psi e xi v) := by
  intro A
  have key : ∀ w : Slater.Wk nb nu nd, ovl2 A (propagateFree n dt t psi e xi w).phi =
      ovl2 (Slater.join ((t.BH1 0 * (taylor n (t.vhs (fun a => (xi a : ℂ)) 0) * t.BH1 0))ᴴ * Slater.up A)
        ((t.BH1 1 * (taylor n (t.vhs (fun a => (xi a : ℂ)) 1) * t.BH1 1))ᴴ * Slater.dn A)) w.phi := by
    intro w
    obtain ⟨h1, h2⟩ := step_orbitals n dt t psi e xi w
    rw [ovl2, ovl2, h1, h2, Slater.up_join, Slater.dn_join, ← ovl_adj, ← ovl_adj]
    simp only [Matrix.mul_assoc]
  rw [key, key, weight_phase, weight_phase]
  linear_combination (Complex.exp (dt * e) * Complex.exp ((Real.sqrt dt : ℂ) * ∑ a, (xi a : ℂ) * -t.mfShift a)) *
    h (Slater.join ((t.BH1 0 * (taylor n (t.vhs (fun a => (xi a : ℂ)) 0) * t.BH1 0))ᴴ * Slater.up A)
        ((t.BH1 1 * (taylor n (t.vhs (fun a => (xi a : ℂ)) 1) * t.BH1 1))ᴴ * Slater.dn A))

theorem Same.ortho {w v : Slater.Wk nb nu nd} (h : Same w v) {qr : Slater.QR nb} (hqr : QRSpec qr)
    (hu : FullRank (Slater.up w.phi)) (hd : FullRank (Slater.dn w.phi)) (hs : w.detRShift = 0) :
    Same (Slater.orthogonalise qr true w) v := by
  obtain ⟨-, -, hpos, a4, -, -, -⟩ := Slater.reortho_facts qr hqr w hu hd
  intro A
  have hov : ovl2 A w.phi = (Slater.reortho qr w).detR * ovl2 A (Slater.reortho qr w).phi := by
    have := a4 A
    rw [hs] at this
    simpa [ovl2, ovl, Slater.overlap] using this
  have hp := Complex.norm_mul_exp_arg_mul_I ((Slater.reortho qr w).detR : ℂ)
  rw [mul_comm (Complex.arg _ : ℂ)] at hp
  have hwp : ((Slater.orthogonalise qr true w).weight : ℂ) * (Slater.orthogonalise qr true w).phase =
      w.weight * w.phase * (Slater.reortho qr w).detR := by
    show ((w.weight * ‖((Slater.reortho qr w).detR : ℂ)‖ : ℝ) : ℂ) * (w.phase *
      Complex.exp (Complex.I * (Complex.arg ((Slater.reortho qr w).detR : ℂ) : ℂ))) = _
    nth_rewrite 3 [← hp]
    push_cast; ring
  rw [hwp, ← h A, hov]
  show _ * ovl2 A (Slater.reortho qr w).phi = _
  ring

/-! ## Averages -/

theorem exp_det_ne_zero (X : Matrix (Fin m) (Fin m) ℂ) : (NormedSpace.exp X).det ≠ 0 :=
  ((Matrix.isUnit_iff_isUnit_det _).1 (Matrix.isUnit_exp X)).ne_zero

theorem avgOps_eq {t : Tables nx nb} {n : Nat} (dt : ℝ) (hB : ∀ s, (t.BH1 s).det ≠ 0)
    (hT : ∀ (x : Fin nx → ℝ) s, (taylor n (t.vhs (fun a => (x a : ℂ)) s)).det ≠ 0)
    {qr : Slater.QR nb} (hqr : QRSpec qr) (psi : Slater.Wfn nb nu nd) (e : ℂ)
    {α : (Fin nu ⊕ Fin nd → Fin nb) → ℂ} (hα : Anti spin α) (ops : List Bool) :
    ∀ w v : Slater.Wk nb nu nd, Same w v → FullRank (Slater.up w.phi) → FullRank (Slater.dn w.phi) →
      w.detRShift = 0 →
      avgOps (propagateFree n dt t psi e) (Slater.orthogonalise qr true) (signal α) ops w =
        avgSteps (propagateFree n dt t psi e) (signal α) (ops.count false) v := by
  induction ops with
  | nil => intro w v h _ _ _; exact h.signal hα
  | cons op l ih =>
    intro w v h hu hd hs
    cases op with
    | false =>
      rw [avgOps, List.count_cons_self, avgSteps]
      congr 1
      funext xi
      obtain ⟨h1, h2⟩ := step_orbitals n dt t psi e xi w
      refine ih _ _ (h.step n dt t psi e xi) ?_ ?_ hs
      · rw [h1]; exact ((hu.mul (hB 0)).mul (hT xi 0)).mul (hB 0)
      · rw [h2]; exact ((hd.mul (hB 1)).mul (hT xi 1)).mul (hB 1)
    | true =>
      obtain ⟨⟨a1, a2⟩, -, -, -, -, -, -⟩ := Slater.reortho_facts qr hqr w hu hd
      rw [avgOps, List.count_cons_of_ne (by decide)]
      refine ih _ _ (h.ortho hqr hu hd hs) ?_ ?_ hs
      · show ((Slater.up (Slater.reortho qr w).phi)ᴴ * Slater.up (Slater.reortho qr w).phi).det ≠ 0
        rw [a1, Matrix.det_one]; exact one_ne_zero
      · show ((Slater.dn (Slater.reortho qr w).phi)ᴴ * Slater.dn (Slater.reortho qr w).phi).det ≠ 0
        rw [a2, Matrix.det_one]; exact one_ne_zero

/-! ## The truncated exponential is invertible -/

theorem taylor_mulVec (n : Nat) {V : Matrix κ κ ℂ} {u : κ → ℂ} {r : ℂ} (h : V *ᵥ u = r • u) :
    (∑ j ∈ range (n + 1), (1 / (j.factorial : ℂ)) • V ^ j) *ᵥ u =
      (∑ j ∈ range (n + 1), 1 / (j.factorial : ℂ) * r ^ j) • u := by
  have hp : ∀ k : ℕ, V ^ k *ᵥ u = r ^ k • u := by
    intro k
    induction k with
    | zero => simp
    | succ k ih => rw [pow_succ, ← Matrix.mulVec_mulVec, h, Matrix.mulVec_smul, ih, smul_smul, pow_succ, mul_comm]
  rw [Matrix.sum_mulVec, sum_smul]
  exact sum_congr rfl fun j _ => by rw [Matrix.smul_mulVec, hp, smul_smul]

/-- If the truncated series does not vanish on the line `c ℝ`, the truncated exponential of `c` times a
Hermitian matrix is invertible. -/
theorem taylor_det_ne_zero (n : Nat) {H : Matrix (Fin m) (Fin m) ℂ} (hH : H.IsHermitian) (c : ℂ)
    (hc : ∀ y : ℝ, ∑ j ∈ range (n + 1), 1 / (j.factorial : ℂ) * (c * y) ^ j ≠ 0) :
    (taylor n (c • H)).det ≠ 0 := by
  have hs : Function.Surjective (taylor n (c • H)).mulVec := by
    intro v
    obtain ⟨E, u, hE, hv⟩ := eigen_sum hH v
    refine ⟨∑ j, (∑ i ∈ range (n + 1), 1 / (i.factorial : ℂ) * (c * E j) ^ i)⁻¹ • u j, ?_⟩
    rw [Matrix.mulVec_sum, ← hv]
    refine sum_congr rfl fun j _ => ?_
    have := taylor_mulVec n (V := c • H) (u := u j) (r := c * E j) (by
      rw [Matrix.smul_mulVec, hE, smul_smul])
    rw [Matrix.mulVec_smul]
    show _ • ((∑ j ∈ range (n + 1), (1 / (j.factorial : ℂ)) • (c • H) ^ j) *ᵥ u j) = _
    rw [this, smul_smul, inv_mul_cancel₀ (hc _), one_smul]
  have := Matrix.mulVec_surjective_iff_isUnit.1 hs
  exact ((Matrix.isUnit_iff_isUnit_det _).1 this).ne_zero

theorem series_imag (y : ℝ) : ∑ j ∈ range (6 + 1), 1 / (j.factorial : ℂ) * (Complex.I * y) ^ j ≠ 0 := by
  intro h
  have h1 : ∑ j ∈ range (6 + 1), 1 / (j.factorial : ℂ) * (Complex.I * y) ^ j =
      ((1 - y ^ 2 / 2 + y ^ 4 / 24 - y ^ 6 / 720 : ℝ) : ℂ) + ((y - y ^ 3 / 6 + y ^ 5 / 120 : ℝ) : ℂ) * Complex.I := by
    have hI2 : Complex.I ^ 2 = -1 := Complex.I_sq
    have hI3 : Complex.I ^ 3 = -Complex.I := by rw [pow_succ, hI2]; ring
    have hI4 : Complex.I ^ 4 = 1 := Complex.I_pow_four
    have hI5 : Complex.I ^ 5 = Complex.I := by rw [pow_succ, hI4]; ring
    have hI6 : Complex.I ^ 6 = -1 := by rw [show 6 = 4 + 2 from rfl, pow_add, hI4, hI2]; ring
    simp only [sum_range_succ, range_zero, sum_empty, Nat.factorial, mul_pow, hI2, hI3, hI4, hI5, hI6]
    push_cast
    ring
  rw [h1] at h
  have hre := congrArg Complex.re h
  have him := congrArg Complex.im h
  simp only [Complex.add_re, Complex.ofReal_re, Complex.mul_re, Complex.ofReal_im, Complex.I_re, Complex.I_im,
    Complex.zero_re, Complex.add_im, Complex.mul_im, Complex.zero_im, mul_zero, mul_one, sub_zero, add_zero,
    zero_add, zero_mul] at hre him
  have hy : y * ((y ^ 2 - 10) ^ 2 + 20) = 0 := by linear_combination 120 * him
  rcases mul_eq_zero.1 hy with h0 | h0
  · rw [h0] at hre; norm_num at hre
  · nlinarith [sq_nonneg (y ^ 2 - 10)]

theorem series_real (y : ℝ) : ∑ j ∈ range (6 + 1), 1 / (j.factorial : ℂ) * ((1 : ℂ) * y) ^ j ≠ 0 := by
  have h1 : ∑ j ∈ range (6 + 1), 1 / (j.factorial : ℂ) * ((1 : ℂ) * y) ^ j =
      ((1 + y + y ^ 2 / 2 + y ^ 3 / 6 + y ^ 4 / 24 + y ^ 5 / 120 + y ^ 6 / 720 : ℝ) : ℂ) := by
    simp only [sum_range_succ, range_zero, sum_empty, Nat.factorial, one_mul]
    push_cast
    ring
  rw [h1, Complex.ofReal_ne_zero]
  have : 0 < 1 + y + y ^ 2 / 2 + y ^ 3 / 6 + y ^ 4 / 24 + y ^ 5 / 120 + y ^ 6 / 720 := by
    nlinarith [sq_nonneg (y ^ 3 + 3 * y ^ 2 + 9 * y + 20), sq_nonneg (y ^ 2 + 13 / 3 * y), sq_nonneg (y + 7 / 4)]
  exact this.ne'

/-- The operators coupled to the fields are all Hermitian, or all anti-Hermitian. -/
def Definite (W : Fin nx → Fin 2 → Matrix (Fin nb) (Fin nb) ℂ) : Prop :=
  (∀ a s, (W a s)ᴴ = W a s) ∨ ∀ a s, (W a s)ᴴ = -W a s

theorem Definite.det {W : Fin nx → Fin 2 → Matrix (Fin nb) (Fin nb) ℂ} (hW : Definite W) (r : ℝ) (x : Fin nx → ℝ)
    (s : Fin 2) : (taylor 6 ((r : ℂ) • ∑ a, (x a : ℂ) • W a s)).det ≠ 0 := by
  rcases hW with hW | hW
  · have := taylor_det_ne_zero 6 (H := (r : ℂ) • ∑ a, (x a : ℂ) • W a s) (by
      unfold Matrix.IsHermitian
      simp only [Matrix.conjTranspose_smul, Matrix.conjTranspose_sum, hW]
      simp) 1 series_real
    rwa [one_smul] at this
  · have := taylor_det_ne_zero 6 (H := -Complex.I • ((r : ℂ) • ∑ a, (x a : ℂ) • W a s)) (by
      unfold Matrix.IsHermitian
      simp only [Matrix.conjTranspose_smul, Matrix.conjTranspose_sum, hW]
      simp) Complex.I series_imag
    rw [smul_smul] at this
    simpa using this

theorem convergesOps {t : ℝ → Tables nx nb} {K : Fin 2 → Matrix (Fin nb) (Fin nb) ℂ}
    {W : Fin nx → Fin 2 → Matrix (Fin nb) (Fin nb) ℂ} {mf : Fin nx → ℂ} (hL : Linear t K W mf) (hW : Definite W)
    {qr : Slater.QR nb} (hqr : QRSpec qr) {psi : Slater.Wfn nb nu nd} {e : ℂ} {w : Slater.Wk nb nu nd}
    {α : (Fin nu ⊕ Fin nd → Fin nb) → ℂ} (hα : Anti spin α) (hu : FullRank (Slater.up w.phi))
    (hd : FullRank (Slater.dn w.phi)) (hs : w.detRShift = 0)
    {H : Matrix (Fin nu ⊕ Fin nd → Fin nb) (Fin nu ⊕ Fin nd → Fin nb) ℂ} {c : ℂ}
    (h : Converges (fun dt xi v => propagateFree 6 dt (t dt) psi e xi v) w α H c) :
    ConvergesOps (fun dt xi v => propagateFree 6 dt (t dt) psi e xi v) (Slater.orthogonalise qr true) w α H c := by
  intro β hβ
  obtain ⟨L, hC⟩ := h β hβ
  refine ⟨L, fun ops h0 h1 => ?_⟩
  have h2 : (0 : ℝ) ≤ β / ops.count false := by positivity
  have := avgOps_eq (t := t (β / ops.count false)) (n := 6) (β / ops.count false)
    (fun s => by rw [hL.oneBody]; exact exp_det_ne_zero _)
    (fun x s => by rw [hL.field _ h2]; exact hW.det _ x s) hqr psi e hα ops w w (fun _ => rfl) hu hd hs
  show ‖avgOps (propagateFree 6 (β / ops.count false) (t (β / ops.count false)) psi e) _ _ _ _ - _‖ ≤ _
  rw [this]
  exact hC _ h0 h1

/-! ## The four propagators -/

/-- **C82 (generic systems, with reorthogonalisations)**: for Hermitian Cholesky vectors. -/
theorem generic_run (g : Gen nx nb) (hL : ∀ a, (g.chol a)ᵀ = g.chol a) (hR : ∀ a, (g.chol a)ᴴ = g.chol a)
    (mf : Fin nx → ℂ) (qr : Slater.QR nb) (hqr : QRSpec qr) (psi : Slater.Wfn nb nu nd) (e : ℂ)
    (w : Slater.Wk nb nu nd) (hu : FullRank (Slater.up w.phi)) (hd : FullRank (Slater.dn w.phi))
    (hs : w.detRShift = 0) (α : (Fin nu ⊕ Fin nd → Fin nb) → ℂ) (hα : Anti spin α) :
    ConvergesOps (fun dt xi v => propagateFree 6 dt (g.tables dt mf) psi e xi v) (Slater.orthogonalise qr true) w α
      (hamOp g.h1 g.chol g.ecore spin) (g.ecore + 1 / 2 * ∑ a, mf a * mf a + e) :=
  convergesOps (g.linear mf) (Or.inr fun a _ => by rw [Matrix.conjTranspose_smul, hR]; simp) hqr hα hu hd hs
    (generic_converges 6 (by norm_num) g hL mf psi e w α)

theorem root_conj (x : ℝ) : star (root x) = root x ∨ star (root x) = -root x := by
  have h := root_sq x
  have h2 : star (root x) * star (root x) = root x * root x := by
    rw [← star_mul', h]; simp
  rcases mul_self_eq_mul_self_iff.1 h2 with h3 | h3
  · exact Or.inl h3
  · exact Or.inr h3

/-- **C82 (charge decomposition, with reorthogonalisations)**: for either sign of `U`. -/
theorem charge_run (h : Hub nb) (mf : Fin nb → ℂ) (qr : Slater.QR nb) (hqr : QRSpec qr) (psi : Slater.Wfn nb nu nd)
    (e : ℂ) (w : Slater.Wk nb nu nd) (hu : FullRank (Slater.up w.phi)) (hd : FullRank (Slater.dn w.phi))
    (hs : w.detRShift = 0) (α : (Fin nu ⊕ Fin nd → Fin nb) → ℂ) (hα : Anti spin α) :
    ConvergesOps (fun dt xi v => propagateFree 6 dt (h.charge dt mf) psi e xi v) (Slater.orthogonalise qr true) w α
      (hubOp h.h1 h.U spin)
      (1 / 2 * ∑ a, mf a * mf a - (if h.symmetric then (h.U : ℂ) / 2 * (nu + nd) else 0) + e) := by
  refine convergesOps (h.charge_linear mf) ?_ hqr hα hu hd hs (charge_converges 6 (by norm_num) h mf psi e w α hα)
  rcases root_conj h.U with hr | hr
  · exact Or.inr fun i _ => by rw [Matrix.conjTranspose_smul, site_herm, star_mul', hr]; simp
  · exact Or.inl fun i _ => by rw [Matrix.conjTranspose_smul, site_herm, star_mul', hr]; simp

/-- **C82 (spin decomposition, with reorthogonalisations)** without mean-field shift. -/
theorem spin_run_partial (h : Hub nb) (G : Fin 2 → Matrix (Fin nb) (Fin nb) ℂ) (hG : ∀ i, G 0 i i = G 1 i i)
    (qr : Slater.QR nb) (hqr : QRSpec qr) (psi : Slater.Wfn nb nu nd)
    (e : ℂ) (w : Slater.Wk nb nu nd) (hu : FullRank (Slater.up w.phi)) (hd : FullRank (Slater.dn w.phi))
    (hs : w.detRShift = 0) (α : (Fin nu ⊕ Fin nd → Fin nb) → ℂ) (hα : Anti spin α) :
    ConvergesOps (fun dt xi v => propagateFree 6 dt (h.spin dt (h.mfShiftSpin G)) psi e xi v)
      (Slater.orthogonalise qr true) w α (hubOp h.h1 h.U spin) e := by
  refine convergesOps (h.spin_linear _) ?_ hqr hα hu hd hs (spin_converges_partial 6 (by norm_num) h G hG psi e w α hα)
  rcases root_conj h.U with hr | hr
  · refine Or.inl fun i s => ?_
    beta_reduce
    split_ifs <;> rw [Matrix.conjTranspose_smul, site_herm] <;> simp only [star_neg, hr]
  · refine Or.inr fun i s => ?_
    beta_reduce
    split_ifs <;> rw [Matrix.conjTranspose_smul, site_herm] <;> simp only [star_neg, hr, neg_smul]

/-- **C82 (plane waves, with reorthogonalisations)** -/
theorem planeWave_run (I : UEG.Inp) (hk : 0 < I.kfac) (hv : 0 < I.vol) (ht : I.twist = 0)
    (qr : Slater.QR (UEG.nb I)) (hqr : QRSpec qr) (psi : Slater.Wfn (UEG.nb I) nu nd) (e : ℂ)
    (w : Slater.Wk (UEG.nb I) nu nd) (hu : FullRank (Slater.up w.phi)) (hd : FullRank (Slater.dn w.phi))
    (hs : w.detRShift = 0) (α : (Fin nu ⊕ Fin nd → Fin (UEG.nb I)) → ℂ) (hα : Anti spin α) :
    ConvergesOps (fun dt xi v => propagateFree 6 dt (uegTables dt I) psi e xi v) (Slater.orthogonalise qr true) w α
      (coulombOp (UEG.kin I) (UEG.coulomb I) spin) e := by
  refine convergesOps (ueg_linear I) (Or.inr fun a _ => ?_) hqr hα hu hd hs
    (planeWave_converges 6 (by norm_num) I hk hv ht psi e w α)
  refine Fin.addCases (fun q => ?_) (fun q => ?_) a
  · beta_reduce
    rw [Fin.addCases_left]
    ext i k
    simp only [UEG.iA, Matrix.conjTranspose_apply, Matrix.neg_apply, Matrix.of_apply, UEG.rhoH_eq, star_mul', star_add,
      Complex.star_def, Complex.conj_I, Complex.conj_ofReal]
    ring
  · beta_reduce
    rw [Fin.addCases_right]
    ext i k
    simp only [UEG.iB, Matrix.conjTranspose_apply, Matrix.neg_apply, Matrix.of_apply, UEG.rhoH_eq, star_neg, star_sub,
      Complex.star_def, Complex.conj_ofReal]
    ring

/-! ## The averaged quantities are those of the estimators -/

/-- The numerator of `projected` averages weight × phase × overlap × the energy returned by
`local_energy_generic_cholesky`. -/
theorem signal_localChol (g : Gen nx nb) (psi : Slater.Wfn nb nu nd) (w : Slater.Wk nb nu nd)
    (hO : ovl2 psi w.phi ≠ 0) :
    signal (slater psi ᵥ* hamOp g.h1 g.chol g.ecore spin) w = w.weight * w.phase * ovl2 psi w.phi *
      (Energy.localChol g.h1 g.chol ![(Slater.greensFunction psi w).gUp, (Slater.greensFunction psi w).gDn]
        g.ecore).1 := by
  have e2 : (Energy.localChol g.h1 g.chol ![(Slater.greensFunction psi w).gUp, (Slater.greensFunction psi w).gDn]
      g.ecore).1 * ovl2 psi w.phi = Energy.hamil g.h1 g.chol g.ecore (Slater.up psi) (Slater.up w.phi) (Slater.dn psi)
      (Slater.dn w.phi) :=
    Energy.localChol_expectation g.h1 g.chol g.ecore (Slater.up psi) (Slater.up w.phi) (Slater.dn psi)
      (Slater.dn w.phi) (left_ne_zero_of_mul hO) (right_ne_zero_of_mul hO)
  rw [signal_energy, hamOp_elem, ← e2]
  ring

/-- The same for `local_energy_hubbard`. -/
theorem signal_localHubbard (h : Hub nb) (psi : Slater.Wfn nb nu nd) (w : Slater.Wk nb nu nd)
    (hO : ovl2 psi w.phi ≠ 0) :
    signal (slater psi ᵥ* hubOp h.h1 h.U spin) w = w.weight * w.phase * ovl2 psi w.phi *
      (Energy.localHubbard h.h1 h.U h.symmetric
        ![(Slater.greensFunction psi w).gUp, (Slater.greensFunction psi w).gDn]).1 := by
  rw [signal_energy, hubOp_elem, ← hubbardElem_local h psi w hO]
  ring

/-! ## A case -/

/-- Two sites with hopping and repulsion, started from one electron of each spin on different sites: the
hypotheses hold for any trial state that overlaps with it. -/
example (mf : Fin 2 → ℂ) (psi : Slater.Wfn 2 1 1) (hO : ovl2 psi neel ≠ 0) :
    let h : Hub 2 := ⟨fun _ => !![0, -1; -1, 0], 4, false⟩
    (∃ E0, Lowest (hubOp h.h1 h.U spin) (slater psi) (prodState (orbs neel)) E0 ∧
      Projects (fun dt xi v => propagateFree 6 dt (h.charge dt mf) psi 0 xi v) (slater psi) (hubOp h.h1 h.U spin)
        (wk0 neel) E0) ∧
    ∀ (qr : Slater.QR 2), QRSpec qr →
      ConvergesOps (fun dt xi v => propagateFree 6 dt (h.charge dt mf) psi 0 xi v) (Slater.orthogonalise qr true)
        (wk0 neel) (slater psi) (hubOp h.h1 h.U spin) (1 / 2 * ∑ a, mf a * mf a - 0 + 0) := by
  refine ⟨charge_projects 6 (by norm_num) _ (fun s => ?_) mf psi 0 (wk0 neel) (by simp [wk0]) hO, fun qr hqr =>
    charge_run _ mf qr hqr psi 0 (wk0 neel) ?_ ?_ rfl _ (slater_anti psi)⟩
  · ext i j; fin_cases i <;> fin_cases j <;> simp
  · show ((Slater.up neel)ᴴ * Slater.up neel).det ≠ 0
    rw [neel_up]; simp [Matrix.mul_apply]
  · show ((Slater.dn neel)ᴴ * Slater.dn neel).det ≠ 0
    rw [neel_dn]; simp [Matrix.mul_apply]

end Verif.Step
