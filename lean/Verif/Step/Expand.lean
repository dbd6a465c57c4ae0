import Mathlib.Algebra.Polynomial.Derivative
import Mathlib.Analysis.Complex.Exponential
import Mathlib.Analysis.Complex.Norm
import Mathlib.Analysis.Complex.Basic
import Mathlib.LinearAlgebra.Matrix.Determinant.Basic
import Mathlib.LinearAlgebra.Matrix.RowCol
import Mathlib.Tactic.LinearCombination
import Mathlib.Tactic.Positivity.Finset

/-!
# Expansions in the square root of the time step

Functions of `s = √dt` and of the auxiliary fields `x` which agree with a polynomial of `s` up to a
remainder `s³` times a function of at most exponential growth in the fields, and their closure under
sums, products and determinants.  Nothing here refers to the model of the code.
-/

namespace Verif.Step

open Polynomial Finset

variable {nx : Nat}

/-- Exponential growth in the fields. -/
noncomputable def wt (c : ℝ) (x : Fin nx → ℝ) : ℝ := Real.exp (c * ∑ i, |x i|)

theorem wt_pos (c : ℝ) (x : Fin nx → ℝ) : 0 < wt c x := Real.exp_pos _

theorem wt_mul (c d : ℝ) (x : Fin nx → ℝ) : wt c x * wt d x = wt (c + d) x := by
  rw [wt, wt, wt, ← Real.exp_add, add_mul]

theorem wt_mono {c d : ℝ} (h : c ≤ d) (x : Fin nx → ℝ) : wt c x ≤ wt d x :=
  Real.exp_le_exp.mpr (mul_le_mul_of_nonneg_right h (sum_nonneg fun _ _ => abs_nonneg _))

theorem one_le_wt {c : ℝ} (h : 0 ≤ c) (x : Fin nx → ℝ) : 1 ≤ wt c x :=
  Real.one_le_exp (mul_nonneg h (sum_nonneg fun _ _ => abs_nonneg _))

/-- The polynomial of degree two in `s`. -/
noncomputable def tr (p : ℂ[X]) (s : ℝ) : ℂ :=
  p.coeff 0 + (s : ℂ) * p.coeff 1 + (s : ℂ) ^ 2 * p.coeff 2

/-- `f` agrees with the polynomial `p` up to third order in `s`. -/
def Ex (f : ℝ → (Fin nx → ℝ) → ℂ) (p : (Fin nx → ℝ) → ℂ[X]) : Prop :=
  ∃ C c : ℝ, 0 ≤ C ∧ 0 ≤ c ∧ ∀ x, (‖(p x).coeff 0‖ ≤ C * wt c x ∧ ‖(p x).coeff 1‖ ≤ C * wt c x ∧
    ‖(p x).coeff 2‖ ≤ C * wt c x) ∧
    ∀ s : ℝ, 0 ≤ s → s ≤ 1 → ‖f s x - tr (p x) s‖ ≤ s ^ 3 * (C * wt c x)

theorem coeff_two_mul (p q : ℂ[X]) :
    (p * q).coeff 2 = p.coeff 0 * q.coeff 2 + p.coeff 1 * q.coeff 1 + p.coeff 2 * q.coeff 0 := by
  rw [coeff_mul, Finset.Nat.sum_antidiagonal_eq_sum_range_succ_mk]
  simp [sum_range_succ]

theorem coeff_one_mul (p q : ℂ[X]) :
    (p * q).coeff 1 = p.coeff 0 * q.coeff 1 + p.coeff 1 * q.coeff 0 := by
  rw [coeff_mul, Finset.Nat.sum_antidiagonal_eq_sum_range_succ_mk]
  simp [sum_range_succ]

theorem norm_tr_le {p : ℂ[X]} {K : ℝ} (h0 : ‖p.coeff 0‖ ≤ K) (h1 : ‖p.coeff 1‖ ≤ K)
    (h2 : ‖p.coeff 2‖ ≤ K) {s : ℝ} (hs : 0 ≤ s) (hs1 : s ≤ 1) : ‖tr p s‖ ≤ 3 * K := by
  have hK : 0 ≤ K := le_trans (norm_nonneg _) h0
  have e1 : ‖(s : ℂ) * p.coeff 1‖ ≤ K := by
    rw [norm_mul, Complex.norm_real, Real.norm_of_nonneg hs]
    calc s * ‖p.coeff 1‖ ≤ 1 * K := mul_le_mul hs1 h1 (norm_nonneg _) zero_le_one
      _ = K := one_mul _
  have e2 : ‖(s : ℂ) ^ 2 * p.coeff 2‖ ≤ K := by
    rw [norm_mul, norm_pow, Complex.norm_real, Real.norm_of_nonneg hs]
    calc s ^ 2 * ‖p.coeff 2‖ ≤ 1 * K :=
          mul_le_mul (pow_le_one₀ hs hs1) h2 (norm_nonneg _) zero_le_one
      _ = K := one_mul _
  calc ‖tr p s‖ ≤ ‖p.coeff 0‖ + ‖(s : ℂ) * p.coeff 1‖ + ‖(s : ℂ) ^ 2 * p.coeff 2‖ := norm_add₃_le
    _ ≤ 3 * K := by linarith

theorem Ex.add {f g : ℝ → (Fin nx → ℝ) → ℂ} {p q : (Fin nx → ℝ) → ℂ[X]} (hf : Ex f p)
    (hg : Ex g q) : Ex (fun s x => f s x + g s x) (fun x => p x + q x) := by
  obtain ⟨C, c, hC, hc, h⟩ := hf
  obtain ⟨D, d, hD, hd, k⟩ := hg
  refine ⟨C + D, max c d, by positivity, le_max_of_le_left hc, fun x => ?_⟩
  obtain ⟨⟨a0, a1, a2⟩, a3⟩ := h x
  obtain ⟨⟨b0, b1, b2⟩, b3⟩ := k x
  have hw : C * wt c x + D * wt d x ≤ (C + D) * wt (max c d) x := by
    rw [add_mul]
    exact add_le_add (mul_le_mul_of_nonneg_left (wt_mono (le_max_left _ _) x) hC)
      (mul_le_mul_of_nonneg_left (wt_mono (le_max_right _ _) x) hD)
  have hk : ∀ j, ‖(p x).coeff j‖ ≤ C * wt c x → ‖(q x).coeff j‖ ≤ D * wt d x →
      ‖(p x + q x).coeff j‖ ≤ (C + D) * wt (max c d) x := by
    intro j h1 h2
    rw [coeff_add]
    exact (norm_add_le _ _).trans ((add_le_add h1 h2).trans hw)
  refine ⟨⟨hk 0 a0 b0, hk 1 a1 b1, hk 2 a2 b2⟩, fun s hs hs1 => ?_⟩
  have e : f s x + g s x - tr (p x + q x) s = (f s x - tr (p x) s) + (g s x - tr (q x) s) := by
    simp only [tr, coeff_add]; ring
  rw [e]
  calc ‖(f s x - tr (p x) s) + (g s x - tr (q x) s)‖
      ≤ s ^ 3 * (C * wt c x) + s ^ 3 * (D * wt d x) :=
        (norm_add_le _ _).trans (add_le_add (a3 s hs hs1) (b3 s hs hs1))
    _ = s ^ 3 * (C * wt c x + D * wt d x) := by ring
    _ ≤ _ := mul_le_mul_of_nonneg_left hw (by positivity)

theorem Ex.mul {f g : ℝ → (Fin nx → ℝ) → ℂ} {p q : (Fin nx → ℝ) → ℂ[X]} (hf : Ex f p)
    (hg : Ex g q) : Ex (fun s x => f s x * g s x) (fun x => p x * q x) := by
  obtain ⟨C, c, hC, hc, h⟩ := hf
  obtain ⟨D, d, hD, hd, k⟩ := hg
  refine ⟨10 * (C * D), c + d, by positivity, by positivity, fun x => ?_⟩
  obtain ⟨⟨a0, a1, a2⟩, a3⟩ := h x
  obtain ⟨⟨b0, b1, b2⟩, b3⟩ := k x
  have hw : 10 * (C * D) * wt (c + d) x = 10 * ((C * wt c x) * (D * wt d x)) := by
    rw [← wt_mul]; ring
  rw [hw]
  set K := C * wt c x with hK
  set J := D * wt d x with hJ
  have hK0 : 0 ≤ K := mul_nonneg hC (wt_pos _ _).le
  have hJ0 : 0 ≤ J := mul_nonneg hD (wt_pos _ _).le
  have hKJ : 0 ≤ K * J := mul_nonneg hK0 hJ0
  have hm : ∀ {a b : ℂ}, ‖a‖ ≤ K → ‖b‖ ≤ J → ‖a * b‖ ≤ K * J := by
    intro a b ha hb
    rw [norm_mul]
    exact mul_le_mul ha hb (norm_nonneg _) hK0
  refine ⟨⟨?_, ?_, ?_⟩, fun s hs hs1 => ?_⟩
  · rw [mul_coeff_zero]
    have := hm a0 b0
    linarith
  · rw [coeff_one_mul]
    have := norm_add_le ((p x).coeff 0 * (q x).coeff 1) ((p x).coeff 1 * (q x).coeff 0)
    have := hm a0 b1
    have := hm a1 b0
    linarith
  · rw [coeff_two_mul]
    have := norm_add₃_le (a := (p x).coeff 0 * (q x).coeff 2) (b := (p x).coeff 1 * (q x).coeff 1)
      (c := (p x).coeff 2 * (q x).coeff 0)
    have := hm a0 b2
    have := hm a1 b1
    have := hm a2 b0
    linarith
  · have hs3 : (0 : ℝ) ≤ s ^ 3 := by positivity
    have e : f s x * g s x - tr (p x * q x) s = (f s x - tr (p x) s) * (g s x - tr (q x) s) +
        (f s x - tr (p x) s) * tr (q x) s + tr (p x) s * (g s x - tr (q x) s) +
        (s : ℂ) ^ 3 * ((p x).coeff 1 * (q x).coeff 2 + (p x).coeff 2 * (q x).coeff 1 +
          (s : ℂ) * ((p x).coeff 2 * (q x).coeff 2)) := by
      simp only [tr, mul_coeff_zero, coeff_one_mul, coeff_two_mul]; ring
    have n1 : ‖(f s x - tr (p x) s) * (g s x - tr (q x) s)‖ ≤ s ^ 3 * (K * J) := by
      rw [norm_mul]
      calc _ ≤ (s ^ 3 * K) * (s ^ 3 * J) :=
            mul_le_mul (a3 s hs hs1) (b3 s hs hs1) (norm_nonneg _) (by positivity)
        _ = s ^ 3 * (s ^ 3 * (K * J)) := by ring
        _ ≤ s ^ 3 * (1 * (K * J)) :=
            mul_le_mul_of_nonneg_left (mul_le_mul_of_nonneg_right (pow_le_one₀ hs hs1) hKJ) hs3
        _ = _ := by rw [one_mul]
    have n2 : ‖(f s x - tr (p x) s) * tr (q x) s‖ ≤ s ^ 3 * (3 * (K * J)) := by
      rw [norm_mul]
      calc _ ≤ (s ^ 3 * K) * (3 * J) :=
            mul_le_mul (a3 s hs hs1) (norm_tr_le b0 b1 b2 hs hs1) (norm_nonneg _) (by positivity)
        _ = _ := by ring
    have n3 : ‖tr (p x) s * (g s x - tr (q x) s)‖ ≤ s ^ 3 * (3 * (K * J)) := by
      rw [norm_mul]
      calc _ ≤ (3 * K) * (s ^ 3 * J) :=
            mul_le_mul (norm_tr_le a0 a1 a2 hs hs1) (b3 s hs hs1) (norm_nonneg _) (by positivity)
        _ = _ := by ring
    have n4 : ‖(s : ℂ) ^ 3 * ((p x).coeff 1 * (q x).coeff 2 + (p x).coeff 2 * (q x).coeff 1 +
          (s : ℂ) * ((p x).coeff 2 * (q x).coeff 2))‖ ≤ s ^ 3 * (3 * (K * J)) := by
      rw [norm_mul, norm_pow, Complex.norm_real, Real.norm_of_nonneg hs]
      refine mul_le_mul_of_nonneg_left ?_ hs3
      have e3 : ‖(s : ℂ) * ((p x).coeff 2 * (q x).coeff 2)‖ ≤ K * J := by
        rw [norm_mul, Complex.norm_real, Real.norm_of_nonneg hs]
        calc _ ≤ 1 * (K * J) := mul_le_mul hs1 (hm a2 b2) (norm_nonneg _) zero_le_one
          _ = _ := one_mul _
      have := norm_add₃_le (a := (p x).coeff 1 * (q x).coeff 2) (b := (p x).coeff 2 * (q x).coeff 1)
        (c := (s : ℂ) * ((p x).coeff 2 * (q x).coeff 2))
      have := hm a1 b2
      have := hm a2 b1
      linarith
    rw [e]
    calc _ ≤ s ^ 3 * (K * J) + s ^ 3 * (3 * (K * J)) + s ^ 3 * (3 * (K * J)) +
          s ^ 3 * (3 * (K * J)) :=
          (norm_add_le _ _).trans (add_le_add (norm_add₃_le.trans (add_le_add_three n1 n2 n3)) n4)
      _ = _ := by ring

theorem Ex.const (a : ℂ) : Ex (nx := nx) (fun _ _ => a) (fun _ => C a) := by
  refine ⟨‖a‖, 0, norm_nonneg _, le_rfl, fun x => ?_⟩
  have hw : wt 0 x = 1 := by simp [wt]
  refine ⟨⟨?_, ?_, ?_⟩, fun s hs hs1 => ?_⟩
  · rw [hw]; simp
  · rw [hw, coeff_C]; simp
  · rw [hw, coeff_C]; simp
  · have : a - tr (C a) s = 0 := by simp [tr, coeff_C]
    rw [this, hw, norm_zero]; positivity

theorem Ex.congr {f g : ℝ → (Fin nx → ℝ) → ℂ} {p : (Fin nx → ℝ) → ℂ[X]} (hf : Ex f p)
    (h : ∀ s x, 0 ≤ s → s ≤ 1 → g s x = f s x) : Ex g p := by
  obtain ⟨C, c, hC, hc, k⟩ := hf
  exact ⟨C, c, hC, hc, fun x => ⟨(k x).1, fun s hs hs1 => by
    rw [h s x hs hs1]; exact (k x).2 s hs hs1⟩⟩

theorem Ex.sum {ι : Type*} (S : Finset ι) {f : ι → ℝ → (Fin nx → ℝ) → ℂ}
    {p : ι → (Fin nx → ℝ) → ℂ[X]} (h : ∀ i ∈ S, Ex (f i) (p i)) :
    Ex (fun s x => ∑ i ∈ S, f i s x) (fun x => ∑ i ∈ S, p i x) := by
  classical
  induction S using Finset.induction_on with
  | empty => simpa using Ex.const (nx := nx) 0
  | insert a S ha ih =>
    have h1 := h a (mem_insert_self _ _)
    have h2 := ih fun i hi => h i (mem_insert_of_mem hi)
    simpa only [sum_insert ha] using h1.add h2

theorem Ex.prod {ι : Type*} (S : Finset ι) {f : ι → ℝ → (Fin nx → ℝ) → ℂ}
    {p : ι → (Fin nx → ℝ) → ℂ[X]} (h : ∀ i ∈ S, Ex (f i) (p i)) :
    Ex (fun s x => ∏ i ∈ S, f i s x) (fun x => ∏ i ∈ S, p i x) := by
  classical
  induction S using Finset.induction_on with
  | empty => simpa using Ex.const (nx := nx) 1
  | insert a S ha ih =>
    have h1 := h a (mem_insert_self _ _)
    have h2 := ih fun i hi => h i (mem_insert_of_mem hi)
    simpa only [prod_insert ha] using h1.mul h2

/-- Matrices, entry by entry. -/
def ExM {a b : Type*} (M : ℝ → (Fin nx → ℝ) → Matrix a b ℂ)
    (P : (Fin nx → ℝ) → Matrix a b ℂ[X]) : Prop :=
  ∀ i j, Ex (fun s x => M s x i j) (fun x => P x i j)

theorem ExM.add {a b : Type*} {M N : ℝ → (Fin nx → ℝ) → Matrix a b ℂ}
    {P Q : (Fin nx → ℝ) → Matrix a b ℂ[X]} (hM : ExM M P) (hN : ExM N Q) :
    ExM (fun s x => M s x + N s x) (fun x => P x + Q x) := fun i j => (hM i j).add (hN i j)

theorem ExM.mul {a b c : Type*} [Fintype b] {M : ℝ → (Fin nx → ℝ) → Matrix a b ℂ}
    {N : ℝ → (Fin nx → ℝ) → Matrix b c ℂ}
    {P : (Fin nx → ℝ) → Matrix a b ℂ[X]} {Q : (Fin nx → ℝ) → Matrix b c ℂ[X]}
    (hM : ExM M P) (hN : ExM N Q) : ExM (fun s x => M s x * N s x) (fun x => P x * Q x) := by
  intro i j
  simp only [Matrix.mul_apply]
  exact Ex.sum _ fun l _ => (hM i l).mul (hN l j)

theorem ExM.const {a b : Type*} (A : Matrix a b ℂ) :
    ExM (nx := nx) (fun _ _ => A) (fun _ => A.map C) := fun i j => Ex.const (A i j)

theorem ExM.sum {ι a b : Type*} (S : Finset ι) {M : ι → ℝ → (Fin nx → ℝ) → Matrix a b ℂ}
    {P : ι → (Fin nx → ℝ) → Matrix a b ℂ[X]} (h : ∀ i ∈ S, ExM (M i) (P i)) :
    ExM (fun s x => ∑ i ∈ S, M i s x) (fun x => ∑ i ∈ S, P i x) := by
  intro i j
  simp only [Matrix.sum_apply]
  exact Ex.sum _ fun l hl => h l hl i j

theorem ExM.smul {a b : Type*} (r : ℂ) {M : ℝ → (Fin nx → ℝ) → Matrix a b ℂ}
    {P : (Fin nx → ℝ) → Matrix a b ℂ[X]} (hM : ExM M P) :
    ExM (fun s x => r • M s x) (fun x => (C r) • P x) := by
  intro i j
  simp only [Matrix.smul_apply, smul_eq_mul]
  exact (Ex.const r).mul (hM i j)

theorem ExM.pow {a : Type*} [Fintype a] [DecidableEq a] {M : ℝ → (Fin nx → ℝ) → Matrix a a ℂ}
    {P : (Fin nx → ℝ) → Matrix a a ℂ[X]} (hM : ExM M P) (n : Nat) :
    ExM (fun s x => M s x ^ n) (fun x => P x ^ n) := by
  induction n with
  | zero =>
    have h := ExM.const (nx := nx) (1 : Matrix a a ℂ)
    simp only [pow_zero]
    have e : (1 : Matrix a a ℂ).map (C : ℂ → ℂ[X]) = 1 := Matrix.map_one _ C_0 C_1
    rw [e] at h
    exact h
  | succ n ih =>
    simp only [pow_succ]
    exact ih.mul hM

theorem ExM.det {a : Type*} [Fintype a] [DecidableEq a] {M : ℝ → (Fin nx → ℝ) → Matrix a a ℂ}
    {P : (Fin nx → ℝ) → Matrix a a ℂ[X]} (hM : ExM M P) :
    Ex (fun s x => (M s x).det) (fun x => (P x).det) := by
  simp only [Matrix.det_apply']
  refine Ex.sum _ fun σ _ => ?_
  have h := (Ex.const (nx := nx) ((Equiv.Perm.sign σ : ℤ) : ℂ)).mul
    (Ex.prod univ fun i (_ : i ∈ univ) => hM (σ i) i)
  simpa using h

/-- A linear form in the fields. -/
theorem lin_le (l : Fin nx → ℂ) (x : Fin nx → ℝ) :
    ‖∑ i, (x i : ℂ) * l i‖ ≤ (∑ i, ‖l i‖) * ∑ i, |x i| := by
  calc ‖∑ i, (x i : ℂ) * l i‖ ≤ ∑ i, |x i| * ‖l i‖ := by
        refine (norm_sum_le _ _).trans (sum_le_sum fun i _ => ?_)
        rw [norm_mul, Complex.norm_real, Real.norm_eq_abs]
    _ ≤ ∑ i, |x i| * ∑ j, ‖l j‖ := sum_le_sum fun i _ => mul_le_mul_of_nonneg_left
        (single_le_sum (f := fun j => ‖l j‖) (fun _ _ => norm_nonneg _) (mem_univ i)) (abs_nonneg _)
    _ = _ := by rw [← sum_mul, mul_comm]

theorem sum_abs_le_wt (x : Fin nx → ℝ) : ∑ i, |x i| ≤ wt 1 x := by
  rw [wt, one_mul]
  have := Real.add_one_le_exp (∑ i, |x i|)
  linarith

theorem Ex.lin (l : Fin nx → ℂ) :
    Ex (fun s x => (s : ℂ) * ∑ i, (x i : ℂ) * l i) (fun x => X * C (∑ i, (x i : ℂ) * l i)) := by
  refine ⟨∑ i, ‖l i‖, 1, sum_nonneg fun _ _ => norm_nonneg _, zero_le_one, fun x => ?_⟩
  have hL : 0 ≤ ∑ i, ‖l i‖ := sum_nonneg fun _ _ => norm_nonneg _
  have hb : 0 ≤ (∑ i, ‖l i‖) * wt 1 x := mul_nonneg hL (wt_pos _ _).le
  have h := (lin_le l x).trans (mul_le_mul_of_nonneg_left (sum_abs_le_wt x) hL)
  refine ⟨⟨?_, ?_, ?_⟩, fun s hs hs1 => ?_⟩
  · simpa using hb
  · rw [coeff_X_mul, coeff_C_zero]; exact h
  · rw [coeff_X_mul, coeff_C]; simpa using hb
  · have : (s : ℂ) * (∑ i, (x i : ℂ) * l i) - tr (X * C (∑ i, (x i : ℂ) * l i)) s = 0 := by
      simp only [tr, mul_coeff_zero, coeff_X_zero, zero_mul, coeff_X_mul, coeff_C_zero]
      rw [coeff_C, if_neg one_ne_zero]
      ring
    rw [this, norm_zero]
    positivity

/-- The exponential of a linear form. -/
theorem Ex.exp_lin (l : Fin nx → ℂ) :
    Ex (fun s x => Complex.exp ((s : ℂ) * ∑ i, (x i : ℂ) * l i))
      (fun x => 1 + X * C (∑ i, (x i : ℂ) * l i) + X ^ 2 * C ((∑ i, (x i : ℂ) * l i) ^ 2 / 2)) := by
  set Λ := ∑ i, ‖l i‖ with hΛ
  have hL : 0 ≤ Λ := sum_nonneg fun _ _ => norm_nonneg _
  refine ⟨1 + Λ + Λ ^ 2 + Λ ^ 3, 3 + Λ, by positivity, by positivity, fun x => ?_⟩
  set S := ∑ i, |x i| with hS
  set y := ∑ i, (x i : ℂ) * l i with hy
  have hy1 : ‖y‖ ≤ Λ * S := lin_le l x
  have hS0 : 0 ≤ S := sum_nonneg fun _ _ => abs_nonneg _
  have hS1 : S ≤ wt 1 x := sum_abs_le_wt x
  have hw2 : wt 1 x ^ 2 = wt 2 x := by rw [sq, wt_mul]; norm_num
  have hw3 : wt 1 x ^ 3 = wt 3 x := by rw [pow_succ, hw2, wt_mul]; norm_num
  have hyw : ‖y‖ ≤ Λ * wt 1 x := hy1.trans (mul_le_mul_of_nonneg_left hS1 hL)
  have hwp := wt_pos (3 + Λ) x
  have hC : ∀ {r w : ℝ}, 0 ≤ r → r ≤ 1 + Λ + Λ ^ 2 + Λ ^ 3 → 0 ≤ w → w ≤ wt (3 + Λ) x →
      r * w ≤ (1 + Λ + Λ ^ 2 + Λ ^ 3) * wt (3 + Λ) x :=
    fun hr hr1 hw hw1 => mul_le_mul hr1 hw1 hw (hr.trans hr1)
  have c0 : (1 + X * C y + X ^ 2 * C (y ^ 2 / 2) : ℂ[X]).coeff 0 = 1 := by
    simp [coeff_one]
  have c1 : (1 + X * C y + X ^ 2 * C (y ^ 2 / 2) : ℂ[X]).coeff 1 = y := by
    simp [coeff_one, coeff_X_pow]
  have c2 : (1 + X * C y + X ^ 2 * C (y ^ 2 / 2) : ℂ[X]).coeff 2 = y ^ 2 / 2 := by
    simp [coeff_one, coeff_X]
  refine ⟨⟨?_, ?_, ?_⟩, fun s hs hs1 => ?_⟩
  · rw [c0, norm_one]
    have := hC (r := 1) (w := 1) zero_le_one
      (by have := pow_nonneg hL 2; have := pow_nonneg hL 3; linarith) zero_le_one
      (one_le_wt (by positivity) x)
    linarith
  · rw [c1]
    exact hyw.trans (hC hL (by have := pow_nonneg hL 2; have := pow_nonneg hL 3; linarith)
      (wt_pos _ _).le (wt_mono (by linarith) x))
  · rw [c2, norm_div, norm_pow]
    have h2 : ‖(2 : ℂ)‖ = 2 := by norm_num
    rw [h2]
    have e : ‖y‖ ^ 2 ≤ Λ ^ 2 * wt 2 x := by
      rw [← hw2, ← mul_pow]
      exact pow_le_pow_left₀ (norm_nonneg _) hyw 2
    have e' := hC (pow_nonneg hL 2) (by have := pow_nonneg hL 3; linarith) (wt_pos 2 x).le
      (wt_mono (by linarith) x)
    have := sq_nonneg ‖y‖
    linarith
  · have e : Complex.exp ((s : ℂ) * y) - tr (1 + X * C y + X ^ 2 * C (y ^ 2 / 2)) s =
        Complex.exp ((s : ℂ) * y) - ∑ m ∈ range 3, ((s : ℂ) * y) ^ m / (m.factorial : ℂ) := by
      rw [tr, c0, c1, c2]
      simp [sum_range_succ, Nat.factorial]
      ring
    rw [e]
    refine (Complex.norm_exp_sub_sum_le_norm_mul_exp _ 3).trans ?_
    have n1 : ‖(s : ℂ) * y‖ = s * ‖y‖ := by
      rw [norm_mul, Complex.norm_real, Real.norm_of_nonneg hs]
    rw [n1, mul_pow, mul_assoc]
    refine mul_le_mul_of_nonneg_left ?_ (by positivity)
    have e3 : ‖y‖ ^ 3 ≤ Λ ^ 3 * wt 3 x := by
      rw [← hw3, ← mul_pow]
      exact pow_le_pow_left₀ (norm_nonneg _) hyw 3
    have e4 : Real.exp (s * ‖y‖) ≤ wt Λ x := by
      rw [wt]
      refine Real.exp_le_exp.mpr ?_
      calc s * ‖y‖ ≤ 1 * ‖y‖ := mul_le_mul_of_nonneg_right hs1 (norm_nonneg _)
        _ ≤ _ := by rw [one_mul]; exact hy1
    calc ‖y‖ ^ 3 * Real.exp (s * ‖y‖) ≤ (Λ ^ 3 * wt 3 x) * wt Λ x :=
          mul_le_mul e3 e4 (Real.exp_pos _).le (by have := wt_pos 3 x; positivity)
      _ = Λ ^ 3 * wt (3 + Λ) x := by rw [mul_assoc, wt_mul]
      _ ≤ _ := mul_le_mul_of_nonneg_right
          (by have := pow_nonneg hL 2; linarith) hwp.le

/-- A function of `s` alone with an error of order `s⁴`. -/
theorem Ex.ofBound {f : ℝ → ℂ} {a b : ℂ} {K : ℝ}
    (h : ∀ s, 0 ≤ s → s ≤ 1 → ‖f s - (a + (s : ℂ) ^ 2 * b)‖ ≤ K * s ^ 4) :
    Ex (nx := nx) (fun s _ => f s) (fun _ => C a + X ^ 2 * C b) := by
  have c0 : (C a + X ^ 2 * C b : ℂ[X]).coeff 0 = a := by simp
  have c1 : (C a + X ^ 2 * C b : ℂ[X]).coeff 1 = 0 := by simp [coeff_C, coeff_X_pow]
  have c2 : (C a + X ^ 2 * C b : ℂ[X]).coeff 2 = b := by simp [coeff_C]
  have hK : 0 ≤ K := by
    have := (norm_nonneg _).trans (h 1 zero_le_one le_rfl)
    simpa using this
  refine ⟨‖a‖ + ‖b‖ + K, 0, by positivity, le_rfl, fun x => ?_⟩
  have hw : wt 0 x = 1 := by simp [wt]
  have := norm_nonneg a
  have := norm_nonneg b
  rw [c0, c1, c2, hw, mul_one]
  refine ⟨⟨by linarith, by rw [norm_zero]; positivity, by linarith⟩, fun s hs hs1 => ?_⟩
  have e : tr (C a + X ^ 2 * C b) s = a + (s : ℂ) ^ 2 * b := by rw [tr, c0, c1, c2]; ring
  rw [e]
  refine (h s hs hs1).trans ?_
  have : K * s ^ 4 = s ^ 3 * (s * K) := by ring
  rw [this]
  refine mul_le_mul_of_nonneg_left ?_ (by positivity)
  calc s * K ≤ 1 * K := mul_le_mul_of_nonneg_right hs1 hK
    _ ≤ _ := by linarith

/-! ## Coefficients of a determinant -/

/-- Derivative of a determinant of polynomials. -/
theorem derivative_det {n : Nat} (M : Matrix (Fin n) (Fin n) ℂ[X]) :
    derivative M.det = ∑ i, (M.updateCol i fun r => derivative (M r i)).det := by
  simp only [Matrix.det_apply', derivative_sum, derivative_mul, derivative_intCast, zero_mul, zero_add]
  rw [sum_comm]
  refine sum_congr rfl fun σ _ => ?_
  rw [derivative_prod_finset, mul_sum]
  refine sum_congr rfl fun i _ => ?_
  congr 1
  rw [← mul_prod_erase univ (fun j => (M.updateCol i fun r => derivative (M r i)) (σ j) j) (mem_univ i),
    mul_comm]
  congr 1
  · simp
  · refine prod_congr rfl fun j hj => ?_
    rw [Matrix.updateCol_ne (ne_of_mem_erase hj)]

theorem coeff_one_eq (p : ℂ[X]) : p.coeff 1 = (derivative p).eval 0 := by
  rw [← coeff_zero_eq_eval_zero, coeff_derivative]; simp

theorem coeff_two_eq (p : ℂ[X]) : p.coeff 2 = (derivative (derivative p)).eval 0 / 2 := by
  rw [← coeff_zero_eq_eval_zero, coeff_derivative, coeff_derivative]; norm_num

/-- Coefficient `k` of every entry. -/
noncomputable def cm {a b : Type*} (k : Nat) (M : Matrix a b ℂ[X]) : Matrix a b ℂ := M.map fun p => p.coeff k

theorem eval_det_updateCol {n : Nat} (M : Matrix (Fin n) (Fin n) ℂ[X]) :
    M.det.eval 0 = (M.map (eval 0)).det := by
  have := RingHom.map_det (evalRingHom (0 : ℂ)) M
  simpa using this

theorem det_coeff_zero {n : Nat} (M : Matrix (Fin n) (Fin n) ℂ[X]) : M.det.coeff 0 = (cm 0 M).det := by
  rw [coeff_zero_eq_eval_zero, eval_det_updateCol]
  congr 1
  ext i j
  simp [cm, coeff_zero_eq_eval_zero]

theorem map_updateCol' {n : Nat} (M : Matrix (Fin n) (Fin n) ℂ[X]) (i : Fin n) (v : Fin n → ℂ[X]) :
    (M.updateCol i v).map (eval 0) = (cm 0 M).updateCol i (fun r => (v r).coeff 0) := by
  ext a b
  simp only [Matrix.map_apply, Matrix.updateCol_apply, cm]
  split <;> rw [coeff_zero_eq_eval_zero]

theorem det_coeff_one {n : Nat} (M : Matrix (Fin n) (Fin n) ℂ[X]) :
    M.det.coeff 1 = ∑ i, ((cm 0 M).updateCol i ((cm 1 M).col i)).det := by
  rw [coeff_one_eq, derivative_det, eval_finset_sum]
  refine sum_congr rfl fun i _ => ?_
  rw [eval_det_updateCol, map_updateCol']
  congr 2
  funext r
  simp [cm, Matrix.col_apply, coeff_derivative]

theorem det_coeff_two {n : Nat} (M : Matrix (Fin n) (Fin n) ℂ[X]) :
    M.det.coeff 2 = ∑ i, ((cm 0 M).updateCol i ((cm 2 M).col i)).det +
      (1 / 2 : ℂ) * ∑ i, ∑ j, if i = j then 0 else
        (((cm 0 M).updateCol i ((cm 1 M).col i)).updateCol j ((cm 1 M).col j)).det := by
  rw [coeff_two_eq, derivative_det, derivative_sum, eval_finset_sum]
  have h : ∀ i : Fin n, (derivative (M.updateCol i fun r => derivative (M r i)).det).eval 0 =
      2 * ((cm 0 M).updateCol i ((cm 2 M).col i)).det + ∑ j, if i = j then 0 else
        (((cm 0 M).updateCol i ((cm 1 M).col i)).updateCol j ((cm 1 M).col j)).det := by
    intro i
    rw [derivative_det, eval_finset_sum, ← add_sum_erase _ _ (mem_univ i)]
    congr 1
    · rw [eval_det_updateCol, map_updateCol']
      have e : (cm 0 (M.updateCol i fun r => derivative (M r i))).updateCol i
          (fun r => (derivative ((M.updateCol i fun r => derivative (M r i)) r i)).coeff 0) =
          (cm 0 M).updateCol i ((2 : ℂ) • (cm 2 M).col i) := by
        ext a b
        by_cases hb : b = i
        · subst hb
          simp [cm, coeff_derivative]
          ring
        · simp [cm, hb]
      rw [e, Matrix.det_updateCol_smul]
    · rw [← add_sum_erase univ (fun j => if i = j then (0 : ℂ) else _) (mem_univ i), if_pos rfl, zero_add]
      refine sum_congr rfl fun j hj => ?_
      have hne : i ≠ j := (ne_of_mem_erase hj).symm
      rw [if_neg hne, eval_det_updateCol, map_updateCol']
      congr 1
      ext a b
      by_cases hb : b = j
      · subst hb
        simp [cm, coeff_derivative, Matrix.updateCol_ne hne.symm]
      · by_cases hi : b = i
        · subst hi
          simp [cm, hb, coeff_derivative]
        · simp [cm, hb, hi]
  rw [sum_congr rfl fun i _ => h i, sum_add_distrib, ← mul_sum]
  ring

theorem cm_mul_zero {a b c : Type*} [Fintype b] (M : Matrix a b ℂ[X]) (N : Matrix b c ℂ[X]) :
    cm 0 (M * N) = cm 0 M * cm 0 N := by
  ext i j
  simp [cm, Matrix.mul_apply, finset_sum_coeff]

theorem cm_mul_one {a b c : Type*} [Fintype b] (M : Matrix a b ℂ[X]) (N : Matrix b c ℂ[X]) :
    cm 1 (M * N) = cm 0 M * cm 1 N + cm 1 M * cm 0 N := by
  ext i j
  simp [cm, Matrix.mul_apply, finset_sum_coeff, coeff_one_mul, sum_add_distrib]

theorem cm_mul_two {a b c : Type*} [Fintype b] (M : Matrix a b ℂ[X]) (N : Matrix b c ℂ[X]) :
    cm 2 (M * N) = cm 0 M * cm 2 N + cm 1 M * cm 1 N + cm 2 M * cm 0 N := by
  ext i j
  simp [cm, Matrix.mul_apply, finset_sum_coeff, coeff_two_mul, sum_add_distrib]

theorem cm_const {a b : Type*} (A : Matrix a b ℂ) : cm 0 (A.map C) = A ∧ cm 1 (A.map C) = 0 ∧
    cm 2 (A.map C) = 0 := by
  refine ⟨?_, ?_, ?_⟩ <;> ext i j <;> simp [cm, coeff_C]

end Verif.Step
