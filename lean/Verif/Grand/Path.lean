import Verif.Grand.Sector
import Verif.Grand.Null

/-!
# Paths of auxiliary fields at finite temperature

For almost all fields the determinants along a path do not vanish, and the average of the trace over all numbers of
electrons of a path is the trace of powers of the averaged step.  Nothing here refers to the model of the code.
-/

namespace Verif.Grand

open Matrix Finset Polynomial MeasureTheory
open Verif.Step (tens spin half field stepTens avgOp genOp avg)
open Verif.Weights (density)

variable {m nx nu nd : Nat} {κ : Type} [Fintype κ] [DecidableEq κ]

/-! ## Matrices that are polynomials of one variable -/

/-- The entries are polynomials. -/
def PolyM (f : ℝ → Matrix κ κ ℂ) : Prop :=
  ∃ P : Matrix κ κ ℂ[X], ∀ t : ℝ, f t = (evalRingHom (t : ℂ)).mapMatrix P

theorem PolyM.const (A : Matrix κ κ ℂ) : PolyM fun _ => A := by
  refine ⟨(Polynomial.C : ℂ →+* ℂ[X]).mapMatrix A, fun t => ?_⟩
  ext i j
  simp

theorem PolyM.add {f g : ℝ → Matrix κ κ ℂ} (hf : PolyM f) (hg : PolyM g) : PolyM fun t => f t + g t := by
  obtain ⟨P, hP⟩ := hf
  obtain ⟨Q, hQ⟩ := hg
  exact ⟨P + Q, fun t => by beta_reduce; rw [hP, hQ, map_add]⟩

theorem PolyM.mul {f g : ℝ → Matrix κ κ ℂ} (hf : PolyM f) (hg : PolyM g) : PolyM fun t => f t * g t := by
  obtain ⟨P, hP⟩ := hf
  obtain ⟨Q, hQ⟩ := hg
  exact ⟨P * Q, fun t => by beta_reduce; rw [hP, hQ, map_mul]⟩

theorem PolyM.smul (r : ℂ) {f : ℝ → Matrix κ κ ℂ} (hf : PolyM f) : PolyM fun t => r • f t := by
  obtain ⟨P, hP⟩ := hf
  refine ⟨Polynomial.C r • P, fun t => ?_⟩
  beta_reduce
  rw [hP]
  ext i j
  simp

theorem PolyM.lin (A : Matrix κ κ ℂ) : PolyM fun t : ℝ => (t : ℂ) • A := by
  refine ⟨(X : ℂ[X]) • (Polynomial.C : ℂ →+* ℂ[X]).mapMatrix A, fun t => ?_⟩
  ext i j
  show (t : ℂ) * A i j = (X * Polynomial.C (A i j)).eval (t : ℂ)
  rw [eval_mul, eval_X, eval_C]

theorem PolyM.pow {f : ℝ → Matrix κ κ ℂ} (hf : PolyM f) (k : Nat) : PolyM fun t => f t ^ k := by
  obtain ⟨P, hP⟩ := hf
  exact ⟨P ^ k, fun t => by beta_reduce; rw [hP, map_pow]⟩

theorem PolyM.sum {ι : Type} (S : Finset ι) {f : ι → ℝ → Matrix κ κ ℂ} (hf : ∀ i, PolyM (f i)) :
    PolyM fun t => ∑ i ∈ S, f i t := by
  choose P hP using hf
  refine ⟨∑ i ∈ S, P i, fun t => ?_⟩
  rw [map_sum]
  exact sum_congr rfl fun i _ => hP i t

theorem PolyM.det {f : ℝ → Matrix κ κ ℂ} (hf : PolyM f) : ∃ p : ℂ[X], ∀ t : ℝ, (f t).det = p.eval (t : ℂ) := by
  obtain ⟨P, hP⟩ := hf
  refine ⟨P.det, fun t => ?_⟩
  rw [hP, ← RingHom.map_det, coe_evalRingHom]

/-! ## Slices -/

/-- The matrix of one time slice for the fields `x`. -/
noncomputable def slice (n : Nat) (K : Fin 2 → Matrix (Fin m) (Fin m) ℂ)
    (W : Fin nx → Fin 2 → Matrix (Fin m) (Fin m) ℂ) (s : ℝ) (x : Fin nx → ℝ) (σ : Fin 2) : Matrix (Fin m) (Fin m) ℂ :=
  half (K σ) s * (Slater.taylor n ((s : ℂ) • field (fun c => W c σ) x) * half (K σ) s)

/-- The product after further slices. -/
noncomputable def run (n : Nat) (K : Fin 2 → Matrix (Fin m) (Fin m) ℂ)
    (W : Fin nx → Fin 2 → Matrix (Fin m) (Fin m) ℂ) (s : ℝ) :
    List (Fin nx → ℝ) → (Fin 2 → Matrix (Fin m) (Fin m) ℂ) → Fin 2 → Matrix (Fin m) (Fin m) ℂ
  | [], C => C
  | x :: l, C => run n K W s l fun σ => slice n K W s x σ * C σ

variable {n : Nat} {K : Fin 2 → Matrix (Fin m) (Fin m) ℂ} {W : Fin nx → Fin 2 → Matrix (Fin m) (Fin m) ℂ} {s : ℝ}

theorem field_line (V : Fin nx → Matrix (Fin m) (Fin m) ℂ) (x v : Fin nx → ℝ) (t : ℝ) :
    field V (x + t • v) = field V x + (t : ℂ) • field V v := by
  simp only [field, Pi.add_apply, Pi.smul_apply, smul_eq_mul, Complex.ofReal_add, Complex.ofReal_mul, add_smul, sum_add_distrib,
    smul_sum, smul_smul]

theorem poly_slice (x v : Fin nx → ℝ) (σ : Fin 2) : PolyM fun t : ℝ => slice n K W s (x + t • v) σ := by
  refine (PolyM.const _).mul (PolyM.mul ?_ (PolyM.const _))
  simp only [Slater.taylor, field_line]
  refine PolyM.sum _ fun j => ?_
  exact (((PolyM.const _).add (PolyM.lin _)).smul _).pow j |>.smul _

theorem poly_run (l : List (Fin nx → ℝ)) (C : ℝ → Fin 2 → Matrix (Fin m) (Fin m) ℂ) (hC : ∀ σ, PolyM fun t => C t σ)
    (σ : Fin 2) : PolyM fun t => run n K W s l (C t) σ := by
  induction l generalizing C with
  | nil => exact hC σ
  | cons x l ih => exact ih (fun t σ => slice n K W s x σ * C t σ) fun σ => (PolyM.const _).mul (hC σ)

theorem continuous_slice (σ : Fin 2) : Continuous fun x : Fin nx → ℝ => slice n K W s x σ := by
  unfold slice Slater.taylor field
  fun_prop

theorem continuous_run (l : List (Fin nx → ℝ)) (C : (Fin nx → ℝ) → Fin 2 → Matrix (Fin m) (Fin m) ℂ)
    (hC : ∀ σ, Continuous fun x => C x σ) (σ : Fin 2) : Continuous fun x => run n K W s l (C x) σ := by
  induction l generalizing C with
  | nil => exact hC σ
  | cons y l ih => exact ih (fun x σ => slice n K W s y σ * C x σ) fun σ => continuous_const.matrix_mul (hC σ)

theorem slice_zero (σ : Fin 2) : slice n K W s 0 σ = half (K σ) s * half (K σ) s := by
  have : Slater.taylor n ((s : ℂ) • field (fun c => W c σ) 0) = 1 := by
    have h0 : field (fun c => W c σ) (0 : Fin nx → ℝ) = 0 := by simp [field]
    rw [h0, smul_zero, Slater.taylor, sum_eq_single 0]
    · simp
    · intro j _ hj; rw [zero_pow hj, smul_zero]
    · simp
  rw [slice, this, one_mul]

/-- For almost all fields the slice is invertible. -/
theorem slice_det_ae : ∀ᵐ x : Fin nx → ℝ, ∀ σ, (slice n K W s x σ).det ≠ 0 := by
  rw [ae_all_iff]
  intro σ
  refine ae_ne_zero (f := fun x => (slice n K W s x σ).det) (continuous_slice σ).matrix_det (x0 := 0) ?_
    fun v => (poly_slice 0 v σ).det
  rw [slice_zero, Matrix.det_mul]
  exact mul_ne_zero (Step.exp_det_ne_zero _) (Step.exp_det_ne_zero _)

/-! ## Determinants along a path -/

/-- With `rem` slices to come, for every number of further slices there are fields after which the determinants with
the trial propagator in the remaining slices do not vanish. -/
def Reach (n : Nat) (K : Fin 2 → Matrix (Fin m) (Fin m) ℂ) (W : Fin nx → Fin 2 → Matrix (Fin m) (Fin m) ℂ) (s : ℝ)
    (BT : Fin 2 → Matrix (Fin m) (Fin m) ℂ) (rem : Nat) (C : Fin 2 → Matrix (Fin m) (Fin m) ℂ) : Prop :=
  ∀ k ≤ rem, ∃ xs : List (Fin nx → ℝ), xs.length = k ∧ ∀ σ, (1 + BT σ ^ (rem - k) * run n K W s xs C σ).det ≠ 0

theorem Reach.now {BT C : Fin 2 → Matrix (Fin m) (Fin m) ℂ} {rem : Nat} (h : Reach n K W s BT rem C) (σ : Fin 2) :
    (1 + BT σ ^ rem * C σ).det ≠ 0 := by
  obtain ⟨xs, hx, h⟩ := h 0 (Nat.zero_le _)
  rw [List.length_eq_zero_iff.1 hx] at h
  exact h σ

theorem Reach.step {BT C : Fin 2 → Matrix (Fin m) (Fin m) ℂ} {rem : Nat} (h : Reach n K W s BT (rem + 1) C) :
    ∀ᵐ x : Fin nx → ℝ, Reach n K W s BT rem fun σ => slice n K W s x σ * C σ := by
  have hk : ∀ k : Fin (rem + 1), ∀ᵐ x : Fin nx → ℝ, ∃ xs : List (Fin nx → ℝ), xs.length = k.val ∧
      ∀ σ, (1 + BT σ ^ (rem - k.val) * run n K W s xs (fun σ => slice n K W s x σ * C σ) σ).det ≠ 0 := by
    intro k
    obtain ⟨xs, hx, hd⟩ := h (k.val + 1) (by omega)
    cases xs with
    | nil => simp at hx
    | cons x0 l =>
      have hl : l.length = k.val := by simpa using hx
      have h1 : ∀ᵐ x : Fin nx → ℝ, ∀ σ, (1 + BT σ ^ (rem - k.val) *
          run n K W s l (fun σ => slice n K W s x σ * C σ) σ).det ≠ 0 := by
        rw [ae_all_iff]
        intro σ
        refine ae_ne_zero (f := fun x => (1 + BT σ ^ (rem - k.val) *
          run n K W s l (fun σ => slice n K W s x σ * C σ) σ).det) ?_ (x0 := x0) ?_ fun v => ?_
        · refine Continuous.matrix_det (continuous_const.add (continuous_const.matrix_mul ?_))
          exact continuous_run l (fun x σ => slice n K W s x σ * C σ)
            (fun σ => (continuous_slice σ).matrix_mul continuous_const) σ
        · have := hd σ
          rwa [Nat.add_sub_add_right] at this
        · refine PolyM.det ((PolyM.const _).add ((PolyM.const _).mul ?_))
          exact poly_run l (fun t σ => slice n K W s (x0 + t • v) σ * C σ)
            (fun σ => (poly_slice x0 v σ).mul (PolyM.const _)) σ
      filter_upwards [h1] with x hx
      exact ⟨l, hl, hx⟩
  rw [← ae_all_iff] at hk
  filter_upwards [hk] with x hx k hkr
  exact hx ⟨k, by omega⟩

/-! ## Averages -/

/-- The operator of one slice. -/
noncomputable def stepOps (n : Nat) (K : Fin 2 → Matrix (Fin m) (Fin m) ℂ)
    (W : Fin nx → Fin 2 → Matrix (Fin m) (Fin m) ℂ) (s : ℝ) (x : Fin nx → ℝ) : Ops m :=
  fun _ _ => stepTens n K W spin s x

/-- Its average. -/
noncomputable def meanOps (n : Nat) (K : Fin 2 → Matrix (Fin m) (Fin m) ℂ)
    (W : Fin nx → Fin 2 → Matrix (Fin m) (Fin m) ℂ) (mf : Fin nx → ℂ) (s : ℝ) : Ops m :=
  fun _ _ => avgOp n K W mf spin s

theorem stepOps_mul (x : Fin nx → ℝ) (C : Fin 2 → Matrix (Fin m) (Fin m) ℂ) :
    stepOps n K W s x * prodOp C = prodOp fun σ => slice n K W s x σ * C σ := by
  funext nu nd
  show stepTens n K W spin s x * tens _ = tens _
  rw [stepTens, Step.tens_mul]
  rfl

theorem avg_sum {ι : Type} (S : Finset ι) (f : ι → (Fin nx → ℝ) → ℂ)
    (h : ∀ i ∈ S, Integrable fun x => (density x : ℂ) * f i x) :
    avg (fun x => ∑ i ∈ S, f i x) = ∑ i ∈ S, avg (f i) := by
  unfold avg
  simp only [mul_sum]
  exact integral_finset_sum S h

/-- The average of a linear functional of the step. -/
theorem avg_linear (hn : 2 ≤ n) (mf : Fin nx → ℂ) (h0 : 0 ≤ s) (h1 : s ≤ 1) (σ : κ → Fin 2)
    (φ : Matrix (κ → Fin m) (κ → Fin m) ℂ →ₗ[ℂ] ℂ) :
    Integrable (fun x : Fin nx → ℝ => (density x : ℂ) * (Complex.exp ((s : ℂ) * ∑ a, (x a : ℂ) * -mf a) *
      φ (stepTens n K W σ s x))) ∧
    avg (fun x : Fin nx → ℝ => Complex.exp ((s : ℂ) * ∑ a, (x a : ℂ) * -mf a) * φ (stepTens n K W σ s x)) =
      φ (avgOp n K W mf σ s) := by
  have hφ : ∀ M : Matrix (κ → Fin m) (κ → Fin m) ℂ, φ M = ∑ f, ∑ g, M f g * φ (Matrix.single f g 1) := by
    intro M
    conv_lhs => rw [Matrix.matrix_eq_sum_single M]
    simp only [map_sum]
    refine sum_congr rfl fun f _ => sum_congr rfl fun g _ => ?_
    rw [← smul_eq_mul, ← map_smul, Matrix.smul_single, smul_eq_mul, mul_one]
  have e : ∀ x : Fin nx → ℝ, (density x : ℂ) * (Complex.exp ((s : ℂ) * ∑ a, (x a : ℂ) * -mf a) *
      φ (stepTens n K W σ s x)) = ∑ f, ∑ g, ((density x : ℂ) * (Complex.exp ((s : ℂ) * ∑ a, (x a : ℂ) * -mf a) *
        stepTens n K W σ s x f g)) * φ (Matrix.single f g 1) := by
    intro x
    rw [hφ]
    simp only [mul_sum]
    exact sum_congr rfl fun f _ => sum_congr rfl fun g _ => by ring
  have hi : ∀ f g, Integrable fun x : Fin nx → ℝ => ((density x : ℂ) * (Complex.exp ((s : ℂ) * ∑ a, (x a : ℂ) * -mf a) *
        stepTens n K W σ s x f g)) * φ (Matrix.single f g 1) := fun f g =>
    (Step.integrable_step n hn K W mf σ h0 h1 f g).mul_const _
  constructor
  · simp only [e]
    exact integrable_finset_sum _ fun f _ => integrable_finset_sum _ fun g _ => hi f g
  · rw [avg]
    simp only [e]
    rw [integral_finset_sum _ fun f _ => integrable_finset_sum _ fun g _ => hi f g, hφ (avgOp n K W mf σ s)]
    refine sum_congr rfl fun f _ => ?_
    rw [integral_finset_sum _ fun g _ => hi f g]
    refine sum_congr rfl fun g _ => ?_
    rw [integral_mul_const]
    rfl

/-- The trace in one sector with factors on both sides, a linear functional. -/
def trL (A B : Matrix (Fin nu ⊕ Fin nd → Fin m) (Fin nu ⊕ Fin nd → Fin m) ℂ) :
    Matrix (Fin nu ⊕ Fin nd → Fin m) (Fin nu ⊕ Fin nd → Fin m) ℂ →ₗ[ℂ] ℂ where
  toFun M := tr (A * M * B)
  map_add' X Y := by
    rw [mul_add, add_mul]
    simp only [tr, Matrix.add_apply, mul_add, sum_add_distrib]
  map_smul' r X := by
    rw [Matrix.mul_smul, Matrix.smul_mul]
    simp only [tr, Matrix.smul_apply, smul_eq_mul, mul_sum, RingHom.id_apply]
    exact sum_congr rfl fun _ _ => sum_congr rfl fun _ _ => sum_congr rfl fun _ _ => by ring

theorem avg_fock (hn : 2 ≤ n) (mf : Fin nx → ℂ) (h0 : 0 ≤ s) (h1 : s ≤ 1) (A B : Ops m) :
    avg (fun x : Fin nx → ℝ => Complex.exp ((s : ℂ) * ∑ a, (x a : ℂ) * -mf a) * fock (A * stepOps n K W s x * B)) =
      fock (A * meanOps n K W mf s * B) := by
  have key := fun nu nd => avg_linear (κ := Fin nu ⊕ Fin nd) (K := K) (W := W) hn mf h0 h1 spin (trL (A nu nd) (B nu nd))
  have e : ∀ x : Fin nx → ℝ, Complex.exp ((s : ℂ) * ∑ a, (x a : ℂ) * -mf a) * fock (A * stepOps n K W s x * B) =
      ∑ nu ∈ range (m + 1), ∑ nd ∈ range (m + 1), Complex.exp ((s : ℂ) * ∑ a, (x a : ℂ) * -mf a) *
        trL (A nu nd) (B nu nd) (stepTens n K W spin s x) := by
    intro x
    generalize Complex.exp ((s : ℂ) * ∑ a, (x a : ℂ) * -mf a) = r
    rw [fock, mul_sum]
    refine sum_congr rfl fun nu _ => ?_
    rw [mul_sum]
    rfl
  have hi : ∀ nu, Integrable fun x : Fin nx → ℝ => (density x : ℂ) * ∑ nd ∈ range (m + 1),
      Complex.exp ((s : ℂ) * ∑ a, (x a : ℂ) * -mf a) * trL (A nu nd) (B nu nd) (stepTens n K W spin s x) := by
    intro nu
    have := integrable_finset_sum (range (m + 1)) fun nd _ => (key nu nd).1
    refine this.congr (Filter.Eventually.of_forall fun x => ?_)
    exact (mul_sum _ _ _).symm
  rw [show (fun x : Fin nx → ℝ => Complex.exp ((s : ℂ) * ∑ a, (x a : ℂ) * -mf a) *
    fock (A * stepOps n K W s x * B)) = _ from funext e, avg_sum _ _ fun nu _ => hi nu, fock]
  refine sum_congr rfl fun nu _ => ?_
  rw [avg_sum _ _ fun nd _ => (key nu nd).1]
  exact sum_congr rfl fun nd _ => (key nu nd).2

end Verif.Grand
