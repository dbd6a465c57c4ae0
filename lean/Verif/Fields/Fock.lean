import Verif.Grand.Lie
import Verif.Step.Ground
import Verif.Slater.Hirsch

/-!
# Discrete fields average to the Hubbard interaction on determinants

Nothing here refers to the model of the code except the rows of a determinant.
-/

namespace Verif.Fields

open Matrix Finset
open Verif.Slater (Wfn up dn join)
open Verif.Hirsch (kineticReal)
open Verif.Step (tens spin onP spinOp Sym Anti prodState orbs hubOp)
open Verif.Grand (count)

variable {m nu nd : Nat}

theorem orbs_kinetic (K : Fin 2 → Matrix (Fin m) (Fin m) ℂ) (φ : Wfn m nu nd) :
    prodState (orbs (kineticReal K φ)) = (tens fun a : Fin nu ⊕ Fin nd => K (spin a)) *ᵥ prodState (orbs φ) := by
  rw [Step.tens_mulVec]
  congr 1
  funext a
  rcases a with a | a
  · funext i
    simp only [orbs, Sum.elim_inl, kineticReal, Slater.up_join, Matrix.mul_apply]
    rfl
  · funext i
    simp only [orbs, Sum.elim_inr, kineticReal, Slater.dn_join, Matrix.mul_apply]
    rfl

/-- The average of the one-body factors of a site over the two fields. -/
noncomputable def avg (A : Fin 2 → Fin 2 → ℂ) (n0 n1 : Nat) : ℂ := 1 / 2 * ∑ xi, A xi 0 ^ n0 * A xi 1 ^ n1

/-- The rows multiplied by the factors of the fields. -/
noncomputable def rows (A : Fin 2 → Fin 2 → ℂ) (f : Fin m → Fin 2) (φ : Wfn m nu nd) : Wfn m nu nd :=
  kineticReal (fun s => diagonal fun i => A (f i) s) φ

/-- The average of a step over the fields. -/
noncomputable def stepOp (A : Fin 2 → Fin 2 → ℂ) (K : Fin 2 → Matrix (Fin m) (Fin m) ℂ) :
    Matrix (Fin nu ⊕ Fin nd → Fin m) (Fin nu ⊕ Fin nd → Fin m) ℂ :=
  (tens fun a => K (spin a)) * (diagonal fun g => ∏ i, avg A (count spin g i 0) (count spin g i 1)) * tens fun a => K (spin a)

/-- One row of each spin multiplied by the factors of a field. -/
def rowStep (A : Fin 2 → Fin 2 → ℂ) (φ : Wfn m nu nd) (i : Fin m) (xi : Fin 2) : Wfn m nu nd :=
  join (Hirsch.addRow (up φ) i (A xi 0 - 1)) (Hirsch.addRow (dn φ) i (A xi 1 - 1))

theorem rowStep_all (A : Fin 2 → Fin 2 → ℂ) (f : Fin m → Fin 2) (φ : Wfn m nu nd) :
    (List.finRange m).foldl (fun φ i => rowStep A φ i (f i)) φ = rows A f φ := by
  have h : ∀ (l : List (Fin m)) (φ : Wfn m nu nd), l.foldl (fun φ i => rowStep A φ i (f i)) φ =
      join (l.foldl (fun B i => Hirsch.addRow B i (A (f i) 0 - 1)) (up φ)) (l.foldl (fun B i => Hirsch.addRow B i (A (f i) 1 - 1)) (dn φ)) := by
    intro l
    induction l with
    | nil => intro φ; exact (Slater.join_up_dn φ).symm
    | cons i l ih =>
      intro φ
      rw [List.foldl_cons, ih, rowStep, Slater.up_join, Slater.dn_join]
      rfl
  rw [h, Hirsch.foldl_addRow_all, Hirsch.foldl_addRow_all, rows, kineticReal]
  simp only [add_sub_cancel]

theorem avg_rows (A : Fin 2 → Fin 2 → ℂ) (g : Fin nu ⊕ Fin nd → Fin m) :
    (1 / 2 : ℂ) ^ m * ∑ f : Fin m → Fin 2, ∏ a, A (f (g a)) (spin a) = ∏ i, avg A (count spin g i 0) (count spin g i 1) := by
  have h1 : ∀ f : Fin m → Fin 2, ∏ a, A (f (g a)) (spin a) =
      ∏ i, (A (f i) 0 ^ count spin g i 0 * A (f i) 1 ^ count spin g i 1) := fun f =>
    Grand.prod_count spin g fun i s => A (f i) s
  simp only [h1]
  have h2 := Fintype.prod_sum (fun (i : Fin m) (x : Fin 2) => A x 0 ^ count spin g i 0 * A x 1 ^ count spin g i 1)
  rw [← h2]
  have h3 : ((1 : ℂ) / 2) ^ m = ∏ _i : Fin m, (1 / 2 : ℂ) := by simp
  rw [h3, ← prod_mul_distrib]
  rfl

/-- A step averaged over all fields is the operator `stepOp`. -/
theorem field_average (A : Fin 2 → Fin 2 → ℂ) (K : Fin 2 → Matrix (Fin m) (Fin m) ℂ) (v : (Fin nu ⊕ Fin nd → Fin m) → ℂ)
    (φ : Wfn m nu nd) :
    (1 / 2 : ℂ) ^ m * ∑ f : Fin m → Fin 2, v ⬝ᵥ prodState (orbs (kineticReal K (rows A f (kineticReal K φ)))) =
      v ⬝ᵥ (stepOp A K *ᵥ prodState (orbs φ)) := by
  have e1 : ∀ f : Fin m → Fin 2, prodState (orbs (kineticReal K (rows A f (kineticReal K φ)))) =
      ((tens fun a => K (spin a)) * (diagonal fun g => ∏ a, A (f (g a)) (spin a)) * tens fun a => K (spin a)) *ᵥ
        prodState (orbs φ) := by
    intro f
    rw [orbs_kinetic, rows, orbs_kinetic, orbs_kinetic, Matrix.mulVec_mulVec, Matrix.mulVec_mulVec,
      Grand.tens_diagonal fun (a : Fin nu ⊕ Fin nd) i => A (f i) (spin a)]
  simp only [e1]
  rw [← dotProduct_sum, ← Matrix.sum_mulVec, ← Matrix.sum_mul, ← Matrix.mul_sum, ← smul_eq_mul, ← dotProduct_smul,
    ← Matrix.smul_mulVec, stepOp, ← Matrix.smul_mul, ← Matrix.mul_smul]
  congr 4
  ext g h
  rw [Matrix.smul_apply, Matrix.sum_apply, smul_eq_mul]
  by_cases e : g = h
  · subst e
    simp only [diagonal_apply_eq]
    exact avg_rows A g
  · simp only [diagonal_apply_ne _ e, sum_const_zero, mul_zero]

/-- On antisymmetric functionals, fields that average to `exp(-t U n n')` give the exponential of the interaction. -/
theorem stepOp_anti (A : Fin 2 → Fin 2 → ℂ) (t U : ℂ) (T : Fin 2 → Matrix (Fin m) (Fin m) ℂ)
    (hA : ∀ n0 n1 : Fin 2, avg A n0 n1 = Complex.exp (-(t * U * (n0 : Nat) * (n1 : Nat))))
    (v : (Fin nu ⊕ Fin nd → Fin m) → ℂ) (hv : Anti spin v) :
    v ᵥ* stepOp A (fun s => NormedSpace.exp (-(t / 2) • T s)) =
      v ᵥ* (NormedSpace.exp (-(t / 2) • spinOp spin T) * NormedSpace.exp (-t • (hubOp (fun _ => 0) U spin)) *
        NormedSpace.exp (-(t / 2) • spinOp spin T)) := by
  have hV : hubOp (fun _ => 0) U (spin : Fin nu ⊕ Fin nd → Fin 2) =
      U • (diagonal fun f : Fin nu ⊕ Fin nd → Fin m => ∑ i, (count spin f i 0 : ℂ) * count spin f i 1) := by
    rw [hubOp, Grand.interaction_diagonal]
    have : (∑ a : Fin nu ⊕ Fin nd, onP a (0 : Matrix (Fin m) (Fin m) ℂ)) = 0 := Step.allP_zero
    rw [this, zero_add]
  rw [stepOp, Grand.prodOp_exp, hV, ← Matrix.vecMul_vecMul, ← Matrix.vecMul_vecMul, ← Matrix.vecMul_vecMul,
    ← Matrix.vecMul_vecMul]
  congr 1
  set u := v ᵥ* NormedSpace.exp (-(t / 2) • spinOp spin T) with hu
  have hua : Anti spin u := hv.vecMul (Grand.sym_exp ((Sym.spinOp spin T).smul _))
  rw [← Matrix.diagonal_smul, ← Matrix.diagonal_smul, Matrix.exp_diagonal]
  funext f
  rw [Matrix.vecMul_diagonal, Matrix.vecMul_diagonal]
  by_cases hf : u f = 0
  · rw [hf, zero_mul, zero_mul]
  · congr 1
    rw [Pi.exp_def, ← Complex.exp_eq_exp_ℂ]
    beta_reduce
    rw [Pi.smul_apply, Pi.smul_apply, smul_eq_mul, smul_eq_mul, mul_sum, mul_sum, Complex.exp_sum]
    refine prod_congr rfl fun i _ => ?_
    have h0 := Grand.count_le_one hua hf i 0
    have h1 := Grand.count_le_one hua hf i 1
    have := hA ⟨count spin f i 0, by omega⟩ ⟨count spin f i 1, by omega⟩
    rw [this]
    congr 1
    ring

/-- The operator of a step commutes with exchanges of electrons of equal spin. -/
theorem strang_sym (t U : ℂ) (T : Fin 2 → Matrix (Fin m) (Fin m) ℂ) :
    Sym spin (NormedSpace.exp (-(t / 2) • spinOp (spin : Fin nu ⊕ Fin nd → Fin 2) T) *
      NormedSpace.exp (-t • (hubOp (fun _ => 0) U spin)) * NormedSpace.exp (-(t / 2) • spinOp spin T)) :=
  ((Grand.sym_exp ((Sym.spinOp spin T).smul _)).mul (Grand.sym_exp ((Step.hubOp_sym _ _ _).smul _))).mul
    (Grand.sym_exp ((Sym.spinOp spin T).smul _))

/-! ## Small steps -/

section
variable {κ : Type} [Fintype κ] [DecidableEq κ]

attribute [local instance] Matrix.linftyOpNormedRing Matrix.linftyOpNormedAlgebra

/-- Many short symmetric steps. -/
theorem strang_limit (A B : Matrix κ κ ℂ) {β : ℝ} (hβ : 0 ≤ β) : Filter.Tendsto (fun N : Nat =>
    (NormedSpace.exp (-(((β / (N + 1 : Nat) : ℝ) : ℂ) / 2) • A) * NormedSpace.exp (-((β / (N + 1 : Nat) : ℝ) : ℂ) • B) *
      NormedSpace.exp (-(((β / (N + 1 : Nat) : ℝ) : ℂ) / 2) • A)) ^ (N + 1)) Filter.atTop
    (nhds (NormedSpace.exp (-(β : ℂ) • (A + B)))) := by
  have hc : Filter.Tendsto (fun N : Nat => (((β / (N + 1 : Nat) : ℝ) : ℂ) / 2)) Filter.atTop (nhds 0) := by
    have h1 : Filter.Tendsto (fun N : Nat => β / ((N + 1 : Nat) : ℝ)) Filter.atTop (nhds 0) := by
      have := tendsto_const_div_atTop_nhds_zero_nat (𝕜 := ℝ) β
      exact (this.comp (Filter.tendsto_add_atTop_nat 1))
    have h2 := ((Complex.continuous_ofReal.tendsto 0).comp h1).div_const (2 : ℂ)
    simpa using h2
  have hE : ∀ s : ℂ, Filter.Tendsto (fun N : Nat => NormedSpace.exp ((s * (((β / (N + 1 : Nat) : ℝ) : ℂ) / 2)) • A)) Filter.atTop
      (nhds 1) := by
    intro s
    have h3 : Filter.Tendsto (fun N : Nat => (s * (((β / (N + 1 : Nat) : ℝ) : ℂ) / 2)) • A) Filter.atTop (nhds 0) := by
      have := ((hc.const_mul s).smul_const A)
      simpa using this
    have := (NormedSpace.exp_continuous (𝔸 := Matrix κ κ ℂ)).tendsto 0 |>.comp h3
    rwa [NormedSpace.exp_zero] at this
  have hL : Filter.Tendsto (fun N : Nat => (NormedSpace.exp (-((β / (N + 1 : Nat) : ℝ) : ℂ) • B) *
      NormedSpace.exp (-((β / (N + 1 : Nat) : ℝ) : ℂ) • A)) ^ (N + 1)) Filter.atTop (nhds (NormedSpace.exp (-(β : ℂ) • (A + B)))) := by
    obtain ⟨L, h⟩ := Grand.lie_product B A hβ
    rw [add_comm A B]
    refine tendsto_pi_nhds.2 fun i => tendsto_pi_nhds.2 fun j => ?_
    rw [tendsto_iff_norm_sub_tendsto_zero]
    have hz : Filter.Tendsto (fun N : Nat => L / ((N + 1 : Nat) : ℝ)) Filter.atTop (nhds 0) :=
      (tendsto_const_div_atTop_nhds_zero_nat (𝕜 := ℝ) L).comp (Filter.tendsto_add_atTop_nat 1)
    exact squeeze_zero (fun _ => norm_nonneg _) (fun N => h (N + 1) (Nat.succ_pos N) i j) hz
  have key : ∀ N : Nat, (NormedSpace.exp (-(((β / (N + 1 : Nat) : ℝ) : ℂ) / 2) • A) * NormedSpace.exp (-((β / (N + 1 : Nat) : ℝ) : ℂ) • B) *
      NormedSpace.exp (-(((β / (N + 1 : Nat) : ℝ) : ℂ) / 2) • A)) ^ (N + 1) =
      NormedSpace.exp ((-1 * (((β / (N + 1 : Nat) : ℝ) : ℂ) / 2)) • A) * (NormedSpace.exp (-((β / (N + 1 : Nat) : ℝ) : ℂ) • B) *
      NormedSpace.exp (-((β / (N + 1 : Nat) : ℝ) : ℂ) • A)) ^ (N + 1) *
      NormedSpace.exp ((1 * (((β / (N + 1 : Nat) : ℝ) : ℂ) / 2)) • A) := by
    intro N
    generalize ((β / (N + 1 : Nat) : ℝ) : ℂ) = t
    have h1 : NormedSpace.exp ((1 * (t / 2)) • A) * NormedSpace.exp ((-1 * (t / 2)) • A) = 1 := by
      rw [← Matrix.exp_add_of_commute _ _ (((Commute.refl A).smul_left _).smul_right _), ← add_smul]
      simp
    have h1' : NormedSpace.exp ((-1 * (t / 2)) • A) * NormedSpace.exp ((1 * (t / 2)) • A) = 1 := by
      rw [← Matrix.exp_add_of_commute _ _ (((Commute.refl A).smul_left _).smul_right _), ← add_smul]
      simp
    have h2 : NormedSpace.exp (-t • A) = NormedSpace.exp ((-1 * (t / 2)) • A) * NormedSpace.exp ((-1 * (t / 2)) • A) := by
      rw [← Matrix.exp_add_of_commute _ _ (((Commute.refl A).smul_left _).smul_right _), ← add_smul]
      congr 2
      ring
    rw [show -(t / 2) = -1 * (t / 2) by ring, h2]
    generalize NormedSpace.exp ((1 * (t / 2)) • A) = Q at h1 h1' ⊢
    generalize NormedSpace.exp ((-1 * (t / 2)) • A) = P at h1 h1' ⊢
    generalize NormedSpace.exp (-t • B) = R
    generalize N + 1 = k
    induction k with
    | zero => rw [pow_zero, pow_zero, mul_one, h1']
    | succ k ih =>
      rw [pow_succ, ih, pow_succ]
      calc P * (R * (P * P)) ^ k * Q * (P * R * P) = P * (R * (P * P)) ^ k * (Q * P) * (R * P) := by simp only [mul_assoc]
        _ = P * (R * (P * P)) ^ k * (R * P) := by rw [h1, mul_one]
        _ = P * (R * (P * P)) ^ k * (R * P) * (P * Q) := by rw [h1', mul_one]
        _ = P * ((R * (P * P)) ^ k * (R * (P * P))) * Q := by simp only [mul_assoc]
  simp only [key]
  have := ((hE (-1)).mul hL).mul (hE 1)
  rwa [one_mul, mul_one] at this

end

end Verif.Fields
