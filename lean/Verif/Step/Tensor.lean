import Verif.Step.Generator

/-!
# Operators on states of several particles

States of finitely many particles in `m` orbitals are functions of the orbital of each particle.  A matrix
for each particle gives a product operator, and a one-body operator is the sum over particles of a matrix
acting on that particle.  The expansion of a product operator to second order is given by one-body
operators and their products.  Nothing here refers to the model of the code.
-/

namespace Verif.Step

open Matrix Finset Polynomial

variable {ι : Type} [Fintype ι] [DecidableEq ι] {m nx : Nat}

/-- The product operator of one matrix for each particle. -/
def tens {R : Type} [CommRing R] (T : ι → Matrix (Fin m) (Fin m) R) : Matrix (ι → Fin m) (ι → Fin m) R :=
  Matrix.of fun f g => ∏ a, T a (f a) (g a)

theorem tens_mul {R : Type} [CommRing R] (S T : ι → Matrix (Fin m) (Fin m) R) :
    tens S * tens T = tens fun a => S a * T a := by
  ext f g
  simp only [Matrix.mul_apply, tens, Matrix.of_apply, ← prod_mul_distrib]
  rw [prod_univ_sum, Fintype.piFinset_univ]

theorem tens_one {R : Type} [CommRing R] : tens (fun _ : ι => (1 : Matrix (Fin m) (Fin m) R)) = 1 := by
  ext f g
  rw [tens, Matrix.of_apply]
  by_cases h : f = g
  · subst h; simp
  · obtain ⟨a, ha⟩ := Function.ne_iff.1 h
    rw [Matrix.one_apply_ne h]
    exact prod_eq_zero (mem_univ a) (Matrix.one_apply_ne ha)

/-- The matrix `X` acting on particle `a`. -/
def onP (a : ι) (X : Matrix (Fin m) (Fin m) ℂ) : Matrix (ι → Fin m) (ι → Fin m) ℂ :=
  tens (Function.update (fun _ => 1) a X)

/-- The one-body operator with matrix `X a` for particle `a`. -/
def allP (X : ι → Matrix (Fin m) (Fin m) ℂ) : Matrix (ι → Fin m) (ι → Fin m) ℂ := ∑ a, onP a (X a)

theorem onP_apply (a : ι) (X : Matrix (Fin m) (Fin m) ℂ) (f g : ι → Fin m) :
    onP a X f g = (∏ b ∈ univ.erase a, (1 : Matrix (Fin m) (Fin m) ℂ) (f b) (g b)) * X (f a) (g a) := by
  rw [onP, tens, Matrix.of_apply, ← mul_prod_erase _ _ (mem_univ a), Function.update_self, mul_comm]
  congr 1
  refine prod_congr rfl fun b hb => ?_
  rw [Function.update_of_ne (ne_of_mem_erase hb)]

theorem onP_add (a : ι) (X Y : Matrix (Fin m) (Fin m) ℂ) : onP a (X + Y) = onP a X + onP a Y := by
  ext f g
  simp only [Matrix.add_apply, onP_apply]; ring

theorem onP_smul (a : ι) (r : ℂ) (X : Matrix (Fin m) (Fin m) ℂ) : onP a (r • X) = r • onP a X := by
  ext f g
  simp only [Matrix.smul_apply, onP_apply, smul_eq_mul]; ring

theorem onP_mul (a : ι) (X Y : Matrix (Fin m) (Fin m) ℂ) : onP a X * onP a Y = onP a (X * Y) := by
  rw [onP, onP, tens_mul, onP]
  congr 1
  funext b
  by_cases h : b = a
  · subst h; simp
  · simp [Function.update_of_ne h]

theorem onP_one (a : ι) : onP a (1 : Matrix (Fin m) (Fin m) ℂ) = 1 := by
  rw [onP, ← tens_one]
  congr 1
  exact Function.update_eq_self a _

theorem onP_pair {a b : ι} (h : b ≠ a) (X Y : Matrix (Fin m) (Fin m) ℂ) (f g : ι → Fin m) :
    (onP a X * onP b Y) f g = (∏ c ∈ (univ.erase a).erase b, (1 : Matrix (Fin m) (Fin m) ℂ) (f c) (g c)) *
      Y (f b) (g b) * X (f a) (g a) := by
  rw [onP, onP, tens_mul, tens, Matrix.of_apply, ← mul_prod_erase _ _ (mem_univ a),
    ← mul_prod_erase _ _ (mem_erase.2 ⟨h, mem_univ b⟩)]
  have hp : ∏ c ∈ (univ.erase a).erase b, (Function.update (fun _ => (1 : Matrix (Fin m) (Fin m) ℂ)) a X c *
      Function.update (fun _ => (1 : Matrix (Fin m) (Fin m) ℂ)) b Y c) (f c) (g c) =
      ∏ c ∈ (univ.erase a).erase b, (1 : Matrix (Fin m) (Fin m) ℂ) (f c) (g c) := by
    refine prod_congr rfl fun c hc => ?_
    have h1 := ne_of_mem_erase hc
    have h2 := ne_of_mem_erase (mem_of_mem_erase hc)
    rw [Function.update_of_ne h2, Function.update_of_ne h1, one_mul]
  rw [hp, Function.update_self, Function.update_of_ne (Ne.symm h), Function.update_of_ne h,
    Function.update_self, mul_one, one_mul]
  ring

theorem allP_add (X Y : ι → Matrix (Fin m) (Fin m) ℂ) : allP (fun a => X a + Y a) = allP X + allP Y := by
  simp only [allP, onP_add, sum_add_distrib]

theorem allP_smul (r : ℂ) (X : ι → Matrix (Fin m) (Fin m) ℂ) : allP (fun a => r • X a) = r • allP X := by
  simp only [allP, onP_smul, smul_sum]

theorem allP_neg (X : ι → Matrix (Fin m) (Fin m) ℂ) : allP (fun a => -X a) = -allP X := by
  have := allP_smul (-1) X
  simpa using this

theorem allP_sub (X Y : ι → Matrix (Fin m) (Fin m) ℂ) : allP (fun a => X a - Y a) = allP X - allP Y := by
  simp only [sub_eq_add_neg]
  rw [allP_add X fun a => -Y a, allP_neg]

theorem allP_zero : allP (fun _ : ι => (0 : Matrix (Fin m) (Fin m) ℂ)) = 0 := by
  have := allP_smul 0 fun _ : ι => (0 : Matrix (Fin m) (Fin m) ℂ)
  simpa using this

theorem allP_sum {κ : Type*} (S : Finset κ) (X : κ → ι → Matrix (Fin m) (Fin m) ℂ) :
    allP (fun a => ∑ k ∈ S, X k a) = ∑ k ∈ S, allP (X k) := by
  classical
  induction S using Finset.induction_on with
  | empty => simpa using allP_zero
  | insert k S hk ih =>
    simp only [sum_insert hk]
    rw [allP_add (X k) fun a => ∑ k ∈ S, X k a, ih]

theorem allP_mul (X Y : ι → Matrix (Fin m) (Fin m) ℂ) : allP X * allP Y = allP (fun a => X a * Y a) +
    ∑ a, ∑ b ∈ univ.erase a, onP a (X a) * onP b (Y b) := by
  rw [allP, allP, sum_mul_sum, allP, ← sum_add_distrib]
  refine sum_congr rfl fun a _ => ?_
  rw [← add_sum_erase _ _ (mem_univ a), onP_mul]

/-! ## Expansion -/

theorem eval_cm {a b : Type} (M : Matrix a b ℂ[X]) (i : a) (j : b) : (M i j).eval 0 = cm 0 M i j := by
  rw [cm, Matrix.map_apply, coeff_zero_eq_eval_zero]

theorem eval_cm1 {a b : Type} (M : Matrix a b ℂ[X]) (i : a) (j : b) :
    (derivative (M i j)).eval 0 = cm 1 M i j := by
  rw [cm, Matrix.map_apply, coeff_one_eq]

theorem eval_cm2 {a b : Type} (M : Matrix a b ℂ[X]) (i : a) (j : b) :
    (derivative (derivative (M i j))).eval 0 = 2 * cm 2 M i j := by
  rw [cm, Matrix.map_apply, coeff_two_eq]; ring

theorem tens_coeff (P : ι → Matrix (Fin m) (Fin m) ℂ[X]) (h0 : ∀ a, cm 0 (P a) = 1) (f g : ι → Fin m) :
    (tens P f g).coeff 0 = (1 : Matrix (ι → Fin m) (ι → Fin m) ℂ) f g ∧
    (tens P f g).coeff 1 = allP (fun a => cm 1 (P a)) f g ∧
    (tens P f g).coeff 2 = (allP (fun a => cm 2 (P a)) + (1 / 2 : ℂ) • (allP (fun a => cm 1 (P a)) *
      allP (fun a => cm 1 (P a)) - allP (fun a => cm 1 (P a) * cm 1 (P a)))) f g := by
  have hp : ∀ S : Finset ι, (∏ b ∈ S, P b (f b) (g b)).eval 0 =
      ∏ b ∈ S, (1 : Matrix (Fin m) (Fin m) ℂ) (f b) (g b) := by
    intro S
    rw [eval_prod]
    refine prod_congr rfl fun b _ => ?_
    rw [eval_cm, h0]
  refine ⟨?_, ?_, ?_⟩
  · rw [tens, Matrix.of_apply, coeff_zero_eq_eval_zero, hp, ← tens_one, tens, Matrix.of_apply]
  · rw [tens, Matrix.of_apply, coeff_one_eq, derivative_prod_finset, eval_finset_sum, allP, Matrix.sum_apply]
    refine sum_congr rfl fun a _ => ?_
    rw [eval_mul, hp, eval_cm1, onP_apply]
  · rw [tens, Matrix.of_apply, coeff_two_eq, derivative_prod_finset, derivative_sum, eval_finset_sum,
      allP_mul, add_sub_cancel_left, Matrix.add_apply, Matrix.smul_apply, smul_eq_mul, allP,
      Matrix.sum_apply, Matrix.sum_apply, sum_div, mul_sum, ← sum_add_distrib]
    refine sum_congr rfl fun a _ => ?_
    rw [derivative_mul, derivative_prod_finset, eval_add, eval_mul, eval_mul, hp, eval_cm1, eval_cm2,
      eval_finset_sum, onP_apply, Matrix.sum_apply, sum_mul]
    have : ∑ b ∈ univ.erase a, (onP a (cm 1 (P a)) * onP b (cm 1 (P b))) f g =
        ∑ b ∈ univ.erase a, eval 0 ((∏ c ∈ (univ.erase a).erase b, P c (f c) (g c)) *
          derivative (P b (f b) (g b))) * cm 1 (P a) (f a) (g a) := by
      refine sum_congr rfl fun b hb => ?_
      rw [onP_pair (ne_of_mem_erase hb), eval_mul, hp, eval_cm1]
    rw [this]
    ring

end Verif.Step
