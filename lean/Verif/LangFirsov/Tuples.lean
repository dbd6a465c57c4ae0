import Verif.Energy.Wick
import Mathlib.LinearAlgebra.Matrix.Adjugate
import Mathlib.Algebra.BigOperators.Pi

/-!
# Determinants as functions of the sites of the electrons

A determinant is the antisymmetric function of the sites of its electrons; sums over all sites give overlaps and one-body elements.
-/

namespace Verif.LangFirsov

open Matrix
open Verif.Energy (ovl oneBody)

variable {n k : Nat}

/-- Amplitude of electrons at the sites `x`. -/
noncomputable def amp (A : Matrix (Fin n) (Fin k) ℂ) (x : Fin k → Fin n) : ℂ := (A.submatrix x id).det

/-- One-body operator: every electron in turn moves. -/
noncomputable def hop (M : Matrix (Fin n) (Fin n) ℂ) (ψ : (Fin k → Fin n) → ℂ) (x : Fin k → Fin n) : ℂ :=
  ∑ a, ∑ j, M (x a) j * ψ (Function.update x a j)

/-- Electrons on a site. -/
def occ (x : Fin k → Fin n) (i : Fin n) : ℕ := ∑ a, if x a = i then 1 else 0

theorem amp_perm (A : Matrix (Fin n) (Fin k) ℂ) (x : Fin k → Fin n) (τ : Equiv.Perm (Fin k)) :
    amp A (x ∘ τ) = (Equiv.Perm.sign τ : ℂ) * amp A x := by
  have := Matrix.det_permute τ (A.submatrix x id)
  rw [Matrix.submatrix_submatrix] at this
  simpa [amp] using this

theorem prod_sum {κ : Type*} [Fintype κ] (f : Fin k → κ → ℂ) : ∑ x : Fin k → κ, ∏ a, f a (x a) = ∏ a, ∑ p, f a p := by
  classical
  rw [Finset.prod_univ_sum]
  simp

theorem amp_prod (A B : Matrix (Fin n) (Fin k) ℂ) : ∑ x, star (amp A x) * ∏ a, B (x a) a = ovl A B := by
  have h : ∀ x, star (amp A x) * ∏ a, B (x a) a = ∑ σ : Equiv.Perm (Fin k), (Equiv.Perm.sign σ : ℂ) * ∏ a, Aᴴ (σ a) (x a) * B (x a) a := by
    intro x
    rw [amp, ← Matrix.det_transpose, Matrix.det_apply', star_sum, Finset.sum_mul]
    refine Finset.sum_congr rfl fun σ _ => ?_
    rw [star_mul', star_prod, mul_assoc, ← Finset.prod_mul_distrib]
    congr 1
    simp
  simp only [h]
  rw [Finset.sum_comm, ovl, Matrix.det_apply']
  refine Finset.sum_congr rfl fun σ _ => ?_
  rw [← Finset.mul_sum]
  congr 1
  rw [prod_sum fun a p => Aᴴ (σ a) p * B p a]
  rfl

/-- Overlap of two determinants. -/
theorem amp_sum (A B : Matrix (Fin n) (Fin k) ℂ) : ∑ x, star (amp A x) * amp B x = k.factorial * ovl A B := by
  have h : ∀ x, star (amp A x) * amp B x = ∑ τ : Equiv.Perm (Fin k), star (amp A (x ∘ τ)) * ∏ a, B ((x ∘ τ) a) a := by
    intro x
    rw [amp.eq_1 B, Matrix.det_apply', Finset.mul_sum]
    refine Finset.sum_congr rfl fun τ _ => ?_
    rw [amp_perm, star_mul']
    have : star ((Equiv.Perm.sign τ : ℤ) : ℂ) = ((Equiv.Perm.sign τ : ℤ) : ℂ) := by simp
    rw [this]
    simp only [Matrix.submatrix_apply, id, Function.comp]
    ring
  simp only [h]
  rw [Finset.sum_comm]
  have h2 : ∀ τ : Equiv.Perm (Fin k), ∑ x : Fin k → Fin n, star (amp A (x ∘ τ)) * ∏ a, B ((x ∘ τ) a) a = ovl A B := by
    intro τ
    rw [← amp_prod]
    exact Equiv.sum_comp (Equiv.arrowCongr τ.symm (Equiv.refl (Fin n))) fun x => star (amp A x) * ∏ a, B (x a) a
  simp only [h2, Finset.sum_const, Finset.card_univ, Fintype.card_perm, Fintype.card_fin, nsmul_eq_mul]

/-- An operator acting on the rows in turn or on the columns in turn. -/
theorem hop_eq (M : Matrix (Fin n) (Fin n) ℂ) (B : Matrix (Fin n) (Fin k) ℂ) (x : Fin k → Fin n) :
    hop M (amp B) x = ∑ i, amp (B.updateCol i (M *ᵥ B.col i)) x := by
  set C := B.submatrix x id with hC
  have h1 : ∀ a, ∑ j, M (x a) j * amp B (Function.update x a j) = ∑ i, C.adjugate i a * (M * B) (x a) i := by
    intro a
    have : ∀ j, amp B (Function.update x a j) = ∑ i, C.adjugate i a * B j i := by
      intro j
      have hu : B.submatrix (Function.update x a j) id = C.updateRow a (B j) := by
        ext b i
        by_cases hb : b = a
        · subst hb
          simp [hC]
        · simp [hC, hb]
      rw [amp, hu, ← Matrix.det_transpose, ← Matrix.updateCol_transpose, ← Matrix.cramer_apply, Matrix.cramer_eq_adjugate_mulVec,
        ← Matrix.adjugate_transpose]
      rfl
    simp only [this, Finset.mul_sum]
    rw [Finset.sum_comm]
    refine Finset.sum_congr rfl fun i _ => ?_
    rw [Matrix.mul_apply, Finset.mul_sum]
    exact Finset.sum_congr rfl fun j _ => by ring
  have h2 : ∀ i, amp (B.updateCol i (M *ᵥ B.col i)) x = ∑ a, C.adjugate i a * (M * B) (x a) i := by
    intro i
    have hu : (B.updateCol i (M *ᵥ B.col i)).submatrix x id = C.updateCol i fun a => (M * B) (x a) i := by
      ext b j
      by_cases hb : j = i
      · subst hb
        simp [Matrix.mulVec, dotProduct, Matrix.mul_apply]
      · simp [hC, hb]
    rw [amp, hu, ← Matrix.cramer_apply, Matrix.cramer_eq_adjugate_mulVec]
    rfl
  simp only [hop, h1, h2]
  exact Finset.sum_comm

/-- One-body elements. -/
theorem hop_sum (M : Matrix (Fin n) (Fin n) ℂ) (A B : Matrix (Fin n) (Fin k) ℂ) :
    ∑ x, star (amp A x) * hop M (amp B) x = k.factorial * oneBody M A B := by
  simp only [hop_eq, Finset.mul_sum]
  rw [Finset.sum_comm, oneBody, Finset.mul_sum]
  refine Finset.sum_congr rfl fun i _ => ?_
  rw [amp_sum]
  rfl

theorem hop_occ (ψ : (Fin k → Fin n) → ℂ) (x : Fin k → Fin n) (i : Fin n) : hop (Matrix.single i i 1) ψ x = occ x i * ψ x := by
  rw [hop, occ, Nat.cast_sum, Finset.sum_mul]
  refine Finset.sum_congr rfl fun a _ => ?_
  by_cases h : x a = i
  · subst h
    rw [if_pos rfl, Finset.sum_eq_single (x a)]
    · simp
    · intro j _ hj
      rw [Matrix.single_apply_of_ne, zero_mul]
      exact fun h => hj h.2.symm
    · simp
  · rw [if_neg h, Nat.cast_zero, zero_mul]
    refine Finset.sum_eq_zero fun j _ => ?_
    rw [Matrix.single_apply_of_ne, zero_mul]
    exact fun hh => h hh.1.symm

/-- Sum of the occupation of a site. -/
theorem occ_sum (A B : Matrix (Fin n) (Fin k) ℂ) (i : Fin n) :
    ∑ x, star (amp A x) * amp B x * occ x i = k.factorial * oneBody (Matrix.single i i 1) A B := by
  rw [← hop_sum]
  exact Finset.sum_congr rfl fun x _ => by rw [hop_occ]; ring

/-- Two electrons of one spin are never on one site. -/
theorem amp_occ (A : Matrix (Fin n) (Fin k) ℂ) (x : Fin k → Fin n) (i : Fin n) : amp A x = 0 ∨ (occ x i) ^ 2 = occ x i := by
  by_cases h : Function.Injective x
  · right
    have : occ x i ≤ 1 := by
      rw [occ, Finset.sum_boole]
      refine Finset.card_le_one.2 fun a ha b hb => h ?_
      rw [(Finset.mem_filter.1 ha).2, (Finset.mem_filter.1 hb).2]
    interval_cases occ x i <;> rfl
  · left
    obtain ⟨a, b, hab, hne⟩ : ∃ a b, x a = x b ∧ a ≠ b := by
      simpa [Function.Injective, not_forall] using h
    exact Matrix.det_zero_of_row_eq hne (by ext j; simp [hab])

theorem occ_update (x : Fin k → Fin n) (a : Fin k) (j i : Fin n) :
    (occ (Function.update x a j) i : ℝ) = occ x i - (if x a = i then 1 else 0) + if j = i then 1 else 0 := by
  simp only [occ, Nat.cast_sum]
  rw [← Finset.add_sum_erase _ _ (Finset.mem_univ a),
    ← Finset.add_sum_erase _ (fun b => (((if x b = i then 1 else 0 : ℕ)) : ℝ)) (Finset.mem_univ a)]
  have : ∑ b ∈ Finset.univ.erase a, (((if Function.update x a j b = i then 1 else 0 : ℕ)) : ℝ) =
      ∑ b ∈ Finset.univ.erase a, (((if x b = i then 1 else 0 : ℕ)) : ℝ) :=
    Finset.sum_congr rfl fun b hb => by rw [Function.update_of_ne (Finset.ne_of_mem_erase hb)]
  rw [this, Function.update_self]
  push_cast
  ring

end Verif.LangFirsov
