import Verif.Grand.Wick

/-!
# Operators on the determinants of a number of electrons

Exponentials, hermiticity and traces of the matrix of elements between determinants.  Nothing here refers to the
model of the code.
-/

namespace Verif.Grand

open Matrix Finset
open Verif.Step (tens spin onP allP spinOp Sym Anti slater unit)

variable {m nu nd : Nat}

/-- Matrix elements between determinants, a linear map. -/
noncomputable def sectorL (m nu nd : Nat) : Matrix (Fin nu ⊕ Fin nd → Fin m) (Fin nu ⊕ Fin nd → Fin m) ℂ →ₗ[ℂ]
    Matrix (Occ m nu × Occ m nd) (Occ m nu × Occ m nd) ℂ where
  toFun := sector
  map_add' X Y := by
    ext S T
    simp only [sector_apply, Matrix.add_apply, Matrix.vecMul_add, Pi.add_apply]
  map_smul' r X := by
    ext S T
    simp only [sector_apply, Matrix.smul_apply, Matrix.vecMul_smul, Pi.smul_apply, RingHom.id_apply]

theorem sector_smul (r : ℂ) (X : Matrix (Fin nu ⊕ Fin nd → Fin m) (Fin nu ⊕ Fin nd → Fin m) ℂ) :
    sector (r • X) = r • sector X := (sectorL m nu nd).map_smul r X

theorem sector_sub (X Y : Matrix (Fin nu ⊕ Fin nd → Fin m) (Fin nu ⊕ Fin nd → Fin m) ℂ) :
    sector (X - Y) = sector X - sector Y := (sectorL m nu nd).map_sub X Y

theorem sector_pow {X : Matrix (Fin nu ⊕ Fin nd → Fin m) (Fin nu ⊕ Fin nd → Fin m) ℂ} (hX : Sym spin X) (k : Nat) :
    sector (X ^ k) = sector X ^ k := by
  induction k with
  | zero => rw [pow_zero, pow_zero, sector_one]
  | succ k ih => rw [pow_succ', pow_succ', sector_mul hX, ih]

/-- Operators that agree on antisymmetric functionals have the same matrix elements. -/
theorem sector_congr {X Y : Matrix (Fin nu ⊕ Fin nd → Fin m) (Fin nu ⊕ Fin nd → Fin m) ℂ}
    (h : ∀ α, Anti spin α → α ᵥ* X = α ᵥ* Y) : sector X = sector Y := by
  ext S T
  rw [sector_apply, sector_apply, h _ (Step.slater_anti _)]

theorem sector_exp {X : Matrix (Fin nu ⊕ Fin nd → Fin m) (Fin nu ⊕ Fin nd → Fin m) ℂ} (hX : Sym spin X) :
    sector (NormedSpace.exp X) = NormedSpace.exp (sector X) := by
  letI : NormedRing (Matrix (Fin nu ⊕ Fin nd → Fin m) (Fin nu ⊕ Fin nd → Fin m) ℂ) := Matrix.linftyOpNormedRing
  letI : NormedAlgebra ℂ (Matrix (Fin nu ⊕ Fin nd → Fin m) (Fin nu ⊕ Fin nd → Fin m) ℂ) :=
    Matrix.linftyOpNormedAlgebra
  letI : NormedRing (Matrix (Occ m nu × Occ m nd) (Occ m nu × Occ m nd) ℂ) := Matrix.linftyOpNormedRing
  letI : NormedAlgebra ℂ (Matrix (Occ m nu × Occ m nd) (Occ m nu × Occ m nd) ℂ) := Matrix.linftyOpNormedAlgebra
  have h1 := NormedSpace.exp_series_hasSum_exp' (𝕂 := ℂ) X
  have h2 := NormedSpace.exp_series_hasSum_exp' (𝕂 := ℂ) (sector X)
  have hc : Continuous (sectorL m nu nd) := (sectorL m nu nd).continuous_of_finiteDimensional
  have h3 := h1.map (sectorL m nu nd).toAddMonoidHom hc
  have e : ((sectorL m nu nd).toAddMonoidHom ∘ fun k : ℕ => (k.factorial : ℂ)⁻¹ • X ^ k) =
      fun k : ℕ => (k.factorial : ℂ)⁻¹ • sector X ^ k := by
    funext k
    show sectorL m nu nd ((k.factorial : ℂ)⁻¹ • X ^ k) = _
    rw [map_smul]
    show _ • sector (X ^ k) = _
    rw [sector_pow hX]
  rw [e] at h3
  exact h3.unique h2

/-! ## Hermiticity -/

theorem sign_sq {k : Nat} (π : Equiv.Perm (Fin k)) : ((Equiv.Perm.sign π : ℤ) : ℂ) * ((Equiv.Perm.sign π : ℤ) : ℂ) = 1 := by
  rcases Int.units_eq_one_or (Equiv.Perm.sign π) with h | h <;> simp [h]

theorem slater_unit_real (h f : Fin nu ⊕ Fin nd → Fin m) : star (slater (unit h) f) = slater (unit h) f := by
  rw [slater_unit, star_sum]
  refine sum_congr rfl fun π _ => ?_
  rw [star_sum]
  refine sum_congr rfl fun ρ _ => ?_
  split_ifs <;> simp

/-- Antisymmetric functionals at permuted arguments. -/
theorem anti_perm {α : (Fin nu ⊕ Fin nd → Fin m) → ℂ} (hα : Anti spin α) (π : Equiv.Perm (Fin nu))
    (ρ : Equiv.Perm (Fin nd)) (f : Fin nu ⊕ Fin nd → Fin m) :
    α (fun a => f (Equiv.Perm.sumCongr π ρ a)) = ((Equiv.Perm.sign π : ℤ) : ℂ) * ((Equiv.Perm.sign ρ : ℤ) : ℂ) * α f := by
  have e : (fun a => f (Equiv.Perm.sumCongr π ρ a)) =
      fun a => (fun b => f (Equiv.Perm.sumCongr π 1 b)) (Equiv.Perm.sumCongr 1 ρ a) := by
    funext a
    rcases a with a | a <;> simp
  rw [e, hα.perm_dn ρ fun b => f (Equiv.Perm.sumCongr π 1 b), hα.perm_up π f]
  ring

/-- A determinant of orbitals and an antisymmetric functional. -/
theorem anti_slater {α : (Fin nu ⊕ Fin nd → Fin m) → ℂ} (hα : Anti spin α) (h : Fin nu ⊕ Fin nd → Fin m) :
    slater (unit h) ⬝ᵥ α = (nu.factorial * nd.factorial : ℂ) * α h := by
  rw [slater_unit_dot]
  simp only [anti_perm hα]
  have : ∀ (π : Equiv.Perm (Fin nu)) (ρ : Equiv.Perm (Fin nd)), ((Equiv.Perm.sign π : ℤ) : ℂ) * ((Equiv.Perm.sign ρ : ℤ) : ℂ) *
      (((Equiv.Perm.sign π : ℤ) : ℂ) * ((Equiv.Perm.sign ρ : ℤ) : ℂ) * α h) = α h := by
    intro π ρ
    linear_combination (((Equiv.Perm.sign ρ : ℤ) : ℂ) * ((Equiv.Perm.sign ρ : ℤ) : ℂ) * α h) * sign_sq π + α h * sign_sq ρ
  simp only [this, sum_const, card_univ, Fintype.card_perm, Fintype.card_fin, nsmul_eq_mul]
  ring

theorem sector_herm {X : Matrix (Fin nu ⊕ Fin nd → Fin m) (Fin nu ⊕ Fin nd → Fin m) ℂ} (hX : Sym spin X)
    (hH : Xᴴ = X) : (sector X).IsHermitian := by
  have key : ∀ S T, (nu.factorial * nd.factorial : ℂ) * sector X S T =
      slater (unit (occ2 S)) ⬝ᵥ (X *ᵥ slater (unit (occ2 T))) := by
    intro S T
    rw [sector_apply, ← anti_slater ((Step.slater_anti _).vecMul hX), dotProduct_comm, Matrix.dotProduct_mulVec]
  have hc : (nu.factorial * nd.factorial : ℂ) ≠ 0 :=
    mul_ne_zero (Nat.cast_ne_zero.2 (Nat.factorial_ne_zero _)) (Nat.cast_ne_zero.2 (Nat.factorial_ne_zero _))
  refine Matrix.IsHermitian.ext fun S T => mul_left_cancel₀ hc ?_
  rw [key]
  have h1 : (nu.factorial * nd.factorial : ℂ) * star (sector X T S) =
      star ((nu.factorial * nd.factorial : ℂ) * sector X T S) := by
    rw [star_mul', star_mul']; simp
  rw [h1, key]
  have hr : ∀ h : Fin nu ⊕ Fin nd → Fin m, star (slater (unit h)) = slater (unit h) := fun h =>
    funext fun f => slater_unit_real h f
  have hd : ∀ u v : (Fin nu ⊕ Fin nd → Fin m) → ℂ, star (u ⬝ᵥ v) = star v ⬝ᵥ star u := fun u v => by
    simp only [dotProduct, star_sum, star_mul', Pi.star_apply, mul_comm]
  rw [hd, Matrix.star_mulVec, hr, hr, hH, ← Matrix.dotProduct_mulVec]

/-- The trace of the exponential of a Hermitian matrix. -/
theorem trace_exp {κ : Type} [Fintype κ] [DecidableEq κ] {H : Matrix κ κ ℂ} (hH : H.IsHermitian) :
    ∃ r : ℝ, 0 ≤ r ∧ (NormedSpace.exp H).trace = r ∧ (Nonempty κ → 0 < r) := by
  have hh : ((1 / 2 : ℂ) • H).IsHermitian := by
    rw [Matrix.IsHermitian, Matrix.conjTranspose_smul, hH]
    norm_num
  have e : NormedSpace.exp H = (NormedSpace.exp ((1 / 2 : ℂ) • H))ᴴ * NormedSpace.exp ((1 / 2 : ℂ) • H) := by
    rw [← Matrix.exp_conjTranspose, hh, ← Matrix.exp_add_of_commute _ _ (Commute.refl _), ← add_smul]
    norm_num
  refine ⟨∑ i, ∑ j, ‖NormedSpace.exp ((1 / 2 : ℂ) • H) j i‖ ^ 2, by positivity, ?_, ?_⟩
  · rw [e, Matrix.trace]
    push_cast
    refine sum_congr rfl fun i _ => ?_
    rw [Matrix.diag_apply, Matrix.mul_apply]
    refine sum_congr rfl fun j _ => ?_
    rw [Matrix.conjTranspose_apply]
    exact Complex.conj_mul' _
  · rintro ⟨i⟩
    refine sum_pos' (fun _ _ => by positivity) ⟨i, mem_univ i, ?_⟩
    rcases (show 0 ≤ ∑ j, ‖NormedSpace.exp ((1 / 2 : ℂ) • H) j i‖ ^ 2 by positivity).lt_or_eq with h | h
    · exact h
    · exfalso
      have hz : ∀ j, NormedSpace.exp ((1 / 2 : ℂ) • H) j i = 0 := by
        intro j
        have := (sum_eq_zero_iff_of_nonneg fun j _ => by positivity).1 h.symm j (mem_univ j)
        simpa using this
      have hu := (Matrix.isUnit_exp ((1 / 2 : ℂ) • H))
      rw [Matrix.isUnit_iff_isUnit_det] at hu
      exact hu.ne_zero (Matrix.det_eq_zero_of_column_eq_zero i hz)

instance : Nonempty (Occ m 0 × Occ m 0) := ⟨(⟨∅, rfl⟩, ⟨∅, rfl⟩)⟩

/-- The partition function of a Hermitian Hamiltonian is positive. -/
theorem partition_pos (H : ∀ nu nd, Matrix (Occ m nu × Occ m nd) (Occ m nu × Occ m nd) ℂ)
    (hH : ∀ nu nd, (H nu nd).IsHermitian) :
    ∃ r : ℝ, 0 < r ∧ ∑ nu ∈ range (m + 1), ∑ nd ∈ range (m + 1), (NormedSpace.exp (H nu nd)).trace = r := by
  choose r h0 h1 h2 using fun nu nd => trace_exp (hH nu nd)
  refine ⟨∑ nu ∈ range (m + 1), ∑ nd ∈ range (m + 1), r nu nd, ?_, ?_⟩
  · refine sum_pos' (fun _ _ => sum_nonneg fun _ _ => h0 _ _) ⟨0, by simp, ?_⟩
    exact sum_pos' (fun _ _ => h0 _ _) ⟨0, by simp, h2 0 0 inferInstance⟩
  · push_cast
    exact sum_congr rfl fun _ _ => sum_congr rfl fun _ _ => h1 _ _

end Verif.Grand
