import Verif.Fft.Model
import Verif.Lattice.Props
import Verif.Slater.Props
import Mathlib.Analysis.Matrix.HermitianFunctionalCalculus
import Mathlib.Analysis.SpecialFunctions.ContinuousFunctionalCalculus.ExpLog.Basic
import Mathlib.Analysis.CStarAlgebra.Matrix

/-!
# The one-body step in momentum space (C108)
-/

namespace Verif.Fft

open Matrix Finset

variable {nx ny nu nd : Nat}

/-! ## Transforms -/

/-- The momenta in the order of the table. -/
theorem kpoints_eq (nx ny : Nat) (h : ny ≠ 1) : Lattice.kpoints nx ny = (List.range (nx * ny)).map fun p => [p / ny, p % ny] := by
  rw [Lattice.kpoints, if_neg h]
  rcases Nat.eq_zero_or_pos ny with rfl | hy
  · simp
  induction nx with
  | zero => simp
  | succ n ih =>
    rw [List.range_succ, List.flatMap_append, ih, Nat.succ_mul, List.range_add, List.map_append, List.map_map]
    congr 1
    simp only [List.flatMap_cons, List.flatMap_nil, List.append_nil]
    refine List.map_congr_left fun m hm => ?_
    have hm := List.mem_range.1 hm
    simp only [Function.comp_apply]
    rw [show n * ny + m = m + ny * n by ring, Nat.add_mul_div_left _ _ hy, Nat.div_eq_of_lt hm, Nat.add_mul_mod_self_left,
      Nat.mod_eq_of_lt hm, zero_add]

/-- The wave of the momentum with number `p`, on sites counted as `reshape` does. -/
noncomputable def W (nx ny : Nat) : Matrix (Fin (nx * ny)) (Fin (nx * ny)) ℂ := Matrix.of fun j p =>
  Complex.exp (2 * Real.pi * Complex.I * ((p.val / ny : Nat) * (j.val / ny : Nat) / nx + (p.val % ny : Nat) * (j.val % ny : Nat) / ny))

theorem fft_eq (v : Fin (nx * ny) → ℂ) : fft nx ny v = (W nx ny)ᴴ *ᵥ v := by
  funext p
  rw [fft, mulVec, dotProduct]
  refine sum_congr rfl fun j _ => ?_
  rw [conjTranspose_apply, W, of_apply, Complex.star_def, ← Complex.exp_conj, mul_comm]
  congr 2
  simp only [map_mul, map_add, map_div₀, Complex.conj_I, Complex.conj_ofReal, map_natCast, map_ofNat]
  ring

theorem ifft_eq (v : Fin (nx * ny) → ℂ) : ifft nx ny v = (1 / (nx * ny : ℂ)) • (W nx ny *ᵥ v) := by
  funext j
  rw [ifft, Pi.smul_apply, smul_eq_mul, mulVec, dotProduct]
  congr 1
  refine sum_congr rfl fun p _ => ?_
  rw [W, of_apply, mul_comm]

/-- `kinetic_kspace` as a matrix. -/
theorem column_eq (b v : Fin (nx * ny) → ℂ) :
    column nx ny b v = ((1 / (nx * ny : ℂ)) • (W nx ny * diagonal b * (W nx ny)ᴴ)) *ᵥ v := by
  rw [column, ifft_eq, smul_mulVec, ← mulVec_mulVec, ← mulVec_mulVec, fft_eq]
  congr 2
  funext p
  rw [mulVec_diagonal]

/-- One row of a lattice, or more than one in each direction. -/
theorem W_rect (hy : ny ≠ 1) (hx : nx ≠ 1) (p : Fin (nx * ny)) :
    (fun j => W nx ny j p) = Lattice.wave ny nx [p.val % ny, p.val / ny] := by
  rw [Lattice.wave_rect _ _ _ _ hx]
  funext j
  rw [W, of_apply, Lattice.rectWave, Lattice.zeta_pow, Lattice.zeta_pow, ← Complex.exp_nat_mul, ← Complex.exp_nat_mul,
    ← Complex.exp_add]
  congr 1
  push_cast
  ring

theorem kpoint_mem (hx : nx ≠ 1) (p : Fin (nx * ny)) : [p.val % ny, p.val / ny] ∈ Lattice.kpoints ny nx := by
  have hy : 0 < ny := by
    rcases Nat.eq_zero_or_pos ny with rfl | h
    · exact absurd p.2 (by simp)
    · exact h
  rw [Lattice.mem_kpoints]
  exact Or.inr ⟨hx, _, Nat.mod_lt _ hy, _, Nat.div_lt_of_lt_mul (lt_of_lt_of_eq p.2 (mul_comm _ _)), rfl⟩

theorem W_unitary (hy : 2 ≤ ny) (hx : 2 ≤ nx) : (W nx ny)ᴴ * W nx ny = (nx * ny : ℂ) • 1 := by
  ext p q
  have h := Lattice.wave_orth ny nx _ _ (kpoint_mem (by omega) q) (kpoint_mem (by omega) p)
  rw [← W_rect (by omega) (by omega), ← W_rect (by omega) (by omega)] at h
  rw [mul_apply, Matrix.smul_apply, one_apply, smul_eq_mul]
  refine Eq.trans (sum_congr rfl fun j _ => ?_) (h.trans ?_)
  · rw [conjTranspose_apply, mul_comm]; rfl
  · by_cases hpq : p = q
    · subst hpq
      simp [mul_comm]
    · rw [if_neg, if_neg hpq, mul_zero]
      intro e
      simp only [List.cons.injEq, and_true] at e
      apply hpq
      apply Fin.ext
      rw [← Nat.mod_add_div p.val ny, ← Nat.mod_add_div q.val ny, e.1, e.2]

theorem eks_eq (t : ℝ) (hy : 2 ≤ ny) (hx : 2 ≤ nx) (p : Fin (nx * ny)) :
    (Lattice.eigs t nx ny).getD p 0 = Lattice.ek t [p.val % ny, p.val / ny] (Lattice.kfac ny nx) nx := by
  rw [Lattice.eigs, kpoints_eq _ _ (by omega), List.map_map]
  rw [List.getD_eq_getElem?_getD, List.getElem?_eq_getElem (by simp), Option.getD_some]
  simp only [List.getElem_map, List.getElem_range, Function.comp_apply, Lattice.ek, Lattice.kfac, if_neg (show ny ≠ 1 by omega),
    if_neg (show nx ≠ 1 by omega), List.getD_cons_zero, List.getD_cons_succ]
  ring

theorem exp_eig {n : Nat} {M V : Matrix (Fin n) (Fin n) ℂ} {e : Fin n → ℂ} {c s : ℂ} (hc : c ≠ 0) (h : Vᴴ * V = c • 1)
    (hM : M * V = V * diagonal e) : NormedSpace.exp (s • M) = (1 / c) • (V * diagonal (fun p => Complex.exp (s * e p)) * Vᴴ) := by
  have h1 : ((1 / c) • Vᴴ) * V = 1 := by
    rw [smul_mul, h, smul_smul, one_div_mul_cancel hc, one_smul]
  have hinv : V⁻¹ = (1 / c) • Vᴴ := inv_eq_left_inv h1
  have hu : IsUnit V := IsUnit.of_mul_eq_one_right _ h1
  have h2 : V * ((1 / c) • Vᴴ) = 1 := mul_eq_one_comm.1 h1
  have hMV : s • M = V * diagonal (fun p => s * e p) * V⁻¹ := by
    have : diagonal (fun p => s * e p) = s • diagonal e := by
      ext i j; simp [diagonal_apply]
    rw [this, Matrix.mul_smul, ← hM, smul_mul, Matrix.mul_assoc, hinv, h2, Matrix.mul_one]
  rw [hMV, Matrix.exp_conj _ _ hu, Matrix.exp_diagonal, hinv, Matrix.mul_smul]
  have e : (NormedSpace.exp fun p => s * e p) = fun p => Complex.exp (s * e p) := by
    funext p
    rw [Pi.coe_exp, Complex.exp_eq_exp_ℂ]
  rw [e]

theorem btk_eq (dt t : ℝ) (nx ny : Nat) :
    btk dt t nx ny = fun p : Fin (nx * ny) => Complex.exp ((-(1 / 2) * dt : ℂ) * ((Lattice.eigs t nx ny).getD p 0 : ℂ)) := by
  funext p
  rw [btk]
  congr 1
  push_cast
  ring

/-- **C108**: the step in momentum space is that of the periodic lattice without a twist whose rows have `ny` sites. -/
theorem column_lattice (dt t : ℝ) (hy : 2 ≤ ny) (hx : 2 ≤ nx) (v : Fin (nx * ny) → ℂ) : column nx ny (btk dt t nx ny) v =
    NormedSpace.exp ((-(1 / 2) * dt : ℂ) • Lattice.kinetic t ny nx none true true) *ᵥ v := by
  have hn : (nx * ny : ℂ) ≠ 0 := by
    have : nx ≠ 0 ∧ ny ≠ 0 := by omega
    exact mul_ne_zero (by exact_mod_cast this.1) (by exact_mod_cast this.2)
  rw [column_eq, exp_eig (V := W nx ny) (e := fun p => ((Lattice.eigs t nx ny).getD p 0 : ℂ)) hn (W_unitary hy hx)]
  · rw [btk_eq]
  · ext j p
    have h := Lattice.wave_eigen_partial t ny nx hy _ (kpoint_mem (by omega) p)
    rw [← W_rect (by omega) (by omega), ← eks_eq t hy hx p] at h
    rw [mul_diagonal, mul_apply]
    refine (congrFun h j).trans ?_
    rw [Pi.smul_apply, smul_eq_mul, mul_comm]

/-! ## One row -/

/-- The hopping of a single row, with the number of sites written as the code has it. -/
noncomputable def chain (t : ℝ) (nx : Nat) : Matrix (Fin (nx * 1)) (Fin (nx * 1)) ℂ :=
  (Lattice.kinetic t nx 1 none true true).submatrix (Fin.cast (by ring)) (Fin.cast (by ring))

theorem chain_W (nx : Nat) (p : Fin (nx * 1)) :
    (fun j => W nx 1 j p) = fun j => Lattice.wave nx 1 [p.val] (Fin.cast (by ring) j) := by
  funext j
  rw [Lattice.wave_chain, W, of_apply, Lattice.zeta_pow, ← Complex.exp_nat_mul]
  simp only [Nat.div_one, Nat.mod_one, Fin.val_cast]
  congr 1
  push_cast
  ring

/-- **C108**: for a single row the step in momentum space is right. -/
theorem column_chain (dt t : ℝ) (hx : 2 ≤ nx) (v : Fin (nx * 1) → ℂ) :
    column nx 1 (btk dt t nx 1) v = NormedSpace.exp ((-(1 / 2) * dt : ℂ) • chain t nx) *ᵥ v := by
  have hn : (nx * (1 : Nat) : ℂ) ≠ 0 := by
    have : nx ≠ 0 := by omega
    simpa using this
  have hmem : ∀ p : Fin (nx * 1), [p.val] ∈ Lattice.kpoints nx 1 := fun p => by
    rw [Lattice.mem_kpoints]; exact Or.inl ⟨rfl, _, by have := p.2; omega, rfl⟩
  have hW : (W nx 1)ᴴ * W nx 1 = (nx * (1 : Nat) : ℂ) • 1 := by
    ext p q
    have h := Lattice.wave_orth nx 1 _ _ (hmem q) (hmem p)
    rw [mul_apply, Matrix.smul_apply, one_apply, smul_eq_mul]
    have e : ∑ j, (W nx 1)ᴴ p j * W nx 1 j q = Lattice.wave nx 1 [q.val] ⬝ᵥ star (Lattice.wave nx 1 [p.val]) := by
      rw [dotProduct, ← (finCongr (show nx * 1 = 1 * nx by ring)).sum_comp]
      refine sum_congr rfl fun j _ => ?_
      rw [conjTranspose_apply, mul_comm]
      have h1 := congrFun (chain_W nx q) j
      have h2 := congrFun (chain_W nx p) j
      rw [h1, h2]
      rfl
    rw [e, h]
    by_cases hpq : p = q
    · subst hpq; simp
    · rw [if_neg, if_neg hpq, mul_zero]
      intro e
      exact hpq (Fin.ext (by simpa using e.symm))
  rw [column_eq, exp_eig (V := W nx 1) (e := fun p => ((Lattice.eigs t nx 1).getD p 0 : ℂ)) hn hW]
  · rw [btk_eq]
  · ext j p
    have h := congrFun (Lattice.wave_eigen_partial t nx 1 hx _ (hmem p)) (Fin.cast (by ring) j)
    have he : (Lattice.eigs t nx 1).getD p 0 = Lattice.ek t [p.val] (Lattice.kfac nx 1) 1 := by
      rw [Lattice.eigs, Lattice.kpoints, if_pos rfl, List.map_map, List.getD_eq_getElem?_getD,
        List.getElem?_eq_getElem (by have := p.2; simp at this ⊢; omega), Option.getD_some]
      simp
    have h1 := congrFun (chain_W nx p) j
    rw [mul_diagonal, he, mul_apply, h1, mul_comm (Lattice.wave _ _ _ _)]
    refine Eq.trans ?_ h
    rw [mulVec, dotProduct, ← (finCongr (show nx * 1 = 1 * nx by ring)).sum_comp]
    refine sum_congr rfl fun l _ => ?_
    have h2 := congrFun (chain_W nx p) l
    rw [h2]
    rfl

/-! ## Which matrices -/

theorem exp_inj {n : Nat} {A B : Matrix (Fin n) (Fin n) ℂ} (hA : A.IsHermitian) (hB : B.IsHermitian)
    (h : NormedSpace.exp A = NormedSpace.exp B) : A = B := by
  open scoped Matrix.Norms.L2Operator in
  have h1 := CFC.log_exp A hA
  have h2 := CFC.log_exp B hB
  rw [← h1, ← h2, h]

/-- **C108**: the step in momentum space is the step of a one-body Hamiltonian only if this is the hopping of the periodic
lattice without a twist whose rows have `ny` sites. -/
theorem column_iff (dt t : ℝ) (hdt : dt ≠ 0) (hy : 2 ≤ ny) (hx : 2 ≤ nx) {M : Matrix (Fin (nx * ny)) (Fin (nx * ny)) ℂ} (hM : M.IsHermitian) :
    (∀ v, column nx ny (btk dt t nx ny) v = NormedSpace.exp ((-(1 / 2) * dt : ℂ) • M) *ᵥ v) ↔
      M = Lattice.kinetic t ny nx none true true := by
  constructor
  · intro h
    have hc : (-(1 / 2) * dt : ℂ) = ((-(1 / 2) * dt : ℝ) : ℂ) := by push_cast; ring
    have h0 : (-(1 / 2) * dt : ℂ) ≠ 0 := by
      rw [hc]; exact_mod_cast mul_ne_zero (by norm_num) hdt
    have herm : ∀ {X : Matrix (Fin (nx * ny)) (Fin (nx * ny)) ℂ}, X.IsHermitian → ((-(1 / 2) * dt : ℂ) • X).IsHermitian := by
      intro X hX
      rw [hc, IsHermitian, conjTranspose_smul, hX.eq, Complex.star_def, Complex.conj_ofReal]
    have e : NormedSpace.exp ((-(1 / 2) * dt : ℂ) • M) =
        NormedSpace.exp ((-(1 / 2) * dt : ℂ) • Lattice.kinetic t ny nx none true true) := by
      refine Matrix.mulVec_injective (funext fun v => ?_)
      rw [← h v, column_lattice dt t hy hx]
    have := exp_inj (herm hM) (herm (Lattice.kinetic_hermitian t ny nx none true true)) e
    exact smul_right_injective _ h0 this
  · rintro rfl v
    exact column_lattice dt t hy hx v

end Verif.Fft
