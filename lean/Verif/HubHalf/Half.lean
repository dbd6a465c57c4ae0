import Verif.HubRun.Ground
import Mathlib.Data.Matrix.ColumnRowPartitioned
import Mathlib.Analysis.Matrix.Order

/-!
# Half-filled Hubbard models on bipartite lattices: C132

The number of electrons is the number of sites, hops lead from one sublattice to the other, the interaction is repulsive and the spin
decomposition is used.  The down orbitals of the trial wave function are those that the up orbitals leave empty, with the signs of one
sublattice changed.  Then every whole sweep over the sites leaves the overlap with the trial wave function real and not negative.
-/

namespace Verif.HubHalf

open Matrix Finset
open Verif.Slater
open Verif.Hirsch
open Verif.HubRun (par aux_pos)
open Verif.Step (Hub)

variable {nb nu nd n : Nat}

/-- The sign of a site: `1` on one sublattice, `-1` on the other. -/
def sgn (A : Fin nb → Bool) : Matrix (Fin nb) (Fin nb) ℂ := diagonal fun i => if A i then 1 else -1

theorem sgn_sq (A : Fin nb → Bool) : sgn A * sgn A = 1 := by
  rw [sgn, Matrix.diagonal_mul_diagonal, ← Matrix.diagonal_one]
  congr 1
  funext i
  split_ifs <;> norm_num

theorem sgn_adj (A : Fin nb → Bool) : (sgn A)ᴴ = sgn A := by
  rw [sgn, Matrix.diagonal_conjTranspose]
  congr 1
  funext i
  rw [Pi.star_apply]
  split_ifs <;> simp

theorem sgn_det (A : Fin nb → Bool) : (sgn A).det ≠ 0 := by
  intro h
  have := congrArg Matrix.det (sgn_sq A)
  rw [Matrix.det_mul, h, mul_zero, Matrix.det_one] at this
  exact zero_ne_one this

theorem gram_adj (A : Fin nb → Bool) {k l : Nat} (U : Matrix (Fin nb) (Fin k) ℂ) (V : Matrix (Fin nb) (Fin l) ℂ) :
    (sgn A * U)ᴴ * (sgn A * V) = Uᴴ * V := by
  rw [Matrix.conjTranspose_mul, sgn_adj, Matrix.mul_assoc, ← Matrix.mul_assoc (sgn A), sgn_sq, Matrix.one_mul]

open scoped ComplexOrder in
theorem gram_pos {k : Nat} {U : Matrix (Fin nb) (Fin k) ℂ} (h : FullRank U) : IsPos (Uᴴ * U).det := by
  have hp : (Uᴴ * U).PosDef := by
    refine (Matrix.PosSemidef.posDef_iff_isUnit (Matrix.posSemidef_conjTranspose_mul_self U)).2 ?_
    rw [Matrix.isUnit_iff_isUnit_det, isUnit_iff_ne_zero]
    exact h
  have := hp.det_pos
  rw [Complex.lt_def] at this
  exact ⟨(Uᴴ * U).det.re, this.1, Complex.ext rfl (by simpa using this.2.symm)⟩

theorem IsPos.of_norm {z : ℂ} (h : z ≠ 0) : IsPos (star z * z) :=
  ⟨Complex.normSq z, Complex.normSq_pos.2 h, (Complex.normSq_eq_conj_mul_self).symm⟩

/-- All orbitals of both spins as one square matrix. -/
def blk (e : Fin nu ⊕ Fin nd ≃ Fin nb) (U : Matrix (Fin nb) (Fin nu) ℂ) (V : Matrix (Fin nb) (Fin nd) ℂ) :
    Matrix (Fin nu ⊕ Fin nd) (Fin nu ⊕ Fin nd) ℂ := (fromCols U V).submatrix e id

theorem blk_gram (e : Fin nu ⊕ Fin nd ≃ Fin nb) (U U' : Matrix (Fin nb) (Fin nu) ℂ) (V V' : Matrix (Fin nb) (Fin nd) ℂ) :
    (blk e U V)ᴴ * blk e U' V' = fromBlocks (Uᴴ * U') (Uᴴ * V') (Vᴴ * U') (Vᴴ * V') := by
  rw [blk, blk, Matrix.conjTranspose_submatrix, Matrix.submatrix_mul_equiv, Matrix.conjTranspose_fromCols_eq_fromRows_conjTranspose,
    Matrix.fromRows_mul_fromCols, Matrix.submatrix_id_id]

theorem blk_mul (e : Fin nu ⊕ Fin nd ≃ Fin nb) (K : Matrix (Fin nb) (Fin nb) ℂ) (U : Matrix (Fin nb) (Fin nu) ℂ) (V : Matrix (Fin nb) (Fin nd) ℂ) :
    blk e (K * U) (K * V) = K.submatrix e e * blk e U V := by
  rw [blk, blk, Matrix.submatrix_mul_equiv, Matrix.mul_fromCols]

/-- Overlap of the determinants with all orbitals. -/
theorem blk_det (e : Fin nu ⊕ Fin nd ≃ Fin nb) (U U' : Matrix (Fin nb) (Fin nu) ℂ) (V V' : Matrix (Fin nb) (Fin nd) ℂ) :
    star (blk e U V).det * (blk e U' V').det = (fromBlocks (Uᴴ * U') (Uᴴ * V') (Vᴴ * U') (Vᴴ * V')).det := by
  rw [← blk_gram e, Matrix.det_mul, Matrix.det_conjTranspose]

/-- The walker is related to the trial wave function by exchanging electrons and holes of one spin. -/
structure Half (e : Fin nu ⊕ Fin nd ≃ Fin nb) (A : Fin nb → Bool) (psi φ : Wfn nb nu nd) : Prop where
  orth : (up φ)ᴴ * (sgn A * dn φ) = 0
  ru : FullRank (up φ)
  rd : FullRank (sgn A * dn φ)
  pos : IsPos (star (blk e (up psi) (sgn A * dn psi)).det * (blk e (up φ) (sgn A * dn φ)).det)

/-- The overlap is a square. -/
theorem Half.overlap {e : Fin nu ⊕ Fin nd ≃ Fin nb} {A : Fin nb → Bool} {psi φ : Wfn nb nu nd} (hψ : Half e A psi psi) (h : Half e A psi φ) :
    ∃ r : ℝ, 0 ≤ r ∧ overlap psi φ = r := by
  have h1 := blk_det e (up psi) (up φ) (sgn A * dn psi) (sgn A * dn psi)
  rw [hψ.orth, Matrix.det_fromBlocks_zero₁₂] at h1
  have h2 := blk_det e (up φ) (up φ) (sgn A * dn φ) (sgn A * dn psi)
  have hz : (sgn A * dn φ)ᴴ * up φ = 0 := by
    have := congrArg conjTranspose h.orth
    rwa [Matrix.conjTranspose_mul, Matrix.conjTranspose_conjTranspose, Matrix.conjTranspose_zero] at this
  rw [hz, Matrix.det_fromBlocks_zero₂₁, gram_adj] at h2
  have h3 := congrArg star h2
  rw [star_mul', star_mul', star_star, ← Matrix.det_conjTranspose ((dn φ)ᴴ * dn psi), Matrix.conjTranspose_mul, Matrix.conjTranspose_conjTranspose,
    (gram_pos h.ru).star] at h3
  obtain ⟨a, ha, ea⟩ := gram_pos hψ.rd
  obtain ⟨b, hb, eb⟩ := gram_pos h.ru
  obtain ⟨c, hc, ec⟩ := h.pos
  rw [ea] at h1
  rw [eb] at h3
  have hd : (0 : ℝ) < a * b := mul_pos ha hb
  refine ⟨c * Complex.normSq (blk e (up φ) (sgn A * dn psi)).det / (a * b), div_nonneg (mul_nonneg hc.le (Complex.normSq_nonneg _)) hd.le, ?_⟩
  have h4 : Verif.Slater.overlap psi φ * (a * b) = c * Complex.normSq (blk e (up φ) (sgn A * dn psi)).det := by
    rw [Verif.Slater.overlap, ← ec, Complex.normSq_eq_conj_mul_self]
    have : ((up psi)ᴴ * up φ).det * ((dn psi)ᴴ * dn φ).det * (a * b) = (((up psi)ᴴ * up φ).det * a) * (b * ((dn psi)ᴴ * dn φ).det) := by ring
    rw [this, ← h1, ← h3]
    show _ = _ * (star _ * _)
    ring
  have hne : ((a : ℂ) * b) ≠ 0 := by exact_mod_cast hd.ne'
  push_cast
  rw [eq_div_iff hne, h4]

/-- A Hermitian matrix on the up orbitals and, up to a positive factor, its inverse on the down orbitals. -/
theorem Half.evolve {e : Fin nu ⊕ Fin nd ≃ Fin nb} {A : Fin nb → Bool} {psi φ φ' : Wfn nb nu nd} (h : Half e A psi φ)
    {K : Matrix (Fin nb) (Fin nb) ℂ} (hK : Kᴴ = K) (hd : IsPos K.det) {k : ℂ} (hk : IsPos k) (hu : up φ' = K * up φ)
    (hv : sgn A * dn φ' = k • (K⁻¹ * (sgn A * dn φ))) : Half e A psi φ' := by
  have hu0 : IsUnit K.det := isUnit_iff_ne_zero.2 hd.ne
  have rv : FullRank (sgn A * dn φ') := by
    rw [hv, ← Matrix.smul_mul]
    refine h.rd.mul ?_
    rw [Matrix.det_smul, Matrix.det_nonsing_inv, Ring.inverse_eq_inv']
    exact mul_ne_zero (pow_ne_zero _ hk.ne) (inv_ne_zero hd.ne)
  have ru : FullRank (up φ') := by
    rw [hu]
    exact h.ru.mul hd.ne
  refine ⟨?_, ru, rv, ?_⟩
  · rw [hu, hv, Matrix.conjTranspose_mul, hK, Matrix.mul_smul, Matrix.mul_assoc, ← Matrix.mul_assoc K, Matrix.mul_nonsing_inv _ hu0,
      Matrix.one_mul, h.orth, smul_zero]
  · have e1 : K.det * (blk e (up φ') (sgn A * dn φ')).det = (blk e (K * (K * up φ)) (k • (sgn A * dn φ))).det := by
      rw [← Matrix.det_submatrix_equiv_self e K, ← Matrix.det_mul, ← blk_mul, hu, hv, Matrix.mul_smul, ← Matrix.mul_assoc K K⁻¹,
        Matrix.mul_nonsing_inv _ hu0, Matrix.one_mul]
    have e2 := blk_det e (up φ) (K * (K * up φ)) (sgn A * dn φ) (k • (sgn A * dn φ))
    have e3 : (up φ)ᴴ * (K * (K * up φ)) = (K * up φ)ᴴ * (K * up φ) := by
      rw [Matrix.conjTranspose_mul, hK, Matrix.mul_assoc]
    rw [Matrix.mul_smul, h.orth, smul_zero, Matrix.det_fromBlocks_zero₁₂, Matrix.mul_smul, Matrix.det_smul, ← e1, e3] at e2
    have kp : IsPos (k ^ Fintype.card (Fin nd)) := by
      obtain ⟨r, hr, rfl⟩ := hk
      exact ⟨r ^ _, pow_pos hr _, by push_cast; rfl⟩
    have p2 : IsPos (star (blk e (up φ) (sgn A * dn φ)).det * (K.det * (blk e (up φ') (sgn A * dn φ')).det)) := by
      rw [e2]
      exact (gram_pos (h.ru.mul hd.ne)).mul (kp.mul (gram_pos h.rd))
    have hb : (blk e (up φ) (sgn A * dn φ)).det ≠ 0 := right_ne_zero_of_mul h.pos.ne
    have p3 := ((h.pos.mul p2).div (IsPos.of_norm hb)).div hd
    have hb' : star (blk e (up φ) (sgn A * dn φ)).det ≠ 0 := star_ne_zero.2 hb
    convert p3 using 1
    have := hd.ne
    field_simp

/-- Hops only between the sublattices, the same for both spins. -/
structure Bipartite (A : Fin nb → Bool) (h : Hub nb) : Prop where
  herm : (h.h1 0)ᴴ = h.h1 0
  same : h.h1 1 = h.h1 0
  hops : ∀ i j, A i = A j → h.h1 0 i j = 0

theorem Bipartite.anti {A : Fin nb → Bool} {h : Hub nb} (hb : Bipartite A h) : sgn A * h.h1 0 * sgn A = -h.h1 0 := by
  ext i j
  rw [sgn, Matrix.mul_diagonal, Matrix.diagonal_mul, Matrix.neg_apply]
  by_cases hA : A i = A j
  · rw [hb.hops i j hA]
    simp
  · cases hi : A i <;> cases hj : A j <;> simp_all

theorem exp_det_pos {M : Matrix (Fin nb) (Fin nb) ℂ} (hM : Mᴴ = M) : IsPos (NormedSpace.exp M).det := by
  have e : NormedSpace.exp M = (NormedSpace.exp ((1 / 2 : ℂ) • M))ᴴ * NormedSpace.exp ((1 / 2 : ℂ) • M) := by
    have h2 : star (1 / 2 : ℂ) = 1 / 2 := by
      rw [show (1 / 2 : ℂ) = ((1 / 2 : ℝ) : ℂ) by push_cast; rfl]
      exact Complex.conj_ofReal _
    have h3 : ((1 / 2 : ℂ) • M)ᴴ = (1 / 2 : ℂ) • M := by rw [Matrix.conjTranspose_smul, hM, h2]
    have h4 := Matrix.exp_add_of_commute ((1 / 2 : ℂ) • M) ((1 / 2 : ℂ) • M) (Commute.refl _)
    rw [← add_smul, add_halves, one_smul] at h4
    rw [← Matrix.exp_conjTranspose, h3, ← h4]
  rw [e, Matrix.det_mul, Matrix.det_conjTranspose]
  refine IsPos.of_norm ?_
  have hu : IsUnit (NormedSpace.exp ((1 / 2 : ℂ) • M)) := Matrix.isUnit_exp _
  rw [Matrix.isUnit_iff_isUnit_det] at hu
  exact hu.ne_zero

/-- Hops of all electrons. -/
theorem Half.kinetic {e : Fin nu ⊕ Fin nd ≃ Fin nb} {A : Fin nb → Bool} {psi φ : Wfn nb nu nd} (h : Half e A psi φ) {hub : Hub nb}
    (hb : Bipartite A hub) (dt : ℝ) : Half e A psi (kineticReal (par hub dt).bt2 φ) := by
  have hs : ∀ s, (par hub dt).bt2 s = NormedSpace.exp (-((dt : ℂ) / 2) • hub.h1 0) := by
    intro s
    show NormedSpace.exp (-((dt : ℂ) / 2) • hub.h1 s) = _
    fin_cases s
    · rfl
    · exact congrArg (fun X => NormedSpace.exp (-((dt : ℂ) / 2) • X)) hb.same
  have hM : (-((dt : ℂ) / 2) • hub.h1 0)ᴴ = -((dt : ℂ) / 2) • hub.h1 0 := by
    rw [Matrix.conjTranspose_smul, hb.herm]
    congr 1
    have : -((dt : ℂ) / 2) = ((-(dt / 2) : ℝ) : ℂ) := by push_cast; rfl
    rw [this]
    exact Complex.conj_ofReal _
  refine h.evolve (K := NormedSpace.exp (-((dt : ℂ) / 2) • hub.h1 0)) (k := 1) ?_ (exp_det_pos hM) ⟨1, one_pos, by simp⟩ ?_ ?_
  · rw [← Matrix.exp_conjTranspose, hM]
  · rw [kineticReal, up_join, hs]
  · rw [kineticReal, dn_join, hs, one_smul, ← Matrix.exp_neg, ← Matrix.mul_assoc, ← Matrix.mul_assoc]
    congr 1
    have hinv : (sgn A)⁻¹ = sgn A := Matrix.inv_eq_right_inv (sgn_sq A)
    have h1 := Matrix.exp_conj (sgn A) (-((dt : ℂ) / 2) • hub.h1 0) ((Matrix.isUnit_iff_isUnit_det _).2 (isUnit_iff_ne_zero.2 (sgn_det A)))
    rw [hinv, Matrix.mul_smul, Matrix.smul_mul, hb.anti, smul_neg] at h1
    rw [h1, Matrix.mul_assoc, sgn_sq, Matrix.mul_one]

/-- A whole sweep over the sites, whatever the fields. -/
theorem Half.sweep {e : Fin nu ⊕ Fin nd ≃ Fin nb} {A : Fin nb → Bool} {psi φ : Wfn nb nu nd} (h : Half e A psi φ) (hub : Hub nb) (dt : ℝ)
    (f : Fin nb → Fin 2) : Half e A psi (join (diagonal (fun i => (par hub dt).auxf (f i) 0) * up φ)
      (diagonal (fun i => (par hub dt).auxf (f i) 1) * dn φ)) := by
  have hp := fun i s => aux_pos hub dt (f i) s
  have hk : IsPos (Complex.exp (-(dt * hub.U / 2)) * Complex.exp (-(dt * hub.U / 2))) := by
    have := IsPos.exp (-(dt * hub.U / 2))
    push_cast at this
    exact this.mul this
  have hprod : ∀ i, (par hub dt).auxf (f i) 1 = Complex.exp (-(dt * hub.U / 2)) * Complex.exp (-(dt * hub.U / 2)) * ((par hub dt).auxf (f i) 0)⁻¹ := by
    intro i
    rw [eq_mul_inv_iff_mul_eq₀ (hp i 0).ne]
    show spinAux (spinGamma dt hub.U) (f i) 1 * Complex.exp (-(dt * hub.U / 2)) * (spinAux (spinGamma dt hub.U) (f i) 0 * Complex.exp (-(dt * hub.U / 2))) = _
    have hx : Complex.exp (spinGamma dt hub.U) * Complex.exp (-(spinGamma dt hub.U : ℂ)) = 1 := by rw [← Complex.exp_add]; simp
    obtain hf | hf : f i = 0 ∨ f i = 1 := by
      generalize f i = x
      fin_cases x <;> simp
    · rw [hf, spinAux, spinAux, if_neg (by decide), if_pos rfl]
      linear_combination (Complex.exp (-(dt * hub.U / 2)) * Complex.exp (-(dt * hub.U / 2))) * hx
    · rw [hf, spinAux, spinAux, if_pos rfl, if_neg (by decide)]
      linear_combination (Complex.exp (-(dt * hub.U / 2)) * Complex.exp (-(dt * hub.U / 2))) * hx
  refine h.evolve (K := diagonal fun i => (par hub dt).auxf (f i) 0) ?_ ?_ hk (up_join _ _) ?_
  · rw [Matrix.diagonal_conjTranspose]
    congr 1
    funext i
    exact (hp i 0).star
  · rw [Matrix.det_diagonal]
    choose r hr er using fun i => hp i 0
    exact ⟨∏ i, r i, prod_pos fun i _ => hr i, by push_cast; exact prod_congr rfl fun i _ => er i⟩
  · have hinv : (diagonal fun i => (par hub dt).auxf (f i) 0)⁻¹ = diagonal fun i => ((par hub dt).auxf (f i) 0)⁻¹ := by
      refine Matrix.inv_eq_right_inv ?_
      rw [Matrix.diagonal_mul_diagonal, ← Matrix.diagonal_one]
      congr 1
      funext i
      exact mul_inv_cancel₀ (hp i 0).ne
    rw [dn_join, hinv]
    ext i a
    rw [Matrix.smul_apply, sgn, Matrix.diagonal_mul, Matrix.diagonal_mul, Matrix.diagonal_mul, Matrix.diagonal_mul, hprod, smul_eq_mul]
    ring

end Verif.HubHalf
