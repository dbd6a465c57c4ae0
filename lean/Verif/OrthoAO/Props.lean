import Verif.OrthoAO.Model
import Verif.AoChol.Props
import Verif.Freeze.Props

/-!
# Integrals and trial in an orthogonal basis (C90)
-/

namespace Verif.OrthoAO

open Matrix Finset
open Verif.Energy (localChol ovl)

variable {n k nx na nb : Nat}

/-- `numpy.linalg.eigh` of a real symmetric matrix. -/
structure Eigh (S : Matrix (Fin n) (Fin n) ℝ) (sdiag : Fin n → ℝ) (Us : Matrix (Fin n) (Fin n) ℝ) : Prop where
  orth : Usᵀ * Us = 1
  eigen : S * Us = Us * Matrix.diagonal sdiag

/-- **C90 (basis)**: the orbitals of `get_ortho_ao` are orthonormal in the metric of the overlap matrix, for any cutoff. -/
theorem ortho_ao {S : Matrix (Fin n) (Fin n) ℝ} {sdiag : Fin n → ℝ} {Us : Matrix (Fin n) (Fin n) ℝ} (h : Eigh S sdiag Us)
    {cut : ℝ} (hc : 0 ≤ cut) : (getOrthoAo cut sdiag Us)ᵀ * S * getOrthoAo cut sdiag Us = 1 := by
  set e := (kept cut sdiag).orderEmbOfFin rfl with he
  have hpos : ∀ a, 0 < sdiag (e a) := fun a => by
    have := (kept cut sdiag).orderEmbOfFin_mem rfl a
    unfold kept at this
    exact lt_of_le_of_lt hc (mem_filter.1 this).2
  have hX : getOrthoAo cut sdiag Us = Us * (Matrix.of fun i a => if i = e a then 1 / Real.sqrt (sdiag (e a)) else 0) := by
    ext p a
    rw [Matrix.mul_apply]
    simp [getOrthoAo, div_eq_mul_inv, ← he]
  have hUS : Usᵀ * S * Us = Matrix.diagonal sdiag := by
    rw [Matrix.mul_assoc, h.eigen, ← Matrix.mul_assoc, h.orth, Matrix.one_mul]
  rw [hX, Matrix.transpose_mul]
  set D : Matrix (Fin n) (Fin (kept cut sdiag).card) ℝ :=
    Matrix.of fun i a => if i = e a then 1 / Real.sqrt (sdiag (e a)) else 0 with hD
  rw [show Dᵀ * Usᵀ * S * (Us * D) = Dᵀ * (Usᵀ * S * Us) * D by simp only [Matrix.mul_assoc], hUS]
  ext a b
  rw [Matrix.mul_apply]
  simp only [Matrix.mul_diagonal, Matrix.transpose_apply, hD, Matrix.of_apply, mul_ite, mul_zero, sum_ite_eq', mem_univ, if_true]
  rw [Matrix.one_apply]
  by_cases hab : a = b
  · subst hab
    rw [if_pos rfl, if_pos rfl]
    have := Real.mul_self_sqrt (hpos a).le
    have h0 : Real.sqrt (sdiag (e a)) ≠ 0 := (Real.sqrt_pos.2 (hpos a)).ne'
    field_simp
    rw [sq, this]
  · rw [if_neg (fun h' => hab (e.injective h').symm), if_neg hab]
    simp

/-! ## Energies -/

/-- A real matrix as a complex one. -/
abbrev cx {m : Nat} (A : Matrix (Fin n) (Fin m) ℝ) : Matrix (Fin n) (Fin m) ℂ := A.map Complex.ofReal

theorem cx_mul {m l : Nat} (A : Matrix (Fin n) (Fin m) ℝ) (B : Matrix (Fin m) (Fin l) ℝ) : cx (A * B) = cx A * cx B :=
  Matrix.map_mul (f := Complex.ofRealHom)

theorem cx_transpose {m : Nat} (A : Matrix (Fin n) (Fin m) ℝ) : cx Aᵀ = (cx A)ᴴ := by
  ext i j
  simp [cx]

theorem cx_one : cx (1 : Matrix (Fin n) (Fin n) ℝ) = 1 := by
  ext i j
  by_cases h : i = j <;> simp [cx, Matrix.one_apply, h]

/-- The transition density matrix of determinants of orbitals `A`, `B` with overlap matrix `S`. -/
noncomputable def density (S : Matrix (Fin n) (Fin n) ℝ) (A B : Matrix (Fin n) (Fin k) ℂ) : Matrix (Fin n) (Fin n) ℂ :=
  B * ((Aᴴ * cx S * B)⁻¹ * Aᴴ)

/-- The energy of density matrices in a basis that need not be orthogonal: `h`, `(pq|rs)` and a constant. -/
noncomputable def aoEnergy (h : Matrix (Fin n) (Fin n) ℝ) (eri : Fin n → Fin n → Fin n → Fin n → ℝ) (enuc : ℂ)
    (P : Fin 2 → Matrix (Fin n) (Fin n) ℂ) : ℂ :=
  enuc + ∑ p, ∑ q, (h p q : ℂ) * (P 0 + P 1) q p + (1 / 2 : ℂ) * ∑ p, ∑ q, ∑ r, ∑ s, (eri p q r s : ℂ) *
    ((P 0 + P 1) q p * (P 0 + P 1) s r - P 0 s p * P 0 q r - P 1 s p * P 1 q r)

/-- Overlaps in the orthogonal basis. -/
theorem ortho_mul {S X : Matrix (Fin n) (Fin n) ℝ} (hX : Xᵀ * S * X = 1) (A B : Matrix (Fin n) (Fin k) ℂ) :
    (cx X⁻¹ * A)ᴴ * (cx X⁻¹ * B) = Aᴴ * cx S * B := by
  have hu : IsUnit X.det := by
    have h1 : IsUnit (Xᵀ * S * X).det := by rw [hX, det_one]; exact isUnit_one
    rw [det_mul] at h1
    exact isUnit_of_mul_isUnit_right h1
  have hS : S = X⁻¹ᵀ * X⁻¹ := by
    have : X⁻¹ᵀ * (Xᵀ * S * X) * X⁻¹ = S := by
      rw [show X⁻¹ᵀ * (Xᵀ * S * X) * X⁻¹ = (X * X⁻¹)ᵀ * S * (X * X⁻¹) by
        rw [Matrix.transpose_mul]; simp only [Matrix.mul_assoc], Matrix.mul_nonsing_inv _ hu]
      simp
    rw [← this, hX, Matrix.mul_one]
  rw [hS, cx_mul, cx_transpose, Matrix.conjTranspose_mul]
  simp only [Matrix.mul_assoc]

/-- **C90 (overlaps)** -/
theorem ortho_ovl {S X : Matrix (Fin n) (Fin n) ℝ} (hX : Xᵀ * S * X = 1) (A B : Matrix (Fin n) (Fin k) ℂ) :
    ovl (cx X⁻¹ * A) (cx X⁻¹ * B) = (Aᴴ * cx S * B).det := by
  rw [ovl, ortho_mul hX]

theorem ortho_gab {S X : Matrix (Fin n) (Fin n) ℝ} (hX : Xᵀ * S * X = 1) (A B : Matrix (Fin n) (Fin k) ℂ) :
    Slater.gab (cx X⁻¹ * A) (cx X⁻¹ * B) = cx X⁻¹ * density S A B * (cx X⁻¹)ᴴ := by
  rw [Slater.gab, ortho_mul hX, density, Matrix.conjTranspose_mul]
  simp only [Matrix.mul_assoc]

theorem sum_eri (a : Fin nx → Matrix (Fin n) (Fin n) ℝ) (g : Fin n → Fin n → Fin n → Fin n → ℂ) :
    ∑ p, ∑ q, ∑ r, ∑ s, ((∑ x, a x p q * a x r s : ℝ) : ℂ) * g p q r s =
      ∑ x, ∑ p, ∑ q, ∑ r, ∑ s, (a x p q : ℂ) * a x r s * g p q r s := by
  conv_rhs => rw [sum_comm]
  refine (sum_congr rfl fun p _ => ?_)
  conv_rhs => rw [sum_comm]
  refine (sum_congr rfl fun q _ => ?_)
  conv_rhs => rw [sum_comm]
  refine (sum_congr rfl fun r _ => ?_)
  conv_rhs => rw [sum_comm]
  refine (sum_congr rfl fun s _ => ?_)
  rw [Complex.ofReal_sum, sum_mul]
  exact sum_congr rfl fun x _ => by rw [Complex.ofReal_mul]

theorem trace_sum (a : Matrix (Fin n) (Fin n) ℝ) (P : Matrix (Fin n) (Fin n) ℂ) :
    (cx a * P).trace = ∑ p, ∑ q, (a p q : ℂ) * P q p := by
  simp only [Matrix.trace, Matrix.diag, Matrix.mul_apply]
  rfl

theorem direct_sum (a : Matrix (Fin n) (Fin n) ℝ) (P : Matrix (Fin n) (Fin n) ℂ) :
    ∑ p, ∑ q, ∑ r, ∑ s, (a p q : ℂ) * a r s * (P q p * P s r) = (cx a * P).trace ^ 2 := by
  rw [trace_sum, sq, sum_mul]
  refine sum_congr rfl fun p _ => ?_
  rw [sum_mul]
  refine sum_congr rfl fun q _ => ?_
  rw [mul_sum]
  refine sum_congr rfl fun r _ => ?_
  rw [mul_sum]
  exact sum_congr rfl fun s _ => by ring

theorem exchange_sum (a : Matrix (Fin n) (Fin n) ℝ) (P : Matrix (Fin n) (Fin n) ℂ) :
    ∑ p, ∑ q, ∑ r, ∑ s, (a p q : ℂ) * a r s * (P s p * P q r) = (P * cx a * (P * cx a)).trace := by
  have e : (P * cx a * (P * cx a)).trace = ∑ s, ∑ q, (∑ p, P s p * a p q) * ∑ r, P q r * a r s := by
    simp only [Matrix.trace, Matrix.diag, Matrix.mul_apply]
    rfl
  have e2 : ∑ s, ∑ q, (∑ p, P s p * a p q) * (∑ r, P q r * a r s) =
      ∑ s, ∑ q, ∑ p, ∑ r, (a p q : ℂ) * a r s * (P s p * P q r) := by
    refine sum_congr rfl fun s _ => sum_congr rfl fun q _ => ?_
    rw [sum_mul]
    refine sum_congr rfl fun p _ => ?_
    rw [mul_sum]
    exact sum_congr rfl fun r _ => by ring
  rw [e, e2]
  have e3 : ∀ f : Fin n → Fin n → Fin n → Fin n → ℂ, ∑ p, ∑ q, ∑ r, ∑ s, f p q r s = ∑ s, ∑ q, ∑ p, ∑ r, f p q r s := by
    intro f
    rw [sum_comm]
    conv_rhs => rw [sum_comm]
    refine sum_congr rfl fun q _ => ?_
    conv_rhs => rw [sum_comm]
    refine sum_congr rfl fun p _ => ?_
    rw [sum_comm]
  exact e3 _

/-- **C90 (local energy)**: the local energy with the transformed integrals and orbitals is the energy of the transition
density in the basis of atomic orbitals. -/
theorem ortho_energy {S X : Matrix (Fin n) (Fin n) ℝ} (hX : Xᵀ * S * X = 1) (h : Matrix (Fin n) (Fin n) ℝ)
    (chol : Fin nx → Fin (n * n) → ℝ) (enuc : ℂ) (Au Bu : Matrix (Fin n) (Fin na) ℂ) (Ad Bd : Matrix (Fin n) (Fin nb) ℂ) :
    (localChol (fun _ => cx (integrals X h chol).1) (fun x => cx ((integrals X h chol).2 x))
      ![(Slater.gabMod (cx X⁻¹ * Au) (cx X⁻¹ * Bu)).1, (Slater.gabMod (cx X⁻¹ * Ad) (cx X⁻¹ * Bd)).1] enuc).1 =
    aoEnergy h (fun p q r s => ∑ x, reshape (chol x) p q * reshape (chol x) r s) enuc ![density S Au Bu, density S Ad Bd] := by
  have hu : IsUnit X.det := by
    have h1 : IsUnit (Xᵀ * S * X).det := by rw [hX, det_one]; exact isUnit_one
    rw [det_mul] at h1
    exact isUnit_of_mul_isUnit_right h1
  have hXX : cx X * cx X⁻¹ = 1 := by rw [← cx_mul, Matrix.mul_nonsing_inv _ hu, cx_one]
  have hXX' : (cx X⁻¹)ᴴ * (cx X)ᴴ = 1 := by rw [← Matrix.conjTranspose_mul, hXX, Matrix.conjTranspose_one]
  have t1 : ∀ (Y : Matrix (Fin n) (Fin n) ℝ) (P : Matrix (Fin n) (Fin n) ℂ),
      (cx (Xᵀ * (Y * X)) * (cx X⁻¹ * P * (cx X⁻¹)ᴴ)).trace = (cx Y * P).trace := by
    intro Y P
    rw [cx_mul, cx_mul, cx_transpose, show (cx X)ᴴ * (cx Y * cx X) * (cx X⁻¹ * P * (cx X⁻¹)ᴴ) =
      (cx X)ᴴ * (cx Y * (cx X * cx X⁻¹) * P * (cx X⁻¹)ᴴ) by simp only [Matrix.mul_assoc], hXX, Matrix.trace_mul_comm,
      Matrix.mul_assoc, hXX', Matrix.mul_one, Matrix.mul_one]
  have t2 : ∀ (Y : Matrix (Fin n) (Fin n) ℝ) (P : Matrix (Fin n) (Fin n) ℂ),
      ((cx X⁻¹ * P * (cx X⁻¹)ᴴ) * cx (Xᵀ * (Y * X)) * ((cx X⁻¹ * P * (cx X⁻¹)ᴴ) * cx (Xᵀ * (Y * X)))).trace =
        (P * cx Y * (P * cx Y)).trace := by
    intro Y P
    have e : cx X⁻¹ * P * (cx X⁻¹)ᴴ * cx (Xᵀ * (Y * X)) = cx X⁻¹ * (P * cx Y * cx X) := by
      rw [cx_mul, cx_mul, cx_transpose, show cx X⁻¹ * P * (cx X⁻¹)ᴴ * ((cx X)ᴴ * (cx Y * cx X)) =
        cx X⁻¹ * P * ((cx X⁻¹)ᴴ * (cx X)ᴴ) * (cx Y * cx X) by simp only [Matrix.mul_assoc], hXX', Matrix.mul_one]
      simp only [Matrix.mul_assoc]
    rw [e, show cx X⁻¹ * (P * cx Y * cx X) * (cx X⁻¹ * (P * cx Y * cx X)) =
      cx X⁻¹ * (P * cx Y * (cx X * cx X⁻¹) * (P * cx Y * cx X)) by simp only [Matrix.mul_assoc], hXX, Matrix.trace_mul_comm,
      Matrix.mul_one, show P * cx Y * (P * cx Y * cx X) * cx X⁻¹ = P * cx Y * (P * cx Y) * (cx X * cx X⁻¹) by
      simp only [Matrix.mul_assoc], hXX, Matrix.mul_one]
  rw [Freeze.localChol_eq]
  simp only [Matrix.cons_val_zero, Matrix.cons_val_one, Slater.gabMod_eq, Matrix.transpose_transpose, ortho_gab hX, integrals,
    t1, t2]
  generalize density S Au Bu = P
  generalize density S Ad Bd = Q
  rw [aoEnergy]
  simp only [Matrix.cons_val_zero, Matrix.cons_val_one]
  rw [sum_eri, ← trace_sum, Matrix.mul_add, Matrix.trace_add, add_assoc enuc]
  congr 2
  refine sum_congr rfl fun x _ => ?_
  rw [← exchange_sum, ← exchange_sum, ← Matrix.trace_add, ← Matrix.mul_add, ← direct_sum]
  simp only [← sum_sub_distrib]
  refine sum_congr rfl fun p _ => sum_congr rfl fun q _ => sum_congr rfl fun r _ => sum_congr rfl fun s _ => ?_
  ring

/-- **C90 (threshold)**: with integrals that are reproduced up to `tol`, the energy changes by at most `tol` times sums of
density matrix elements. -/
theorem aoEnergy_near (h : Matrix (Fin n) (Fin n) ℝ) {eri eri' : Fin n → Fin n → Fin n → Fin n → ℝ} {tol : ℝ}
    (ht : ∀ p q r s, |eri p q r s - eri' p q r s| ≤ tol) (enuc : ℂ) (P : Fin 2 → Matrix (Fin n) (Fin n) ℂ) :
    ‖aoEnergy h eri enuc P - aoEnergy h eri' enuc P‖ ≤ tol / 2 * ((∑ p, ∑ q, ‖(P 0 + P 1) p q‖) ^ 2 +
      (∑ p, ∑ q, ‖P 0 p q‖) ^ 2 + (∑ p, ∑ q, ‖P 1 p q‖) ^ 2) := by
  have e : aoEnergy h eri enuc P - aoEnergy h eri' enuc P = (1 / 2 : ℂ) * ∑ p, ∑ q, ∑ r, ∑ s,
      ((eri p q r s - eri' p q r s : ℝ) : ℂ) *
      ((P 0 + P 1) q p * (P 0 + P 1) s r - P 0 s p * P 0 q r - P 1 s p * P 1 q r) := by
    rw [aoEnergy, aoEnergy, add_sub_add_left_eq_sub, ← mul_sub]
    congr 1
    simp only [← sum_sub_distrib]
    refine sum_congr rfl fun p _ => sum_congr rfl fun q _ => sum_congr rfl fun r _ => sum_congr rfl fun s _ => ?_
    rw [Complex.ofReal_sub]
    ring
  have d : ∀ T : Matrix (Fin n) (Fin n) ℂ, ∑ p, ∑ q, ∑ r, ∑ s, ‖T q p‖ * ‖T s r‖ = (∑ p, ∑ q, ‖T p q‖) ^ 2 := by
    intro T
    rw [sq]
    conv_rhs => rw [sum_comm]
    rw [sum_mul]
    refine sum_congr rfl fun p _ => ?_
    rw [sum_mul]
    refine sum_congr rfl fun q _ => ?_
    rw [mul_sum]
    refine sum_congr rfl fun r _ => ?_
    rw [mul_sum]
  have x : ∀ T : Matrix (Fin n) (Fin n) ℂ, ∑ p, ∑ q, ∑ r, ∑ s, ‖T s p‖ * ‖T q r‖ = (∑ p, ∑ q, ‖T p q‖) ^ 2 := by
    intro T
    have hN : ∑ p, ∑ q, ‖T p q‖ = ∑ p, ∑ q, ‖T q p‖ := sum_comm
    rw [sq]
    nth_rw 1 [hN]
    rw [sum_mul]
    refine sum_congr rfl fun p _ => ?_
    rw [sum_mul]
    have : ∀ f : Fin n → Fin n → Fin n → ℝ, ∑ q, ∑ r, ∑ s, f q r s = ∑ s, ∑ q, ∑ r, f q r s := by
      intro f
      conv_rhs => rw [sum_comm]
      exact sum_congr rfl fun q _ => sum_comm
    rw [this]
    refine sum_congr rfl fun s _ => ?_
    rw [mul_sum]
    exact sum_congr rfl fun q _ => by rw [mul_sum]
  rw [e, ← d, ← x, ← x, norm_mul, show ‖(1 / 2 : ℂ)‖ = 1 / 2 by norm_num, div_eq_inv_mul tol, mul_assoc, one_div]
  refine mul_le_mul_of_nonneg_left ?_ (by norm_num)
  simp only [← sum_add_distrib, mul_sum]
  refine norm_sum_le_of_le _ fun p _ => norm_sum_le_of_le _ fun q _ => norm_sum_le_of_le _ fun r _ =>
    norm_sum_le_of_le _ fun s _ => ?_
  have ht0 : 0 ≤ tol := (abs_nonneg _).trans (ht p q r s)
  rw [norm_mul, Complex.norm_real, Real.norm_eq_abs]
  refine mul_le_mul (ht p q r s) ?_ (norm_nonneg _) ht0
  refine (norm_sub_le _ _).trans ?_
  rw [norm_mul]
  refine add_le_add ((norm_sub_le _ _).trans ?_) le_rfl
  rw [norm_mul, norm_mul]

/-! ## From a calculation with atomic orbitals to integrals and trial -/

theorem first_mul (ha : k ≤ n) (X C : Matrix (Fin n) (Fin n) ℝ) : first ha (X * C) = cx X * first ha C := by
  ext p a
  simp [first, Matrix.mul_apply, cx]

theorem first_ortho {S C : Matrix (Fin n) (Fin n) ℝ} (hC : Cᵀ * S * C = 1) (ha : k ≤ n) :
    (first ha C)ᴴ * cx S * first ha C = 1 := by
  have hf : first ha C = cx C * cx (Matrix.of fun p (a : Fin k) => if p = Fin.castLE ha a then (1 : ℝ) else 0) := by
    ext p a
    simp [first, Matrix.mul_apply, cx, apply_ite Complex.ofReal]
  rw [hf, Matrix.conjTranspose_mul, ← cx_transpose, ← cx_transpose]
  rw [(show ∀ D : Matrix (Fin n) (Fin k) ℝ, cx Dᵀ * cx Cᵀ * cx S * (cx C * cx D) = cx (Dᵀ * (Cᵀ * S * C) * D) by
    intro D; simp only [cx_mul, Matrix.mul_assoc]) _, hC, Matrix.mul_one, ← cx_one]
  congr 1
  ext a b
  rw [Matrix.mul_apply]
  simp only [Matrix.transpose_apply, Matrix.of_apply, mul_ite, mul_one, mul_zero, sum_ite_eq', mem_univ, if_true,
    Matrix.one_apply, Fin.castLE_inj]
  by_cases h : a = b
  · simp [h]
  · rw [if_neg h, if_neg (Ne.symm h)]

/-- The density of the first orbitals of an orthonormal set. -/
theorem density_first {S C : Matrix (Fin n) (Fin n) ℝ} (hC : Cᵀ * S * C = 1) (ha : k ≤ n) :
    density S (first ha C) (first ha C) = first ha C * (first ha C)ᴴ := by
  rw [density, first_ortho hC, inv_one, Matrix.one_mul]

/-- The orbitals of the two spins. -/
def Coeff.spin {n : Nat} : Coeff n → Fin 2 → Matrix (Fin n) (Fin n) ℝ
  | .rhf C, _ => C
  | .uhf Ca Cb, s => if s = 0 then Ca else Cb

theorem wfn_ok (X : Matrix (Fin n) (Fin n) ℝ) (ha : na ≤ n) (hb : nb ≤ n) (C : Coeff n) (h : (∃ A B, C = .uhf A B) ∨ nb = na) :
    wfnMol X ha hb C = some (cx X⁻¹ * first ha (C.spin 0), cx X⁻¹ * first hb (C.spin 1)) := by
  cases C with
  | uhf A B => simp [wfnMol, Coeff.spin, first_mul]
  | rhf C =>
    have h' : nb = na := by
      rcases h with ⟨A, B, h⟩ | h
      · cases h
      · exact h
    subst h'
    rw [wfnMol, dif_pos rfl]
    simp [Coeff.spin, first_mul]

/-- **C90 (restricted open shells)**: no trial is written. -/
theorem rohf_fails (X C : Matrix (Fin n) (Fin n) ℝ) (ha : na ≤ n) (hb : nb ≤ n) (h : nb ≠ na) (h1 : na ≠ 1) :
    wfnMol X ha hb (.rhf C) = none := by
  rw [wfnMol, dif_neg h, dif_neg h1]

open AoChol in
open scoped ComplexOrder in
/-- **C90**: the integrals and the trial written for a calculation with orbitals `C` (orthonormal in the metric `S`) give the
overlap one and the energy of that calculation, up to the Cholesky threshold. -/
theorem dump_energy_partial {sh : List Shell} {eri : Eri} {amax : (Fin (nao sh * nao sh) → ℝ) → Fin (nao sh * nao sh)}
    {tol : ℝ} {nmax : Nat} {vs : List (Fin (nao sh * nao sh) → ℝ)} {S X h : Matrix (Fin (nao sh)) (Fin (nao sh)) ℝ}
    {C : Coeff (nao sh)} {ha : na ≤ nao sh} {hb : nb ≤ nao sh}
    {U : Matrix (Fin (nao sh)) (Fin na) ℂ} {D : Matrix (Fin (nao sh)) (Fin nb) ℂ}
    (ham : ∀ (x : Fin (nao sh * nao sh) → ℝ) i, x i ≤ x (amax x)) (hs : ∀ s ∈ sh, 0 < s.nctr)
    (hM : (cpairs (nao sh) eri).PosSemidef) (ht : 0 ≤ tol) (hv : chunked sh eri amax tol nmax = some vs)
    (hX : Xᵀ * S * X = 1) (hC : ∀ s, (C.spin s)ᵀ * S * C.spin s = 1) (hsp : (∃ A B, C = .uhf A B) ∨ nb = na) (enuc : ℂ)
    (hw : wfnMol X ha hb C = some (U, D)) :
    let P : Fin 2 → Matrix (Fin (nao sh)) (Fin (nao sh)) ℂ :=
      ![first ha (C.spin 0) * (first ha (C.spin 0))ᴴ, first hb (C.spin 1) * (first hb (C.spin 1))ᴴ]
    let I := integrals X h fun x : Fin vs.length => vs[x]
    ovl U U = 1 ∧ ovl D D = 1 ∧
    ‖(localChol (fun _ => cx I.1) (fun x => cx (I.2 x)) ![(Slater.gabMod U U).1, (Slater.gabMod D D).1] enuc).1 -
      aoEnergy h (fun p q r s => eri p q r s) enuc P‖ ≤ tol / 2 * ((∑ p, ∑ q, ‖(P 0 + P 1) p q‖) ^ 2 +
        (∑ p, ∑ q, ‖P 0 p q‖) ^ 2 + (∑ p, ∑ q, ‖P 1 p q‖) ^ 2) := by
  intro P I
  rw [wfn_ok X ha hb C hsp] at hw
  obtain ⟨rfl, rfl⟩ := Prod.ext_iff.1 (Option.some.inj hw)
  have hov : ∀ {k : Nat} (hk : k ≤ nao sh) (s : Fin 2), ((first hk (C.spin s))ᴴ * cx S * first hk (C.spin s)).det = 1 :=
    fun hk s => by rw [first_ortho (hC s), det_one]
  refine ⟨by rw [ortho_ovl hX, hov], by rw [ortho_ovl hX, hov], ?_⟩
  rw [ortho_energy hX, density_first (hC 0), density_first (hC 1), norm_sub_rev]
  refine aoEnergy_near h (fun p q r s => ?_) enuc P
  have := (chunked_error ham hs hM ht hv).1 (finProdFinEquiv (p, q)) (finProdFinEquiv (r, s))
  have hd : ∀ a b : Fin (nao sh), ((finProdFinEquiv (a, b) : Fin (nao sh * nao sh)) : Nat) / nao sh = a ∧
      ((finProdFinEquiv (a, b) : Fin (nao sh * nao sh)) : Nat) % nao sh = b := by
    intro a b
    have hp : 0 < nao sh := lt_of_le_of_lt (Nat.zero_le _) a.2
    rw [finProdFinEquiv_apply_val]
    exact ⟨by rw [Nat.add_mul_div_left _ _ hp, Nat.div_eq_of_lt b.2, Nat.zero_add],
      by rw [Nat.add_mul_mod_self_left, Nat.mod_eq_of_lt b.2]⟩
  rw [(hd p q).1, (hd p q).2, (hd r s).1, (hd r s).2, ← Fin.sum_univ_fun_getElem] at this
  exact this

end Verif.OrthoAO
