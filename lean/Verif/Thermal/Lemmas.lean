import Verif.Thermal.Model
import Mathlib.LinearAlgebra.Matrix.Determinant.Basic
import Mathlib.LinearAlgebra.UnitaryGroup
import Mathlib.Data.List.Rotate
import Mathlib.LinearAlgebra.Matrix.SchurComplement

/-!
# Lemmas about the factorised products
-/

namespace Verif.Thermal

open Matrix

variable {n : Nat}

theorem mul_conj_of {Q : Mat n} (h : Qᴴ * Q = 1) : Q * Qᴴ = 1 := mul_eq_one_comm.1 h

theorem det_ne_of_unitary {Q : Mat n} (h : Qᴴ * Q = 1) : Q.det ≠ 0 := by
  intro h0
  have := congrArg Matrix.det h
  rw [det_mul, h0, mul_zero, det_one] at this
  exact zero_ne_one this

theorem unitary_mul {U V : Mat n} (hU : Uᴴ * U = 1) (hV : Vᴴ * V = 1) :
    (U * V)ᴴ * (U * V) = 1 := by
  rw [conjTranspose_mul, Matrix.mul_assoc, ← Matrix.mul_assoc Uᴴ, hU, one_mul, hV]

theorem qrp_diag {A Q R : Mat n} {P : Equiv.Perm (Fin n)} (h : IsQRP A Q R P) (hA : A.det ≠ 0) :
    ∀ i, R i i ≠ 0 := by
  have h1 : (A.submatrix id P).det ≠ 0 := by
    rw [Matrix.det_permute']
    refine mul_ne_zero ?_ hA
    rcases Int.units_eq_one_or (Equiv.Perm.sign P) with hs | hs <;> simp [hs]
  rw [h.eq, det_mul] at h1
  have h2 := right_ne_zero_of_mul h1
  rw [Matrix.det_of_upperTriangular h.upper] at h2
  intro i
  exact (Finset.prod_ne_zero_iff.1 h2) i (Finset.mem_univ i)

theorem qrp_mul {A Q R : Mat n} {P : Equiv.Perm (Fin n)} (h : IsQRP A Q R P) (hA : A.det ≠ 0) :
    Q * diagonal (fun i => R i i) * scaledR R P = A := by
  have hd := qrp_diag h hA
  have h1 : diagonal (fun i => R i i) * scaledR R P = R.submatrix id P.symm := by
    ext i j
    rw [Matrix.diagonal_mul]
    simp only [scaledR, submatrix_apply, id_eq]
    field_simp [hd i]
  rw [Matrix.mul_assoc, h1]
  have h2 : Q * R.submatrix id P.symm = (Q * R).submatrix id P.symm := by
    ext i j; simp [Matrix.mul_apply]
  rw [h2, ← h.eq]
  ext i j; simp

/-- `s` is a factorisation of the invertible matrix `A`. -/
structure Good (A : Mat n) (s : QDT n) : Prop where
  unitary : s.Qᴴ * s.Q = 1
  eq : s.Q * diagonal s.D * s.T = A
  detT : s.T.det ≠ 0
  ne : ∀ i, s.D i ≠ 0
  real : ∀ i, (s.D i).im = 0

theorem detT_of {Q : Mat n} {D : Fin n → ℂ} {T A : Mat n} (h : Q * diagonal D * T = A)
    (hA : A.det ≠ 0) : T.det ≠ 0 := by
  rw [← h, det_mul] at hA
  exact right_ne_zero_of_mul hA

theorem stratFirst_good {qrp : Mat n → Mat n × Mat n × Equiv.Perm (Fin n)}
    (hq : ∀ A, IsQRP A (qrp A).1 (qrp A).2.1 (qrp A).2.2) {B : Mat n} (hB : B.det ≠ 0) :
    Good B (stratFirst qrp B) :=
  ⟨(hq B).unitary, qrp_mul (hq B) hB, detT_of (qrp_mul (hq B) hB) hB,
    fun i => qrp_diag (hq B) hB i, (hq B).real⟩

theorem stratStep_good {qrp : Mat n → Mat n × Mat n × Equiv.Perm (Fin n)}
    (hq : ∀ A, IsQRP A (qrp A).1 (qrp A).2.1 (qrp A).2.2) {A B : Mat n} {s : QDT n}
    (hs : Good A s) (hB : B.det ≠ 0) : Good (B * A) (stratStep qrp s B) := by
  have hC : (B * s.Q * diagonal s.D).det ≠ 0 := by
    rw [det_mul, det_mul, det_diagonal]
    exact mul_ne_zero (mul_ne_zero hB (det_ne_of_unitary hs.unitary))
      (Finset.prod_ne_zero_iff.2 (fun i _ => hs.ne i))
  have h1 := hq (B * s.Q * diagonal s.D)
  have h2 := qrp_mul h1 hC
  refine ⟨h1.unitary, ?_, ?_, fun i => qrp_diag h1 hC i, h1.real⟩
  · unfold stratStep
    simp only
    rw [← Matrix.mul_assoc, h2, ← hs.eq]
    simp only [Matrix.mul_assoc]
  · unfold stratStep
    simp only
    rw [det_mul]
    exact mul_ne_zero (detT_of h2 hC) hs.detT

theorem foldl_good {qrp : Mat n → Mat n × Mat n × Equiv.Perm (Fin n)}
    (hq : ∀ A, IsQRP A (qrp A).1 (qrp A).2.1 (qrp A).2.2) :
    ∀ (l : List (Mat n)) (A : Mat n) (s : QDT n), Good A s → (∀ B ∈ l, B.det ≠ 0) →
      Good (l.reverse.prod * A) (l.foldl (stratStep qrp) s)
  | [], A, s, hs, _ => by simpa using hs
  | B :: l, A, s, hs, hl => by
    have := foldl_good hq l (B * A) (stratStep qrp s B) (stratStep_good hq hs (hl B (by simp)))
      (fun C hC => hl C (by simp [hC]))
    simp only [List.foldl_cons, List.reverse_cons, List.prod_append, List.prod_singleton,
      Matrix.mul_assoc]
    exact this

theorem stratG_eq {A : Mat n} {s : QDT n} (hs : Good A s) {Db Ds : Fin n → ℂ}
    (hb : ∀ i, Db i ≠ 0) (hd : ∀ i, Ds i = Db i * s.D i) (hA : (1 + A).det ≠ 0) :
    stratG Db Ds s = (1 + A)⁻¹ := by
  have hT : IsUnit s.T.det := isUnit_iff_ne_zero.2 hs.detT
  have hDs : diagonal Ds = diagonal Db * diagonal s.D := by
    rw [diagonal_mul_diagonal]; congr 1; funext i; exact hd i
  have key : (diagonal Db * s.Qᴴ * s.T⁻¹ + diagonal Ds) * s.T = diagonal Db * s.Qᴴ * (1 + A) := by
    rw [add_mul, Matrix.mul_assoc, nonsing_inv_mul _ hT, mul_one, mul_add, mul_one, hDs, ← hs.eq]
    congr 1
    simp only [← Matrix.mul_assoc]
    congr 2
    rw [Matrix.mul_assoc (diagonal Db), hs.unitary, mul_one]
  have hC : IsUnit (diagonal Db * s.Qᴴ * s.T⁻¹ + diagonal Ds).det := by
    have h1 : ((diagonal Db * s.Qᴴ * s.T⁻¹ + diagonal Ds) * s.T).det ≠ 0 := by
      rw [key, det_mul, det_mul, det_diagonal]
      refine mul_ne_zero (mul_ne_zero (Finset.prod_ne_zero_iff.2 (fun i _ => hb i)) ?_) hA
      have := mul_conj_of hs.unitary
      intro h0
      have h2 := congrArg Matrix.det this
      rw [det_mul, h0, mul_zero, det_one] at h2
      exact zero_ne_one h2
    rw [det_mul] at h1
    exact isUnit_iff_ne_zero.2 (left_ne_zero_of_mul h1)
  symm
  apply inv_eq_left_inv
  unfold stratG
  simp only
  rw [Matrix.mul_assoc, ← key, ← Matrix.mul_assoc, Matrix.mul_assoc s.T⁻¹, nonsing_inv_mul _ hC,
    mul_one, nonsing_inv_mul _ hT]

theorem npSign_mul_norm {z : ℂ} (h : z.im = 0) : npSign z = 1 / (‖z‖ : ℂ) * z ∨ z = 0 := by
  have hz : z = (z.re : ℂ) := by apply Complex.ext <;> simp [h]
  unfold npSign
  rcases lt_trichotomy z.re 0 with h1 | h1 | h1
  · left
    rw [if_neg (by linarith), if_pos h1, hz]
    have h2 : ((z.re : ℂ)) ≠ 0 := by exact_mod_cast h1.ne
    rw [Complex.norm_real, Real.norm_eq_abs, abs_of_neg h1]
    push_cast
    field_simp
  · right; rw [hz, h1]; simp
  · left
    rw [if_pos h1, hz]
    have h2 : ((z.re : ℂ)) ≠ 0 := by exact_mod_cast h1.ne'
    rw [Complex.norm_real, Real.norm_eq_abs, abs_of_pos h1]
    field_simp

theorem splitLive_ne (k : Nat) (D : Fin k → ℂ) (i : Fin k) : (splitLive D).1 i ≠ 0 := by
  unfold splitLive
  simp only
  split_ifs with h
  · have : (‖D i‖ : ℂ) ≠ 0 := by
      exact_mod_cast (lt_trans one_pos h).ne'
    exact one_div_ne_zero this
  · exact one_ne_zero

theorem splitLive_mul (k : Nat) (D : Fin k → ℂ) (hD : ∀ i, (D i).im = 0) (i : Fin k) :
    (splitLive D).2 i = (splitLive D).1 i * D i := by
  unfold splitLive
  simp only
  split_ifs with h
  · rcases npSign_mul_norm (hD i) with h1 | h1
    · exact h1
    · exfalso; rw [h1] at h; norm_num at h
  · simp

theorem splitDead_eq (D : Fin n → ℂ) : splitDead D = (fun _ => 1, D) := by
  unfold splitDead
  norm_num

/-! ### Order of the bins -/

/-- First bin of the cyclic product. -/
def startBin (nbins stackSize sliceIx : Nat) : Nat :=
  if sliceIx / stackSize = nbins then 0 else sliceIx / stackSize + 1

theorem cyc_eq {bins : List (Mat n)} {ss sl : Nat} (i : Nat) :
    cyc bins.length (binIx bins.length ss sl) (i + 1) =
      (i + startBin bins.length ss sl) % bins.length := by
  unfold cyc binIx startBin
  split_ifs with h
  · have : (-1 : Int) + ((i + 1 : Nat) : Int) = ((i : Nat) : Int) := by push_cast; ring
    rw [this, ← Int.natCast_mod, Int.toNat_natCast, Nat.add_zero]
  · have : ((sl / ss : Nat) : Int) + ((i + 1 : Nat) : Int) = ((i + (sl / ss + 1) : Nat) : Int) := by
      push_cast; ring
    rw [this, ← Int.natCast_mod, Int.toNat_natCast]

theorem order_eq {bins : List (Mat n)} (hb : bins ≠ []) (ss sl : Nat) :
    getBin bins (cyc bins.length (binIx bins.length ss sl) 1) ::
      rest bins (binIx bins.length ss sl) = bins.rotate (startBin bins.length ss sl) := by
  have hl : 0 < bins.length := List.length_pos_iff.2 hb
  apply List.ext_getElem
  · simp [rest]; omega
  · intro i h1 h2
    rw [List.getElem_rotate]
    have key : ∀ j, getBin bins (cyc bins.length (binIx bins.length ss sl) (j + 1)) =
        bins[(j + startBin bins.length ss sl) % bins.length]'(Nat.mod_lt _ hl) := by
      intro j
      rw [cyc_eq]
      unfold getBin
      rw [List.getD_eq_getElem?_getD, List.getElem?_eq_getElem (Nat.mod_lt _ hl), Option.getD_some]
    cases i with
    | zero => exact key 0
    | succ i =>
      simp only [List.getElem_cons_succ, rest, List.getElem_map, List.getElem_range]
      exact key (i + 1)

/-! ### Plain QR -/

theorem solveUpper_eq {V : Mat n} (h : V.BlockTriangular id) : solveUpper V = V⁻¹ := by
  unfold solveUpper
  congr 1
  ext i j
  simp only [of_apply]
  split_ifs with hij
  · rfl
  · exact (h (not_le.1 hij)).symm

structure GoodQR (A : Mat n) (s : Mat n × Mat n) : Prop where
  unitary : s.1ᴴ * s.1 = 1
  upper : s.2.BlockTriangular id
  eq : s.1 * s.2 = A

theorem qrStep_good {qr : Mat n → Mat n × Mat n} (hq : ∀ A, IsQR A (qr A).1 (qr A).2)
    {A B : Mat n} {s : Mat n × Mat n} (hs : GoodQR A s) : GoodQR (B * A) (qrStep qr s B) := by
  have h1 := hq (B * s.1)
  refine ⟨h1.unitary, h1.upper.mul hs.upper, ?_⟩
  unfold qrStep
  simp only
  rw [← Matrix.mul_assoc, ← h1.eq, Matrix.mul_assoc, hs.eq]

theorem foldl_goodQR {qr : Mat n → Mat n × Mat n} (hq : ∀ A, IsQR A (qr A).1 (qr A).2) :
    ∀ (l : List (Mat n)) (A : Mat n) (s : Mat n × Mat n), GoodQR A s →
      GoodQR (l.reverse.prod * A) (l.foldl (qrStep qr) s)
  | [], A, s, hs => by simpa using hs
  | B :: l, A, s, hs => by
    have := foldl_goodQR hq l (B * A) (qrStep qr s B) (qrStep_good hq hs)
    simp only [List.foldl_cons, List.reverse_cons, List.prod_append, List.prod_singleton,
      Matrix.mul_assoc]
    exact this

/-- The final product of the QR scheme. -/
theorem qrFinal {qr : Mat n → Mat n × Mat n} (hq : ∀ A, IsQR A (qr A).1 (qr A).2) {A : Mat n}
    {s : Mat n × Mat n} (hs : GoodQR A s) (hA : A.det ≠ 0) :
    (s.1 * (qr (s.1ᴴ * solveUpper s.2 + 1)).1) * ((qr (s.1ᴴ * solveUpper s.2 + 1)).2 * s.2) =
      1 + A := by
  have hV : IsUnit s.2.det := by
    rw [← hs.eq, det_mul] at hA
    exact isUnit_iff_ne_zero.2 (right_ne_zero_of_mul hA)
  have h1 := hq (s.1ᴴ * solveUpper s.2 + 1)
  calc _ = s.1 * ((qr (s.1ᴴ * solveUpper s.2 + 1)).1 * (qr (s.1ᴴ * solveUpper s.2 + 1)).2) *
        s.2 := by simp only [Matrix.mul_assoc]
    _ = s.1 * (s.1ᴴ * solveUpper s.2 + 1) * s.2 := by rw [← h1.eq]
    _ = 1 + A := by
        rw [solveUpper_eq hs.upper, mul_add, add_mul, mul_one, hs.eq, ← Matrix.mul_assoc,
          mul_conj_of hs.unitary, one_mul, nonsing_inv_mul _ hV]

theorem qrG_eq {qr : Mat n → Mat n × Mat n} (hq : ∀ A, IsQR A (qr A).1 (qr A).2) {A : Mat n}
    {s : Mat n × Mat n} (hs : GoodQR A s) (hA : A.det ≠ 0) (h1A : (1 + A).det ≠ 0) :
    qrG qr s = (1 + A)⁻¹ := by
  have h1 := hq (s.1ᴴ * solveUpper s.2 + 1)
  have hf := qrFinal hq hs hA
  have hU : (s.1 * (qr (s.1ᴴ * solveUpper s.2 + 1)).1)ᴴ *
      (s.1 * (qr (s.1ᴴ * solveUpper s.2 + 1)).1) = 1 := by
    rw [conjTranspose_mul, Matrix.mul_assoc, ← Matrix.mul_assoc s.1ᴴ, hs.unitary, one_mul,
      h1.unitary]
  have hV3 : IsUnit ((qr (s.1ᴴ * solveUpper s.2 + 1)).2 * s.2).det := by
    rw [← hf, det_mul] at h1A
    exact isUnit_iff_ne_zero.2 (right_ne_zero_of_mul h1A)
  symm
  apply inv_eq_left_inv
  unfold qrG
  simp only
  rw [solveUpper_eq (h1.upper.mul hs.upper)]
  conv_lhs => rw [← hf]
  rw [Matrix.mul_assoc, ← Matrix.mul_assoc (_ᴴ), hU, one_mul, nonsing_inv_mul _ hV3]

/-! ### SVD -/

structure GoodSVD (A : Mat n) (s : USV n) : Prop where
  unitaryU : s.Uᴴ * s.U = 1
  unitaryV : s.Vᴴ * s.V = 1
  eq : s.U * cdiag s.S * s.V = A

theorem svdStep_good {svd : Mat n → USV n} (hq : ∀ A, IsSVD A (svd A).U (svd A).S (svd A).V)
    {A B : Mat n} {s : USV n} (hs : GoodSVD A s) : GoodSVD (B * A) (svdStep svd s B) := by
  have h1 := hq (B * s.U * cdiag s.S)
  refine ⟨h1.unitaryU, ?_, ?_⟩
  · unfold svdStep
    exact unitary_mul h1.unitaryV hs.unitaryV
  · unfold svdStep
    simp only
    have e : B * s.U * cdiag s.S = _ * cdiag _ * _ := h1.eq
    rw [← Matrix.mul_assoc, ← e, ← hs.eq]
    simp only [Matrix.mul_assoc]

theorem foldl_goodSVD {svd : Mat n → USV n} (hq : ∀ A, IsSVD A (svd A).U (svd A).S (svd A).V) :
    ∀ (l : List (Mat n)) (A : Mat n) (s : USV n), GoodSVD A s →
      GoodSVD (l.reverse.prod * A) (l.foldl (svdStep svd) s)
  | [], A, s, hs => by simpa using hs
  | B :: l, A, s, hs => by
    have := foldl_goodSVD hq l (B * A) (svdStep svd s B) (svdStep_good hq hs)
    simp only [List.foldl_cons, List.reverse_cons, List.prod_append, List.prod_singleton,
      Matrix.mul_assoc]
    exact this

/-- `1 + A = (U U2) diag(S2) (V2 V)`. -/
theorem svdFinal {svd : Mat n → USV n} (hq : ∀ A, IsSVD A (svd A).U (svd A).S (svd A).V)
    {A : Mat n} {s : USV n} (hs : GoodSVD A s) :
    (s.U * (svd (s.Uᴴ * s.Vᴴ + cdiag s.S)).U) * cdiag (svd (s.Uᴴ * s.Vᴴ + cdiag s.S)).S *
      ((svd (s.Uᴴ * s.Vᴴ + cdiag s.S)).V * s.V) = 1 + A := by
  have h1 := hq (s.Uᴴ * s.Vᴴ + cdiag s.S)
  calc _ = s.U * ((svd (s.Uᴴ * s.Vᴴ + cdiag s.S)).U * cdiag (svd (s.Uᴴ * s.Vᴴ + cdiag s.S)).S *
        (svd (s.Uᴴ * s.Vᴴ + cdiag s.S)).V) * s.V := by simp only [Matrix.mul_assoc]
    _ = s.U * (s.Uᴴ * s.Vᴴ + cdiag s.S) * s.V := by
        conv_rhs => rw [h1.eq]
        rfl
    _ = 1 + A := by
        rw [mul_add, add_mul, hs.eq, ← Matrix.mul_assoc, mul_conj_of hs.unitaryU, one_mul,
          hs.unitaryV]

theorem svdG_eq {svd : Mat n → USV n} (hq : ∀ A, IsSVD A (svd A).U (svd A).S (svd A).V)
    {A : Mat n} {s : USV n} (hs : GoodSVD A s) (h1A : (1 + A).det ≠ 0) :
    svdG svd s = (1 + A)⁻¹ := by
  have h1 := hq (s.Uᴴ * s.Vᴴ + cdiag s.S)
  have hf := svdFinal hq hs
  have hU := unitary_mul hs.unitaryU h1.unitaryU
  have hV := unitary_mul h1.unitaryV hs.unitaryV
  have hS : ∀ i, ((svd (s.Uᴴ * s.Vᴴ + cdiag s.S)).S i : ℂ) ≠ 0 := by
    rw [← hf, det_mul, det_mul] at h1A
    have := right_ne_zero_of_mul (left_ne_zero_of_mul h1A)
    unfold cdiag at this
    rw [det_diagonal] at this
    intro i
    exact (Finset.prod_ne_zero_iff.1 this) i (Finset.mem_univ i)
  symm
  apply inv_eq_left_inv
  unfold svdG
  simp only
  conv_lhs => rw [← hf]
  generalize (svd (s.Uᴴ * s.Vᴴ + cdiag s.S)) = f at *
  have hD : diagonal (fun i => 1 / (f.S i : ℂ)) * cdiag f.S = 1 := by
    unfold cdiag
    rw [diagonal_mul_diagonal, ← diagonal_one]
    congr 1; funext i; field_simp [hS i]
  calc _ = (f.V * s.V)ᴴ * (diagonal (fun i => 1 / (f.S i : ℂ)) *
        ((s.U * f.U)ᴴ * (s.U * f.U)) * cdiag f.S) * (f.V * s.V) := by
        simp only [Matrix.mul_assoc]
    _ = 1 := by rw [hU, mul_one, hD, mul_one, hV]

end Verif.Thermal
