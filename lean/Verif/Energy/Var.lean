import Verif.Energy.Props

/-!
# Multi-determinant expectation values: C40, C41, C72
-/

namespace Verif.Energy

open Matrix Finset

variable {m na nb nx n : Nat}

/-- Rayleigh quotient of a matrix with an overlap matrix. -/
noncomputable def rayleigh (c : Fin n → ℂ) (H S : Fin n → Fin n → ℂ) : ℂ :=
  (∑ i, ∑ j, star (c i) * c j * H i j) / ∑ i, ∑ j, star (c i) * c j * S i j

/-- The overlap matrix of an orthonormal set. -/
def delta (i j : Fin n) : ℂ := if i = j then 1 else 0

theorem sum_delta (c : Fin n → ℂ) :
    ∑ i, ∑ j, star (c i) * c j * delta i j = ∑ i, star (c i) * c i := by
  refine Finset.sum_congr rfl fun i _ => ?_
  simp [delta]

/-! ## C72 -/

/-- The routine recovers overlaps from the inverse overlap matrix. -/
theorem gabMod_inv_det {k : Nat} (A B : Matrix (Fin m) (Fin k) ℂ) :
    (Slater.gabMod A B).2.2.det = (ovl A B)⁻¹ := by
  show ((Bᵀ * A.map star)⁻¹).det = _
  rw [Slater.transpose_overlap, Matrix.det_nonsing_inv, Matrix.det_transpose,
    Ring.inverse_eq_inv', ovl]

/-- **C72**: the variational energy of a (not necessarily orthogonal) expansion is the Rayleigh
quotient of the Hamiltonian. -/
theorem varMultiDet_rayleigh (h1 : Fin 2 → Matrix (Fin m) (Fin m) ℂ)
    (L : Fin nx → Matrix (Fin m) (Fin m) ℂ) (ecore : ℂ) (c : Fin n → ℂ)
    (Du : Fin n → Matrix (Fin m) (Fin na) ℂ) (Dd : Fin n → Matrix (Fin m) (Fin nb) ℂ)
    (hu : ∀ i j, ovl (Du i) (Du j) ≠ 0) (hd : ∀ i j, ovl (Dd i) (Dd j) ≠ 0) :
    varMultiDet c
      (fun i j => 1 / ((Slater.gabMod (Du i) (Du j)).2.2.det * (Slater.gabMod (Dd i) (Dd j)).2.2.det))
      (fun i j => (localChol h1 L
        ![(Slater.gabMod (Du i) (Du j)).1, (Slater.gabMod (Dd i) (Dd j)).1] ecore).1) =
    rayleigh c (fun i j => hamil h1 L ecore (Du i) (Du j) (Dd i) (Dd j))
      (fun i j => ovl (Du i) (Du j) * ovl (Dd i) (Dd j)) := by
  have ho : ∀ i j, 1 / ((Slater.gabMod (Du i) (Du j)).2.2.det *
      (Slater.gabMod (Dd i) (Dd j)).2.2.det) = ovl (Du i) (Du j) * ovl (Dd i) (Dd j) := by
    intro i j
    rw [gabMod_inv_det, gabMod_inv_det, ← mul_inv, one_div, inv_inv]
  rw [varMultiDet, rayleigh]
  simp only [ho]
  congr 1
  refine Finset.sum_congr rfl fun i _ => Finset.sum_congr rfl fun j _ => ?_
  rw [← localChol_expectation h1 L ecore (Du i) (Du j) (Dd i) (Dd j) (hu i j) (hd i j)]
  ring

/-! ## C40 -/

theorem norm_re (c : Fin n → ℂ) : (∑ i, star (c i) * c i) = ((∑ i, Complex.normSq (c i) : ℝ) : ℂ) := by
  push_cast
  exact Finset.sum_congr rfl fun i _ => by
    rw [Complex.normSq_eq_conj_mul_self]; rfl

/-- What the code sums, minus what it should. -/
theorem varOrtho_num (c : Fin n → ℂ) (H : Fin n → Fin n → ℂ) (hH : ∀ i j, H j i = star (H i j)) :
    (∑ i, ∑ j, if j ≤ i then (star (c i) * c j * H i j +
      if j < i then star (c i) * c j * H i j else 0) else 0) =
    ∑ i, ∑ j, star (c i) * c j * H i j +
      ∑ i, ∑ j, if j < i then (star (c i) * c j * H i j - star (star (c i) * c j * H i j)) else 0 := by
  have hs : ∀ i j, star (c j) * c i * H j i = star (star (c i) * c j * H i j) := by
    intro i j
    rw [hH i j]
    simp only [star_mul', star_star]
    ring
  set f : Fin n → Fin n → ℂ := fun i j => star (c i) * c j * H i j with hf
  have hs' : ∀ i j, f j i = star (f i j) := hs
  show (∑ i, ∑ j, if j ≤ i then (f i j + if j < i then f i j else 0) else 0) =
    ∑ i, ∑ j, f i j + ∑ i, ∑ j, if j < i then (f i j - star (f i j)) else 0
  have h1 : ∑ i, ∑ j, f i j = (∑ i, ∑ j, if j ≤ i then f i j else 0) +
      ∑ i, ∑ j, if j < i then star (f i j) else 0 := by
    have h2 : (∑ i, ∑ j, if j < i then star (f i j) else 0) =
        ∑ i, ∑ j, if i < j then f i j else 0 := by
      rw [Finset.sum_comm]
      refine Finset.sum_congr rfl fun i _ => Finset.sum_congr rfl fun j _ => ?_
      rw [hs' j i]
    rw [h2, ← Finset.sum_add_distrib]
    refine Finset.sum_congr rfl fun i _ => ?_
    rw [← Finset.sum_add_distrib]
    refine Finset.sum_congr rfl fun j _ => ?_
    by_cases hij : j ≤ i
    · simp [hij, not_lt.mpr hij]
    · simp [hij, not_le.mp hij]
  rw [h1, ← Finset.sum_add_distrib, ← Finset.sum_add_distrib]
  refine Finset.sum_congr rfl fun i _ => ?_
  rw [← Finset.sum_add_distrib, ← Finset.sum_add_distrib]
  refine Finset.sum_congr rfl fun j _ => ?_
  by_cases hij : j < i
  · simp only [hij, hij.le, if_true]; ring
  · simp [hij]

/-- **C40 (real part)**: for Hermitian matrix elements and any complex coefficients, the real part of
the reported energy is the Rayleigh quotient (which is real). -/
theorem varOrthoDet_re_partial (c : Fin n → ℂ) (H : Fin n → Fin n → ℂ)
    (hH : ∀ i j, H j i = star (H i j)) :
    (varOrthoDet c H).re = (rayleigh c H delta).re ∧ (rayleigh c H delta).im = 0 := by
  have hz : (∑ i, ∑ j, if j < i then
      (star (c i) * c j * H i j - star (star (c i) * c j * H i j)) else (0 : ℂ)).re = 0 := by
    rw [Complex.re_sum]
    refine Finset.sum_eq_zero fun i _ => ?_
    rw [Complex.re_sum]
    refine Finset.sum_eq_zero fun j _ => ?_
    split_ifs
    · rw [Complex.sub_re, Complex.star_def, Complex.conj_re, sub_self]
    · rfl
  have hreal : star (∑ i, ∑ j, star (c i) * c j * H i j) = ∑ i, ∑ j, star (c i) * c j * H i j := by
    rw [star_sum, Finset.sum_congr rfl fun i _ => star_sum _ _, Finset.sum_comm]
    refine Finset.sum_congr rfl fun i _ => Finset.sum_congr rfl fun j _ => ?_
    rw [hH j i]
    simp only [star_mul', star_star]
    ring
  constructor
  · rw [varOrthoDet, rayleigh, varOrtho_num c H hH, sum_delta, norm_re, Complex.div_ofReal_re,
      Complex.div_ofReal_re, Complex.add_re, hz, add_zero]
  · rw [rayleigh, sum_delta, norm_re, Complex.div_ofReal_im]
    have := Complex.conj_eq_iff_im.mp hreal
    rw [this, zero_div]

/-- **C40 (all real)**: for real coefficients and real symmetric matrix elements the reported energy
is the Rayleigh quotient. -/
theorem varOrthoDet_real_partial (c : Fin n → ℝ) (H : Fin n → Fin n → ℝ) (hH : ∀ i j, H j i = H i j) :
    varOrthoDet (fun i => (c i : ℂ)) (fun i j => (H i j : ℂ)) =
      rayleigh (fun i => (c i : ℂ)) (fun i j => (H i j : ℂ)) delta := by
  have hH' : ∀ i j, ((H j i : ℝ) : ℂ) = star ((H i j : ℝ) : ℂ) := by
    intro i j
    rw [Complex.star_def, Complex.conj_ofReal, hH]
  rw [varOrthoDet, rayleigh, varOrtho_num _ _ hH', sum_delta]
  congr 1
  have : (∑ i, ∑ j, if j < i then (star (c i : ℂ) * (c j : ℂ) * (H i j : ℂ) -
      star (star (c i : ℂ) * (c j : ℂ) * (H i j : ℂ))) else (0 : ℂ)) = 0 := by
    refine Finset.sum_eq_zero fun i _ => Finset.sum_eq_zero fun j _ => ?_
    split_ifs
    · simp only [star_mul', star_star, Complex.star_def, Complex.conj_ofReal, sub_self]
    · rfl
  rw [this, add_zero]

/-- **C40 fails** for complex coefficients: two determinants, a Hermitian Hamiltonian, energy `-i`
instead of `0`. -/
theorem varOrthoDet_complex : ∃ (c : Fin 2 → ℂ) (H : Fin 2 → Fin 2 → ℂ),
    (∀ i j, H j i = star (H i j)) ∧ varOrthoDet c H = -Complex.I ∧ rayleigh c H delta = 0 := by
  refine ⟨![1, Complex.I], ![![0, 1], ![1, 0]], ?_, ?_, ?_⟩
  · intro i j; fin_cases i <;> fin_cases j <;> simp
  · simp [varOrthoDet, Fin.sum_univ_two]
    ring
  · simp [rayleigh, Fin.sum_univ_two, delta]

/-! ## C41 -/

/-- **C41 (coefficients real up to a common factor)**, orthogonal expansions. -/
theorem contractOrtho_partial (z : ℂ) (hz : z ≠ 0) (c : Fin n → ℝ) (t : Fin n → Fin n → ℂ) :
    contractOrtho (fun i => z * c i) t = rayleigh (fun i => z * c i) t delta := by
  have hz' : star z ≠ 0 := star_ne_zero.mpr hz
  rw [contractOrtho, rayleigh, sum_delta]
  have e1 : ∑ i, ∑ j, star (z * (c i : ℂ)) * star (z * (c j : ℂ)) * t i j =
      (star z * star z) * ∑ i, ∑ j, (c i : ℂ) * (c j : ℂ) * t i j := by
    simp only [Finset.mul_sum]
    refine Finset.sum_congr rfl fun i _ => Finset.sum_congr rfl fun j _ => ?_
    simp only [star_mul', Complex.star_def, Complex.conj_ofReal]; ring
  have e2 : ∑ i, ∑ j, star (z * (c i : ℂ)) * (z * (c j : ℂ)) * t i j =
      (star z * z) * ∑ i, ∑ j, (c i : ℂ) * (c j : ℂ) * t i j := by
    simp only [Finset.mul_sum]
    refine Finset.sum_congr rfl fun i _ => Finset.sum_congr rfl fun j _ => ?_
    simp only [star_mul', Complex.star_def, Complex.conj_ofReal]; ring
  have e3 : ∑ i, star (z * (c i : ℂ)) * star (z * (c i : ℂ)) =
      (star z * star z) * ∑ i, (c i : ℂ) * (c i : ℂ) := by
    simp only [Finset.mul_sum]
    refine Finset.sum_congr rfl fun i _ => ?_
    simp only [star_mul', Complex.star_def, Complex.conj_ofReal]; ring
  have e4 : ∑ i, star (z * (c i : ℂ)) * (z * (c i : ℂ)) =
      (star z * z) * ∑ i, (c i : ℂ) * (c i : ℂ) := by
    simp only [Finset.mul_sum]
    refine Finset.sum_congr rfl fun i _ => ?_
    simp only [star_mul', Complex.star_def, Complex.conj_ofReal]; ring
  rw [e1, e2, e3, e4, mul_div_mul_left _ _ (mul_ne_zero hz' hz'),
    mul_div_mul_left _ _ (mul_ne_zero hz' hz)]

/-- **C41 (coefficients real up to a common factor)**, general expansions: the contraction is the
expectation value of the one-body operator. -/
theorem contractNonOrtho_partial (T : Matrix (Fin m) (Fin m) ℂ) (z : ℂ) (hz : z ≠ 0) (c : Fin n → ℝ)
    (Du : Fin n → Matrix (Fin m) (Fin na) ℂ) (Dd : Fin n → Matrix (Fin m) (Fin nb) ℂ)
    (hu : ∀ i j, ovl (Du i) (Du j) ≠ 0) (hd : ∀ i j, ovl (Dd i) (Dd j) ≠ 0) :
    contractNonOrtho (fun i => z * c i) T
      (fun i j => 1 / ((Slater.gabMod (Du i) (Du j)).2.2.det * (Slater.gabMod (Dd i) (Dd j)).2.2.det))
      (fun i j => (Slater.gabMod (Du i) (Du j)).1) (fun i j => (Slater.gabMod (Dd i) (Dd j)).1) =
    rayleigh (fun i => z * c i)
      (fun i j => oneBody T (Du i) (Du j) * ovl (Dd i) (Dd j) +
        ovl (Du i) (Du j) * oneBody T (Dd i) (Dd j))
      (fun i j => ovl (Du i) (Du j) * ovl (Dd i) (Dd j)) := by
  have hz' : star z ≠ 0 := star_ne_zero.mpr hz
  have ho : ∀ i j, 1 / ((Slater.gabMod (Du i) (Du j)).2.2.det *
      (Slater.gabMod (Dd i) (Dd j)).2.2.det) = ovl (Du i) (Du j) * ovl (Dd i) (Dd j) := by
    intro i j
    rw [gabMod_inv_det, gabMod_inv_det, ← mul_inv, one_div, inv_inv]
  have hd2 : ∀ i j, dot2 T ((Slater.gabMod (Du i) (Du j)).1 + (Slater.gabMod (Dd i) (Dd j)).1) =
      (T * Slater.gab (Du i) (Du j)).trace + (T * Slater.gab (Dd i) (Dd j)).trace := by
    intro i j
    rw [dot2_trace, Matrix.transpose_add, Matrix.mul_add, Matrix.trace_add, Slater.gabMod_eq,
      Slater.gabMod_eq, Matrix.transpose_transpose, Matrix.transpose_transpose]
  rw [contractNonOrtho, rayleigh]
  simp only [ho, hd2]
  have key : ∀ (a : ℂ) (w : Fin n → Fin n → ℂ) (y : Fin n → ℂ),
      (∀ j, y j = a * c j) → ∑ i, ∑ j, star (z * (c i : ℂ)) * y j * w i j =
      (star z * a) * ∑ i, ∑ j, (c i : ℂ) * (c j : ℂ) * w i j := by
    intro a w y hy
    simp only [Finset.mul_sum, hy]
    refine Finset.sum_congr rfl fun i _ => Finset.sum_congr rfl fun j _ => ?_
    simp only [star_mul', Complex.star_def, Complex.conj_ofReal]; ring
  have hst : ∀ j, star (z * (c j : ℂ)) = star z * c j := by
    intro j; simp only [star_mul', Complex.star_def, Complex.conj_ofReal]
  have e1 := key (star z) (fun i j => ovl (Du i) (Du j) * ovl (Dd i) (Dd j) *
    ((T * Slater.gab (Du i) (Du j)).trace + (T * Slater.gab (Dd i) (Dd j)).trace)) _ hst
  have e2 := key (star z) (fun i j => ovl (Du i) (Du j) * ovl (Dd i) (Dd j)) _ hst
  have e3 := key z (fun i j => oneBody T (Du i) (Du j) * ovl (Dd i) (Dd j) +
    ovl (Du i) (Du j) * oneBody T (Dd i) (Dd j)) (fun j => z * c j) (fun _ => rfl)
  have e4 := key z (fun i j => ovl (Du i) (Du j) * ovl (Dd i) (Dd j)) (fun j => z * c j) (fun _ => rfl)
  have e1' : ∑ i, ∑ j, star (z * (c i : ℂ)) * star (z * (c j : ℂ)) *
      (ovl (Du i) (Du j) * ovl (Dd i) (Dd j)) *
      ((T * Slater.gab (Du i) (Du j)).trace + (T * Slater.gab (Dd i) (Dd j)).trace) =
      (star z * star z) * ∑ i, ∑ j, (c i : ℂ) * (c j : ℂ) * (ovl (Du i) (Du j) * ovl (Dd i) (Dd j) *
    ((T * Slater.gab (Du i) (Du j)).trace + (T * Slater.gab (Dd i) (Dd j)).trace)) := by
    rw [← e1]
    exact Finset.sum_congr rfl fun i _ => Finset.sum_congr rfl fun j _ => by ring
  rw [e1', e2, e3, e4, mul_div_mul_left _ _ (mul_ne_zero hz' hz'),
    mul_div_mul_left _ _ (mul_ne_zero hz' hz)]
  congr 1
  refine Finset.sum_congr rfl fun i _ => Finset.sum_congr rfl fun j _ => ?_
  rw [oneBody_eq _ _ _ (hu i j), oneBody_eq _ _ _ (hd i j)]
  ring

/-- **C41 fails** for coefficients with different phases: `4/3` instead of `4/5`, outside the range
of the operator's eigenvalues. -/
theorem contractOrtho_complex : ∃ (c : Fin 2 → ℂ) (t : Fin 2 → Fin 2 → ℂ),
    contractOrtho c t = 4 / 3 ∧ rayleigh c t delta = 4 / 5 := by
  have h2 : (starRingEnd ℂ) 2 = 2 := Complex.conj_ofNat 2
  have hI : Complex.I * Complex.I = -1 := Complex.I_mul_I
  refine ⟨![1, 2 * Complex.I], ![![0, 0], ![0, 1]], ?_, ?_⟩
  · simp only [contractOrtho, Fin.sum_univ_two, Complex.star_def, Matrix.cons_val_zero,
      Matrix.cons_val_one, map_one, map_mul, h2, Complex.conj_I]
    have e : 2 * -Complex.I * (2 * -Complex.I) = -4 := by linear_combination 4 * hI
    rw [e]; norm_num
  · rw [rayleigh, sum_delta]
    simp only [Fin.sum_univ_two, Complex.star_def, Matrix.cons_val_zero,
      Matrix.cons_val_one, map_one, map_mul, h2, Complex.conj_I]
    have e : 2 * -Complex.I * (2 * Complex.I) = 4 := by linear_combination -4 * hI
    rw [e]; norm_num

end Verif.Energy
