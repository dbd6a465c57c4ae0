import Verif.LowRank.Model

/-!
# Overlap and Green's function of the low-rank factors
-/

namespace Verif.LowRank

open Matrix Finset
open Verif.Thermal (Mat splitLive splitLive_ne splitLive_mul)

variable {m : Nat}

/-! ## Slices and padding -/

theorem sum_dite {n k : Nat} (h : k ≤ n) (g : Fin n → ℂ) (v : Fin k → ℂ) :
    ∑ i : Fin n, g i * padVec v i = ∑ i : Fin k, g (Fin.castLE h i) * v i := by
  obtain ⟨d, rfl⟩ := Nat.exists_eq_add_of_le h
  rw [Fin.sum_univ_add]
  have h2 : ∑ i : Fin d, g (Fin.natAdd k i) * (padVec v : Fin (k + d) → ℂ) (Fin.natAdd k i) = 0 := by
    refine sum_eq_zero fun i _ => ?_
    simp [padVec]
  rw [h2, add_zero]
  refine sum_congr rfl fun i _ => ?_
  have : (padVec v : Fin (k + d) → ℂ) (Fin.castAdd d i) = v i := by simp [padVec]
  rw [this]
  rfl

theorem rows_padRows {k n a : Nat} (h : k ≤ n) (M : RMat k a) : rows h (padRows M) = M := by
  ext i j
  simp [rows, padRows, padVec]

theorem cols_padCols {k n a : Nat} (h : k ≤ n) (M : RMat a k) : cols h (padCols M) = M := by
  ext i j
  simp [cols, padCols, padVec]

theorem mul_padRows {k n a b : Nat} (h : k ≤ n) (T : RMat a n) (X : RMat k b) :
    T * (padRows X : RMat n b) = cols h T * X := by
  ext i j
  rw [mul_apply, mul_apply]
  exact sum_dite h (fun l => T i l) fun l => X l j

theorem padRows_mul {k n a b : Nat} (X : RMat k a) (Y : RMat a b) : (padRows X : RMat n a) * Y = padRows (X * Y) := by
  ext i j
  rw [mul_apply]
  unfold padRows padVec
  split_ifs with h
  · simp only [mul_apply]
  · simp

/-! ## The inverse of one plus a product -/

/-- `1 - U W V` is the inverse of `1 + U V` when `W` is the one of `1 + V U`. -/
theorem woodbury {a b : Nat} (U : RMat a b) (V : RMat b a) (W : RMat b b) (h : (1 + V * U) * W = 1) :
    (1 + U * V) * (1 - U * W * V) = 1 := by
  have e : (1 + U * V) * (1 - U * W * V) = 1 + U * V - U * ((1 + V * U) * W) * V := by
    rw [Matrix.mul_sub, Matrix.add_mul, Matrix.add_mul]
    simp only [Matrix.mul_add, Matrix.add_mul, Matrix.mul_one, Matrix.one_mul, Matrix.mul_assoc]
  rw [e, h, Matrix.mul_one, add_sub_cancel_right]

/-- The product of the factors. -/
noncomputable def prodA {mL mT : Nat} (hT : mT ≤ mL) (Q : RMat mL mL) (D : Fin mT → ℂ) (T : RMat mT m) : Mat m :=
  (padRows (cols hT Q) : RMat m mT) * diagonal D * T

theorem finish_spec {mL mT : Nat} (hL : mL ≤ m) (hT : mT ≤ mL) (Q : RMat mL mL) (D : Fin mT → ℂ) (T : RMat mT m)
    (hD : ∀ i, (D i).im = 0) {o : Out m} (h : lowFinish hL hT Q D T = some o) :
    (1 + prodA hT Q D T).det ≠ 0 ∧ o.ovlp = (1 + prodA hT Q D T).det ∧ o.G = (1 + prodA hT Q D T)⁻¹ := by
  unfold lowFinish at h
  simp only at h
  split_ifs at h with h1 h2
  set Db := (splitLive D).1 with hDb
  set Ds := (splitLive D).2 with hDs
  set U : RMat m mT := padRows (cols hT Q) with hU
  have hTQ : cols hL T * cols hT Q = T * U := (mul_padRows hL T (cols hT Q)).symm
  rw [hTQ] at h h1 h2
  set K := T * U with hK
  have hKi : K * K⁻¹ = 1 := mul_nonsing_inv K (isUnit_iff_ne_zero.2 h1)
  have hKi' : K⁻¹ * K = 1 := nonsing_inv_mul K (isUnit_iff_ne_zero.2 h1)
  have hsplit : diagonal Ds = diagonal D * diagonal Db := by
    rw [diagonal_mul_diagonal]
    congr 1
    funext i
    rw [hDs, hDb, splitLive_mul _ _ hD i, mul_comm]
  have hbb : diagonal Db * diagonal (fun i => 1 / Db i) = 1 := by
    rw [diagonal_mul_diagonal, ← diagonal_one]
    congr 1
    funext i
    exact mul_one_div_cancel (splitLive_ne _ D i)
  set tmp := K⁻¹ * diagonal Db + diagonal Ds with htmp
  have ht : tmp = (K⁻¹ + diagonal D) * diagonal Db := by rw [htmp, hsplit, Matrix.add_mul]
  have hti : tmp * tmp⁻¹ = 1 := mul_nonsing_inv tmp (isUnit_iff_ne_zero.2 h2)
  have hM : tmp * diagonal (fun i => 1 / Db i) * K = 1 + diagonal D * T * U := by
    rw [ht, Matrix.mul_assoc _ (diagonal Db), hbb, Matrix.mul_one, Matrix.add_mul, hKi', hK, Matrix.mul_assoc]
  have hA : prodA hT Q D T = U * (diagonal D * T) := by rw [prodA, Matrix.mul_assoc]
  have hdet : (1 + prodA hT Q D T).det = (1 + diagonal D * T * U).det := by
    rw [hA, det_one_add_mul_comm]
  have hW : (1 + K * diagonal D) * (diagonal Db * (tmp⁻¹ * K⁻¹)) = 1 := by
    have e : (1 + K * diagonal D) * diagonal Db = K * tmp := by
      rw [ht, ← Matrix.mul_assoc, Matrix.mul_add, hKi]
    rw [← Matrix.mul_assoc, e, Matrix.mul_assoc, ← Matrix.mul_assoc tmp, hti, Matrix.one_mul, hKi]
  have hinv : (1 + prodA hT Q D T) * (1 - U * diagonal D * (diagonal Db * (tmp⁻¹ * K⁻¹)) * T) = 1 := by
    exact woodbury (U * diagonal D) T _ (by rw [← Matrix.mul_assoc T]; exact hW)
  have hne : (1 + prodA hT Q D T).det ≠ 0 := by
    intro h0
    have := congrArg Matrix.det hinv
    rw [det_mul, h0, zero_mul, det_one] at this
    exact zero_ne_one this
  simp only [Option.some.injEq] at h
  refine ⟨hne, ?_, ?_⟩
  · rw [← h, hdet]
    show (tmp * diagonal (fun i => 1 / Db i) * K).det = _
    rw [hM]
  · rw [← h]
    simp only
    rw [rows_padRows, cols_padCols, transpose_transpose, conjTranspose_conjTranspose, ← Matrix.mul_assoc]
    exact (inv_eq_right_inv hinv).symm

theorem finish_some {mL mT : Nat} (hL : mL ≤ m) (hT : mT ≤ mL) (Q : RMat mL mL) (D : Fin mT → ℂ) (T : RMat mT m)
    (hD : ∀ i, (D i).im = 0) (h1 : (T * (padRows (cols hT Q) : RMat m mT)).det ≠ 0)
    (h2 : (1 + prodA hT Q D T).det ≠ 0) : ∃ o, lowFinish hL hT Q D T = some o := by
  unfold lowFinish
  simp only
  have hTQ : cols hL T * cols hT Q = T * (padRows (cols hT Q) : RMat m mT) := (mul_padRows hL T (cols hT Q)).symm
  rw [hTQ, if_neg h1]
  set U : RMat m mT := padRows (cols hT Q) with hU
  have hKi : (T * U) * (T * U)⁻¹ = 1 := mul_nonsing_inv _ (isUnit_iff_ne_zero.2 h1)
  rw [if_neg]
  · exact ⟨_, rfl⟩
  · intro h0
    apply h2
    have hsplit : diagonal (splitLive D).2 = diagonal D * diagonal (splitLive D).1 := by
      rw [diagonal_mul_diagonal]
      congr 1
      funext i
      rw [splitLive_mul _ _ hD i, mul_comm]
    have e : (T * U) * ((T * U)⁻¹ * diagonal (splitLive D).1 + diagonal (splitLive D).2) =
        (1 + (T * U) * diagonal D) * diagonal (splitLive D).1 := by
      rw [hsplit, Matrix.mul_add, ← Matrix.mul_assoc, hKi, Matrix.add_mul, Matrix.one_mul, Matrix.mul_assoc]
      simp only [Matrix.mul_assoc]
    have hd := congrArg Matrix.det e
    rw [det_mul, h0, mul_zero, det_mul, det_diagonal] at hd
    have hp : ∏ i, (splitLive D).1 i ≠ 0 := prod_ne_zero_iff.2 fun i _ => splitLive_ne _ D i
    rcases mul_eq_zero.1 hd.symm with h | h
    · rw [prodA, Matrix.mul_assoc, det_one_add_mul_comm, Matrix.mul_assoc, det_one_add_mul_comm]
      exact h
    · exact absurd h hp

/-! ## Counting the entries kept -/

theorem lt_kept {n : Nat} {t : ℝ} {D : Fin n → ℂ} (h : ∀ i j, i ≤ j → ‖D j‖ ≤ ‖D i‖) (i : Fin n) :
    (i : Nat) < kept t D ↔ t < ‖D i‖ := by
  constructor
  · intro hi
    by_contra hlt
    have hsub : (univ.filter fun j => t < ‖D j‖) ⊆ Iio i := by
      intro j hj
      rw [mem_filter] at hj
      rw [mem_Iio]
      by_contra hij
      exact hlt (hj.2.trans_le (h i j (not_lt.1 hij)))
    have := card_le_card hsub
    rw [Fin.card_Iio] at this
    exact absurd hi (not_lt.2 this)
  · intro hi
    have hsub : Iic i ⊆ univ.filter fun j => t < ‖D j‖ := by
      intro j hj
      rw [mem_filter]
      exact ⟨mem_univ _, hi.trans_le (h j i (mem_Iic.1 hj))⟩
    have := card_le_card hsub
    rw [Fin.card_Iic] at this
    exact this

theorem kept_all {n : Nat} {t : ℝ} {D : Fin n → ℂ} (h : ∀ i, t < ‖D i‖) : kept t D = n := by
  unfold kept
  rw [filter_true_of_mem fun i _ => h i, card_univ, Fintype.card_fin]

/-! ## The factorisation of the left factor -/

/-- What is left out when only the first `k` rows of `R` are used. -/
noncomputable def restOf {a b : Nat} (Q : RMat a a) (R : RMat a b) (P : Equiv.Perm (Fin b)) (k : Nat) : RMat a b :=
  Matrix.of fun i l => ∑ j : Fin a, if k ≤ (j : Nat) then Q i j * R j (P.symm l) else 0

theorem qr_entry {a b : Nat} {A : RMat a b} {Q : RMat a a} {R : RMat a b} {P : Equiv.Perm (Fin b)} (h : IsQRPr A Q R P)
    (i : Fin a) (l : Fin b) : A i l = ∑ j : Fin a, Q i j * R j (P.symm l) := by
  have := congrFun (congrFun h.eq i) (P.symm l)
  rw [submatrix_apply, id, Equiv.apply_symm_apply, mul_apply] at this
  exact this

theorem first_rows {a b : Nat} {A : RMat a b} {Q : RMat a a} {R : RMat a b} {P : Equiv.Perm (Fin b)} (h : IsQRPr A Q R P)
    {k : Nat} (hk : k ≤ a) (i : Fin a) (l : Fin b) :
    ∑ j : Fin k, Q i (Fin.castLE hk j) * R (Fin.castLE hk j) (P.symm l) = (A - restOf Q R P k) i l := by
  rw [Matrix.sub_apply, qr_entry h, restOf, of_apply, ← sum_sub_distrib]
  obtain ⟨d, rfl⟩ := Nat.exists_eq_add_of_le hk
  rw [Fin.sum_univ_add]
  have h2 : ∑ j : Fin d, (Q i (Fin.natAdd k j) * R (Fin.natAdd k j) (P.symm l) -
      if k ≤ ((Fin.natAdd k j : Fin (k + d)) : Nat) then Q i (Fin.natAdd k j) * R (Fin.natAdd k j) (P.symm l) else 0) = 0 :=
    sum_eq_zero fun j _ => by simp
  rw [h2, add_zero]
  refine sum_congr rfl fun j _ => ?_
  have : ¬ k ≤ ((Fin.castAdd d j : Fin (k + d)) : Nat) := by simp
  rw [if_neg this, sub_zero]
  rfl

theorem tail_prod {mL mR : Nat} {A : RMat mL mR} {f : RMat mL mL × RMat mL mR × Equiv.Perm (Fin mR)}
    (hf : IsQRPr A f.1 f.2.1 f.2.2) (T : RMat mR m) {mT : Nat} (hT : mT ≤ min mL mR)
    (hD : ∀ i, diagOf f.2.1 (Fin.castLE hT i) ≠ 0) :
    prodA (hT.trans (min_le_left _ _)) f.1 (fun i => diagOf f.2.1 (Fin.castLE hT i))
      ((Matrix.of fun i j => 1 / diagOf f.2.1 (Fin.castLE hT i) *
        f.2.1 (Fin.castLE (hT.trans (min_le_left _ _)) i) (f.2.2.symm j) : RMat mT mR) * T) =
    (padRows (A - restOf f.1 f.2.1 f.2.2 mT) : RMat m mR) * T := by
  rw [prodA, padRows_mul, padRows_mul, padRows_mul, ← Matrix.mul_assoc]
  congr 2
  ext i l
  rw [← first_rows hf (hT.trans (min_le_left _ _)), mul_apply]
  refine sum_congr rfl fun j _ => ?_
  rw [mul_diagonal, of_apply, cols, submatrix_apply, id]
  have := hD j
  field_simp

theorem unitary_entry {a : Nat} {Q : RMat a a} (h : Qᴴ * Q = 1) (i j : Fin a) : ‖Q i j‖ ≤ 1 := by
  have h1 : ∑ k, ‖Q k j‖ ^ 2 = 1 := by
    have := congrFun (congrFun h j) j
    rw [mul_apply, one_apply_eq] at this
    have h2 : ((∑ k, ‖Q k j‖ ^ 2 : ℝ) : ℂ) = 1 := by
      rw [← this]
      push_cast
      refine sum_congr rfl fun k _ => ?_
      rw [conjTranspose_apply, RCLike.star_def, Complex.conj_mul']
    exact_mod_cast h2
  have h3 : ‖Q i j‖ ^ 2 ≤ 1 := by
    rw [← h1]
    exact single_le_sum (f := fun k => ‖Q k j‖ ^ 2) (fun k _ => sq_nonneg _) (mem_univ i)
  nlinarith [norm_nonneg (Q i j)]

theorem rest_bound {a b : Nat} {Q : RMat a a} (hQ : Qᴴ * Q = 1) {R : RMat a b} (P : Equiv.Perm (Fin b)) {k : Nat} {t : ℝ}
    (ht : 0 ≤ t) (hR : ∀ (j : Fin a) (l : Fin b), k ≤ (j : Nat) → ‖R j l‖ ≤ t) (i : Fin a) (l : Fin b) :
    ‖restOf Q R P k i l‖ ≤ a * t := by
  rw [restOf, of_apply]
  refine (norm_sum_le _ _).trans ?_
  have : ∑ _j : Fin a, t = a * t := by rw [sum_const, card_univ, Fintype.card_fin, nsmul_eq_mul]
  rw [← this]
  refine sum_le_sum fun j _ => ?_
  split_ifs with h
  · rw [norm_mul]
    calc ‖Q i j‖ * ‖R j (P.symm l)‖ ≤ 1 * t :=
          mul_le_mul (unitary_entry hQ i j) (hR j _ h) (norm_nonneg _) zero_le_one
      _ = t := one_mul t
  · rw [norm_zero]; exact ht

theorem diag_anti {a b : Nat} {A : RMat a b} {Q : RMat a a} {R : RMat a b} {P : Equiv.Perm (Fin b)} (h : IsQRPr A Q R P)
    (i j : Fin (min a b)) (hij : i ≤ j) : ‖diagOf R j‖ ≤ ‖diagOf R i‖ := by
  have hi := i.2
  exact h.pivot i (hi.trans_le (min_le_left _ _)) (hi.trans_le (min_le_right _ _)) _ _ hij hij

theorem diag_real {a b : Nat} {A : RMat a b} {Q : RMat a a} {R : RMat a b} {P : Equiv.Perm (Fin b)} (h : IsQRPr A Q R P)
    (i : Fin (min a b)) : (diagOf R i).im = 0 := h.real _ _ rfl

/-- The rows of `R` that are not used are small. -/
theorem unused_small {a b : Nat} {A : RMat a b} {Q : RMat a a} {R : RMat a b} {P : Equiv.Perm (Fin b)} (h : IsQRPr A Q R P)
    {t : ℝ} (ht : 0 ≤ t) (j : Fin a) (l : Fin b) (hj : kept t (diagOf R) ≤ (j : Nat)) : ‖R j l‖ ≤ t := by
  by_cases hl : (l : Nat) < j
  · rw [h.upper j l hl, norm_zero]; exact ht
  · have hjb : (j : Nat) < b := lt_of_le_of_lt (not_lt.1 hl) l.2
    have hjm : (j : Nat) < min a b := lt_min j.2 hjb
    have h1 := (lt_kept (t := t) (diag_anti h) ⟨j, hjm⟩).not.1 (not_lt.2 hj)
    exact (h.pivot j j.2 hjb j l le_rfl (not_lt.1 hl)).trans (not_lt.1 h1)

/-- Nothing is left out when all diagonal entries are kept. -/
theorem rest_zero {a b : Nat} {A : RMat a b} {Q : RMat a a} {R : RMat a b} {P : Equiv.Perm (Fin b)} (h : IsQRPr A Q R P) :
    restOf Q R P (min a b) = 0 := by
  ext i l
  rw [restOf, of_apply, Matrix.zero_apply]
  refine sum_eq_zero fun j _ => ?_
  split_ifs with hj
  · rw [h.upper j _, mul_zero]
    have : b ≤ (j : Nat) := by
      have := j.2
      rcases min_le_iff.1 hj with h | h
      · omega
      · exact h
    exact lt_of_lt_of_le (P.symm l).2 this
  · rfl

/-! ## Overlap and Green's function -/

/-- What an update computes is the overlap and the Green's function of `A`. -/
structure IsGreen (A : Mat m) (ovlp : ℂ) (G : Mat m) : Prop where
  ne : (1 + A).det ≠ 0
  ovlp : ovlp = (1 + A).det
  green : G = (1 + A)⁻¹

/-- For every threshold: overlap and Green's function belong to the same matrix; its first rows, as many as there are entries
of `Dl` above the threshold, differ from those of the product of all factors by a multiple of the threshold, the other
rows are zero. -/
theorem lowGreen_rows {qr : QRPr} (hq : ∀ a b A, IsQRPr A (qr a b A).1 (qr a b A).2.1 (qr a b A).2.2) {t : ℝ} (ht : 0 ≤ t)
    {mR : Nat} {Dl : Fin m → ℂ} (C : RMat m mR) (T : RMat mR m) {o : Out m}
    (h : lowGreen qr t Dl C T = some o) : ∃ A, IsGreen A o.ovlp o.G ∧
      (∀ (i j : Fin m), (i : Nat) < kept t Dl → ‖A i j - (diagonal Dl * (C * T)) i j‖ ≤ t * (m * ∑ l, ‖T l j‖)) ∧
      ∀ (i j : Fin m), ¬ (i : Nat) < kept t Dl → A i j = 0 := by
  unfold lowGreen lowRows lowTail at h
  simp only at h
  set hL : kept t Dl ≤ m := kept_le t Dl
  set f := qr (kept t Dl) mR (clcr hL Dl C) with hfd
  have hf : IsQRPr (clcr hL Dl C) f.1 f.2.1 f.2.2 := hq _ _ _
  set hT := kept_le t (diagOf f.2.1)
  obtain ⟨h1, h2, h3⟩ := finish_spec hL _ _ _ _ (fun i => diag_real hf _) h
  rw [tail_prod hf T hT fun i => by
    have hi := (lt_kept (t := t) (diag_anti hf) (Fin.castLE hT i)).1 i.2
    exact norm_pos_iff.1 (ht.trans_lt hi)] at h1 h2 h3
  refine ⟨_, ⟨h1, h2, h3⟩, fun i j hi => ?_, fun i j hi => ?_⟩
  · rw [padRows_mul, diagonal_mul]
    have e : (padRows ((clcr hL Dl C - restOf f.1 f.2.1 f.2.2 (kept t (diagOf f.2.1))) * T) : RMat m m) i j -
        Dl i * (C * T) i j = -∑ l, restOf f.1 f.2.1 f.2.2 (kept t (diagOf f.2.1)) ⟨i, hi⟩ l * T l j := by
      unfold padRows padVec
      rw [dif_pos hi]
      beta_reduce
      rw [mul_apply, mul_apply, mul_sum, ← sum_sub_distrib, ← sum_neg_distrib]
      refine sum_congr rfl fun l _ => ?_
      rw [Matrix.sub_apply, clcr]
      have : Fin.castLE hL ⟨i, hi⟩ = i := rfl
      rw [this]
      ring
    rw [e, norm_neg]
    refine (norm_sum_le _ _).trans ?_
    calc ∑ l, ‖restOf f.1 f.2.1 f.2.2 (kept t (diagOf f.2.1)) ⟨i, hi⟩ l * T l j‖ ≤ ∑ l, (m * t) * ‖T l j‖ := by
          refine sum_le_sum fun l _ => ?_
          rw [norm_mul]
          refine mul_le_mul_of_nonneg_right ?_ (norm_nonneg _)
          refine (rest_bound hf.unitary f.2.2 ht (fun j l hj => unused_small hf ht j l hj) _ _).trans ?_
          exact mul_le_mul_of_nonneg_right (by exact_mod_cast hL) ht
      _ = t * (m * ∑ l, ‖T l j‖) := by rw [← mul_sum]; ring
  · rw [padRows_mul]
    unfold padRows padVec
    rw [dif_neg hi]

/-- With a sorted left factor the rows left out are small. -/
theorem lowGreen_spec {qr : QRPr} (hq : ∀ a b A, IsQRPr A (qr a b A).1 (qr a b A).2.1 (qr a b A).2.2) {t : ℝ} (ht : 0 ≤ t)
    {mR : Nat} {Dl : Fin m → ℂ} (hDl : ∀ i j, i ≤ j → ‖Dl j‖ ≤ ‖Dl i‖) (C : RMat m mR) (T : RMat mR m) {o : Out m}
    (h : lowGreen qr t Dl C T = some o) : ∃ A, IsGreen A o.ovlp o.G ∧
      ∀ i j, ‖A i j - (diagonal Dl * (C * T)) i j‖ ≤ t * (‖(C * T) i j‖ + m * ∑ l, ‖T l j‖) := by
  obtain ⟨A, hA, h1, h2⟩ := lowGreen_rows hq ht C T h
  refine ⟨A, hA, fun i j => ?_⟩
  have hS : 0 ≤ ∑ l, ‖T l j‖ := sum_nonneg fun l _ => norm_nonneg _
  by_cases hi : (i : Nat) < kept t Dl
  · exact (h1 i j hi).trans (mul_le_mul_of_nonneg_left (le_add_of_nonneg_left (norm_nonneg _)) ht)
  · rw [h2 i j hi, zero_sub, norm_neg, diagonal_mul, norm_mul]
    have h5 := not_lt.1 ((lt_kept (t := t) hDl i).not.1 hi)
    calc ‖Dl i‖ * ‖(C * T) i j‖ ≤ t * ‖(C * T) i j‖ := mul_le_mul_of_nonneg_right h5 (norm_nonneg _)
      _ ≤ _ := mul_le_mul_of_nonneg_left (le_add_of_nonneg_right (mul_nonneg (Nat.cast_nonneg _) hS)) ht

/-! ## Nothing left out -/

/-- The same with all rows. -/
noncomputable def wholeGreen (qr : QRPr) (Dl : Fin m → ℂ) (C T : Mat m) : Option (Out m) :=
  lowTail le_rfl (qr m m (clcr le_rfl Dl C)) T m (le_min le_rfl le_rfl)

theorem lowTail_congr {mL mR : Nat} (hL : mL ≤ m) (f : RMat mL mL × RMat mL mR × Equiv.Perm (Fin mR)) (T : RMat mR m)
    {k l : Nat} (hk : k ≤ min mL mR) (hl : l ≤ min mL mR) (h : k = l) : lowTail hL f T k hk = lowTail hL f T l hl := by
  subst h; rfl

theorem lowRows_congr {qr : QRPr} {t : ℝ} {mR : Nat} {Dl : Fin m → ℂ} {C : RMat m mR} {T : RMat mR m} {k l : Nat}
    (hk : k ≤ m) (hl : l ≤ m) (h : k = l) : lowRows qr t Dl C T k hk = lowRows qr t Dl C T l hl := by
  subst h; rfl

theorem lowGreen_whole {qr : QRPr} {t : ℝ} {Dl : Fin m → ℂ} {C T : Mat m} (h1 : ∀ i, t < ‖Dl i‖)
    (h2 : ∀ i, t < ‖diagOf (qr m m (clcr le_rfl Dl C)).2.1 i‖) : lowGreen qr t Dl C T = wholeGreen qr Dl C T := by
  rw [lowGreen, lowRows_congr (kept_le _ _) le_rfl (kept_all h1), lowRows, wholeGreen]
  exact lowTail_congr _ _ _ _ _ ((kept_all h2).trans (min_self m))

theorem qr_diag_ne {A Q R : Mat m} {P : Equiv.Perm (Fin m)} (h : IsQRPr A Q R P) (hA : A.det ≠ 0) (i : Fin m) : R i i ≠ 0 := by
  have h1 : (A.submatrix id P).det ≠ 0 := by
    rw [det_permute']
    refine mul_ne_zero ?_ hA
    rcases Int.units_eq_one_or (Equiv.Perm.sign P) with h | h <;> simp [h]
  rw [h.eq, det_mul] at h1
  have h2 : R.det = ∏ i, R i i := det_of_upperTriangular fun i j hij => h.upper i j hij
  rw [h2] at h1
  exact prod_ne_zero_iff.1 (right_ne_zero_of_mul h1) i (mem_univ i)

theorem whole_spec {qr : QRPr} (hq : ∀ a b A, IsQRPr A (qr a b A).1 (qr a b A).2.1 (qr a b A).2.2) {Dl : Fin m → ℂ}
    (hDl : ∀ i, Dl i ≠ 0) {C T : Mat m} (hC : C.det ≠ 0) (hT : T.det ≠ 0) (hA : (1 + diagonal Dl * (C * T)).det ≠ 0) :
    (∀ i, diagOf (qr m m (clcr le_rfl Dl C)).2.1 i ≠ 0) ∧
      ∃ o, wholeGreen qr Dl C T = some o ∧ IsGreen (diagonal Dl * (C * T)) o.ovlp o.G := by
  set f := qr m m (clcr le_rfl Dl C) with hfd
  have hcl : (clcr le_rfl Dl C : Mat m) = diagonal Dl * C := by
    ext i j
    rw [diagonal_mul]
    rfl
  have hf : IsQRPr (clcr le_rfl Dl C) f.1 f.2.1 f.2.2 := hq _ _ _
  have hdet : (clcr le_rfl Dl C : Mat m).det ≠ 0 := by
    rw [hcl, det_mul, det_diagonal]
    exact mul_ne_zero (prod_ne_zero_iff.2 fun i _ => hDl i) hC
  have hne : ∀ i, diagOf f.2.1 i ≠ 0 := by
    intro i
    have := qr_diag_ne hf hdet (Fin.castLE (min_le_left _ _) i)
    exact this
  refine ⟨hne, ?_⟩
  have hk : m ≤ min m m := le_min le_rfl le_rfl
  have hp := tail_prod (m := m) hf T hk fun i => hne _
  have hr : restOf f.1 f.2.1 f.2.2 m = 0 := by
    have := rest_zero hf
    rwa [min_self] at this
  have hA2 : (padRows (clcr le_rfl Dl C - restOf f.1 f.2.1 f.2.2 m) : RMat m m) * T = diagonal Dl * (C * T) := by
    rw [hr, sub_zero, hcl, ← Matrix.mul_assoc]
    congr 1
    ext i j
    simp [padRows, padVec]
  rw [hA2] at hp
  have hso := finish_some (m := m) le_rfl (hk.trans (min_le_left _ _)) f.1 (fun i => diagOf f.2.1 (Fin.castLE hk i))
    ((Matrix.of fun i j => 1 / diagOf f.2.1 (Fin.castLE hk i) *
        f.2.1 (Fin.castLE (hk.trans (min_le_left _ _)) i) (f.2.2.symm j) : RMat m m) * T)
    (fun i => diag_real hf _) ?_ (by rw [hp]; exact hA)
  · obtain ⟨o, ho⟩ := hso
    refine ⟨o, ho, ?_⟩
    obtain ⟨a, b, c⟩ := finish_spec _ _ _ _ _ (fun i => diag_real hf _) ho
    rw [hp] at a b c
    exact ⟨a, b, c⟩
  · -- the product of the factors is invertible, so each of them is
    have hdA : (diagonal Dl * (C * T)).det ≠ 0 := by
      rw [det_mul, det_mul, det_diagonal]
      exact mul_ne_zero (prod_ne_zero_iff.2 fun i _ => hDl i) (mul_ne_zero hC hT)
    rw [← hp, prodA, det_mul, det_mul] at hdA
    rw [det_mul]
    exact mul_ne_zero (right_ne_zero_of_mul hdA) (left_ne_zero_of_mul (left_ne_zero_of_mul hdA))

end Verif.LowRank
