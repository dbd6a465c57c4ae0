import Verif.LowRank.Green

/-!
# An update of the low-rank stack
-/

namespace Verif.LowRank

open Matrix Finset
open Verif.Thermal (Mat)

variable {m : Nat}

/-- The product of the right factors. -/
noncomputable def rightProd (s : LSt m) : Mat m := s.Qr * diagonal s.Dr * s.Tr

/-- The first `k` columns and rows of the right factors. -/
noncomputable def firstProd (s : LSt m) (k : Nat) (h : k ≤ m) : Mat m :=
  cols h s.Qr * diagonal (fun j => s.Dr (Fin.castLE h j)) * rows h s.Tr

theorem ccr_mul (s : LSt m) (B : Mat m) (k : Nat) (h : k ≤ m) : ccr s B k h * rows h s.Tr = B * firstProd s k h := by
  rw [firstProd, ← Matrix.mul_assoc, ← Matrix.mul_assoc]
  congr 1
  ext i j
  rw [mul_diagonal]
  rfl

theorem pad_prod {a b k n : Nat} (h : k ≤ n) (X : RMat a k) (D : Fin n → ℂ) (T : RMat n b) :
    (padCols X : RMat a n) * diagonal D * T = X * diagonal (fun j => D (Fin.castLE h j)) * rows h T := by
  ext i j
  rw [mul_apply, mul_apply]
  have := sum_dite h (fun l => D l * T l j) (X i)
  simp only [mul_diagonal]
  calc ∑ l, padCols X i l * D l * T l j = ∑ l, D l * T l j * padVec (X i) l := by
        refine sum_congr rfl fun l _ => ?_
        rw [padCols]; ring
    _ = _ := this
    _ = _ := by
        refine sum_congr rfl fun l _ => ?_
        rw [rows, submatrix_apply, id]; ring

theorem mid_right (BTinv : Mat m) (s : LSt m) (B : Mat m) (k : Nat) (h : k ≤ m) :
    rightProd (midFactors BTinv s B k h) = B * firstProd s k h := by
  rw [rightProd, midFactors]
  simp only
  rw [pad_prod h, firstProd, ← Matrix.mul_assoc, ← Matrix.mul_assoc]

/-- The factorisation at the end of a bin does not change the product. -/
theorem right_qr {k : Nat} (h : k ≤ m) {A : RMat m k} {Q : Mat m} {R : RMat m k} {P : Equiv.Perm (Fin k)}
    (hf : IsQRPr A Q R P) (hne : ∀ i, rightDiag h R i ≠ 0) (Tr : Mat m) :
    endC h Q R * rightT h R P Tr = A * rows h Tr := by
  rw [rightT, ← Matrix.mul_assoc]
  congr 1
  ext i l
  have hr : restOf Q R P k = 0 := by
    have := rest_zero hf
    rwa [min_eq_right h] at this
  have hfr := first_rows hf h i l
  rw [hr, sub_zero] at hfr
  rw [← hfr, mul_apply]
  refine sum_congr rfl fun j _ => ?_
  rw [of_apply, endC, cols, submatrix_apply, id]
  have := hne j
  have e : rightDiag h R j * (1 / rightDiag h R j) = 1 := mul_one_div_cancel this
  linear_combination (Q i (Fin.castLE h j) * R (Fin.castLE h j) (P.symm l)) * e

theorem rows_end {qr : QRPr} (BTinv : Mat m) (s : LSt m) (B : Mat m) (k : Nat) (h : k ≤ m) :
    rows h (endFactors qr BTinv s B k h).Tr =
      rightT h (qr m k (ccr s B k h)).2.1 (qr m k (ccr s B k h)).2.2 s.Tr := by
  ext i j
  rw [rows, submatrix_apply, id, endFactors]
  simp

theorem end_right {qr : QRPr} (hq : ∀ a b A, IsQRPr A (qr a b A).1 (qr a b A).2.1 (qr a b A).2.2) (BTinv : Mat m) (s : LSt m)
    (B : Mat m) (k : Nat) (h : k ≤ m) (hne : ∀ i, rightDiag h (qr m k (ccr s B k h)).2.1 i ≠ 0) :
    rightProd (endFactors qr BTinv s B k h) = B * firstProd s k h := by
  rw [← ccr_mul, ← right_qr h (hq m k _) hne, ← rows_end BTinv s B k h]
  ext i j
  have := sum_dite h (fun l => (endFactors qr BTinv s B k h).Qr i l * (endFactors qr BTinv s B k h).Tr l j)
    (rightDiag h (qr m k (ccr s B k h)).2.1)
  rw [rightProd, mul_apply, mul_apply]
  simp only [mul_diagonal]
  calc _ = ∑ l, (endFactors qr BTinv s B k h).Qr i l * (endFactors qr BTinv s B k h).Tr l j *
        padVec (rightDiag h (qr m k (ccr s B k h)).2.1) l := by
        refine sum_congr rfl fun l _ => ?_
        have : (endFactors qr BTinv s B k h).Dr l = padVec (rightDiag h (qr m k (ccr s B k h)).2.1) l := rfl
        rw [this]; ring
    _ = _ := this
    _ = _ := by
        refine sum_congr rfl fun l _ => ?_
        rw [rows, submatrix_apply, id, endC, cols, submatrix_apply, id]
        have : (endFactors qr BTinv s B k h).Qr = (qr m k (ccr s B k h)).1 := rfl
        rw [this]; ring

/-! ## What is dropped -/

theorem first_bound {s : LSt m} {t : ℝ} (ht : 0 ≤ t) (hDr : ∀ i j, i ≤ j → ‖s.Dr j‖ ≤ ‖s.Dr i‖) (i j : Fin m) :
    ‖(firstProd s (kept t s.Dr) (kept_le _ _)) i j - rightProd s i j‖ ≤ t * ∑ l, ‖s.Qr i l‖ * ‖s.Tr l j‖ := by
  have e : (firstProd s (kept t s.Dr) (kept_le _ _)) i j =
      ∑ l : Fin m, if (l : Nat) < kept t s.Dr then s.Qr i l * s.Dr l * s.Tr l j else 0 := by
    rw [firstProd, mul_apply]
    simp only [mul_diagonal, cols, rows, submatrix_apply, id]
    have := sum_dite (kept_le t s.Dr) (fun _ => (1 : ℂ)) fun l =>
      s.Qr i (Fin.castLE (kept_le t s.Dr) l) * s.Dr (Fin.castLE (kept_le t s.Dr) l) * s.Tr (Fin.castLE (kept_le t s.Dr) l) j
    simp only [one_mul] at this
    rw [← this]
    refine sum_congr rfl fun l _ => ?_
    unfold padVec
    split_ifs <;> rfl
  rw [e, rightProd, mul_apply, ← sum_sub_distrib, mul_sum]
  refine (norm_sum_le _ _).trans (sum_le_sum fun l _ => ?_)
  rw [mul_diagonal]
  split_ifs with h
  · rw [sub_self, norm_zero]
    positivity
  · rw [zero_sub, norm_neg, norm_mul, norm_mul]
    have := not_lt.1 ((lt_kept hDr l).not.1 h)
    nlinarith [mul_nonneg (norm_nonneg (s.Qr i l)) (norm_nonneg (s.Tr l j))]

/-- The right factors after an update, whether it ends a bin or not. -/
theorem update_factors {qr : QRPr} (hq : ∀ a b A, IsQRPr A (qr a b A).1 (qr a b A).2.1 (qr a b A).2.2) {t : ℝ}
    {BTinv : Mat m} {s s' : LSt m} {B : Mat m} (hDr : ∀ i j, i ≤ j → ‖s.Dr j‖ ≤ ‖s.Dr i‖)
    (h : updateLow qr t BTinv s B = some s') : s'.Dl = nextDl BTinv s.Dl ∧
      rightProd s' = B * firstProd s (kept t s.Dr) (kept_le _ _) ∧ (∀ i j, i ≤ j → ‖s'.Dr j‖ ≤ ‖s'.Dr i‖) ∧
      ∃ (C : RMat m (kept t s.Dr)) (o : Out m), lowGreen qr t (nextDl BTinv s.Dl) C (rows (kept_le _ _) s'.Tr) = some o ∧
        C * rows (kept_le t s.Dr) s'.Tr = rightProd s' ∧ o.ovlp = s'.ovlp ∧ o.G = s'.G := by
  unfold updateLow at h
  split_ifs at h with h1 h2
  · unfold endUpdate at h
    simp only at h
    split_ifs at h with h3
    · simp at h
    · rw [Option.map_map, Option.map_eq_some_iff] at h
      obtain ⟨o, ho, rfl⟩ := h
      push Not at h3
      have hr := end_right hq BTinv s B (kept t s.Dr) (kept_le _ _) h3
      refine ⟨rfl, hr, ?_, endC (kept_le _ _) (qr m _ (ccr s B (kept t s.Dr) (kept_le _ _))).1
        (qr m _ (ccr s B (kept t s.Dr) (kept_le _ _))).2.1, o, ?_, ?_, rfl, rfl⟩
      · intro i j hij
        show ‖padVec _ j‖ ≤ ‖padVec _ i‖
        unfold padVec
        split_ifs with hj hi hi
        · exact (hq _ _ _).pivot i i.2 hi _ _ hij hij
        · exact absurd (lt_of_le_of_lt (Fin.le_def.1 hij) hj) hi
        · rw [norm_zero]; exact norm_nonneg _
        · exact le_rfl
      · rw [← ho]
        congr 1
        exact rows_end BTinv s B _ _
      · show endC _ _ _ * rows _ (endFactors qr BTinv s B _ _).Tr = _
        rw [rows_end, right_qr _ (hq m _ _) h3, ccr_mul]
        exact hr.symm
  · unfold midUpdate at h
    rw [Option.map_map, Option.map_eq_some_iff] at h
    obtain ⟨o, ho, rfl⟩ := h
    have hr := mid_right BTinv s B (kept t s.Dr) (kept_le _ _)
    refine ⟨rfl, hr, hDr, ccr s B _ _, o, ho, ?_, rfl, rfl⟩
    exact (ccr_mul s B _ _).trans hr.symm

/-- **C105 (truncation)**: for every threshold, overlap and Green's function after an update are those of one and the same
matrix `A`.  `A` differs from the product of the factors that are kept, and this one from the product of the slice with
the factors before, by the threshold times a bound from the sizes of the factors; the diagonal left factor has to be sorted. -/
theorem update_truncated {qr : QRPr} (hq : ∀ a b A, IsQRPr A (qr a b A).1 (qr a b A).2.1 (qr a b A).2.2) {t : ℝ} (ht : 0 ≤ t)
    {BTinv : Mat m} {s s' : LSt m} {B : Mat m} (hDl : ∀ i j, i ≤ j → ‖nextDl BTinv s.Dl j‖ ≤ ‖nextDl BTinv s.Dl i‖)
    (hDr : ∀ i j, i ≤ j → ‖s.Dr j‖ ≤ ‖s.Dr i‖) (h : updateLow qr t BTinv s B = some s') :
    (∀ i j, i ≤ j → ‖s'.Dr j‖ ≤ ‖s'.Dr i‖) ∧
    (∀ i j, ‖rightProd s' i j - (B * rightProd s) i j‖ ≤ t * ∑ k, ‖B i k‖ * ∑ l, ‖s.Qr k l‖ * ‖s.Tr l j‖) ∧
    ∃ A, IsGreen A s'.ovlp s'.G ∧
      ∀ i j, ‖A i j - (diagonal s'.Dl * rightProd s') i j‖ ≤ t * (‖rightProd s' i j‖ + m * ∑ l, ‖s'.Tr l j‖) := by
  obtain ⟨h1, h2, h3, C, o, ho, hC, ho1, ho2⟩ := update_factors hq hDr h
  refine ⟨h3, fun i j => ?_, ?_⟩
  · rw [h2, mul_apply, mul_apply, ← sum_sub_distrib, mul_sum]
    refine (norm_sum_le _ _).trans (sum_le_sum fun k _ => ?_)
    rw [← mul_sub, norm_mul, mul_left_comm]
    exact mul_le_mul_of_nonneg_left (first_bound ht hDr k j) (norm_nonneg _)
  · obtain ⟨A, hA, hb⟩ := lowGreen_spec hq ht hDl C _ ho
    rw [ho1, ho2] at hA
    refine ⟨A, hA, fun i j => ?_⟩
    have := hb i j
    rw [hC, ← h1] at this
    refine this.trans (mul_le_mul_of_nonneg_left (add_le_add le_rfl (mul_le_mul_of_nonneg_left ?_ (Nat.cast_nonneg _))) ht)
    have e := sum_dite (kept_le t s.Dr) (fun _ => (1 : ℂ)) fun l => ((‖s'.Tr (Fin.castLE (kept_le t s.Dr) l) j‖ : ℝ) : ℂ)
    have e2 : ∑ l, ‖rows (kept_le t s.Dr) s'.Tr l j‖ = ∑ l : Fin m, if (l : Nat) < kept t s.Dr then ‖s'.Tr l j‖ else 0 := by
      apply Complex.ofReal_injective
      push_cast
      simp only [one_mul] at e
      refine Eq.trans ?_ (e.symm.trans ?_)
      · rfl
      · refine sum_congr rfl fun l _ => ?_
        unfold padVec
        split_ifs <;> rfl
    rw [e2]
    refine sum_le_sum fun l _ => ?_
    split_ifs
    · exact le_rfl
    · exact norm_nonneg _

/-! ## Nothing dropped -/

theorem exists_below {n : Nat} {D : Fin n → ℂ} (h : ∀ i, D i ≠ 0) : ∃ t0 : ℝ, 0 < t0 ∧ ∀ t < t0, ∀ i, t < ‖D i‖ := by
  rcases isEmpty_or_nonempty (Fin n) with he | he
  · exact ⟨1, one_pos, fun t _ i => (he.false i).elim⟩
  · obtain ⟨i0, h0⟩ := Finite.exists_min fun i => ‖D i‖
    exact ⟨‖D i0‖, norm_pos_iff.2 (h i0), fun t ht i => ht.trans_le (h0 i)⟩

/-- The stack after the slices `Bs`; the trial density matrix is `diagonal d`. -/
structure LInv (ss nb : Nat) (d : Fin m → ℂ) (Bs : List (Mat m)) (s : LSt m) : Prop where
  size : s.stackSize = ss
  len : s.left.length = nb
  bins : s.nbins = nb
  sl : s.nslices = nb * ss
  ts : s.timeSlice = Bs.length
  blk : s.block = Bs.length / ss
  cnt : s.counter = Bs.length % ss
  left : s.Dl = fun i => d i ^ (nb * ss - Bs.length)
  right : rightProd s = Stack.ordered Bs
  dr : ∀ i, s.Dr i ≠ 0
  det : (rightProd s).det ≠ 0

theorem midUpdate_congr {qr : QRPr} {t : ℝ} {BTinv : Mat m} {s : LSt m} {B : Mat m} {k l : Nat} (hk : k ≤ m) (hl : l ≤ m)
    (h : k = l) : midUpdate qr t BTinv s B k hk = midUpdate qr t BTinv s B l hl := by subst h; rfl

theorem endUpdate_congr {qr : QRPr} {t : ℝ} {BTinv : Mat m} {s : LSt m} {B : Mat m} {k l : Nat} (hk : k ≤ m) (hl : l ≤ m)
    (h : k = l) : endUpdate qr t BTinv s B k hk = endUpdate qr t BTinv s B l hl := by subst h; rfl

theorem first_all (s : LSt m) : firstProd s m le_rfl = rightProd s := rfl

theorem det_factors {Q T : Mat m} {D : Fin m → ℂ} (h : (Q * diagonal D * T).det ≠ 0) : Q.det ≠ 0 ∧ T.det ≠ 0 := by
  rw [det_mul, det_mul] at h
  exact ⟨left_ne_zero_of_mul (left_ne_zero_of_mul h), right_ne_zero_of_mul h⟩

/-- **C105 (an update without truncation)**: below some threshold an update keeps everything.  The stack then holds the
slice times what it held, overlap and Green's function are those of the whole product. -/
theorem update_exact {qr : QRPr} (hq : ∀ a b A, IsQRPr A (qr a b A).1 (qr a b A).2.1 (qr a b A).2.2) {ss nb : Nat}
    (hss : 0 < ss) {d : Fin m → ℂ} (hd : ∀ i, d i ≠ 0) {BTinv : Mat m} (hi : ∀ i, d i * BTinv i i = 1) {Bs : List (Mat m)}
    {s : LSt m} (hs : LInv ss nb d Bs s) (hl : Bs.length < nb * ss) {B : Mat m} (hB : B.det ≠ 0)
    (hA : (1 + diagonal d ^ (nb * ss - (Bs.length + 1)) * (B * Stack.ordered Bs)).det ≠ 0) :
    ∃ t0 : ℝ, 0 < t0 ∧ ∃ s', (∀ t < t0, updateLow qr t BTinv s B = some s') ∧ LInv ss nb d (Bs ++ [B]) s' ∧
      IsGreen (diagonal d ^ (nb * ss - (Bs.length + 1)) * (B * Stack.ordered Bs)) s'.ovlp s'.G := by
  have hDl : nextDl BTinv s.Dl = fun i => d i ^ (nb * ss - (Bs.length + 1)) := by
    funext i
    rw [nextDl, hs.left]
    have : nb * ss - Bs.length = nb * ss - (Bs.length + 1) + 1 := by omega
    simp only
    rw [this, pow_succ, mul_assoc, hi, mul_one]
  have hDl0 : ∀ i, nextDl BTinv s.Dl i ≠ 0 := by
    intro i; rw [hDl]; exact pow_ne_zero _ (hd i)
  have hdg : diagonal (nextDl BTinv s.Dl) = diagonal d ^ (nb * ss - (Bs.length + 1)) := by
    rw [hDl, diagonal_pow]; rfl
  have hblk : ¬ (s.counter = 0 ∧ s.left.length ≤ s.block) := by
    rintro ⟨-, h⟩
    rw [hs.len, hs.blk] at h
    exact absurd ((Nat.div_lt_iff_lt_mul hss).2 hl) (not_lt.2 h)
  obtain ⟨t1, ht1, h1⟩ := exists_below hs.dr
  obtain ⟨t2, ht2, h2⟩ := exists_below hDl0
  have hBX : (B * rightProd s).det ≠ 0 := by rw [det_mul]; exact mul_ne_zero hB hs.det
  have hTr := (det_factors hs.det).2
  by_cases hend : s.block < (s.timeSlice + 1) / s.stackSize
  · -- end of a bin
    have hcc : (ccr s B m le_rfl).det ≠ 0 := by
      have := ccr_mul s B m le_rfl
      rw [first_all] at this
      rw [← this, det_mul] at hBX
      exact left_ne_zero_of_mul hBX
    set f := qr m m (ccr s B m le_rfl) with hf
    have hne : ∀ i, rightDiag le_rfl f.2.1 i ≠ 0 := fun i => qr_diag_ne (hq m m _) hcc i
    have hprod := right_qr le_rfl (hq m m (ccr s B m le_rfl)) hne s.Tr
    have hr := end_right hq BTinv s B m le_rfl hne
    rw [first_all] at hr
    rw [ccr_mul, first_all] at hprod
    have hdet : (endC le_rfl f.1 f.2.1).det ≠ 0 ∧ (rightT le_rfl f.2.1 f.2.2 s.Tr).det ≠ 0 := by
      rw [← hprod, det_mul] at hBX
      exact ⟨left_ne_zero_of_mul hBX, right_ne_zero_of_mul hBX⟩
    obtain ⟨hd3, o, ho, hg⟩ := whole_spec hq hDl0 hdet.1 hdet.2 (by rw [hprod, hdg, hs.right]; exact hA)
    obtain ⟨t3, ht3, h3⟩ := exists_below hd3
    refine ⟨min t1 (min t2 t3), lt_min ht1 (lt_min ht2 ht3), tick ((endFactors qr BTinv s B m le_rfl).put o),
      fun t ht => ?_, ?_, ?_⟩
    · rw [updateLow, if_neg hblk, if_pos hend,
        endUpdate_congr (kept_le _ _) le_rfl (kept_all (h1 t (ht.trans_le (min_le_left _ _)))), endUpdate]
      rw [if_neg (by push Not; exact hne), lowGreen_whole (h2 t ?_) (h3 t ?_), ho]
      · rfl
      · exact ht.trans_le ((min_le_right _ _).trans (min_le_left _ _))
      · exact ht.trans_le ((min_le_right _ _).trans (min_le_right _ _))
    · refine ⟨hs.size, hs.len, hs.bins, hs.sl, ?_, ?_, ?_, ?_, ?_, ?_, ?_⟩
      · show s.timeSlice + 1 = _
        rw [hs.ts, List.length_append]; rfl
      · show (s.timeSlice + 1) / s.stackSize = _
        rw [hs.ts, hs.size, List.length_append]; rfl
      · show (s.counter + 1) % s.stackSize = _
        rw [hs.cnt, hs.size, Stack.mod_succ_eq, List.length_append]; rfl
      · show nextDl BTinv s.Dl = _
        rw [hDl, List.length_append]; rfl
      · exact hr.trans (by rw [hs.right, Stack.ordered_append])
      · intro i
        show padVec _ i ≠ 0
        unfold padVec
        rw [dif_pos i.2]
        exact hne i
      · show (rightProd (endFactors qr BTinv s B m le_rfl)).det ≠ 0
        rw [hr]; exact hBX
    · rw [hprod, hdg, hs.right] at hg
      exact hg
  · -- middle of a bin
    have hcc := ccr_mul s B m le_rfl
    rw [first_all] at hcc
    have hdet : (ccr s B m le_rfl).det ≠ 0 := by
      rw [← hcc, det_mul] at hBX
      exact left_ne_zero_of_mul hBX
    have hr := mid_right BTinv s B m le_rfl
    rw [first_all] at hr
    obtain ⟨hd3, o, ho, hg⟩ := whole_spec hq (T := rows le_rfl s.Tr) hDl0 hdet hTr (by rw [hcc, hdg, hs.right]; exact hA)
    obtain ⟨t3, ht3, h3⟩ := exists_below hd3
    refine ⟨min t1 (min t2 t3), lt_min ht1 (lt_min ht2 ht3), tick ((midFactors BTinv s B m le_rfl).put o),
      fun t ht => ?_, ?_, ?_⟩
    · rw [updateLow, if_neg hblk, if_neg hend,
        midUpdate_congr (kept_le _ _) le_rfl (kept_all (h1 t (ht.trans_le (min_le_left _ _)))), midUpdate,
        lowGreen_whole (h2 t ?_) (h3 t ?_), ho]
      · rfl
      · exact ht.trans_le ((min_le_right _ _).trans (min_le_left _ _))
      · exact ht.trans_le ((min_le_right _ _).trans (min_le_right _ _))
    · refine ⟨hs.size, hs.len, hs.bins, hs.sl, ?_, ?_, ?_, ?_, ?_, hs.dr, ?_⟩
      · show s.timeSlice + 1 = _
        rw [hs.ts, List.length_append]; rfl
      · show (s.timeSlice + 1) / s.stackSize = _
        rw [hs.ts, hs.size, List.length_append]; rfl
      · show (s.counter + 1) % s.stackSize = _
        rw [hs.cnt, hs.size, Stack.mod_succ_eq, List.length_append]; rfl
      · show nextDl BTinv s.Dl = _
        rw [hDl, List.length_append]; rfl
      · exact hr.trans (by rw [hs.right, Stack.ordered_append])
      · show (rightProd (midFactors BTinv s B m le_rfl)).det ≠ 0
        rw [hr]; exact hBX
    · rw [hcc, hdg, hs.right] at hg
      exact hg

end Verif.LowRank
