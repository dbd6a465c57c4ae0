import Verif.Thermal.Exist
import Verif.Stack.Props

/-!
# Thermal Green's functions: properties C19, C20, C64
-/

namespace Verif.Thermal

open Matrix

variable {n : Nat}

/-! ## C19: every Green's function routine computes `(1 + A)⁻¹` -/

/-- The cyclic product of the bins that the routines with a slice argument refer to: the bin after
the one of the slice acts first, the bin of the slice acts last. -/
noncomputable def cyclicProduct (bins : List (Mat n)) (first : Nat) : Mat n :=
  (bins.rotate first).reverse.prod

theorem cyclicProduct_zero (bins : List (Mat n)) : cyclicProduct bins 0 = bins.reverse.prod := by
  simp [cyclicProduct]

/-- C19 (stratified, pivoted QR): the Green's function at a slice is the inverse of one plus the
cyclic product of the bins starting after the bin of the slice (from the first bin when the slice
is the number of slices). -/
theorem gfStrat_eq (qrp : Mat n → Mat n × Mat n × Equiv.Perm (Fin n))
    (hq : ∀ A, IsQRP A (qrp A).1 (qrp A).2.1 (qrp A).2.2) (bins : List (Mat n)) (hb : bins ≠ [])
    (hinv : ∀ B ∈ bins, B.det ≠ 0) (ss sl : Nat)
    (hG : (1 + cyclicProduct bins (startBin bins.length ss sl)).det ≠ 0) :
    gfStrat qrp bins ss sl = (1 + cyclicProduct bins (startBin bins.length ss sl))⁻¹ := by
  have ho := order_eq hb ss sl
  have hmem : ∀ B ∈ getBin bins (cyc bins.length (binIx bins.length ss sl) 1) ::
      rest bins (binIx bins.length ss sl), B.det ≠ 0 := by
    rw [ho]; intro B hB; exact hinv B (List.mem_rotate.1 hB)
  have hg := foldl_good hq (rest bins (binIx bins.length ss sl)) _ _
    (stratFirst_good hq (hmem _ List.mem_cons_self)) (fun B hB => hmem B (by simp [hB]))
  have hA : (rest bins (binIx bins.length ss sl)).reverse.prod *
      getBin bins (cyc bins.length (binIx bins.length ss sl) 1) =
      cyclicProduct bins (startBin bins.length ss sl) := by
    rw [cyclicProduct, ← ho]; simp
  rw [hA] at hg
  unfold gfStrat
  simp only [splitDead_eq]
  exact stratG_eq hg (by simp) (by simp) hG

/-- C19 (plain QR). -/
theorem gfQR_eq (qr : Mat n → Mat n × Mat n) (hq : ∀ A, IsQR A (qr A).1 (qr A).2)
    (bins : List (Mat n)) (hb : bins ≠ []) (hinv : ∀ B ∈ bins, B.det ≠ 0) (ss sl : Nat)
    (hG : (1 + cyclicProduct bins (startBin bins.length ss sl)).det ≠ 0) :
    gfQR qr bins ss sl = (1 + cyclicProduct bins (startBin bins.length ss sl))⁻¹ := by
  have ho := order_eq hb ss sl
  have hg := foldl_goodQR hq (rest bins (binIx bins.length ss sl)) _ _
    (⟨(hq _).unitary, (hq _).upper, (hq _).eq.symm⟩ :
      GoodQR (getBin bins (cyc bins.length (binIx bins.length ss sl) 1)) (qr _))
  have hA : (rest bins (binIx bins.length ss sl)).reverse.prod *
      getBin bins (cyc bins.length (binIx bins.length ss sl) 1) =
      cyclicProduct bins (startBin bins.length ss sl) := by
    rw [cyclicProduct, ← ho]; simp
  rw [hA] at hg
  refine qrG_eq hq hg ?_ hG
  have hl : ∀ l : List (Mat n), (∀ B ∈ l, B.det ≠ 0) → l.prod.det ≠ 0 := by
    intro l
    induction l with
    | nil => simp
    | cons B l ih =>
      intro h
      rw [List.prod_cons, det_mul]
      exact mul_ne_zero (h B (by simp)) (ih fun C hC => h C (by simp [hC]))
  refine hl _ fun B hB => hinv B ?_
  rw [List.mem_reverse, List.mem_rotate] at hB
  exact hB

/-- C19 (SVD); the bins need not be invertible. -/
theorem gfSVD_eq (svd : Mat n → USV n) (hq : ∀ A, IsSVD A (svd A).U (svd A).S (svd A).V)
    (bins : List (Mat n)) (hb : bins ≠ []) (ss sl : Nat)
    (hG : (1 + cyclicProduct bins (startBin bins.length ss sl)).det ≠ 0) :
    gfSVD svd bins ss sl = (1 + cyclicProduct bins (startBin bins.length ss sl))⁻¹ := by
  have ho := order_eq hb ss sl
  have hg := foldl_goodSVD hq (rest bins (binIx bins.length ss sl)) _ _
    (⟨(hq _).unitaryU, (hq _).unitaryV, (hq _).eq.symm⟩ :
      GoodSVD (getBin bins (cyc bins.length (binIx bins.length ss sl) 1)) (svd _))
  have hA : (rest bins (binIx bins.length ss sl)).reverse.prod *
      getBin bins (cyc bins.length (binIx bins.length ss sl) 1) =
      cyclicProduct bins (startBin bins.length ss sl) := by
    rw [cyclicProduct, ← ho]; simp
  rw [hA] at hg
  exact svdG_eq hq hg hG

/-- C19 (`greens_function(A)`). -/
theorem gfOfA_eq (svd : Mat n → USV n) (hq : ∀ A, IsSVD A (svd A).U (svd A).S (svd A).V)
    (A : Mat n) (hG : (1 + A).det ≠ 0) : gfOfA svd A = (1 + A)⁻¹ :=
  svdG_eq hq ⟨(hq _).unitaryU, (hq _).unitaryV, (hq _).eq.symm⟩ hG

/-- C19 (`one_rdm_stable`): `1 - [(1 + B^L)⁻¹]ᵀ`. -/
theorem oneRdmStable_eq (qrp : Mat n → Mat n × Mat n × Equiv.Perm (Fin n))
    (hq : ∀ A, IsQRP A (qrp A).1 (qrp A).2.1 (qrp A).2.2) (BT : Mat n) (hB : BT.det ≠ 0)
    (L : Nat) (hL : 0 < L) (hG : (1 + BT ^ L).det ≠ 0) :
    oneRdmStable qrp BT L = 1 - ((1 + BT ^ L)⁻¹)ᵀ := by
  have hg := foldl_good hq (List.replicate (L - 1) BT) _ _ (stratFirst_good hq hB)
    (fun B h => by rw [List.eq_of_mem_replicate h]; exact hB)
  have hA : (List.replicate (L - 1) BT).reverse.prod * BT = BT ^ L := by
    rw [List.reverse_replicate, List.prod_replicate, ← pow_succ, Nat.sub_add_cancel hL]
  rw [hA] at hg
  unfold oneRdmStable
  simp only [splitDead_eq]
  rw [stratG_eq hg (by simp) (by simp) hG]

/-! ### Left-right scheme -/

theorem foldl_diag (l : List (Mat n)) : ∀ (D : Fin n → ℂ),
    (∀ B ∈ l, ∃ d : Fin n → ℂ, B = diagonal d) →
    diagonal (l.foldl (fun D B => fun i => B i i * D i) D) = l.reverse.prod * diagonal D := by
  induction l with
  | nil => intro D _; simp
  | cons B l ih =>
    intro D h
    obtain ⟨d, rfl⟩ := h _ List.mem_cons_self
    rw [List.foldl_cons, ih _ (fun C hC => h C (by simp [hC]))]
    rw [List.reverse_cons, List.prod_append, List.prod_singleton, Matrix.mul_assoc,
      diagonal_mul_diagonal]
    simp

theorem map_getBin (bins : List (Mat n)) (a k : Nat) (h : a + k ≤ bins.length) :
    (List.range k).map (fun i => getBin bins (a + i)) = (bins.drop a).take k := by
  apply List.ext_getElem
  · simp; omega
  · intro i h1 h2
    simp only [List.length_map, List.length_range] at h1
    rw [List.getElem_map, List.getElem_range, List.getElem_take, List.getElem_drop]
    unfold getBin
    rw [List.getD_eq_getElem?_getD, List.getElem?_eq_getElem (by omega)]
    rfl

theorem getBin_eq (bins : List (Mat n)) {a : Nat} (h : a < bins.length) :
    getBin bins a = bins[a] := by
  unfold getBin
  rw [List.getD_eq_getElem?_getD, List.getElem?_eq_getElem h]; rfl

theorem leftPart_eq (bins : List (Mat n)) (c : Nat) (hc : c + 1 < bins.length)
    (hdiag : ∀ B ∈ bins.drop (c + 1), ∃ d : Fin n → ℂ, B = diagonal d) :
    diagonal (leftPart bins c) = (bins.drop (c + 1)).reverse.prod := by
  unfold leftPart
  have hsplit : bins.drop (c + 1) = bins[c + 1] :: bins.drop (c + 2) :=
    List.drop_eq_getElem_cons hc
  rw [map_getBin bins (c + 2) _ (by omega), List.take_of_length_le (by simp), foldl_diag]
  · obtain ⟨d, hd⟩ := hdiag bins[c + 1] (hsplit ▸ List.mem_cons_self)
    rw [hsplit, List.reverse_cons, List.prod_append, List.prod_singleton, getBin_eq bins hc, hd]
    simp
  · intro B hB
    exact hdiag B (by rw [hsplit]; exact List.mem_cons_of_mem _ hB)

/-- C19 (left-right scheme): with every bin invertible and the bins after the centre diagonal (the
trial propagator of a diagonal trial), the Green's function is the inverse of one plus the ordered
product of all bins; the result does not depend on the centre. -/
theorem gfLeftRight_eq (qrp : Mat n → Mat n × Mat n × Equiv.Perm (Fin n))
    (hq : ∀ A, IsQRP A (qrp A).1 (qrp A).2.1 (qrp A).2.2) (bins : List (Mat n)) (c : Nat)
    (hc : c < bins.length) (hinv : ∀ B ∈ bins, B.det ≠ 0)
    (hdiag : ∀ B ∈ bins.drop (c + 1), ∃ d : Fin n → ℂ, B = diagonal d)
    (hG : (1 + bins.reverse.prod).det ≠ 0) :
    gfLeftRight qrp bins c = (1 + bins.reverse.prod)⁻¹ := by
  have hgc : ∀ i, i < bins.length → (getBin bins i).det ≠ 0 := by
    intro i hi; rw [getBin_eq bins hi]; exact hinv _ (List.getElem_mem hi)
  have h1 : Good (bins.take (c + 1)).reverse.prod
      (if 0 < c then stratStep qrp (rightPart qrp bins c) (getBin bins c)
        else stratFirst qrp (getBin bins c)) := by
    split_ifs with h0
    · have hr : Good (bins.take c).reverse.prod (rightPart qrp bins c) := by
        have := foldl_good hq ((List.range (c - 1)).map (fun i => getBin bins (i + 1))) _ _
          (stratFirst_good hq (hgc 0 (by omega))) (by
            intro B hB
            obtain ⟨i, hi, rfl⟩ := List.mem_map.1 hB
            exact hgc _ (by rw [List.mem_range] at hi; omega))
        have e : (List.range (c - 1)).map (fun i => getBin bins (i + 1)) =
            (bins.drop 1).take (c - 1) := by
          rw [← map_getBin bins 1 (c - 1) (by omega)]
          congr 1; funext i; rw [Nat.add_comm]
        have e2 : (((bins.drop 1).take (c - 1)).reverse.prod * getBin bins 0) =
            (bins.take c).reverse.prod := by
          obtain ⟨c, rfl⟩ := Nat.exists_eq_succ_of_ne_zero h0.ne'
          cases bins with
          | nil => simp at hc
          | cons B l => simp [getBin]
        unfold rightPart
        rw [e] at this ⊢
        rw [e2] at this
        exact this
      have := stratStep_good hq hr (hgc c hc)
      rw [← List.take_append_getElem hc, List.reverse_append, List.prod_append]
      simpa [getBin_eq bins hc] using this
    · have hc0 : c = 0 := by omega
      subst hc0
      have := stratFirst_good hq (hgc 0 hc)
      rw [← List.take_append_getElem hc]
      simpa [getBin_eq bins hc] using this
  have h2 : Good bins.reverse.prod
      (if c < bins.length - 1 then
        stratStep qrp (if 0 < c then stratStep qrp (rightPart qrp bins c) (getBin bins c)
          else stratFirst qrp (getBin bins c)) (diagonal (leftPart bins c))
      else (if 0 < c then stratStep qrp (rightPart qrp bins c) (getBin bins c)
        else stratFirst qrp (getBin bins c))) := by
    split_ifs with hl h0 h0
    all_goals simp only [h0, if_true, if_false] at h1
    · have := stratStep_good hq (B := diagonal (leftPart bins c)) h1 (by
        rw [leftPart_eq bins c (by omega) hdiag]
        have : ∀ l : List (Mat n), (∀ B ∈ l, B.det ≠ 0) → l.prod.det ≠ 0 := by
          intro l
          induction l with
          | nil => simp
          | cons B l ih =>
            intro h
            rw [List.prod_cons, det_mul]
            exact mul_ne_zero (h B (by simp)) (ih fun C hC => h C (by simp [hC]))
        refine this _ fun B hB => hinv B ?_
        exact List.mem_of_mem_drop (List.mem_reverse.1 hB))
      rw [leftPart_eq bins c (by omega) hdiag, ← List.prod_append, ← List.reverse_append,
        List.take_append_drop, ← leftPart_eq bins c (by omega) hdiag] at this
      exact this
    · have := stratStep_good hq (B := diagonal (leftPart bins c)) h1 (by
        rw [leftPart_eq bins c (by omega) hdiag]
        have : ∀ l : List (Mat n), (∀ B ∈ l, B.det ≠ 0) → l.prod.det ≠ 0 := by
          intro l
          induction l with
          | nil => simp
          | cons B l ih =>
            intro h
            rw [List.prod_cons, det_mul]
            exact mul_ne_zero (h B (by simp)) (ih fun C hC => h C (by simp [hC]))
        refine this _ fun B hB => hinv B ?_
        exact List.mem_of_mem_drop (List.mem_reverse.1 hB))
      rw [leftPart_eq bins c (by omega) hdiag, ← List.prod_append, ← List.reverse_append,
        List.take_append_drop, ← leftPart_eq bins c (by omega) hdiag] at this
      exact this
    · rwa [List.take_of_length_le (by omega)] at h1
    · rwa [List.take_of_length_le (by omega)] at h1
  unfold gfLeftRight
  exact stratG_eq h2 (splitLive_ne n _) (splitLive_mul n _ h2.real) hG

/-- Factorisation functions for the examples. -/
noncomputable def someQR (A : Mat n) : Mat n × Mat n :=
  ((exists_qr A).choose, (exists_qr A).choose_spec.choose)

theorem someQR_spec (A : Mat n) : IsQR A (someQR A).1 (someQR A).2 :=
  (exists_qr A).choose_spec.choose_spec

/-- Pivoted QR for the examples. -/
noncomputable def someQRP (A : Mat n) : Mat n × Mat n × Equiv.Perm (Fin n) :=
  ((exists_qrp A).choose, (exists_qrp A).choose_spec.choose,
    (exists_qrp A).choose_spec.choose_spec.choose)

theorem someQRP_spec (A : Mat n) : IsQRP A (someQRP A).1 (someQRP A).2.1 (someQRP A).2.2 :=
  (exists_qrp A).choose_spec.choose_spec.choose_spec

/-- SVD for the examples. -/
noncomputable def someSVD (A : Mat n) : USV n :=
  ⟨(exists_svd A).choose, (exists_svd A).choose_spec.choose,
    (exists_svd A).choose_spec.choose_spec.choose⟩

theorem someSVD_spec (A : Mat n) : IsSVD A (someSVD A).U (someSVD A).S (someSVD A).V :=
  (exists_svd A).choose_spec.choose_spec.choose_spec

/-- A pair of invertible non-commuting bins with `1 + A` invertible. -/
def exBins : List (Mat 2) := [!![1, 1; 0, 1], !![1, 0; 1, 2]]

theorem exBins_det : ∀ B ∈ exBins, B.det ≠ 0 := by
  intro B hB
  simp only [exBins, List.mem_cons, List.not_mem_nil, or_false] at hB
  rcases hB with rfl | rfl <;> simp [Matrix.det_fin_two]

theorem exBins_green : (1 + cyclicProduct exBins 1).det ≠ 0 := by
  have : cyclicProduct exBins 1 = !![1, 1; 0, 1] * !![1, 0; 1, 2] := by
    simp [cyclicProduct, exBins]
  rw [this, Matrix.det_fin_two]
  simp [Matrix.mul_apply, Fin.sum_univ_two]
  norm_num

example : gfStrat someQRP exBins 3 2 = (1 + cyclicProduct exBins 1)⁻¹ ∧
    gfQR someQR exBins 3 2 = (1 + cyclicProduct exBins 1)⁻¹ ∧
    gfSVD someSVD exBins 3 2 = (1 + cyclicProduct exBins 1)⁻¹ :=
  ⟨gfStrat_eq someQRP someQRP_spec exBins (by simp [exBins]) exBins_det 3 2 exBins_green,
   gfQR_eq someQR someQR_spec exBins (by simp [exBins]) exBins_det 3 2 exBins_green,
   gfSVD_eq someSVD someSVD_spec exBins (by simp [exBins]) 3 2 exBins_green⟩

example : gfLeftRight someQRP ([!![1, 1; 0, 1], !![2, 0; 0, 3]] : List (Mat 2)) 0 =
    (1 + ([!![1, 1; 0, 1], !![2, 0; 0, 3]] : List (Mat 2)).reverse.prod)⁻¹ := by
  refine gfLeftRight_eq someQRP someQRP_spec _ 0 (by simp) ?_ ?_ ?_
  · intro B hB
    simp only [List.mem_cons, List.not_mem_nil, or_false] at hB
    rcases hB with rfl | rfl <;> simp [Matrix.det_fin_two]
  · intro B hB
    simp only [List.drop_succ_cons, List.drop_zero, List.mem_cons, List.not_mem_nil,
      or_false] at hB
    refine ⟨![2, 3], ?_⟩
    rw [hB]; ext i j; fin_cases i <;> fin_cases j <;> simp
  · simp [Matrix.det_fin_two, Matrix.mul_apply, Fin.sum_univ_two]
    norm_num

/-! ## C20: the inverse Green's function -/

/-- C20 (QR): `inverse_greens_function_qr(A)` is `1 + A`. -/
theorem invGreensQR_eq (qr : Mat n → Mat n × Mat n) (hq : ∀ A, IsQR A (qr A).1 (qr A).2)
    (A : Mat n) (hA : A.det ≠ 0) : invGreensQR qr A = 1 + A :=
  qrFinal hq (s := qr A) ⟨(hq _).unitary, (hq _).upper, (hq _).eq.symm⟩ hA

/-- What `inverse_greens_function(A)` computes: the conjugate transpose of `1 + A`. -/
theorem invGreens_eq (svd : Mat n → USV n) (hq : ∀ A, IsSVD A (svd A).U (svd A).S (svd A).V)
    (A : Mat n) : invGreens svd A = (1 + A)ᴴ := by
  have hf := svdFinal hq (s := svd A) (A := A) ⟨(hq _).unitaryU, (hq _).unitaryV, (hq _).eq.symm⟩
  rw [← hf]
  unfold invGreens
  have hd : ∀ S : Fin n → ℝ, (cdiag S)ᴴ = cdiag S := by
    intro S
    rw [cdiag, diagonal_conjTranspose]
    congr 1; funext i; simp
  simp only [conjTranspose_mul, hd, Matrix.mul_assoc]

/-- C20: `inverse_greens_function(A)` is `1 + A` exactly for Hermitian `A`. -/
theorem invGreens_partial (svd : Mat n → USV n)
    (hq : ∀ A, IsSVD A (svd A).U (svd A).S (svd A).V) (A : Mat n) :
    invGreens svd A = 1 + A ↔ A.IsHermitian := by
  rw [invGreens_eq svd hq, conjTranspose_add, conjTranspose_one]
  exact ⟨fun h => add_left_cancel h, fun h => by rw [h.eq]⟩

/-- C20 is violated in every dimension above zero, and even for real matrices above one: the
inverse of the Green's function that `greens_function` returns for the same `A` differs from
`inverse_greens_function(A)`. -/
theorem invGreens_wrong (svd : Mat 2 → USV 2)
    (hq : ∀ A, IsSVD A (svd A).U (svd A).S (svd A).V) :
    ∃ A : Mat 2, (∀ i j, (A i j).im = 0) ∧ (1 + A).det ≠ 0 ∧ invGreens svd A ≠ 1 + A ∧
      gfOfA svd A * invGreens svd A ≠ 1 := by
  have hdet : (1 + (!![0, 1; 0, 0] : Mat 2)).det ≠ 0 := by simp [Matrix.det_fin_two]
  have hne : invGreens svd !![0, 1; 0, 0] ≠ 1 + !![0, 1; 0, 0] := by
    rw [Ne, invGreens_partial svd hq]
    intro h
    have := congrFun (congrFun h 0) 1
    simp [Matrix.conjTranspose_apply] at this
  refine ⟨!![0, 1; 0, 0], ?_, hdet, hne, ?_⟩
  · intro i j; fin_cases i <;> fin_cases j <;> simp
  · rw [gfOfA_eq svd hq _ hdet]
    intro h
    apply hne
    have h2 := congrArg (fun X => (1 + !![0, 1; 0, 0]) * X) h
    simp only [mul_one] at h2
    rwa [← Matrix.mul_assoc, Matrix.mul_nonsing_inv _ (isUnit_iff_ne_zero.2 hdet), one_mul] at h2

example : ∀ A, IsSVD A (someSVD (n := 2) A).U (someSVD A).S (someSVD A).V := someSVD_spec

/-! ## C64: low-rank form -/

/-- C64: for a truncated factorisation `Q diag(D) T` with real `D`, the Green's function of the
low-rank routines is the inverse of `1 + Q diag(D) T`. -/
theorem woodburyG_eq {k : Nat} (Q : Matrix (Fin n) (Fin k) ℂ) (D : Fin k → ℂ)
    (T : Matrix (Fin k) (Fin n) ℂ) (hD : ∀ i, (D i).im = 0) (hTQ : (T * Q).det ≠ 0)
    (hG : (1 + Q * diagonal D * T).det ≠ 0) :
    woodburyG Q D T = (1 + Q * diagonal D * T)⁻¹ := by
  have hu : IsUnit (T * Q).det := isUnit_iff_ne_zero.2 hTQ
  set E := diagonal (splitLive D).1 with hE
  have hEdet : E.det ≠ 0 := by
    rw [hE, det_diagonal]; exact Finset.prod_ne_zero_iff.2 fun i _ => splitLive_ne k D i
  have hF : diagonal (splitLive D).2 = E * diagonal D := by
    rw [hE, diagonal_mul_diagonal]; congr 1; funext i; exact splitLive_mul k D hD i
  have hF' : diagonal (splitLive D).2 = diagonal D * E := by
    rw [hF, hE, diagonal_mul_diagonal, diagonal_mul_diagonal]; congr 1; funext i; ring
  -- the inner matrix
  have hin : ((T * Q)⁻¹ * E + diagonal (splitLive D).2) =
      (T * Q)⁻¹ * (1 + T * Q * diagonal D) * E := by
    rw [hF', mul_add, mul_one, ← Matrix.mul_assoc (T * Q)⁻¹, Matrix.nonsing_inv_mul _ hu, one_mul,
      add_mul]
  have hM : (1 + T * Q * diagonal D).det ≠ 0 := by
    have := Matrix.det_one_add_mul_comm (Q * diagonal D) T
    rw [this, ← Matrix.mul_assoc] at hG
    exact hG
  have huM : IsUnit (1 + T * Q * diagonal D).det := isUnit_iff_ne_zero.2 hM
  have hA : E * (((T * Q)⁻¹ * E + diagonal (splitLive D).2)⁻¹ * (T * Q)⁻¹) =
      (1 + T * Q * diagonal D)⁻¹ := by
    rw [hin, Matrix.mul_inv_rev, Matrix.mul_inv_rev, Matrix.nonsing_inv_nonsing_inv _ hu]
    rw [← Matrix.mul_assoc, ← Matrix.mul_assoc, Matrix.mul_nonsing_inv _
      (isUnit_iff_ne_zero.2 hEdet), one_mul, Matrix.mul_assoc, Matrix.mul_nonsing_inv _ hu, mul_one]
  unfold woodburyG
  simp only
  rw [← hE, hA]
  refine (Matrix.inv_eq_left_inv ?_).symm
  have hc : (1 + T * Q * diagonal D)⁻¹ * (T * (1 + Q * diagonal D * T)) = T := by
    have : T * (1 + Q * diagonal D * T) = (1 + T * Q * diagonal D) * T := by
      rw [Matrix.mul_add, Matrix.add_mul, Matrix.mul_one, Matrix.one_mul]; simp only [Matrix.mul_assoc]
    rw [this, ← Matrix.mul_assoc, Matrix.nonsing_inv_mul _ huM, Matrix.one_mul]
  rw [sub_mul, one_mul]
  have : Q * diagonal D * (1 + T * Q * diagonal D)⁻¹ * T * (1 + Q * diagonal D * T) =
      Q * diagonal D * T := by
    rw [Matrix.mul_assoc, Matrix.mul_assoc (Q * diagonal D), hc]
  rw [this]; simp

/-- C64: the overlap of the low-rank routines is `det(1 + Q diag(D) T)`. -/
theorem woodburyOvlp_eq {k : Nat} (Q : Matrix (Fin n) (Fin k) ℂ) (D : Fin k → ℂ)
    (T : Matrix (Fin k) (Fin n) ℂ) (hD : ∀ i, (D i).im = 0) (hTQ : (T * Q).det ≠ 0) :
    woodburyOvlp Q D T = (1 + Q * diagonal D * T).det := by
  have hu : IsUnit (T * Q).det := isUnit_iff_ne_zero.2 hTQ
  have hF' : diagonal (splitLive D).2 = diagonal D * diagonal (splitLive D).1 := by
    rw [diagonal_mul_diagonal]; congr 1; funext i; rw [splitLive_mul k D hD i]; ring
  have hEE : diagonal (splitLive D).1 * diagonal (fun i => 1 / (splitLive D).1 i) = 1 := by
    rw [diagonal_mul_diagonal, ← diagonal_one]
    congr 1; funext i
    exact mul_one_div_cancel (splitLive_ne k D i)
  unfold woodburyOvlp
  simp only
  rw [hF', ← add_mul, Matrix.mul_assoc _ _ (diagonal fun i => 1 / (splitLive D).1 i), hEE, mul_one,
    det_mul, mul_comm, ← det_mul, mul_add, Matrix.mul_nonsing_inv _ hu,
    det_one_add_mul_comm (Q * diagonal D) T, ← Matrix.mul_assoc]

example : ∃ (Q : Matrix (Fin 2) (Fin 1) ℂ) (D : Fin 1 → ℂ) (T : Matrix (Fin 1) (Fin 2) ℂ),
    (∀ i, (D i).im = 0) ∧ (T * Q).det ≠ 0 ∧ (1 + Q * diagonal D * T).det ≠ 0 ∧
      Q * diagonal D * T ≠ 0 := by
  have e : (!![1; 0] : Matrix (Fin 2) (Fin 1) ℂ) * diagonal (fun _ : Fin 1 => (2 : ℂ)) * (!![1, 1] : Matrix (Fin 1) (Fin 2) ℂ) =
      !![2, 2; 0, 0] := by
    ext i j
    rw [Matrix.mul_apply, Fin.sum_univ_one, mul_diagonal]
    fin_cases i <;> fin_cases j <;> simp
  refine ⟨!![1; 0], fun _ => 2, !![1, 1], by simp, by simp, ?_, ?_⟩
  · rw [e]
    simp [Matrix.det_fin_two]
    norm_num
  · rw [e]
    intro h
    have := congrFun (congrFun h 0) 0
    simp at this

end Verif.Thermal
