import Verif.LowRank.Run
import Verif.LowRank.Exist

/-!
# Where the low-rank option differs

With `free_projection` the low-rank propagator takes phaseless steps.  Between two paths the overlaps and Green's functions of
the stack are not reset, so the first step of a later path starts from those of the path before.  The free low-rank step
updates the stack twice.  The truncation keeps the first rows, not the largest ones.
-/

namespace Verif.LowRank

open Matrix Finset
open Verif.Thermal (Mat gfStrat)
open Verif.Stack (FullInv DiagOk ordered)
open Verif.Weights (cfb cmf rescale)
open Verif.Grand (Setup Par SetupOk ParOk phSetup newPh runPh rdm sliceOfB newWalker freeStep)

variable {nx m : Nat}

/-! ## A concrete system -/

/-- No force bias. -/
def zeroBias : (Fin 2 → Mat m) → Fin nx → ℂ := fun _ _ => 0

/-- One field coupled to `V`, trial density matrix `diagonal d` in every slice, first-order exponentials. -/
noncomputable def exPar {m : Nat} (V : Mat m) (d : Fin m → ℂ) : Par 1 m where
  scheme := .total
  BTinv := fun _ => diagonal fun i => (d i)⁻¹
  diag := true
  qrp := Thermal.someQRP
  order := 1
  dt := 1
  tab := ⟨fun _ => 0, 0, fun _ => 1, fun x _ => x 0 • V⟩

theorem exPar_ok (V : Mat m) {d : Fin m → ℂ} (hd : ∀ i, d i ≠ 0) {ss : Nat} (hs : 0 < ss) :
    ParOk (exPar V d) (fun _ => diagonal d) ss := by
  refine ⟨⟨Thermal.someQRP_spec, hs, fun _ => ?_, fun _ _ => ⟨d, rfl⟩, fun _ _ => ⟨_, rfl⟩, fun _ _ => ⟨d, rfl⟩⟩,
    fun _ _ => ⟨fun _ => 1, diagonal_one.symm⟩⟩
  show diagonal d * diagonal (fun i => (d i)⁻¹) = 1
  rw [diagonal_mul_diagonal, ← diagonal_one]
  congr 1
  funext i
  exact mul_inv_cancel₀ (hd i)

theorem rescale_zero : rescale 0 = 0 := by simp [rescale]

theorem zeroBias_eq (BT : Fin 2 → Mat m) (L : Nat) (Bs : Fin 2 → List (Mat m)) :
    biasOf (zeroBias : _ → Fin nx → ℂ) BT L Bs = fun _ => 0 := by
  funext i
  exact rescale_zero

theorem exPar_slice (V : Mat m) (d : Fin m → ℂ) (xi : Fin 1 → ℝ) (s : Fin 2) :
    sliceOfB (exPar V d) (fun _ => 0) xi s = 1 + (xi 0 : ℂ) • V := by
  have e : Slater.applyExponential 1 ((xi 0 : ℂ) • V) (1 : Mat m) = 1 + (xi 0 : ℂ) • V := by
    unfold Slater.applyExponential
    simp
  unfold sliceOfB exPar Weights.xshifted
  simp only [sub_zero, Grand.slab]
  rw [e]
  ext i j
  simp

theorem exPar_more (V : Mat m) (d : Fin m → ℂ) (BT : Fin 2 → Mat m) (L : Nat) (Bs : Fin 2 → List (Mat m)) (xi : Fin 1 → ℝ) :
    more (exPar V d) zeroBias BT L Bs xi = fun s => Bs s ++ [1 + (xi 0 : ℂ) • V] := by
  funext s
  rw [more, zeroBias_eq, exPar_slice]

theorem exPar_cmf (V : Mat m) (d : Fin m → ℂ) (xi : Fin 1 → ℝ) (b : Fin 1 → ℂ) :
    cmf (exPar V d).dt (exPar V d).tab.mfShift xi b = 0 := by
  simp [cmf, exPar]

theorem cfb_zero (xi : Fin nx → ℝ) : cfb xi (fun _ => 0) = 0 := by simp [cfb]

/-- Two orbitals, slices that do not commute with the trial density matrix: the hypotheses of `lowRank_full` are met. -/
theorem exPar_regular : Regular (exPar !![0, 1; 1, 0] ![1 / 2, 1 / 4]) zeroBias (fun _ => diagonal ![1 / 2, 1 / 4]) (1 * 2)
    [fun _ => 2, fun _ => 3] fun _ => [] := by
  have hd : ∀ k : Nat, (diagonal ![1 / 2, 1 / 4] : Mat 2) ^ k = !![(1 / 2) ^ k, 0; 0, (1 / 4) ^ k] := by
    intro k
    rw [diagonal_pow]
    ext i j
    fin_cases i <;> fin_cases j <;> simp
  refine ⟨?_, ?_, ?_, ?_, ?_⟩
  · rw [detOf, whole_nil, whole_nil, hd]
    refine mul_self_ne_zero.2 ?_
    rw [det_fin_two]
    norm_num
  · intro s
    rw [zeroBias_eq, exPar_slice, det_fin_two]
    norm_num
  · rw [exPar_more, detOf]
    refine mul_ne_zero ?_ ?_ <;>
    · simp only [whole, ordered, List.nil_append, List.length_singleton, List.reverse_singleton, List.prod_singleton]
      rw [hd, det_fin_two]
      simp only [Matrix.mul_apply, Fin.sum_univ_two, Matrix.add_apply, Matrix.one_apply, Matrix.smul_apply]
      norm_num
  · intro s
    rw [zeroBias_eq, exPar_slice, det_fin_two]
    norm_num
  · rw [Regular, exPar_more, exPar_more, detOf]
    refine mul_ne_zero ?_ ?_ <;>
    · simp only [whole, ordered, List.nil_append, List.length_append, List.length_singleton, List.reverse_append,
        List.reverse_singleton, List.prod_append, List.prod_singleton]
      rw [hd, det_fin_two]
      simp only [Matrix.mul_apply, Fin.sum_univ_two, Matrix.add_apply, Matrix.one_apply, Matrix.smul_apply]
      norm_num

example : ∃ t0 : ℝ, 0 < t0 ∧ ∃ v w, (newPh (phSetup (exPar !![0, 1; 1, 0] ![1 / 2, 1 / 4])) (fun _ => diagonal ![1 / 2, 1 / 4])
      2 (2 * 1) 1).bind (runPh (exPar !![0, 1; 1, 0] ![1 / 2, 1 / 4]) 1 zeroBias [fun _ => 2, fun _ => 3]) = some v ∧
    (∀ t < t0, (newLow (exPar !![0, 1; 1, 0] ![1 / 2, 1 / 4]).toSetup (fun _ => diagonal ![1 / 2, 1 / 4]) 2 (2 * 1) 1).bind
      (runLow someQRPr t (exPar !![0, 1; 1, 0] ![1 / 2, 1 / 4]) 1 zeroBias [fun _ => 2, fun _ => 3]) = some w) ∧
    w.weight = v.weight ∧ w.G = v.G := by
  obtain ⟨t0, h0, v, w, h1, h2, h3, -, -, h4, -⟩ := lowRank_full someQRPr_spec (nb := 1)
    (exPar_ok !![0, 1; 1, 0] (d := ![1 / 2, 1 / 4]) (fun i => by fin_cases i <;> norm_num) (ss := 2) (by norm_num)) rfl
    one_pos 1 zeroBias 1 [fun _ => 2, fun _ => 3] (by norm_num) exPar_regular
  exact ⟨t0, h0, v, w, h1, h2, h3, h4⟩

/-! ## Free projection -/

theorem whole_scalar (L : Nat) (b : ℂ) (s : Fin 2) :
    whole (fun _ => diagonal fun _ : Fin 1 => (1 : ℂ)) L (fun _ => [diagonal fun _ => b]) s = diagonal fun _ => b := by
  simp [whole, ordered, diagonal_pow]

theorem detOf_scalar (L : Nat) (b : ℂ) :
    detOf (fun _ => diagonal fun _ : Fin 1 => (1 : ℂ)) L (fun _ => [diagonal fun _ => b]) = (1 + b) * (1 + b) := by
  rw [detOf, whole_scalar, whole_scalar, det_fin_one]
  simp

theorem detOf_start (L : Nat) : detOf (fun _ => diagonal fun _ : Fin 1 => (1 : ℂ)) L (fun _ => []) = 4 := by
  rw [detOf, whole_nil, whole_nil, det_fin_one]
  simp
  norm_num

/-- One orbital, slice `1 + z`. -/
theorem ex1_more (z : ℂ) (L : Nat) : more (exPar (diagonal fun _ : Fin 1 => z) fun _ => 1) zeroBias
    (fun _ => diagonal fun _ : Fin 1 => (1 : ℂ)) L (fun _ => []) (fun _ => 1) = fun _ => [diagonal fun _ => 1 + z] := by
  have e : (1 : Mat 1) + ((1 : ℝ) : ℂ) • diagonal (fun _ => z) = diagonal fun _ => 1 + z := by
    ext i j
    fin_cases i; fin_cases j
    simp
  rw [exPar_more]
  funext s
  beta_reduce
  rw [e]
  rfl

theorem ex1_det (z : ℂ) (h : 1 + z ≠ 0) (BT : Fin 2 → Mat 1) (L : Nat) (Bs : Fin 2 → List (Mat 1)) (s : Fin 2) :
    (sliceOfB (exPar (diagonal fun _ : Fin 1 => z) fun _ => 1)
      (biasOf zeroBias BT L Bs) (fun _ => 1) s).det ≠ 0 := by
  rw [zeroBias_eq, exPar_slice, det_fin_one]
  simpa using h

theorem ex1_regular {z : ℂ} (h1 : 1 + z ≠ 0) (h2 : 2 + z ≠ 0) (L : Nat) :
    Regular (exPar (diagonal fun _ : Fin 1 => z) fun _ => 1) zeroBias (fun _ => diagonal fun _ : Fin 1 => (1 : ℂ)) L
      [fun _ => 1] fun _ => [] := by
  refine ⟨?_, fun s => ex1_det z h1 _ _ _ s, ?_⟩
  · rw [detOf_start]; norm_num
  · rw [Regular, ex1_more, detOf_scalar]
    refine mul_self_ne_zero.2 ?_
    rw [← add_assoc]
    norm_num
    exact h2

/-- **C105 (free projection)**: with `low_rank` set, `free_projection` still takes phaseless steps.  One orbital, one slice
`1 + 2i`: the walker is killed where free projection with the full-rank stack multiplies weight times phase by `2i`. -/
theorem low_rank_free :
    (∃ t0 : ℝ, 0 < t0 ∧ ∃ w, (∀ t < t0, (newLow (exPar (diagonal fun _ : Fin 1 => 2 * Complex.I) fun _ => 1).toSetup
        (fun _ => diagonal fun _ => 1) 1 (1 * 1) 1).bind
        (lowPropagate true someQRPr t (exPar (diagonal fun _ : Fin 1 => 2 * Complex.I) fun _ => 1) 1 zeroBias fun _ => 1) =
          some w) ∧ w.weight = 0) ∧
    ∃ v, (newWalker (exPar (diagonal fun _ : Fin 1 => 2 * Complex.I) fun _ => 1).toSetup (fun _ => diagonal fun _ => 1) 1
        (1 * 1) 1).bind (freeStep (exPar (diagonal fun _ : Fin 1 => 2 * Complex.I) fun _ => 1) fun _ => 1) = some v ∧
      (v.weight : ℂ) * v.phase = 2 * Complex.I := by
  have hz1 : (1 : ℂ) + 2 * Complex.I ≠ 0 := by
    intro h; have := congrArg Complex.re h; simp at this
  have hz2 : (2 : ℂ) + 2 * Complex.I ≠ 0 := by
    intro h; have := congrArg Complex.re h; simp at this
  have ok := exPar_ok (diagonal fun _ : Fin 1 => 2 * Complex.I) (d := fun _ => 1) (fun _ => one_ne_zero) (ss := 1) one_pos
  have hr := ex1_regular hz1 hz2 (1 * 1)
  constructor
  · obtain ⟨t0, ht0, v, w, -, hw, -, -, -, -, hwt, -⟩ := lowRank_full someQRPr_spec (nb := 1) ok rfl one_pos 1 zeroBias 1
      [fun _ => 1] (by norm_num) hr
    refine ⟨t0, ht0, w, fun t ht => ?_, ?_⟩
    · rw [← hw t ht]
      congr 1
      funext w
      rw [runLow]
      simp only [lowPropagate, if_true]
      cases lowStep someQRPr t (exPar (diagonal fun _ : Fin 1 => 2 * Complex.I) fun _ => 1) 1 zeroBias (fun _ => 1) w <;> rfl
    · rw [hwt]
      show 1 * factor _ _ _ _ = 0
      rw [exPar_cmf, ex1_more, detOf_scalar, detOf_start, factor]
      have e : (1 + (1 + 2 * Complex.I)) * (1 + (1 + 2 * Complex.I)) / 4 = 2 * Complex.I := by
        have := Complex.I_sq
        linear_combination this
      have e2 : Complex.arg (2 * Complex.I) = Real.pi / 2 := by
        have := Complex.arg_real_mul Complex.I (r := 2) two_pos
        rw [Complex.arg_I] at this
        exact_mod_cast this
      rw [e, add_zero (Complex.log _), Complex.exp_log (by simp), e2, Real.cos_pi_div_two]
      simp
  · have hs : ∀ s, Grand.sliceOf (exPar (diagonal fun _ : Fin 1 => 2 * Complex.I) fun _ => 1) (fun _ => 1) s =
        diagonal fun _ => 1 + 2 * Complex.I := by
      intro s
      have h1 : Grand.sliceOf (exPar (diagonal fun _ : Fin 1 => 2 * Complex.I) fun _ => 1) (fun _ => 1) s =
          sliceOfB (exPar (diagonal fun _ : Fin 1 => 2 * Complex.I) fun _ => 1) Grand.noBias (fun _ => 1) s := rfl
      rw [h1, Grand.noBias_eq, exPar_slice]
      ext i j
      fin_cases i; fin_cases j
      simp
    obtain ⟨w, hw, hi, hwt⟩ := Grand.newWalker_ok ok.toSetupOk 1 1
    have h4 : (1 + diagonal (fun _ : Fin 1 => (1 : ℂ)) ^ (1 * 1 - 0) * ordered []).det = 2 := by
      rw [det_fin_one]; simp [ordered]; norm_num
    have h5 : (1 + diagonal (fun _ : Fin 1 => (1 : ℂ)) ^ (1 * 1 - (0 + 1)) *
        ((diagonal fun _ => 1 + 2 * Complex.I) * ordered [])).det = 2 + 2 * Complex.I := by
      rw [det_fin_one]; simp [ordered]; ring
    obtain ⟨v, hv, -, hvt⟩ := Grand.freeStep_ok ok hi (by norm_num) (fun s => by rw [h4]; norm_num) (fun _ => 1)
      (fun s => by rw [hs, det_diagonal]; simpa using hz1) (fun s => by rw [hs, h5]; exact hz2)
    refine ⟨v, by rw [hw]; exact hv, ?_⟩
    rw [hvt, hwt, hs, hs, h5, h4, exPar_cmf]
    have := Complex.I_sq
    simp
    linear_combination this

/-! ## A second path -/

/-- After a complete path the reset factors are those of no slices. -/
theorem reset_inv {p : Setup m} {BT : Fin 2 → Mat m} {d : Fin 2 → Fin m → ℂ} (hBT : ∀ s, BT s = diagonal (d s)) {ss nb : Nat}
    (ok : SetupOk p BT ss) (hnb : 0 < nb) {q : Path m} {w : LWk m} (h : OnLow BT d ss nb q w)
    (hq : (q.Bs 0).length = nb * ss) (s : Fin 2) : LInv ss nb (d s) [] ((resetLow p BT w).stack s) := by
  have hi := h.inv s
  have hs := Stack.setAll_inv ok.pos (ok.diagT s) (s := (w.stack s).toSt.reset) (nb := nb) hi.size hi.bins hi.sl
    (by rw [Stack.St.reset, hi.bins]) (by rw [Stack.St.reset, hi.bins])
  have hst : ((w.stack s).toSt.reset.setAll p.diag (BT s)).stack = List.replicate nb (BT s ^ ss) := by
    apply List.ext_getElem?
    intro i
    by_cases hi : i < nb
    · rw [hs.stack i hi, Stack.bin_full hi, List.getElem?_replicate, if_pos hi]
    · rw [List.getElem?_eq_none (by rw [hs.l2]; omega), List.getElem?_replicate, if_neg hi]
  refine ⟨hs.size, hs.l1, hs.nbins, hs.slices, by exact hs.ts, by rw [List.length_nil, Nat.zero_div]; exact hs.blk, ?_, ?_, ?_, ?_, ?_⟩
  · show ((w.stack s).toSt.reset.setAll p.diag (BT s)).counter = _
    rw [hs.cnt]
    show (w.stack s).counter = _
    rw [hi.cnt, h.len, hq, Nat.mul_mod_left]
    rfl
  · funext i
    show initDl ((w.stack s).toSt.reset.setAll p.diag (BT s)).stack i = _
    rw [hst, initDl_bins hnb, hBT, diagonal_pow, diagonal_apply_eq, Pi.pow_apply, ← pow_mul, mul_comm ss]
    rfl
  · show (1 : Mat m) * diagonal (fun _ => 1) * 1 = _
    rw [diagonal_one]; simp [ordered]
  · intro i; exact one_ne_zero
  · show ((1 : Mat m) * diagonal (fun _ => 1) * 1).det ≠ 0
    rw [diagonal_one]; simp

/-- **C105 (second path)**: after a complete path the stack is reset, but the overlaps and Green's functions are not: the
first step of the next path takes its force bias from the Green's functions at the end of the path before, and its weight
factor from the ratio of the new overlap and the one at the end of the path before. -/
theorem low_rank_reset {qr : QRPr} (hq : ∀ a b A, IsQRPr A (qr a b A).1 (qr a b A).2.1 (qr a b A).2.2) {p : Par nx m}
    {BT : Fin 2 → Mat m} {d : Fin 2 → Fin m → ℂ} (hBT : ∀ s, BT s = diagonal (d s)) {ss nb : Nat} (ok : ParOk p BT ss)
    (hnb : 0 < nb) (mfFac : ℂ) (bias : (Fin 2 → Mat m) → Fin nx → ℂ) {q : Path m} {w : LWk m} (h : OnLow BT d ss nb q w)
    (hl : (q.Bs 0).length = nb * ss) {xi : Fin nx → ℝ} (hd : detOf BT (nb * ss) q.Bs ≠ 0)
    (hB : ∀ s, (sliceOfB p (biasOf bias BT (nb * ss) q.Bs) xi s).det ≠ 0)
    (h1 : detOf BT (nb * ss) (fun s => [sliceOfB p (biasOf bias BT (nb * ss) q.Bs) xi s]) ≠ 0) :
    ∃ t0 : ℝ, 0 < t0 ∧ ∃ w', (∀ t < t0, lowStep qr t p mfFac bias xi (resetLow p.toSetup BT w) = some w') ∧
      w'.weight = factor mfFac (cmf p.dt p.tab.mfShift xi (biasOf bias BT (nb * ss) q.Bs))
        (cfb xi (biasOf bias BT (nb * ss) q.Bs))
        (detOf BT (nb * ss) (fun s => [sliceOfB p (biasOf bias BT (nb * ss) q.Bs) xi s]) / detOf BT (nb * ss) q.Bs) := by
  have hx : xbarLow bias (resetLow p.toSetup BT w) = biasOf bias BT (nb * ss) q.Bs := by
    rw [← h.bias_eq bias]; rfl
  have ho : ((resetLow p.toSetup BT w).stack 0).ovlp * ((resetLow p.toSetup BT w).stack 1).ovlp = detOf BT (nb * ss) q.Bs := by
    rw [← h.ovlp_eq]; rfl
  have hpos : 0 < nb * ss := Nat.mul_pos hnb ok.pos
  obtain ⟨t0, ht0, w', hw', hon, -⟩ := lowStep_core hq hBT ok.pos ok.inv mfFac bias (Bs := fun _ => []) (fun _ => rfl)
    (fun s => reset_inv hBT ok.toSetupOk hnb h hl s) hpos (xi := xi) (by rw [ho]; exact hd) (by rw [hx]; exact hB)
    (by rw [hx]; exact h1)
  refine ⟨t0, ht0, w', hw', ?_⟩
  rw [hon.weight, hx, ho]
  exact one_mul _

/-- One orbital, trial density matrix 1, one slice 3: the first path ends with weight 4, the second, with the same field, with
weight 1. -/
theorem low_rank_second : ∃ t0 : ℝ, 0 < t0 ∧ ∃ w w',
    (∀ t < t0, (newLow (exPar (diagonal fun _ : Fin 1 => 2) fun _ => 1).toSetup (fun _ => diagonal fun _ => 1) 1 (1 * 1) 1).bind
        (runLow someQRPr t (exPar (diagonal fun _ : Fin 1 => 2) fun _ => 1) 1 zeroBias [fun _ => 1]) = some w ∧
      lowStep someQRPr t (exPar (diagonal fun _ : Fin 1 => 2) fun _ => 1) 1 zeroBias (fun _ => 1)
        (resetLow (exPar (diagonal fun _ : Fin 1 => 2) fun _ => 1).toSetup (fun _ => diagonal fun _ => 1) w) = some w') ∧
    w.weight = 4 ∧ w'.weight = 1 := by
  have ok := exPar_ok (diagonal fun _ : Fin 1 => (2 : ℂ)) (d := fun _ => 1) (fun _ => one_ne_zero) (ss := 1) one_pos
  have hr := ex1_regular (z := 2) (by norm_num) (by norm_num) (1 * 1)
  obtain ⟨l0, hl0, hl0', -, -⟩ := newLow_path (nb := 1) (d := fun _ _ => 1) (fun _ => rfl) ok.toSetupOk rfl one_pos 1 hr.now
  obtain ⟨t1, ht1, w, hw, hw', -, -⟩ := runLow_path someQRPr_spec (d := fun _ _ => 1) (fun _ => rfl) ok.pos ok.inv 1 zeroBias
    [fun _ => 1] hl0' (by simp) hr
  have hBs : (path (exPar (diagonal fun _ : Fin 1 => (2 : ℂ)) fun _ => 1) 1 zeroBias (fun _ => diagonal fun _ : Fin 1 => (1 : ℂ))
      (1 * 1) [fun _ => 1] ⟨fun _ => [], 1⟩).Bs = fun _ => [diagonal fun _ => 1 + 2] := ex1_more 2 (1 * 1)
  have hsl : ∀ s, sliceOfB (exPar (diagonal fun _ : Fin 1 => (2 : ℂ)) fun _ => 1) (fun _ => 0) (fun _ => 1) s =
      diagonal fun _ => 1 + 2 := by
    intro s
    rw [exPar_slice]
    ext i j
    fin_cases i; fin_cases j
    simp
  have hdet : detOf (fun _ => diagonal fun _ : Fin 1 => (1 : ℂ)) (1 * 1) (fun _ => [diagonal fun _ => 1 + 2]) = 16 := by
    rw [detOf_scalar]; norm_num
  obtain ⟨t2, ht2, w', h2, h3⟩ := low_rank_reset someQRPr_spec (d := fun _ _ => 1) (fun _ => rfl) ok one_pos 1 zeroBias hw'
    (by rw [hBs]; rfl) (xi := fun _ => 1) (by rw [hBs, hdet]; norm_num) (fun s => ex1_det 2 (by norm_num) _ _ _ s)
    (by rw [zeroBias_eq]; simp only [hsl]; rw [hdet]; norm_num)
  refine ⟨min t1 t2, lt_min ht1 ht2, w, w', fun t ht => ⟨?_, h2 t (ht.trans_le (min_le_right _ _))⟩, ?_, ?_⟩
  · rw [hl0]; exact hw t (ht.trans_le (min_le_left _ _))
  · rw [hw'.weight]
    show 1 * factor _ _ _ _ = 4
    rw [exPar_cmf, zeroBias_eq, cfb_zero, ex1_more, hdet, detOf_start, factor]
    have h4 : (16 : ℂ) / 4 = ((4 : ℝ) : ℂ) := by norm_num
    rw [h4, add_zero, add_zero, Complex.exp_log (by norm_num), Complex.arg_ofReal_of_nonneg (by norm_num)]
    norm_num
  · rw [h3, exPar_cmf, zeroBias_eq, cfb_zero, hBs]
    simp only [hsl]
    rw [hdet, factor]
    norm_num

/-! ## The free low-rank step -/

/-- The walker after free low-rank steps. -/
noncomputable def runFreeLow (qr : QRPr) (thresh : ℝ) (p : Par nx m) (xbar : Fin nx → ℂ) :
    List (Fin nx → ℝ) → LWk m → Option (LWk m)
  | [], w => some w
  | x :: l, w => (freeLowStep qr thresh p xbar x w).bind (runFreeLow qr thresh p xbar l)

/-- The counters after `k` updates. -/
structure AtUpdate (ss nb k : Nat) (s : LSt m) : Prop where
  size : s.stackSize = ss
  len : s.left.length = nb
  ts : s.timeSlice = k
  blk : s.block = k / ss
  cnt : s.counter = k % ss
  le : k ≤ nb * ss

theorem update_counts {qr : QRPr} {t : ℝ} {BTinv : Mat m} {ss nb k : Nat} (hss : 0 < ss) {s s' : LSt m} {B : Mat m}
    (h : AtUpdate ss nb k s) (hu : updateLow qr t BTinv s B = some s') : AtUpdate ss nb (k + 1) s' := by
  unfold updateLow at hu
  split_ifs at hu with h1 h2
  all_goals
    rw [h.cnt, h.blk, h.len] at h1
    have hk : k + 1 ≤ nb * ss := by
      by_contra hlt
      have hk : k = nb * ss := le_antisymm h.le (by omega)
      refine h1 ⟨?_, ?_⟩
      · rw [hk, Nat.mul_mod_left]
      · rw [hk, Nat.mul_div_cancel _ hss]
    rw [Option.map_eq_some_iff] at hu
    obtain ⟨u, hu, rfl⟩ := hu
  · unfold endUpdate at hu
    simp only at hu
    split_ifs at hu with h3
    rw [Option.map_eq_some_iff] at hu
    obtain ⟨o, -, rfl⟩ := hu
    refine ⟨h.size, h.len, congrArg (· + 1) h.ts, ?_, ?_, hk⟩
    · show (s.timeSlice + 1) / s.stackSize = _
      rw [h.ts, h.size]
    · show (s.counter + 1) % s.stackSize = _
      rw [h.cnt, h.size, Nat.mod_add_mod]
  · unfold midUpdate at hu
    rw [Option.map_eq_some_iff] at hu
    obtain ⟨o, -, rfl⟩ := hu
    refine ⟨h.size, h.len, congrArg (· + 1) h.ts, ?_, ?_, hk⟩
    · show (s.timeSlice + 1) / s.stackSize = _
      rw [h.ts, h.size]
    · show (s.counter + 1) % s.stackSize = _
      rw [h.cnt, h.size, Nat.mod_add_mod]

theorem both_counts {qr : QRPr} {t : ℝ} {BTinv : Fin 2 → Mat m} {ss nb k : Nat} (hss : 0 < ss) {s s' : Fin 2 → LSt m}
    {B : Fin 2 → Mat m} (h : AtUpdate ss nb k (s 0)) (hu : updateBoth qr t BTinv s B = some s') :
    AtUpdate ss nb (k + 1) (s' 0) := by
  unfold updateBoth at hu
  split at hu
  · next a b ha hb =>
    rw [Option.some.injEq] at hu
    subst hu
    exact update_counts hss h ha
  · simp at hu

/-- **C105 (free low-rank step)**: each step updates the stack twice, so a path of all slices is never completed: a run of
`n` steps needs `2 n` slices. -/
theorem free_low_rank_twice {qr : QRPr} {t : ℝ} {p : Par nx m} {xbar : Fin nx → ℂ} {ss nb : Nat} (hss : 0 < ss) :
    ∀ (xs : List (Fin nx → ℝ)) {k : Nat} {w w' : LWk m}, AtUpdate ss nb k (w.stack 0) →
      runFreeLow qr t p xbar xs w = some w' → k + 2 * xs.length ≤ nb * ss
  | [], k, w, w', h, _ => by simpa using h.le
  | x :: xs, k, w, w', h, hr => by
    rw [runFreeLow, Option.bind_eq_some_iff] at hr
    obtain ⟨v, hv, hr⟩ := hr
    unfold freeLowStep at hv
    simp only at hv
    rw [Option.bind_eq_some_iff] at hv
    obtain ⟨mid, hm, hv⟩ := hv
    rw [Option.map_eq_some_iff] at hv
    obtain ⟨st, hst, rfl⟩ := hv
    have h2 := both_counts hss (both_counts hss h hm) hst
    have h3 : (freeEnd (cmf p.dt p.tab.mfShift x xbar) (cfb x xbar) w mid st).stack = st := by
      unfold freeEnd; simp only; split_ifs <;> rfl
    have := free_low_rank_twice hss xs (k := k + 1 + 1) (by rw [h3]; exact h2) hr
    rw [List.length_cons]
    omega

/-- A new walker cannot be taken through all its slices. -/
theorem free_low_rank_none {qr : QRPr} {t : ℝ} {p : Par nx m} {BT : Fin 2 → Mat m} {xbar : Fin nx → ℂ} {ss nb : Nat}
    (ok : SetupOk p.toSetup BT ss) (hnb : 0 < nb) (w0 : ℝ) (xs : List (Fin nx → ℝ)) (hl : xs.length = nb * ss) :
    (newLow p.toSetup BT ss (ss * nb) w0).bind (runFreeLow qr t p xbar xs) = none := by
  rw [Option.eq_none_iff_forall_not_mem]
  intro w' hw'
  rw [Option.mem_def, Option.bind_eq_some_iff] at hw'
  obtain ⟨w, hw, hr⟩ := hw'
  obtain ⟨a, ha, hfa, -⟩ := fresh_bins (ok.diagT 0) (nb := nb) ok.pos
  have h0 : AtUpdate ss nb 0 (w.stack 0) := by
    unfold newLow at hw
    rw [ha] at hw
    split_ifs at hw
    split at hw
    · next a' b' h1 h2 =>
      rw [Option.some.injEq] at h1 hw
      subst h1 hw
      exact ⟨hfa.size, hfa.l2, hfa.ts, hfa.blk, hfa.cnt, Nat.zero_le _⟩
    · simp at hw
  have := free_low_rank_twice ok.pos xs h0 hr
  have hpos : 0 < nb * ss := Nat.mul_pos hnb ok.pos
  omega

/-! ## The order of the orbitals -/

/-- **C105 (order)**: two orbitals, trial density matrix `diag(1/10000, 1)`, so that the small entry of the left factor comes
first.  The slice is `diag(10000, 1)`, the threshold 1/1000: the whole product is the identity with overlap 4, but the first
row is kept instead of the second, and the update gives overlap 2. -/
theorem low_rank_order {qr : QRPr} (hq : ∀ a b A, IsQRPr A (qr a b A).1 (qr a b A).2.1 (qr a b A).2.2) (s : LSt 2)
    (hs : s.stackSize = 2) (hl : s.left.length = 1) (ht : s.timeSlice = 0) (hb : s.block = 0)
    (hD : s.Dl = ![1 / 10000 ^ 2, 1]) (hQ : s.Qr = 1) (hR : s.Dr = fun _ => 1) (hT : s.Tr = 1) :
    (∃ s', updateLow qr (1 / 1000) (diagonal ![10000, 1]) s (diagonal ![10000, 1]) = some s' ∧ s'.ovlp = 2) ∧
    (1 + (diagonal ![1 / 10000, 1] : Mat 2) ^ (2 - 1) * diagonal ![10000, 1]).det = 4 := by
  constructor
  · have hkR : kept (1 / 1000) s.Dr = 2 := kept_all fun i => by rw [hR]; norm_num
    have hDl : nextDl (diagonal ![10000, 1]) s.Dl = ![1 / 10000, 1] := by
      funext i
      fin_cases i <;> simp [nextDl, hD]
      norm_num
    have hkL : kept (1 / 1000) (![1 / 10000, 1] : Fin 2 → ℂ) = 1 := by
      have : (univ.filter fun i => (1 / 1000 : ℝ) < ‖(![1 / 10000, 1] : Fin 2 → ℂ) i‖) = {1} := by
        ext i
        fin_cases i <;> simp <;> norm_num
      rw [kept, this, card_singleton]
    have hC : ccr s (diagonal ![10000, 1]) 2 le_rfl = diagonal ![10000, 1] := by
      ext i j
      rw [ccr, hQ, hR, cols]
      fin_cases i <;> fin_cases j <;> simp [Matrix.mul_apply, Fin.sum_univ_two, Fin.castLE]
    have hT' : rows le_rfl s.Tr = (1 : Mat 2) := by rw [hT]; rfl
    have hcl : clcr (one_le_two) ![1 / 10000, 1] (diagonal ![10000, 1] : Mat 2) = !![(1 : ℂ), 0] := by
      ext i j
      fin_cases i; fin_cases j <;> simp [clcr, Fin.castLE]
    -- the rows kept
    obtain ⟨o, ho, hov⟩ : ∃ o, lowRows qr (1 / 1000) ![1 / 10000, 1] (diagonal ![10000, 1] : Mat 2) (1 : Mat 2) 1 one_le_two =
        some o ∧ o.ovlp = 2 := by
      suffices key : ∀ A : RMat 1 2, A = !![(1 : ℂ), 0] → ∃ o, lowTail (m := 2) one_le_two (qr 1 2 A) 1
          (kept (1 / 1000) (diagOf (qr 1 2 A).2.1)) (kept_le _ _) = some o ∧ o.ovlp = 2 from key _ hcl
      rintro _ rfl
      set f := qr 1 2 !![(1 : ℂ), 0] with hfd
      have hf : IsQRPr !![(1 : ℂ), 0] f.1 f.2.1 f.2.2 := hq _ _ _
      have hent : ∀ l, f.1 0 0 * f.2.1 0 (f.2.2.symm l) = (!![(1 : ℂ), 0]) 0 l := by
        intro l
        rw [qr_entry hf 0 l]
        simp
      have hQ1 : ‖f.1 0 0‖ ≤ 1 := unitary_entry hf.unitary 0 0
      have h1 : 1 ≤ ‖f.2.1 0 (f.2.2.symm 0)‖ := by
        have := congrArg norm (hent 0)
        rw [norm_mul] at this
        norm_num at this
        nlinarith [norm_nonneg (f.2.1 0 (f.2.2.symm 0))]
      have hd : ∀ i, (1 / 1000 : ℝ) < ‖diagOf f.2.1 i‖ := by
        intro i
        have hi : diagOf f.2.1 i = f.2.1 0 0 := by
          have : (i : Nat) = 0 := by have := i.2; omega
          have hi : i = ⟨0, by norm_num⟩ := Fin.ext this
          rw [hi]
          rfl
        rw [hi]
        have := hf.pivot 0 (by norm_num) (by norm_num) 0 (f.2.2.symm 0) (Nat.zero_le _) (Nat.zero_le _)
        have h2 := h1.trans this
        exact lt_of_lt_of_le (by norm_num) h2
      rw [lowTail_congr _ _ _ (kept_le _ _) le_rfl (kept_all hd)]
      have hne : ∀ i, diagOf f.2.1 i ≠ 0 := fun i => norm_pos_iff.1 ((by norm_num : (0 : ℝ) < 1 / 1000).trans (hd i))
      have hp := tail_prod (m := 2) hf (1 : Mat 2) le_rfl fun i => hne _
      rw [rest_zero hf, sub_zero] at hp
      replace hp := hp.trans (Matrix.mul_one _)
      have hdet : (1 + (padRows !![(1 : ℂ), 0] : RMat 2 2)).det = 2 := by
        rw [det_fin_two]
        simp [padRows, padVec]
        norm_num
      have hso := finish_some (m := 2) one_le_two (le_rfl.trans (min_le_left 1 2)) f.1
        (fun i => diagOf f.2.1 (Fin.castLE le_rfl i)) ((Matrix.of fun i j => 1 / diagOf f.2.1 (Fin.castLE le_rfl i) *
          f.2.1 (Fin.castLE (le_rfl.trans (min_le_left _ _)) i) (f.2.2.symm j) : RMat (min 1 2) 2) * (1 : Mat 2))
        (fun i => diag_real hf _) ?_ (by rw [hp, hdet]; norm_num)
      · obtain ⟨o, ho⟩ := hso
        refine ⟨o, ho, ?_⟩
        obtain ⟨-, b, -⟩ := finish_spec _ _ _ _ _ (fun i => diag_real hf _) ho
        rw [b, hp, hdet]
      · rw [Matrix.mul_one]
        have e : ((Matrix.of fun i j => 1 / diagOf f.2.1 (Fin.castLE le_rfl i) *
            f.2.1 (Fin.castLE (le_rfl.trans (min_le_left _ _)) i) (f.2.2.symm j) : RMat (min 1 2) 2) *
            (padRows (cols (le_rfl.trans (min_le_left 1 2)) f.1) : RMat 2 (min 1 2))).det =
            1 / diagOf f.2.1 ⟨0, by norm_num⟩ * (f.1 0 0 * f.2.1 0 (f.2.2.symm 0)) := by
          refine (det_fin_one _).trans ?_
          rw [mul_apply, Fin.sum_univ_two]
          simp only [of_apply, padRows, padVec, cols, submatrix_apply, id]
          rw [dif_pos (by norm_num), dif_neg (by norm_num), mul_zero, add_zero]
          show 1 / diagOf f.2.1 ⟨0, by norm_num⟩ * f.2.1 0 (f.2.2.symm 0) * f.1 0 0 = _
          ring
        rw [e, hent]
        simpa using hne ⟨0, by norm_num⟩
    refine ⟨tick ((midFactors (diagonal ![10000, 1]) s (diagonal ![10000, 1]) 2 le_rfl).put o), ?_, hov⟩
    unfold updateLow
    rw [if_neg (by rw [hl, hb]; simp), if_neg (by rw [hb, ht, hs]; norm_num), midUpdate_congr (kept_le _ _) le_rfl hkR]
    unfold midUpdate
    rw [hDl, hC, hT', lowGreen, lowRows_congr (kept_le _ _) one_le_two hkL, ho]
    rfl
  · rw [det_fin_two]
    simp
    norm_num

/-- The stack of a new walker is one of these. -/
example : ∃ w, newLow (exPar (0 : Mat 2) ![1 / 10000, 1]).toSetup (fun _ => diagonal ![1 / 10000, 1]) 2 (2 * 1) 1 = some w ∧
    (w.stack 0).stackSize = 2 ∧ (w.stack 0).left.length = 1 ∧ (w.stack 0).timeSlice = 0 ∧ (w.stack 0).block = 0 ∧
    (w.stack 0).Dl = ![1 / 10000 ^ 2, 1] ∧ (w.stack 0).Qr = 1 ∧ ((w.stack 0).Dr = fun _ => 1) ∧ (w.stack 0).Tr = 1 := by
  have ok := exPar_ok (0 : Mat 2) (d := ![1 / 10000, 1]) (fun i => by fin_cases i <;> norm_num) (ss := 2) two_pos
  obtain ⟨a, ha, hfa, -, -, hsa⟩ := fresh_bins (ok.diagT 0) (nb := 1) ok.pos
  refine ⟨⟨1, 1, 1, fun s => ((![newLSt (exPar (0 : Mat 2) ![1 / 10000, 1]).toSetup a, newLSt (exPar (0 : Mat 2) ![1 / 10000, 1]).toSetup a] : Fin 2 → LSt 2) s).G,
    fun s => (((![newLSt (exPar (0 : Mat 2) ![1 / 10000, 1]).toSetup a, newLSt (exPar (0 : Mat 2) ![1 / 10000, 1]).toSetup a] : Fin 2 → LSt 2) s).G).det,
    ![newLSt (exPar (0 : Mat 2) ![1 / 10000, 1]).toSetup a, newLSt (exPar (0 : Mat 2) ![1 / 10000, 1]).toSetup a]⟩, ?_, hfa.size, hfa.l2, hfa.ts, hfa.blk, ?_, rfl, rfl, rfl⟩
  · rw [newLow, if_neg (by simp [exPar]), ha]
  · show initDl a.stack = _
    rw [hsa]
    funext i
    rw [initDl_bins one_pos, diagonal_pow, pow_one, diagonal_apply_eq]
    fin_cases i <;> simp

end Verif.LowRank
