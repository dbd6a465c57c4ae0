import Verif.Chol.Model
import Mathlib.LinearAlgebra.Matrix.PosDef
import Mathlib.Analysis.Matrix.PosDef
import Mathlib.Tactic.Linarith
import Mathlib.Tactic.Ring

/-!
# C26: the modified Cholesky decomposition
-/

namespace Verif.Chol

open Matrix
open scoped ComplexOrder

variable {n : Nat}

open Classical in
theorem loop_zero (amax : (Fin n → ℝ) → Fin n) (M : Matrix (Fin n) (Fin n) ℂ) (tol : ℝ) (s : State n) :
    loop amax M tol 0 s = if s.dmax > tol then none else some s.vecs := by
  simp only [loop]

open Classical in
theorem loop_succ (amax : (Fin n → ℝ) → Fin n) (M : Matrix (Fin n) (Fin n) ℂ) (tol : ℝ) (k : Nat)
    (s : State n) : loop amax M tol (k + 1) s =
      if s.dmax > tol then loop amax M tol k (step amax M s) else some s.vecs := by
  simp only [loop]

/-- What is left of the matrix after the given vectors. -/
noncomputable def residual (M : Matrix (Fin n) (Fin n) ℂ) (vs : List (Fin n → ℂ)) :
    Matrix (Fin n) (Fin n) ℂ :=
  Matrix.of fun i j => M i j - (vs.map fun v => v i * star (v j)).sum

theorem residual_append (M : Matrix (Fin n) (Fin n) ℂ) (vs : List (Fin n → ℂ)) (v : Fin n → ℂ)
    (i j : Fin n) : residual M (vs ++ [v]) i j = residual M vs i j - v i * star (v j) := by
  simp [residual]
  ring

/-- Diagonal elements of a positive semidefinite matrix are real and non-negative. -/
theorem diag_nonneg {R : Matrix (Fin n) (Fin n) ℂ} (hR : R.PosSemidef) (i : Fin n) :
    0 ≤ (R i i).re ∧ (R i i).im = 0 := by
  have h := hR.diag_nonneg (i := i)
  rw [Complex.le_def] at h
  exact ⟨by simpa using h.1, by simpa using h.2.symm⟩

theorem norm_diag {R : Matrix (Fin n) (Fin n) ℂ} (hR : R.PosSemidef) (i : Fin n) :
    ‖R i i‖ = (R i i).re ∧ R i i = ((R i i).re : ℂ) := by
  obtain ⟨h1, h2⟩ := diag_nonneg hR i
  have : R i i = ((R i i).re : ℂ) := Complex.ext (by simp) (by simp [h2])
  refine ⟨?_, this⟩
  rw [this, Complex.norm_real, Complex.ofReal_re, Real.norm_of_nonneg h1]

/-- Removing a column keeps the matrix positive semidefinite. -/
theorem schur_psd {R : Matrix (Fin n) (Fin n) ℂ} (hR : R.PosSemidef) (nu : Fin n)
    (hd : (R nu nu).re ≠ 0) :
    (Matrix.of fun i j => R i j - R i nu * R nu j / R nu nu).PosSemidef := by
  have hne : R nu nu ≠ 0 := fun h => hd (by rw [h]; rfl)
  have hH : ∀ i j, star (R i j) = R j i := fun i j => by
    have := congrFun (congrFun hR.1 j) i
    simpa [conjTranspose_apply] using this
  set P : Matrix (Fin n) (Fin n) ℂ :=
    1 - Matrix.of fun i j => if i = nu then R nu j / R nu nu else 0 with hP
  have hRP : R * P = Matrix.of fun i j => R i j - R i nu * R nu j / R nu nu := by
    rw [hP, Matrix.mul_sub, Matrix.mul_one]
    ext i j
    rw [Matrix.sub_apply, Matrix.mul_apply]
    simp only [Matrix.of_apply, mul_ite, mul_zero]
    rw [Finset.sum_ite_eq' Finset.univ nu]
    simp [mul_div_assoc]
  have hPRP : Pᴴ * R * P = Matrix.of fun i j => R i j - R i nu * R nu j / R nu nu := by
    rw [Matrix.mul_assoc, hRP]
    have hPH : Pᴴ = 1 - Matrix.of fun i j => if j = nu then R i nu / R nu nu else 0 := by
      rw [hP, conjTranspose_sub, conjTranspose_one]
      congr 1
      ext i j
      rw [conjTranspose_apply, Matrix.of_apply, Matrix.of_apply]
      split_ifs with h
      · rw [star_div₀, hH, hH]
      · simp
    rw [hPH, Matrix.sub_mul, Matrix.one_mul]
    ext i j
    rw [Matrix.sub_apply, Matrix.mul_apply]
    simp only [Matrix.of_apply, ite_mul, zero_mul]
    rw [Finset.sum_ite_eq' Finset.univ nu]
    simp only [Finset.mem_univ, if_true]
    have : R nu j - R nu nu * R nu j / R nu nu = 0 := by
      rw [mul_div_assoc, mul_div_cancel₀ _ hne, sub_self]
    rw [this, mul_zero, sub_zero]
  rw [← hPRP]
  exact hR.conjTranspose_mul_mul_same P

/-- Off-diagonal elements of a positive semidefinite matrix are bounded by the diagonal ones. -/
theorem norm_le_diag {R : Matrix (Fin n) (Fin n) ℂ} (hR : R.PosSemidef) (D : ℝ)
    (hD : ∀ i, ‖R i i‖ ≤ D) (i j : Fin n) : ‖R i j‖ ≤ D := by
  by_cases hij : i = j
  · rw [hij]; exact hD j
  by_cases h0 : R i j = 0
  · rw [h0, norm_zero]; exact (norm_nonneg _).trans (hD i)
  have hH : star (R i j) = R j i := by
    have := congrFun (congrFun hR.1 j) i
    simpa [conjTranspose_apply] using this
  -- test vector e_i - u e_j
  set u : ℂ := star (R i j) / ‖R i j‖ with hu
  have hn : (‖R i j‖ : ℂ) ≠ 0 := by simpa using h0
  have hx := hR.dotProduct_mulVec_nonneg (Pi.single i 1 - Pi.single j u)
  have hval : star (Pi.single i 1 - Pi.single j u : Fin n → ℂ) ⬝ᵥ
      (R *ᵥ (Pi.single i 1 - Pi.single j u)) =
      R i i + R j j - 2 * ‖R i j‖ := by
    have huu : star u * u = 1 := by
      rw [hu, star_div₀, star_star, Complex.star_def, Complex.conj_ofReal, div_mul_div_comm,
        Complex.mul_conj, Complex.normSq_eq_norm_sq]
      push_cast
      rw [pow_two, div_self (mul_ne_zero hn hn)]
    have hRu : R i j * u = ‖R i j‖ := by
      rw [hu, Complex.star_def, ← mul_div_assoc, Complex.mul_conj, Complex.normSq_eq_norm_sq]
      push_cast
      rw [pow_two, mul_div_assoc, div_self hn, mul_one]
    have hRu' : star u * R j i = ‖R i j‖ := by
      have h2 := congrArg star hRu
      rw [star_mul', hH, mul_comm] at h2
      rw [h2, Complex.star_def, Complex.conj_ofReal]
    rw [star_sub, sub_dotProduct, mulVec_sub, dotProduct_sub, dotProduct_sub]
    simp only [Pi.star_single, star_one, single_dotProduct, mulVec_single, one_mul]
    simp only [MulOpposite.op_one, one_smul, Pi.smul_apply, MulOpposite.smul_eq_mul_unop,
      MulOpposite.unop_op, col_apply]
    have e1 : star u * (R j j * u) = R j j := by
      rw [mul_comm (R j j), ← mul_assoc, huu, one_mul]
    rw [hRu, hRu', e1]
    ring
  rw [hval] at hx
  rw [Complex.le_def] at hx
  have h1 := hx.1
  simp only [Complex.zero_re, Complex.sub_re, Complex.add_re, Complex.mul_re, Complex.re_ofNat,
    Complex.im_ofNat, Complex.ofReal_re, Complex.ofReal_im, mul_zero, sub_zero] at h1
  have h2 := hD i
  have h3 := hD j
  rw [(norm_diag hR i).1] at h2
  rw [(norm_diag hR j).1] at h3
  linarith

/-- Invariant of the loop. -/
structure Inv (amax : (Fin n → ℝ) → Fin n) (M : Matrix (Fin n) (Fin n) ℂ) (s : State n) : Prop where
  psd : (residual M s.vecs).PosSemidef
  approx : ∀ i, M i i - s.approx i = residual M s.vecs i i
  pivot : ∃ nu, s.dmax = ‖residual M s.vecs nu nu‖ ∧
    (∀ i, s.next i = residual M s.vecs i nu / (Real.sqrt s.dmax : ℂ)) ∧
    ∀ i, ‖residual M s.vecs i i‖ ≤ s.dmax
  done : ∃ P : Finset (Fin n), P.card = s.vecs.length ∧ ∀ p ∈ P, residual M s.vecs p p = 0

theorem start_inv (amax : (Fin n → ℝ) → Fin n) (ham : ∀ (x : Fin n → ℝ) i, x i ≤ x (amax x))
    (M : Matrix (Fin n) (Fin n) ℂ) (hM : M.PosSemidef) : Inv amax M (start amax M) := by
  have h0 : residual M [] = M := by ext i j; simp [residual]
  refine ⟨?_, ?_, ?_, ?_⟩
  · show (residual M []).PosSemidef
    rw [h0]; exact hM
  · intro i
    show M i i - 0 = residual M [] i i
    rw [h0, sub_zero]
  · refine ⟨amax fun i => ‖M i i‖, ?_, ?_, ?_⟩
    · show ‖M _ _‖ = ‖residual M [] _ _‖
      rw [h0]
    · intro i
      show M i _ / _ = residual M [] i _ / (Real.sqrt ‖M _ _‖ : ℂ)
      rw [h0, (norm_diag hM _).1]
    · intro i
      show ‖residual M [] i i‖ ≤ ‖M _ _‖
      rw [h0]
      exact ham (fun i => ‖M i i‖) i
  · exact ⟨∅, rfl, by simp⟩

theorem step_inv (amax : (Fin n → ℝ) → Fin n) (ham : ∀ (x : Fin n → ℝ) i, x i ≤ x (amax x))
    (M : Matrix (Fin n) (Fin n) ℂ) (tol : ℝ) (ht : 0 ≤ tol) (s : State n) (h : Inv amax M s)
    (hgt : s.dmax > tol) : Inv amax M (step amax M s) := by
  obtain ⟨nu, hdm, hnext, hmax⟩ := h.pivot
  have hpos : 0 < s.dmax := lt_of_le_of_lt ht hgt
  set R := residual M s.vecs with hR
  have hRH : ∀ i j, star (R i j) = R j i := fun i j => by
    have := congrFun (congrFun h.psd.1 j) i
    simpa [conjTranspose_apply] using this
  have hnu := norm_diag h.psd nu
  rw [← hdm] at hnu
  have hnu' : R nu nu = (s.dmax : ℂ) := hnu.2.trans (by rw [← hnu.1])
  have hre : (R nu nu).re ≠ 0 := by rw [← hnu.1]; exact hpos.ne'
  have hsq : (Real.sqrt s.dmax : ℂ) * (Real.sqrt s.dmax : ℂ) = (s.dmax : ℂ) := by
    rw [← Complex.ofReal_mul, Real.mul_self_sqrt hpos.le]
  have houter : ∀ i j, s.next i * star (s.next j) = R i nu * R nu j / R nu nu := by
    intro i j
    rw [hnext, hnext, star_div₀, hRH, Complex.star_def, Complex.conj_ofReal, div_mul_div_comm, hsq,
      hnu']
  have hres : residual M (s.vecs ++ [s.next]) =
      Matrix.of fun i j => R i j - R i nu * R nu j / R nu nu := by
    ext i j
    rw [residual_append, houter]
    rfl
  have hpsd' : (residual M (s.vecs ++ [s.next])).PosSemidef := by
    rw [hres]; exact schur_psd h.psd nu hre
  have happ : ∀ i, M i i - (s.approx i + s.next i * star (s.next i)) =
      residual M (s.vecs ++ [s.next]) i i := by
    intro i
    rw [residual_append, ← h.approx]
    ring
  refine ⟨hpsd', happ, ?_, ?_⟩
  · set nu' := amax fun i => ‖M i i - (s.approx i + s.next i * star (s.next i))‖ with hnu2
    refine ⟨nu', ?_, ?_, ?_⟩
    · show ‖M nu' nu' - (s.approx nu' + s.next nu' * star (s.next nu'))‖ = _
      rw [happ]
      rfl
    · intro i
      show (M i nu' - ((s.vecs ++ [s.next]).map fun v => star (v nu') * v i).sum) / _ =
        residual M (s.vecs ++ [s.next]) i nu' / _
      congr 1
      unfold residual
      rw [Matrix.of_apply]
      congr 3
      funext v
      exact mul_comm _ _
    · intro i
      show ‖residual M (s.vecs ++ [s.next]) i i‖ ≤
        ‖M nu' nu' - (s.approx nu' + s.next nu' * star (s.next nu'))‖
      rw [← happ]
      exact ham (fun i => ‖M i i - (s.approx i + s.next i * star (s.next i))‖) i
  · obtain ⟨P, hcard, hP⟩ := h.done
    have hnot : nu ∉ P := by
      intro hm
      have h0 := hP nu hm
      have : R nu nu = 0 := h0
      rw [this] at hre
      exact hre rfl
    refine ⟨insert nu P, ?_, ?_⟩
    · rw [Finset.card_insert_of_notMem hnot, hcard]
      show _ = (s.vecs ++ [s.next]).length
      simp
    · intro p hp
      show residual M (s.vecs ++ [s.next]) p p = 0
      rw [hres, Matrix.of_apply]
      have hne : R nu nu ≠ 0 := fun h => hre (by rw [h]; rfl)
      rcases Finset.mem_insert.mp hp with rfl | hp
      · rw [mul_div_assoc, div_self hne, mul_one, sub_self]
      · have hpp : R p p = 0 := hP p hp
        -- the column of a vanishing diagonal element vanishes
        have hz : R nu p = 0 := by
          have h1 : ((Matrix.of fun i j => R i j - R i nu * R nu j / R nu nu).PosSemidef) :=
            schur_psd h.psd nu hre
          have h2 := (diag_nonneg h1 p).1
          rw [Matrix.of_apply, hpp, zero_sub, ← hRH nu p, hnu', mul_comm, Complex.star_def,
            Complex.mul_conj, Complex.neg_re, ← Complex.ofReal_div, Complex.ofReal_re] at h2
          have h3 : 0 ≤ Complex.normSq (R nu p) / s.dmax :=
            div_nonneg (Complex.normSq_nonneg _) hpos.le
          have h4 : Complex.normSq (R nu p) / s.dmax = 0 := by linarith
          rcases div_eq_zero_iff.mp h4 with h5 | h5
          · exact Complex.normSq_eq_zero.mp h5
          · exact absurd h5 hpos.ne'
        rw [hpp, hz, mul_zero, zero_div, sub_zero]

theorem inv_length {amax : (Fin n → ℝ) → Fin n} {M : Matrix (Fin n) (Fin n) ℂ} {s : State n}
    (h : Inv amax M s) (hpos : 0 < s.dmax) : s.vecs.length < n := by
  obtain ⟨P, hcard, hP⟩ := h.done
  obtain ⟨nu, hdm, _, _⟩ := h.pivot
  have hnot : nu ∉ P := by
    intro hm
    rw [hdm, hP nu hm, norm_zero] at hpos
    exact lt_irrefl _ hpos
  have := Finset.card_lt_univ_of_notMem hnot
  rw [Fintype.card_fin, hcard] at this
  exact this

theorem loop_spec (amax : (Fin n → ℝ) → Fin n) (ham : ∀ (x : Fin n → ℝ) i, x i ≤ x (amax x))
    (M : Matrix (Fin n) (Fin n) ℂ) (tol : ℝ) (ht : 0 ≤ tol) (free : Nat) (s : State n)
    (h : Inv amax M s) (vs : List (Fin n → ℂ)) (hl : loop amax M tol free s = some vs) :
    (∀ i j, ‖residual M vs i j‖ ≤ tol) ∧ vs.length ≤ n ∧ s.vecs.length ≤ vs.length ∧
      vs.length ≤ s.vecs.length + free := by
  classical
  induction free generalizing s with
  | zero =>
    rw [loop_zero] at hl
    split_ifs at hl with hgt
    cases hl
    obtain ⟨nu, hdm, _, hmax⟩ := h.pivot
    obtain ⟨P, hcard, _⟩ := h.done
    refine ⟨fun i j => norm_le_diag h.psd tol (fun i => (hmax i).trans (not_lt.mp hgt)) i j, ?_,
      le_refl _, le_refl _⟩
    rw [← hcard]
    simpa using Finset.card_le_univ P
  | succ k ih =>
    rw [loop_succ] at hl
    split_ifs at hl with hgt
    · have h' := step_inv amax ham M tol ht s h hgt
      obtain ⟨a1, a2, a3, a4⟩ := ih _ h' hl
      have hlen : (step amax M s).vecs.length = s.vecs.length + 1 := by
        show (s.vecs ++ [s.next]).length = _
        simp
      rw [hlen] at a3 a4
      exact ⟨a1, a2, by omega, by omega⟩
    · cases hl
      obtain ⟨nu, hdm, _, hmax⟩ := h.pivot
      obtain ⟨P, hcard, _⟩ := h.done
      refine ⟨fun i j => norm_le_diag h.psd tol (fun i => (hmax i).trans (not_lt.mp hgt)) i j, ?_,
        le_refl _, Nat.le_add_right _ _⟩
      rw [← hcard]
      simpa using Finset.card_le_univ P

/-- **C26**: for a positive semidefinite matrix the vectors returned reproduce every element within
the tolerance, there are at most as many as the dimension, and fewer than the limit. -/
theorem modifiedCholesky_spec (amax : (Fin n → ℝ) → Fin n) (ham : ∀ (x : Fin n → ℝ) i, x i ≤ x (amax x))
    (M : Matrix (Fin n) (Fin n) ℂ) (hM : M.PosSemidef) (tol : ℝ) (ht : 0 ≤ tol) (nmax : Nat)
    (vs : List (Fin n → ℂ)) (h : modifiedCholesky amax M tol nmax = some vs) :
    (∀ i j, ‖M i j - (vs.map fun v => v i * star (v j)).sum‖ ≤ tol) ∧ vs.length ≤ n ∧
      vs.length < nmax := by
  cases nmax with
  | zero => simp [modifiedCholesky] at h
  | succ k =>
    obtain ⟨h1, h2, _, h4⟩ := loop_spec amax ham M tol ht k _ (start_inv amax ham M hM) vs h
    have h0 : (start amax M).vecs.length = 0 := rfl
    rw [h0] at h4
    exact ⟨h1, h2, by omega⟩

theorem loop_exists (amax : (Fin n → ℝ) → Fin n) (ham : ∀ (x : Fin n → ℝ) i, x i ≤ x (amax x))
    (M : Matrix (Fin n) (Fin n) ℂ) (tol : ℝ) (ht : 0 ≤ tol) (free : Nat) (s : State n)
    (h : Inv amax M s) (hf : n ≤ s.vecs.length + free) : ∃ vs, loop amax M tol free s = some vs := by
  classical
  induction free generalizing s with
  | zero =>
    rw [loop_zero]
    by_cases hgt : s.dmax > tol
    · have := inv_length h (lt_of_le_of_lt ht hgt)
      omega
    · exact ⟨s.vecs, by rw [if_neg hgt]⟩
  | succ k ih =>
    rw [loop_succ]
    by_cases hgt : s.dmax > tol
    · rw [if_pos hgt]
      refine ih _ (step_inv amax ham M tol ht s h hgt) ?_
      show n ≤ (s.vecs ++ [s.next]).length + k
      simp
      omega
    · exact ⟨s.vecs, by rw [if_neg hgt]⟩

/-- **C26**: the decomposition succeeds if the limit exceeds the dimension. -/
theorem modifiedCholesky_exists (amax : (Fin n → ℝ) → Fin n) (ham : ∀ (x : Fin n → ℝ) i, x i ≤ x (amax x))
    (M : Matrix (Fin n) (Fin n) ℂ) (hM : M.PosSemidef) (tol : ℝ) (ht : 0 ≤ tol) (nmax : Nat)
    (hn : n < nmax) : ∃ vs, modifiedCholesky amax M tol nmax = some vs := by
  cases nmax with
  | zero => omega
  | succ k =>
    exact loop_exists amax ham M tol ht k _ (start_inv amax ham M hM) (by
      show n ≤ 0 + k
      omega)

theorem loop_limit (amax : (Fin n → ℝ) → Fin n) (M : Matrix (Fin n) (Fin n) ℂ) (tol : ℝ)
    (free free' : Nat) (s : State n) (vs : List (Fin n → ℂ)) (hl : loop amax M tol free s = some vs) :
    loop amax M tol free' s = if vs.length ≤ s.vecs.length + free' then some vs else none := by
  classical
  induction free generalizing s free' with
  | zero =>
    rw [loop_zero] at hl
    split_ifs at hl with hgt
    cases hl
    rw [if_pos (Nat.le_add_right _ _)]
    cases free' with
    | zero => rw [loop_zero, if_neg hgt]
    | succ f => rw [loop_succ, if_neg hgt]
  | succ k ih =>
    rw [loop_succ] at hl
    split_ifs at hl with hgt
    · have hlen : (step amax M s).vecs.length = s.vecs.length + 1 := by
        show (s.vecs ++ [s.next]).length = _
        simp
      have hge : ∀ f (t : State n) ws, loop amax M tol f t = some ws → t.vecs.length ≤ ws.length := by
        intro f
        induction f with
        | zero =>
          intro t ws h
          rw [loop_zero] at h
          split_ifs at h
          cases h
          exact le_refl _
        | succ f ihf =>
          intro t ws h
          rw [loop_succ] at h
          split_ifs at h
          · have := ihf _ _ h
            have e : (step amax M t).vecs.length = t.vecs.length + 1 := by
              show (t.vecs ++ [t.next]).length = _
              simp
            omega
          · cases h
            exact le_refl _
      have h1 := hge _ _ _ hl
      cases free' with
      | zero =>
        rw [loop_zero]
        rw [if_pos hgt, if_neg (by omega)]
      | succ f =>
        rw [loop_succ, if_pos hgt]
        rw [ih f _ hl, hlen]
        have : s.vecs.length + 1 + f = s.vecs.length + (f + 1) := by omega
        rw [this]
    · cases hl
      rw [if_pos (Nat.le_add_right _ _)]
      cases free' with
      | zero => rw [loop_zero, if_neg hgt]
      | succ f => rw [loop_succ, if_neg hgt]

/-- **C26**: how the limit acts: if the decomposition needs `m` vectors, then it succeeds, with the
same vectors, exactly for limits above `m`; otherwise an error is raised.  (So an error is also raised
when exactly the allowed number is needed.) -/
theorem modifiedCholesky_limit (amax : (Fin n → ℝ) → Fin n) (M : Matrix (Fin n) (Fin n) ℂ) (tol : ℝ)
    (nmax nmax' : Nat) (vs : List (Fin n → ℂ)) (h : modifiedCholesky amax M tol nmax = some vs) :
    modifiedCholesky amax M tol nmax' = if vs.length < nmax' then some vs else none := by
  cases nmax with
  | zero => simp [modifiedCholesky] at h
  | succ k =>
    cases nmax' with
    | zero => simp [modifiedCholesky]
    | succ k' =>
      have h1 := loop_limit amax M tol k k' _ vs h
      have h0 : (start amax M).vecs.length = 0 := rfl
      rw [h0, zero_add] at h1
      show loop amax M tol k' (start amax M) = _
      rw [h1]
      congr 1
      exact propext ⟨fun h => by omega, fun h => by omega⟩

/-- A first-maximum routine exists, so the hypotheses on `argmax` can be met. -/
theorem exists_argmax (hn : 0 < n) : ∃ amax : (Fin n → ℝ) → Fin n, ∀ (x : Fin n → ℝ) i, x i ≤ x (amax x) := by
  haveI : Nonempty (Fin n) := ⟨⟨0, hn⟩⟩
  choose f hf using fun x : Fin n → ℝ => Finite.exists_max x
  exact ⟨f, hf⟩

/-- The identity in two dimensions needs two vectors: it fails with limits 1 and 2, succeeds with 3. -/
example : ∃ (amax : (Fin 2 → ℝ) → Fin 2) (vs : List (Fin 2 → ℂ)),
    modifiedCholesky amax (1 : Matrix (Fin 2) (Fin 2) ℂ) (1 / 4) 3 = some vs ∧ vs.length = 2 ∧
    modifiedCholesky amax (1 : Matrix (Fin 2) (Fin 2) ℂ) (1 / 4) 2 = none := by
  obtain ⟨amax, ham⟩ := exists_argmax (n := 2) (by norm_num)
  have hM : (1 : Matrix (Fin 2) (Fin 2) ℂ).PosSemidef := Matrix.PosSemidef.one
  obtain ⟨vs, hvs⟩ := modifiedCholesky_exists amax ham 1 hM (1 / 4) (by norm_num) 3 (by norm_num)
  obtain ⟨h1, h2, _⟩ := modifiedCholesky_spec amax ham 1 hM (1 / 4) (by norm_num) 3 vs hvs
  have hlen : vs.length = 2 := by
    match vs, h1, h2 with
    | [], h1, _ =>
      have := h1 0 0
      norm_num at this
    | [v], h1, _ =>
      exfalso
      -- a single outer product cannot be close to the identity
      have a := h1 0 0
      have b := h1 1 1
      have c := h1 0 1
      simp only [List.map_cons, List.map_nil, List.sum_cons, List.sum_nil, add_zero,
        Matrix.one_apply_eq, Complex.star_def, Complex.mul_conj] at a b
      simp only [List.map_cons, List.map_nil, List.sum_cons, List.sum_nil, add_zero,
        Matrix.one_apply, Complex.star_def] at c
      rw [if_neg (by decide), zero_sub, norm_neg, norm_mul, Complex.norm_conj] at c
      rw [← Complex.ofReal_one, ← Complex.ofReal_sub, Complex.norm_real, Real.norm_eq_abs, abs_le,
        Complex.normSq_eq_norm_sq] at a b
      have p0 := norm_nonneg (v 0)
      have p1 := norm_nonneg (v 1)
      have q0 : 3 / 4 ≤ ‖v 0‖ := by nlinarith
      have q1 : 3 / 4 ≤ ‖v 1‖ := by nlinarith
      nlinarith
    | [_, _], _, _ => rfl
    | _ :: _ :: _ :: _, _, h2 => simp at h2
  refine ⟨amax, vs, hvs, hlen, ?_⟩
  rw [modifiedCholesky_limit amax (1 : Matrix (Fin 2) (Fin 2) ℂ) (1 / 4) 3 2 vs hvs, if_neg (by omega)]

end Verif.Chol
