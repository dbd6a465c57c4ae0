import Verif.Step.Props

/-!
# One free step of the Hubbard propagators and of the plane-wave propagator (C79)
-/

namespace Verif.Step

open MeasureTheory Finset Matrix
open Verif.Energy (ovl oneBody twoBody hamil)

variable {nx nb nu nd : Nat}

/-! ## Site operators -/

/-- The matrix of the occupation of a site. -/
noncomputable abbrev site (i : Fin nb) : Matrix (Fin nb) (Fin nb) ℂ := Matrix.single i i 1

theorem site_mul_site (i : Fin nb) : site i * site i = site i := by
  simp [site]

/-- Two electrons of the same spin are never on the same site. -/
theorem twoBody_site {k : Nat} (i : Fin nb) (A B : Matrix (Fin nb) (Fin k) ℂ) :
    twoBody (site i) (site i) A B = 0 := by
  rw [twoBody]
  refine sum_eq_zero fun a _ => sum_eq_zero fun b _ => ?_
  split_ifs with h
  · rfl
  · have hc : ∀ j, (site i : Matrix (Fin nb) (Fin nb) ℂ) *ᵥ B.col j = B i j • Pi.single i 1 := by
      intro j
      ext r
      simp [site, Matrix.mulVec, dotProduct, Matrix.single_apply, Pi.single_apply]
      by_cases hr : i = r
      · subst hr; simp
      · simp [hr, Ne.symm hr]
    rw [hc, hc, Matrix.mul_updateCol, Matrix.mul_updateCol, Matrix.mulVec_smul, Matrix.mulVec_smul,
      Matrix.det_updateCol_smul, Matrix.updateCol_comm _ h, Matrix.det_updateCol_smul]
    have : (((Aᴴ * B).updateCol b (Aᴴ *ᵥ Pi.single i 1)).updateCol a (Aᴴ *ᵥ Pi.single i 1)).det = 0 := by
      refine Matrix.det_zero_of_column_eq h fun r => ?_
      rw [Matrix.updateCol_self, Matrix.updateCol_ne (Ne.symm h), Matrix.updateCol_self]
    rw [this]; ring

/-- The number of electrons. -/
theorem oneBody_one {k : Nat} (A B : Matrix (Fin nb) (Fin k) ℂ) :
    oneBody 1 A B = k * ovl A B := by
  simp only [oneBody, Matrix.one_mulVec]
  have : ∀ i : Fin k, B.updateCol i (B.col i) = B := by
    intro i; ext r c
    by_cases h : c = i
    · subst h; simp
    · simp [h]
  simp only [this, ovl]
  simp

theorem sum_site : ∑ i : Fin nb, (site i : Matrix (Fin nb) (Fin nb) ℂ) = 1 := by
  ext r c
  simp only [Matrix.sum_apply, site, Matrix.single_apply, Matrix.one_apply]
  by_cases h : r = c
  · subst h; simp
  · rw [if_neg h]
    refine sum_eq_zero fun x _ => if_neg fun hx => h (hx.1.symm.trans hx.2)

theorem diagonal_eq (v : Fin nb → ℂ) : diagonal v = ∑ i, v i • (site i : Matrix (Fin nb) (Fin nb) ℂ) := by
  ext r c
  simp only [Matrix.sum_apply, Matrix.smul_apply, site, Matrix.single_apply, Matrix.diagonal_apply,
    smul_eq_mul]
  by_cases h : r = c
  · subst h; simp
  · rw [if_neg h]
    refine (sum_eq_zero fun x _ => ?_).symm
    rw [if_neg fun hx => h (hx.1.symm.trans hx.2), mul_zero]

theorem root_sq (x : ℝ) : root x * root x = x := by
  have : ((x : ℂ) ^ (1 / 2 : ℂ)) ^ 2 = x := by
    have := Complex.cpow_nat_inv_pow (x : ℂ) (n := 2) (by norm_num)
    rw [one_div]; exact_mod_cast this
  rw [root, ← sq, this]

theorem root_mul {dt : ℝ} (h : 0 ≤ dt) (u : ℝ) : root (dt * u) = (Real.sqrt dt : ℂ) * root u := by
  rcases h.eq_or_lt with rfl | h
  · simp [root]
  · by_cases hu : u = 0
    · simp [root, hu]
    · have hu' : (u : ℂ) ≠ 0 := by exact_mod_cast hu
      have hd : (dt : ℂ) ≠ 0 := by exact_mod_cast h.ne'
      rw [root, root, Complex.ofReal_mul, Complex.cpow_def_of_ne_zero (mul_ne_zero hd hu'),
        Complex.cpow_def_of_ne_zero hu', Complex.log_ofReal_mul h hu', add_mul, Complex.exp_add]
      congr 1
      rw [Real.sqrt_eq_rpow, Real.rpow_def_of_pos h]
      push_cast
      ring_nf

/-! ## Charge decomposition -/

/-- Matrix element of the Hubbard Hamiltonian `H1 + U ∑ n↑ n↓`. -/
noncomputable def hubbardElem (h1 : Fin 2 → Matrix (Fin nb) (Fin nb) ℂ) (U : ℝ)
    (Au Bu : Matrix (Fin nb) (Fin nu) ℂ) (Ad Bd : Matrix (Fin nb) (Fin nd) ℂ) : ℂ :=
  oneElem h1 Au Bu Ad Bd + U * ∑ i, oneBody (site i) Au Bu * oneBody (site i) Ad Bd

theorem sqElem_site (a b : ℂ) (i : Fin nb) (Au Bu : Matrix (Fin nb) (Fin nu) ℂ)
    (Ad Bd : Matrix (Fin nb) (Fin nd) ℂ) :
    sqElem (fun s => if s = 0 then a • site i else b • site i) Au Bu Ad Bd =
      a ^ 2 * (oneBody (site i) Au Bu * ovl Ad Bd) + b ^ 2 * (ovl Au Bu * oneBody (site i) Ad Bd) +
        2 * a * b * (oneBody (site i) Au Bu * oneBody (site i) Ad Bd) := by
  simp only [sqElem, if_true, Fin.isValue, one_ne_zero, if_false, smul_mul_smul_comm, site_mul_site,
    oneBody_smul, twoBody_smul_both, twoBody_site]
  ring

theorem oneElem_site (a b : ℂ) (i : Fin nb) (Au Bu : Matrix (Fin nb) (Fin nu) ℂ)
    (Ad Bd : Matrix (Fin nb) (Fin nd) ℂ) :
    oneElem (fun s => if s = 0 then a • site i else b • site i) Au Bu Ad Bd =
      a * (oneBody (site i) Au Bu * ovl Ad Bd) + b * (ovl Au Bu * oneBody (site i) Ad Bd) := by
  simp only [oneElem, if_true, Fin.isValue, one_ne_zero, if_false, oneBody_smul]
  ring

theorem sum_oneBody_site {k : Nat} (A B : Matrix (Fin nb) (Fin k) ℂ) :
    ∑ i, oneBody (site i) A B = k * ovl A B := by
  rw [← oneBody_sum, sum_site, oneBody_one]

/-- One generator for both decompositions. -/
theorem hubbard_generator (h1 : Fin 2 → Matrix (Fin nb) (Fin nb) ℂ) (v a b m : ℂ) (mf : Fin nb → ℂ)
    (Au Bu : Matrix (Fin nb) (Fin nu) ℂ) (Ad Bd : Matrix (Fin nb) (Fin nd) ℂ) :
    generator (fun s => h1 s + v • 1 - m • diagonal mf)
      (fun i s => if s = 0 then a • site i else b • site i) mf Au Bu Ad Bd =
      -(oneElem h1 Au Bu Ad Bd - a * b * ∑ i, oneBody (site i) Au Bu * oneBody (site i) Ad Bd) +
      (a ^ 2 / 2 - v) * (nu * (ovl Au Bu * ovl Ad Bd)) + (b ^ 2 / 2 - v) * (nd * (ovl Au Bu * ovl Ad Bd)) +
      (m - a) * (∑ i, mf i * oneBody (site i) Au Bu) * ovl Ad Bd +
      (m - b) * ovl Au Bu * (∑ i, mf i * oneBody (site i) Ad Bd) +
      1 / 2 * (∑ i, mf i * mf i) * (ovl Au Bu * ovl Ad Bd) := by
  have hd : ∀ {k : Nat} (A B : Matrix (Fin nb) (Fin k) ℂ), oneBody (diagonal mf) A B =
      ∑ i, mf i * oneBody (site i) A B := by
    intro k A B
    rw [diagonal_eq, oneBody_sum]
    exact sum_congr rfl fun i _ => oneBody_smul _ _ _ _
  have hK : oneElem (fun s => h1 s + v • 1 - m • diagonal mf) Au Bu Ad Bd = oneElem h1 Au Bu Ad Bd +
      v * ((nu + nd) * (ovl Au Bu * ovl Ad Bd)) - m * ((∑ i, mf i * oneBody (site i) Au Bu) * ovl Ad Bd +
        ovl Au Bu * ∑ i, mf i * oneBody (site i) Ad Bd) := by
    simp only [oneElem, oneBody_sub, oneBody_add, oneBody_smul, oneBody_one, hd]
    ring
  rw [generator, hK]
  have e : ∀ i, (1 / 2 : ℂ) * (sqElem (fun s => if s = 0 then a • site i else b • site i) Au Bu Ad Bd -
      2 * mf i * oneElem (fun s => if s = 0 then a • site i else b • site i) Au Bu Ad Bd +
      mf i ^ 2 * (ovl Au Bu * ovl Ad Bd)) =
      a ^ 2 / 2 * ovl Ad Bd * oneBody (site i) Au Bu + b ^ 2 / 2 * ovl Au Bu * oneBody (site i) Ad Bd +
      a * b * (oneBody (site i) Au Bu * oneBody (site i) Ad Bd) -
      a * ovl Ad Bd * (mf i * oneBody (site i) Au Bu) - b * ovl Au Bu * (mf i * oneBody (site i) Ad Bd) +
      1 / 2 * (ovl Au Bu * ovl Ad Bd) * (mf i * mf i) := by
    intro i; rw [sqElem_site, oneElem_site]; ring
  simp only [e, sum_add_distrib, sum_sub_distrib, ← mul_sum, sum_oneBody_site]
  ring

/-- **C79 (Hubbard model, charge decomposition)**: for every `U` of either sign, with or without the
symmetric form; the symmetric form has the Hamiltonian `H1 + U ∑ n↑ n↓ - U/2 (n↑ + n↓)`, and then the
constant contains `-U` for each electron. -/
theorem charge_first_order (n : Nat) (hn : 2 ≤ n) (h : Hub nb) (mf : Fin nb → ℂ)
    (psi A : Slater.Wfn nb nu nd) (e : ℂ) (w : Slater.Wk nb nu nd) :
    FirstOrder (fun dt xi => propagateFree n dt (h.charge dt mf) psi e xi w) w A
      (hubbardElem h.h1 h.U (Slater.up A) (Slater.up w.phi) (Slater.dn A) (Slater.dn w.phi) -
        if h.symmetric then (1 / 2 * h.U : ℂ) * ((nu + nd) * ovl2 A w.phi) else 0)
      (1 / 2 * ∑ a, mf a * mf a - (if h.symmetric then (h.U : ℂ) * (nu + nd) else 0) + e) := by
  refine free_first_order n hn (fun dt => h.charge dt mf)
    (fun s => h.h1 s + (if h.symmetric then (0 : ℂ) else -(1 / 2 * h.U : ℂ)) • 1 -
      (Complex.I * root h.U) • diagonal mf)
    (fun i s => if s = 0 then (Complex.I * root h.U) • site i else (Complex.I * root h.U) • site i) mf
    (fun _ => rfl) (fun dt s => ?_) (fun dt _ x s => ?_) psi A e w _ _ ?_
  · simp only [Hub.charge, Hub.h1eMod]
    split_ifs with hs
    · rw [zero_smul, add_zero]
    · rw [neg_smul, ← sub_eq_add_neg]
  · simp only [Hub.charge, ite_self]
    rw [diagonal_eq, smul_sum]
    refine sum_congr rfl fun i _ => ?_
    rw [smul_smul, smul_smul]
    congr 1
    ring
  · rw [hubbard_generator, hubbardElem, ovl2]
    have hI : Complex.I * root h.U * (Complex.I * root h.U) = -(h.U : ℂ) := by
      have := root_sq h.U
      linear_combination (Complex.I * Complex.I) * this + (h.U : ℂ) * Complex.I_mul_I
    have hI2 : (Complex.I * root h.U) ^ 2 = -(h.U : ℂ) := by rw [sq, hI]
    rw [hI, hI2]
    split_ifs <;> ring

/-! ## Spin decomposition -/

/-- The spin decomposition, any mean-field shift: the matrix element lacks the shift of the up
electrons twice. -/
theorem spin_exact (n : Nat) (hn : 2 ≤ n) (h : Hub nb) (mf : Fin nb → ℂ)
    (psi A : Slater.Wfn nb nu nd) (e : ℂ) (w : Slater.Wk nb nu nd) :
    FirstOrder (fun dt xi => propagateFree n dt (h.spin dt mf) psi e xi w) w A
      (hubbardElem h.h1 h.U (Slater.up A) (Slater.up w.phi) (Slater.dn A) (Slater.dn w.phi) -
        2 * root h.U * (∑ i, mf i * oneBody (site i) (Slater.up A) (Slater.up w.phi)) *
          ovl (Slater.dn A) (Slater.dn w.phi))
      (1 / 2 * ∑ a, mf a * mf a + e) := by
  refine free_first_order n hn (fun dt => h.spin dt mf)
    (fun s => h.h1 s + (1 / 2 * h.U : ℂ) • 1 - root h.U • diagonal mf)
    (fun i s => if s = 0 then (-root h.U) • site i else root h.U • site i) mf
    (fun _ => rfl) (fun dt s => rfl) (fun dt h0 x s => ?_) psi A e w _ _ ?_
  · simp only [Hub.spin, root_mul h0]
    split_ifs with hs <;>
    · rw [diagonal_eq, smul_sum]
      refine sum_congr rfl fun i _ => ?_
      rw [smul_smul, smul_smul]
      congr 1
      ring
  · rw [hubbard_generator, hubbardElem, ovl2]
    have h1 := root_sq h.U
    have h2 : root h.U ^ 2 = (h.U : ℂ) := by rw [sq, h1]
    have h3 : -root h.U * root h.U = -(h.U : ℂ) := by rw [neg_mul, h1]
    have h4 : (-root h.U) ^ 2 = (h.U : ℂ) := by rw [neg_sq, h2]
    rw [h2, h3, h4]
    ring

/-- **C79 (spin decomposition, partial)**: correct when the trial is not spin polarised, so that the
mean-field shift is zero. -/
theorem spin_first_order_partial (n : Nat) (hn : 2 ≤ n) (h : Hub nb)
    (G : Fin 2 → Matrix (Fin nb) (Fin nb) ℂ) (hG : ∀ i, G 0 i i = G 1 i i)
    (psi A : Slater.Wfn nb nu nd) (e : ℂ) (w : Slater.Wk nb nu nd) :
    FirstOrder (fun dt xi => propagateFree n dt (h.spin dt (h.mfShiftSpin G)) psi e xi w) w A
      (hubbardElem h.h1 h.U (Slater.up A) (Slater.up w.phi) (Slater.dn A) (Slater.dn w.phi)) e := by
  have h0 : h.mfShiftSpin G = fun _ => 0 := by
    funext i; rw [Hub.mfShiftSpin, hG, sub_self, mul_zero]
  have := spin_exact n hn h (h.mfShiftSpin G) psi A e w
  rw [h0] at this ⊢
  simpa using this

/-! ## Plane waves -/

/-- Normal-ordered matrix element of a product of two one-body operators of both spins. -/
noncomputable def pairElem (S T : Matrix (Fin nb) (Fin nb) ℂ) (Au Bu : Matrix (Fin nb) (Fin nu) ℂ)
    (Ad Bd : Matrix (Fin nb) (Fin nd) ℂ) : ℂ :=
  twoBody S T Au Bu * ovl Ad Bd + ovl Au Bu * twoBody S T Ad Bd + oneBody S Au Bu * oneBody T Ad Bd +
    oneBody T Au Bu * oneBody S Ad Bd

/-- Matrix element of `∑ ε_p n_p + 1/2 ∑ (pr|qs) p† q† s r`. -/
noncomputable def coulombElem (h1 : Fin 2 → Matrix (Fin nb) (Fin nb) ℂ) (eri : Energy.Eri nb)
    (Au Bu : Matrix (Fin nb) (Fin nu) ℂ) (Ad Bd : Matrix (Fin nb) (Fin nd) ℂ) : ℂ :=
  oneElem h1 Au Bu Ad Bd + (1 / 2 : ℂ) * ∑ p, ∑ r, ∑ q, ∑ s,
    eri p r q s * pairElem (Matrix.single p r 1) (Matrix.single q s 1) Au Bu Ad Bd

section Wave

variable (Au Bu : Matrix (Fin nb) (Fin nu) ℂ) (Ad Bd : Matrix (Fin nb) (Fin nd) ℂ)

/-- Product of two operators in a fixed pair of determinants, as a bilinear form. -/
noncomputable def prodElem (S T : Matrix (Fin nb) (Fin nb) ℂ) : ℂ :=
  oneElem (fun _ => S * T) Au Bu Ad Bd + pairElem S T Au Bu Ad Bd

theorem twoBody_add_right (S T T' : Matrix (Fin nb) (Fin nb) ℂ) {k : Nat} (A B : Matrix (Fin nb) (Fin k) ℂ) :
    twoBody S (T + T') A B = twoBody S T A B + twoBody S T' A B := by
  rw [twoBody_symm, twoBody_add_left, twoBody_symm T, twoBody_symm T']

theorem twoBody_smul_right (r : ℂ) (S T : Matrix (Fin nb) (Fin nb) ℂ) {k : Nat}
    (A B : Matrix (Fin nb) (Fin k) ℂ) : twoBody S (r • T) A B = r * twoBody S T A B := by
  rw [twoBody_symm, twoBody_smul_left, twoBody_symm]

/-- The bilinear form. -/
noncomputable def prodForm : Matrix (Fin nb) (Fin nb) ℂ →ₗ[ℂ] Matrix (Fin nb) (Fin nb) ℂ →ₗ[ℂ] ℂ :=
  LinearMap.mk₂ ℂ (prodElem Au Bu Ad Bd)
    (by intro a b c; simp only [prodElem, pairElem, oneElem, Matrix.add_mul, oneBody_add, twoBody_add_left]; ring)
    (by intro a b c; simp only [prodElem, pairElem, oneElem, Matrix.smul_mul, oneBody_smul,
          twoBody_smul_left, smul_eq_mul]; ring)
    (by intro a b c; simp only [prodElem, pairElem, oneElem, Matrix.mul_add, oneBody_add, twoBody_add_right]; ring)
    (by intro a b c; simp only [prodElem, pairElem, oneElem, Matrix.mul_smul, oneBody_smul,
          twoBody_smul_right, smul_eq_mul]; ring)

/-- The linear form. -/
noncomputable def oneForm : Matrix (Fin nb) (Fin nb) ℂ →ₗ[ℂ] ℂ where
  toFun S := oneElem (fun _ => S) Au Bu Ad Bd
  map_add' S T := by simp only [oneElem, oneBody_add]; ring
  map_smul' r S := by simp only [oneElem, oneBody_smul, RingHom.id_apply, smul_eq_mul]; ring

/-- Operators whose products of two have the given matrix elements. -/
noncomputable def rep : Matrix (Fin nb) (Fin nb) ℂ →ₗ[ℂ]
    Module.End ℂ (ℂ × Matrix (Fin nb) (Fin nb) ℂ × ℂ) where
  toFun X := LinearMap.prod 0 (LinearMap.prod ((LinearMap.fst ℂ ℂ _).smulRight X)
    ((prodForm Au Bu Ad Bd X).comp ((LinearMap.fst ℂ _ ℂ).comp (LinearMap.snd ℂ ℂ _))))
  map_add' X Y := by
    ext <;> simp
  map_smul' r X := by
    ext <;> simp

/-- Matrix element of a product of at most two of the operators. -/
noncomputable def elem : Module.End ℂ (ℂ × Matrix (Fin nb) (Fin nb) ℂ × ℂ) →ₗ[ℂ] ℂ where
  toFun f := oneForm Au Bu Ad Bd (f (1, 0, 0)).2.1 + (f (1, 0, 0)).2.2
  map_add' f g := by simp; ring
  map_smul' r f := by simp; ring

theorem elem_rep (X : Matrix (Fin nb) (Fin nb) ℂ) :
    elem Au Bu Ad Bd (rep Au Bu Ad Bd X) = oneElem (fun _ => X) Au Bu Ad Bd := by
  simp [elem, rep, oneForm]

theorem elem_rep_mul (X Y : Matrix (Fin nb) (Fin nb) ℂ) :
    elem Au Bu Ad Bd (rep Au Bu Ad Bd X * rep Au Bu Ad Bd Y) = prodElem Au Bu Ad Bd X Y := by
  simp [elem, rep, prodForm]

end Wave

end Verif.Step
