import Verif.LangFirsov.Props
import Mathlib.Analysis.SpecialFunctions.Gaussian.FourierTransform
import Mathlib.MeasureTheory.Integral.IntegralEqImproper

/-!
# C98: the local energy in phonon momenta

Model of `local_energy_hubbard_holstein_momentum` (`pauxy/estimators/hubbard.py` 2-49): the energy of walkers with phonon momenta after the
Lang-Firsov transformation, which moves the phonons of a site by `gamma` for every electron there.
-/

namespace Verif.LangFirsov

open Matrix MeasureTheory
open Verif.Holstein
open Verif.Energy (dot2 ovl oneBody)

variable {n na nb : Nat}

/-- `T` with the phases of the momenta, hubbard.py 19-22. -/
noncomputable def phased (y : Sys n) (γ : ℝ) (P : Fin n → ℝ) (σ : Fin 2) : Matrix (Fin n) (Fin n) ℂ :=
  let Dp := fun i => Complex.exp (Complex.I * γ * P i)
  Matrix.diagonal Dp * y.T σ * Matrix.diagonal fun i => star (Dp i)

open Classical in
/-- `local_energy_hubbard_holstein_momentum`, hubbard.py 19-49: the total energy, none if the assertion of line 27 fails.  The energy of
line 32 for the symmetric form is overwritten in line 34. -/
noncomputable def momentumEnergy (y : Sys n) (γ : ℝ) (G : Fin 2 → Matrix (Fin n) (Fin n) ℂ) (P : Fin n → ℝ) (Lap : Fin n → ℝ) : Option ℂ :=
  let ke := dot2 (phased y γ P 0) (G 0) + dot2 (phased y γ P 1) (G 1)
  let r := Real.sqrt (2 * y.m * y.w)
  if γ * y.w = y.g * r then
    let Ueff : ℝ := y.U + γ ^ 2 * y.w - 2 * y.g * γ * r
    let pe := (Ueff : ℂ) * ∑ i, G 0 i i * G 1 i i
    let pePh := ((-(1 / 2) * y.w ^ 2 * y.m * ∑ i, Lap i : ℝ) : ℂ)
    let kePh := ((1 / 2 * (∑ i, P i * P i) / y.m - 1 / 2 * y.w * n : ℝ) : ℂ)
    let eEph := ((γ ^ 2 * y.w / 2 - y.g * γ * r : ℝ) : ℂ) * ∑ i, (G 0 i i + G 1 i i)
    some (ke + pe + pePh + kePh + eEph)
  else none

/-! ## Specification -/

/-- A plane wave of the phonons. -/
noncomputable def plane (P X : Fin n → ℝ) : ℂ := ∏ i, Complex.exp (Complex.I * P i * X i)

/-- A walker: a determinant and phonon momenta. -/
noncomputable def planeWave (φ : Det n na nb) (P : Fin n → ℝ) : Wave n na nb := fun x z X => amp φ.up x * amp φ.dn z * plane P X

/-- The trial: a determinant and the oscillators' ground state with mean momentum `s`. -/
noncomputable def trialWave (y : Sys n) (d : Det n na nb) (s : Fin n → ℝ) : Wave n na nb := fun x z X =>
  amp d.up x * amp d.dn z * ((gprod (y.m * y.w / 2) (fun _ => 0) X : ℂ) * plane s X)

/-- The phonons move by `γ` for every electron. -/
noncomputable def move (γ : ℝ) (Ψ : Wave n na nb) : Wave n na nb := fun x z X => Ψ x z fun i => X i - γ * ((occ x i : ℝ) + occ z i)

/-- The Hamiltonian after the transformation. -/
noncomputable def transformed (y : Sys n) (γ : ℝ) (Ψ : Wave n na nb) : Wave n na nb := fun x z X =>
  ham y (move γ Ψ) x z fun i => X i + γ * ((occ x i : ℝ) + occ z i)

/-- The transformation keeps the scalar product, and `transformed` is the Hamiltonian seen through it. -/
theorem transformed_inner (y : Sys n) (γ : ℝ) (Φ Ψ : Wave n na nb) :
    inner Φ (transformed y γ Ψ) = inner (move γ Φ) (ham y (move γ Ψ)) ∧ inner (move γ Φ) (move γ Ψ) = inner Φ Ψ := by
  refine ⟨?_, ?_⟩
  · refine Finset.sum_congr rfl fun x _ => Finset.sum_congr rfl fun z _ => ?_
    rw [← integral_add_right_eq_self (fun X => star (move γ Φ x z X) * ham y (move γ Ψ) x z X) fun i => γ * ((occ x i : ℝ) + occ z i)]
    refine integral_congr_ae (Filter.Eventually.of_forall fun X => ?_)
    simp only [move, Pi.add_apply, add_sub_cancel_right]
    rfl
  · refine Finset.sum_congr rfl fun x _ => Finset.sum_congr rfl fun z _ => ?_
    exact integral_sub_right_eq_self (fun X => star (Φ x z X) * Ψ x z X) fun i => γ * ((occ x i : ℝ) + occ z i)

/-! ## Gaussians and plane waves -/

section Gauss

variable (a : ℝ) (ha : 0 < a) (q : ℝ)

noncomputable def gw (x : ℝ) : ℂ := Complex.exp (-a * x ^ 2 + Complex.I * q * x)

theorem gw_norm (x : ℝ) : ‖gw a q x‖ = Real.exp (-a * x ^ 2) := by
  rw [gw, Complex.norm_exp]
  congr 1
  rw [show (-(a : ℂ) * (x : ℂ) ^ 2 + Complex.I * q * x) = ((-a * x ^ 2 : ℝ) : ℂ) + ((q * x : ℝ) : ℂ) * Complex.I by push_cast; ring,
    Complex.add_re, Complex.re_ofReal_mul, Complex.I_re, mul_zero, add_zero, Complex.ofReal_re]

theorem gw_cont : Continuous (gw a q) := by
  unfold gw
  fun_prop

include ha in
theorem gw_int (k : Nat) : Integrable fun x : ℝ => (x : ℂ) ^ k * gw a q x := by
  have h := (integrable_rpow_mul_exp_neg_mul_sq ha (s := (k : ℝ)) (by have := Nat.cast_nonneg (α := ℝ) k; linarith)).norm
  refine h.mono' ((Continuous.mul (by fun_prop) (gw_cont a q)).aestronglyMeasurable) (Filter.Eventually.of_forall fun x => ?_)
  rw [norm_mul, gw_norm, norm_mul, Real.rpow_natCast, norm_pow, norm_pow, Complex.norm_real, Real.norm_of_nonneg (Real.exp_pos _).le]

theorem gw_deriv (x : ℝ) : HasDerivAt (gw a q) ((-2 * a * x + Complex.I * q) * gw a q x) x := by
  have h0 : HasDerivAt (fun z : ℂ => -(a : ℂ) * z ^ 2 + Complex.I * q * z) (-(a : ℂ) * (2 * (x : ℂ)) + Complex.I * q * 1) (x : ℂ) := by
    have h1 := ((hasDerivAt_id (x : ℂ)).pow 2).const_mul (-(a : ℂ))
    have h2 := (hasDerivAt_id (x : ℂ)).const_mul (Complex.I * q)
    refine (h1.add h2).congr_deriv ?_
    simp
  refine (h0.cexp.comp_ofReal).congr_deriv ?_
  rw [gw]
  ring

include ha in
theorem gw_first : ∫ x : ℝ, (x : ℂ) * gw a q x = Complex.I * q / (2 * a) * ∫ x, gw a q x := by
  have h0 : Integrable (gw a q) := by simpa using gw_int a ha q 0
  have h1 : Integrable fun x : ℝ => (x : ℂ) * gw a q x := by simpa using gw_int a ha q 1
  have h := integral_eq_zero_of_hasDerivAt_of_integrable (gw_deriv a q) (by
    have := (h1.const_mul (-2 * a : ℂ)).add (h0.const_mul (Complex.I * q))
    refine this.congr (Filter.Eventually.of_forall fun x => ?_)
    simp only [Pi.add_apply]
    ring) h0
  have e : ∀ x : ℝ, (-2 * (a : ℂ) * x + Complex.I * q) * gw a q x = (-2 * a : ℂ) * ((x : ℂ) * gw a q x) + Complex.I * q * gw a q x := by
    intro x
    ring
  simp only [e] at h
  rw [integral_add (h1.const_mul _) (h0.const_mul _), integral_const_mul, integral_const_mul] at h
  have ha' : (a : ℂ) ≠ 0 := Complex.ofReal_ne_zero.mpr ha.ne'
  field_simp
  linear_combination -h

include ha in
theorem gw_second : ∫ x : ℝ, (x : ℂ) ^ 2 * gw a q x = (1 / (2 * a) - (q / (2 * a)) ^ 2) * ∫ x, gw a q x := by
  have h0 : Integrable (gw a q) := by simpa using gw_int a ha q 0
  have h1 : Integrable fun x : ℝ => (x : ℂ) * gw a q x := by simpa using gw_int a ha q 1
  have h2 := gw_int a ha q 2
  have hd : ∀ x : ℝ, HasDerivAt (fun x : ℝ => (x : ℂ) * gw a q x) (1 * gw a q x + x * ((-2 * a * x + Complex.I * q) * gw a q x)) x := fun x =>
    (hasDerivAt_id (x : ℂ)).comp_ofReal.mul (gw_deriv a q x)
  have e : ∀ x : ℝ, 1 * gw a q x + x * ((-2 * (a : ℂ) * x + Complex.I * q) * gw a q x) = gw a q x + (-2 * a : ℂ) * ((x : ℂ) ^ 2 * gw a q x) +
      Complex.I * q * ((x : ℂ) * gw a q x) := by
    intro x
    ring
  simp only [e] at hd
  have h := integral_eq_zero_of_hasDerivAt_of_integrable hd ((h0.add (h2.const_mul _)).add (h1.const_mul _)) h1
  have h3 : Integrable fun x : ℝ => gw a q x + (-2 * a : ℂ) * ((x : ℂ) ^ 2 * gw a q x) := h0.add (h2.const_mul _)
  rw [integral_add h3 (h1.const_mul _), integral_add h0 (h2.const_mul _), integral_const_mul, integral_const_mul,
    gw_first a ha] at h
  have ha' : (a : ℂ) ≠ 0 := Complex.ofReal_ne_zero.mpr ha.ne'
  field_simp
  field_simp at h
  linear_combination -h + q ^ 2 * (∫ x, gw a q x) * Complex.I_sq

include ha in
theorem gw_ne : ∫ x, gw a q x ≠ 0 := by
  have h := fourierIntegral_gaussian (b := (a : ℂ)) (by simpa using ha) (q : ℂ)
  have e : ∀ x : ℝ, Complex.exp (Complex.I * q * x) * Complex.exp (-(a : ℂ) * (x : ℂ) ^ 2) = gw a q x := by
    intro x
    rw [gw, Complex.exp_add, mul_comm]
  simp only [e] at h
  rw [h]
  refine mul_ne_zero ?_ (Complex.exp_ne_zero _)
  rw [Complex.cpow_ne_zero_iff]
  left
  exact div_ne_zero (Complex.ofReal_ne_zero.mpr Real.pi_ne_zero) (Complex.ofReal_ne_zero.mpr ha.ne')

end Gauss

noncomputable def gws (a : ℝ) (q X : Fin n → ℝ) : ℂ := ∏ i, gw a (q i) (X i)

noncomputable def zq (a : ℝ) (q : Fin n → ℝ) : ℂ := ∏ i, ∫ x, gw a (q i) x

theorem zq_ne (a : ℝ) (ha : 0 < a) (q : Fin n → ℝ) : zq a q ≠ 0 := Finset.prod_ne_zero_iff.mpr fun i _ => gw_ne a ha (q i)

theorem hasInt_gws (a : ℝ) (ha : 0 < a) (q : Fin n → ℝ) : HasInt (gws a q) (zq a q) :=
  ⟨Integrable.fintype_prod (f := fun i x => gw a (q i) x) fun i => by simpa using gw_int a ha (q i) 0,
    integral_fintype_prod_volume_eq_prod (𝕜 := ℂ) fun i x => gw a (q i) x⟩

theorem hasInt_gws_sq (a : ℝ) (ha : 0 < a) (q : Fin n → ℝ) (j : Fin n) :
    HasInt (fun X => (X j : ℂ) ^ 2 * gws a q X) ((1 / (2 * a) - (q j / (2 * a)) ^ 2) * zq a q) := by
  have h : ∀ X : Fin n → ℝ, (X j : ℂ) ^ 2 * gws a q X = ∏ i, ((X i : ℂ) ^ (if i = j then 2 else 0) * gw a (q i) (X i)) := by
    intro X
    rw [Finset.prod_mul_distrib, gws]
    congr 1
    rw [Finset.prod_eq_single j]
    · simp
    · intro i _ hi
      simp [hi]
    · simp
  refine ⟨?_, ?_⟩
  · simp only [h]
    exact Integrable.fintype_prod (f := fun i (x : ℝ) => (x : ℂ) ^ (if i = j then 2 else 0) * gw a (q i) x) fun i => gw_int a ha (q i) _
  · simp only [h]
    rw [integral_fintype_prod_volume_eq_prod (𝕜 := ℂ) fun i (x : ℝ) => (x : ℂ) ^ (if i = j then 2 else 0) * gw a (q i) x, zq,
      ← Finset.mul_prod_erase _ _ (Finset.mem_univ j), ← Finset.mul_prod_erase _ (fun i => ∫ x, gw a (q i) x) (Finset.mem_univ j), if_pos rfl,
      gw_second a ha, mul_assoc]
    congr 2
    refine Finset.prod_congr rfl fun i hi => ?_
    rw [if_neg (Finset.ne_of_mem_erase hi)]
    simp

theorem star_trial (a : ℝ) (s P X : Fin n → ℝ) :
    star ((gprod a (fun _ => 0) X : ℂ) * plane s X) * plane P X = gws a (fun i => P i - s i) X := by
  rw [star_mul', gprod, plane, plane, Complex.ofReal_prod, star_prod, star_prod, ← Finset.prod_mul_distrib, ← Finset.prod_mul_distrib, gws]
  refine Finset.prod_congr rfl fun i _ => ?_
  rw [gw, Complex.star_def, Complex.conj_ofReal, ← Complex.exp_conj, Complex.ofReal_exp, ← Complex.exp_add, ← Complex.exp_add]
  congr 1
  simp only [map_mul, Complex.conj_I, Complex.conj_ofReal]
  push_cast
  ring

/-! ## The transformed Hamiltonian on a walker -/

theorem plane_update (P X : Fin n → ℝ) (i : Fin n) (t : ℝ) :
    plane P (Function.update X i t) = Complex.exp (Complex.I * P i * t) * ∏ j ∈ Finset.univ.erase i, Complex.exp (Complex.I * P j * X j) := by
  rw [plane, ← Finset.mul_prod_erase _ _ (Finset.mem_univ i), Function.update_self]
  congr 1
  exact Finset.prod_congr rfl fun j hj => by rw [Function.update_of_ne (Finset.ne_of_mem_erase hj)]

theorem plane_add (P X v : Fin n → ℝ) : plane P (fun i => X i + v i) = plane P X * Complex.exp (Complex.I * ∑ i, (P i : ℂ) * v i) := by
  rw [plane, plane, Finset.mul_sum, Complex.exp_sum, ← Finset.prod_mul_distrib]
  refine Finset.prod_congr rfl fun i _ => ?_
  rw [← Complex.exp_add]
  congr 1
  push_cast
  ring

theorem second_plane (c : ℂ) (P X : Fin n → ℝ) (i : Fin n) : second (fun X => c * plane P X) X i = -(P i : ℂ) ^ 2 * (c * plane P X) := by
  have hd : ∀ t : ℝ, HasDerivAt (fun t : ℝ => plane P (Function.update X i t)) (Complex.I * P i * plane P (Function.update X i t)) t := by
    intro t
    simp only [plane_update]
    have h0 : HasDerivAt (fun t : ℝ => Complex.exp (Complex.I * P i * t)) (Complex.exp (Complex.I * P i * t) * (Complex.I * P i * 1)) t :=
      (((hasDerivAt_id (t : ℂ)).const_mul (Complex.I * P i)).cexp).comp_ofReal
    refine (h0.mul_const _).congr_deriv ?_
    ring
  have h1 : deriv (fun t => c * plane P (Function.update X i t)) = fun t => c * (Complex.I * P i * plane P (Function.update X i t)) :=
    funext fun t => ((hd t).const_mul c).deriv
  rw [second, h1, (((hd (X i)).const_mul (Complex.I * P i)).const_mul c).deriv, Function.update_eq_self]
  linear_combination c * (P i : ℂ) ^ 2 * plane P X * Complex.I_sq

theorem phased_apply (y : Sys n) (γ : ℝ) (P : Fin n → ℝ) (σ : Fin 2) (i j : Fin n) :
    phased y γ P σ i j = y.T σ i j * Complex.exp (Complex.I * (γ * P i - γ * P j)) := by
  rw [phased, Matrix.mul_diagonal, Matrix.diagonal_mul, Complex.star_def, ← Complex.exp_conj, mul_comm (Complex.exp _), mul_assoc, ← Complex.exp_add]
  congr 2
  simp only [map_mul, Complex.conj_I, Complex.conj_ofReal]
  ring

theorem move_plane (φ : Det n na nb) (γ : ℝ) (P : Fin n → ℝ) (x : Fin na → Fin n) (z : Fin nb → Fin n) :
    move γ (planeWave φ P) x z = fun X => amp φ.up x * amp φ.dn z * Complex.exp (Complex.I * ∑ i, (P i : ℂ) * (-(γ * ((occ x i : ℝ) + occ z i)) : ℝ)) *
      plane P X := by
  funext X
  have := plane_add P X fun i => -(γ * ((occ x i : ℝ) + occ z i))
  simp only [move, planeWave, sub_eq_add_neg]
  rw [this]
  ring

theorem hop_plane (T : Matrix (Fin n) (Fin n) ℂ) (A : Matrix (Fin n) (Fin na) ℂ) (γ : ℝ) (P X : Fin n → ℝ) (x : Fin na → Fin n)
    (z : Fin nb → Fin n) (b : ℂ) :
    hop T (fun x' => amp A x' * b * plane P (fun i => X i + γ * ((occ x i : ℝ) + occ z i) - γ * ((occ x' i : ℝ) + occ z i))) x =
      plane P X * (hop (Matrix.of fun i j => T i j * Complex.exp (Complex.I * (γ * P i - γ * P j))) (amp A) x * b) := by
  simp only [hop]
  rw [Finset.sum_mul, Finset.mul_sum]
  refine Finset.sum_congr rfl fun e _ => ?_
  rw [Finset.sum_mul, Finset.mul_sum]
  refine Finset.sum_congr rfl fun j _ => ?_
  have h := plane_add P X fun i => γ * ((if x e = i then 1 else 0) - if j = i then 1 else 0)
  have h2 : (fun i => X i + γ * ((occ x i : ℝ) + occ z i) - γ * ((occ (Function.update x e j) i : ℝ) + occ z i)) =
      fun i => X i + γ * ((if x e = i then 1 else 0) - if j = i then 1 else 0) := by
    funext i
    rw [occ_update]
    ring
  have h3 : ∑ i, (P i : ℂ) * ((γ * ((if x e = i then 1 else 0) - if j = i then 1 else 0) : ℝ) : ℂ) = γ * P (x e) - γ * P j := by
    have : ∀ i, (P i : ℂ) * ((γ * ((if x e = i then 1 else 0) - if j = i then 1 else 0) : ℝ) : ℂ) =
        (if x e = i then (γ : ℂ) * P i else 0) - if j = i then (γ : ℂ) * P i else 0 := by
      intro i
      split_ifs <;> push_cast <;> ring
    simp only [this, Finset.sum_sub_distrib, Finset.sum_ite_eq, Finset.mem_univ, if_true]
  rw [h2, h, h3, Matrix.of_apply]
  ring

theorem phased_of (y : Sys n) (γ : ℝ) (P : Fin n → ℝ) (σ : Fin 2) :
    phased y γ P σ = Matrix.of fun i j => y.T σ i j * Complex.exp (Complex.I * (γ * P i - γ * P j)) := by
  ext i j
  rw [phased_apply, Matrix.of_apply]

/-- The transformed Hamiltonian on a walker: the hopping gets the phases, electrons and phonons are decoupled. -/
theorem transformed_plane (y : Sys n) (γ : ℝ) (hγ : γ * y.m * y.w ^ 2 = y.g * Real.sqrt (2 * y.m * y.w)) (φ : Det n na nb) (P : Fin n → ℝ)
    (x : Fin na → Fin n) (z : Fin nb → Fin n) (X : Fin n → ℝ) : transformed y γ (planeWave φ P) x z X =
      plane P X * (hop (phased y γ P 0) (amp φ.up) x * amp φ.dn z + amp φ.up x * hop (phased y γ P 1) (amp φ.dn) z +
        (((∑ i, P i ^ 2 / (2 * y.m) + 1 / 2 * y.m * y.w ^ 2 * ∑ i, X i ^ 2 : ℝ) : ℂ) +
        ∑ i, ((γ ^ 2 * y.m * y.w ^ 2 / 2 - y.g * γ * Real.sqrt (2 * y.m * y.w) : ℝ) : ℂ) * ((occ x i : ℂ) + occ z i) +
        ∑ i, ((y.U + γ ^ 2 * y.m * y.w ^ 2 - 2 * y.g * γ * Real.sqrt (2 * y.m * y.w) : ℝ) : ℂ) * ((occ x i : ℂ) * occ z i)) *
          (amp φ.up x * amp φ.dn z)) := by
  have hu : hop (y.T 0) (fun x' => move γ (planeWave φ P) x' z fun i => X i + γ * ((occ x i : ℝ) + occ z i)) x =
      plane P X * (hop (phased y γ P 0) (amp φ.up) x * amp φ.dn z) := by
    rw [phased_of]
    exact hop_plane (y.T 0) φ.up γ P X x z (amp φ.dn z)
  have hd : hop (y.T 1) (fun z' => move γ (planeWave φ P) x z' fun i => X i + γ * ((occ x i : ℝ) + occ z i)) z =
      plane P X * (amp φ.up x * hop (phased y γ P 1) (amp φ.dn) z) := by
    rw [phased_of, mul_comm (amp φ.up x), ← hop_plane (y.T 1) φ.dn γ P X z x (amp φ.up x)]
    congr 1
    funext z'
    simp only [move, planeWave]
    rw [mul_comm (amp φ.up x)]
    congr 2
    funext i
    ring
  have hv : move γ (planeWave φ P) x z (fun i => X i + γ * ((occ x i : ℝ) + occ z i)) = amp φ.up x * amp φ.dn z * plane P X := by
    simp only [move, planeWave, add_sub_cancel_right]
  have hph : phonon y.m y.w (move γ (planeWave φ P) x z) (fun i => X i + γ * ((occ x i : ℝ) + occ z i)) =
      (∑ i, ((P i ^ 2 / (2 * y.m) + 1 / 2 * y.m * y.w ^ 2 * (X i + γ * ((occ x i : ℝ) + occ z i)) ^ 2 : ℝ) : ℂ)) *
        (amp φ.up x * amp φ.dn z * plane P X) := by
    rw [phonon, Finset.sum_mul]
    refine Finset.sum_congr rfl fun i _ => ?_
    rw [hv]
    rw [move_plane, second_plane]
    have := congrFun (move_plane φ γ P x z) (fun i => X i + γ * ((occ x i : ℝ) + occ z i))
    rw [hv] at this
    rw [← this, Complex.real_smul, Complex.real_smul]
    push_cast
    ring
  rw [transformed, ham, hu, hd, hv, hph]
  by_cases h0 : amp φ.up x * amp φ.dn z = 0
  · rw [h0]
    ring
  have hx : ∀ i, (occ x i : ℂ) ^ 2 = occ x i := fun i => by
    exact_mod_cast (amp_occ φ.up x i).resolve_left (left_ne_zero_of_mul h0)
  have hz : ∀ i, (occ z i : ℂ) ^ 2 = occ z i := fun i => by
    exact_mod_cast (amp_occ φ.dn z i).resolve_left (right_ne_zero_of_mul h0)
  have hγ' : (γ : ℂ) * y.m * y.w ^ 2 = y.g * (Real.sqrt (2 * y.m * y.w) : ℂ) := by exact_mod_cast congrArg (Complex.ofReal) hγ
  have key : (y.U : ℂ) * (∑ i, (occ x i : ℂ) * occ z i) +
      (∑ i, ((P i ^ 2 / (2 * y.m) + 1 / 2 * y.m * y.w ^ 2 * (X i + γ * ((occ x i : ℝ) + occ z i)) ^ 2 : ℝ) : ℂ)) -
      y.g * (Real.sqrt (2 * y.m * y.w) : ℂ) * (∑ i, ((X i + γ * ((occ x i : ℝ) + occ z i) : ℝ) : ℂ) * (occ x i + occ z i)) =
      ((∑ i, P i ^ 2 / (2 * y.m) + 1 / 2 * y.m * y.w ^ 2 * ∑ i, X i ^ 2 : ℝ) : ℂ) +
        ∑ i, ((γ ^ 2 * y.m * y.w ^ 2 / 2 - y.g * γ * Real.sqrt (2 * y.m * y.w) : ℝ) : ℂ) * ((occ x i : ℂ) + occ z i) +
        ∑ i, ((y.U + γ ^ 2 * y.m * y.w ^ 2 - 2 * y.g * γ * Real.sqrt (2 * y.m * y.w) : ℝ) : ℂ) * ((occ x i : ℂ) * occ z i) := by
    push_cast
    simp only [Finset.mul_sum]
    rw [← Finset.sum_add_distrib, ← Finset.sum_sub_distrib, ← Finset.sum_add_distrib, ← Finset.sum_add_distrib, ← Finset.sum_add_distrib]
    refine Finset.sum_congr rfl fun i _ => ?_
    linear_combination (1 / 2 * (y.m : ℂ) * (y.w : ℂ) ^ 2 * (γ : ℂ) ^ 2 - y.g * (Real.sqrt (2 * y.m * y.w) : ℂ) * γ) * (hx i + hz i) +
      (X i : ℂ) * ((occ x i : ℂ) + occ z i) * hγ'
  linear_combination (plane P X * (amp φ.up x * amp φ.dn z)) * key

/-- Sums over the electrons between two determinants. -/
theorem sum_config (d φ : Det n na nb) (hu : ovl d.up φ.up ≠ 0) (hd : ovl d.dn φ.dn ≠ 0) (S T : Matrix (Fin n) (Fin n) ℂ) (k : ℂ)
    (c u : Fin n → ℂ) : ∑ x, ∑ z, star (amp d.up x * amp d.dn z) * (hop S (amp φ.up) x * amp φ.dn z + amp φ.up x * hop T (amp φ.dn) z +
      (k + ∑ i, c i * ((occ x i : ℂ) + occ z i) + ∑ i, u i * ((occ x i : ℂ) * occ z i)) * (amp φ.up x * amp φ.dn z)) =
      ((S * greens d φ 0).trace + (T * greens d φ 1).trace + (k + ∑ i, c i * (greens d φ 0 i i + greens d φ 1 i i) +
        ∑ i, u i * (greens d φ 0 i i * greens d φ 1 i i))) * (na.factorial * ovl d.up φ.up * (nb.factorial * ovl d.dn φ.dn)) := by
  have hterm : ∀ x z, star (amp d.up x * amp d.dn z) * (hop S (amp φ.up) x * amp φ.dn z + amp φ.up x * hop T (amp φ.dn) z +
      (k + ∑ i, c i * ((occ x i : ℂ) + occ z i) + ∑ i, u i * ((occ x i : ℂ) * occ z i)) * (amp φ.up x * amp φ.dn z)) =
      star (amp d.up x * amp d.dn z) * (hop S (amp φ.up) x * amp φ.dn z) +
      star (amp d.up x * amp d.dn z) * (amp φ.up x * hop T (amp φ.dn) z) +
      (k * (star (amp d.up x * amp d.dn z) * (amp φ.up x * amp φ.dn z)) +
      ∑ i, c i * (star (amp d.up x * amp d.dn z) * (hop (Matrix.single i i 1) (amp φ.up) x * amp φ.dn z) +
          star (amp d.up x * amp d.dn z) * (amp φ.up x * hop (Matrix.single i i 1) (amp φ.dn) z)) +
      ∑ i, u i * (star (amp d.up x * amp d.dn z) * (hop (Matrix.single i i 1) (amp φ.up) x * hop (Matrix.single i i 1) (amp φ.dn) z))) := by
    intro x z
    simp only [hop_occ]
    rw [mul_add, mul_add]
    congr 1
    rw [add_mul, add_mul, mul_add, mul_add, Finset.sum_mul, Finset.sum_mul]
    congr 1
    · congr 1
      · ring
      · rw [Finset.mul_sum]
        exact Finset.sum_congr rfl fun i _ => by ring
    · rw [Finset.mul_sum]
      exact Finset.sum_congr rfl fun i _ => by ring
  have hs : ∀ F : (Fin na → Fin n) → (Fin nb → Fin n) → Fin n → ℂ, ∑ x, ∑ z, ∑ i, F x z i = ∑ i, ∑ x, ∑ z, F x z i := by
    intro F
    rw [Finset.sum_comm]
    rw [Finset.sum_congr rfl fun z _ => Finset.sum_comm (s := Finset.univ) (t := Finset.univ) (f := fun x i => F x z i)]
    rw [Finset.sum_comm]
    exact Finset.sum_congr rfl fun i _ => Finset.sum_comm
  simp only [hterm, Finset.sum_add_distrib, hs, ← Finset.mul_sum, sum_two, amp_sum, hop_sum, Energy.oneBody_eq _ _ _ hu,
    Energy.oneBody_eq _ _ _ hd, single_trace, greens, Matrix.cons_val_zero, Matrix.cons_val_one, pull_one, pull_two]
  ring

theorem pull_const {α β : Type*} [Fintype α] [Fintype β] (c : ℂ) (F : α → β → ℂ) : ∑ x, ∑ z, c * F x z = c * ∑ x, ∑ z, F x z := by
  simp only [Finset.mul_sum]

theorem plane_norm (y : Sys n) (ha : 0 < y.m * y.w / 2) (d φ : Det n na nb) (s P : Fin n → ℝ) :
    inner (trialWave y d s) (planeWave φ P) =
      zq (y.m * y.w / 2) (fun i => P i - s i) * (na.factorial * ovl d.up φ.up * (nb.factorial * ovl d.dn φ.dn)) := by
  have h : ∀ x z, ∫ X, star (trialWave y d s x z X) * planeWave φ P x z X =
      zq (y.m * y.w / 2) (fun i => P i - s i) * (star (amp d.up x * amp d.dn z) * (amp φ.up x * amp φ.dn z)) := by
    intro x z
    refine (((hasInt_gws _ ha fun i => P i - s i).const_mul (star (amp d.up x * amp d.dn z) * (amp φ.up x * amp φ.dn z))).congr ?_ ?_).2
    · intro X
      rw [trialWave, planeWave, star_mul' (amp d.up x * amp d.dn z), ← star_trial]
      ring
    · ring
  simp only [inner, h, ← Finset.mul_sum]
  rw [sum_two, amp_sum, amp_sum]

/-- **C98 (momenta)**: if the assertion passes and `m w = 1`, the energy of a walker with phonon momenta is
`⟨Ψ_T|H'|P, φ⟩ / ⟨Ψ_T|P, φ⟩` less the zero-point energy for the transformed Hamiltonian `H'`, for every hopping. -/
theorem momentum_eq_partial (y : Sys n) (hm : 0 < y.m) (hw : 0 < y.w) (hmw : y.m * y.w = 1) (γ : ℝ) (d φ : Det n na nb)
    (hu : ovl d.up φ.up ≠ 0) (hd : ovl d.dn φ.dn ≠ 0) (s P : Fin n → ℝ) (e : ℂ)
    (he : momentumEnergy y γ (fun σ => (greens d φ σ)ᵀ) P ((⟨y.m, y.w, s⟩ : Osc n).laplacianP P) = some e) :
    inner (trialWave y d s) (planeWave φ P) ≠ 0 ∧
      e = inner (trialWave y d s) (transformed y γ (planeWave φ P)) / inner (trialWave y d s) (planeWave φ P) - 1 / 2 * y.w * n := by
  have ha : 0 < y.m * y.w / 2 := by positivity
  have hw2 : y.m * y.w ^ 2 = y.w := by linear_combination y.w * hmw
  have hne : inner (trialWave y d s) (planeWave φ P) ≠ 0 := by
    rw [plane_norm y ha]
    have h1 : (na.factorial : ℂ) ≠ 0 := by exact_mod_cast na.factorial_ne_zero
    have h2 : (nb.factorial : ℂ) ≠ 0 := by exact_mod_cast nb.factorial_ne_zero
    exact mul_ne_zero (zq_ne _ ha _) (mul_ne_zero (mul_ne_zero h1 hu) (mul_ne_zero h2 hd))
  refine ⟨hne, ?_⟩
  rw [momentumEnergy] at he
  split_ifs at he with hγ
  have hγ' : γ * y.m * y.w ^ 2 = y.g * Real.sqrt (2 * y.m * y.w) := by rw [← hγ, mul_assoc, hw2]
  rw [eq_sub_iff_add_eq, eq_div_iff hne, plane_norm y ha]
  have h : ∀ x z, ∫ X, star (trialWave y d s x z X) * transformed y γ (planeWave φ P) x z X =
      zq (y.m * y.w / 2) (fun i => P i - s i) * (star (amp d.up x * amp d.dn z) * (hop (phased y γ P 0) (amp φ.up) x * amp φ.dn z +
        amp φ.up x * hop (phased y γ P 1) (amp φ.dn) z +
        (((∑ i, P i ^ 2 / (2 * y.m) + 1 / 2 * y.m * y.w ^ 2 * ∑ i, (1 / (y.m * y.w) - ((P i - s i) / (y.m * y.w)) ^ 2) : ℝ) : ℂ) +
        ∑ i, ((γ ^ 2 * y.m * y.w ^ 2 / 2 - y.g * γ * Real.sqrt (2 * y.m * y.w) : ℝ) : ℂ) * ((occ x i : ℂ) + occ z i) +
        ∑ i, ((y.U + γ ^ 2 * y.m * y.w ^ 2 - 2 * y.g * γ * Real.sqrt (2 * y.m * y.w) : ℝ) : ℂ) * ((occ x i : ℂ) * occ z i)) *
          (amp φ.up x * amp φ.dn z))) := by
    intro x z
    have h0 := hasInt_gws _ ha fun i => P i - s i
    have h2 := (HasInt.sum Finset.univ fun i => hasInt_gws_sq _ ha (fun i => P i - s i) i).const_mul
      (star (amp d.up x * amp d.dn z) * (1 / 2 * y.m * y.w ^ 2) * (amp φ.up x * amp φ.dn z))
    refine (((h0.const_mul (star (amp d.up x * amp d.dn z) * (hop (phased y γ P 0) (amp φ.up) x * amp φ.dn z +
        amp φ.up x * hop (phased y γ P 1) (amp φ.dn) z +
        (((∑ i, P i ^ 2 / (2 * y.m) : ℝ) : ℂ) +
        ∑ i, ((γ ^ 2 * y.m * y.w ^ 2 / 2 - y.g * γ * Real.sqrt (2 * y.m * y.w) : ℝ) : ℂ) * ((occ x i : ℂ) + occ z i) +
        ∑ i, ((y.U + γ ^ 2 * y.m * y.w ^ 2 - 2 * y.g * γ * Real.sqrt (2 * y.m * y.w) : ℝ) : ℂ) * ((occ x i : ℂ) * occ z i)) *
          (amp φ.up x * amp φ.dn z)))).add h2).congr ?_ ?_).2
    · intro X
      rw [transformed_plane y γ hγ', trialWave, star_mul' (amp d.up x * amp d.dn z)]
      have hst := star_trial (y.m * y.w / 2) s P X
      rw [← Finset.sum_mul, ← hst]
      push_cast
      ring
    · rw [← Finset.sum_mul]
      have : ∀ i, (1 / (2 * ((y.m * y.w / 2 : ℝ) : ℂ)) - (((P i - s i : ℝ) : ℂ) / (2 * ((y.m * y.w / 2 : ℝ) : ℂ))) ^ 2) =
          1 / ((y.m : ℂ) * y.w) - (((P i : ℂ) - s i) / ((y.m : ℂ) * y.w)) ^ 2 := by
        intro i
        push_cast
        rw [show 2 * ((y.m : ℂ) * y.w / 2) = (y.m : ℂ) * y.w by ring]
      simp only [this]
      push_cast
      ring
  rw [inner]
  simp only [h]
  rw [pull_const, sum_config d φ hu hd, mul_left_comm]
  congr 1
  congr 1
  have he := Option.some.inj he
  rw [← he, dot2_trace, dot2_trace]
  have hl : -(1 / 2) * y.w ^ 2 * y.m * ∑ i, (⟨y.m, y.w, s⟩ : Osc n).laplacianP P i =
      1 / 2 * y.m * y.w ^ 2 * ∑ i, (1 / (y.m * y.w) - ((P i - s i) / (y.m * y.w)) ^ 2) := by
    rw [Finset.mul_sum, Finset.mul_sum]
    refine Finset.sum_congr rfl fun i _ => ?_
    simp only [Osc.laplacianP]
    ring
  have hk : 1 / 2 * (∑ i, P i * P i) / y.m = ∑ i, P i ^ 2 / (2 * y.m) := by
    rw [mul_div_assoc, Finset.sum_div, Finset.mul_sum]
    exact Finset.sum_congr rfl fun i _ => by ring
  simp only [Matrix.transpose_apply, hl, hk, mul_assoc (γ ^ 2) y.m, hw2, ← Finset.mul_sum]
  push_cast
  ring

/-- The code's `gamma` decouples electrons and phonons, and is the best displacement of a site with one electron. -/
theorem gammaLF_decouples (y : Sys n) (hm : 0 < y.m) (hw : 0 < y.w) :
    gammaLF y * y.m * y.w ^ 2 = y.g * Real.sqrt (2 * y.m * y.w) ∧
      (∀ γ : ℝ, -(y.g ^ 2 / y.w) ≤ γ ^ 2 * y.m * y.w ^ 2 / 2 - y.g * γ * Real.sqrt (2 * y.m * y.w)) ∧
      gammaLF y ^ 2 * y.m * y.w ^ 2 / 2 - y.g * gammaLF y * Real.sqrt (2 * y.m * y.w) = -(y.g ^ 2 / y.w) := by
  have hr : Real.sqrt (2 * y.m * y.w) ^ 2 = 2 * y.m * y.w := Real.sq_sqrt (by positivity)
  have hs : Real.sqrt (2 / (y.m * y.w ^ 3)) * (y.m * y.w ^ 2) = Real.sqrt (2 * y.m * y.w) := by
    rw [← Real.sqrt_sq (show 0 ≤ y.m * y.w ^ 2 by positivity), ← Real.sqrt_mul (by positivity)]
    congr 1
    field_simp
  have h1 : gammaLF y * y.m * y.w ^ 2 = y.g * Real.sqrt (2 * y.m * y.w) := by
    rw [gammaLF, mul_assoc, mul_assoc, hs]
  have h2 : ∀ γ : ℝ, γ ^ 2 * y.m * y.w ^ 2 / 2 - y.g * γ * Real.sqrt (2 * y.m * y.w) =
      (γ * y.m * y.w ^ 2 - y.g * Real.sqrt (2 * y.m * y.w)) ^ 2 / (2 * y.m * y.w ^ 2) - y.g ^ 2 / y.w := by
    intro γ
    generalize Real.sqrt (2 * y.m * y.w) = r at hr
    field_simp
    linear_combination (-(y.g ^ 2)) * hr
  refine ⟨h1, fun γ => ?_, ?_⟩
  · rw [h2]
    have : 0 ≤ (γ * y.m * y.w ^ 2 - y.g * Real.sqrt (2 * y.m * y.w)) ^ 2 / (2 * y.m * y.w ^ 2) := by positivity
    linarith
  · rw [h2, h1]
    ring

/-- **C98 fails** for other masses: with the code's `gamma` the assertion passes only without coupling or for `m w = 1`. -/
theorem momentum_asserts (y : Sys n) (hm : 0 < y.m) (hw : 0 < y.w) (G : Fin 2 → Matrix (Fin n) (Fin n) ℂ) (P Lap : Fin n → ℝ) :
    momentumEnergy y (gammaLF y) G P Lap ≠ none ↔ y.g = 0 ∨ y.m * y.w = 1 := by
  have h1 := (gammaLF_decouples y hm hw).1
  have hr : 0 < Real.sqrt (2 * y.m * y.w) := Real.sqrt_pos.mpr (by positivity)
  rw [momentumEnergy]
  split_ifs with h
  · refine ⟨fun _ => ?_, fun _ => by simp⟩
    by_cases hg : y.g = 0
    · exact Or.inl hg
    right
    have hne : y.g * Real.sqrt (2 * y.m * y.w) ≠ 0 := mul_ne_zero hg hr.ne'
    have h3 : y.m * y.w * (y.g * Real.sqrt (2 * y.m * y.w)) = y.g * Real.sqrt (2 * y.m * y.w) := by
      rw [← h]
      linear_combination h1 - h
    exact mul_right_cancel₀ hne (h3.trans (one_mul _).symm)
  · refine ⟨fun hh => absurd rfl hh, ?_⟩
    rintro (hg | hmw)
    · exact absurd (by simp [gammaLF, hg]) h
    · refine absurd ?_ h
      linear_combination h1 - gammaLF y * y.w * hmw

end Verif.LangFirsov
