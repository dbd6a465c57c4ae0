import Verif.LangFirsov.Model

/-!
# C98: the energy of the Lang-Firsov trial is its expectation value
-/

namespace Verif.LangFirsov

open Matrix MeasureTheory
open Verif.Holstein
open Verif.Energy (dot2 ovl oneBody)

variable {n na nb : Nat}

/-- The displacement of the phonons for given sites of the electrons. -/
noncomputable def disp (γ shift : Fin n → ℝ) (x : Fin na → Fin n) (z : Fin nb → Fin n) (i : Fin n) : ℝ :=
  shift i + γ i * ((occ x i : ℝ) + occ z i)

/-! ## Phonon part -/

theorem second_gprod (a : ℝ) (c : ℂ) (s X : Fin n → ℝ) (i : Fin n) :
    second (fun X => c * (gprod a s X : ℂ)) X i = c * ((second (gprod a s) X i : ℝ) : ℂ) := by
  have h1 : deriv (fun t => c * (gprod a s (Function.update X i t) : ℂ)) =
      fun t => c * ((-2 * a * (t - s i) * gprod a s (Function.update X i t) : ℝ) : ℂ) :=
    funext fun t => ((gprod_deriv a s X i t).ofReal_comp.const_mul c).deriv
  have h2 : HasDerivAt (fun t : ℝ => -2 * a * (t - s i)) (-2 * a * 1) (X i) :=
    ((hasDerivAt_id (X i)).sub_const (s i)).const_mul (-2 * a)
  have h3 := ((h2.mul (gprod_deriv a s X i (X i))).ofReal_comp.const_mul c).deriv
  rw [second, h1, gprod_second]
  refine h3.trans ?_
  rw [Function.update_eq_self]
  congr 2
  ring

theorem phonon_wave (m w : ℝ) (c : ℂ) (t X : Fin n → ℝ) : phonon m w (fun X => c * (gprod (m * w / 2) t X : ℂ)) X =
    c * ((phonon m w (gprod (m * w / 2) t) X : ℝ) : ℂ) := by
  simp only [phonon, second_gprod]
  push_cast
  rw [Finset.mul_sum]
  refine Finset.sum_congr rfl fun i _ => ?_
  simp only [smul_eq_mul, Complex.real_smul]
  push_cast
  ring

/-! ## The phonons between two places of an electron -/

theorem ovl_hop_up (y : Sys n) (h : 0 ≤ y.m * y.w) (γ shift : Fin n → ℝ) (x : Fin na → Fin n) (z : Fin nb → Fin n) (a : Fin na) (j : Fin n) :
    cohOvl (y.m * y.w / 2) (disp γ shift x z) (disp γ shift (Function.update x a j) z) = if x a = j then 1 else
      Real.exp (-(γ (x a) * Real.sqrt (y.m * y.w / 2)) ^ 2 / 2) * Real.exp (-(γ j * Real.sqrt (y.m * y.w / 2)) ^ 2 / 2) := by
  have hs : Real.sqrt (y.m * y.w / 2) ^ 2 = y.m * y.w / 2 := Real.sq_sqrt (by linarith)
  have hd : ∀ i, disp γ shift x z i - disp γ shift (Function.update x a j) z i =
      γ i * ((if x a = i then 1 else 0) - if j = i then 1 else 0) := by
    intro i
    simp only [disp, occ_update]
    ring
  simp only [cohOvl, hd]
  split_ifs with hx
  · subst hx
    simp
  · rw [← Finset.mul_prod_erase _ _ (Finset.mem_univ (x a)), ← Finset.mul_prod_erase _ _ (Finset.mem_erase.2 ⟨Ne.symm hx, Finset.mem_univ j⟩),
      Finset.prod_eq_one, mul_one]
    · rw [if_pos rfl, if_neg (Ne.symm hx), if_neg hx, if_pos rfl]
      congr 1
      · congr 1
        linear_combination (γ (x a) ^ 2 / 2) * hs
      · congr 1
        linear_combination (γ j ^ 2 / 2) * hs
    · intro i hi
      have h1 : i ≠ j := Finset.ne_of_mem_erase hi
      have h2 : i ≠ x a := Finset.ne_of_mem_erase (Finset.mem_of_mem_erase hi)
      rw [if_neg (Ne.symm h2), if_neg (Ne.symm h1)]
      simp

theorem disp_swap (γ shift : Fin n → ℝ) (x : Fin na → Fin n) (z : Fin nb → Fin n) : disp γ shift x z = disp γ shift z x := by
  funext i
  simp only [disp]
  ring

theorem ovl_self (a : ℝ) (s : Fin n → ℝ) : cohOvl a s s = 1 := by simp [cohOvl]

/-! ## Integrals over the phonons -/

/-- Integrable with this integral. -/
def HasInt (F : (Fin n → ℝ) → ℂ) (v : ℂ) : Prop := Integrable F ∧ ∫ X, F X = v

theorem HasInt.add {F G : (Fin n → ℝ) → ℂ} {v w : ℂ} (hF : HasInt F v) (hG : HasInt G w) : HasInt (fun X => F X + G X) (v + w) :=
  ⟨hF.1.add hG.1, by rw [integral_add hF.1 hG.1, hF.2, hG.2]⟩

theorem HasInt.sub {F G : (Fin n → ℝ) → ℂ} {v w : ℂ} (hF : HasInt F v) (hG : HasInt G w) : HasInt (fun X => F X - G X) (v - w) :=
  ⟨hF.1.sub hG.1, by rw [integral_sub hF.1 hG.1, hF.2, hG.2]⟩

theorem HasInt.const_mul {F : (Fin n → ℝ) → ℂ} {v : ℂ} (hF : HasInt F v) (c : ℂ) : HasInt (fun X => c * F X) (c * v) :=
  ⟨hF.1.const_mul c, by rw [integral_const_mul, hF.2]⟩

theorem HasInt.sum {ι : Type*} (S : Finset ι) {F : ι → (Fin n → ℝ) → ℂ} {v : ι → ℂ} (hF : ∀ i, HasInt (F i) (v i)) :
    HasInt (fun X => ∑ i ∈ S, F i X) (∑ i ∈ S, v i) :=
  ⟨integrable_finsetSum _ fun i _ => (hF i).1, by
    rw [integral_finsetSum _ fun i _ => (hF i).1]
    exact Finset.sum_congr rfl fun i _ => (hF i).2⟩

theorem HasInt.congr {F G : (Fin n → ℝ) → ℂ} {v w : ℂ} (hF : HasInt F v) (h : ∀ X, G X = F X) (hv : w = v) : HasInt G w := by
  have : G = F := funext h
  rw [this, hv]
  exact hF

theorem hasInt_ovl (a : ℝ) (ha : 0 < a) (s t : Fin n → ℝ) :
    HasInt (fun X => ((gprod a s X * gprod a t X : ℝ) : ℂ)) ((znorm n a * cohOvl a s t : ℝ) : ℂ) :=
  ⟨(gprod_integrable a ha s t).ofReal, by rw [integral_complex_ofReal, gprod_overlap]⟩

theorem hasInt_first (a : ℝ) (ha : 0 < a) (s : Fin n → ℝ) (j : Fin n) :
    HasInt (fun X => ((X j * (gprod a s X * gprod a s X) : ℝ) : ℂ)) ((znorm n a * s j : ℝ) : ℂ) :=
  ⟨(gprod_first_integrable a ha s s j).ofReal, by
    rw [integral_complex_ofReal, gprod_first a ha, ovl_self]
    congr 1
    ring⟩

theorem hasInt_phonon (m w : ℝ) (hm : 0 < m) (hw : 0 < w) (s : Fin n → ℝ) :
    HasInt (fun X => ((gprod (m * w / 2) s X * phonon m w (gprod (m * w / 2) s) X : ℝ) : ℂ))
      ((znorm n (m * w / 2) * (1 / 2 * m * w ^ 2 * ∑ i, s i ^ 2 + 1 / 2 * w * n) : ℝ) : ℂ) := by
  have ha : 0 < m * w / 2 := by positivity
  have h1 := (HasInt.sum Finset.univ fun i => ((hasInt_first _ ha s i).const_mul (2 * s i : ℂ)).sub
    ((hasInt_ovl _ ha s s).const_mul ((s i : ℂ) ^ 2))).const_mul (1 / 2 * m * w ^ 2 : ℂ)
  refine (h1.add ((hasInt_ovl _ ha s s).const_mul (1 / 2 * w * n : ℂ))).congr ?_ ?_
  · intro X
    rw [phonon_gprod m w hm.ne']
    push_cast
    rw [mul_left_comm, add_mul, mul_assoc (1 / 2 * (m : ℂ) * (w : ℂ) ^ 2), Finset.sum_mul]
    congr 2
    exact Finset.sum_congr rfl fun i _ => by ring
  · rw [ovl_self]
    push_cast
    rw [mul_add, mul_left_comm, Finset.mul_sum]
    congr 1
    · congr 1
      exact Finset.sum_congr rfl fun i _ => by ring
    · ring

/-! ## The expectation value -/

/-- Hopping with the overlap of the phonons. -/
noncomputable def trueT (y : Sys n) (γ : Fin n → ℝ) (σ : Fin 2) : Matrix (Fin n) (Fin n) ℂ :=
  Matrix.of fun i j => if i = j then y.T σ i j else dressed y γ σ i j

/-- Interactions of electrons at given sites. -/
noncomputable def inter (y : Sys n) (γ shift : Fin n → ℝ) (x : Fin na → Fin n) (z : Fin nb → Fin n) : ℂ :=
  y.U * (∑ i, (occ x i : ℂ) * occ z i) + ((1 / 2 * y.m * y.w ^ 2 * ∑ i, disp γ shift x z i ^ 2 + 1 / 2 * y.w * n : ℝ) : ℂ) -
    y.g * (Real.sqrt (2 * y.m * y.w) : ℂ) * ∑ i, ((disp γ shift x z i : ℝ) : ℂ) * (occ x i + occ z i)

theorem lfWave_eq (y : Sys n) (d : Det n na nb) (γ shift : Fin n → ℝ) (x : Fin na → Fin n) (z : Fin nb → Fin n) (X : Fin n → ℝ) :
    lfWave y d γ shift x z X = amp d.up x * amp d.dn z * (gprod (y.m * y.w / 2) (disp γ shift x z) X : ℂ) := rfl

theorem star_lf (y : Sys n) (d : Det n na nb) (γ shift : Fin n → ℝ) (x : Fin na → Fin n) (z : Fin nb → Fin n) (X : Fin n → ℝ) :
    star (lfWave y d γ shift x z X) = star (amp d.up x * amp d.dn z) * (gprod (y.m * y.w / 2) (disp γ shift x z) X : ℂ) := by
  rw [lfWave_eq, star_mul', show star (gprod (y.m * y.w / 2) (disp γ shift x z) X : ℂ) = _ from Complex.conj_ofReal _]

theorem phonon_wave_lf (y : Sys n) (d : Det n na nb) (γ shift : Fin n → ℝ) (x : Fin na → Fin n) (z : Fin nb → Fin n) (X : Fin n → ℝ) :
    phonon y.m y.w (lfWave y d γ shift x z) X = amp d.up x * amp d.dn z *
      ((phonon y.m y.w (gprod (y.m * y.w / 2) (disp γ shift x z)) X : ℝ) : ℂ) :=
  phonon_wave y.m y.w _ _ X

/-- One configuration of the electrons. -/
theorem hasInt_config (y : Sys n) (hm : 0 < y.m) (hw : 0 < y.w) (d : Det n na nb) (γ shift : Fin n → ℝ) (x : Fin na → Fin n)
    (z : Fin nb → Fin n) :
    HasInt (fun X => star (lfWave y d γ shift x z X) * ham y (lfWave y d γ shift) x z X)
      ((znorm n (y.m * y.w / 2) : ℂ) * (star (amp d.up x * amp d.dn z) * (hop (trueT y γ 0) (amp d.up) x * amp d.dn z +
        amp d.up x * hop (trueT y γ 1) (amp d.dn) z + inter y γ shift x z * (amp d.up x * amp d.dn z)))) := by
  have ha : 0 < y.m * y.w / 2 := by positivity
  have hmw : 0 ≤ y.m * y.w := by positivity
  set a := y.m * y.w / 2 with hadef
  set c := star (amp d.up x * amp d.dn z) with hc
  -- the terms
  have hu := HasInt.sum Finset.univ fun i : Fin na => HasInt.sum Finset.univ fun j : Fin n =>
    (hasInt_ovl a ha (disp γ shift x z) (disp γ shift (Function.update x i j) z)).const_mul
      (c * (y.T 0 (x i) j * (amp d.up (Function.update x i j) * amp d.dn z)))
  have hd := HasInt.sum Finset.univ fun i : Fin nb => HasInt.sum Finset.univ fun j : Fin n =>
    (hasInt_ovl a ha (disp γ shift x z) (disp γ shift x (Function.update z i j))).const_mul
      (c * (y.T 1 (z i) j * (amp d.up x * amp d.dn (Function.update z i j))))
  have hU := (hasInt_ovl a ha (disp γ shift x z) (disp γ shift x z)).const_mul
    (c * (y.U * (∑ i, (occ x i : ℂ) * occ z i) * (amp d.up x * amp d.dn z)))
  have hp := (hasInt_phonon y.m y.w hm hw (disp γ shift x z)).const_mul (c * (amp d.up x * amp d.dn z))
  have hg := (HasInt.sum Finset.univ fun i : Fin n => (hasInt_first a ha (disp γ shift x z) i).const_mul
    ((occ x i : ℂ) + occ z i)).const_mul (c * (y.g * (Real.sqrt (2 * y.m * y.w) : ℂ) * (amp d.up x * amp d.dn z)))
  refine ((((hu.add hd).add hU).add hp).sub hg).congr ?_ ?_
  · intro X
    rw [star_lf, ← hc, ham, phonon_wave_lf]
    simp only [hop, lfWave_eq]
    rw [mul_sub, mul_add, mul_add, mul_add]
    congr 1
    · congr 1
      · congr 1
        · congr 1
          · simp only [Finset.mul_sum]
            refine Finset.sum_congr rfl fun i _ => Finset.sum_congr rfl fun j _ => ?_
            push_cast
            ring
          · simp only [Finset.mul_sum]
            refine Finset.sum_congr rfl fun i _ => Finset.sum_congr rfl fun j _ => ?_
            push_cast
            ring
        · push_cast
          ring
      · push_cast
        ring
    · have : ∑ i, ((occ x i : ℂ) + occ z i) * ((X i * (gprod a (disp γ shift x z) X * gprod a (disp γ shift x z) X) : ℝ) : ℂ) =
          (∑ i, (X i : ℂ) * (occ x i + occ z i)) * ((gprod a (disp γ shift x z) X : ℂ) * (gprod a (disp γ shift x z) X : ℂ)) := by
        rw [Finset.sum_mul]
        exact Finset.sum_congr rfl fun i _ => by push_cast; ring
      rw [this]
      ring
  · have h1 : ∀ i j, c * (y.T 0 (x i) j * (amp d.up (Function.update x i j) * amp d.dn z)) *
        ((znorm n a * cohOvl a (disp γ shift x z) (disp γ shift (Function.update x i j) z) : ℝ) : ℂ) =
        (znorm n a : ℂ) * (c * (trueT y γ 0 (x i) j * amp d.up (Function.update x i j) * amp d.dn z)) := by
      intro i j
      rw [hadef, ovl_hop_up y hmw, trueT, Matrix.of_apply]
      split_ifs with hx
      · push_cast
        ring
      · simp only [dressed, Matrix.of_apply]
        push_cast
        ring
    have h2 : ∀ i j, c * (y.T 1 (z i) j * (amp d.up x * amp d.dn (Function.update z i j))) *
        ((znorm n a * cohOvl a (disp γ shift x z) (disp γ shift x (Function.update z i j)) : ℝ) : ℂ) =
        (znorm n a : ℂ) * (c * (amp d.up x * (trueT y γ 1 (z i) j * amp d.dn (Function.update z i j)))) := by
      intro i j
      rw [hadef, disp_swap γ shift x z, disp_swap γ shift x, ovl_hop_up y hmw, trueT, Matrix.of_apply]
      split_ifs with hx
      · push_cast
        ring
      · simp only [dressed, Matrix.of_apply]
        push_cast
        ring
    simp only [h1, h2, ← Finset.mul_sum, ← Finset.sum_mul, ovl_self, hop, inter]
    have h3 : ∑ i, ((occ x i : ℂ) + occ z i) * ((znorm n a * disp γ shift x z i : ℝ) : ℂ) =
        (znorm n a : ℂ) * ∑ i, ((disp γ shift x z i : ℝ) : ℂ) * (occ x i + occ z i) := by
      rw [Finset.mul_sum]
      exact Finset.sum_congr rfl fun i _ => by push_cast; ring
    rw [h3]
    push_cast
    ring

/-! ## Sums over the electrons -/

/-- The interactions with the occupations of each spin zero or one. -/
noncomputable def inter1 (y : Sys n) (γ shift : Fin n → ℝ) (x : Fin na → Fin n) (z : Fin nb → Fin n) : ℂ :=
  ((1 / 2 * y.m * y.w ^ 2 * ∑ i, shift i ^ 2 + 1 / 2 * y.w * n : ℝ) : ℂ) +
    ∑ i, (((γ i * y.m * y.w ^ 2 - y.g * Real.sqrt (2 * y.m * y.w)) * shift i +
      (γ i ^ 2 * y.m * y.w ^ 2 / 2 - y.g * γ i * Real.sqrt (2 * y.m * y.w)) : ℝ) : ℂ) * ((occ x i : ℂ) + occ z i) +
    ∑ i, ((y.U + γ i ^ 2 * y.m * y.w ^ 2 - 2 * y.g * γ i * Real.sqrt (2 * y.m * y.w) : ℝ) : ℂ) * ((occ x i : ℂ) * occ z i)

theorem inter_eq (y : Sys n) (γ shift : Fin n → ℝ) (d : Det n na nb) (x : Fin na → Fin n) (z : Fin nb → Fin n) :
    inter y γ shift x z * (amp d.up x * amp d.dn z) = inter1 y γ shift x z * (amp d.up x * amp d.dn z) := by
  by_cases h : amp d.up x * amp d.dn z = 0
  · rw [h, mul_zero, mul_zero]
  congr 1
  have hx : ∀ i, (occ x i : ℂ) ^ 2 = occ x i := fun i => by
    exact_mod_cast (amp_occ d.up x i).resolve_left (left_ne_zero_of_mul h)
  have hz : ∀ i, (occ z i : ℂ) ^ 2 = occ z i := fun i => by
    exact_mod_cast (amp_occ d.dn z i).resolve_left (right_ne_zero_of_mul h)
  simp only [inter, inter1, disp]
  push_cast
  simp only [Finset.mul_sum]
  rw [add_right_comm _ (1 / 2 * (y.w : ℂ) * n), ← sub_add_eq_add_sub, add_right_comm _ (1 / 2 * (y.w : ℂ) * n)]
  rw [← add_assoc]
  congr 1
  rw [← Finset.sum_sub_distrib, ← Finset.sum_add_distrib, ← Finset.sum_add_distrib, ← Finset.sum_add_distrib]
  refine Finset.sum_congr rfl fun i _ => ?_
  linear_combination (1 / 2 * (y.m : ℂ) * (y.w : ℂ) ^ 2 * (γ i : ℂ) ^ 2 - y.g * (Real.sqrt (2 * y.m * y.w) : ℂ) * γ i) * (hx i + hz i)

theorem sum_two (f g : (Fin na → Fin n) → ℂ) (f' g' : (Fin nb → Fin n) → ℂ) :
    ∑ x, ∑ z, star (f x * f' z) * (g x * g' z) = (∑ x, star (f x) * g x) * ∑ z, star (f' z) * g' z := by
  rw [Finset.sum_mul_sum]
  refine Finset.sum_congr rfl fun x _ => Finset.sum_congr rfl fun z _ => ?_
  rw [star_mul']
  ring

/-- `⟨Ψ|Ψ⟩`. -/
theorem lf_norm (y : Sys n) (ha : 0 < y.m * y.w / 2) (d : Det n na nb) (γ shift : Fin n → ℝ) :
    inner (lfWave y d γ shift) (lfWave y d γ shift) =
      (znorm n (y.m * y.w / 2) : ℂ) * (na.factorial * ovl d.up d.up * (nb.factorial * ovl d.dn d.dn)) := by
  have h : ∀ x z, ∫ X, star (lfWave y d γ shift x z X) * lfWave y d γ shift x z X =
      (znorm n (y.m * y.w / 2) : ℂ) * (star (amp d.up x * amp d.dn z) * (amp d.up x * amp d.dn z)) := by
    intro x z
    refine (((hasInt_ovl _ ha (disp γ shift x z) (disp γ shift x z)).const_mul
      (star (amp d.up x * amp d.dn z) * (amp d.up x * amp d.dn z))).congr ?_ ?_).2
    · intro X
      rw [star_lf, lfWave_eq]
      push_cast
      ring
    · rw [ovl_self]
      push_cast
      ring
  simp only [inner, h, ← Finset.mul_sum]
  rw [sum_two, amp_sum, amp_sum]

/-- `⟨Ψ|H|Ψ⟩` per norm, with the zero-point energy. -/
noncomputable def energyOf (y : Sys n) (γ shift : Fin n → ℝ) (T : Fin 2 → Matrix (Fin n) (Fin n) ℂ) (G : Fin 2 → Matrix (Fin n) (Fin n) ℂ) : ℂ :=
  (T 0 * G 0).trace + (T 1 * G 1).trace + (((1 / 2 * y.m * y.w ^ 2 * ∑ i, shift i ^ 2 + 1 / 2 * y.w * n : ℝ) : ℂ) +
    ∑ i, (((γ i * y.m * y.w ^ 2 - y.g * Real.sqrt (2 * y.m * y.w)) * shift i +
      (γ i ^ 2 * y.m * y.w ^ 2 / 2 - y.g * γ i * Real.sqrt (2 * y.m * y.w)) : ℝ) : ℂ) * (G 0 i i + G 1 i i) +
    ∑ i, ((y.U + γ i ^ 2 * y.m * y.w ^ 2 - 2 * y.g * γ i * Real.sqrt (2 * y.m * y.w) : ℝ) : ℂ) * (G 0 i i * G 1 i i))

theorem pull_one (c g h : Fin n → ℂ) (p u q v : ℂ) :
    ∑ i, c i * (p * (u * g i) * (q * v) + p * u * (q * (v * h i))) = (p * u * (q * v)) * ∑ i, c i * (g i + h i) := by
  rw [Finset.mul_sum]
  exact Finset.sum_congr rfl fun i _ => by ring

theorem pull_two (c g h : Fin n → ℂ) (p u q v : ℂ) :
    ∑ i, c i * (p * (u * g i) * (q * (v * h i))) = (p * u * (q * v)) * ∑ i, c i * (g i * h i) := by
  rw [Finset.mul_sum]
  exact Finset.sum_congr rfl fun i _ => by ring

theorem lf_ham (y : Sys n) (hm : 0 < y.m) (hw : 0 < y.w) (d : Det n na nb) (hu : ovl d.up d.up ≠ 0) (hd : ovl d.dn d.dn ≠ 0)
    (γ shift : Fin n → ℝ) : inner (lfWave y d γ shift) (ham y (lfWave y d γ shift)) =
      energyOf y γ shift (trueT y γ) (greens d d) * inner (lfWave y d γ shift) (lfWave y d γ shift) := by
  have ha : 0 < y.m * y.w / 2 := by positivity
  rw [lf_norm y ha, inner]
  have h : ∀ x z, ∫ X, star (lfWave y d γ shift x z X) * ham y (lfWave y d γ shift) x z X = _ :=
    fun x z => (hasInt_config y hm hw d γ shift x z).2
  simp only [h, inter_eq, ← Finset.mul_sum]
  have hterm : ∀ x z, star (amp d.up x * amp d.dn z) * (hop (trueT y γ 0) (amp d.up) x * amp d.dn z +
        amp d.up x * hop (trueT y γ 1) (amp d.dn) z + inter1 y γ shift x z * (amp d.up x * amp d.dn z)) =
      star (amp d.up x * amp d.dn z) * (hop (trueT y γ 0) (amp d.up) x * amp d.dn z) +
      star (amp d.up x * amp d.dn z) * (amp d.up x * hop (trueT y γ 1) (amp d.dn) z) +
      (((1 / 2 * y.m * y.w ^ 2 * ∑ i, shift i ^ 2 + 1 / 2 * y.w * n : ℝ) : ℂ) *
        (star (amp d.up x * amp d.dn z) * (amp d.up x * amp d.dn z)) +
      ∑ i, (((γ i * y.m * y.w ^ 2 - y.g * Real.sqrt (2 * y.m * y.w)) * shift i +
        (γ i ^ 2 * y.m * y.w ^ 2 / 2 - y.g * γ i * Real.sqrt (2 * y.m * y.w)) : ℝ) : ℂ) *
        (star (amp d.up x * amp d.dn z) * (hop (Matrix.single i i 1) (amp d.up) x * amp d.dn z) +
          star (amp d.up x * amp d.dn z) * (amp d.up x * hop (Matrix.single i i 1) (amp d.dn) z)) +
      ∑ i, ((y.U + γ i ^ 2 * y.m * y.w ^ 2 - 2 * y.g * γ i * Real.sqrt (2 * y.m * y.w) : ℝ) : ℂ) *
        (star (amp d.up x * amp d.dn z) * (hop (Matrix.single i i 1) (amp d.up) x * hop (Matrix.single i i 1) (amp d.dn) z))) := by
    intro x z
    simp only [hop_occ, inter1]
    rw [mul_add, mul_add]
    congr 1
    rw [add_mul, add_mul, mul_add, mul_add, Finset.sum_mul, Finset.sum_mul]
    congr 1
    · congr 1
      · ring
      · rw [Finset.mul_sum]
        exact Finset.sum_congr rfl fun i _ => by ring
    · rw [Finset.mul_sum]
      exact Finset.sum_congr rfl fun i _ => by ring
  have hs : ∀ F : (Fin na → Fin n) → (Fin nb → Fin n) → Fin n → ℂ, ∑ x, ∑ z, ∑ i, F x z i = ∑ i, ∑ x, ∑ z, F x z i := by
    intro F
    rw [Finset.sum_comm]
    rw [Finset.sum_congr rfl fun z _ => Finset.sum_comm (s := Finset.univ) (t := Finset.univ) (f := fun x i => F x z i)]
    rw [Finset.sum_comm]
    exact Finset.sum_congr rfl fun i _ => Finset.sum_comm
  simp only [hterm, Finset.sum_add_distrib, hs, ← Finset.mul_sum, sum_two, amp_sum, hop_sum, Energy.oneBody_eq _ _ _ hu,
    Energy.oneBody_eq _ _ _ hd, single_trace, energyOf, greens, Matrix.cons_val_zero, Matrix.cons_val_one,
    pull_one, pull_two]
  ring

theorem lf_norm_ne (y : Sys n) (ha : 0 < y.m * y.w / 2) (d : Det n na nb) (hu : ovl d.up d.up ≠ 0) (hd : ovl d.dn d.dn ≠ 0)
    (γ shift : Fin n → ℝ) : inner (lfWave y d γ shift) (lfWave y d γ shift) ≠ 0 := by
  rw [lf_norm y ha]
  have hz : ((znorm n (y.m * y.w / 2) : ℝ) : ℂ) ≠ 0 := by exact_mod_cast (znorm_pos _ ha).ne'
  have h1 : (na.factorial : ℂ) ≠ 0 := by exact_mod_cast na.factorial_ne_zero
  have h2 : (nb.factorial : ℂ) ≠ 0 := by exact_mod_cast nb.factorial_ne_zero
  exact mul_ne_zero hz (mul_ne_zero (mul_ne_zero h1 hu) (mul_ne_zero h2 hd))

/-- The expectation value less the zero-point energy. -/
noncomputable def expect (y : Sys n) (d : Det n na nb) (γ shift : Fin n → ℝ) : ℂ :=
  inner (lfWave y d γ shift) (ham y (lfWave y d γ shift)) / inner (lfWave y d γ shift) (lfWave y d γ shift) - 1 / 2 * y.w * n

theorem expect_eq (y : Sys n) (hm : 0 < y.m) (hw : 0 < y.w) (d : Det n na nb) (hu : ovl d.up d.up ≠ 0) (hd : ovl d.dn d.dn ≠ 0)
    (γ shift : Fin n → ℝ) : expect y d γ shift = energyOf y γ shift (trueT y γ) (greens d d) - 1 / 2 * y.w * n := by
  rw [expect, lf_ham y hm hw d hu hd, mul_div_cancel_right₀ _ (lf_norm_ne y (by positivity) d hu hd γ shift)]

/-! ## The energies of the code -/

theorem dot2_trace (T G : Matrix (Fin n) (Fin n) ℂ) : dot2 T Gᵀ = (T * G).trace := by
  simp only [dot2, Matrix.trace, Matrix.diag_apply, Matrix.mul_apply, Matrix.transpose_apply]

theorem dressed_symm (y : Sys n) (hT : ∀ σ, (y.T σ)ᵀ = y.T σ) (γ : Fin n → ℝ) (σ : Fin 2) : (dressed y γ σ)ᵀ = dressed y γ σ := by
  ext i j
  simp only [dressed, Matrix.transpose_apply, Matrix.of_apply]
  rw [show y.T σ j i = y.T σ i j from congrFun (congrFun (hT σ) i) j, mul_comm (Real.exp _)]

/-- What the diagonal of the hopping adds. -/
theorem trace_true (y : Sys n) (γ : Fin n → ℝ) (σ : Fin 2) (h : 0 ≤ y.m * y.w) (G : Matrix (Fin n) (Fin n) ℂ) :
    (dressed y γ σ * G).trace = (trueT y γ σ * G).trace + ∑ i, ((Real.exp (-(γ i ^ 2 * (y.m * y.w) / 2)) - 1 : ℝ) : ℂ) * (y.T σ i i * G i i) := by
  have hs : Real.sqrt (y.m * y.w / 2) ^ 2 = y.m * y.w / 2 := Real.sq_sqrt (by linarith)
  simp only [Matrix.trace, Matrix.diag_apply, Matrix.mul_apply]
  rw [← Finset.sum_add_distrib]
  refine Finset.sum_congr rfl fun i _ => ?_
  rw [← Finset.add_sum_erase _ _ (Finset.mem_univ i), ← Finset.add_sum_erase _ (fun j => trueT y γ σ i j * G j i) (Finset.mem_univ i)]
  have h1 : ∑ j ∈ Finset.univ.erase i, trueT y γ σ i j * G j i = ∑ j ∈ Finset.univ.erase i, dressed y γ σ i j * G j i :=
    Finset.sum_congr rfl fun j hj => by rw [trueT, Matrix.of_apply, if_neg (Finset.ne_of_mem_erase hj).symm]
  rw [h1, trueT, Matrix.of_apply, if_pos rfl]
  have h2 : Real.exp (-(γ i * Real.sqrt (y.m * y.w / 2)) ^ 2 / 2) * Real.exp (-(γ i * Real.sqrt (y.m * y.w / 2)) ^ 2 / 2) =
      Real.exp (-(γ i ^ 2 * (y.m * y.w) / 2)) := by
    rw [← Real.exp_add]
    congr 1
    linear_combination (-(γ i ^ 2)) * hs
  simp only [dressed, Matrix.of_apply, h2]
  push_cast
  ring

theorem sqrt_comm (y : Sys n) : Real.sqrt (y.m * y.w * 2) = Real.sqrt (2 * y.m * y.w) := by
  congr 1
  ring

/-- What `objective_function` returns against the expectation value. -/
theorem objective_diff (y : Sys n) (hm : 0 < y.m) (hw : 0 < y.w) (hT : ∀ σ, (y.T σ)ᵀ = y.T σ) (d : Det n na nb) (hu : ovl d.up d.up ≠ 0)
    (hd : ovl d.dn d.dn ≠ 0) (γ : Fin n → ℝ) : objective y (greens d d) γ = expect y d γ (fun _ => 0) +
      ∑ i, ((Real.exp (-(γ i ^ 2 * (y.m * y.w) / 2)) - 1 : ℝ) : ℂ) * (y.T 0 i i * greens d d 0 i i + y.T 1 i i * greens d d 1 i i) := by
  have h : 0 ≤ y.m * y.w := by positivity
  rw [expect_eq y hm hw d hu hd]
  simp only [objective, energyOf, sqrt_comm]
  rw [← dot2_symm _ (greens d d 0) (dressed_symm y hT γ 0), ← dot2_symm _ (greens d d 1) (dressed_symm y hT γ 1), dot2_trace, dot2_trace,
    trace_true y γ 0 h, trace_true y γ 1 h]
  simp only [mul_add, Finset.sum_add_distrib, mul_assoc]
  simp
  ring

/-- **C98 (optimised energy)**: the energy minimised for the Lang-Firsov trial is `⟨Ψ|H|Ψ⟩/⟨Ψ|Ψ⟩` less the zero-point energy, for every
`gamma`, if the hopping has no diagonal where the phonons are displaced.  With one (pinning fields) it is wrong (`diagonal_wrong`). -/
theorem objective_eq_partial (y : Sys n) (hm : 0 < y.m) (hw : 0 < y.w) (hT : ∀ σ, (y.T σ)ᵀ = y.T σ) (d : Det n na nb)
    (hu : ovl d.up d.up ≠ 0) (hd : ovl d.dn d.dn ≠ 0) (γ : Fin n → ℝ) (h0 : ∀ σ i, y.T σ i i = 0 ∨ γ i = 0) :
    objective y (greens d d) γ = expect y d γ fun _ => 0 := by
  rw [objective_diff y hm hw hT d hu hd, Finset.sum_eq_zero, add_zero]
  intro i _
  rcases h0 0 i with h | h
  · rcases h0 1 i with h' | h'
    · rw [h, h']; ring
    · rw [h']; simp
  · rw [h]; simp

/-- What `calculate_energy` returns against the expectation value, with the shift zero as the code has it. -/
theorem reported_diff (y : Sys n) (hm : 0 < y.m) (hw : 0 < y.w) (d : Det n na nb) (hu : ovl d.up d.up ≠ 0) (hd : ovl d.dn d.dn ≠ 0)
    (γ : Fin n → ℝ) (h0 : ∀ σ i, y.T σ i i = 0 ∨ γ i = 0) : reported y (trialG d) γ (fun _ => 0) = expect y d γ (fun _ => 0) +
      ((y.w * (1 - y.m * y.w) : ℝ) : ℂ) * ∑ i, (γ i : ℂ) ^ 2 * ((greens d d 0 i i + greens d d 1 i i) / 2 + greens d d 0 i i * greens d d 1 i i) := by
  have h : 0 ≤ y.m * y.w := by positivity
  have ht : ∀ σ, (dressed y γ σ * greens d d σ).trace = (trueT y γ σ * greens d d σ).trace := by
    intro σ
    rw [trace_true y γ σ h, Finset.sum_eq_zero, add_zero]
    intro i _
    rcases h0 σ i with h | h
    · rw [h]; ring
    · rw [h]; simp
  rw [expect_eq y hm hw d hu hd]
  simp only [reported, trialG, dot2_trace, ht, energyOf, sqrt_comm, Matrix.transpose_apply]
  simp
  have e1 : ∀ F G H I J : Fin n → ℂ, (∀ i, F i + G i = H i + I i + J i) → ∑ i, F i + ∑ i, G i = ∑ i, H i + ∑ i, I i + ∑ i, J i := by
    intro F G H I J h
    rw [← Finset.sum_add_distrib, ← Finset.sum_add_distrib, ← Finset.sum_add_distrib]
    exact Finset.sum_congr rfl fun i _ => h i
  have := e1 (fun i => ((γ i : ℂ) ^ 2 * y.w / 2 - y.g * γ i * (Real.sqrt (2 * y.m * y.w) : ℂ)) * (greens d d 0 i i + greens d d 1 i i))
    (fun i => (y.U + (γ i : ℂ) ^ 2 * y.w - 2 * y.g * γ i * (Real.sqrt (2 * y.m * y.w) : ℂ)) * greens d d 0 i i * greens d d 1 i i)
    (fun i => ((γ i : ℂ) ^ 2 * y.m * y.w ^ 2 / 2 - y.g * γ i * (Real.sqrt (2 * y.m * y.w) : ℂ)) * (greens d d 0 i i + greens d d 1 i i))
    (fun i => (y.U + (γ i : ℂ) ^ 2 * y.m * y.w ^ 2 - 2 * y.g * γ i * (Real.sqrt (2 * y.m * y.w) : ℂ)) * (greens d d 0 i i * greens d d 1 i i))
    (fun i => y.w * (1 - y.m * y.w) * ((γ i : ℂ) ^ 2 * ((greens d d 0 i i + greens d d 1 i i) / 2 + greens d d 0 i i * greens d d 1 i i)))
    (fun i => by ring)
  rw [← Finset.mul_sum] at this
  linear_combination this

/-- **C98 (reported energy)**: with `m w = 1`, the default, the energy reported for the Lang-Firsov trial is the expectation value, for
every hopping without diagonal, `gamma` and shift.  For other masses it is wrong (`reported_wrong`). -/
theorem reported_eq_partial (y : Sys n) (hm : 0 < y.m) (hw : 0 < y.w) (hmw : y.m * y.w = 1) (d : Det n na nb) (hu : ovl d.up d.up ≠ 0)
    (hd : ovl d.dn d.dn ≠ 0) (γ shift : Fin n → ℝ) (h0 : ∀ σ i, y.T σ i i = 0 ∨ γ i = 0) :
    reported y (trialG d) γ shift = expect y d γ shift := by
  have h : 0 ≤ y.m * y.w := by positivity
  have ht : ∀ σ, (dressed y γ σ * greens d d σ).trace = (trueT y γ σ * greens d d σ).trace := by
    intro σ
    rw [trace_true y γ σ h, Finset.sum_eq_zero, add_zero]
    intro i _
    rcases h0 σ i with h | h
    · rw [h]; ring
    · rw [h]; simp
  have hr : Real.sqrt (2 * y.m * y.w) = 2 * Real.sqrt (y.m * y.w / 2) := sqrt_split _ _ h
  have hr0 : Real.sqrt (y.m * y.w / 2) ≠ 0 := by
    rw [hmw]
    exact (Real.sqrt_pos.mpr (by norm_num)).ne'
  have hs : Real.sqrt (y.m * y.w / 2) ^ 2 = y.m * y.w / 2 := Real.sq_sqrt (by linarith)
  have hw2 : y.m * y.w ^ 2 = y.w := by linear_combination y.w * hmw
  rw [expect_eq y hm hw d hu hd]
  simp only [reported, trialG, dot2_trace, ht, energyOf, sqrt_comm, Matrix.transpose_apply]
  have hA : ∀ i, (γ i * y.w - y.g * Real.sqrt (2 * y.m * y.w)) * 2 * (shift i * Real.sqrt (y.m * y.w / 2)) / Real.sqrt (2 * y.m * y.w) =
      (γ i * y.w - y.g * Real.sqrt (2 * y.m * y.w)) * shift i := by
    intro i
    rw [hr]
    field_simp
  have hB : y.w * ∑ i, shift i * Real.sqrt (y.m * y.w / 2) * (shift i * Real.sqrt (y.m * y.w / 2)) = 1 / 2 * y.m * y.w ^ 2 * ∑ i, shift i ^ 2 := by
    rw [Finset.mul_sum, Finset.mul_sum]
    refine Finset.sum_congr rfl fun i _ => ?_
    linear_combination (y.w * shift i ^ 2) * hs
  simp only [hA, hB, mul_assoc (γ _) y.m, mul_assoc (γ _ ^ 2) y.m, hw2]
  rw [← Finset.sum_add_distrib]
  push_cast
  simp only [add_mul, mul_assoc]
  ring

/-! ## Cases that fail -/

/-- One electron on one site. -/
def one : Det 1 1 0 := ⟨1, 0⟩

theorem one_up : ovl one.up one.up = 1 := by simp [ovl, one]

theorem one_dn : ovl one.dn one.dn = 1 := by simp [ovl]

theorem one_green : greens one one 0 0 0 = 1 ∧ greens one one 1 0 0 = 0 := by
  refine ⟨?_, ?_⟩
  · simp [greens, Slater.gab, one]
  · simp [greens, Slater.gab, one]

/-- Mass two and frequency one. -/
noncomputable def heavy : Sys 1 := ⟨fun _ => 0, 0, 1, 2, 1, false⟩

/-- **C98 fails** for a mass other than `1/w`: with the code's own `gamma` the reported energy is not the expectation value, nor the
optimised energy. -/
theorem reported_wrong : reported heavy (trialG one) (fun _ => gammaLF heavy) (fun _ => 0) = -(3 / 2) ∧
    expect heavy one (fun _ => gammaLF heavy) (fun _ => 0) = -1 ∧ objective heavy (greens one one) (fun _ => gammaLF heavy) = -1 := by
  have hg : gammaLF heavy = 1 := by norm_num [gammaLF, heavy]
  have hr : Real.sqrt (heavy.m * heavy.w * 2) = 2 := by
    rw [show heavy.m * heavy.w * 2 = 2 ^ 2 by norm_num [heavy], Real.sqrt_sq (by norm_num)]
  have ho : objective heavy (greens one one) (fun _ => gammaLF heavy) = -1 := by
    simp only [objective, hr, hg, Finset.univ_unique, Finset.sum_singleton, Fin.default_eq_zero, one_green, dot2, dressed]
    norm_num [heavy]
  have he := objective_eq_partial heavy (by norm_num [heavy]) (by norm_num [heavy]) (fun σ => by ext; simp [heavy]) one
    (by rw [one_up]; exact one_ne_zero) (by rw [one_dn]; exact one_ne_zero) (fun _ => gammaLF heavy) (fun σ i => Or.inl rfl)
  refine ⟨?_, he.symm.trans ho, ho⟩
  simp only [reported, hr, hg, Finset.univ_unique, Finset.sum_singleton, Fin.default_eq_zero, one_green, dot2, dressed, trialG,
    Matrix.transpose_apply]
  norm_num [heavy]

/-- A field on the site. -/
noncomputable def pinned : Sys 1 := ⟨fun _ => 1, 0, 1, 1, 1, false⟩

/-- **C98 fails** for a hopping with a diagonal, as with pinning fields: the field of an occupied site is damped. -/
theorem diagonal_wrong : objective pinned (greens one one) (fun _ => gammaLF pinned) ≠ expect pinned one (fun _ => gammaLF pinned) (fun _ => 0) ∧
    reported pinned (trialG one) (fun _ => gammaLF pinned) (fun _ => 0) = objective pinned (greens one one) (fun _ => gammaLF pinned) := by
  have hg : gammaLF pinned ^ 2 = 2 := by
    norm_num [gammaLF, pinned]
  refine ⟨?_, ?_⟩
  · rw [objective_diff pinned (by norm_num [pinned]) (by norm_num [pinned]) (fun σ => by ext i j; simp [pinned, Matrix.one_apply, eq_comm]) one
      (by rw [one_up]; exact one_ne_zero) (by rw [one_dn]; exact one_ne_zero)]
    intro h
    have h := add_eq_left.mp h
    rw [Finset.univ_unique, Finset.sum_singleton, Fin.default_eq_zero, one_green.1, one_green.2, hg] at h
    simp only [pinned, Matrix.one_apply_eq, mul_one, mul_zero, add_zero] at h
    have h := Complex.ofReal_eq_zero.mp h
    have : Real.exp (-(2 / 2)) < 1 := Real.exp_lt_one_iff.mpr (by norm_num)
    linarith
  · simp [reported, objective, trialG, pinned, dot2, dressed]
    


end Verif.LangFirsov
