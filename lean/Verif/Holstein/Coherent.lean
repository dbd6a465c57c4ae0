import Verif.Holstein.Local
import Mathlib.MeasureTheory.Integral.Pi
import Mathlib.MeasureTheory.Group.Integral
import Mathlib.Analysis.SpecialFunctions.Gaussian.GaussianIntegral

/-!
# C97: the energy of a coherent-state trial is its Rayleigh quotient
-/

namespace Verif.Holstein

open Matrix MeasureTheory
open Verif.Energy (ovl oneBody)

variable {n K na nb : Nat}

/-! ## Gaussian integrals -/

theorem gauss_mul (a s t x : ℝ) : Real.exp (-a * (x - s) * (x - s)) * Real.exp (-a * (x - t) * (x - t)) =
    Real.exp (-(a / 2) * (s - t) ^ 2) * Real.exp (-(2 * a) * (x - (s + t) / 2) ^ 2) := by
  rw [← Real.exp_add, ← Real.exp_add]
  congr 1
  ring

theorem gauss_overlap (a s t : ℝ) : ∫ x, Real.exp (-a * (x - s) * (x - s)) * Real.exp (-a * (x - t) * (x - t)) =
    Real.exp (-(a / 2) * (s - t) ^ 2) * Real.sqrt (Real.pi / (2 * a)) := by
  simp only [gauss_mul]
  rw [integral_const_mul, integral_sub_right_eq_self (fun x => Real.exp (-(2 * a) * x ^ 2)), integral_gaussian]

theorem gauss_first (a s t : ℝ) (ha : 0 < a) : ∫ x, x * (Real.exp (-a * (x - s) * (x - s)) * Real.exp (-a * (x - t) * (x - t))) =
    (s + t) / 2 * (Real.exp (-(a / 2) * (s - t) ^ 2) * Real.sqrt (Real.pi / (2 * a))) := by
  have h0 : ∫ x : ℝ, x * Real.exp (-(2 * a) * x ^ 2) = 0 := by
    have h := integral_neg_eq_self (fun x : ℝ => x * Real.exp (-(2 * a) * x ^ 2)) volume
    simp only [neg_sq, neg_mul, integral_neg] at h ⊢
    linarith
  have h1 : ∀ x, x * (Real.exp (-a * (x - s) * (x - s)) * Real.exp (-a * (x - t) * (x - t))) = Real.exp (-(a / 2) * (s - t) ^ 2) *
      ((fun x : ℝ => x * Real.exp (-(2 * a) * x ^ 2) + (s + t) / 2 * Real.exp (-(2 * a) * x ^ 2)) (x - (s + t) / 2)) := by
    intro x
    rw [gauss_mul]
    ring
  simp only [h1]
  rw [integral_const_mul, integral_sub_right_eq_self (fun x : ℝ => x * Real.exp (-(2 * a) * x ^ 2) + (s + t) / 2 * Real.exp (-(2 * a) * x ^ 2)),
    integral_add (integrable_mul_exp_neg_mul_sq (by linarith)) ((integrable_exp_neg_mul_sq (by linarith)).const_mul _), h0, zero_add,
    integral_const_mul, integral_gaussian]
  ring

/-- Norm of a Gaussian of `n` coordinates. -/
noncomputable def znorm (n : Nat) (a : ℝ) : ℝ := Real.sqrt (Real.pi / (2 * a)) ^ n

theorem znorm_pos (a : ℝ) (ha : 0 < a) : 0 < znorm n a := by
  unfold znorm
  have := Real.pi_pos
  positivity

/-- Overlap of two coherent states of norm one. -/
noncomputable def cohOvl (a : ℝ) (s t : Fin n → ℝ) : ℝ := ∏ i, Real.exp (-(a / 2) * (s i - t i) ^ 2)

theorem gprod_overlap (a : ℝ) (s t : Fin n → ℝ) : ∫ X, gprod a s X * gprod a t X = znorm n a * cohOvl a s t := by
  have h : ∀ X : Fin n → ℝ, gprod a s X * gprod a t X =
      ∏ i, (Real.exp (-a * (X i - s i) * (X i - s i)) * Real.exp (-a * (X i - t i) * (X i - t i))) := fun X => by
    rw [gprod, gprod, ← Finset.prod_mul_distrib]
  simp only [h]
  rw [integral_fintype_prod_volume_eq_prod (𝕜 := ℝ) (fun i x => Real.exp (-a * (x - s i) * (x - s i)) * Real.exp (-a * (x - t i) * (x - t i)))]
  simp only [gauss_overlap]
  rw [Finset.prod_mul_distrib, Finset.prod_const, Finset.card_univ, Fintype.card_fin, mul_comm]
  rfl

theorem gprod_first (a : ℝ) (ha : 0 < a) (s t : Fin n → ℝ) (j : Fin n) :
    ∫ X : Fin n → ℝ, X j * (gprod a s X * gprod a t X) = (s j + t j) / 2 * (znorm n a * cohOvl a s t) := by
  have h : ∀ X : Fin n → ℝ, X j * (gprod a s X * gprod a t X) =
      ∏ i, ((if i = j then X i else 1) * (Real.exp (-a * (X i - s i) * (X i - s i)) * Real.exp (-a * (X i - t i) * (X i - t i)))) := fun X => by
    rw [gprod, gprod, ← Finset.prod_mul_distrib, Finset.prod_mul_distrib (f := fun i => if i = j then X i else 1)]
    simp
  simp only [h]
  rw [integral_fintype_prod_volume_eq_prod (𝕜 := ℝ)
    (fun i x => (if i = j then x else 1) * (Real.exp (-a * (x - s i) * (x - s i)) * Real.exp (-a * (x - t i) * (x - t i))))]
  have h2 : ∀ i, ∫ x, (if i = j then x else 1) * (Real.exp (-a * (x - s i) * (x - s i)) * Real.exp (-a * (x - t i) * (x - t i))) =
      (if i = j then (s i + t i) / 2 else 1) * (Real.exp (-(a / 2) * (s i - t i) ^ 2) * Real.sqrt (Real.pi / (2 * a))) := by
    intro i
    by_cases hi : i = j
    · simp only [hi, if_true]
      exact gauss_first a _ _ ha
    · simp only [hi, if_false, one_mul]
      exact gauss_overlap a _ _
  simp only [h2]
  rw [Finset.prod_mul_distrib, Finset.prod_mul_distrib, Finset.prod_const, Finset.card_univ, Fintype.card_fin]
  simp only [Finset.prod_ite_eq', Finset.mem_univ, if_true]
  rw [mul_comm (∏ i, Real.exp _)]
  rfl

theorem gprod_integrable (a : ℝ) (ha : 0 < a) (s t : Fin n → ℝ) : Integrable fun X => gprod a s X * gprod a t X := by
  have h : (fun X : Fin n → ℝ => gprod a s X * gprod a t X) = fun X => ∏ i,
      (Real.exp (-(a / 2) * (s i - t i) ^ 2) * Real.exp (-(2 * a) * (X i - (s i + t i) / 2) ^ 2)) := by
    funext X
    rw [gprod, gprod, ← Finset.prod_mul_distrib]
    exact Finset.prod_congr rfl fun i _ => gauss_mul _ _ _ _
  rw [h]
  exact Integrable.fintype_prod (f := fun i x => Real.exp (-(a / 2) * (s i - t i) ^ 2) * Real.exp (-(2 * a) * (x - (s i + t i) / 2) ^ 2))
    fun i => ((integrable_exp_neg_mul_sq (by linarith)).comp_sub_right _).const_mul _

theorem gprod_first_integrable (a : ℝ) (ha : 0 < a) (s t : Fin n → ℝ) (j : Fin n) :
    Integrable fun X : Fin n → ℝ => X j * (gprod a s X * gprod a t X) := by
  have h : (fun X : Fin n → ℝ => X j * (gprod a s X * gprod a t X)) = fun X => ∏ i, ((if i = j then X i else 1) *
      (Real.exp (-(a / 2) * (s i - t i) ^ 2) * Real.exp (-(2 * a) * (X i - (s i + t i) / 2) ^ 2))) := by
    funext X
    rw [gprod, gprod, ← Finset.prod_mul_distrib, Finset.prod_mul_distrib (f := fun i => if i = j then X i else 1)]
    simp only [gauss_mul, Finset.prod_ite_eq', Finset.mem_univ, if_true]
  rw [h]
  refine Integrable.fintype_prod (f := fun i x => (if i = j then x else 1) *
    (Real.exp (-(a / 2) * (s i - t i) ^ 2) * Real.exp (-(2 * a) * (x - (s i + t i) / 2) ^ 2))) fun i => ?_
  by_cases hi : i = j
  · simp only [hi, if_true]
    have h1 : (fun x : ℝ => x * (Real.exp (-(a / 2) * (s j - t j) ^ 2) * Real.exp (-(2 * a) * (x - (s j + t j) / 2) ^ 2))) = fun x =>
        Real.exp (-(a / 2) * (s j - t j) ^ 2) * ((fun x : ℝ => x * Real.exp (-(2 * a) * x ^ 2) + (s j + t j) / 2 *
          Real.exp (-(2 * a) * x ^ 2)) (x - (s j + t j) / 2)) := by
      funext x
      ring
    rw [h1]
    exact (((integrable_mul_exp_neg_mul_sq (by linarith)).add ((integrable_exp_neg_mul_sq (by linarith)).const_mul _)).comp_sub_right
      _).const_mul _
  · simp only [hi, if_false, one_mul]
    exact ((integrable_exp_neg_mul_sq (by linarith)).comp_sub_right _).const_mul _

/-! ## The expectation of the Hamiltonian -/

/-- `⟨Ψ|Ψ⟩` for `Ψ = ∑ₖ cₖ |Dₖ⟩ fₖ(X)` with coherent states `fₖ`. -/
noncomputable def cohNorm (y : Sys n) (c : Fin K → ℂ) (d : Fin K → Det n na nb) (s : Fin K → Fin n → ℝ) : ℂ :=
  ∑ k, ∑ l, star (c k) * c l * (ovl (d k).up (d l).up * ovl (d k).dn (d l).dn *
    ((∫ X, gprod (y.m * y.w / 2) (s k) X * gprod (y.m * y.w / 2) (s l) X : ℝ) : ℂ))

/-- `⟨Ψ|H|Ψ⟩` for the same state and the Hubbard-Holstein Hamiltonian. -/
noncomputable def cohH (y : Sys n) (c : Fin K → ℂ) (d : Fin K → Det n na nb) (s : Fin K → Fin n → ℝ) : ℂ :=
  ∑ k, ∑ l, star (c k) * c l * (ovl (d k).up (d l).up * ovl (d k).dn (d l).dn *
    ((∫ X, gprod (y.m * y.w / 2) (s k) X * phonon y.m y.w (gprod (y.m * y.w / 2) (s l)) X : ℝ) : ℂ) +
    ∫ X, ((gprod (y.m * y.w / 2) (s k) X * gprod (y.m * y.w / 2) (s l) X : ℝ) : ℂ) * electrons y (d k) (d l) X)

theorem phonon_gprod (m w : ℝ) (hm : m ≠ 0) (t X : Fin n → ℝ) : phonon m w (gprod (m * w / 2) t) X =
    (1 / 2 * m * w ^ 2 * ∑ i, (2 * X i * t i - t i ^ 2) + 1 / 2 * w * n) * gprod (m * w / 2) t X := by
  have h := localEnergy_eq (⟨m, w, t⟩ : Osc n) X
  rw [localEnergy_linear _ hm] at h
  exact h

theorem phonon_element (m w : ℝ) (hm : 0 < m) (hw : 0 < w) (s t : Fin n → ℝ) :
    ∫ X, gprod (m * w / 2) s X * phonon m w (gprod (m * w / 2) t) X =
      (1 / 2 * m * w ^ 2 * ∑ i, s i * t i + 1 / 2 * w * n) * (znorm n (m * w / 2) * cohOvl (m * w / 2) s t) := by
  have ha : 0 < m * w / 2 := by positivity
  have h : ∀ X, gprod (m * w / 2) s X * phonon m w (gprod (m * w / 2) t) X =
      1 / 2 * m * w ^ 2 * ∑ i, (2 * t i * (X i * (gprod (m * w / 2) s X * gprod (m * w / 2) t X)) -
        t i ^ 2 * (gprod (m * w / 2) s X * gprod (m * w / 2) t X)) + 1 / 2 * w * n * (gprod (m * w / 2) s X * gprod (m * w / 2) t X) := by
    intro X
    rw [phonon_gprod m w hm.ne', mul_left_comm, add_mul, mul_assoc (1 / 2 * m * w ^ 2), Finset.sum_mul]
    congr 2
    exact Finset.sum_congr rfl fun i _ => by ring
  have hi : ∀ i, Integrable fun X : Fin n → ℝ => 2 * t i * (X i * (gprod (m * w / 2) s X * gprod (m * w / 2) t X)) -
        t i ^ 2 * (gprod (m * w / 2) s X * gprod (m * w / 2) t X) := fun i =>
    ((gprod_first_integrable _ ha s t i).const_mul _).sub ((gprod_integrable _ ha s t).const_mul _)
  simp only [h]
  rw [integral_add ((integrable_finsetSum _ fun i _ => hi i).const_mul _) ((gprod_integrable _ ha s t).const_mul _),
    integral_const_mul, integral_finsetSum _ fun i _ => hi i, integral_const_mul, gprod_overlap]
  have h2 : ∀ i, ∫ X : Fin n → ℝ, (2 * t i * (X i * (gprod (m * w / 2) s X * gprod (m * w / 2) t X)) -
        t i ^ 2 * (gprod (m * w / 2) s X * gprod (m * w / 2) t X)) = s i * t i * (znorm n (m * w / 2) * cohOvl (m * w / 2) s t) := by
    intro i
    rw [integral_sub ((gprod_first_integrable _ ha s t i).const_mul _) ((gprod_integrable _ ha s t).const_mul _), integral_const_mul,
      integral_const_mul, gprod_first _ ha, gprod_overlap]
    ring
  simp only [h2]
  rw [← Finset.sum_mul]
  ring

theorem electrons_element (y : Sys n) (ha : 0 < y.m * y.w / 2) (D φ : Det n na nb) (s t : Fin n → ℝ) :
    ∫ X, ((gprod (y.m * y.w / 2) s X * gprod (y.m * y.w / 2) t X : ℝ) : ℂ) * electrons y D φ X =
      ((znorm n (y.m * y.w / 2) * cohOvl (y.m * y.w / 2) s t : ℝ) : ℂ) * electrons y D φ fun i => (s i + t i) / 2 := by
  set B := fun i => oneBody (Matrix.single i i 1) D.up φ.up * ovl D.dn φ.dn + ovl D.up φ.up * oneBody (Matrix.single i i 1) D.dn φ.dn with hB
  set A := oneBody (y.T 0) D.up φ.up * ovl D.dn φ.dn + ovl D.up φ.up * oneBody (y.T 1) D.dn φ.dn +
    y.U * ∑ i, oneBody (Matrix.single i i 1) D.up φ.up * oneBody (Matrix.single i i 1) D.dn φ.dn with hA
  have he : ∀ X : Fin n → ℝ, electrons y D φ X = A - y.g * (Real.sqrt (2 * y.m * y.w) : ℂ) * ∑ i, (X i : ℂ) * B i := fun X => rfl
  have h0 : Integrable fun X : Fin n → ℝ => ((gprod (y.m * y.w / 2) s X * gprod (y.m * y.w / 2) t X : ℝ) : ℂ) :=
    (gprod_integrable _ ha s t).ofReal
  have h1 : ∀ i, Integrable fun X : Fin n → ℝ => ((X i * (gprod (y.m * y.w / 2) s X * gprod (y.m * y.w / 2) t X) : ℝ) : ℂ) :=
    fun i => (gprod_first_integrable _ ha s t i).ofReal
  have h2 : ∀ X : Fin n → ℝ, ((gprod (y.m * y.w / 2) s X * gprod (y.m * y.w / 2) t X : ℝ) : ℂ) * electrons y D φ X =
      ((gprod (y.m * y.w / 2) s X * gprod (y.m * y.w / 2) t X : ℝ) : ℂ) * A - ∑ i,
        ((X i * (gprod (y.m * y.w / 2) s X * gprod (y.m * y.w / 2) t X) : ℝ) : ℂ) * (y.g * (Real.sqrt (2 * y.m * y.w) : ℂ) * B i) := by
    intro X
    rw [he, mul_sub, Finset.mul_sum, Finset.mul_sum]
    congr 1
    refine Finset.sum_congr rfl fun i _ => ?_
    push_cast
    ring
  simp only [h2]
  rw [integral_sub (h0.mul_const _) (integrable_finsetSum _ fun i _ => (h1 i).mul_const _), integral_mul_const,
    integral_finsetSum _ fun i _ => (h1 i).mul_const _, integral_complex_ofReal, gprod_overlap, he, mul_sub]
  congr 1
  rw [Finset.mul_sum, Finset.mul_sum]
  refine Finset.sum_congr rfl fun i _ => ?_
  rw [integral_mul_const, integral_complex_ofReal, gprod_first _ ha]
  push_cast
  ring

/-! ## The energies of the code -/

/-- Real orbitals. -/
def Det.Real (d : Det n na nb) : Prop := d.up.map star = d.up ∧ d.dn.map star = d.dn

theorem conj_of_real {k : Nat} {A : Matrix (Fin n) (Fin k) ℂ} (h : A.map star = A) : Aᴴ = Aᵀ := by
  exact congrArg Matrix.transpose h

theorem gab_swap {k : Nat} {A B : Matrix (Fin n) (Fin k) ℂ} (hA : A.map star = A) (hB : B.map star = B) :
    Slater.gab B A = (Slater.gab A B)ᵀ := by
  rw [Slater.gab, Slater.gab, conj_of_real hA, conj_of_real hB, Matrix.transpose_mul, Matrix.transpose_mul, Matrix.transpose_transpose,
    Matrix.transpose_nonsing_inv, Matrix.transpose_mul, Matrix.transpose_transpose, Matrix.mul_assoc]

theorem dot2_symm (T G : Matrix (Fin n) (Fin n) ℂ) (hT : Tᵀ = T) : Energy.dot2 T Gᵀ = Energy.dot2 T G := by
  simp only [Energy.dot2]
  rw [Finset.sum_comm]
  refine Finset.sum_congr rfl fun i _ => Finset.sum_congr rfl fun j _ => ?_
  rw [Matrix.transpose_apply, show T j i = T i j from congrFun (congrFun hT i) j]

theorem overlap_eq (y : Sys n) (h : 0 ≤ y.m * y.w) (d e : Det n na nb) (hd : d.Real) (s t : Fin n → ℝ) :
    overlap y d e s t = ovl d.up e.up * ovl d.dn e.dn * (cohOvl (y.m * y.w / 2) s t : ℂ) := by
  rw [overlap, ovl, ovl, conj_of_real hd.1, conj_of_real hd.2, cohOvl, Complex.ofReal_prod]
  congr 1
  refine Finset.prod_congr rfl fun i _ => ?_
  have hs : Real.sqrt (y.m * y.w / 2) ^ 2 = y.m * y.w / 2 := Real.sq_sqrt (by linarith)
  congr 2
  simp only [beta]
  linear_combination (-(1 / 2) * (s i - t i) ^ 2) * hs

theorem overlap_symm (y : Sys n) (d e : Det n na nb) (s t : Fin n → ℝ) : overlap y d e s t = overlap y e d t s := by
  have h : ∀ {k : Nat} (A B : Matrix (Fin n) (Fin k) ℂ), (Aᵀ * B).det = (Bᵀ * A).det := fun A B => by
    rw [← Matrix.det_transpose, Matrix.transpose_mul, Matrix.transpose_transpose]
  rw [overlap, overlap, h d.up, h d.dn]
  congr 1
  exact Finset.prod_congr rfl fun i _ => by rw [add_comm (beta y s i ^ 2), mul_comm (beta y s i)]

theorem pairEnergy_symm (y : Sys n) (hT : ∀ σ, (y.T σ)ᵀ = y.T σ) (d e : Det n na nb) (hd : d.Real) (he : e.Real) (s t : Fin n → ℝ) :
    pairEnergy y d e s t = pairEnergy y e d t s := by
  have h0 : greens e d 0 = (greens d e 0)ᵀ := gab_swap hd.1 he.1
  have h1 : greens e d 1 = (greens d e 1)ᵀ := gab_swap hd.2 he.2
  simp only [pairEnergy, h0, h1, dot2_symm _ _ (hT _), Matrix.transpose_apply]
  have hb : ∑ i, (beta y s i : ℂ) * beta y t i = ∑ i, (beta y t i : ℂ) * beta y s i :=
    Finset.sum_congr rfl fun i _ => mul_comm _ _
  have hg : ∑ i, (greens d e 0 i i + greens d e 1 i i) * ((beta y s i : ℂ) + beta y t i) =
      ∑ i, (greens d e 0 i i + greens d e 1 i i) * ((beta y t i : ℂ) + beta y s i) :=
    Finset.sum_congr rfl fun i _ => by rw [add_comm (beta y t i : ℂ)]
  rw [hb, hg]

theorem sqrt_split (m w : ℝ) (h : 0 ≤ m * w) : Real.sqrt (2 * m * w) = 2 * Real.sqrt (m * w / 2) := by
  rw [show 2 * m * w = 2 ^ 2 * (m * w / 2) by ring, Real.sqrt_mul (by norm_num), Real.sqrt_sq (by norm_num)]

/-- The energy of a pair is the matrix element over the overlap. -/
theorem pairEnergy_eq (y : Sys n) (h : 0 ≤ y.m * y.w) (hT : ∀ σ, (y.T σ)ᵀ = y.T σ) (d e : Det n na nb) (hu : ovl d.up e.up ≠ 0)
    (hd : ovl d.dn e.dn ≠ 0) (s t : Fin n → ℝ) : pairEnergy y d e s t * (ovl d.up e.up * ovl d.dn e.dn) =
      electrons y d e (fun i => (s i + t i) / 2) +
        ((1 / 2 * y.m * y.w ^ 2 * ∑ i, s i * t i : ℝ) : ℂ) * (ovl d.up e.up * ovl d.dn e.dn) := by
  have hel := electrons_eq (K := 1) y (fun _ => d) e (fun i => (s i + t i) / 2) 0 hu hd
  rw [walkerG_eq] at hel
  have hs : Real.sqrt (y.m * y.w / 2) ^ 2 = y.m * y.w / 2 := Real.sq_sqrt (by linarith)
  rw [hel, ← add_mul]
  congr 1
  simp only [pairEnergy, Energy.localHubbard, greens, Matrix.cons_val_zero, Matrix.cons_val_one, Slater.gabMod_eq, dot2_symm _ _ (hT _),
    Matrix.transpose_apply]
  have hb : (y.w : ℂ) * ∑ i, (beta y s i : ℂ) * beta y t i = ((1 / 2 * y.m * y.w ^ 2 * ∑ i, s i * t i : ℝ) : ℂ) := by
    rw [Finset.mul_sum, Finset.mul_sum, Complex.ofReal_sum]
    refine Finset.sum_congr rfl fun i _ => ?_
    rw [← Complex.ofReal_mul, ← Complex.ofReal_mul]
    congr 1
    simp only [beta]
    linear_combination (y.w * s i * t i) * hs
  have hg : ∀ G : Fin n → ℂ, -(y.g : ℂ) * ∑ i, G i * ((beta y s i : ℂ) + beta y t i) =
      -(y.g : ℂ) * (Real.sqrt (y.m * y.w * 2) : ℂ) * ∑ i, G i * (((s i + t i) / 2 : ℝ) : ℂ) := by
    intro G
    rw [mul_assoc]
    congr 1
    rw [show y.m * y.w * 2 = 2 * y.m * y.w by ring, sqrt_split _ _ h, Finset.mul_sum]
    refine Finset.sum_congr rfl fun i _ => ?_
    simp only [beta]
    push_cast
    ring
  rw [hb, hg]
  ring

/-- The energy at the shift is that of the pair of a state with itself. -/
theorem energyAt_eq (y : Sys n) (hm : 0 < y.m) (hw : 0 ≤ y.w) (d : Det n na nb) (s : Fin n → ℝ) :
    energyAt y (greens d d) s = pairEnergy y d d s s := by
  have h : 0 ≤ y.m * y.w := mul_nonneg hm.le hw
  have hs : Real.sqrt (y.m * y.w / 2) ^ 2 = y.m * y.w / 2 := Real.sq_sqrt (by linarith)
  have hl : -(1 / 2) * (∑ i, (((⟨y.m, y.w, s⟩ : Osc n).laplacian s i : ℝ) : ℂ)) / y.m - 1 / 2 * y.w * n = 0 := by
    have : ∀ i, (⟨y.m, y.w, s⟩ : Osc n).laplacian s i = -(y.w * y.m) := fun i => by simp [Osc.laplacian]
    simp only [this, Finset.sum_const, Finset.card_univ, Fintype.card_fin, nsmul_eq_mul]
    have hm' : (y.m : ℂ) ≠ 0 := by exact_mod_cast hm.ne'
    push_cast
    field_simp
    ring
  simp only [energyAt, localHH, hl, pairEnergy, Energy.localHubbard]
  have hb : (y.w : ℂ) * ∑ i, (beta y s i : ℂ) * beta y s i = 1 / 2 * (y.w : ℂ) ^ 2 * y.m * ∑ i, (s i : ℂ) * s i := by
    rw [Finset.mul_sum, Finset.mul_sum]
    refine Finset.sum_congr rfl fun i _ => ?_
    have := congrArg (fun r : ℝ => (r : ℂ)) hs
    simp only [beta]
    push_cast at this ⊢
    linear_combination ((y.w : ℂ) * s i * s i) * this
  have hg : ∀ G : Fin n → ℂ, -(y.g : ℂ) * ∑ i, G i * ((beta y s i : ℂ) + beta y s i) =
      -(y.g : ℂ) * (Real.sqrt (y.m * y.w * 2) : ℂ) * ∑ i, G i * (s i : ℂ) := by
    intro G
    rw [mul_assoc]
    congr 1
    rw [show y.m * y.w * 2 = 2 * y.m * y.w by ring, sqrt_split _ _ h, Finset.mul_sum]
    refine Finset.sum_congr rfl fun i _ => ?_
    simp only [beta]
    push_cast
    ring
  rw [hb, hg]
  ring

theorem pairs_sum (F : Fin K → Fin K → ℂ) (hF : ∀ k l, F k l = F l k) : ∑ k, F k k + ∑ p ∈ pairs K, 2 * F p.1 p.2 = ∑ k, ∑ l, F k l := by
  have h3 : ∑ k, ∑ l, F k l = ∑ p : Fin K × Fin K, F p.1 p.2 := (Fintype.sum_prod_type' F).symm
  have hsplit : ∑ p : Fin K × Fin K, F p.1 p.2 = ∑ p ∈ pairs K, F p.1 p.2 + ∑ p ∈ Finset.univ.filter (fun p : Fin K × Fin K => p.2 < p.1), F p.1 p.2 +
      ∑ p ∈ Finset.univ.filter (fun p : Fin K × Fin K => p.1 = p.2), F p.1 p.2 := by
    rw [pairs, Finset.sum_filter, Finset.sum_filter, Finset.sum_filter, ← Finset.sum_add_distrib, ← Finset.sum_add_distrib]
    refine Finset.sum_congr rfl fun p _ => ?_
    rcases lt_trichotomy p.1 p.2 with h | h | h
    · simp [h, h.not_gt, h.ne]
    · simp [h]
    · simp [h, h.not_gt, h.ne']
  have hswap : ∑ p ∈ Finset.univ.filter (fun p : Fin K × Fin K => p.2 < p.1), F p.1 p.2 = ∑ p ∈ pairs K, F p.1 p.2 := by
    refine Finset.sum_nbij' (fun p => (p.2, p.1)) (fun p => (p.2, p.1)) ?_ ?_ ?_ ?_ ?_
    · intro p hp; simpa [pairs] using hp
    · intro p hp; simpa [pairs] using hp
    · intro p _; rfl
    · intro p _; rfl
    · intro p _; exact hF _ _
  have hdiag : ∑ p ∈ Finset.univ.filter (fun p : Fin K × Fin K => p.1 = p.2), F p.1 p.2 = ∑ k, F k k := by
    refine Finset.sum_nbij' (fun p => p.1) (fun k => (k, k)) ?_ ?_ ?_ ?_ ?_
    · intro p _; exact Finset.mem_univ _
    · intro k _; simp
    · intro p hp
      have : p.1 = p.2 := by simpa using hp
      exact Prod.ext rfl this
    · intro k _; rfl
    · intro p hp
      have : p.1 = p.2 := by simpa using hp
      rw [this]
  rw [h3, hsplit, hswap, hdiag, ← Finset.mul_sum]
  ring

theorem norm_sq_real {c : ℂ} (h : star c = c) : ((‖c‖ ^ 2 : ℝ) : ℂ) = c * c := by
  have := Complex.mul_conj c
  rw [Complex.normSq_eq_norm_sq] at this
  rw [← this]
  congr 1

/-- **C97**, for real coefficients and orbitals: `calculate_energy` of several coherent states is `⟨Ψ|H|Ψ⟩/⟨Ψ|Ψ⟩` less the zero-point
energy.  Missing: the permuted copies of one state, for which it is wrong (`permuted_wrong`). -/
theorem energySeveral_eq_partial (y : Sys n) (hm : 0 < y.m) (hw : 0 < y.w) (hT : ∀ σ, (y.T σ)ᵀ = y.T σ) (c : Fin K → ℂ)
    (hc : ∀ k, star (c k) = c k) (d : Fin K → Det n na nb) (hd : ∀ k, (d k).Real) (s : Fin K → Fin n → ℝ)
    (hup : ∀ k l, ovl (d k).up (d l).up ≠ 0) (hdn : ∀ k l, ovl (d k).dn (d l).dn ≠ 0) (h0 : cohNorm y c d s ≠ 0) :
    energySeveral y c d s = cohH y c d s / cohNorm y c d s - 1 / 2 * y.w * n := by
  have hmw : 0 ≤ y.m * y.w := (mul_pos hm hw).le
  have ha : 0 < y.m * y.w / 2 := by have := mul_pos hm hw; linarith
  have hz : ((znorm n (y.m * y.w / 2) : ℝ) : ℂ) ≠ 0 := by exact_mod_cast (znorm_pos _ ha).ne'
  set N := fun k l => overlap y (d k) (d l) (s k) (s l) * c k * c l with hN
  set E := fun k l => pairEnergy y (d k) (d l) (s k) (s l) * (overlap y (d k) (d l) (s k) (s l) * c k * c l) with hE
  have hnum : ∑ k, energyAt y (greens (d k) (d k)) (s k) * ((‖c k‖ ^ 2 : ℝ) : ℂ) * overlap y (d k) (d k) (s k) (s k) +
      ∑ p ∈ pairs K, pairEnergy y (d p.1) (d p.2) (s p.1) (s p.2) * overlap y (d p.1) (d p.2) (s p.1) (s p.2) * c p.1 * c p.2 * 2 =
      ∑ k, ∑ l, E k l := by
    rw [← pairs_sum E fun k l => by
      simp only [hE]
      rw [pairEnergy_symm y hT _ _ (hd k) (hd l), overlap_symm y (d k)]
      ring]
    congr 1
    · refine Finset.sum_congr rfl fun k _ => ?_
      rw [energyAt_eq y hm hw.le, norm_sq_real (hc k)]
      simp only [hE]
      ring
    · exact Finset.sum_congr rfl fun p _ => by simp only [hE]; ring
  have hden : ∑ k, overlap y (d k) (d k) (s k) (s k) * ((‖c k‖ ^ 2 : ℝ) : ℂ) +
      ∑ p ∈ pairs K, overlap y (d p.1) (d p.2) (s p.1) (s p.2) * c p.1 * c p.2 * 2 = ∑ k, ∑ l, N k l := by
    rw [← pairs_sum N fun k l => by
      simp only [hN]
      rw [overlap_symm y (d k)]
      ring]
    congr 1
    · refine Finset.sum_congr rfl fun k _ => ?_
      rw [norm_sq_real (hc k)]
      simp only [hN]
      ring
    · exact Finset.sum_congr rfl fun p _ => by simp only [hN]; ring
  have hcn : cohNorm y c d s = (znorm n (y.m * y.w / 2) : ℂ) * ∑ k, ∑ l, N k l := by
    rw [cohNorm, Finset.mul_sum]
    refine Finset.sum_congr rfl fun k _ => ?_
    rw [Finset.mul_sum]
    refine Finset.sum_congr rfl fun l _ => ?_
    simp only [hN]
    rw [overlap_eq y hmw _ _ (hd k), gprod_overlap, hc k]
    push_cast
    ring
  have hch : cohH y c d s = (znorm n (y.m * y.w / 2) : ℂ) * (∑ k, ∑ l, E k l + 1 / 2 * y.w * n * ∑ k, ∑ l, N k l) := by
    rw [cohH, mul_add, Finset.mul_sum, Finset.mul_sum, Finset.mul_sum, ← Finset.sum_add_distrib]
    refine Finset.sum_congr rfl fun k _ => ?_
    rw [Finset.mul_sum, Finset.mul_sum, Finset.mul_sum, ← Finset.sum_add_distrib]
    refine Finset.sum_congr rfl fun l _ => ?_
    simp only [hN, hE]
    have hp := pairEnergy_eq y hmw hT (d k) (d l) (hup k l) (hdn k l) (s k) (s l)
    rw [overlap_eq y hmw _ _ (hd k), phonon_element _ _ hm hw, electrons_element y ha, hc k]
    push_cast at hp ⊢
    linear_combination (-(c k * c l * znorm n (y.m * y.w / 2) * cohOvl (y.m * y.w / 2) (s k) (s l))) * hp
  have hne : ∑ k, ∑ l, N k l ≠ 0 := fun h => h0 (by rw [hcn, h, mul_zero])
  have : energySeveral y c d s = (∑ k, ∑ l, E k l) / ∑ k, ∑ l, N k l := by
    rw [energySeveral, hnum, hden]
  rw [this, hch, hcn]
  field_simp
  ring

end Verif.Holstein
