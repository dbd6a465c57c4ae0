import Verif.Slater.Hirsch
import Mathlib.Analysis.Normed.Algebra.MatrixExponential

/-!
# Exponentials of matrices without negative entries off the diagonal

General lemmas.
-/

namespace Verif.Fields

open Matrix Finset
open Verif.Hirsch (IsPos)

/-- A number that is real and not negative. -/
def NonNeg (z : ℂ) : Prop := ∃ r : ℝ, 0 ≤ r ∧ z = r

theorem NonNeg.mul {a b : ℂ} : NonNeg a → NonNeg b → NonNeg (a * b) := by
  rintro ⟨r, hr, rfl⟩ ⟨s, hs, rfl⟩
  exact ⟨r * s, mul_nonneg hr hs, by push_cast; rfl⟩

theorem NonNeg.sum {ι : Type*} {s : Finset ι} {f : ι → ℂ} (h : ∀ i ∈ s, NonNeg (f i)) : NonNeg (∑ i ∈ s, f i) := by
  classical
  induction s using Finset.induction_on with
  | empty => exact ⟨0, le_rfl, by simp⟩
  | insert a s ha ih =>
    rw [sum_insert ha]
    obtain ⟨r, hr, e⟩ := h a (mem_insert_self a s)
    obtain ⟨q, hq, e'⟩ := ih fun i hi => h i (mem_insert_of_mem hi)
    exact ⟨r + q, add_nonneg hr hq, by rw [e, e']; push_cast; rfl⟩

theorem NonNeg.of_re {z : ℂ} (h1 : 0 ≤ z.re) (h2 : z.im = 0) : NonNeg z := ⟨z.re, h1, by apply Complex.ext <;> simp [h2]⟩

theorem NonNeg.re {z : ℂ} (h : NonNeg z) : 0 ≤ z.re := by obtain ⟨r, hr, rfl⟩ := h; exact hr

theorem NonNeg.im {z : ℂ} (h : NonNeg z) : z.im = 0 := by obtain ⟨r, hr, rfl⟩ := h; exact Complex.ofReal_im r

/-- The exponential of a matrix without negative entries is entrywise at least the identity. -/
theorem exp_nonneg {κ : Type} [Fintype κ] [DecidableEq κ] {N : Matrix κ κ ℂ} (h : ∀ i j, NonNeg (N i j)) (i j : κ) :
    NonNeg (NormedSpace.exp N i j) ∧ (i = j → 1 ≤ (NormedSpace.exp N i j).re) := by
  letI : NormedRing (Matrix κ κ ℂ) := Matrix.linftyOpNormedRing
  letI : NormedAlgebra ℂ (Matrix κ κ ℂ) := Matrix.linftyOpNormedAlgebra
  have hs := NormedSpace.exp_series_hasSum_exp' (𝕂 := ℂ) N
  have hp : ∀ k : Nat, ∀ i j, NonNeg ((N ^ k) i j) := by
    intro k
    induction k with
    | zero =>
      intro i j
      rw [pow_zero, Matrix.one_apply]
      split_ifs
      · exact ⟨1, zero_le_one, by simp⟩
      · exact ⟨0, le_rfl, by simp⟩
    | succ k ih =>
      intro i j
      rw [pow_succ, Matrix.mul_apply]
      exact NonNeg.sum fun l _ => (ih i l).mul (h l j)
  have hij : HasSum (fun k : Nat => ((k.factorial : ℂ)⁻¹ • N ^ k) i j) (NormedSpace.exp N i j) := by
    have h1 := (Pi.hasSum.1 hs) i
    exact (Pi.hasSum.1 h1) j
  have hk : ∀ k : Nat, NonNeg (((k.factorial : ℂ)⁻¹ • N ^ k) i j) := by
    intro k
    rw [Matrix.smul_apply, smul_eq_mul]
    refine NonNeg.mul ⟨(k.factorial : ℝ)⁻¹, by positivity, by push_cast; rfl⟩ (hp k i j)
  have hre := Complex.reCLM.hasSum hij
  have him := Complex.imCLM.hasSum hij
  refine ⟨NonNeg.of_re (hre.nonneg fun k => (hk k).re) ?_, fun e => ?_⟩
  · have : (fun k : Nat => Complex.imCLM (((k.factorial : ℂ)⁻¹ • N ^ k) i j)) = fun _ => 0 := by
      funext k; exact (hk k).im
    rw [this] at him
    exact him.unique hasSum_zero
  · have := le_hasSum hre 0 fun k _ => (hk k).re
    subst e
    simpa using this

/-- The exponential of a real matrix with no negative entries off the diagonal has none. -/
theorem exp_metzler {κ : Type} [Fintype κ] [DecidableEq κ] {A : Matrix κ κ ℂ} (hr : ∀ i j, (A i j).im = 0)
    (ho : ∀ i j, i ≠ j → 0 ≤ (A i j).re) (i j : κ) : NonNeg (NormedSpace.exp A i j) ∧ (i = j → IsPos (NormedSpace.exp A i j)) := by
  set c : ℝ := ∑ i, |(A i i).re| with hc
  set N : Matrix κ κ ℂ := A + (c : ℂ) • 1 with hN
  have hNN : ∀ i j, NonNeg (N i j) := by
    intro i j
    rw [hN, Matrix.add_apply, Matrix.smul_apply, Matrix.one_apply, smul_eq_mul]
    by_cases e : i = j
    · subst e
      rw [if_pos rfl, mul_one]
      refine NonNeg.of_re ?_ (by simp [hr])
      have := single_le_sum (f := fun i => |(A i i).re|) (fun i _ => abs_nonneg _) (mem_univ i)
      rw [Complex.add_re, Complex.ofReal_re]
      have h2 := neg_abs_le (A i i).re
      linarith
    · rw [if_neg e, mul_zero, add_zero]
      exact NonNeg.of_re (ho i j e) (hr i j)
  have hexp : NormedSpace.exp A = Complex.exp (-(c : ℂ)) • NormedSpace.exp N := by
    have e1 : A = N + -((c : ℂ) • 1) := by rw [hN]; abel
    have e2 : -((c : ℂ) • (1 : Matrix κ κ ℂ)) = diagonal fun _ => -(c : ℂ) := by
      rw [← Matrix.diagonal_one, ← Matrix.diagonal_smul, Matrix.diagonal_neg]
      congr 1
      funext i
      simp
    have e3 : NormedSpace.exp (diagonal fun _ : κ => -(c : ℂ)) = Complex.exp (-(c : ℂ)) • 1 := by
      rw [Matrix.exp_diagonal, Pi.exp_def, ← Complex.exp_eq_exp_ℂ, ← Matrix.diagonal_one, ← Matrix.diagonal_smul]
      congr 1
      funext i
      simp
    conv_lhs => rw [e1]
    rw [Matrix.exp_add_of_commute _ _ ?_, e2, e3, Matrix.mul_smul, Matrix.mul_one]
    rw [← neg_smul]
    exact (Commute.one_right N).smul_right _
  rw [hexp, Matrix.smul_apply, smul_eq_mul]
  have hp : IsPos (Complex.exp (-(c : ℂ))) := by
    have := IsPos.exp (-c)
    rwa [Complex.ofReal_neg] at this
  obtain ⟨r, hr', e⟩ := hp
  have hp : IsPos (Complex.exp (-(c : ℂ))) := ⟨r, hr', e⟩
  refine ⟨NonNeg.mul ⟨r, hr'.le, e⟩ (exp_nonneg hNN i j).1, fun hij => hp.mul ?_⟩
  have h1 := (exp_nonneg hNN i j).1
  exact ⟨_, lt_of_lt_of_le one_pos ((exp_nonneg hNN i j).2 hij), Complex.ext (Complex.ofReal_re _).symm (h1.im.trans (Complex.ofReal_im _).symm)⟩

/-- The exponential of a real matrix without negative entries off the diagonal keeps positive vectors positive. -/
theorem exp_pos_mul {κ : Type} [Fintype κ] [DecidableEq κ] {k : Type} {A : Matrix κ κ ℂ} (hr : ∀ i j, (A i j).im = 0) (ho : ∀ i j, i ≠ j → 0 ≤ (A i j).re)
    {B : Matrix κ k ℂ}
    (hB : ∀ i j, IsPos (B i j)) (i : κ) (j : k) : IsPos ((NormedSpace.exp A * B) i j) := by
  rw [Matrix.mul_apply]
  have hB' : ∀ l, NonNeg (B l j) := fun l => by obtain ⟨r, hr, e⟩ := hB l j; exact ⟨r, hr.le, e⟩
  have h1 : NonNeg (∑ l, NormedSpace.exp A i l * B l j) := NonNeg.sum fun l _ => (exp_metzler hr ho i l).1.mul (hB' l)
  refine ⟨_, ?_, Complex.ext (Complex.ofReal_re _).symm (h1.im.trans (Complex.ofReal_im _).symm)⟩
  rw [Complex.re_sum]
  refine lt_of_lt_of_le ?_ (single_le_sum (f := fun l => (NormedSpace.exp A i l * B l j).re)
    (fun l _ => ((exp_metzler hr ho i l).1.mul (hB' l)).re) (mem_univ i))
  exact (((exp_metzler hr ho i i).2 rfl).mul (hB i j)).re

end Verif.Fields
