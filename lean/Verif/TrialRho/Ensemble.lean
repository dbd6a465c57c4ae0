import Verif.TrialRho.Gibbs
import Verif.Grand.Systems
import Verif.Grand.Lie
import Mathlib.Analysis.SpecialFunctions.Log.NegMulLog

/-!
# Grand canonical ensembles of one-body Hamiltonians

The averages of any quantity in the ensemble of a one-body Hamiltonian, the partition function, the entropy, and the variational
principle for the grand potential.
-/

namespace Verif.TrialRho

open Matrix Finset Verif.Grand
open Verif.Thermal (Mat)
open Verif.Step (genOp Sym spin spinOp)

variable {m : Nat}

/-- The exponential of a one-body Hamiltonian with chemical potential. -/
noncomputable def expo (t mu : ℝ) (K : Fin 2 → Mat m) (s : Fin 2) : Mat m :=
  NormedSpace.exp (-(t : ℂ) • (K s - (mu : ℂ) • 1))

/-- The trace with the statistical operator of a one-body Hamiltonian. -/
theorem gibbs_oneBody (β mu : ℝ) (K : Fin 2 → Mat m) {O : Ops m} (hO : ∀ nu nd, Sym spin (O nu nd)) :
    gibbs β (grand (oneOp K) (mu : ℂ)) O = wick (expo β mu K) O := by
  have h := fock_gibbs (fun s => K s - (mu : ℂ) • 1) (nx := 0) Fin.elim0 Fin.elim0 β hO 0 (H := grand (oneOp K) (mu : ℂ)) (by
    intro nu nd α _
    rw [genOp_shift, genOp, zero_smul, sub_zero, grand, oneOp]
    simp)
  rw [mul_zero, Complex.exp_zero, one_mul] at h
  rw [← h, wick_apply]
  congr 1
  funext nu nd
  rw [Pi.mul_apply, Pi.mul_apply]
  congr 1
  have := prodOp_exp (fun s => K s - (mu : ℂ) • 1) (spin : Fin nu ⊕ Fin nd → Fin 2) (-(β : ℂ))
  rw [genOp]
  simp only [univ_eq_empty, sum_empty, smul_zero, sub_zero]
  exact this.symm

/-- The real part of the logarithm of the partition function. -/
noncomputable def logZ (β : ℝ) (H : Ops m) (mu : ℝ) : ℝ := Real.log (gibbs β (grand H (mu : ℂ)) 1).re

/-- The thermal average. -/
noncomputable def mean (β : ℝ) (H : Ops m) (mu : ℝ) (O : Ops m) : ℂ :=
  gibbs β (grand H (mu : ℂ)) O / gibbs β (grand H (mu : ℂ)) 1

/-- The many-body statistical operator in the states with `nu` and `nd` electrons. -/
noncomputable def statOp (β : ℝ) (H : Ops m) (mu : ℝ) (nu nd : Nat) : Matrix (Occ m nu × Occ m nd) (Occ m nu × Occ m nd) ℂ :=
  (((gibbs β (grand H (mu : ℂ)) 1).re⁻¹ : ℝ) : ℂ) • NormedSpace.exp (-(β : ℂ) • sector (grand H (mu : ℂ) nu nd))

/-- The von Neumann entropy: minus the sum of `p log p` over the eigenvalues of the statistical operator. -/
noncomputable def vonNeumann (ρ : ∀ nu nd, Matrix (Occ m nu × Occ m nd) (Occ m nu × Occ m nd) ℂ) (h : ∀ nu nd, (ρ nu nd).IsHermitian) : ℝ :=
  ∑ nu ∈ range (m + 1), ∑ nd ∈ range (m + 1), ∑ i, Real.negMulLog ((h nu nd).eigenvalues i)

/-- A sum over the eigenvalues is a sum over the diagonal in any orthonormal basis of eigenvectors. -/
theorem sum_eigenvalues {κ : Type} [Fintype κ] [DecidableEq κ] {A V : Matrix κ κ ℂ} {a : κ → ℝ} (hA : A.IsHermitian) (hV : Vᴴ * V = 1)
    (h : A = V * diagonal (fun i => (a i : ℂ)) * Vᴴ) (f : ℝ → ℝ) : ∑ i, f (hA.eigenvalues i) = ∑ i, f (a i) := by
  have e1 : A.charpoly = (diagonal fun i => (a i : ℂ)).charpoly := by
    have hi : V⁻¹ = Vᴴ := Matrix.inv_eq_left_inv hV
    have hu : IsUnit V := (Matrix.isUnit_iff_isUnit_det V).2 (Matrix.isUnit_det_of_left_inverse hV)
    have := Matrix.charpoly_units_conj hu.unit (diagonal fun i => (a i : ℂ))
    rw [h, ← hi]
    rw [← this]
    congr 2
  have e2 := congrArg Polynomial.roots e1
  rw [hA.roots_charpoly_eq_eigenvalues, Matrix.charpoly_diagonal, ← Finset.prod_map_val,
    show (fun i => Polynomial.X - Polynomial.C ((a i : ℝ) : ℂ)) = (fun z : ℂ => Polynomial.X - Polynomial.C z) ∘ fun i => ((a i : ℝ) : ℂ) from rfl,
    ← Multiset.map_map (fun z : ℂ => Polynomial.X - Polynomial.C z), Polynomial.roots_multiset_prod_X_sub_C] at e2
  have e3 := congrArg (fun s : Multiset ℂ => (s.map fun z => f z.re).sum) e2
  simpa [Multiset.map_map, Function.comp_def] using e3

section Variational

variable {H : Ops m} (hS : ∀ nu nd, Sym spin (H nu nd)) (hH : ∀ nu nd, (H nu nd).IsHermitian)

include hS hH in
theorem gibbs_grand_pos (β mu : ℝ) : ∃ r : ℝ, 0 < r ∧ gibbs β (grand H (mu : ℂ)) 1 = r :=
  gibbs_pos β (grand_sym hS mu) (grand_herm hH mu)

theorem herm_smul {κ : Type} [Fintype κ] {A : Matrix κ κ ℂ} (hA : A.IsHermitian) (t : ℝ) : ((t : ℂ) • A).IsHermitian := by
  rw [Matrix.IsHermitian, Matrix.conjTranspose_smul, hA.eq]
  simp

include hS hH in
theorem grand_sector_herm (mu : ℝ) (nu nd : Nat) : (sector (grand H (mu : ℂ) nu nd)).IsHermitian :=
  sector_herm (grand_sym hS mu nu nd) (grand_herm hH mu nu nd)

include hS hH in
theorem statOp_herm (β mu : ℝ) (nu nd : Nat) : (statOp β H mu nu nd).IsHermitian := by
  refine herm_smul ?_ _
  have := herm_smul (grand_sector_herm hS hH mu nu nd) (-β)
  rw [Complex.ofReal_neg] at this
  exact this.exp

include hS hH in
/-- The entropy of a thermal state: `log Z` and the mean energy, less the chemical potential times the number of particles. -/
theorem vonNeumann_eq (β mu : ℝ) :
    vonNeumann (statOp β H mu) (statOp_herm hS hH β mu) = logZ β H mu + β * (mean β H mu (grand H (mu : ℂ))).re := by
  obtain ⟨Z, hZ, eZ⟩ := gibbs_grand_pos hS hH β mu
  choose V a h1 h2 h3 h4 using fun nu nd => herm_decomp (grand_sector_herm hS hH mu nu nd)
  have e1 : ∀ nu nd, NormedSpace.exp (-(β : ℂ) • sector (grand H (mu : ℂ) nu nd)) =
      V nu nd * diagonal (fun i => (Real.exp (-β * a nu nd i) : ℂ)) * (V nu nd)ᴴ := by
    intro nu nd
    rw [← Complex.ofReal_neg]
    exact h4 nu nd (-β)
  have e2 : ∀ nu nd, (NormedSpace.exp (-(β : ℂ) • sector (grand H (mu : ℂ) nu nd))).trace = ((∑ i, Real.exp (-β * a nu nd i) : ℝ) : ℂ) := by
    intro nu nd
    rw [e1, Matrix.trace_mul_comm, ← Matrix.mul_assoc, h1, Matrix.one_mul, Matrix.trace_diagonal, ← Complex.ofReal_sum]
  have e3 : ∀ nu nd, (sector (grand H (mu : ℂ) nu nd) * NormedSpace.exp (-(β : ℂ) • sector (grand H (mu : ℂ) nu nd))).trace =
      ((∑ i, a nu nd i * Real.exp (-β * a nu nd i) : ℝ) : ℂ) := by
    intro nu nd
    rw [e1]
    conv_lhs => rw [h3 nu nd]
    set E := diagonal fun i => (Real.exp (-β * a nu nd i) : ℂ)
    set D := diagonal fun i => (a nu nd i : ℂ)
    have : V nu nd * D * (V nu nd)ᴴ * (V nu nd * E * (V nu nd)ᴴ) = V nu nd * (D * E) * (V nu nd)ᴴ := by
      calc V nu nd * D * (V nu nd)ᴴ * (V nu nd * E * (V nu nd)ᴴ) = V nu nd * D * ((V nu nd)ᴴ * V nu nd) * E * (V nu nd)ᴴ := by
            simp only [Matrix.mul_assoc]
        _ = _ := by rw [h1, Matrix.mul_one]; simp only [Matrix.mul_assoc]
    rw [this, Matrix.trace_mul_comm, ← Matrix.mul_assoc, h1, Matrix.one_mul, diagonal_mul_diagonal, Matrix.trace_diagonal,
      Complex.ofReal_sum]
    exact sum_congr rfl fun i _ => (Complex.ofReal_mul _ _).symm
  have eZ' : ∑ nu ∈ range (m + 1), ∑ nd ∈ range (m + 1), ∑ i, Real.exp (-β * a nu nd i) = Z := by
    rw [← Complex.ofReal_inj, ← eZ, gibbs]
    push_cast
    refine sum_congr rfl fun nu _ => sum_congr rfl fun nd _ => ?_
    rw [show (1 : Ops m) nu nd = 1 from rfl, sector_one, one_mul, e2]
    push_cast
    rfl
  have em : (mean β H mu (grand H (mu : ℂ))).re = (∑ nu ∈ range (m + 1), ∑ nd ∈ range (m + 1), ∑ i, a nu nd i * Real.exp (-β * a nu nd i)) / Z := by
    have : gibbs β (grand H (mu : ℂ)) (grand H (mu : ℂ)) =
        ((∑ nu ∈ range (m + 1), ∑ nd ∈ range (m + 1), ∑ i, a nu nd i * Real.exp (-β * a nu nd i) : ℝ) : ℂ) := by
      rw [gibbs, Complex.ofReal_sum]
      refine sum_congr rfl fun nu _ => ?_
      rw [Complex.ofReal_sum]
      exact sum_congr rfl fun nd _ => e3 nu nd
    rw [mean, this, eZ, ← Complex.ofReal_div, Complex.ofReal_re]
  have ev : ∀ nu nd, ∑ i, Real.negMulLog ((statOp_herm hS hH β mu nu nd).eigenvalues i) =
      (∑ i, Real.exp (-β * a nu nd i)) * (Real.log Z / Z) + β / Z * ∑ i, a nu nd i * Real.exp (-β * a nu nd i) := by
    intro nu nd
    have := sum_eigenvalues (a := fun i => Z⁻¹ * Real.exp (-β * a nu nd i)) (statOp_herm hS hH β mu nu nd) (h1 nu nd) (by
      rw [statOp, eZ, Complex.ofReal_re, e1, ← Matrix.smul_mul, ← Matrix.mul_smul, ← diagonal_smul]
      congr 3
      funext i
      rw [Pi.smul_apply, smul_eq_mul, Complex.ofReal_mul]) Real.negMulLog
    rw [this, sum_mul, mul_sum, ← sum_add_distrib]
    refine sum_congr rfl fun i _ => ?_
    rw [Real.negMulLog, Real.log_mul (inv_ne_zero hZ.ne') (Real.exp_ne_zero _), Real.log_inv, Real.log_exp]
    field_simp
    ring
  rw [vonNeumann, sum_congr rfl fun nu _ => sum_congr rfl fun nd _ => ev nu nd]
  simp only [sum_add_distrib, ← sum_mul, ← mul_sum]
  rw [eZ', em, logZ, eZ, Complex.ofReal_re]
  field_simp

variable {B : Ops m} (hSB : ∀ nu nd, Sym spin (B nu nd)) (hB : ∀ nu nd, (B nu nd).IsHermitian)

theorem gibbs_sub (β : ℝ) (K X Y : Ops m) : gibbs β K (X - Y) = gibbs β K X - gibbs β K Y := by
  simp only [gibbs, Pi.sub_apply, sector_sub, Matrix.sub_mul, Matrix.trace_sub, sum_sub_distrib]

include hS hH hSB hB in
/-- **The variational principle**: `log Z` is at least the value computed with the statistical operator of another Hamiltonian. -/
theorem logZ_ge (β mu nu' : ℝ) :
    logZ β B nu' - β * (mean β B nu' (grand H (mu : ℂ) - grand B (nu' : ℂ))).re ≤ logZ β H mu := by
  obtain ⟨Z, hZ, eZ⟩ := gibbs_grand_pos hSB hB β nu'
  obtain ⟨Y, hY, eY⟩ := gibbs_grand_pos hS hH β mu
  have toSum : ∀ (f : Nat → Nat → ℝ), ∑ nu ∈ range (m + 1), ∑ nd ∈ range (m + 1), f nu nd =
      ∑ k ∈ range (m + 1) ×ˢ range (m + 1), f k.1 k.2 := fun f => (sum_product _ _ fun k : Nat × Nat => f k.1 k.2).symm
  have h := bogoliubov (range (m + 1) ×ˢ range (m + 1)) (ι := fun k : Nat × Nat => Occ m k.1 × Occ m k.2)
    (fun k => (β : ℂ) • sector (grand H (mu : ℂ) k.1 k.2)) (fun k => (β : ℂ) • sector (grand B (nu' : ℂ) k.1 k.2))
    (fun k => herm_smul (grand_sector_herm hS hH mu _ _) β) (fun k => herm_smul (grand_sector_herm hSB hB nu' _ _) β)
    (Z := Z) (D := β * (Z * (mean β B nu' (grand H (mu : ℂ) - grand B (nu' : ℂ))).re)) (by
      rw [← toSum fun nu nd => (NormedSpace.exp (-((β : ℂ) • sector (grand B (nu' : ℂ) nu nd)))).trace.re]
      rw [← Complex.ofReal_re Z, ← eZ, gibbs, Complex.re_sum]
      refine sum_congr rfl fun nu _ => ?_
      rw [Complex.re_sum]
      refine sum_congr rfl fun nd _ => ?_
      rw [show (1 : Ops m) nu nd = 1 from rfl, sector_one, one_mul, neg_smul]) hZ (by
      rw [← toSum fun nu nd => (((β : ℂ) • sector (grand H (mu : ℂ) nu nd) - (β : ℂ) • sector (grand B (nu' : ℂ) nu nd)) *
        NormedSpace.exp (-((β : ℂ) • sector (grand B (nu' : ℂ) nu nd)))).trace.re]
      have e : (Z : ℝ) * (mean β B nu' (grand H (mu : ℂ) - grand B (nu' : ℂ))).re =
          (gibbs β (grand B (nu' : ℂ)) (grand H (mu : ℂ) - grand B (nu' : ℂ))).re := by
        rw [mean, eZ, Complex.div_ofReal_re]
        field_simp
      rw [e, gibbs, Complex.re_sum, mul_sum]
      refine sum_congr rfl fun nu _ => ?_
      rw [Complex.re_sum, mul_sum]
      refine sum_congr rfl fun nd _ => ?_
      rw [← smul_sub, Matrix.smul_mul, Matrix.trace_smul, smul_eq_mul, Complex.re_ofReal_mul, Pi.sub_apply, Pi.sub_apply, sector_sub, neg_smul])
  rw [← toSum fun nu nd => (NormedSpace.exp (-((β : ℂ) • sector (grand H (mu : ℂ) nu nd)))).trace.re] at h
  have eY' : ∑ nu ∈ range (m + 1), ∑ nd ∈ range (m + 1), (NormedSpace.exp (-((β : ℂ) • sector (grand H (mu : ℂ) nu nd)))).trace.re = Y := by
    rw [← Complex.ofReal_re Y, ← eY, gibbs, Complex.re_sum]
    refine sum_congr rfl fun nu _ => ?_
    rw [Complex.re_sum]
    refine sum_congr rfl fun nd _ => ?_
    rw [show (1 : Ops m) nu nd = 1 from rfl, sector_one, one_mul, neg_smul]
  rw [eY'] at h
  have h2 := Real.log_le_log (by positivity) h
  rw [Real.log_mul hZ.ne' (Real.exp_ne_zero _), Real.log_exp] at h2
  rw [logZ, logZ, eZ, eY, Complex.ofReal_re, Complex.ofReal_re]
  refine le_trans (le_of_eq ?_) h2
  field_simp
  ring

end Variational

end Verif.TrialRho
