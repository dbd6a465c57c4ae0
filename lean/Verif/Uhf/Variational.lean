import Verif.Uhf.Props
import Verif.CI.Nonortho

/-!
# The energy of the UHF trial is an upper bound (C107)
-/

namespace Verif.Uhf

open Matrix Finset
open Verif.Step (slater hubOp spin Anti prodState orbs hubOp_elem hubOp_sym)
open Verif.Energy (ovl oneBody)

variable {m nu nd : Nat}

/-- The orbitals as the code stores them. -/
def wfn (o : Orbs m nu nd) : Slater.Wfn m nu nd := Slater.join o.up o.dn

theorem oneBody_kin {k : Nat} {T : Matrix (Fin m) (Fin m) ℂ} (hT : T.IsHermitian) {A : Matrix (Fin m) (Fin k) ℂ}
    (h : Aᴴ * A = 1) : oneBody T A A = (kin T A : ℂ) := by
  have ho : ovl A A = 1 := by rw [ovl, h, det_one]
  rw [Energy.oneBody_eq _ _ _ (by rw [ho]; exact one_ne_zero), ho, one_mul, gab_orth h, kin, ← Matrix.mul_assoc,
    trace_mul_comm, ← Matrix.mul_assoc]
  have hs : star (Aᴴ * T * A).trace = (Aᴴ * T * A).trace := by
    rw [← trace_conjTranspose, conjTranspose_mul, conjTranspose_mul, conjTranspose_conjTranspose, hT.eq, Matrix.mul_assoc]
  exact (Complex.conj_eq_iff_re.1 hs).symm

theorem site_kin {k : Nat} (i : Fin m) (A : Matrix (Fin m) (Fin k) ℂ) : kin (Step.site i) A = density A i := by
  have : (Step.site i : Matrix (Fin m) (Fin m) ℂ) = diagonal fun j => (((if j = i then 1 else 0 : ℝ)) : ℂ) := by
    ext a b
    simp only [Step.site, single_apply, diagonal_apply]
    by_cases h : a = b
    · subst h
      by_cases h' : a = i
      · subst h'; simp
      · simp [h', Ne.symm h']
    · have : ¬(i = a ∧ i = b) := fun ⟨x, y⟩ => h (x.symm.trans y)
      simp [h, this]
  rw [this, kin_diagonal]
  simp

/-- The expectation value of the Hubbard Hamiltonian in the determinant, for the full wave function. -/
theorem expectation (T : Fin 2 → Matrix (Fin m) (Fin m) ℂ) (hT : ∀ s, (T s).IsHermitian) (U : ℝ) {o : Orbs m nu nd} (h : Orth o) :
    slater (wfn o) ⬝ᵥ (hubOp T (U : ℂ) spin *ᵥ star (slater (wfn o))) = nu.factorial * nd.factorial * (hf T U o : ℂ) ∧
      slater (wfn o) ⬝ᵥ star (slater (wfn o)) = nu.factorial * nd.factorial := by
  have hu : ovl o.up o.up = 1 := by rw [ovl, h.up, det_one]
  have hd : ovl o.dn o.dn = 1 := by rw [ovl, h.dn, det_one]
  constructor
  · rw [dotProduct_mulVec, ← CI.Nonortho.anti_prod ((Step.slater_anti _).vecMul (hubOp_sym _ _ _)), ← dotProduct_mulVec,
      hubOp_elem, wfn, Slater.up_join, Slater.dn_join, Step.hubbardElem, Step.oneElem, hu, hd, oneBody_kin (hT 0) h.up,
      oneBody_kin (hT 1) h.dn, hf]
    have hs : ∀ i : Fin m, (Step.site i : Matrix (Fin m) (Fin m) ℂ).IsHermitian := fun i => by
      rw [Matrix.IsHermitian, Step.site, conjTranspose_single, star_one]
    simp only [oneBody_kin (hs _) h.up, oneBody_kin (hs _) h.dn, site_kin]
    push_cast
    ring
  · rw [← CI.Nonortho.anti_prod (Step.slater_anti _), ← Step.ovl2_eq, Step.ovl2, wfn, Slater.up_join, Slater.dn_join, hu, hd]
    ring

/-- **C107**: the trial energy is the expectation value of the Hubbard Hamiltonian in the trial determinant, so no number
below the whole spectrum on antisymmetric states lies above it. -/
theorem variational {I : Inp m nu nd} {eig : Eig m} {Rs : List (Random m)} {o : Orbs m nu nd} {emin etrial : ℝ}
    (hE : Eigh eig) (hT : ∀ s, (I.T s).IsHermitian) (hd : 0 ≤ I.deps) (h : build I eig Rs = some (o, emin, etrial)) :
    slater (wfn o) ⬝ᵥ (hubOp I.T (I.U : ℂ) spin *ᵥ star (slater (wfn o))) =
        etrial * (slater (wfn o) ⬝ᵥ star (slater (wfn o))) ∧ slater (wfn o) ≠ 0 ∧
    ∀ e0 : ℝ, (∀ α : (Fin nu ⊕ Fin nd → Fin m) → ℂ, Anti spin α →
      e0 * (α ⬝ᵥ star α).re ≤ (α ⬝ᵥ (hubOp I.T (I.U : ℂ) spin *ᵥ star α)).re) → e0 ≤ etrial := by
  obtain ⟨ho, -, -, -, ht⟩ := determinant hE hT hd h
  obtain ⟨h1, h2⟩ := expectation I.T hT I.U ho
  have hN : (0 : ℝ) < nu.factorial * nd.factorial := by
    exact_mod_cast Nat.mul_pos (Nat.factorial_pos _) (Nat.factorial_pos _)
  refine ⟨by rw [h1, h2, ht]; ring, fun h0 => ?_, fun e0 he => ?_⟩
  · rw [h0, zero_dotProduct] at h2
    have : ((nu.factorial * nd.factorial : ℝ) : ℂ) = 0 := by push_cast; exact h2.symm
    exact hN.ne' (by exact_mod_cast this)
  · have := he _ (Step.slater_anti (wfn o))
    rw [h1, h2, ← ht] at this
    have e1 : ((nu.factorial * nd.factorial : ℂ)).re = (nu.factorial * nd.factorial : ℝ) := by
      rw [← Complex.ofReal_re (nu.factorial * nd.factorial : ℝ)]; push_cast; rfl
    have e2 : ((nu.factorial * nd.factorial : ℂ) * (etrial : ℂ)).re = (nu.factorial * nd.factorial : ℝ) * etrial := by
      rw [← Complex.ofReal_re ((nu.factorial * nd.factorial : ℝ) * etrial)]; push_cast; rfl
    rw [e1, e2, mul_comm] at this
    exact le_of_mul_le_mul_left this hN

end Verif.Uhf
