import Verif.CI.Fock
import Mathlib.Analysis.SpecialFunctions.Pow.NNReal
import Mathlib.Algebra.BigOperators.Finprod
import Mathlib.LinearAlgebra.Matrix.Notation

/-!
# Phonons in second quantisation

The specification for C106: amplitudes of states of electrons and phonons, the annihilation and creation operators of a
phonon with their commutation relations, and the Hubbard–Holstein Hamiltonian.  Nothing here refers to the code.
-/

namespace Verif.BoseCI

open CI (ham)

/-- A basis state: phonons on each site and occupied spin orbitals. -/
abbrev Basis (n : Nat) := (Fin n → ℕ) × Finset ℕ

/-- Amplitudes of a state. -/
abbrev Amp (n : Nat) := Basis n → ℝ

variable {n : Nat}

/-- Annihilation of a phonon on site `s`: `b |p⟩ = √p_s |p - e_s⟩`, as an action on amplitudes. -/
noncomputable def bAnn (s : Fin n) (ψ : Amp n) : Amp n := fun x =>
  Real.sqrt (x.1 s + 1) * ψ (Function.update x.1 s (x.1 s + 1), x.2)

/-- Creation of a phonon on site `s`. -/
noncomputable def bCre (s : Fin n) (ψ : Amp n) : Amp n := fun x =>
  if x.1 s = 0 then 0 else Real.sqrt (x.1 s) * ψ (Function.update x.1 s (x.1 s - 1), x.2)

/-- Number of electrons on a site. -/
def dens (n s : Nat) (S : Finset ℕ) : ℝ := (if s ∈ S then 1 else 0) + (if s + n ∈ S then 1 else 0)

/-- The Hubbard–Holstein Hamiltonian `H_el + w Σ b†_s b_s + g Σ n_s (b_s + b†_s)` on states of the electron space `D`. -/
noncomputable def hamOp (e : ℝ) (h : Nat → Nat → ℝ) (V : Nat → Nat → Nat → Nat → ℝ) (w g : ℝ) (D : Finset (Finset ℕ))
    (ψ : Amp n) : Amp n :=
  fun x => ∑ T ∈ D, ham n e h V x.2 T * ψ (x.1, T) + w * ∑ s, bCre s (bAnn s ψ) x +
    g * ∑ s : Fin n, dens n s x.2 * (bAnn s ψ x + bCre s ψ x)

/-- The determinants with given numbers of electrons of each spin. -/
def electrons (n nup ndown : Nat) : Finset (Finset ℕ) :=
  (Finset.range (2 * n)).powerset.filter fun S => (S.filter (· < n)).card = nup ∧ S.card = nup + ndown

/-- States with electrons in `D` and finitely many phonons. -/
def State (D : Finset (Finset ℕ)) (ψ : Amp n) : Prop := (Function.support ψ).Finite ∧ ∀ x, ψ x ≠ 0 → x.2 ∈ D

/-- `⟨φ|ψ⟩` -/
noncomputable def braket (φ ψ : Amp n) : ℝ := ∑ᶠ x, φ x * ψ x

/-- At most `N` phonons in total. -/
def AtMost (N : Nat) (ψ : Amp n) : Prop := ∀ x, ψ x ≠ 0 → ∑ s, x.1 s ≤ N

theorem bAnn_add (s : Fin n) (φ ψ : Amp n) : bAnn s (φ + ψ) = bAnn s φ + bAnn s ψ := by
  funext x; simp [bAnn, mul_add]

theorem bCre_add (s : Fin n) (φ ψ : Amp n) : bCre s (φ + ψ) = bCre s φ + bCre s ψ := by
  funext x
  simp only [bCre, Pi.add_apply]
  split_ifs <;> ring

/-- `[b_s, b†_t] = δ_st` -/
theorem commutator (s t : Fin n) (ψ : Amp n) :
    bAnn s (bCre t ψ) - bCre t (bAnn s ψ) = if s = t then ψ else 0 := by
  funext x
  obtain ⟨p, S⟩ := x
  simp only [Pi.sub_apply, bAnn, bCre]
  by_cases h : s = t
  · subst h
    simp only [Function.update_self, if_true, Nat.add_one_ne_zero, if_false, Function.update_idem, Nat.add_sub_cancel,
      Function.update_eq_self]
    by_cases h0 : p s = 0
    · simp [h0]
    · rw [if_neg h0]
      have e : ((p s - 1 : ℕ) : ℝ) + 1 = p s := by
        rw [Nat.cast_sub (by omega)]; push_cast; ring
      have e2 : p s - 1 + 1 = p s := by omega
      rw [e, e2, Function.update_eq_self, ← mul_assoc, ← mul_assoc]
      push_cast
      rw [Real.mul_self_sqrt (by positivity), Real.mul_self_sqrt (by positivity)]
      ring
  · rw [if_neg h, Function.update_of_ne (Ne.symm h), Function.update_of_ne h]
    by_cases h0 : p t = 0
    · simp [h0]
    · rw [if_neg h0, if_neg h0, Function.update_comm (Ne.symm h)]
      simp only [Pi.zero_apply]
      ring

/-- `[b_s, b_t] = 0` -/
theorem bAnn_comm (s t : Fin n) (ψ : Amp n) : bAnn s (bAnn t ψ) = bAnn t (bAnn s ψ) := by
  by_cases h : s = t
  · rw [h]
  · funext x
    obtain ⟨p, S⟩ := x
    simp only [bAnn]
    rw [Function.update_of_ne (Ne.symm h), Function.update_of_ne h, Function.update_comm h]
    ring

/-- `b†_s b_s` counts the phonons on the site. -/
theorem number (s : Fin n) (ψ : Amp n) (x : Basis n) : bCre s (bAnn s ψ) x = x.1 s * ψ x := by
  obtain ⟨p, S⟩ := x
  simp only [bCre, bAnn]
  by_cases h0 : p s = 0
  · simp [h0]
  · have e : ((p s - 1 : ℕ) : ℝ) + 1 = p s := by
      rw [Nat.cast_sub (by omega)]; push_cast; ring
    have e2 : p s - 1 + 1 = p s := by omega
    rw [if_neg h0]
    simp only [Function.update_self, Function.update_idem]
    rw [e, e2, Function.update_eq_self, ← mul_assoc, Real.mul_self_sqrt (by positivity)]

end Verif.BoseCI
