import Verif.Uhf.Aufbau
import Verif.Setup.Props
import Verif.Slater.Props

/-!
# The UHF trial wavefunction: self-consistency and energy (C107)
-/

namespace Verif.Uhf

open Matrix Finset

variable {m nu nd : Nat}

/-- Orthonormal orbitals of each spin. -/
structure Orth (o : Orbs m nu nd) : Prop where
  up : o.upᴴ * o.up = 1
  dn : o.dnᴴ * o.dn = 1

/-- The energy of a determinant by its definition: hopping energies, and the interaction times the probability that a
site is doubly occupied. -/
noncomputable def hf (T : Fin 2 → Matrix (Fin m) (Fin m) ℂ) (U : ℝ) (o : Orbs m nu nd) : ℝ :=
  kin (T 0) o.up + kin (T 1) o.dn + U * ∑ i, density o.up i * density o.dn i

theorem gab_orth {k : Nat} {A : Matrix (Fin m) (Fin k) ℂ} (h : Aᴴ * A = 1) : Slater.gab A A = A * Aᴴ := by
  rw [Slater.gab, h, inv_one, Matrix.one_mul]

theorem dot2_kin {k : Nat} (T : Matrix (Fin m) (Fin m) ℂ) {A : Matrix (Fin m) (Fin k) ℂ} (h : Aᴴ * A = 1) :
    (Energy.dot2 T (Slater.gab A A)ᵀ).re = kin T A := by
  rw [gab_orth h, kin, Matrix.mul_assoc, trace_mul_comm, Matrix.mul_assoc]
  congr 1

theorem green_dn (o : Orbs m nu nd) : green o = ![(Slater.gab o.up o.up)ᵀ, (Slater.gab o.dn o.dn)ᵀ] := by
  unfold green
  split_ifs with h
  · rfl
  · obtain rfl : nd = 0 := by omega
    congr 2

/-- The energy the code computes is that of the determinant. -/
theorem energy_eq (I : Inp m nu nd) (U : ℝ) {o : Orbs m nu nd} (h : Orth o) : energy I U o = hf I.T U o := by
  unfold energy hf
  rw [green_dn]
  simp only [Energy.localHubbard, cons_val_zero, cons_val_one, Complex.add_re]
  rw [dot2_kin _ h.up, dot2_kin _ h.dn]
  congr 1
  rw [← Complex.ofReal_re (U * ∑ i, density o.up i * density o.dn i)]
  congr 1
  rw [Complex.ofReal_mul, Complex.ofReal_sum]
  congr 1
  refine sum_congr rfl fun i _ => ?_
  rw [transpose_apply, transpose_apply, gab_orth h.up, gab_orth h.dn, density_diag, density_diag, Complex.ofReal_mul]

theorem diagonalise_orth {I : Inp m nu nd} {eig : Eig m} (hE : Eigh eig) (hT : ∀ s, (I.T s).IsHermitian) (n : Dens m) :
    Orth (diagonalise I eig n) :=
  ⟨cols_orth hE I.hu (meanField_herm (hT 0) _ _), cols_orth hE I.hd (meanField_herm (hT 1) _ _)⟩

/-- Change of the orbitals of one spin in the field of the other: if the orbitals are the lowest in the field of the
density `n`, the energy falls by no more than the interaction times the change of density. -/
theorem one_spin {I : Inp m nu nd} {eig : Eig m} (hE : Eigh eig) (hT : ∀ s, (I.T s).IsHermitian) (n : Dens m) :
    (∀ A : Matrix (Fin m) (Fin nu) ℂ, Aᴴ * A = 1 →
      hf I.T I.ueff (diagonalise I eig n) - |I.ueff| * ∑ i, |density (diagonalise I eig n).dn i - n 1 i| ≤
        hf I.T I.ueff ⟨A, (diagonalise I eig n).dn⟩) ∧
    (∀ B : Matrix (Fin m) (Fin nd) ℂ, Bᴴ * B = 1 →
      hf I.T I.ueff (diagonalise I eig n) - |I.ueff| * ∑ i, |density (diagonalise I eig n).up i - n 0 i| ≤
        hf I.T I.ueff ⟨(diagonalise I eig n).up, B⟩) := by
  have ho := diagonalise_orth hE hT n
  have key : ∀ (k : Nat) (A C : Matrix (Fin m) (Fin k) ℂ), Aᴴ * A = 1 → Cᴴ * C = 1 → ∀ (T : Matrix (Fin m) (Fin m) ℂ)
      (p q : Fin m → ℝ), kin (meanField T I.ueff q) C ≤ kin (meanField T I.ueff q) A →
      kin T C + I.ueff * ∑ i, p i * density C i - |I.ueff| * ∑ i, |p i - q i| ≤ kin T A + I.ueff * ∑ i, p i * density A i := by
    intro k A C hA hC T p q h
    rw [kin_meanField, kin_meanField] at h
    have h1 : I.ueff * ∑ i, (p i - q i) * (density C i - density A i) ≤ |I.ueff| * ∑ i, |p i - q i| := by
      refine (le_abs_self _).trans ?_
      rw [abs_mul]
      refine mul_le_mul_of_nonneg_left ((abs_sum_le_sum_abs _ _).trans (sum_le_sum fun i _ => ?_)) (abs_nonneg _)
      rw [abs_mul]
      have a1 := density_nonneg A i
      have a2 := density_le_one A hA i
      have c1 := density_nonneg C i
      have c2 := density_le_one C hC i
      exact mul_le_of_le_one_right (abs_nonneg _) (abs_le.2 ⟨by linarith, by linarith⟩)
    have h2 : ∑ i, (p i - q i) * (density C i - density A i) = ∑ i, p i * density C i - ∑ i, p i * density A i -
        (∑ i, q i * density C i - ∑ i, q i * density A i) := by
      rw [← sum_sub_distrib, ← sum_sub_distrib, ← sum_sub_distrib]
      exact sum_congr rfl fun i _ => by ring
    rw [h2] at h1
    linarith
  constructor
  · intro A hA
    have h := key nu A _ hA ho.up (I.T 0) (density (diagonalise I eig n).dn) (n 1)
      (aufbau hE I.hu (meanField_herm (hT 0) _ _) A hA)
    unfold hf
    have e : ∀ C : Matrix (Fin m) (Fin nu) ℂ, ∑ i, density C i * density (diagonalise I eig n).dn i =
        ∑ i, density (diagonalise I eig n).dn i * density C i := fun C => sum_congr rfl fun i _ => mul_comm _ _
    simp only [e]
    linarith
  · intro B hB
    have h := key nd B _ hB ho.dn (I.T 1) (density (diagonalise I eig n).up) (n 0)
      (aufbau hE I.hd (meanField_herm (hT 1) _ _) B hB)
    unfold hf
    simp only
    linarith

/-- What a converged attempt is: orbitals of the mean field of a density that was mixed from two earlier ones, the later
of which is near to the density of the orbitals. -/
theorem scf_spec {I : Inp m nu nd} {eig : Eig m} (k : Nat) (s : Snap m nu nd) (eold : ℝ) (old older : Dens m)
    (hs : s.dens = mix I.alpha old older) (hc : (scf I eig k s eold old).converged = true) :
    ∃ n old' older' : Dens m, n = mix I.alpha old' older' ∧ (scf I eig k s eold old).psi.trial = diagonalise I eig n ∧
      (scf I eig k s eold old).psi.eigs = eigs I eig n ∧
      (scf I eig k s eold old).psi.dens = densities (diagonalise I eig n) ∧
      (scf I eig k s eold old).energy = energy I I.ueff (diagonalise I eig n) ∧
      ∀ x, (∑ i, |densities (diagonalise I eig n) x i - old' x i|) / m < Real.sqrt I.deps := by
  induction k generalizing s eold old older with
  | zero => simp [scf] at hc
  | succ k ih =>
    rw [scf] at hc ⊢
    split_ifs at hc ⊢ with h
    · refine ⟨s.dens, old, older, hs, rfl, rfl, rfl, rfl, fun x => ?_⟩
      fin_cases x
      · exact h.2.1
      · exact h.2.2
    · exact ih _ _ _ _ rfl hc

theorem mix_self (a : ℝ) (n : Dens m) : mix a n n = n := by
  funext s i
  simp only [mix]
  ring

theorem attempt_spec {I : Inp m nu nd} {eig : Eig m} (R : Random m) (hc : (attempt I eig R).converged = true) :
    ∃ n old older : Dens m, n = mix I.alpha old older ∧ (attempt I eig R).psi.trial = diagonalise I eig n ∧
      (attempt I eig R).psi.eigs = eigs I eig n ∧
      (attempt I eig R).psi.dens = densities (diagonalise I eig n) ∧
      (attempt I eig R).energy = energy I I.ueff (diagonalise I eig n) ∧
      ∀ x, (∑ i, |densities (diagonalise I eig n) x i - old x i|) / m < Real.sqrt I.deps :=
  scf_spec _ _ _ _ _ (mix_self I.alpha _).symm hc

section

variable {I : Inp m nu nd} {eig : Eig m} {Rs : List (Random m)} {o : Orbs m nu nd} {emin etrial : ℝ}

theorem build_spec (hd : 0 ≤ I.deps) (h : build I eig Rs = some (o, emin, etrial)) :
    ∃ R ∈ Rs, (attempt I eig R).converged = true ∧ (attempt I eig R).psi.trial = o ∧ (attempt I eig R).energy = emin ∧
      etrial = energy I I.U o ∧ ∀ R' ∈ Rs, (attempt I eig R').converged = true → emin ≤ (attempt I eig R').energy + I.deps := by
  unfold build find at h
  obtain ⟨⟨psi, e, dens⟩, h1, h2⟩ := Option.map_eq_some_iff.1 h
  obtain ⟨⟨a, ha, hc, hp, he⟩, hlow⟩ := Setup.uhfResult_spec I.deps hd I.U I.ueff _ psi e dens h1
  obtain ⟨R, hR, rfl⟩ := List.mem_map.1 ha
  simp only [Prod.mk.injEq] at h2
  refine ⟨R, hR, hc, by rw [hp]; exact h2.1, by rw [he]; exact h2.2.1, by rw [← h2.2.2, h2.1], fun R' hR' hc' => ?_⟩
  rw [← h2.2.1]
  exact hlow _ (List.mem_map.2 ⟨R', hR', rfl⟩) hc'

/-- **C107**: the orbitals returned are orthonormal, their densities add up to the numbers of electrons, and the energies
are those of the determinant: `emin` with the effective interaction, `etrial` with the interaction of the system. -/
theorem determinant (hE : Eigh eig) (hT : ∀ s, (I.T s).IsHermitian) (hd : 0 ≤ I.deps)
    (h : build I eig Rs = some (o, emin, etrial)) : Orth o ∧ ∑ i, density o.up i = nu ∧ ∑ i, density o.dn i = nd ∧
      emin = hf I.T I.ueff o ∧ etrial = hf I.T I.U o := by
  obtain ⟨R, -, hc, ho, he, ht, -⟩ := build_spec hd h
  obtain ⟨n, -, -, -, h1, -, -, h2, -⟩ := attempt_spec R hc
  have hor : Orth o := by rw [← ho, h1]; exact diagonalise_orth hE hT n
  refine ⟨hor, density_sum _ hor.up, density_sum _ hor.dn, ?_, ?_⟩
  · rw [← he, h2, ← h1, ho, energy_eq I _ hor]
  · rw [ht, energy_eq I _ hor]

/-- **C107**: the orbitals are the lowest ones of both spins in the mean field of some density. -/
theorem orbitals_lowest (hE : Eigh eig) (hT : ∀ s, (I.T s).IsHermitian) (hd : 0 ≤ I.deps)
    (h : build I eig Rs = some (o, emin, etrial)) : ∃ n : Dens m,
      (∀ A : Matrix (Fin m) (Fin nu) ℂ, Aᴴ * A = 1 → kin (meanField (I.T 0) I.ueff (n 1)) o.up ≤
        kin (meanField (I.T 0) I.ueff (n 1)) A) ∧
      (∀ B : Matrix (Fin m) (Fin nd) ℂ, Bᴴ * B = 1 → kin (meanField (I.T 1) I.ueff (n 0)) o.dn ≤
        kin (meanField (I.T 1) I.ueff (n 0)) B) ∧
      ∃ old older : Dens m, n = mix I.alpha old older ∧
        ∀ x, (∑ i, |densities o x i - old x i|) / m < Real.sqrt I.deps := by
  obtain ⟨R, -, hc, ho, -⟩ := build_spec hd h
  obtain ⟨n, old, older, hn, h1, -, -, -, h3⟩ := attempt_spec R hc
  rw [← ho, h1]
  exact ⟨n, fun A hA => aufbau hE I.hu (meanField_herm (hT 0) _ _) A hA,
    fun B hB => aufbau hE I.hd (meanField_herm (hT 1) _ _) B hB, old, older, hn, h3⟩

/-- **C107 (without mixing)**: the trial is self-consistent: its orbitals are the lowest in the mean field of a density
that differs from its own by no more than the threshold on average, and no change of the orbitals of one spin lowers its
energy by more than the threshold.  With mixing this fails (`not_self_consistent`). -/
theorem self_consistent_partial (hE : Eigh eig) (hT : ∀ s, (I.T s).IsHermitian) (hd : 0 ≤ I.deps) (ha : I.alpha = 0)
    (hm : 0 < m) (h : build I eig Rs = some (o, emin, etrial)) :
    (∃ n : Dens m, o = diagonalise I eig n ∧ ∀ x, ∑ i, |densities o x i - n x i| < m * Real.sqrt I.deps) ∧
    (∀ A : Matrix (Fin m) (Fin nu) ℂ, Aᴴ * A = 1 → emin - |I.ueff| * (m * Real.sqrt I.deps) ≤ hf I.T I.ueff ⟨A, o.dn⟩) ∧
    (∀ B : Matrix (Fin m) (Fin nd) ℂ, Bᴴ * B = 1 → emin - |I.ueff| * (m * Real.sqrt I.deps) ≤ hf I.T I.ueff ⟨o.up, B⟩) := by
  have hdet := determinant hE hT hd h
  obtain ⟨R, -, hc, ho, he, -, -⟩ := build_spec hd h
  obtain ⟨n, old, older, hn, h1, -, -, -, h3⟩ := attempt_spec R hc
  have hold : n = old := by
    rw [hn, ha]
    funext s i
    simp [mix]
  have hmp : (0 : ℝ) < m := by exact_mod_cast hm
  have hres : ∀ x, ∑ i, |densities o x i - n x i| < m * Real.sqrt I.deps := by
    intro x
    have := h3 x
    rw [div_lt_iff₀ hmp, ← h1, ho, ← hold] at this
    rw [mul_comm]
    exact this
  obtain ⟨s1, s2⟩ := one_spin hE hT n (I := I)
  rw [← h1, ho] at s1 s2
  rw [hdet.2.2.2.1]
  refine ⟨⟨n, by rw [← ho, h1], hres⟩, fun A hA => (sub_le_sub_left (mul_le_mul_of_nonneg_left ?_ (abs_nonneg _)) _).trans (s1 A hA),
    fun B hB => (sub_le_sub_left (mul_le_mul_of_nonneg_left ?_ (abs_nonneg _)) _).trans (s2 B hB)⟩
  · exact (hres 1).le
  · exact (hres 0).le

end

end Verif.Uhf
