import Verif.Energy.Props
import Mathlib.Analysis.SpecialFunctions.Exp
import Mathlib.Analysis.Calculus.Deriv.Basic
import Mathlib.MeasureTheory.Integral.Bochner.Basic
import Mathlib.MeasureTheory.Constructions.Pi

/-!
# Electrons and phonons (Hubbard-Holstein model)

Model of `HarmonicOscillator`, `HarmonicOscillatorMomentum` (`pauxy/trial_wavefunction/harmonic_oscillator.py`), the phonon part and
the energies of `CoherentState` (`pauxy/trial_wavefunction/coherent_state.py` 530-599, 852-956), `local_energy_hubbard_holstein`
(`pauxy/estimators/hubbard.py` 51-90), `local_energy_multi_det_hh` (`pauxy/estimators/mixed.py` 449-458) and the phonon steps of
`HirschDMC` (`pauxy/propagation/hubbard_holstein.py`).  Exact real and complex arithmetic.
-/

namespace Verif.Holstein

open Matrix

variable {n : Nat}

/-! ## The oscillators -/

/-- `HarmonicOscillator`: mass, frequency, shift of every site (harmonic_oscillator.py 7-15; `norm` is 1). -/
structure Osc (n : Nat) where
  m : ℝ
  w : ℝ
  shift : Fin n → ℝ

/-- `value`, harmonic_oscillator.py 20-22. -/
noncomputable def Osc.value (o : Osc n) (X : Fin n → ℝ) : ℝ :=
  ∏ i, Real.exp (-(o.m * o.w / 2) * (X i - o.shift i) * (X i - o.shift i))

/-- `gradient`, harmonic_oscillator.py 24-27. -/
def Osc.gradient (o : Osc n) (X : Fin n → ℝ) (i : Fin n) : ℝ := -o.m * o.w * (X i - o.shift i)

/-- `laplacian`, harmonic_oscillator.py 29-32. -/
def Osc.laplacian (o : Osc n) (X : Fin n → ℝ) (i : Fin n) : ℝ :=
  o.m * o.m * o.w * o.w * (X i - o.shift i) * (X i - o.shift i) - o.w * o.m

/-- `local_energy`, harmonic_oscillator.py 34-43. -/
noncomputable def Osc.localEnergy (o : Osc n) (X : Fin n → ℝ) : ℝ :=
  let ke := -(1 / 2) * (∑ i, o.laplacian X i) / o.m
  let pot := 1 / 2 * o.m * o.w * o.w * ∑ i, X i * X i
  ke + pot - 1 / 2 * o.w * n

/-- `HarmonicOscillatorMomentum.value`, harmonic_oscillator.py 53-55. -/
noncomputable def Osc.valueP (o : Osc n) (P : Fin n → ℝ) : ℝ :=
  ∏ i, Real.exp (-(1 / (2 * o.m * o.w)) * (P i - o.shift i) * (P i - o.shift i))

/-- `HarmonicOscillatorMomentum.gradient`, harmonic_oscillator.py 57-59. -/
noncomputable def Osc.gradientP (o : Osc n) (P : Fin n → ℝ) (i : Fin n) : ℝ := -(1 / (o.m * o.w)) * (P i - o.shift i)

/-- `HarmonicOscillatorMomentum.laplacian`, harmonic_oscillator.py 61-63. -/
noncomputable def Osc.laplacianP (o : Osc n) (P : Fin n → ℝ) (i : Fin n) : ℝ :=
  (1 / (o.m * o.w)) ^ 2 * (P i - o.shift i) * (P i - o.shift i) - 1 / (o.m * o.w)

/-- `HarmonicOscillatorMomentum.local_energy`, harmonic_oscillator.py 65-73. -/
noncomputable def Osc.localEnergyP (o : Osc n) (P : Fin n → ℝ) : ℝ :=
  let ke := 1 / (2 * o.m) * ∑ i, P i * P i
  let pot := -(1 / 2) * o.m * o.w * o.w * ∑ i, o.laplacianP P i
  ke + pot - 1 / 2 * o.w * n

/-! ## Several coherent states -/

/-- The trial seen by the phonons of a walker: coefficient, shift and overlap (`walker.ots`) of every coherent state.  With
`symmetrize` the states are the permuted copies of one state or those read from a file; a single state is the case of one state
with coefficient and overlap one. -/
structure Several (n K : Nat) where
  m : ℝ
  w : ℝ
  coeff : Fin K → ℂ
  shift : Fin K → Fin n → ℝ
  ots : Fin K → ℂ

variable {K : Nat}

/-- The oscillator of a state. -/
def Several.osc (t : Several n K) (k : Fin K) : Osc n := ⟨t.m, t.w, t.shift k⟩

/-- `CoherentState.value`, coherent_state.py 530-547. -/
noncomputable def Several.value (t : Several n K) (X : Fin n → ℝ) : ℂ :=
  ∑ k, ((t.osc k).value X : ℂ) * t.ots k * star (t.coeff k)

/-- `CoherentState.gradient`, coherent_state.py 549-568: the coefficients are not conjugated. -/
noncomputable def Several.gradient (t : Several n K) (X : Fin n → ℝ) (i : Fin n) : ℂ :=
  (∑ k, ((t.osc k).value X : ℂ) * (t.osc k).gradient X i * t.ots k * t.coeff k) / t.value X

/-- `CoherentState.laplacian`, coherent_state.py 570-591. -/
noncomputable def Several.laplacian (t : Several n K) (X : Fin n → ℝ) (i : Fin n) : ℂ :=
  (∑ k, ((t.osc k).value X : ℂ) * (t.osc k).laplacian X i * t.ots k * star (t.coeff k)) / t.value X

/-- `CoherentState.bosonic_local_energy`, coherent_state.py 593-599. -/
noncomputable def Several.bosonicEnergy (t : Several n K) (X : Fin n → ℝ) : ℂ :=
  let ke := -(1 / 2) * (∑ i, t.laplacian X i) / t.m
  let pot := 1 / 2 * t.m * t.w * t.w * ∑ i, (X i : ℂ) * X i
  ke + pot - 1 / 2 * t.w * n

/-! ## The local energy -/

/-- What the energy reads from `HubbardHolstein`. -/
structure Sys (n : Nat) where
  T : Fin 2 → Matrix (Fin n) (Fin n) ℂ
  U : ℝ
  g : ℝ
  m : ℝ
  w : ℝ
  symmetric : Bool

/-- `local_energy_hubbard_holstein`, hubbard.py 67-90: total, electronic and phonon energy. -/
noncomputable def localHH (y : Sys n) (G : Fin 2 → Matrix (Fin n) (Fin n) ℂ) (X : Fin n → ℝ) (Lap : Fin n → ℂ) : ℂ × ℂ × ℂ :=
  let kepe := (Energy.localHubbard y.T y.U y.symmetric G).1
  let pePh := 1 / 2 * y.w ^ 2 * y.m * ∑ i, (X i : ℂ) * X i
  let kePh := -(1 / 2) * (∑ i, Lap i) / y.m - 1 / 2 * y.w * n
  let eEph := -y.g * (Real.sqrt (y.m * y.w * 2) : ℂ) * ∑ i, (G 0 i i + G 1 i i) * X i
  (kepe + pePh + kePh + eEph, kepe, kePh + pePh + eEph)

/-- `local_energy_multi_det_hh`, mixed.py 449-458. -/
noncomputable def localSeveral (y : Sys n) (weights : Fin K → ℂ) (G : Fin K → Fin 2 → Matrix (Fin n) (Fin n) ℂ) (X : Fin n → ℝ)
    (Lap : Fin K → Fin n → ℂ) : ℂ :=
  (∑ k, weights k * (localHH y (G k) X (Lap k)).1) / ∑ k, weights k

/-! ## The energy of the trial -/

/-- Orbitals of both spins. -/
structure Det (n na nb : Nat) where
  up : Matrix (Fin n) (Fin na) ℂ
  dn : Matrix (Fin n) (Fin nb) ℂ

variable {na nb : Nat}

/-- Rows of the orbitals in the order of a permutation, `psi[perm, :]`. -/
def Det.perm (d : Det n na nb) (p : Fin n → Fin n) : Det n na nb := ⟨d.up.submatrix p id, d.dn.submatrix p id⟩

/-- `weights` of a walker: coefficient, overlap of the determinants and phonon function of every coherent state
(multi_coherent.py 148-191, 273-310). -/
noncomputable def walkerWeights (y : Sys n) (c : Fin K → ℂ) (d : Fin K → Det n na nb) (s : Fin K → Fin n → ℝ) (φ : Det n na nb)
    (X : Fin n → ℝ) (k : Fin K) : ℂ :=
  star (c k) * (((d k).upᴴ * φ.up).det * ((d k).dnᴴ * φ.dn).det) * ((⟨y.m, y.w, s k⟩ : Osc n).value X : ℂ)

/-- `Gi` of a walker (multi_coherent.py 360-401). -/
noncomputable def walkerG (d : Fin K → Det n na nb) (φ : Det n na nb) (k : Fin K) : Fin 2 → Matrix (Fin n) (Fin n) ℂ :=
  ![(φ.up * (((d k).upᴴ * φ.up)⁻¹) * (d k).upᴴ)ᵀ, (φ.dn * (((d k).dnᴴ * φ.dn)⁻¹) * (d k).dnᴴ)ᵀ]

/-- `Lapi` of a walker (multi_coherent.py 92-104, coherent_state.py 578 and 585). -/
noncomputable def walkerLap (y : Sys n) (s : Fin K → Fin n → ℝ) (X : Fin n → ℝ) (k : Fin K) (i : Fin n) : ℂ :=
  ((⟨y.m, y.w, s k⟩ : Osc n).laplacian X i : ℂ)

/-- `MultiCoherentWalker.local_energy`, multi_coherent.py 403-418; `Xw` are the coordinates at which `weights` was last computed,
since the phonon step (`boson_importance_sampling`, hubbard_holstein.py 314-356) moves the coordinates and leaves `weights`. -/
noncomputable def walkerEnergy (y : Sys n) (c : Fin K → ℂ) (d : Fin K → Det n na nb) (s : Fin K → Fin n → ℝ) (φ : Det n na nb)
    (Xw X : Fin n → ℝ) : ℂ :=
  localSeveral y (walkerWeights y c d s φ Xw) (walkerG d φ) X (walkerLap y s X)

/-- `beta`, coherent_state.py 861. -/
noncomputable def beta (y : Sys n) (s : Fin n → ℝ) (i : Fin n) : ℝ := s i * Real.sqrt (y.m * y.w / 2)

/-- `gab` (coherent_state.py 45-78) of both spins, called in lines 865 and 883. -/
noncomputable def greens (d e : Det n na nb) : Fin 2 → Matrix (Fin n) (Fin n) ℂ := ![Slater.gab d.up e.up, Slater.gab d.dn e.dn]

/-- `local_energy_hubbard_holstein_jax` (coherent_state.py 81-115) at the shift, called in lines 869-872: as `localHH` without the
symmetric form. -/
noncomputable def energyAt (y : Sys n) (G : Fin 2 → Matrix (Fin n) (Fin n) ℂ) (s : Fin n → ℝ) : ℂ :=
  (localHH { y with symmetric := false } G s fun i => ((⟨y.m, y.w, s⟩ : Osc n).laplacian s i : ℂ)).1

/-- `overlap`, coherent_state.py 873 and 892; the orbitals are transposed, not conjugated. -/
noncomputable def overlap (y : Sys n) (d e : Det n na nb) (s t : Fin n → ℝ) : ℂ :=
  (d.upᵀ * e.up).det * (d.dnᵀ * e.dn).det *
    ∏ i, (Real.exp (-(1 / 2) * (beta y s i ^ 2 + beta y t i ^ 2) + beta y s i * beta y t i) : ℂ)

/-- The energy of a pair, coherent_state.py 886-890. -/
noncomputable def pairEnergy (y : Sys n) (d e : Det n na nb) (s t : Fin n → ℝ) : ℂ :=
  let G := greens d e
  let ke := Energy.dot2 (y.T 0) (G 0) + Energy.dot2 (y.T 1) (G 1)
  let pe := y.U * ∑ i, G 0 i i * G 1 i i
  let ePh := y.w * ∑ i, (beta y s i : ℂ) * beta y t i
  let eEph := -y.g * ∑ i, (G 0 i i + G 1 i i) * (beta y s i + beta y t i)
  ke + pe + ePh + eEph

/-- The pairs `i < j` of the double loop. -/
def pairs (K : Nat) : Finset (Fin K × Fin K) := Finset.univ.filter fun p => p.1 < p.2

/-- `calculate_energy` for several coherent states, coherent_state.py 858-899. -/
noncomputable def energySeveral (y : Sys n) (c : Fin K → ℂ) (d : Fin K → Det n na nb) (s : Fin K → Fin n → ℝ) : ℂ :=
  let num := ∑ k, energyAt y (greens (d k) (d k)) (s k) * ((‖c k‖ ^ 2 : ℝ) : ℂ) * overlap y (d k) (d k) (s k) (s k) +
    ∑ p ∈ pairs K, pairEnergy y (d p.1) (d p.2) (s p.1) (s p.2) * overlap y (d p.1) (d p.2) (s p.1) (s p.2) * c p.1 * c p.2 * 2
  let den := ∑ k, overlap y (d k) (d k) (s k) (s k) * ((‖c k‖ ^ 2 : ℝ) : ℂ) +
    ∑ p ∈ pairs K, overlap y (d p.1) (d p.2) (s p.1) (s p.2) * c p.1 * c p.2 * 2
  num / den

/-- `calculate_energy` for the permuted copies of one state, coherent_state.py 900-945: the energy of the state itself stands for
that of every copy, and its norm is taken as one; `self.G` is transposed (coherent_state.py 388-396). -/
noncomputable def energyPermuted (y : Sys n) (c : Fin K → ℂ) (perms : Fin K → Fin n → Fin n) (d : Det n na nb) (s : Fin n → ℝ) : ℂ :=
  let e := energyAt y (fun σ => (greens d d σ)ᵀ) s
  let D := fun k => d.perm (perms k)
  let S := fun k i => s (perms k i)
  let num := ∑ k, e * c k ^ 2 +
    ∑ p ∈ pairs K, pairEnergy y (D p.1) (D p.2) (S p.1) (S p.2) * overlap y (D p.1) (D p.2) (S p.1) (S p.2) * c p.1 * c p.2 * 2
  let den := ∑ k, c k ^ 2 + ∑ p ∈ pairs K, overlap y (D p.1) (D p.2) (S p.1) (S p.2) * c p.1 * c p.2 * 2
  num / den

/-! ## Specification -/

/-- Second derivative in the coordinate of site `i`. -/
noncomputable def second {F : Type} [NormedAddCommGroup F] [NormedSpace ℝ F] (ψ : (Fin n → ℝ) → F) (X : Fin n → ℝ) (i : Fin n) : F :=
  deriv (deriv fun t => ψ (Function.update X i t)) (X i)

/-- The phonon Hamiltonian `∑ᵢ pᵢ²/2m + m w² Xᵢ²/2` on a wavefunction of the coordinates. -/
noncomputable def phonon {F : Type} [NormedAddCommGroup F] [NormedSpace ℝ F] (m w : ℝ) (ψ : (Fin n → ℝ) → F) (X : Fin n → ℝ) : F :=
  ∑ i, (-(1 / (2 * m)) • second ψ X i + (1 / 2 * m * w ^ 2 * X i ^ 2) • ψ X)

/-- The same on a wavefunction of the momenta. -/
noncomputable def phononP (m w : ℝ) (ψ : (Fin n → ℝ) → ℝ) (P : Fin n → ℝ) : ℝ :=
  ∑ i, (P i ^ 2 / (2 * m) * ψ P - 1 / 2 * m * w ^ 2 * second ψ P i)

end Verif.Holstein
