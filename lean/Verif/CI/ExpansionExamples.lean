import Verif.CI.ExpansionHubbard
import Verif.MultiDet.Bias

/-!
# Where recomputed coefficients are wrong, and cases that meet the hypotheses of C86
-/

namespace Verif.CI.Bridge

open Finset Matrix
open Verif.Step (slater hamOp spin prodState orbs ovl2 Gen Hub)
open Verif.MultiDet (bra Trial)

variable {nb nu nd n : Nat}

/-! ## Two determinants of electrons of one spin without interaction -/

theorem hamil_up (g : Gen 0 nb) (he : g.ecore = 0) (A B : Slater.Wfn nb nu 0) :
    Energy.hamil g.h1 g.chol g.ecore (Slater.up A) (Slater.up B) (Slater.dn A) (Slater.dn B) =
      Energy.oneBody (g.h1 0) (Slater.up A) (Slater.up B) := by
  simp [Energy.hamil, he, Energy.oneBody, Energy.ovl]

theorem ovl_up (A B : Slater.Wfn nb nu 0) : ovl2 A B = Energy.ovl (Slater.up A) (Slater.up B) := by
  simp [ovl2, Energy.ovl]

theorem up_det (o : List Nat × List Nat) : Slater.up (detOf nb nu nd o) = columns nb nu o.1 := Slater.up_join _ _

/-- `1/√2` -/
noncomputable def r2 : ℂ := ((1 / Real.sqrt 2 : ℝ) : ℂ)

theorem r2_sq : r2 * r2 = 1 / 2 := by
  rw [r2, ← Complex.ofReal_mul, div_mul_div_comm, Real.mul_self_sqrt (by norm_num)]
  norm_num

theorem r2_star : (starRingEnd ℂ) r2 = r2 := Complex.conj_ofReal _

theorem eigh2 {z : ℂ} (hz : star z * z = 1) : Eigh !![0, z; star z, 0] ![-1, 1] !![r2, r2; -(star z * r2), star z * r2] where
  unitary := by
    have hz : (starRingEnd ℂ) z * z = 1 := hz
    have h2 := r2_sq
    have hs := r2_star
    ext i j
    fin_cases i <;> fin_cases j <;>
      simp [Matrix.mul_apply, Fin.sum_univ_two, Matrix.conjTranspose_apply, hs]
    · linear_combination h2 + ((starRingEnd ℂ) z * z) * h2 + 1 / 2 * hz
    · linear_combination h2 - ((starRingEnd ℂ) z * z) * h2 - 1 / 2 * hz
    · linear_combination h2 - ((starRingEnd ℂ) z * z) * h2 - 1 / 2 * hz
    · linear_combination h2 + ((starRingEnd ℂ) z * z) * h2 + 1 / 2 * hz
  eigen := by
    have hz : (starRingEnd ℂ) z * z = 1 := hz
    ext i j
    fin_cases i <;> fin_cases j <;>
      simp [Matrix.mul_apply, Fin.sum_univ_two]
    · linear_combination r2 * hz
    · linear_combination r2 * hz
  sorted := by
    intro i j hij
    fin_cases i <;> fin_cases j <;> simp at hij ⊢

/-- An expansion in two determinants. -/
def two (c : Fin 2 → ℂ) (o o' : List Nat × List Nat) : Expansion 2 := ⟨c, ![o, o']⟩

/-! ## Complex Hamiltonians -/

/-- Hermitian, not real. -/
noncomputable def twisted : Gen 0 2 := ⟨fun _ => !![0, -Complex.I; Complex.I, 0], fun _ => 0, 0⟩

theorem sorted1 (i : Nat) (h : i < 2) : Sorted 2 1 0 ([i], []) := ⟨by simp, by simp, rfl, rfl, by simpa using h, by simp⟩

theorem two_sorted {P : List Nat × List Nat → Prop} {c : Fin 2 → ℂ} {o o' : List Nat × List Nat} (h : P o) (h' : P o')
    (i : Fin 2) : P ((two c o o').occs i) := by
  fin_cases i
  · exact h
  · exact h'

theorem two_inj {c : Fin 2 → ℂ} {o o' : List Nat × List Nat} (h : o ≠ o') : Function.Injective (two c o o').occs := by
  intro i j hij
  fin_cases i <;> fin_cases j
  · rfl
  · exact absurd hij h
  · exact absurd hij.symm h
  · rfl

theorem two_up0 (c : Fin 2 → ℂ) (o o' : List Nat × List Nat) :
    Slater.up (((two c o o').trial nb nu nd).psi 0) = columns nb nu o.1 := up_det o

theorem two_up1 (c : Fin 2 → ℂ) (o o' : List Nat × List Nat) :
    Slater.up (((two c o o').trial nb nu nd).psi 1) = columns nb nu o'.1 := up_det o'

theorem two_up (c : Fin 2 → ℂ) (o o' : List Nat × List Nat) (k : Fin 2) :
    Slater.up (((two c o o').trial nb nu nd).psi k) = columns nb nu (![o.1, o'.1] k) := by
  fin_cases k
  · exact two_up0 c o o'
  · exact two_up1 c o o'

theorem energy_two (g : Gen 0 nb) (he : g.ecore = 0) (c : Fin 2 → ℂ) (o o' : List Nat × List Nat) :
    energyOf g ((two c o o').trial nb nu 0) =
      star (c 0) * c 0 * Energy.oneBody (g.h1 0) (columns nb nu o.1) (columns nb nu o.1) +
      star (c 0) * c 1 * Energy.oneBody (g.h1 0) (columns nb nu o.1) (columns nb nu o'.1) +
      (star (c 1) * c 0 * Energy.oneBody (g.h1 0) (columns nb nu o'.1) (columns nb nu o.1) +
      star (c 1) * c 1 * Energy.oneBody (g.h1 0) (columns nb nu o'.1) (columns nb nu o'.1)) := by
  rw [energyOf, Fin.sum_univ_two, Fin.sum_univ_two, Fin.sum_univ_two]
  simp only [hamil_up g he]
  simp only [two_up0, two_up1]
  rfl

theorem norm_two (c : Fin 2 → ℂ) (o o' : List Nat × List Nat) :
    normOf ((two c o o').trial nb nu 0) =
      star (c 0) * c 0 * Energy.ovl (columns nb nu o.1) (columns nb nu o.1) +
      star (c 0) * c 1 * Energy.ovl (columns nb nu o.1) (columns nb nu o'.1) +
      (star (c 1) * c 0 * Energy.ovl (columns nb nu o'.1) (columns nb nu o.1) +
      star (c 1) * c 1 * Energy.ovl (columns nb nu o'.1) (columns nb nu o'.1)) := by
  rw [normOf, Fin.sum_univ_two, Fin.sum_univ_two, Fin.sum_univ_two]
  simp only [ovl_up, two_up0, two_up1]
  rfl

theorem one1 (h : Matrix (Fin 2) (Fin 2) ℂ) (i j : Fin 2) :
    Energy.oneBody h (columns 2 1 [(i : Nat)]) (columns 2 1 [(j : Nat)]) = h i j := by
  rw [Energy.oneBody, Fin.sum_univ_one, Matrix.det_unique]
  fin_cases i <;> fin_cases j <;> simp [Matrix.mul_apply, Fin.sum_univ_two, columns, Matrix.mulVec, dotProduct, Matrix.col]

theorem ovl1 (i j : Fin 2) : Energy.ovl (columns 2 1 [(i : Nat)]) (columns 2 1 [(j : Nat)]) = if i = j then 1 else 0 := by
  rw [Energy.ovl, Matrix.det_unique]
  fin_cases i <;> fin_cases j <;> simp [Matrix.mul_apply, Fin.sum_univ_two, columns]

/-- **C86 (finding)**: with complex integrals `recompute_ci` diagonalises the transposed Hamiltonian: here the
coefficients it returns have the highest energy, `1`, and others have energy `-1`. -/
theorem recompute_complex : ∃ (E : Expansion 2) (e : Fin 2 → ℝ) (ev : Matrix (Fin 2) (Fin 2) ℂ),
    (∀ s, (twisted.h1 s)ᴴ = twisted.h1 s) ∧ (∀ i, Sorted 2 1 0 (E.occs i)) ∧ Function.Injective E.occs ∧
    Eigh (recomputeMatrix (sysOf twisted 1 0) E) e ev ∧ e 0 = -1 ∧
    normOf ((E.recompute ev).trial 2 1 0) = 1 ∧ energyOf twisted ((E.recompute ev).trial 2 1 0) = 1 ∧
    ∃ c, normOf (Expansion.trial { E with coeffs := c } 2 1 0) = 1 ∧
      energyOf twisted (Expansion.trial { E with coeffs := c } 2 1 0) = -1 := by
  have hh : ∀ s, (twisted.h1 s)ᴴ = twisted.h1 s := by
    intro s
    ext i j
    fin_cases i <;> fin_cases j <;> simp [twisted, Matrix.conjTranspose_apply]
  have hS : ∀ i, Sorted 2 1 0 ((two 0 ([0], []) ([1], [])).occs i) := two_sorted (sorted1 0 (by norm_num)) (sorted1 1 (by norm_num))
  have hM : recomputeMatrix (sysOf twisted 1 0) (two 0 ([0], []) ([1], [])) = !![0, Complex.I; star Complex.I, 0] := by
    ext i j
    rw [recompute_transposed (g := twisted) rfl (hh 0) (fun p q r s => by simp [eri]) (star_zero _) _ hS, hamil_up _ rfl]
    have e : ∀ k : Fin 2, Slater.up (((two 0 ([0], []) ([1], [])).trial 2 1 0).psi k) = columns 2 1 [(k : Nat)] := by
      intro k; fin_cases k <;> exact up_det _
    rw [e, e, one1]
    fin_cases i <;> fin_cases j <;> simp [twisted]
  have hev := eigh2 (z := Complex.I) (by simp)
  rw [← hM] at hev
  have h2 := r2_sq
  have hs := r2_star
  have o00 := ovl1 0 0
  have o01 := ovl1 0 1
  have o10 := ovl1 1 0
  have o11 := ovl1 1 1
  have t00 := one1 (twisted.h1 0) 0 0
  have t01 := one1 (twisted.h1 0) 0 1
  have t10 := one1 (twisted.h1 0) 1 0
  have t11 := one1 (twisted.h1 0) 1 1
  simp only [Fin.val_zero, Fin.val_one] at o00 o01 o10 o11 t00 t01 t10 t11
  refine ⟨two 0 ([0], []) ([1], []), _, _, hh, hS, two_inj (by decide), hev, rfl, ?_, ?_, ![r2, -Complex.I * r2], ?_, ?_⟩
  · refine (norm_two (nb := 2) (nu := 1) (fun i => _) ([0], []) ([1], [])).trans ?_
    simp only [o00, o01, o10, o11]
    simp [hs]
    linear_combination 2 * h2 - Complex.I_mul_I * r2 * r2
  · refine (energy_two twisted rfl (nu := 1) (fun i => _) ([0], []) ([1], [])).trans ?_
    simp only [t00, t01, t10, t11]
    simp [hs, twisted]
    linear_combination 2 * h2 - 2 * r2 ^ 2 * Complex.I_mul_I
  · refine (norm_two (nb := 2) (nu := 1) ![r2, -Complex.I * r2] ([0], []) ([1], [])).trans ?_
    simp only [o00, o01, o10, o11]
    simp [hs]
    linear_combination 2 * h2 - r2 ^ 2 * Complex.I_mul_I
  · refine (energy_two twisted rfl (nu := 1) ![r2, -Complex.I * r2] ([0], []) ([1], [])).trans ?_
    simp only [t00, t01, t10, t11]
    simp [hs, twisted]
    linear_combination -2 * h2 + 2 * r2 ^ 2 * Complex.I_mul_I

/-! ## Occupations out of order -/

/-- Hopping between the last two of three orbitals. -/
def chain : Gen 0 3 := ⟨fun _ => !![0, 0, 0; 0, 0, 1; 0, 1, 0], fun _ => 0, 0⟩

theorem chain_real : RealSymm chain where
  spin := rfl
  h1 := by ext i j; fin_cases i <;> fin_cases j <;> rfl
  chol := fun x => x.elim0
  rh1 := by ext i j; fin_cases i <;> fin_cases j <;> simp [chain, Matrix.conjTranspose_apply]
  reri := fun p q r s => by simp [eri]
  recore := star_zero _

theorem chain_one (A B : Matrix (Fin 3) (Fin 2) ℂ) : Energy.oneBody (chain.h1 0) A B =
    (Aᴴ * B.updateCol 0 (chain.h1 0 *ᵥ B.col 0)).det + (Aᴴ * B.updateCol 1 (chain.h1 0 *ᵥ B.col 1)).det := by
  rw [Energy.oneBody, Fin.sum_univ_two]

theorem sorted2 (i : Nat) (h : 0 < i ∧ i < 3) : Sorted 3 2 0 ([0, i], []) :=
  ⟨by simpa using h.1, by simp, rfl, rfl, by simpa using h.2, by simp⟩

theorem spinOccs10 : CI.spinOccs 3 ([1, 0], []) = CI.spinOccs 3 ([0, 1], []) := by
  simp [CI.spinOccs, List.mergeSort, List.MergeSort.Internal.splitInTwo, List.merge]

theorem co00 : Energy.ovl (columns 3 2 [1, 0]) (columns 3 2 [1, 0]) = 1 := by
  rw [Energy.ovl, Matrix.det_fin_two]; simp [Matrix.mul_apply, Fin.sum_univ_three, columns]

theorem co01 : Energy.ovl (columns 3 2 [1, 0]) (columns 3 2 [0, 2]) = 0 := by
  rw [Energy.ovl, Matrix.det_fin_two]; simp [Matrix.mul_apply, Fin.sum_univ_three, columns]

theorem co10 : Energy.ovl (columns 3 2 [0, 2]) (columns 3 2 [1, 0]) = 0 := by
  rw [Energy.ovl, Matrix.det_fin_two]; simp [Matrix.mul_apply, Fin.sum_univ_three, columns]

theorem co11 : Energy.ovl (columns 3 2 [0, 2]) (columns 3 2 [0, 2]) = 1 := by
  rw [Energy.ovl, Matrix.det_fin_two]; simp [Matrix.mul_apply, Fin.sum_univ_three, columns]

theorem ct00 : Energy.oneBody (chain.h1 0) (columns 3 2 [1, 0]) (columns 3 2 [1, 0]) = 0 := by
  rw [chain_one, Matrix.det_fin_two, Matrix.det_fin_two]
  simp [Matrix.mul_apply, Fin.sum_univ_three, columns, Matrix.mulVec, dotProduct, Matrix.col, chain, Matrix.updateCol_apply]

theorem ct01 : Energy.oneBody (chain.h1 0) (columns 3 2 [1, 0]) (columns 3 2 [0, 2]) = -1 := by
  rw [chain_one, Matrix.det_fin_two, Matrix.det_fin_two]
  simp [Matrix.mul_apply, Fin.sum_univ_three, columns, Matrix.mulVec, dotProduct, Matrix.col, chain, Matrix.updateCol_apply]

theorem ct10 : Energy.oneBody (chain.h1 0) (columns 3 2 [0, 2]) (columns 3 2 [1, 0]) = -1 := by
  rw [chain_one, Matrix.det_fin_two, Matrix.det_fin_two]
  simp [Matrix.mul_apply, Fin.sum_univ_three, columns, Matrix.mulVec, dotProduct, Matrix.col, chain, Matrix.updateCol_apply]

theorem ct11 : Energy.oneBody (chain.h1 0) (columns 3 2 [0, 2]) (columns 3 2 [0, 2]) = 0 := by
  rw [chain_one, Matrix.det_fin_two, Matrix.det_fin_two]
  simp [Matrix.mul_apply, Fin.sum_univ_three, columns, Matrix.mulVec, dotProduct, Matrix.col, chain, Matrix.updateCol_apply]

theorem cs00 : Energy.oneBody (chain.h1 0) (columns 3 2 [0, 1]) (columns 3 2 [0, 1]) = 0 := by
  rw [chain_one, Matrix.det_fin_two, Matrix.det_fin_two]
  simp [Matrix.mul_apply, Fin.sum_univ_three, columns, Matrix.mulVec, dotProduct, Matrix.col, chain, Matrix.updateCol_apply]

theorem cs01 : Energy.oneBody (chain.h1 0) (columns 3 2 [0, 1]) (columns 3 2 [0, 2]) = 1 := by
  rw [chain_one, Matrix.det_fin_two, Matrix.det_fin_two]
  simp [Matrix.mul_apply, Fin.sum_univ_three, columns, Matrix.mulVec, dotProduct, Matrix.col, chain, Matrix.updateCol_apply]

theorem cs10 : Energy.oneBody (chain.h1 0) (columns 3 2 [0, 2]) (columns 3 2 [0, 1]) = 1 := by
  rw [chain_one, Matrix.det_fin_two, Matrix.det_fin_two]
  simp [Matrix.mul_apply, Fin.sum_univ_three, columns, Matrix.mulVec, dotProduct, Matrix.col, chain, Matrix.updateCol_apply]

theorem chain_matrix : recomputeMatrix (sysOf chain 2 0) (two 0 ([1, 0], []) ([0, 2], [])) = !![0, 1; star 1, 0] := by
  have hS : ∀ i, Sorted 3 2 0 ((two 0 ([0, 1], []) ([0, 2], [])).occs i) :=
    two_sorted (sorted2 1 (by norm_num)) (sorted2 2 (by norm_num))
  have e : recomputeMatrix (sysOf chain 2 0) (two 0 ([1, 0], []) ([0, 2], [])) =
      recomputeMatrix (sysOf chain 2 0) (two 0 ([0, 1], []) ([0, 2], [])) := by
    have : ∀ i, CI.spinOccs 3 ((two 0 ([1, 0], []) ([0, 2], [])).occs i) =
        CI.spinOccs 3 ((two 0 ([0, 1], []) ([0, 2], [])).occs i) := by
      intro i
      fin_cases i
      · exact spinOccs10
      · rfl
    unfold recomputeMatrix
    simp only [show (sysOf chain 2 0).nbasis = 3 from rfl, this]
  rw [e]
  ext i j
  rw [recompute_matrix chain_real _ hS, hamil_up _ rfl, two_up, two_up]
  fin_cases i <;> fin_cases j
  · simpa using cs00
  · simpa using cs01
  · simpa using cs10
  · simpa using ct11

/-- **C86 (finding)**: for occupations out of order `recompute_ci` sorts them, the determinant keeps its sign: with real
integrals and orbitals 1 and 0 of the first determinant exchanged, the coefficients it returns have the highest energy,
`1`, and others have energy `-1`. -/
theorem recompute_unsorted : ∃ (E : Expansion 2) (e : Fin 2 → ℝ) (ev : Matrix (Fin 2) (Fin 2) ℂ),
    E.occs = ![([1, 0], []), ([0, 2], [])] ∧ Eigh (recomputeMatrix (sysOf chain 2 0) E) e ev ∧ e 0 = -1 ∧
    normOf ((E.recompute ev).trial 3 2 0) = 1 ∧ energyOf chain ((E.recompute ev).trial 3 2 0) = 1 ∧
    ∃ c, normOf (Expansion.trial { E with coeffs := c } 3 2 0) = 1 ∧
      energyOf chain (Expansion.trial { E with coeffs := c } 3 2 0) = -1 := by
  have hev := eigh2 (z := 1) (by simp)
  rw [← chain_matrix] at hev
  have h2 := r2_sq
  have hs := r2_star
  refine ⟨two 0 ([1, 0], []) ([0, 2], []), _, _, rfl, hev, rfl, ?_, ?_, ![r2, r2], ?_, ?_⟩
  · refine (norm_two (nb := 3) (nu := 2) (fun i => _) ([1, 0], []) ([0, 2], [])).trans ?_
    simp only [co00, co01, co10, co11]
    simp [hs]
    linear_combination 2 * h2
  · refine (energy_two chain rfl (nu := 2) (fun i => _) ([1, 0], []) ([0, 2], [])).trans ?_
    simp only [ct00, ct01, ct10, ct11]
    simp [hs]
    linear_combination 2 * h2
  · refine (norm_two (nb := 3) (nu := 2) ![r2, r2] ([1, 0], []) ([0, 2], [])).trans ?_
    simp only [co00, co01, co10, co11]
    simp [hs]
    linear_combination 2 * h2
  · refine (energy_two chain rfl (nu := 2) ![r2, r2] ([1, 0], []) ([0, 2], [])).trans ?_
    simp only [ct00, ct01, ct10, ct11]
    simp [hs]
    linear_combination -2 * h2

/-! ## Examples -/

/-- Integrals with an interaction that meet the hypotheses. -/
example : RealSymm (⟨fun _ => !![0, 1; 1, 0], fun _ => !![1, 2; 2, 3], 5⟩ : Gen 1 2) where
  spin := rfl
  h1 := by ext i j; fin_cases i <;> fin_cases j <;> rfl
  chol := fun x => by ext i j; fin_cases i <;> fin_cases j <;> rfl
  rh1 := by ext i j; fin_cases i <;> fin_cases j <;> simp [Matrix.conjTranspose_apply]
  reri := fun p q r s => by
    rw [eri_star, eri_symm]
    · intro x; ext i j; fin_cases i <;> fin_cases j <;> rfl
    · intro x; ext i j; fin_cases i <;> fin_cases j <;> simp [Matrix.conjTranspose_apply]
  recore := by simp

/-- Two sites with hopping. -/
noncomputable def dimer (U : ℝ) : Hub 2 := ⟨fun _ => !![0, -1; -1, 0], U, false⟩

theorem dimer_real (U : ℝ) : RealHub (dimer U) where
  spin := rfl
  symm := by ext i j; fin_cases i <;> fin_cases j <;> rfl
  herm := by ext i j; fin_cases i <;> fin_cases j <;> simp [dimer, Matrix.conjTranspose_apply]

theorem dimer_occs (U : ℝ) : fciOccs (hubSys (dimer U) 1 1) = [([0], [0]), ([0], [1]), ([1], [0]), ([1], [1])] := rfl

/-- One determinant for both electrons on the first site minus one for both on the second. -/
def dimerVec (U : ℝ) : Fin (fciOccs (hubSys (dimer U) 1 1)).length → ℂ := (![1, 0, 0, -1] : Fin 4 → ℂ)

theorem hamil11 {nx : Nat} (g : Gen nx 2) (i j k l : Fin 2) :
    Energy.hamil g.h1 g.chol g.ecore (columns 2 1 [(i : Nat)]) (columns 2 1 [(k : Nat)]) (columns 2 1 [(j : Nat)])
      (columns 2 1 [(l : Nat)]) = g.ecore * ((if i = k then 1 else 0) * (if j = l then 1 else 0)) +
      (g.h1 0 i k * (if j = l then 1 else 0) + (if i = k then 1 else 0) * g.h1 1 j l) + ∑ x, g.chol x i k * g.chol x j l := by
  have ht : ∀ X A B, Energy.twoBody (m := 2) (k := 1) X X A B = 0 := by
    intro X A B
    simp [Energy.twoBody]
  simp only [Energy.hamil, ht, ovl1, one1, zero_mul, mul_zero, add_zero, zero_add]
  congr 1
  rw [mul_sum]
  exact sum_congr rfl fun x _ => by ring

/-- The matrix of `simple_fci`. -/
theorem dimer_matrix (U : ℝ) (i j : Fin 4) : hubMat (dimer U) 1 1 i j =
    !![(U : ℂ), -1, -1, 0; -1, 0, 0, -1; -1, 0, 0, -1; 0, -1, -1, (U : ℂ)] i j := by
  rw [hubMat_eq]
  have hr := Step.root_sq U
  have hd : ∀ o : List Nat × List Nat, Slater.dn (detOf 2 1 1 o) = columns 2 1 o.2 := fun o => Slater.dn_join _ _
  have key : ∀ k : Fin 4, ((fciExpansion (sysOf (hubGen (dimer U)) 1 1) 0).trial 2 1 1).psi k =
      detOf 2 1 1 (![([((0 : Fin 2) : Nat)], [((0 : Fin 2) : Nat)]), ([((0 : Fin 2) : Nat)], [((1 : Fin 2) : Nat)]),
        ([((1 : Fin 2) : Nat)], [((0 : Fin 2) : Nat)]), ([((1 : Fin 2) : Nat)], [((1 : Fin 2) : Nat)])] k) := by
    intro k; fin_cases k <;> rfl
  refine (fciMat_elem (nu := 1) (nd := 1) (hubGen_real (dimer_real U)) 0 i j).trans ?_
  rw [key, key, up_det, up_det, hd, hd]
  fin_cases i <;> fin_cases j <;> refine (hamil11 _ _ _ _ _).trans ?_ <;>
    simp [hubGen, dimer, Step.site, Fin.sum_univ_two, Matrix.single_apply, hr]

theorem dimer_eigen (U : ℝ) : hubMat (dimer U) 1 1 *ᵥ dimerVec U = (U : ℂ) • dimerVec U := by
  funext i
  have h : ∀ i : Fin 4, ∑ j : Fin 4, hubMat (dimer U) 1 1 i j * (![1, 0, 0, -1] : Fin 4 → ℂ) j =
      (U : ℂ) * (![1, 0, 0, -1] : Fin 4 → ℂ) i := by
    intro i
    simp only [dimer_matrix]
    fin_cases i <;> simp [Fin.sum_univ_four]
  exact h i

/-- Both electrons in orbitals spread over both sites. -/
def dimerPhi : Slater.Wfn 2 1 1 := Slater.join !![1; 2] !![1; 1]

theorem dimer_ovl (U : ℝ) (k : Fin 4) :
    let D := ((fciExpansion (hubSys (dimer U) 1 1) (dimerVec U)).trial 2 1 1).psi k
    Energy.ovl (Slater.up D) (Slater.up dimerPhi) = (![1, 1, 2, 2] : Fin 4 → ℂ) k ∧
      ovl2 D dimerPhi = (![1, 1, 2, 2] : Fin 4 → ℂ) k := by
  have e : ∀ (i : Fin 2) (B : Matrix (Fin 2) (Fin 1) ℂ), Energy.ovl (columns 2 1 [(i : Nat)]) B = B i 0 := by
    intro i B
    rw [Energy.ovl, Matrix.det_unique]
    fin_cases i <;> simp [Matrix.mul_apply, Fin.sum_univ_two, columns]
  have f : ∀ i j : Fin 2, Energy.ovl (Slater.up (detOf 2 1 1 ([(i : Nat)], [(j : Nat)]))) (Slater.up dimerPhi) =
      (![1, 2] : Fin 2 → ℂ) i ∧ ovl2 (detOf 2 1 1 ([(i : Nat)], [(j : Nat)])) dimerPhi = (![1, 2] : Fin 2 → ℂ) i := by
    intro i j
    have h1 : Energy.ovl (Slater.up (detOf 2 1 1 ([(i : Nat)], [(j : Nat)]))) (Slater.up dimerPhi) =
        (![1, 2] : Fin 2 → ℂ) i := by
      rw [up_det, e, dimerPhi, Slater.up_join]
      fin_cases i <;> rfl
    refine ⟨h1, ?_⟩
    rw [ovl2, h1, detOf, Slater.dn_join, e, dimerPhi, Slater.dn_join]
    fin_cases i <;> fin_cases j <;> simp
  fin_cases k
  · exact f 0 0
  · exact f 0 1
  · exact f 1 0
  · exact f 1 1

/-- A walker all of whose determinants overlap with a trial state from full CI: its local energy is the eigenvalue. -/
example (U : ℝ) : MultiDet.localEnergy ((fciExpansion (hubSys (dimer U) 1 1) (dimerVec U)).trial 2 1 1)
    (fun G => (Energy.localHubbard (dimer U).h1 U false G).1)
    (MultiDet.greensFunction ((fciExpansion (hubSys (dimer U) 1 1) (dimerVec U)).trial 2 1 1)
      (MultiDet.start ((fciExpansion (hubSys (dimer U) 1 1) (dimerVec U)).trial 2 1 1) dimerPhi)).1 = U := by
  refine hub_zero_variance (dimer_real U) (dimer_eigen U) _ (fun k => ?_) ?_
  · have h := dimer_ovl U k
    refine ⟨?_, ?_⟩
    · refine le_of_le_of_eq ?_ (congrArg norm h.1).symm
      have : ∀ k : Fin 4, MultiDet.tol ≤ ‖(![1, 1, 2, 2] : Fin 4 → ℂ) k‖ := by
        intro k
        have := MultiDet.tol_le_one
        fin_cases k <;> simp <;> linarith
      exact this k
    · refine le_of_le_of_eq ?_ (congrArg norm h.2).symm
      have : ∀ k : Fin 4, MultiDet.tol ≤ ‖(![1, 1, 2, 2] : Fin 4 → ℂ) k‖ := by
        intro k
        have := MultiDet.tol_le_one
        fin_cases k <;> simp <;> linarith
      exact this k
  · rw [MultiDet.bra_ket]
    have h : ∑ k : Fin 4, star ((![1, 0, 0, -1] : Fin 4 → ℂ) k) * (![1, 1, 2, 2] : Fin 4 → ℂ) k ≠ 0 := by
      simp [Fin.sum_univ_four]
      norm_num
    refine ne_of_eq_of_ne ?_ h
    exact sum_congr rfl fun k _ => congrArg _ (dimer_ovl U k).2

end Verif.CI.Bridge
