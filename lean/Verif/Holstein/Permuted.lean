import Verif.Holstein.Coherent
import Mathlib.Tactic.NormNum.BigOperators

/-!
# C97: permuted copies of one coherent state

The code adds the energy of the state itself for every copy.  It is right when the permutations leave the hopping unchanged, and
wrong on a ring of four sites.
-/

namespace Verif.Holstein

open Matrix MeasureTheory
open Verif.Energy (ovl oneBody)

variable {n K na nb : Nat}

theorem perm_mul {k : Nat} (A B : Matrix (Fin n) (Fin k) ℂ) (p : Equiv.Perm (Fin n)) :
    (A.submatrix p id)ᵀ * B.submatrix p id = Aᵀ * B := by
  rw [Matrix.transpose_submatrix, Matrix.submatrix_mul_equiv, Matrix.submatrix_id_id]

theorem perm_mul' {k : Nat} (A B : Matrix (Fin n) (Fin k) ℂ) (p : Equiv.Perm (Fin n)) :
    (A.submatrix p id)ᴴ * B.submatrix p id = Aᴴ * B := by
  rw [Matrix.conjTranspose_submatrix, Matrix.submatrix_mul_equiv, Matrix.submatrix_id_id]

theorem gab_perm {k : Nat} (A B : Matrix (Fin n) (Fin k) ℂ) (p : Equiv.Perm (Fin n)) :
    Slater.gab (A.submatrix p id) (B.submatrix p id) = (Slater.gab A B).submatrix p p := by
  rw [Slater.gab, Slater.gab, perm_mul']
  ext i j
  simp [Matrix.mul_apply]

theorem perm_real {d : Det n na nb} (h : d.Real) (p : Fin n → Fin n) : (d.perm p).Real := by
  refine ⟨?_, ?_⟩
  · ext i j
    exact congrFun (congrFun h.1 (p i)) j
  · ext i j
    exact congrFun (congrFun h.2 (p i)) j

/-- A permuted copy of a normalised state is normalised. -/
theorem overlap_perm (y : Sys n) (d : Det n na nb) (hd : d.Real) (hu : ovl d.up d.up = 1) (hn : ovl d.dn d.dn = 1)
    (s : Fin n → ℝ) (p : Equiv.Perm (Fin n)) : overlap y (d.perm p) (d.perm p) (fun i => s (p i)) (fun i => s (p i)) = 1 := by
  have h1 : (d.upᵀ * d.up).det = 1 := by rw [← conj_of_real hd.1]; exact hu
  have h2 : (d.dnᵀ * d.dn).det = 1 := by rw [← conj_of_real hd.2]; exact hn
  rw [overlap, Det.perm, perm_mul, perm_mul, h1, h2]
  simp only [mul_one, one_mul]
  refine Finset.prod_eq_one fun i _ => ?_
  rw [show -(1 / 2) * (beta y (fun i => s (p i)) i ^ 2 + beta y (fun i => s (p i)) i ^ 2) +
    beta y (fun i => s (p i)) i * beta y (fun i => s (p i)) i = 0 by ring, Real.exp_zero, Complex.ofReal_one]

theorem energyAt_transpose (y : Sys n) (hT : ∀ σ, (y.T σ)ᵀ = y.T σ) (G : Fin 2 → Matrix (Fin n) (Fin n) ℂ) (s : Fin n → ℝ) :
    energyAt y (fun σ => (G σ)ᵀ) s = energyAt y G s := by
  simp only [energyAt, localHH, Energy.localHubbard, dot2_symm _ _ (hT _), Matrix.transpose_apply]

/-- The denominator of `energyPermuted` and of `energySeveral` on the copies. -/
noncomputable def permDen (y : Sys n) (c : Fin K → ℂ) (perms : Fin K → Equiv.Perm (Fin n)) (d : Det n na nb) (s : Fin n → ℝ) : ℂ :=
  ∑ k, c k ^ 2 + ∑ p ∈ pairs K, overlap y (d.perm (perms p.1)) (d.perm (perms p.2)) (fun i => s (perms p.1 i))
    (fun i => s (perms p.2 i)) * c p.1 * c p.2 * 2

/-- What the code returns for permuted copies against the energy of the copies taken as several states. -/
theorem permuted_diff (y : Sys n) (hm : 0 < y.m) (hw : 0 < y.w) (hT : ∀ σ, (y.T σ)ᵀ = y.T σ) (c : Fin K → ℂ)
    (hc : ∀ k, star (c k) = c k) (perms : Fin K → Equiv.Perm (Fin n)) (d : Det n na nb) (hd : d.Real) (hu : ovl d.up d.up = 1)
    (hn : ovl d.dn d.dn = 1) (s : Fin n → ℝ) :
    energyPermuted y c (fun k => perms k) d s =
      energySeveral y c (fun k => d.perm (perms k)) (fun k i => s (perms k i)) +
        (∑ k, c k ^ 2 * (pairEnergy y d d s s -
          pairEnergy y (d.perm (perms k)) (d.perm (perms k)) (fun i => s (perms k i)) (fun i => s (perms k i)))) /
          permDen y c perms d s := by
  have hsq : ∀ k, ((‖c k‖ ^ 2 : ℝ) : ℂ) = c k ^ 2 := fun k => by rw [norm_sq_real (hc k), sq]
  simp only [energyPermuted, energySeveral, energyAt_transpose y hT, energyAt_eq y hm hw.le, overlap_perm y d hd hu hn, hsq, mul_one,
    one_mul]
  rw [← permDen, ← add_div]
  congr 1
  rw [add_right_comm, ← Finset.sum_add_distrib]
  congr 1
  exact Finset.sum_congr rfl fun k _ => by ring

/-- A permutation that leaves the hopping unchanged leaves the energy of a state unchanged. -/
theorem pairEnergy_perm (y : Sys n) (d : Det n na nb) (s : Fin n → ℝ) (p : Equiv.Perm (Fin n))
    (hp : ∀ σ, (y.T σ).submatrix p p = y.T σ) :
    pairEnergy y (d.perm p) (d.perm p) (fun i => s (p i)) (fun i => s (p i)) = pairEnergy y d d s s := by
  have hG : ∀ σ, greens (d.perm p) (d.perm p) σ = (greens d d σ).submatrix p p := by
    intro σ
    fin_cases σ
    · exact gab_perm _ _ _
    · exact gab_perm _ _ _
  have hD : ∀ σ, Energy.dot2 (y.T σ) ((greens d d σ).submatrix p p) = Energy.dot2 (y.T σ) (greens d d σ) := by
    intro σ
    conv_lhs => rw [← hp σ]
    simp only [Energy.dot2, Matrix.submatrix_apply]
    rw [← Equiv.sum_comp p fun i => ∑ j, y.T σ i j * greens d d σ i j]
    exact Finset.sum_congr rfl fun i _ => Equiv.sum_comp p fun j => y.T σ (p i) j * greens d d σ (p i) j
  simp only [pairEnergy, hG, hD, Matrix.submatrix_apply, beta]
  rw [Equiv.sum_comp p fun i => greens d d 0 i i * greens d d 1 i i,
    Equiv.sum_comp p fun i => ((s i * Real.sqrt (y.m * y.w / 2) : ℝ) : ℂ) * ((s i * Real.sqrt (y.m * y.w / 2) : ℝ) : ℂ),
    Equiv.sum_comp p fun i => (greens d d 0 i i + greens d d 1 i i) *
      (((s i * Real.sqrt (y.m * y.w / 2) : ℝ) : ℂ) + ((s i * Real.sqrt (y.m * y.w / 2) : ℝ) : ℂ))]

/-- **C97 (permuted copies)**: `calculate_energy` of permuted copies of one normalised state is `⟨Ψ|H|Ψ⟩/⟨Ψ|Ψ⟩` less the zero-point
energy when the permutations leave the hopping unchanged.  The code takes all permutations, for which this fails
(`permuted_wrong`). -/
theorem energyPermuted_eq_partial (y : Sys n) (hm : 0 < y.m) (hw : 0 < y.w) (hT : ∀ σ, (y.T σ)ᵀ = y.T σ) (c : Fin K → ℂ)
    (hc : ∀ k, star (c k) = c k) (perms : Fin K → Equiv.Perm (Fin n)) (hp : ∀ k σ, (y.T σ).submatrix (perms k) (perms k) = y.T σ)
    (d : Det n na nb) (hd : d.Real) (hu : ovl d.up d.up = 1) (hn : ovl d.dn d.dn = 1) (s : Fin n → ℝ)
    (hup : ∀ k l, ovl (d.perm (perms k)).up (d.perm (perms l)).up ≠ 0)
    (hdn : ∀ k l, ovl (d.perm (perms k)).dn (d.perm (perms l)).dn ≠ 0)
    (h0 : cohNorm y c (fun k => d.perm (perms k)) (fun k i => s (perms k i)) ≠ 0) :
    energyPermuted y c (fun k => perms k) d s =
      cohH y c (fun k => d.perm (perms k)) (fun k i => s (perms k i)) /
        cohNorm y c (fun k => d.perm (perms k)) (fun k i => s (perms k i)) - 1 / 2 * y.w * n := by
  rw [permuted_diff y hm hw hT c hc perms d hd hu hn,
    energySeveral_eq_partial y hm hw hT c hc _ (fun k => perm_real hd _) _ hup hdn h0]
  simp only [pairEnergy_perm y d s _ (hp _), sub_self, mul_zero, Finset.sum_const_zero, zero_div, add_zero]

/-! ## All permutations of a ring of four sites -/

/-- Hopping on a ring of four sites. -/
def ringT : Matrix (Fin 4) (Fin 4) ℂ := !![0, -1, 0, -1; -1, 0, -1, 0; 0, -1, 0, -1; -1, 0, -1, 0]

/-- No interaction, no coupling to the phonons. -/
def ring : Sys 4 := ⟨fun _ => ringT, 0, 0, 1, 1, false⟩

def ringV : Fin 4 → ℤ := ![1, 1, 3, 5]

noncomputable def ringPsi : Matrix (Fin 4) (Fin 1) ℂ := Matrix.of fun i _ => (ringV i : ℂ) / 6

noncomputable def ringDet : Det 4 1 1 := ⟨ringPsi, ringPsi⟩

theorem ring_ovl (p q : Equiv.Perm (Fin 4)) : ovl (ringPsi.submatrix p id) (ringPsi.submatrix q id) =
    (((∑ i, ringV (p i) * ringV (q i) : ℤ) : ℝ) / 36 : ℝ) := by
  rw [ovl, Matrix.det_fin_one, Matrix.mul_apply]
  push_cast
  rw [Finset.sum_div]
  refine Finset.sum_congr rfl fun i _ => ?_
  simp only [Matrix.conjTranspose_apply, Matrix.submatrix_apply, ringPsi, Matrix.of_apply, star_div₀, id]
  have h6 : star (6 : ℂ) = 6 := by simpa using Complex.conj_ofReal 6
  have hz : star ((ringV (p i) : ℤ) : ℂ) = (ringV (p i) : ℂ) := by simp
  rw [h6, hz]
  ring

theorem ring_pos (p q : Equiv.Perm (Fin 4)) : 0 < ∑ i, ringV (p i) * ringV (q i) := by
  have h : ∀ i, 0 < ringV i := by decide
  exact Finset.sum_pos (fun i _ => mul_pos (h _) (h _)) ⟨0, Finset.mem_univ _⟩

theorem ring_real : ringDet.Real := by
  have : ringPsi.map star = ringPsi := by
    ext i j
    have h6 : star (6 : ℂ) = 6 := by simpa using Complex.conj_ofReal 6
    simp only [Matrix.map_apply, ringPsi, Matrix.of_apply, star_div₀, h6]
    simp
  exact ⟨this, this⟩

theorem ring_norm : ovl ringPsi ringPsi = 1 := by
  have := ring_ovl 1 1
  rw [show ringPsi.submatrix (1 : Equiv.Perm (Fin 4)) id = ringPsi from rfl] at this
  rw [this, show (∑ i, ringV ((1 : Equiv.Perm (Fin 4)) i) * ringV ((1 : Equiv.Perm (Fin 4)) i) : ℤ) = 36 by decide]
  norm_num

/-- The kinetic sum of a permuted copy. -/
def ringE (p : Equiv.Perm (Fin 4)) : ℤ :=
  ringV (p 0) * ringV (p 1) + ringV (p 1) * ringV (p 2) + ringV (p 2) * ringV (p 3) + ringV (p 3) * ringV (p 0)

theorem ring_energy (p : Equiv.Perm (Fin 4)) :
    pairEnergy ring (ringDet.perm p) (ringDet.perm p) (fun _ => 0) (fun _ => 0) = -(ringE p : ℂ) / 9 := by
  have hG : Slater.gab (ringPsi.submatrix p id) (ringPsi.submatrix p id) = Matrix.of fun i j => (ringV (p i) : ℂ) * ringV (p j) / 36 := by
    rw [gab_perm, Slater.gab]
    have h1 : ringPsiᴴ * ringPsi = 1 := by
      ext i j
      rw [Subsingleton.elim i 0, Subsingleton.elim j 0, Matrix.one_apply_eq, ← ring_norm, ovl, Matrix.det_fin_one]
    rw [h1, inv_one, Matrix.one_mul]
    ext i j
    have h6 : star (6 : ℂ) = 6 := by simpa using Complex.conj_ofReal 6
    have hz : star ((ringV (p j) : ℤ) : ℂ) = (ringV (p j) : ℂ) := by simp
    simp only [Matrix.submatrix_apply, Matrix.mul_apply, Finset.univ_unique, Finset.sum_singleton, Matrix.conjTranspose_apply, ringPsi,
      Matrix.of_apply, star_div₀, h6, hz]
    ring
  simp only [pairEnergy, greens, Det.perm, ringDet, Matrix.cons_val_zero, Matrix.cons_val_one, hG, ring, beta]
  simp [Energy.dot2, Fin.sum_univ_four, ringT, ringE]
  ring

theorem ring_sum : ∑ p : Equiv.Perm (Fin 4), ringE p = 512 := by decide +kernel

/-- **Finding (C97)**: on a ring of four sites, with one electron of each spin in the normalised orbital (1, 1, 3, 5)/6, the energy
returned for the equal sum over all permutations, as set up by the code, is not `⟨Ψ|H|Ψ⟩/⟨Ψ|Ψ⟩`. -/
theorem permuted_wrong (e : Fin 24 ≃ Equiv.Perm (Fin 4)) :
    energyPermuted ring (fun _ => ((1 / Real.sqrt 24 : ℝ) : ℂ)) (fun k => e k) ringDet (fun _ => 0) ≠
      cohH ring (fun _ => ((1 / Real.sqrt 24 : ℝ) : ℂ)) (fun k => ringDet.perm (e k)) (fun _ _ => 0) /
        cohNorm ring (fun _ => ((1 / Real.sqrt 24 : ℝ) : ℂ)) (fun k => ringDet.perm (e k)) (fun _ _ => 0) - 1 / 2 * ring.w * (4 : ℕ) := by
  set c : Fin 24 → ℂ := fun _ => ((1 / Real.sqrt 24 : ℝ) : ℂ) with hcdef
  have hc2 : ∀ k, c k ^ 2 = ((1 / 24 : ℝ) : ℂ) := fun k => by
    simp only [hcdef]
    rw [← Complex.ofReal_pow, div_pow, one_pow, Real.sq_sqrt (by norm_num)]
  have hc : ∀ k, star (c k) = c k := fun k => Complex.conj_ofReal _
  have hT : ∀ σ, (ring.T σ)ᵀ = ring.T σ := fun σ => by
    ext i j
    fin_cases i <;> fin_cases j <;> simp [ring, ringT]
  have hne : ∀ k l : Fin 24, ovl (ringPsi.submatrix (e k) id) (ringPsi.submatrix (e l) id) ≠ 0 := fun k l => by
    rw [ring_ovl]
    have := ring_pos (e k) (e l)
    have h : (0 : ℝ) < ((∑ i, ringV (e k i) * ringV (e l i) : ℤ) : ℝ) := by exact_mod_cast this
    exact Complex.ofReal_ne_zero.mpr (div_pos h (by norm_num : (0 : ℝ) < 36)).ne'
  have hov : ∀ k l : Fin 24, ∃ r : ℝ, 0 < r ∧
      overlap ring (ringDet.perm (e k)) (ringDet.perm (e l)) (fun _ => 0) (fun _ => 0) = (r : ℂ) := by
    intro k l
    have := ring_pos (e k) (e l)
    have h : (0 : ℝ) < ((∑ i, ringV (e k i) * ringV (e l i) : ℤ) : ℝ) := by exact_mod_cast this
    refine ⟨(((∑ i, ringV (e k i) * ringV (e l i) : ℤ) : ℝ) / 36) * (((∑ i, ringV (e k i) * ringV (e l i) : ℤ) : ℝ) / 36) *
      cohOvl (ring.m * ring.w / 2) (fun _ : Fin 4 => 0) (fun _ => 0), ?_, ?_⟩
    · have hp : 0 < cohOvl (ring.m * ring.w / 2) (fun _ : Fin 4 => 0) (fun _ => 0) :=
        Finset.prod_pos fun i _ => Real.exp_pos _
      positivity
    · rw [overlap_eq ring (by norm_num [ring]) _ _ (perm_real ring_real _), Complex.ofReal_mul, Complex.ofReal_mul]
      simp only [Det.perm, ringDet, ring_ovl]
  choose r hr hrk using hov
  have hden : permDen ring c e ringDet (fun _ => 0) =
      ((∑ _k : Fin 24, (1 / 24 : ℝ) + ∑ p ∈ pairs 24, r p.1 p.2 * (1 / 24) * 2 : ℝ) : ℂ) := by
    rw [permDen, Complex.ofReal_add, Complex.ofReal_sum, Complex.ofReal_sum]
    simp only [hc2, hrk]
    congr 1
    refine Finset.sum_congr rfl fun p _ => ?_
    have h1 : c p.1 * c p.2 = ((1 / 24 : ℝ) : ℂ) := by rw [← hc2 0, sq]
    rw [mul_assoc (r p.1 p.2 : ℂ), h1]
    push_cast
    ring
  have hpos : 0 < ∑ _k : Fin 24, (1 / 24 : ℝ) + ∑ p ∈ pairs 24, r p.1 p.2 * (1 / 24) * 2 := by
    have h1 : 0 < ∑ _k : Fin 24, (1 / 24 : ℝ) := Finset.sum_pos (fun _ _ => by norm_num) ⟨0, Finset.mem_univ _⟩
    have h2 : 0 ≤ ∑ p ∈ pairs 24, r p.1 p.2 * (1 / 24) * 2 := Finset.sum_nonneg fun p _ => by
      have := hr p.1 p.2
      positivity
    linarith
  have hden0 : permDen ring c e ringDet (fun _ => 0) ≠ 0 := by
    rw [hden]
    exact_mod_cast hpos.ne'
  have hcn : cohNorm ring c (fun k => ringDet.perm (e k)) (fun _ _ => 0) =
      (znorm 4 (ring.m * ring.w / 2) : ℂ) * permDen ring c e ringDet (fun _ => 0) := by
    have hs : ∀ k l, overlap ring (ringDet.perm (e k)) (ringDet.perm (e l)) (fun _ => 0) (fun _ => 0) * (c k * c l) =
        overlap ring (ringDet.perm (e l)) (ringDet.perm (e k)) (fun _ => 0) (fun _ => 0) * (c l * c k) := fun k l => by
      rw [overlap_symm, mul_comm (c k)]
    have hps := pairs_sum (fun k l => overlap ring (ringDet.perm (e k)) (ringDet.perm (e l)) (fun _ => 0) (fun _ => 0) * (c k * c l)) hs
    have hdd : permDen ring c e ringDet (fun _ => 0) =
        ∑ k, ∑ l, overlap ring (ringDet.perm (e k)) (ringDet.perm (e l)) (fun _ => 0) (fun _ => 0) * (c k * c l) := by
      rw [← hps, permDen]
      congr 1
      · refine Finset.sum_congr rfl fun k _ => ?_
        rw [overlap_perm ring ringDet ring_real ring_norm ring_norm (fun _ => 0) (e k)]
        ring
      · exact Finset.sum_congr rfl fun p _ => by ring
    rw [hdd, cohNorm, Finset.mul_sum]
    refine Finset.sum_congr rfl fun k _ => ?_
    rw [Finset.mul_sum]
    refine Finset.sum_congr rfl fun l _ => ?_
    rw [overlap_eq ring (by norm_num [ring]) _ _ (perm_real ring_real _), gprod_overlap, hc k]
    push_cast
    ring
  have h0 : cohNorm ring c (fun k => ringDet.perm (e k)) (fun _ _ => 0) ≠ 0 := by
    rw [hcn]
    have hz : ((znorm 4 (ring.m * ring.w / 2) : ℝ) : ℂ) ≠ 0 := by exact_mod_cast (znorm_pos _ (by norm_num [ring])).ne'
    exact mul_ne_zero hz hden0
  have h1 := permuted_diff ring (by norm_num [ring]) (by norm_num [ring]) hT c hc e ringDet ring_real ring_norm ring_norm (fun _ => 0)
  have h2 := energySeveral_eq_partial ring (by norm_num [ring]) (by norm_num [ring]) hT c hc (fun k => ringDet.perm (e k))
    (fun k => perm_real ring_real _) (fun _ _ => 0) hne hne h0
  rw [h1, h2]
  intro h
  have h3 : (∑ k, c k ^ 2 * (pairEnergy ring ringDet ringDet (fun _ => 0) (fun _ => 0) -
          pairEnergy ring (ringDet.perm (e k)) (ringDet.perm (e k)) (fun _ => 0) (fun _ => 0))) = 0 := by
    have := add_eq_left.mp h
    exact (div_eq_zero_iff.mp this).resolve_right hden0
  have h4 : pairEnergy ring ringDet ringDet (fun _ => 0) (fun _ => 0) = -(ringE 1 : ℂ) / 9 := ring_energy 1
  simp only [hc2, ring_energy, h4] at h3
  rw [← Finset.mul_sum] at h3
  have h5 := (mul_eq_zero.mp h3).resolve_left (by norm_num)
  have h6 : ∑ k, (ringE (e k) : ℂ) = 512 := by
    rw [← Int.cast_sum, Equiv.sum_comp e fun p => ringE p, ring_sum]
    norm_num
  have h7 : ∑ k, (-(ringE 1 : ℂ) / 9 - -(ringE (e k) : ℂ) / 9) = -(24 * 24) / 9 + 512 / 9 := by
    rw [← h6, Finset.sum_div, show -(24 * 24 : ℂ) / 9 = ∑ _k : Fin 24, -(ringE 1 : ℂ) / 9 by
      rw [show ringE 1 = 24 by decide]; simp; ring, ← Finset.sum_add_distrib]
    exact Finset.sum_congr rfl fun k _ => by ring
  rw [h7] at h5
  norm_num at h5

end Verif.Holstein
