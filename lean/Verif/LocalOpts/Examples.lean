import Verif.LocalOpts.PnoRun
import Verif.Thermal.Exist

/-!
# C115, C116: cases that meet the hypotheses, and a shifted run
-/

namespace Verif.LocalOpts

open Matrix Finset Energy

/-- A routine that meets the contract of `svd` exists for every size. -/
theorem exists_svdSpec (M : Nat) : ∃ svd : SVD M, SVDSpec svd := by
  have h : ∀ V : Matrix (Fin M) (Fin M) ℂ, ∃ d : Matrix (Fin M) (Fin M) ℂ × (Fin M → ℝ) ×
      Matrix (Fin M) (Fin M) ℂ, IsSVD V d.1 d.2.1 d.2.2 := by
    intro V
    obtain ⟨U, S, W, h⟩ := Thermal.exists_svd V
    let e : Fin M → ℂ := fun k => if 0 ≤ S k then 1 else -1
    have he : ∀ k, e k * e k = 1 := fun k => by simp only [e]; split_ifs <;> norm_num
    have hes : star e = e := by
      funext k
      simp only [e, Pi.star_apply]
      split_ifs <;> simp
    have hee : diagonal e * diagonal e = (1 : Matrix (Fin M) (Fin M) ℂ) := by
      rw [diagonal_mul_diagonal, ← diagonal_one]
      exact congrArg diagonal (funext he)
    refine ⟨(U * diagonal e, fun k => |S k|, W), ⟨?_, h.unitaryV, fun k => abs_nonneg _, ?_⟩⟩
    · have hU : U * Uᴴ = 1 := mul_eq_one_comm.mp h.unitaryU
      rw [conjTranspose_mul, diagonal_conjTranspose, hes, Matrix.mul_assoc,
        ← Matrix.mul_assoc (diagonal e), hee, Matrix.one_mul, hU]
    · rw [h.eq, Matrix.mul_assoc U (diagonal e), diagonal_mul_diagonal]
      congr 3
      funext k
      simp only [e]
      split_ifs with hk
      · rw [abs_of_nonneg hk, one_mul]
      · rw [abs_of_neg (not_le.mp hk)]
        push_cast
        ring
  choose f hf using h
  exact ⟨f, hf⟩

/-- Trial orbitals of the example: both electrons in the first of two orbitals. -/
def psi2 : Nat → Nat → Nat → ℂ := fun _ i _ => if i = 0 then 1 else 0

/-- One Cholesky vector, all entries one. -/
def chol2 : Nat → Nat → Nat → ℂ := fun _ _ _ => 1

/-- Orbitals of the walkers' start: the sum of both orbitals. -/
def start2 : Matrix (Fin 2) (Fin 1) ℂ := Matrix.of fun _ _ => 1

/-- Options of the example. -/
def opts2 : Opts := ⟨false, true, true, true, 0, 0⟩

/-- **C116**: walkers that start from other orbitals than the trial's (here with orthonormal trial
orbitals and threshold zero) carry a wrong energy for the whole run: every walker's energy is three
units above its local energy. -/
theorem runEnergy_pno_wrong (svd : SVD 2) (hsvd : SVDSpec svd)
    (h1 : Fin 2 → Matrix (Fin 2) (Fin 2) ℂ) (ecore : ℂ) (θ : Fin 3 → Nat → Nat → Bool)
    (φ' χ' : Matrix (Fin 2) (Fin 1) ℂ) :
    let now := localChol h1 (cholMat 2 1 chol2)
      ![(Slater.gabMod (orbA 2 1 psi2) φ').1, (Slater.gabMod (orbB 2 1 1 psi2) χ').1] ecore
    runEnergy svd opts2 false h1 ecore 1 1 [(0, 0)] chol2 psi2 θ start2 φ' start2 χ' =
      some (now.1 + 3, now.2.1, now.2.2 + 3) := by
  intro now
  obtain ⟨δ, h, hδ⟩ := runEnergy_pno svd hsvd opts2 rfl rfl rfl rfl le_rfl h1 ecore 1 1 Nat.one_pos
    [(0, 0)] (by simp) chol2 psi2 θ start2 φ' start2 χ'
  have hz : δ = 0 := by
    simpa [opts2] using hδ
  have hinv : (start2ᵀ * (orbA 2 1 psi2).map star) = 1 := by
    ext i j
    fin_cases i; fin_cases j
    simp [start2, orbA, psi2, Matrix.mul_apply, Fin.sum_univ_two]
  have hAB : orbB 2 1 1 psi2 = orbA 2 1 psi2 := rfl
  have g1 : (Slater.gabMod (orbA 2 1 psi2) start2).1 = Matrix.of fun i _ => if i = 0 then 1 else 0 := by
    simp only [Slater.gabMod, hinv, inv_one, Matrix.one_mul]
    ext i j
    fin_cases i <;> fin_cases j <;> simp [start2, orbA, psi2, Matrix.mul_apply]
  have g0 : (orbA 2 1 psi2).map star * (orbA 2 1 psi2)ᵀ =
      Matrix.of fun i j => if i = 0 then (if j = 0 then 1 else 0) else 0 := by
    ext i j
    fin_cases i <;> fin_cases j <;> simp [orbA, psi2, Matrix.mul_apply]
  rw [h, hz]
  simp only [hAB, g1, g0, add_zero]
  have s1 : (localChol h1 (cholMat 2 1 chol2)
      ![(Matrix.of fun (i _ : Fin 2) => if i = 0 then (1 : ℂ) else 0),
        Matrix.of fun (i _ : Fin 2) => if i = 0 then (1 : ℂ) else 0] ecore).2.2 = 4 := by
    simp [localChol, dot2, cholMat, chol2, Fin.sum_univ_two]
    norm_num
  have s0 : (localChol h1 (cholMat 2 1 chol2)
      ![(Matrix.of fun (i j : Fin 2) => if i = 0 then (if j = 0 then (1 : ℂ) else 0) else 0),
        Matrix.of fun (i j : Fin 2) => if i = 0 then (if j = 0 then (1 : ℂ) else 0) else 0] ecore).2.2 = 1 := by
    simp [localChol, dot2, cholMat, chol2, Fin.sum_univ_two]
  rw [s1, s0]
  norm_num
  exact ⟨by rfl, rfl, by rfl⟩

/-- The orbitals of the example are orthonormal, so walkers that start from them have exactly the
full energy. -/
example (svd : SVD 2) (hsvd : SVDSpec svd) (h1 : Fin 2 → Matrix (Fin 2) (Fin 2) ℂ) (ecore : ℂ)
    (θ : Fin 3 → Nat → Nat → Bool) (φ' χ' : Matrix (Fin 2) (Fin 1) ℂ) :
    runEnergy svd opts2 false h1 ecore 1 1 [(0, 0)] chol2 psi2 θ (orbA 2 1 psi2) φ'
        (orbB 2 1 1 psi2) χ' =
      some (localChol h1 (cholMat 2 1 chol2)
        ![(Slater.gabMod (orbA 2 1 psi2) φ').1, (Slater.gabMod (orbB 2 1 1 psi2) χ').1] ecore) := by
  have ho : (orbA 2 1 psi2)ᴴ * orbA 2 1 psi2 = 1 := by
    ext i j
    fin_cases i; fin_cases j
    simp [orbA, psi2, Matrix.mul_apply, Fin.sum_univ_two]
  obtain ⟨δ, h, hδ⟩ := runEnergy_pno_start svd hsvd opts2 rfl rfl rfl rfl le_rfl h1 ecore 1 1
    Nat.one_pos [(0, 0)] (by simp) chol2 psi2 θ φ' χ' ho ho
  have hz : δ = 0 := by simpa [opts2] using hδ
  rw [h, hz]
  simp only [add_zero]

/-- Two ranks, one of which has no work. -/
example : ∀ r < 2, (r, 0) ∈ [(1, 0), (0, 0)] := by decide

end Verif.LocalOpts
