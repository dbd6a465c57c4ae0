import Verif.SpinProj.Props
import Verif.Uhf.Examples

/-!
# Cases and failures of the spin-projected initial walker
-/

namespace Verif.SpinProj

open Matrix Finset

variable {nb nu nd : Nat}

/-- Real closed-shell trials: the initial walker has the modulus of its overlap with the trial equal to one. -/
theorem natural_overlap_real {k : Nat} (hk : k ≤ nb) (hk0 : 0 < k) {eigh : Uhf.Eig nb} (he : Uhf.Eigh eigh)
    {sort : (Fin nb → ℝ) → Equiv.Perm (Fin nb)} (hs : Descending sort) (h1 : Matrix (Fin nb) (Fin nb) ℂ)
    (A : Matrix (Fin nb) (Fin k) ℂ) (hA : Aᴴ * A = 1) (hr : A.map star = A) :
    ∃ phi, spinInit hk hk eigh sort false h1 (Slater.join A A) = some phi ∧
      ‖Slater.overlap (Slater.join A A) phi‖ = 1 := by
  obtain ⟨phi, h, ho⟩ := natural_overlap hk hk0 he hs h1 A hA
  refine ⟨phi, h, ?_⟩
  have : Aᵀ = Aᴴ := by
    rw [conjTranspose, transpose_map, hr]
  rw [ho, this, hA, det_one, norm_one, one_pow]

/-- An orbital that carries a current: `(1, i) / √2` on two sites. -/
noncomputable def current : Matrix (Fin 2) (Fin 1) ℂ :=
  Matrix.of fun i _ => if i = 0 then (1 / Real.sqrt 2 : ℝ) else (1 / Real.sqrt 2 : ℝ) * Complex.I

theorem half : (1 / Real.sqrt 2) * (1 / Real.sqrt 2) = (1 / 2 : ℝ) := by
  rw [div_mul_div_comm, Real.mul_self_sqrt (by norm_num)]; norm_num

theorem current_orthonormal : currentᴴ * current = 1 := by
  ext i j
  rw [Subsingleton.elim i 0, Subsingleton.elim j 0, mul_apply, Fin.sum_univ_two]
  simp only [conjTranspose_apply, current, of_apply, if_true, one_ne_zero, if_false, one_apply_eq]
  have h : ((1 / Real.sqrt 2 : ℝ) : ℂ) * ((1 / Real.sqrt 2 : ℝ) : ℂ) = 1 / 2 := by
    rw [← Complex.ofReal_mul, half]; norm_num
  have hs : star ((1 / Real.sqrt 2 : ℝ) : ℂ) = ((1 / Real.sqrt 2 : ℝ) : ℂ) := Complex.conj_ofReal _
  have hi : star Complex.I = -Complex.I := Complex.conj_I
  rw [star_mul', hs, hi]
  linear_combination (1 - Complex.I * Complex.I) * h - 1 / 2 * Complex.I_mul_I

theorem current_det : (currentᵀ * current).det = 0 := by
  rw [det_fin_one, mul_apply, Fin.sum_univ_two]
  simp only [transpose_apply, current, of_apply, if_true, one_ne_zero, if_false]
  linear_combination ((1 / Real.sqrt 2 : ℝ) : ℂ) * ((1 / Real.sqrt 2 : ℝ) : ℂ) * Complex.I_mul_I

/-- **Complex trials**: the orbitals are those of the complex conjugated density matrix.  For a trial that
carries a current the initial walker is orthogonal to the trial, with every routine for eigenvectors. -/
theorem natural_conjugate {eigh : Uhf.Eig 2} (he : Uhf.Eigh eigh)
    {sort : (Fin 2 → ℝ) → Equiv.Perm (Fin 2)} (hs : Descending sort) (h1 : Matrix (Fin 2) (Fin 2) ℂ) :
    ∃ phi, spinInit (by norm_num) (by norm_num) eigh sort false h1 (Slater.join current current) = some phi ∧
      Slater.overlap (Slater.join current current) phi = 0 := by
  obtain ⟨phi, h, ho⟩ := natural_overlap (by norm_num : 1 ≤ 2) one_pos he hs h1 current current_orthonormal
  refine ⟨phi, h, ?_⟩
  rw [current_det, norm_zero, zero_pow two_ne_zero] at ho
  exact norm_eq_zero.1 ho

/-- **Fully polarised systems**: `gab_spin` raises without down electrons, so `spin_proj` raises unless the
free-electron orbitals are asked for. -/
theorem polarised (hu : nu ≤ nb) (eigh : Uhf.Eig nb) (sort : (Fin nb → ℝ) → Equiv.Perm (Fin nb))
    (h1 : Matrix (Fin nb) (Fin nb) ℂ) (psi : Slater.Wfn nb nu 0) :
    gabSpin psi psi = none ∧ spinInit hu (Nat.zero_le nb) eigh sort false h1 psi = none ∧
      (spinInit hu (Nat.zero_le nb) eigh sort true h1 psi).isSome := by
  have h : gabSpin psi psi = none := if_neg (lt_irrefl 0)
  refine ⟨h, ?_, rfl⟩
  simp only [spinInit, Bool.false_eq_true, if_false, h, Option.map_none]

/-- The descending order exists. -/
theorem exists_descending (nb : Nat) : ∃ sort : (Fin nb → ℝ) → Equiv.Perm (Fin nb), Descending sort :=
  ⟨fun e => Tuple.sort fun a => -e a, fun e a b h => by
    have := Tuple.monotone_sort (fun a => -e a) h
    simpa using this⟩

/-- **A case**: a singlet run.  Two electrons of each spin on three or more sites with the charge propagator,
natural orbitals of a trial with any orthonormal orbitals. -/
theorem run_case {nb : Nat} (hk : 2 ≤ nb) (h : Step.Hub nb) (hh : h.h1 0 = h.h1 1) (dt : ℝ) (mf : Fin nb → ℂ) (n : Nat)
    (psi : Slater.Wfn nb 2 2) {qr : Slater.QR nb} (hqr : Slater.QRSpec qr) {eigh : Uhf.Eig nb}
    {sort : (Fin nb → ℝ) → Equiv.Perm (Fin nb)} :
    ∃ phi, spinInit hk hk eigh sort false (h.h1 0) psi = some phi ∧
      ∀ w w' : Slater.Wk nb 2 2, w.phi = phi →
        Relation.ReflTransGen (Act qr n dt (h.charge dt mf) psi) w w' → spinSq (wave w'.phi) = 0 := by
  obtain ⟨phi, hphi⟩ : ∃ phi, spinInit hk hk eigh sort false (h.h1 0) psi = some phi := by
    refine Option.isSome_iff_exists.1 ?_
    simp only [spinInit, Bool.false_eq_true, if_false, gabSpin, if_pos (by norm_num : 0 < 2), Option.map_some,
      Option.isSome_some]
  refine ⟨phi, hphi, fun w w' hw hr => ?_⟩
  have := (run_spinPure (le_refl 2) (hw ▸ hphi) hqr (charge_alike mf hh) hr).eig
  rw [this]
  simp

end Verif.SpinProj
