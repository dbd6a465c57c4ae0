import Verif.Ekt.Props
import Verif.UEG.Integrals

/-!
# The code against the expectation values
-/

namespace Verif.Ekt

open Matrix
open Verif.Energy (dot2 ovl)

variable {n k l nx : Nat}

/-- Integrals from two families of vectors. -/
def integrals2 (L R : Fin nx → Matrix (Fin n) (Fin n) ℂ) : Integrals n := fun i k j l => ∑ x, L x i k * R x j l

theorem second_eq (L R : Fin nx → Matrix (Fin n) (Fin n) ℂ) (i k : Fin n) : second (integrals2 L R) i k = ∑ x, L x i k • R x := by
  ext j l
  simp [second, integrals2, Matrix.sum_apply]

theorem dot2_sum (c : Fin nx → ℂ) (R : Fin nx → Matrix (Fin n) (Fin n) ℂ) (P : Matrix (Fin n) (Fin n) ℂ) :
    dot2 (∑ x, c x • R x) P = ∑ x, c x * dot2 (R x) P := by
  simp only [dot2, Matrix.sum_apply, Matrix.smul_apply, smul_eq_mul, Finset.sum_mul, Finset.mul_sum, mul_assoc]
  rw [Finset.sum_congr rfl fun i _ => Finset.sum_comm, Finset.sum_comm]

theorem swapped_sum (c : Fin nx → ℂ) (R : Fin nx → Matrix (Fin n) (Fin n) ℂ) (P : Matrix (Fin n) (Fin n) ℂ) (p i : Fin n) :
    swapped (∑ x, c x • R x) P p i = ∑ x, c x * (P * (R x)ᵀ * P) p i := by
  simp only [swapped, Matrix.sum_apply, Matrix.smul_apply, smul_eq_mul, Finset.sum_mul, Finset.mul_sum, Matrix.mul_apply,
    Matrix.transpose_apply]
  rw [Finset.sum_congr rfl fun i _ => Finset.sum_comm, Finset.sum_comm]
  exact Finset.sum_congr rfl fun x _ => Finset.sum_congr rfl fun j _ => Finset.sum_congr rfl fun l _ => by ring

/-- The matrix for removing an electron, in matrices. -/
theorem holeForm_eq (h : Matrix (Fin n) (Fin n) ℂ) (L R : Fin nx → Matrix (Fin n) (Fin n) ℂ) (P P' : Matrix (Fin n) (Fin n) ℂ) :
    Matrix.of (holeForm h (integrals2 L R) P P') = -(P * hᵀ) - P * (contract R P L)ᵀ - P * (contract R P' L)ᵀ +
      ∑ x, P * (R x)ᵀ * P * (L x)ᵀ := by
  ext p q
  have hJ : ∀ Q : Matrix (Fin n) (Fin n) ℂ, (P * (contract R Q L)ᵀ) p q = ∑ i, P p i * ∑ x, L x q i * dot2 (R x) Q := by
    intro Q
    simp only [Matrix.mul_apply, contract, Matrix.transpose_apply, Matrix.sum_apply, Matrix.smul_apply, smul_eq_mul,
      mul_comm (dot2 _ _)]
  have hK : (∑ x, P * (R x)ᵀ * P * (L x)ᵀ) p q = ∑ i, ∑ x, L x q i * (P * (R x)ᵀ * P) p i := by
    rw [Matrix.sum_apply, Finset.sum_comm]
    refine Finset.sum_congr rfl fun x _ => ?_
    rw [Matrix.mul_apply]
    exact Finset.sum_congr rfl fun i _ => by rw [Matrix.transpose_apply, mul_comm]
  simp only [Matrix.add_apply, Matrix.sub_apply, Matrix.neg_apply, hJ, hK, Matrix.of_apply, holeForm, second_eq, dot2_sum, swapped_sum,
    mul_add, Finset.sum_add_distrib, Finset.sum_sub_distrib, Matrix.mul_apply, Matrix.transpose_apply]
  rw [Finset.sum_congr rfl fun j _ => mul_comm (h q j) (P p j)]
  ring

/-- The matrix for adding an electron, in matrices. -/
theorem particleForm_eq (h : Matrix (Fin n) (Fin n) ℂ) (L R : Fin nx → Matrix (Fin n) (Fin n) ℂ) (P P' : Matrix (Fin n) (Fin n) ℂ) :
    Matrix.of (particleForm h (integrals2 L R) P P') = (1 - P)ᵀ * h + (1 - P)ᵀ * contract R P L + (1 - P)ᵀ * contract R P' L +
      ∑ x, (Pᵀ * R x * Pᵀ * L x - R x * Pᵀ * L x) := by
  ext p q
  have h1 : ∀ i, (1 - P)ᵀ p i = (if p = i then 1 else 0) - P i p := by
    intro i
    rw [Matrix.transpose_apply, Matrix.sub_apply, Matrix.one_apply]
    congr 1
    exact if_congr eq_comm rfl rfl
  have hJ : ∀ Q : Matrix (Fin n) (Fin n) ℂ, ((1 - P)ᵀ * contract R Q L : Matrix (Fin n) (Fin n) ℂ) p q =
      ∑ i, ((if p = i then 1 else 0) - P i p) * ∑ x, L x i q * dot2 (R x) Q := by
    intro Q
    simp only [Matrix.mul_apply, h1, contract, Matrix.sum_apply, Matrix.smul_apply, smul_eq_mul, mul_comm (dot2 _ _)]
  have h0 : ((1 - P)ᵀ * h : Matrix (Fin n) (Fin n) ℂ) p q = ∑ i, h i q * ((if p = i then 1 else 0) - P i p) := by
    simp only [Matrix.mul_apply, h1]
    exact Finset.sum_congr rfl fun i _ => mul_comm _ _
  have hK : (∑ x, (Pᵀ * R x * Pᵀ * L x - R x * Pᵀ * L x)) p q =
      ∑ i, (∑ x, L x i q * (P * (R x)ᵀ * P) i p - ∑ l, (∑ x, L x i q • R x) p l * P i l) := by
    rw [Matrix.sum_apply, Finset.sum_sub_distrib, Finset.sum_comm (s := Finset.univ (α := Fin n))]
    simp only [Matrix.sub_apply, Finset.sum_sub_distrib]
    congr 1
    · refine Finset.sum_congr rfl fun x _ => ?_
      rw [Matrix.mul_apply]
      refine Finset.sum_congr rfl fun i _ => ?_
      have : Pᵀ * R x * Pᵀ = (P * (R x)ᵀ * P)ᵀ := by
        simp only [Matrix.transpose_mul, Matrix.transpose_transpose, Matrix.mul_assoc]
      rw [this, Matrix.transpose_apply, mul_comm]
    · simp only [Matrix.sum_apply, Matrix.smul_apply, smul_eq_mul, Finset.sum_mul, Matrix.mul_apply, Matrix.transpose_apply]
      rw [Finset.sum_comm]
      refine Finset.sum_congr rfl fun i _ => ?_
      rw [Finset.sum_comm]
      exact Finset.sum_congr rfl fun l _ => Finset.sum_congr rfl fun x _ => by ring
  simp only [Matrix.add_apply]
  rw [hJ, hJ, hK, h0]
  simp only [Matrix.of_apply, particleForm, second_eq, dot2_sum, swapped_sum, mul_add, Finset.sum_add_distrib, Finset.sum_sub_distrib]
  ring

theorem exchange_1h (L : Fin nx → Matrix (Fin n) (Fin n) ℂ) (P : Matrix (Fin n) (Fin n) ℂ) :
    (Matrix.of fun p q => ∑ x, ∑ i, (∑ k, L x i k * P p k) * ∑ k, L x q k * P i k) = ∑ x, P * (L x)ᵀ * P * (L x)ᵀ := by
  ext p q
  rw [Matrix.of_apply, Matrix.sum_apply]
  refine Finset.sum_congr rfl fun x _ => ?_
  rw [Matrix.mul_assoc, Matrix.mul_apply]
  refine Finset.sum_congr rfl fun i _ => ?_
  simp only [Matrix.mul_apply, Matrix.transpose_apply]
  congr 1
  · exact Finset.sum_congr rfl fun k _ => mul_comm _ _
  · exact Finset.sum_congr rfl fun k _ => mul_comm _ _

theorem exchange_1p (L : Fin nx → Matrix (Fin n) (Fin n) ℂ) (P : Matrix (Fin n) (Fin n) ℂ) :
    (Matrix.of fun p q => ∑ x, ∑ l, (∑ j, L x j l * P j p) * ∑ j, L x j q * P j l) = ∑ x, Pᵀ * L x * Pᵀ * L x := by
  ext p q
  rw [Matrix.of_apply, Matrix.sum_apply]
  refine Finset.sum_congr rfl fun x _ => ?_
  rw [Matrix.mul_assoc, Matrix.mul_apply]
  refine Finset.sum_congr rfl fun i _ => ?_
  simp only [Matrix.mul_apply, Matrix.transpose_apply]
  congr 1
  · exact Finset.sum_congr rfl fun k _ => mul_comm _ _
  · exact Finset.sum_congr rfl fun k _ => mul_comm _ _

theorem exchange_1p_extra (L : Fin nx → Matrix (Fin n) (Fin n) ℂ) (P : Matrix (Fin n) (Fin n) ℂ) :
    (Matrix.of fun p q => ∑ x, ∑ l, L x p l * ∑ j, L x j q * P j l) = ∑ x, L x * Pᵀ * L x := by
  ext p q
  rw [Matrix.of_apply, Matrix.sum_apply]
  refine Finset.sum_congr rfl fun x _ => ?_
  rw [Matrix.mul_assoc, Matrix.mul_apply]
  refine Finset.sum_congr rfl fun i _ => ?_
  simp only [Matrix.mul_apply, Matrix.transpose_apply]
  congr 1
  exact Finset.sum_congr rfl fun k _ => mul_comm _ _

theorem integrals2_self (L : Fin nx → Matrix (Fin n) (Fin n) ℂ) (i k j l : Fin n) : integrals2 L L i k j l = integrals2 L L j l i k :=
  Finset.sum_congr rfl fun _ _ => mul_comm _ _

theorem hole_matrix (h : Matrix (Fin n) (Fin n) ℂ) (v : Integrals n) (hv : ∀ i k j l, v i k j l = v j l i k)
    (A B : Matrix (Fin n) (Fin k) ℂ) (A' B' : Matrix (Fin n) (Fin l) ℂ) (hA : ovl A B ≠ 0) (hA' : ovl A' B' ≠ 0) :
    hole h v (dets A A') (dets B B') = Matrix.of (holeForm h v (density A B) (density A' B')) := by
  ext p q
  exact hole_eq h v hv A B A' B' hA hA' p q

theorem particle_matrix (h : Matrix (Fin n) (Fin n) ℂ) (v : Integrals n) (hv : ∀ i k j l, v i k j l = v j l i k)
    (A B : Matrix (Fin n) (Fin k) ℂ) (A' B' : Matrix (Fin n) (Fin l) ℂ) (hA : ovl A B ≠ 0) (hA' : ovl A' B' ≠ 0) :
    particle h v (dets A A') (dets B B') = Matrix.of (particleForm h v (density A B) (density A' B')) := by
  ext p q
  exact particle_eq h v hv A B A' B' hA hA' p q

/-- **C99**: the Fock matrices of both spins for removing an electron are expectation values of `c_p^+ [H, c_q]`. -/
theorem genFock1h_eq (h : Matrix (Fin n) (Fin n) ℂ) (L : Fin nx → Matrix (Fin n) (Fin n) ℂ)
    (A B : Matrix (Fin n) (Fin k) ℂ) (A' B' : Matrix (Fin n) (Fin l) ℂ) (hA : ovl A B ≠ 0) (hA' : ovl A' B' ≠ 0) :
    genFock1h h L (Slater.gab A B)ᵀ (Slater.gab A' B')ᵀ =
      (hole h (fun i k j l => ∑ x, L x i k * L x j l) (dets A A') (dets B B'),
        hole h (fun i k j l => ∑ x, L x i k * L x j l) (dets A' A) (dets B' B)) := by
  change _ = (hole h (integrals2 L L) _ _, hole h (integrals2 L L) _ _)
  rw [hole_matrix h _ (integrals2_self L) A B A' B' hA hA', hole_matrix h _ (integrals2_self L) A' B' A B hA' hA, holeForm_eq, holeForm_eq]
  change genFock1h h L (density A B) (density A' B') = _
  simp only [genFock1h, exchange_1h]
  refine Prod.ext ?_ ?_ <;> dsimp only <;> abel

/-- **C99**: the Fock matrices of both spins for adding an electron are expectation values of `c_p [H, c_q^+]`. -/
theorem genFock1p_eq (h : Matrix (Fin n) (Fin n) ℂ) (L : Fin nx → Matrix (Fin n) (Fin n) ℂ)
    (A B : Matrix (Fin n) (Fin k) ℂ) (A' B' : Matrix (Fin n) (Fin l) ℂ) (hA : ovl A B ≠ 0) (hA' : ovl A' B' ≠ 0) :
    genFock1p h L (Slater.gab A B)ᵀ (Slater.gab A' B')ᵀ =
      (particle h (fun i k j l => ∑ x, L x i k * L x j l) (dets A A') (dets B B'),
        particle h (fun i k j l => ∑ x, L x i k * L x j l) (dets A' A) (dets B' B)) := by
  change _ = (particle h (integrals2 L L) _ _, particle h (integrals2 L L) _ _)
  rw [particle_matrix h _ (integrals2_self L) A B A' B' hA hA', particle_matrix h _ (integrals2_self L) A' B' A B hA' hA,
    particleForm_eq, particleForm_eq]
  change genFock1p h L (density A B) (density A' B') = _
  simp only [genFock1p, exchange_1p, exchange_1p_extra, Finset.sum_sub_distrib, Matrix.transpose_sub, Matrix.transpose_one,
    Matrix.sub_mul, Matrix.one_mul]
  refine Prod.ext ?_ ?_ <;> dsimp only <;> abel

/-! ## The functions that are called -/

/-- What `ekt_1h_fock_opt` returns beyond the sum of the two spins. -/
theorem fock1hOpt_diff (h : Matrix (Fin n) (Fin n) ℂ) (L : Fin nx → Matrix (Fin n) (Fin n) ℂ)
    (hL : ∀ i k j l, ∑ x, L x k i * L x j l = ∑ x, L x l j * L x i k)
    (A B : Matrix (Fin n) (Fin k) ℂ) (A' B' : Matrix (Fin n) (Fin l) ℂ) (hA : ovl A B ≠ 0) (hA' : ovl A' B' ≠ 0) :
    fock1hOpt h L (Slater.gab A B)ᵀ (Slater.gab A' B')ᵀ =
      hole h (fun i k j l => ∑ x, L x k i * L x j l) (dets A A') (dets B B') +
        hole h (fun i k j l => ∑ x, L x k i * L x j l) (dets A' A) (dets B' B) +
      (∑ x, ((dot2 (L x) (Slater.gab A B)ᵀ) • ((Slater.gab A' B')ᵀ * L x) - (dot2 (L x) (Slater.gab A' B')ᵀ) • ((Slater.gab A B)ᵀ * L x) +
        ((Slater.gab A B)ᵀ - (Slater.gab A' B')ᵀ) * (L x)ᵀ * (Slater.gab A' B')ᵀ * L x)) := by
  change fock1hOpt h L (density A B) (density A' B') = hole h (integrals2 (fun x => (L x)ᵀ) L) _ _ + hole h (integrals2 (fun x => (L x)ᵀ) L) _ _ +
    (∑ x, ((dot2 (L x) (density A B)) • (density A' B' * L x) - (dot2 (L x) (density A' B')) • (density A B * L x) +
        (density A B - density A' B') * (L x)ᵀ * density A' B' * L x))
  rw [hole_matrix h (integrals2 (fun x => (L x)ᵀ) L) hL A B A' B' hA hA', hole_matrix h (integrals2 (fun x => (L x)ᵀ) L) hL A' B' A B hA' hA, holeForm_eq, holeForm_eq]
  have hc : ∀ P Q : Matrix (Fin n) (Fin n) ℂ, P * (contract L Q fun x => (L x)ᵀ)ᵀ = ∑ x, dot2 (L x) Q • (P * L x) := by
    intro P Q
    simp only [contract, Matrix.transpose_sum, Matrix.transpose_smul, Matrix.transpose_transpose, Matrix.mul_sum, Matrix.mul_smul]
  simp only [fock1hOpt, hc, Matrix.transpose_transpose, Finset.sum_add_distrib, Finset.sum_sub_distrib, Matrix.sub_mul, Matrix.add_mul,
    Matrix.neg_mul, neg_smul, two_smul, neg_add]
  abel

/-- What `ekt_1p_fock_opt` returns beyond the sum of the two spins. -/
theorem fock1pOpt_diff (h : Matrix (Fin n) (Fin n) ℂ) (L : Fin nx → Matrix (Fin n) (Fin n) ℂ)
    (hL : ∀ i k j l, ∑ x, L x k i * L x j l = ∑ x, L x l j * L x i k)
    (A B : Matrix (Fin n) (Fin k) ℂ) (A' B' : Matrix (Fin n) (Fin l) ℂ) (hA : ovl A B ≠ 0) (hA' : ovl A' B' ≠ 0) :
    fock1pOpt h L (Slater.gab A B)ᵀ (Slater.gab A' B')ᵀ =
      particle h (fun i k j l => ∑ x, L x k i * L x j l) (dets A A') (dets B B') +
        particle h (fun i k j l => ∑ x, L x k i * L x j l) (dets A' A) (dets B' B) +
      ∑ x, ((dot2 (L x) (Slater.gab A B)ᵀ) • (Slater.gab A' B' * (L x)ᵀ) - (dot2 (L x) (Slater.gab A' B')ᵀ) • (Slater.gab A B * (L x)ᵀ)) := by
  have ht : ∀ C D : Matrix (Fin n) (Fin k) ℂ, Slater.gab C D = (density C D)ᵀ := fun C D => (Matrix.transpose_transpose _).symm
  have ht' : ∀ C D : Matrix (Fin n) (Fin l) ℂ, Slater.gab C D = (density C D)ᵀ := fun C D => (Matrix.transpose_transpose _).symm
  change _ = particle h (integrals2 (fun x => (L x)ᵀ) L) _ _ + particle h (integrals2 (fun x => (L x)ᵀ) L) _ _ + _
  rw [particle_matrix h (integrals2 (fun x => (L x)ᵀ) L) hL A B A' B' hA hA',
    particle_matrix h (integrals2 (fun x => (L x)ᵀ) L) hL A' B' A B hA' hA, particleForm_eq, particleForm_eq, ht, ht']
  generalize density A B = P
  generalize density A' B' = P'
  have hc : ∀ Q : Matrix (Fin n) (Fin n) ℂ, (contract L Q fun x => (L x)ᵀ) = ∑ x, dot2 (L x) Q • (L x)ᵀ := fun Q => rfl
  simp only [fock1pOpt, hc, Matrix.transpose_transpose, Finset.sum_add_distrib, Finset.sum_sub_distrib, Matrix.sub_mul, Matrix.add_mul,
    Matrix.mul_add, Matrix.transpose_sub, Matrix.transpose_add, Matrix.transpose_one, Matrix.one_mul, Matrix.mul_sum, Matrix.mul_smul,
    two_smul, Finset.sum_neg_distrib, smul_sub]
  abel

/-- **C99**: with the same density matrix for both spins the functions that are called give the sum over the spins, for integrals whose
second pair of orbitals is in the other order.  With different density matrices they do not (`Cases`). -/
theorem fockOpt_eq_partial (h : Matrix (Fin n) (Fin n) ℂ) (L : Fin nx → Matrix (Fin n) (Fin n) ℂ)
    (hL : ∀ i k j l, ∑ x, L x k i * L x j l = ∑ x, L x l j * L x i k)
    (A B : Matrix (Fin n) (Fin k) ℂ) (A' B' : Matrix (Fin n) (Fin l) ℂ) (hA : ovl A B ≠ 0) (hA' : ovl A' B' ≠ 0)
    (hs : Slater.gab A B = Slater.gab A' B') :
    fock1hOpt h L (Slater.gab A B)ᵀ (Slater.gab A' B')ᵀ =
      hole h (fun i k j l => ∑ x, L x k i * L x j l) (dets A A') (dets B B') +
        hole h (fun i k j l => ∑ x, L x k i * L x j l) (dets A' A) (dets B' B) ∧
    fock1pOpt h L (Slater.gab A B)ᵀ (Slater.gab A' B')ᵀ =
      particle h (fun i k j l => ∑ x, L x k i * L x j l) (dets A A') (dets B B') +
        particle h (fun i k j l => ∑ x, L x k i * L x j l) (dets A' A) (dets B' B) := by
  constructor
  · rw [fock1hOpt_diff h L hL A B A' B' hA hA', hs]
    simp
  · rw [fock1pOpt_diff h L hL A B A' B' hA hA', hs]
    simp

/-! ## The electron gas -/

theorem hijkl_pairs (I : UEG.Inp) (i j k l : Fin (UEG.nb I)) : UEG.hijkl I j i l k = UEG.hijkl I i j k l := by
  rw [UEG.hijkl_eq, UEG.hijkl_eq]
  by_cases h : UEG.bv I k - UEG.bv I i = UEG.bv I j - UEG.bv I l
  · have h' : UEG.bv I l - UEG.bv I j = UEG.bv I i - UEG.bv I k := by
      rw [← neg_sub (UEG.bv I j), ← h, neg_sub]
    have hne : l ≠ j ↔ k ≠ i := by
      rw [not_iff_not]
      constructor
      · rintro rfl
        rw [sub_self] at h
        exact (UEG.bv_inj I).mp (sub_eq_zero.mp h)
      · rintro rfl
        rw [sub_self] at h'
        exact (UEG.bv_inj I).mp (sub_eq_zero.mp h')
    rw [h', UEG.vq_sub I (UEG.bv I i)]
    simp only [hne, h, and_true]
  · rw [if_neg, if_neg fun hh => h hh.2]
    rintro ⟨_, hh⟩
    exact h (by rw [← neg_sub (UEG.bv I l), hh, neg_sub])

/-- The array of the estimator for an electron gas, back_propagation.py 178-180. -/
noncomputable def uegVectors (I : UEG.Inp) (x : Fin (UEG.qvecs I).length) : Matrix (Fin (UEG.nb I)) (Fin (UEG.nb I)) ℂ :=
  Matrix.of fun i k => 2 * (UEG.rho I ((UEG.qvecs I).get x) i k : ℂ)

theorem uegVectors_integrals (I : UEG.Inp) (hk : 0 < I.kfac) (hv : 0 < I.vol) (ht : I.twist = 0) (i k j l : Fin (UEG.nb I)) :
    ∑ x, uegVectors I x k i * uegVectors I x j l = (UEG.hijkl I i j k l : ℂ) := by
  rw [← UEG.hijkl_swap, ← UEG.eri4_eq I hk hv ht, UEG.eri4, ← Fin.sum_univ_fun_getElem]
  push_cast
  rw [Finset.mul_sum]
  refine Finset.sum_congr rfl fun x _ => ?_
  simp only [uegVectors, Matrix.of_apply, List.get_eq_getElem]
  ring

/-- **C99**: for an electron gas with the same density matrix for both spins, the matrices that the estimator adds up are the
expectation values for the Coulomb integrals. -/
theorem ueg_fock (I : UEG.Inp) (hk : 0 < I.kfac) (hv : 0 < I.vol) (ht : I.twist = 0)
    (h : Matrix (Fin (UEG.nb I)) (Fin (UEG.nb I)) ℂ) (A B : Matrix (Fin (UEG.nb I)) (Fin k) ℂ)
    (A' B' : Matrix (Fin (UEG.nb I)) (Fin l) ℂ) (hA : ovl A B ≠ 0) (hA' : ovl A' B' ≠ 0) (hs : Slater.gab A B = Slater.gab A' B') :
    fock1hOpt h (uegVectors I) (Slater.gab A B)ᵀ (Slater.gab A' B')ᵀ =
      hole h (fun i k j l => UEG.hijkl I i j k l) (dets A A') (dets B B') +
        hole h (fun i k j l => UEG.hijkl I i j k l) (dets A' A) (dets B' B) ∧
    fock1pOpt h (uegVectors I) (Slater.gab A B)ᵀ (Slater.gab A' B')ᵀ =
      particle h (fun i k j l => UEG.hijkl I i j k l) (dets A A') (dets B B') +
        particle h (fun i k j l => UEG.hijkl I i j k l) (dets A' A) (dets B' B) := by
  have hi := uegVectors_integrals I hk hv ht
  have := fockOpt_eq_partial h (uegVectors I) (fun i k j l => by rw [hi, hi, hijkl_pairs]) A B A' B' hA hA' hs
  simpa only [hi] using this

/-! ## Shapes and places -/

/-- The estimator fails for every molecule: the vectors are passed as a matrix. -/
theorem generic_fails (nbasis nchol : Nat) : shapeOk (passedShape false nbasis nchol) nbasis = false := rfl

theorem ueg_shape (nbasis nchol : Nat) : shapeOk (passedShape true nbasis nchol) nbasis = true := by
  simp [shapeOk, passedShape]

/-- The Fock matrices are read where they were added up exactly if the density matrix is requested too. -/
theorem readFock_iff (nreg g t f : Nat) (hg : 0 < g) (one two : Bool) :
    readFock nreg g t f one two = writeFock nreg g t f two ↔ one = true := by
  cases one <;> cases two <;> simp [readFock, writeFock] <;> omega

end Verif.Ekt
