import Verif.Energy.Model
import Verif.Energy.Wick
import Mathlib.Algebra.BigOperators.Field

/-!
# Local energies: C28, C29, C40, C41, C42, C71, C72
-/

namespace Verif.Energy

open Matrix Finset

variable {m na nb nx : Nat}

/-! ## C28: the routines agree -/

/-- Coulomb and exchange sums by traces. -/
theorem dot2_trace (A B : Matrix (Fin m) (Fin m) ℂ) : dot2 A B = (A * Bᵀ).trace := by
  simp only [dot2, Matrix.trace, Matrix.diag_apply, Matrix.mul_apply, Matrix.transpose_apply]

/-- Coulomb energy of full integrals. -/
theorem coulomb_full (L : Fin nx → Matrix (Fin m) (Fin m) ℂ) (G H : Matrix (Fin m) (Fin m) ℂ) :
    ∑ p, ∑ r, ∑ q, ∑ u, cholEri L p r q u * G p r * H q u = ∑ x, dot2 (L x) G * dot2 (L x) H := by
  have h : ∀ x, dot2 (L x) G * dot2 (L x) H =
      ∑ p, ∑ r, ∑ q, ∑ u, L x p r * L x q u * G p r * H q u := by
    intro x
    simp only [dot2]
    rw [Finset.sum_mul]
    refine Finset.sum_congr rfl fun p _ => ?_
    rw [Finset.sum_mul]
    refine Finset.sum_congr rfl fun r _ => ?_
    rw [Finset.mul_sum]
    refine Finset.sum_congr rfl fun q _ => ?_
    rw [Finset.mul_sum]
    refine Finset.sum_congr rfl fun u _ => ?_
    ring
  simp only [h, cholEri, Finset.sum_mul]
  symm
  rw [Finset.sum_comm]
  refine Finset.sum_congr rfl fun p _ => ?_
  rw [Finset.sum_comm]
  refine Finset.sum_congr rfl fun r _ => ?_
  rw [Finset.sum_comm]
  refine Finset.sum_congr rfl fun q _ => ?_
  rw [Finset.sum_comm]

/-- Exchange energy by traces. -/
theorem exchange_trace (A G : Matrix (Fin m) (Fin m) ℂ) :
    (A * Gᵀ * A * Gᵀ).trace = ∑ p, ∑ r, ∑ q, ∑ u, A p r * A q u * G p u * G q r := by
  simp only [Matrix.trace, Matrix.diag_apply, Matrix.mul_apply, Matrix.transpose_apply,
    Finset.sum_mul]
  refine Finset.sum_congr rfl fun p _ => ?_
  -- sums over u, q, r
  rw [Finset.sum_comm]
  have : ∀ q, (∑ u, ∑ r, A p r * G q r * A q u * G p u) =
      ∑ r, ∑ u, A p r * A q u * G p u * G q r := by
    intro q
    rw [Finset.sum_comm]
    refine Finset.sum_congr rfl fun r _ => Finset.sum_congr rfl fun u _ => ?_
    ring
  simp only [this]
  rw [Finset.sum_comm]

theorem exchange_full (L : Fin nx → Matrix (Fin m) (Fin m) ℂ) (G : Matrix (Fin m) (Fin m) ℂ) :
    ∑ p, ∑ r, ∑ q, ∑ u, cholEri L p r q u * G p u * G q r =
      ∑ x, (L x * Gᵀ * L x * Gᵀ).trace := by
  simp only [exchange_trace, cholEri, Finset.sum_mul]
  symm
  rw [Finset.sum_comm]
  refine Finset.sum_congr rfl fun p _ => ?_
  rw [Finset.sum_comm]
  refine Finset.sum_congr rfl fun r _ => ?_
  rw [Finset.sum_comm]
  refine Finset.sum_congr rfl fun q _ => ?_
  rw [Finset.sum_comm]

/-- Exchange of the Cholesky routine. -/
theorem exchange_chol (L : Fin nx → Matrix (Fin m) (Fin m) ℂ) (G : Matrix (Fin m) (Fin m) ℂ) :
    ∑ l, ∑ k, ∑ x, (∑ i, G i l * L x i k) * (∑ i, G i k * L x i l) =
      ∑ x, (L x * Gᵀ * L x * Gᵀ).trace := by
  have h : ∀ x l k, (∑ i, G i l * L x i k) * (∑ i, G i k * L x i l) =
      (Gᵀ * L x) l k * (Gᵀ * L x) k l := by
    intro x l k; rfl
  simp only [h]
  have h2 : ∀ x, (L x * Gᵀ * L x * Gᵀ).trace = ∑ l, ∑ k, (Gᵀ * L x) l k * (Gᵀ * L x) k l := by
    intro x
    rw [Matrix.trace_mul_comm, ← Matrix.mul_assoc, ← Matrix.mul_assoc, Matrix.mul_assoc]
    simp only [Matrix.trace, Matrix.diag_apply, Matrix.mul_apply (M := Gᵀ * L x)]
  simp only [h2]
  symm
  rw [Finset.sum_comm]
  refine Finset.sum_congr rfl fun l _ => ?_
  rw [Finset.sum_comm]

/-- The two-body energy in a common form. -/
noncomputable def twoBodyForm (L : Fin nx → Matrix (Fin m) (Fin m) ℂ)
    (G : Fin 2 → Matrix (Fin m) (Fin m) ℂ) : ℂ :=
  (1 / 2 : ℂ) * ∑ x, ((dot2 (L x) (G 0) + dot2 (L x) (G 1)) ^ 2 -
    (L x * (G 0)ᵀ * L x * (G 0)ᵀ).trace - (L x * (G 1)ᵀ * L x * (G 1)ᵀ).trace)

theorem localGeneric_form (h1 : Fin 2 → Matrix (Fin m) (Fin m) ℂ)
    (L : Fin nx → Matrix (Fin m) (Fin m) ℂ) (G : Fin 2 → Matrix (Fin m) (Fin m) ℂ) (ecore : ℂ) :
    (localGeneric h1 (cholEri L) G ecore).2.2 = twoBodyForm L G := by
  show (1 / 2 : ℂ) * (_ - _) + (1 / 2 : ℂ) * (_ - _) + (1 / 2 : ℂ) * _ + (1 / 2 : ℂ) * _ = _
  simp only [coulomb_full, exchange_full]
  rw [twoBodyForm]
  simp only [Finset.sum_sub_distrib, ← Finset.sum_add_distrib, ← Finset.sum_sub_distrib,
    ← mul_add]
  congr 1
  refine Finset.sum_congr rfl fun x _ => ?_
  ring

theorem localChol_form (h1 : Fin 2 → Matrix (Fin m) (Fin m) ℂ)
    (L : Fin nx → Matrix (Fin m) (Fin m) ℂ) (G : Fin 2 → Matrix (Fin m) (Fin m) ℂ) (ecore : ℂ) :
    (localChol h1 L G ecore).2.2 = twoBodyForm L G := by
  show (1 / 2 : ℂ) * (_ - (_ + _)) = _
  dsimp only
  rw [exchange_chol, exchange_chol, twoBodyForm]
  congr 1
  rw [Finset.mul_sum, ← Finset.sum_add_distrib, ← Finset.sum_add_distrib, ← Finset.sum_add_distrib,
    ← Finset.sum_sub_distrib]
  refine Finset.sum_congr rfl fun x _ => ?_
  ring

/-- **C28**: full integrals and Cholesky vectors give the same energies. -/
theorem localGeneric_eq_chol (h1 : Fin 2 → Matrix (Fin m) (Fin m) ℂ)
    (L : Fin nx → Matrix (Fin m) (Fin m) ℂ) (G : Fin 2 → Matrix (Fin m) (Fin m) ℂ) (ecore : ℂ) :
    localGeneric h1 (cholEri L) G ecore = localChol h1 L G ecore := by
  have h := (localGeneric_form h1 L G ecore).trans (localChol_form h1 L G ecore).symm
  have e1 : (localGeneric h1 (cholEri L) G ecore).1 =
      dot2 (h1 0) (G 0) + dot2 (h1 1) (G 1) + (localGeneric h1 (cholEri L) G ecore).2.2 + ecore := rfl
  have e2 : (localChol h1 L G ecore).1 =
      dot2 (h1 0) (G 0) + dot2 (h1 1) (G 1) + (localChol h1 L G ecore).2.2 + ecore := rfl
  refine Prod.ext (by rw [e1, e2, h]) (Prod.ext rfl h)

/-! ### Half rotation -/

theorem halfRotate_eq {k : Nat} (A : Matrix (Fin m) (Fin k) ℂ)
    (L : Fin nx → Matrix (Fin m) (Fin m) ℂ) (x : Fin nx) : halfRotate A L x = Aᴴ * L x := by
  ext a r
  rw [Matrix.mul_apply]
  rfl

theorem dot2_half {k : Nat} (A : Matrix (Fin m) (Fin k) ℂ) (Gh : Matrix (Fin k) (Fin m) ℂ)
    (T : Matrix (Fin m) (Fin m) ℂ) : dot2 (Aᴴ * T) Gh = dot2 T (A.map star * Gh) := by
  have h1 : dot2 (Aᴴ * T) Gh = (Aᴴ * T * Ghᵀ).trace := by
    simp only [dot2, Matrix.trace, Matrix.diag_apply, Matrix.mul_apply (N := Ghᵀ),
      Matrix.transpose_apply]
  rw [h1, dot2_trace, Matrix.transpose_mul, Matrix.mul_assoc, Matrix.trace_mul_comm,
    ← Matrix.mul_assoc]
  congr 2

theorem exchange_half {k : Nat} (A : Matrix (Fin m) (Fin k) ℂ) (Gh : Matrix (Fin k) (Fin m) ℂ)
    (T : Matrix (Fin m) (Fin m) ℂ) :
    ∑ i, ∑ j, (Aᴴ * T * Ghᵀ) i j * (Aᴴ * T * Ghᵀ) j i =
      (T * (A.map star * Gh)ᵀ * T * (A.map star * Gh)ᵀ).trace := by
  have h1 : ∑ i, ∑ j, (Aᴴ * T * Ghᵀ) i j * (Aᴴ * T * Ghᵀ) j i =
      ((Aᴴ * T * Ghᵀ) * (Aᴴ * T * Ghᵀ)).trace := by
    simp only [Matrix.trace, Matrix.diag_apply, Matrix.mul_apply (M := Aᴴ * T * Ghᵀ)]
  have hA : (A.map star)ᵀ = Aᴴ := rfl
  rw [h1, Matrix.transpose_mul, hA]
  have h2 : T * (Ghᵀ * Aᴴ) * T * (Ghᵀ * Aᴴ) = (T * Ghᵀ * Aᴴ * T * Ghᵀ) * Aᴴ := by
    simp only [Matrix.mul_assoc]
  have h3 : (Aᴴ * T * Ghᵀ) * (Aᴴ * T * Ghᵀ) = Aᴴ * (T * Ghᵀ * Aᴴ * T * Ghᵀ) := by
    simp only [Matrix.mul_assoc]
  rw [h2, h3, Matrix.trace_mul_comm]

/-- **C28**: half-rotated Cholesky vectors give the same energies, when the Green's functions are
trial times half-rotated Green's function. -/
theorem localCholOpt_eq (h1 : Fin 2 → Matrix (Fin m) (Fin m) ℂ)
    (L : Fin nx → Matrix (Fin m) (Fin m) ℂ) (G : Fin 2 → Matrix (Fin m) (Fin m) ℂ) (ecore : ℂ)
    (A : Matrix (Fin m) (Fin na) ℂ) (B : Matrix (Fin m) (Fin nb) ℂ)
    (Ga : Matrix (Fin na) (Fin m) ℂ) (Gb : Matrix (Fin nb) (Fin m) ℂ)
    (ha : G 0 = A.map star * Ga) (hb : G 1 = B.map star * Gb) :
    localCholOpt h1 G (halfRotate A L) (halfRotate B L) Ga Gb ecore = localChol h1 L G ecore := by
  have h : (localCholOpt h1 G (halfRotate A L) (halfRotate B L) Ga Gb ecore).2.2 =
      (localChol h1 L G ecore).2.2 := by
    rw [localChol_form]
    show (1 / 2 : ℂ) * (_ - (_ + _)) = _
    simp only [halfRotate_eq, dot2_half, exchange_half, ← ha, ← hb]
    rw [twoBodyForm]
    congr 1
    rw [Finset.mul_sum, ← Finset.sum_add_distrib, ← Finset.sum_add_distrib,
      ← Finset.sum_add_distrib, ← Finset.sum_sub_distrib]
    refine Finset.sum_congr rfl fun x _ => ?_
    ring
  have e1 : (localCholOpt h1 G (halfRotate A L) (halfRotate B L) Ga Gb ecore).1 =
      dot2 (h1 0) (G 0) + dot2 (h1 1) (G 1) +
      (localCholOpt h1 G (halfRotate A L) (halfRotate B L) Ga Gb ecore).2.2 + ecore := rfl
  have e2 : (localChol h1 L G ecore).1 =
      dot2 (h1 0) (G 0) + dot2 (h1 1) (G 1) + (localChol h1 L G ecore).2.2 + ecore := rfl
  refine Prod.ext (by rw [e1, e2, h]) (Prod.ext rfl h)

theorem halfEri_eq {k l : Nat} (A : Matrix (Fin m) (Fin k) ℂ) (B : Matrix (Fin m) (Fin l) ℂ)
    (L : Fin nx → Matrix (Fin m) (Fin m) ℂ) (i : Fin k) (p : Fin m) (j : Fin l) (q : Fin m) :
    halfEri A B L i p j q = ∑ x, halfRotate A L x i p * halfRotate B L x j q := by
  have h : ∀ x, halfRotate A L x i p * halfRotate B L x j q =
      ∑ u, ∑ r, L x u p * L x r q * star (A u i) * star (B r j) := by
    intro x
    simp only [halfRotate]
    rw [Finset.sum_mul_sum]
    refine Finset.sum_congr rfl fun u _ => Finset.sum_congr rfl fun r _ => ?_
    ring
  simp only [h, halfEri]
  exact Finset.sum_comm

theorem coulomb_half {k l : Nat} (ra : Fin nx → Matrix (Fin k) (Fin m) ℂ)
    (rb : Fin nx → Matrix (Fin l) (Fin m) ℂ) (G : Matrix (Fin k) (Fin m) ℂ)
    (H : Matrix (Fin l) (Fin m) ℂ) :
    ∑ i, ∑ r, ∑ j, ∑ s, (∑ x, ra x i r * rb x j s) * G i r * H j s =
      ∑ x, dot2 (ra x) G * dot2 (rb x) H := by
  have h : ∀ x, dot2 (ra x) G * dot2 (rb x) H =
      ∑ p, ∑ r, ∑ q, ∑ u, ra x p r * rb x q u * G p r * H q u := by
    intro x
    simp only [dot2]
    rw [Finset.sum_mul]
    refine Finset.sum_congr rfl fun p _ => ?_
    rw [Finset.sum_mul]
    refine Finset.sum_congr rfl fun r _ => ?_
    rw [Finset.mul_sum]
    refine Finset.sum_congr rfl fun q _ => ?_
    rw [Finset.mul_sum]
    refine Finset.sum_congr rfl fun u _ => ?_
    ring
  simp only [h, Finset.sum_mul]
  symm
  rw [Finset.sum_comm]
  refine Finset.sum_congr rfl fun p _ => ?_
  rw [Finset.sum_comm]
  refine Finset.sum_congr rfl fun r _ => ?_
  rw [Finset.sum_comm]
  refine Finset.sum_congr rfl fun q _ => ?_
  rw [Finset.sum_comm]

theorem exchange_half_eri {k : Nat} (ra : Fin nx → Matrix (Fin k) (Fin m) ℂ)
    (G : Matrix (Fin k) (Fin m) ℂ) :
    ∑ i, ∑ r, ∑ j, ∑ s, (∑ x, ra x i r * ra x j s) * G i s * G j r =
      ∑ x, ∑ i, ∑ j, (ra x * Gᵀ) i j * (ra x * Gᵀ) j i := by
  have h : ∀ x i, ∑ j, (ra x * Gᵀ) i j * (ra x * Gᵀ) j i =
      ∑ r, ∑ j, ∑ s, ra x i r * ra x j s * G i s * G j r := by
    intro x i
    simp only [Matrix.mul_apply, Matrix.transpose_apply]
    rw [Finset.sum_comm (s := univ (α := Fin m)) (t := univ (α := Fin k))]
    refine Finset.sum_congr rfl fun j _ => ?_
    rw [Finset.sum_mul_sum]
    refine Finset.sum_congr rfl fun r _ => Finset.sum_congr rfl fun s _ => ?_
    ring
  simp only [h, Finset.sum_mul]
  symm
  rw [Finset.sum_comm]
  refine Finset.sum_congr rfl fun p _ => ?_
  rw [Finset.sum_comm]
  refine Finset.sum_congr rfl fun r _ => ?_
  rw [Finset.sum_comm]
  refine Finset.sum_congr rfl fun q _ => ?_
  rw [Finset.sum_comm]

/-- **C28**: the routine with half-rotated four-index integrals agrees as well. -/
theorem localOpt_eq (h1 : Fin 2 → Matrix (Fin m) (Fin m) ℂ)
    (L : Fin nx → Matrix (Fin m) (Fin m) ℂ) (G : Fin 2 → Matrix (Fin m) (Fin m) ℂ) (ecore : ℂ)
    (A : Matrix (Fin m) (Fin na) ℂ) (B : Matrix (Fin m) (Fin nb) ℂ)
    (Ga : Matrix (Fin na) (Fin m) ℂ) (Gb : Matrix (Fin nb) (Fin m) ℂ) :
    localOpt h1 G (halfEri A A L) (halfEri B B L) (halfEri A B L) Ga Gb ecore =
      localCholOpt h1 G (halfRotate A L) (halfRotate B L) Ga Gb ecore := by
  have h : (localOpt h1 G (halfEri A A L) (halfEri B B L) (halfEri A B L) Ga Gb ecore).2.2 =
      (localCholOpt h1 G (halfRotate A L) (halfRotate B L) Ga Gb ecore).2.2 := by
    show (1 / 2 : ℂ) * _ + (1 / 2 : ℂ) * _ + _ + -(1 / 2 : ℂ) * _ + -(1 / 2 : ℂ) * _ =
      (1 / 2 : ℂ) * (_ - (_ + _))
    simp only [halfEri_eq, coulomb_half, exchange_half_eri]
    ring
  have e1 : (localOpt h1 G (halfEri A A L) (halfEri B B L) (halfEri A B L) Ga Gb ecore).1 =
      dot2 (h1 0) (G 0) + dot2 (h1 1) (G 1) +
      (localOpt h1 G (halfEri A A L) (halfEri B B L) (halfEri A B L) Ga Gb ecore).2.2 + ecore := rfl
  have e2 : (localCholOpt h1 G (halfRotate A L) (halfRotate B L) Ga Gb ecore).1 =
      dot2 (h1 0) (G 0) + dot2 (h1 1) (G 1) +
      (localCholOpt h1 G (halfRotate A L) (halfRotate B L) Ga Gb ecore).2.2 + ecore := rfl
  refine Prod.ext (by rw [e1, e2, h]) (Prod.ext rfl h)

/-! ### The Hubbard energy -/

/-- Cholesky vectors of the Hubbard interaction: one per site. -/
noncomputable def hubbardChol (U : ℂ) (x : Fin m) : Matrix (Fin m) (Fin m) ℂ :=
  Matrix.single x x (U ^ (1 / 2 : ℂ))

/-- **C28**: the Hubbard energy is the special case. -/
theorem localHubbard_eq (T : Fin 2 → Matrix (Fin m) (Fin m) ℂ) (U : ℂ) (sym : Bool)
    (G : Fin 2 → Matrix (Fin m) (Fin m) ℂ) :
    localHubbard T U sym G = localChol T (hubbardChol U) G 0 := by
  have hU : (U ^ (1 / 2 : ℂ)) * (U ^ (1 / 2 : ℂ)) = U := by
    by_cases h0 : U = 0
    · subst h0; simp
    · rw [← Complex.cpow_add _ _ h0]; norm_num
  have hd : ∀ (x : Fin m) (H : Matrix (Fin m) (Fin m) ℂ),
      dot2 (hubbardChol U x) H = U ^ (1 / 2 : ℂ) * H x x := by
    intro x H
    rw [dot2, Finset.sum_eq_single x, Finset.sum_eq_single x]
    · simp [hubbardChol]
    · intro j _ hj; simp [hubbardChol, Matrix.single_apply, Ne.symm hj]
    · simp
    · intro i _ hi
      refine Finset.sum_eq_zero fun j _ => ?_
      simp [hubbardChol, Matrix.single_apply, Ne.symm hi]
    · simp
  have ht : ∀ (x : Fin m) (H : Matrix (Fin m) (Fin m) ℂ),
      (hubbardChol U x * Hᵀ * hubbardChol U x * Hᵀ).trace = U * (H x x * H x x) := by
    intro x H
    rw [exchange_trace, Finset.sum_eq_single x, Finset.sum_eq_single x, Finset.sum_eq_single x,
      Finset.sum_eq_single x]
    · simp only [hubbardChol, Matrix.single_apply, and_self, if_true]
      rw [hU]; ring
    · intro j _ hj; simp [hubbardChol, Matrix.single_apply, Ne.symm hj]
    · simp
    · intro j _ hj
      exact Finset.sum_eq_zero fun u _ => by simp [hubbardChol, Matrix.single_apply, Ne.symm hj]
    · simp
    · intro j _ hj
      refine Finset.sum_eq_zero fun q _ => Finset.sum_eq_zero fun u _ => ?_
      simp [hubbardChol, Matrix.single_apply, Ne.symm hj]
    · simp
    · intro i _ hi
      refine Finset.sum_eq_zero fun r _ => Finset.sum_eq_zero fun q _ => Finset.sum_eq_zero fun u _ => ?_
      simp [hubbardChol, Matrix.single_apply, Ne.symm hi]
    · simp
  have h : (localHubbard T U sym G).2.2 = (localChol T (hubbardChol U) G 0).2.2 := by
    rw [localChol_form]
    show U * ∑ i, G 0 i i * G 1 i i = _
    rw [twoBodyForm]
    simp only [hd, ht]
    rw [Finset.mul_sum, Finset.mul_sum]
    refine Finset.sum_congr rfl fun x _ => ?_
    linear_combination (-(1 / 2 : ℂ) * (G 0 x x + G 1 x x) ^ 2) * hU
  have e1 : (localHubbard T U sym G).1 =
      dot2 (T 0) (G 0) + dot2 (T 1) (G 1) + (localHubbard T U sym G).2.2 := rfl
  have e2 : (localChol T (hubbardChol U) G 0).1 =
      dot2 (T 0) (G 0) + dot2 (T 1) (G 1) + (localChol T (hubbardChol U) G 0).2.2 + 0 := rfl
  refine Prod.ext (by rw [e1, e2, h, add_zero]) (Prod.ext ?_ h)
  show dot2 (T 0) (G 0) + dot2 (T 1) (G 1) = dot2 (T 0) (G 0) + dot2 (T 1) (G 1) + 0
  rw [add_zero]

/-! ## C71: the local energy is the mixed expectation of the Hamiltonian -/

/-- **C71**: the local energy of the Cholesky routine for the Green's functions of two determinants is
`⟨A|H|B⟩ / ⟨A|B⟩`. -/
theorem localChol_expectation (h1 : Fin 2 → Matrix (Fin m) (Fin m) ℂ)
    (L : Fin nx → Matrix (Fin m) (Fin m) ℂ) (ecore : ℂ) (Au Bu : Matrix (Fin m) (Fin na) ℂ)
    (Ad Bd : Matrix (Fin m) (Fin nb) ℂ) (hu : ovl Au Bu ≠ 0) (hd : ovl Ad Bd ≠ 0) :
    (localChol h1 L ![(Slater.gabMod Au Bu).1, (Slater.gabMod Ad Bd).1] ecore).1 *
      (ovl Au Bu * ovl Ad Bd) = hamil h1 L ecore Au Bu Ad Bd := by
  set G : Fin 2 → Matrix (Fin m) (Fin m) ℂ := ![(Slater.gabMod Au Bu).1, (Slater.gabMod Ad Bd).1]
  have g0 : (G 0)ᵀ = Slater.gab Au Bu := by
    show ((Slater.gabMod Au Bu).1)ᵀ = _
    rw [Slater.gabMod_eq, Matrix.transpose_transpose]
  have g1 : (G 1)ᵀ = Slater.gab Ad Bd := by
    show ((Slater.gabMod Ad Bd).1)ᵀ = _
    rw [Slater.gabMod_eq, Matrix.transpose_transpose]
  have e : (localChol h1 L G ecore).1 =
      dot2 (h1 0) (G 0) + dot2 (h1 1) (G 1) + (localChol h1 L G ecore).2.2 + ecore := rfl
  rw [e, localChol_form, twoBodyForm, hamil, oneBody_eq _ _ _ hu, oneBody_eq _ _ _ hd]
  simp only [oneBody_eq _ _ _ hu, oneBody_eq _ _ _ hd, twoBody_eq _ _ _ _ hu, twoBody_eq _ _ _ _ hd,
    dot2_trace, g0, g1]
  have key : ∀ (a b : ℂ) (f g : Fin nx → ℂ), (∀ x, f x * (a * b) = g x) →
      ((1 / 2 : ℂ) * ∑ x, f x) * (a * b) = (1 / 2 : ℂ) * ∑ x, g x := by
    intro a b f g hfg
    rw [mul_assoc, Finset.sum_mul]
    congr 1
    exact Finset.sum_congr rfl fun x _ => hfg x
  rw [add_mul, add_mul, key (ovl Au Bu) (ovl Ad Bd) _ (fun x =>
    ovl Au Bu * ((L x * Slater.gab Au Bu).trace * (L x * Slater.gab Au Bu).trace -
        (L x * Slater.gab Au Bu * L x * Slater.gab Au Bu).trace) * ovl Ad Bd +
      ovl Au Bu * (ovl Ad Bd * ((L x * Slater.gab Ad Bd).trace * (L x * Slater.gab Ad Bd).trace -
        (L x * Slater.gab Ad Bd * L x * Slater.gab Ad Bd).trace)) +
      2 * (ovl Au Bu * (L x * Slater.gab Au Bu).trace *
        (ovl Ad Bd * (L x * Slater.gab Ad Bd).trace)))
    (fun x => by ring)]
  ring

/-! ## C42 -/

/-- **C42**, plain form: the Hubbard local energy is the expectation of the hopping and of
`U ∑ n↑ n↓`. -/
theorem localHubbard_expectation (T : Fin 2 → Matrix (Fin m) (Fin m) ℂ) (U : ℂ)
    (Au Bu : Matrix (Fin m) (Fin na) ℂ) (Ad Bd : Matrix (Fin m) (Fin nb) ℂ)
    (hu : ovl Au Bu ≠ 0) (hd : ovl Ad Bd ≠ 0) (sym : Bool) :
    (localHubbard T U sym ![(Slater.gabMod Au Bu).1, (Slater.gabMod Ad Bd).1]).1 *
      (ovl Au Bu * ovl Ad Bd) =
    oneBody (T 0) Au Bu * ovl Ad Bd + ovl Au Bu * oneBody (T 1) Ad Bd +
      U * ∑ i, oneBody (Matrix.single i i 1) Au Bu * oneBody (Matrix.single i i 1) Ad Bd := by
  have hs : ∀ (i : Fin m) (X : Matrix (Fin m) (Fin m) ℂ),
      (Matrix.single i i (1 : ℂ) * X).trace = X i i := by
    intro i X
    rw [Matrix.trace, Finset.sum_eq_single i]
    · simp [Matrix.single_mul_apply_same]
    · intro j _ hj
      rw [Matrix.diag_apply, Matrix.single_mul_apply_of_ne _ _ _ _ _ hj]
    · simp
  simp only [oneBody_eq _ _ _ hu, oneBody_eq _ _ _ hd, hs]
  show (dot2 (T 0) (Slater.gabMod Au Bu).1 + dot2 (T 1) (Slater.gabMod Ad Bd).1 +
    U * ∑ i, (Slater.gabMod Au Bu).1 i i * (Slater.gabMod Ad Bd).1 i i) * _ = _
  rw [dot2_trace, dot2_trace, Slater.gabMod_eq, Slater.gabMod_eq, Matrix.transpose_transpose,
    Matrix.transpose_transpose]
  simp only [Matrix.transpose_apply]
  have : U * ∑ i, ovl Au Bu * Slater.gab Au Bu i i * (ovl Ad Bd * Slater.gab Ad Bd i i) =
      (U * ∑ i, Slater.gab Au Bu i i * Slater.gab Ad Bd i i) * (ovl Au Bu * ovl Ad Bd) := by
    rw [mul_assoc, Finset.sum_mul]
    congr 1
    exact Finset.sum_congr rfl fun i _ => by ring
  rw [this]
  ring

/-- **C42 fails** for the symmetric form: the term `-U/2 (N↑ + N↓)` is missing, that is, the result is
the same with and without it, and differs from the expectation of the symmetric Hamiltonian by
`U (na + nb) / 2`. -/
theorem localHubbard_symmetric_missing (T : Fin 2 → Matrix (Fin m) (Fin m) ℂ) (U : ℂ)
    (Au Bu : Matrix (Fin m) (Fin na) ℂ) (Ad Bd : Matrix (Fin m) (Fin nb) ℂ)
    (hu : ovl Au Bu ≠ 0) (hd : ovl Ad Bd ≠ 0) :
    (localHubbard T U true ![(Slater.gabMod Au Bu).1, (Slater.gabMod Ad Bd).1]).1 *
      (ovl Au Bu * ovl Ad Bd) -
    (oneBody (T 0 - (U / 2) • 1) Au Bu * ovl Ad Bd + ovl Au Bu * oneBody (T 1 - (U / 2) • 1) Ad Bd +
      U * ∑ i, oneBody (Matrix.single i i 1) Au Bu * oneBody (Matrix.single i i 1) Ad Bd) =
    U / 2 * (na + nb) * (ovl Au Bu * ovl Ad Bd) := by
  rw [localHubbard_expectation T U Au Bu Ad Bd hu hd, oneBody_eq _ _ _ hu, oneBody_eq _ _ _ hd,
    oneBody_eq _ _ _ hu, oneBody_eq _ _ _ hd, Matrix.sub_mul, Matrix.sub_mul, Matrix.trace_sub,
    Matrix.trace_sub, Matrix.smul_mul, Matrix.smul_mul, Matrix.one_mul, Matrix.one_mul,
    Matrix.trace_smul, Matrix.trace_smul, (Slater.gab_facts Au Bu hu).2.1,
    (Slater.gab_facts Ad Bd hd).2.1, smul_eq_mul, smul_eq_mul]
  ring

/-- So for a nonzero interaction and at least one electron the two always differ. -/
theorem localHubbard_symmetric_wrong (T : Fin 2 → Matrix (Fin m) (Fin m) ℂ) (U : ℂ) (hU : U ≠ 0)
    (hn : 0 < na + nb) (Au Bu : Matrix (Fin m) (Fin na) ℂ) (Ad Bd : Matrix (Fin m) (Fin nb) ℂ)
    (hu : ovl Au Bu ≠ 0) (hd : ovl Ad Bd ≠ 0) :
    (localHubbard T U true ![(Slater.gabMod Au Bu).1, (Slater.gabMod Ad Bd).1]).1 *
      (ovl Au Bu * ovl Ad Bd) ≠
    oneBody (T 0 - (U / 2) • 1) Au Bu * ovl Ad Bd + ovl Au Bu * oneBody (T 1 - (U / 2) • 1) Ad Bd +
      U * ∑ i, oneBody (Matrix.single i i 1) Au Bu * oneBody (Matrix.single i i 1) Ad Bd := by
  intro h
  have := localHubbard_symmetric_missing T U Au Bu Ad Bd hu hd
  rw [h, sub_self] at this
  have h2 : (na : ℂ) + nb ≠ 0 := by exact_mod_cast hn.ne'
  have h3 : U / 2 * (na + nb) * (ovl Au Bu * ovl Ad Bd) ≠ 0 :=
    mul_ne_zero (mul_ne_zero (div_ne_zero hU two_ne_zero) h2) (mul_ne_zero hu hd)
  exact h3 this.symm

/-- The hypotheses are met, for instance by equal orthonormal determinants. -/
example : ovl (1 : Matrix (Fin 2) (Fin 2) ℂ) 1 ≠ 0 := by simp [ovl]

end Verif.Energy
