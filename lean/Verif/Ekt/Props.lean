import Verif.Ekt.Model

/-!
# The Fock matrices are expectation values of commutators
-/

namespace Verif.Ekt

open Matrix
open Verif.LangFirsov (amp hop)
open Verif.Energy (dot2 ovl oneBody twoBody oneBody_eq twoBody_eq)

variable {n k l nx : Nat}

abbrev Integrals (n : Nat) := Fin n → Fin n → Fin n → Fin n → ℂ

theorem hop_right (S : Matrix (Fin n) (Fin n) ℂ) (f : Fun n k) (c : ℂ) (x : Fin k → Fin n) :
    hop S (fun y => f y * c) x = hop S f x * c := by
  simp only [hop, Finset.sum_mul, mul_assoc]

theorem hop_left (S : Matrix (Fin n) (Fin n) ℂ) (f : Fun n k) (c : ℂ) (x : Fin k → Fin n) :
    hop S (fun y => c * f y) x = c * hop S f x := by
  simp only [mul_comm c, hop_right]

theorem pairs_right (v : Integrals n) (f : Fun n k) (c : ℂ) (x : Fin k → Fin n) :
    pairs v (fun y => f y * c) x = pairs v f x * c := by
  simp only [pairs, Finset.sum_mul, ite_mul, zero_mul, mul_assoc]

theorem pairs_left (v : Integrals n) (f : Fun n k) (c : ℂ) (x : Fin k → Fin n) :
    pairs v (fun y => c * f y) x = c * pairs v f x := by
  simp only [mul_comm c, pairs_right]

theorem cre_right (q : Fin n) (f : Fun n k) (c : ℂ) (x : Fin (k + 1) → Fin n) : cre q (fun y => f y * c) x = cre q f x * c := by
  simp only [cre, Finset.sum_mul, ite_mul, zero_mul, mul_assoc]

theorem cre_add (q : Fin n) (f g : Fun n k) (x : Fin (k + 1) → Fin n) : cre q (fun y => f y + g y) x = cre q f x + cre q g x := by
  simp only [cre, ← Finset.sum_add_distrib]
  refine Finset.sum_congr rfl fun a _ => ?_
  split_ifs
  · ring
  · ring

theorem cre_finsetSum {ι : Type*} (s : Finset ι) (q : Fin n) (f : ι → Fun n k) (x : Fin (k + 1) → Fin n) :
    cre q (fun y => ∑ i ∈ s, f i y) x = ∑ i ∈ s, cre q (f i) x := by
  simp only [cre]
  rw [Finset.sum_comm]
  refine Finset.sum_congr rfl fun a _ => ?_
  split_ifs
  · rw [Finset.mul_sum]
  · simp

/-- Two-electron operator between the spins on a product. -/
theorem across_prod (v : Integrals n) (f : Fun n k) (g : Fun n l) (x : Fin k → Fin n) (z : Fin l → Fin n) :
    across v (fun x z => f x * g z) x z = ∑ b, ∑ j, hop (Matrix.of fun c i => v c i (z b) j) f x * g (Function.update z b j) := by
  simp only [across, hop, Finset.sum_mul, Matrix.of_apply]
  rw [Finset.sum_comm]
  refine Finset.sum_congr rfl fun b _ => ?_
  rw [Finset.sum_congr rfl fun a _ => Finset.sum_comm, Finset.sum_comm]
  exact Finset.sum_congr rfl fun j _ => Finset.sum_congr rfl fun a _ => Finset.sum_congr rfl fun i _ => by ring

theorem ham_prod (h : Matrix (Fin n) (Fin n) ℂ) (v : Integrals n) (f : Fun n k) (g : Fun n l) (x : Fin k → Fin n) (z : Fin l → Fin n) :
    ham h v (fun x z => f x * g z) x z = hop h f x * g z + f x * hop h g z + 1 / 2 * (pairs v f x * g z + f x * pairs v g z) +
      ∑ b, ∑ j, hop (Matrix.of fun c i => v c i (z b) j) f x * g (Function.update z b j) := by
  rw [ham, across_prod, hop_right, hop_left, pairs_right, pairs_left]

/-- The spins have the same role. -/
theorem ham_swap (h : Matrix (Fin n) (Fin n) ℂ) (v : Integrals n) (hv : ∀ i k j l, v i k j l = v j l i k) (Ψ : State n k l)
    (x : Fin k → Fin n) (z : Fin l → Fin n) : ham h v (fun z x => Ψ x z) z x = ham h v Ψ x z := by
  have ha : across v (fun z x => Ψ x z) z x = across v Ψ x z := by
    simp only [across]
    rw [Finset.sum_comm]
    refine Finset.sum_congr rfl fun a _ => Finset.sum_congr rfl fun b _ => ?_
    rw [Finset.sum_comm]
    exact Finset.sum_congr rfl fun i _ => Finset.sum_congr rfl fun j _ => by rw [hv]
  rw [ham, ham, ha]
  ring

theorem ham_ann (h : Matrix (Fin n) (Fin n) ℂ) (v : Integrals n) (hv : ∀ i k j l, v i k j l = v j l i k) (f : Fun n (k + 1))
    (g : Fun n l) (q : Fin n) (x : Fin k → Fin n) (z : Fin l → Fin n) :
    ham h v (fun x z => ann q f x * g z) x z - ham h v (fun x z => f x * g z) (Fin.cons q x) z =
      -(∑ j, h q j * ann j f x * g z + ∑ i, hop (second v q i) (ann i f) x * g z + ∑ i, ann i f x * hop (second v q i) g z) := by
  rw [ham_prod, ham_prod]
  have h1 := hop_ann h q f x
  have h2 := pairs_ann v hv q f x
  have h3 : ∑ b, ∑ j, hop (Matrix.of fun c i => v c i (z b) j) (ann q f) x * g (Function.update z b j) -
      ∑ b, ∑ j, hop (Matrix.of fun c i => v c i (z b) j) f (Fin.cons q x) * g (Function.update z b j) =
      -∑ i, ann i f x * hop (second v q i) g z := by
    simp only [← Finset.sum_sub_distrib, ← sub_mul]
    have : ∀ b j, hop (Matrix.of fun c i => v c i (z b) j) (ann q f) x - hop (Matrix.of fun c i => v c i (z b) j) f (Fin.cons q x) =
        -∑ i, v q i (z b) j * ann i f x := fun b j => hop_ann _ q f x
    simp only [this]
    simp only [hop, Finset.mul_sum, Finset.sum_mul, neg_mul, Finset.sum_neg_distrib]
    rw [Finset.sum_congr rfl fun b _ => Finset.sum_comm, Finset.sum_comm]
    congr 1
    exact Finset.sum_congr rfl fun i _ => Finset.sum_congr rfl fun b _ => Finset.sum_congr rfl fun j _ => by
      rw [second, Matrix.of_apply]; ring
  simp only [← Finset.sum_mul]
  rw [show ann q (hop h f) x = hop h f (Fin.cons q x) from rfl] at h1
  rw [show ann q (pairs v f) x = pairs v f (Fin.cons q x) from rfl] at h2
  rw [show f (Fin.cons q x) = ann q f x from rfl]
  linear_combination g z * h1 + 1 / 2 * g z * h2 + h3

theorem ham_cre (h : Matrix (Fin n) (Fin n) ℂ) (v : Integrals n) (hv : ∀ i k j l, v i k j l = v j l i k) (f : Fun n k)
    (g : Fun n l) (q : Fin n) (x : Fin (k + 1) → Fin n) (z : Fin l → Fin n) :
    ham h v (fun x z => cre q f x * g z) x z - cre q (fun y => ham h v (fun x z => f x * g z) y z) x =
      ∑ i, h i q * cre i f x * g z + ∑ i, cre i (hop (second v i q) f) x * g z + ∑ i, cre i f x * hop (second v i q) g z := by
  simp only [ham_prod]
  have h1 := hop_cre h q f x
  have h2 := pairs_cre v hv q f x
  have h3 : ∑ b, ∑ j, hop (Matrix.of fun c i => v c i (z b) j) (cre q f) x * g (Function.update z b j) -
      ∑ b, ∑ j, cre q (hop (Matrix.of fun c i => v c i (z b) j) f) x * g (Function.update z b j) =
      ∑ i, cre i f x * hop (second v i q) g z := by
    simp only [← Finset.sum_sub_distrib, ← sub_mul]
    have : ∀ b j, hop (Matrix.of fun c i => v c i (z b) j) (cre q f) x - cre q (hop (Matrix.of fun c i => v c i (z b) j) f) x =
        ∑ i, v i q (z b) j * cre i f x := fun b j => hop_cre _ q f x
    simp only [this]
    simp only [hop, Finset.mul_sum, Finset.sum_mul]
    rw [Finset.sum_congr rfl fun b _ => Finset.sum_comm, Finset.sum_comm]
    exact Finset.sum_congr rfl fun i _ => Finset.sum_congr rfl fun b _ => Finset.sum_congr rfl fun j _ => by
      rw [second, Matrix.of_apply]; ring
  have h4 : cre q (fun y => hop h f y * g z + f y * hop h g z + 1 / 2 * (pairs v f y * g z + f y * pairs v g z) +
      ∑ b, ∑ j, hop (Matrix.of fun c i => v c i (z b) j) f y * g (Function.update z b j)) x =
      cre q (hop h f) x * g z + cre q f x * hop h g z + 1 / 2 * (cre q (pairs v f) x * g z + cre q f x * pairs v g z) +
      ∑ b, ∑ j, cre q (hop (Matrix.of fun c i => v c i (z b) j) f) x * g (Function.update z b j) := by
    have e : ∀ y, 1 / 2 * (pairs v f y * g z + f y * pairs v g z) = pairs v f y * (1 / 2 * g z) + f y * (1 / 2 * pairs v g z) :=
      fun y => by ring
    simp only [e, cre_add, cre_finsetSum, cre_right]
    ring
  rw [h4]
  simp only [← Finset.sum_mul]
  linear_combination g z * h1 + 1 / 2 * g z * h2 + h3

/-! ## Expectation values -/

theorem trace_single (p j : Fin n) (G : Matrix (Fin n) (Fin n) ℂ) : (Matrix.single p j 1 * G).trace = G j p := by
  rw [Matrix.trace_single_mul]
  simp

theorem trace_dot2 (S G : Matrix (Fin n) (Fin n) ℂ) : (S * G).trace = dot2 S Gᵀ := rfl

theorem sums_prod (f f' : Fun n k) (g g' : Fun n l) :
    ∑ x, ∑ z, star (f x * g z) * (f' x * g' z) = (∑ x, star (f x) * f' x) * ∑ z, star (g z) * g' z := by
  rw [Finset.sum_mul_sum]
  refine Finset.sum_congr rfl fun x _ => Finset.sum_congr rfl fun z _ => ?_
  rw [star_mul']
  ring

theorem sums_family (f : Fun n k) (g : Fun n l) (c : Fin n → ℂ) (F : Fin n → Fun n k) (G : Fin n → Fun n l) :
    ∑ x, ∑ z, star (f x * g z) * ∑ i, c i * (F i x * G i z) = ∑ i, c i * ((∑ x, star (f x) * F i x) * ∑ z, star (g z) * G i z) := by
  have h : ∀ i, (∑ x, star (f x) * F i x) * ∑ z, star (g z) * G i z = ∑ x, ∑ z, star (f x * g z) * (F i x * G i z) :=
    fun i => (sums_prod f (F i) g (G i)).symm
  simp only [h, Finset.mul_sum]
  rw [Finset.sum_congr rfl fun x _ => Finset.sum_comm, Finset.sum_comm]
  exact Finset.sum_congr rfl fun i _ => Finset.sum_congr rfl fun x _ => Finset.sum_congr rfl fun z _ => by ring

/-- The density matrix between two determinants: `P i j` belongs to `c_i^+ c_j`. -/
noncomputable def density (A B : Matrix (Fin n) (Fin k) ℂ) : Matrix (Fin n) (Fin n) ℂ := (Slater.gab A B)ᵀ

theorem one_element (S : Matrix (Fin n) (Fin n) ℂ) (A B : Matrix (Fin n) (Fin k) ℂ) (h : ovl A B ≠ 0) :
    ∑ x, star (amp A x) * hop S (amp B) x = k.factorial * (ovl A B * dot2 S (density A B)) := by
  rw [LangFirsov.hop_sum, oneBody_eq S A B h]
  rfl

theorem dot2_single (p j : Fin n) (P : Matrix (Fin n) (Fin n) ℂ) : dot2 (Matrix.single p j 1) P = P p j := by
  have := trace_single p j Pᵀ
  rw [trace_dot2] at this
  simpa using this

/-- Contraction with the exchanged orbitals. -/
noncomputable def swapped (S P : Matrix (Fin n) (Fin n) ℂ) (p i : Fin n) : ℂ := ∑ j, ∑ l, S j l * (P p l * P j i)

theorem two_element (p i : Fin n) (S : Matrix (Fin n) (Fin n) ℂ) (A B : Matrix (Fin n) (Fin k) ℂ) (h : ovl A B ≠ 0) :
    twoBody (Matrix.single p i 1) S A B =
      ovl A B * (density A B p i * dot2 S (density A B) - swapped S (density A B) p i) := by
  rw [twoBody_eq _ _ _ _ h, trace_single]
  congr 2
  rw [Matrix.mul_assoc, Matrix.mul_assoc, trace_single, Matrix.mul_apply]
  simp only [Matrix.mul_apply, Finset.mul_sum, swapped, density, Matrix.transpose_apply]
  exact Finset.sum_congr rfl fun a _ => Finset.sum_congr rfl fun b _ => by ring

theorem single_element (p i : Fin n) (S : Matrix (Fin n) (Fin n) ℂ) (P : Matrix (Fin n) (Fin n) ℂ) :
    dot2 (S * Matrix.single p i 1) P = ∑ a, S a p * P a i := by
  simp only [dot2, Matrix.mul_apply, Matrix.single_apply, Finset.sum_mul]
  refine Finset.sum_congr rfl fun a _ => ?_
  rw [Finset.sum_eq_single i]
  · rw [Finset.sum_eq_single p]
    · simp
    · intro b _ hb
      simp [Ne.symm hb]
    · simp
  · intro b _ hb
    refine Finset.sum_eq_zero fun c _ => ?_
    simp [Ne.symm hb]
  · simp

theorem element_single (p i : Fin n) (S : Matrix (Fin n) (Fin n) ℂ) (P : Matrix (Fin n) (Fin n) ℂ) :
    dot2 (Matrix.single i p 1 * S) P = ∑ l, S p l * P i l := by
  simp only [dot2, Matrix.mul_apply, Matrix.single_apply, Finset.sum_mul]
  rw [Finset.sum_eq_single i]
  · refine Finset.sum_congr rfl fun b _ => ?_
    rw [Finset.sum_eq_single p]
    · simp
    · intro c _ hc
      simp [Ne.symm hc]
    · simp
  · intro a _ ha
    refine Finset.sum_eq_zero fun b _ => Finset.sum_eq_zero fun c _ => ?_
    simp [Ne.symm ha]
  · simp

/-- Removing two electrons in the same orbital or not, one-body. -/
theorem ann_sum (p j : Fin n) (A B : Matrix (Fin n) (Fin (k + 1)) ℂ) (h : ovl A B ≠ 0) :
    ∑ x, star (ann p (amp A) x) * ann j (amp B) x = k.factorial * (ovl A B * density A B p j) := by
  have h1 := cre_adjoint p (amp_alternating A) (ann j (amp B))
  simp only [cre_ann p j (amp_alternating B)] at h1
  rw [one_element _ _ _ h, dot2_single, Nat.factorial_succ] at h1
  have hk : ((k + 1 : ℕ) : ℂ) ≠ 0 := Nat.cast_ne_zero.2 (Nat.succ_ne_zero k)
  apply mul_left_cancel₀ hk
  rw [← h1]
  push_cast
  ring

theorem ann_hop_sum (p i : Fin n) (S : Matrix (Fin n) (Fin n) ℂ) (A B : Matrix (Fin n) (Fin (k + 1)) ℂ) (h : ovl A B ≠ 0) :
    ∑ x, star (ann p (amp A) x) * hop S (ann i (amp B)) x =
      k.factorial * (ovl A B * (density A B p i * dot2 S (density A B) - swapped S (density A B) p i)) := by
  have h1 := cre_adjoint p (amp_alternating A) (hop S (ann i (amp B)))
  have h2 : ∀ y, cre p (hop S (ann i (amp B))) y = hop S (hop (Matrix.single p i 1) (amp B)) y -
      ∑ a, S a p * hop (Matrix.single a i 1) (amp B) y := by
    intro y
    have h3 := hop_cre S p (ann i (amp B)) y
    have h4 : cre p (ann i (amp B)) = hop (Matrix.single p i 1) (amp B) := funext (cre_ann p i (amp_alternating B))
    simp only [cre_ann _ i (amp_alternating B)] at h3
    rw [h4] at h3
    linear_combination -h3
  have h5 : ∑ y, star (amp A y) * ∑ a, S a p * hop (Matrix.single a i 1) (amp B) y =
      (k + 1).factorial * (ovl A B * ∑ a, S a p * density A B a i) := by
    simp only [Finset.mul_sum]
    rw [Finset.sum_comm]
    refine Finset.sum_congr rfl fun a _ => ?_
    have := one_element (Matrix.single a i 1) A B h
    rw [dot2_single] at this
    calc _ = S a p * ∑ y, star (amp A y) * hop (Matrix.single a i 1) (amp B) y := by
            rw [Finset.mul_sum]
            exact Finset.sum_congr rfl fun y _ => by ring
      _ = _ := by rw [this]; ring
  simp only [h2, mul_sub, Finset.sum_sub_distrib] at h1
  rw [h5, hop_hop_sum, two_element p i S A B h, oneBody_eq _ _ _ h, trace_dot2, Nat.factorial_succ] at h1
  have h6 : dot2 (S * Matrix.single p i 1) (Slater.gab A B)ᵀ = ∑ a, S a p * density A B a i := single_element p i S _
  rw [h6] at h1
  have hk : ((k + 1 : ℕ) : ℂ) ≠ 0 := Nat.cast_ne_zero.2 (Nat.succ_ne_zero k)
  apply mul_left_cancel₀ hk
  rw [← h1]
  push_cast
  ring

/-- Adding an electron to a determinant gives the determinant with one more orbital. -/
theorem cre_amp (q : Fin n) (B : Matrix (Fin n) (Fin k) ℂ) (x : Fin (k + 1) → Fin n) :
    cre q (amp B) x = amp (Matrix.of fun r => (Fin.cons (if r = q then 1 else 0) (B r) : Fin (k + 1) → ℂ)) x := by
  rw [amp, Matrix.det_succ_column_zero, cre]
  refine Finset.sum_congr rfl fun a _ => ?_
  have : (((Matrix.of fun r => (Fin.cons (if r = q then 1 else 0) (B r) : Fin (k + 1) → ℂ)).submatrix x id).submatrix a.succAbove
      Fin.succ).det = amp B (a.removeNth x) := rfl
  rw [this]
  simp only [Matrix.submatrix_apply, id, Matrix.of_apply, Fin.cons_zero]
  split_ifs
  · ring
  · ring

theorem cre_alternating (q : Fin n) (B : Matrix (Fin n) (Fin k) ℂ) : Alternating (cre q (amp B)) := by
  rw [show cre q (amp B) = _ from funext (cre_amp q B)]
  exact amp_alternating _

theorem cre_hop_alternating (q : Fin n) (S : Matrix (Fin n) (Fin n) ℂ) (B : Matrix (Fin n) (Fin k) ℂ) :
    Alternating (cre q (hop S (amp B))) := by
  have h : hop S (amp B) = fun x => ∑ j, amp (B.updateCol j (S *ᵥ B.col j)) x := funext fun x => LangFirsov.hop_eq S B x
  intro x τ
  rw [h, cre_finsetSum, cre_finsetSum, Finset.mul_sum]
  exact Finset.sum_congr rfl fun j _ => cre_alternating q _ x τ

theorem two_comm (S T : Matrix (Fin n) (Fin n) ℂ) (A B : Matrix (Fin n) (Fin k) ℂ) (h : ovl A B ≠ 0) :
    twoBody S T A B = twoBody T S A B := by
  rw [twoBody_eq _ _ _ _ h, twoBody_eq _ _ _ _ h, mul_comm (S * Slater.gab A B).trace, Matrix.mul_assoc (S * Slater.gab A B),
    Matrix.trace_mul_comm (S * Slater.gab A B), Matrix.mul_assoc (T * Slater.gab A B)]

theorem cre_hop_sum (p i : Fin n) (S : Matrix (Fin n) (Fin n) ℂ) (A B : Matrix (Fin n) (Fin k) ℂ) (h : ovl A B ≠ 0) :
    ∑ x, star (cre p (amp A) x) * cre i (hop S (amp B)) x =
      (k + 1).factorial * (ovl A B * ((if p = i then 1 else 0) * dot2 S (density A B) -
        (density A B i p * dot2 S (density A B) - swapped S (density A B) i p) - ∑ l, S p l * density A B i l)) := by
  rw [ann_adjoint p (amp A) (cre_hop_alternating i S B)]
  simp only [ann_cre p i (hop_alternating S (amp_alternating B)), mul_sub, Finset.sum_sub_distrib]
  rw [hop_hop_sum, two_comm _ _ _ _ h, two_element i p S A B h, oneBody_eq _ _ _ h, trace_dot2, Nat.factorial_succ]
  have h6 : dot2 (Matrix.single i p 1 * S) (Slater.gab A B)ᵀ = ∑ l, S p l * density A B i l := element_single p i S _
  have : ∑ x, star (amp A x) * (if p = i then hop S (amp B) x else 0) =
      (if p = i then 1 else 0) * (k.factorial * (ovl A B * dot2 S (density A B))) := by
    split_ifs
    · rw [one_element _ _ _ h, one_mul]
    · simp
  rw [h6, this]
  push_cast
  ring

theorem cre_sum (p i : Fin n) (A B : Matrix (Fin n) (Fin k) ℂ) (h : ovl A B ≠ 0) :
    ∑ x, star (cre p (amp A) x) * cre i (amp B) x =
      (k + 1).factorial * (ovl A B * ((if p = i then 1 else 0) - density A B i p)) := by
  rw [ann_adjoint p (amp A) (cre_alternating i B)]
  simp only [ann_cre p i (amp_alternating B), mul_sub, Finset.sum_sub_distrib]
  rw [one_element _ _ _ h, dot2_single, Nat.factorial_succ]
  have : ∑ x, star (amp A x) * (if p = i then amp B x else 0) = (if p = i then 1 else 0) * (k.factorial * ovl A B) := by
    split_ifs
    · rw [LangFirsov.amp_sum, one_mul]
    · simp
  rw [this]
  push_cast
  ring

/-- The matrix for removing an electron in terms of the density matrices. -/
noncomputable def holeForm (h : Matrix (Fin n) (Fin n) ℂ) (v : Integrals n) (P P' : Matrix (Fin n) (Fin n) ℂ) (p q : Fin n) : ℂ :=
  -(∑ j, h q j * P p j) - ∑ i, (P p i * (dot2 (second v q i) P + dot2 (second v q i) P') - swapped (second v q i) P p i)

/-- The matrix for adding an electron in terms of the density matrices. -/
noncomputable def particleForm (h : Matrix (Fin n) (Fin n) ℂ) (v : Integrals n) (P P' : Matrix (Fin n) (Fin n) ℂ) (p q : Fin n) : ℂ :=
  ∑ i, h i q * ((if p = i then 1 else 0) - P i p) + ∑ i, (((if p = i then 1 else 0) - P i p) *
    (dot2 (second v i q) P + dot2 (second v i q) P') + swapped (second v i q) P i p - ∑ l, second v i q p l * P i l)

theorem braket_dets (A B : Matrix (Fin n) (Fin k) ℂ) (A' B' : Matrix (Fin n) (Fin l) ℂ) :
    braket (dets A A') (dets B B') = ovl A B * ovl A' B' := by
  rw [braket]
  simp only [dets]
  rw [sums_prod, LangFirsov.amp_sum, LangFirsov.amp_sum]
  have h1 : (k.factorial : ℂ) ≠ 0 := Nat.cast_ne_zero.2 k.factorial_ne_zero
  have h2 : (l.factorial : ℂ) ≠ 0 := Nat.cast_ne_zero.2 l.factorial_ne_zero
  field_simp

/-- Expectation value of removing an electron. -/
theorem hole_eq (h : Matrix (Fin n) (Fin n) ℂ) (v : Integrals n) (hv : ∀ i k j l, v i k j l = v j l i k)
    (A B : Matrix (Fin n) (Fin k) ℂ) (A' B' : Matrix (Fin n) (Fin l) ℂ) (hA : ovl A B ≠ 0) (hA' : ovl A' B' ≠ 0) (p q : Fin n) :
    hole h v (dets A A') (dets B B') p q = holeForm h v (density A B) (density A' B') p q := by
  rw [hole, Matrix.of_apply, braket_dets]
  cases k with
  | zero =>
    have hz : density A B = 0 := by
      ext i j
      simp [density, Slater.gab, Matrix.mul_apply]
    rw [hz]
    simp [holeForm, braket, leave, swapped]
  | succ k =>
    have h1 : (k.factorial : ℂ) ≠ 0 := Nat.cast_ne_zero.2 k.factorial_ne_zero
    have h2 : (l.factorial : ℂ) ≠ 0 := Nat.cast_ne_zero.2 l.factorial_ne_zero
    rw [div_eq_iff (mul_ne_zero hA hA')]
    change (∑ x : Fin k → Fin n, ∑ z, star (ann p (amp A) x * amp A' z) *
      (ham h v (fun x z => ann q (amp B) x * amp B' z) x z - ham h v (fun x z => amp B x * amp B' z) (Fin.cons q x) z)) /
      (k.factorial * l.factorial : ℂ) = _
    rw [div_eq_iff (mul_ne_zero h1 h2)]
    have e : ∀ (x : Fin k → Fin n) z,
        ham h v (fun x z => ann q (amp B) x * amp B' z) x z - ham h v (fun x z => amp B x * amp B' z) (Fin.cons q x) z =
        (∑ j, -h q j * (ann j (amp B) x * amp B' z)) + (∑ i, (-1 : ℂ) * (hop (second v q i) (ann i (amp B)) x * amp B' z)) +
        ∑ i, (-1 : ℂ) * (ann i (amp B) x * hop (second v q i) (amp B') z) := by
      intro x z
      rw [ham_ann h v hv]
      simp only [neg_mul, one_mul, Finset.sum_neg_distrib, mul_assoc]
      ring
    simp only [e, mul_add, Finset.sum_add_distrib]
    rw [sums_family _ _ _ (fun j => ann j (amp B)) fun _ => amp B', sums_family _ _ (fun _ => -1) (fun i => hop (second v q i) (ann i (amp B))) fun _ => amp B',
      sums_family _ _ (fun _ => -1) (fun i => ann i (amp B)) fun i => hop (second v q i) (amp B')]
    simp only [ann_sum p _ A B hA, ann_hop_sum p _ _ A B hA, LangFirsov.amp_sum, one_element _ _ _ hA', holeForm]
    rw [← Finset.sum_add_distrib, ← Finset.sum_add_distrib, ← Finset.sum_neg_distrib, ← Finset.sum_sub_distrib]
    simp only [Finset.sum_mul]
    refine Finset.sum_congr rfl fun i _ => ?_
    ring

/-- Expectation value of adding an electron. -/
theorem particle_eq (h : Matrix (Fin n) (Fin n) ℂ) (v : Integrals n) (hv : ∀ i k j l, v i k j l = v j l i k)
    (A B : Matrix (Fin n) (Fin k) ℂ) (A' B' : Matrix (Fin n) (Fin l) ℂ) (hA : ovl A B ≠ 0) (hA' : ovl A' B' ≠ 0) (p q : Fin n) :
    particle h v (dets A A') (dets B B') p q = particleForm h v (density A B) (density A' B') p q := by
  rw [particle, Matrix.of_apply, braket_dets]
  have h1 : ((k + 1).factorial : ℂ) ≠ 0 := Nat.cast_ne_zero.2 (k + 1).factorial_ne_zero
  have h2 : (l.factorial : ℂ) ≠ 0 := Nat.cast_ne_zero.2 l.factorial_ne_zero
  rw [div_eq_iff (mul_ne_zero hA hA'), braket, div_eq_iff (mul_ne_zero h1 h2)]
  have e0 : ∀ (r : Fin n) (C : Matrix (Fin n) (Fin k) ℂ) (C' : Matrix (Fin n) (Fin l) ℂ),
      join r (dets C C') = fun x z => cre r (amp C) x * amp C' z := by
    intro r C C'
    funext x z
    exact cre_right r (amp C) (amp C' z) x
  have e : ∀ (x : Fin (k + 1) → Fin n) z,
      ham h v (join q (dets B B')) x z - join q (ham h v (dets B B')) x z =
      (∑ i, h i q * (cre i (amp B) x * amp B' z)) + (∑ i, (1 : ℂ) * (cre i (hop (second v i q) (amp B)) x * amp B' z)) +
      ∑ i, (1 : ℂ) * (cre i (amp B) x * hop (second v i q) (amp B') z) := by
    intro x z
    rw [e0]
    simp only [one_mul, ← mul_assoc]
    exact ham_cre h v hv (amp B) (amp B') q x z
  simp only [e, mul_add, Finset.sum_add_distrib]
  rw [e0]
  rw [sums_family _ _ _ (fun j => cre j (amp B)) fun _ => amp B', sums_family _ _ (fun _ => 1) (fun i => cre i (hop (second v i q) (amp B))) fun _ => amp B',
    sums_family _ _ (fun _ => 1) (fun i => cre i (amp B)) fun i => hop (second v i q) (amp B')]
  simp only [cre_sum p _ A B hA, cre_hop_sum p _ _ A B hA, LangFirsov.amp_sum, one_element _ _ _ hA', particleForm]
  rw [add_mul, add_mul, ← Finset.sum_add_distrib, ← Finset.sum_add_distrib]
  simp only [Finset.sum_mul]
  rw [← Finset.sum_add_distrib]
  refine Finset.sum_congr rfl fun i _ => ?_
  ring

end Verif.Ekt
