import Verif.LocalOpts.Model
import Verif.Energy.Props
import Verif.Setup.Props

/-!
# Which options give an energy, and that it is the full one
-/

namespace Verif.LocalOpts

open Matrix Finset Energy

variable {M na nb : Nat}

/-! ### Layout of the stored arrays -/

private theorem mulAddMod {a b c : Nat} (h : c < b) : (a * b + c) % b = c := by
  rw [Nat.add_comm, Nat.add_mul_mod_self_right, Nat.mod_eq_of_lt h]

/-- `reshape` undoes `ravel`. -/
theorem reshape4_ravel4 (M l : Nat) (v : Nat → Nat → Nat → Nat → ℂ) (i p j q : Nat) (hp : p < M)
    (hj : j < l) (hq : q < M) : reshape4 M l (ravel4 M l v) i p j q = v i p j q := by
  have hM : 0 < M := by omega
  have hl : 0 < l := by omega
  have h1 : (((i * M + p) * l + j) * M + q) % M = q := by
    rw [mulAddMod hq]
  have h2 : (((i * M + p) * l + j) * M + q) / M = (i * M + p) * l + j := by
    rw [Nat.add_comm, Nat.add_mul_div_right _ _ hM, Nat.div_eq_of_lt hq, Nat.zero_add]
  have h3 : ((i * M + p) * l + j) / l = i * M + p := by
    rw [Nat.add_comm, Nat.add_mul_div_right _ _ hl, Nat.div_eq_of_lt hj, Nat.zero_add]
  have h4 : (i * M + p) / M = i := by
    rw [Nat.add_comm, Nat.add_mul_div_right _ _ hM, Nat.div_eq_of_lt hp, Nat.zero_add]
  have e1 : (((i * M + p) * l + j) * M + q) / (l * M) = i * M + p := by
    rw [Nat.mul_comm l M, ← Nat.div_div_eq_div_mul, h2, h3]
  have e2 : (((i * M + p) * l + j) * M + q) / (M * (l * M)) = i := by
    rw [Nat.mul_comm M (l * M), ← Nat.div_div_eq_div_mul, e1, h4]
  have h5 : (i * M + p) % M = p := by rw [mulAddMod hp]
  have h6 : ((i * M + p) * l + j) % l = j := by rw [mulAddMod hj]
  simp only [reshape4, ravel4, e1, e2, h1, h2, h5, h6]

/-- The Cholesky vectors as matrices. -/
def cholMat (M nchol : Nat) (chol : Nat → Nat → Nat → ℂ) (x : Fin nchol) : Matrix (Fin M) (Fin M) ℂ :=
  Matrix.of fun i k => chol i k x

/-- The rows of the stored array are the half-rotated vectors, first spin. -/
theorem block_a (M na nb nchol size : Nat) (hs : 0 < size) (chol : Nat → Nat → Nat → ℂ)
    (psi : Nat → Nat → Nat → ℂ) (order : List (Nat × Nat)) (hall : ∀ r < size, (r, 0) ∈ order)
    (A0 : Nat → Nat → ℂ) (rows : Nat) (x : Fin nchol) :
    block ⟨rows, nchol, Setup.halfRotateAll M na nb nchol size chol psi order A0⟩ 0 na M x =
      Energy.halfRotate (orbA M na psi) (cholMat M nchol chol) x := by
  ext i p
  have h := Setup.halfRotateAll_entry M na nb nchol size 1 hs chol psi order
    (fun r hr i hi => by rw [Nat.lt_one_iff.mp hi]; exact hall r hr) A0 0 i p x Nat.one_pos
    (by have := i.2; omega) p.2 x.2
  rw [Nat.zero_mul] at h
  exact h

/-- Second spin. -/
theorem block_b (M na nb nchol size : Nat) (hs : 0 < size) (chol : Nat → Nat → Nat → ℂ)
    (psi : Nat → Nat → Nat → ℂ) (order : List (Nat × Nat)) (hall : ∀ r < size, (r, 0) ∈ order)
    (A0 : Nat → Nat → ℂ) (rows : Nat) (x : Fin nchol) :
    block ⟨rows, nchol, Setup.halfRotateAll M na nb nchol size chol psi order A0⟩ (na * M) nb M x =
      Energy.halfRotate (orbB M na nb psi) (cholMat M nchol chol) x := by
  ext i p
  have h := Setup.halfRotateAll_entry M na nb nchol size 1 hs chol psi order
    (fun r hr i hi => by rw [Nat.lt_one_iff.mp hi]; exact hall r hr) A0 0 (na + i) p x Nat.one_pos
    (by have := i.2; omega) p.2 x.2
  rw [Nat.zero_mul, Nat.zero_add, Nat.add_mul, Nat.add_assoc] at h
  exact h

/-- The stored integrals, read back by the energy routine. -/
theorem optEri_eq (h1 G : Fin 2 → Matrix (Fin M) (Fin M) ℂ) (ecore : ℂ) (g : Half M na nb)
    (nchol : Nat) (chol : Nat → Nat → Nat → ℂ) (psi : Nat → Nat → Nat → ℂ) (eri : Nat → Nat → ℂ)
    (he : ∀ n, eri 0 n = eriRow M na nb nchol chol (psi 0) n) :
    optEri h1 G ecore g (some eri) =
      some (localOpt h1 G (halfEri (orbA M na psi) (orbA M na psi) (cholMat M nchol chol))
        (halfEri (orbB M na nb psi) (orbB M na nb psi) (cholMat M nchol chol))
        (halfEri (orbA M na psi) (orbB M na nb psi) (cholMat M nchol chol)) g.a g.b ecore) := by
  have bound : ∀ {k l : Nat} (i : Fin k) (p : Fin M) (j : Fin l) (q : Fin M),
      (((i : Nat) * M + p) * l + j) * M + q < k * M * (l * M) := by
    intro k l i p j q
    have h1 : (i : Nat) * M + p < k * M := by
      calc (i : Nat) * M + p < (i + 1) * M := by rw [Nat.add_mul, Nat.one_mul]; have := p.2; omega
        _ ≤ k * M := Nat.mul_le_mul_right _ i.2
    have h2 : (j : Nat) * M + q < l * M := by
      calc (j : Nat) * M + q < (j + 1) * M := by rw [Nat.add_mul, Nat.one_mul]; have := q.2; omega
        _ ≤ l * M := Nat.mul_le_mul_right _ j.2
    calc (((i : Nat) * M + p) * l + j) * M + q = ((i : Nat) * M + p) * (l * M) + (j * M + q) := by ring
      _ < ((i : Nat) * M + p + 1) * (l * M) := by rw [Nat.add_mul _ 1, Nat.one_mul]; omega
      _ ≤ k * M * (l * M) := Nat.mul_le_mul_right _ h1
  have vaa : (fun (i : Fin na) (p : Fin M) (j : Fin na) (q : Fin M) =>
      reshape4 M na (fun n => eri 0 n) i p j q) =
      halfEri (orbA M na psi) (orbA M na psi) (cholMat M nchol chol) := by
    funext i p j q
    have hb := bound i p j q
    rw [show na * M * (na * M) = M ^ 2 * na ^ 2 by ring] at hb
    have := reshape4_ravel4 M na (vipjq M nchol chol (psi 0) 0 0) i p j q p.2 j.2 q.2
    simp only [reshape4] at this ⊢
    rw [he, eriRow]
    simp only [if_pos hb]
    rw [this]
    simp only [vipjq, halfEri, orbA, cholMat, Matrix.of_apply, Nat.zero_add]
  have vbb : (fun (i : Fin nb) (p : Fin M) (j : Fin nb) (q : Fin M) =>
      reshape4 M nb (fun n => eri 0 (na ^ 2 * M ^ 2 + n)) i p j q) =
      halfEri (orbB M na nb psi) (orbB M na nb psi) (cholMat M nchol chol) := by
    funext i p j q
    have hb := bound i p j q
    rw [show nb * M * (nb * M) = M ^ 2 * nb ^ 2 by ring] at hb
    have := reshape4_ravel4 M nb (vipjq M nchol chol (psi 0) na na) i p j q p.2 j.2 q.2
    simp only [reshape4] at this ⊢
    rw [he, eriRow, Nat.mul_comm (na ^ 2)]
    simp only [if_neg (show ¬ (M ^ 2 * na ^ 2 + ((((i : Nat) * M + p) * nb + j) * M + q) <
      M ^ 2 * na ^ 2) by omega), if_pos (show M ^ 2 * na ^ 2 + ((((i : Nat) * M + p) * nb + j) * M + q) <
      M ^ 2 * na ^ 2 + M ^ 2 * nb ^ 2 by omega), Nat.add_sub_cancel_left]
    rw [this]
    simp only [vipjq, halfEri, orbB, cholMat, Matrix.of_apply]
  have vab : (fun (i : Fin na) (p : Fin M) (j : Fin nb) (q : Fin M) =>
      reshape4 M nb (fun n => eri 0 (na ^ 2 * M ^ 2 + nb ^ 2 * M ^ 2 + n)) i p j q) =
      halfEri (orbA M na psi) (orbB M na nb psi) (cholMat M nchol chol) := by
    funext i p j q
    have := reshape4_ravel4 M nb (vipjq M nchol chol (psi 0) 0 na) i p j q p.2 j.2 q.2
    simp only [reshape4] at this ⊢
    rw [he, eriRow, Nat.mul_comm (na ^ 2), Nat.mul_comm (nb ^ 2)]
    simp only [if_neg (show ¬ (M ^ 2 * na ^ 2 + M ^ 2 * nb ^ 2 +
      ((((i : Nat) * M + p) * nb + j) * M + q) < M ^ 2 * na ^ 2) by omega),
      if_neg (show ¬ (M ^ 2 * na ^ 2 + M ^ 2 * nb ^ 2 +
      ((((i : Nat) * M + p) * nb + j) * M + q) < M ^ 2 * na ^ 2 + M ^ 2 * nb ^ 2) by omega),
      Nat.add_sub_cancel_left]
    rw [this]
    simp only [vipjq, halfEri, orbA, orbB, cholMat, Matrix.of_apply, Nat.zero_add]
  simp only [optEri, vaa, vbb, vab]

/-! ### The stochastic routine -/

/-- **C115**: on the array the trial stores, the stochastic routine fails whenever there is more than
one entry in the half-rotated Green's function of the first spin. -/
theorem stoch_fails (h1 G : Fin 2 → Matrix (Fin M) (Fin M) ℂ) (ecore : ℂ) (g : Half M na nb)
    (ns : Nat) (θ : Nat → Nat → Bool) (c0 : Option (Ref M na nb)) (R : Option Arr2)
    (h : 2 ≤ na * M) : stoch h1 G ecore g ns θ c0 R = none := by
  cases R with
  | none => rfl
  | some R =>
    by_cases hc : R.rows < 2 ∨ ns = 0 ∨ R.cols ≠ na * M ∨ R.cols ≠ nb * M
    · simp only [stoch, if_pos hc]
    · cases c0 with
      | some c =>
        have : ¬ (na * M = 1 ∧ nb * M = 1) := by omega
        simp only [stoch, if_neg this, ite_self]
      | none =>
        have : ¬ (R.cols = na * M * R.cols ∧ R.cols = nb * M * R.cols) := by
          push Not at hc
          rintro ⟨h2, -⟩
          have h3 : R.cols = na * M := hc.2.2.1
          have : 2 * R.cols ≤ na * M * R.cols := Nat.mul_le_mul_right _ h
          omega
        simp only [stoch, if_neg this, ite_self]

/-! ### Runs -/

/-- The array of half-rotated vectors of one determinant. -/
noncomputable def storedChol (M na nb nchol size : Nat) (order : List (Nat × Nat))
    (chol : Nat → Nat → Nat → ℂ) (psi : Nat → Nat → Nat → ℂ) : Arr2 :=
  ⟨1 * (M * (na + nb)), nchol,
    Setup.halfRotateAll M na nb nchol size chol psi order (fun _ _ => 0)⟩

theorem storedChol_rows (M na nb nchol size : Nat) (order : List (Nat × Nat))
    (chol : Nat → Nat → Nat → ℂ) (psi : Nat → Nat → Nat → ℂ) :
    (storedChol M na nb nchol size order chol psi).rows = na * M + nb * M := by
  simp only [storedChol]; ring

theorem cholOpt_stored (h1 G : Fin 2 → Matrix (Fin M) (Fin M) ℂ) (ecore : ℂ) (g : Half M na nb)
    (nchol size : Nat) (hs : 0 < size) (order : List (Nat × Nat))
    (hall : ∀ r < size, (r, 0) ∈ order) (chol : Nat → Nat → Nat → ℂ) (psi : Nat → Nat → Nat → ℂ) :
    cholOpt h1 G ecore g (some (storedChol M na nb nchol size order chol psi)) =
      some (localCholOpt h1 G (Energy.halfRotate (orbA M na psi) (cholMat M nchol chol))
        (Energy.halfRotate (orbB M na nb psi) (cholMat M nchol chol)) g.a g.b ecore) := by
  have ha : (fun x : Fin (storedChol M na nb nchol size order chol psi).cols =>
      block (storedChol M na nb nchol size order chol psi) 0 na M x) =
      Energy.halfRotate (orbA M na psi) (cholMat M nchol chol) :=
    funext fun x => block_a M na nb nchol size hs chol psi order hall _ _ x
  have hb : (fun x : Fin (storedChol M na nb nchol size order chol psi).cols =>
      block (storedChol M na nb nchol size order chol psi) (na * M) nb M x) =
      Energy.halfRotate (orbB M na nb psi) (cholMat M nchol chol) :=
    funext fun x => block_b M na nb nchol size hs chol psi order hall _ _ x
  unfold cholOpt
  simp only [if_pos (storedChol_rows M na nb nchol size order chol psi)]
  rw [ha, hb]
  rfl

/-- The reference energies exist, and half their combination is the two-body energy. -/
theorem twoBody_stored (h1 G : Fin 2 → Matrix (Fin M) (Fin M) ℂ) (ecore : ℂ) (g : Half M na nb)
    (nchol size : Nat) (hs : 0 < size) (order : List (Nat × Nat))
    (hall : ∀ r < size, (r, 0) ∈ order) (chol : Nat → Nat → Nat → ℂ) (psi : Nat → Nat → Nat → ℂ) :
    ∃ e, twoBody g (storedChol M na nb nchol size order chol psi) = some e ∧
      (1 / 2 : ℂ) * (e.1 - e.2.1 - e.2.2) =
        (localCholOpt h1 G (Energy.halfRotate (orbA M na psi) (cholMat M nchol chol))
          (Energy.halfRotate (orbB M na nb psi) (cholMat M nchol chol)) g.a g.b ecore).2.2 := by
  have ha : (fun x : Fin (storedChol M na nb nchol size order chol psi).cols =>
      block (storedChol M na nb nchol size order chol psi) 0 na M x) =
      Energy.halfRotate (orbA M na psi) (cholMat M nchol chol) :=
    funext fun x => block_a M na nb nchol size hs chol psi order hall _ _ x
  have hb : (fun x : Fin (storedChol M na nb nchol size order chol psi).cols =>
      block (storedChol M na nb nchol size order chol psi) (na * M) nb M x) =
      Energy.halfRotate (orbB M na nb psi) (cholMat M nchol chol) :=
    funext fun x => block_b M na nb nchol size hs chol psi order hall _ _ x
  refine ⟨_, by unfold twoBody; rw [if_pos (storedChol_rows M na nb nchol size order chol psi)], ?_⟩
  rw [← ha, ← hb, sub_sub]
  rfl

end Verif.LocalOpts
