import Verif.LangFirsov.Tuples
import Mathlib.GroupTheory.Perm.Fin
import Mathlib.Algebra.BigOperators.Fin

/-!
# Adding and removing an electron

Electrons of one spin as antisymmetric functions of their orbitals, with one-body and pair operators, and their commutators with
the operators that add or remove an electron.
-/

namespace Verif.Ekt

open Matrix
open Verif.LangFirsov (amp hop)
open Verif.Energy (ovl oneBody twoBody)

variable {n k : Nat}

/-- A function of the orbitals of `k` electrons. -/
abbrev Fun (n k : Nat) := (Fin k → Fin n) → ℂ

/-- Exchange of electrons changes the sign. -/
def Alternating (ψ : Fun n k) : Prop := ∀ (x : Fin k → Fin n) (τ : Equiv.Perm (Fin k)), ψ (x ∘ τ) = (Equiv.Perm.sign τ : ℂ) * ψ x

/-- An electron leaves the orbital `q`. -/
def ann (q : Fin n) (ψ : Fun n (k + 1)) : Fun n k := fun x => ψ (Fin.cons q x)

/-- An electron is added in the orbital `q`. -/
def cre (q : Fin n) (ψ : Fun n k) : Fun n (k + 1) := fun x => ∑ a, if x a = q then (-1) ^ (a : ℕ) * ψ (a.removeNth x) else 0

/-- Two-electron operator with the integrals `v i k j l`: every two electrons move together. -/
noncomputable def pairs (v : Fin n → Fin n → Fin n → Fin n → ℂ) (ψ : Fun n k) : Fun n k := fun x =>
  ∑ a, ∑ b, if a = b then 0 else ∑ i, ∑ j, v (x a) i (x b) j * ψ (Function.update (Function.update x a i) b j)

theorem amp_alternating (A : Matrix (Fin n) (Fin k) ℂ) : Alternating (amp A) := fun x τ => LangFirsov.amp_perm A x τ

theorem update_comp (x : Fin k → Fin n) (τ : Equiv.Perm (Fin k)) (a : Fin k) (j : Fin n) :
    Function.update (x ∘ τ) a j = Function.update x (τ a) j ∘ τ := by
  ext b
  by_cases h : b = a
  · subst h
    simp
  · simp [h]

theorem hop_alternating (M : Matrix (Fin n) (Fin n) ℂ) {ψ : Fun n k} (h : Alternating ψ) : Alternating (hop M ψ) := by
  intro x τ
  rw [hop, hop, Finset.mul_sum, ← Equiv.sum_comp τ fun a => _ * ∑ j, M (x a) j * ψ (Function.update x a j)]
  refine Finset.sum_congr rfl fun a _ => ?_
  rw [Finset.mul_sum]
  refine Finset.sum_congr rfl fun j _ => ?_
  rw [update_comp, h, Function.comp]
  ring

theorem sign_symm (b : Fin (k + 1)) : ((Equiv.Perm.sign b.cycleRange.symm : ℤ) : ℂ) = (-1) ^ (b : ℕ) := by
  rw [Equiv.Perm.sign_symm, Fin.sign_cycleRange]
  push_cast
  rfl

/-- An electron at the front or at another place. -/
theorem alternating_insert {ψ : Fun n (k + 1)} (h : Alternating ψ) (b : Fin (k + 1)) (p : Fin n) (x : Fin k → Fin n) :
    ψ (b.insertNth p x) = (-1) ^ (b : ℕ) * ψ (Fin.cons p x) := by
  rw [← Fin.insertNth_comp_cycleRange_symm b p x, h, sign_symm, ← mul_assoc, ← pow_add, ← two_mul, pow_mul]
  simp

theorem update_cons_zero (q j : Fin n) (x : Fin k → Fin n) : Function.update (Fin.cons q x : Fin (k + 1) → Fin n) 0 j = Fin.cons j x :=
  Fin.update_cons_zero _ _ _

theorem update_cons_succ (q j : Fin n) (x : Fin k → Fin n) (b : Fin k) :
    Function.update (Fin.cons q x : Fin (k + 1) → Fin n) b.succ j = Fin.cons q (Function.update x b j) :=
  (Fin.cons_update (α := fun _ => Fin n) q x b j).symm

/-- Removing an electron and a one-body operator. -/
theorem hop_ann (M : Matrix (Fin n) (Fin n) ℂ) (q : Fin n) (ψ : Fun n (k + 1)) (x : Fin k → Fin n) :
    hop M (ann q ψ) x - ann q (hop M ψ) x = -∑ j, M q j * ann j ψ x := by
  simp only [hop, ann]
  rw [Fin.sum_univ_succ]
  simp only [update_cons_zero, update_cons_succ, Fin.cons_zero, Fin.cons_succ]
  ring

theorem remove_update_self (x : Fin (k + 1) → Fin n) (a : Fin (k + 1)) (j : Fin n) :
    a.removeNth (Function.update x a j) = a.removeNth x := by
  ext b
  simp [Fin.removeNth]

theorem remove_update (x : Fin (k + 1) → Fin n) (a : Fin (k + 1)) (b : Fin k) (j : Fin n) :
    a.removeNth (Function.update x (a.succAbove b) j) = Function.update (a.removeNth x) b j := by
  ext c
  by_cases h : c = b
  · subst h
    simp [Fin.removeNth]
  · have : a.succAbove c ≠ a.succAbove b := fun hh => h (Fin.succAbove_right_injective hh)
    simp [Fin.removeNth, h]

/-- Adding an electron and a one-body operator. -/
theorem hop_cre (M : Matrix (Fin n) (Fin n) ℂ) (q : Fin n) (ψ : Fun n k) (x : Fin (k + 1) → Fin n) :
    hop M (cre q ψ) x - cre q (hop M ψ) x = ∑ i, M i q * cre i ψ x := by
  have h1 : hop M (cre q ψ) x = ∑ a : Fin (k + 1), ((-1) ^ (a : ℕ) * (M (x a) q * ψ (a.removeNth x)) +
      if x a = q then (-1) ^ (a : ℕ) * hop M ψ (a.removeNth x) else 0) := by
    simp only [hop, cre, Finset.mul_sum]
    rw [Finset.sum_congr rfl fun b _ => Finset.sum_comm, Finset.sum_comm]
    refine Finset.sum_congr rfl fun a _ => ?_
    rw [Fin.sum_univ_succAbove _ a]
    congr 1
    · rw [Finset.sum_eq_single q]
      · simp only [Function.update_self, if_true, remove_update_self]
        ring
      · intro j _ hj
        simp [hj]
      · simp
    · simp only [remove_update, Function.update_of_ne (Fin.ne_succAbove a _)]
      split_ifs with h
      · refine Finset.sum_congr rfl fun b _ => Finset.sum_congr rfl fun j _ => ?_
        simp only [Fin.removeNth]
        ring
      · simp
  have h2 : ∑ i, M i q * cre i ψ x = ∑ a : Fin (k + 1), (-1) ^ (a : ℕ) * (M (x a) q * ψ (a.removeNth x)) := by
    simp only [cre, Finset.mul_sum]
    rw [Finset.sum_comm]
    refine Finset.sum_congr rfl fun a _ => ?_
    rw [Finset.sum_eq_single (x a)]
    · rw [if_pos rfl]
      ring
    · intro i _ hi
      rw [if_neg (Ne.symm hi), mul_zero]
    · simp
  rw [h1, h2, Finset.sum_add_distrib, cre]
  ring

theorem single_ne {p j a b : Fin n} (h : a ≠ p ∨ b ≠ j) : Matrix.single p j (1 : ℂ) a b = 0 := by
  rw [Matrix.single_apply, if_neg]
  rintro ⟨rfl, rfl⟩
  exact h.elim (fun h => h rfl) fun h => h rfl

/-- Removing and adding an electron is one-body motion. -/
theorem cre_ann (p j : Fin n) {ψ : Fun n (k + 1)} (h : Alternating ψ) (x : Fin (k + 1) → Fin n) :
    cre p (ann j ψ) x = hop (Matrix.single p j 1) ψ x := by
  rw [cre, hop]
  refine Finset.sum_congr rfl fun a _ => ?_
  rw [Finset.sum_eq_single j]
  · by_cases hp : x a = p
    · rw [if_pos hp, hp, Matrix.single_apply_same, one_mul, ann, ← alternating_insert h, Fin.insertNth_removeNth]
    · rw [if_neg hp, single_ne (Or.inl hp), zero_mul]
  · intro i _ hi
    rw [single_ne (Or.inr hi), zero_mul]
  · simp

theorem remove_cons (p : Fin n) (x : Fin (k + 1) → Fin n) (a : Fin (k + 1)) :
    a.succ.removeNth (Fin.cons p x : Fin (k + 2) → Fin n) = (Fin.cons p (a.removeNth x) : Fin (k + 1) → Fin n) := by
  ext c
  refine Fin.cases ?_ (fun c => ?_) c
  · simp [Fin.removeNth]
  · simp [Fin.removeNth]

/-- Adding and removing an electron. -/
theorem ann_cre (p i : Fin n) {ψ : Fun n k} (h : Alternating ψ) (x : Fin k → Fin n) :
    ann p (cre i ψ) x = (if p = i then ψ x else 0) - hop (Matrix.single i p 1) ψ x := by
  cases k with
  | zero =>
    simp only [ann, cre, Fin.sum_univ_succ, hop, Finset.univ_eq_empty, Finset.sum_empty]
    have : ∀ y : Fin 0 → Fin n, ψ y = ψ x := fun y => by rw [Subsingleton.elim y x]
    simp [this]
  | succ k =>
    rw [← cre_ann i p h, ann, cre, Fin.sum_univ_succ, cre, sub_eq_add_neg, ← Finset.sum_neg_distrib]
    congr 1
    · simp
    · refine Finset.sum_congr rfl fun a _ => ?_
      simp only [Fin.cons_succ, ann]
      split_ifs
      · rw [remove_cons, Fin.val_succ, pow_succ]
        ring
      · simp

/-- Adding an electron is the adjoint of removing one. -/
theorem cre_adjoint (p : Fin n) {D : Fun n (k + 1)} (h : Alternating D) (Φ : Fun n k) :
    ∑ y, star (D y) * cre p Φ y = (k + 1 : ℕ) * ∑ x, star (ann p D x) * Φ x := by
  have h1 : ∀ a : Fin (k + 1), ∑ y : Fin (k + 1) → Fin n, star (D y) * (if y a = p then (-1) ^ (a : ℕ) * Φ (a.removeNth y) else 0) =
      ∑ x, star (ann p D x) * Φ x := by
    intro a
    rw [← Equiv.sum_comp (Fin.insertNthEquiv (fun _ => Fin n) a), Fintype.sum_prod_type, Finset.sum_eq_single p]
    · refine Finset.sum_congr rfl fun x _ => ?_
      have he : (Fin.insertNthEquiv (fun _ => Fin n) a) (p, x) = a.insertNth p x := rfl
      rw [he, Fin.insertNth_apply_same, if_pos rfl, Fin.removeNth_insertNth]
      rw [alternating_insert h, star_mul', ann]
      have : star ((-1 : ℂ) ^ (a : ℕ)) * (-1) ^ (a : ℕ) = 1 := by
        rw [star_pow, star_neg, star_one, ← mul_pow]
        simp
      linear_combination (star (D (Fin.cons p x)) * Φ x) * this
    · intro i _ hi
      refine Finset.sum_eq_zero fun x _ => ?_
      have he : (Fin.insertNthEquiv (fun _ => Fin n) a) (i, x) = a.insertNth i x := rfl
      rw [he, Fin.insertNth_apply_same, if_neg hi, mul_zero]
    · simp
  simp only [cre, Finset.mul_sum]
  rw [Finset.sum_comm, Finset.sum_congr rfl fun a _ => h1 a]
  simp [Finset.mul_sum]

/-- Removing an electron is the adjoint of adding one. -/
theorem ann_adjoint (p : Fin n) (D : Fun n k) {χ : Fun n (k + 1)} (h : Alternating χ) :
    ∑ y, star (cre p D y) * χ y = (k + 1 : ℕ) * ∑ x, star (D x) * ann p χ x := by
  have := congrArg star (cre_adjoint p h D)
  rw [star_sum, star_mul', star_sum] at this
  simpa [star_mul', mul_comm] using this

/-- The electron whose orbitals are the last two indices. -/
def second (v : Fin n → Fin n → Fin n → Fin n → ℂ) (i k : Fin n) : Matrix (Fin n) (Fin n) ℂ := Matrix.of fun j l => v i k j l

theorem succ_ne_zero' (b : Fin k) : (0 : Fin (k + 1)) ≠ b.succ := (Fin.succ_ne_zero b).symm

/-- Removing an electron and a two-electron operator. -/
theorem pairs_ann (v : Fin n → Fin n → Fin n → Fin n → ℂ) (hv : ∀ i k j l, v i k j l = v j l i k) (q : Fin n) (ψ : Fun n (k + 1))
    (x : Fin k → Fin n) : pairs v (ann q ψ) x - ann q (pairs v ψ) x = -2 * ∑ i, hop (second v q i) (ann i ψ) x := by
  have h1 : ∑ b : Fin k, ∑ i, ∑ j, v q i (x b) j * ψ (Fin.cons i (Function.update x b j)) = ∑ i, hop (second v q i) (ann i ψ) x := by
    rw [Finset.sum_comm]
    rfl
  have h2 : ∑ a : Fin k, ∑ i, ∑ j, v (x a) i q j * ψ (Fin.cons j (Function.update x a i)) = ∑ i, hop (second v q i) (ann i ψ) x := by
    rw [← h1]
    refine Finset.sum_congr rfl fun a _ => ?_
    rw [Finset.sum_comm]
    exact Finset.sum_congr rfl fun j _ => Finset.sum_congr rfl fun i _ => by rw [hv]
  have h3 : ann q (pairs v ψ) x = ∑ i, hop (second v q i) (ann i ψ) x + ∑ i, hop (second v q i) (ann i ψ) x + pairs v (ann q ψ) x := by
    rw [ann, pairs, Fin.sum_univ_succ, Fin.sum_univ_succ, if_pos rfl, zero_add]
    simp only [Fin.sum_univ_succ (n := k), if_neg (succ_ne_zero' _), if_neg (Fin.succ_ne_zero _), Finset.sum_add_distrib]
    rw [← add_assoc]
    congr 1
    · congr 1
      · rw [← h1]
        simp only [update_cons_zero, update_cons_succ, Fin.cons_zero, Fin.cons_succ]
      · rw [← h2]
        simp only [update_cons_zero, update_cons_succ, Fin.cons_zero, Fin.cons_succ]
    · simp only [update_cons_succ, Fin.cons_succ, Fin.succ_inj, pairs, ann]
  rw [h3]
  ring

/-- Adding an electron and a two-electron operator. -/
theorem pairs_cre (v : Fin n → Fin n → Fin n → Fin n → ℂ) (hv : ∀ i k j l, v i k j l = v j l i k) (q : Fin n) (ψ : Fun n k)
    (x : Fin (k + 1) → Fin n) : pairs v (cre q ψ) x - cre q (pairs v ψ) x = 2 * ∑ i, cre i (hop (second v i q) ψ) x := by
  set W : Fin (k + 1) → ℂ := fun c => (-1) ^ (c : ℕ) * hop (second v (x c) q) ψ (c.removeNth x) with hW
  have h0 : ∑ i, cre i (hop (second v i q) ψ) x = ∑ c, W c := by
    simp only [cre]
    rw [Finset.sum_comm]
    refine Finset.sum_congr rfl fun c _ => ?_
    simp
    rfl
  have h3 : pairs v (cre q ψ) x = ∑ c, (W c + W c + if x c = q then (-1) ^ (c : ℕ) * pairs v ψ (c.removeNth x) else 0) := by
    have e : pairs v (cre q ψ) x = ∑ c : Fin (k + 1), ∑ a, ∑ b, if a = b then 0 else ∑ i, ∑ j, v (x a) i (x b) j *
        if Function.update (Function.update x a i) b j c = q then
          (-1) ^ (c : ℕ) * ψ (c.removeNth (Function.update (Function.update x a i) b j)) else 0 := by
      simp only [pairs, cre, Finset.mul_sum]
      symm
      rw [Finset.sum_comm]
      refine Finset.sum_congr rfl fun a _ => ?_
      rw [Finset.sum_comm]
      refine Finset.sum_congr rfl fun b _ => ?_
      split_ifs
      · simp
      · rw [Finset.sum_comm]
        exact Finset.sum_congr rfl fun i _ => Finset.sum_comm
    rw [e]
    refine Finset.sum_congr rfl fun c _ => ?_
    rw [Fin.sum_univ_succAbove _ c, Fin.sum_univ_succAbove _ c, if_pos rfl, zero_add]
    simp only [Fin.sum_univ_succAbove _ c, if_neg (Fin.ne_succAbove c _), if_neg (Fin.succAbove_ne c _), Finset.sum_add_distrib]
    simp only [remove_update, remove_update_self, Function.update_of_ne (Fin.ne_succAbove c _), Function.update_self, Fin.succAbove_right_inj]
    have g1 : ∀ b : Fin k, ∑ i, ∑ j, v (x c) i (x (c.succAbove b)) j * (if i = q then (-1) ^ (c : ℕ) *
        ψ (Function.update (c.removeNth x) b j) else 0) = (-1) ^ (c : ℕ) * ∑ j, second v (x c) q (x (c.succAbove b)) j *
        ψ (Function.update (c.removeNth x) b j) := by
      intro b
      rw [Finset.sum_eq_single q]
      · rw [Finset.mul_sum]
        refine Finset.sum_congr rfl fun j _ => ?_
        rw [if_pos rfl, second, Matrix.of_apply]
        ring
      · intro i _ hi
        simp [hi]
      · simp
    have g2 : ∀ b : Fin k, ∑ i, ∑ j, v (x (c.succAbove b)) i (x c) j * (if j = q then (-1) ^ (c : ℕ) *
        ψ (Function.update (c.removeNth x) b i) else 0) = (-1) ^ (c : ℕ) * ∑ j, second v (x c) q (x (c.succAbove b)) j *
        ψ (Function.update (c.removeNth x) b j) := by
      intro b
      rw [← g1, Finset.sum_comm]
      exact Finset.sum_congr rfl fun j _ => Finset.sum_congr rfl fun i _ => by rw [hv]
    have g3 : W c = ∑ b : Fin k, (-1) ^ (c : ℕ) * ∑ j, second v (x c) q (x (c.succAbove b)) j * ψ (Function.update (c.removeNth x) b j) := by
      rw [← Finset.mul_sum]
      rfl
    rw [Finset.sum_congr rfl fun b _ => g1 b, Finset.sum_congr rfl fun b _ => g2 b, ← g3, ← add_assoc]
    congr 1
    split_ifs with hq
    · simp only [pairs, Finset.mul_sum]
      refine Finset.sum_congr rfl fun a _ => Finset.sum_congr rfl fun b _ => ?_
      split_ifs
      · simp
      · simp only [Finset.mul_sum, Fin.removeNth]
        exact Finset.sum_congr rfl fun i _ => Finset.sum_congr rfl fun j _ => by ring
    · simp
  rw [h3, h0, Finset.sum_add_distrib, Finset.sum_add_distrib, cre]
  ring

theorem hop_add (S : Matrix (Fin n) (Fin n) ℂ) (φ ψ : Fun n k) (x : Fin k → Fin n) :
    hop S (fun y => φ y + ψ y) x = hop S φ x + hop S ψ x := by
  simp only [hop, mul_add, Finset.sum_add_distrib]

theorem hop_finsetSum {ι : Type*} (s : Finset ι) (S : Matrix (Fin n) (Fin n) ℂ) (φ : ι → Fun n k) (x : Fin k → Fin n) :
    hop S (fun y => ∑ i ∈ s, φ i y) x = ∑ i ∈ s, hop S (φ i) x := by
  simp only [hop, Finset.mul_sum]
  rw [Finset.sum_congr rfl fun a _ => Finset.sum_comm, Finset.sum_comm]

/-- Two one-body operators in turn. -/
theorem hop_hop_sum (S T : Matrix (Fin n) (Fin n) ℂ) (A B : Matrix (Fin n) (Fin k) ℂ) :
    ∑ x, star (amp A x) * hop S (hop T (amp B)) x = k.factorial * (twoBody T S A B + oneBody (S * T) A B) := by
  have h : hop T (amp B) = fun x => ∑ j, amp (B.updateCol j (T *ᵥ B.col j)) x := funext fun x => LangFirsov.hop_eq T B x
  rw [h]
  simp only [hop_finsetSum, LangFirsov.hop_eq, Finset.mul_sum]
  rw [Finset.sum_comm]
  simp only [Finset.sum_comm (s := (Finset.univ : Finset (Fin k → Fin n))), LangFirsov.amp_sum]
  rw [twoBody, oneBody, ← Finset.sum_add_distrib]
  simp only [Finset.mul_sum]
  refine Finset.sum_congr rfl fun j _ => ?_
  rw [mul_add, Finset.mul_sum]
  have h1 : ∀ i, (k.factorial : ℂ) * ovl A ((B.updateCol j (T *ᵥ B.col j)).updateCol i (S *ᵥ (B.updateCol j (T *ᵥ B.col j)).col i)) =
      k.factorial * (if j = i then 0 else (Aᴴ * (B.updateCol j (T *ᵥ B.col j)).updateCol i (S *ᵥ B.col i)).det) +
      if j = i then k.factorial * (Aᴴ * B.updateCol j ((S * T) *ᵥ B.col j)).det else 0 := by
    intro i
    split_ifs with hij
    · subst hij
      rw [mul_zero, zero_add, ovl]
      rw [Matrix.updateCol_idem, ← Matrix.mulVec_mulVec]
      congr 6
      ext a
      simp
    · rw [add_zero, ovl]
      congr 5
      ext a
      simp [Ne.symm hij]
  simp only [h1, Finset.sum_add_distrib]
  simp

end Verif.Ekt
