import Verif.CI.Fock
import Mathlib.Algebra.Module.LinearMap.Basic
import Mathlib.Algebra.Module.Pi
import Mathlib.LinearAlgebra.Matrix.Determinant.Basic
import Mathlib.Data.Fin.Tuple.Basic
import Mathlib.Order.Interval.Finset.Fin
import Mathlib.Tactic.Abel

/-!
# Products of creation operators (C86)

States as functions of the occupied set, products of creation operators applied to the vacuum, and their amplitudes,
which are determinants.  Nothing here refers to the code.
-/

namespace Verif.CI

open Finset

/-- The amplitudes of a state. -/
def vec (k : Ket) : Finset Nat → ℤ := fun T => inner T k

/-- Creation operator on amplitudes. -/
def C (p : Nat) : (Finset Nat → ℤ) →ₗ[ℤ] (Finset Nat → ℤ) where
  toFun v T := if p ∈ T then sgn p T * v (T.erase p) else 0
  map_add' v w := by funext T; simp only [Pi.add_apply]; split_ifs <;> ring
  map_smul' r v := by funext T; simp only [Pi.smul_apply, smul_eq_mul, RingHom.id_apply]; split_ifs <;> ring

/-- Annihilation operator on amplitudes. -/
def A (p : Nat) : (Finset Nat → ℤ) →ₗ[ℤ] (Finset Nat → ℤ) where
  toFun v T := if p ∈ T then 0 else sgn p T * v (insert p T)
  map_add' v w := by funext T; simp only [Pi.add_apply]; split_ifs <;> ring
  map_smul' r v := by funext T; simp only [Pi.smul_apply, smul_eq_mul, RingHom.id_apply]; split_ifs <;> ring

theorem C_apply (p : Nat) (v : Finset Nat → ℤ) (T : Finset Nat) :
    C p v T = if p ∈ T then sgn p T * v (T.erase p) else 0 := rfl

theorem A_apply (p : Nat) (v : Finset Nat → ℤ) (T : Finset Nat) :
    A p v T = if p ∈ T then 0 else sgn p T * v (insert p T) := rfl

theorem vec_cre (p : Nat) (k : Ket) : vec (cre p k) = C p (vec k) := by
  funext T
  exact inner_cre T p k

theorem vec_ann (p : Nat) (k : Ket) : vec (ann p k) = A p (vec k) := by
  funext T
  rw [A_apply]
  rcases k with _ | ⟨x, S⟩
  · simp [vec, ann, inner]
  · by_cases hS : p ∈ S
    · simp only [vec, ann, hS, if_true, inner]
      by_cases hT : p ∈ T
      · rw [if_pos hT, if_neg]
        rintro rfl
        simp at hT
      · rw [if_neg hT]
        by_cases h : S.erase p = T
        · rw [if_pos h, if_pos (by rw [← h, insert_erase hS]), ← h, sgn_erase_self, mul_comm]
        · rw [if_neg h, if_neg, mul_zero]
          intro h1
          exact h (by rw [h1, erase_insert hT])
    · simp only [vec, ann, hS, if_false, inner]
      split_ifs with h1 h2
      · rfl
      · exact absurd (by rw [h2]; exact mem_insert_self p T) hS
      · simp

theorem A_C (q p : Nat) (v : Finset Nat → ℤ) : A q (C p v) = (if q = p then v else 0) - C p (A q v) := by
  funext T
  rw [Pi.sub_apply]
  simp only [A_apply, C_apply]
  by_cases hpq : q = p
  · subst hpq
    rw [if_pos rfl]
    by_cases h : q ∈ T
    · have : q ∉ T.erase q := notMem_erase q T
      rw [if_pos h, if_pos h, if_neg this, sgn_erase_self, insert_erase h, ← mul_assoc, sgn_mul_self]
      ring
    · rw [if_neg h, if_neg h, if_pos (mem_insert_self q T), erase_insert h, sgn_insert_self, ← mul_assoc,
        sgn_mul_self]
      ring
  · rw [if_neg hpq]
    by_cases hp : p ∈ T <;> by_cases hq : q ∈ T <;>
      simp only [hp, hq, if_true, if_false, mem_insert, mem_erase, ne_eq, hpq, Ne.symm hpq, not_false_eq_true, and_self,
        and_true, or_true, or_false, and_false, mul_zero, Pi.zero_apply, sub_zero, zero_sub, neg_zero]
    · rw [erase_insert_of_ne hpq]
      rcases lt_or_gt_of_ne hpq with h | h
      · rw [sgn_insert_lt hq h, sgn_erase_gt h]; ring
      · rw [sgn_insert_gt h, sgn_erase_lt hp h]; ring

theorem C_C (p q : Nat) (v : Finset Nat → ℤ) : C p (C q v) = - C q (C p v) := by
  funext T
  rw [Pi.neg_apply]
  simp only [C_apply]
  by_cases hpq : q = p
  · subst hpq; simp
  · by_cases hp : p ∈ T <;> by_cases hq : q ∈ T <;>
      simp only [hp, hq, if_true, if_false, mem_erase, ne_eq, hpq, Ne.symm hpq, not_false_eq_true, and_self,
        and_true, and_false, mul_zero, neg_zero]
    rw [erase_right_comm]
    rcases lt_or_gt_of_ne hpq with h | h
    · rw [sgn_erase_gt h, sgn_erase_lt hq h]; ring
    · rw [sgn_erase_lt hp h, sgn_erase_gt h]; ring

theorem A_A (p q : Nat) (v : Finset Nat → ℤ) : A p (A q v) = - A q (A p v) := by
  funext T
  rw [Pi.neg_apply]
  simp only [A_apply]
  by_cases hpq : q = p
  · subst hpq; simp
  · by_cases hp : p ∈ T <;> by_cases hq : q ∈ T <;>
      simp only [hp, hq, if_true, if_false, mem_insert, hpq, Ne.symm hpq, or_false, or_true, mul_zero, neg_zero]
    rw [insert_comm]
    rcases lt_or_gt_of_ne hpq with h | h
    · rw [sgn_insert_gt h, sgn_insert_lt hq h]; ring
    · rw [sgn_insert_lt hp h, sgn_insert_gt h]; ring

/-- `a†_{l 0} a†_{l 1} ⋯ |vacuum⟩` -/
def wedge : (k : Nat) → (Fin k → Nat) → (Finset Nat → ℤ)
  | 0, _ => vec (ket ∅)
  | k + 1, l => C (l 0) (wedge k fun i => l i.succ)

theorem A_vac (q : Nat) : A q (vec (ket ∅)) = 0 := by
  rw [← vec_ann]
  funext T
  simp [vec, ann, ket, inner]

/-- `a†_p a_q` replaces each `q` in turn by `p`. -/
theorem hop_wedge (p q : Nat) : ∀ (k : Nat) (l : Fin k → Nat),
    C p (A q (wedge k l)) = ∑ i, if l i = q then wedge k (Function.update l i p) else 0
  | 0, l => by rw [wedge, A_vac, map_zero]; simp
  | k + 1, l => by
    rw [wedge, A_C, map_sub, C_C, sub_neg_eq_add, hop_wedge p q k, Fin.sum_univ_succ, map_sum]
    congr 1
    · by_cases h : l 0 = q
      · rw [if_pos h, if_pos h.symm, wedge, Function.update_self]
        congr 1
      · rw [if_neg h, if_neg (Ne.symm h), map_zero]
    · refine sum_congr rfl fun i _ => ?_
      by_cases h : l i.succ = q
      · rw [if_pos h, if_pos h, wedge, Function.update_of_ne (Fin.succ_ne_zero i).symm]
        congr 2
        funext j
        by_cases hj : j = i
        · subst hj; simp
        · rw [Function.update_of_ne hj, Function.update_of_ne (by simpa using hj)]
      · rw [if_neg h, if_neg h, map_zero]

/-- `a†_p a†_q a_s a_r` replaces each `r` and each other `s`. -/
theorem pair_wedge (p q r s : Nat) {k : Nat} (l : Fin k → Nat) :
    C p (C q (A s (A r (wedge k l)))) = ∑ b, ∑ a, if a ≠ b ∧ l a = r ∧ l b = s then
      wedge k (Function.update (Function.update l b q) a p) else 0 := by
  have h1 : C p (C q (A s (A r (wedge k l)))) = C p (A r (C q (A s (wedge k l)))) -
      (if r = q then C p (A s (wedge k l)) else 0) := by
    rw [A_A s r, map_neg, map_neg, A_C r q, map_sub]
    split_ifs <;> simp
  rw [h1, hop_wedge q s, map_sum, map_sum, hop_wedge p s]
  have h2 : ∀ b, C p (A r (if l b = s then wedge k (Function.update l b q) else 0)) =
      (∑ a, if a ≠ b ∧ l a = r ∧ l b = s then wedge k (Function.update (Function.update l b q) a p) else 0) +
        if r = q then (if l b = s then wedge k (Function.update l b p) else 0) else 0 := by
    intro b
    by_cases hb : l b = s
    · rw [if_pos hb, hop_wedge p r, ← add_sum_erase univ _ (mem_univ b), ← add_sum_erase univ
        (fun a => if a ≠ b ∧ l a = r ∧ l b = s then wedge k (Function.update (Function.update l b q) a p) else 0)
        (mem_univ b), Function.update_self, Function.update_idem, if_neg (show ¬(b ≠ b ∧ l b = r ∧ l b = s) by simp),
        zero_add, if_pos hb, add_comm]
      congr 1
      · refine sum_congr rfl fun a ha => ?_
        have hab := ne_of_mem_erase ha
        rw [Function.update_of_ne hab]
        exact if_congr (by simp [hab, hb]) rfl rfl
      · exact if_congr eq_comm rfl rfl
    · rw [if_neg hb, map_zero, map_zero]
      symm
      rw [if_neg hb, ite_self, add_zero]
      exact sum_eq_zero fun a _ => if_neg (by simp [hb])
  simp only [h2]
  rw [sum_add_distrib]
  by_cases hrq : r = q
  · simp [hrq]
  · simp [hrq]

/-! ### Amplitudes -/

/-- Amplitudes are determinants. -/
theorem wedge_det : ∀ (k : Nat) (l t : Fin k → Nat), StrictMono t →
    wedge k l (univ.image t) = (Matrix.of fun i j => if t i = l j then (1 : ℤ) else 0).det
  | 0, l, t, ht => by simp [wedge, vec, ket, inner]
  | k + 1, l, t, ht => by
    rw [wedge, C_apply, Matrix.det_succ_column_zero]
    have key : ∀ i : Fin (k + 1), ((Matrix.of fun i j => if t i = l j then (1 : ℤ) else 0).submatrix i.succAbove
        Fin.succ).det = wedge k (fun j => l j.succ) ((univ.image t).erase (t i)) := by
      intro i
      have him : (univ.image t).erase (t i) = univ.image (t ∘ i.succAbove) := by
        ext x
        simp only [mem_erase, mem_image, mem_univ, true_and, Function.comp]
        constructor
        · rintro ⟨hx, j, rfl⟩
          obtain ⟨j', hj'⟩ := Fin.exists_succAbove_eq (x := j) (y := i) (fun h => hx (by rw [h]))
          exact ⟨j', by rw [hj']⟩
        · rintro ⟨j, rfl⟩
          exact ⟨fun h => Fin.succAbove_ne i j (ht.injective h), _, rfl⟩
      rw [him, wedge_det k _ _ (ht.comp (Fin.strictMono_succAbove i))]
      rfl
    by_cases h : l 0 ∈ univ.image t
    · obtain ⟨i, -, hi⟩ := mem_image.1 h
      rw [if_pos h, Finset.sum_eq_single i]
      · rw [key, hi, Matrix.of_apply, if_pos hi, mul_one]
        congr 1
        rw [← hi, sgn]
        congr 1
        have : (univ.image t).filter (· < t i) = (univ.filter (· < i)).image t := by
          ext x
          simp only [mem_filter, mem_image, mem_univ, true_and]
          constructor
          · rintro ⟨⟨j, rfl⟩, hj⟩; exact ⟨j, ht.lt_iff_lt.1 hj, rfl⟩
          · rintro ⟨j, hj, rfl⟩; exact ⟨⟨j, rfl⟩, ht hj⟩
        rw [this, card_image_of_injective _ ht.injective, show univ.filter (· < i) = Finset.Iio i by ext; simp, Fin.card_Iio]
      · intro j _ hj
        rw [Matrix.of_apply, if_neg, mul_zero, zero_mul]
        intro hc
        exact hj (ht.injective (by rw [hc, hi]))
      · intro hc; exact absurd (mem_univ i) hc
    · rw [if_neg h]
      symm
      refine sum_eq_zero fun i _ => ?_
      rw [Matrix.of_apply, if_neg, mul_zero, zero_mul]
      intro hc
      exact h (mem_image.2 ⟨i, mem_univ i, hc⟩)

/-- Operators in increasing order give the state without a sign. -/
theorem wedge_mono : ∀ (k : Nat) (t : Fin k → Nat), StrictMono t → wedge k t = vec (ket (univ.image t))
  | 0, t, _ => by simp [wedge]
  | k + 1, t, ht => by
    have h := wedge_mono k (fun i => t i.succ) (ht.comp Fin.strictMono_succ)
    have hn : t 0 ∉ univ.image fun i : Fin k => t i.succ := by
      simp only [mem_image, mem_univ, true_and, not_exists]
      intro i hi
      exact Fin.succ_ne_zero i (ht.injective hi)
    have hs : sgn (t 0) (univ.image fun i : Fin k => t i.succ) = 1 := by
      rw [sgn, card_eq_zero.2, pow_zero]
      rw [filter_eq_empty_iff]
      intro x hx
      obtain ⟨i, -, rfl⟩ := mem_image.1 hx
      have := ht (Fin.succ_pos i)
      omega
    have hi : univ.image t = insert (t 0) (univ.image fun i : Fin k => t i.succ) := by
      ext x
      simp only [mem_insert, mem_image, mem_univ, true_and]
      constructor
      · rintro ⟨i, rfl⟩
        refine Fin.cases (Or.inl rfl) (fun j => Or.inr ⟨j, rfl⟩) i
      · rintro (rfl | ⟨i, rfl⟩)
        · exact ⟨0, rfl⟩
        · exact ⟨_, rfl⟩
    rw [wedge, h, ← vec_cre, ket, cre, if_neg hn, hs, hi]
    rfl

/-- Matrix elements of `a†_p a_q`. -/
theorem one_wedge {k : Nat} {s : Fin k → Nat} (hs : StrictMono s) (T : Finset Nat) (p q : Nat) :
    inner T (cre p (ann q (ket (univ.image s)))) =
      ∑ i, if s i = q then wedge k (Function.update s i p) T else 0 := by
  have h := congrFun (hop_wedge p q k s) T
  rw [wedge_mono k s hs, ← vec_ann, ← vec_cre, Finset.sum_apply] at h
  rw [show inner T _ = vec _ T from rfl, h]
  exact sum_congr rfl fun i _ => by split_ifs <;> rfl

/-- Matrix elements of `a†_p a†_q a_s a_r`. -/
theorem two_wedge {k : Nat} {l : Fin k → Nat} (hl : StrictMono l) (T : Finset Nat) (p q r s : Nat) :
    inner T (cre p (cre q (ann s (ann r (ket (univ.image l)))))) =
      ∑ b, ∑ a, if a ≠ b ∧ l a = r ∧ l b = s then wedge k (Function.update (Function.update l b q) a p) T else 0 := by
  have h := congrFun (pair_wedge p q r s l) T
  rw [wedge_mono k l hl, ← vec_ann, ← vec_ann, ← vec_cre, ← vec_cre, Finset.sum_apply] at h
  rw [show inner T _ = vec _ T from rfl, h]
  refine sum_congr rfl fun b _ => ?_
  rw [Finset.sum_apply]
  exact sum_congr rfl fun i _ => by split_ifs <;> rfl

end Verif.CI
