import Mathlib.Data.Finset.Sort
import Mathlib.Algebra.BigOperators.Ring.Finset
import Mathlib.Algebra.BigOperators.Group.Finset.Piecewise
import Mathlib.Algebra.Field.Basic
import Mathlib.Data.Nat.Cast.Field
import Mathlib.Tactic.Ring
import Mathlib.Tactic.Linarith

/-!
# Second quantisation

The specification for determinant matrix elements (C55): occupation-number states, creation and annihilation operators
with the usual signs, their anticommutation relations, and matrix elements of a Hamiltonian.  Nothing here refers to the
code.
-/

namespace Verif.CI

/-- The sign for acting on spin orbital `p`: minus one for each occupied spin orbital before it. -/
def sgn (p : Nat) (S : Finset Nat) : ℤ := (-1) ^ (S.filter (· < p)).card

/-- Zero, or an integer times an occupation-number state. -/
abbrev Ket := Option (ℤ × Finset Nat)

def ket (S : Finset Nat) : Ket := some (1, S)

/-- Annihilation operator. -/
def ann (p : Nat) : Ket → Ket
  | none => none
  | some (x, S) => if p ∈ S then some (x * sgn p S, S.erase p) else none

/-- Creation operator. -/
def cre (p : Nat) : Ket → Ket
  | none => none
  | some (x, S) => if p ∈ S then none else some (x * sgn p S, insert p S)

/-- `⟨T|k⟩` -/
def inner (T : Finset Nat) : Ket → ℤ
  | none => 0
  | some (x, S) => if S = T then x else 0

/-- Spatial orbital of a spin orbital. -/
def sp (n p : Nat) : Nat := if p < n then p else p - n

/-- Spin of a spin orbital (true for up). -/
def up (n p : Nat) : Bool := decide (p < n)

section

variable {K : Type*} [Field K]

/-- One-body integrals between spin orbitals. -/
def h1 (n : Nat) (h : Nat → Nat → K) (p q : Nat) : K := if up n p = up n q then h (sp n p) (sp n q) else 0

/-- Two-body integrals `⟨pq|rs⟩` between spin orbitals. -/
def v2 (n : Nat) (V : Nat → Nat → Nat → Nat → K) (p q r s : Nat) : K :=
  if up n p = up n r ∧ up n q = up n s then V (sp n p) (sp n q) (sp n r) (sp n s) else 0

/-- `⟨T| Σ h_pq a†_p a_q |S⟩` -/
def oneBody (n : Nat) (h : Nat → Nat → K) (T S : Finset Nat) : K :=
  ∑ p ∈ Finset.range (2 * n), ∑ q ∈ Finset.range (2 * n), h1 n h p q * (inner T (cre p (ann q (ket S))) : K)

/-- `⟨T| ½ Σ ⟨pq|rs⟩ a†_p a†_q a_s a_r |S⟩` -/
def twoBody (n : Nat) (V : Nat → Nat → Nat → Nat → K) (T S : Finset Nat) : K :=
  1 / 2 * ∑ r ∈ Finset.range (2 * n), ∑ s ∈ Finset.range (2 * n), ∑ p ∈ Finset.range (2 * n),
    ∑ q ∈ Finset.range (2 * n), v2 n V p q r s * (inner T (cre p (cre q (ann s (ann r (ket S))))) : K)

/-- `⟨T|H|S⟩` for the electronic Hamiltonian. -/
def ham (n : Nat) (ecore : K) (h : Nat → Nat → K) (V : Nat → Nat → Nat → Nat → K) (T S : Finset Nat) : K :=
  ecore * (inner T (ket S) : K) + oneBody n h T S + twoBody n V T S

end

/-! ### Signs -/

theorem sgn_mul_self (p : Nat) (S : Finset Nat) : sgn p S * sgn p S = 1 := by
  unfold sgn
  rw [← pow_add, ← two_mul, pow_mul]
  simp

theorem sgn_congr {p : Nat} {S T : Finset Nat} (h : ∀ q < p, q ∈ S ↔ q ∈ T) : sgn p S = sgn p T := by
  unfold sgn
  congr 2
  ext q
  simp only [Finset.mem_filter]
  constructor
  · rintro ⟨h1, h2⟩; exact ⟨(h q h2).1 h1, h2⟩
  · rintro ⟨h1, h2⟩; exact ⟨(h q h2).2 h1, h2⟩

theorem sgn_erase_self (p : Nat) (S : Finset Nat) : sgn p (S.erase p) = sgn p S :=
  sgn_congr fun q hq => by simp [Finset.mem_erase]; omega

theorem sgn_insert_self (p : Nat) (S : Finset Nat) : sgn p (insert p S) = sgn p S :=
  sgn_congr fun q hq => by simp; omega

theorem sgn_erase_lt {p q : Nat} {S : Finset Nat} (hp : p ∈ S) (h : p < q) : sgn q (S.erase p) = - sgn q S := by
  unfold sgn
  have h1 : (S.erase p).filter (· < q) = (S.filter (· < q)).erase p := by
    ext x; simp [and_assoc]
  have h2 : p ∈ S.filter (· < q) := by simp [hp, h]
  have h3 := Finset.card_erase_add_one h2
  rw [h1, ← h3, pow_succ]
  ring

theorem sgn_erase_gt {p q : Nat} {S : Finset Nat} (h : q < p) : sgn q (S.erase p) = sgn q S :=
  sgn_congr fun x hx => by simp; omega

theorem sgn_insert_lt {p q : Nat} {S : Finset Nat} (hp : p ∉ S) (h : p < q) : sgn q (insert p S) = - sgn q S := by
  have := sgn_erase_lt (S := insert p S) (Finset.mem_insert_self p S) h
  rw [Finset.erase_insert hp] at this
  rw [this, neg_neg]

theorem sgn_insert_gt {p q : Nat} {S : Finset Nat} (h : q < p) : sgn q (insert p S) = sgn q S :=
  sgn_congr fun x hx => by simp; omega

/-! ### Anticommutation relations: the operators are those of fermions -/

theorem ann_anti (p q : Nat) (T : Finset Nat) (k : Ket) :
    inner T (ann p (ann q k)) + inner T (ann q (ann p k)) = 0 := by
  rcases k with _ | ⟨x, S⟩
  · rfl
  · by_cases hpq : p = q
    · subst hpq
      simp only [ann]
      split_ifs with h <;> simp [inner, ann]
    · by_cases hp : p ∈ S <;> by_cases hq : q ∈ S <;>
        simp only [ann, hp, hq, if_true, if_false, Finset.mem_erase, ne_eq, hpq, Ne.symm hpq, not_false_eq_true, and_self,
          and_false, inner, add_zero]
      rw [Finset.erase_right_comm]
      split_ifs
      · rcases lt_or_gt_of_ne hpq with h | h
        · rw [sgn_erase_gt h, sgn_erase_lt hp h]; ring
        · rw [sgn_erase_lt hq h, sgn_erase_gt h]; ring
      · rfl

theorem inner_cre (T : Finset Nat) (p : Nat) (k : Ket) :
    inner T (cre p k) = if p ∈ T then sgn p T * inner (T.erase p) k else 0 := by
  rcases k with _ | ⟨x, S⟩
  · simp [cre, inner]
  · by_cases hS : p ∈ S
    · simp only [cre, hS, if_true, inner]
      split_ifs with h1 h2
      · rw [h2] at hS; simp at hS
      · simp
      · rfl
    · simp only [cre, hS, if_false, inner]
      by_cases hT : p ∈ T
      · rw [if_pos hT]
        by_cases h : insert p S = T
        · rw [if_pos h, if_pos (by rw [← h, Finset.erase_insert hS]), ← h, sgn_insert_self, mul_comm]
        · rw [if_neg h, if_neg, mul_zero]
          intro h1
          exact h (by rw [h1, Finset.insert_erase hT])
      · rw [if_neg hT, if_neg]
        intro h
        exact hT (by rw [← h]; exact Finset.mem_insert_self p S)

/-- Creation and annihilation are adjoint to each other. -/
theorem adjoint (T S : Finset Nat) (p : Nat) : inner T (cre p (ket S)) = inner S (ann p (ket T)) := by
  rw [inner_cre]
  simp only [ann, ket, inner]
  by_cases hT : p ∈ T
  · simp only [hT, if_true, inner, one_mul]
    split_ifs with h1 h2 h2
    · simp
    · exact absurd h1.symm h2
    · exact absurd h2.symm h1
    · simp
  · simp [hT, inner]

theorem ann_cre (p q : Nat) (T : Finset Nat) (k : Ket) :
    inner T (ann p (cre q k)) + inner T (cre q (ann p k)) = if p = q then inner T k else 0 := by
  rcases k with _ | ⟨x, S⟩
  · simp [ann, cre, inner]
  · by_cases hpq : p = q
    · subst hpq
      by_cases h : p ∈ S
      · simp only [cre, ann, h, if_true, Finset.notMem_erase, if_false, inner, Finset.insert_erase h, sgn_erase_self]
        split_ifs <;> simp [mul_assoc, sgn_mul_self]
      · simp only [cre, ann, h, if_false, Finset.mem_insert_self, if_true, inner, Finset.erase_insert h, sgn_insert_self]
        split_ifs <;> simp [mul_assoc, sgn_mul_self]
    · rw [if_neg hpq]
      by_cases hp : p ∈ S <;> by_cases hq : q ∈ S <;>
        simp only [cre, ann, hp, hq, if_true, if_false, Finset.mem_erase, Finset.mem_insert, ne_eq, hpq, Ne.symm hpq,
          not_false_eq_true, and_self, and_false, or_false, or_true, false_or, inner, add_zero]
      rw [Finset.erase_insert_of_ne (Ne.symm hpq)]
      split_ifs
      · rcases lt_or_gt_of_ne hpq with h | h
        · rw [sgn_insert_gt h, sgn_erase_lt hp h]; ring
        · rw [sgn_insert_lt hq h, sgn_erase_gt h]; ring
      · rfl

/-! ### Matrix elements of products -/

/-- The sign of annihilating `p` and then `q`. -/
def sg2 (S : Finset Nat) (p q : Nat) : ℤ := sgn p S * sgn q (S.erase p)

theorem sg2_swap {S : Finset Nat} {p q : Nat} (hp : p ∈ S) (hq : q ∈ S) (h : p ≠ q) : sg2 S q p = - sg2 S p q := by
  unfold sg2
  rcases lt_or_gt_of_ne h with h | h
  · rw [sgn_erase_gt h, sgn_erase_lt hp h]; ring
  · rw [sgn_erase_lt hq h, sgn_erase_gt h]; ring

theorem sg2_sq (S : Finset Nat) (p q : Nat) : sg2 S p q * sg2 S p q = 1 := by
  unfold sg2
  have h1 := sgn_mul_self p S
  have h2 := sgn_mul_self q (S.erase p)
  calc _ = (sgn p S * sgn p S) * (sgn q (S.erase p) * sgn q (S.erase p)) := by ring
    _ = 1 := by rw [h1, h2]; rfl

theorem one_elem (T S : Finset Nat) (p q : Nat) : inner T (cre p (ann q (ket S))) =
    if p ∈ T ∧ q ∈ S ∧ T.erase p = S.erase q then sgn p T * sgn q S else 0 := by
  rw [inner_cre]
  by_cases hp : p ∈ T
  · by_cases hq : q ∈ S
    · simp only [hp, hq, if_true, ann, ket, inner, true_and, one_mul]
      by_cases h : S.erase q = T.erase p
      · rw [if_pos h, if_pos h.symm]
      · rw [if_neg h, if_neg (Ne.symm h), mul_zero]
    · simp [hq, ann, ket, inner]
  · simp [hp]

theorem two_elem (T S : Finset Nat) (p q r s : Nat) : inner T (cre p (cre q (ann s (ann r (ket S))))) =
    if (p ∈ T ∧ q ∈ T ∧ p ≠ q) ∧ (r ∈ S ∧ s ∈ S ∧ r ≠ s) ∧ (T.erase p).erase q = (S.erase r).erase s then
      sg2 T p q * sg2 S r s else 0 := by
  rw [inner_cre]
  by_cases hp : p ∈ T
  · rw [if_pos hp, inner_cre]
    by_cases hq : q ∈ T.erase p
    · rw [if_pos hq]
      rw [Finset.mem_erase] at hq
      by_cases hr : r ∈ S
      · by_cases hs : s ∈ S.erase r
        · have hs' := Finset.mem_erase.1 hs
          simp only [ann, ket, hr, hs, if_true, inner, one_mul]
          by_cases h : (S.erase r).erase s = (T.erase p).erase q
          · rw [if_pos h, if_pos ⟨⟨hp, hq.2, Ne.symm hq.1⟩, ⟨trivial, hs'.2, Ne.symm hs'.1⟩, h.symm⟩]
            unfold sg2
            ring
          · rw [if_neg h, if_neg (fun hc => h hc.2.2.symm)]
            ring
        · rw [if_neg (fun hc => hs (Finset.mem_erase.2 ⟨Ne.symm hc.2.1.2.2, hc.2.1.2.1⟩))]
          simp [ann, ket, hr, hs, inner]
      · rw [if_neg (fun hc => hr hc.2.1.1)]
        simp [ann, ket, hr, inner]
    · rw [if_neg hq, if_neg (fun hc => hq (Finset.mem_erase.2 ⟨Ne.symm hc.1.2.2, hc.1.2.1⟩)), mul_zero]
  · rw [if_neg hp, if_neg (fun hc => hp hc.1.1)]

end Verif.CI
