import Verif.PairBranch.Model
import Verif.Mpi.Multiset
import Mathlib.Algebra.Order.Field.Basic
import Mathlib.Algebra.BigOperators.Group.List.Basic
import Mathlib.Data.List.Sort
import Mathlib.Data.List.Nodup
import Mathlib.Tactic.Ring
import Mathlib.Tactic.Linarith
import Mathlib.Tactic.FieldSimp

/-! Helper lemmas for pair branching. -/

namespace Verif.PairBranch

variable {K : Type} [Field K] [LinearOrder K]

/-- The sorted array after `k` pairs, entry `i`. -/
def res (A : Nat → Info K) (n : Nat) (draw : Nat → K) (k i : Nat) : Info K :=
  if i < k then (branch (draw i) (A i) (A (n - 1 - i))).1
  else if n - 1 - i < k then (branch (draw (n - 1 - i)) (A (n - 1 - i)) (A i)).2
  else A i

/-- Number of pairs made, counted from pair `s` on. -/
def numPairs (mn mx : K) (A : Nat → Info K) (s e : Nat) : Nat :=
  if s < e then
    if (A s).w < mn ∨ (A e).w > mx then numPairs mn mx A (s + 1) (e - 1) else s
  else s
termination_by e - s

theorem numPairs_le (mn mx : K) (A : Nat → Info K) (n : Nat) : ∀ (m s : Nat), n - 2 * s = m →
    2 * s ≤ n → s ≤ numPairs mn mx A s (n - 1 - s) ∧ 2 * numPairs mn mx A s (n - 1 - s) ≤ n := by
  intro m
  induction m using Nat.strongRecOn with
  | ind m ih =>
    intro s hm hs
    rw [numPairs]
    split_ifs with h1 h2
    · have := ih (n - 2 * (s + 1)) (by omega) (s + 1) rfl (by omega)
      have e1 : n - 1 - (s + 1) = n - 1 - s - 1 := by omega
      rw [e1] at this
      exact ⟨by omega, this.2⟩
    · exact ⟨le_rfl, hs⟩
    · exact ⟨le_rfl, hs⟩

/-- All pairs made satisfied the condition; the next one does not exist or does not. -/
theorem numPairs_spec (mn mx : K) (A : Nat → Info K) (n : Nat) : ∀ (m s : Nat), n - 2 * s = m →
    2 * s ≤ n →
    (∀ i, s ≤ i → i < numPairs mn mx A s (n - 1 - s) →
      (A i).w < mn ∨ (A (n - 1 - i)).w > mx) ∧
    (numPairs mn mx A s (n - 1 - s) < n - 1 - numPairs mn mx A s (n - 1 - s) →
      mn ≤ (A (numPairs mn mx A s (n - 1 - s))).w ∧
      (A (n - 1 - numPairs mn mx A s (n - 1 - s))).w ≤ mx) := by
  intro m
  induction m using Nat.strongRecOn with
  | ind m ih =>
    intro s hm hs
    rw [numPairs]
    split_ifs with h1 h2
    · have := ih (n - 2 * (s + 1)) (by omega) (s + 1) rfl (by omega)
      have e1 : n - 1 - (s + 1) = n - 1 - s - 1 := by omega
      rw [e1] at this
      refine ⟨?_, this.2⟩
      intro i hi hlt
      rcases Nat.eq_or_lt_of_le hi with h | h
      · subst h; exact h2
      · exact this.1 i h hlt
    · refine ⟨fun i hi hlt => by omega, fun _ => ?_⟩
      rw [not_or] at h2
      exact ⟨not_lt.1 h2.1, not_lt.1 h2.2⟩
    · exact ⟨fun i hi hlt => by omega, fun h => absurd h h1⟩

theorem pairLoop_eq (mn mx : K) (draw : Nat → K) (A : Nat → Info K) (n : Nat) :
    ∀ (m s : Nat), n - 2 * s = m → 2 * s ≤ n →
      pairLoop mn mx draw ((List.range n).map (res A n draw s)) s (n - 1 - s) =
        some ((List.range n).map (res A n draw (numPairs mn mx A s (n - 1 - s)))) := by
  intro m
  induction m using Nat.strongRecOn with
  | ind m ih =>
    intro s hm hs
    rw [pairLoop, numPairs]
    by_cases h1 : s < n - 1 - s
    · rw [if_pos h1, if_pos h1]
      have hA1 : ((List.range n).map (res A n draw s))[s]? = some (A s) := by
        rw [List.getElem?_map, List.getElem?_range (by omega)]
        simp only [Option.map_some, res]
        rw [if_neg (by omega), if_neg (by omega)]
      have hA2 : ((List.range n).map (res A n draw s))[n - 1 - s]? = some (A (n - 1 - s)) := by
        rw [List.getElem?_map, List.getElem?_range (by omega)]
        simp only [Option.map_some, res]
        rw [if_neg (by omega), if_neg (by omega)]
      rw [hA1, hA2]
      simp only
      by_cases h2 : (A s).w < mn ∨ (A (n - 1 - s)).w > mx
      · rw [if_pos h2, if_pos h2]
        have harr : (((List.range n).map (res A n draw s)).set s
            (branch (draw s) (A s) (A (n - 1 - s))).1).set (n - 1 - s)
            (branch (draw s) (A s) (A (n - 1 - s))).2 =
            (List.range n).map (res A n draw (s + 1)) := by
          apply List.ext_getElem
          · simp
          · intro i hi1 hi2
            have hi : i < n := by simpa using hi2
            rw [List.getElem_set, List.getElem_set]
            simp only [List.getElem_map, List.getElem_range]
            by_cases hie : n - 1 - s = i
            · rw [if_pos hie]
              unfold res
              have : n - 1 - i = s := by omega
              rw [if_neg (by omega), if_pos (by omega), this, hie]
            · rw [if_neg hie]
              by_cases his : s = i
              · subst his
                rw [if_pos rfl]
                unfold res
                rw [if_pos (by omega)]
              · rw [if_neg his]
                unfold res
                by_cases h3 : i < s
                · rw [if_pos h3, if_pos (by omega)]
                · rw [if_neg h3, if_neg (by omega : ¬ i < s + 1)]
                  by_cases h4 : n - 1 - i < s
                  · rw [if_pos h4, if_pos (by omega)]
                  · rw [if_neg h4, if_neg (by omega)]
        rw [harr]
        have := ih (n - 2 * (s + 1)) (by omega) (s + 1) rfl (by omega)
        have e1 : n - 1 - (s + 1) = n - 1 - s - 1 := by omega
        rw [e1] at this
        exact this
      · rw [if_neg h2, if_neg h2]
    · rw [if_neg h1, if_neg h1]

theorem pairLoop_start (mn mx : K) (draw : Nat → K) (A : Nat → Info K) (n : Nat) :
    pairLoop mn mx draw ((List.range n).map A) 0 (n - 1) =
      some ((List.range n).map (res A n draw (numPairs mn mx A 0 (n - 1)))) := by
  have := pairLoop_eq mn mx draw A n (n - 2 * 0) 0 rfl (by omega)
  have e : (List.range n).map (res A n draw 0) = (List.range n).map A := by
    apply List.map_congr_left
    intro i _
    simp [res]
  rw [e] at this
  simpa using this

/-! ### argsort -/

theorem argsort_perm {α : Type} [LinearOrder α] (n : Nat) (key : Nat → α) :
    (argsort n key).Perm (List.range n) := List.mergeSort_perm _ _

theorem argsort_length {α : Type} [LinearOrder α] (n : Nat) (key : Nat → α) :
    (argsort n key).length = n := by simp [argsort]

theorem argsort_sorted {α : Type} [LinearOrder α] (n : Nat) (key : Nat → α) :
    ((argsort n key).map key).Pairwise (· ≤ ·) := by
  rw [List.pairwise_map]
  have := List.pairwise_mergeSort (le := fun i j => decide (key i ≤ key j))
    (by intro a b c h1 h2; simp at *; exact h1.trans h2)
    (by intro a b; simp; exact le_total _ _) (List.range n)
  exact this.imp (by intro a b h; simpa using h)

/-- `argsort` of a permutation is its inverse. -/
theorem argsort_inverse (n : Nat) (sort : List Nat) (hp : sort.Perm (List.range n)) :
    (argsort n (fun i => sort.getD i 0)).map (fun i => sort.getD i 0) = List.range n := by
  have hlen : sort.length = n := by rw [hp.length_eq, List.length_range]
  have h1 := argsort_sorted n (fun i => sort.getD i 0)
  have h2 : ((argsort n (fun i => sort.getD i 0)).map (fun i => sort.getD i 0)).Perm
      (List.range n) := by
    refine ((argsort_perm n _).map _).trans ?_
    have : (List.range n).map (fun i => sort.getD i 0) = sort := by
      apply List.ext_getElem
      · simp [hlen]
      · intro i h1 h2; simp [h2]
    rw [this]; exact hp
  have h3 : (List.range n).Pairwise (· ≤ ·) := List.pairwise_le_range
  exact h2.eq_of_pairwise (fun a b _ _ hab hba => le_antisymm hab hba) h1 h3

end Verif.PairBranch
