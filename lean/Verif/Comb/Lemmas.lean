import Verif.Comb.Model
import Mathlib.Algebra.Order.Floor.Semiring
import Mathlib.Algebra.Order.Field.Basic
import Mathlib.Algebra.BigOperators.Group.List.Basic
import Mathlib.Algebra.Order.BigOperators.Group.List
import Mathlib.Order.Interval.Finset.Nat
import Mathlib.Tactic.Ring
import Mathlib.Tactic.Linarith
import Mathlib.Tactic.FieldSimp
import Mathlib.Tactic.Positivity

/-! Helper lemmas for the comb. -/

namespace Verif.Comb

variable {K : Type} [Field K] [LinearOrder K]

theorem cumsumFrom_length (a : K) (ws : List K) : (cumsumFrom a ws).length = ws.length := by
  induction ws generalizing a with
  | nil => rfl
  | cons w ws ih => simp [cumsumFrom, ih]

theorem cumsumFrom_getElem? (a : K) (ws : List K) (i : Nat) (h : i < ws.length) :
    (cumsumFrom a ws)[i]? = some (a + (ws.take (i + 1)).sum) := by
  induction ws generalizing a i with
  | nil => simp at h
  | cons w ws ih =>
    cases i with
    | zero => simp [cumsumFrom]
    | succ i =>
      simp only [cumsumFrom, List.getElem?_cons_succ]
      rw [ih (a + w) i (by simpa using h)]
      simp [add_assoc]

/-- Number of teeth among the first `m` in the interval of walker `j`. -/
def cnt (t S : Nat → K) (m j : Nat) : Nat :=
  ((List.range m).filter (fun i => S j ≤ t i ∧ t i < S (j + 1))).length

theorem cnt_succ (t S : Nat → K) (m j : Nat) :
    cnt t S (m + 1) j = cnt t S m j + if S j ≤ t m ∧ t m < S (j + 1) then 1 else 0 := by
  unfold cnt
  rw [List.range_succ, List.filter_append, List.length_append]
  congr 1
  by_cases h : S j ≤ t m ∧ t m < S (j + 1)
  · rw [if_pos h, List.filter_cons_of_pos (by simpa using h)]; simp
  · rw [if_neg h, List.filter_cons_of_neg (by simpa using h)]; simp

theorem mono_le {S : Nat → K} {n : Nat} (hS : ∀ j, j < n → S j ≤ S (j + 1)) {a b : Nat}
    (hab : a ≤ b) (hb : b ≤ n) : S a ≤ S b := by
  induction b, hab using Nat.le_induction with
  | base => exact le_refl _
  | succ b hb' ih => exact (ih (by omega)).trans (hS b (by omega))

theorem combLoop_spec (N n : Nat) (t S : Nat → K) (cp : List K) (hcl : cp.length = n)
    (hcp : ∀ i, i < n → cp[i]? = some (S (i + 1)))
    (hS : ∀ j, j < n → S j ≤ S (j + 1)) (ht : ∀ i k, i ≤ k → k < N → t i ≤ t k)
    (htop : ∀ i, i < N → t i < S n) :
    ∀ (m ic iw : Nat), (N - ic) + (n - iw) = m → ic ≤ N → iw ≤ n →
      (∀ i, ic ≤ i → i < N → S iw ≤ t i) →
      combLoop ((List.range N).map t) cp ic iw ((List.range n).map (cnt t S ic)) =
        some ((List.range n).map (cnt t S N)) := by
  intro m
  induction m using Nat.strongRecOn with
  | ind m ih =>
    intro ic iw hm hic hiw hlow
    rw [combLoop]
    by_cases h1 : ic < N
    · have hiwn : iw < n := by
        by_contra hcon
        have : iw = n := by omega
        subst this
        exact absurd (htop ic h1) (not_lt.2 (hlow ic (le_refl _) h1))
      have hget := hcp iw hiwn
      rw [dif_pos (by simpa using h1)]
      split
      · rename_i hnone; rw [hget] at hnone; simp at hnone
      · rename_i c hsome
        rw [hget] at hsome
        simp only [Option.some.injEq] at hsome
        subst hsome
        simp only [List.getElem_map, List.getElem_range]
        split_ifs with hlt
        · have hpar : ((List.range n).map (cnt t S ic)).modify iw (· + 1) =
              (List.range n).map (cnt t S (ic + 1)) := by
            apply List.ext_getElem
            · simp
            · intro j hj1 hj2
              simp only [List.length_map, List.length_range] at hj2
              rw [List.getElem_modify]
              simp only [List.getElem_map, List.getElem_range]
              rw [cnt_succ]
              by_cases hj : iw = j
              · subst hj
                simp [hlow ic (le_refl _) h1, hlt]
              · rw [if_neg hj, if_neg]
                · rfl
                · rintro ⟨h2, h3⟩
                  rcases Nat.lt_or_gt_of_ne hj with h4 | h4
                  · have := mono_le hS (show iw + 1 ≤ j by omega) (by omega)
                    exact absurd (lt_of_lt_of_le hlt this) (not_lt.2 h2)
                  · have := mono_le hS (show j + 1 ≤ iw by omega) (by omega)
                    exact absurd (lt_of_lt_of_le h3 this) (not_lt.2 (hlow ic (le_refl _) h1))
          rw [hpar]
          exact ih _ (by omega) (ic + 1) iw rfl (by omega) hiw
            (fun i hi hi2 => hlow i (by omega) hi2)
        · exact ih _ (by omega) ic (iw + 1) rfl hic (by omega)
            (fun i hi hi2 => le_trans (not_lt.1 hlt) (ht ic i hi hi2))
    · have : ic = N := by omega
      subst this
      rw [dif_neg (by simp)]

variable [IsStrictOrderedRing K]

theorem teeth_mono (total : K) (N : Nat) (r : K) (hT : 0 < total) (i k : Nat) (hik : i ≤ k) :
    ((i : K) + r) * (total / (N : K)) ≤ ((k : K) + r) * (total / (N : K)) := by
  have h1 : (0 : K) ≤ total / (N : K) := div_nonneg hT.le (Nat.cast_nonneg _)
  have h2 : (i : K) ≤ k := by exact_mod_cast hik
  exact mul_le_mul_of_nonneg_right (by linarith) h1

theorem teeth_top (total : K) (N : Nat) (r : K) (hT : 0 < total) (hr : r < 1) (i : Nat)
    (hi : i < N) : ((i : K) + r) * (total / (N : K)) < total := by
  have hN : (0 : K) < N := by exact_mod_cast (by omega : 0 < N)
  have h1 : ((i : K) + 1) ≤ N := by exact_mod_cast hi
  rw [mul_div_assoc', div_lt_iff₀ hN, mul_comm]
  exact mul_lt_mul_of_pos_left (by linarith) hT

/-- Closed form of the selection. -/
theorem combSelect_eq (ws : List K) (N : Nat) (r : K) (hnn : ∀ w ∈ ws, 0 ≤ w)
    (hT : 0 < ws.sum) (hr0 : 0 ≤ r) (hr1 : r < 1) :
    combSelect ws N r = some ((List.range ws.length).map
      (cnt (fun i => ((i : K) + r) * (ws.sum / (N : K))) (fun j => (ws.take j).sum) N)) := by
  have hS : ∀ j, j < ws.length → (ws.take j).sum ≤ (ws.take (j + 1)).sum := by
    intro j hj
    rw [List.take_add_one, List.sum_append]
    simp only [List.getElem?_eq_getElem hj, Option.toList_some, List.sum_singleton]
    have := hnn ws[j] (List.getElem_mem hj)
    linarith
  have := combLoop_spec N ws.length (fun i => ((i : K) + r) * (ws.sum / (N : K)))
    (fun j => (ws.take j).sum) (cumsumFrom 0 ws) (cumsumFrom_length _ _)
    (fun i hi => by rw [cumsumFrom_getElem? _ _ _ hi]; simp) hS
    (fun i k hik _ => teeth_mono _ _ _ hT i k hik)
    (fun i hi => by simpa using teeth_top ws.sum N r hT hr1 i hi)
    ((N - 0) + (ws.length - 0)) 0 0 rfl (by omega) (by omega) (by
      intro i _ _
      simp only [List.take_zero, List.sum_nil]
      have h1 : (0 : K) ≤ ws.sum / (N : K) := div_nonneg hT.le (Nat.cast_nonneg _)
      have h2 : (0 : K) ≤ (i : K) := Nat.cast_nonneg _
      positivity)
  rw [← this, combSelect, teeth]
  congr 1
  apply List.ext_getElem
  · simp
  · intro j h1 h2
    simp [cnt]

/-- Sum of the counts of the first walkers: the number of teeth below the partial sum. -/
theorem sum_cnt (t S : Nat → K) (N n : Nat) (hS : ∀ j, j < n → S j ≤ S (j + 1))
    (hlow : ∀ i, i < N → S 0 ≤ t i) :
    ((List.range n).map (cnt t S N)).sum = ((List.range N).filter (fun i => t i < S n)).length := by
  induction n with
  | zero =>
    simp only [List.range_zero, List.map_nil, List.sum_nil]
    symm
    rw [List.length_eq_zero_iff, List.filter_eq_nil_iff]
    intro i hi
    simpa using hlow i (by simpa using hi)
  | succ n ih =>
    rw [List.range_succ, List.map_append, List.sum_append, ih (fun j hj => hS j (by omega))]
    simp only [List.map_cons, List.map_nil, List.sum_cons, List.sum_nil, add_zero, cnt]
    have hle := hS n (by omega)
    rw [← List.countP_eq_length_filter, ← List.countP_eq_length_filter,
      ← List.countP_eq_length_filter]
    clear ih hlow
    induction (List.range N) with
    | nil => simp
    | cons a l ihl =>
      simp only [List.countP_cons]
      have : (if decide (t a < S n) = true then 1 else 0) +
          (if decide (S n ≤ t a ∧ t a < S (n + 1)) = true then 1 else 0) =
          if decide (t a < S (n + 1)) = true then 1 else 0 := by
        by_cases h1 : t a < S n
        · have h2 : t a < S (n + 1) := lt_of_lt_of_le h1 hle
          simp [h1, h2]
        · simp only [h1, not_lt.1 h1]; simp
      omega

variable [FloorSemiring K]

/-- Teeth count as difference of ceilings. -/
theorem cnt_eq_ceil (total : K) (S : Nat → K) (N j : Nat) (r : K) (hT : 0 < total)
    (hN : 0 < N) (hr0 : 0 ≤ r) (htop : S (j + 1) ≤ total) :
    cnt (fun i => ((i : K) + r) * (total / (N : K))) S N j =
      ⌈S (j + 1) * N / total - r⌉₊ - ⌈S j * N / total - r⌉₊ := by
  have hNK : (0 : K) < N := by exact_mod_cast hN
  have hb : ⌈S (j + 1) * N / total - r⌉₊ ≤ N := by
    rw [Nat.ceil_le]
    have : S (j + 1) * N / total ≤ N := by
      rw [div_le_iff₀ hT, mul_comm]
      exact mul_le_mul_of_nonneg_left htop hNK.le
    linarith
  have hset : ∀ i : Nat, (S j ≤ ((i : K) + r) * (total / (N : K)) ∧
      ((i : K) + r) * (total / (N : K)) < S (j + 1)) ↔
      (⌈S j * N / total - r⌉₊ ≤ i ∧ i < ⌈S (j + 1) * N / total - r⌉₊) := by
    intro i
    rw [Nat.ceil_le, Nat.lt_ceil, mul_div_assoc', le_div_iff₀ hNK, div_lt_iff₀ hNK,
      sub_le_iff_le_add, lt_sub_iff_add_lt, div_le_iff₀ hT, lt_div_iff₀ hT]
  unfold cnt
  rw [List.filter_congr (q := fun i => decide (⌈S j * N / total - r⌉₊ ≤ i ∧
    i < ⌈S (j + 1) * N / total - r⌉₊)) (fun i _ => by simp only [hset i])]
  have : ((List.range N).filter (fun i => decide (⌈S j * N / total - r⌉₊ ≤ i ∧
      i < ⌈S (j + 1) * N / total - r⌉₊))).length =
      (Finset.Ico ⌈S j * N / total - r⌉₊ ⌈S (j + 1) * N / total - r⌉₊).card := by
    rw [← List.toFinset_card_of_nodup (List.Nodup.filter _ List.nodup_range)]
    congr 1
    ext i
    simp only [List.toFinset_filter, List.toFinset_range, decide_eq_true_eq, Finset.mem_filter,
      Finset.mem_range, Finset.mem_Ico]
    omega
  rw [this, Nat.card_Ico]

end Verif.Comb
