import Verif.Setup.Model
import Mathlib.Analysis.Complex.Basic
import Mathlib.Order.Interval.Finset.Nat
import Mathlib.Data.List.Sort
import Mathlib.Tactic.Linarith
import Mathlib.Tactic.Ring

/-!
# C49, C51, C54, C58, C59, C61
-/

namespace Verif.Setup

/-! ## C49 -/

/-- **C49**: a positive number of walkers on each rank. -/
theorem walkersPerRank_pos (n size : Nat) : 0 < walkersPerRank n size := by
  unfold walkersPerRank
  split_ifs with h
  · exact Nat.one_pos
  · exact Nat.pos_of_ne_zero h

/-- **C49**: the total is at most the requested number, and less than one walker per rank is lost,
unless there are fewer walkers than ranks; then there is one per rank. -/
theorem totalWalkers_bounds (n size : Nat) (hs : 0 < size) :
    (size ≤ n → totalWalkers n size ≤ n ∧ n < totalWalkers n size + size) ∧
    (n < size → totalWalkers n size = size) := by
  unfold totalWalkers walkersPerRank
  constructor
  · intro h
    have h1 : n / size ≠ 0 := by
      have := Nat.div_pos h hs
      omega
    rw [if_neg h1]
    refine ⟨Nat.div_mul_le_self n size, ?_⟩
    have := Nat.lt_div_mul_add (a := n) hs
    omega
  · intro h
    rw [if_pos (Nat.div_eq_of_lt h), one_mul]

/-- **C49**: ranks have different seeds. -/
theorem seeds_nodup (given : Option Int) (drawn : Int) (size : Nat) :
    (seeds given drawn size).Nodup ∧ (seeds given drawn size).length = size := by
  refine ⟨?_, by simp [seeds]⟩
  refine List.Nodup.map ?_ List.nodup_range
  intro a b h
  have : (a : Int) = b := by simpa using h
  exact_mod_cast this

/-- **C49**: a given seed fixes all of them, whatever the root draws. -/
theorem seeds_given (s d d' : Int) (size : Nat) : seeds (some s) d size = seeds (some s) d' size := rfl

example : totalWalkers 10 4 = 8 ∧ totalWalkers 3 4 = 4 ∧ seeds (some 7) 0 3 = [7, 8, 9] := by decide

/-! ## C51 -/

/-- **C51**: every column is worked on by exactly one rank. -/
theorem columns_partition (nchol size : Nat) (hs : 0 < size) (c : Nat) (hc : c < nchol) :
    ∃! r, r < size ∧ ∃ s e, columns nchol size r = some (s, e) ∧ s ≤ c ∧ c < e := by
  unfold columns
  by_cases h0 : nchol / size = 0
  · refine ⟨0, ⟨hs, 0, nchol, by simp [h0], Nat.zero_le _, hc⟩, ?_⟩
    rintro r ⟨_, s, e, h, _⟩
    by_contra hr
    simp [h0, hr] at h
  · have hn : 0 < nchol / size := Nat.pos_of_ne_zero h0
    set n := nchol / size with hndef
    have hle : size * n ≤ nchol := by rw [hndef]; exact Nat.mul_div_le nchol size
    -- the rank
    set r := min (c / n) (size - 1) with hr
    have hrs : r < size := by rw [hr]; have := min_le_right (c / n) (size - 1); omega
    refine ⟨r, ⟨hrs, r * n, if r = size - 1 then nchol else (r + 1) * n, by simp [h0], ?_, ?_⟩, ?_⟩
    · calc r * n ≤ c / n * n := Nat.mul_le_mul_right _ (min_le_left _ _)
        _ ≤ c := Nat.div_mul_le_self c n
    · split_ifs with hl
      · exact hc
      · have : r = c / n := by
          rw [hr]; rcases min_choice (c / n) (size - 1) with h | h
          · exact h
          · exact absurd (by rw [← hr] at h; exact h) hl
        rw [this, add_mul, one_mul]
        exact Nat.lt_div_mul_add hn
    · rintro q ⟨hq, s, e, h, h1, h2⟩
      simp only [h0, if_false, Option.some.injEq, Prod.mk.injEq] at h
      obtain ⟨rfl, rfl⟩ := h
      have hq1 : q ≤ c / n := by
        rw [Nat.le_div_iff_mul_le hn]; exact h1
      split_ifs at h2 with hl
      · rw [hr, hl]
        rw [hl] at hq1
        omega
      · have hq2 : c / n < q + 1 := by
          rw [Nat.div_lt_iff_lt_mul hn]; exact h2
        rw [hr]
        omega

open Classical in
/-- Rows and columns of an entry of the shared array. -/
theorem rankDet_entry (M na nb nchol size : Nat) (chol : Nat → Nat → Nat → ℂ)
    (psi : Nat → Nat → Nat → ℂ) (rank i : Nat) (A : Arr) (r c : Nat) :
    rankDet M na nb nchol size chol psi rank i A r c =
      if (∃ s e, columns nchol size rank = some (s, e) ∧ s ≤ c ∧ c < e) ∧
          i * (M * (na + nb)) ≤ r ∧ r < (i + 1) * (M * (na + nb)) then
        ∑ j : Fin M, star (psi i j ((r - i * (M * (na + nb))) / M)) *
          chol j ((r - i * (M * (na + nb))) % M) c
      else A r c := by
  classical
  unfold rankDet
  cases hcol : columns nchol size rank with
  | none => simp
  | some se =>
    obtain ⟨s, e⟩ := se
    have hex : (∃ s' e', some (s, e) = some (s', e') ∧ s' ≤ c ∧ c < e') ↔ s ≤ c ∧ c < e := by
      constructor
      · rintro ⟨s', e', h, h1, h2⟩
        cases h
        exact ⟨h1, h2⟩
      · rintro ⟨h1, h2⟩; exact ⟨s, e, rfl, h1, h2⟩
    simp only [hex]
    have hM : M * (na + nb) = M * na + M * nb := Nat.mul_add M na nb
    set S := i * (M * (na + nb)) with hS
    have hend : (i + 1) * (M * (na + nb)) = S + M * na + M * nb := by
      rw [add_mul, one_mul, ← hS, hM]; omega
    have hend' : S + M * (na + nb) = S + M * na + M * nb := by omega
    rw [hend]
    unfold assign
    rw [hend']
    by_cases hc : s ≤ c ∧ c < e
    · by_cases h1 : S + M * na ≤ r ∧ r < S + M * na + M * nb
      · rw [if_pos ⟨h1.1, h1.2, hc.1, hc.2⟩, if_pos ⟨hc, by omega, h1.2⟩]
        unfold rotBlock
        have hMpos : 0 < M := by
          by_contra hz
          have : M = 0 := by omega
          subst this
          omega
        have e1 : r - S = (r - (S + M * na)) + M * na := by omega
        have e2 : (r - S) / M = na + (r - (S + M * na)) / M := by
          rw [e1, Nat.add_mul_div_left _ _ hMpos]; omega
        have e3 : (r - S) % M = (r - (S + M * na)) % M := by
          rw [e1, Nat.add_mul_mod_self_left]
        have e4 : s + (c - s) = c := by omega
        rw [e2, e3, e4]
      · rw [if_neg (by tauto)]
        by_cases h2 : S ≤ r ∧ r < S + M * na
        · rw [if_pos ⟨h2.1, h2.2, hc.1, hc.2⟩, if_pos ⟨hc, h2.1, by omega⟩]
          unfold rotBlock
          have e4 : s + (c - s) = c := by omega
          rw [e4, zero_add]
        · rw [if_neg (by tauto), if_neg (by omega)]
    · rw [if_neg (by tauto), if_neg (by tauto), if_neg (by tauto)]

/-- **C51**: whatever the order in which the ranks and determinants are processed, every entry of the
half-rotated array is set to the rotated Cholesky vector element; row `a*M + k` of determinant `i` is
orbital `a`, basis function `k`. -/
theorem halfRotateAll_entry (M na nb nchol size ndets : Nat) (hs : 0 < size)
    (chol : Nat → Nat → Nat → ℂ) (psi : Nat → Nat → Nat → ℂ) (order : List (Nat × Nat))
    (hall : ∀ r < size, ∀ i < ndets, (r, i) ∈ order) (A : Arr)
    (i a k c : Nat) (hi : i < ndets) (ha : a < na + nb) (hk : k < M) (hc : c < nchol) :
    halfRotateAll M na nb nchol size chol psi order A (i * (M * (na + nb)) + (a * M + k)) c =
      ∑ j : Fin M, star (psi i j a) * chol j k c := by
  classical
  set r := i * (M * (na + nb)) + (a * M + k) with hr
  have hMpos : 0 < M := by omega
  have hrow : ∀ i', i' * (M * (na + nb)) ≤ r ∧ r < (i' + 1) * (M * (na + nb)) ↔ i' = i := by
    intro i'
    have hlt : a * M + k < M * (na + nb) := by
      calc a * M + k < a * M + M := by omega
        _ = (a + 1) * M := by ring
        _ ≤ (na + nb) * M := Nat.mul_le_mul_right _ ha
        _ = M * (na + nb) := by ring
    have hW : 0 < M * (na + nb) := by omega
    have hdiv : r / (M * (na + nb)) = i := by
      rw [hr, Nat.mul_comm i, Nat.mul_add_div hW, Nat.div_eq_of_lt hlt, add_zero]
    constructor
    · rintro ⟨h1, h2⟩
      have := Nat.div_eq_of_lt_le h1 h2
      omega
    · rintro rfl
      rw [hr]
      refine ⟨Nat.le_add_right _ _, ?_⟩
      rw [add_mul, one_mul]
      omega
  have hdiv : (r - i * (M * (na + nb))) / M = a := by
    rw [hr, Nat.add_sub_cancel_left, Nat.mul_comm a, Nat.mul_add_div hMpos, Nat.div_eq_of_lt hk,
      add_zero]
  have hmod : (r - i * (M * (na + nb))) % M = k := by
    rw [hr, Nat.add_sub_cancel_left, Nat.mul_comm a, Nat.mul_add_mod, Nat.mod_eq_of_lt hk]
  obtain ⟨q, ⟨hq, hqc⟩, _⟩ := columns_partition nchol size hs c hc
  -- after the entry has been set it keeps its value
  have hstep : ∀ (x : Nat × Nat) (A : Arr),
      rankDet M na nb nchol size chol psi x.1 x.2 A r c = A r c ∨
      rankDet M na nb nchol size chol psi x.1 x.2 A r c = ∑ j : Fin M, star (psi i j a) * chol j k c := by
    intro x A
    rw [rankDet_entry]
    split_ifs with h
    · right
      have := (hrow x.2).mp h.2
      rw [this, hdiv, hmod]
    · left; rfl
  have hset : ∀ A : Arr, rankDet M na nb nchol size chol psi q i A r c =
      ∑ j : Fin M, star (psi i j a) * chol j k c := by
    intro A
    rw [rankDet_entry, if_pos ⟨hqc, (hrow i).mpr rfl⟩, hdiv, hmod]
  have hmem := hall q hq i hi
  have key : ∀ (l : List (Nat × Nat)) (A : Arr),
      ((q, i) ∈ l ∨ A r c = ∑ j : Fin M, star (psi i j a) * chol j k c) →
      halfRotateAll M na nb nchol size chol psi l A r c =
        ∑ j : Fin M, star (psi i j a) * chol j k c := by
    intro l
    induction l with
    | nil =>
      intro A h
      rcases h with h | h
      · cases h
      · exact h
    | cons x l ih =>
      intro A h
      show halfRotateAll M na nb nchol size chol psi l
        (rankDet M na nb nchol size chol psi x.1 x.2 A) r c = _
      apply ih
      rcases h with h | h
      · rcases List.mem_cons.mp h with h | h
        · right; rw [← h]; exact hset A
        · left; exact h
      · right
        rcases hstep x A with h' | h'
        · rw [h', h]
        · exact h'
  exact key order A (Or.inl hmem)

/-- **C51**: the slices handed out cover the rows of the determinant, alpha orbitals first. -/
theorem rotCholRows_spec (M na nb idet : Nat) :
    rotCholRows M na nb idet none = (idet * (M * (na + nb)), (idet + 1) * (M * (na + nb))) ∧
    (rotCholRows M na nb idet (some 0)).1 = (rotCholRows M na nb idet none).1 ∧
    (rotCholRows M na nb idet (some 0)).2 = (rotCholRows M na nb idet (some 1)).1 ∧
    (rotCholRows M na nb idet (some 1)).2 = (rotCholRows M na nb idet none).2 ∧
    (rotCholRows M na nb idet (some 0)).2 - (rotCholRows M na nb idet (some 0)).1 = na * M := by
  refine ⟨rfl, rfl, rfl, ?_, ?_⟩
  · simp only [rotCholRows]; ring
  · simp only [rotCholRows]; rw [Nat.add_sub_cancel_left, Nat.mul_comm]

example : columns 7 3 0 = some (0, 2) ∧ columns 7 3 1 = some (2, 4) ∧ columns 7 3 2 = some (4, 7) ∧
    columns 2 3 0 = some (0, 2) ∧ columns 2 3 1 = none := by decide

/-! ## C59 -/

/-- **C59**: the number kept is always the number of coefficients above the threshold; the
determinants kept are those exactly if no determinant above the threshold follows one below it. -/
theorem thresholdDets_iff {D : Type*} (thresh : ℝ) (wfn : List (ℂ × D)) :
    (thresholdDets thresh wfn).length = (open Classical in
      (wfn.filter fun x => thresh < ‖x.1‖).length) ∧
    ((∀ x ∈ thresholdDets thresh wfn, thresh < ‖x.1‖) ↔
      thresholdDets thresh wfn = (open Classical in wfn.filter fun x => thresh < ‖x.1‖)) := by
  classical
  unfold thresholdDets
  have key : ∀ l : List (ℂ × D), (∀ x ∈ l.take (l.filter fun x => thresh < ‖x.1‖).length,
      thresh < ‖x.1‖) →
      l.take (l.filter fun x => thresh < ‖x.1‖).length = l.filter fun x => thresh < ‖x.1‖ := by
    intro l
    induction l with
    | nil => intro _; rfl
    | cons y l ih =>
      intro h
      by_cases hy : thresh < ‖y.1‖
      · rw [List.filter_cons_of_pos (by simpa using hy)] at h ⊢
        rw [List.length_cons, List.take_succ_cons] at h ⊢
        rw [ih fun x hx => h x (List.mem_cons_of_mem _ hx)]
      · rw [List.filter_cons_of_neg (by simpa using hy)] at h ⊢
        cases hn : (l.filter fun x => thresh < ‖x.1‖).length with
        | zero =>
          rw [List.length_eq_zero_iff] at hn
          rw [hn]; rfl
        | succ n =>
          rw [hn, List.take_succ_cons] at h
          exact absurd (h y (by simp)) hy
  constructor
  · rw [List.length_take]
    exact min_eq_left (List.length_filter_le _ _)
  · constructor
    · exact key wfn
    · intro h x hx
      rw [h] at hx
      simpa using (List.mem_filter.mp hx).2

/-- **C59 (sorted coefficients)**: for coefficients in order of decreasing magnitude, exactly the
determinants above the threshold are kept. -/
theorem thresholdDets_sorted_partial {D : Type*} (thresh : ℝ) (wfn : List (ℂ × D))
    (hs : wfn.Pairwise fun a b => ‖b.1‖ ≤ ‖a.1‖) :
    thresholdDets thresh wfn = (open Classical in wfn.filter fun x => thresh < ‖x.1‖) := by
  classical
  unfold thresholdDets
  induction wfn with
  | nil => rfl
  | cons y l ih =>
    rw [List.pairwise_cons] at hs
    by_cases hy : thresh < ‖y.1‖
    · rw [List.filter_cons_of_pos (by simpa using hy)]
      simp only [List.length_cons, List.take_succ_cons]
      rw [ih hs.2]
    · have : l.filter (fun x => thresh < ‖x.1‖) = [] := by
        rw [List.filter_eq_nil_iff]
        intro x hx
        have := hs.1 x hx
        simp only [decide_eq_true_eq, not_lt]
        linarith [not_lt.mp hy]
      rw [List.filter_cons_of_neg (by simpa using hy), this]
      rfl

/-- **C59 fails** in general: coefficients 0 and 1 with threshold one half keep the wrong one. -/
theorem thresholdDets_unsorted :
    thresholdDets (1 / 2) [((0 : ℂ), "a"), ((1 : ℂ), "b")] = [((0 : ℂ), "a")] ∧
    (open Classical in [((0 : ℂ), "a"), ((1 : ℂ), "b")].filter fun x => (1 / 2 : ℝ) < ‖x.1‖) =
      [((1 : ℂ), "b")] := by
  classical
  have h : ([((0 : ℂ), "a"), ((1 : ℂ), "b")].filter fun x => (1 / 2 : ℝ) < ‖x.1‖) =
      [((1 : ℂ), "b")] := by
    rw [List.filter_cons_of_neg (by norm_num), List.filter_cons_of_pos (by simp; norm_num)]
    rfl
  refine ⟨?_, h⟩
  unfold thresholdDets
  rw [h]
  rfl

/-! ## C54 -/

/-- The distributions of `n` balls over boxes. -/
def Distribution (n : Nat) (boxes : List Nat) (d : List Nat) : Prop :=
  List.Forall₂ (· ≤ ·) d boxes ∧ d.sum = n

theorem distribution_zero (boxes d : List Nat) :
    Distribution 0 boxes d ↔ d = List.replicate boxes.length 0 := by
  constructor
  · rintro ⟨h, hs⟩
    rw [List.eq_replicate_iff]
    exact ⟨h.length_eq, fun x hx => (List.sum_eq_zero_iff.mp hs) x hx⟩
  · rintro rfl
    refine ⟨?_, by simp⟩
    induction boxes with
    | nil => exact List.Forall₂.nil
    | cons b bs ih =>
      rw [List.length_cons, List.replicate_succ]
      exact List.Forall₂.cons (Nat.zero_le _) ih

/-- **C54**: exactly the distributions are listed. -/
theorem mem_ballsInBoxes (n : Nat) (boxes d : List Nat) :
    d ∈ ballsInBoxes n boxes ↔ Distribution n boxes d := by
  induction boxes generalizing n d with
  | nil =>
    cases n with
    | zero => rw [ballsInBoxes, distribution_zero]; simp
    | succ n =>
      rw [ballsInBoxes]
      constructor
      · intro h; cases h
      · rintro ⟨h, hs⟩
        cases h
        simp at hs
  | cons b bs ih =>
    cases n with
    | zero => rw [ballsInBoxes, distribution_zero]; simp
    | succ n =>
      cases bs with
      | nil =>
        rw [ballsInBoxes]
        constructor
        · intro h
          split_ifs at h with hb
          · rw [List.mem_singleton] at h
            subst h
            exact ⟨List.Forall₂.cons hb List.Forall₂.nil, by simp⟩
          · cases h
        · rintro ⟨h, hs⟩
          cases h with
          | cons h1 h2 =>
            cases h2
            simp only [List.sum_cons, List.sum_nil, add_zero] at hs
            subst hs
            rw [if_pos h1]
            simp
      | cons b' bs =>
        rw [ballsInBoxes, List.mem_flatMap]
        constructor
        · rintro ⟨k, hk, hd⟩
          rw [List.mem_reverse, List.mem_range] at hk
          obtain ⟨d', hd', rfl⟩ := List.mem_map.mp hd
          obtain ⟨h1, h2⟩ := (ih _ d').mp hd'
          refine ⟨List.Forall₂.cons (by omega) h1, ?_⟩
          rw [List.sum_cons, h2]
          omega
        · rintro ⟨h, hs⟩
          cases h with
          | @cons k _ d' _ h1 h2 =>
            rw [List.sum_cons] at hs
            refine ⟨k, ?_, List.mem_map.mpr ⟨d', (ih _ d').mpr ⟨h2, by omega⟩, rfl⟩⟩
            rw [List.mem_reverse, List.mem_range]
            omega

/-- **C54**: none twice. -/
theorem nodup_ballsInBoxes (n : Nat) (boxes : List Nat) : (ballsInBoxes n boxes).Nodup := by
  induction boxes generalizing n with
  | nil => cases n <;> rw [ballsInBoxes] <;> simp
  | cons b bs ih =>
    cases n with
    | zero => rw [ballsInBoxes]; simp
    | succ n =>
      cases bs with
      | nil => rw [ballsInBoxes]; split_ifs <;> simp
      | cons b' bs =>
        rw [ballsInBoxes, List.nodup_flatMap]
        constructor
        · intro k _
          exact (ih _).map (List.cons_injective)
        · refine List.Nodup.pairwise_of_forall_ne (List.nodup_reverse.mpr List.nodup_range) ?_
          intro k _ l _ hkl
          intro d hd hd'
          obtain ⟨d1, _, rfl⟩ := List.mem_map.mp hd
          obtain ⟨d2, _, h⟩ := List.mem_map.mp hd'
          exact hkl (List.cons.inj h).1.symm

/-- **C54**: the enumeration raises an error exactly for a negative number of balls, a non-positive
capacity or too small a total capacity; otherwise it lists the distributions. -/
theorem enumerate_spec (balls : Int) (boxes : List Int) :
    (enumerate balls boxes = none ↔ balls < 0 ∨ (∃ b ∈ boxes, b < 1) ∨ boxes.sum < balls) ∧
    ∀ l, enumerate balls boxes = some l → l.Nodup ∧
      ∀ d, d ∈ l ↔ Distribution balls.toNat (boxes.map Int.toNat) d := by
  unfold enumerate
  constructor
  · split_ifs with h1 h2 h3
    · simp [h1]
    · simp only [true_iff]
      right; left
      obtain ⟨b, hb, hlt⟩ := List.any_eq_true.mp h2
      exact ⟨b, hb, by simpa using hlt⟩
    · simp [h3]
    · simp only [reduceCtorEq, false_iff]
      rintro (h | ⟨b, hb, hlt⟩ | h)
      · exact h1 h
      · exact h2 (List.any_eq_true.mpr ⟨b, hb, by simpa using hlt⟩)
      · exact h3 h
  · intro l hl
    split_ifs at hl
    cases hl
    exact ⟨nodup_ballsInBoxes _ _, fun d => mem_ballsInBoxes _ _ d⟩

/-- At least one distribution is listed if the input is accepted. -/
theorem enumerate_nonempty (balls : Int) (boxes : List Int) (l : List (List Nat))
    (h : enumerate balls boxes = some l) : l ≠ [] := by
  have key : ∀ (bs : List Nat) (n : Nat), n ≤ bs.sum → ∃ d, Distribution n bs d := by
    intro bs
    induction bs with
    | nil =>
      intro n hn
      exact ⟨[], List.Forall₂.nil, by simpa using (Nat.le_zero.mp (by simpa using hn)).symm⟩
    | cons b bs ih =>
      intro n hn
      rw [List.sum_cons] at hn
      obtain ⟨d, h1, h2⟩ := ih (n - min n b) (by omega)
      exact ⟨min n b :: d, List.Forall₂.cons (min_le_right _ _) h1, by
        rw [List.sum_cons, h2]; omega⟩
  have hs := (enumerate_spec balls boxes).2 l h
  have hn : ¬ (balls < 0 ∨ (∃ b ∈ boxes, b < 1) ∨ boxes.sum < balls) := by
    rw [← (enumerate_spec balls boxes).1, h]; simp
  push Not at hn
  obtain ⟨h0, h1, h2⟩ := hn
  have hsum : ∀ bs : List Int, (∀ b ∈ bs, 1 ≤ b) → ((bs.map Int.toNat).sum : Int) = bs.sum := by
    intro bs
    induction bs with
    | nil => intro _; rfl
    | cons b bs ih =>
      intro hb
      rw [List.map_cons, List.sum_cons, List.sum_cons]
      push_cast
      have hb1 := hb b (by simp)
      have := ih fun x hx => hb x (List.mem_cons_of_mem _ hx)
      push_cast at this
      rw [this]
      omega
  obtain ⟨d, hd⟩ := key (boxes.map Int.toNat) balls.toNat (by
    have := hsum boxes h1
    omega)
  intro hl
  rw [hl] at hs
  exact absurd ((hs.2 d).mpr hd) (by simp)

example : ballsInBoxes 3 [2, 1, 2] = [[2, 1, 0], [2, 0, 1], [1, 1, 1], [1, 0, 2], [0, 1, 2]] := by
  decide +kernel

/-! ## C58 -/

/-- The fits with a root, in order. -/
def found : List Fit → List (ℝ × ℝ)
  | [] => []
  | (_, none) :: fs => found fs
  | (r, some (mu, _)) :: fs => (r, mu) :: found fs

/-- **C58, what the code does**: it returns the last root whose residual is below the residual of the
first root, or the first root; the residual stored is never updated. -/
theorem fitLoop_best (fs : List Fit) (rmin mu0 : ℝ) (last) :
    (fitLoop fs (some (rmin, mu0)) last).1 = some (rmin,
      (open Classical in (((found fs).filter fun x => x.1 < rmin).map Prod.snd).getLastD mu0)) := by
  classical
  induction fs generalizing mu0 last with
  | nil => simp [fitLoop, found]
  | cons f fs ih =>
    obtain ⟨r, o⟩ := f
    cases o with
    | none => rw [fitLoop, ih, found]
    | some x =>
      obtain ⟨mu, conv⟩ := x
      rw [fitLoop, found]
      by_cases h : r < rmin
      · simp only [h, if_true]
        rw [ih, List.filter_cons_of_pos (by simpa using h), List.map_cons, List.getLastD_cons]
      · simp only [h, if_false]
        rw [ih, List.filter_cons_of_neg (by simpa using h)]

theorem fitLoop_best_none (fs : List Fit) (last) :
    (fitLoop fs none last).1 = match found fs with
      | [] => none
      | (r, mu) :: l => some (r,
          (open Classical in ((l.filter fun x => x.1 < r).map Prod.snd).getLastD mu)) := by
  classical
  induction fs generalizing last with
  | nil => rfl
  | cons f fs ih =>
    obtain ⟨r, o⟩ := f
    cases o with
    | none => rw [fitLoop, ih]; rfl
    | some x =>
      obtain ⟨mu, conv⟩ := x
      rw [fitLoop, fitLoop_best]
      rfl

theorem fitLoop_last (fs : List Fit) (best last) (h : fs ≠ []) :
    (fitLoop fs best last).2 = some (fs.getLast h).2 := by
  induction fs generalizing best last with
  | nil => exact absurd rfl h
  | cons f fs ih =>
    obtain ⟨r, o⟩ := f
    cases fs with
    | nil =>
      cases o with
      | none => rfl
      | some x => obtain ⟨mu, conv⟩ := x; rfl
    | cons g gs =>
      rw [List.getLast_cons (by simp)]
      cases o with
      | none => exact ih _ _ (by simp)
      | some x => obtain ⟨mu, conv⟩ := x; exact ih _ _ (by simp)

/-- **C58 (decreasing residuals)**: if the residuals of the fits with a root do not increase from one
window to the next, a returned value belongs to a fit with the smallest residual. -/
theorem findChemPot_partial (fs : List Fit) (mu : ℝ)
    (hd : (found fs).Pairwise fun a b => b.1 ≤ a.1) (h : findChemPot fs = some (some mu)) :
    ∃ r, (r, mu) ∈ found fs ∧ ∀ x ∈ found fs, r ≤ x.1 := by
  classical
  unfold findChemPot at h
  have hb := fitLoop_best_none fs none
  generalize hfl : fitLoop fs none none = p at h hb
  obtain ⟨best, last⟩ := p
  simp only at hb
  cases last with
  | none => simp at h
  | some last =>
    cases last with
    | none => simp at h
    | some y =>
      obtain ⟨_, conv⟩ := y
      simp only [Option.some.injEq] at h
      cases conv with
      | false => simp at h
      | true =>
        simp only [if_true] at h
        cases hf : found fs with
        | nil => rw [hf] at hb; rw [hb] at h; simp at h
        | cons x l =>
          obtain ⟨r, mu1⟩ := x
          rw [hf] at hb hd
          simp only at hb
          rw [hb] at h
          simp only [Option.map_some, Option.some.injEq] at h
          rw [List.pairwise_cons] at hd
          by_cases he : (l.filter fun x => x.1 < r) = []
          · rw [he] at h
            simp only [List.map_nil, List.getLastD_nil] at h
            subst h
            refine ⟨r, by simp, ?_⟩
            intro z hz
            rcases List.mem_cons.mp hz with rfl | hz
            · exact le_refl _
            · by_contra hlt
              have hm : z ∈ l.filter fun x => x.1 < r :=
                List.mem_filter.mpr ⟨hz, by simpa using not_le.mp hlt⟩
              rw [he] at hm
              cases hm
          · -- the last of the filtered list is the last of the list
            obtain ⟨w, hw⟩ : ∃ w, (l.filter fun x => x.1 < r).getLast? = some w := by
              cases hg : (l.filter fun x => x.1 < r).getLast? with
              | none => exact absurd (List.getLast?_eq_none_iff.mp hg) he
              | some w => exact ⟨w, rfl⟩
            have hmu : mu = w.2 := by
              rw [List.getLastD_eq_getLast?, List.getLast?_map, hw] at h
              simpa using h.symm
            have hwm : w ∈ l.filter fun x => x.1 < r := List.mem_of_getLast? hw
            have hwl := (List.mem_filter.mp hwm).1
            refine ⟨w.1, by rw [hmu]; exact List.mem_cons_of_mem _ hwl, ?_⟩
            intro z hz
            rcases List.mem_cons.mp hz with rfl | hz
            · exact hd.1 w hwl
            · by_contra hlt
              push Not at hlt
              have hwr : w.1 < r := by simpa using (List.mem_filter.mp hwm).2
              have hzm : z ∈ l.filter fun x => x.1 < r :=
                List.mem_filter.mpr ⟨hz, by simpa using lt_trans hlt hwr⟩
              have hpw : (l.filter fun x => x.1 < r).Pairwise fun a b => b.1 ≤ a.1 :=
                hd.2.sublist List.filter_sublist
              obtain ⟨init, hinit⟩ : ∃ init, (l.filter fun x => x.1 < r) = init ++ [w] := by
                obtain ⟨init, hi⟩ := List.getLast?_eq_some_iff.mp hw
                exact ⟨init, hi⟩
              rw [hinit] at hzm hpw
              rcases List.mem_append.mp hzm with hzi | hzw
              · have := (List.pairwise_append.mp hpw).2.2 z hzi w (by simp)
                linarith
              · rw [List.mem_singleton] at hzw
                rw [hzw] at hlt
                exact lt_irrefl _ hlt

/-- **C58 fails**: with residuals 3, 1, 2 the root of the third window is returned, because the
smallest residual is not updated. -/
theorem findChemPot_wrong :
    findChemPot [(3, some (10, true)), (1, some (20, true)), (2, some (30, true))] =
      some (some 30) := by
  have h1 : (1 : ℝ) < 3 := by norm_num
  have h2 : (2 : ℝ) < 3 := by norm_num
  simp [findChemPot, fitLoop, h1, h2]

/-- **C58 fails** also when the last window has no root: the earlier ones are discarded. -/
theorem findChemPot_last_window (fs : List Fit) (r : ℝ) :
    findChemPot (fs ++ [(r, none)]) = some none := by
  unfold findChemPot
  have h := fitLoop_last (fs ++ [(r, none)]) none none (by simp)
  rw [List.getLast_append_singleton] at h
  generalize fitLoop (fs ++ [(r, none)]) none none = p at h ⊢
  obtain ⟨best, last⟩ := p
  simp only at h
  subst h
  rfl

/-! ## C61 -/

section UHF

variable {P : Type*}

/-- Invariant of the search over attempts. -/
structure UhfInv (deps : ℝ) (done : List (Attempt P)) (s : Search P) : Prop where
  len : s.minima = [] ↔ s.accepted = none
  mem : ∀ psi, s.accepted = some psi → ∃ a ∈ done, a.converged = true ∧ a.psi = psi ∧
    ∃ l, s.minima = l ++ [a.energy]
  dec : s.minima.Pairwise fun x y => y ≤ x
  low : ∀ a ∈ done, a.converged = true → ∃ m ∈ s.minima, m ≤ a.energy + deps
  dens : s.dens = done.getLast?.map Attempt.dens

theorem uhfAttempt_inv (deps : ℝ) (hd : 0 ≤ deps) (first : Bool) (done : List (Attempt P))
    (s : Search P) (h : UhfInv deps done s) (hf : first = true → s.minima = []) (a : Attempt P) :
    UhfInv deps (done ++ [a]) (uhfAttempt deps first s a) := by
  classical
  unfold uhfAttempt
  have hdens : (done ++ [a]).getLast?.map Attempt.dens = some a.dens := by simp
  by_cases hc : a.converged = true
  · simp only [hc, if_true]
    by_cases hacc : first = true ∨ ∀ m ∈ s.minima, deps < m - a.energy
    · rw [if_pos hacc]
      have hall : ∀ m ∈ s.minima, a.energy ≤ m := by
        rcases hacc with h1 | h1
        · rw [hf h1]; intro m hm; cases hm
        · intro m hm; linarith [h1 m hm]
      refine ⟨by simp, ?_, ?_, ?_, hdens.symm⟩
      · intro psi hpsi
        refine ⟨a, by simp, hc, Option.some.inj hpsi, s.minima, rfl⟩
      · refine List.pairwise_append.mpr ⟨h.dec, List.pairwise_singleton _ _, ?_⟩
        intro m hm e he
        rw [List.mem_singleton] at he
        rw [he]; exact hall m hm
      · intro b hb hbc
        rcases List.mem_append.mp hb with hb | hb
        · obtain ⟨m, hm, hle⟩ := h.low b hb hbc
          exact ⟨m, List.mem_append_left _ hm, hle⟩
        · rw [List.mem_singleton] at hb
          subst hb
          exact ⟨b.energy, by simp, by linarith⟩
    · rw [if_neg hacc]
      push Not at hacc
      obtain ⟨_, m, hm, hle⟩ := hacc
      refine ⟨h.len, ?_, h.dec, ?_, hdens.symm⟩
      · intro psi hpsi
        obtain ⟨b, hb, h1, h2, h3⟩ := h.mem psi hpsi
        exact ⟨b, List.mem_append_left _ hb, h1, h2, h3⟩
      · intro b hb hbc
        rcases List.mem_append.mp hb with hb | hb
        · exact h.low b hb hbc
        · rw [List.mem_singleton] at hb
          subst hb
          exact ⟨m, hm, by linarith⟩
  · simp only [hc, if_false, Bool.false_eq_true]
    refine ⟨h.len, ?_, h.dec, ?_, hdens.symm⟩
    · intro psi hpsi
      obtain ⟨b, hb, h1, h2, h3⟩ := h.mem psi hpsi
      exact ⟨b, List.mem_append_left _ hb, h1, h2, h3⟩
    · intro b hb hbc
      rcases List.mem_append.mp hb with hb | hb
      · exact h.low b hb hbc
      · rw [List.mem_singleton] at hb
        subst hb
        exact absurd hbc hc

theorem uhfFold_inv (deps : ℝ) (hd : 0 ≤ deps) (as done : List (Attempt P)) (s : Search P)
    (h : UhfInv deps done s) :
    UhfInv deps (done ++ as) (as.foldl (uhfAttempt deps false) s) := by
  induction as generalizing done s with
  | nil => simpa using h
  | cons a as ih =>
    rw [List.foldl_cons]
    have := ih (done ++ [a]) _ (uhfAttempt_inv deps hd false done s h (by simp) a)
    simpa using this

theorem uhfSearch_inv (deps : ℝ) (hd : 0 ≤ deps) (U ueff : ℝ) (as : List (Attempt P)) :
    UhfInv deps as (uhfSearch deps U ueff as) := by
  cases as with
  | nil =>
    exact ⟨by simp [uhfSearch], by simp [uhfSearch], by simp [uhfSearch], by simp, by simp [uhfSearch]⟩
  | cons a as =>
    have h0 : UhfInv deps ([] : List (Attempt P))
        ({ minima := [], accepted := none, U := ueff, dens := none } : Search P) :=
      ⟨by simp, by simp, by simp, by simp, by simp⟩
    have h1 := uhfFold_inv deps hd as [a] _
      (uhfAttempt_inv deps hd true [] _ h0 (by simp) a)
    exact ⟨h1.len, h1.mem, h1.dec, h1.low, h1.dens⟩

theorem foldl_min_le (l : List ℝ) (m : ℝ) : l.foldl min m ≤ m ∧ ∀ x ∈ l, l.foldl min m ≤ x := by
  induction l generalizing m with
  | nil => simp
  | cons a l ih =>
    rw [List.foldl_cons]
    obtain ⟨h1, h2⟩ := ih (min m a)
    refine ⟨h1.trans (min_le_left _ _), ?_⟩
    intro x hx
    rcases List.mem_cons.mp hx with rfl | hx
    · exact h1.trans (min_le_right _ _)
    · exact h2 x hx

theorem foldl_min_mem (l : List ℝ) (m : ℝ) : l.foldl min m ∈ m :: l := by
  induction l generalizing m with
  | nil => simp
  | cons a l ih =>
    rw [List.foldl_cons]
    rcases List.mem_cons.mp (ih (min m a)) with h | h
    · rw [h]
      rcases min_choice m a with h' | h' <;> rw [h'] <;> simp
    · exact List.mem_cons_of_mem _ (List.mem_cons_of_mem _ h)

/-- **C61**: the energy reported is that of the wavefunction returned, which is one of the converged
ones, and no converged attempt has an energy lower by more than the tolerance. -/
theorem uhfResult_spec (deps : ℝ) (hd : 0 ≤ deps) (U ueff : ℝ) (as : List (Attempt P)) (psi : P)
    (e : ℝ) (dens : Option P) (h : uhfResult (uhfSearch deps U ueff as) = some (psi, e, dens)) :
    (∃ a ∈ as, a.converged = true ∧ a.psi = psi ∧ a.energy = e) ∧
    ∀ a ∈ as, a.converged = true → e ≤ a.energy + deps := by
  have inv := uhfSearch_inv deps hd U ueff as
  generalize uhfSearch deps U ueff as = s at h inv
  unfold uhfResult at h
  cases hacc : s.accepted with
  | none => rw [hacc] at h; simp at h
  | some p =>
    cases hmin : s.minima with
    | nil => rw [hacc, hmin] at h; simp at h
    | cons m ms =>
      rw [hacc, hmin] at h
      simp only [Option.some.injEq, Prod.mk.injEq] at h
      obtain ⟨rfl, rfl, _⟩ := h
      obtain ⟨a, ha, hc, hp, l, hl⟩ := inv.mem p hacc
      have hdec := inv.dec
      have hlow := inv.low
      have hlast : ms.foldl min m = a.energy := by
        rw [hl] at hdec
        have hmem : a.energy ∈ m :: ms := by rw [← hmin, hl]; simp
        have hle : ∀ x ∈ m :: ms, a.energy ≤ x := by
          intro x hx
          rw [← hmin, hl] at hx
          rcases List.mem_append.mp hx with hx | hx
          · exact (List.pairwise_append.mp hdec).2.2 x hx _ (by simp)
          · rw [List.mem_singleton] at hx; rw [hx]
        refine le_antisymm ?_ (hle _ (foldl_min_mem ms m))
        rcases List.mem_cons.mp hmem with h' | h'
        · rw [h']; exact (foldl_min_le ms m).1
        · exact (foldl_min_le ms m).2 _ h'
      refine ⟨⟨a, ha, hc, hp, hlast.symm⟩, ?_⟩
      intro b hb hbc
      obtain ⟨x, hx, hle⟩ := hlow b hb hbc
      rw [hmin] at hx
      have : ms.foldl min m ≤ x := by
        rcases List.mem_cons.mp hx with h' | h'
        · rw [h']; exact (foldl_min_le ms m).1
        · exact (foldl_min_le ms m).2 _ h'
      linarith

/-- **C61**: a result exists exactly if some attempt converges, and the interaction of the system is
restored. -/
theorem uhfResult_exists (deps : ℝ) (hd : 0 ≤ deps) (U ueff : ℝ) (as : List (Attempt P)) :
    ((uhfResult (uhfSearch deps U ueff as)).isSome = true ↔ ∃ a ∈ as, a.converged = true) ∧
    (uhfSearch deps U ueff as).U = U := by
  have inv := uhfSearch_inv deps hd U ueff as
  refine ⟨?_, by cases as <;> rfl⟩
  generalize uhfSearch deps U ueff as = s at inv
  unfold uhfResult
  constructor
  · intro h
    cases hacc : s.accepted with
    | none => rw [hacc] at h; simp at h
    | some p =>
      obtain ⟨a, ha, hc, _⟩ := inv.mem p hacc
      exact ⟨a, ha, hc⟩
  · rintro ⟨a, ha, hc⟩
    obtain ⟨m, hm, _⟩ := inv.low a ha hc
    cases hmin : s.minima with
    | nil => rw [hmin] at hm; cases hm
    | cons x xs =>
      cases hacc : s.accepted with
      | none => rw [inv.len.mpr hacc] at hmin; cases hmin
      | some p => rfl

/-- **Finding (C61)**: the densities returned are those of the last attempt, whichever attempt was
accepted (and even if the last one did not converge). -/
theorem uhfResult_dens (deps : ℝ) (hd : 0 ≤ deps) (U ueff : ℝ) (as : List (Attempt P)) (psi : P)
    (e : ℝ) (dens : Option P) (h : uhfResult (uhfSearch deps U ueff as) = some (psi, e, dens)) :
    dens = as.getLast?.map Attempt.dens := by
  have inv := (uhfSearch_inv deps hd U ueff as).dens
  generalize uhfSearch deps U ueff as = s at h inv
  unfold uhfResult at h
  cases hacc : s.accepted with
  | none => rw [hacc] at h; simp at h
  | some p =>
    cases hmin : s.minima with
    | nil => rw [hacc, hmin] at h; simp at h
    | cons m ms =>
      rw [hacc, hmin] at h
      simp only [Option.some.injEq, Prod.mk.injEq] at h
      rw [← h.2.2, inv]

/-- Three attempts: converged at 2, not converged, converged at 1. -/
example : uhfResult (uhfSearch (P := Nat) 0 4 1
    [⟨true, 2, 10, 11⟩, ⟨false, 0, 20, 21⟩, ⟨true, 1, 30, 31⟩]) = some (30, 1, some 31) := by
  have h : (1 : ℝ) < 2 := by norm_num
  simp [uhfSearch, uhfAttempt, uhfResult, h]

end UHF

end Verif.Setup
