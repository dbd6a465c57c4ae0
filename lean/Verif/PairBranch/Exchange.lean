import Verif.PairBranch.Lemmas
import Mathlib.Algebra.BigOperators.Intervals
import Mathlib.Algebra.Order.BigOperators.Group.Finset

/-! Helper lemmas for the pair-branching exchange. -/

namespace Verif.PairBranch

open Verif.Mpi Finset

variable {K : Type} [Field K] [LinearOrder K] {S : Type}

theorem sum_filterMap {M : Type} [AddCommMonoid M] {α : Type} (n : Nat) (φ : Nat → Option α)
    (g : α → M) :
    (((List.range n).filterMap φ).map g).sum = ∑ s ∈ range n, (φ s).elim 0 g := by
  induction n with
  | zero => simp
  | succ n ih =>
    rw [List.range_succ, List.filterMap_append, List.map_append, List.sum_append, ih,
      Finset.sum_range_succ]
    congr 1
    cases h : φ n <;> simp [h]

theorem sum_blocks {M : Type} [AddCommMonoid M] (nw size : Nat) (F : Nat → M) :
    ∑ r ∈ range size, ∑ s ∈ range nw, F (nw * r + s) = ∑ p ∈ range (nw * size), F p := by
  induction size with
  | zero => simp
  | succ k ih => rw [Finset.sum_range_succ, ih, Nat.mul_succ, Finset.sum_range_add]

/-- Mirror argument: if two functions agree in the sum over each mirror pair, twice their sums
agree. -/
theorem sum_mirror {M : Type} [AddCommMonoid M] (n : Nat) (u v : Nat → M)
    (h : ∀ i, i < n → u i + u (n - 1 - i) = v i + v (n - 1 - i)) :
    ∑ i ∈ range n, u i + ∑ i ∈ range n, u i = ∑ i ∈ range n, v i + ∑ i ∈ range n, v i := by
  have key : ∀ w : Nat → M, ∑ i ∈ range n, w i + ∑ i ∈ range n, w i =
      ∑ i ∈ range n, (w i + w (n - 1 - i)) := by
    intro w
    rw [Finset.sum_add_distrib, Finset.sum_range_reflect]
  rw [key, key]
  exact Finset.sum_congr rfl (fun i hi => h i (by simpa using hi))

/-- Input row of the walker at global position `p`. -/
def inRow (nw : Nat) (ws : Nat → Walker K S) (p : Nat) : Info K :=
  ⟨|(ws p).weight|, 1, p / nw, p / nw⟩

/-- The result of rank 0's work in terms of the sorted array. -/
theorem root_eq (mn mx : K) (draw : Nat → K) (nw size : Nat) (ws : Nat → Walker K S) :
    ∃ (sort isort : List Nat), sort.Perm (List.range (nw * size)) ∧
      isort.Perm (List.range (nw * size)) ∧
      isort.map (fun i => sort.getD i 0) = List.range (nw * size) ∧
      (sort.map (fun p => (inRow nw ws p).w)).Pairwise (· ≤ ·) ∧
      ∀ draw : Nat → K, pairBranchRoot mn mx draw nw size ws = some (isort.map
        (res (fun i => inRow nw ws (sort.getD i 0)) (nw * size) draw
          (numPairs mn mx (fun i => inRow nw ws (sort.getD i 0)) 0 (nw * size - 1)))) := by
  set n := nw * size with hn
  have hglob : gathered nw size ws = (List.range n).map (inRow nw ws) := rfl
  have hgl : (gathered nw size ws).length = n := by rw [hglob]; simp
  have hget : ∀ i, i < n → (gathered nw size ws)[i]? = some (inRow nw ws i) := by
    intro i hi
    rw [hglob, List.getElem?_map, List.getElem?_range hi]; rfl
  set key : Nat → K := fun i => (((gathered nw size ws)[i]?).map (·.w)).getD 0 with hkey
  set sort := argsort n key with hsort
  have hperm : sort.Perm (List.range n) := argsort_perm n key
  have hlen : sort.length = n := argsort_length n key
  have hlt : ∀ i ∈ sort, i < n := fun i hi => by simpa using (hperm.mem_iff.1 hi)
  set isort := argsort n (fun i => sort.getD i 0) with hisort
  have hiperm : isort.Perm (List.range n) := argsort_perm n _
  refine ⟨sort, isort, hperm, hiperm, argsort_inverse n sort hperm, ?_, ?_⟩
  · have := argsort_sorted n key
    have e : (argsort n key).map key = sort.map (fun p => (inRow nw ws p).w) := by
      apply List.map_congr_left
      intro i hi
      simp only [hkey]
      rw [hget i (hlt i hi)]; rfl
    rw [← e]; exact this
  · intro draw
    unfold pairBranchRoot
    simp only
    rw [hgl]
    have e1 : sort.filterMap (fun i => (gathered nw size ws)[i]?) =
        (List.range n).map (fun i => inRow nw ws (sort.getD i 0)) := by
      have : sort.filterMap (fun i => (gathered nw size ws)[i]?) =
          sort.map (inRow nw ws) := by
        rw [← List.filterMap_eq_map]
        apply List.filterMap_congr
        intro i hi
        rw [hget i (hlt i hi)]; rfl
      rw [this]
      apply List.ext_getElem
      · simp [hlen]
      · intro i h1 h2
        have : i < sort.length := by simpa using h1
        simp [this]
    have e1' : List.filterMap (fun i => (gathered nw size ws)[i]?) (argsort n
        (fun i => (Option.map (fun x => x.w) (gathered nw size ws)[i]?).getD 0)) =
        (List.range n).map (fun i => inRow nw ws (sort.getD i 0)) := e1
    rw [e1', pairLoop_start, Option.map_some]
    congr 1
    show List.filterMap _ isort = _
    conv_rhs => rw [← List.filterMap_eq_map]
    apply List.filterMap_congr
    intro i hi
    have : i < n := by simpa using (hiperm.mem_iff.1 hi)
    rw [List.getElem?_map, List.getElem?_range this]; rfl

/-- Facts about a mirror pair of the final sorted array. -/
theorem res_cases (A : Nat → Info K) (n : Nat) (draw : Nat → K) (m i : Nat) (hm : 2 * m ≤ n)
    (hi : i < n) :
    (∃ a b r, (res A n draw m i = (branch r a b).1 ∧ res A n draw m (n - 1 - i) = (branch r a b).2 ∧
        a = A i ∧ b = A (n - 1 - i)) ∨
      (res A n draw m i = (branch r a b).2 ∧ res A n draw m (n - 1 - i) = (branch r a b).1 ∧
        a = A (n - 1 - i) ∧ b = A i)) ∨
    (res A n draw m i = A i ∧ res A n draw m (n - 1 - i) = A (n - 1 - i)) := by
  by_cases h1 : i < m
  · left
    refine ⟨A i, A (n - 1 - i), draw i, Or.inl ⟨?_, ?_, rfl, rfl⟩⟩
    · unfold res; rw [if_pos h1]
    · unfold res
      have e : n - 1 - (n - 1 - i) = i := by omega
      rw [if_neg (by omega), e, if_pos h1]
  · by_cases h2 : n - 1 - i < m
    · left
      refine ⟨A (n - 1 - i), A i, draw (n - 1 - i), Or.inr ⟨?_, ?_, rfl, rfl⟩⟩
      · unfold res; rw [if_neg h1, if_pos h2]
      · unfold res
        have e : n - 1 - (n - 1 - i) = i := by omega
        rw [if_pos h2, e]
    · right
      constructor
      · unfold res; rw [if_neg h1, if_neg h2]
      · unfold res
        have e : n - 1 - (n - 1 - i) = i := by omega
        rw [if_neg h2, e, if_neg h1]

/-- For functions `u`, `v` of a row that agree in sum on every branched pair and agree on an input
row, the sums over the final array agree (twice). -/
theorem sum_res {M : Type} [AddCommMonoid M] (A : Nat → Info K) (n : Nat) (draw : Nat → K) (m : Nat)
    (hm : 2 * m ≤ n) (u v : Info K → Info K → M)
    (hpair : ∀ i j r, i < n → j < n →
      u (A i) (branch r (A i) (A j)).1 + u (A j) (branch r (A i) (A j)).2 =
      v (A i) (branch r (A i) (A j)).1 + v (A j) (branch r (A i) (A j)).2)
    (hsingle : ∀ i, i < n → u (A i) (A i) = v (A i) (A i)) :
    ∑ i ∈ range n, u (A i) (res A n draw m i) + ∑ i ∈ range n, u (A i) (res A n draw m i) =
    ∑ i ∈ range n, v (A i) (res A n draw m i) + ∑ i ∈ range n, v (A i) (res A n draw m i) := by
  apply sum_mirror
  intro i hi
  rcases res_cases A n draw m i hm hi with ⟨a, b, r, h | h⟩ | h
  · obtain ⟨h1, h2, rfl, rfl⟩ := h
    rw [h1, h2]; exact hpair _ _ _ hi (by omega)
  · obtain ⟨h1, h2, rfl, rfl⟩ := h
    rw [h1, h2]
    have := hpair (n - 1 - i) i r (by omega) hi
    rw [add_comm, this, add_comm]
  · rw [h.1, h.2, hsingle i hi, hsingle (n - 1 - i) (by omega)]

/-- Everything later proofs need about the scattered array. -/
structure Scattered (mn mx : K) (nw size : Nat) (ws : Nat → Walker K S) (fin : List (Info K)) where
  len : fin.length = nw * size
  /-- the row at position `p` belongs to rank `p / nw` -/
  rank : ∀ p x, fin[p]? = some x → x.rank = p / nw
  cnt : ∀ x ∈ fin, x.cnt = 0 ∨ x.cnt = 1 ∨ x.cnt = 2
  partner : ∀ x ∈ fin, x.partner < size
  one : ∀ p x, fin[p]? = some x → x.cnt = 1 → x.w = |(ws p).weight|
  sum : ∀ (M : Type) [AddCommMonoid M] (u v : Info K → Info K → M),
    (∀ p q r, p < nw * size → q < nw * size →
      u (inRow nw ws p) (branch r (inRow nw ws p) (inRow nw ws q)).1 +
        u (inRow nw ws q) (branch r (inRow nw ws p) (inRow nw ws q)).2 =
      v (inRow nw ws p) (branch r (inRow nw ws p) (inRow nw ws q)).1 +
        v (inRow nw ws q) (branch r (inRow nw ws p) (inRow nw ws q)).2) →
    (∀ p, p < nw * size → u (inRow nw ws p) (inRow nw ws p) = v (inRow nw ws p) (inRow nw ws p)) →
    (∑ p ∈ range (nw * size), (fin[p]?).elim 0 (u (inRow nw ws p)) +
      ∑ p ∈ range (nw * size), (fin[p]?).elim 0 (u (inRow nw ws p)) =
     ∑ p ∈ range (nw * size), (fin[p]?).elim 0 (v (inRow nw ws p)) +
      ∑ p ∈ range (nw * size), (fin[p]?).elim 0 (v (inRow nw ws p)))

theorem branch_cases (r : K) (a b : Info K) :
    (branch r a b = (⟨0, 0, a.rank, b.rank⟩, ⟨1 / 2 * (a.w + b.w), 2, b.rank, a.rank⟩)) ∨
    (branch r a b = (⟨1 / 2 * (a.w + b.w), 2, a.rank, b.rank⟩, ⟨0, 0, b.rank, a.rank⟩)) := by
  unfold branch
  simp only
  split_ifs
  · exact Or.inl rfl
  · exact Or.inr rfl

theorem scattered (mn mx : K) (draw : Nat → K) (nw size : Nat) (ws : Nat → Walker K S) :
    ∃ fin, pairBranchRoot mn mx draw nw size ws = some fin ∧
      Nonempty (Scattered mn mx nw size ws fin) := by
  obtain ⟨sort, isort, hp, hip, hinv, _, hroot⟩ := root_eq mn mx draw nw size ws
  set n := nw * size with hn
  refine ⟨_, hroot draw, ?_⟩
  set A : Nat → Info K := fun i => inRow nw ws (sort.getD i 0) with hA
  set m := numPairs mn mx A 0 (n - 1) with hmdef
  have hm : 2 * m ≤ n := by
    have := (numPairs_le mn mx A n (n - 2 * 0) 0 rfl (by omega)).2
    simpa using this
  have hilen : isort.length = n := by rw [hip.length_eq, List.length_range]
  have hslen : sort.length = n := by rw [hp.length_eq, List.length_range]
  have hget : ∀ p, p < n → ∃ i, isort[p]? = some i ∧ i < n ∧ sort.getD i 0 = p := by
    intro p hpn
    have h1 : p < isort.length := by omega
    refine ⟨isort[p], List.getElem?_eq_getElem h1, ?_, ?_⟩
    · simpa using hip.mem_iff.1 (List.getElem_mem h1)
    · have : (isort.map (fun i => sort.getD i 0))[p]? = (List.range n)[p]? := by rw [hinv]
      rw [List.getElem?_map, List.getElem?_eq_getElem h1, List.getElem?_range hpn] at this
      simpa using this
  have hrow : ∀ p x, (isort.map (res A n draw m))[p]? = some x →
      p < n ∧ ∃ i, i < n ∧ sort.getD i 0 = p ∧ x = res A n draw m i ∧ isort[p]? = some i := by
    intro p x hx
    have hpn : p < n := by
      have := (List.getElem?_eq_some_iff.1 hx).1
      simpa [hilen] using this
    obtain ⟨i, h1, h2, h3⟩ := hget p hpn
    rw [List.getElem?_map, h1] at hx
    simp only [Option.map_some, Option.some.injEq] at hx
    exact ⟨hpn, i, h2, h3, hx.symm, h1⟩
  have hAlt : ∀ i, i < n → sort.getD i 0 < n := by
    intro i hi
    have h1 : i < sort.length := by omega
    have : sort.getD i 0 = sort[i] := by simp [h1]
    rw [this]
    simpa using hp.mem_iff.1 (List.getElem_mem h1)
  have hrankA : ∀ i, i < n → (A i).rank < size := by
    intro i hi
    exact Nat.div_lt_of_lt_mul (hAlt i hi)
  have hfield : ∀ i, i < n → (res A n draw m i).rank = (A i).rank ∧
      ((res A n draw m i).cnt = 0 ∨ (res A n draw m i).cnt = 1 ∨ (res A n draw m i).cnt = 2) ∧
      (res A n draw m i).partner < size ∧
      ((res A n draw m i).cnt = 1 → res A n draw m i = A i) := by
    intro i hi
    rcases res_cases A n draw m i hm hi with ⟨a, b, r, h | h⟩ | h
    · obtain ⟨h1, h2, rfl, rfl⟩ := h
      rw [h1]
      have hb := hrankA (n - 1 - i) (by omega)
      rcases branch_cases r (A i) (A (n - 1 - i)) with hc | hc <;> rw [hc] <;> simp [hb]
    · obtain ⟨h1, h2, rfl, rfl⟩ := h
      rw [h1]
      have hb := hrankA (n - 1 - i) (by omega)
      rcases branch_cases r (A (n - 1 - i)) (A i) with hc | hc <;> rw [hc] <;> simp [hb]
    · rw [h.1]
      refine ⟨rfl, Or.inr (Or.inl rfl), hrankA i hi, fun _ => rfl⟩
  refine ⟨⟨by rw [List.length_map, hilen], ?_, ?_, ?_, ?_, ?_⟩⟩
  · intro p x hx
    obtain ⟨hpn, i, hi, hs, rfl, _⟩ := hrow p x hx
    rw [(hfield i hi).1, hA]
    simp only [inRow]; rw [hs]
  · intro x hx
    obtain ⟨i, hi, rfl⟩ := List.mem_map.1 hx
    exact (hfield i (by simpa using hip.mem_iff.1 hi)).2.1
  · intro x hx
    obtain ⟨i, hi, rfl⟩ := List.mem_map.1 hx
    exact (hfield i (by simpa using hip.mem_iff.1 hi)).2.2.1
  · intro p x hx hc
    obtain ⟨hpn, i, hi, hs, rfl, _⟩ := hrow p x hx
    rw [(hfield i hi).2.2.2 hc, hA]
    simp only [inRow]; rw [hs]
  · intro M _ u v hpair hsingle
    have hconv : ∀ u : Info K → Info K → M,
        ∑ p ∈ range n, ((isort.map (res A n draw m))[p]?).elim 0 (u (inRow nw ws p)) =
        ∑ i ∈ range n, u (A i) (res A n draw m i) := by
      intro u
      have e1 : ∀ p ∈ range n,
          ((isort.map (res A n draw m))[p]?).elim 0 (u (inRow nw ws p)) =
          (isort[p]?).elim 0 (fun i => u (A i) (res A n draw m i)) := by
        intro p hp'
        obtain ⟨i, h1, h2, h3⟩ := hget p (by simpa using hp')
        rw [List.getElem?_map, h1]
        simp only [Option.map_some, Option.elim_some, hA]
        rw [h3]
      rw [Finset.sum_congr rfl e1]
      have e2 : ∀ (l : List Nat) (g : Nat → M),
          ∑ p ∈ range l.length, (l[p]?).elim 0 g = (l.map g).sum := by
        intro l g
        induction l with
        | nil => simp
        | cons a l ih =>
          rw [List.length_cons, Finset.sum_range_succ', List.map_cons, List.sum_cons, ← ih]
          simp [add_comm]
      have e3 := e2 isort (fun i => u (A i) (res A n draw m i))
      rw [hilen] at e3
      rw [e3, (hip.map _).sum_eq]
      have e4 := e2 (List.range n) (fun i => u (A i) (res A n draw m i))
      rw [← e4, List.length_range]
      apply Finset.sum_congr rfl
      intro p hp'
      rw [List.getElem?_range (by simpa using hp')]; rfl
    rw [hconv u, hconv v]
    exact sum_res A n draw m hm u v
      (fun i j r hi hj => hpair _ _ r (hAlt i hi) (hAlt j hj)) (fun i hi => hsingle _ (hAlt i hi))

end Verif.PairBranch
