import Verif.PairBranch.Props

/-! The rows of the scattered array as functions of single random numbers. -/

namespace Verif.PairBranch

variable {S : Type}

/-- Each walker has one random number that decides between two rows for it; killed or with positive weight, and on average with the
weight of the walker. -/
theorem rows (mn mx : ℝ) (nw size : Nat) (ws : Nat → Walker ℝ S) (hpos : ∀ p, 0 < (ws p).weight) :
    ∃ (k : Nat → Nat) (q : Nat → ℝ) (row : Nat → Fin 2 → Info ℝ),
      (∀ p, p < nw * size → k p < nw * size ∧ 0 ≤ q p ∧ q p ≤ 1 ∧ (∀ xi, (row p xi).cnt = 0 ∨ 0 < (row p xi).w) ∧
        q p * ((row p 0).cnt * (row p 0).w) + (1 - q p) * ((row p 1).cnt * (row p 1).w) = (ws p).weight) ∧
      ∀ draw : Nat → ℝ, pairBranchRoot mn mx draw nw size ws =
        some ((List.range (nw * size)).map fun p => row p (if draw (k p) < q p then 0 else 1)) := by
  obtain ⟨sort, isort, hp, hip, hinv, _, hroot⟩ := root_eq mn mx (fun _ => 0) nw size ws
  set n := nw * size with hn
  set A : Nat → Info ℝ := fun i => inRow nw ws (sort.getD i 0) with hA
  set m := numPairs mn mx A 0 (n - 1) with hmdef
  have hm : 2 * m ≤ n := by
    have := (numPairs_le mn mx A n (n - 2 * 0) 0 rfl (by omega)).2
    simpa using this
  have hilen : isort.length = n := by rw [hip.length_eq, List.length_range]
  have hinv1 : ∀ p, p < n → isort.getD p 0 < n ∧ sort.getD (isort.getD p 0) 0 = p := by
    intro p hpn
    have h1 : p < isort.length := by omega
    have e : isort.getD p 0 = isort[p] := by simp [h1]
    rw [e]
    refine ⟨by simpa using hip.mem_iff.1 (List.getElem_mem h1), ?_⟩
    have : (isort.map (fun i => sort.getD i 0))[p]? = (List.range n)[p]? := by rw [hinv]
    rw [List.getElem?_map, List.getElem?_eq_getElem h1, List.getElem?_range hpn] at this
    simpa using this
  have hAw : ∀ i, (A i).w = (ws (sort.getD i 0)).weight := fun i => abs_of_pos (hpos _)
  have hAp : ∀ i, 0 < (A i).w := fun i => by rw [hAw]; exact hpos _
  let I : Nat → Nat := fun p => isort.getD p 0
  let J : Nat → Nat := fun p => n - 1 - I p
  let dead : Info ℝ → Info ℝ → Info ℝ := fun a b => ⟨0, 0, a.rank, b.rank⟩
  let twice : Info ℝ → Info ℝ → Info ℝ := fun a b => ⟨1 / 2 * (a.w + b.w), 2, a.rank, b.rank⟩
  have hbr : ∀ (r : ℝ) (a b : Info ℝ), branch r a b = if r < b.w / (a.w + b.w) then (dead a b, ⟨1 / 2 * (a.w + b.w), 2, b.rank, a.rank⟩)
      else (twice a b, dead b a) := fun _ _ _ => rfl
  refine ⟨fun p => if I p < m then I p else if J p < m then J p else 0,
    fun p => if I p < m then (A (J p)).w / ((A (I p)).w + (A (J p)).w) else if J p < m then (A (I p)).w / ((A (J p)).w + (A (I p)).w) else 0,
    fun p xi => if I p < m then (if xi = 0 then dead (A (I p)) (A (J p)) else twice (A (I p)) (A (J p)))
      else if J p < m then (if xi = 0 then ⟨1 / 2 * ((A (J p)).w + (A (I p)).w), 2, (A (I p)).rank, (A (J p)).rank⟩ else dead (A (I p)) (A (J p)))
      else A (I p), ?_, ?_⟩
  · intro p hpn
    obtain ⟨h1, h2⟩ := hinv1 p hpn
    have hI : (A (I p)).w = (ws p).weight := by
      rw [hAw]
      show (ws (sort.getD (isort.getD p 0) 0)).weight = _
      rw [h2]
    have a1 := hAp (I p)
    have a2 := hAp (J p)
    have hIlt : I p < n := h1
    have hJlt : J p < n := by show n - 1 - I p < n; omega
    beta_reduce
    by_cases c1 : I p < m
    · simp only [if_pos c1]
      refine ⟨hIlt, by positivity, (div_le_one (by positivity)).2 (by linarith), fun xi => ?_, ?_⟩
      · by_cases hx : xi = 0
        · left; rw [if_pos hx]
        · right; rw [if_neg hx]; show 0 < 1 / 2 * ((A (I p)).w + (A (J p)).w); positivity
      · rw [if_pos trivial, if_neg (by decide)]
        show _ * (((0 : Nat) : ℝ) * 0) + _ * (((2 : Nat) : ℝ) * (1 / 2 * ((A (I p)).w + (A (J p)).w))) = _
        rw [← hI]
        push_cast
        field_simp
        ring
    · by_cases c2 : J p < m
      · simp only [if_neg c1, if_pos c2]
        refine ⟨hJlt, by positivity, (div_le_one (by positivity)).2 (by linarith), fun xi => ?_, ?_⟩
        · by_cases hx : xi = 0
          · right; rw [if_pos hx]; show 0 < 1 / 2 * ((A (J p)).w + (A (I p)).w); positivity
          · left; rw [if_neg hx]
        · rw [if_pos trivial, if_neg (by decide)]
          show _ * (((2 : Nat) : ℝ) * (1 / 2 * ((A (J p)).w + (A (I p)).w))) + _ * (((0 : Nat) : ℝ) * 0) = _
          rw [← hI]
          push_cast
          field_simp
          ring
      · simp only [if_neg c1, if_neg c2]
        refine ⟨by omega, le_refl _, zero_le_one, fun _ => Or.inr a1, ?_⟩
        rw [← hI]
        have : ((A (I p)).cnt : ℝ) = 1 := by
          show ((1 : Nat) : ℝ) = 1
          norm_num
        rw [this]
        ring
  · intro draw
    rw [hroot draw]
    congr 1
    refine List.ext_getElem? fun p => ?_
    by_cases hpn : p < n
    · have h1 : p < isort.length := by omega
      rw [List.getElem?_map, List.getElem?_map, List.getElem?_eq_getElem h1, List.getElem?_range hpn, Option.map_some, Option.map_some]
      have e : isort[p] = I p := by simp [I, h1]
      rw [e]
      congr 1
      unfold res
      have hj : n - 1 - I p = J p := rfl
      rw [hj]
      by_cases c1 : I p < m
      · simp only [if_pos c1, hbr]
        split_ifs <;> first | rfl | (exfalso; simp_all)
      · by_cases c2 : J p < m
        · simp only [if_neg c1, if_pos c2, hbr]
          split_ifs <;> first | rfl | (exfalso; simp_all)
        · simp only [if_neg c1, if_neg c2]
    · rw [List.getElem?_eq_none (by rw [List.length_map]; omega), List.getElem?_eq_none (by rw [List.length_map, List.length_range]; omega)]

end Verif.PairBranch
