import Verif.PairBranch.Exchange
import Verif.Util.StepIntegral
import Mathlib.MeasureTheory.Integral.IntervalIntegral.Basic
import Mathlib.Tactic.NormNum

/-!
# Properties C05, C06, C07, C08: pair branching
-/

namespace Verif.PairBranch

open Verif.Mpi Finset

section general

variable {K : Type} [Field K] [LinearOrder K] {S : Type}

theorem length_onChan (l : List (Nat × Nat × Nat)) (p t : Nat) :
    (onChan l p t).length = (l.map (fun x => if x.2.1 = p ∧ x.2.2 = t then 1 else 0)).sum := by
  induction l with
  | nil => simp [onChan]
  | cons a l ih =>
    rw [onChan_cons, List.map_cons, List.sum_cons, ← ih]
    split_ifs
    · simp [add_comm]
    · simp

theorem sendCount (nw size : Nat) (fin : List (Info K)) (hlen : fin.length = nw * size)
    (hrank : ∀ p x, fin[p]? = some x → x.rank = p / nw) (src dst tag : Nat) :
    (onChan (pbSends nw fin src) dst tag).length = if tag = src * nw + dst then
      ∑ p ∈ range (nw * size), (fin[p]?).elim 0
        (fun x => if x.cnt > 1 ∧ x.rank = src ∧ x.partner = dst then 1 else 0) else 0 := by
  rw [length_onChan, pbSends, sum_filterMap, ← sum_blocks nw size]
  have hterm : ∀ r s, s < nw → (fin[nw * r + s]?).elim 0
      (fun x => if x.cnt > 1 ∧ x.rank = src ∧ x.partner = dst then 1 else 0) =
      if r = src then (fin[nw * r + s]?).elim 0
        (fun x => if x.cnt > 1 ∧ x.partner = dst then 1 else 0) else 0 := by
    intro r s hs
    cases hx : fin[nw * r + s]? with
    | none => simp
    | some x =>
      have : x.rank = r := by
        rw [hrank _ _ hx, Nat.mul_add_div (by omega), Nat.div_eq_of_lt hs, Nat.add_zero]
      simp only [Option.elim_some, this]
      split_ifs <;> simp_all
  have hsum : ∑ r ∈ range size, ∑ s ∈ range nw, (fin[nw * r + s]?).elim 0
      (fun x => if x.cnt > 1 ∧ x.rank = src ∧ x.partner = dst then 1 else 0) =
      ∑ s ∈ range nw, (fin[nw * src + s]?).elim 0
        (fun x => if x.cnt > 1 ∧ x.partner = dst then 1 else 0) := by
    have : ∀ r ∈ range size, ∑ s ∈ range nw, (fin[nw * r + s]?).elim 0
        (fun x => if x.cnt > 1 ∧ x.rank = src ∧ x.partner = dst then 1 else 0) =
        if r = src then ∑ s ∈ range nw, (fin[nw * src + s]?).elim 0
          (fun x => if x.cnt > 1 ∧ x.partner = dst then 1 else 0) else 0 := by
      intro r _
      rw [Finset.sum_congr rfl (fun s hs => hterm r s (by simpa using hs))]
      split_ifs with h
      · rw [h]
      · simp
    rw [Finset.sum_congr rfl this, Finset.sum_ite_eq']
    split_ifs with h
    · rfl
    · symm
      apply Finset.sum_eq_zero
      intro s _
      rw [List.getElem?_eq_none]
      · rfl
      · rw [hlen]
        have h1 : size ≤ src := by simpa using h
        have := Nat.mul_le_mul_left nw h1
        omega
  rw [hsum]
  split_ifs with ht
  · apply Finset.sum_congr rfl
    intro s _
    unfold row
    cases hx : fin[nw * src + s]? with
    | none => simp
    | some x =>
      simp only [Option.elim_some]
      by_cases h1 : x.cnt > 1
      · simp only [h1, if_true, Option.elim_some, true_and]
        by_cases h2 : x.partner = dst
        · simp [h2, ht]
        · simp [h2]
      · simp [h1]
  · apply Finset.sum_eq_zero
    intro s _
    unfold row
    cases hx : fin[nw * src + s]? with
    | none => simp
    | some x =>
      simp only
      by_cases h1 : x.cnt > 1
      · simp only [h1, if_true, Option.elim_some]
        rw [if_neg]
        rintro ⟨h2, h3⟩
        exact ht (by rw [← h3, h2])
      · simp [h1]

theorem recvCount (nw size : Nat) (fin : List (Info K)) (hlen : fin.length = nw * size)
    (hrank : ∀ p x, fin[p]? = some x → x.rank = p / nw) (src dst tag : Nat) :
    (onChan (pbRecvs nw fin dst) src tag).length = if tag = src * nw + dst then
      ∑ p ∈ range (nw * size), (fin[p]?).elim 0
        (fun x => if x.cnt = 0 ∧ x.rank = dst ∧ x.partner = src then 1 else 0) else 0 := by
  rw [length_onChan, pbRecvs, sum_filterMap, ← sum_blocks nw size]
  have hterm : ∀ r s, s < nw → (fin[nw * r + s]?).elim 0
      (fun x => if x.cnt = 0 ∧ x.rank = dst ∧ x.partner = src then 1 else 0) =
      if r = dst then (fin[nw * r + s]?).elim 0
        (fun x => if x.cnt = 0 ∧ x.partner = src then 1 else 0) else 0 := by
    intro r s hs
    cases hx : fin[nw * r + s]? with
    | none => simp
    | some x =>
      have : x.rank = r := by
        rw [hrank _ _ hx, Nat.mul_add_div (by omega), Nat.div_eq_of_lt hs, Nat.add_zero]
      simp only [Option.elim_some, this]
      split_ifs <;> simp_all
  have hsum : ∑ r ∈ range size, ∑ s ∈ range nw, (fin[nw * r + s]?).elim 0
      (fun x => if x.cnt = 0 ∧ x.rank = dst ∧ x.partner = src then 1 else 0) =
      ∑ s ∈ range nw, (fin[nw * dst + s]?).elim 0
        (fun x => if x.cnt = 0 ∧ x.partner = src then 1 else 0) := by
    have : ∀ r ∈ range size, ∑ s ∈ range nw, (fin[nw * r + s]?).elim 0
        (fun x => if x.cnt = 0 ∧ x.rank = dst ∧ x.partner = src then 1 else 0) =
        if r = dst then ∑ s ∈ range nw, (fin[nw * dst + s]?).elim 0
          (fun x => if x.cnt = 0 ∧ x.partner = src then 1 else 0) else 0 := by
      intro r _
      rw [Finset.sum_congr rfl (fun s hs => hterm r s (by simpa using hs))]
      split_ifs with h
      · rw [h]
      · simp
    rw [Finset.sum_congr rfl this, Finset.sum_ite_eq']
    split_ifs with h
    · rfl
    · symm
      apply Finset.sum_eq_zero
      intro s _
      rw [List.getElem?_eq_none]
      · rfl
      · rw [hlen]
        have h1 : size ≤ dst := by simpa using h
        have := Nat.mul_le_mul_left nw h1
        omega
  rw [hsum]
  split_ifs with ht
  · apply Finset.sum_congr rfl
    intro s _
    unfold row
    cases hx : fin[nw * dst + s]? with
    | none => simp
    | some x =>
      simp only [Option.elim_some]
      by_cases h1 : x.cnt = 0
      · simp only [h1, if_true, Option.elim_some, true_and]
        by_cases h2 : x.partner = src
        · simp [h2, ht]
        · simp [h2]
      · simp [h1]
  · apply Finset.sum_eq_zero
    intro s _
    unfold row
    cases hx : fin[nw * dst + s]? with
    | none => simp
    | some x =>
      simp only
      by_cases h1 : x.cnt = 0
      · simp only [h1, if_true, Option.elim_some]
        rw [if_neg]
        rintro ⟨h2, h3⟩
        exact ht (by rw [← h3, h2])
      · simp [h1]

/-- C06, matching.  Rank 0's work never fails, and in the exchange derived from it, for every
source, destination and tag, as many messages are sent as are received. -/
theorem pairBranch_sends_match_receives (mn mx : K) (draw : Nat → K) (nw size : Nat)
    (ws : Nat → Walker K S) :
    ∃ fin, pairBranchRoot mn mx draw nw size ws = some fin ∧
      ∀ src dst tag, (onChan (pbSends nw fin src) dst tag).length =
        (onChan (pbRecvs nw fin dst) src tag).length := by
  obtain ⟨fin, hfin, ⟨hs⟩⟩ := scattered mn mx draw nw size ws
  refine ⟨fin, hfin, ?_⟩
  intro src dst tag
  rw [sendCount nw size fin hs.len hs.rank, recvCount nw size fin hs.len hs.rank]
  split_ifs
  · have := hs.sum Nat
      (fun _ x => if x.cnt > 1 ∧ x.rank = src ∧ x.partner = dst then 1 else 0)
      (fun _ x => if x.cnt = 0 ∧ x.rank = dst ∧ x.partner = src then 1 else 0)
      (by
        intro p q r _ _
        rcases branch_cases r (inRow nw ws p) (inRow nw ws q) with h | h <;> rw [h] <;>
          simp only [gt_iff_lt, Nat.not_lt_zero, false_and, if_false, zero_add, add_zero,
            Nat.one_lt_two, true_and, OfNat.ofNat_ne_zero] <;>
          split_ifs <;> simp_all)
      (by intro p _; simp [inRow])
    omega
  · rfl

theorem pbRecvs_slots (nw : Nat) (fin : List (Info K)) (r : Nat) :
    (pbRecvs nw fin r).map (·.1) = (List.range nw).filter (fun iw =>
      match row nw fin r iw with
      | some x => decide (x.cnt = 0)
      | none => false) := by
  unfold pbRecvs
  induction (List.range nw) with
  | nil => simp
  | cons a l ih =>
    cases hx : row nw fin r a with
    | none => simp [hx, ih]
    | some x =>
      by_cases h : x.cnt = 0 <;> simp [hx, ih, h]

theorem pb_out (nw size : Nat) (fin : List (Info K)) (hlen : fin.length = nw * size) (r : Nat)
    (hr : size ≤ r) : pbSends nw fin r = [] ∧ pbRecvs nw fin r = [] := by
  have hnone : ∀ iw, row nw fin r iw = none := by
    intro iw
    unfold row
    rw [List.getElem?_eq_none_iff, hlen]
    have := Nat.mul_le_mul_left nw hr
    omega
  constructor
  · unfold pbSends
    rw [List.filterMap_eq_nil_iff]
    intro a _; rw [hnone]
  · unfold pbRecvs
    rw [List.filterMap_eq_nil_iff]
    intro a _; rw [hnone]

theorem pb_exchange (mn mx : K) (draw : Nat → K) (nw size : Nat) (ws : Nat → Walker K S)
    (fin : List (Info K)) (hfin : pairBranchRoot mn mx draw nw size ws = some fin) :
    ∃ (f : Cfg (Walker K S)) (total : Nat), Done f ∧ (∀ ch, f.net ch = []) ∧
      (∀ r slot, slot ∉ (pbRecvs nw fin r).map (·.1) →
        f.mem r slot = pbMem nw fin ws r slot) ∧
      (∀ src dst tag, (onChan (pbRecvs nw fin dst) src tag).map (fun x => f.mem dst x.1) =
        (onChan (pbSends nw fin src) dst tag).map (fun x => pbMem nw fin ws src x.1)) ∧
      (∀ sched s', exec (start (pbProg nw fin) (pbMem nw fin ws)) sched = some s' →
        ∃ rest, exec s' rest = some f ∧ sched.length + rest.length = total) := by
  obtain ⟨fin', hfin', hcount⟩ := pairBranch_sends_match_receives mn mx draw nw size ws
  obtain ⟨fin'', hfin'', ⟨hs⟩⟩ := scattered mn mx draw nw size ws
  rw [hfin] at hfin' hfin''
  cases hfin'; cases hfin''
  refine exchange_completes size (pbSends nw fin) (pbRecvs nw fin) (pbMem nw fin ws)
    (pb_out nw size fin hs.len) ?_ hcount
  intro r
  rw [pbRecvs_slots]
  exact List.Nodup.filter _ List.nodup_range

/-- C06, no waiting for a message nobody sends.  There is one final population such that every
execution of the exchange, under every schedule, can be continued until it ends there with no
message left over. -/
theorem pairBranch_exchange_completes (mn mx : K) (draw : Nat → K) (nw size : Nat)
    (ws : Nat → Walker K S) (fin : List (Info K))
    (hfin : pairBranchRoot mn mx draw nw size ws = some fin) :
    ∃ (f : Cfg (Walker K S)) (total : Nat), Done f ∧ (∀ ch, f.net ch = []) ∧
      (∀ sched s', exec (start (pbProg nw fin) (pbMem nw fin ws)) sched = some s' →
        ∃ rest, exec s' rest = some f ∧ sched.length + rest.length = total) := by
  obtain ⟨f, t, h1, h2, _, _, h5⟩ := pb_exchange mn mx draw nw size ws fin hfin
  exact ⟨f, t, h1, h2, h5⟩

/-- C05, population.  After a finished exchange the population is, as a multiset, the following:
of each walker `p` as many copies as its row in the scattered array says (0, 1 or 2), each with the
weight in that row.  Stated as equality of sums of an arbitrary quantity `g` of a walker with
values in a commutative monoid. -/
theorem pairBranch_population [IsStrictOrderedRing K] (mn mx : K) (draw : Nat → K) (nw size : Nat)
    (ws : Nat → Walker K S) (hnn : ∀ p, 0 ≤ (ws p).weight) :
    ∃ fin, pairBranchRoot mn mx draw nw size ws = some fin ∧ fin.length = nw * size ∧
      (∀ x ∈ fin, x.cnt ≤ 2) ∧
      ∀ sched s', exec (start (pbProg nw fin) (pbMem nw fin ws)) sched = some s' → Done s' →
      ∀ (M : Type) [AddCommMonoid M] (g : Walker K S → M),
        ∑ p ∈ range (nw * size), g (s'.mem (p / nw) (p % nw)) =
        ∑ p ∈ range (nw * size), (fin[p]?).elim 0 (fun x => x.cnt • g ⟨x.w, (ws p).state⟩) := by
  obtain ⟨fin, hfin, ⟨hs⟩⟩ := scattered mn mx draw nw size ws
  refine ⟨fin, hfin, hs.len, fun x hx => by have := hs.cnt x hx; omega, ?_⟩
  intro sched s' hex hd M _ g
  obtain ⟨f, t, h1, h2, h3, h4, h5⟩ := pb_exchange mn mx draw nw size ws fin hfin
  obtain ⟨rest, h6, _⟩ := h5 sched s' hex
  have hs' : s' = f := by
    cases rest with
    | nil => simpa [exec] using h6
    | cons r rest =>
      exfalso
      simp only [exec, stepAt] at h6
      rw [hd r] at h6
      simp at h6
  subst hs'
  rcases Nat.eq_zero_or_pos nw with hnw | hnw
  · subst hnw; simp
  rw [← sum_blocks nw size, ← sum_blocks nw size]
  have hrow : ∀ r s, r < size → s < nw → ∃ x, fin[nw * r + s]? = some x := by
    intro r s hr hsn
    have : nw * r + s < fin.length := by
      rw [hs.len]
      have := Nat.mul_le_mul_left nw (show r + 1 ≤ size from hr)
      rw [Nat.mul_succ] at this
      omega
    exact ⟨_, List.getElem?_eq_getElem this⟩
  have hidx : ∀ r s, s < nw → (nw * r + s) / nw = r ∧ (nw * r + s) % nw = s := by
    intro r s hsn
    constructor
    · rw [Nat.mul_add_div hnw, Nat.div_eq_of_lt hsn, Nat.add_zero]
    · rw [Nat.mul_add_mod, Nat.mod_eq_of_lt hsn]
  -- split into kept and received walkers
  have hsplit : ∀ r ∈ range size, ∑ s ∈ range nw,
      g (s'.mem ((nw * r + s) / nw) ((nw * r + s) % nw)) =
      ∑ s ∈ range nw, (fin[nw * r + s]?).elim 0
        (fun x => if x.cnt = 0 then 0 else g (pbMem nw fin ws r s)) +
      ((pbRecvs nw fin r).map (fun x => g (s'.mem r x.1))).sum := by
    intro r hr
    rw [pbRecvs, sum_filterMap, ← Finset.sum_add_distrib]
    apply Finset.sum_congr rfl
    intro s hsn
    have hsn' : s < nw := by simpa using hsn
    obtain ⟨x, hx⟩ := hrow r s (by simpa using hr) hsn'
    rw [(hidx r s hsn').1, (hidx r s hsn').2]
    unfold row
    rw [hx]
    simp only [Option.elim_some]
    by_cases hc : x.cnt = 0
    · simp [hc]
    · simp only [hc, if_false, Option.elim_none, add_zero]
      congr 1
      apply h3
      rw [pbRecvs_slots]
      simp only [List.mem_filter, not_and]
      intro _
      unfold row
      rw [hx]
      simp [hc]
  rw [Finset.sum_congr rfl hsplit, Finset.sum_add_distrib,
    received_eq_sent size (fun src dst => src * nw + dst) (pbSends nw fin) (pbRecvs nw fin)
      ?_ ?_ (pbMem nw fin ws) s'.mem h4, ← Finset.sum_add_distrib]
  · apply Finset.sum_congr rfl
    intro r hr
    rw [pbSends, sum_filterMap, ← Finset.sum_add_distrib]
    apply Finset.sum_congr rfl
    intro s hsn
    have hsn' : s < nw := by simpa using hsn
    obtain ⟨x, hx⟩ := hrow r s (by simpa using hr) hsn'
    have hxm : x ∈ fin := List.mem_of_getElem? hx
    unfold pbMem row
    rw [hx]
    simp only [Option.elim_some]
    rcases hs.cnt x hxm with hc | hc | hc
    · simp [hc]
    · have hw := hs.one _ x hx hc
      rw [abs_of_nonneg (hnn _)] at hw
      simp [hc, hw]
    · simp [hc, two_nsmul, hx]
  · intro r x hx
    simp only [pbSends, List.mem_filterMap, List.mem_range] at hx
    obtain ⟨iw, hiw, hx⟩ := hx
    unfold row at hx
    cases hr : fin[nw * r + iw]? with
    | none => rw [hr] at hx; simp at hx
    | some y =>
      rw [hr] at hx
      simp only at hx
      split_ifs at hx
      simp only [Option.some.injEq] at hx
      subst hx
      exact ⟨hs.partner y (List.mem_of_getElem? hr), rfl⟩
  · intro r x hx
    simp only [pbRecvs, List.mem_filterMap, List.mem_range] at hx
    obtain ⟨iw, hiw, hx⟩ := hx
    unfold row at hx
    cases hr : fin[nw * r + iw]? with
    | none => rw [hr] at hx; simp at hx
    | some y =>
      rw [hr] at hx
      simp only at hx
      split_ifs at hx
      simp only [Option.some.injEq] at hx
      subst hx
      exact ⟨hs.partner y (List.mem_of_getElem? hr), rfl⟩

/-- C05, pairs.  The walkers are matched by an involution `π`: a walker with `π p = p` keeps its
row (count one, weight unchanged); of two different walkers `p`, `π p` one has count two and half of
the joint weight and the other has count zero. -/
theorem pairBranch_pairs (mn mx : K) (draw : Nat → K) (nw size : Nat)
    (ws : Nat → Walker K S) :
    ∃ fin, pairBranchRoot mn mx draw nw size ws = some fin ∧
    ∃ π : Nat → Nat, ∀ p, p < nw * size → π p < nw * size ∧ π (π p) = p ∧
      ∃ x y, fin[p]? = some x ∧ fin[π p]? = some y ∧
        ((π p = p ∧ x.cnt = 1 ∧ x.w = |(ws p).weight|) ∨
         (π p ≠ p ∧ x.cnt = 2 ∧ y.cnt = 0 ∧
            x.w = 1 / 2 * (|(ws p).weight| + |(ws (π p)).weight|)) ∨
         (π p ≠ p ∧ x.cnt = 0 ∧ y.cnt = 2 ∧
            y.w = 1 / 2 * (|(ws p).weight| + |(ws (π p)).weight|))) := by
  obtain ⟨sort, isort, hp, hip, hinv, _, hroot⟩ := root_eq mn mx draw nw size ws
  refine ⟨_, hroot draw, ?_⟩
  set n := nw * size with hn
  set A : Nat → Info K := fun i => inRow nw ws (sort.getD i 0) with hA
  set m := numPairs mn mx A 0 (n - 1) with hmdef
  have hm : 2 * m ≤ n := by
    have := (numPairs_le mn mx A n (n - 2 * 0) 0 rfl (by omega)).2
    simpa using this
  have hilen : isort.length = n := by rw [hip.length_eq, List.length_range]
  have hslen : sort.length = n := by rw [hp.length_eq, List.length_range]
  have hinv1 : ∀ p, p < n → isort.getD p 0 < n ∧ sort.getD (isort.getD p 0) 0 = p := by
    intro p hpn
    have h1 : p < isort.length := by omega
    have e : isort.getD p 0 = isort[p] := by simp [h1]
    rw [e]
    refine ⟨by simpa using hip.mem_iff.1 (List.getElem_mem h1), ?_⟩
    have : (isort.map (fun i => sort.getD i 0))[p]? = (List.range n)[p]? := by rw [hinv]
    rw [List.getElem?_map, List.getElem?_eq_getElem h1, List.getElem?_range hpn] at this
    simpa using this
  have hslt : ∀ i, i < n → sort.getD i 0 < n := by
    intro i hi
    have h1 : i < sort.length := by omega
    have e : sort.getD i 0 = sort[i] := by simp [h1]
    rw [e]
    simpa using hp.mem_iff.1 (List.getElem_mem h1)
  have hsinj : ∀ i j, i < n → j < n → sort.getD i 0 = sort.getD j 0 → i = j := by
    intro i j hi hj hij
    have h1 : i < sort.length := by omega
    have h2 : j < sort.length := by omega
    have e1 : sort.getD i 0 = sort[i] := by simp [h1]
    have e2 : sort.getD j 0 = sort[j] := by simp [h2]
    rw [e1, e2] at hij
    exact (List.Nodup.getElem_inj_iff (hp.nodup_iff.2 List.nodup_range)).1 hij
  have hinv2 : ∀ i, i < n → isort.getD (sort.getD i 0) 0 = i := by
    intro i hi
    have := hinv1 (sort.getD i 0) (hslt i hi)
    exact hsinj _ _ this.1 hi this.2
  have hfin : ∀ p, p < n → (isort.map (res A n draw m))[p]? =
      some (res A n draw m (isort.getD p 0)) := by
    intro p hpn
    have h1 : p < isort.length := by omega
    rw [List.getElem?_map, List.getElem?_eq_getElem h1]
    simp [h1]
  refine ⟨fun p => if isort.getD p 0 < m ∨ n - 1 - isort.getD p 0 < m
    then sort.getD (n - 1 - isort.getD p 0) 0 else p, ?_⟩
  intro p hpn
  obtain ⟨hi, hsi⟩ := hinv1 p hpn
  have hAi : A (isort.getD p 0) = inRow nw ws p := by simp only [hA]; rw [hsi]
  generalize hiv : isort.getD p 0 = i at *
  simp only
  rw [hiv]
  by_cases h1 : i < m
  · rw [if_pos (Or.inl h1)]
    have hj := hinv2 (n - 1 - i) (by omega)
    have hne : sort.getD (n - 1 - i) 0 ≠ p := by
      rw [← hsi]; intro hcon
      have := hsinj _ _ (by omega) hi hcon
      omega
    refine ⟨hslt _ (by omega), ?_, _, _, hfin p hpn, hfin _ (hslt _ (by omega)), ?_⟩
    · rw [hj, if_pos (Or.inr (by omega))]
      have : n - 1 - (n - 1 - i) = i := by omega
      rw [this, hsi]
    · rw [hj, hiv]
      unfold res
      have e : n - 1 - (n - 1 - i) = i := by omega
      rw [if_pos h1, if_neg (by omega), e, if_pos h1]
      rcases branch_cases (draw i) (A i) (A (n - 1 - i)) with h | h <;> rw [h, hAi]
      · exact Or.inr (Or.inr ⟨hne, rfl, rfl, rfl⟩)
      · exact Or.inr (Or.inl ⟨hne, rfl, rfl, rfl⟩)
  · by_cases h2 : n - 1 - i < m
    · rw [if_pos (Or.inr h2)]
      have hj := hinv2 (n - 1 - i) (by omega)
      have hne : sort.getD (n - 1 - i) 0 ≠ p := by
        rw [← hsi]; intro hcon
        have := hsinj _ _ (by omega) hi hcon
        omega
      refine ⟨hslt _ (by omega), ?_, _, _, hfin p hpn, hfin _ (hslt _ (by omega)), ?_⟩
      · rw [hj, if_pos (Or.inl (by omega))]
        have : n - 1 - (n - 1 - i) = i := by omega
        rw [this, hsi]
      · rw [hj, hiv]
        unfold res
        have e : n - 1 - (n - 1 - i) = i := by omega
        rw [if_neg h1, if_pos h2, if_pos h2, e]
        have hc : ∀ a b : K, 1 / 2 * (a + b) = 1 / 2 * (b + a) := fun a b => by rw [add_comm]
        rcases branch_cases (draw (n - 1 - i)) (A (n - 1 - i)) (A i) with h | h <;> rw [h, hAi]
        · exact Or.inr (Or.inl ⟨hne, rfl, rfl, hc _ _⟩)
        · exact Or.inr (Or.inr ⟨hne, rfl, rfl, hc _ _⟩)
    · rw [if_neg (by omega)]
      refine ⟨hpn, by rw [hiv, if_neg (by omega)], _, _, hfin p hpn, hfin p hpn, ?_⟩
      left
      rw [hiv]
      unfold res
      rw [if_neg h1, if_neg h2, hAi]
      exact ⟨rfl, rfl, rfl⟩

/-- C07.  When pair branching has finished, every walker that was not paired (count one) has a
weight in [min, max], or else at most one walker was left unpaired. -/
theorem pairBranch_unpaired_in_range (mn mx : K) (draw : Nat → K) (nw size : Nat)
    (ws : Nat → Walker K S) :
    ∃ fin, pairBranchRoot mn mx draw nw size ws = some fin ∧
      ((∀ p x, fin[p]? = some x → x.cnt = 1 →
          mn ≤ |(ws p).weight| ∧ |(ws p).weight| ≤ mx) ∨
       (∀ (p q : Nat) (x y : Info K), fin[p]? = some x → fin[q]? = some y → x.cnt = 1 → y.cnt = 1 → p = q)) := by
  obtain ⟨sort, isort, hp, hip, hinv, hsorted, hroot⟩ := root_eq mn mx draw nw size ws
  refine ⟨_, hroot draw, ?_⟩
  set n := nw * size with hn
  set A : Nat → Info K := fun i => inRow nw ws (sort.getD i 0) with hA
  set m := numPairs mn mx A 0 (n - 1) with hmdef
  have hm : 2 * m ≤ n := by
    have := (numPairs_le mn mx A n (n - 2 * 0) 0 rfl (by omega)).2
    simpa using this
  have hspec := (numPairs_spec mn mx A n (n - 2 * 0) 0 rfl (by omega)).2
  simp only [Nat.sub_zero] at hspec
  have hilen : isort.length = n := by rw [hip.length_eq, List.length_range]
  have hslen : sort.length = n := by rw [hp.length_eq, List.length_range]
  have hrow : ∀ p x, (isort.map (res A n draw m))[p]? = some x → x.cnt = 1 →
      ∃ i, i < n ∧ m ≤ i ∧ i < n - m ∧ sort.getD i 0 = p ∧ isort[p]? = some i := by
    intro p x hx hc
    have hpn : p < isort.length := by
      have := (List.getElem?_eq_some_iff.1 hx).1
      simpa using this
    have hi : isort[p] < n := by simpa using hip.mem_iff.1 (List.getElem_mem hpn)
    refine ⟨isort[p], hi, ?_, ?_, ?_, List.getElem?_eq_getElem hpn⟩
    · by_contra hcon
      rw [List.getElem?_map, List.getElem?_eq_getElem hpn] at hx
      simp only [Option.map_some, Option.some.injEq] at hx
      subst hx
      unfold res at hc
      rw [if_pos (by omega)] at hc
      rcases branch_cases (draw isort[p]) (A isort[p]) (A (n - 1 - isort[p])) with h | h <;>
        rw [h] at hc <;> simp at hc
    · by_contra hcon
      rw [List.getElem?_map, List.getElem?_eq_getElem hpn] at hx
      simp only [Option.map_some, Option.some.injEq] at hx
      subst hx
      unfold res at hc
      rw [if_neg (by omega), if_pos (by omega)] at hc
      rcases branch_cases (draw (n - 1 - isort[p])) (A (n - 1 - isort[p])) (A isort[p])
        with h | h <;> rw [h] at hc <;> simp at hc
    · have : (isort.map (fun i => sort.getD i 0))[p]? = (List.range n)[p]? := by rw [hinv]
      rw [List.getElem?_map, List.getElem?_eq_getElem hpn,
        List.getElem?_range (by omega)] at this
      simpa using this
  have hmono : ∀ i j, i ≤ j → j < n → (A i).w ≤ (A j).w := by
    intro i j hij hj
    rcases Nat.eq_or_lt_of_le hij with h | h
    · rw [h]
    · have := List.pairwise_iff_getElem.1 hsorted i j (by simpa using (by omega : i < sort.length))
        (by simpa using (by omega : j < sort.length)) h
      simp only [List.getElem_map] at this
      have e1 : sort.getD i 0 = sort[i]'(by omega) := by
        simp [(by omega : i < sort.length)]
      have e2 : sort.getD j 0 = sort[j]'(by omega) := by
        simp [(by omega : j < sort.length)]
      simp only [hA]
      rw [e1, e2]; exact this
  by_cases hmid : m < n - 1 - m
  · left
    intro p x hx hc
    obtain ⟨i, hi, h1, h2, h3, _⟩ := hrow p x hx hc
    have hw : (A i).w = |(ws p).weight| := by simp only [hA, inRow]; rw [h3]
    have := hspec hmid
    rw [← hw]
    exact ⟨this.1.trans (hmono m i h1 hi), (hmono i (n - 1 - m) (by omega) (by omega)).trans this.2⟩
  · right
    intro p q x y hx hy hc1 hc2
    obtain ⟨i, hi, h1, h2, h3, h4⟩ := hrow p x hx hc1
    obtain ⟨j, hj, g1, g2, g3, g4⟩ := hrow q y hy hc2
    have : i = j := by omega
    rw [← h3, ← g3, this]

end general

section ordered

variable {K : Type} [Field K] [LinearOrder K] [IsStrictOrderedRing K] {S : Type}

/-- C05, weight.  Pair branching leaves the sum of all weights unchanged, whatever the draws, the
bounds and the order of messages. -/
theorem pairBranch_conserves_weight (mn mx : K) (draw : Nat → K) (nw size : Nat)
    (ws : Nat → Walker K S) (hnn : ∀ p, 0 ≤ (ws p).weight) :
    ∃ fin, pairBranchRoot mn mx draw nw size ws = some fin ∧
      ∀ sched s', exec (start (pbProg nw fin) (pbMem nw fin ws)) sched = some s' → Done s' →
        ∑ p ∈ range (nw * size), (s'.mem (p / nw) (p % nw)).weight =
        ∑ p ∈ range (nw * size), (ws p).weight := by
  obtain ⟨fin, hfin, _, _, h⟩ := pairBranch_population mn mx draw nw size ws hnn
  refine ⟨fin, hfin, ?_⟩
  intro sched s' hex hd
  rw [h sched s' hex hd K (fun w => w.weight)]
  obtain ⟨fin', hfin', ⟨hs⟩⟩ := scattered mn mx draw nw size ws
  rw [hfin] at hfin'; cases hfin'
  have := hs.sum K (fun _ x => x.cnt • x.w) (fun a _ => a.w)
    (by
      intro p q r _ _
      rcases branch_cases r (inRow nw ws p) (inRow nw ws q) with h | h <;> rw [h] <;>
        simp only [smul_zero, two_nsmul, zero_add, add_zero] <;> ring)
    (by intro p _; simp [inRow])
  have h2 : ∑ p ∈ range (nw * size), (fin[p]?).elim 0 (fun _ => (inRow nw ws p).w) =
      ∑ p ∈ range (nw * size), (ws p).weight := by
    apply Finset.sum_congr rfl
    intro p hp
    have : p < fin.length := by rw [hs.len]; simpa using hp
    rw [List.getElem?_eq_getElem this]
    simp [inRow, abs_of_nonneg (hnn p)]
  rw [h2] at this
  simp only at this ⊢
  linarith

end ordered

/-- A population on two ranks of two walkers meets the hypotheses of the theorems above, and pair
branching with the default bounds really pairs: weights 5, 1/20, 1, 1 with draws 1/2 give rows with
counts 2, 0, 1, 1. -/
example : (∀ p : Nat, (0 : ℚ) ≤ (Walker.mk (if p = 0 then (5 : ℚ) else if p = 1 then 1 / 20 else 1) ()).weight) ∧
    numPairs (1 / 10 : ℚ) 4 (fun i => ⟨if i = 0 then 1 / 20 else if i = 3 then 5 else 1, 1, 0, 0⟩)
      0 3 = 1 := by
  constructor
  · intro p; simp only; split_ifs <;> norm_num
  · rw [numPairs]; norm_num
    rw [numPairs]; norm_num

section unbiased

open MeasureTheory intervalIntegral Set

variable {S : Type}

open Verif.StepIntegral

/-- Weight carried by the descendants of walker `p`: count times weight of its row. -/
noncomputable def descWeight (mn mx : ℝ) (nw size : Nat) (ws : Nat → Walker ℝ S) (p : Nat)
    (draw : Nat → ℝ) : ℝ :=
  match pairBranchRoot mn mx draw nw size ws with
  | some fin => (fin[p]?).elim 0 (fun x => x.cnt * x.w)
  | none => 0

theorem branch_desc (r : ℝ) (a b : Info ℝ) :
    (((branch r a b).1.cnt : ℝ) * (branch r a b).1.w = if r < b.w / (a.w + b.w) then 0 else a.w + b.w) ∧
    (((branch r a b).2.cnt : ℝ) * (branch r a b).2.w = if r < b.w / (a.w + b.w) then a.w + b.w else 0) := by
  unfold branch
  simp only
  split_ifs <;> constructor <;> norm_num <;> ring

/-- C08.  For each walker there is one of the random numbers (that of its pair) such that, averaged
over this number uniform in [0,1) and for any values of the others, the descendants of the walker
carry its weight.  By C05 (`pairBranch_population`) `descWeight` is the weight of all copies of the
walker in the population after the exchange. -/
theorem pairBranch_unbiased (mn mx : ℝ) (nw size : Nat) (ws : Nat → Walker ℝ S) (p : Nat)
    (hp : p < nw * size) :
    ∃ k, ∀ draw : Nat → ℝ,
      ∫ r in (0 : ℝ)..1, descWeight mn mx nw size ws p (Function.update draw k r) =
        |(ws p).weight| := by
  obtain ⟨sort, isort, hpp, hip, hinv, _, hroot⟩ := root_eq mn mx (fun _ => 0) nw size ws
  set n := nw * size with hn
  set A : Nat → Info ℝ := fun i => inRow nw ws (sort.getD i 0) with hA
  set m := numPairs mn mx A 0 (n - 1) with hmdef
  have hm : 2 * m ≤ n := by
    have := (numPairs_le mn mx A n (n - 2 * 0) 0 rfl (by omega)).2
    simpa using this
  have hilen : isort.length = n := by rw [hip.length_eq, List.length_range]
  have hpn : p < isort.length := by omega
  set i := isort[p] with hi
  have hin : i < n := by simpa using hip.mem_iff.1 (List.getElem_mem hpn)
  have hsi : sort.getD i 0 = p := by
    have : (isort.map (fun i => sort.getD i 0))[p]? = (List.range n)[p]? := by rw [hinv]
    rw [List.getElem?_map, List.getElem?_eq_getElem hpn, List.getElem?_range hp] at this
    simpa using this
  have hAw : (A i).w = |(ws p).weight| := by simp only [hA, inRow]; rw [hsi]
  have hnn : ∀ j, 0 ≤ (A j).w := fun j => by simp only [hA, inRow]; exact abs_nonneg _
  have hdesc : ∀ draw, descWeight mn mx nw size ws p draw =
      ((res A n draw m i).cnt : ℝ) * (res A n draw m i).w := by
    intro draw
    unfold descWeight
    rw [hroot draw]
    simp only
    rw [List.getElem?_map, List.getElem?_eq_getElem hpn]
    rfl
  have hq : ∀ a b : ℝ, 0 ≤ a → 0 ≤ b → 0 ≤ b / (a + b) ∧ b / (a + b) ≤ 1 := by
    intro a b ha hb
    exact ⟨div_nonneg hb (by linarith), div_le_one_of_le₀ (by linarith) (by linarith)⟩
  have hmul : ∀ a b : ℝ, 0 ≤ a → 0 ≤ b → (a + b) * (b / (a + b)) = b := by
    intro a b ha hb
    by_cases h0 : a + b = 0
    · have : b = 0 := by linarith
      simp [this]
    · field_simp
  rw [← hAw]
  simp only [hdesc]
  by_cases h1 : i < m
  · refine ⟨i, fun draw => ?_⟩
    have : ∀ r, ((res A n (Function.update draw i r) m i).cnt : ℝ) *
        (res A n (Function.update draw i r) m i).w =
        if r < (A (n - 1 - i)).w / ((A i).w + (A (n - 1 - i)).w) then 0
          else (A i).w + (A (n - 1 - i)).w := by
      intro r
      unfold res
      rw [if_pos h1, Function.update_self]
      exact (branch_desc r _ _).1
    simp only [this]
    obtain ⟨q0, q1⟩ := hq (A i).w (A (n - 1 - i)).w (hnn _) (hnn _)
    rw [integral_step _ _ _ q0 q1, mul_sub, hmul _ _ (hnn _) (hnn _)]
    ring
  · by_cases h2 : n - 1 - i < m
    · refine ⟨n - 1 - i, fun draw => ?_⟩
      have : ∀ r, ((res A n (Function.update draw (n - 1 - i) r) m i).cnt : ℝ) *
          (res A n (Function.update draw (n - 1 - i) r) m i).w =
          if r < (A i).w / ((A (n - 1 - i)).w + (A i).w) then
            (A (n - 1 - i)).w + (A i).w else 0 := by
        intro r
        unfold res
        rw [if_neg h1, if_pos h2, Function.update_self]
        exact (branch_desc r _ _).2
      simp only [this]
      obtain ⟨q0, q1⟩ := hq (A (n - 1 - i)).w (A i).w (hnn _) (hnn _)
      rw [integral_step _ _ _ q0 q1, hmul _ _ (hnn _) (hnn _)]
      ring
    · refine ⟨0, fun draw => ?_⟩
      have : ∀ r, ((res A n (Function.update draw 0 r) m i).cnt : ℝ) *
          (res A n (Function.update draw 0 r) m i).w = (A i).w := by
        intro r
        unfold res
        rw [if_neg h1, if_neg h2]
        simp [hA, inRow]
      simp only [this]
      simp

/-- Non-vacuity: a population of four walkers has positions 0 … 3. -/
example : (3 : Nat) < 2 * 2 := by norm_num

end unbiased

end Verif.PairBranch
