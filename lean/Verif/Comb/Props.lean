import Verif.Comb.Lemmas
import Verif.Comb.ExchangeLemmas
import Mathlib.MeasureTheory.Integral.IntervalIntegral.Basic
import Mathlib.Tactic.NormNum
import Mathlib.Data.Rat.Floor

/-!
# Properties C01, C02, C03, C04, C09: population control and comb
-/

namespace Verif.Comb

open Verif.Mpi

section rescale

variable {K S : Type} [Field K] [LinearOrder K] [IsStrictOrderedRing K]

/-- C01, normal case.  If the total absolute weight `T` over all ranks is not below the
threshold, `pop_control` goes on, and then: the new total is the target; every walker keeps its
rank, position and state, its weight is multiplied by the common positive factor `target / T`,
its old weight is readable as unscaled weight, and `T` is stored as total weight. -/
theorem popControl_rescales (tiny target : K) (ht : 0 < tiny) (htar : 0 < target)
    (ntot : Nat) (hn : ntot ≠ 1) (ranks : List (List (Walker K S)))
    (hT : tiny ≤ ((ranks.flatten).map (fun w => |w.weight|)).sum) :
    ∃ out, popControl tiny target ntot ranks = some out ∧
      ((out.flatten).map (fun w => |w.weight|)).sum = target ∧
      ∃ factor : K, 0 < factor ∧
        factor * ((ranks.flatten).map (fun w => |w.weight|)).sum = target ∧
        List.Forall₂ (List.Forall₂ (fun w w' : Walker K S =>
          w'.weight = factor * w.weight ∧ w'.unscaledWeight = w.weight ∧ w'.state = w.state ∧
          w'.totalWeight = ((ranks.flatten).map (fun w => |w.weight|)).sum ∧
          w'.oldTotalWeight = ((ranks.flatten).map (fun w => |w.weight|)).sum)) ranks out := by
  have hTp : 0 < totalWeight ranks := lt_of_lt_of_le ht hT
  have hfac : (0 : K) < target / totalWeight ranks := div_pos htar hTp
  refine ⟨ranks.map (fun ws => ws.map (rescaleWalker (totalWeight ranks)
    (totalWeight ranks / target))), ?_, ?_, target / totalWeight ranks, hfac, ?_, ?_⟩
  · unfold popControl popControlRescale
    rw [if_neg hn]
    exact if_neg (not_lt.2 hT)
  · rw [← List.map_flatten, List.map_map]
    have : ((fun w : Walker K S => |w.weight|) ∘
        rescaleWalker (totalWeight ranks) (totalWeight ranks / target)) =
        fun w => |w.weight| * (target / totalWeight ranks) := by
      funext w
      simp only [Function.comp, rescaleWalker, abs_div, abs_of_pos hTp, abs_of_pos htar]
      rw [div_div_eq_mul_div, mul_div_assoc]
    rw [this, List.sum_map_mul_right]
    show totalWeight ranks * _ = _
    field_simp
  · show target / totalWeight ranks * totalWeight ranks = target
    field_simp
  · rw [List.forall₂_map_right_iff, List.forall₂_same]
    intro ws _
    rw [List.forall₂_map_right_iff, List.forall₂_same]
    intro w _
    refine ⟨?_, rfl, rfl, rfl, rfl⟩
    simp only [rescaleWalker]
    rw [div_div_eq_mul_div]
    field_simp

/-- C01, error case.  Below the threshold the run stops (no division by a vanishing weight). -/
theorem popControl_stops (tiny target : K) (ntot : Nat) (hn : ntot ≠ 1)
    (ranks : List (List (Walker K S)))
    (hT : ((ranks.flatten).map (fun w => |w.weight|)).sum < tiny) :
    popControl tiny target ntot ranks = none := by
  unfold popControl popControlRescale
  rw [if_neg hn]
  exact if_pos hT

/-- C01, population of a single walker: nothing changes. -/
theorem popControl_single (tiny target : K) (ranks : List (List (Walker K S))) :
    popControl tiny target 1 ranks = some ranks := rfl

/-- The hypotheses of `popControl_rescales` hold for two ranks with weights 1, -3 and 4. -/
example : (1 / 100000000 : ℚ) ≤ (([[⟨1, 0, 0, 0, ()⟩, ⟨-3, 0, 0, 0, ()⟩],
    [⟨4, 0, 0, 0, ()⟩]] : List (List (Walker ℚ Unit))).flatten.map (fun w => |w.weight|)).sum := by
  norm_num [abs_of_pos, abs_of_neg]

end rescale

section select

variable {K : Type} [Field K] [LinearOrder K] [IsStrictOrderedRing K] [FloorSemiring K]

theorem floor_or_ceil_of_near {x : K} {c : Nat} (hx : 0 ≤ x) (h1 : x - 1 < c)
    (h2 : (c : K) < x + 1) : c = ⌊x⌋₊ ∨ c = ⌈x⌉₊ := by
  by_cases h : (c : K) ≤ x
  · left
    symm
    rw [Nat.floor_eq_iff hx]
    exact ⟨h, by linarith⟩
  · right
    symm
    have hc : 0 < c := by
      rcases Nat.eq_zero_or_pos c with h0 | h0
      · subst h0; simp at h; linarith
      · exact h0
    rw [Nat.ceil_eq_iff (by omega)]
    constructor
    · rw [Nat.cast_sub (by omega)]; push_cast; linarith
    · exact (not_le.1 h).le

/-- C02.  For non-negative weights with positive sum and an offset in [0,1), the selection ends
without indexing error, and the copy counts: are one per walker, add up to the target population,
are the floor or the ceiling of `weight * target / total`, and vanish for weight zero. -/
theorem combSelect_proportional (ws : List K) (target : Nat) (r : K)
    (hnn : ∀ w ∈ ws, 0 ≤ w) (hT : 0 < ws.sum) (hr0 : 0 ≤ r) (hr1 : r < 1) :
    ∃ p, combSelect ws target r = some p ∧ p.length = ws.length ∧ p.sum = target ∧
      ∀ (i : Nat) (hi : i < ws.length) (hp : i < p.length),
        (p[i] = ⌊ws[i] * target / ws.sum⌋₊ ∨ p[i] = ⌈ws[i] * target / ws.sum⌉₊) ∧
        (ws[i] = 0 → p[i] = 0) := by
  have hS : ∀ j, j < ws.length → (ws.take j).sum ≤ (ws.take (j + 1)).sum := by
    intro j hj
    rw [List.take_add_one, List.sum_append]
    simp only [List.getElem?_eq_getElem hj, Option.toList_some, List.sum_singleton]
    have := hnn ws[j] (List.getElem_mem hj)
    linarith
  refine ⟨_, combSelect_eq ws target r hnn hT hr0 hr1, by simp, ?_, ?_⟩
  · rw [sum_cnt _ _ _ _ hS]
    · rw [List.filter_eq_self.2, List.length_range]
      intro i hi
      simpa using teeth_top ws.sum target r hT hr1 i (by simpa using hi)
    · intro i _
      simp only [List.take_zero, List.sum_nil]
      have h1 : (0 : K) ≤ ws.sum / (target : K) := div_nonneg hT.le (Nat.cast_nonneg _)
      have h2 : (0 : K) ≤ (i : K) := Nat.cast_nonneg _
      positivity
  · intro i hi hp
    simp only [List.getElem_map, List.getElem_range]
    rcases Nat.eq_zero_or_pos target with h0 | hN
    · subst h0; simp [cnt]
    have hNK : (0 : K) < target := by exact_mod_cast hN
    have hle : (ws.take (i + 1)).sum ≤ ws.sum := by
      have := mono_le (S := fun j => (ws.take j).sum) hS (show i + 1 ≤ ws.length by omega) le_rfl
      simpa using this
    rw [cnt_eq_ceil ws.sum (fun j => (ws.take j).sum) target i r hT hN hr0 hle]
    have hstep : (ws.take (i + 1)).sum = (ws.take i).sum + ws[i] := by
      rw [List.take_add_one, List.sum_append]
      simp [List.getElem?_eq_getElem hi]
    have ha : 0 ≤ (ws.take i).sum :=
      List.sum_nonneg (fun x hx => hnn x (List.mem_of_mem_take hx))
    have hw : 0 ≤ ws[i] := hnn _ (List.getElem_mem hi)
    rw [hstep]
    set A : K := (ws.take i).sum * target / ws.sum with hA
    have hA0 : 0 ≤ A := by positivity
    have hB : ((ws.take i).sum + ws[i]) * target / ws.sum = A + ws[i] * target / ws.sum := by
      rw [hA]; ring
    rw [hB]
    set x : K := ws[i] * target / ws.sum with hx
    have hx0 : 0 ≤ x := by positivity
    have hceil : ∀ y : K, -1 < y → y ≤ ⌈y⌉₊ ∧ (⌈y⌉₊ : K) < y + 1 := by
      intro y hy
      refine ⟨Nat.le_ceil y, ?_⟩
      by_cases h0 : 0 ≤ y
      · exact Nat.ceil_lt_add_one h0
      · rw [Nat.ceil_eq_zero.2 (not_le.1 h0).le]; push_cast; linarith
    have hmono : ⌈A - r⌉₊ ≤ ⌈A + x - r⌉₊ := Nat.ceil_mono (by linarith)
    have c1 := hceil (A - r) (by linarith)
    have c2 := hceil (A + x - r) (by linarith)
    constructor
    · apply floor_or_ceil_of_near hx0
      · rw [Nat.cast_sub hmono]; linarith [c1.2, c2.1]
      · rw [Nat.cast_sub hmono]; linarith [c1.1, c2.2]
    · intro h0
      have : x = 0 := by rw [hx, h0]; ring
      rw [this, add_zero]; simp

/-- The hypotheses of `combSelect_proportional` hold for weights 3, 0, 1/2, 1/2. -/
example : (∀ w ∈ ([3, 0, 1/2, 1/2] : List ℚ), 0 ≤ w) ∧ 0 < ([3, 0, 1/2, 1/2] : List ℚ).sum := by
  constructor
  · intro w hw; simp at hw; rcases hw with rfl | rfl | rfl <;> norm_num
  · norm_num

end select

section unbiased

open MeasureTheory intervalIntegral Set

theorem integral_ceil_sub (b : ℝ) (hb : 0 ≤ b) :
    IntervalIntegrable (fun r : ℝ => (⌈b - r⌉₊ : ℝ)) volume 0 1 ∧
      ∫ r in (0 : ℝ)..1, (⌈b - r⌉₊ : ℝ) = b := by
  set n := ⌊b⌋₊ with hn
  have h1 : (n : ℝ) ≤ b := Nat.floor_le hb
  have h2 : b < n + 1 := Nat.lt_floor_add_one b
  set f := b - n with hf
  have hf0 : 0 ≤ f := by linarith
  have hf1 : f ≤ 1 := by linarith
  have e1 : EqOn (fun r : ℝ => ((n : ℝ) + 1)) (fun r : ℝ => (⌈b - r⌉₊ : ℝ)) (Ioo 0 f) := by
    intro r hr
    have : ⌈b - r⌉₊ = n + 1 := by
      rw [Nat.ceil_eq_iff (by omega)]
      push_cast
      constructor
      · linarith [hr.2]
      · linarith [hr.1]
    simp [this]
  have e2 : EqOn (fun r : ℝ => (n : ℝ)) (fun r : ℝ => (⌈b - r⌉₊ : ℝ)) (Ioo f 1) := by
    intro r hr
    have : ⌈b - r⌉₊ = n := by
      rcases Nat.eq_zero_or_pos n with h0 | h0
      · rw [h0, Nat.ceil_eq_zero]
        rw [h0] at hf; push_cast at hf; linarith [hr.1]
      · rw [Nat.ceil_eq_iff (by omega), Nat.cast_sub (by omega)]
        push_cast
        constructor
        · linarith [hr.2]
        · linarith [hr.1]
    simp [this]
  have i1 : IntervalIntegrable (fun r : ℝ => (⌈b - r⌉₊ : ℝ)) volume 0 f :=
    IntervalIntegrable.congr_uIoo intervalIntegrable_const (by rw [uIoo_of_le hf0]; exact e1)
  have i2 : IntervalIntegrable (fun r : ℝ => (⌈b - r⌉₊ : ℝ)) volume f 1 :=
    IntervalIntegrable.congr_uIoo intervalIntegrable_const (by rw [uIoo_of_le hf1]; exact e2)
  refine ⟨i1.trans i2, ?_⟩
  rw [← integral_add_adjacent_intervals i1 i2, ← integral_congr_Ioo_of_le hf0 e1,
    ← integral_congr_Ioo_of_le hf1 e2]
  simp only [intervalIntegral.integral_const, smul_eq_mul]
  rw [hf]; ring

/-- Number of copies of walker `i` handed out for offset `r` (0 if the selection failed, which
by C02 never happens for `r` in [0,1)). -/
noncomputable def copies (ws : List ℝ) (target i : Nat) (r : ℝ) : ℝ :=
  match combSelect ws target r with
  | some p => (p.getD i 0 : ℝ)
  | none => 0

/-- C09.  Averaged over the uniform offset `r` in [0,1), the number of copies of walker `i` is
`weight * target / total`. -/
theorem combSelect_unbiased (ws : List ℝ) (target i : Nat) (hi : i < ws.length)
    (hnn : ∀ w ∈ ws, 0 ≤ w) (hT : 0 < ws.sum) :
    ∫ r in (0 : ℝ)..1, copies ws target i r = ws[i] * target / ws.sum := by
  have hS : ∀ j, j < ws.length → (ws.take j).sum ≤ (ws.take (j + 1)).sum := by
    intro j hj
    rw [List.take_add_one, List.sum_append]
    simp only [List.getElem?_eq_getElem hj, Option.toList_some, List.sum_singleton]
    have := hnn ws[j] (List.getElem_mem hj)
    linarith
  have hval : ∀ r ∈ Ioo (0 : ℝ) 1, (cnt (fun i => ((i : ℝ) + r) * (ws.sum / (target : ℝ)))
      (fun j => (ws.take j).sum) target i : ℝ) = copies ws target i r := by
    intro r hr
    unfold copies
    rw [combSelect_eq ws target r hnn hT hr.1.le hr.2]
    simp [hi]
  rw [← integral_congr_Ioo_of_le (zero_le_one) hval]
  rcases Nat.eq_zero_or_pos target with h0 | hN
  · subst h0; simp [cnt]
  have hle : (ws.take (i + 1)).sum ≤ ws.sum := by
    have := mono_le (S := fun j => (ws.take j).sum) hS (show i + 1 ≤ ws.length by omega) le_rfl
    simpa using this
  have hstep : (ws.take (i + 1)).sum = (ws.take i).sum + ws[i] := by
    rw [List.take_add_one, List.sum_append]
    simp [List.getElem?_eq_getElem hi]
  have ha : 0 ≤ (ws.take i).sum :=
    List.sum_nonneg (fun x hx => hnn x (List.mem_of_mem_take hx))
  have hw : 0 ≤ ws[i] := hnn _ (List.getElem_mem hi)
  have hb : 0 ≤ (ws.take (i + 1)).sum := by rw [hstep]; linarith
  have hcongr : EqOn (fun r : ℝ => (cnt (fun i => ((i : ℝ) + r) * (ws.sum / (target : ℝ)))
      (fun j => (ws.take j).sum) target i : ℝ))
      (fun r => (⌈(ws.take (i + 1)).sum * target / ws.sum - r⌉₊ : ℝ) -
        (⌈(ws.take i).sum * target / ws.sum - r⌉₊ : ℝ)) (Ioo 0 1) := by
    intro r hr
    simp only
    rw [cnt_eq_ceil ws.sum (fun j => (ws.take j).sum) target i r hT hN hr.1.le hle,
      Nat.cast_sub]
    apply Nat.ceil_mono
    have : (ws.take i).sum * target / ws.sum ≤ (ws.take (i + 1)).sum * target / ws.sum := by
      have := hS i hi
      gcongr
    linarith
  rw [integral_congr_Ioo_of_le zero_le_one hcongr]
  have I1 := integral_ceil_sub ((ws.take (i + 1)).sum * target / ws.sum) (by positivity)
  have I2 := integral_ceil_sub ((ws.take i).sum * target / ws.sum) (by positivity)
  rw [integral_sub I1.1 I2.1, I1.2, I2.2, hstep]
  ring

example : (∀ w ∈ ([3, 0, 1] : List ℝ), 0 ≤ w) ∧ 0 < ([3, 0, 1] : List ℝ).sum := by
  constructor
  · intro w hw; simp at hw; rcases hw with rfl | rfl | rfl <;> norm_num
  · norm_num

end unbiased

section exchange

/-- C04, matching.  On every channel (source, destination, tag) at most one message is sent and
exactly as many are received; and no walker slot of a rank is both sent from and received into. -/
theorem comb_sends_match_receives (nw : Nat) (parent : List Nat) :
    (∀ src dst tag,
      (onChan (combSends nw parent src) dst tag).length =
        (onChan (combRecvs nw parent dst) src tag).length ∧
      (onChan (combSends nw parent src) dst tag).length ≤ 1) ∧
    (∀ r x y, x ∈ combSends nw parent r → y ∈ combRecvs nw parent r → x.1 ≠ y.1) := by
  constructor
  · intro src dst tag
    rw [onChan_sends, onChan_recvs]
    refine ⟨by simp, ?_⟩
    rw [List.length_map]
    have hnd : ((chanPairs nw parent src dst tag).map (·.2)).Nodup := by
      have : ((pairs parent).map (·.2)).Nodup := by
        unfold pairs
        rw [show (fun x : (Nat × Nat) × Nat => x.2) = Prod.snd from rfl, List.zipIdx_map_snd]
        exact List.nodup_range'
      exact ((List.filter_sublist).map _).nodup this
    rcases hc : chanPairs nw parent src dst tag with _ | ⟨a, _ | ⟨b, l⟩⟩
    · simp
    · simp
    · exfalso
      rw [hc] at hnd
      have hm : ∀ x ∈ chanPairs nw parent src dst tag, x.2 = tag := by
        intro x hx
        unfold chanPairs at hx
        simp only [List.mem_filter, decide_eq_true_eq] at hx
        exact hx.2.2.2
      rw [hc] at hm
      have h1 := hm a (by simp)
      have h2 := hm b (by simp)
      simp [h1, h2] at hnd
  · intro r x y hx hy hxy
    simp only [combSends, combRecvs, List.mem_map, List.mem_filter, decide_eq_true_eq] at hx hy
    obtain ⟨a, ⟨ha, ha1⟩, rfl⟩ := hx
    obtain ⟨b, ⟨hb, hb1⟩, rfl⟩ := hy
    simp only at hxy
    have heq : a.1.1 = b.1.2 := by
      rw [← Nat.div_add_mod a.1.1 nw, ← Nat.div_add_mod b.1.2 nw, ha1, hb1, hxy]
    have h1 := (mem_clone.1 (mem_pairs_clone ha)).2
    have h2 := (mem_kill.1 (mem_pairs_kill hb)).2
    rw [heq] at h1
    omega

/-- C04, order.  For every vector of copy counts there is one final population such that every
execution of the exchange, whatever the order in which ranks proceed and messages arrive, never
gets stuck and ends in it, with no message left over. -/
theorem comb_exchange_order_independent {V : Type} (nw size : Nat) (parent : List Nat)
    (hlen : parent.length = nw * size) (mem : Nat → Nat → V) :
    ∃ (f : Cfg V) (total : Nat), Done f ∧ (∀ ch, f.net ch = []) ∧
      (∀ sched s', exec (start (combProg nw parent) mem) sched = some s' →
        ∃ rest, exec s' rest = some f ∧ sched.length + rest.length = total) := by
  obtain ⟨f, t, h1, h2, _, h4⟩ := comb_exchange_final nw size parent hlen mem
  exact ⟨f, t, h1, h2, h4⟩

/-- C04, effect on a walker.  In a finished execution a walker whose count is at least one is
still in place; a walker whose count is zero is in place or has been replaced by a copy of a walker
with count at least two. -/
theorem comb_exchange_effect {V : Type} (nw size : Nat) (parent : List Nat)
    (hlen : parent.length = nw * size) (mem : Nat → Nat → V)
    (sched : List Nat) (s' : Cfg V)
    (hex : exec (start (combProg nw parent) mem) sched = some s') (hd : Done s') :
    ∀ (j : Nat) (hj : j < parent.length),
      (0 < parent[j] → s'.mem (j / nw) (j % nw) = mem (j / nw) (j % nw)) ∧
      (s'.mem (j / nw) (j % nw) = mem (j / nw) (j % nw) ∨
        ∃ (c : Nat) (hc : c < parent.length), 1 < parent[c] ∧
          s'.mem (j / nw) (j % nw) = mem (c / nw) (c % nw)) := by
  obtain ⟨f, t, h1, h2, h3, h4⟩ := comb_exchange_final nw size parent hlen mem
  obtain ⟨rest, h5, _⟩ := h4 sched s' hex
  have hs' : s' = f := by
    cases rest with
    | nil => simpa [exec] using h5
    | cons r rest =>
      exfalso
      simp only [exec, stepAt] at h5
      rw [hd r] at h5
      simp at h5
  subst hs'
  intro j hj
  have hgd : parent.getD j 0 = parent[j] := by simp [hj]
  rw [h3 j (by omega)]
  have hcases : origin parent j = j ∨
      (j ∈ kill parent ∧ origin parent j ∈ clone parent) := by
    unfold origin
    cases hl : ((kill parent).zip (clone parent)).lookup j with
    | none => left; rfl
    | some c =>
      right
      have hmem : (j, c) ∈ (kill parent).zip (clone parent) := by
        by_contra hcon
        by_cases hex : ∃ b, (j, b) ∈ (kill parent).zip (clone parent)
        · obtain ⟨b, hb⟩ := hex
          have := lookup_zip_of_mem (kill_nodup parent) hb
          rw [hl] at this
          simp only [Option.some.injEq] at this
          subst this
          exact hcon hb
        · have := lookup_zip_of_not_mem (l1 := kill parent) (l2 := clone parent) (a := j)
            (fun b hb => hex ⟨b, hb⟩)
          rw [hl] at this; simp at this
      exact ⟨(List.of_mem_zip hmem).1, (List.of_mem_zip hmem).2⟩
  constructor
  · intro hpos
    rcases hcases with h | ⟨h, _⟩
    · rw [h]
    · have := (mem_kill.1 h).2
      omega
  · rcases hcases with h | ⟨_, h⟩
    · left; rw [h]
    · right
      obtain ⟨hl, hgt⟩ := mem_clone.1 h
      refine ⟨origin parent j, hl, ?_, rfl⟩
      simpa [hl] using hgt

/-- Two ranks with two walkers each and counts 2, 0, 2, 0 meet the hypothesis. -/
example : ([2, 0, 2, 0] : List Nat).length = 2 * 2 := rfl

/-- Number of walkers in the final configuration `s` that are copies of the walker that was at
global position `i`, when every walker starts with its global position as label. -/
def realised (nw n i : Nat) (s : Cfg Nat) : Nat :=
  ((List.range n).map (fun j => s.mem (j / nw) (j % nw))).count i

theorem realised_eq_count (nw size : Nat) (parent : List Nat)
    (hlen : parent.length = nw * size)
    (sched : List Nat) (s' : Cfg Nat)
    (hex : exec (start (combProg nw parent) (fun r s => nw * r + s)) sched = some s')
    (hd : Done s') (i : Nat) :
    realised nw parent.length i s' =
      ((List.range parent.length).map (origin parent)).count i := by
  obtain ⟨f, t, h1, h2, h3, h4⟩ := comb_exchange_final nw size parent hlen
    (fun r s => nw * r + s)
  obtain ⟨rest, h5, _⟩ := h4 sched s' hex
  have hs' : s' = f := by
    cases rest with
    | nil => simpa [exec] using h5
    | cons r rest =>
      exfalso
      simp only [exec, stepAt] at h5
      rw [hd r] at h5
      simp at h5
  subst hs'
  unfold realised
  congr 1
  apply List.map_congr_left
  intro j hj
  rw [h3 j (by rw [← hlen]; simpa using hj)]
  exact Nat.div_add_mod _ _

/-- C03, exact condition.  Given copy counts adding up to the population size, the finished
exchange realises every count exactly if and only if no count exceeds two.  The full property (for
every vector of counts the selection can produce) is false: see `comb_loses_copies`. -/
theorem comb_realises_counts_iff_partial (nw size : Nat) (parent : List Nat)
    (hlen : parent.length = nw * size) (hsum : parent.sum = parent.length)
    (sched : List Nat) (s' : Cfg Nat)
    (hex : exec (start (combProg nw parent) (fun r s => nw * r + s)) sched = some s')
    (hd : Done s') :
    (∀ (i : Nat) (hi : i < parent.length), realised nw parent.length i s' = parent[i]) ↔
      ∀ c ∈ parent, c ≤ 2 := by
  constructor
  · intro h c hc
    obtain ⟨i, hi, rfl⟩ := List.getElem_of_mem hc
    rw [← h i hi, realised_eq_count nw size parent hlen sched s' hex hd]
    exact count_origins_le parent i
  · intro h i hi
    rw [realised_eq_count nw size parent hlen sched s' hex hd]
    exact count_origins parent hsum h i hi

/-- C03 fails: three walkers of weights 10, 1, 1 on one rank.  For offset 1/4 the selection
gives counts 3, 0, 0, but after the exchange walker 0 is present only twice and walker 2,
selected for removal, is still there. -/
theorem comb_loses_copies :
    combSelect ([10, 1, 1] : List ℚ) 3 (1 / 4) = some [3, 0, 0] ∧
    ∀ sched s', exec (start (combProg 3 [3, 0, 0]) (fun r s => 3 * r + s)) sched = some s' →
      Done s' → realised 3 3 0 s' = 2 ∧ realised 3 3 2 s' = 1 := by
  constructor
  · rw [combSelect_eq]
    · norm_num [cnt, List.range_succ]
    · intro w hw; simp at hw; rcases hw with rfl | rfl <;> norm_num
    · norm_num
    · norm_num
    · norm_num
  · intro sched s' hex hd
    have h0 := realised_eq_count 3 1 [3, 0, 0] rfl sched s' hex hd 0
    have h2 := realised_eq_count 3 1 [3, 0, 0] rfl sched s' hex hd 2
    simp only [List.length_cons, List.length_nil, Nat.zero_add] at h0 h2
    rw [h0, h2]
    decide

/-- The hypotheses of the partial theorem are met by counts 2, 0, 2, 0 on two ranks. -/
example : ([2, 0, 2, 0] : List Nat).sum = [2, 0, 2, 0].length ∧ ∀ c ∈ [2, 0, 2, 0], c ≤ 2 := by
  decide

end exchange

end Verif.Comb
