import Mathlib.MeasureTheory.Integral.IntervalIntegral.Basic
import Mathlib.Data.Complex.BigOperators
import Mathlib.Data.List.FinRange
import Mathlib.Data.Fintype.BigOperators

/-!
# Averages over the random numbers of a sweep

The random numbers of a sweep over the sites are independent and uniform in `[0, 1]`; one number decides between the two fields of a
site.  General lemmas, not a model of code.
-/

namespace Verif.Fields

open Finset

variable {n : Nat} {S : Type}

/-- Average over independent uniform random numbers for the given sites. -/
noncomputable def meanOver : List (Fin n) → ((Fin n → ℝ) → ℂ) → ℂ
  | [], F => F 0
  | i :: l, F => ∫ r in (0 : ℝ)..1, meanOver l fun rs => F (Function.update rs i r)

/-- Average over a step function. -/
theorem integral_choice (p : ℝ) (h0 : 0 ≤ p) (h1 : p ≤ 1) (A : Fin 2 → ℂ) :
    (∫ r in (0 : ℝ)..1, A (if r < p then 0 else 1)) = p * A 0 + (1 - p) * A 1 := by
  have i1 : ∫ r in (0 : ℝ)..p, A (if r < p then 0 else 1) = p * A 0 := by
    rw [intervalIntegral.integral_congr_ae (g := fun _ => A 0)]
    · simp
    · have : ∀ᵐ r : ℝ, r ≠ p := by
        simp [MeasureTheory.ae_iff, MeasureTheory.measure_singleton]
      filter_upwards [this] with r hr hm
      rw [Set.uIoc_of_le h0] at hm
      rw [if_pos (lt_of_le_of_ne hm.2 hr)]
  have i2 : ∫ r in p..(1 : ℝ), A (if r < p then 0 else 1) = (1 - p) * A 1 := by
    rw [intervalIntegral.integral_congr (g := fun _ => A 1)]
    · simp
    · intro r hr
      rw [Set.uIcc_of_le h1] at hr
      simp only [if_neg (not_lt.2 hr.1)]
  have hint : ∀ a b : ℝ, IntervalIntegrable (fun r : ℝ => A (if r < p then 0 else 1)) MeasureTheory.volume a b := by
    intro a b
    refine intervalIntegrable_iff.2 (MeasureTheory.Measure.integrableOn_of_bounded (M := ‖A 0‖ + ‖A 1‖) ?_ ?_ ?_)
    · exact (by rw [Set.uIoc]; exact measure_Ioc_lt_top.ne)
    · have : (fun r : ℝ => A (if r < p then 0 else 1)) = fun r => if r < p then A 0 else A 1 := by
        funext r; split_ifs <;> rfl
      rw [this]
      exact (Measurable.ite measurableSet_Iio measurable_const measurable_const).aestronglyMeasurable
    · refine Filter.Eventually.of_forall fun r => ?_
      split_ifs
      · exact le_add_of_nonneg_right (norm_nonneg _)
      · exact le_add_of_nonneg_left (norm_nonneg _)
  rw [← intervalIntegral.integral_add_adjacent_intervals (hint 0 p) (hint p 1), i1, i2]

/-! ## Sweeps -/

/-- A sweep: at each site one of two updates is chosen with probabilities proportional to `tr`, unless both vanish. -/
structure Proc (S : Type) (n : Nat) where
  tr : S → Fin n → Fin 2 → ℝ
  app : S → Fin n → Fin 2 → S
  kill : S → S

open Classical in
/-- The sweep with given random numbers. -/
noncomputable def Proc.sweep (P : Proc S n) (rs : Fin n → ℝ) : List (Fin n) → S → S
  | [], s => s
  | i :: l, s =>
    if 0 < P.tr s i 0 + P.tr s i 1 then
      P.sweep rs l (P.app s i (if rs i < P.tr s i 0 / (P.tr s i 0 + P.tr s i 1) then 0 else 1))
    else P.kill s

open Classical in
/-- The average at the end of the sweep. -/
noncomputable def Proc.tree (P : Proc S n) (F : S → ℂ) : List (Fin n) → S → ℂ
  | [], s => F s
  | i :: l, s =>
    if 0 < P.tr s i 0 + P.tr s i 1 then
      ∑ xi, ((P.tr s i xi / (P.tr s i 0 + P.tr s i 1) : ℝ) : ℂ) * P.tree F l (P.app s i xi)
    else F (P.kill s)

theorem Proc.sweep_congr (P : Proc S n) {rs rs' : Fin n → ℝ} : ∀ (l : List (Fin n)) (s : S), (∀ i ∈ l, rs i = rs' i) →
    P.sweep rs l s = P.sweep rs' l s
  | [], _, _ => rfl
  | i :: l, s, h => by
    rw [Proc.sweep, Proc.sweep, h i List.mem_cons_self]
    split_ifs
    · exact sweep_congr P l _ fun j hj => h j (List.mem_cons_of_mem _ hj)
    · exact sweep_congr P l _ fun j hj => h j (List.mem_cons_of_mem _ hj)
    · rfl

theorem meanOver_const : ∀ (l : List (Fin n)) (c : ℂ), meanOver l (fun _ => c) = c
  | [], _ => rfl
  | i :: l, c => by
    rw [meanOver]
    simp only [meanOver_const l c]
    simp

/-- The average over the random numbers. -/
theorem Proc.mean_sweep (P : Proc S n) (h0 : ∀ s i xi, 0 ≤ P.tr s i xi) (F : S → ℂ) : ∀ (l : List (Fin n)), l.Nodup → ∀ s : S,
    meanOver l (fun rs => F (P.sweep rs l s)) = P.tree F l s
  | [], _, s => rfl
  | i :: l, hl, s => by
    have hi : i ∉ l := (List.nodup_cons.1 hl).1
    rw [meanOver, Proc.tree]
    by_cases hn : 0 < P.tr s i 0 + P.tr s i 1
    · have e : ∀ r : ℝ, (meanOver l fun rs => F (P.sweep (Function.update rs i r) (i :: l) s)) =
          (fun xi => P.tree F l (P.app s i xi)) (if r < P.tr s i 0 / (P.tr s i 0 + P.tr s i 1) then 0 else 1) := by
        intro r
        beta_reduce
        rw [← mean_sweep P h0 F l (List.nodup_cons.1 hl).2]
        congr 1
        funext rs
        rw [Proc.sweep, if_pos hn, Function.update_self]
        congr 1
        refine P.sweep_congr l _ fun j hj => ?_
        rw [Function.update_of_ne]
        rintro rfl
        exact hi hj
      simp only [e]
      rw [integral_choice _ (div_nonneg (h0 _ _ _) hn.le) ((div_le_one hn).2 (le_add_of_nonneg_right (h0 _ _ _)))
        (fun xi => P.tree F l (P.app s i xi)), if_pos hn, Fin.sum_univ_two]
      congr 2
      have : (P.tr s i 1 / (P.tr s i 0 + P.tr s i 1) : ℝ) = 1 - P.tr s i 0 / (P.tr s i 0 + P.tr s i 1) := by
        rw [eq_sub_iff_add_eq, ← add_div, add_comm, div_self hn.ne']
      rw [this]
      push_cast
      rfl
    · have e : ∀ r : ℝ, (meanOver l fun rs => F (P.sweep (Function.update rs i r) (i :: l) s)) = F (P.kill s) := by
        intro r
        rw [← meanOver_const l (F (P.kill s))]
        congr 1
        funext rs
        rw [Proc.sweep, if_neg hn]
      simp only [e, if_neg hn]
      simp

/-! ## Sums over all fields -/

/-- Average over the two fields of each of the given sites, one after the other. -/
noncomputable def fieldSum {T : Type} (step : T → Fin n → Fin 2 → T) (L : T → ℂ) : List (Fin n) → T → ℂ
  | [], t => L t
  | i :: l, t => ∑ xi, 1 / 2 * fieldSum step L l (step t i xi)

theorem sum_fields (i : Fin n) (K : (Fin n → Fin 2) → ℂ) :
    ∑ f, K f = 1 / 2 * ∑ f : Fin n → Fin 2, ∑ x, K (Function.update f i x) := by
  let flip : (Fin n → Fin 2) ≃ (Fin n → Fin 2) :=
    ⟨fun f => Function.update f i (1 - f i), fun f => Function.update f i (1 - f i), fun f => by simp, fun f => by simp⟩
  have h1 : ∑ f, K (flip f) = ∑ f, K f := Equiv.sum_comp flip K
  have h2 : ∀ f : Fin n → Fin 2, ∑ x, K (Function.update f i x) = K f + K (flip f) := by
    intro f
    have hf : K f = K (Function.update f i (f i)) := by rw [Function.update_eq_self]
    rw [Fin.sum_univ_two, hf]
    show _ = _ + K (Function.update f i (1 - f i))
    rcases Fin.exists_fin_two.1 ⟨f i, rfl⟩ with h | h
    · rw [h, sub_zero]
    · rw [h, sub_self, add_comm]
  simp only [h2]
  rw [sum_add_distrib, h1]
  ring

theorem fieldSum_eq {T : Type} (step : T → Fin n → Fin 2 → T) (L : T → ℂ) : ∀ (l : List (Fin n)), l.Nodup → ∀ t : T,
    fieldSum step L l t = (1 / 2) ^ n * ∑ f : Fin n → Fin 2, L (l.foldl (fun t i => step t i (f i)) t)
  | [], _, t => by
    simp only [fieldSum, List.foldl_nil, sum_const, card_univ, Fintype.card_fun, Fintype.card_fin, nsmul_eq_mul]
    push_cast
    rw [← mul_assoc, ← mul_pow]
    norm_num
  | i :: l, hl, t => by
    have hi : i ∉ l := (List.nodup_cons.1 hl).1
    rw [fieldSum]
    simp only [fieldSum_eq step L l (List.nodup_cons.1 hl).2]
    rw [sum_fields i]
    have e : ∀ (f : Fin n → Fin 2) (x : Fin 2) (t : T), l.foldl (fun t j => step t j (Function.update f i x j)) t =
        l.foldl (fun t j => step t j (f j)) t := by
      intro f x t
      refine List.foldl_ext _ _ _ fun a b hb => ?_
      rw [Function.update_of_ne]
      rintro rfl
      exact hi hb
    simp only [List.foldl_cons, Function.update_self, e]
    rw [sum_comm, mul_sum, mul_sum, ]
    refine sum_congr rfl fun x _ => ?_
    ring

end Verif.Fields
