import Verif.Stats.Props
import Mathlib.LinearAlgebra.Matrix.Trace

/-!
# Means and errors
-/

namespace Verif.Stats

open Verif.Analysis

/-! ## Density matrices -/

/-- Error of the mean of complex samples. -/
noncomputable def semC (z : List ℂ) : ℝ := stdC z / Real.sqrt z.length

/-- The mean reported is that of the ratios of the blocks kept. -/
theorem rdm_mean {ι : Type*} (blocks : List ((ι → ℂ) × ℂ)) (skip : ℕ) (i : ι) :
    (averageRdm (extractRdm blocks) skip i).1 =
      ((blocks.drop skip).map fun b => b.1 i / b.2).sum / (blocks.length - skip : ℕ) := by
  simp only [averageRdm, extractRdm, avgC, List.map_drop, List.map_map, List.length_drop,
    List.length_map]
  rfl

/-- The error reported is that of the mean times `sqrt((n - skip)/n)`. -/
theorem rdm_error {ι : Type*} (series : List (ι → ℂ)) (skip : ℕ) (i : ι) (h : skip < series.length) :
    (averageRdm series skip i).2 =
      Real.sqrt ((series.length - skip) / series.length) * semC ((series.drop skip).map (· i)) := by
  have hn : (0 : ℝ) < series.length - skip := by
    have : (skip : ℝ) < series.length := by exact_mod_cast h
    linarith
  have hl : (((series.drop skip).map (· i)).length : ℝ) = series.length - skip := by
    rw [List.length_map, List.length_drop, Nat.cast_sub h.le]
  simp only [averageRdm, semC]
  rw [hl, Real.sqrt_div hn.le]
  have h1 : Real.sqrt (series.length - skip) ≠ 0 := (Real.sqrt_pos.2 hn).ne'
  field_simp

/-- **Finding**: with blocks left out the error is too small, if it is not zero. -/
theorem rdm_error_small {ι : Type*} (series : List (ι → ℂ)) (skip : ℕ) (i : ι)
    (h : skip < series.length) (hs : 0 < skip) (he : 0 < semC ((series.drop skip).map (· i))) :
    (averageRdm series skip i).2 < semC ((series.drop skip).map (· i)) := by
  rw [rdm_error series skip i h]
  have hn : (0 : ℝ) < series.length := by exact_mod_cast (Nat.zero_le _).trans_lt h
  have hsk : (0 : ℝ) < skip := by exact_mod_cast hs
  have : Real.sqrt ((series.length - skip) / series.length) < 1 := by
    rw [Real.sqrt_lt' one_pos, one_pow, div_lt_one hn]
    linarith
  nlinarith

/-- Without blocks left out it is the standard error of the mean. -/
theorem rdm_error_partial {ι : Type*} (series : List (ι → ℂ)) (i : ι) (h : series ≠ []) :
    (averageRdm series 0 i).2 = semC (series.map (· i)) := by
  have h0 : 0 < series.length := List.length_pos_iff.2 h
  rw [rdm_error series 0 i h0]
  have : ((series.length : ℝ) - (0 : ℕ)) / series.length = 1 := by
    have : (series.length : ℝ) ≠ 0 := by exact_mod_cast h0.ne'
    simp [this]
  rw [this]
  simp

theorem avg_map_linear {α : Type*} (l : List α) (f : α → ℂ) :
    avg (l.map fun a => (f a).re) = (avgC (l.map f)).re := by
  have := avg_map_re (l.map f)
  rw [List.map_map] at this
  exact this

theorem avgC_add {α : Type*} (l : List α) (f g : α → ℂ) :
    avgC (l.map fun a => f a + g a) = avgC (l.map f) + avgC (l.map g) := by
  simp only [avgC, List.length_map, List.sum_map_add, add_div]

theorem avgC_mul {α : Type*} (l : List α) (c : ℂ) (f : α → ℂ) :
    avgC (l.map fun a => c * f a) = c * avgC (l.map f) := by
  simp only [avgC, List.length_map, List.sum_map_mul_left, mul_div_assoc]

theorem avgC_sum {α ι : Type*} (l : List α) (s : Finset ι) (f : ι → α → ℂ) :
    avgC (l.map fun a => ∑ i ∈ s, f i a) = ∑ i ∈ s, avgC (l.map (f i)) := by
  classical
  induction s using Finset.induction_on with
  | empty => simp [avgC]
  | insert i s hi ih =>
    simp only [Finset.sum_insert hi]
    rw [avgC_add, ih]

/-- Value of a one-body operator: the contraction with the mean density matrix. -/
theorem split_mean {M : ℕ} (A : Fin M → Fin M → ℂ) (Ps : List (Fin 2 × Fin M × Fin M → ℂ)) :
    (analyseSplit A Ps).1 = (∑ i, ∑ j, A i j *
      ((averageRdm Ps 0 (0, i, j)).1 + (averageRdm Ps 0 (1, i, j)).1)).re := by
  simp only [analyseSplit, splitVals, averageRdm, List.drop_zero]
  rw [avg_map_linear]
  congr 1
  rw [avgC_sum]
  refine Finset.sum_congr rfl fun i _ => ?_
  rw [avgC_sum]
  refine Finset.sum_congr rfl fun j _ => ?_
  rw [avgC_mul, avgC_add]

/-- It is the expectation value of `∑ A_ij c†_i c_j` for the mean density matrix `P_ij`: a trace. -/
theorem split_trace {M : ℕ} (A : Matrix (Fin M) (Fin M) ℂ) (Ps : List (Fin 2 × Fin M × Fin M → ℂ)) :
    (analyseSplit A Ps).1 = (Matrix.trace (A.transpose *
      Matrix.of fun i j => (averageRdm Ps 0 (0, i, j)).1 + (averageRdm Ps 0 (1, i, j)).1)).re := by
  refine (split_mean A Ps).trans ?_
  rw [Matrix.trace]
  congr 1
  simp only [Matrix.diag, Matrix.mul_apply, Matrix.transpose_apply, Matrix.of_apply]
  rw [Finset.sum_comm]

/-- **Finding**: `skip` makes no difference to `analyse_one_body`. -/
theorem one_body_skip {M : ℕ} (A : Fin M → Fin M → ℂ)
    (blocks : List ((Fin 2 × Fin M × Fin M → ℂ) × ℂ)) (skip : ℕ) :
    (analyseOneBody A blocks skip).1 = (∑ i, ∑ j, A i j *
      ((averageRdm (extractRdm blocks) 0 (0, i, j)).1 +
        (averageRdm (extractRdm blocks) 0 (1, i, j)).1)).re := split_mean A _

/-- **Finding**: so it differs from what the density matrix averaged with the same `skip` gives. -/
theorem one_body_differs :
    ∃ (A : Fin 1 → Fin 1 → ℂ) (blocks : List ((Fin 2 × Fin 1 × Fin 1 → ℂ) × ℂ)),
      (analyseOneBody A blocks 1).1 ≠ (∑ i, ∑ j, A i j *
        ((averageRdm (extractRdm blocks) 1 (0, i, j)).1 +
          (averageRdm (extractRdm blocks) 1 (1, i, j)).1)).re := by
  refine ⟨fun _ _ => 1, [(fun _ => 1, 1), (fun _ => 0, 1), (fun _ => 0, 1)], ?_⟩
  simp [analyseOneBody, analyseSplit, splitVals, averageRdm, extractRdm, avgC, avg]

/-- Hole and spin density: from the mean densities of the two spins. -/
theorem correlation_mean {M : ℕ} (gf : List (Fin 2 × Fin M × Fin M → ℝ)) (i : Fin M) (h : gf ≠ []) :
    (averageCorrelation gf i).1.1 =
      1 - (avg (gf.map fun g => g (0, i, i)) + avg (gf.map fun g => g (1, i, i))) ∧
    (averageCorrelation gf i).2.1 =
      (avg (gf.map fun g => g (0, i, i)) - avg (gf.map fun g => g (1, i, i))) / 2 := by
  have hn : (gf.length : ℝ) ≠ 0 := by
    exact_mod_cast (List.length_pos_iff.2 h).ne'
  have h1 : ∀ l : List (Fin 2 × Fin M × Fin M → ℝ),
      (l.map fun g => 1 - (g (0, i, i) + g (1, i, i))).sum =
        l.length - ((l.map fun g => g (0, i, i)).sum + (l.map fun g => g (1, i, i)).sum) := by
    intro l
    induction l with
    | nil => simp
    | cons a t ih => simp only [List.map_cons, List.sum_cons, ih, List.length_cons]; push_cast; ring
  have h2 : ∀ l : List (Fin 2 × Fin M × Fin M → ℝ),
      (l.map fun g => 0.5 * (g (0, i, i) - g (1, i, i))).sum =
        ((l.map fun g => g (0, i, i)).sum - (l.map fun g => g (1, i, i)).sum) / 2 := by
    intro l
    induction l with
    | nil => simp
    | cons a t ih => simp only [List.map_cons, List.sum_cons, ih]; ring
  simp only [averageCorrelation, avg, List.length_map, h1, h2]
  constructor
  · field_simp
  · ring

/-! ## Ratios at equal time -/

/-- Sum of squares of the deviations. -/
noncomputable def ss (x : List ℝ) : ℝ := (x.map fun a => (a - avg x) ^ 2).sum

theorem ss_nonneg (x : List ℝ) : 0 ≤ ss x := List.sum_nonneg fun y hy => by
  obtain ⟨a, _, rfl⟩ := List.mem_map.mp hy
  positivity

theorem sd_sq (x : List ℝ) (h : 2 ≤ x.length) : sd x ^ 2 = ss x / (x.length - 1) := by
  have : (2 : ℝ) ≤ x.length := by exact_mod_cast h
  show Real.sqrt (ss x / (x.length - 1)) ^ 2 = _
  rw [Real.sq_sqrt (div_nonneg (ss_nonneg x) (by linarith))]

theorem sem_eq (x : List ℝ) : sem x = sd x / Real.sqrt x.length := rfl

theorem sem_sq (x : List ℝ) (h : 2 ≤ x.length) : sem x ^ 2 = ss x / (x.length - 1) / x.length := by
  rw [sem_eq, div_pow, sd_sq x h, Real.sq_sqrt (by positivity)]

/-- Deviations of `x - E y` when the means of `x` and `E y` agree. -/
theorem ss_linear {α : Type*} (l : List α) (f g : α → ℝ) (E : ℝ)
    (hE : avg (l.map f) = E * avg (l.map g)) :
    ((l.map fun a => (f a - E * g a) ^ 2).sum) = ss (l.map f) + E ^ 2 * ss (l.map g) -
      2 * E * (((l.map f).zip (l.map g)).map fun p =>
        (p.1 - avg (l.map f)) * (p.2 - avg (l.map g))).sum := by
  have h1 : ∀ (m : List α) (a b : ℝ), a = E * b → (m.map fun x => (f x - E * g x) ^ 2).sum =
      (m.map fun x => (f x - a) ^ 2).sum + E ^ 2 * (m.map fun x => (g x - b) ^ 2).sum -
      2 * E * (((m.map f).zip (m.map g)).map fun p => (p.1 - a) * (p.2 - b)).sum := by
    intro m a b hab
    induction m with
    | nil => simp
    | cons x t ih =>
      simp only [List.map_cons, List.sum_cons, List.zip_cons_cons, ih]
      subst hab
      ring
  have := h1 l _ _ hE
  rw [this]
  unfold ss
  rw [List.map_map, List.map_map]
  rfl

/-- **Error of a ratio of means** (`average_tau`): the standard error of the mean of
`num - E den`, divided by the mean denominator: the first order in the fluctuations.  It is never
`nan`. -/
theorem tau_error (g : List Entry) (h : 2 ≤ g.length)
    (hn : avg (g.map fun r => r.num.re) ≠ 0) (hd : avg (g.map fun r => r.den.re) ≠ 0) :
    let E := (averageTau g).energy
    E = avg (g.map fun r => r.num.re) / avg (g.map fun r => r.den.re) ∧
    (averageTau g).energyErr =
      some (sem (g.map fun r => r.num.re - E * r.den.re) / |avg (g.map fun r => r.den.re)|) := by
  intro E
  refine ⟨rfl, ?_⟩
  set X := avg (g.map fun r => r.num.re) with hX
  set Y := avg (g.map fun r => r.den.re) with hY
  have hEE : E = X / Y := rfl
  have hXE : X = E * Y := by rw [hEE]; field_simp
  have hn1 : (0 : ℝ) < g.length - 1 := by
    have : (2 : ℝ) ≤ g.length := by exact_mod_cast h
    linarith
  have hn0 : (0 : ℝ) < g.length := by linarith
  have hlen : ∀ f : Entry → ℝ, (g.map f).length = g.length := fun f => List.length_map _
  have hav : avg (g.map fun r => r.num.re - E * r.den.re) = 0 := by
    have : avg (g.map fun r => r.num.re - E * r.den.re) = X - E * Y := by
      rw [hX, hY]
      unfold avg
      simp only [List.length_map]
      have : ∀ m : List Entry, (m.map fun r => r.num.re - E * r.den.re).sum =
          (m.map fun r => r.num.re).sum - E * (m.map fun r => r.den.re).sum := by
        intro m
        induction m with
        | nil => simp
        | cons a t ih => simp only [List.map_cons, List.sum_cons, ih]; ring
      rw [this]
      ring
    rw [this, ← hXE, sub_self]
  have hss : ss (g.map fun r => r.num.re - E * r.den.re) =
      ss (g.map fun r => r.num.re) + E ^ 2 * ss (g.map fun r => r.den.re) - 2 * E *
        (((g.map fun r => r.num.re).zip (g.map fun r => r.den.re)).map fun p =>
          (p.1 - X) * (p.2 - Y)).sum := by
    rw [← ss_linear g (fun r => r.num.re) (fun r => r.den.re) E hXE]
    unfold ss
    rw [hav, List.map_map]
    refine congrArg List.sum (List.map_congr_left fun r _ => ?_)
    simp
  set C := (((g.map fun r => r.num.re).zip (g.map fun r => r.den.re)).map fun p =>
          (p.1 - X) * (p.2 - Y)).sum with hC
  have hcov : cov (g.map fun r => r.num.re) (g.map fun r => r.den.re) = C / (g.length - 1) := by
    unfold cov
    rw [List.length_map]
  have hE0 : E ≠ 0 := by rw [hEE]; exact div_ne_zero hn hd
  have harg : (sd (g.map fun r => r.num.re) / X) ^ 2 + (sd (g.map fun r => r.den.re) / Y) ^ 2 -
      2 * cov (g.map fun r => r.num.re) (g.map fun r => r.den.re) / (X * Y) =
      ss (g.map fun r => r.num.re - E * r.den.re) / (g.length - 1) / X ^ 2 := by
    rw [div_pow, div_pow, sd_sq _ (by simpa using h), sd_sq _ (by simpa using h), hcov, hss,
      List.length_map, List.length_map, hXE]
    field_simp
  have hnn : 0 ≤ ss (g.map fun r => r.num.re - E * r.den.re) / (g.length - 1) / X ^ 2 :=
    div_nonneg (div_nonneg (ss_nonneg _) hn1.le) (sq_nonneg _)
  have hval : (averageTau g).energyErr = (nsqrt ((sd (g.map fun r => r.num.re) / X) ^ 2 +
      (sd (g.map fun r => r.den.re) / Y) ^ 2 -
      2 * cov (g.map fun r => r.num.re) (g.map fun r => r.den.re) / (X * Y))).map
        fun s => |E / Real.sqrt g.length| * s := rfl
  rw [hval, harg, nsqrt, if_neg (not_lt.2 hnn), Option.map_some]
  congr 1
  rw [sem_eq, Real.sqrt_div (div_nonneg (ss_nonneg _) hn1.le), Real.sqrt_sq_eq_abs, List.length_map,
    abs_div, abs_of_nonneg (Real.sqrt_nonneg _), hEE, abs_div]
  have : sd (g.map fun r => r.num.re - X / Y * r.den.re) =
      Real.sqrt (ss (g.map fun r => r.num.re - X / Y * r.den.re) / (g.length - 1)) := by
    unfold sd ss
    rw [List.length_map]
  rw [this]
  generalize Real.sqrt (ss (g.map fun r => r.num.re - X / Y * r.den.re) / (g.length - 1)) = q
  have hX0 : |X| ≠ 0 := abs_ne_zero.2 hn
  have hY0 : |Y| ≠ 0 := abs_ne_zero.2 hd
  have hs0 : Real.sqrt g.length ≠ 0 := (Real.sqrt_pos.2 hn0).ne'
  field_simp

/-- The other columns of `average_tau` are means; the error of the projected energy is the standard
error of its mean. -/
theorem tau_columns (g : List Entry) :
    (averageTau g).eproj = avg (g.map Entry.etot) ∧ (averageTau g).eprojErr = sem (g.map Entry.etot) ∧
    (averageTau g).weight = avg (g.map Entry.weight) ∧
    (averageTau g).numer = avg (g.map fun r => r.num.re) := by
  refine ⟨rfl, ?_, rfl, rfl⟩
  rw [sem_eq, List.length_map]; rfl

/-- **Finding**: the errors of weight and numerator are not divided by the square root of the number
of samples. -/
theorem tau_weight_error (g : List Entry) (h : g ≠ []) :
    (averageTau g).weightErr = Real.sqrt g.length * sem (g.map Entry.weight) ∧
    (averageTau g).numerErr = Real.sqrt g.length * sem (g.map fun r => r.num.re) := by
  have hn : (0 : ℝ) < g.length := by exact_mod_cast List.length_pos_iff.2 h
  have hs0 : Real.sqrt g.length ≠ 0 := (Real.sqrt_pos.2 hn).ne'
  constructor
  · rw [sem_eq, List.length_map]
    show sd _ = _
    field_simp
  · rw [sem_eq, List.length_map]
    show sd _ = _
    field_simp

/-- Energy of `average_fp`: the real part of the ratio of the complex means over the runs. -/
theorem fp_energy (rows : List Entry) (k : ℕ) :
    (averageFp rows k).1 = (avgC ((atIter rows k).map Entry.num) /
      avgC ((atIter rows k).map Entry.den)).re := by
  simp only [averageFp]
  rw [avg_map_linear (atIter rows k) Entry.num, avg_map_linear (atIter rows k) Entry.den]
  have him : ∀ f : Entry → ℂ, avg ((atIter rows k).map fun a => (f a).im) =
      (avgC ((atIter rows k).map f)).im := by
    intro f
    have := avg_map_im ((atIter rows k).map f)
    rw [List.map_map] at this
    exact this
  rw [him Entry.num, him Entry.den, Complex.div_re, Complex.normSq_apply]
  ring

/-- With as many runs as iterations and real data, the error is that of `average_tau`. -/
theorem fp_error_partial (rows : List Entry) (k : ℕ) (h : (atIter rows k).length = (iters rows).length)
    (h2 : 2 ≤ (atIter rows k).length) (hre : ∀ r ∈ atIter rows k, r.num.im = 0 ∧ r.den.im = 0)
    (hn : avg ((atIter rows k).map fun r => r.num.re) ≠ 0)
    (hd : avg ((atIter rows k).map fun r => r.den.re) ≠ 0) :
    (averageFp rows k).2 = (averageTau (atIter rows k)).energyErr := by
  set g := atIter rows k with hg
  have hn1 : (0 : ℝ) < g.length - 1 := by
    have : (2 : ℝ) ≤ g.length := by exact_mod_cast h2
    linarith
  have hn0 : (0 : ℝ) < g.length := by linarith
  have him : ∀ f : Entry → ℂ, (∀ r ∈ g, (f r).im = 0) → avg (g.map fun r => (f r).im) = 0 := by
    intro f hf
    unfold avg
    have : (g.map fun r => (f r).im) = g.map fun _ => 0 := List.map_congr_left hf
    rw [this]
    simp
  have e1 := him Entry.num fun r hr => (hre r hr).1
  have e2 := him Entry.den fun r hr => (hre r hr).2
  set X := avg (g.map fun r => r.num.re) with hX
  set Y := avg (g.map fun r => r.den.re) with hY
  have hen : (X * Y + avg (g.map fun r => r.num.im) * avg (g.map fun r => r.den.im)) /
      (Y ^ 2 + avg (g.map fun r => r.den.im) ^ 2) = X / Y := by
    rw [e1, e2]
    field_simp
    ring
  have hs : (0 : ℝ) ≤ 1 / Real.sqrt g.length := by positivity
  have hval : (averageFp rows k).2 = (nsqrt ((sem (g.map fun r => r.num.re) / X) ^ 2 +
      (sem (g.map fun r => r.den.re) / Y) ^ 2 - 2 * cov (g.map fun r => r.num.re)
        (g.map fun r => r.den.re) / ((iters rows).length * X * Y))).map fun s =>
      |(X * Y + avg (g.map fun r => r.num.im) * avg (g.map fun r => r.den.im)) /
      (Y ^ 2 + avg (g.map fun r => r.den.im) ^ 2)| * s := rfl
  have harg : (sem (g.map fun r => r.num.re) / X) ^ 2 + (sem (g.map fun r => r.den.re) / Y) ^ 2 -
      2 * cov (g.map fun r => r.num.re) (g.map fun r => r.den.re) / ((iters rows).length * X * Y) =
      ((sd (g.map fun r => r.num.re) / X) ^ 2 + (sd (g.map fun r => r.den.re) / Y) ^ 2 -
      2 * cov (g.map fun r => r.num.re) (g.map fun r => r.den.re) / (X * Y)) / g.length := by
    rw [sem_eq, sem_eq, List.length_map, List.length_map, ← h, div_div, div_div, div_pow, div_pow,
      mul_pow, mul_pow, Real.sq_sqrt hn0.le]
    field_simp
  obtain ⟨_, ht⟩ := tau_error g h2 hn hd
  have hval' : (averageTau g).energyErr = (nsqrt ((sd (g.map fun r => r.num.re) / X) ^ 2 +
      (sd (g.map fun r => r.den.re) / Y) ^ 2 -
      2 * cov (g.map fun r => r.num.re) (g.map fun r => r.den.re) / (X * Y))).map
        fun s => |X / Y / Real.sqrt g.length| * s := rfl
  rw [hval, hen, harg, hval']
  set a := (sd (g.map fun r => r.num.re) / X) ^ 2 +
      (sd (g.map fun r => r.den.re) / Y) ^ 2 -
      2 * cov (g.map fun r => r.num.re) (g.map fun r => r.den.re) / (X * Y) with ha
  have hpos : ¬ a < 0 := by
    intro hc
    rw [hval', nsqrt, if_pos hc] at ht
    simp at ht
  have hpos' : ¬ a / g.length < 0 := not_lt.2 (div_nonneg (not_lt.1 hpos) hn0.le)
  rw [nsqrt, nsqrt, if_neg hpos, if_neg hpos', Option.map_some, Option.map_some,
    Real.sqrt_div (not_lt.1 hpos), abs_div (X / Y), abs_of_nonneg (Real.sqrt_nonneg _)]
  congr 1
  ring

/-- **Finding**: in general the covariance is divided by the number of iterations in place of that of
runs.  Two runs of a single iteration with the same energy: the error is `nan`. -/
theorem fp_error_nan : ∃ rows : List Entry, (∀ r ∈ rows, r.num = r.den) ∧ rows.length = 2 ∧
    (averageFp rows 0).2 = none := by
  refine ⟨[⟨0, 1, 1, 0, 1⟩, ⟨0, 3, 3, 0, 1⟩], by simp, rfl, ?_⟩
  have hi : iters [⟨0, 1, 1, 0, 1⟩, ⟨0, 3, 3, 0, 1⟩] = [0] := by
    simp [iters]
  have hg : atIter [⟨0, 1, 1, 0, 1⟩, ⟨0, 3, 3, 0, 1⟩] 0 = [⟨0, 1, 1, 0, 1⟩, ⟨0, 3, 3, 0, 1⟩] := by
    simp [atIter]
  have hs : sem [1, 3] ^ 2 = 1 := by
    rw [sem_sq _ (by simp)]
    norm_num [ss, avg]
  simp only [averageFp, hi, hg, List.map_cons, List.map_nil, Complex.one_re, Complex.re_ofNat]
  have ha : avg [(1 : ℝ), 3] = 2 := by norm_num [avg]
  have hc : cov [(1 : ℝ), 3] [1, 3] = 2 := by norm_num [cov, ha]
  rw [ha, hc, div_pow, hs, nsqrt, if_pos (by norm_num)]
  rfl

/-- **Finding**: two runs of eight iterations with the same energy throughout: the error of a ratio
that does not fluctuate is not zero. -/
theorem fp_error_wrong : ∃ rows : List Entry, (∀ r ∈ rows, r.num = r.den) ∧
    (∀ k < 8, (atIter rows k).length = 2) ∧ ∃ e, (averageFp rows 0).2 = some e ∧ 0 < e := by
  refine ⟨(List.range 8).flatMap fun k => [⟨k, 1, 1, 0, 1⟩, ⟨k, 3, 3, 0, 1⟩], ?_, ?_, ?_⟩
  · intro r hr
    simp only [List.mem_flatMap, List.mem_range, List.mem_cons, List.not_mem_nil, or_false] at hr
    obtain ⟨k, _, rfl | rfl⟩ := hr <;> rfl
  · intro k hk
    have : ∀ k < 8, ((atIter ((List.range 8).flatMap fun k =>
        [(⟨k, 1, 1, 0, 1⟩ : Entry), ⟨k, 3, 3, 0, 1⟩]) k).length = 2) := by
      intro k hk
      interval_cases k <;> simp [atIter, List.range_succ]
    exact this k hk
  · have hi : (iters ((List.range 8).flatMap fun k =>
        [(⟨k, 1, 1, 0, 1⟩ : Entry), ⟨k, 3, 3, 0, 1⟩])).length = 8 := by
      have : iters ((List.range 8).flatMap fun k =>
        [(⟨k, 1, 1, 0, 1⟩ : Entry), ⟨k, 3, 3, 0, 1⟩]) = List.range 8 := by
        simp [iters, List.range_succ, List.dedup_cons_of_mem]
      rw [this]; rfl
    have hg : atIter ((List.range 8).flatMap fun k =>
        [(⟨k, 1, 1, 0, 1⟩ : Entry), ⟨k, 3, 3, 0, 1⟩]) 0 = [⟨0, 1, 1, 0, 1⟩, ⟨0, 3, 3, 0, 1⟩] := by
      simp [atIter, List.range_succ]
    have hs : sem [1, 3] ^ 2 = 1 := by
      rw [sem_sq _ (by simp)]
      norm_num [ss, avg]
    simp only [averageFp, hi, hg, List.map_cons, List.map_nil, Complex.one_re, Complex.re_ofNat,
      Complex.one_im, Complex.im_ofNat]
    have ha : avg [(1 : ℝ), 3] = 2 := by norm_num [avg]
    have hc : cov [(1 : ℝ), 3] [1, 3] = 2 := by norm_num [cov, ha]
    have h0 : avg [(0 : ℝ), 0] = 0 := by norm_num [avg]
    rw [ha, hc, h0, div_pow, hs, nsqrt, if_neg (by norm_num)]
    refine ⟨_, rfl, ?_⟩
    apply mul_pos
    · norm_num
    · apply Real.sqrt_pos.2; norm_num

end Verif.Stats
