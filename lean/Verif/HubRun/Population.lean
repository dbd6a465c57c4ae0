import Verif.HubRun.Chain
import Verif.PairBranch.Rows

/-!
# Runs of a population of walkers with population control: C121

Main loop `pauxy/qmc/afqmc.py` 224-255, population control `pauxy/walkers/handler.py` 225-252 with `pair_branch` (340-412), steps
`Hirsch.constrainedStep`.
-/

namespace Verif.HubRun

open Matrix Finset Filter Topology
open Verif.Slater
open Verif.Hirsch
open Verif.Step (Hub spin Anti prodState orbs hubOp slater)
open Verif.Fields (meanOver Proc Ground)
open Verif.PairBranch (Walker pairBranchRoot pbProg pbMem)

variable {nb nu nd : Nat}

/-- The walkers of all ranks; walker `q` is in slot `q % nw` of rank `q / nw`. -/
abbrev Pop (nb nu nd : Nat) := Nat → Wk nb nu nd

/-- The numbers that population control and main loop use: `min_weight`, `max_weight` and `target_weight` of the walkers, walkers per
rank, ranks, the threshold below which walkers are skipped and runs stopped (`1e-8`), and the largest share of a walker in the total
weight (`0.10`). -/
structure Ctl where
  mn : ℝ
  mx : ℝ
  target : ℝ
  nw : Nat
  size : Nat
  tiny : ℝ
  share : ℝ

/-- Number of walkers, `ntot_walkers`. -/
def Ctl.num (c : Ctl) : Nat := c.nw * c.size

open Classical in
/-- What the main loop does to a walker in a step, afqmc.py 233-238; `capped` is `step > 1`, `T` the stored `total_weight`. -/
noncomputable def moved (c : Ctl) (p : Par nb) (psi : Wfn nb nu nd) (e : ℝ) (capped : Bool) (T : ℝ) (rs : Fin nb → ℝ) (w : Wk nb nu nd) :
    Wk nb nu nd :=
  let w1 := if c.tiny < |w.weight| then constrainedStep p psi e rs w else w
  if T * c.share < |w1.weight| ∧ capped = true then { w1 with weight := T * c.share } else w1

/-- The sum of the weights that `pop_control` gathers, handler.py 230-233. -/
noncomputable def total (c : Ctl) (ws : Pop nb nu nd) : ℝ := ∑ q ∈ range c.num, |(ws q).weight|

/-- The walkers as `pair_branch` sees them, after the division of handler.py 235 and 246. -/
noncomputable def scaled (c : Ctl) (ws : Pop nb nu nd) : Nat → Walker ℝ (Wk nb nu nd) :=
  fun q => ⟨(ws q).weight / (total c ws / c.target), ws q⟩

open Classical in
/-- The state in which the exchange of walkers ends; `PairBranch.pairBranch_exchange_completes` shows that it exists and does not depend
on the order of the messages. -/
noncomputable def ended {V : Type} (s : Mpi.Cfg V) : Mpi.Cfg V :=
  if h : ∃ f, (∃ sched, Mpi.exec s sched = some f) ∧ Mpi.Done f then h.choose else s

/-- A walker after the exchange: all attributes come from the buffer, the weight among them. -/
noncomputable def unpack (w : Walker ℝ (Wk nb nu nd)) : Wk nb nu nd := { w.state with weight := w.weight }

/-- Scaling and pair branching with given random numbers, handler.py 244-252 and 340-412. -/
noncomputable def branched (c : Ctl) (draw : Nat → ℝ) (ws : Pop nb nu nd) : Pop nb nu nd :=
  match pairBranchRoot c.mn c.mx draw c.nw c.size (scaled c ws) with
  | none => ws
  | some fin => fun q => if q < c.num then
      unpack ((ended (Mpi.start (pbProg c.nw fin) (pbMem c.nw fin (scaled c ws)))).mem (q / c.nw) (q % c.nw)) else ws q

/-- Average over the random numbers of a step for the given walkers. -/
noncomputable def meanAll (f : (Fin nb → ℝ) → Wk nb nu nd → Wk nb nu nd) : List Nat → (Pop nb nu nd → ℂ) → Pop nb nu nd → ℂ
  | [], G, ws => G ws
  | q :: l, G, ws => meanOver (List.finRange nb) fun rs => meanAll f l G (Function.update ws q (f rs (ws q)))

/-- Average over the random numbers of a population control. -/
noncomputable def meanDraw (n : Nat) (G : (Nat → ℝ) → ℂ) : ℂ :=
  meanOver (List.finRange n) fun r => G fun k => if h : k < n then r ⟨k, h⟩ else 0

/-- What happens in a run: steps, whose energy shift may depend on everything that happened before, reorthogonalisation of all
walkers, population control, and the end of a program run followed by a run that starts from the walkers in the file, with `nw` walkers
on each of `size` ranks. -/
inductive Ev (nb nu nd : Nat) where
  | step (capped : Bool) (shift : List (Pop nb nu nd) → ℝ)
  | ortho
  | pop
  | restart (nw size : Nat)

/-- A walker of a restarted run: a new walker (walkers/single_det.py 12-82) in which weight, phase, overlap and determinant are
replaced by those of the file, handler.py 432-442, 157-161.  The inverse overlap matrices, the stored overlap and the numbers of the
reorthogonalisation stay those of the trial determinant.  Walker `q` of all ranks is `walker_q` of the file (444-450, 477-485). -/
noncomputable def reread (psi : Wfn nb nu nd) (w : Wk nb nu nd) : Wk nb nu nd :=
  { start psi with phi := w.phi, ot := w.ot, weight := w.weight, phase := w.phase }

/-- The numbers of the restarted run; target weight and stored total weight are the number of walkers (handler.py 162-164). -/
noncomputable def Ctl.again (c : Ctl) (nw size : Nat) : Ctl := { c with nw := nw, size := size, target := ((nw * size : Nat) : ℝ) }

open Classical in
/-- Average over all random numbers of a run of a quantity of the final population, times the factors that were taken out of the
weights: the factor of the energy shift in each step and the scale of each population control.  A run that is stopped (handler.py
236-242) contributes nothing. -/
noncomputable def meanPop (c : Ctl) (p : Par nb) (psi : Wfn nb nu nd) (qr : QR nb) :
    List (Ev nb nu nd) → (Pop nb nu nd → ℂ) → List (Pop nb nu nd) → ℝ → Pop nb nu nd → ℂ
  | [], F, _, _, ws => F ws
  | .step capped shift :: l, F, hist, T, ws =>
    Real.exp (-(p.dt * shift (ws :: hist))) *
      meanAll (moved c p psi (shift (ws :: hist)) capped T) (List.range c.num) (meanPop c p psi qr l F (ws :: hist) T) ws
  | .ortho :: l, F, hist, T, ws => meanPop c p psi qr l F (ws :: hist) T fun q => orthogonalise qr false (ws q)
  | .pop :: l, F, hist, T, ws =>
    if c.num = 1 then meanPop c p psi qr l F (ws :: hist) T ws
    else if total c ws < c.tiny then 0
    else ((total c ws / c.target : ℝ) : ℂ) *
      meanDraw c.num fun draw => meanPop c p psi qr l F (ws :: hist) (total c ws) (branched c draw ws)
  | .restart nw size :: l, F, hist, _, ws =>
    meanPop (c.again nw size) p psi qr l F (ws :: hist) (c.again nw size).target fun q => reread psi (ws q)

/-- The number of steps of a run. -/
def evSteps : List (Ev nb nu nd) → Nat
  | [] => 0
  | .step _ _ :: l => evSteps l + 1
  | _ :: l => evSteps l

/-- Whether a run is restarted. -/
def restarted : List (Ev nb nu nd) → Bool
  | [] => false
  | .restart _ _ :: _ => true
  | _ :: l => restarted l

/-- The population after a step with given random numbers for each walker. -/
noncomputable def stepped (c : Ctl) (f : (Fin nb → ℝ) → Wk nb nu nd → Wk nb nu nd) (rs : Nat → Fin nb → ℝ) (ws : Pop nb nu nd) : Pop nb nu nd :=
  fun q => if q < c.num then f (rs q) (ws q) else ws q

/-- Nothing drastic happens, whatever the random numbers: no walker is skipped for its small weight, no weight is cut, no run is
stopped, and restarts do not change the number of walkers. -/
def Calm (c : Ctl) (p : Par nb) (psi : Wfn nb nu nd) (qr : QR nb) : List (Ev nb nu nd) → List (Pop nb nu nd) → ℝ → Pop nb nu nd → Prop
  | [], _, _, _ => True
  | .step capped shift :: l, hist, T, ws =>
    (∀ q, q < c.num → c.tiny < (ws q).weight) ∧
      ∀ rs, (∀ q, q < c.num → capped = true → (constrainedStep p psi (shift (ws :: hist)) (rs q) (ws q)).weight ≤ T * c.share) ∧
        Calm c p psi qr l (ws :: hist) T (stepped c (constrainedStep p psi (shift (ws :: hist))) rs ws)
  | .ortho :: l, hist, T, ws => Calm c p psi qr l (ws :: hist) T fun q => orthogonalise qr false (ws q)
  | .pop :: l, hist, T, ws =>
    if c.num = 1 then Calm c p psi qr l (ws :: hist) T ws
    else c.tiny ≤ total c ws ∧ ∀ draw, Calm c p psi qr l (ws :: hist) (total c ws) (branched c draw ws)
  | .restart nw size :: l, hist, _, ws =>
    nw * size = c.num ∧ Calm (c.again nw size) p psi qr l (ws :: hist) (c.again nw size).target fun q => reread psi (ws q)

/-! ## Averages of sums -/

/-- Averages of sums of functions of single random numbers. -/
theorem mean_steps {n : Nat} {ι : Type} (s : Finset ι) (k : ι → Fin n) (q : ι → ℝ) (h0 : ∀ a ∈ s, 0 ≤ q a ∧ q a ≤ 1) :
    ∀ (l : List (Fin n)) (B : ι → Fin 2 → ℂ),
    (meanOver l fun r => ∑ a ∈ s, B a (if r (k a) < q a then 0 else 1)) =
      ∑ a ∈ s, if k a ∈ l then q a * B a 0 + (1 - q a) * B a 1 else B a (if (0 : ℝ) < q a then 0 else 1)
  | [], B => by simp [meanOver]
  | i :: l, B => by
    rw [meanOver]
    have e : ∀ r : ℝ, (meanOver l fun rs => ∑ a ∈ s, B a (if Function.update rs i r (k a) < q a then 0 else 1)) =
        ∑ a ∈ s, if k a = i then B a (if r < q a then 0 else 1) else
          if k a ∈ l then q a * B a 0 + (1 - q a) * B a 1 else B a (if (0 : ℝ) < q a then 0 else 1) := by
      intro r
      have e1 : ∀ rs : Fin n → ℝ, ∑ a ∈ s, B a (if Function.update rs i r (k a) < q a then 0 else 1) =
          ∑ a ∈ s, (fun a xi => if k a = i then B a (if r < q a then 0 else 1) else B a xi) a (if rs (k a) < q a then 0 else 1) := by
        intro rs
        refine sum_congr rfl fun a _ => ?_
        beta_reduce
        by_cases hk : k a = i
        · rw [if_pos hk, hk, Function.update_self]
        · rw [if_neg hk, Function.update_of_ne hk]
      refine (congrArg (meanOver l) (funext e1)).trans ((mean_steps s k q h0 l
        fun a xi => if k a = i then B a (if r < q a then 0 else 1) else B a xi).trans ?_)
      refine sum_congr rfl fun a _ => ?_
      by_cases hk : k a = i
      · simp only [if_pos hk]
        by_cases hl : k a ∈ l
        · rw [if_pos hl]
          ring
        · rw [if_neg hl]
      · simp only [if_neg hk]
    simp only [e]
    rw [intervalIntegral.integral_finset_sum]
    · refine sum_congr rfl fun a ha => ?_
      by_cases hk : k a = i
      · simp only [if_pos hk]
        rw [Fields.integral_choice _ (h0 a ha).1 (h0 a ha).2 (B a), if_pos (by rw [hk]; exact List.mem_cons_self)]
      · simp only [if_neg hk]
        rw [intervalIntegral.integral_const, sub_zero, one_smul]
        simp only [List.mem_cons, hk, false_or]
    · intro a _
      by_cases hk : k a = i
      · simp only [if_pos hk]
        have : (fun r : ℝ => B a (if r < q a then 0 else 1)) = fun r => if r < q a then B a 0 else B a 1 := by
          funext r; split_ifs <;> rfl
        rw [this]
        refine intervalIntegrable_iff.2 (MeasureTheory.Measure.integrableOn_of_bounded (M := ‖B a 0‖ + ‖B a 1‖) ?_ ?_ ?_)
        · exact (by rw [Set.uIoc]; exact measure_Ioc_lt_top.ne)
        · exact (Measurable.ite measurableSet_Iio measurable_const measurable_const).aestronglyMeasurable
        · refine Filter.Eventually.of_forall fun r => ?_
          split_ifs
          · exact le_add_of_nonneg_right (norm_nonneg _)
          · exact le_add_of_nonneg_left (norm_nonneg _)
      · simp only [if_neg hk]
        exact intervalIntegrable_const

theorem tree_add {S : Type} {n : Nat} (P : Proc S n) (F : S → ℂ) (C : ℂ) : ∀ (l : List (Fin n)) (s : S),
    P.tree (fun s => F s + C) l s = P.tree F l s + C
  | [], _ => rfl
  | i :: l, s => by
    rw [Proc.tree, Proc.tree]
    split_ifs with h
    · simp only [tree_add P F C l, mul_add, sum_add_distrib]
      congr 1
      rw [← sum_mul, ← Complex.ofReal_sum, Fin.sum_univ_two, ← add_div, div_self h.ne', Complex.ofReal_one, one_mul]
    · rfl

/-- A constant can be taken out of the average over a step. -/
theorem step_add (p : Par nb) (psi : Wfn nb nu nd) (e : ℝ) (w : Wk nb nu nd) (F : Wk nb nu nd → ℂ) (C : ℂ) :
    (meanOver (List.finRange nb) fun rs => F (constrainedStep p psi e rs w) + C) =
      (meanOver (List.finRange nb) fun rs => F (constrainedStep p psi e rs w)) + C := by
  let w1 := if 0 < |w.weight| then kineticIS p psi w else w
  by_cases h1 : 0 < |w1.weight|
  · let post : Wk nb nu nd → Wk nb nu nd := fun v =>
      { (if 0 < |v.weight| then kineticIS p psi v else v) with
        weight := (if 0 < |v.weight| then kineticIS p psi v else v).weight * Real.exp (p.dt * e) }
    have e1 : ∀ rs, constrainedStep p psi e rs w = post ((proc p psi).sweep rs (List.finRange nb) w1) := by
      intro rs
      rw [← singleSite_eq]
      simp only [constrainedStep, post]
      rw [show (if 0 < |w.weight| then kineticIS p psi w else w) = w1 from rfl, if_pos h1]
    simp only [e1]
    rw [Proc.mean_sweep _ (fun s i xi => trunc_nonneg p psi s i xi) (fun v => F (post v) + C) _ (List.nodup_finRange nb),
      Proc.mean_sweep _ (fun s i xi => trunc_nonneg p psi s i xi) (fun v => F (post v)) _ (List.nodup_finRange nb), tree_add]
  · have e1 : ∀ rs rs', constrainedStep p psi e rs w = constrainedStep p psi e rs' w := by
      intro rs rs'
      simp only [constrainedStep, show (if 0 < |w.weight| then kineticIS p psi w else w) = w1 from rfl, if_neg h1]
    have e2 : ∀ rs, constrainedStep p psi e rs w = constrainedStep p psi e 0 w := fun rs => e1 rs 0
    simp only [e2, Fields.meanOver_const]

theorem meanAll_congr {f : (Fin nb → ℝ) → Wk nb nu nd → Wk nb nu nd} : ∀ (l : List Nat) (ws : Pop nb nu nd) {G G' : Pop nb nu nd → ℂ}, l.Nodup →
    (∀ rs : Nat → Fin nb → ℝ, G (fun q => if q ∈ l then f (rs q) (ws q) else ws q) = G' (fun q => if q ∈ l then f (rs q) (ws q) else ws q)) →
    meanAll f l G ws = meanAll f l G' ws
  | [], ws, G, G', _, h => by simpa [meanAll] using h fun _ => 0
  | q :: l, ws, G, G', hl, h => by
    have hq := (List.nodup_cons.1 hl).1
    rw [meanAll, meanAll]
    congr 1
    funext r
    refine meanAll_congr l _ (List.nodup_cons.1 hl).2 fun rs => ?_
    have := h (Function.update rs q r)
    have e : (fun a => if a ∈ q :: l then f (Function.update rs q r a) (ws a) else ws a) =
        fun a => if a ∈ l then f (rs a) (Function.update ws q (f r (ws q)) a) else Function.update ws q (f r (ws q)) a := by
      funext a
      by_cases ha : a = q
      · subst ha
        rw [if_pos List.mem_cons_self, if_neg hq, Function.update_self, Function.update_self]
      · rw [Function.update_of_ne ha, Function.update_of_ne ha]
        simp only [List.mem_cons, ha, false_or]
    rwa [e] at this

/-- The average of a sum over the walkers. -/
theorem meanAll_sum (p : Par nb) (psi : Wfn nb nu nd) (e : ℝ) (g : Wk nb nu nd → ℂ) (s : Finset Nat) : ∀ (l : List Nat), l.Nodup →
    ∀ ws : Pop nb nu nd, (∀ q ∈ l, q ∈ s) →
    meanAll (constrainedStep p psi e) l (fun ws => ∑ q ∈ s, g (ws q)) ws =
      ∑ q ∈ s, if q ∈ l then (meanOver (List.finRange nb) fun rs => g (constrainedStep p psi e rs (ws q))) else g (ws q)
  | [], _, ws, _ => by simp [meanAll]
  | q :: l, hl, ws, hs => by
    have hq := (List.nodup_cons.1 hl).1
    have hqs := hs q List.mem_cons_self
    rw [meanAll]
    let C : ℂ := ∑ a ∈ s.erase q, if a ∈ l then (meanOver (List.finRange nb) fun rs => g (constrainedStep p psi e rs (ws a))) else g (ws a)
    have e1 : ∀ rs, meanAll (constrainedStep p psi e) l (fun ws => ∑ q ∈ s, g (ws q)) (Function.update ws q (constrainedStep p psi e rs (ws q))) =
        g (constrainedStep p psi e rs (ws q)) + C := by
      intro rs
      rw [meanAll_sum p psi e g s l (List.nodup_cons.1 hl).2 _ fun a ha => hs a (List.mem_cons_of_mem _ ha), ← add_sum_erase s _ hqs,
        if_neg hq, Function.update_self]
      congr 1
      refine sum_congr rfl fun a ha => ?_
      rw [Function.update_of_ne (mem_erase.1 ha).1]
    simp only [e1]
    rw [step_add, ← add_sum_erase s _ hqs, if_pos List.mem_cons_self]
    congr 1
    refine sum_congr rfl fun a ha => ?_
    simp only [List.mem_cons, (mem_erase.1 ha).1, false_or]

/-! ## Population control -/

theorem ended_spec {V : Type} {s : Mpi.Cfg V} (h : ∃ f, (∃ sched, Mpi.exec s sched = some f) ∧ Mpi.Done f) :
    (∃ sched, Mpi.exec s sched = some (ended s)) ∧ Mpi.Done (ended s) := by
  rw [ended, dif_pos h]
  exact h.choose_spec

/-- The population after pair branching. -/
theorem branched_sum (c : Ctl) (draw : Nat → ℝ) (ws : Pop nb nu nd) (hnn : ∀ q, 0 ≤ (scaled c ws q).weight) :
    ∃ fin, pairBranchRoot c.mn c.mx draw c.nw c.size (scaled c ws) = some fin ∧ ∀ (M : Type) [AddCommMonoid M] (g : Wk nb nu nd → M),
      ∑ q ∈ range c.num, g (branched c draw ws q) =
        ∑ q ∈ range c.num, (fin[q]?).elim 0 fun x => x.cnt • g { ws q with weight := x.w } := by
  obtain ⟨fin, hfin, -, -, h⟩ := PairBranch.pairBranch_population c.mn c.mx draw c.nw c.size (scaled c ws) hnn
  refine ⟨fin, hfin, fun M _ g => ?_⟩
  obtain ⟨f, t, hd, -, hex⟩ := PairBranch.pairBranch_exchange_completes c.mn c.mx draw c.nw c.size (scaled c ws) fin hfin
  obtain ⟨rest, hr, -⟩ := hex [] _ rfl
  obtain ⟨⟨sched, h1⟩, h2⟩ := ended_spec ⟨f, ⟨rest, hr⟩, hd⟩
  have := h sched _ h1 h2 M fun w => g (unpack w)
  rw [show c.num = c.nw * c.size from rfl]
  rw [show (∑ q ∈ range (c.nw * c.size), (fin[q]?).elim 0 fun x => x.cnt • g { ws q with weight := x.w }) =
    ∑ q ∈ range (c.nw * c.size), (fin[q]?).elim 0 fun x => x.cnt • g (unpack ⟨x.w, (scaled c ws q).state⟩) from rfl, ← this]
  refine sum_congr rfl fun q hq => ?_
  rw [branched, hfin]
  simp only
  rw [if_pos (show q < c.num from mem_range.1 hq)]

theorem total_pos (c : Ctl) {ws : Pop nb nu nd} (hw : ∀ q, 0 < (ws q).weight) (hn : 0 < c.num) : 0 < total c ws :=
  sum_pos (fun q _ => abs_pos.2 (hw q).ne') ⟨0, mem_range.2 hn⟩

theorem scaled_pos (c : Ctl) (hT : 0 < c.target) {ws : Pop nb nu nd} (hw : ∀ q, 0 < (ws q).weight) (hn : 0 < c.num) (q : Nat) :
    0 < (scaled c ws q).weight := div_pos (hw q) (div_pos (total_pos c hw hn) hT)

/-- Every walker of the new population is a copy of an old one with a positive weight. -/
theorem branched_all (c : Ctl) (hT : 0 < c.target) (draw : Nat → ℝ) {ws : Pop nb nu nd} (hw : ∀ q, 0 < (ws q).weight) (hn : 0 < c.num)
    (P : Wk nb nu nd → Prop) (hP : ∀ q (x : ℝ), 0 < x → P { ws q with weight := x }) (q : Nat) : P (branched c draw ws q) := by
  classical
  have hpos := scaled_pos c hT hw hn
  obtain ⟨k, b, row, h1, h2⟩ := PairBranch.rows c.mn c.mx c.nw c.size (scaled c ws) hpos
  by_cases hq : q < c.num
  · obtain ⟨fin, hfin, h⟩ := branched_sum c draw ws fun q => (hpos q).le
    rw [h2 draw] at hfin
    have h3 := h Nat fun w => if P w then 0 else 1
    have h4 : ∑ q ∈ range c.num, (fin[q]?).elim 0 (fun x => x.cnt • (if P { ws q with weight := x.w } then 0 else 1)) = 0 := by
      refine sum_eq_zero fun a ha => ?_
      rw [← Option.some.inj hfin, List.getElem?_map, List.getElem?_range (show a < c.nw * c.size from mem_range.1 ha), Option.map_some, Option.elim_some]
      rcases (h1 a (mem_range.1 ha)).2.2.2.1 (if draw (k a) < b a then 0 else 1) with h | h
      · rw [h, zero_smul]
      · rw [if_pos (hP a _ h), smul_zero]
    rw [h4] at h3
    have := (sum_eq_zero_iff.1 h3) q (mem_range.2 hq)
    by_contra hc
    rw [if_neg hc] at this
    exact one_ne_zero this
  · have e : branched c draw ws q = ws q := by
      rw [branched, h2 draw]
      simp only [if_neg hq]
    rw [e]
    exact hP q _ (hw q)

/-- **C121** (population control) With the scale put back, population control does not change the average of a sum over the walkers of
the weight times any property of the determinant. -/
theorem branched_average (c : Ctl) (hT : 0 < c.target) {ws : Pop nb nu nd} (hw : ∀ q, 0 < (ws q).weight) (hn : 0 < c.num)
    (g : Wk nb nu nd → ℂ) (hg : ∀ (w : Wk nb nu nd) (x : ℝ), g { w with weight := x } = x * g { w with weight := 1 }) :
    ((total c ws / c.target : ℝ) : ℂ) * (meanDraw c.num fun draw => ∑ q ∈ range c.num, g (branched c draw ws q)) =
      ∑ q ∈ range c.num, g (ws q) := by
  have hpos := scaled_pos c hT hw hn
  obtain ⟨k, b, row, h1, h2⟩ := PairBranch.rows c.mn c.mx c.nw c.size (scaled c ws) hpos
  have hk : ∀ a ∈ range c.num, k a < c.num := fun a ha => (h1 a (mem_range.1 ha)).1
  let K : Nat → Fin c.num := fun a => if h : k a < c.num then ⟨k a, h⟩ else ⟨0, hn⟩
  let B : Nat → Fin 2 → ℂ := fun a xi => ((row a xi).cnt * (row a xi).w : ℝ) * g { ws a with weight := 1 }
  have e1 : ∀ r : Fin c.num → ℝ, ∑ q ∈ range c.num, g (branched c (fun k => if h : k < c.num then r ⟨k, h⟩ else 0) ws q) =
      ∑ a ∈ range c.num, B a (if r (K a) < b a then 0 else 1) := by
    intro r
    obtain ⟨fin, hfin, h⟩ := branched_sum c (fun k => if h : k < c.num then r ⟨k, h⟩ else 0) ws fun q => (hpos q).le
    rw [h2] at hfin
    rw [h ℂ g]
    refine sum_congr rfl fun a ha => ?_
    rw [← Option.some.inj hfin, List.getElem?_map, List.getElem?_range (show a < c.nw * c.size from mem_range.1 ha), Option.map_some, Option.elim_some, dif_pos (hk a ha), hg]
    simp only [K, dif_pos (hk a ha), B, nsmul_eq_mul]
    push_cast
    ring
  rw [meanDraw]
  simp only [e1]
  rw [mean_steps (range c.num) K b fun a ha => ⟨(h1 a (mem_range.1 ha)).2.1, (h1 a (mem_range.1 ha)).2.2.1⟩, mul_sum]
  refine sum_congr rfl fun a ha => ?_
  rw [if_pos (List.mem_finRange _)]
  have e2 := (h1 a (mem_range.1 ha)).2.2.2.2
  have e3 : (b a : ℂ) * B a 0 + (1 - b a) * B a 1 = ((scaled c ws a).weight : ℂ) * g { ws a with weight := 1 } := by
    rw [← e2]
    simp only [B]
    push_cast
    ring
  have e4 : g (ws a) = (ws a).weight * g { ws a with weight := 1 } := hg (ws a) (ws a).weight
  rw [e3, e4, scaled, ← mul_assoc, ← Complex.ofReal_mul]
  congr 2
  have := (total_pos c hw hn).ne'
  have := hT.ne'
  field_simp

/-! ## Runs -/

/-- A walker of a run without a sign problem. -/
structure Ready (psi : Wfn nb nu nd) (S : Wfn nb nu nd → Prop) (c : ℝ) (w : Wk nb nu nd) : Prop where
  valid : Valid psi S w
  shift : w.detRShift = 0
  log : w.logShift = c
  pos : 0 < w.weight

theorem step_pos {p : Par nb} {psi : Wfn nb nu nd} {S : Wfn nb nu nd → Prop} (hS : Cone p psi S) {w : Wk nb nu nd} (hv : Valid psi S w)
    (hw : 0 < w.weight) (e : ℝ) (rs : Fin nb → ℝ) : 0 < (constrainedStep p psi e rs w).weight := by
  have ho : ∃ c, IsPos c ∧ w.ot = c * overlap psi w.phi := ⟨_, IsPos.exp w.logShift, by rw [hv.ot, mul_comm]⟩
  obtain ⟨-, i1, -, -, -, -, -⟩ := kinetic_valid hS hv.mem ho hw.ne'
  have p1 := kinetic_pos hS hv.mem ho hw
  obtain ⟨i2, -, -, -⟩ := i1.sweep hS rs (List.finRange nb)
  have p2 := sweep_pos hS rs (List.finRange nb) i1 p1
  have p3 := kinetic_pos hS i2.mem i2.ot p2
  rw [constrainedStep]
  simp only [if_pos (abs_pos.2 hw.ne'), if_pos (abs_pos.2 p1.ne'), if_pos (abs_pos.2 p2.ne')]
  exact mul_pos p3 (Real.exp_pos _)

theorem Ready.step {p : Par nb} {psi : Wfn nb nu nd} {S : Wfn nb nu nd → Prop} {c : ℝ} (hS : Cone p psi S) {w : Wk nb nu nd} (h : Ready psi S c w)
    (e : ℝ) (rs : Fin nb → ℝ) : Ready psi S c (constrainedStep p psi e rs w) := by
  obtain ⟨h1, h2, h3⟩ := h.valid.step hS e rs
  exact ⟨h1, h3.trans h.shift, h2.trans h.log, step_pos hS h.valid h.pos e rs⟩

theorem Ready.ortho {p : Par nb} {psi : Wfn nb nu nd} {S : Wfn nb nu nd → Prop} {c : ℝ} (hS : Cone p psi S) {qr : QR nb} (hqr : QRSpec qr)
    (hk : Kept qr S) {w : Wk nb nu nd} (h : Ready psi S c w) : Ready psi S c (orthogonalise qr false w) := by
  obtain ⟨h1, h2, h3, h4, -⟩ := h.valid.reortho hS hqr hk h.shift
  exact ⟨h1, h4, h3.trans h.log, by rw [h2]; exact h.pos⟩

theorem Ready.weight {psi : Wfn nb nu nd} {S : Wfn nb nu nd → Prop} {c : ℝ} {w : Wk nb nu nd} (h : Ready psi S c w) {x : ℝ} (hx : 0 < x) :
    Ready psi S c { w with weight := x } := ⟨⟨h.valid.mem, h.valid.ot⟩, h.shift, h.log, hx⟩

/-- A walker of a restarted run. -/
theorem Ready.reread {psi : Wfn nb nu nd} {S : Wfn nb nu nd → Prop} {w : Wk nb nu nd} (h : Ready psi S 0 w) : Ready psi S 0 (reread psi w) :=
  ⟨⟨h.valid.mem, by
    have := h.valid.ot
    rw [h.log] at this
    exact this⟩, rfl, rfl, h.pos⟩

theorem meanAll_fun {f f' : (Fin nb → ℝ) → Wk nb nu nd → Wk nb nu nd} (G : Pop nb nu nd → ℂ) : ∀ (l : List Nat) (ws : Pop nb nu nd), l.Nodup →
    (∀ q ∈ l, ∀ rs, f rs (ws q) = f' rs (ws q)) → meanAll f l G ws = meanAll f' l G ws
  | [], _, _, _ => rfl
  | q :: l, ws, hl, h => by
    rw [meanAll, meanAll]
    congr 1
    funext r
    rw [h q List.mem_cons_self]
    refine meanAll_fun G l _ (List.nodup_cons.1 hl).2 fun a ha rs => ?_
    have : a ≠ q := fun e => (List.nodup_cons.1 hl).1 (e ▸ ha)
    rw [Function.update_of_ne this]
    exact h a (List.mem_cons_of_mem _ ha) rs

/-- The average of a step inside a set of determinants is the operator `X`. -/
structure Steps (p : Par nb) (psi : Wfn nb nu nd) (S : Wfn nb nu nd → Prop) (X : Matrix (Fin nu ⊕ Fin nd → Fin nb) (Fin nu ⊕ Fin nd → Fin nb) ℂ) :
    Prop where
  cone : Cone p psi S
  sym : Step.Sym spin X
  avg : ∀ (e : ℝ) (w : Wk nb nu nd), Valid psi S w → ∀ v : (Fin nu ⊕ Fin nd → Fin nb) → ℂ, Anti spin v →
    (meanOver (List.finRange nb) fun rs => (constrainedStep p psi e rs w).weight / (constrainedStep p psi e rs w).ot *
      (v ⬝ᵥ prodState (orbs (constrainedStep p psi e rs w).phi))) =
      Real.exp (p.dt * e) * (w.weight / w.ot) * (v ⬝ᵥ (X *ᵥ prodState (orbs w.phi)))

/-- The spin decomposition. -/
theorem spin_steps (h : Hub nb) {dt : ℝ} (hU : 0 ≤ dt * h.U) {psi : Wfn nb nu nd} {S : Wfn nb nu nd → Prop} (hS : Cone (par h dt) psi S) :
    Steps (par h dt) psi S (stepOf h dt) :=
  ⟨hS, stepOf_sym h dt, fun e _ hw v hv => spin_step h hU hS e hw v hv⟩

/-- **C121** The average over a run of a population.  As long as nothing drastic happens, and with the factors put back that were taken
out of the weights, energy shifts and population control have no effect on the average. -/
theorem population_average {p : Par nb} {psi : Wfn nb nu nd} {S : Wfn nb nu nd → Prop}
    {X : Matrix (Fin nu ⊕ Fin nd → Fin nb) (Fin nu ⊕ Fin nd → Fin nb) ℂ} (hX : Steps p psi S X)
    {qr : QR nb} (hqr : QRSpec qr) (hk : Kept qr S) (c : Ctl) (hT : 0 < c.target) (hn : 0 < c.num) {c0 : ℝ} {g : Wk nb nu nd → ℂ}
    {v : (Fin nu ⊕ Fin nd → Fin nb) → ℂ} (hv : Anti spin v) (hg : ∀ w, Ready psi S c0 w → g w = w.weight / w.ot * (v ⬝ᵥ prodState (orbs w.phi))) :
    ∀ (l : List (Ev nb nu nd)) (hist : List (Pop nb nu nd)) (T : ℝ) (ws : Pop nb nu nd), (restarted l = true → c0 = 0) →
      (∀ q, Ready psi S c0 (ws q)) → Calm c p psi qr l hist T ws →
      meanPop c p psi qr l (fun ws => ∑ q ∈ range c.num, g (ws q)) hist T ws =
        ∑ q ∈ range c.num, (ws q).weight / (ws q).ot * (v ⬝ᵥ (X ^ evSteps l *ᵥ prodState (orbs (ws q).phi)))
  | [], hist, T, ws, _, hw, _ => by
    rw [meanPop]
    refine sum_congr rfl fun q _ => ?_
    rw [hg _ (hw q), evSteps, pow_zero, Matrix.one_mulVec]
  | .step capped shift :: l, hist, T, ws, h0, hw, hc => by
    rw [meanPop]
    rw [Calm] at hc
    set e := shift (ws :: hist)
    have ha := vecMul_pow_anti (hX.sym) (evSteps l) hv
    rw [meanAll_fun (f' := constrainedStep p psi e) _ _ _ List.nodup_range ?_]
    · rw [meanAll_congr (G' := fun ws => ∑ q ∈ range c.num, (ws q).weight / (ws q).ot *
        ((v ᵥ* X ^ evSteps l) ⬝ᵥ prodState (orbs (ws q).phi))) _ _ List.nodup_range ?_]
      · rw [meanAll_sum p psi e (fun w => w.weight / w.ot * ((v ᵥ* X ^ evSteps l) ⬝ᵥ prodState (orbs w.phi))) _ _
          List.nodup_range _ (fun q hq => mem_range.2 (List.mem_range.1 hq)), mul_sum]
        refine sum_congr rfl fun q hq => ?_
        rw [if_pos (List.mem_range.2 (mem_range.1 hq)), hX.avg e (ws q) (hw q).valid _ ha, ← Matrix.dotProduct_mulVec, Matrix.mulVec_mulVec,
          evSteps, pow_succ, ← mul_assoc, ← mul_assoc, ← Complex.ofReal_mul, ← Real.exp_add]
        rw [show -(p.dt * e) + p.dt * e = 0 from by ring, Real.exp_zero, Complex.ofReal_one, one_mul]
      · intro rs
        have e1 : (fun q => if q ∈ List.range c.num then constrainedStep p psi e (rs q) (ws q) else ws q) =
            stepped c (constrainedStep p psi e) rs ws := by
          funext q
          simp only [stepped, List.mem_range]
        rw [e1, population_average hX hqr hk c hT hn hv hg l (ws :: hist) T _ h0 ?_ (hc.2 rs).2]
        · refine sum_congr rfl fun q _ => ?_
          rw [← Matrix.dotProduct_mulVec]
        · intro q
          rw [stepped]
          split_ifs
          · exact (hw q).step hX.cone e (rs q)
          · exact hw q
    · intro q hq rs
      have hq' := List.mem_range.1 hq
      rw [moved]
      simp only [abs_of_pos (hw q).pos, if_pos (hc.1 q hq')]
      rw [if_neg]
      rintro ⟨h1, h2⟩
      rw [abs_of_pos (step_pos hX.cone (hw q).valid (hw q).pos e rs)] at h1
      have := (hc.2 fun _ => rs).1 q hq' h2
      linarith
  | .ortho :: l, hist, T, ws, h0, hw, hc => by
    rw [meanPop, population_average hX hqr hk c hT hn hv hg l _ _ _ h0 (fun q => (hw q).ortho hX.cone hqr hk) hc]
    refine sum_congr rfl fun q _ => ?_
    obtain ⟨-, h2, -, -, h5⟩ := (hw q).valid.reortho hX.cone hqr hk (hw q).shift
    have := reortho_anti h5 (vecMul_pow_anti (hX.sym) (evSteps l) hv)
    rw [← Matrix.dotProduct_mulVec, ← Matrix.dotProduct_mulVec] at this
    rw [h2, show evSteps (Ev.ortho :: l) = evSteps l from rfl, div_mul_eq_mul_div, div_mul_eq_mul_div, mul_div_assoc, mul_div_assoc, this]
  | .pop :: l, hist, T, ws, h0, hw, hc => by
    rw [meanPop]
    rw [Calm] at hc
    by_cases h1 : c.num = 1
    · rw [if_pos h1] at hc ⊢
      rw [population_average hX hqr hk c hT hn hv hg l _ _ _ h0 hw hc]
      rfl
    · rw [if_neg h1] at hc ⊢
      rw [if_neg (not_lt.2 hc.1)]
      have e1 : ∀ draw, meanPop c p psi qr l (fun ws => ∑ q ∈ range c.num, g (ws q)) (ws :: hist) (total c ws) (branched c draw ws) =
          ∑ q ∈ range c.num, (branched c draw ws q).weight / (branched c draw ws q).ot *
            (v ⬝ᵥ (X ^ evSteps l *ᵥ prodState (orbs (branched c draw ws q).phi))) := fun draw =>
        population_average hX hqr hk c hT hn hv hg l _ _ _ h0
          (branched_all c hT draw (fun q => (hw q).pos) hn _ fun q x hx => (hw q).weight hx) (hc.2 draw)
      simp only [e1]
      rw [branched_average c hT (fun q => (hw q).pos) hn
        (fun w => w.weight / w.ot * (v ⬝ᵥ (X ^ evSteps l *ᵥ prodState (orbs w.phi)))) ?_, show evSteps (Ev.pop :: l) = evSteps l from rfl]
      intro w x
      push_cast
      ring
  | .restart nw size :: l, hist, T, ws, h0, hw, hc => by
    obtain ⟨hc1, hc2⟩ := hc
    have h00 : c0 = 0 := h0 rfl
    subst h00
    have hnum : (c.again nw size).num = c.num := hc1
    have := population_average hX hqr hk (c.again nw size) (Nat.cast_pos.2 (hc1 ▸ hn)) (hnum ▸ hn) hv hg l (ws :: hist)
      (c.again nw size).target _ (fun _ => rfl) (fun q => (hw q).reread) hc2
    rw [hnum] at this
    exact this

/-- **C121** The sum of the weights and the sum of weight times local energy. -/
theorem population_estimates (h : Hub nb) {p : Par nb} {psi : Wfn nb nu nd} {S : Wfn nb nu nd → Prop}
    {X : Matrix (Fin nu ⊕ Fin nd → Fin nb) (Fin nu ⊕ Fin nd → Fin nb) ℂ} (hX : Steps p psi S X)
    {qr : QR nb} (hqr : QRSpec qr) (hk : Kept qr S) (c : Ctl) (hT : 0 < c.target) (hn : 0 < c.num) {c0 : ℝ} (l : List (Ev nb nu nd))
    (hist : List (Pop nb nu nd)) (T : ℝ) (ws : Pop nb nu nd) (h0 : restarted l = true → c0 = 0) (hw : ∀ q, Ready psi S c0 (ws q))
    (hc : Calm c p psi qr l hist T ws) :
    meanPop c p psi qr l (fun ws => ∑ q ∈ range c.num, ((ws q).weight : ℂ)) hist T ws =
        ∑ q ∈ range c.num, (ws q).weight / overlap psi (ws q).phi *
          (slater psi ⬝ᵥ (X ^ evSteps l *ᵥ prodState (orbs (ws q).phi))) ∧
      meanPop c p psi qr l (fun ws => ∑ q ∈ range c.num, (ws q).weight * energy h psi (ws q)) hist T ws =
        ∑ q ∈ range c.num, (ws q).weight / overlap psi (ws q).phi *
          ((slater psi ᵥ* hubOp h.h1 h.U spin) ⬝ᵥ (X ^ evSteps l *ᵥ prodState (orbs (ws q).phi))) := by
  have key : ∀ (g : Wk nb nu nd → ℂ) (v : (Fin nu ⊕ Fin nd → Fin nb) → ℂ), Anti spin v →
      (∀ w, Valid psi S w → g w = w.weight / w.ot * ((Complex.exp (w.logShift : ℂ) • v) ⬝ᵥ prodState (orbs w.phi))) →
      meanPop c p psi qr l (fun ws => ∑ q ∈ range c.num, g (ws q)) hist T ws = ∑ q ∈ range c.num, (ws q).weight / overlap psi (ws q).phi *
        (v ⬝ᵥ (X ^ evSteps l *ᵥ prodState (orbs (ws q).phi))) := by
    intro g v hv hg
    rw [population_average hX hqr hk c hT hn (c0 := c0) (anti_smul hv (Complex.exp (c0 : ℂ))) ?_ l hist T ws h0 hw hc]
    · refine sum_congr rfl fun q _ => ?_
      rw [smul_dotProduct, smul_eq_mul, (hw q).valid.ot, (hw q).log]
      have := Complex.exp_ne_zero (c0 : ℂ)
      have hne := (hX.cone.pos _ (hw q).valid.mem).ne
      field_simp
    · intro u hu
      rw [hg u hu.valid, hu.log]
  exact ⟨key _ _ (Step.slater_anti psi) fun w hw => weight_eq hX.cone hw,
    key _ _ ((Step.slater_anti psi).vecMul (Step.hubOp_sym _ _ _)) fun w hw => energy_eq h hX.cone hw⟩

/-- The energy of a run of a population: weight times local energy over weight, both summed over the walkers and averaged over the
random numbers with the factors put back. -/
noncomputable def popEnergy (c : Ctl) (h : Hub nb) (p : Par nb) (psi : Wfn nb nu nd) (qr : QR nb) (l : List (Ev nb nu nd)) (T : ℝ) (ws : Pop nb nu nd) : ℂ :=
  meanPop c p psi qr l (fun ws => ∑ q ∈ range c.num, (ws q).weight * energy h psi (ws q)) [] T ws /
    meanPop c p psi qr l (fun ws => ∑ q ∈ range c.num, ((ws q).weight : ℂ)) [] T ws

/-- The energy of a population of walkers that all start from the same walker. -/
theorem popEnergy_formula (h : Hub nb) {p : Par nb} {psi : Wfn nb nu nd} {S : Wfn nb nu nd → Prop}
    {X : Matrix (Fin nu ⊕ Fin nd → Fin nb) (Fin nu ⊕ Fin nd → Fin nb) ℂ} (hX : Steps p psi S X)
    {qr : QR nb} (hqr : QRSpec qr) (hk : Kept qr S) (c : Ctl) (hT : 0 < c.target) (hn : 0 < c.num) (l : List (Ev nb nu nd)) (T : ℝ)
    {w : Wk nb nu nd} {c0 : ℝ} (h0 : restarted l = true → c0 = 0) (hw : Ready psi S c0 w) (hc : Calm c p psi qr l [] T fun _ => w) :
    popEnergy c h p psi qr l T (fun _ => w) = ((slater psi ᵥ* hubOp h.h1 h.U spin) ⬝ᵥ (X ^ evSteps l *ᵥ prodState (orbs w.phi))) /
      (slater psi ⬝ᵥ (X ^ evSteps l *ᵥ prodState (orbs w.phi))) := by
  obtain ⟨e1, e2⟩ := population_estimates h hX hqr hk c hT hn l [] T _ h0 (fun _ => hw) hc
  rw [popEnergy, e1, e2, sum_const, sum_const, nsmul_eq_mul, nsmul_eq_mul]
  have h1 : ((range c.num).card : ℂ) ≠ 0 := by
    rw [card_range]
    exact Nat.cast_ne_zero.2 hn.ne'
  rw [mul_div_mul_left _ _ h1, mul_div_mul_left]
  exact div_ne_zero (Complex.ofReal_ne_zero.2 hw.pos.ne') (hX.cone.pos _ hw.valid.mem).ne

/-- **C121** A population of walkers that all start from the same walker has the energy of a run of this walker alone. -/
theorem popEnergy_eq (h : Hub nb) {dt : ℝ} (hU : 0 ≤ dt * h.U) {psi : Wfn nb nu nd} {S : Wfn nb nu nd → Prop} (hS : Cone (par h dt) psi S)
    {qr : QR nb} (hqr : QRSpec qr) (hk : Kept qr S) (c : Ctl) (hT : 0 < c.target) (hn : 0 < c.num) (l : List (Ev nb nu nd)) (T : ℝ)
    {w : Wk nb nu nd} {c0 : ℝ} (h0 : restarted l = true → c0 = 0) (hw : Ready psi S c0 w) (hc : Calm c (par h dt) psi qr l [] T fun _ => w)
    (l' : List (Option ℝ)) (hl : steps l' = evSteps l) : popEnergy c h (par h dt) psi qr l T (fun _ => w) = runEnergy h dt psi qr l' w := by
  obtain ⟨e3, e4⟩ := run_estimates h hU hS hqr hk l' hw.valid hw.shift
  rw [popEnergy_formula h (spin_steps h hU hS) hqr hk c hT hn l T h0 hw hc, runEnergy, e3, e4, hl, mul_div_mul_left]
  exact mul_ne_zero (Complex.ofReal_ne_zero.2 (Real.exp_pos _).ne')
    (div_ne_zero (Complex.ofReal_ne_zero.2 hw.pos.ne') (hS.pos _ hw.valid.mem).ne)

/-- **C121** Many short steps of a population: if the operators of the steps, up to scalar factors, make up the evolution in imaginary
time, the energy converges to that of the evolved state. -/
theorem pop_tendsto (h : Hub nb) {psi : Wfn nb nu nd} {S : Wfn nb nu nd → Prop} {qr : QR nb} (hqr : QRSpec qr) (hk : Kept qr S) {β : ℝ}
    (p : Nat → Par nb) (k : Nat → ℂ) (hk0 : ∀ N, k N ≠ 0) (Y : Nat → Matrix (Fin nu ⊕ Fin nd → Fin nb) (Fin nu ⊕ Fin nd → Fin nb) ℂ)
    (hX : ∀ N, Steps (p N) psi S (k N • Y N))
    (hY : Tendsto (fun N => Y N ^ (N + 1)) atTop (𝓝 (NormedSpace.exp (-(β : ℂ) • hubOp h.h1 h.U spin))))
    (c : Nat → Ctl) (hc : ∀ N, 0 < (c N).target ∧ 0 < (c N).num) (l : Nat → List (Ev nb nu nd)) (hl : ∀ N, evSteps (l N) = N + 1) (T : Nat → ℝ)
    {w : Wk nb nu nd} {c0 : ℝ} (h0 : ∀ N, restarted (l N) = true → c0 = 0) (hw : Ready psi S c0 w) (hcalm : ∀ N, Calm (c N) (p N) psi qr (l N) [] (T N) fun _ => w)
    (hne : slater psi ⬝ᵥ (NormedSpace.exp (-(β : ℂ) • hubOp h.h1 h.U spin) *ᵥ prodState (orbs w.phi)) ≠ 0) :
    Tendsto (fun N => popEnergy (c N) h (p N) psi qr (l N) (T N) fun _ => w) atTop (𝓝 (exactEnergy h psi w.phi β)) := by
  have hcv : ∀ v : (Fin nu ⊕ Fin nd → Fin nb) → ℂ, Tendsto (fun N : Nat => v ⬝ᵥ (Y N ^ (N + 1) *ᵥ prodState (orbs w.phi))) atTop
      (𝓝 (v ⬝ᵥ (NormedSpace.exp (-(β : ℂ) • hubOp h.h1 h.U spin) *ᵥ prodState (orbs w.phi)))) := by
    intro v
    have hcont : Continuous fun M : Matrix (Fin nu ⊕ Fin nd → Fin nb) (Fin nu ⊕ Fin nd → Fin nb) ℂ => v ⬝ᵥ (M *ᵥ prodState (orbs w.phi)) := by
      simp only [Matrix.mulVec, dotProduct]
      fun_prop
    exact (hcont.tendsto _).comp hY
  refine ((hcv _).div (hcv _) hne).congr fun N => ?_
  rw [popEnergy_formula h (hX N) hqr hk (c N) (hc N).1 (hc N).2 (l N) (T N) (h0 N) hw (hcalm N), hl, smul_pow, Matrix.smul_mulVec, dotProduct_smul,
    dotProduct_smul, smul_eq_mul, smul_eq_mul, mul_div_mul_left _ _ (pow_ne_zero _ (hk0 N)), Pi.div_apply]

end Verif.HubRun
