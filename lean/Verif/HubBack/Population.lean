import Verif.HubBack.Printed
import Verif.HubRun.Calm

/-!
# Back propagation in runs of a population with population control: C128

Main loop `pauxy/qmc/afqmc.py` 224-255, population control `pauxy/walkers/handler.py` 225-252 with `pair_branch` (340-412); `phi_old` and the
history of the fields are part of the buffer in which a walker is sent (`pauxy/walkers/walker.py` 63-131, `pauxy/walkers/stack.py` 88-116).
-/

namespace Verif.HubBack

open Matrix Finset Filter Topology
open Verif.Slater
open Verif.Hirsch
open Verif.HubRun (Cone Valid Ready Ctl par stepOf steps shifts Kept SignFree start ended)
open Verif.Step (Hub spin tens Anti Sym prodState orbs slater ovl2 hubOp)
open Verif.Fields (meanOver Proc rows)
open Verif.BackProp (greens Measures mulBoth)
open Verif.PairBranch (Walker pairBranchRoot pbProg pbMem)

variable {nb nu nd : Nat}

/-! ## Model -/

/-- The walkers of all ranks; walker `q` is in slot `q % nw` of rank `q / nw`. -/
abbrev BPop (nb nu nd : Nat) := Nat → BW nb nu nd

/-- Assignment to `weight`. -/
def BW.setW (v : BW nb nu nd) (x : ℝ) : BW nb nu nd := { v with w := { v.w with weight := x } }

open Classical in
/-- What the main loop does to a walker in a step, afqmc.py 233-238; `capped` is `step > 1`, `T` the stored `total_weight`. -/
noncomputable def bmoved (c : Ctl) (p : Par nb) (psi : Wfn nb nu nd) (e : ℝ) (capped : Bool) (T : ℝ) (rs : Fin nb → ℝ) (v : BW nb nu nd) :
    BW nb nu nd :=
  let v1 := if c.tiny < |v.w.weight| then move p psi e rs v else v
  if T * c.share < |v1.w.weight| ∧ capped = true then v1.setW (T * c.share) else v1

/-- The sum of the weights that `pop_control` gathers, handler.py 230-233. -/
noncomputable def btotal (c : Ctl) (ws : BPop nb nu nd) : ℝ := ∑ q ∈ range c.num, |(ws q).w.weight|

/-- The walkers as `pair_branch` sees them, after the division of handler.py 235 and 246. -/
noncomputable def bscaled (c : Ctl) (ws : BPop nb nu nd) : Nat → Walker ℝ (BW nb nu nd) :=
  fun q => ⟨(ws q).w.weight / (btotal c ws / c.target), ws q⟩

/-- A walker after the exchange: all attributes come from the buffer, `phi_old`, the history and the weight among them. -/
noncomputable def bunpack (w : Walker ℝ (BW nb nu nd)) : BW nb nu nd := w.state.setW w.weight

/-- Scaling and pair branching with given random numbers, handler.py 244-252 and 340-412. -/
noncomputable def bbranched (c : Ctl) (draw : Nat → ℝ) (ws : BPop nb nu nd) : BPop nb nu nd :=
  match pairBranchRoot c.mn c.mx draw c.nw c.size (bscaled c ws) with
  | none => ws
  | some fin => fun q => if q < c.num then
      bunpack ((ended (Mpi.start (pbProg c.nw fin) (pbMem c.nw fin (bscaled c ws)))).mem (q / c.nw) (q % c.nw)) else ws q

/-- Average over the random numbers of a step for the given walkers. -/
noncomputable def bmeanAll (f : (Fin nb → ℝ) → BW nb nu nd → BW nb nu nd) : List Nat → (BPop nb nu nd → ℂ) → BPop nb nu nd → ℂ
  | [], G, ws => G ws
  | q :: l, G, ws => meanOver (List.finRange nb) fun rs => bmeanAll f l G (Function.update ws q (f rs (ws q)))

/-- What happens in a run: steps, whose energy shift may depend on everything that happened before, reorthogonalisation of all
walkers, population control, and the end of a window (`copy_historic_wfn` and `reset` for all walkers, back_propagation.py 220-223). -/
inductive Bv (nb nu nd : Nat) where
  | step (capped : Bool) (shift : List (BPop nb nu nd) → ℝ)
  | ortho
  | pop
  | reset

open Classical in
/-- Average over all random numbers of a run of a quantity of the final population, times the factors that were taken out of the
weights: the factor of the energy shift in each step and the scale of each population control.  A run that is stopped (handler.py
236-242) contributes nothing. -/
noncomputable def meanBP (c : Ctl) (p : Par nb) (psi : Wfn nb nu nd) (qr : QR nb) :
    List (Bv nb nu nd) → (BPop nb nu nd → ℂ) → List (BPop nb nu nd) → ℝ → BPop nb nu nd → ℂ
  | [], F, _, _, ws => F ws
  | .step capped shift :: l, F, hist, T, ws =>
    Real.exp (-(p.dt * shift (ws :: hist))) *
      bmeanAll (bmoved c p psi (shift (ws :: hist)) capped T) (List.range c.num) (meanBP c p psi qr l F (ws :: hist) T) ws
  | .ortho :: l, F, hist, T, ws => meanBP c p psi qr l F (ws :: hist) T fun q => ortho qr (ws q)
  | .pop :: l, F, hist, T, ws =>
    if c.num = 1 then meanBP c p psi qr l F (ws :: hist) T ws
    else if btotal c ws < c.tiny then 0
    else ((btotal c ws / c.target : ℝ) : ℂ) *
      HubRun.meanDraw c.num fun draw => meanBP c p psi qr l F (ws :: hist) (btotal c ws) (bbranched c draw ws)
  | .reset :: l, F, hist, T, ws => meanBP c p psi qr l F (ws :: hist) T fun q => fresh (ws q).w

/-- Whether a window ends in the run. -/
def resets : List (Bv nb nu nd) → Bool
  | [] => false
  | .reset :: _ => true
  | _ :: l => resets l

/-- The number of steps before the last window. -/
def headSteps : List (Bv nb nu nd) → Nat
  | [] => 0
  | .step _ _ :: l => if resets l then headSteps l + 1 else 0
  | _ :: l => headSteps l

/-- The number of steps in the last window. -/
def tailSteps : List (Bv nb nu nd) → Nat
  | [] => 0
  | .step _ _ :: l => if resets l then tailSteps l else tailSteps l + 1
  | _ :: l => tailSteps l

/-- The population after a step with given random numbers for each walker. -/
noncomputable def bstepped (c : Ctl) (f : (Fin nb → ℝ) → BW nb nu nd → BW nb nu nd) (rs : Nat → Fin nb → ℝ) (ws : BPop nb nu nd) : BPop nb nu nd :=
  fun q => if q < c.num then f (rs q) (ws q) else ws q

/-- Nothing drastic happens, whatever the random numbers: no walker is skipped for its small weight, no weight is cut, no run is stopped. -/
def BCalm (c : Ctl) (p : Par nb) (psi : Wfn nb nu nd) (qr : QR nb) : List (Bv nb nu nd) → List (BPop nb nu nd) → ℝ → BPop nb nu nd → Prop
  | [], _, _, _ => True
  | .step capped shift :: l, hist, T, ws =>
    (∀ q, q < c.num → c.tiny < (ws q).w.weight) ∧
      ∀ rs, (∀ q, q < c.num → capped = true → (move p psi (shift (ws :: hist)) (rs q) (ws q)).w.weight ≤ T * c.share) ∧
        BCalm c p psi qr l (ws :: hist) T (bstepped c (move p psi (shift (ws :: hist))) rs ws)
  | .ortho :: l, hist, T, ws => BCalm c p psi qr l (ws :: hist) T fun q => ortho qr (ws q)
  | .pop :: l, hist, T, ws =>
    if c.num = 1 then BCalm c p psi qr l (ws :: hist) T ws
    else c.tiny ≤ btotal c ws ∧ ∀ draw, BCalm c p psi qr l (ws :: hist) (btotal c ws) (bbranched c draw ws)
  | .reset :: l, hist, T, ws => BCalm c p psi qr l (ws :: hist) T fun q => fresh (ws q).w

/-! ## Averages of sums -/

theorem step_post (p : Par nb) (psi : Wfn nb nu nd) (e : ℝ) (v : BW nb nu nd) : ∃ post : Wk nb nu nd × List (Fin 2) → BW nb nu nd,
    (∃ s, ∀ rs, move p psi e rs v = post ((proc p psi).sweep rs (List.finRange nb) s)) ∨ ∃ u, ∀ rs, move p psi e rs v = u := by
  let w1 := if 0 < |v.w.weight| then kineticIS p psi v.w else v.w
  let post : Wk nb nu nd × List (Fin 2) → BW nb nu nd := fun u =>
    ⟨{ (if 0 < |u.1.weight| then kineticIS p psi u.1 else u.1) with
      weight := (if 0 < |u.1.weight| then kineticIS p psi u.1 else u.1).weight * Real.exp (p.dt * e) }, v.old, u.2⟩
  refine ⟨post, ?_⟩
  by_cases h1 : 0 < |w1.weight|
  · refine Or.inl ⟨(w1, v.hist), fun rs => ?_⟩
    rw [sweep_eq]
    simp only [move, constrainedStep, pushes, post]
    rw [show (if 0 < |v.w.weight| then kineticIS p psi v.w else v.w) = w1 from rfl, if_pos h1, if_pos h1]
  · refine Or.inr ⟨move p psi e 0 v, fun rs => ?_⟩
    simp only [move, constrainedStep, pushes]
    rw [show (if 0 < |v.w.weight| then kineticIS p psi v.w else v.w) = w1 from rfl]
    simp only [if_neg h1]

theorem move_add (p : Par nb) (psi : Wfn nb nu nd) (e : ℝ) (v : BW nb nu nd) (F : BW nb nu nd → ℂ) (C : ℂ) :
    (meanOver (List.finRange nb) fun rs => F (move p psi e rs v) + C) = (meanOver (List.finRange nb) fun rs => F (move p psi e rs v)) + C := by
  obtain ⟨post, ⟨s, h⟩ | ⟨u, h⟩⟩ := step_post p psi e v
  · simp only [h]
    rw [Proc.mean_sweep _ (fun s i xi => trunc_nonneg p psi s.1 i xi) (fun v => F (post v) + C) _ (List.nodup_finRange nb),
      Proc.mean_sweep _ (fun s i xi => trunc_nonneg p psi s.1 i xi) (fun v => F (post v)) _ (List.nodup_finRange nb), HubRun.tree_add]
  · simp only [h, Fields.meanOver_const]

theorem move_finite (p : Par nb) (psi : Wfn nb nu nd) (e : ℝ) (v : BW nb nu nd) : (Set.range fun rs => move p psi e rs v).Finite := by
  obtain ⟨post, ⟨s, h⟩ | ⟨u, h⟩⟩ := step_post p psi e v
  · refine ((HubRun.sweep_finite (proc p psi) (List.finRange nb) s).image post).subset ?_
    rintro _ ⟨rs, rfl⟩
    exact ⟨_, ⟨rs, rfl⟩, (h rs).symm⟩
  · refine (Set.finite_singleton u).subset ?_
    rintro _ ⟨rs, rfl⟩
    exact h rs

theorem bmeanAll_congr {f : (Fin nb → ℝ) → BW nb nu nd → BW nb nu nd} : ∀ (l : List Nat) (ws : BPop nb nu nd) {G G' : BPop nb nu nd → ℂ}, l.Nodup →
    (∀ rs : Nat → Fin nb → ℝ, G (fun q => if q ∈ l then f (rs q) (ws q) else ws q) = G' (fun q => if q ∈ l then f (rs q) (ws q) else ws q)) →
    bmeanAll f l G ws = bmeanAll f l G' ws
  | [], ws, G, G', _, h => by simpa [bmeanAll] using h fun _ => 0
  | q :: l, ws, G, G', hl, h => by
    have hq := (List.nodup_cons.1 hl).1
    rw [bmeanAll, bmeanAll]
    congr 1
    funext r
    refine bmeanAll_congr l _ (List.nodup_cons.1 hl).2 fun rs => ?_
    have := h (Function.update rs q r)
    have e : (fun a => if a ∈ q :: l then f (Function.update rs q r a) (ws a) else ws a) =
        fun a => if a ∈ l then f (rs a) (Function.update ws q (f r (ws q)) a) else Function.update ws q (f r (ws q)) a := by
      funext a
      by_cases ha : a = q
      · subst ha
        rw [if_pos List.mem_cons_self, if_neg hq, Function.update_self, Function.update_self]
      · rw [Function.update_of_ne ha, Function.update_of_ne ha]
        simp only [List.mem_cons, ha, false_or]
    rwa [e] at this

/-- The average of a sum over the walkers. -/
theorem bmeanAll_sum (p : Par nb) (psi : Wfn nb nu nd) (e : ℝ) (g : BW nb nu nd → ℂ) (s : Finset Nat) : ∀ (l : List Nat), l.Nodup →
    ∀ ws : BPop nb nu nd, (∀ q ∈ l, q ∈ s) →
    bmeanAll (move p psi e) l (fun ws => ∑ q ∈ s, g (ws q)) ws =
      ∑ q ∈ s, if q ∈ l then (meanOver (List.finRange nb) fun rs => g (move p psi e rs (ws q))) else g (ws q)
  | [], _, ws, _ => by simp [bmeanAll]
  | q :: l, hl, ws, hs => by
    have hq := (List.nodup_cons.1 hl).1
    have hqs := hs q List.mem_cons_self
    rw [bmeanAll]
    let C : ℂ := ∑ a ∈ s.erase q, if a ∈ l then (meanOver (List.finRange nb) fun rs => g (move p psi e rs (ws a))) else g (ws a)
    have e1 : ∀ rs, bmeanAll (move p psi e) l (fun ws => ∑ q ∈ s, g (ws q)) (Function.update ws q (move p psi e rs (ws q))) =
        g (move p psi e rs (ws q)) + C := by
      intro rs
      rw [bmeanAll_sum p psi e g s l (List.nodup_cons.1 hl).2 _ fun a ha => hs a (List.mem_cons_of_mem _ ha), ← add_sum_erase s _ hqs,
        if_neg hq, Function.update_self]
      congr 1
      refine sum_congr rfl fun a ha => ?_
      rw [Function.update_of_ne (mem_erase.1 ha).1]
    simp only [e1]
    rw [move_add, ← add_sum_erase s _ hqs, if_pos List.mem_cons_self]
    congr 1
    refine sum_congr rfl fun a ha => ?_
    simp only [List.mem_cons, (mem_erase.1 ha).1, false_or]

theorem bmeanAll_fun {f f' : (Fin nb → ℝ) → BW nb nu nd → BW nb nu nd} (G : BPop nb nu nd → ℂ) : ∀ (l : List Nat) (ws : BPop nb nu nd), l.Nodup →
    (∀ q ∈ l, ∀ rs, f rs (ws q) = f' rs (ws q)) → bmeanAll f l G ws = bmeanAll f' l G ws
  | [], _, _, _ => rfl
  | q :: l, ws, hl, h => by
    rw [bmeanAll, bmeanAll]
    congr 1
    funext r
    rw [h q List.mem_cons_self]
    refine bmeanAll_fun G l _ (List.nodup_cons.1 hl).2 fun a ha rs => ?_
    have : a ≠ q := fun e => (List.nodup_cons.1 hl).1 (e ▸ ha)
    rw [Function.update_of_ne this]
    exact h a (List.mem_cons_of_mem _ ha) rs

/-! ## Population control -/

/-- The population after pair branching. -/
theorem bbranched_sum (c : Ctl) (draw : Nat → ℝ) (ws : BPop nb nu nd) (hnn : ∀ q, 0 ≤ (bscaled c ws q).weight) :
    ∃ fin, pairBranchRoot c.mn c.mx draw c.nw c.size (bscaled c ws) = some fin ∧ ∀ (M : Type) [AddCommMonoid M] (g : BW nb nu nd → M),
      ∑ q ∈ range c.num, g (bbranched c draw ws q) =
        ∑ q ∈ range c.num, (fin[q]?).elim 0 fun x => x.cnt • g ((ws q).setW x.w) := by
  obtain ⟨fin, hfin, -, -, h⟩ := PairBranch.pairBranch_population c.mn c.mx draw c.nw c.size (bscaled c ws) hnn
  refine ⟨fin, hfin, fun M _ g => ?_⟩
  obtain ⟨f, t, hd, -, hex⟩ := PairBranch.pairBranch_exchange_completes c.mn c.mx draw c.nw c.size (bscaled c ws) fin hfin
  obtain ⟨rest, hr, -⟩ := hex [] _ rfl
  obtain ⟨⟨sched, h1⟩, h2⟩ := HubRun.ended_spec ⟨f, ⟨rest, hr⟩, hd⟩
  have := h sched _ h1 h2 M fun w => g (bunpack w)
  rw [show c.num = c.nw * c.size from rfl]
  rw [show (∑ q ∈ range (c.nw * c.size), (fin[q]?).elim 0 fun x => x.cnt • g ((ws q).setW x.w)) =
    ∑ q ∈ range (c.nw * c.size), (fin[q]?).elim 0 fun x => x.cnt • g (bunpack ⟨x.w, (bscaled c ws q).state⟩) from rfl, ← this]
  refine sum_congr rfl fun q hq => ?_
  rw [bbranched, hfin]
  simp only
  rw [if_pos (show q < c.num from mem_range.1 hq)]

theorem btotal_pos (c : Ctl) {ws : BPop nb nu nd} (hw : ∀ q, 0 < (ws q).w.weight) (hn : 0 < c.num) : 0 < btotal c ws :=
  sum_pos (fun q _ => abs_pos.2 (hw q).ne') ⟨0, mem_range.2 hn⟩

theorem bscaled_pos (c : Ctl) (hT : 0 < c.target) {ws : BPop nb nu nd} (hw : ∀ q, 0 < (ws q).w.weight) (hn : 0 < c.num) (q : Nat) :
    0 < (bscaled c ws q).weight := div_pos (hw q) (div_pos (btotal_pos c hw hn) hT)

/-- Every walker of the new population is a copy of an old one, with its history, with a positive weight. -/
theorem bbranched_all (c : Ctl) (hT : 0 < c.target) (draw : Nat → ℝ) {ws : BPop nb nu nd} (hw : ∀ q, 0 < (ws q).w.weight) (hn : 0 < c.num)
    (P : BW nb nu nd → Prop) (hP : ∀ q (x : ℝ), 0 < x → P ((ws q).setW x)) (q : Nat) : P (bbranched c draw ws q) := by
  classical
  have hpos := bscaled_pos c hT hw hn
  obtain ⟨k, b, row, h1, h2⟩ := PairBranch.rows c.mn c.mx c.nw c.size (bscaled c ws) hpos
  by_cases hq : q < c.num
  · obtain ⟨fin, hfin, h⟩ := bbranched_sum c draw ws fun q => (hpos q).le
    rw [h2 draw] at hfin
    have h3 := h Nat fun w => if P w then 0 else 1
    have h4 : ∑ q ∈ range c.num, (fin[q]?).elim 0 (fun x => x.cnt • (if P ((ws q).setW x.w) then 0 else 1)) = 0 := by
      refine sum_eq_zero fun a ha => ?_
      rw [← Option.some.inj hfin, List.getElem?_map, List.getElem?_range (show a < c.nw * c.size from mem_range.1 ha), Option.map_some, Option.elim_some]
      rcases (h1 a (mem_range.1 ha)).2.2.2.1 (if draw (k a) < b a then 0 else 1) with h | h
      · rw [h, zero_smul]
      · rw [if_pos (hP a _ h), smul_zero]
    rw [h4] at h3
    have := (sum_eq_zero_iff.1 h3) q (mem_range.2 hq)
    by_contra hc
    rw [if_neg hc] at this
    exact one_ne_zero this
  · have e : bbranched c draw ws q = ws q := by
      rw [bbranched, h2 draw]
      simp only [if_neg hq]
    rw [e]
    exact hP q _ (hw q)

/-- **C128** (population control) With the scale put back, population control does not change the average of a sum over the walkers of
the weight times any property of the determinant, of `phi_old` and of the history. -/
theorem bbranched_average (c : Ctl) (hT : 0 < c.target) {ws : BPop nb nu nd} (hw : ∀ q, 0 < (ws q).w.weight) (hn : 0 < c.num)
    (g : BW nb nu nd → ℂ) (hg : ∀ (v : BW nb nu nd) (x : ℝ), g (v.setW x) = x * g (v.setW 1)) :
    ((btotal c ws / c.target : ℝ) : ℂ) * (HubRun.meanDraw c.num fun draw => ∑ q ∈ range c.num, g (bbranched c draw ws q)) =
      ∑ q ∈ range c.num, g (ws q) := by
  have hpos := bscaled_pos c hT hw hn
  obtain ⟨k, b, row, h1, h2⟩ := PairBranch.rows c.mn c.mx c.nw c.size (bscaled c ws) hpos
  have hk : ∀ a ∈ range c.num, k a < c.num := fun a ha => (h1 a (mem_range.1 ha)).1
  let K : Nat → Fin c.num := fun a => if h : k a < c.num then ⟨k a, h⟩ else ⟨0, hn⟩
  let B : Nat → Fin 2 → ℂ := fun a xi => ((row a xi).cnt * (row a xi).w : ℝ) * g ((ws a).setW 1)
  have e1 : ∀ r : Fin c.num → ℝ, ∑ q ∈ range c.num, g (bbranched c (fun k => if h : k < c.num then r ⟨k, h⟩ else 0) ws q) =
      ∑ a ∈ range c.num, B a (if r (K a) < b a then 0 else 1) := by
    intro r
    obtain ⟨fin, hfin, h⟩ := bbranched_sum c (fun k => if h : k < c.num then r ⟨k, h⟩ else 0) ws fun q => (hpos q).le
    rw [h2] at hfin
    rw [h ℂ g]
    refine sum_congr rfl fun a ha => ?_
    rw [← Option.some.inj hfin, List.getElem?_map, List.getElem?_range (show a < c.nw * c.size from mem_range.1 ha), Option.map_some, Option.elim_some, dif_pos (hk a ha), hg]
    simp only [K, dif_pos (hk a ha), B, nsmul_eq_mul]
    push_cast
    ring
  rw [HubRun.meanDraw]
  simp only [e1]
  rw [HubRun.mean_steps (range c.num) K b fun a ha => ⟨(h1 a (mem_range.1 ha)).2.1, (h1 a (mem_range.1 ha)).2.2.1⟩, mul_sum]
  refine sum_congr rfl fun a ha => ?_
  rw [if_pos (List.mem_finRange _)]
  have e2 := (h1 a (mem_range.1 ha)).2.2.2.2
  have e3 : (b a : ℂ) * B a 0 + (1 - b a) * B a 1 = ((bscaled c ws a).weight : ℂ) * g ((ws a).setW 1) := by
    rw [← e2]
    simp only [B]
    push_cast
    ring
  have e4 : g (ws a) = (ws a).w.weight * g ((ws a).setW 1) := hg (ws a) (ws a).w.weight
  rw [e3, e4, bscaled, ← mul_assoc, ← Complex.ofReal_mul]
  congr 2
  have := (btotal_pos c hw hn).ne'
  have := hT.ne'
  field_simp

/-! ## Runs -/

/-- A quantity `K l v` of a walker `v` that is its expected contribution after the events `l`. -/
structure Expect (p : Par nb) (psi : Wfn nb nu nd) (S : Wfn nb nu nd → Prop) (qr : QR nb) (c0 : ℝ) (K : List (Bv nb nu nd) → BW nb nu nd → ℂ) :
    Prop where
  step : ∀ l capped shift e v, Ready psi S c0 v.w →
    Real.exp (-(p.dt * e)) * (meanOver (List.finRange nb) fun rs => K l (move p psi e rs v)) = K (.step capped shift :: l) v
  ortho : ∀ l v, Ready psi S c0 v.w → K l (ortho qr v) = K (.ortho :: l) v
  pop : ∀ l v, K l v = K (.pop :: l) v
  reset : ∀ l v, Ready psi S c0 v.w → K l (fresh v.w) = K (.reset :: l) v
  lin : ∀ l (v : BW nb nu nd) (x : ℝ), K l (v.setW x) = x * K l (v.setW 1)

theorem expect_run {p : Par nb} {psi : Wfn nb nu nd} {S : Wfn nb nu nd → Prop} (hS : Cone p psi S) {qr : QR nb} (hqr : QRSpec qr) (hk : Kept qr S)
    (c : Ctl) (hT : 0 < c.target) (hn : 0 < c.num) {c0 : ℝ} {K : List (Bv nb nu nd) → BW nb nu nd → ℂ} (hK : Expect p psi S qr c0 K)
    {g : BW nb nu nd → ℂ} (hg : ∀ v, Ready psi S c0 v.w → g v = K [] v) :
    ∀ (l : List (Bv nb nu nd)) (hist : List (BPop nb nu nd)) (T : ℝ) (ws : BPop nb nu nd), (∀ q, Ready psi S c0 (ws q).w) →
      BCalm c p psi qr l hist T ws → meanBP c p psi qr l (fun ws => ∑ q ∈ range c.num, g (ws q)) hist T ws = ∑ q ∈ range c.num, K l (ws q)
  | [], hist, T, ws, hw, _ => by
    rw [meanBP]
    exact sum_congr rfl fun q _ => hg _ (hw q)
  | .step capped shift :: l, hist, T, ws, hw, hc => by
    rw [meanBP]
    rw [BCalm] at hc
    set e := shift (ws :: hist)
    rw [bmeanAll_fun (f' := move p psi e) _ _ _ List.nodup_range ?_]
    · rw [bmeanAll_congr (G' := fun ws => ∑ q ∈ range c.num, K l (ws q)) _ _ List.nodup_range ?_]
      · rw [bmeanAll_sum p psi e (K l) _ _ List.nodup_range _ (fun q hq => mem_range.2 (List.mem_range.1 hq)), mul_sum]
        refine sum_congr rfl fun q hq => ?_
        rw [if_pos (List.mem_range.2 (mem_range.1 hq)), hK.step l capped shift e (ws q) (hw q)]
      · intro rs
        have e1 : (fun q => if q ∈ List.range c.num then move p psi e (rs q) (ws q) else ws q) = bstepped c (move p psi e) rs ws := by
          funext q
          simp only [bstepped, List.mem_range]
        rw [e1, expect_run hS hqr hk c hT hn hK hg l (ws :: hist) T _ ?_ (hc.2 rs).2]
        intro q
        rw [bstepped]
        split_ifs
        · exact (hw q).step hS e (rs q)
        · exact hw q
    · intro q hq rs
      have hq' := List.mem_range.1 hq
      rw [bmoved]
      simp only [abs_of_pos (hw q).pos, if_pos (hc.1 q hq')]
      rw [if_neg]
      rintro ⟨h1, h2⟩
      have h3 : 0 < (move p psi e rs (ws q)).w.weight := HubRun.step_pos hS (hw q).valid (hw q).pos e rs
      rw [abs_of_pos h3] at h1
      have := (hc.2 fun _ => rs).1 q hq' h2
      linarith
  | .ortho :: l, hist, T, ws, hw, hc => by
    rw [meanBP, expect_run hS hqr hk c hT hn hK hg l _ _ _ (fun q => (hw q).ortho hS hqr hk) hc]
    exact sum_congr rfl fun q _ => hK.ortho l (ws q) (hw q)
  | .pop :: l, hist, T, ws, hw, hc => by
    rw [meanBP]
    rw [BCalm] at hc
    simp only [← hK.pop]
    by_cases h1 : c.num = 1
    · rw [if_pos h1] at hc ⊢
      exact expect_run hS hqr hk c hT hn hK hg l _ _ _ hw hc
    · rw [if_neg h1] at hc ⊢
      rw [if_neg (not_lt.2 hc.1)]
      have e1 : ∀ draw, meanBP c p psi qr l (fun ws => ∑ q ∈ range c.num, g (ws q)) (ws :: hist) (btotal c ws) (bbranched c draw ws) =
          ∑ q ∈ range c.num, K l (bbranched c draw ws q) := fun draw =>
        expect_run hS hqr hk c hT hn hK hg l _ _ _
          (bbranched_all c hT draw (fun q => (hw q).pos) hn (fun v => Ready psi S c0 v.w) fun q x hx => (hw q).weight hx) (hc.2 draw)
      simp only [e1]
      exact bbranched_average c hT (fun q => (hw q).pos) hn (K l) (hK.lin l)
  | .reset :: l, hist, T, ws, hw, hc => by
    rw [meanBP, expect_run hS hqr hk c hT hn hK hg l (ws :: hist) T (fun q => fresh (ws q).w) (fun q => hw q) hc]
    exact sum_congr rfl fun q _ => hK.reset l (ws q) (hw q)

/-! ## The expected contribution of a walker -/

/-- The average over a step of weight over overlap times the overlap with a functional that depends on the history. -/
theorem move_vec {p : Par nb} {psi : Wfn nb nu nd} {S : Wfn nb nu nd → Prop} (hS : Cone p psi S) (e : ℝ) {v : BW nb nu nd}
    (h : Valid psi S v.w) (V : List (Fin 2) → (Fin nu ⊕ Fin nd → Fin nb) → ℂ) :
    Real.exp (-(p.dt * e)) * (meanOver (List.finRange nb) fun rs => (move p psi e rs v).w.weight / (move p psi e rs v).w.ot *
      (V (move p psi e rs v).hist ⬝ᵥ prodState (orbs (move p psi e rs v).w.phi))) =
      v.w.weight / v.w.ot * ((((1 / 2 : ℂ) ^ nb) • ∑ f : Fin nb → Fin 2, V (v.hist ++ List.ofFn f) ᵥ* tens fun a => fieldMat p f (spin a)) ⬝ᵥ
        prodState (orbs v.w.phi)) := by
  rw [step_average hS e h fun φ g => V g ⬝ᵥ prodState (orbs φ)]
  simp only [prodState_step]
  rw [smul_dotProduct, smul_eq_mul, sum_dotProduct]
  simp only [Matrix.dotProduct_mulVec]
  have : ((Real.exp (-(p.dt * e)) : ℝ) : ℂ) * (Real.exp (p.dt * e) : ℝ) = 1 := by
    rw [← Complex.ofReal_mul, ← Real.exp_add, neg_add_cancel, Real.exp_zero, Complex.ofReal_one]
  linear_combination (v.w.weight / v.w.ot * ((1 / 2 : ℂ) ^ nb * ∑ f : Fin nb → Fin 2,
    (V (v.hist ++ List.ofFn f) ᵥ* tens fun a => fieldMat p f (spin a)) ⬝ᵥ prodState (orbs v.w.phi))) * this

/-- The quantity computed from the back-propagated Green's function, for a given history. -/
noncomputable def seen (dt U : ℝ) (bt2 : Fin 2 → Matrix (Fin nb) (Fin nb) ℂ) (qr : QR nb) (nstblz : Nat) (psi : Wfn nb nu nd)
    (E : (Fin 2 → Matrix (Fin nb) (Fin nb) ℂ) → ℂ) (old : Wfn nb nu nd) (g : List (Fin 2)) : ℂ :=
  E (green dt U bt2 qr nstblz psi ⟨start psi, old, g⟩)

/-- The paths of a window that begins now. -/
theorem reset_value (h : Hub nb) (hn : 0 < nb) {dt : ℝ} (hU : 0 ≤ dt * h.U) {psi : Wfn nb nu nd} {S : Wfn nb nu nd → Prop}
    (hS : Cone (par h dt) psi S) {qr' : QR nb} (hqr' : QRSpec qr') (nstblz : Nat) {E : (Fin 2 → Matrix (Fin nb) (Fin nb) ℂ) → ℂ}
    {O : Matrix (Fin nu ⊕ Fin nd → Fin nb) (Fin nu ⊕ Fin nd → Fin nb) ℂ} (hE : Measures E O) (z : ℂ) (n : Nat) {φ : Wfn nb nu nd} (hφ : S φ) :
    pathVec (par h dt) n (fun fs => (z * seen dt h.U (par h dt).bt2 qr' nstblz psi E φ fs) • slater psi) ⬝ᵥ prodState (orbs φ) =
      (z • (slater psi ᵥ* (stepOf h dt ^ n * O))) ⬝ᵥ prodState (orbs φ) := by
  have hne := (hS.pos _ hφ).ne
  have hfu : FullRank (up psi) := BackProp.fullRank_left (left_ne_zero_of_mul hne)
  have hfd : FullRank (dn psi) := BackProp.fullRank_left (right_ne_zero_of_mul hne)
  have e4 : ∀ fs : List (Fin nb → Fin 2), (((z * seen dt h.U (par h dt).bt2 qr' nstblz psi E φ (flat fs)) • slater psi) ᵥ*
      (tens fun a => pathMat (par h dt) fs (spin a))) ⬝ᵥ prodState (orbs φ) =
      ((z • slater psi) ᵥ* (tens fun a => pathMat (par h dt) fs (spin a))) ⬝ᵥ (O *ᵥ prodState (orbs φ)) := by
    intro fs
    have e5 : seen dt h.U (par h dt).bt2 qr' nstblz psi E φ (flat fs) = E (greens (mulBoth (fun s => (pathMat (par h dt) fs s)ᴴ) psi) φ) := by
      rw [seen, green_path h hn dt hqr' nstblz hfu hfd _ fs rfl]
    have hne' : ovl2 (mulBoth (fun s => (pathMat (par h dt) fs s)ᴴ) psi) φ ≠ 0 := by
      rw [← BackProp.ovl2_mulBoth]
      exact (hS.pos _ (cone_path hS fs hφ)).ne
    have e6 := hE _ _ hne'
    rw [Step.ovl2_eq, BackProp.slater_adj, ← e5] at e6
    rw [Matrix.smul_vecMul, Matrix.smul_vecMul, smul_dotProduct, smul_dotProduct, smul_eq_mul, smul_eq_mul, ← e6]
    ring
  rw [pathVec_avg, avgPath_congr _ e4]
  have e9 := pathVec_avg (par h dt) n (fun _ => z • slater psi) (O *ᵥ prodState (orbs φ))
  rw [← e9, pathVec_const h hU (HubRun.anti_smul (Step.slater_anti psi) _), Matrix.smul_vecMul, smul_dotProduct, ← Matrix.dotProduct_mulVec,
    smul_dotProduct, ← Matrix.dotProduct_mulVec, Matrix.mulVec_mulVec]

/-- The functional with which the rest of the run sees the determinant of a walker. -/
noncomputable def valueVec (h : Hub nb) (dt : ℝ) (psi : Wfn nb nu nd) (qr' : QR nb) (nstblz : Nat) (E : (Fin 2 → Matrix (Fin nb) (Fin nb) ℂ) → ℂ)
    (O : Matrix (Fin nu ⊕ Fin nd → Fin nb) (Fin nu ⊕ Fin nd → Fin nb) ℂ) (c0 : ℝ) (l : List (Bv nb nu nd)) (old : Wfn nb nu nd)
    (g : List (Fin 2)) : (Fin nu ⊕ Fin nd → Fin nb) → ℂ :=
  if resets l then (Complex.exp (c0 : ℂ) • (slater psi ᵥ* (stepOf h dt ^ tailSteps l * O))) ᵥ* stepOf h dt ^ headSteps l
  else pathVec (par h dt) (tailSteps l) fun fs =>
    (Complex.exp (c0 : ℂ) * seen dt h.U (par h dt).bt2 qr' nstblz psi E old (g ++ fs)) • slater psi

theorem value_anti (h : Hub nb) (dt : ℝ) (psi : Wfn nb nu nd) (qr' : QR nb) (nstblz : Nat) (E : (Fin 2 → Matrix (Fin nb) (Fin nb) ℂ) → ℂ)
    {O : Matrix (Fin nu ⊕ Fin nd → Fin nb) (Fin nu ⊕ Fin nd → Fin nb) ℂ} (hO : Sym spin O) (c0 : ℝ) (l : List (Bv nb nu nd)) (old : Wfn nb nu nd)
    (g : List (Fin 2)) : Anti spin (valueVec h dt psi qr' nstblz E O c0 l old g) := by
  rw [valueVec]
  split_ifs
  · refine HubRun.vecMul_pow_anti (HubRun.stepOf_sym h dt) _ (HubRun.anti_smul ?_ _)
    rw [← Matrix.vecMul_vecMul]
    exact (HubRun.vecMul_pow_anti (HubRun.stepOf_sym h dt) _ (Step.slater_anti psi)).vecMul hO
  · exact pathVec_anti _ _ fun _ => HubRun.anti_smul (Step.slater_anti psi) _

theorem expect_value (h : Hub nb) (hn : 0 < nb) {dt : ℝ} (hU : 0 ≤ dt * h.U) {psi : Wfn nb nu nd} {S : Wfn nb nu nd → Prop}
    (hS : Cone (par h dt) psi S) {qr qr' : QR nb} (hqr : QRSpec qr) (hqr' : QRSpec qr') (hk : Kept qr S) (nstblz : Nat)
    {E : (Fin 2 → Matrix (Fin nb) (Fin nb) ℂ) → ℂ} {O : Matrix (Fin nu ⊕ Fin nd → Fin nb) (Fin nu ⊕ Fin nd → Fin nb) ℂ} (hE : Measures E O)
    (hO : Sym spin O) (c0 : ℝ) :
    Expect (par h dt) psi S qr c0 fun l v => v.w.weight / v.w.ot * (valueVec h dt psi qr' nstblz E O c0 l v.old v.hist ⬝ᵥ prodState (orbs v.w.phi)) := by
  refine ⟨fun l capped shift e v hv => ?_, fun l v hv => ?_, fun l v => rfl, fun l v hv => ?_, fun l v x => ?_⟩
  · have := move_vec hS e hv.valid fun g => valueVec h dt psi qr' nstblz E O c0 l v.old g
    have ho : ∀ rs, (move (par h dt) psi e rs v).old = v.old := fun _ => rfl
    simp only [ho]
    rw [this]
    congr 2
    rcases hr : resets l with _ | _
    · simp only [valueVec, resets, hr, tailSteps, Bool.false_eq_true, if_false, pathVec, List.append_assoc]
    · simp only [valueVec, resets, hr, tailSteps, headSteps, if_true]
      rw [field_vec h hU, Matrix.vecMul_vecMul, ← pow_succ]
      have := value_anti h dt psi qr' nstblz E hO c0 l v.old v.hist
      rwa [valueVec, if_pos hr] at this
  · obtain ⟨-, h2, -, -, h5⟩ := hv.valid.reortho hS hqr hk hv.shift
    have := HubRun.reortho_anti h5 (value_anti h dt psi qr' nstblz E hO c0 l v.old v.hist)
    have e1 : (ortho qr v).w.weight = v.w.weight := h2
    have e2 : (ortho qr v).w = orthogonalise qr false v.w := rfl
    have e3 : (ortho qr v).old = v.old := rfl
    have e4 : (ortho qr v).hist = v.hist := rfl
    rw [e1, e2, e3, e4]
    rw [show valueVec h dt psi qr' nstblz E O c0 (.ortho :: l) v.old v.hist = valueVec h dt psi qr' nstblz E O c0 l v.old v.hist from rfl,
      div_mul_eq_mul_div, div_mul_eq_mul_div, mul_div_assoc, mul_div_assoc, this]
  · have e1 : (fresh v.w).w = v.w := rfl
    have e2 : (fresh v.w).old = v.w.phi := rfl
    have e3 : (fresh v.w).hist = [] := rfl
    simp only [e1, e2, e3]
    congr 1
    rcases hr : resets l with _ | _
    · have h1 : ∀ l : List (Bv nb nu nd), resets l = false → headSteps l = 0 := by
        intro l
        induction l with
        | nil => exact fun _ => rfl
        | cons a l ih =>
          cases a with
          | step c s => intro hr; simp only [resets] at hr; simp [headSteps, hr]
          | ortho => exact ih
          | pop => exact ih
          | reset => intro hr; simp [resets] at hr
      simp only [valueVec, hr, Bool.false_eq_true, if_false, List.nil_append]
      rw [reset_value h hn hU hS hqr' nstblz hE _ _ hv.valid.mem]
      simp only [resets, if_true, headSteps, tailSteps, h1 l hr, pow_zero, Matrix.vecMul_one]
    · simp only [valueVec, resets, hr, if_true, headSteps, tailSteps]
  · simp only [BW.setW]
    push_cast
    ring

/-- What a run adds up for a quantity: the sum over the walkers of weight times quantity. -/
noncomputable def sumOf (c : Ctl) (h : Hub nb) (dt : ℝ) (psi : Wfn nb nu nd) (qr' : QR nb) (nstblz : Nat) (E : (Fin 2 → Matrix (Fin nb) (Fin nb) ℂ) → ℂ)
    (ws : BPop nb nu nd) : ℂ := ∑ q ∈ range c.num, share dt h.U (par h dt).bt2 qr' nstblz psi E (ws q)

/-- **C128** The average over all random numbers of a run of a population with population control, energy shifts that depend on the
history, reorthogonalisations and any number of windows, of weight times a quantity computed from the back-propagated Green's function in the
last window. -/
theorem population_back (h : Hub nb) (hn : 0 < nb) {dt : ℝ} (hU : 0 ≤ dt * h.U) {psi : Wfn nb nu nd} {S : Wfn nb nu nd → Prop}
    (hS : Cone (par h dt) psi S) {qr qr' : QR nb} (hqr : QRSpec qr) (hqr' : QRSpec qr') (hk : Kept qr S) (nstblz : Nat)
    {E : (Fin 2 → Matrix (Fin nb) (Fin nb) ℂ) → ℂ} {O : Matrix (Fin nu ⊕ Fin nd → Fin nb) (Fin nu ⊕ Fin nd → Fin nb) ℂ} (hE : Measures E O)
    (hO : Sym spin O) (c : Ctl) (hT : 0 < c.target) (hc : 0 < c.num) (l : List (Bv nb nu nd)) (T : ℝ) (ws : Nat → Wk nb nu nd) {c0 : ℝ}
    (hw : ∀ q, Ready psi S c0 (ws q)) (hcalm : BCalm c (par h dt) psi qr l [] T fun q => fresh (ws q)) :
    meanBP c (par h dt) psi qr l (sumOf c h dt psi qr' nstblz E) [] T (fun q => fresh (ws q)) =
      ∑ q ∈ range c.num, (ws q).weight / overlap psi (ws q).phi *
        (slater psi ⬝ᵥ ((stepOf h dt ^ tailSteps l * O * stepOf h dt ^ headSteps l) *ᵥ prodState (orbs (ws q).phi))) := by
  have hK := expect_value h hn hU hS hqr hqr' hk nstblz hE hO c0
  have e1 := expect_run hS hqr hk c hT hc hK (g := share dt h.U (par h dt).bt2 qr' nstblz psi E) (by
    intro v hv
    have e2 := HubRun.weight_eq hS hv.valid
    rw [hv.log, smul_dotProduct, smul_eq_mul] at e2
    simp only [valueVec, resets, Bool.false_eq_true, if_false, tailSteps, pathVec, List.append_nil]
    rw [share, smul_dotProduct, smul_eq_mul]
    have e3 : E (green dt h.U (par h dt).bt2 qr' nstblz psi v) = seen dt h.U (par h dt).bt2 qr' nstblz psi E v.old v.hist := rfl
    rw [e3]
    refine (congrArg (· * seen dt h.U (par h dt).bt2 qr' nstblz psi E v.old v.hist) e2).trans ?_
    ring) l [] T (fun q => fresh (ws q)) hw hcalm
  refine e1.trans (sum_congr rfl fun q _ => ?_)
  have e4 := hK.reset l (fresh (ws q)) (hw q)
  refine e4.trans ?_
  have hx := Complex.exp_ne_zero (c0 : ℂ)
  have hne := (hS.pos _ (hw q).valid.mem).ne
  have e5 : (fresh (ws q)).w = ws q := rfl
  rw [e5, (hw q).valid.ot, (hw q).log]
  simp only [valueVec, resets, if_true, headSteps, tailSteps]
  rw [Matrix.smul_vecMul, Matrix.vecMul_vecMul, smul_dotProduct, smul_eq_mul, ← Matrix.dotProduct_mulVec]
  field_simp

/-- What is printed for a quantity: weight times quantity over weight, both summed over the walkers and averaged over the random numbers with the
factors put back. -/
noncomputable def popQuotient (c : Ctl) (h : Hub nb) (dt : ℝ) (psi : Wfn nb nu nd) (qr qr' : QR nb) (nstblz : Nat) (l : List (Bv nb nu nd)) (T : ℝ)
    (E : (Fin 2 → Matrix (Fin nb) (Fin nb) ℂ) → ℂ) (w : Wk nb nu nd) : ℂ :=
  meanBP c (par h dt) psi qr l (sumOf c h dt psi qr' nstblz E) [] T (fun _ => fresh w) /
    meanBP c (par h dt) psi qr l (sumOf c h dt psi qr' nstblz fun _ => 1) [] T (fun _ => fresh w)

/-- **C128** The estimates of a population are those of a single walker with the same numbers of steps before and in the last window. -/
theorem popQuotient_eq (h : Hub nb) (hn : 0 < nb) {dt : ℝ} (hU : 0 ≤ dt * h.U) {psi : Wfn nb nu nd} {S : Wfn nb nu nd → Prop}
    (hS : Cone (par h dt) psi S) {qr qr' : QR nb} (hqr : QRSpec qr) (hqr' : QRSpec qr') (hk : Kept qr S) (nstblz : Nat)
    {E : (Fin 2 → Matrix (Fin nb) (Fin nb) ℂ) → ℂ} {O : Matrix (Fin nu ⊕ Fin nd → Fin nb) (Fin nu ⊕ Fin nd → Fin nb) ℂ} (hE : Measures E O)
    (hO : Sym spin O) (c : Ctl) (hT : 0 < c.target) (hc : 0 < c.num) (l : List (Bv nb nu nd)) (T : ℝ) {w : Wk nb nu nd} {c0 : ℝ}
    (hw : Ready psi S c0 w) (hcalm : BCalm c (par h dt) psi qr l [] T fun _ => fresh w) (l1 l2 : List (Option ℝ))
    (h1 : steps l1 = headSteps l) (h2 : steps l2 = tailSteps l) :
    popQuotient c h dt psi qr qr' nstblz l T E w = backQuotient h dt psi qr qr' nstblz l1 l2 E w := by
  have hm := BackProp.measures_weight (nb := nb) (nu := nu) (nd := nd)
  rw [popQuotient, population_back h hn hU hS hqr hqr' hk nstblz hE hO c hT hc l T _ (fun _ => hw) hcalm,
    population_back h hn hU hS hqr hqr' hk nstblz hm sym_one c hT hc l T _ (fun _ => hw) hcalm,
    quotient_eq h hn hU hS hqr hqr' hk nstblz hE hO l1 l2 hw.valid hw.shift hw.pos.ne', h1, h2, sum_const, sum_const, nsmul_eq_mul, nsmul_eq_mul]
  have h3 : ((range c.num).card : ℂ) ≠ 0 := by
    rw [card_range]
    exact Nat.cast_ne_zero.2 hc.ne'
  rw [mul_div_mul_left _ _ h3, mul_div_mul_left, Matrix.mul_one]
  exact div_ne_zero (Complex.ofReal_ne_zero.2 hw.pos.ne') (hS.pos _ hw.valid.mem).ne

end Verif.HubBack
