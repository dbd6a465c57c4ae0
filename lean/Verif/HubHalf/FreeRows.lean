import Verif.HubHalf.EnergyCases
import Verif.HubRun.PairFree
import Verif.Mixed.Props

/-!
# Output rows of free projection without a sign problem: C135
-/

namespace Verif.HubHalf

open Matrix Finset
open Verif.Slater
open Verif.Hirsch
open Verif.Step (Hub)
open Verif.Uhf (Eig Eigh)
open Verif.HubRun (start energy par chPar freeElectron Plain Paired)
open Verif.Mixed (Obs Cfg blockRow ndiv)

variable {nb nu nd n : Nat}

/-- Weights stay positive and phases of modulus one in free projection. -/
theorem free_unit {p : Par nb} (hp : ∀ xi, p.wfac xi ≠ 0) (qr : QR nb) (psi : Wfn nb nu nd) (ops : List (FreeOp nb)) :
    ∀ w : Wk nb nu nd, 0 < w.weight → ‖w.phase‖ = 1 →
      0 < (ops.foldl (freeOp p qr psi) w).weight ∧ ‖(ops.foldl (freeOp p qr psi) w).phase‖ = 1 := by
  have he : ∀ x : ℝ, ‖Complex.exp (Complex.I * (x : ℂ))‖ = 1 := fun x => by rw [mul_comm]; exact Complex.norm_exp_ofReal_mul_I x
  induction ops with
  | nil => exact fun w h1 h2 => ⟨h1, h2⟩
  | cons o l ih =>
    intro w h1 h2
    match o with
    | none =>
      refine ih _ ?_ ?_
      · show 0 < w.weight * ‖((reortho qr w).detR : ℂ)‖
        refine mul_pos h1 (norm_pos_iff.2 (Complex.ofReal_ne_zero.2 ?_))
        exact (Real.exp_pos _).ne'
      · show ‖w.phase * Complex.exp (Complex.I * (Complex.arg ((reortho qr w).detR : ℂ) : ℂ))‖ = 1
        rw [norm_mul, h2, he, one_mul]
    | some (f, x) =>
      refine ih _ ?_ ?_
      · show 0 < w.weight * (Real.exp (p.dt * x) * ‖∏ i, p.wfac (f i)‖)
        exact mul_pos h1 (mul_pos (Real.exp_pos _) (norm_pos_iff.2 (prod_ne_zero_iff.2 fun i _ => hp _)))
      · show ‖w.phase * Complex.exp (Complex.I * (Complex.arg (∏ i, p.wfac (f i)) : ℂ))‖ = 1
        rw [norm_mul, h2, he, one_mul]

/-- What the estimator reads of a walker (`estimators/mixed.py` 154-174).  The weight may be any positive number: population control and the cap on weights
(`walkers/handler.py` 225-260, `qmc/afqmc.py` 234-235) change it and copy walkers, and neither orbitals nor overlap nor phase depend on it. -/
structure Reads (h : Hub nb) (psi : Wfn nb nu nd) (w : Wk nb nu nd) (o : Obs) : Prop where
  weight : 0 < o.weight
  ot : o.ot = w.ot
  phase : o.phase = w.phase
  en : o.E = energy h psi w

/-- An observation without a sign. -/
def Clean (o : Obs) : Prop := ∃ r : ℝ, 0 < r ∧ (o.weight : ℂ) * o.ot * o.phase = r ∧ o.weight * ‖o.ot‖ = r ∧ o.E = (o.E.re : ℂ)

theorem clean_of {h : Hub nb} {psi : Wfn nb nu nd} {w : Wk nb nu nd} {o : Obs} (ho : Reads h psi w o) (h1 : 0 < w.weight) (h2 : ‖w.phase‖ = 1)
    (h3 : w.ot ≠ 0) (h4 : ∃ r : ℝ, 0 ≤ r ∧ (w.weight : ℂ) * w.phase * w.ot = r) (h5 : (HubRun.energy h psi w).im = 0) : Clean o := by
  obtain ⟨r, hr, er⟩ := h4
  have hn : w.weight * ‖w.ot‖ = r := by
    have := congrArg (fun z : ℂ => ‖z‖) er
    rw [norm_mul, norm_mul, h2, mul_one, Complex.norm_real, Complex.norm_real, Real.norm_of_nonneg h1.le, Real.norm_of_nonneg hr] at this
    exact this
  have hz : w.phase * w.ot = (‖w.ot‖ : ℂ) := by
    have hw : (w.weight : ℂ) ≠ 0 := Complex.ofReal_ne_zero.2 h1.ne'
    refine mul_left_cancel₀ hw ?_
    rw [← mul_assoc, er, ← hn]
    push_cast
    rfl
  refine ⟨o.weight * ‖w.ot‖, mul_pos ho.weight (norm_pos_iff.2 h3), ?_, ?_, ?_⟩
  · rw [ho.ot, ho.phase, mul_assoc, mul_comm w.ot, hz]
    push_cast
    rfl
  · rw [ho.ot]
  · rw [ho.en]
    exact Complex.ext rfl (by rw [h5, Complex.ofReal_im])

/-- Half-filled repulsive models on bipartite lattices. -/
theorem half_clean {A : Fin nb → Bool} {psi : Wfn nb nu nd} (hψ : Trial A psi) {hub : Hub nb} (hb : Bipartite A hub) (dt : ℝ) (hn : nu + nd = nb)
    {qr : QR nb} (hqr : QRSpec qr) (ops : List (FreeOp nb)) {o : Obs}
    (ho : Reads hub psi (ops.foldl (freeOp (par hub dt) qr psi) (start psi)) o) (hne : o.ot ≠ 0) : Clean o := by
  obtain ⟨-, h2⟩ := free_run (par hub dt) qr hqr psi (fun f s => forward_det hb dt f s) ops (start psi) hψ.ru hψ.rd rfl rfl rfl
  obtain ⟨u1, u2⟩ := free_unit (p := par hub dt) (fun _ => one_ne_zero) qr psi ops (start psi) one_pos (by simp [start])
  rw [ho.ot] at hne
  have hne' : overlap psi (ops.foldl (freeOp (par hub dt) qr psi) (start psi)).phi ≠ 0 := by rwa [h2] at hne
  have h : Half (finSumFinEquiv.trans (finCongr hn)) A psi (ops.foldl (freeOp (par hub dt) qr psi) (start psi)).phi := free_half hψ hb dt _ hqr ops
  exact clean_of ho u1 u2 hne (free_no_sign hb dt hn hψ hqr ops) (by rw [half_energy hb hψ h hne', Complex.ofReal_im])

/-- Attractive models with paired electrons. -/
theorem paired_clean {h : Hub nb} (hh : Plain h) (dt : ℝ) {psi : Wfn nb n n} (hψ : Paired psi) {qr : QR nb} (hqr : QRSpec qr) (ops : List (FreeOp nb))
    {o : Obs} (ho : Reads h psi (ops.foldl (freeOp (chPar h dt) qr psi) (start psi)) o) (hne : o.ot ≠ 0) : Clean o := by
  have rd : FullRank (dn psi) := by
    rw [hψ.same]
    exact hψ.indep
  obtain ⟨-, h2⟩ := free_run (chPar h dt) qr hqr psi (HubRun.charge_forward_det h dt) ops (start psi) hψ.indep rd rfl rfl rfl
  obtain ⟨u1, u2⟩ := free_unit (p := chPar h dt) (fun xi => (HubRun.charge_wfac_pos h dt xi).ne) qr psi ops (start psi) one_pos (by simp [start])
  rw [ho.ot] at hne
  have hne' : overlap psi (ops.foldl (freeOp (chPar h dt) qr psi) (start psi)).phi ≠ 0 := by rwa [h2] at hne
  exact clean_of ho u1 u2 hne (HubRun.paired_free hh dt hψ hqr ops) (HubRun.paired_energy hh hψ (HubRun.free_same hh dt hψ hqr ops) hne').2.2

/-- **C135** Rows made of observations without a sign: the energy is real and between the local energies that entered, the denominator is positive
and the overlap column (`estimators/mixed.py` 174, 265), the average of moduli over the average of the factors, is exactly one. -/
theorem clean_row (c : Cfg) (hn : 0 < c.nsteps) (hf : c.free = true) (he : c.evalEnergy = true) (step : Nat) (l : List (Nat × Obs))
    (hl : ∀ x ∈ l, Clean x.2) (hev : ∃ x ∈ l, x.1 % c.freq = 0) (m M : ℝ) (hm : ∀ x ∈ l, x.1 % c.freq = 0 → m ≤ x.2.E.re)
    (hM : ∀ x ∈ l, x.1 % c.freq = 0 → x.2.E.re ≤ M) :
    (∃ r : ℝ, (blockRow c step l).eproj = some (r : ℂ) ∧ m ≤ r ∧ r ≤ M) ∧ (blockRow c step l).ovlp = some 1 ∧
      ∃ d : ℝ, 0 < d ∧ (blockRow c step l).weight = d := by
  have key : ∀ x ∈ l, 0 < x.2.weight * ‖x.2.ot‖ ∧ (x.2.weight : ℂ) * x.2.ot * x.2.phase = ((x.2.weight * ‖x.2.ot‖ : ℝ) : ℂ) ∧ x.2.E = (x.2.E.re : ℂ) := by
    intro x hx
    obtain ⟨r, h1, h2, h3, h4⟩ := hl x hx
    exact ⟨h3.symm ▸ h1, by rw [h2, h3], h4⟩
  have hmem : ∀ x, x ∈ l.filter (fun x => x.1 % c.freq = 0) ↔ x ∈ l ∧ x.1 % c.freq = 0 := by
    intro x; simp
  obtain ⟨x0, hx0, hx0'⟩ := hev
  have hs : (l.map fun x => (x.2.weight : ℂ) * x.2.ot * x.2.phase).sum = ((l.map fun x => x.2.weight * ‖x.2.ot‖).sum : ℝ) := by
    rw [← Mixed.ofReal_sum]
    exact congrArg List.sum (List.map_congr_left fun x hx => (key x hx).2.1)
  have hpos : 0 < (l.map fun x => x.2.weight * ‖x.2.ot‖).sum := by
    have h1 : x0.2.weight * ‖x0.2.ot‖ ≤ (l.map fun x => x.2.weight * ‖x.2.ot‖).sum := List.single_le_sum (by
      intro y hy; obtain ⟨z, hz, rfl⟩ := List.mem_map.mp hy; exact (key z hz).1.le) _ (List.mem_map_of_mem (f := fun x : Nat × Obs => x.2.weight * ‖x.2.ot‖) hx0)
    exact (key x0 hx0).1.trans_le h1
  refine ⟨?_, ?_, ?_⟩
  · rw [Mixed.blockRow_eproj_free c hf he]
    dsimp only
    obtain ⟨r, h1, h2⟩ := Mixed.ndiv_bracket (l.filter fun x => x.1 % c.freq = 0) (fun x => x.2.weight * ‖x.2.ot‖) (fun x => x.2.E.re) m M
      (fun x hx => (key x ((hmem x).mp hx).1).1.le) ⟨x0, (hmem x0).mpr ⟨hx0, hx0'⟩, (key x0 hx0).1⟩
      (fun x hx => hm x ((hmem x).mp hx).1 ((hmem x).mp hx).2) (fun x hx => hM x ((hmem x).mp hx).1 ((hmem x).mp hx).2)
    refine ⟨r, ?_, h2⟩
    rw [← h1]
    congr 2
    · refine List.map_congr_left fun x hx => ?_
      have h3 := key x ((hmem x).mp hx).1
      rw [h3.2.1]
      conv_lhs => rw [h3.2.2]
      push_cast
      rfl
    · exact List.map_congr_left fun x hx => (key x ((hmem x).mp hx).1).2.1
  · have h3 := Mixed.sum_contrib c l Mixed.Acc.ovlp rfl (fun _ _ => rfl) (fun x => ((x.2.weight * ‖x.2.ot‖ : ℝ) : ℂ)) (fun x => by
      push_cast
      simp only [Mixed.contrib, hf, Mixed.addFree, if_true]
      split_ifs <;> exact zero_add _)
    have h4 := Mixed.sum_contrib c l Mixed.Acc.weight rfl (fun _ _ => rfl) (fun x => (x.2.weight : ℂ) * x.2.ot * x.2.phase) (fun x => by
      simp only [Mixed.contrib, hf, Mixed.addFree, if_true]
      split_ifs <;> exact zero_add _)
    show ndiv (Mixed.Acc.ovlp ((l.map (Mixed.contrib c)).sum) / c.nsteps) (Mixed.Acc.weight ((l.map (Mixed.contrib c)).sum) / c.nsteps) = _
    have hz : (((l.map fun x => x.2.weight * ‖x.2.ot‖).sum : ℝ) : ℂ) ≠ 0 := Complex.ofReal_ne_zero.2 hpos.ne'
    rw [Mixed.ndiv_scale _ hn, h3, h4, hs, Mixed.ofReal_sum, ndiv, if_neg hz, div_self hz]
  · refine ⟨(l.map fun x => x.2.weight * ‖x.2.ot‖).sum / c.nsteps, div_pos hpos (Nat.cast_pos.2 hn), ?_⟩
    rw [(Mixed.blockRow_averages_free c hn hf step l).1, hs]
    push_cast
    rfl

/-- Blocks have walkers at their last step. -/
theorem samples_last : ∀ (b : List (List (List Obs))) (k : Nat), b ≠ [] → (∀ o ∈ b, o.flatten ≠ []) → ∃ x ∈ Mixed.samples k b, x.1 = k + b.length - 1
  | [], _, h, _ => absurd rfl h
  | [o], k, _, h => by
    obtain ⟨w, hw⟩ := List.exists_mem_of_ne_nil _ (h o (by simp))
    exact ⟨(k, w), List.mem_append_left _ (List.mem_map_of_mem hw), by simp⟩
  | o :: o' :: os, k, _, h => by
    obtain ⟨x, hx, ex⟩ := samples_last (o' :: os) (k + 1) (by simp) (fun a ha => h a (List.mem_cons_of_mem _ ha))
    refine ⟨x, List.mem_append_right _ hx, ?_⟩
    rw [ex]
    simp only [List.length_cons]
    omega

theorem samples_mem : ∀ (b : List (List (List Obs))) (k : Nat), ∀ x ∈ Mixed.samples k b, ∃ o ∈ b, x.2 ∈ o.flatten
  | [], _, x, hx => by simp [Mixed.samples] at hx
  | o :: os, k, x, hx => by
    rw [Mixed.samples, List.mem_append] at hx
    rcases hx with hx | hx
    · obtain ⟨w, hw, rfl⟩ := List.mem_map.1 hx
      exact ⟨o, by simp, hw⟩
    · obtain ⟨o', h1, h2⟩ := samples_mem os (k + 1) x hx
      exact ⟨o', List.mem_cons_of_mem _ h1, h2⟩

/-- **C135** Whole runs: every row after the first has a real energy between the bounds of all local energies, and the overlap column is one. -/
theorem clean_run (c : Cfg) (hn : 0 < c.nsteps) (hf : c.free = true) (he : c.evalEnergy = true) (hfr : c.freq ∣ c.nsteps) (ranks : Nat)
    (o0 : List (List Obs)) (h0 : o0.length = ranks) (bs : List (List (List (List Obs)))) (hb : ∀ b ∈ bs, b.length = c.nsteps)
    (hr : ∀ b ∈ bs, ∀ o ∈ b, o.length = ranks ∧ o.flatten ≠ []) (m M : ℝ)
    (hc : ∀ b ∈ bs, ∀ o ∈ b, ∀ w ∈ o.flatten, Clean w ∧ m ≤ w.E.re ∧ w.E.re ≤ M) :
    ∀ row ∈ ((Mixed.run c true ranks o0 bs.flatten).rows.reverse).tail,
      (∃ r : ℝ, row.eproj = some (r : ℂ) ∧ m ≤ r ∧ r ≤ M) ∧ row.ovlp = some 1 ∧ ∃ d : ℝ, 0 < d ∧ row.weight = d := by
  have h1 := Mixed.run_eq c ranks o0 h0 bs [] hn hb (by simpa using hn) (fun b hb o ho => (hr b hb o ho).1) (by simp)
  rw [List.append_nil] at h1
  rw [h1, List.tail_cons]
  clear h1
  generalize 0 = k
  induction bs generalizing k with
  | nil => simp [Mixed.blockRows]
  | cons b bs ih =>
    intro row hrow
    rw [Mixed.blockRows, List.mem_cons] at hrow
    rcases hrow with rfl | hrow
    · have hlen := hb b (by simp)
      have hne : b ≠ [] := by
        rintro rfl
        simp at hlen
        omega
      obtain ⟨x, hx, ex⟩ := samples_last b (k * c.nsteps + 1) hne (fun o ho => (hr b (by simp) o ho).2)
      have hS : ∀ x ∈ Mixed.samples (k * c.nsteps + 1) b, Clean x.2 ∧ m ≤ x.2.E.re ∧ x.2.E.re ≤ M := by
        intro x hx
        obtain ⟨o, ho, hw⟩ := samples_mem b _ x hx
        exact hc b (by simp) o ho _ hw
      refine clean_row c hn hf he _ _ (fun x hx => (hS x hx).1) ⟨x, hx, ?_⟩ m M (fun x hx _ => (hS x hx).2.1) (fun x hx _ => (hS x hx).2.2)
      have e2 : x.1 = (k + 1) * c.nsteps := by
        rw [ex, hlen, Nat.succ_mul]
        omega
      rw [e2]
      exact Nat.mod_eq_zero_of_dvd (hfr.mul_left _)
    · exact ih (fun b' h => hb b' (by simp [h])) (fun b' h => hr b' (by simp [h])) (fun b' h => hc b' (by simp [h])) _ row hrow

/-! ## Attractive models: no overlap vanishes -/

open Verif.HubRun (path Clear) in
theorem path_append (p : Par nb) : ∀ l r, path p (l ++ r) = path p l * path p r
  | [], r => by rw [List.nil_append, path, Matrix.one_mul]
  | none :: l, r => by rw [List.cons_append, path, path, path_append p l r, Matrix.mul_assoc]
  | some (i, xi) :: l, r => by rw [List.cons_append, path, path, path_append p l r, Matrix.mul_assoc]

open Verif.HubRun (path Clear) in
theorem path_sites (p : Par nb) (f : Fin nb → Fin 2) : ∀ l : List (Fin nb), l.Nodup →
    path p (l.map fun i => some (i, f i)) = diagonal fun j => if j ∈ l then p.auxf (f j) 0 else 1
  | [], _ => by simp [path]
  | i :: l, h => by
    rw [List.nodup_cons] at h
    rw [List.map_cons, path, path_sites p f l h.2, Matrix.diagonal_mul_diagonal]
    congr 1
    funext j
    by_cases hj : j = i
    · subst hj
      simp [h.1]
    · simp [hj]

open Verif.HubRun (path Clear) in
theorem forward_path (p : Par nb) (f : Fin nb → Fin 2) : ∃ l, path p l = forwardMatrix p f 0 := by
  refine ⟨none :: ((List.finRange nb).map fun i => some (i, f i)) ++ [none], ?_⟩
  rw [path_append, path, path_sites p f _ (List.nodup_finRange nb), path, path, Matrix.mul_one, forwardMatrix]
  simp

open Verif.HubRun (path Clear) in
theorem ops_path (p : Par nb) : ∀ ops : List (FreeOp nb), ∃ l, path p l = opsMatrix p 0 ops
  | [] => ⟨[], rfl⟩
  | none :: ops => ops_path p ops
  | some (f, x) :: ops => by
    obtain ⟨l, hl⟩ := ops_path p ops
    obtain ⟨r, hr⟩ := forward_path p f
    exact ⟨l ++ r, by rw [path_append, hl, hr, opsMatrix]⟩

/-- **C135** But for countably many time steps no walker of a free projection ever becomes orthogonal to the trial wave function. -/
theorem free_alive (h : Hub nb) (hU : h.U < 0) (hh : Plain h) {psi : Wfn nb n n} (hψ : Paired psi) {qr : QR nb} (hqr : QRSpec qr) :
    ∃ Z : Set ℝ, Z.Countable ∧ ∀ dt, 0 ≤ dt → dt ∉ Z → ∀ ops : List (FreeOp nb), (ops.foldl (freeOp (chPar h dt) qr psi) (start psi)).ot ≠ 0 := by
  refine ⟨_, HubRun.clear_countable h hU hψ.indep, fun dt hdt hZ ops h0 => ?_⟩
  have hc : HubRun.Clear (chPar h dt) psi := by
    by_contra hcon
    exact hZ ⟨hdt, hcon⟩
  have rd : FullRank (dn psi) := by
    rw [hψ.same]
    exact hψ.indep
  obtain ⟨h1, h2⟩ := free_run (chPar h dt) qr hqr psi (HubRun.charge_forward_det h dt) ops (start psi) hψ.indep rd rfl rfl rfl
  have h3 := h1 psi
  rw [← h2, h0, mul_zero] at h3
  obtain ⟨l, hl⟩ := ops_path (chPar h dt) ops
  have h4 : ((up psi)ᴴ * (opsMatrix (chPar h dt) 0 ops * up psi)).det ≠ 0 := by
    rw [← hl, ← Matrix.mul_assoc]
    exact hc l
  refine absurd h3.symm ?_
  show ((1 : ℝ) : ℂ) * 1 * _ * overlap psi (join (opsMatrix (chPar h dt) 0 ops * up psi) (opsMatrix (chPar h dt) 1 ops * dn psi)) ≠ 0
  rw [overlap, up_join, dn_join, HubRun.ops_same hh dt, hψ.same]
  refine mul_ne_zero (mul_ne_zero (by simp) (HubRun.charge_opsFactor h dt ops).ne) (mul_ne_zero h4 h4)

/-- **C135** Attractive models with paired electrons: rows of whole runs in free projection, every walker having a history of its own. -/
theorem paired_rows (h : Hub nb) (hU : h.U < 0) (hh : Plain h) {psi : Wfn nb n n} (hψ : Paired psi) {qr : QR nb} (hqr : QRSpec qr) :
    ∃ Z : Set ℝ, Z.Countable ∧ ∀ dt, 0 ≤ dt → dt ∉ Z → ∀ (c : Cfg), 0 < c.nsteps → c.free = true → c.evalEnergy = true → c.freq ∣ c.nsteps →
      ∀ (ranks : Nat) (o0 : List (List Obs)) (bs : List (List (List (List Obs)))), o0.length = ranks → (∀ b ∈ bs, b.length = c.nsteps) →
      (∀ b ∈ bs, ∀ o ∈ b, o.length = ranks ∧ o.flatten ≠ []) → ∀ m M : ℝ,
      (∀ b ∈ bs, ∀ o ∈ b, ∀ x ∈ o.flatten, m ≤ x.E.re ∧ x.E.re ≤ M ∧ ∃ ops : List (FreeOp nb),
        Reads h psi (ops.foldl (freeOp (chPar h dt) qr psi) (start psi)) x) →
      ∀ row ∈ ((Mixed.run c true ranks o0 bs.flatten).rows.reverse).tail,
        (∃ r : ℝ, row.eproj = some (r : ℂ) ∧ m ≤ r ∧ r ≤ M) ∧ row.ovlp = some 1 ∧ ∃ d : ℝ, 0 < d ∧ row.weight = d := by
  obtain ⟨Z, hZ, ha⟩ := free_alive h hU hh hψ hqr
  refine ⟨Z, hZ, fun dt hdt hd c hn hf he hfr ranks o0 bs h0 hb hr m M hw => clean_run c hn hf he hfr ranks o0 h0 bs hb hr m M
    fun b hb o ho x hx => ?_⟩
  obtain ⟨h1, h2, ops, hR⟩ := hw b hb o ho x hx
  exact ⟨paired_clean hh dt hψ hqr ops hR (by rw [hR.ot]; exact ha dt hdt hd ops), h1, h2⟩

/-- **C135** Half-filled repulsive models on bipartite lattices; walkers orthogonal to the trial are excluded. -/
theorem half_rows {A : Fin nb → Bool} {psi : Wfn nb nu nd} (hψ : Trial A psi) {hub : Hub nb} (hb : Bipartite A hub) (dt : ℝ) (hn : nu + nd = nb)
    {qr : QR nb} (hqr : QRSpec qr) (c : Cfg) (hs : 0 < c.nsteps) (hf : c.free = true) (he : c.evalEnergy = true) (hfr : c.freq ∣ c.nsteps)
    (ranks : Nat) (o0 : List (List Obs)) (h0 : o0.length = ranks) (bs : List (List (List (List Obs)))) (hbs : ∀ b ∈ bs, b.length = c.nsteps)
    (hr : ∀ b ∈ bs, ∀ o ∈ b, o.length = ranks ∧ o.flatten ≠ []) (m M : ℝ)
    (hw : ∀ b ∈ bs, ∀ o ∈ b, ∀ x ∈ o.flatten, m ≤ x.E.re ∧ x.E.re ≤ M ∧ x.ot ≠ 0 ∧ ∃ ops : List (FreeOp nb),
      Reads hub psi (ops.foldl (freeOp (par hub dt) qr psi) (start psi)) x) :
    ∀ row ∈ ((Mixed.run c true ranks o0 bs.flatten).rows.reverse).tail,
      (∃ r : ℝ, row.eproj = some (r : ℂ) ∧ m ≤ r ∧ r ≤ M) ∧ row.ovlp = some 1 ∧ ∃ d : ℝ, 0 < d ∧ row.weight = d :=
  clean_run c hs hf he hfr ranks o0 h0 bs hbs hr m M fun b hb' o ho x hx => by
    obtain ⟨h1, h2, h3, ops, hR⟩ := hw b hb' o ho x hx
    exact ⟨half_clean hψ hb dt hn hqr ops hR h3, h1, h2⟩

/-- What the estimator reads of a walker of a free projection. -/
noncomputable def seen (h : Hub nb) (psi : Wfn nb nu nd) (w : Wk nb nu nd) : Obs :=
  ⟨w.weight, w.weight, w.ot, w.phase, 1, 0, energy h psi w, 0, 0, 0, []⟩

/-- Case: the attractive lattice of `paired_case` with 2 + 2 electrons on 3 × 2 sites; any number of blocks of two steps with two walkers on one rank,
whatever their histories. -/
theorem rows_case : ∃ (eig : Eig (2 * 3)) (qr : QR (2 * 3)), Eigh eig ∧ HubRun.RealEig eig ∧ QRSpec qr ∧ ∃ Z : Set ℝ, Z.Countable ∧
    ∀ dt, 0 ≤ dt → dt ∉ Z → ∀ hist : List (Fin 2 → Fin 2 → List (FreeOp (2 * 3))),
    let h := HubRun.lattice 1 (-4) false 3 2 true true
    let psi : Wfn (2 * 3) 2 2 := freeElectron eig h.h1 (by norm_num) (by norm_num)
    let x (ops : List (FreeOp (2 * 3))) : Obs := seen h psi (ops.foldl (freeOp (chPar h dt) qr psi) (start psi))
    let bs := hist.map fun f => [[[x (f 0 0), x (f 0 1)]], [[x (f 1 0), x (f 1 1)]]]
    ∀ row ∈ ((Mixed.run ⟨2, 2, true, false, false, true⟩ true 1 [[x [], x []]] bs.flatten).rows.reverse).tail,
      row.ovlp = some 1 ∧ ∃ r : ℝ, row.eproj = some (r : ℂ) := by
  obtain ⟨eig, he, hr⟩ := HubRun.realEig_exists (2 * 3)
  have hh := HubRun.lattice_plain 1 (-4) false 3 2 true true
  have hψ := HubRun.cols_paired he hr hh (n := 2) (by norm_num)
  obtain ⟨Z, hZ, ha⟩ := free_alive (HubRun.lattice 1 (-4) false 3 2 true true) (by norm_num [HubRun.lattice]) hh hψ (someQR_spec _)
  refine ⟨eig, someQR _, he, hr, someQR_spec _, Z, hZ, fun dt hdt hd hist => ?_⟩
  intro h psi x bs row hrow
  have hfin : ∃ B : ℝ, ∀ b ∈ bs, ∀ o ∈ b, ∀ w ∈ o.flatten, |w.E.re| ≤ B := by
    obtain ⟨B, hB⟩ := (bs.flatten.flatten.flatten.map fun w : Obs => |w.E.re|).toFinset.bddAbove
    refine ⟨B, fun b hb o ho w hw => hB ?_⟩
    simp only [List.coe_toFinset, Set.mem_setOf_eq, List.mem_map]
    refine ⟨w, ?_, rfl⟩
    obtain ⟨y, hy, hwy⟩ := List.mem_flatten.1 hw
    exact List.mem_flatten.2 ⟨y, List.mem_flatten.2 ⟨o, List.mem_flatten.2 ⟨b, hb, ho⟩, hy⟩, hwy⟩
  obtain ⟨B, hB⟩ := hfin
  have hx : ∀ ops, Clean (x ops) := fun ops => paired_clean hh dt hψ (someQR_spec _) ops (o := x ops)
    ⟨(free_unit (p := chPar h dt) (fun xi => (HubRun.charge_wfac_pos h dt xi).ne) _ psi ops (start psi) one_pos (by simp [start])).1, rfl, rfl, rfl⟩ (ha dt hdt hd ops)
  obtain ⟨⟨r, e, -⟩, h2, -⟩ := clean_run ⟨2, 2, true, false, false, true⟩ (by norm_num) rfl rfl (dvd_refl _) 1 [[x [], x []]] rfl bs
    (fun b hb => by obtain ⟨f, -, rfl⟩ := List.mem_map.1 hb; rfl)
    (fun b hb o ho => by
      obtain ⟨f, -, rfl⟩ := List.mem_map.1 hb
      simp only [List.mem_cons, List.not_mem_nil, or_false] at ho
      rcases ho with rfl | rfl <;> simp) (-B) B
    (fun b hb o ho w hw => ⟨by
      obtain ⟨f, -, rfl⟩ := List.mem_map.1 hb
      simp only [List.mem_cons, List.not_mem_nil, or_false] at ho
      rcases ho with rfl | rfl <;> simp only [List.flatten_cons, List.flatten_nil, List.append_nil, List.mem_cons, List.not_mem_nil, or_false] at hw <;>
        rcases hw with rfl | rfl <;> exact hx _, abs_le.1 (hB b hb o ho w hw)⟩) row hrow
  exact ⟨h2, r, e⟩

end Verif.HubHalf
