import Verif.HubBack.Population

/-!
# Back-propagated density matrices of populations of walkers, for Hubbard chains: C128
-/

namespace Verif.HubBack

open Matrix Finset Filter Topology
open Verif.Slater
open Verif.Hirsch
open Verif.HubRun (Cone Valid Ready Ctl par stepOf steps Kept SignFree start ended chain Fit freeElectron start_ready)
open Verif.Step (Hub spin Anti Sym slater hubOp)
open Verif.Fields (Ground Hops)
open Verif.BackProp (Measures twoRdm)
open Verif.PairBranch (pairBranchRoot pbProg pbMem)
open Verif.Uhf (Eig Eigh Inp Orbs Random build)

variable {nb nu nd : Nat}

/-! ## Runs in which nothing drastic happens -/

theorem bstepped_finite (c : Ctl) (p : Par nb) (psi : Wfn nb nu nd) (e : ℝ) (ws : BPop nb nu nd) :
    (Set.range fun rs => bstepped c (move p psi e) rs ws).Finite := by
  have h := Set.Finite.pi' (ι := Fin c.num) fun q => move_finite p psi e (ws q)
  refine (h.image fun x : Fin c.num → BW nb nu nd => fun q => if hq : q < c.num then x ⟨q, hq⟩ else ws q).subset ?_
  rintro _ ⟨rs, rfl⟩
  refine ⟨fun q => move p psi e (rs q) (ws q), fun q => ⟨rs q, rfl⟩, ?_⟩
  funext q
  simp only [bstepped]
  split_ifs <;> rfl

theorem bbranched_finite (c : Ctl) (hT : 0 < c.target) {ws : BPop nb nu nd} (hw : ∀ q, 0 < (ws q).w.weight) (hn : 0 < c.num) :
    (Set.range fun draw => bbranched c draw ws).Finite := by
  obtain ⟨k, b, row, -, h2⟩ := PairBranch.rows c.mn c.mx c.nw c.size (bscaled c ws) (bscaled_pos c hT hw hn)
  let Φ : List (PairBranch.Info ℝ) → BPop nb nu nd := fun fin q => if q < c.num then
      bunpack ((ended (Mpi.start (pbProg c.nw fin) (pbMem c.nw fin (bscaled c ws)))).mem (q / c.nw) (q % c.nw)) else ws q
  refine (Set.finite_range fun χ : Fin (c.nw * c.size) → Fin 2 =>
    Φ ((List.range (c.nw * c.size)).map fun q => row q (if hq : q < c.nw * c.size then χ ⟨q, hq⟩ else 0))).subset ?_
  rintro _ ⟨draw, rfl⟩
  refine ⟨fun q => if draw (k q) < b q then 0 else 1, ?_⟩
  beta_reduce
  rw [bbranched, h2 draw]
  simp only [Φ]
  congr 2
  funext q
  congr 1
  congr 1
  have : ((List.range (c.nw * c.size)).map fun q => row q (if hq : q < c.nw * c.size then (if draw (k q) < b q then 0 else 1) else 0)) =
      (List.range (c.nw * c.size)).map fun q => row q (if draw (k q) < b q then 0 else 1) := by
    refine List.map_congr_left fun q hq => ?_
    rw [dif_pos (List.mem_range.1 hq)]
  rw [this]

/-- **C128** In every run nothing drastic happens if the thresholds are far enough away. -/
theorem bcalm_eventually {p : Par nb} {psi : Wfn nb nu nd} {S : Wfn nb nu nd → Prop} (hS : Cone p psi S) {qr : QR nb} (hqr : QRSpec qr)
    (hk : Kept qr S) (c : Ctl) (hT : 0 < c.target) (hn : 0 < c.num) {c0 : ℝ} :
    ∀ (l : List (Bv nb nu nd)) (hist : List (BPop nb nu nd)) (T : ℝ) (ws : BPop nb nu nd), 0 < T → (∀ q, Ready psi S c0 (ws q).w) →
      ∀ᶠ b in 𝓝[>] (0 : ℝ), ∀ tiny share, tiny ≤ b → b⁻¹ ≤ share → BCalm (c.limits tiny share) p psi qr l hist T ws
  | [], _, _, _, _, _ => Eventually.of_forall fun _ _ _ _ _ => trivial
  | .step capped shift :: l, hist, T, ws, hT0, hw => by
    set e := shift (ws :: hist) with he
    have h1 : ∀ᶠ b in 𝓝[>] (0 : ℝ), ∀ q ∈ range c.num, b < (ws q).w.weight := by
      rw [Filter.eventually_all_finset]
      intro q _
      exact (Ioo_mem_nhdsGT (hw q).pos : Set.Ioo 0 (ws q).w.weight ∈ 𝓝[>] (0 : ℝ)) |> fun h => by
        filter_upwards [h] with b hb using hb.2
    have h2 : ∀ᶠ b in 𝓝[>] (0 : ℝ), ∀ ws' ∈ Set.range (fun rs => bstepped c (move p psi e) rs ws), (∀ q ∈ range c.num, (ws' q).w.weight / T ≤ b⁻¹) ∧
        ∀ tiny share, tiny ≤ b → b⁻¹ ≤ share → BCalm (c.limits tiny share) p psi qr l (ws :: hist) T ws' := by
      rw [Filter.eventually_all_finite (bstepped_finite c p psi e ws)]
      rintro _ ⟨rs, rfl⟩
      refine Filter.Eventually.and ?_ (bcalm_eventually hS hqr hk c hT hn (c0 := c0) l _ T _ hT0 fun q => ?_)
      · rw [Filter.eventually_all_finset]
        intro q _
        exact tendsto_inv_nhdsGT_zero.eventually_ge_atTop _
      · simp only [bstepped]
        split_ifs
        · exact (hw q).step hS e _
        · exact hw q
    filter_upwards [h1, h2] with b h1 h2 tiny share ht hs
    refine ⟨fun q hq => ht.trans_lt (h1 q (mem_range.2 hq)), fun rs => ?_⟩
    obtain ⟨h3, h4⟩ := h2 _ ⟨rs, rfl⟩
    refine ⟨fun q hq _ => ?_, h4 tiny share ht hs⟩
    have h5 := (h3 q (mem_range.2 hq)).trans hs
    have hq' : q < c.num := hq
    rw [div_le_iff₀ hT0] at h5
    simp only [bstepped, if_pos hq'] at h5
    rw [mul_comm]
    exact h5
  | .ortho :: l, hist, T, ws, hT0, hw => bcalm_eventually hS hqr hk c hT hn l (ws :: hist) T (fun q => ortho qr (ws q)) hT0 fun q => (hw q).ortho hS hqr hk
  | .pop :: l, hist, T, ws, hT0, hw => by
    by_cases hc : c.num = 1
    · filter_upwards [bcalm_eventually hS hqr hk c hT hn l (ws :: hist) T ws hT0 hw] with b hb tiny share ht hs
      rw [BCalm, if_pos (show (c.limits tiny share).num = 1 from hc)]
      exact hb tiny share ht hs
    · have hp : ∀ q, 0 < (ws q).w.weight := fun q => (hw q).pos
      have ht0 := btotal_pos c hp hn
      have h1 : ∀ᶠ b in 𝓝[>] (0 : ℝ), b < btotal c ws := by
        filter_upwards [Ioo_mem_nhdsGT ht0] with b hb using hb.2
      have h2 : ∀ᶠ b in 𝓝[>] (0 : ℝ), ∀ ws' ∈ Set.range (fun draw => bbranched c draw ws),
          ∀ tiny share, tiny ≤ b → b⁻¹ ≤ share → BCalm (c.limits tiny share) p psi qr l (ws :: hist) (btotal c ws) ws' := by
        rw [Filter.eventually_all_finite (bbranched_finite c hT hp hn)]
        rintro _ ⟨draw, rfl⟩
        exact bcalm_eventually hS hqr hk c hT hn (c0 := c0) l _ _ _ ht0
          (bbranched_all c hT draw hp hn (fun v => Ready psi S c0 v.w) fun q x hx => (hw q).weight hx)
      filter_upwards [h1, h2] with b h1 h2 tiny share ht hs
      rw [BCalm, if_neg (show ¬ (c.limits tiny share).num = 1 from hc)]
      exact ⟨(ht.trans_lt h1).le, fun draw => h2 _ ⟨draw, rfl⟩ tiny share ht hs⟩
  | .reset :: l, hist, T, ws, hT0, hw => bcalm_eventually hS hqr hk c hT hn l (ws :: hist) T (fun q => fresh (ws q).w) hT0 hw

/-! ## Chains -/

/-- What is shown of runs of populations that start from the trial wave function: for any numbers of walkers, control options, energy shifts,
population controls, reorthogonalisations and earlier windows, as long as nothing drastic happens, the printed one- and two-particle density
matrices converge for short steps to limits that do not depend on any of these, and the limits for long times are the expectation values
in the ground state, which is unique; the energy of the density matrices converges to the lowest energy. -/
def PopPrinted (h : Hub nb) (psi : Wfn nb nu nd) (qr qr' : QR nb) (nstblz : Nat) : Prop :=
  ∃ (E0 : ℝ) (W : (Fin nu ⊕ Fin nd → Fin nb) → ℂ), Ground (hubOp h.h1 h.U (spin : Fin nu ⊕ Fin nd → Fin 2)) E0 ∧ Anti spin W ∧ W ≠ 0 ∧
    hubOp h.h1 h.U spin *ᵥ W = (E0 : ℂ) • W ∧
    (∀ W' : (Fin nu ⊕ Fin nd → Fin nb) → ℂ, Anti spin W' → hubOp h.h1 h.U spin *ᵥ W' = (E0 : ℂ) • W' → ∃ c : ℂ, W' = c • W) ∧
    ∀ a b : Nat, 0 < a → 0 < b →
      let run := fun (τ : ℝ) (c : Nat → Ctl) (l : Nat → List (Bv nb nu nd)) (T : Nat → ℝ) (N : Nat) E =>
        popQuotient (c N) h (τ / (N + 1 : Nat)) psi qr qr' nstblz (l N) (T N) E (start psi)
      let Long := fun (τ : ℝ) (c : Nat → Ctl) (l : Nat → List (Bv nb nu nd)) (T : Nat → ℝ) => ∀ N : Nat, 0 < (c N).target ∧ 0 < (c N).num ∧
        headSteps (l N) = a * (N + 1) ∧ tailSteps (l N) = b * (N + 1) ∧
        BCalm (c N) (par h (τ / (N + 1 : Nat))) psi qr (l N) [] (T N) fun _ => fresh (start psi)
      (∀ s i j, ∃ lim : ℝ → ℂ, (∀ τ, 0 ≤ τ → ∀ c l T, Long τ c l T → Tendsto (fun N => run τ c l T N fun G => G s i j) atTop (𝓝 (lim τ))) ∧
        Tendsto lim atTop (𝓝 ((star W ⬝ᵥ (rdmOp s i j *ᵥ W)) / (star W ⬝ᵥ W)))) ∧
      (∀ p r q s, ∃ lim : ℝ → ℂ, (∀ τ, 0 ≤ τ → ∀ c l T, Long τ c l T → Tendsto (fun N => run τ c l T N fun G => twoRdm G p r q s) atTop (𝓝 (lim τ))) ∧
        Tendsto lim atTop (𝓝 ((star W ⬝ᵥ (twoOp p r q s *ᵥ W)) / (star W ⬝ᵥ W)))) ∧
      ∃ lim : ℝ → ℂ, (∀ τ, 0 ≤ τ → ∀ c l T, Long τ c l T → Tendsto (fun N => rdmEnergy h (run τ c l T N)) atTop (𝓝 (lim τ))) ∧
        Tendsto lim atTop (𝓝 (E0 : ℂ))

theorem steps_replicate (n : Nat) : steps (List.replicate n (some (0 : ℝ))) = n := by
  simp [steps, List.countP_replicate]

theorem popPrinted {h : Hub nb} (hn : 0 < nb) (hU : 0 ≤ h.U) {psi : Wfn nb nu nd} {S : Wfn nb nu nd → Prop} (hψ : S psi)
    (hS : ∀ dt, 0 ≤ dt → Cone (par h dt) psi S) {qr qr' : QR nb} (hqr : QRSpec qr) (hqr' : QRSpec qr') (hk : Kept qr S) {nstblz : Nat}
    (hr : Printed h psi qr qr' nstblz) : PopPrinted h psi qr qr' nstblz := by
  obtain ⟨E0, W, hg, hA, hW0, hE, hu, hall⟩ := hr
  refine ⟨E0, W, hg, hA, hW0, hE, hu, fun a b ha hb => ?_⟩
  obtain ⟨h1, h2, h3⟩ := hall a b ha hb
  let l1 : Nat → List (Option ℝ) := fun N => List.replicate (a * (N + 1)) (some 0)
  let l2 : Nat → List (Option ℝ) := fun N => List.replicate (b * (N + 1)) (some 0)
  have e1 : ∀ N, steps (l1 N) = a * (N + 1) := fun N => steps_replicate _
  have e2 : ∀ N, steps (l2 N) = b * (N + 1) := fun N => steps_replicate _
  intro run Long
  have key : ∀ τ, 0 ≤ τ → ∀ c l T, Long τ c l T → ∀ (E : (Fin 2 → Matrix (Fin nb) (Fin nb) ℂ) → ℂ)
      (O : Matrix (Fin nu ⊕ Fin nd → Fin nb) (Fin nu ⊕ Fin nd → Fin nb) ℂ), Measures E O → Sym spin O → ∀ N,
      backQuotient h (τ / (N + 1 : Nat)) psi qr qr' nstblz (l1 N) (l2 N) E (start psi) = run τ c l T N E := by
    intro τ hτ c l T hl E O hE hO N
    obtain ⟨t1, t2, t3, t4, t5⟩ := hl N
    have hdt : 0 ≤ τ / ((N + 1 : Nat) : ℝ) := div_nonneg hτ (Nat.cast_nonneg _)
    exact (popQuotient_eq h hn (mul_nonneg hdt hU) (hS _ hdt) hqr hqr' hk nstblz hE hO (c N) t1 t2 (l N) (T N) (start_ready hψ) t5 (l1 N) (l2 N)
      ((e1 N).trans t3.symm) ((e2 N).trans t4.symm)).symm
  refine ⟨fun s i j => ?_, fun p r q s => ?_, ?_⟩
  · obtain ⟨lim, ha, hb⟩ := h1 s i j
    exact ⟨lim, fun τ hτ c l T hl => (ha τ hτ l1 l2 ⟨e1, e2⟩).congr (key τ hτ c l T hl _ _ (BackProp.measures_rdm s i j) (rdmOp_sym s i j)), hb⟩
  · obtain ⟨lim, ha, hb⟩ := h2 p r q s
    exact ⟨lim, fun τ hτ c l T hl => (ha τ hτ l1 l2 ⟨e1, e2⟩).congr (key τ hτ c l T hl _ _ (BackProp.measures_twoRdm p r q s) (twoOp_sym p r q s)), hb⟩
  · obtain ⟨lim, ha, hb⟩ := h3
    refine ⟨lim, fun τ hτ c l T hl => (ha τ hτ l1 l2 ⟨e1, e2⟩).congr fun N => ?_, hb⟩
    simp only [rdmEnergy]
    congr 1
    · refine sum_congr rfl fun s _ => sum_congr rfl fun i _ => sum_congr rfl fun j _ => ?_
      rw [key τ hτ c l T hl _ _ (BackProp.measures_rdm s i j) (rdmOp_sym s i j) N]
    · congr 1
      refine sum_congr rfl fun i _ => ?_
      rw [key τ hτ c l T hl _ _ (BackProp.measures_twoRdm i i i i) (twoOp_sym i i i i) N]

section

variable {nx : Nat}

theorem pop_chain {h : Hub (1 * nx)} (hn : 2 ≤ nx) (hU : 0 ≤ h.U) (hT : ∀ s, (h.h1 s)ᴴ = h.h1 s) (hf : Fit h nu nd) (hu : nu ≤ 1 * nx)
    (hd : nd ≤ 1 * nx) {psi : Wfn (1 * nx) nu nd} (hψ : ∃ c c', SignFree c c' psi) {qr qr' : QR (1 * nx)} (hqr : QRSpec qr) (hqr' : QRSpec qr')
    (nstblz : Nat) : PopPrinted h psi qr qr' nstblz := by
  obtain ⟨c, c', hψ⟩ := hψ
  exact popPrinted (by omega) hU hψ (fun dt hdt => HubRun.signFree_cone h hdt hf.up hf.dn hu hd hψ) hqr hqr' (HubRun.signFree_kept hqr hu hd)
    (reaches_chain hn hU hT hf hu hd ⟨c, c', hψ⟩ hqr hqr' nstblz)

/-- **C128** Hubbard chains with open ends, any numbers of electrons, repulsive interaction, free-electron trial. -/
theorem pop_open_free {t U : ℝ} (ht : 0 < t) (hU : 0 ≤ U) (sy : Bool) (hn : 2 ≤ nx) (ks : Option (List ℝ)) (ypbc : Bool) (hu : nu ≤ 1 * nx)
    (hd : nd ≤ 1 * nx) {eig : Eig (1 * nx)} (he : Eigh eig) {qr qr' : QR (1 * nx)} (hqr : QRSpec qr) (hqr' : QRSpec qr') (nstblz : Nat) :
    PopPrinted (chain t U sy nx ks false ypbc) (freeElectron eig (chain t U sy nx ks false ypbc).h1 hu hd) qr qr' nstblz :=
  have hf := HubRun.fit_open ht U sy hn ks ypbc nu nd
  have hT := HubRun.chain_herm t U sy nx ks false ypbc
  pop_chain hn hU hT hf hu hd (HubRun.freeElectron_signFree hf hT he hu hd) hqr hqr' nstblz

/-- **C128** Hubbard rings with odd numbers of electrons of both spins. -/
theorem pop_ring_free {t U : ℝ} (ht : 0 < t) (hU : 0 ≤ U) (sy : Bool) (hn : 2 ≤ nx) (ypbc : Bool) (ou : Odd nu) (od : Odd nd)
    (hu : nu ≤ 1 * nx) (hd : nd ≤ 1 * nx) {eig : Eig (1 * nx)} (he : Eigh eig) {qr qr' : QR (1 * nx)} (hqr : QRSpec qr) (hqr' : QRSpec qr')
    (nstblz : Nat) : PopPrinted (chain t U sy nx none true ypbc) (freeElectron eig (chain t U sy nx none true ypbc).h1 hu hd) qr qr' nstblz :=
  have hf := HubRun.fit_ring ht U sy hn ypbc ou od
  have hT := HubRun.chain_herm t U sy nx none true ypbc
  pop_chain hn hU hT hf hu hd (HubRun.freeElectron_signFree hf hT he hu hd) hqr hqr' nstblz

/-- **C128** The same with a UHF trial, whichever solution the search finds. -/
theorem pop_open_uhf {t U : ℝ} (ht : 0 < t) (hU : 0 ≤ U) (sy : Bool) (hn : 2 ≤ nx) (ks : Option (List ℝ)) (ypbc : Bool)
    {I : Inp (1 * nx) nu nd} (hI : I.T = (chain t U sy nx ks false ypbc).h1) {eig : Eig (1 * nx)} (he : Eigh eig) (hd : 0 ≤ I.deps)
    {Rs : List (Random (1 * nx))} {o : Orbs (1 * nx) nu nd} {emin etrial : ℝ} (hb : build I eig Rs = some (o, emin, etrial))
    {qr qr' : QR (1 * nx)} (hqr : QRSpec qr) (hqr' : QRSpec qr') (nstblz : Nat) :
    PopPrinted (chain t U sy nx ks false ypbc) (join o.up o.dn) qr qr' nstblz :=
  have hf := HubRun.fit_open ht U sy hn ks ypbc nu nd
  have hT := HubRun.chain_herm t U sy nx ks false ypbc
  pop_chain hn hU hT hf I.hu I.hd (HubRun.uhf_signFree hI hf hT he hd hb) hqr hqr' nstblz

/-- **C128** The same with a UHF trial on a ring. -/
theorem pop_ring_uhf {t U : ℝ} (ht : 0 < t) (hU : 0 ≤ U) (sy : Bool) (hn : 2 ≤ nx) (ypbc : Bool) (ou : Odd nu) (od : Odd nd)
    {I : Inp (1 * nx) nu nd} (hI : I.T = (chain t U sy nx none true ypbc).h1) {eig : Eig (1 * nx)} (he : Eigh eig) (hd : 0 ≤ I.deps)
    {Rs : List (Random (1 * nx))} {o : Orbs (1 * nx) nu nd} {emin etrial : ℝ} (hb : build I eig Rs = some (o, emin, etrial))
    {qr qr' : QR (1 * nx)} (hqr : QRSpec qr) (hqr' : QRSpec qr') (nstblz : Nat) :
    PopPrinted (chain t U sy nx none true ypbc) (join o.up o.dn) qr qr' nstblz :=
  have hf := HubRun.fit_ring ht U sy hn ypbc ou od
  have hT := HubRun.chain_herm t U sy nx none true ypbc
  pop_chain hn hU hT hf I.hu I.hd (HubRun.uhf_signFree hI hf hT he hd hb) hqr hqr' nstblz

end

/-- **C128** Case: a chain of six sites with 3 + 2 electrons, twelve walkers on three ranks, any sequence of steps, population controls,
reorthogonalisations and windows, and any energy shifts: for far thresholds nothing drastic happens, and the density matrix is that of a single
walker with the same numbers of steps before and in the last window. -/
theorem population_back_case : ∃ (eig : Eig (1 * 6)) (qr : QR (1 * 6)), Eigh eig ∧ QRSpec qr ∧
    ∀ (l : List (Bv (1 * 6) 3 2)) (l1 l2 : List (Option ℝ)), steps l1 = headSteps l → steps l2 = tailSteps l →
      ∃ b : ℝ, 0 < b ∧ ∀ tiny share, tiny ≤ b → b⁻¹ ≤ share →
      BCalm ⟨1 / 10, 4, 12, 4, 3, tiny, share⟩ (par (chain 1 4 false 6 none false true) (1 / 100)) (HubRun.caseTrial eig) qr l [] 12
        (fun _ => fresh (start (HubRun.caseTrial eig))) ∧
      ∀ s i j, popQuotient ⟨1 / 10, 4, 12, 4, 3, tiny, share⟩ (chain 1 4 false 6 none false true) (1 / 100) (HubRun.caseTrial eig) qr qr 5 l 12
        (fun G => G s i j) (start (HubRun.caseTrial eig)) =
      backQuotient (chain 1 4 false 6 none false true) (1 / 100) (HubRun.caseTrial eig) qr qr 5 l1 l2 (fun G => G s i j) (start (HubRun.caseTrial eig)) := by
  obtain ⟨eig, he⟩ := Uhf.eigh_exists (1 * 6)
  refine ⟨eig, someQR _, he, someQR_spec _, fun l l1 l2 hl1 hl2 => ?_⟩
  have hf := HubRun.fit_open (t := 1) one_pos 4 false (by norm_num : 2 ≤ 6) none true 3 2
  have hT := HubRun.chain_herm 1 4 false 6 none false true
  obtain ⟨c, c', hψ⟩ := HubRun.freeElectron_signFree hf hT he (by norm_num : 3 ≤ 1 * 6) (by norm_num : 2 ≤ 1 * 6)
  have hS := HubRun.signFree_cone _ (by norm_num : (0 : ℝ) ≤ 1 / 100) hf.up hf.dn (by norm_num) (by norm_num) hψ
  have hk := HubRun.signFree_kept (someQR_spec (1 * 6)) (by norm_num : 3 ≤ 1 * 6) (by norm_num : 2 ≤ 1 * 6) (c := c) (c' := c')
  have hn : 0 < (⟨1 / 10, 4, 12, 4, 3, 0, 1⟩ : Ctl).num := by norm_num [Ctl.num]
  have hev := bcalm_eventually hS (someQR_spec _) hk ⟨1 / 10, 4, 12, 4, 3, 0, 1⟩ (by norm_num) hn l [] 12
    (fun _ => fresh (start (HubRun.caseTrial eig))) (by norm_num) fun _ => start_ready hψ
  obtain ⟨b, hb, hb0⟩ := (hev.and self_mem_nhdsWithin).exists
  refine ⟨b, hb0, fun tiny share h1 h2 => ?_⟩
  have hc := hb tiny share h1 h2
  exact ⟨hc, fun s i j => popQuotient_eq _ (by norm_num) (by norm_num [chain]) hS (someQR_spec _) (someQR_spec _) hk 5 (BackProp.measures_rdm s i j)
    (rdmOp_sym s i j) ⟨1 / 10, 4, 12, 4, 3, tiny, share⟩ (by norm_num) (by norm_num [Ctl.num]) l 12 (start_ready hψ) hc l1 l2 hl1 hl2⟩

end Verif.HubBack
