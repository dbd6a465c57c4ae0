import Verif.HubRun.Population

/-!
# Runs of populations in which nothing drastic happens, and runs of Hubbard chains: C121
-/

namespace Verif.HubRun

open Matrix Finset Filter Topology
open Verif.Slater
open Verif.Hirsch
open Verif.Step (Hub spin spinOp hubOp)
open Verif.Fields (Proc Ground Hops)
open Verif.PairBranch (pairBranchRoot pbProg pbMem)
open Verif.Uhf (Eig Eigh Inp Orbs Random build)

variable {nb nu nd : Nat}

/-! ## Finitely many outcomes -/

theorem sweep_finite {S : Type} {n : Nat} (P : Proc S n) : ∀ (l : List (Fin n)) (s : S), (Set.range fun rs => P.sweep rs l s).Finite
  | [], s => (Set.finite_singleton s).subset (by rintro _ ⟨rs, rfl⟩; rfl)
  | i :: l, s => by
    have h : (Set.range (fun rs => P.sweep rs l (P.app s i 0)) ∪ Set.range (fun rs => P.sweep rs l (P.app s i 1)) ∪ {P.kill s}).Finite :=
      ((sweep_finite P l _).union (sweep_finite P l _)).union (Set.finite_singleton _)
    refine h.subset ?_
    rintro _ ⟨rs, rfl⟩
    beta_reduce
    rw [Proc.sweep]
    split_ifs
    · exact Or.inl (Or.inl ⟨rs, rfl⟩)
    · exact Or.inl (Or.inr ⟨rs, rfl⟩)
    · exact Or.inr rfl

theorem step_finite (p : Par nb) (psi : Wfn nb nu nd) (e : ℝ) (w : Wk nb nu nd) : (Set.range fun rs => constrainedStep p psi e rs w).Finite := by
  let w1 := if 0 < |w.weight| then kineticIS p psi w else w
  let post : Wk nb nu nd → Wk nb nu nd := fun v =>
    { (if 0 < |v.weight| then kineticIS p psi v else v) with
      weight := (if 0 < |v.weight| then kineticIS p psi v else v).weight * Real.exp (p.dt * e) }
  refine (((sweep_finite (proc p psi) (List.finRange nb) w1).union (Set.finite_singleton w1)).image post).subset ?_
  rintro _ ⟨rs, rfl⟩
  refine ⟨if 0 < |w1.weight| then (proc p psi).sweep rs (List.finRange nb) w1 else w1, ?_, ?_⟩
  · split_ifs
    · exact Or.inl ⟨rs, rfl⟩
    · exact Or.inr rfl
  · rw [← singleSite_eq]
    rfl

theorem stepped_finite (c : Ctl) (p : Par nb) (psi : Wfn nb nu nd) (e : ℝ) (ws : Pop nb nu nd) :
    (Set.range fun rs => stepped c (constrainedStep p psi e) rs ws).Finite := by
  have h := Set.Finite.pi' (ι := Fin c.num) fun q => step_finite p psi e (ws q)
  refine (h.image fun x : Fin c.num → Wk nb nu nd => fun q => if hq : q < c.num then x ⟨q, hq⟩ else ws q).subset ?_
  rintro _ ⟨rs, rfl⟩
  refine ⟨fun q => constrainedStep p psi e (rs q) (ws q), fun q => ⟨rs q, rfl⟩, ?_⟩
  funext q
  simp only [stepped]
  split_ifs <;> rfl

theorem branched_finite (c : Ctl) (hT : 0 < c.target) {ws : Pop nb nu nd} (hw : ∀ q, 0 < (ws q).weight) (hn : 0 < c.num) :
    (Set.range fun draw => branched c draw ws).Finite := by
  obtain ⟨k, b, row, -, h2⟩ := PairBranch.rows c.mn c.mx c.nw c.size (scaled c ws) (scaled_pos c hT hw hn)
  let Φ : List (PairBranch.Info ℝ) → Pop nb nu nd := fun fin q => if q < c.num then
      unpack ((ended (Mpi.start (pbProg c.nw fin) (pbMem c.nw fin (scaled c ws)))).mem (q / c.nw) (q % c.nw)) else ws q
  refine (Set.finite_range fun χ : Fin (c.nw * c.size) → Fin 2 =>
    Φ ((List.range (c.nw * c.size)).map fun q => row q (if hq : q < c.nw * c.size then χ ⟨q, hq⟩ else 0))).subset ?_
  rintro _ ⟨draw, rfl⟩
  refine ⟨fun q => if draw (k q) < b q then 0 else 1, ?_⟩
  beta_reduce
  rw [branched, h2 draw]
  simp only [Φ]
  congr 2
  funext q
  congr 1
  congr 1
  have : ((List.range (c.nw * c.size)).map fun q => row q (if hq : q < c.nw * c.size then (if draw (k q) < b q then 0 else 1) else 0)) =
      (List.range (c.nw * c.size)).map fun q => row q (if draw (k q) < b q then 0 else 1) := by
    refine List.map_congr_left fun q hq => ?_
    rw [dif_pos (List.mem_range.1 hq)]
  rw [this]

/-! ## Thresholds -/

/-- The control with other thresholds. -/
def Ctl.limits (c : Ctl) (tiny share : ℝ) : Ctl := { c with tiny := tiny, share := share }

/-- Restarts do not change the number of walkers. -/
def Keeps (n : Nat) : List (Ev nb nu nd) → Prop
  | [] => True
  | .restart nw size :: l => nw * size = n ∧ Keeps n l
  | _ :: l => Keeps n l

/-- **C121** In every run nothing drastic happens if the thresholds are far enough away. -/
theorem calm_eventually {p : Par nb} {psi : Wfn nb nu nd} {S : Wfn nb nu nd → Prop} (hS : Cone p psi S) {qr : QR nb} (hqr : QRSpec qr)
    (hk : Kept qr S) (c : Ctl) (hT : 0 < c.target) (hn : 0 < c.num) {c0 : ℝ} :
    ∀ (l : List (Ev nb nu nd)) (hist : List (Pop nb nu nd)) (T : ℝ) (ws : Pop nb nu nd), Keeps c.num l → (restarted l = true → c0 = 0) → 0 < T → (∀ q, Ready psi S c0 (ws q)) →
      ∀ᶠ b in 𝓝[>] (0 : ℝ), ∀ tiny share, tiny ≤ b → b⁻¹ ≤ share → Calm (c.limits tiny share) p psi qr l hist T ws
  | [], _, _, _, _, _, _, _ => Eventually.of_forall fun _ _ _ _ _ => trivial
  | .step capped shift :: l, hist, T, ws, hK, h0, hT0, hw => by
    set e := shift (ws :: hist) with he
    have h1 : ∀ᶠ b in 𝓝[>] (0 : ℝ), ∀ q ∈ range c.num, b < (ws q).weight := by
      rw [Filter.eventually_all_finset]
      intro q _
      exact (Ioo_mem_nhdsGT (hw q).pos : Set.Ioo 0 (ws q).weight ∈ 𝓝[>] (0 : ℝ)) |> fun h => by
        filter_upwards [h] with b hb using hb.2
    have h2 : ∀ᶠ b in 𝓝[>] (0 : ℝ), ∀ ws' ∈ Set.range (fun rs => stepped c (constrainedStep p psi e) rs ws), (∀ q ∈ range c.num, (ws' q).weight / T ≤ b⁻¹) ∧
        ∀ tiny share, tiny ≤ b → b⁻¹ ≤ share → Calm (c.limits tiny share) p psi qr l (ws :: hist) T ws' := by
      rw [Filter.eventually_all_finite (stepped_finite c p psi e ws)]
      rintro _ ⟨rs, rfl⟩
      refine Filter.Eventually.and ?_ (calm_eventually hS hqr hk c hT hn (c0 := c0) l _ T _ hK h0 hT0 fun q => ?_)
      · rw [Filter.eventually_all_finset]
        intro q _
        exact tendsto_inv_nhdsGT_zero.eventually_ge_atTop _
      · simp only [stepped]
        split_ifs
        · exact (hw q).step hS e _
        · exact hw q
    filter_upwards [h1, h2] with b h1 h2 tiny share ht hs
    refine ⟨fun q hq => ht.trans_lt (h1 q (mem_range.2 hq)), fun rs => ?_⟩
    obtain ⟨h3, h4⟩ := h2 _ ⟨rs, rfl⟩
    refine ⟨fun q hq _ => ?_, h4 tiny share ht hs⟩
    have h5 := (h3 q (mem_range.2 hq)).trans hs
    have hq' : q < c.num := hq
    rw [div_le_iff₀ hT0] at h5
    simp only [stepped, if_pos hq'] at h5
    rw [mul_comm]
    exact h5
  | .ortho :: l, hist, T, ws, hK, h0, hT0, hw => calm_eventually hS hqr hk c hT hn l (ws :: hist) T _ hK h0 hT0 fun q => (hw q).ortho hS hqr hk
  | .pop :: l, hist, T, ws, hK, h0, hT0, hw => by
    by_cases hc : c.num = 1
    · filter_upwards [calm_eventually hS hqr hk c hT hn l (ws :: hist) T ws hK h0 hT0 hw] with b hb tiny share ht hs
      rw [Calm, if_pos (show (c.limits tiny share).num = 1 from hc)]
      exact hb tiny share ht hs
    · have hp : ∀ q, 0 < (ws q).weight := fun q => (hw q).pos
      have ht0 := total_pos c hp hn
      have h1 : ∀ᶠ b in 𝓝[>] (0 : ℝ), b < total c ws := by
        filter_upwards [Ioo_mem_nhdsGT ht0] with b hb using hb.2
      have h2 : ∀ᶠ b in 𝓝[>] (0 : ℝ), ∀ ws' ∈ Set.range (fun draw => branched c draw ws),
          ∀ tiny share, tiny ≤ b → b⁻¹ ≤ share → Calm (c.limits tiny share) p psi qr l (ws :: hist) (total c ws) ws' := by
        rw [Filter.eventually_all_finite (branched_finite c hT hp hn)]
        rintro _ ⟨draw, rfl⟩
        exact calm_eventually hS hqr hk c hT hn (c0 := c0) l _ _ _ hK h0 ht0 (branched_all c hT draw hp hn _ fun q x hx => (hw q).weight hx)
      filter_upwards [h1, h2] with b h1 h2 tiny share ht hs
      rw [Calm, if_neg (show ¬ (c.limits tiny share).num = 1 from hc)]
      exact ⟨(ht.trans_lt h1).le, fun draw => h2 _ ⟨draw, rfl⟩ tiny share ht hs⟩
  | .restart nw size :: l, hist, T, ws, hK, h0, hT0, hw => by
    have hp : (0 : ℝ) < (c.again nw size).target := Nat.cast_pos.2 (hK.1 ▸ hn)
    have hnum : (c.again nw size).num = c.num := hK.1
    have h00 : c0 = 0 := h0 rfl
    subst h00
    filter_upwards [calm_eventually hS hqr hk (c.again nw size) hp (hnum ▸ hn) l (ws :: hist) (c.again nw size).target _
      (hnum ▸ hK.2) (fun _ => rfl) hp fun q => (hw q).reread] with b hb tiny share ht hs
    exact ⟨hK.1, hb tiny share ht hs⟩

/-! ## Hubbard chains -/

/-- What is shown of runs of populations that start from the trial wave function: for any numbers of walkers, control options, energy
shifts, population controls, reorthogonalisations and restarts, as long as nothing drastic happens, the energy converges for short steps to that
of the state evolved in imaginary time, and this to the lowest energy.  `prop dt` is the propagator. -/
def PopExact (h : Hub nb) (prop : ℝ → Par nb) (psi : Wfn nb nu nd) (qr : QR nb) : Prop :=
  ∃ E0 : ℝ, Ground (hubOp h.h1 h.U (spin : Fin nu ⊕ Fin nd → Fin 2)) E0 ∧ ∃ lim : ℝ → ℂ,
    (∀ β, 0 ≤ β → ∀ (c : Nat → Ctl) (l : Nat → List (Ev nb nu nd)) (T : Nat → ℝ), (∀ N, 0 < (c N).target ∧ 0 < (c N).num) →
      (∀ N, evSteps (l N) = N + 1) → (∀ N : Nat, Calm (c N) (prop (β / (N + 1 : Nat))) psi qr (l N) [] (T N) fun _ => start psi) →
      Tendsto (fun N => popEnergy (c N) h (prop (β / (N + 1 : Nat))) psi qr (l N) (T N) fun _ => start psi) atTop (𝓝 (lim β))) ∧
    Tendsto lim atTop (𝓝 (E0 : ℂ))

theorem start_ready {psi : Wfn nb nu nd} {S : Wfn nb nu nd → Prop} (hS : S psi) : Ready psi S 0 (start psi) :=
  ⟨⟨hS, by simp [start]⟩, rfl, rfl, one_pos⟩

/-- **C121** Runs of populations without a sign problem. -/
theorem popExact_of_signFree (h : Hub nb) (hU : 0 ≤ h.U) (hT : ∀ s, (h.h1 s)ᴴ = h.h1 s) (h0 : Hops (h.h1 0) nu)
    (h1 : Hops (h.h1 1) nd) (hnu : nu ≤ nb) (hnd : nd ≤ nb) {c c' : ℂ} {psi : Wfn nb nu nd} (hψ : SignFree c c' psi) {qr : QR nb}
    (hqr : QRSpec qr) : PopExact h (par h) psi qr := by
  obtain ⟨hden, E0, hE0, hlim⟩ := Fields.ground hT h0 h1 h.U hnu hnd hψ hψ
  refine ⟨E0, hE0, exactEnergy h psi psi, fun β hβ c l T hc hev hcalm => ?_, hlim⟩
  have hdt : ∀ N : Nat, 0 ≤ β / ((N + 1 : Nat) : ℝ) := fun N => div_nonneg hβ (Nat.cast_nonneg _)
  have hY := Fields.strang_limit (spinOp spin h.h1) (hubOp (fun _ => 0) (h.U : ℂ) (spin : Fin nu ⊕ Fin nd → Fin 2)) hβ
  rw [← hubOp_split] at hY
  refine pop_tendsto h hqr (signFree_kept hqr hnu hnd) _ (fun _ => 1) (fun _ => one_ne_zero) (fun N => stepOf h (β / ((N + 1 : Nat) : ℝ)))
    (fun N => ?_) hY c hc l hev T (fun _ _ => rfl) (start_ready hψ) hcalm (hden β hβ)
  rw [one_smul]
  exact spin_steps h (mul_nonneg (hdt N) hU) (signFree_cone h (hdt N) h0 h1 hnu hnd hψ)

section

variable {nx : Nat}

/-- **C121** Open chains, free-electron trial. -/
theorem pop_open_free {t U : ℝ} (ht : 0 < t) (hU : 0 ≤ U) (sy : Bool) (hn : 2 ≤ nx) (ks : Option (List ℝ)) (ypbc : Bool)
    (hu : nu ≤ 1 * nx) (hd : nd ≤ 1 * nx) {eig : Eig (1 * nx)} (he : Eigh eig) {qr : QR (1 * nx)} (hqr : QRSpec qr) :
    PopExact (chain t U sy nx ks false ypbc) (par (chain t U sy nx ks false ypbc)) (freeElectron eig (chain t U sy nx ks false ypbc).h1 hu hd) qr := by
  have hf := fit_open ht U sy hn ks ypbc nu nd
  have hT := chain_herm t U sy nx ks false ypbc
  obtain ⟨c, c', hψ⟩ := freeElectron_signFree hf hT he hu hd
  exact popExact_of_signFree _ hU hT hf.up hf.dn hu hd hψ hqr

/-- **C121** Rings with odd numbers of electrons of both spins, free-electron trial. -/
theorem pop_ring_free {t U : ℝ} (ht : 0 < t) (hU : 0 ≤ U) (sy : Bool) (hn : 2 ≤ nx) (ypbc : Bool) (ou : Odd nu) (od : Odd nd)
    (hu : nu ≤ 1 * nx) (hd : nd ≤ 1 * nx) {eig : Eig (1 * nx)} (he : Eigh eig) {qr : QR (1 * nx)} (hqr : QRSpec qr) :
    PopExact (chain t U sy nx none true ypbc) (par (chain t U sy nx none true ypbc)) (freeElectron eig (chain t U sy nx none true ypbc).h1 hu hd) qr := by
  have hf := fit_ring ht U sy hn ypbc ou od
  have hT := chain_herm t U sy nx none true ypbc
  obtain ⟨c, c', hψ⟩ := freeElectron_signFree hf hT he hu hd
  exact popExact_of_signFree _ hU hT hf.up hf.dn hu hd hψ hqr

/-- **C121** Open chains, UHF trial. -/
theorem pop_open_uhf {t U : ℝ} (ht : 0 < t) (hU : 0 ≤ U) (sy : Bool) (hn : 2 ≤ nx) (ks : Option (List ℝ)) (ypbc : Bool)
    {I : Inp (1 * nx) nu nd} (hI : I.T = (chain t U sy nx ks false ypbc).h1) {eig : Eig (1 * nx)} (he : Eigh eig) (hd : 0 ≤ I.deps)
    {Rs : List (Random (1 * nx))} {o : Orbs (1 * nx) nu nd} {emin etrial : ℝ} (hb : build I eig Rs = some (o, emin, etrial))
    {qr : QR (1 * nx)} (hqr : QRSpec qr) : PopExact (chain t U sy nx ks false ypbc) (par (chain t U sy nx ks false ypbc)) (join o.up o.dn) qr := by
  have hf := fit_open ht U sy hn ks ypbc nu nd
  have hT := chain_herm t U sy nx ks false ypbc
  obtain ⟨c, c', hψ⟩ := uhf_signFree hI hf hT he hd hb
  exact popExact_of_signFree _ hU hT hf.up hf.dn I.hu I.hd hψ hqr

/-- **C121** Rings, UHF trial. -/
theorem pop_ring_uhf {t U : ℝ} (ht : 0 < t) (hU : 0 ≤ U) (sy : Bool) (hn : 2 ≤ nx) (ypbc : Bool) (ou : Odd nu) (od : Odd nd)
    {I : Inp (1 * nx) nu nd} (hI : I.T = (chain t U sy nx none true ypbc).h1) {eig : Eig (1 * nx)} (he : Eigh eig) (hd : 0 ≤ I.deps)
    {Rs : List (Random (1 * nx))} {o : Orbs (1 * nx) nu nd} {emin etrial : ℝ} (hb : build I eig Rs = some (o, emin, etrial))
    {qr : QR (1 * nx)} (hqr : QRSpec qr) : PopExact (chain t U sy nx none true ypbc) (par (chain t U sy nx none true ypbc)) (join o.up o.dn) qr := by
  have hf := fit_ring ht U sy hn ypbc ou od
  have hT := chain_herm t U sy nx none true ypbc
  obtain ⟨c, c', hψ⟩ := uhf_signFree hI hf hT he hd hb
  exact popExact_of_signFree _ hU hT hf.up hf.dn I.hu I.hd hψ hqr

end

/-- A run without its restarts: what a single run of the program would do. -/
def unbroken : List (Ev nb nu nd) → List (Ev nb nu nd)
  | [] => []
  | .restart _ _ :: l => unbroken l
  | .step capped shift :: l => .step capped shift :: unbroken l
  | .ortho :: l => .ortho :: unbroken l
  | .pop :: l => .pop :: unbroken l

theorem unbroken_steps : ∀ l : List (Ev nb nu nd), evSteps (unbroken l) = evSteps l
  | [] => rfl
  | .restart _ _ :: l => unbroken_steps l
  | .step _ _ :: l => congrArg (· + 1) (unbroken_steps l)
  | .ortho :: l => unbroken_steps l
  | .pop :: l => unbroken_steps l

/-- **C124** A run that is interrupted and started again from the written walkers, any number of times and with any distribution of the
walkers over ranks, has the energy of the run that is not interrupted, as long as nothing drastic happens in either. -/
theorem restart_energy (h : Hub nb) {p : Par nb} {psi : Wfn nb nu nd} {S : Wfn nb nu nd → Prop}
    {X : Matrix (Fin nu ⊕ Fin nd → Fin nb) (Fin nu ⊕ Fin nd → Fin nb) ℂ} (hX : Steps p psi S X) {qr : QR nb} (hqr : QRSpec qr) (hk : Kept qr S)
    (c : Ctl) (hT : 0 < c.target) (hn : 0 < c.num) (l : List (Ev nb nu nd)) (T : ℝ) (hψ : S psi)
    (hc : Calm c p psi qr l [] T fun _ => start psi) (hc' : Calm c p psi qr (unbroken l) [] T fun _ => start psi) :
    popEnergy c h p psi qr l T (fun _ => start psi) = popEnergy c h p psi qr (unbroken l) T fun _ => start psi := by
  rw [popEnergy_formula h hX hqr hk c hT hn l T (fun _ => rfl) (start_ready hψ) hc,
    popEnergy_formula h hX hqr hk c hT hn (unbroken l) T (fun _ => rfl) (start_ready hψ) hc', unbroken_steps]

/-- **C124** Far thresholds serve both runs. -/
theorem restart_calm {p : Par nb} {psi : Wfn nb nu nd} {S : Wfn nb nu nd → Prop} (hS : Cone p psi S) {qr : QR nb} (hqr : QRSpec qr)
    (hk : Kept qr S) (hψ : S psi) (c : Ctl) (hT : 0 < c.target) (hn : 0 < c.num) (l : List (Ev nb nu nd)) (hl : Keeps c.num l) {T : ℝ} (h0 : 0 < T) :
    ∃ b : ℝ, 0 < b ∧ ∀ tiny share, tiny ≤ b → b⁻¹ ≤ share → Calm (c.limits tiny share) p psi qr l [] T (fun _ => start psi) ∧
      Calm (c.limits tiny share) p psi qr (unbroken l) [] T fun _ => start psi := by
  have hu : ∀ l : List (Ev nb nu nd), Keeps c.num (unbroken l) := by
    intro l
    induction l with
    | nil => trivial
    | cons a l ih => cases a <;> exact ih
  have h1 := calm_eventually hS hqr hk c hT hn l [] T _ hl (fun _ => rfl) h0 fun _ => start_ready hψ
  have h2 := calm_eventually hS hqr hk c hT hn (unbroken l) [] T _ (hu l) (fun _ => rfl) h0 fun _ => start_ready hψ
  obtain ⟨b, ⟨hb1, hb2⟩, hb0⟩ := ((h1.and h2).and self_mem_nhdsWithin).exists
  exact ⟨b, hb0, fun tiny share ht hs => ⟨hb1 tiny share ht hs, hb2 tiny share ht hs⟩⟩

/-- **C124** Case of a walker after a shift of the logarithms (option `use_log_shift`): the file does not hold the shift, and the
stored overlap of the restarted walker is wrong. -/
theorem restart_shift {psi : Wfn nb nu nd} {S : Wfn nb nu nd → Prop} {w : Wk nb nu nd} (h : Valid psi S w) (hs : w.logShift ≠ 0)
    (hne : overlap psi w.phi ≠ 0) : ¬ Valid psi S (reread psi w) := by
  intro hr
  have h1 : w.ot = overlap psi w.phi * Complex.exp ((0 : ℝ) : ℂ) := hr.ot
  rw [h.ot, Complex.ofReal_zero, Complex.exp_zero, mul_one] at h1
  have h2 : Complex.exp (w.logShift : ℂ) = 1 := mul_left_cancel₀ hne (h1.trans (mul_one _).symm)
  rw [← Complex.ofReal_exp, Complex.ofReal_eq_one, Real.exp_eq_one_iff] at h2
  exact hs h2

/-- The free-electron trial of a chain of six sites with 3 + 2 electrons. -/
noncomputable def caseTrial (eig : Eig (1 * 6)) : Wfn (1 * 6) 3 2 :=
  freeElectron eig (chain 1 4 false 6 none false true).h1 (by norm_num) (by norm_num)

/-- **C121** Case: a chain of six sites with 3 + 2 electrons, twelve walkers on three ranks, any sequence of steps, population controls,
reorthogonalisations and restarts with twelve walkers, and any energy shifts: for small thresholds nothing drastic happens and the energy is that of a single walker. -/
theorem population_case : ∃ (eig : Eig (1 * 6)) (qr : QR (1 * 6)), Eigh eig ∧ QRSpec qr ∧
    ∀ (l : List (Ev (1 * 6) 3 2)) (l' : List (Option ℝ)), Keeps 12 l → steps l' = evSteps l → ∃ b : ℝ, 0 < b ∧ ∀ tiny share, tiny ≤ b → b⁻¹ ≤ share →
      Calm ⟨1 / 10, 4, 12, 4, 3, tiny, share⟩ (par (chain 1 4 false 6 none false true) (1 / 100)) (caseTrial eig) qr l [] 12
        (fun _ => start (caseTrial eig)) ∧
      popEnergy ⟨1 / 10, 4, 12, 4, 3, tiny, share⟩ (chain 1 4 false 6 none false true) (par (chain 1 4 false 6 none false true) (1 / 100)) (caseTrial eig) qr l 12
        (fun _ => start (caseTrial eig)) =
      runEnergy (chain 1 4 false 6 none false true) (1 / 100) (caseTrial eig) qr l' (start (caseTrial eig)) := by
  obtain ⟨eig, he⟩ := Uhf.eigh_exists (1 * 6)
  refine ⟨eig, someQR _, he, someQR_spec _, fun l l' hK hl => ?_⟩
  have hf := fit_open (t := 1) one_pos 4 false (by norm_num : 2 ≤ 6) none true 3 2
  have hT := chain_herm 1 4 false 6 none false true
  obtain ⟨c, c', hψ⟩ := freeElectron_signFree hf hT he (by norm_num : 3 ≤ 1 * 6) (by norm_num : 2 ≤ 1 * 6)
  have hS := signFree_cone _ (by norm_num : (0 : ℝ) ≤ 1 / 100) hf.up hf.dn (by norm_num) (by norm_num) hψ
  have hk := signFree_kept (someQR_spec (1 * 6)) (by norm_num : 3 ≤ 1 * 6) (by norm_num : 2 ≤ 1 * 6) (c := c) (c' := c')
  have hn : 0 < (⟨1 / 10, 4, 12, 4, 3, 0, 1⟩ : Ctl).num := by norm_num [Ctl.num]
  have hev := calm_eventually hS (someQR_spec _) hk ⟨1 / 10, 4, 12, 4, 3, 0, 1⟩ (by norm_num) hn l [] 12
    (fun _ => start (caseTrial eig)) hK (fun _ => rfl) (by norm_num) fun _ => start_ready hψ
  obtain ⟨b, hb, hb0⟩ := (hev.and self_mem_nhdsWithin).exists
  refine ⟨b, hb0, fun tiny share h1 h2 => ?_⟩
  have hc := hb tiny share h1 h2
  exact ⟨hc, popEnergy_eq _ (by norm_num [chain]) hS (someQR_spec _) hk ⟨1 / 10, 4, 12, 4, 3, tiny, share⟩
    (by norm_num) (by norm_num [Ctl.num]) l 12 (fun _ => rfl) (start_ready hψ) hc l' hl⟩

end Verif.HubRun
