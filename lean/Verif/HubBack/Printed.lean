import Verif.HubBack.Chain

/-!
# The printed density matrices and the energy computed from them; the options of back propagation that fail: C127
-/

namespace Verif.HubBack

open Matrix Finset Filter Topology
open scoped ComplexOrder
open Verif.Slater
open Verif.Hirsch
open Verif.HubRun (Cone Valid par stepOf steps shifts Kept meanRun SignFree chain Fit freeElectron start)
open Verif.Step (Hub spin tens Anti Sym prodState orbs slater ovl2 spinOp hubOp onP site)
open Verif.Fields (Ground Hops)
open Verif.BackProp (greens Measures mulBoth twoRdm)
open Verif.Uhf (Eig Eigh cols Inp Orbs Random build)

variable {nb nu nd : Nat}

/-! ## The operators of the density matrices -/

/-- The operator of an element of the one-body density matrix. -/
noncomputable def rdmOp (s : Fin 2) (i j : Fin nb) : Matrix (Fin nu ⊕ Fin nd → Fin nb) (Fin nu ⊕ Fin nd → Fin nb) ℂ :=
  ∑ a, onP a (if spin a = s then Matrix.single i j (1 : ℂ) else 0)

/-- The operator of an element of the two-body density matrix. -/
noncomputable def twoOp (p r q s : Fin nb) : Matrix (Fin nu ⊕ Fin nd → Fin nb) (Fin nu ⊕ Fin nd → Fin nb) ℂ :=
  ∑ a, ∑ b ∈ univ.erase a, onP a (Matrix.single p r (1 : ℂ)) * onP b (Matrix.single q s (1 : ℂ))

theorem rdmOp_sym (s : Fin 2) (i j : Fin nb) : Sym spin (rdmOp s i j : Matrix (Fin nu ⊕ Fin nd → Fin nb) (Fin nu ⊕ Fin nd → Fin nb) ℂ) :=
  Sym.spinOp spin fun s' => if s' = s then Matrix.single i j (1 : ℂ) else 0

theorem pair_eq (X Y : Matrix (Fin nb) (Fin nb) ℂ) :
    (∑ a, ∑ b ∈ univ.erase a, onP a X * onP b Y : Matrix (Fin nu ⊕ Fin nd → Fin nb) (Fin nu ⊕ Fin nd → Fin nb) ℂ) =
      (∑ a, onP a X) * (∑ b, onP b Y) - ∑ a, onP a (X * Y) := by
  rw [sum_mul_sum, ← sum_sub_distrib]
  refine sum_congr rfl fun a _ => ?_
  rw [← add_sum_erase univ (fun b => onP a X * onP b Y) (mem_univ a), Step.onP_mul, add_sub_cancel_left]

theorem twoOp_sym (p r q s : Fin nb) : Sym spin (twoOp p r q s : Matrix (Fin nu ⊕ Fin nd → Fin nb) (Fin nu ⊕ Fin nd → Fin nb) ℂ) := by
  rw [twoOp, pair_eq]
  exact ((Sym.spinOp spin fun _ => Matrix.single p r (1 : ℂ)).mul (Sym.spinOp spin fun _ => Matrix.single q s (1 : ℂ))).sub
    (Sym.spinOp spin fun _ => Matrix.single p r (1 : ℂ) * Matrix.single q s (1 : ℂ))

theorem onP_sum {κ : Type*} (S : Finset κ) (a : Fin nu ⊕ Fin nd) (X : κ → Matrix (Fin nb) (Fin nb) ℂ) :
    onP a (∑ k ∈ S, X k) = ∑ k ∈ S, onP a (X k) := map_sum (Grand.onPHom a) X S

theorem one_body (T : Fin 2 → Matrix (Fin nb) (Fin nb) ℂ) :
    (∑ s, ∑ i, ∑ j, T s i j • rdmOp s i j : Matrix (Fin nu ⊕ Fin nd → Fin nb) (Fin nu ⊕ Fin nd → Fin nb) ℂ) = ∑ a, onP a (T (spin a)) := by
  have e : ∀ (a : Fin nu ⊕ Fin nd) (s : Fin 2) (i j : Fin nb), T s i j • onP a (if spin a = s then Matrix.single i j (1 : ℂ) else 0) =
      if spin a = s then onP a (Matrix.single i j (T s i j)) else 0 := by
    intro a s i j
    rw [← Step.onP_smul]
    split_ifs
    · rw [Matrix.smul_single, smul_eq_mul, mul_one]
    · rw [smul_zero]
      exact map_zero (Grand.onPHom a)
  simp only [rdmOp, smul_sum, e]
  rw [← sum_congr rfl fun s _ => sum_congr rfl fun i _ => sum_comm]
  rw [← sum_congr rfl fun s _ => sum_comm, sum_comm]
  refine sum_congr rfl fun a _ => ?_
  have e2 : ∀ s, (∑ i, ∑ j, if spin a = s then onP a (Matrix.single i j (T s i j)) else 0) = if spin a = s then onP a (T s) else 0 := by
    intro s
    split_ifs
    · rw [← sum_congr rfl fun i _ => onP_sum univ a _, ← onP_sum, ← Matrix.matrix_eq_sum_single]
    · simp
  rw [sum_congr rfl fun s _ => e2 s, sum_ite_eq, if_pos (mem_univ _)]

theorem twoOp_diagonal (i : Fin nb) :
    (twoOp i i i i : Matrix (Fin nu ⊕ Fin nd → Fin nb) (Fin nu ⊕ Fin nd → Fin nb) ℂ) =
      diagonal fun f => ((Grand.count spin f i 0 : ℂ) + Grand.count spin f i 1) * (Grand.count spin f i 0 + Grand.count spin f i 1) -
        (Grand.count spin f i 0 + Grand.count spin f i 1) := by
  have e1 : (∑ a, onP a (Matrix.single i i (1 : ℂ)) : Matrix (Fin nu ⊕ Fin nd → Fin nb) (Fin nu ⊕ Fin nd → Fin nb) ℂ) =
      diagonal fun f => (Grand.count spin f i 0 : ℂ) + Grand.count spin f i 1 := by
    have e2 : ∀ a : Fin nu ⊕ Fin nd, onP a (Matrix.single i i (1 : ℂ)) = diagonal fun f => if f a = i then 1 else 0 := fun a => Grand.onP_site a i
    simp only [e2]
    ext f g
    rw [Matrix.sum_apply]
    by_cases h : f = g
    · subst h
      simp only [Matrix.diagonal_apply_eq, Grand.count, card_filter]
      rw [Nat.cast_sum, Nat.cast_sum, Fintype.sum_sum_type, Fintype.sum_sum_type, Fintype.sum_sum_type]
      simp [spin]
    · simp [Matrix.diagonal_apply_ne _ h]
  rw [twoOp, pair_eq, e1, Matrix.single_mul_single_same, one_mul, e1, diagonal_mul_diagonal, diagonal_sub]

/-- On states antisymmetric in the electrons of each spin the Hamiltonian is given by the two density matrices. -/
theorem energy_op (T : Fin 2 → Matrix (Fin nb) (Fin nb) ℂ) (U : ℂ) {W : (Fin nu ⊕ Fin nd → Fin nb) → ℂ} (hW : Anti spin W) :
    (∑ s, ∑ i, ∑ j, T s i j • rdmOp s i j + (U / 2) • ∑ i, twoOp i i i i) *ᵥ W = hubOp T U spin *ᵥ W := by
  rw [hubOp, one_body, Grand.interaction_diagonal, Matrix.add_mulVec, Matrix.add_mulVec, Matrix.smul_mulVec, Matrix.smul_mulVec]
  congr 1
  funext f
  simp only [twoOp_diagonal, Matrix.sum_mulVec, Pi.smul_apply, Finset.sum_apply, Matrix.mulVec_diagonal, smul_eq_mul]
  by_cases hf : W f = 0
  · simp [hf]
  rw [← sum_mul, ← mul_assoc, ← mul_assoc]
  congr 1
  rw [mul_sum, mul_sum]
  refine sum_congr rfl fun i _ => ?_
  have h0 := Grand.count_le_one hW hf i 0
  have h1 := Grand.count_le_one hW hf i 1
  interval_cases Grand.count spin f i 0 <;> interval_cases Grand.count spin f i 1 <;> push_cast <;> ring

/-! ## The printed density matrices -/

/-- The energy computed from the estimates `Q` of the density matrices. -/
noncomputable def rdmEnergy (h : Hub nb) (Q : ((Fin 2 → Matrix (Fin nb) (Fin nb) ℂ) → ℂ) → ℂ) : ℂ :=
  ∑ s, ∑ i, ∑ j, h.h1 s i j * Q (fun G => G s i j) + (h.U / 2) * ∑ i, Q (fun G => twoRdm G i i i i)

/-- Both density matrices of a run from the trial become, for many short steps and then for a long run with a long window, those of the one
ground state, and the energy computed from them its energy. -/
def Printed (h : Hub nb) (psi : Wfn nb nu nd) (qr qr' : QR nb) (nstblz : Nat) : Prop :=
  ∃ (E0 : ℝ) (W : (Fin nu ⊕ Fin nd → Fin nb) → ℂ), Ground (hubOp h.h1 h.U (spin : Fin nu ⊕ Fin nd → Fin 2)) E0 ∧ Anti spin W ∧ W ≠ 0 ∧
    hubOp h.h1 h.U spin *ᵥ W = (E0 : ℂ) • W ∧
    (∀ W' : (Fin nu ⊕ Fin nd → Fin nb) → ℂ, Anti spin W' → hubOp h.h1 h.U spin *ᵥ W' = (E0 : ℂ) • W' → ∃ c : ℂ, W' = c • W) ∧
    ∀ a b : Nat, 0 < a → 0 < b →
      let run := fun (τ : ℝ) (l l' : Nat → List (Option ℝ)) (N : Nat) E => backQuotient h (τ / (N + 1 : Nat)) psi qr qr' nstblz (l N) (l' N) E (start psi)
      let Long := fun l l' : Nat → List (Option ℝ) => (∀ N, steps (l N) = a * (N + 1)) ∧ ∀ N, steps (l' N) = b * (N + 1)
      (∀ s i j, ∃ lim : ℝ → ℂ, (∀ τ, 0 ≤ τ → ∀ l l', Long l l' → Tendsto (fun N => run τ l l' N fun G => G s i j) atTop (𝓝 (lim τ))) ∧
        Tendsto lim atTop (𝓝 ((star W ⬝ᵥ (rdmOp s i j *ᵥ W)) / (star W ⬝ᵥ W)))) ∧
      (∀ p r q s, ∃ lim : ℝ → ℂ, (∀ τ, 0 ≤ τ → ∀ l l', Long l l' → Tendsto (fun N => run τ l l' N fun G => twoRdm G p r q s) atTop (𝓝 (lim τ))) ∧
        Tendsto lim atTop (𝓝 ((star W ⬝ᵥ (twoOp p r q s *ᵥ W)) / (star W ⬝ᵥ W)))) ∧
      ∃ lim : ℝ → ℂ, (∀ τ, 0 ≤ τ → ∀ l l', Long l l' → Tendsto (fun N => rdmEnergy h (run τ l l' N)) atTop (𝓝 (lim τ))) ∧
        Tendsto lim atTop (𝓝 (E0 : ℂ))

theorem printed_of_reaches {h : Hub nb} {psi : Wfn nb nu nd} {qr qr' : QR nb} {nstblz : Nat} (hr : Reaches h psi qr qr' nstblz) :
    Printed h psi qr qr' nstblz := by
  obtain ⟨E0, W, hg, hA, hW0, hE, hu, hall⟩ := hr
  refine ⟨E0, W, hg, hA, hW0, hE, hu, fun a b ha hb => ?_⟩
  have h1 : ∀ s i j, _ := fun s i j => hall _ _ (BackProp.measures_rdm s i j) (rdmOp_sym s i j) a b ha hb
  have h2 : ∀ p r q s, _ := fun p r q s => hall _ _ (BackProp.measures_twoRdm p r q s) (twoOp_sym p r q s) a b ha hb
  refine ⟨fun s i j => ?_, fun p r q s => ?_, ?_⟩
  · obtain ⟨lim, ha, hb⟩ := h1 s i j
    exact ⟨lim, fun τ hτ l l' hl => ha τ hτ l l' hl.1 hl.2, hb⟩
  · obtain ⟨lim, ha, hb⟩ := h2 p r q s
    exact ⟨lim, fun τ hτ l l' hl => ha τ hτ l l' hl.1 hl.2, hb⟩
  · choose L1 hL1 hL1' using h1
    choose L2 hL2 hL2' using h2
    refine ⟨fun τ => ∑ s, ∑ i, ∑ j, h.h1 s i j * L1 s i j τ + (h.U / 2) * ∑ i, L2 i i i i τ, fun τ hτ l l' hl => ?_, ?_⟩
    · refine Tendsto.add (tendsto_finsetSum _ fun s _ => tendsto_finsetSum _ fun i _ => tendsto_finsetSum _ fun j _ => ?_)
        (Tendsto.const_mul _ (tendsto_finsetSum _ fun i _ => ?_))
      · exact (hL1 s i j τ hτ l l' hl.1 hl.2).const_mul _
      · exact hL2 i i i i τ hτ l l' hl.1 hl.2
    · have hlim : Tendsto (fun τ => ∑ s, ∑ i, ∑ j, h.h1 s i j * L1 s i j τ + ((h.U : ℂ) / 2) * ∑ i, L2 i i i i τ) atTop
          (𝓝 (∑ s, ∑ i, ∑ j, h.h1 s i j * ((star W ⬝ᵥ (rdmOp s i j *ᵥ W)) / (star W ⬝ᵥ W)) +
            ((h.U : ℂ) / 2) * ∑ i, (star W ⬝ᵥ (twoOp i i i i *ᵥ W)) / (star W ⬝ᵥ W))) :=
        Tendsto.add (tendsto_finsetSum _ fun s _ => tendsto_finsetSum _ fun i _ => tendsto_finsetSum _ fun j _ => (hL1' s i j).const_mul _)
          (Tendsto.const_mul _ (tendsto_finsetSum _ fun i _ => hL2' i i i i))
      have hne : star W ⬝ᵥ W ≠ 0 := by
        intro e
        exact hW0 (dotProduct_star_self_eq_zero.1 e)
      have hval : ∑ s, ∑ i, ∑ j, h.h1 s i j * ((star W ⬝ᵥ (rdmOp s i j *ᵥ W)) / (star W ⬝ᵥ W)) +
            ((h.U : ℂ) / 2) * ∑ i, (star W ⬝ᵥ (twoOp i i i i *ᵥ W)) / (star W ⬝ᵥ W) = E0 := by
        have e := congrArg (fun x => star W ⬝ᵥ x) (energy_op h.h1 (h.U : ℂ) hA)
        simp only [hE, dotProduct_smul, smul_eq_mul, Matrix.add_mulVec, Matrix.sum_mulVec, Matrix.smul_mulVec, dotProduct_add, dotProduct_sum] at e
        simp only [← mul_div_assoc, ← sum_div, ← add_div]
        rw [e, mul_div_cancel_right₀ _ hne]
      rw [hval] at hlim
      exact hlim

/-! ## Chains -/

section

variable {nx : Nat}

theorem reaches_chain {h : Hub (1 * nx)} (hn : 2 ≤ nx) (hU : 0 ≤ h.U) (hT : ∀ s, (h.h1 s)ᴴ = h.h1 s) (hf : Fit h nu nd) (hu : nu ≤ 1 * nx)
    (hd : nd ≤ 1 * nx) {psi : Wfn (1 * nx) nu nd} (hψ : ∃ c c', SignFree c c' psi) {qr qr' : QR (1 * nx)} (hqr : QRSpec qr) (hqr' : QRSpec qr')
    (nstblz : Nat) : Printed h psi qr qr' nstblz := by
  obtain ⟨c, c', hψ⟩ := hψ
  exact printed_of_reaches (reaches_of_signFree h (by omega) hU hT hf.up hf.dn hu hd hf.neighbour hψ hqr hqr' nstblz)

/-- **C127** Hubbard chains with open ends, any numbers of electrons, repulsive interaction, free-electron trial. -/
theorem open_chain_free {t U : ℝ} (ht : 0 < t) (hU : 0 ≤ U) (sy : Bool) (hn : 2 ≤ nx) (ks : Option (List ℝ)) (ypbc : Bool) (hu : nu ≤ 1 * nx)
    (hd : nd ≤ 1 * nx) {eig : Eig (1 * nx)} (he : Eigh eig) {qr qr' : QR (1 * nx)} (hqr : QRSpec qr) (hqr' : QRSpec qr') (nstblz : Nat) :
    Printed (chain t U sy nx ks false ypbc) (freeElectron eig (chain t U sy nx ks false ypbc).h1 hu hd) qr qr' nstblz :=
  have hf := HubRun.fit_open ht U sy hn ks ypbc nu nd
  have hT := HubRun.chain_herm t U sy nx ks false ypbc
  reaches_chain hn hU hT hf hu hd (HubRun.freeElectron_signFree hf hT he hu hd) hqr hqr' nstblz

/-- **C127** Hubbard rings with odd numbers of electrons of both spins. -/
theorem ring_free {t U : ℝ} (ht : 0 < t) (hU : 0 ≤ U) (sy : Bool) (hn : 2 ≤ nx) (ypbc : Bool) (ou : Odd nu) (od : Odd nd)
    (hu : nu ≤ 1 * nx) (hd : nd ≤ 1 * nx) {eig : Eig (1 * nx)} (he : Eigh eig) {qr qr' : QR (1 * nx)} (hqr : QRSpec qr) (hqr' : QRSpec qr')
    (nstblz : Nat) : Printed (chain t U sy nx none true ypbc) (freeElectron eig (chain t U sy nx none true ypbc).h1 hu hd) qr qr' nstblz :=
  have hf := HubRun.fit_ring ht U sy hn ypbc ou od
  have hT := HubRun.chain_herm t U sy nx none true ypbc
  reaches_chain hn hU hT hf hu hd (HubRun.freeElectron_signFree hf hT he hu hd) hqr hqr' nstblz

/-- **C127** The same with a UHF trial, whichever solution the search finds. -/
theorem open_chain_uhf {t U : ℝ} (ht : 0 < t) (hU : 0 ≤ U) (sy : Bool) (hn : 2 ≤ nx) (ks : Option (List ℝ)) (ypbc : Bool)
    {I : Inp (1 * nx) nu nd} (hI : I.T = (chain t U sy nx ks false ypbc).h1) {eig : Eig (1 * nx)} (he : Eigh eig) (hd : 0 ≤ I.deps)
    {Rs : List (Random (1 * nx))} {o : Orbs (1 * nx) nu nd} {emin etrial : ℝ} (hb : build I eig Rs = some (o, emin, etrial))
    {qr qr' : QR (1 * nx)} (hqr : QRSpec qr) (hqr' : QRSpec qr') (nstblz : Nat) :
    Printed (chain t U sy nx ks false ypbc) (join o.up o.dn) qr qr' nstblz :=
  have hf := HubRun.fit_open ht U sy hn ks ypbc nu nd
  have hT := HubRun.chain_herm t U sy nx ks false ypbc
  reaches_chain hn hU hT hf I.hu I.hd (HubRun.uhf_signFree hI hf hT he hd hb) hqr hqr' nstblz

/-- **C127** The same with a UHF trial on a ring. -/
theorem ring_uhf {t U : ℝ} (ht : 0 < t) (hU : 0 ≤ U) (sy : Bool) (hn : 2 ≤ nx) (ypbc : Bool) (ou : Odd nu) (od : Odd nd)
    {I : Inp (1 * nx) nu nd} (hI : I.T = (chain t U sy nx none true ypbc).h1) {eig : Eig (1 * nx)} (he : Eigh eig) (hd : 0 ≤ I.deps)
    {Rs : List (Random (1 * nx))} {o : Orbs (1 * nx) nu nd} {emin etrial : ℝ} (hb : build I eig Rs = some (o, emin, etrial))
    {qr qr' : QR (1 * nx)} (hqr : QRSpec qr) (hqr' : QRSpec qr') (nstblz : Nat) :
    Printed (chain t U sy nx none true ypbc) (join o.up o.dn) qr qr' nstblz :=
  have hf := HubRun.fit_ring ht U sy hn ypbc ou od
  have hT := HubRun.chain_herm t U sy nx none true ypbc
  reaches_chain hn hU hT hf I.hu I.hd (HubRun.uhf_signFree hI hf hT he hd hb) hqr hqr' nstblz

end

/-- The hypotheses are met: six sites, three electrons up and two down, `U = 4`. -/
theorem printed_case : ∃ (eig : Eig (1 * 6)) (qr : QR (1 * 6)), Eigh eig ∧ QRSpec qr ∧
    Printed (chain 1 4 false 6 none false true) (freeElectron eig (chain 1 4 false 6 none false true).h1 (by norm_num : 3 ≤ 1 * 6)
      (by norm_num : 2 ≤ 1 * 6)) qr qr 5 := by
  obtain ⟨eig, he⟩ := Uhf.eigh_exists (1 * 6)
  exact ⟨eig, someQR _, he, someQR_spec _, open_chain_free one_pos (by norm_num) false (by norm_num) none true _ _ he (someQR_spec _) (someQR_spec _) 5⟩

/-! ## The options that fail -/

/-- **C127** With `evaluate_energy` back propagation raises for every system and every Green's function; without it the energies are zero. -/
theorem energies_raise (loc : (Fin 2 → Matrix (Fin nb) (Fin nb) ℂ) → ℂ × ℂ × ℂ) (G : Fin 2 → Matrix (Fin nb) (Fin nb) ℂ) :
    energies true loc G = none ∧ energies false loc G = some (0, 0, 0) := by
  have : energyCall.all (· ∈ energyArgs) = false := by decide
  simp [energies, this]

/-- **C127** With `restore_weights` every walker that made a complete step has weight nan (`"full"`) or zero (otherwise), because discrete fields
are recorded without their weight factors. -/
theorem restore_weights (v : BW nb nu nd) (h : block nb v.hist ≠ []) :
    weightOf .full v = none ∧ weightOf .part v = some 0 ∧ weightOf .no v = some (v.w.weight : ℂ) := by
  have hz : ((block nb v.hist).map fun _ => (0 : ℂ)).prod = 0 := by
    obtain ⟨x, l, hl⟩ := List.exists_cons_of_ne_nil h
    rw [hl, List.map_cons, List.prod_cons, zero_mul]
  simp [weightOf, hz, h]

/-- A history of one complete step. -/
theorem restore_case : ∃ v : BW 2 1 1, block 2 v.hist ≠ [] :=
  ⟨⟨start (join 0 0), join 0 0, [0, 1]⟩, by decide⟩

end Verif.HubBack
