import Verif.HubBack.Ground

/-!
# Back-propagated density matrices of Hubbard chains: C127
-/

namespace Verif.HubBack

open Matrix Finset Filter Topology
open Verif.Slater
open Verif.Hirsch
open Verif.HubRun (Cone Valid par stepOf steps shifts Kept meanRun SignFree chain Fit freeElectron start)
open Verif.Step (Hub spin tens Anti Sym prodState orbs slater ovl2 spinOp hubOp onP site)
open Verif.Fields (rowStep rows Linked Hops Ground PosMin Two sector ext2 conf amps hop)
open Verif.BackProp (greens Measures mulBoth twoRdm)
open Verif.Uhf (Eig Eigh cols Inp Orbs Random build)

variable {nb nu nd : Nat}

/-! ## Many short steps -/

theorem exp_pow {κ : Type} [Fintype κ] [DecidableEq κ] (X : Matrix κ κ ℂ) (τ : ℝ) (a : Nat) :
    NormedSpace.exp (-(τ : ℂ) • X) ^ a = NormedSpace.exp (-((a * τ : ℝ) : ℂ) • X) := by
  rw [← Matrix.exp_nsmul, ← Nat.cast_smul_eq_nsmul ℂ, smul_smul]
  congr 2
  push_cast
  ring

/-- **C127** Many short steps before and in the window: the estimate converges to the quantity between the trial and the walker evolved in
imaginary time, for any energy shifts and any reorthogonalisations. -/
theorem back_tendsto (h : Hub nb) (hn : 0 < nb) (hU : 0 ≤ h.U) {psi : Wfn nb nu nd} {S : Wfn nb nu nd → Prop}
    (hS : ∀ dt, 0 ≤ dt → Cone (par h dt) psi S) {qr qr' : QR nb} (hqr : QRSpec qr) (hqr' : QRSpec qr') (hk : Kept qr S) (nstblz : Nat)
    {E : (Fin 2 → Matrix (Fin nb) (Fin nb) ℂ) → ℂ} {O : Matrix (Fin nu ⊕ Fin nd → Fin nb) (Fin nu ⊕ Fin nd → Fin nb) ℂ} (hE : Measures E O)
    (hO : Sym spin O) {τ : ℝ} (hτ : 0 ≤ τ) {a b : Nat} (l l' : Nat → List (Option ℝ)) (hl : ∀ N, steps (l N) = a * (N + 1))
    (hl' : ∀ N, steps (l' N) = b * (N + 1)) {w : Wk nb nu nd} (hw : Valid psi S w) (hs : w.detRShift = 0) (h0 : w.weight ≠ 0)
    (hne : slater psi ⬝ᵥ ((NormedSpace.exp (-((b * τ : ℝ) : ℂ) • hubOp h.h1 h.U spin) * NormedSpace.exp (-((a * τ : ℝ) : ℂ) • hubOp h.h1 h.U spin)) *ᵥ
      prodState (orbs w.phi)) ≠ 0) :
    Tendsto (fun N => backQuotient h (τ / (N + 1 : Nat)) psi qr qr' nstblz (l N) (l' N) E w) atTop
      (𝓝 (exactBack h psi w.phi O (a * τ) (b * τ))) := by
  have hlim := Fields.strang_limit (spinOp spin h.h1) (hubOp (fun _ => 0) (h.U : ℂ) (spin : Fin nu ⊕ Fin nd → Fin 2)) hτ
  rw [← HubRun.hubOp_split] at hlim
  have hcont : Continuous fun M : Matrix (Fin nu ⊕ Fin nd → Fin nb) (Fin nu ⊕ Fin nd → Fin nb) ℂ => slater psi ⬝ᵥ (M *ᵥ prodState (orbs w.phi)) := by
    simp only [Matrix.mulVec, dotProduct]
    fun_prop
  have hnum := (hcont.tendsto _).comp (((hlim.pow b).mul (tendsto_const_nhds (x := O))).mul (hlim.pow a))
  have hden := (hcont.tendsto _).comp ((hlim.pow b).mul (hlim.pow a))
  rw [exp_pow, exp_pow] at hnum hden
  refine (hnum.div hden hne).congr fun N => ?_
  have hdt : 0 ≤ τ / ((N + 1 : Nat) : ℝ) := div_nonneg hτ (Nat.cast_nonneg _)
  rw [quotient_eq h hn (mul_nonneg hdt hU) (hS _ hdt) hqr hqr' hk nstblz hE hO (l N) (l' N) hw hs h0, hl, hl', pow_mul' _ b, pow_mul' _ a]
  rfl

/-! ## Long runs and long windows -/

/-- What is shown of the density matrices of runs that start from the trial: the ground state is unique, and for many short steps, then for
long runs and windows, every quantity computed from the back-propagated Green's functions is its expectation value in the ground state. -/
def Reaches (h : Hub nb) (psi : Wfn nb nu nd) (qr qr' : QR nb) (nstblz : Nat) : Prop :=
  ∃ (E0 : ℝ) (W : (Fin nu ⊕ Fin nd → Fin nb) → ℂ), Ground (hubOp h.h1 h.U (spin : Fin nu ⊕ Fin nd → Fin 2)) E0 ∧ Anti spin W ∧ W ≠ 0 ∧
    hubOp h.h1 h.U spin *ᵥ W = (E0 : ℂ) • W ∧
    (∀ W' : (Fin nu ⊕ Fin nd → Fin nb) → ℂ, Anti spin W' → hubOp h.h1 h.U spin *ᵥ W' = (E0 : ℂ) • W' → ∃ c : ℂ, W' = c • W) ∧
    ∀ (E : (Fin 2 → Matrix (Fin nb) (Fin nb) ℂ) → ℂ) (O : Matrix (Fin nu ⊕ Fin nd → Fin nb) (Fin nu ⊕ Fin nd → Fin nb) ℂ), Measures E O →
      Sym spin O → ∀ a b : Nat, 0 < a → 0 < b → ∃ lim : ℝ → ℂ,
      (∀ τ, 0 ≤ τ → ∀ l l' : Nat → List (Option ℝ), (∀ N, steps (l N) = a * (N + 1)) → (∀ N, steps (l' N) = b * (N + 1)) →
        Tendsto (fun N => backQuotient h (τ / (N + 1 : Nat)) psi qr qr' nstblz (l N) (l' N) E (start psi)) atTop (𝓝 (lim τ))) ∧
      Tendsto lim atTop (𝓝 ((star W ⬝ᵥ (O *ᵥ W)) / (star W ⬝ᵥ W)))

theorem proj_mulVec {κ : Type} [Fintype κ] (g x : κ → ℂ) : vecMulVec g (star g) *ᵥ x = (star g ⬝ᵥ x) • g := by
  funext i
  rw [Matrix.mulVec, dotProduct, Pi.smul_apply, smul_eq_mul, dotProduct, sum_mul]
  refine sum_congr rfl fun j _ => ?_
  rw [vecMulVec_apply]
  ring

theorem hop_hermitian {T : Matrix (Fin nb) (Fin nb) ℂ} (hT : Tᴴ = T) {k : Nat} (hk : k ≤ nb) :
    (hop T : Matrix (Fields.Ordered nb k) (Fields.Ordered nb k) ℂ).IsHermitian := by
  obtain ⟨eig, he⟩ := Uhf.eigh_exists nb
  obtain ⟨hmono, hV, hd⟩ := he T hT
  exact (Fields.hop_herm hT hV hd hmono hk).1

/-- **C127** Runs without a sign problem in which hops connect all configurations of each spin. -/
theorem reaches_of_signFree (h : Hub nb) (hn : 0 < nb) (hU : 0 ≤ h.U) (hT : ∀ s, (h.h1 s)ᴴ = h.h1 s) (h0 : Hops (h.h1 0) nu) (h1 : Hops (h.h1 1) nd)
    (hnu : nu ≤ nb) (hnd : nd ≤ nb) (hnb : ∀ s (i j : Fin nb), j.val + 1 = i.val → (h.h1 s i j).re < 0) {c c' : ℂ} {psi : Wfn nb nu nd}
    (hψ : SignFree c c' psi) {qr qr' : QR nb} (hqr : QRSpec qr) (hqr' : QRSpec qr') (nstblz : Nat) : Reaches h psi qr qr' nstblz := by
  set H : Matrix (Fin nu ⊕ Fin nd → Fin nb) (Fin nu ⊕ Fin nd → Fin nb) ℂ := hubOp h.h1 h.U spin with hHd
  have hsym : Sym spin H := Step.hubOp_sym _ _ _
  have hherm : H.IsHermitian := Step.hubOp_herm h.U hT _
  have K0 : Two nb nu nd := ⟨⟨Fin.castLE hnu, Fin.strictMono_castLE hnu⟩, ⟨Fin.castLE hnd, Fin.strictMono_castLE hnd⟩⟩
  haveI : Nonempty (Two nb nu nd) := ⟨K0⟩
  have hconn := both_connected h0 h1 (h.U : ℂ) (Fields.chain_connected h0 (hop_hermitian (hT 0) hnu) (hnb 0))
    (Fields.chain_connected h1 (hop_hermitian (hT 1) hnd) (hnb 1))
  obtain ⟨E0, g, hgpos, hgE, hgg, hmin, huniq, hproj⟩ := ground_projector (Fields.sector_herm hsym hherm) (Fields.sector_real h0 h1 h.U)
    (fun K L hKL => Fields.sector_off h0 h1 h.U hKL) hconn
  set W : (Fin nu ⊕ Fin nd → Fin nb) → ℂ := ext2 *ᵥ g with hW
  have hg0 : g ≠ 0 := fun e => (hgpos K0).ne (congrFun e K0)
  have hWa : Anti spin W := ext2_anti_vec g
  have hW0 : W ≠ 0 := fun e => hg0 (by funext K; rw [← ext2_apply g K, ← hW, e]; rfl)
  have hWE : H *ᵥ W = (E0 : ℂ) • W := by
    rw [hW, Matrix.mulVec_mulVec, Fields.mul_ext2 hsym, ← Matrix.mulVec_mulVec, hgE, Matrix.mulVec_smul]
  have hsec : ∀ {E : ℝ} {W' : (Fin nu ⊕ Fin nd → Fin nb) → ℂ}, Anti spin W' → H *ᵥ W' = (E : ℂ) • W' →
      sector H *ᵥ (fun K => W' (conf K)) = (E : ℂ) • fun K => W' (conf K) := by
    intro E W' hA hE'
    have e1 : ext2 *ᵥ (sector H *ᵥ fun K => W' (conf K)) = ext2 *ᵥ ((E : ℂ) • fun K => W' (conf K)) := by
      rw [Matrix.mulVec_mulVec, ← Fields.mul_ext2 hsym, ← Matrix.mulVec_mulVec, ← Fields.anti_expand hA, hE', Matrix.mulVec_smul,
        ← Fields.anti_expand hA]
    funext K
    rw [← ext2_apply (sector H *ᵥ fun K => W' (conf K)) K, e1, ext2_apply]
  obtain ⟨hden, -⟩ := Fields.ground hT h0 h1 h.U hnu hnd hψ hψ
  refine ⟨E0, W, ⟨⟨W, hWa, hW0, hWE⟩, ?_⟩, hWa, hW0, hWE, fun W' hA hE' => ?_, fun E O hE hO a b ha hb => ?_⟩
  · rintro E' ⟨W', hA, hne, hE'⟩
    refine hmin E' _ (fun e => hne ?_) (hsec hA hE')
    rw [Fields.anti_expand hA, e, Matrix.mulVec_zero]
  · obtain ⟨z, hz⟩ := huniq _ (hsec hA hE')
    exact ⟨z, by rw [Fields.anti_expand hA, hz, Matrix.mulVec_smul]⟩
  · have hcomb : ∀ τ : ℝ, NormedSpace.exp (-((b * τ : ℝ) : ℂ) • H) * NormedSpace.exp (-((a * τ : ℝ) : ℂ) • H) =
        NormedSpace.exp (-((b * τ + a * τ : ℝ) : ℂ) • H) := by
      intro τ
      rw [← Matrix.exp_add_of_commute _ _ (((Commute.refl H).smul_left _).smul_right _), ← add_smul]
      congr 2
      push_cast
      ring
    refine ⟨fun τ => exactBack h psi psi O (a * τ) (b * τ), fun τ hτ l l' hl hl' => ?_, ?_⟩
    · refine back_tendsto h hn hU (fun dt hdt => HubRun.signFree_cone h hdt h0 h1 hnu hnd hψ) hqr hqr' (HubRun.signFree_kept hqr hnu hnd) nstblz hE hO hτ l l'
        hl hl' (w := start psi) ⟨hψ, by simp [start]⟩ rfl one_ne_zero ?_
      rw [← hHd, hcomb]
      exact hden _ (by positivity)
    · set α : Two nb nu nd → ℂ := fun K => slater psi (conf K) with hα
      have hse : ∀ β : ℝ, Sym spin (NormedSpace.exp (-(β : ℂ) • H)) := fun β => Grand.sym_exp (hsym.smul _)
      have hnum : ∀ β β' : ℝ, slater psi ⬝ᵥ ((NormedSpace.exp (-(β' : ℂ) • H) * O * NormedSpace.exp (-(β : ℂ) • H)) *ᵥ prodState (orbs psi)) =
          α ⬝ᵥ ((NormedSpace.exp (-(β' : ℂ) • sector H) * sector O * NormedSpace.exp (-(β : ℂ) • sector H)) *ᵥ amps psi) := by
        intro β β'
        rw [Fields.sector_elem (((hse β').mul hO).mul (hse β)) (Step.slater_anti psi), sector_mul ((hse β').mul hO) (hse β),
          sector_mul (hse β') hO, sector_exp hsym, sector_exp hsym]
      have hdn : ∀ β β' : ℝ, slater psi ⬝ᵥ ((NormedSpace.exp (-(β' : ℂ) • H) * NormedSpace.exp (-(β : ℂ) • H)) *ᵥ prodState (orbs psi)) =
          α ⬝ᵥ ((NormedSpace.exp (-(β' : ℂ) • sector H) * NormedSpace.exp (-(β : ℂ) • sector H)) *ᵥ amps psi) := by
        intro β β'
        rw [Fields.sector_elem ((hse β').mul (hse β)) (Step.slater_anti psi), sector_mul (hse β') (hse β), sector_exp hsym, sector_exp hsym]
      have hcont : Continuous fun M : Matrix (Two nb nu nd) (Two nb nu nd) ℂ => α ⬝ᵥ (M *ᵥ amps psi) := by
        simp only [Matrix.mulVec, dotProduct]
        fun_prop
      have pa : Tendsto (fun τ : ℝ => (a : ℝ) * τ) atTop atTop := tendsto_id.const_mul_atTop (by exact_mod_cast ha)
      have pb : Tendsto (fun τ : ℝ => (b : ℝ) * τ) atTop atTop := tendsto_id.const_mul_atTop (by exact_mod_cast hb)
      have la := hproj.comp pa
      have lb := hproj.comp pb
      have l1 := (hcont.tendsto _).comp ((lb.mul (tendsto_const_nhds (x := sector O))).mul la)
      have l2 := (hcont.tendsto _).comp (lb.mul la)
      have hK : c * c' ≠ 0 := mul_ne_zero (left_ne_zero_of_mul (hψ.1 K0.1).ne) (left_ne_zero_of_mul (hψ.2 K0.2).ne)
      have hpos : ∀ K, IsPos ((c * c') * amps psi K) := by
        intro K
        have := (hψ.1 K.1).mul (hψ.2 K.2)
        rwa [mul_mul_mul_comm] at this
      have hx : star g ⬝ᵥ amps psi ≠ 0 := by
        intro e
        have h2 : IsPos (∑ K, (star (g K)) * ((c * c') * amps psi K)) := IsPos.sum univ_nonempty fun K _ => by
          have h3 := hgpos K
          rw [h3.star]
          exact h3.mul (hpos K)
        have h3 : ∑ K, (star (g K)) * ((c * c') * amps psi K) = (c * c') * (star g ⬝ᵥ amps psi) := by
          rw [dotProduct, mul_sum]
          refine sum_congr rfl fun K _ => ?_
          rw [Pi.star_apply]
          ring
        rw [h3, e, mul_zero] at h2
        exact h2.ne rfl
      have hαg : α ⬝ᵥ g ≠ 0 := by
        have h2 : α ⬝ᵥ g = star (star g ⬝ᵥ amps psi) := by
          rw [Matrix.star_dotProduct, star_star]
          congr 1
          funext K
          exact Fields.slater_conf psi K
        rw [h2]
        exact star_ne_zero.2 hx
      have v2 : α ⬝ᵥ ((vecMulVec g (star g) * vecMulVec g (star g)) *ᵥ amps psi) = (star g ⬝ᵥ amps psi) * (α ⬝ᵥ g) := by
        rw [← Matrix.mulVec_mulVec, proj_mulVec, proj_mulVec, dotProduct_smul, dotProduct_smul, hgg, smul_eq_mul, smul_eq_mul, mul_one]
      have v1 : α ⬝ᵥ ((vecMulVec g (star g) * sector O * vecMulVec g (star g)) *ᵥ amps psi) =
          (star g ⬝ᵥ amps psi) * (α ⬝ᵥ g) * (star g ⬝ᵥ (sector O *ᵥ g)) := by
        rw [← Matrix.mulVec_mulVec, proj_mulVec, ← Matrix.mulVec_mulVec, Matrix.mulVec_smul, Matrix.mulVec_smul, proj_mulVec, dotProduct_smul,
          dotProduct_smul, smul_eq_mul, smul_eq_mul]
        ring
      rw [v1] at l1
      rw [v2] at l2
      have hlim := l1.div l2 (mul_ne_zero hx hαg)
      rw [mul_div_cancel_left₀ _ (mul_ne_zero hx hαg)] at hlim
      have hf : ((nu.factorial : ℂ) * nd.factorial) ≠ 0 := by
        exact_mod_cast mul_ne_zero (Nat.factorial_ne_zero _) (Nat.factorial_ne_zero _)
      have hWdot : ∀ x : Two nb nu nd → ℂ, star W ⬝ᵥ (ext2 *ᵥ x) = (nu.factorial : ℂ) * nd.factorial * (star g ⬝ᵥ x) := by
        intro x
        rw [hW, star_mulVec, ← Matrix.dotProduct_mulVec, Matrix.mulVec_mulVec, Fields.ext2_ext2, Matrix.smul_mulVec, Matrix.one_mulVec,
          dotProduct_smul, smul_eq_mul]
      have hval : (star W ⬝ᵥ (O *ᵥ W)) / (star W ⬝ᵥ W) = star g ⬝ᵥ (sector O *ᵥ g) := by
        have e1 : O *ᵥ W = ext2 *ᵥ (sector O *ᵥ g) := by
          rw [hW, Matrix.mulVec_mulVec, Fields.mul_ext2 hO, ← Matrix.mulVec_mulVec]
        have e2 : star W ⬝ᵥ W = (nu.factorial : ℂ) * nd.factorial := by
          have := hWdot g
          rwa [hgg, mul_one, ← hW] at this
        rw [e1, hWdot, e2, mul_div_cancel_left₀ _ hf]
      rw [hval]
      refine hlim.congr fun τ => ?_
      rw [Pi.div_apply, exactBack, ← hHd, hnum, hdn]
      simp only [Function.comp, Matrix.smul_mul, Matrix.mul_smul, Matrix.smul_mulVec, dotProduct_smul, smul_eq_mul]
      push_cast
      rw [mul_div_mul_left _ _ (Complex.exp_ne_zero _), mul_div_mul_left _ _ (Complex.exp_ne_zero _)]

end Verif.HubBack
