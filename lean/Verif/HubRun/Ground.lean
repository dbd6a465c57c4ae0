import Verif.HubRun.Run
import Verif.Fields.Sector
import Verif.Fields.Chain

/-!
# Runs without a sign problem reach the lowest energy: C120
-/

namespace Verif.HubRun

open Matrix Finset Filter Topology
open Verif.Slater
open Verif.Hirsch
open Verif.Step (Hub spin spinOp Anti prodState orbs hubOp slater)
open Verif.Fields (rowStep PosMin Hops Ground)

variable {nb nu nd : Nat}

/-- Determinants whose amplitudes have the phases of the given numbers. -/
def SignFree (c c' : ℂ) (φ : Wfn nb nu nd) : Prop := PosMin c (up φ) ∧ PosMin c' (dn φ)

theorem aux_pos (h : Hub nb) (dt : ℝ) (xi s : Fin 2) : IsPos ((par h dt).auxf xi s) := by
  have e : (par h dt).auxf xi s = spinAux (spinGamma dt h.U) xi s * Complex.exp (-(dt * h.U / 2)) := rfl
  rw [e]
  refine IsPos.mul ?_ ?_
  · rw [spinAux]
    split_ifs
    · exact IsPos.exp _
    · have := IsPos.exp (-spinGamma dt h.U)
      rwa [Complex.ofReal_neg] at this
  · have := IsPos.exp (-(dt * h.U / 2))
    push_cast at this
    exact this

theorem rowStep_diag (A : Fin 2 → Fin 2 → ℂ) (φ : Wfn nb nu nd) (i : Fin nb) (xi : Fin 2) :
    rowStep A φ i xi = join (diagonal (fun j => if j = i then A xi 0 else 1) * up φ) (diagonal (fun j => if j = i then A xi 1 else 1) * dn φ) := by
  have h : ∀ {k : Nat} (B : Matrix (Fin nb) (Fin k) ℂ) (z : ℂ), addRow B i (z - 1) = diagonal (fun j => if j = i then z else 1) * B := by
    intro k B z
    ext a b
    rw [Matrix.diagonal_mul, addRow]
    split_ifs
    · ring
    · rw [one_mul]
  rw [rowStep, h, h]

theorem signFree_cone (h : Hub nb) {dt : ℝ} (hdt : 0 ≤ dt) (h0 : Hops (h.h1 0) nu) (h1 : Hops (h.h1 1) nd) (hnu : nu ≤ nb) (hnd : nd ≤ nb)
    {c c' : ℂ} {psi : Wfn nb nu nd} (hψ : SignFree c c' psi) : Cone (par h dt) psi (SignFree c c') := by
  refine ⟨fun φ hφ => (hψ.1.overlap hnu hφ.1).mul (hψ.2.overlap hnd hφ.2), fun φ hφ => ?_, fun φ hφ i xi => ?_,
    fun xi => ⟨1, one_pos, by simp [par, spinPar]⟩⟩
  · have e : ∀ s, (par h dt).bt2 s = NormedSpace.exp (-((dt / 2 : ℝ) : ℂ) • h.h1 s) := by
      intro s
      show NormedSpace.exp (-((dt : ℂ) / 2) • h.h1 s) = _
      push_cast
      rfl
    have hdt2 : 0 ≤ dt / 2 := by linarith
    refine ⟨?_, ?_⟩
    · rw [kineticReal, up_join, e]
      exact hφ.1.exp h0 hdt2
    · rw [kineticReal, dn_join, e]
      exact hφ.2.exp h1 hdt2
  · have hd : ∀ s j, IsPos (if j = i then (par h dt).auxf xi s else 1 : ℂ) := by
      intro s j
      split_ifs
      · exact aux_pos h dt xi s
      · exact ⟨1, one_pos, by simp⟩
    rw [rowStep_diag]
    refine ⟨?_, ?_⟩
    · rw [up_join]
      exact hφ.1.diagonal (hd 0)
    · rw [dn_join]
      exact hφ.2.diagonal (hd 1)

theorem signFree_kept {qr : QR nb} (hqr : QRSpec qr) (hnu : nu ≤ nb) (hnd : nd ≤ nb) {c c' : ℂ} :
    Kept qr (SignFree c c' : Wfn nb nu nd → Prop) := by
  intro w h
  have hu : FullRank (up w.phi) := (h.1.overlap hnu h.1).ne
  have hd : FullRank (dn w.phi) := (h.2.overlap hnd h.2).ne
  have ou := ortho_signs (hqr _ _ hu) hu
  have od := ortho_signs (hqr _ _ hd) hd
  refine ⟨?_, ?_⟩
  · have e : up (reortho qr w).phi = (qr nu (up w.phi)).1 * signs (qr nu (up w.phi)).2 := up_join _ _
    rw [e]
    exact h.1.mix ⟨_, ou.pos, ou.det⟩ ou.eq
  · have e : dn (reortho qr w).phi = (qr nd (dn w.phi)).1 * signs (qr nd (dn w.phi)).2 := dn_join _ _
    rw [e]
    exact h.2.mix ⟨_, od.pos, od.det⟩ od.eq

/-- **C120** Constrained runs of the Hubbard model without a sign problem: the interaction is not attractive, no hop of an electron has a
positive sign and the amplitudes of trial wave function and initial walker have the same phases.  For many short steps, for any energy
shifts and any reorthogonalisations, the average of weight times local energy over the average weight converges to the energy of the
state evolved in imaginary time, and this to the lowest energy of the Hamiltonian with these numbers of electrons. -/
theorem sign_free_run (h : Hub nb) (hU : 0 ≤ h.U) (hT : ∀ s, (h.h1 s)ᴴ = h.h1 s) (h0 : Hops (h.h1 0) nu) (h1 : Hops (h.h1 1) nd)
    (hnu : nu ≤ nb) (hnd : nd ≤ nb) {c c' : ℂ} {psi : Wfn nb nu nd} (hψ : SignFree c c' psi) {qr : QR nb} (hqr : QRSpec qr)
    {w : Wk nb nu nd} (hφ : SignFree c c' w.phi) (hot : w.ot = overlap psi w.phi * Complex.exp (w.logShift : ℂ)) (hs : w.detRShift = 0)
    (hw : w.weight ≠ 0) :
    ∃ E0 : ℝ, Ground (hubOp h.h1 h.U (spin : Fin nu ⊕ Fin nd → Fin 2)) E0 ∧ ∃ lim : ℝ → ℂ,
      (∀ β, 0 ≤ β → ∀ l : Nat → List (Option ℝ), (∀ N, steps (l N) = N + 1) →
        Tendsto (fun N => runEnergy h (β / (N + 1 : Nat)) psi qr (l N) w) atTop (𝓝 (lim β))) ∧
      Tendsto lim atTop (𝓝 (E0 : ℂ)) := by
  obtain ⟨hden, E0, hE0, hlim⟩ := Fields.ground hT h0 h1 h.U hnu hnd hψ hφ
  refine ⟨E0, hE0, exactEnergy h psi w.phi, fun β hβ l hl => ?_, hlim⟩
  exact run_tendsto h hU (fun dt hdt => signFree_cone h hdt h0 h1 hnu hnd hψ) hqr (signFree_kept hqr hnu hnd) hβ l hl ⟨hφ, hot⟩ hs hw
    (hden β hβ)

theorem kinetic_pos {p : Par nb} {psi : Wfn nb nu nd} {S : Wfn nb nu nd → Prop} (hS : Cone p psi S) {w : Wk nb nu nd} (hm : S w.phi)
    (ho : ∃ c, IsPos c ∧ w.ot = c * overlap psi w.phi) (hw : 0 < w.weight) : 0 < (kineticIS p psi w).weight := by
  obtain ⟨-, -, h1, hw', -, -, -⟩ := kinetic_valid hS hm ho hw.ne'
  obtain ⟨-, -, -, h3, h4⟩ := kineticIS_spec p psi w hw'
  obtain ⟨c, hc, e⟩ := ho
  rw [h4]
  refine mul_pos hw (IsPos.re ?_)
  rw [h3, h1, e]
  exact ((hS.pos _ (hS.kin _ hm)).mul (IsPos.exp _)).div (hc.mul (hS.pos _ hm))

theorem sweep_pos {p : Par nb} {psi : Wfn nb nu nd} {S : Wfn nb nu nd → Prop} (hS : Cone p psi S) (rs : Fin nb → ℝ) :
    ∀ (l : List (Fin nb)) {w : Wk nb nu nd}, Inside psi S w → 0 < w.weight → 0 < (singleSite p psi rs l w).1.weight
  | [], _, _, hw => hw
  | i :: l, w, h, hw => by
    have hn : 0 < Hirsch.norm p psi w i := add_pos (ratio_pos hS h i 0).2.2 (ratio_pos hS h i 1).2.2
    rw [singleSite, if_pos hn]
    exact sweep_pos hS rs l (h.apply hS i (choose p psi w i (rs i))) (mul_pos hw hn)

/-- **C120** Whatever the random numbers, no walker is lost and no weight becomes negative in such a run. -/
theorem sign_free_alive (h : Hub nb) {dt : ℝ} (hdt : 0 ≤ dt) (h0 : Hops (h.h1 0) nu) (h1 : Hops (h.h1 1) nd)
    (hnu : nu ≤ nb) (hnd : nd ≤ nb) {c c' : ℂ} {psi : Wfn nb nu nd} (hψ : SignFree c c' psi)
    {w : Wk nb nu nd} (hφ : SignFree c c' w.phi) (hot : w.ot = overlap psi w.phi * Complex.exp (w.logShift : ℂ)) (hw : 0 < w.weight)
    (e : ℝ) (rs : Fin nb → ℝ) : 0 < (constrainedStep (par h dt) psi e rs w).weight ∧
      SignFree c c' (constrainedStep (par h dt) psi e rs w).phi := by
  have hS := signFree_cone h hdt h0 h1 hnu hnd hψ
  have hv : Valid psi (SignFree c c') w := ⟨hφ, hot⟩
  refine ⟨?_, (hv.step hS e rs).1.mem⟩
  have ho : ∃ c, IsPos c ∧ w.ot = c * overlap psi w.phi := ⟨_, IsPos.exp w.logShift, by rw [hot, mul_comm]⟩
  obtain ⟨-, i1, -, -, -, -, -⟩ := kinetic_valid hS hφ ho hw.ne'
  have p1 := kinetic_pos hS hφ ho hw
  obtain ⟨i2, -, -, -⟩ := i1.sweep hS rs (List.finRange nb)
  have p2 := sweep_pos hS rs (List.finRange nb) i1 p1
  have p3 := kinetic_pos hS i2.mem i2.ot p2
  rw [constrainedStep]
  simp only [if_pos (abs_pos.2 hw.ne'), if_pos (abs_pos.2 p1.ne'), if_pos (abs_pos.2 p2.ne')]
  exact mul_pos p3 (Real.exp_pos _)

end Verif.HubRun
