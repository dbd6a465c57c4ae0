import Verif.HubHalf.Energy
import Verif.HubHalf.Cases

/-!
# Cases for C133
-/

namespace Verif.HubHalf

open Matrix Finset
open Verif.Slater
open Verif.Hirsch
open Verif.HubRun (par start energy chain freeElectron)
open Verif.Uhf (Eig Eigh)

/-- **C133** Chains with a twist, where the hopping is complex: the energy of every surviving walker is real. -/
theorem chain_energy (t U : ℝ) (sy : Bool) {nx nu nd : Nat} (hx : 2 ≤ nx) (ks : Option (List ℝ)) {xpbc ypbc : Bool} (ex : xpbc = true → nx % 2 = 0)
    {eig : Eig (1 * nx)} (hE : Eigh eig) (hn : nu + nd = 1 * nx) (hu : nu ≤ 1 * nx) (hd : nd ≤ 1 * nx)
    (nu0 : ∀ a : Fin nu, (eig ((chain t U sy nx ks xpbc ypbc).h1 0)).1 (Fin.castLE hu a) < 0)
    (nd0 : ∀ a : Fin nd, (eig ((chain t U sy nx ks xpbc ypbc).h1 0)).1 (Fin.castLE hd a) < 0) (dt : ℝ)
    {qr : QR (1 * nx)} (hqr : QRSpec qr) (l : List (Option ((Fin (1 * nx) → ℝ) × ℝ))) (hl : ∀ rs x, some (rs, x) ∈ l → ∀ i, 0 ≤ rs i ∧ rs i < 1) :
    let psi : Wfn (1 * nx) nu nd := freeElectron eig (chain t U sy nx ks xpbc ypbc).h1 hu hd
    let w := l.foldl (act (fun x rs w => constrainedStep (par (chain t U sy nx ks xpbc ypbc) dt) psi x rs w) qr) (start psi)
    w.weight ≠ 0 → (energy (chain t U sy nx ks xpbc ypbc) psi w).im = 0 := by
  intro psi w hw
  have hb := chain_bipartite t U sy hx ks (xpbc := xpbc) (ypbc := ypbc) ex
  exact (run_energy (free_trial hb hE hu hd nu0 nd0) hb dt hn hqr l hl hw).2

/-- The walker of `pair_good`: densities outside the range from zero to one, which add up to one all the same. -/
theorem pair_density (w : Wk 2 1 1) (hw : w.phi = join !![-2; -3] !![-3; -2]) :
    (greensFunction trial2 w).gUp 0 0 = -(4 / 5) ∧ (greensFunction trial2 w).gDn 0 0 = 9 / 5 := by
  obtain ⟨eu, ed⟩ := greensFunction_eq trial2 w
  have h1 : ((!![2; -3] : Matrix (Fin 2) (Fin 1) ℂ)ᴴ * (!![-2; -3] : Matrix (Fin 2) (Fin 1) ℂ))⁻¹ = !![1 / 5] := by
    refine Matrix.inv_eq_right_inv ?_
    ext i j
    fin_cases i; fin_cases j
    simp [Matrix.mul_apply, Fin.sum_univ_two, conj2, conj3]
    norm_num
  have h2 : ((!![-3; 2] : Matrix (Fin 2) (Fin 1) ℂ)ᴴ * (!![-3; -2] : Matrix (Fin 2) (Fin 1) ℂ))⁻¹ = !![1 / 5] := by
    refine Matrix.inv_eq_right_inv ?_
    ext i j
    fin_cases i; fin_cases j
    simp [Matrix.mul_apply, Fin.sum_univ_two, conj2, conj3]
    norm_num
  rw [eu, ed, hw, trial2, up_join, dn_join, up_join, dn_join, gab, gab, h1, h2]
  constructor
  · simp [Matrix.mul_apply, Matrix.vecMul, dotProduct, conj2, conj3]
    norm_num
  · simp [Matrix.mul_apply, Matrix.vecMul, dotProduct, conj2, conj3]
    norm_num

/-- The first step of a run of the two sites. -/
theorem pair_energy : (energy pair trial2 (kineticIS (par pair 1) trial2 (start trial2))).im = 0 ∧
    (greensFunction trial2 (kineticIS (par pair 1) trial2 (start trial2))).gUp 0 0 = -(4 / 5) := by
  obtain ⟨hg, hφ⟩ := pair_good
  refine ⟨?_, (pair_density _ hφ).1⟩
  have h : Half (finSumFinEquiv : Fin 1 ⊕ Fin 1 ≃ Fin 2) sub2 trial2 (kineticIS (par pair 1) trial2 (start trial2)).phi := by
    rw [hφ, ← pair_hop]
    exact (trial2_ok.half _).kinetic pair_bipartite 1
  rw [half_energy pair_bipartite trial2_ok h hg.ne, Complex.ofReal_im]

end Verif.HubHalf
