import Verif.HubHalf.Alive

/-!
# Free projection of attractive Hubbard models never meets the nodes of the trial wave function: C136
-/

namespace Verif.HubHalf

open Matrix Finset
open Verif.Slater
open Verif.Hirsch
open Verif.Step (Hub)
open Verif.Uhf (Eig Eigh)
open Verif.HubRun (start chPar gPar chargeGamma freeElectron stepOfGamma)

variable {nb nu nd : Nat}

theorem charge_forward_analytic (h : Hub nb) (f : Fin nb → Fin 2) (s : Fin 2) (x : ℝ) (i j : Fin nb) :
    AnalyticAt ℝ (fun g => forwardMatrix (gPar h g) f s i j) x := by
  have hb : ∀ i j, AnalyticAt ℝ (fun g => (gPar h g).bt2 s i j) x := fun i j =>
    HubRun.exp_analytic (h.h1 s) ((HubRun.step_cast_analytic h.U x).div analyticAt_const two_ne_zero).neg i j
  have ha : ∀ xi, AnalyticAt ℝ (fun g => (gPar h g).auxf xi s) x := fun xi => HubRun.aux_analytic h xi x
  simp only [forwardMatrix, Matrix.mul_apply (M := _ * _), Matrix.mul_diagonal]
  exact Finset.analyticAt_fun_sum _ fun k _ => ((hb i k).mul (ha (f k))).mul (hb k j)

theorem charge_ops_analytic (h : Hub nb) (s : Fin 2) (x : ℝ) : ∀ (fs : List (Fin nb → Fin 2)) (i j : Fin nb),
    AnalyticAt ℝ (fun g => opsMatrix (gPar h g) s (withFields fs) i j) x
  | [], i, j => analyticAt_const
  | f :: fs, i, j => by
    simp only [withFields, List.map_cons, opsMatrix, Matrix.mul_apply]
    exact Finset.analyticAt_fun_sum _ fun k _ => (charge_ops_analytic h s x fs i k).mul (charge_forward_analytic h f s x k j)

theorem charge_ops_zero (h : Hub nb) (s : Fin 2) : ∀ fs : List (Fin nb → Fin 2), opsMatrix (gPar h 0) s (withFields fs) = 1
  | [] => rfl
  | f :: fs => by
    have e := charge_ops_zero h s fs
    rw [withFields] at e
    rw [withFields, List.map_cons, opsMatrix, e, Matrix.one_mul, forwardMatrix]
    have h1 : ∀ xi, (gPar h 0).auxf xi s = 1 := fun xi => by simp [gPar, chargePar, chargeAux, stepOfGamma]
    have h2 : (gPar h 0).bt2 s = 1 := by simp [gPar, chargePar, stepOfGamma]
    simp [h1, h2]

theorem charge_det_countable (h : Hub nb) (s : Fin 2) {k : Nat} {A : Matrix (Fin nb) (Fin k) ℂ} (hA : FullRank A) (fs : List (Fin nb → Fin 2)) :
    {g : ℝ | (Aᴴ * (opsMatrix (gPar h g) s (withFields fs) * A)).det = 0}.Countable := by
  refine HubRun.zeros_countable (fun x => HubRun.det_analytic fun i j => ?_) ?_
  · simp only [Matrix.mul_apply]
    exact Finset.analyticAt_fun_sum _ fun a _ => analyticAt_const.mul
      (Finset.analyticAt_fun_sum _ fun b _ => (charge_ops_analytic h s x fs a b).mul analyticAt_const)
  · rw [charge_ops_zero, Matrix.one_mul]
    exact hA

/-- **C136** Attractive Hubbard models with the charge decomposition: any lattice and hopping, any numbers of electrons, any trial determinant. -/
theorem charge_alive (h : Hub nb) (hU : h.U < 0) {psi : Wfn nb nu nd} (ru : FullRank (up psi)) (rd : FullRank (dn psi)) :
    ∃ Z : Set ℝ, Z.Countable ∧ ∀ dt, 0 ≤ dt → dt ∉ Z → ∀ qr : QR nb, QRSpec qr → ∀ ops : List (FreeOp nb),
      (ops.foldl (freeOp (chPar h dt) qr psi) (start psi)).ot ≠ 0 := by
  refine ⟨_, (Set.countable_iUnion fun fs => (charge_det_countable h 0 ru fs).union (charge_det_countable h 1 rd fs)).image (stepOfGamma h.U),
    fun dt hdt hZ qr hqr ops h0 => hZ ?_⟩
  obtain ⟨fs, hfs⟩ := ops_fields ops
  refine ⟨chargeGamma dt h.U, Set.mem_iUnion.2 ⟨fs, ?_⟩, (congrArg Par.dt (HubRun.gPar_gamma hU hdt)).symm⟩
  rw [Set.mem_union, Set.mem_ofPred_eq, Set.mem_ofPred_eq, ← HubRun.gPar_gamma hU hdt, ← hfs, ← hfs]
  obtain ⟨h1, h2⟩ := free_run (chPar h dt) qr hqr psi (HubRun.charge_forward_det h dt) ops (start psi) ru rd rfl rfl rfl
  have h3 := h1 psi
  rw [← h2, h0, mul_zero] at h3
  have h5 : ((1 : ℝ) : ℂ) * 1 * opsFactor (chPar h dt) ops *
      overlap psi (join (opsMatrix (chPar h dt) 0 ops * up psi) (opsMatrix (chPar h dt) 1 ops * dn psi)) = 0 := h3.symm
  rw [overlap, up_join, dn_join] at h5
  rcases mul_eq_zero.1 h5 with h6 | h6
  · exact absurd h6 (mul_ne_zero (by simp) (HubRun.charge_opsFactor h dt ops).ne)
  · exact mul_eq_zero.1 h6

/-- Case: the attractive lattice of `paired_case` with 3 + 2 electrons, which are not paired. -/
theorem charge_alive_case : ∃ (eig : Eig (2 * 3)) (qr : QR (2 * 3)), Eigh eig ∧ QRSpec qr ∧ ∃ Z : Set ℝ, Z.Countable ∧ ∀ dt, 0 ≤ dt → dt ∉ Z →
    ∀ ops : List (FreeOp (2 * 3)),
    let h := HubRun.lattice 1 (-4) false 3 2 true true
    let psi : Wfn (2 * 3) 3 2 := freeElectron eig h.h1 (by norm_num) (by norm_num)
    (ops.foldl (freeOp (chPar h dt) qr psi) (start psi)).ot ≠ 0 := by
  obtain ⟨eig, he, -⟩ := HubRun.realEig_exists (2 * 3)
  have hT := (HubRun.lattice_plain 1 (-4) false 3 2 true true).herm
  have hT1 : ((HubRun.lattice 1 (-4) false 3 2 true true).h1 1)ᴴ = (HubRun.lattice 1 (-4) false 3 2 true true).h1 1 := hT
  obtain ⟨Z, hZ, ha⟩ := charge_alive (HubRun.lattice 1 (-4) false 3 2 true true) (by norm_num [HubRun.lattice])
    (psi := (freeElectron eig (HubRun.lattice 1 (-4) false 3 2 true true).h1 (by norm_num) (by norm_num) : Wfn (2 * 3) 3 2))
    (by rw [freeElectron, up_join, FullRank, Uhf.cols_orth he _ hT, Matrix.det_one]; exact one_ne_zero)
    (by rw [freeElectron, dn_join, FullRank, Uhf.cols_orth he _ hT1, Matrix.det_one]; exact one_ne_zero)
  exact ⟨eig, someQR _, he, someQR_spec _, Z, hZ, fun dt hdt hd ops => ha dt hdt hd _ (someQR_spec _) ops⟩

end Verif.HubHalf
