import Verif.HubHalf.FreeRows

/-!
# Free projection of repulsive Hubbard models never meets the nodes of the trial wave function: C136
-/

namespace Verif.HubHalf

open Matrix Finset
open Verif.Slater
open Verif.Hirsch
open Verif.Step (Hub)
open Verif.Uhf (Eig Eigh)
open Verif.HubRun (start energy par freeElectron stepOfGamma)
open Verif.Mixed (Obs Cfg)

variable {nb nu nd : Nat}

/-- The propagator of the spin decomposition (propagation/hubbard.py 74-80) as a function of `gamma`. -/
noncomputable def sPar (h : Hub nb) (g : ℝ) : Par nb :=
  ⟨fun xi s => spinAux g xi s * Complex.exp (-(stepOfGamma (-h.U) g * h.U / 2)), fun _ => 1,
    fun s => NormedSpace.exp (-((stepOfGamma (-h.U) g : ℂ) / 2) • h.h1 s), stepOfGamma (-h.U) g⟩

theorem sPar_step {h : Hub nb} (hU : 0 < h.U) {dt : ℝ} (hdt : 0 ≤ dt) : stepOfGamma (-h.U) (spinGamma dt h.U) = dt := by
  rw [stepOfGamma, spinGamma, Real.cosh_arcosh (Real.one_le_exp (by positivity)), Real.log_exp]
  have := hU.ne'
  field_simp

theorem sPar_gamma {h : Hub nb} (hU : 0 < h.U) {dt : ℝ} (hdt : 0 ≤ dt) : par h dt = sPar h (spinGamma dt h.U) := by
  rw [sPar, sPar_step hU hdt]
  rfl

theorem saux_analytic (h : Hub nb) (xi s : Fin 2) (x : ℝ) : AnalyticAt ℝ (fun g => (sPar h g).auxf xi s) x := by
  have h1 := HubRun.step_cast_analytic (-h.U) x
  have h2 : AnalyticAt ℝ (fun g : ℝ => (g : ℂ)) x := Complex.ofRealCLM.analyticAt _
  have he : ∀ {c : ℝ → ℂ}, AnalyticAt ℝ c x → AnalyticAt ℝ (fun y => Complex.exp (c y)) x := fun hc =>
    AnalyticAt.fun_comp (AnalyticAt.restrictScalars (𝕜 := ℝ) analyticAt_cexp) hc
  show AnalyticAt ℝ (fun g : ℝ => (if xi = s then Complex.exp g else Complex.exp (-g)) * Complex.exp (-(stepOfGamma (-h.U) g * h.U / 2))) x
  refine AnalyticAt.mul ?_ (he ?_)
  · split_ifs
    · exact he h2
    · exact he h2.neg
  · exact ((h1.mul analyticAt_const).div analyticAt_const two_ne_zero).neg

theorem forward_analytic (h : Hub nb) (f : Fin nb → Fin 2) (s : Fin 2) (x : ℝ) (i j : Fin nb) :
    AnalyticAt ℝ (fun g => forwardMatrix (sPar h g) f s i j) x := by
  have hb : ∀ i j, AnalyticAt ℝ (fun g => (sPar h g).bt2 s i j) x := fun i j =>
    HubRun.exp_analytic (h.h1 s) ((HubRun.step_cast_analytic (-h.U) x).div analyticAt_const two_ne_zero).neg i j
  simp only [forwardMatrix, Matrix.mul_apply (M := _ * _), Matrix.mul_diagonal]
  exact Finset.analyticAt_fun_sum _ fun k _ => ((hb i k).mul (saux_analytic h (f k) s x)).mul (hb k j)

/-- Steps with the given fields. -/
def withFields (fs : List (Fin nb → Fin 2)) : List (FreeOp nb) := fs.map fun f => some (f, 0)

theorem ops_fields : ∀ ops : List (FreeOp nb), ∃ fs, ∀ (p : Par nb) s, opsMatrix p s ops = opsMatrix p s (withFields fs)
  | [] => ⟨[], fun _ _ => rfl⟩
  | none :: ops => ops_fields ops
  | some (f, x) :: ops => by
    obtain ⟨fs, h⟩ := ops_fields ops
    exact ⟨f :: fs, fun p s => by rw [withFields, List.map_cons, opsMatrix, opsMatrix, h]; rfl⟩

theorem ops_analytic (h : Hub nb) (s : Fin 2) (x : ℝ) : ∀ (fs : List (Fin nb → Fin 2)) (i j : Fin nb),
    AnalyticAt ℝ (fun g => opsMatrix (sPar h g) s (withFields fs) i j) x
  | [], i, j => analyticAt_const
  | f :: fs, i, j => by
    simp only [withFields, List.map_cons, opsMatrix, Matrix.mul_apply]
    exact Finset.analyticAt_fun_sum _ fun k _ => (ops_analytic h s x fs i k).mul (forward_analytic h f s x k j)

theorem ops_zero (h : Hub nb) (s : Fin 2) : ∀ fs : List (Fin nb → Fin 2), opsMatrix (sPar h 0) s (withFields fs) = 1
  | [] => rfl
  | f :: fs => by
    have e := ops_zero h s fs
    rw [withFields] at e
    rw [withFields, List.map_cons, opsMatrix, e, Matrix.one_mul, forwardMatrix]
    have h1 : ∀ xi, (sPar h 0).auxf xi s = 1 := fun xi => by simp [sPar, spinAux, stepOfGamma]
    have h2 : (sPar h 0).bt2 s = 1 := by simp [sPar, stepOfGamma]
    simp [h1, h2]

theorem spin_forward_det (h : Hub nb) (dt : ℝ) (f : Fin nb → Fin 2) (s : Fin 2) : (forwardMatrix (par h dt) f s).det ≠ 0 := by
  have hs : IsUnit ((par h dt).bt2 s) := by
    have : IsUnit (NormedSpace.exp (-((dt : ℂ) / 2) • h.h1 s)) := Matrix.isUnit_exp _
    exact this
  rw [Matrix.isUnit_iff_isUnit_det, isUnit_iff_ne_zero] at hs
  rw [forwardMatrix, Matrix.det_mul, Matrix.det_mul, Matrix.det_diagonal]
  refine mul_ne_zero (mul_ne_zero hs (prod_ne_zero_iff.2 fun i _ => ?_)) hs
  show spinAux _ _ _ * Complex.exp _ ≠ 0
  refine mul_ne_zero ?_ (Complex.exp_ne_zero _)
  rw [spinAux]
  split_ifs <;> exact Complex.exp_ne_zero _

theorem det_countable (h : Hub nb) (s : Fin 2) {k : Nat} {A : Matrix (Fin nb) (Fin k) ℂ} (hA : FullRank A) (fs : List (Fin nb → Fin 2)) :
    {g : ℝ | (Aᴴ * (opsMatrix (sPar h g) s (withFields fs) * A)).det = 0}.Countable := by
  refine HubRun.zeros_countable (fun x => HubRun.det_analytic fun i j => ?_) ?_
  · simp only [Matrix.mul_apply]
    exact Finset.analyticAt_fun_sum _ fun a _ => analyticAt_const.mul
      (Finset.analyticAt_fun_sum _ fun b _ => (ops_analytic h s x fs a b).mul analyticAt_const)
  · rw [ops_zero, Matrix.one_mul]
    exact hA

/-- **C136** Repulsive Hubbard models, any lattice, any numbers of electrons, any trial determinant: but for countably many time steps no walker of a
free projection is ever orthogonal to the trial wave function, whatever the fields and however many steps. -/
theorem spin_alive (h : Hub nb) (hU : 0 < h.U) {psi : Wfn nb nu nd} (ru : FullRank (up psi)) (rd : FullRank (dn psi)) :
    ∃ Z : Set ℝ, Z.Countable ∧ ∀ dt, 0 ≤ dt → dt ∉ Z → ∀ qr : QR nb, QRSpec qr → ∀ ops : List (FreeOp nb),
      (ops.foldl (freeOp (par h dt) qr psi) (start psi)).ot ≠ 0 := by
  refine ⟨_, (Set.countable_iUnion fun fs => (det_countable h 0 ru fs).union (det_countable h 1 rd fs)).image (stepOfGamma (-h.U)),
    fun dt hdt hZ qr hqr ops h0 => hZ ?_⟩
  obtain ⟨fs, hfs⟩ := ops_fields ops
  refine ⟨spinGamma dt h.U, Set.mem_iUnion.2 ⟨fs, ?_⟩, sPar_step hU hdt⟩
  rw [Set.mem_union, Set.mem_ofPred_eq, Set.mem_ofPred_eq, ← sPar_gamma hU hdt, ← hfs, ← hfs]
  obtain ⟨h1, h2⟩ := free_run (par h dt) qr hqr psi (spin_forward_det h dt) ops (start psi) ru rd rfl rfl rfl
  have h3 := h1 psi
  rw [← h2, h0, mul_zero] at h3
  have h4 : opsFactor (par h dt) ops ≠ 0 := by
    clear h0 hfs h1 h2 h3
    induction ops with
    | nil => exact one_ne_zero
    | cons o l ih =>
      match o with
      | none => exact ih
      | some (f, x) =>
        rw [opsFactor]
        exact mul_ne_zero (mul_ne_zero (Complex.ofReal_ne_zero.2 (Real.exp_pos _).ne') (prod_ne_zero_iff.2 fun i _ => one_ne_zero)) ih
  have h5 : ((1 : ℝ) : ℂ) * 1 * opsFactor (par h dt) ops *
      overlap psi (join (opsMatrix (par h dt) 0 ops * up psi) (opsMatrix (par h dt) 1 ops * dn psi)) = 0 := h3.symm
  rw [overlap, up_join, dn_join] at h5
  rcases mul_eq_zero.1 h5 with h6 | h6
  · exact absurd h6 (mul_ne_zero (by simp) h4)
  · exact mul_eq_zero.1 h6

/-- **C136** So at half filling the rows of C135 need no exception, but for countably many time steps. -/
theorem half_rows_all {A : Fin nb → Bool} {psi : Wfn nb nu nd} (hψ : Trial A psi) {hub : Hub nb} (hb : Bipartite A hub) (hU : 0 < hub.U)
    (hn : nu + nd = nb) {qr : QR nb} (hqr : QRSpec qr) :
    ∃ Z : Set ℝ, Z.Countable ∧ ∀ dt, 0 ≤ dt → dt ∉ Z → ∀ c : Cfg, 0 < c.nsteps → c.free = true → c.evalEnergy = true → c.freq ∣ c.nsteps →
      ∀ (ranks : Nat) (o0 : List (List Obs)) (bs : List (List (List (List Obs)))), o0.length = ranks → (∀ b ∈ bs, b.length = c.nsteps) →
      (∀ b ∈ bs, ∀ o ∈ b, o.length = ranks ∧ o.flatten ≠ []) → ∀ m M : ℝ,
      (∀ b ∈ bs, ∀ o ∈ b, ∀ x ∈ o.flatten, m ≤ x.E.re ∧ x.E.re ≤ M ∧ ∃ ops : List (FreeOp nb),
        Reads hub psi (ops.foldl (freeOp (par hub dt) qr psi) (start psi)) x) →
      ∀ row ∈ ((Mixed.run c true ranks o0 bs.flatten).rows.reverse).tail,
        (∃ r : ℝ, row.eproj = some (r : ℂ) ∧ m ≤ r ∧ r ≤ M) ∧ row.ovlp = some 1 ∧ ∃ d : ℝ, 0 < d ∧ row.weight = d := by
  obtain ⟨Z, hZ, ha⟩ := spin_alive hub hU hψ.ru hψ.rd
  refine ⟨Z, hZ, fun dt hdt hd c hs hf he hfr ranks o0 bs h0 hbs hr m M hw => half_rows hψ hb dt hn hqr c hs hf he hfr ranks o0 h0 bs hbs hr m M
    fun b hb' o ho x hx => ?_⟩
  obtain ⟨h1, h2, ops, hR⟩ := hw b hb' o ho x hx
  exact ⟨h1, h2, by rw [hR.ot]; exact ha dt hdt hd qr hqr ops, ops, hR⟩

/-- Free-electron trials. -/
theorem free_electron_alive (h : Hub nb) (hU : 0 < h.U) (hT : ∀ s, (h.h1 s).IsHermitian) {eig : Eig nb} (he : Eigh eig) (hu : nu ≤ nb) (hd : nd ≤ nb) :
    ∃ Z : Set ℝ, Z.Countable ∧ ∀ dt, 0 ≤ dt → dt ∉ Z → ∀ qr : QR nb, QRSpec qr → ∀ ops : List (FreeOp nb),
      (ops.foldl (freeOp (par h dt) qr (freeElectron eig h.h1 hu hd : Wfn nb nu nd)) (start (freeElectron eig h.h1 hu hd))).ot ≠ 0 := by
  refine spin_alive h hU ?_ ?_
  · rw [freeElectron, up_join, FullRank, Uhf.cols_orth he hu (hT 0), Matrix.det_one]
    exact one_ne_zero
  · rw [freeElectron, dn_join, FullRank, Uhf.cols_orth he hd (hT 1), Matrix.det_one]
    exact one_ne_zero

/-- Case: a frustrated, doped lattice (three sites along x, periodic) with 3 + 2 electrons. -/
theorem alive_case : ∃ (eig : Eig (2 * 3)) (qr : QR (2 * 3)), Eigh eig ∧ QRSpec qr ∧ ∃ Z : Set ℝ, Z.Countable ∧ ∀ dt, 0 ≤ dt → dt ∉ Z →
    ∀ ops : List (FreeOp (2 * 3)),
    let h := HubRun.lattice 1 4 false 3 2 true true
    let psi : Wfn (2 * 3) 3 2 := freeElectron eig h.h1 (by norm_num) (by norm_num)
    (ops.foldl (freeOp (par h dt) qr psi) (start psi)).ot ≠ 0 := by
  obtain ⟨eig, he, -⟩ := HubRun.realEig_exists (2 * 3)
  obtain ⟨Z, hZ, ha⟩ := free_electron_alive (HubRun.lattice 1 4 false 3 2 true true) (by norm_num [HubRun.lattice])
    (fun _ => (HubRun.lattice_plain 1 4 false 3 2 true true).herm) he (nu := 3) (nd := 2) (by norm_num) (by norm_num)
  exact ⟨eig, someQR _, he, someQR_spec _, Z, hZ, fun dt hdt hd ops => ha dt hdt hd _ (someQR_spec _) ops⟩

end Verif.HubHalf
