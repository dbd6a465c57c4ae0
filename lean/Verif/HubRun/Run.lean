import Verif.HubRun.Step
import Verif.Step.Run

/-!
# Runs of constrained Hubbard steps: C120
-/

namespace Verif.HubRun

open Matrix Finset Filter Topology
open Verif.Slater
open Verif.Hirsch
open Verif.Step (Hub spin spinOp Anti prodState orbs hubOp slater)
open Verif.Fields (rowStep rows meanOver avg stepOp)

variable {nb nu nd : Nat}

/-- The propagator of `hubbard.py` 74-80 and 58-61 for the spin decomposition: `BT2` is the exponential of half a step. -/
noncomputable def par (h : Hub nb) (dt : ℝ) : Par nb := spinPar dt h.U fun s => NormedSpace.exp (-((dt : ℂ) / 2) • h.h1 s)

/-- The operator of a step. -/
noncomputable def stepOf (h : Hub nb) (dt : ℝ) : Matrix (Fin nu ⊕ Fin nd → Fin nb) (Fin nu ⊕ Fin nd → Fin nb) ℂ :=
  NormedSpace.exp (-((dt : ℂ) / 2) • spinOp spin h.h1) * NormedSpace.exp (-(dt : ℂ) • hubOp (fun _ => 0) (h.U : ℂ) spin) *
    NormedSpace.exp (-((dt : ℂ) / 2) • spinOp spin h.h1)

theorem spin_avg {dt U : ℝ} (h : 0 ≤ dt * U) (bt2 : Fin 2 → Matrix (Fin nb) (Fin nb) ℂ) (n0 n1 : Fin 2) :
    avg (spinPar dt U bt2).auxf n0 n1 = Complex.exp (-(dt * U * (n0 : Nat) * (n1 : Nat))) := by
  rw [← hs_spin dt U h bt2 n0 n1, avg]
  congr 1
  refine sum_congr rfl fun xi _ => ?_
  rw [show (spinPar dt U bt2).wfac xi = 1 from rfl, one_mul]

/-- **C120** (one step) Inside a set of determinants on which the overlaps are positive, the average over the random numbers of weight
over overlap times the overlap of the determinant with any antisymmetric wave function is that of the determinant evolved by half the
kinetic energy, the interaction and again half the kinetic energy, times the factor of the energy shift. -/
theorem spin_step (h : Hub nb) {dt : ℝ} (hU : 0 ≤ dt * h.U) {psi : Wfn nb nu nd} {S : Wfn nb nu nd → Prop} (hS : Cone (par h dt) psi S)
    (e : ℝ) {w : Wk nb nu nd} (hw : Valid psi S w) (v : (Fin nu ⊕ Fin nd → Fin nb) → ℂ) (hv : Anti spin v) :
    (meanOver (List.finRange nb) fun rs => (constrainedStep (par h dt) psi e rs w).weight / (constrainedStep (par h dt) psi e rs w).ot *
      (v ⬝ᵥ prodState (orbs (constrainedStep (par h dt) psi e rs w).phi))) =
      Real.exp (dt * e) * (w.weight / w.ot) * (v ⬝ᵥ (stepOf h dt *ᵥ prodState (orbs w.phi))) := by
  rw [step_average hS e hw fun φ => v ⬝ᵥ prodState (orbs φ)]
  congr 1
  rw [Fields.field_average, Matrix.dotProduct_mulVec]
  simp only [par]
  rw [show (spinPar dt h.U fun s => NormedSpace.exp (-((dt : ℂ) / 2) • h.h1 s)).bt2 =
      fun s => NormedSpace.exp (-((dt : ℂ) / 2) • h.h1 s) from rfl,
    Fields.stepOp_anti (spinPar dt h.U fun s => NormedSpace.exp (-((dt : ℂ) / 2) • h.h1 s)).auxf dt h.U h.h1 (spin_avg hU _) v hv,
    ← Matrix.dotProduct_mulVec]
  rfl

/-! ## Runs -/

/-- What happens to a walker in a run without population control: steps with the given energy shift (`some`), and
reorthogonalisations (`none`).  The average is over all random numbers of the run. -/
noncomputable def meanRun (p : Par nb) (psi : Wfn nb nu nd) (qr : QR nb) : List (Option ℝ) → (Wk nb nu nd → ℂ) → Wk nb nu nd → ℂ
  | [], F, w => F w
  | some e :: l, F, w => meanOver (List.finRange nb) fun rs => meanRun p psi qr l F (constrainedStep p psi e rs w)
  | none :: l, F, w => meanRun p psi qr l F (orthogonalise qr false w)

/-- The number of steps of a run. -/
def steps (l : List (Option ℝ)) : Nat := l.countP Option.isSome

/-- The sum of the energy shifts of a run. -/
def shifts : List (Option ℝ) → ℝ
  | [] => 0
  | some e :: l => e + shifts l
  | none :: l => shifts l

/-- A set of determinants that reorthogonalisation does not leave. -/
def Kept (qr : QR nb) (S : Wfn nb nu nd → Prop) : Prop := ∀ w : Wk nb nu nd, S w.phi → S (reortho qr w).phi

theorem Valid.reortho {p : Par nb} {psi : Wfn nb nu nd} {S : Wfn nb nu nd → Prop} (hS : Cone p psi S) {qr : QR nb} (hqr : QRSpec qr)
    (hk : Kept qr S) {w : Wk nb nu nd} (h : Valid psi S w) (hs : w.detRShift = 0) :
    Valid psi S (orthogonalise qr false w) ∧ (orthogonalise qr false w).weight = w.weight ∧
      (orthogonalise qr false w).logShift = w.logShift ∧ (orthogonalise qr false w).detRShift = 0 ∧
      ∀ A : Wfn nb nu nd, overlap A w.phi / w.ot = overlap A (orthogonalise qr false w).phi / (orthogonalise qr false w).ot := by
  have hne := (hS.pos _ h.mem).ne
  have hu : FullRank (up w.phi) := fullRank_of_overlap (left_ne_zero_of_mul hne)
  have hd : FullRank (dn w.phi) := fullRank_of_overlap (right_ne_zero_of_mul hne)
  obtain ⟨-, -, h3, h4, h5, -, -⟩ := reortho_facts qr hqr w hu hd
  have ho : orthogonalise qr false w = Slater.reortho qr w := rfl
  rw [ho]
  have h4' : ∀ A, overlap A w.phi = (Slater.reortho qr w).detR * overlap A (Slater.reortho qr w).phi := by
    intro A
    rw [h4 A, hs, Complex.ofReal_zero, Complex.exp_zero, mul_one]
  have hR : ((Slater.reortho qr w).detR : ℂ) ≠ 0 := Complex.ofReal_ne_zero.2 h3.ne'
  refine ⟨⟨hk w h.mem, ?_⟩, rfl, rfl, hs, fun A => ?_⟩
  · rw [h5, h.ot, h4']
    show _ = _ * Complex.exp (w.logShift : ℂ)
    field_simp
  · rw [h4', h5]
    have : w.ot ≠ 0 := by
      rw [h.ot]
      exact mul_ne_zero hne (Complex.exp_ne_zero _)
    field_simp

/-- The averages of two functions that agree on the walkers that occur are the same. -/
theorem meanRun_congr {p : Par nb} {psi : Wfn nb nu nd} {S : Wfn nb nu nd → Prop} (hS : Cone p psi S) {qr : QR nb} (hqr : QRSpec qr)
    (hk : Kept qr S) {c : ℝ} {F G : Wk nb nu nd → ℂ} (hFG : ∀ w, Valid psi S w → w.logShift = c → F w = G w) :
    ∀ (l : List (Option ℝ)) (w : Wk nb nu nd), Valid psi S w → w.logShift = c → w.detRShift = 0 →
      meanRun p psi qr l F w = meanRun p psi qr l G w
  | [], w, h, hc, _ => hFG w h hc
  | some e :: l, w, h, hc, hs => by
    rw [meanRun, meanRun]
    congr 1
    funext rs
    obtain ⟨h1, h2, h3⟩ := h.step hS e rs
    exact meanRun_congr hS hqr hk hFG l _ h1 (h2.trans hc) (h3.trans hs)
  | none :: l, w, h, hc, hs => by
    rw [meanRun, meanRun]
    obtain ⟨h1, -, h3, h4, -⟩ := h.reortho hS hqr hk hs
    exact meanRun_congr hS hqr hk hFG l _ h1 (h3.trans hc) h4

theorem overlap_eq (A φ : Wfn nb nu nd) : overlap A φ = slater A ⬝ᵥ prodState (orbs φ) := Step.ovl2_eq A φ

/-- Reorthogonalisation does not change the overlaps with antisymmetric wave functions over the stored overlap. -/
theorem reortho_anti {w w' : Wk nb nu nd} (h : ∀ A : Wfn nb nu nd, overlap A w.phi / w.ot = overlap A w'.phi / w'.ot)
    {v : (Fin nu ⊕ Fin nd → Fin nb) → ℂ} (hv : Anti spin v) :
    (v ⬝ᵥ prodState (orbs w.phi)) / w.ot = (v ⬝ᵥ prodState (orbs w'.phi)) / w'.ot := by
  obtain ⟨c, e⟩ := Step.anti_span hv
  rw [e, sum_dotProduct, sum_dotProduct, sum_div, sum_div]
  refine sum_congr rfl fun f _ => ?_
  rw [smul_dotProduct, smul_dotProduct, smul_eq_mul, smul_eq_mul, ← overlap_eq, ← overlap_eq, mul_div_assoc, mul_div_assoc, h]

theorem stepOf_sym (h : Hub nb) (dt : ℝ) : Step.Sym spin (stepOf h dt : Matrix (Fin nu ⊕ Fin nd → Fin nb) _ ℂ) :=
  Fields.strang_sym _ _ _

theorem vecMul_pow_anti {X : Matrix (Fin nu ⊕ Fin nd → Fin nb) (Fin nu ⊕ Fin nd → Fin nb) ℂ} (hX : Step.Sym spin X) :
    ∀ (n : Nat) {v : (Fin nu ⊕ Fin nd → Fin nb) → ℂ}, Anti spin v → Anti spin (v ᵥ* X ^ n)
  | 0, v, hv => by simpa using hv
  | n + 1, v, hv => by
    rw [pow_succ, ← Matrix.vecMul_vecMul]
    exact (vecMul_pow_anti hX n hv).vecMul hX

/-- **C120** (a run) The average over a run of weight over overlap times the overlap of the determinant with any antisymmetric wave
function is that of the determinant to which the operator of a step is applied as often as there are steps. -/
theorem run_average (h : Hub nb) {dt : ℝ} (hU : 0 ≤ dt * h.U) {psi : Wfn nb nu nd} {S : Wfn nb nu nd → Prop} (hS : Cone (par h dt) psi S)
    {qr : QR nb} (hqr : QRSpec qr) (hk : Kept qr S) :
    ∀ (l : List (Option ℝ)) (w : Wk nb nu nd), Valid psi S w → w.detRShift = 0 → ∀ v : (Fin nu ⊕ Fin nd → Fin nb) → ℂ, Anti spin v →
      meanRun (par h dt) psi qr l (fun w => w.weight / w.ot * (v ⬝ᵥ prodState (orbs w.phi))) w =
        Real.exp (dt * shifts l) * (w.weight / w.ot) * (v ⬝ᵥ (stepOf h dt ^ steps l *ᵥ prodState (orbs w.phi)))
  | [], w, _, _, v, _ => by
    rw [meanRun, shifts, show steps [] = 0 from rfl, pow_zero, Matrix.one_mulVec, mul_zero, Real.exp_zero, Complex.ofReal_one, one_mul]
  | some e :: l, w, hw, hs, v, hv => by
    rw [meanRun]
    have e1 : ∀ rs, meanRun (par h dt) psi qr l (fun w => w.weight / w.ot * (v ⬝ᵥ prodState (orbs w.phi)))
        (constrainedStep (par h dt) psi e rs w) =
        (constrainedStep (par h dt) psi e rs w).weight / (constrainedStep (par h dt) psi e rs w).ot *
          (((Real.exp (dt * shifts l) : ℂ) • (v ᵥ* stepOf h dt ^ steps l)) ⬝ᵥ prodState (orbs (constrainedStep (par h dt) psi e rs w).phi)) := by
      intro rs
      obtain ⟨h1, -, h3⟩ := hw.step hS e rs
      rw [run_average h hU hS hqr hk l _ h1 (h3.trans hs) v hv, smul_dotProduct, smul_eq_mul, ← Matrix.dotProduct_mulVec]
      ring
    simp only [e1]
    have ha : Anti spin ((Real.exp (dt * shifts l) : ℂ) • (v ᵥ* stepOf h dt ^ steps l)) := by
      intro a b hab hsp f
      have := vecMul_pow_anti (stepOf_sym h dt) (steps l) hv a b hab hsp f
      rw [Pi.smul_apply, Pi.smul_apply, this, smul_neg]
    rw [spin_step h hU hS e hw _ ha, smul_dotProduct, smul_eq_mul, ← Matrix.dotProduct_mulVec, Matrix.mulVec_mulVec,
      show steps (some e :: l) = steps l + 1 from by simp [steps], pow_succ, shifts, mul_add, Real.exp_add]
    push_cast
    ring
  | none :: l, w, hw, hs, v, hv => by
    rw [meanRun]
    obtain ⟨h1, h2, -, h4, h5⟩ := hw.reortho hS hqr hk hs
    rw [run_average h hU hS hqr hk l _ h1 h4 v hv, shifts, show steps (none :: l) = steps l from by simp [steps], h2]
    have := reortho_anti h5 (vecMul_pow_anti (stepOf_sym h dt) (steps l) hv)
    rw [← Matrix.dotProduct_mulVec, ← Matrix.dotProduct_mulVec] at this
    rw [mul_assoc, mul_assoc, div_mul_eq_mul_div, div_mul_eq_mul_div, mul_div_assoc, mul_div_assoc, this]

/-! ## Weights and energies -/

/-- The energy the estimators use for a walker: `local_energy_hubbard` (`estimators/hubbard.py` 93-114) for its Green's function. -/
noncomputable def energy (h : Hub nb) (psi : Wfn nb nu nd) (w : Wk nb nu nd) : ℂ :=
  (Energy.localHubbard h.h1 h.U h.symmetric ![(greensFunction psi w).gUp, (greensFunction psi w).gDn]).1

theorem weight_eq {p : Par nb} {psi : Wfn nb nu nd} {S : Wfn nb nu nd → Prop} (hS : Cone p psi S) {w : Wk nb nu nd} (h : Valid psi S w) :
    (w.weight : ℂ) = w.weight / w.ot * (((Complex.exp (w.logShift : ℂ)) • slater psi) ⬝ᵥ prodState (orbs w.phi)) := by
  have hne := (hS.pos _ h.mem).ne
  rw [smul_dotProduct, ← overlap_eq, h.ot, smul_eq_mul]
  have := Complex.exp_ne_zero (w.logShift : ℂ)
  field_simp

theorem energy_eq (h : Hub nb) {p : Par nb} {psi : Wfn nb nu nd} {S : Wfn nb nu nd → Prop} (hS : Cone p psi S) {w : Wk nb nu nd}
    (hw : Valid psi S w) : (w.weight : ℂ) * energy h psi w = w.weight / w.ot *
      (((Complex.exp (w.logShift : ℂ)) • (slater psi ᵥ* hubOp h.h1 h.U spin)) ⬝ᵥ prodState (orbs w.phi)) := by
  have hne := (hS.pos _ hw.mem).ne
  have h1 := Step.hubbardElem_local h psi w hne
  rw [smul_dotProduct, ← Matrix.dotProduct_mulVec, Step.hubOp_elem, ← h1, smul_eq_mul, hw.ot, energy]
  have := Complex.exp_ne_zero (w.logShift : ℂ)
  rw [show Step.ovl2 psi w.phi = overlap psi w.phi from rfl]
  field_simp

theorem anti_smul {v : (Fin nu ⊕ Fin nd → Fin nb) → ℂ} (hv : Anti spin v) (c : ℂ) : Anti spin (c • v) := by
  intro a b hab hs f
  rw [Pi.smul_apply, Pi.smul_apply, hv a b hab hs f, smul_neg]

/-- **C120** The average weight and the average of weight times local energy after a run.  The energy shifts, the reorthogonalisations
and the stored overlap of the walker do not appear in their quotient. -/
theorem run_estimates (h : Hub nb) {dt : ℝ} (hU : 0 ≤ dt * h.U) {psi : Wfn nb nu nd} {S : Wfn nb nu nd → Prop} (hS : Cone (par h dt) psi S)
    {qr : QR nb} (hqr : QRSpec qr) (hk : Kept qr S) (l : List (Option ℝ)) {w : Wk nb nu nd} (hw : Valid psi S w) (hs : w.detRShift = 0) :
    meanRun (par h dt) psi qr l (fun w => (w.weight : ℂ)) w = Real.exp (dt * shifts l) * (w.weight / overlap psi w.phi) *
      (slater psi ⬝ᵥ (stepOf h dt ^ steps l *ᵥ prodState (orbs w.phi))) ∧
    meanRun (par h dt) psi qr l (fun w => (w.weight : ℂ) * energy h psi w) w = Real.exp (dt * shifts l) *
      (w.weight / overlap psi w.phi) * ((slater psi ᵥ* hubOp h.h1 h.U spin) ⬝ᵥ (stepOf h dt ^ steps l *ᵥ prodState (orbs w.phi))) := by
  have key : ∀ (F : Wk nb nu nd → ℂ) (v : (Fin nu ⊕ Fin nd → Fin nb) → ℂ), Anti spin v →
      (∀ w, Valid psi S w → F w = w.weight / w.ot * ((Complex.exp (w.logShift : ℂ) • v) ⬝ᵥ prodState (orbs w.phi))) →
      meanRun (par h dt) psi qr l F w = Real.exp (dt * shifts l) * (w.weight / overlap psi w.phi) *
        (v ⬝ᵥ (stepOf h dt ^ steps l *ᵥ prodState (orbs w.phi))) := by
    intro F v hv hF
    rw [meanRun_congr hS hqr hk (c := w.logShift) (G := fun u => u.weight / u.ot *
      ((Complex.exp (w.logShift : ℂ) • v) ⬝ᵥ prodState (orbs u.phi))) ?_ l w hw rfl hs,
      run_average h hU hS hqr hk l w hw hs _ (anti_smul hv _), smul_dotProduct, smul_eq_mul, hw.ot]
    · have := Complex.exp_ne_zero (w.logShift : ℂ)
      have hne := (hS.pos _ hw.mem).ne
      field_simp
    · intro u hu hc
      rw [hF u hu, hc]
  exact ⟨key _ _ (Step.slater_anti psi) fun w hw => weight_eq hS hw,
    key _ _ ((Step.slater_anti psi).vecMul (Step.hubOp_sym _ _ _)) fun w hw => energy_eq h hS hw⟩

/-! ## Small steps -/

/-- The energy of a run: the average of weight times local energy over the average weight. -/
noncomputable def runEnergy (h : Hub nb) (dt : ℝ) (psi : Wfn nb nu nd) (qr : QR nb) (l : List (Option ℝ)) (w : Wk nb nu nd) : ℂ :=
  meanRun (par h dt) psi qr l (fun w => (w.weight : ℂ) * energy h psi w) w / meanRun (par h dt) psi qr l (fun w => (w.weight : ℂ)) w

/-- The energy of the state evolved to the imaginary time `β`. -/
noncomputable def exactEnergy (h : Hub nb) (psi φ : Wfn nb nu nd) (β : ℝ) : ℂ :=
  ((slater psi ᵥ* hubOp h.h1 h.U spin) ⬝ᵥ (NormedSpace.exp (-(β : ℂ) • hubOp h.h1 h.U spin) *ᵥ prodState (orbs φ))) /
    (slater psi ⬝ᵥ (NormedSpace.exp (-(β : ℂ) • hubOp h.h1 h.U spin) *ᵥ prodState (orbs φ)))

theorem hubOp_split (h : Hub nb) : (hubOp h.h1 (h.U : ℂ) spin : Matrix (Fin nu ⊕ Fin nd → Fin nb) _ ℂ) =
    spinOp spin h.h1 + hubOp (fun _ => 0) (h.U : ℂ) spin := by
  have : (∑ a : Fin nu ⊕ Fin nd, Step.onP a (0 : Matrix (Fin nb) (Fin nb) ℂ)) = 0 := Step.allP_zero
  rw [hubOp, hubOp, this, zero_add]
  rfl

/-- **C120** Many short steps: the energy of the run converges to that of the state evolved in imaginary time, for any energy shifts and
any reorthogonalisations. -/
theorem run_tendsto (h : Hub nb) (hU : 0 ≤ h.U) {psi : Wfn nb nu nd} {S : Wfn nb nu nd → Prop} (hS : ∀ dt, 0 ≤ dt → Cone (par h dt) psi S)
    {qr : QR nb} (hqr : QRSpec qr) (hk : Kept qr S) {β : ℝ} (hβ : 0 ≤ β) (l : Nat → List (Option ℝ)) (hl : ∀ N, steps (l N) = N + 1)
    {w : Wk nb nu nd} (hw : Valid psi S w) (hs : w.detRShift = 0) (h0 : w.weight ≠ 0)
    (hne : slater psi ⬝ᵥ (NormedSpace.exp (-(β : ℂ) • hubOp h.h1 h.U spin) *ᵥ prodState (orbs w.phi)) ≠ 0) :
    Tendsto (fun N => runEnergy h (β / (N + 1 : Nat)) psi qr (l N) w) atTop (𝓝 (exactEnergy h psi w.phi β)) := by
  have hlim := Fields.strang_limit (spinOp spin h.h1) (hubOp (fun _ => 0) (h.U : ℂ) (spin : Fin nu ⊕ Fin nd → Fin 2)) hβ
  rw [← hubOp_split] at hlim
  have hc : ∀ v : (Fin nu ⊕ Fin nd → Fin nb) → ℂ, Tendsto (fun N : Nat => v ⬝ᵥ (stepOf h (β / (N + 1 : Nat)) ^ (N + 1) *ᵥ
      prodState (orbs w.phi))) atTop (𝓝 (v ⬝ᵥ (NormedSpace.exp (-(β : ℂ) • hubOp h.h1 h.U spin) *ᵥ prodState (orbs w.phi)))) := by
    intro v
    have hcont : Continuous fun M : Matrix (Fin nu ⊕ Fin nd → Fin nb) (Fin nu ⊕ Fin nd → Fin nb) ℂ => v ⬝ᵥ (M *ᵥ prodState (orbs w.phi)) := by
      simp only [Matrix.mulVec, dotProduct]
      fun_prop
    exact (hcont.tendsto _).comp hlim
  refine ((hc _).div (hc _) hne).congr fun N => ?_
  have hdt : 0 ≤ β / ((N + 1 : Nat) : ℝ) := div_nonneg hβ (Nat.cast_nonneg _)
  obtain ⟨e1, e2⟩ := run_estimates h (mul_nonneg hdt hU) (hS _ hdt) hqr hk (l N) hw hs
  rw [runEnergy, e1, e2, hl, mul_div_mul_left, Pi.div_apply]
  exact mul_ne_zero (Complex.ofReal_ne_zero.2 (Real.exp_pos _).ne') (div_ne_zero (Complex.ofReal_ne_zero.2 h0) ((hS _ hdt).pos _ hw.mem).ne)

end Verif.HubRun
