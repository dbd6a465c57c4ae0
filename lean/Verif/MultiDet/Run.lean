import Verif.MultiDet.Props

/-!
# Free projection with multi-determinant trials (C85)

Reorthogonalisation keeps the state of the walker, the stored overlap stays the overlap with the trial state, and free
projection with reorthogonalisations anywhere converges to imaginary-time evolution and to the lowest energy among
the eigenstates that occur in the walker and overlap with the trial state.
-/

namespace Verif.MultiDet

open MeasureTheory Matrix Finset Filter Topology
open Verif.Step (slater prodState orbs ovl2 ovl2_eq spin spinOp onP hamOp hubOp Gen Hub Tables Anti Sym avg
  avgOps avgSteps signal Linear Definite Lowest Projects)
open Verif.Slater (taylor FullRank QRSpec)
open Verif.Energy (ovl)

variable {n nx nb nu nd : Nat}

/-! ## Reorthogonalisation -/

/-- **C85 (reorthogonalisation)**: for linearly independent orbitals the new orbitals are orthonormal, the returned
factor is a positive real number, and it relates the overlaps with every trial state before and after. -/
theorem reortho_facts (qr : Slater.QR nb) (hqr : QRSpec qr) (w : Wk n nb nu nd) (hu : FullRank (Slater.up w.phi))
    (hd : FullRank (Slater.dn w.phi)) :
    let r := reortho qr w
    ((Slater.up r.1.phi)ᴴ * Slater.up r.1.phi = 1 ∧ (Slater.dn r.1.phi)ᴴ * Slater.dn r.1.phi = 1) ∧
    (∃ d : ℝ, 0 < d ∧ r.2 = d) ∧
    (∀ {k : Nat} (T : Trial k nb nu nd), bra T ⬝ᵥ ket w = r.2 * (bra T ⬝ᵥ ket r.1)) ∧
    r.1.ot = w.ot / r.2 := by
  obtain ⟨X, d, hX, h2⟩ := Slater.linReortho_ortho qr hqr (Slater.up w.phi) hu
  obtain ⟨Y, e, hY, h3⟩ := Slater.linReortho_ortho qr hqr (Slater.dn w.phi) hd
  have hup : Slater.up (reortho qr w).1.phi = (Slater.linReortho qr (Slater.up w.phi)).1 := Slater.up_join _ _
  have hdn : Slater.dn (reortho qr w).1.phi = (Slater.linReortho qr (Slater.dn w.phi)).1 := Slater.dn_join _ _
  have hr : (reortho qr w).2 = ((d * e : ℝ) : ℂ) := by
    have e1 : (reortho qr w).2 = (Slater.linReortho qr (Slater.up w.phi)).2 *
        (if 0 < nd then (Slater.linReortho qr (Slater.dn w.phi)).2 else 1) := rfl
    rw [e1, h2, h3]
    by_cases hz : 0 < nd
    · rw [if_pos hz]; push_cast; rfl
    · rw [if_neg hz]
      obtain rfl : nd = 0 := by omega
      have := hY.det
      rw [Matrix.det_fin_zero] at this
      rw [Complex.ofReal_mul, ← this]
  refine ⟨⟨by rw [hup]; exact hX.isometry, by rw [hdn]; exact hY.isometry⟩,
    ⟨d * e, mul_pos hX.pos hY.pos, hr⟩, fun {k} T => ?_, rfl⟩
  have hov : ∀ D : Slater.Wfn nb nu nd, ovl2 D w.phi = ((d * e : ℝ) : ℂ) * ovl2 D (reortho qr w).1.phi := by
    intro D
    rw [ovl2, ovl2, hup, hdn]
    conv_lhs => rw [hX.eq, hY.eq]
    rw [ovl, ovl, ← Matrix.mul_assoc, ← Matrix.mul_assoc, Matrix.det_mul, Matrix.det_mul _ Y, hX.det, hY.det, ovl, ovl]
    push_cast
    ring
  rw [bra_dot, bra_dot, hr, mul_sum]
  refine sum_congr rfl fun i _ => ?_
  rw [ket, ket, ← ovl2_eq, ← ovl2_eq, hov]
  ring

/-! ## Runs -/

/-- The average of `F` of the walker after a run: `false` is a step, over independent fields, `true` a
reorthogonalisation. -/
noncomputable def avgRun (step : (Fin nx → ℝ) → Wk n nb nu nd → Wk n nb nu nd) (ortho : Wk n nb nu nd → Wk n nb nu nd)
    (F : Wk n nb nu nd → ℂ) : List Bool → Wk n nb nu nd → ℂ
  | [], w => F w
  | false :: l, w => avg fun xi => avgRun step ortho F l (step xi w)
  | true :: l, w => avgRun step ortho F l (ortho w)

/-- Same state, weight and phase; the stored overlap is the one with the trial state. -/
structure Sim (T : Trial n nb nu nd) (w : Wk n nb nu nd) (v : Slater.Wk nb nu nd) : Prop where
  weight : v.weight = w.weight
  phase : v.phase = w.phase
  phi : v.phi = w.phi
  shift : v.detRShift = 0
  ot : w.ot = bra T ⬝ᵥ ket w

theorem Sim.step {T : Trial n nb nu nd} {w : Wk n nb nu nd} {v : Slater.Wk nb nu nd} (h : Sim T w v) (k : Nat) (dt : ℝ)
    (t : Tables nx nb) (psi : Slater.Wfn nb nu nd) (e : ℂ) (xi : Fin nx → ℝ) :
    Sim T (propagateFree k dt t T e xi w) (Step.propagateFree k dt t psi e xi v) := by
  have hphi : (Step.propagateFree k dt t psi e xi v).phi = (propagateFree k dt t T e xi w).phi := by
    simp only [Step.propagateFree, propagateFree, calcOverlap, h.phi]
  refine ⟨?_, ?_, hphi, h.shift, ?_⟩
  · simp only [Step.propagateFree, propagateFree, h.weight, h.phi, Step.twoBodyPropagator]
  · simp only [Step.propagateFree, propagateFree, h.phase, h.phi, Step.twoBodyPropagator]
  · exact calcOverlap_eq T { w with phi := (propagateFree k dt t T e xi w).phi }

theorem Sim.ortho {T : Trial n nb nu nd} {w : Wk n nb nu nd} {v : Slater.Wk nb nu nd} (h : Sim T w v)
    {qr : Slater.QR nb} (hqr : QRSpec qr) (hu : FullRank (Slater.up w.phi)) (hd : FullRank (Slater.dn w.phi)) :
    Sim T (orthogonalise qr true w) (Slater.orthogonalise qr true v) := by
  obtain ⟨-, ⟨d, hd0, hr⟩, hov, hot⟩ := reortho_facts qr hqr w hu hd
  have hphi : (Slater.reortho qr v).phi = (reortho qr w).1.phi := by
    simp only [Slater.reortho, reortho, h.phi]
  have hR : ((Slater.reortho qr v).detR : ℂ) = (reortho qr w).2 := by
    have hx := Slater.ortho_signs (hqr _ _ hu) hu
    have hy := Slater.ortho_signs (hqr _ _ hd) hd
    have e1 : (Slater.reortho qr v).detR = Real.exp ((∑ i, Real.log ‖(qr nu (Slater.up w.phi)).2 i i‖) +
        (∑ i, Real.log ‖(qr nd (Slater.dn w.phi)).2 i i‖) - 0) := by
      simp only [Slater.reortho, h.phi, h.shift]
    have e2 : (reortho qr w).2 = (Slater.signs (qr nu (Slater.up w.phi)).2 * (qr nu (Slater.up w.phi)).2).det *
        (if 0 < nd then (Slater.signs (qr nd (Slater.dn w.phi)).2 * (qr nd (Slater.dn w.phi)).2).det else 1) := rfl
    rw [e1, e2, sub_zero, Real.exp_add, hx.det, hy.det]
    by_cases hz : 0 < nd
    · rw [if_pos hz]; push_cast; rfl
    · rw [if_neg hz]
      obtain rfl : nd = 0 := by omega
      simp
  refine ⟨?_, ?_, hphi, h.shift, ?_⟩
  · show v.weight * ‖((Slater.reortho qr v).detR : ℂ)‖ = w.weight * ‖(reortho qr w).2‖
    rw [h.weight, hR]
  · show v.phase * Complex.exp (Complex.I * (Complex.arg ((Slater.reortho qr v).detR : ℂ) : ℂ)) =
      w.phase * Complex.exp (Complex.I * (Complex.arg (reortho qr w).2 : ℂ))
    rw [h.phase, hR]
  · show (reortho qr w).1.ot = bra T ⬝ᵥ ket (reortho qr w).1
    have hne : (reortho qr w).2 ≠ 0 := by rw [hr]; exact_mod_cast hd0.ne'
    rw [hot, h.ot, hov T, mul_div_cancel_left₀ _ hne]

/-- Weight × phase × functional of the state. -/
noncomputable def signalM (α : (Fin nu ⊕ Fin nd → Fin nb) → ℂ) (w : Wk n nb nu nd) : ℂ :=
  w.weight * w.phase * (α ⬝ᵥ ket w)

theorem Sim.signal {T : Trial n nb nu nd} {w : Wk n nb nu nd} {v : Slater.Wk nb nu nd} (h : Sim T w v)
    (α : (Fin nu ⊕ Fin nd → Fin nb) → ℂ) : signalM α w = signal α v := by
  rw [signalM, Step.signal, h.weight, h.phase, h.phi, ket]

/-- Runs of the walker with a multi-determinant trial and of one with a single determinant have the same averages. -/
theorem avgRun_eq {t : Tables nx nb} {k : Nat} (dt : ℝ) (hB : ∀ s, (t.BH1 s).det ≠ 0)
    (hT : ∀ (x : Fin nx → ℝ) s, (taylor k (t.vhs (fun a => (x a : ℂ)) s)).det ≠ 0)
    {qr : Slater.QR nb} (hqr : QRSpec qr) (T : Trial n nb nu nd) (psi : Slater.Wfn nb nu nd) (e : ℂ)
    {F : Wk n nb nu nd → ℂ} {α : (Fin nu ⊕ Fin nd → Fin nb) → ℂ} (hF : ∀ w v, Sim T w v → F w = signal α v)
    (ops : List Bool) :
    ∀ (w : Wk n nb nu nd) (v : Slater.Wk nb nu nd), Sim T w v → FullRank (Slater.up w.phi) →
      FullRank (Slater.dn w.phi) →
      avgRun (propagateFree k dt t T e) (orthogonalise qr true) F ops w =
        avgOps (Step.propagateFree k dt t psi e) (Slater.orthogonalise qr true) (signal α) ops v := by
  induction ops with
  | nil => intro w v h _ _; exact hF w v h
  | cons op l ih =>
    intro w v h hu hd
    cases op with
    | false =>
      rw [avgRun, avgOps]
      congr 1
      funext xi
      have hs := h.step k dt t psi e xi
      obtain ⟨h1, h2⟩ := Step.step_orbitals k dt t psi e xi v
      refine ih _ _ hs ?_ ?_
      · rw [← hs.phi, h1, h.phi]; exact ((hu.mul (hB 0)).mul (hT xi 0)).mul (hB 0)
      · rw [← hs.phi, h2, h.phi]; exact ((hd.mul (hB 1)).mul (hT xi 1)).mul (hB 1)
    | true =>
      obtain ⟨⟨a1, a2⟩, -, -, -⟩ := reortho_facts qr hqr w hu hd
      rw [avgRun, avgOps]
      refine ih _ _ (h.ortho hqr hu hd) ?_ ?_
      · show ((Slater.up (reortho qr w).1.phi)ᴴ * Slater.up (reortho qr w).1.phi).det ≠ 0
        rw [a1, Matrix.det_one]; exact one_ne_zero
      · show ((Slater.dn (reortho qr w).1.phi)ᴴ * Slater.dn (reortho qr w).1.phi).det ≠ 0
        rw [a2, Matrix.det_one]; exact one_ne_zero

/-! ## Energies -/

theorem bra_anti (T : Trial n nb nu nd) : Anti spin (bra T) := by
  intro a b hab hs f
  simp only [bra, Finset.sum_apply, Pi.smul_apply, smul_eq_mul]
  rw [← sum_neg_distrib]
  refine sum_congr rfl fun i _ => ?_
  rw [Step.slater_anti (T.psi i) a b hab hs f, mul_neg]

theorem hamOp_sym (g : Gen nx nb) (hL : ∀ a, (g.chol a)ᵀ = g.chol a) :
    Sym (spin (nu := nu) (nd := nd)) (hamOp g.h1 g.chol g.ecore spin) := by
  have h := g.genOp_symm hL 0 (spin (nu := nu) (nd := nd))
  rw [eq_sub_iff_add_eq] at h
  rw [← h]
  exact (Sym.genOp _ _ _ _).add (Sym.one.smul _)

/-- The two limits for runs with any pattern of reorthogonalisations: many small steps, then large imaginary time.
Numerator: weight × phase × `⟨Ψ|H|φ⟩`; denominator: weight × phase × stored overlap. -/
def ProjectsRun (step : ℝ → (Fin nx → ℝ) → Wk n nb nu nd → Wk n nb nu nd) (ortho : Wk n nb nu nd → Wk n nb nu nd)
    (T : Trial n nb nu nd) (H : Matrix (Fin nu ⊕ Fin nd → Fin nb) (Fin nu ⊕ Fin nd → Fin nb) ℂ) (w : Wk n nb nu nd)
    (E0 : ℝ) : Prop :=
  ∃ lim : ℝ → ℂ, (∀ᶠ β in atTop, ∀ pat : ℕ → List Bool, (∀ N, (pat N).count false = N) →
      Tendsto (fun N : ℕ => avgRun (step (β / N)) ortho (fun w => w.weight * w.phase * (bra T ⬝ᵥ (H *ᵥ ket w))) (pat N) w /
        avgRun (step (β / N)) ortho (fun w => w.weight * w.phase * w.ot) (pat N) w) atTop (𝓝 (lim β))) ∧
    Tendsto lim atTop (𝓝 (E0 : ℂ))

/-- The walker as a walker of the single-determinant model. -/
noncomputable def single (w : Wk n nb nu nd) : Slater.Wk nb nu nd :=
  ⟨w.phi, 0, 0, w.ot, w.ovlp, w.weight, w.phase, 0, 0, 0, 0⟩

theorem projectsRun {t : ℝ → Tables nx nb} {K : Fin 2 → Matrix (Fin nb) (Fin nb) ℂ}
    {W : Fin nx → Fin 2 → Matrix (Fin nb) (Fin nb) ℂ} {mf : Fin nx → ℂ} (hL : Linear t K W mf) (hW : Definite W)
    {qr : Slater.QR nb} (hqr : QRSpec qr) (T : Trial n nb nu nd) {psi : Slater.Wfn nb nu nd} {e : ℂ}
    {w : Wk n nb nu nd} (hw : w.ot = bra T ⬝ᵥ ket w) (hu : FullRank (Slater.up w.phi)) (hd : FullRank (Slater.dn w.phi))
    {H : Matrix (Fin nu ⊕ Fin nd → Fin nb) (Fin nu ⊕ Fin nd → Fin nb) ℂ} (hH : Sym spin H) {E0 : ℝ}
    (h : Projects (fun dt xi v => Step.propagateFree 6 dt (t dt) psi e xi v) (bra T) H (single w) E0) :
    ProjectsRun (fun dt xi v => propagateFree 6 dt (t dt) T e xi v) (orthogonalise qr true) T H w E0 := by
  obtain ⟨lim, h1, h2⟩ := h
  refine ⟨lim, ?_, h2⟩
  have hs : Sim T w (single w) := ⟨rfl, rfl, rfl, rfl, hw⟩
  have key : ∀ (dt : ℝ), 0 ≤ dt → ∀ {F : Wk n nb nu nd → ℂ} {α : (Fin nu ⊕ Fin nd → Fin nb) → ℂ}, Anti spin α →
      (∀ w v, Sim T w v → F w = signal α v) → ∀ ops : List Bool,
      avgRun (propagateFree 6 dt (t dt) T e) (orthogonalise qr true) F ops w =
        avgSteps (Step.propagateFree 6 dt (t dt) psi e) (signal α) (ops.count false) (single w) := by
    intro dt hdt F α hα hF ops
    have hB : ∀ s, ((t dt).BH1 s).det ≠ 0 := fun s => by rw [hL.oneBody]; exact Step.exp_det_ne_zero _
    have hT : ∀ (x : Fin nx → ℝ) s, (taylor 6 ((t dt).vhs (fun a => (x a : ℂ)) s)).det ≠ 0 :=
      fun x s => by rw [hL.field _ hdt]; exact hW.det _ x s
    rw [avgRun_eq dt hB hT hqr T psi e hF ops w (single w) hs hu hd,
      Step.avgOps_eq dt hB hT hqr psi e hα ops (single w) (single w) (fun _ => rfl) hu hd rfl]
  filter_upwards [h1, eventually_ge_atTop 0] with β hβ h0 pat hpat
  refine hβ.congr fun N => ?_
  have hdt : (0 : ℝ) ≤ β / N := by positivity
  have a1 := key (β / N) hdt (F := fun w => w.weight * w.phase * (bra T ⬝ᵥ (H *ᵥ ket w))) ((bra_anti T).vecMul hH)
    (fun w v hv => by rw [← hv.signal, signalM, ← Matrix.dotProduct_mulVec]) (pat N)
  have a2 := key (β / N) hdt (F := fun w => w.weight * w.phase * w.ot) (bra_anti T)
    (fun w v hv => by rw [← hv.signal, signalM, hv.ot]) (pat N)
  rw [hpat] at a1 a2
  exact (congrArg₂ (· / ·) a1 a2).symm

/-- **C85 (free projection, generic systems)**: for a real core energy, Hermitian one-body part and real symmetric
Cholesky vectors, free projection from a walker with linearly independent orbitals, with reorthogonalisations at any
times, gives the lowest energy among the eigenstates that occur in the walker's state and overlap with the trial
state. -/
theorem generic_projects (g : Gen nx nb) (hh : ∀ s, (g.h1 s)ᴴ = g.h1 s)
    (hL : ∀ a, (g.chol a)ᵀ = g.chol a) (hR : ∀ a, (g.chol a)ᴴ = g.chol a) (he : star g.ecore = g.ecore)
    (mf : Fin nx → ℂ) (qr : Slater.QR nb) (hqr : QRSpec qr) (T : Trial n nb nu nd) (e : ℂ) (w : Wk n nb nu nd)
    (hw : (w.weight : ℂ) * w.phase ≠ 0) (hot : w.ot = bra T ⬝ᵥ ket w) (hO : bra T ⬝ᵥ ket w ≠ 0)
    (hu : FullRank (Slater.up w.phi)) (hd : FullRank (Slater.dn w.phi)) :
    ∃ E0, Lowest (hamOp g.h1 g.chol g.ecore spin) (bra T) (ket w) E0 ∧
      ProjectsRun (fun dt xi v => propagateFree 6 dt (g.tables dt mf) T e xi v) (orthogonalise qr true) T
        (hamOp g.h1 g.chol g.ecore spin) w E0 := by
  obtain ⟨E0, h⟩ := Step.lowest_exists (Step.hamOp_herm hh hR he spin) hO
  refine ⟨E0, h, projectsRun (g.linear mf) (Or.inr fun a _ => by rw [Matrix.conjTranspose_smul, hR]; simp) hqr T
    (psi := w.phi) hot hu hd (hamOp_sym g hL) ?_⟩
  exact Step.projects (Step.generic_converges 6 (by norm_num) g hL mf w.phi e (single w) _)
    (Step.generic_converges 6 (by norm_num) g hL mf w.phi e (single w) _) hw E0 h

/-- **C85 (free projection, Hubbard model with charge decomposition)** -/
theorem charge_projects (h : Hub nb) (hh : ∀ s, (h.h1 s)ᴴ = h.h1 s) (mf : Fin nb → ℂ) (qr : Slater.QR nb)
    (hqr : QRSpec qr) (T : Trial n nb nu nd) (e : ℂ) (w : Wk n nb nu nd) (hw : (w.weight : ℂ) * w.phase ≠ 0)
    (hot : w.ot = bra T ⬝ᵥ ket w) (hO : bra T ⬝ᵥ ket w ≠ 0) (hu : FullRank (Slater.up w.phi))
    (hd : FullRank (Slater.dn w.phi)) :
    ∃ E0, Lowest (hubOp h.h1 h.U spin) (bra T) (ket w) E0 ∧
      ProjectsRun (fun dt xi v => propagateFree 6 dt (h.charge dt mf) T e xi v) (orthogonalise qr true) T
        (hubOp h.h1 h.U spin) w E0 := by
  obtain ⟨E0, hE⟩ := Step.lowest_exists (Step.hubOp_herm h.U hh spin) hO
  have hs : Sym (spin (nu := nu) (nd := nd)) (hubOp h.h1 h.U spin) := Step.hubOp_sym _ _ _
  refine ⟨E0, hE, projectsRun (h.charge_linear mf) ?_ hqr T (psi := w.phi) hot hu hd hs ?_⟩
  · rcases Step.root_conj h.U with hr | hr
    · exact Or.inr fun i _ => by rw [Matrix.conjTranspose_smul, Step.site_herm, star_mul', hr]; simp
    · exact Or.inl fun i _ => by rw [Matrix.conjTranspose_smul, Step.site_herm, star_mul', hr]; simp
  · exact Step.projects
      (Step.charge_converges 6 (by norm_num) h mf w.phi e (single w) _ (bra_anti T))
      (Step.charge_converges 6 (by norm_num) h mf w.phi e (single w) _ ((bra_anti T).vecMul hs)) hw E0 hE

end Verif.MultiDet
