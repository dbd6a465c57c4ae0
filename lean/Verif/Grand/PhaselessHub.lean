import Verif.Grand.PhaselessProps

/-!
# Phaseless runs of the attractive Hubbard model

The averages a phaseless run reports converge to the grand canonical ones; a later path of a run starts with the
determinants of the path before.
-/

namespace Verif.Grand

open Matrix Finset MeasureTheory
open Verif.Thermal (Mat gfStrat cyclicProduct)
open Verif.Stack (FullInv DiagOk ordered)
open Verif.Step (Linear half avg spin Hub root hubOp site)
open Verif.Weights (cfb cmf xshifted rescale)
open scoped ComplexOrder

variable {nx m : Nat}

/-- What the first path of a phaseless run reports converges to the grand canonical average, for trial density matrices
that are real and equal for both spins. -/
def AveragesPh (n : Nat) (t : ℝ → Step.Tables nx m) (bias : ℝ → (Fin 2 → Mat m) → Fin nx → ℂ) (β : ℝ) (H : Ops m)
    (E : (Fin 2 → Mat m) → ℂ) (O : Ops m) : Prop :=
  gibbs β H 1 ≠ 0 ∧ ∃ (B : ℝ) (L0 : Nat), ∀ (L ss : Nat) (BT : Fin 2 → Mat m) (p : Par nx m) (w0 : ℝ), L0 ≤ L → w0 ≠ 0 →
    RunOk n t β L ss BT p → BT 0 = BT 1 → (∀ s, IsReal (BT s)) → ∃ a b : ℂ,
      phMean p (mfFacOf p.dt p.tab) (bias p.dt) BT ss L w0 E = some a ∧
      phMean p (mfFacOf p.dt p.tab) (bias p.dt) BT ss L w0 (fun _ => 1) = some b ∧
      b ≠ 0 ∧ ‖a / b - gibbs β H O / gibbs β H 1‖ ≤ B / Real.sqrt L

theorem realObs_one : RealObs (m := m) fun _ => 1 := fun _ _ => star_one _

theorem averages_phaseless {K : Fin 2 → Mat m} {W : Fin nx → Fin 2 → Mat m} {n : Nat} (hn : 2 ≤ n)
    {t : ℝ → Step.Tables nx m} {mf : Fin nx → ℂ} (hS : RealSys K W mf) (ht : Linear t K W mf)
    (hK : ∀ s, (K s)ᴴ = K s) {β : ℝ} (hβ : 0 ≤ β) {H O : Ops m} {E : (Fin 2 → Mat m) → ℂ} (hE : Observes E O) (hR : RealObs E)
    {bias : ℝ → (Fin 2 → Mat m) → Fin nx → ℂ} (hb : ∀ dt, RealBias (bias dt)) (h : Averages n t β H E O) :
    AveragesPh n t bias β H E O := by
  obtain ⟨hz, B, L0, h⟩ := h
  obtain ⟨L1, hL1⟩ := exists_nat_ge β
  refine ⟨hz, B, max L0 L1, fun L ss BT p w0 hL hw hok hT hTr => ?_⟩
  obtain ⟨a, b, ha, hb', hne, hab⟩ := h L ss BT p w0 ((le_max_left _ _).trans hL) hw hok
  have h0 : 0 ≤ p.dt := by rw [hok.dt]; positivity
  have h1 : p.dt ≤ 1 := by
    rw [hok.dt]
    refine (div_le_one (by exact_mod_cast hok.pos)).2 (hL1.trans ?_)
    exact_mod_cast (le_max_right _ _).trans hL
  have e := fun {E : (Fin 2 → Mat m) → ℂ} {O : Ops m} (hE : Observes E O) (hR : RealObs E) =>
    phMean_eq hS ht hK (hok.order ▸ hn) hok.tab h0 h1 hok.ok hok.trial hT hTr hE hR (mfFacOf p.dt p.tab) (hb p.dt) L hok.pos
      hok.dvd w0
  have hc : ((‖mfFacOf p.dt p.tab‖ : ℝ) : ℂ) ^ L ≠ 0 :=
    pow_ne_zero _ (Complex.ofReal_ne_zero.2 (norm_ne_zero_iff.2 (Complex.exp_ne_zero _)))
  refine ⟨_, _, by rw [e hE hR, ha]; rfl, by rw [e observes_one realObs_one, hb']; rfl, mul_ne_zero hc hne, ?_⟩
  rw [mul_div_mul_left _ _ hc]
  exact hab

/-! ## Attractive interaction -/

theorem real_of_sq {z : ℂ} {r : ℝ} (hr : 0 ≤ r) (h : z * z = (r : ℂ)) : star z = z := by
  have hs : ((Real.sqrt r : ℝ) : ℂ) * (Real.sqrt r : ℂ) = r := by
    rw [← Complex.ofReal_mul, Real.mul_self_sqrt hr]
  have : (z - (Real.sqrt r : ℂ)) * (z + (Real.sqrt r : ℂ)) = 0 := by linear_combination h - hs
  rcases mul_eq_zero.1 this with h | h
  · rw [sub_eq_zero.1 h]; exact Complex.conj_ofReal _
  · rw [eq_neg_of_add_eq_zero_left h, star_neg]
    congr 1
    exact Complex.conj_ofReal _

theorem root_real {U : ℝ} (hU : U ≤ 0) : star (Complex.I * root U) = Complex.I * root U :=
  real_of_sq (r := -U) (by linarith) (by
    push_cast
    linear_combination (Complex.I * Complex.I) * Step.root_sq U + (U : ℂ) * Complex.I_mul_I)

variable {h : Hub m}

theorem hub_realSys (hU : h.U ≤ 0) (hr : ∀ s, IsReal (h.h1 s)) (he : h.h1 0 = h.h1 1) (alt : Bool) (mu : ℝ)
    {P : Fin 2 → Mat m} (hP : ∀ s i, star (P s i i) = P s i i) :
    RealSys (fun s => (h.h1eMod s - (Complex.I * root h.U) • diagonal fun i => Complex.I * root h.U * (P 0 i i + P 1 i i)) -
        ((if alt then -mu else mu : ℝ) : ℂ) • 1)
      (fun i _ => (Complex.I * root h.U) • site i) (fun i => Complex.I * root h.U * (P 0 i i + P 1 i i)) := by
  have hc := root_real hU
  have hm : ∀ i, star (Complex.I * root h.U * (P 0 i i + P 1 i i)) = Complex.I * root h.U * (P 0 i i + P 1 i i) := by
    intro i
    rw [star_mul', hc, star_add, hP, hP]
  refine ⟨fun s => ?_, ?_, fun i s => ?_, fun _ => rfl, hm⟩
  · refine IsReal.sub (IsReal.sub ?_ (IsReal.smul hc (IsReal.diagonal hm))) (IsReal.smul (Complex.conj_ofReal _) IsReal.one)
    unfold Hub.h1eMod
    split_ifs
    · exact hr s
    · refine (hr s).sub (IsReal.smul ?_ IsReal.one)
      have : star (h.U : ℂ) = h.U := Complex.conj_ofReal _
      simp [star_mul', this]
  · simp only [Hub.h1eMod, he]
  · refine IsReal.smul hc ?_
    rw [isReal_iff]
    intro a b
    simp only [site, Matrix.diagonal_apply, Matrix.of_apply, Matrix.single_apply, Pi.single_apply]
    split_ifs <;> simp

theorem hub_realBias (hU : h.U ≤ 0) (alt : Bool) (mu : ℝ) {P : Fin 2 → Mat m} (hP : ∀ s i, star (P s i i) = P s i i)
    (dt : ℝ) : RealBias (hubBias dt h (hubTables dt h alt mu P)) := by
  intro Q hQ i
  have hc := root_real hU
  have hq : ∀ s, star (Q s i i) = Q s i i := fun s => isReal_iff.1 (hQ s) i i
  have hs : star ((Real.sqrt dt : ℝ) : ℂ) = (Real.sqrt dt : ℂ) := Complex.conj_ofReal _
  simp only [hubBias, hubTables]
  rw [star_mul', star_neg, hs, star_sub, star_mul', hc, star_add, hq, hq, star_mul', hc, star_add, hP, hP]

theorem dot2_real {A B : Mat m} (hA : IsReal A) (hB : IsReal B) : star (Energy.dot2 A B) = Energy.dot2 A B := by
  have ha := isReal_iff.1 hA
  have hb := isReal_iff.1 hB
  unfold Energy.dot2
  rw [star_sum]
  refine sum_congr rfl fun i _ => ?_
  rw [star_sum]
  refine sum_congr rfl fun j _ => ?_
  rw [star_mul', ha, hb]

theorem hub_realObs (hr : ∀ s, IsReal (h.h1 s)) :
    RealObs (fun P => (Energy.localHubbard h.h1 h.U h.symmetric P).1) ∧
    RealObs (fun P => (Energy.localHubbard h.h1 h.U h.symmetric P).2.1) ∧
    RealObs (fun P : Fin 2 → Mat m => (P 0).trace + (P 1).trace) := by
  have hU : star (h.U : ℂ) = h.U := Complex.conj_ofReal _
  refine ⟨fun P hP => ?_, fun P hP => ?_, fun P hP => ?_⟩
  · simp only [Energy.localHubbard]
    rw [star_add, star_add, dot2_real (hr 0) (hP 0), dot2_real (hr 1) (hP 1), star_mul', hU, star_sum]
    congr 2
    refine sum_congr rfl fun i _ => ?_
    rw [star_mul', isReal_iff.1 (hP 0), isReal_iff.1 (hP 1)]
  · simp only [Energy.localHubbard]
    rw [star_add, dot2_real (hr 0) (hP 0), dot2_real (hr 1) (hP 1)]
  · simp only [Matrix.trace, Matrix.diag_apply]
    rw [star_add, star_sum, star_sum]
    congr 1 <;> exact sum_congr rfl fun i _ => isReal_iff.1 (hP _) i i

/-- **C104 (attractive Hubbard model)**: for real hopping equal for both spins, with force bias, the averages of the first
path converge to the grand canonical ones: energy, kinetic energy and number of electrons. -/
theorem hub_averages_phaseless (n : Nat) (hn : 2 ≤ n) (h : Hub m) (hU : h.U ≤ 0) (hr : ∀ s, IsReal (h.h1 s))
    (he : h.h1 0 = h.h1 1) (hh : ∀ s, (h.h1 s)ᴴ = h.h1 s) (alt : Bool) (mu : ℝ)
    {P : Fin 2 → Mat m} (hP : ∀ s i, star (P s i i) = P s i i) {β : ℝ} (hβ : 0 ≤ β) :
    AveragesPh n (fun dt => hubTables dt h alt mu P) (fun dt => hubBias dt h (hubTables dt h alt mu P)) β
      (grand (fun _ _ => hubOp h.h1 h.U spin) (hubMu h alt mu : ℂ))
      (fun P => (Energy.localHubbard h.h1 h.U h.symmetric P).1) (fun _ _ => hubOp h.h1 h.U spin) ∧
    AveragesPh n (fun dt => hubTables dt h alt mu P) (fun dt => hubBias dt h (hubTables dt h alt mu P)) β
      (grand (fun _ _ => hubOp h.h1 h.U spin) (hubMu h alt mu : ℂ))
      (fun P => (Energy.localHubbard h.h1 h.U h.symmetric P).2.1) (oneOp h.h1) ∧
    AveragesPh n (fun dt => hubTables dt h alt mu P) (fun dt => hubBias dt h (hubTables dt h alt mu P)) β
      (grand (fun _ _ => hubOp h.h1 h.U spin) (hubMu h alt mu : ℂ))
      (fun P => (P 0).trace + (P 1).trace) number := by
  obtain ⟨h1, h2, h3⟩ := hub_averages n hn h hh alt mu hP hβ
  obtain ⟨r1, r2, r3⟩ := hub_realObs (h := h) hr
  have hl := hub_linear h alt mu P
  have hK := hub_herm h hh alt mu hP
  have hS := hub_realSys hU hr he alt mu hP
  have hb := hub_realBias hU alt mu hP
  exact ⟨averages_phaseless hn hS hl hK hβ (fun C hC => wick_hub hC h.h1 h.U h.symmetric) r1 hb h1,
    averages_phaseless hn hS hl hK hβ (observes_oneBody h.h1) r2 hb h2,
    averages_phaseless hn hS hl hK hβ observes_number r3 hb h3⟩

/-- The hypotheses are met for every number of slices: real hopping equal for both spins, its density matrix as trial. -/
example (h : Hub m) (hr : ∀ s, IsReal (h.h1 s)) (he : h.h1 0 = h.h1 1) (hh : ∀ s, (h.h1 s)ᴴ = h.h1 s) (mu β : ℝ)
    (P : Fin 2 → Mat m) (ss nb : Nat) (hs : 0 < ss) (hb : 0 < nb) :
    ∃ BT p, RunOk 6 (fun dt => hubTables dt h false mu P) β (ss * nb) ss BT p ∧ BT 0 = BT 1 ∧ ∀ s, IsReal (BT s) := by
  refine ⟨fun s => half (h.h1 s) (Real.sqrt (β / (ss * nb : Nat))) * half (h.h1 s) (Real.sqrt (β / (ss * nb : Nat))),
    ⟨⟨.current, fun s => (half (h.h1 s) (Real.sqrt (β / (ss * nb : Nat))) * half (h.h1 s) (Real.sqrt (β / (ss * nb : Nat))))⁻¹,
      false, Thermal.someQRP⟩, 6, β / (ss * nb : Nat), hubTables (β / (ss * nb : Nat)) h false mu P⟩,
    ⟨Nat.mul_pos hs hb, ⟨nb, rfl⟩, rfl, rfl, rfl, ?_, fun s => half_pos (hh s) _⟩, by simp only [he], fun s => ?_⟩
  · refine ⟨⟨Thermal.someQRP_spec, hs, fun s => ?_, fun s hd => by simp at hd, fun s hd => by simp at hd,
      fun hd => by simp at hd⟩, fun hd => absurd rfl hd⟩
    exact Matrix.mul_nonsing_inv _ ((Matrix.isUnit_iff_isUnit_det _).1 (half_pos (hh s) _).isUnit)
  · have hx : IsReal (half (h.h1 s) (Real.sqrt (β / (ss * nb : Nat)))) := by
      refine IsReal.exp (IsReal.smul ?_ (hr s))
      simp
    exact hx.mul hx

/-! ## The weight -/

/-- **C104 (weight)**: a phaseless step keeps a weight that is not negative so, and does not change the phase. -/
theorem phStep_nonneg {p : Par nx m} {mfFac : ℂ} {bias : (Fin 2 → Mat m) → Fin nx → ℂ} {x : Fin nx → ℝ}
    {w w' : PWk m} (h0 : 0 ≤ w.weight) (h : phStep p mfFac bias x w = some w') : 0 ≤ w'.weight ∧ w'.phase = w.phase := by
  unfold phStep at h
  simp only at h
  split at h
  case h_2 => simp at h
  case h_1 a b ha hb =>
    unfold phFinish at h
    simp only at h
    split_ifs at h
    · simp only [Option.some.injEq] at h
      rw [← h]
      exact ⟨le_rfl, rfl⟩
    · simp only [Option.some.injEq] at h
      rw [← h]
      exact ⟨mul_nonneg h0 (mul_nonneg (norm_nonneg _) (le_max_left _ _)), rfl⟩

/-! ## Later paths -/

/-- One site without interaction. -/
noncomputable def bare : Hub 1 := ⟨fun _ => 0, 0, false⟩

/-- A run of one slice; the trial density matrix is twice the identity. -/
noncomputable def barePar : Par 1 1 :=
  ⟨⟨.current, fun _ => (1 / 2 : ℂ) • 1, false, Thermal.someQRP⟩, 6, 1, hubTables 1 bare false 0 fun _ => 0⟩

noncomputable def bareTrial : Fin 2 → Mat 1 := fun _ => (2 : ℂ) • 1

theorem root_zero : root 0 = 0 := by
  rw [root, Complex.ofReal_zero, Complex.zero_cpow (by norm_num)]

theorem bare_ok : ParOk barePar bareTrial 1 := by
  refine ⟨⟨Thermal.someQRP_spec, one_pos, fun s => ?_, fun s hd => by simp [barePar] at hd, fun s hd => by simp [barePar] at hd,
    fun hd => by simp [barePar] at hd⟩, fun hd => absurd rfl hd⟩
  simp [barePar, bareTrial, smul_smul]

theorem bare_bias (w : TWk 1) : xbarOf (hubBias 1 bare (hubTables 1 bare false 0 fun _ => 0)) w = fun _ => 0 := by
  funext i
  simp [xbarOf, hubBias, hubTables, bare, root_zero, rescale]

/-- **C104 (later paths, the case where it fails)**: one site without interaction, trial density matrix twice the identity,
one slice.  The walkers end the first path with weight 4/9, the ratio of the determinants; a second path, the same in every
respect, ends with weight 1. -/
theorem later_path_differs : ∃ (v w : PWk 1) (x : Fin 1 → ℝ),
    newPh (phSetup barePar) bareTrial 1 1 1 = some v ∧
    runPh barePar (mfFacOf 1 barePar.tab) (hubBias 1 bare barePar.tab) [x] v = some w ∧
    phMean barePar (mfFacOf 1 barePar.tab) (hubBias 1 bare barePar.tab) bareTrial 1 1 1 (fun _ => 1) = some (4 / 9) ∧
    phNext barePar (mfFacOf 1 barePar.tab) (hubBias 1 bare barePar.tab) bareTrial 1 w (fun _ => 1) = 1 := by
  have hP : ∀ (s : Fin 2) (i : Fin 1), star ((fun _ => 0 : Fin 2 → Mat 1) s i i) = (fun _ => 0 : Fin 2 → Mat 1) s i i := by simp
  have hS := hub_realSys (h := bare) le_rfl (fun s => by simp [bare, IsReal]) rfl false 0 hP
  have hl := hub_linear bare false 0 fun _ => 0
  have hK := hub_herm bare (fun s => by simp [bare]) false 0 hP
  have hb := hub_realBias (h := bare) le_rfl false 0 hP 1
  have hT : bareTrial 0 = bareTrial 1 := rfl
  have hTr : ∀ s, IsReal (bareTrial s) := fun s => IsReal.smul (by simp) IsReal.one
  have hpd : ∀ s, (bareTrial s).PosDef := by
    intro s
    exact Matrix.PosDef.smul Matrix.PosDef.one (by norm_num)
  have hdt : ∀ s, (1 + bareTrial s ^ (1 * 1)).det = 3 := by
    intro s
    simp [bareTrial]
    norm_num
  obtain ⟨v, hv, hi, hw, hm⟩ := newPh_ok bare_ok one_pos hT hTr (fun s => by rw [hdt]; norm_num) 1
  have hr := reach_start 6 hK (fun i _ => (Complex.I * root bare.U) • site i) (Real.sqrt 1) hpd 1
  have hae := phStep_ae hS hl (p := barePar) rfl zero_le_one bare_ok hT hTr (mfFacOf 1 barePar.tab) hb 0 0 rfl
    (fun _ => []) v hi hr
  have hsl : ∀ z σ, sliceC 6 (fun s => (bare.h1eMod s - (Complex.I * root bare.U) • diagonal fun i : Fin 1 =>
      Complex.I * root bare.U * ((fun _ => 0 : Fin 2 → Mat 1) 0 i i + (fun _ => 0 : Fin 2 → Mat 1) 1 i i)) -
        ((if false then -(0 : ℝ) else 0 : ℝ) : ℂ) • 1) (fun i _ => (Complex.I * root bare.U) • site i) (Real.sqrt 1) z σ = 1 := by
    intro z σ
    simp [sliceC, half, bare, root_zero, Hub.h1eMod, Slater.taylor, Finset.sum_range_succ]
  have hmf : ((‖mfFacOf 1 barePar.tab‖ : ℝ) : ℂ) = 1 := by
    simp [mfFacOf, barePar, hubTables]
  have key : ∀ᵐ x : Fin 1 → ℝ, ∃ w', phStep barePar (mfFacOf 1 barePar.tab) (hubBias 1 bare barePar.tab) x v = some w' ∧
      (w'.weight : ℂ) = 4 / 9 ∧ w'.M0 0 * w'.M0 1 = 1 / 4 ∧ ∃ Bs, PhInv (phSetup barePar) bareTrial 1 1 (1 * 1) Bs w' := by
    filter_upwards [hae] with x hx
    obtain ⟨w', B, D, -, hB, hw', hinv, -, hD, hwt, hm'⟩ := hx
    have hB1 : ∀ s, B s = 1 := fun s => by rw [hB]; exact hsl _ s
    have hD4 : D = 4 := by
      rw [hD, hB1, hB1]
      simp [ordered]
      norm_num
    refine ⟨w', hw', ?_, by rw [hm', hD4]; norm_num, _, hinv⟩
    have hbx : xbarOf (hubBias 1 bare (hubTables 1 bare false 0 fun _ => 0)) v.toTWk = fun _ => 0 := bare_bias _
    rw [hwt, hw, hmf, hD4, hm, hdt, hdt, hbx]
    simp [cfb]
    norm_num
  obtain ⟨x, w, hxw, -, hM, Bs, hinv⟩ := key.exists
  have hmean : phMean barePar (mfFacOf 1 barePar.tab) (hubBias 1 bare barePar.tab) bareTrial 1 1 1 (fun _ => 1) = some (4 / 9) := by
    have e : newPh (phSetup barePar) bareTrial 1 1 1 = some v := hv
    rw [phMean, e, Option.map_some, avgPh]
    congr 1
    rw [← Step.avg_const (nx := 1) (4 / 9)]
    refine avg_congr_ae ?_
    filter_upwards [key] with x hx
    obtain ⟨w', hw', hwt, -⟩ := hx
    rw [hw', Option.map_some, Option.getD_some, avgPh, phMeasure, hwt]
    simp
  refine ⟨v, w, x, hv, by rw [runPh, hxw]; rfl, hmean, ?_⟩
  have := phNext_eq hS hl hK (p := barePar) (by simp [barePar]) rfl zero_le_one le_rfl bare_ok one_pos hpd hT hTr observes_one
    realObs_one (mfFacOf 1 barePar.tab) hb hinv (phStep_frame (newPh_frame one_pos hv) hxw)
  have e1 : phMean barePar (mfFacOf 1 barePar.tab) (hubBias 1 bare (hubTables 1 bare false 0 fun _ => 0)) bareTrial 1 (1 * 1) 1
      (fun _ => 1) = some (4 / 9) := hmean
  rw [e1, Option.map_some, Option.some.injEq, hdt, hdt, hM] at this
  have e2 : phNext barePar (mfFacOf 1 barePar.tab) (hubBias 1 bare barePar.tab) bareTrial 1 w (fun _ => 1) =
    phNext barePar (mfFacOf 1 barePar.tab) (hubBias 1 bare (hubTables 1 bare false 0 fun _ => 0)) bareTrial (1 * 1) w
      (fun _ => 1) := rfl
  rw [e2, this]
  norm_num

end Verif.Grand
