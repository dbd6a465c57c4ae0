import Verif.PWFFT.Propagation

/-!
# Steps of the plane-wave propagator (C93)
-/

namespace Verif.PWFFT

open Finset
open Verif.UEG (Vec nsq Inp energy oneBody)
open Verif.Step (rep elem oneElem sqElem prodElem coulombElem FirstOrder)

/-! ## The Hamiltonian -/

theorem vq_nonneg (I : Inp) (q : Vec) : 0 ≤ vq I q := by
  rw [vq]
  split_ifs with h
  · exact le_refl _
  · have : (0 : ℝ) ≤ I.kfac ^ 2 * (nsq q : ℝ) := mul_nonneg (sq_nonneg _) (by exact_mod_cast UEG.nsq_nonneg q)
    positivity

theorem coef_sq (I : Inp) (hv : 0 < I.vol) (q : Fin (nq I)) : coef I q ^ 2 = 1 / (4 * I.vol) * vq I (qv I q) := by
  rw [coef, mul_pow, Real.sq_sqrt (by positivity), Real.sq_sqrt (vq_nonneg _ _)]

section
variable {A : Type} [Ring A] [Algebra ℂ A]

theorem oneBody_smul {n : Nat} (E : Fin n → Fin n → A) (c : ℂ) (X : Matrix (Fin n) (Fin n) ℂ) :
    oneBody E (c • X) = c • oneBody E X := by
  simp only [oneBody, smul_sum, Matrix.smul_apply, smul_smul, smul_eq_mul]

theorem oneBody_add {n : Nat} (E : Fin n → Fin n → A) (X Y : Matrix (Fin n) (Fin n) ℂ) :
    oneBody E (X + Y) = oneBody E X + oneBody E Y := by
  simp only [oneBody, Matrix.add_apply, add_smul, sum_add_distrib]

theorem oneBody_sub {n : Nat} (E : Fin n → Fin n → A) (X Y : Matrix (Fin n) (Fin n) ℂ) :
    oneBody E (X - Y) = oneBody E X - oneBody E Y := by
  simp only [oneBody, Matrix.sub_apply, sub_smul, sum_sub_distrib]

theorem oneBody_mul {n : Nat} (E : Fin n → Fin n → A) (X Y : Matrix (Fin n) (Fin n) ℂ) :
    oneBody E X * oneBody E Y = ∑ p, ∑ r, ∑ q, ∑ s, (X p r * Y q s) • (E p r * E q s) := by
  unfold oneBody
  rw [sum_mul]
  refine sum_congr rfl fun p _ => ?_
  rw [sum_mul]
  refine sum_congr rfl fun r _ => ?_
  rw [mul_sum]
  refine sum_congr rfl fun q _ => ?_
  rw [mul_sum]
  refine sum_congr rfl fun s _ => ?_
  rw [smul_mul_smul_comm]

theorem coulomb_symm (I : Inp) (hk : (1e-10 : ℝ) ≤ I.kfac ^ 2) (p r q s : Fin (nb I)) : coulomb I r p s q = coulomb I p r q s := by
  rw [coulomb_vq I hk, coulomb_vq I hk]
  have : vq I (pv I r - pv I p) = vq I (pv I p - pv I r) := by rw [← vq_neg, neg_sub]
  rw [this]
  exact if_congr eq_comm rfl rfl

theorem dens_mul (I : Inp) (hk : (1e-10 : ℝ) ≤ I.kfac ^ 2) (hv : 0 < I.vol) (p r q s : Fin (nb I)) :
    ∑ t, (((coef I t ^ 2 : ℝ) : ℂ)) * (dens I t p r * dens I t s q) = (1 / 4) * coulomb I p r q s := by
  simp only [coef_sq I hv, dens, Matrix.of_apply, ite_mul_ite, cond, mul_one]
  rw [qsum I (fun v => ((1 / (4 * I.vol) * vq I v : ℝ) : ℂ)) p r, coulomb_vq I hk]
  simp only [cond2]
  split_ifs
  · push_cast
    field_simp
  · simp

theorem sum_dens (I : Inp) (hk : (1e-10 : ℝ) ≤ I.kfac ^ 2) (hv : 0 < I.vol) (E : Fin (nb I) → Fin (nb I) → A) :
    ∑ t, ((coef I t ^ 2 : ℝ) : ℂ) • (oneBody E (dens I t) * oneBody E (dens I t).transpose) =
      (1 / 4 : ℂ) • ∑ p, ∑ r, ∑ q, ∑ s, coulomb I p r q s • (E p r * E q s) := by
  simp only [oneBody_mul, smul_sum, smul_smul, Matrix.transpose_apply]
  rw [sum_comm]
  refine sum_congr rfl fun p _ => ?_
  rw [sum_comm]
  refine sum_congr rfl fun r _ => ?_
  rw [sum_comm]
  refine sum_congr rfl fun q _ => ?_
  rw [sum_comm]
  refine sum_congr rfl fun s _ => ?_
  rw [← sum_smul, dens_mul I hk hv]

theorem sum_dens' (I : Inp) (hk : (1e-10 : ℝ) ≤ I.kfac ^ 2) (hv : 0 < I.vol) (E : Fin (nb I) → Fin (nb I) → A) :
    ∑ t, ((coef I t ^ 2 : ℝ) : ℂ) • (oneBody E (dens I t).transpose * oneBody E (dens I t)) =
      (1 / 4 : ℂ) • ∑ p, ∑ r, ∑ q, ∑ s, coulomb I p r q s • (E p r * E q s) := by
  simp only [oneBody_mul, smul_sum, smul_smul, Matrix.transpose_apply]
  rw [sum_comm]
  refine sum_congr rfl fun p _ => ?_
  rw [sum_comm]
  refine sum_congr rfl fun r _ => ?_
  rw [sum_comm]
  refine sum_congr rfl fun q _ => ?_
  rw [sum_comm]
  refine sum_congr rfl fun s _ => ?_
  rw [← sum_smul, dens_mul I hk hv, coulomb_symm I hk]

theorem squares (I : Inp) (hk : (1e-10 : ℝ) ≤ I.kfac ^ 2) (hv : 0 < I.vol) (E : Fin (nb I) → Fin (nb I) → A) :
    ∑ t, (oneBody E (opA I t) ^ 2 + oneBody E (opB I t) ^ 2) =
      -∑ p, ∑ r, ∑ q, ∑ s, coulomb I p r q s • (E p r * E q s) := by
  have h1 : ∀ t, oneBody E (opA I t) ^ 2 + oneBody E (opB I t) ^ 2 = (-2 : ℂ) • (((coef I t ^ 2 : ℝ) : ℂ) •
      (oneBody E (dens I t) * oneBody E (dens I t).transpose + oneBody E (dens I t).transpose * oneBody E (dens I t))) := by
    intro t
    rw [opA, opB, oneBody_smul, oneBody_smul, oneBody_add, oneBody_sub]
    generalize oneBody E (dens I t) = X
    generalize oneBody E (dens I t).transpose = Y
    rw [smul_pow, smul_pow, mul_pow, Complex.I_sq, neg_sq, Complex.ofReal_pow]
    generalize (coef I t : ℂ) ^ 2 = c
    rw [neg_one_mul, neg_smul, smul_comm, ← smul_neg, ← smul_add]
    congr 1
    rw [pow_two, pow_two, neg_smul, two_smul ℂ]
    noncomm_ring
  simp only [h1]
  rw [← smul_sum]
  simp only [smul_add, sum_add_distrib]
  rw [sum_dens I hk hv, sum_dens' I hk hv, ← add_smul, smul_smul]
  norm_num

/-- **C93 (Hamiltonian)**: for any operators `E_pr`, the normal-ordered Hamiltonian with the Coulomb integrals is the modified
one-body term minus half the sum of the squares of the operators that the Fourier transforms apply; with or without a twist. -/
theorem hamiltonian_eq (I : Inp) (hk : (1e-10 : ℝ) ≤ I.kfac ^ 2) (hv : 0 < I.vol) (E : Fin (nb I) → Fin (nb I) → A) :
    ∑ i, (energy I (pv I i) : ℂ) • E i i + (1 / 2 : ℂ) • ∑ p, ∑ r, ∑ q, ∑ s,
        coulomb I p r q s • (E p r * E q s - if r = q then E p s else 0) =
      ∑ i, (modOneBody I i : ℂ) • E i i - (1 / 2 : ℂ) • ∑ t, (oneBody E (opA I t) ^ 2 + oneBody E (opB I t) ^ 2) := by
  have hone : ∑ p, ∑ r, ∑ q, ∑ s, coulomb I p r q s • (if r = q then E p s else 0) =
      ∑ p, (∑ r, coulomb I p r r p) • E p p := by
    refine sum_congr rfl fun p _ => ?_
    rw [sum_smul]
    refine sum_congr rfl fun r _ => ?_
    rw [sum_eq_single r]
    · rw [sum_eq_single p]
      · rw [if_pos rfl]
      · intro s _ hsp
        rw [if_pos rfl, coulomb, if_neg, zero_smul]
        rintro ⟨h, _⟩
        rw [add_comm] at h
        exact hsp ((pv_inj I).1 (add_left_cancel h)).symm
      · intro h; exact absurd (mem_univ _) h
    · intro q _ hq
      refine sum_eq_zero fun s _ => ?_
      rw [if_neg (Ne.symm hq), smul_zero]
    · intro h; exact absurd (mem_univ _) h
  have hmod : ∀ i, (modOneBody I i : ℂ) = (energy I (pv I i) : ℂ) - (1 / 2) * ∑ r, coulomb I i r r i := by
    intro i
    rw [modOneBody, Complex.ofReal_sub, Complex.ofReal_sum, mul_sum]
    refine congrArg _ (sum_congr rfl fun r _ => ?_)
    rw [coulomb_vq I hk, if_pos (add_comm _ _)]
    by_cases h : i = r
    · rw [if_neg (not_not.2 h), h, sub_self, vq_zero]; simp
    · rw [if_pos h]; push_cast; field_simp
  rw [squares I hk hv]
  simp only [smul_sub, sum_sub_distrib, hone, hmod]
  simp only [sub_smul, sum_sub_distrib, smul_neg]
  have : ∑ x, ((1 / 2 : ℂ) * ∑ r, coulomb I x r r x) • E x x = (1 / 2 : ℂ) • ∑ p, (∑ r, coulomb I p r r p) • E p p := by
    rw [smul_sum]
    exact sum_congr rfl fun p _ => by rw [smul_smul]
  rw [this]
  abel

end

variable {nu nd : Nat} {I : Inp}

/-- The matrix element of the Coulomb Hamiltonian in terms of the tables of the propagator. -/
theorem coulombElem_eq (I : Inp) (hk : (1e-10 : ℝ) ≤ I.kfac ^ 2) (hv : 0 < I.vol)
    (Au Bu : Matrix (Fin (nb I)) (Fin nu) ℂ) (Ad Bd : Matrix (Fin (nb I)) (Fin nd) ℂ) :
    coulombElem (kin I) (coulomb I) Au Bu Ad Bd =
      oneElem (fun _ => Matrix.diagonal fun i => (modOneBody I i : ℂ)) Au Bu Ad Bd -
      (1 / 2 : ℂ) * ∑ t, (sqElem (fun _ => opA I t) Au Bu Ad Bd + sqElem (fun _ => opB I t) Au Bu Ad Bd) := by
  have h := congrArg (elem Au Bu Ad Bd) (hamiltonian_eq I hk hv (fun a b => rep Au Bu Ad Bd (Matrix.single a b 1)))
  simp only [Step.oneBody_rep, map_add, map_sub, map_smul, map_sum, Step.elem_rep, pow_two,
    Step.elem_rep_mul, smul_eq_mul] at h
  have hd : ∀ v : Fin (nb I) → ℂ, oneElem (fun _ => Matrix.diagonal v) Au Bu Ad Bd =
      ∑ i, v i * oneElem (fun _ => Matrix.single i i 1) Au Bu Ad Bd := by
    intro v
    rw [Step.diagonal_eq, Step.oneElem_sum univ (fun i _ => v i • Step.site i)]
    exact sum_congr rfl fun i _ => Step.oneElem_smul (v i) (fun _ => Step.site i) Au Bu Ad Bd
  simp only [Step.sqElem_eq_prod, hd]
  rw [← h, coulombElem]
  have hk2 : oneElem (kin I) Au Bu Ad Bd = ∑ i, (energy I (pv I i) : ℂ) *
      oneElem (fun _ => Matrix.single i i 1) Au Bu Ad Bd := hd _
  rw [hk2]
  refine congrArg₂ (· + ·) rfl (congrArg ((1 / 2 : ℂ) * ·) ?_)
  refine sum_congr rfl fun p _ => sum_congr rfl fun r _ => sum_congr rfl fun q _ =>
    sum_congr rfl fun s _ => ?_
  refine congrArg (coulomb I p r q s * ·) ?_
  have hm : (Matrix.single p r (1 : ℂ)) * Matrix.single q s 1 = if r = q then Matrix.single p s 1 else 0 := by
    split_ifs with hrq
    · subst hrq; simp
    · simp [hrq]
  rw [prodElem, hm]
  split_ifs with hrq
  · rw [Step.elem_rep]; ring
  · rw [map_zero]
    simp only [oneElem, Step.oneBody_zero]
    ring

/-! ## A free step -/

/-- Weight, phase and orbitals after a free step are those of the general propagator. -/
theorem free_eq {fast : Nat → Nat} (hf : ∀ d, d ≤ fast d) (nmax : Nat) (dt : ℝ) (I : Inp) (psi : Slater.Wfn (nb I) nu nd)
    (e : ℂ) (xi : Fin (nq I + nq I) → ℝ) (k : Walker (nb I) nu nd) :
    (free fast nmax dt I psi e xi k).w.weight = (Step.propagateFree nmax dt (tables dt I) psi e xi k.w).weight ∧
    (free fast nmax dt I psi e xi k).w.phase = (Step.propagateFree nmax dt (tables dt I) psi e xi k.w).phase ∧
    (free fast nmax dt I psi e xi k).w.phi = (Step.propagateFree nmax dt (tables dt I) psi e xi k.w).phi := by
  simp only [free, Slater.inverseOverlap, twoBody_eq hf, kinetic_eq, Step.propagateFree]
  exact ⟨trivial, trivial, trivial⟩

/-- **C93 (free projection)**: the average over the fields of a free step is, to first order in the time step, one minus the time
step times the kinetic energy plus the Coulomb repulsion, for any numbers of electrons, with or without a twist. -/
theorem free_first_order {fast : Nat → Nat} (hf : ∀ d, d ≤ fast d) (n : Nat) (hn : 2 ≤ n) (I : Inp)
    (hk : (1e-10 : ℝ) ≤ I.kfac ^ 2) (hv : 0 < I.vol) (psi A : Slater.Wfn (nb I) nu nd) (e : ℂ) (k : Walker (nb I) nu nd) :
    FirstOrder (fun dt xi => (free fast n dt I psi e xi k).w) k.w A
      (coulombElem (kin I) (coulomb I) (Slater.up A) (Slater.up k.w.phi) (Slater.dn A) (Slater.dn k.w.phi)) e := by
  have key := Step.free_first_order n hn (fun dt => tables dt I)
    (fun _ => Matrix.diagonal fun i => (modOneBody I i : ℂ))
    (fun a _ => Fin.addCases (fun q => opA I q) (fun q => opB I q) a)
    (fun _ => 0) (fun _ => rfl) (fun _ _ => rfl) (fun dt _ x s => ?_) psi A e k.w
    (coulombElem (kin I) (coulomb I) (Slater.up A) (Slater.up k.w.phi) (Slater.dn A) (Slater.dn k.w.phi))
    0 ?_
  · rw [zero_add] at key
    unfold FirstOrder at key ⊢
    simp only [(free_eq hf _ _ I psi e _ k).1, (free_eq hf _ _ I psi e _ k).2.1, (free_eq hf _ _ I psi e _ k).2.2]
    exact key
  · simp only [tables, Step.planeWave, Fin.sum_univ_add, Fin.addCases_left, Fin.addCases_right]
  · rw [coulombElem_eq I hk hv, Step.generator, Fin.sum_univ_add]
    simp only [Fin.addCases_left, Fin.addCases_right, mul_zero, zero_mul, sub_zero, add_zero,
      zero_pow two_ne_zero]
    rw [sum_add_distrib, ← mul_sum, ← mul_sum]
    ring

/-! ## A phaseless step -/

/-- What a step leaves behind and the next one reads: the Green's function of the walker and its overlap. -/
structure Current (psi : Slater.Wfn (nb I) nu nd) (k : Walker (nb I) nu nd) : Prop where
  G : k.G = Slater.greensFunction psi k.w
  ot : k.w.ot = Slater.overlap psi k.w.phi * Complex.exp (k.w.logShift : ℂ)

theorem bound_eq (dt : ℝ) (e : ℂ) {eshift : ℝ} (h : (1e-10 : ℝ) ≤ |eshift|) :
    bound dt e eshift = Weights.boundHybrid dt e eshift := by
  rw [bound, Weights.boundHybrid, if_neg (not_lt.2 h)]

/-- A free step leaves the Green's function and the overlap of the new walker. -/
theorem free_current (fast : Nat → Nat) (nmax : Nat) (dt : ℝ) (psi : Slater.Wfn (nb I) nu nd) (e : ℂ)
    (xi : Fin (nq I + nq I) → ℝ) (k : Walker (nb I) nu nd) : Current psi (free fast nmax dt I psi e xi k) := by
  refine ⟨rfl, ?_⟩
  simp only [free]
  exact Slater.calcOtrial_eq psi _ rfl rfl

/-- **C93 (phaseless step)**: with a Green's function and an overlap that are current, a phaseless step gives the orbitals of the
general propagator with the density operators and their force bias, the weight and the hybrid energy of the hybrid update with
the overlaps of the walker before and after, and leaves them current. -/
theorem phaseless_eq {fast : Nat → Nat} (hf : ∀ d, d ≤ fast d) (nmax : Nat) (dt : ℝ) (psi : Slater.Wfn (nb I) nu nd) {eshift : ℝ}
    (hs : (1e-10 : ℝ) ≤ |eshift|) (xi : Fin (nq I + nq I) → ℝ) (k : Walker (nb I) nu nd) (hc : Current psi k) :
    let r := Step.twoBodyPropagator nmax dt (tables dt I) xi
      (Step.planeWaveForceBias dt (opA I) (opB I) (Slater.greensFunction psi k.w)) (Step.kineticReal (tables dt I).BH1 k.w.phi)
    let phi' := Step.kineticReal (tables dt I).BH1 r.1
    let u := (Weights.updateHybrid dt eshift ⟨Slater.overlap psi k.w.phi, Slater.overlap psi phi', r.2.2.1, r.2.1, 0⟩
      ⟨k.w.weight, k.hyb, 0, 0⟩).1
    let k' := phaseless fast nmax dt I psi eshift xi k
    k'.w.phi = phi' ∧ k'.w.weight = u.weight ∧ k'.hyb = u.hyb ∧ k'.w.phase = k.w.phase ∧ Current psi k' := by
  intro r phi' u k'
  have hphi : (kinetic dt I (twoBody fast nmax dt I xi (forceBias fast dt I psi k.G) (kinetic dt I k.w.phi)).1) = phi' := by
    rw [hc.G, forceBias_eq hf, twoBody_eq hf, kinetic_eq, kinetic_eq]
  have hr : twoBody fast nmax dt I xi (forceBias fast dt I psi k.G) (kinetic dt I k.w.phi) = r := by
    rw [hc.G, forceBias_eq hf, twoBody_eq hf, kinetic_eq]
  have hot : Slater.calcOtrial (Slater.inverseOverlap psi { k.w with phi := phi' }) =
      Slater.overlap psi phi' * Complex.exp (k.w.logShift : ℂ) := Slater.calcOtrial_eq psi _ rfl rfl
  have hratio : Slater.overlap psi phi' * Complex.exp (k.w.logShift : ℂ) / k.w.ot =
      Slater.overlap psi phi' / Slater.overlap psi k.w.phi := by
    rw [hc.ot, mul_div_mul_right _ _ (Complex.exp_ne_zero _)]
  have hhyb : k'.hyb = u.hyb := by
    simp only [k', u, phaseless, Weights.updateHybrid, Weights.hybridEnergy]
    rw [hphi, hr, hot, hratio, bound_eq _ _ hs]
  refine ⟨hphi, ?_, hhyb, rfl, rfl, ?_⟩
  · simp only [k', u, phaseless, Weights.updateHybrid, Weights.hybridEnergy]
    rw [hphi, hr, hot, hratio, bound_eq _ _ hs]
  · simp only [k', phaseless]
    exact Slater.calcOtrial_eq psi _ rfl rfl

/-- **C93 (phaseless step, equal numbers of electrons)**: weight and hybrid energy are those of the general propagator's step
followed by the hybrid update. -/
theorem phaseless_general {fast : Nat → Nat} (hf : ∀ d, d ≤ fast d) (nmax : Nat) (dt : ℝ) (psi : Slater.Wfn (nb I) nu nu)
    {eshift : ℝ} (hs : (1e-10 : ℝ) ≤ |eshift|) (eloc : Slater.GF (nb I) nu nu → ℂ) (xi : Fin (nq I + nq I) → ℝ)
    (k : Walker (nb I) nu nu) (hc : Current psi k) :
    let st := Step.phaseless nmax dt (tables dt I) (Step.planeWaveForceBias dt (opA I) (opB I)) eloc psi xi k.w
    let u := (Weights.updateHybrid dt eshift st.1 ⟨k.w.weight, k.hyb, 0, 0⟩).1
    let k' := phaseless fast nmax dt I psi eshift xi k
    k'.w.phi = st.2.phi ∧ k'.w.weight = u.weight ∧ k'.hyb = u.hyb := by
  intro st u k'
  obtain ⟨h1, h2, h3, -, -⟩ := phaseless_eq hf nmax dt psi hs xi k hc
  have ho : st.1.ovlpNew / st.1.ovlp = Slater.overlap psi st.2.phi / Slater.overlap psi k.w.phi := by
    simp only [st, Step.phaseless]
    rw [Slater.calcOverlap_eq, Slater.greensFunction_det]
    exact mul_div_mul_right _ _ (Complex.exp_ne_zero _)
  have e : Weights.hybridEnergy dt eshift st.1 = Weights.hybridEnergy dt eshift
      ⟨Slater.overlap psi k.w.phi, Slater.overlap psi st.2.phi, st.1.cfb, st.1.cmf, 0⟩ := by
    unfold Weights.hybridEnergy
    rw [ho]
  refine ⟨h1, h2.trans ?_, h3.trans ?_⟩
  · simp only [u, Weights.updateHybrid]
    rw [e]
    rfl
  · simp only [u, Weights.updateHybrid]
    rw [e]
    rfl

end Verif.PWFFT
