import Verif.SpinProj.Model
import Verif.SpinProj.Wave

/-!
# C123: what the spin-projected initial walker is good for
-/

namespace Verif.SpinProj

open Matrix Finset

variable {nx nb nu nd : Nat}

/-- The down orbitals lie in the span of the up orbitals. -/
def Pure (phi : Slater.Wfn nb nu nd) : Prop :=
  ∃ C : Matrix (Fin nu) (Fin nd) ℂ, Slater.dn phi = Slater.up phi * C

theorem pure_cols (hu : nu ≤ nb) (hd : nd ≤ nb) (h : nd ≤ nu) (V : Matrix (Fin nb) (Fin nb) ℂ) :
    Pure (Slater.join (Uhf.cols hu V) (Uhf.cols hd V)) := by
  refine ⟨Matrix.of fun a b => if a = Fin.castLE h b then 1 else 0, ?_⟩
  rw [Slater.up_join, Slater.dn_join]
  ext i b
  rw [mul_apply, sum_eq_single (Fin.castLE h b)]
  · simp [Uhf.cols]
  · intro a _ ha
    rw [of_apply, if_neg ha, mul_zero]
  · intro hn
    exact absurd (mem_univ _) hn

/-- With both choices of `init_walker` the initial walker has its down orbitals in the span of the up ones. -/
theorem spinInit_pure {hu : nu ≤ nb} {hd : nd ≤ nb} (h : nd ≤ nu) {eigh : Uhf.Eig nb}
    {sort : (Fin nb → ℝ) → Equiv.Perm (Fin nb)} {free : Bool} {h1 : Matrix (Fin nb) (Fin nb) ℂ}
    {psi phi : Slater.Wfn nb nu nd} (hi : spinInit hu hd eigh sort free h1 psi = some phi) : Pure phi := by
  cases free with
  | true =>
    simp only [spinInit, if_true, Option.some.injEq] at hi
    exact hi ▸ pure_cols hu hd h _
  | false =>
    simp only [spinInit, Bool.false_eq_true, if_false, Option.map_eq_some_iff] at hi
    obtain ⟨_, _, rfl⟩ := hi
    exact pure_cols hu hd h _

/-! ## Steps that treat both spins alike -/

theorem pure_mul {phi : Slater.Wfn nb nu nd} (h : Pure phi) (B : Matrix (Fin nb) (Fin nb) ℂ) :
    Pure (Slater.join (B * Slater.up phi) (B * Slater.dn phi)) := by
  obtain ⟨C, hC⟩ := h
  exact ⟨C, by rw [Slater.up_join, Slater.dn_join, hC, Matrix.mul_assoc]⟩

theorem pure_ortho {qr : Slater.QR nb} (hqr : Slater.QRSpec qr) (free : Bool) {w : Slater.Wk nb nu nd}
    (hu : Slater.FullRank (Slater.up w.phi)) (hd : Slater.FullRank (Slater.dn w.phi)) (h : Pure w.phi) :
    Pure (Slater.orthogonalise qr free w).phi := by
  obtain ⟨C, hC⟩ := h
  obtain ⟨_, ⟨X, Y, _, hY, eX, eY⟩, _⟩ := Slater.reortho_facts qr hqr w hu hd
  have e : (Slater.orthogonalise qr free w).phi = (Slater.reortho qr w).phi := by
    rw [Slater.orthogonalise]; cases free <;> rfl
  rw [e]
  refine ⟨X * C * Y⁻¹, ?_⟩
  have hY' : IsUnit Y.det := isUnit_iff_ne_zero.2 hY
  calc Slater.dn (Slater.reortho qr w).phi
      = Slater.dn (Slater.reortho qr w).phi * Y * Y⁻¹ := by
        rw [Matrix.mul_assoc, Matrix.mul_nonsing_inv _ hY', Matrix.mul_one]
    _ = _ := by rw [← eY, hC, eX]; simp only [Matrix.mul_assoc]

/-- The tables of the propagator are the same for both spins. -/
structure Alike (t : Step.Tables nx nb) : Prop where
  bh1 : t.BH1 0 = t.BH1 1
  vhs : ∀ x, t.vhs x 0 = t.vhs x 1

theorem gen_alike {dt : ℝ} {g : Step.Gen nx nb} (mf : Fin nx → ℂ) (h : g.h1 0 = g.h1 1) :
    Alike (g.tables dt mf) :=
  ⟨by simp only [Step.Gen.tables, Step.Gen.h1eMod, h], fun _ => rfl⟩

theorem charge_alike {dt : ℝ} {h : Step.Hub nb} (mf : Fin nb → ℂ) (hh : h.h1 0 = h.h1 1) :
    Alike (h.charge dt mf) :=
  ⟨by simp only [Step.Hub.charge, Step.Hub.h1eMod, hh], fun _ => rfl⟩

theorem planeWave_alike {nq : Nat} {dt : ℝ} {h1 : Fin 2 → Matrix (Fin nb) (Fin nb) ℂ}
    (iA iB : Fin nq → Matrix (Fin nb) (Fin nb) ℂ) (hh : h1 0 = h1 1) : Alike (Step.planeWave dt h1 iA iB) :=
  ⟨by simp only [Step.planeWave, hh], fun _ => rfl⟩

theorem pure_step {t : Step.Tables nx nb} (ht : Alike t) (n : Nat) (dt : ℝ) (xi : Fin nx → ℝ) (fb : Fin nx → ℂ)
    {phi : Slater.Wfn nb nu nd} (h : Pure phi) :
    Pure (Step.kineticReal t.BH1 (Step.twoBodyPropagator n dt t xi fb (Step.kineticReal t.BH1 phi)).1) := by
  simp only [Step.kineticReal, Step.twoBodyPropagator, ht.bh1, ht.vhs, Slater.applyExponential_taylor]
  exact pure_mul (pure_mul (pure_mul h _) _) _

theorem act_pure {qr : Slater.QR nb} (hqr : Slater.QRSpec qr) {n : Nat} {dt : ℝ} {t : Step.Tables nx nb}
    (ht : Alike t) {psi : Slater.Wfn nb nu nd} {w w' : Slater.Wk nb nu nd} (hw : Act qr n dt t psi w w')
    (h : Pure w.phi) : Pure w'.phi := by
  cases hw with
  | free eshift xi => exact pure_step ht n dt xi _ h
  | phaseless fb eloc xi => exact pure_step ht n dt xi _ h
  | ortho free _ hu hd => exact pure_ortho hqr free hu hd h
  | other _ _ he => rw [he]; exact h

/-! ## The discrete charge decomposition -/

theorem addRow_mul {k l : Nat} (A : Matrix (Fin nb) (Fin k) ℂ) (C : Matrix (Fin k) (Fin l) ℂ) (i : Fin nb)
    (d : ℂ) : Hirsch.addRow (A * C) i d = Hirsch.addRow A i d * C := by
  ext a j
  rw [mul_apply]
  simp only [Hirsch.addRow]
  split_ifs
  · rw [mul_apply, sum_mul, ← sum_add_distrib]
    exact sum_congr rfl fun c _ => by ring
  · rw [mul_apply]

theorem foldl_addRow_mul {k l : Nat} (d : Fin nb → ℂ) (C : Matrix (Fin k) (Fin l) ℂ) (L : List (Fin nb)) :
    ∀ A : Matrix (Fin nb) (Fin k) ℂ, L.foldl (fun A i => Hirsch.addRow A i (d i)) (A * C) =
      L.foldl (fun A i => Hirsch.addRow A i (d i)) A * C := by
  induction L with
  | nil => intro A; rfl
  | cons i L ih =>
    intro A
    rw [List.foldl_cons, List.foldl_cons, addRow_mul, ih]

/-- The factors of the fields and the one-body propagator are the same for both spins. -/
structure AlikeH (p : Hirsch.Par nb) : Prop where
  aux : ∀ xi, p.auxf xi 0 = p.auxf xi 1
  bt2 : p.bt2 0 = p.bt2 1

theorem chargePar_alike (dt U : ℝ) (gamma : ℂ) {bt2 : Fin 2 → Matrix (Fin nb) (Fin nb) ℂ} (h : bt2 0 = bt2 1) :
    AlikeH (Hirsch.chargePar dt U gamma bt2) := ⟨fun _ => rfl, h⟩

variable {p : Hirsch.Par nb} (hp : AlikeH p)
include hp

theorem delta_alike (xi : Fin 2) : p.delta xi 0 = p.delta xi 1 := by
  rw [Hirsch.Par.delta, Hirsch.Par.delta, hp.aux]

theorem pure_kinetic {phi : Slater.Wfn nb nu nd} (h : Pure phi) : Pure (Hirsch.kineticReal p.bt2 phi) := by
  rw [Hirsch.kineticReal, hp.bt2]
  exact pure_mul h _

theorem pure_kineticIS {psi : Slater.Wfn nb nu nd} {w : Slater.Wk nb nu nd} (h : Pure w.phi) :
    Pure (Hirsch.kineticIS p psi w).phi := by
  have e : (Hirsch.kineticIS p psi w).phi = Hirsch.kineticReal p.bt2 w.phi := by
    unfold Hirsch.kineticIS
    dsimp only
    rw [apply_ite Slater.Wk.phi]
    exact ite_self _
  rw [e]
  exact pure_kinetic hp h

theorem pure_applyField {psi : Slater.Wfn nb nu nd} {w : Slater.Wk nb nu nd} (h : Pure w.phi) (i : Fin nb)
    (xi : Fin 2) : Pure (Hirsch.applyField p psi w i xi).phi := by
  obtain ⟨C, hC⟩ := h
  refine ⟨C, ?_⟩
  simp only [Hirsch.applyField, Slater.updateInverseOverlap, Slater.up_join, Slater.dn_join, hC,
    delta_alike hp, addRow_mul]

theorem pure_singleSite (psi : Slater.Wfn nb nu nd) (rs : Fin nb → ℝ) (L : List (Fin nb)) :
    ∀ w : Slater.Wk nb nu nd, Pure w.phi → Pure (Hirsch.singleSite p psi rs L w).1.phi := by
  induction L with
  | nil => intro w h; exact h
  | cons i L ih =>
    intro w h
    rw [Hirsch.singleSite]
    split_ifs
    · exact ih _ (pure_applyField hp h _ _)
    · exact h

theorem hact_pure {qr : Slater.QR nb} (hqr : Slater.QRSpec qr) {psi : Slater.Wfn nb nu nd}
    {w w' : Slater.Wk nb nu nd} (hw : HAct qr p psi w w') (h : Pure w.phi) : Pure w'.phi := by
  cases hw with
  | free eshift fields =>
    refine pure_kinetic hp ?_
    obtain ⟨C, hC⟩ := pure_kinetic hp h
    refine ⟨C, ?_⟩
    rw [Slater.up_join, Slater.dn_join, hC]
    simp only [delta_alike hp]
    exact foldl_addRow_mul _ C _ _
  | constrained eshift rs =>
    have h1 : Pure (if 0 < |w.weight| then Hirsch.kineticIS p psi w else w).phi := by
      split_ifs
      · exact pure_kineticIS hp h
      · exact h
    simp only [Hirsch.constrainedStep]
    generalize (if 0 < |w.weight| then Hirsch.kineticIS p psi w else w) = w1 at h1
    have h2 : Pure (if 0 < |w1.weight| then (Hirsch.singleSite p psi rs (List.finRange nb) w1).1 else w1).phi := by
      split_ifs
      · exact pure_singleSite hp psi rs _ _ h1
      · exact h1
    generalize (if 0 < |w1.weight| then (Hirsch.singleSite p psi rs (List.finRange nb) w1).1 else w1) = w2 at h2
    split_ifs
    · exact pure_kineticIS hp h2
    · exact h2
  | kinetic => exact pure_kineticIS hp h
  | direct charge gamma rs =>
    simp only [Hirsch.direct]
    split_ifs <;> (simp only [hp.aux]; exact pure_mul h _)
  | ortho free _ hu hd => exact pure_ortho hqr free hu hd h
  | other _ _ he => rw [he]; exact h

omit hp

/-! ## C123 -/

/-- What is claimed of a walker with orbitals `phi`: it is an eigenfunction of `S²` with `s = (nu - nd) / 2`;
and neither it, nor what an operator that does not act on the spins makes of it, has any overlap with a state of
another spin. -/
structure SpinPure (phi : Slater.Wfn nb nu nd) : Prop where
  eig : spinSq (wave phi) = ((nu - nd : ℂ) / 2 * ((nu - nd : ℂ) / 2 + 1)) • wave phi
  other : ∀ (Theta : Conf nb nu nd → ℂ) (t : ℝ), spinSq Theta = (t : ℂ) • Theta →
    t ≠ (nu - nd : ℝ) / 2 * ((nu - nd : ℝ) / 2 + 1) →
    inner Theta (wave phi) = 0 ∧ ∀ K, inner Theta (spatial K (wave phi)) = 0

theorem spinPure_of_pure {phi : Slater.Wfn nb nu nd} (h : Pure phi) : SpinPure phi := by
  obtain ⟨C, hC⟩ := h
  have e := spinSq_wave phi C hC
  refine ⟨e, fun Theta t hT ht => ?_⟩
  have hne : (t : ℂ) ≠ (nu - nd : ℂ) / 2 * ((nu - nd : ℂ) / 2 + 1) := by
    intro h
    refine ht ?_
    exact_mod_cast h
  refine ⟨inner_eq_zero hT e hne, fun K => ?_⟩
  refine inner_eq_zero hT (s := (nu - nd : ℂ) / 2 * ((nu - nd : ℂ) / 2 + 1)) ?_ hne
  rw [← spatial_spinSq, e, spatial_smul]

/-- **C123, continuous propagators.**  In a run whose tables are the same for both spins, started from the
spin-projected initial walker with no more down than up electrons, all walkers keep the spin
`s = (nu - nd) / 2` exactly, whatever the fields, force bias, weights and reorthogonalisations. -/
theorem run_spinPure {hu : nu ≤ nb} {hd : nd ≤ nb} (h : nd ≤ nu) {eigh : Uhf.Eig nb}
    {sort : (Fin nb → ℝ) → Equiv.Perm (Fin nb)} {free : Bool} {h1 : Matrix (Fin nb) (Fin nb) ℂ}
    {psi0 psi : Slater.Wfn nb nu nd} {w w' : Slater.Wk nb nu nd}
    (hi : spinInit hu hd eigh sort free h1 psi0 = some w.phi) {qr : Slater.QR nb} (hqr : Slater.QRSpec qr)
    {n : Nat} {dt : ℝ} {t : Step.Tables nx nb} (ht : Alike t)
    (hw : Relation.ReflTransGen (Act qr n dt t psi) w w') : SpinPure w'.phi := by
  refine spinPure_of_pure ?_
  induction hw with
  | refl => exact spinInit_pure h hi
  | tail _ hs ih => exact act_pure hqr ht hs ih

/-- **C123, discrete Hubbard propagators** with the same factors for both spins, such as those of the charge
decomposition. -/
theorem hubbard_run_spinPure {hu : nu ≤ nb} {hd : nd ≤ nb} (h : nd ≤ nu) {eigh : Uhf.Eig nb}
    {sort : (Fin nb → ℝ) → Equiv.Perm (Fin nb)} {free : Bool} {h1 : Matrix (Fin nb) (Fin nb) ℂ}
    {psi0 psi : Slater.Wfn nb nu nd} {w w' : Slater.Wk nb nu nd}
    (hi : spinInit hu hd eigh sort free h1 psi0 = some w.phi) {qr : Slater.QR nb} (hqr : Slater.QRSpec qr)
    {p : Hirsch.Par nb} (hp : AlikeH p) (hw : Relation.ReflTransGen (HAct qr p psi) w w') : SpinPure w'.phi := by
  refine spinPure_of_pure ?_
  induction hw with
  | refl => exact spinInit_pure h hi
  | tail _ hs ih => exact hact_pure hp hqr hs ih

theorem inner_add_left (A B Psi : Conf nb nu nd → ℂ) : inner (A + B) Psi = inner A Psi + inner B Psi := by
  simp only [inner, Pi.add_apply, star_add, add_mul, sum_add_distrib]

theorem inner_sum_left {κ : Type*} (s : Finset κ) (A : κ → Conf nb nu nd → ℂ) (Psi : Conf nb nu nd → ℂ) :
    inner (∑ k ∈ s, A k) Psi = ∑ k ∈ s, inner (A k) Psi := by
  classical
  induction s using Finset.induction_on with
  | empty => simp [inner]
  | insert k s hk ih => rw [sum_insert hk, sum_insert hk, inner_add_left, ih]

/-- **The mixed estimator does not see the spin contamination of the trial**: if the trial is the sum of a
part `Theta` and of parts with other spins, the estimate from walkers of spin `s` with any weights, of any
operator that does not act on the spins, is that of the trial `Theta`. -/
theorem mixed_contamination {κ ι : Type*} [Fintype κ] [Fintype ι] (Theta : Conf nb nu nd → ℂ)
    (Other : κ → Conf nb nu nd → ℂ) (t : κ → ℝ) (hO : ∀ k, spinSq (Other k) = (t k : ℂ) • Other k)
    (ht : ∀ k, t k ≠ (nu - nd : ℝ) / 2 * ((nu - nd : ℝ) / 2 + 1))
    (phi : ι → Slater.Wfn nb nu nd) (hphi : ∀ i, SpinPure (phi i)) (c : ι → ℂ)
    (K : Matrix (Fin nu ⊕ Fin nd → Fin nb) (Fin nu ⊕ Fin nd → Fin nb) ℂ) :
    (∑ i, c i * inner (Theta + ∑ k, Other k) (spatial K (wave (phi i)))) /
        (∑ i, c i * inner (Theta + ∑ k, Other k) (wave (phi i))) =
      (∑ i, c i * inner Theta (spatial K (wave (phi i)))) / (∑ i, c i * inner Theta (wave (phi i))) := by
  have h1 : ∀ i, inner (Theta + ∑ k, Other k) (spatial K (wave (phi i))) =
      inner Theta (spatial K (wave (phi i))) := by
    intro i
    rw [inner_add_left, inner_sum_left, sum_eq_zero fun k _ => ((hphi i).other _ _ (hO k) (ht k)).2 K, add_zero]
  have h2 : ∀ i, inner (Theta + ∑ k, Other k) (wave (phi i)) = inner Theta (wave (phi i)) := by
    intro i
    rw [inner_add_left, inner_sum_left, sum_eq_zero fun k _ => ((hphi i).other _ _ (hO k) (ht k)).1, add_zero]
  simp only [h1, h2]

/-! ## Where it fails -/

theorem inner_self_eq_zero {Psi : Conf nb nu nd → ℂ} (h : inner Psi Psi = 0) : Psi = 0 := by
  have e : inner Psi Psi = ((∑ g, ‖Psi g‖ ^ 2 : ℝ) : ℂ) := by
    rw [inner, Complex.ofReal_sum]
    refine sum_congr rfl fun g _ => ?_
    rw [mul_comm, Complex.ofReal_pow]
    exact Complex.mul_conj' (Psi g)
  rw [e, Complex.ofReal_eq_zero, sum_eq_zero_iff_of_nonneg fun g _ => by positivity] at h
  funext g
  have := h g (mem_univ _)
  exact norm_eq_zero.1 (pow_eq_zero_iff (two_ne_zero) |>.1 this)

theorem det_one_one (M : Matrix (Fin 1 ⊕ Fin 1) (Fin 1 ⊕ Fin 1) ℂ) : M.det =
    M (Sum.inl 0) (Sum.inl 0) * M (Sum.inr 0) (Sum.inr 0) - M (Sum.inl 0) (Sum.inr 0) * M (Sum.inr 0) (Sum.inl 0) := by
  rw [← det_submatrix_equiv_self (finSumFinEquiv (m := 1) (n := 1)).symm, Matrix.det_fin_two]
  rfl

/-- One electron of each spin: the walker has spin zero only if `u₀ d₁ = u₁ d₀`. -/
theorem not_spinPure (phi : Slater.Wfn 2 1 1)
    (h : Slater.up phi 0 0 * Slater.dn phi 1 0 ≠ Slater.up phi 1 0 * Slater.dn phi 0 0) : ¬ SpinPure phi := by
  intro hs
  have e := hs.eig
  have h0 : spinSq (wave phi) = 0 := by rw [e]; simp
  have hz : sz (wave phi) = 0 := by rw [sz_wave]; simp
  have hl : lower (raise (wave phi)) = 0 := by
    funext g
    have := congrFun h0 g
    rw [spinSq, hz] at this
    have hz2 : sz (0 : Conf 2 1 1 → ℂ) g = 0 := by simp [sz]
    rw [hz2] at this
    simpa using this
  have hr : raise (wave phi) = 0 := by
    refine inner_self_eq_zero ?_
    rw [← inner_lower, hl]
    simp [inner]
  have := congrFun hr (Sum.elim (fun _ => (0, 0)) fun _ => (1, 0))
  have w1 : wave phi (flip (Sum.inl 0) (Sum.elim (fun _ => (0, 0)) fun _ => (1, 0))) =
      -(Slater.up phi 1 0 * Slater.dn phi 0 0) := by
    have f : flip (nb := 2) (nu := 1) (nd := 1) (Sum.inl 0) (Sum.elim (fun _ => (0, 0)) fun _ => (1, 0)) =
        Sum.elim (fun _ => (0, 1)) fun _ => (1, 0) := by
      funext c
      rcases c with c | c <;> rw [Subsingleton.elim c 0] <;> rfl
    rw [f, wave, det_one_one]
    simp only [of_apply, Sum.elim_inl, Sum.elim_inr, chi]
    simp
  have w2 : wave phi (flip (Sum.inr 0) (Sum.elim (fun _ => (0, 0)) fun _ => (1, 0))) =
      Slater.up phi 0 0 * Slater.dn phi 1 0 := by
    have f : flip (nb := 2) (nu := 1) (nd := 1) (Sum.inr 0) (Sum.elim (fun _ => (0, 0)) fun _ => (1, 0)) =
        Sum.elim (fun _ => (0, 0)) fun _ => (1, 1) := by
      funext c
      rcases c with c | c <;> rw [Subsingleton.elim c 0] <;> rfl
    rw [f, wave, det_one_one]
    simp only [of_apply, Sum.elim_inl, Sum.elim_inr, chi]
    simp
  rw [raise, Fintype.sum_sum_type, Fin.sum_univ_one, Fin.sum_univ_one, w1, w2] at this
  simp only [Sum.elim_inl, Sum.elim_inr, if_true, Pi.zero_apply] at this
  exact h (by linear_combination this)

/-- **The spin decomposition undoes the spin projection**: one step of free projection of two electrons on two
sites, with opposite fields on the two sites, takes every spin-projected walker with electrons on both sites to a
walker without a definite spin.  (No hopping in this step: `BT2` is the identity, as for `t = 0`.) -/
theorem spin_decomposition_mixes {dt U : ℝ} (hdt : 0 < dt) (hU : 0 < U) (psi : Slater.Wfn 2 1 1) (eshift : ℝ)
    (w : Slater.Wk 2 1 1) (hup : Slater.dn w.phi = Slater.up w.phi) (h0 : Slater.up w.phi 0 0 ≠ 0)
    (h1 : Slater.up w.phi 1 0 ≠ 0) :
    SpinPure w.phi ∧
      ¬ SpinPure (Hirsch.freeStep (Hirsch.spinPar dt U fun _ => 1) psi eshift ![0, 1] w).phi := by
  refine ⟨spinPure_of_pure ⟨1, by rw [hup, Matrix.mul_one]⟩, not_spinPure _ ?_⟩
  have hg : Real.cosh (Hirsch.spinGamma dt U) = Real.exp (dt * U / 2) :=
    Real.cosh_arcosh (Real.one_le_exp (by positivity))
  have hg0 : Hirsch.spinGamma dt U ≠ 0 := by
    intro h
    rw [h, Real.cosh_zero] at hg
    have : 1 < Real.exp (dt * U / 2) := Real.one_lt_exp_iff.2 (by positivity)
    exact absurd hg this.ne
  set g := Hirsch.spinGamma dt U with hgd
  have ephi : (Hirsch.freeStep (Hirsch.spinPar dt U fun _ => 1) psi eshift ![0, 1] w).phi = Slater.join
      (Matrix.of fun i a => (Hirsch.spinAux g (![0, 1] i) 0 * Complex.exp (-(dt * U / 2))) * Slater.up w.phi i a)
      (Matrix.of fun i a => (Hirsch.spinAux g (![0, 1] i) 1 * Complex.exp (-(dt * U / 2))) * Slater.dn w.phi i a) := by
    have e : (Hirsch.freeStep (Hirsch.spinPar dt U fun _ => 1) psi eshift ![0, 1] w).phi =
      Hirsch.kineticReal (fun _ => 1) (Slater.join
        ((List.finRange 2).foldl (fun φ i => Hirsch.addRow φ i ((Hirsch.spinPar dt U fun _ => 1).delta (![0, 1] i) 0))
          (Slater.up (Hirsch.kineticReal (fun _ => 1) w.phi)))
        ((List.finRange 2).foldl (fun φ i => Hirsch.addRow φ i ((Hirsch.spinPar dt U fun _ => 1).delta (![0, 1] i) 1))
          (Slater.dn (Hirsch.kineticReal (fun _ => 1) w.phi)))) := rfl
    rw [e]
    simp only [Hirsch.kineticReal, Slater.up_join, Slater.dn_join, Matrix.one_mul]
    have hl : List.finRange 2 = [0, 1] := by decide
    rw [hl]
    simp only [List.foldl_cons, List.foldl_nil]
    congr 1
    · ext i a
      fin_cases i <;> simp [Hirsch.addRow, Hirsch.spinPar, Hirsch.Par.delta, ← hgd] <;> ring
    · ext i a
      fin_cases i <;> simp [Hirsch.addRow, Hirsch.spinPar, Hirsch.Par.delta, ← hgd] <;> ring
  rw [ephi, Slater.up_join, Slater.dn_join, hup]
  simp only [of_apply, Hirsch.spinAux, cons_val_zero, cons_val_one]
  simp only [if_true, zero_ne_one, one_ne_zero, if_false]
  intro h
  have hE : Complex.exp (-(dt * U / 2)) ≠ 0 := Complex.exp_ne_zero _
  have h2 : Complex.exp g * Complex.exp g = Complex.exp (-g) * Complex.exp (-g) := by
    have hne : Complex.exp (-(dt * U / 2)) * Complex.exp (-(dt * U / 2)) * (Slater.up w.phi 0 0 * Slater.up w.phi 1 0) ≠ 0 :=
      mul_ne_zero (mul_ne_zero hE hE) (mul_ne_zero h0 h1)
    refine mul_right_cancel₀ hne ?_
    linear_combination h
  rw [← Complex.exp_add, ← Complex.exp_add] at h2
  have h3 : Real.exp (g + g) = Real.exp (-g + -g) := by exact_mod_cast h2
  have h4 := Real.exp_injective h3
  exact hg0 (by linarith)

/-! ## Natural orbitals of the trial -/

theorem gabMod_self {k : Nat} (A : Matrix (Fin nb) (Fin k) ℂ) (hA : Aᴴ * A = 1) :
    (Slater.gabMod A A).1 = A.map star * (A.map star)ᴴ := by
  have h : Aᵀ * A.map star = 1 := by
    have : (Aᴴ * A)ᵀ = Aᵀ * A.map star := by
      rw [transpose_mul]
      rfl
    rw [← this, hA, transpose_one]
  have h2 : (A.map star)ᴴ = Aᵀ := by ext; simp
  simp only [Slater.gabMod]
  rw [h, inv_one, Matrix.one_mul, h2]

/-- The first `k` eigenvectors of twice a projector of rank `k`, in descending order, span its range. -/
theorem top_eigenvectors {k : Nat} (hk : k ≤ nb) (A : Matrix (Fin nb) (Fin k) ℂ) (hA : Aᴴ * A = 1)
    (V : Matrix (Fin nb) (Fin nb) ℂ) (hV : Vᴴ * V = 1) (e : Fin nb → ℝ) (he : Antitone e)
    (heq : (A * Aᴴ + A * Aᴴ) * V = V * diagonal fun a => (e a : ℂ)) :
    A * (Aᴴ * Uhf.cols hk V) = Uhf.cols hk V ∧ ‖(Aᴴ * Uhf.cols hk V).det‖ = 1 := by
  have hVV : V * Vᴴ = 1 := mul_eq_one_comm.1 hV
  have hP : A * Aᴴ + A * Aᴴ = V * diagonal (fun a => (e a : ℂ)) * Vᴴ := by
    rw [← heq, Matrix.mul_assoc, hVV, Matrix.mul_one]
  have hD : Vᴴ * (A * Aᴴ + A * Aᴴ) * V = diagonal fun a => (e a : ℂ) := by
    rw [Matrix.mul_assoc, heq, ← Matrix.mul_assoc, hV, Matrix.one_mul]
  have hsq : (A * Aᴴ + A * Aᴴ) * (A * Aᴴ + A * Aᴴ) = (2 : ℂ) • (A * Aᴴ + A * Aᴴ) := by
    have h1 : A * Aᴴ * (A * Aᴴ) = A * Aᴴ := by
      rw [Matrix.mul_assoc, ← Matrix.mul_assoc Aᴴ, hA, Matrix.one_mul]
    rw [Matrix.add_mul, Matrix.mul_add, h1, two_smul]
  have hev : ∀ a, e a = 0 ∨ e a = 2 := by
    have h2 : (diagonal fun a => (e a : ℂ)) * (diagonal fun a => (e a : ℂ)) = (2 : ℂ) • diagonal fun a => (e a : ℂ) := by
      nth_rw 1 [← hD]
      rw [Matrix.mul_assoc (Vᴴ * _), ← heq, Matrix.mul_assoc Vᴴ, ← Matrix.mul_assoc (A * Aᴴ + A * Aᴴ), hsq, smul_mul,
        Matrix.mul_smul, ← Matrix.mul_assoc, hD]
    intro a
    have h3 := congrFun (congrFun h2 a) a
    rw [diagonal_mul_diagonal, diagonal_apply_eq, Matrix.smul_apply, diagonal_apply_eq, smul_eq_mul] at h3
    have h4 : e a * e a = 2 * e a := by exact_mod_cast h3
    rcases mul_eq_mul_right_iff.1 h4 with h | h
    · exact Or.inr h
    · exact Or.inl h
  have hsum : ∑ a, e a = 2 * k := by
    have h1 : (diagonal fun a => (e a : ℂ)).trace = 2 * k := by
      rw [← hD, trace_mul_comm, ← Matrix.mul_assoc, hVV, Matrix.one_mul, trace_add, trace_mul_comm, hA, trace_one,
        Fintype.card_fin]
      ring
    rw [trace_diagonal] at h1
    exact_mod_cast h1
  have htop : ∀ a : Fin nb, (a : Nat) < k → e a = 2 := by
    intro a ha
    rcases hev a with h | h
    · exfalso
      have hle : ∑ b, e b ≤ ∑ b : Fin nb, if (b : Nat) < a then (2 : ℝ) else 0 := by
        refine sum_le_sum fun b _ => ?_
        split_ifs with hb
        · rcases hev b with h' | h' <;> rw [h'] ; norm_num
        · have := he (show a ≤ b from not_lt.1 hb)
          rw [h] at this
          exact this
      rw [← sum_filter, sum_const, nsmul_eq_mul, hsum] at hle
      have hc : (univ.filter fun b : Fin nb => (b : Nat) < a).card = a := by
        have : (univ.filter fun b : Fin nb => (b : Nat) < a) = Finset.Iio a := by
          ext b; simp only [mem_filter, mem_univ, true_and, Finset.mem_Iio, Fin.lt_def]
        rw [this, Fin.card_Iio]
      rw [hc] at hle
      have : (a : ℝ) < k := by exact_mod_cast ha
      linarith
    · exact h
  have hfix : A * (Aᴴ * Uhf.cols hk V) = Uhf.cols hk V := by
    rw [← Matrix.mul_assoc]
    ext i j
    have h1 := congrFun (congrFun heq i) (Fin.castLE hk j)
    rw [mul_diagonal, htop (Fin.castLE hk j) j.2, Matrix.add_mul, Matrix.add_apply] at h1
    have h2 : (A * Aᴴ * Uhf.cols hk V) i j = (A * Aᴴ * V) i (Fin.castLE hk j) := by
      simp only [mul_apply, Uhf.cols, submatrix_apply, id]
    rw [h2, Uhf.cols, submatrix_apply, id]
    push_cast at h1
    linear_combination h1 / 2
  refine ⟨hfix, ?_⟩
  have hW : (Uhf.cols hk V)ᴴ * Uhf.cols hk V = 1 := by
    ext i j
    have h1 := congrFun (congrFun hV (Fin.castLE hk i)) (Fin.castLE hk j)
    rw [one_apply] at h1 ⊢
    simp only [Fin.castLE_inj] at h1
    rw [← h1]
    simp only [mul_apply, conjTranspose_apply, Uhf.cols, submatrix_apply, id]
  have hU : (Aᴴ * Uhf.cols hk V)ᴴ * (Aᴴ * Uhf.cols hk V) = 1 := by
    rw [conjTranspose_mul, conjTranspose_conjTranspose, Matrix.mul_assoc, hfix, hW]
  have hd := congrArg Matrix.det hU
  rw [det_mul, det_conjTranspose, det_one] at hd
  have hn := congrArg norm hd
  rw [norm_mul, norm_star, norm_one] at hn
  nlinarith [norm_nonneg (Aᴴ * Uhf.cols hk V).det]

/-- **The overlap of the trial with the initial walker** made from its natural orbitals, for a closed-shell
determinant with orthonormal orbitals `A`: its modulus is `|det (Aᵀ A)|²`. -/
theorem natural_overlap {k : Nat} (hk : k ≤ nb) (hk0 : 0 < k) {eigh : Uhf.Eig nb} (he : Uhf.Eigh eigh)
    {sort : (Fin nb → ℝ) → Equiv.Perm (Fin nb)} (hs : Descending sort) (h1 : Matrix (Fin nb) (Fin nb) ℂ)
    (A : Matrix (Fin nb) (Fin k) ℂ) (hA : Aᴴ * A = 1) :
    ∃ phi, spinInit hk hk eigh sort false h1 (Slater.join A A) = some phi ∧
      ‖Slater.overlap (Slater.join A A) phi‖ = ‖(Aᵀ * A).det‖ ^ 2 := by
  set B := A.map star with hB
  have hBB : Bᴴ * B = 1 := by
    have h2 : Bᴴ = Aᵀ := by ext; simp [hB]
    have : (Aᴴ * A)ᵀ = Aᵀ * A.map star := by
      rw [transpose_mul]
      rfl
    rw [h2, ← this, hA, transpose_one]
  set E := eigh (B * Bᴴ + B * Bᴴ) with hE
  refine ⟨Slater.join (Uhf.cols hk (E.2.submatrix id (sort E.1))) (Uhf.cols hk (E.2.submatrix id (sort E.1))), ?_, ?_⟩
  · simp only [spinInit, Bool.false_eq_true, if_false, gabSpin, if_pos hk0, Option.map_some, Slater.up_join,
      Slater.dn_join, gabMod_self A hA, ← hB, ← hE]
  · have hH : (B * Bᴴ + B * Bᴴ).IsHermitian := (isHermitian_mul_conjTranspose_self B).add (isHermitian_mul_conjTranspose_self B)
    obtain ⟨_, hV, heq⟩ := he _ hH
    rw [← hE] at hV heq
    have hV' : (E.2.submatrix id (sort E.1))ᴴ * E.2.submatrix id (sort E.1) = 1 := by
      ext i j
      have h1 := congrFun (congrFun hV (sort E.1 i)) (sort E.1 j)
      rw [one_apply] at h1
      simp only [(sort E.1).injective.eq_iff] at h1
      rw [one_apply, ← h1]
      rfl
    have heq' : (B * Bᴴ + B * Bᴴ) * E.2.submatrix id (sort E.1) =
        E.2.submatrix id (sort E.1) * diagonal fun a => ((E.1 ∘ sort E.1) a : ℂ) := by
      ext i j
      have := congrFun (congrFun heq i) (sort E.1 j)
      rw [mul_diagonal] at this ⊢
      exact this
    obtain ⟨hf, hd⟩ := top_eigenvectors hk B hBB _ hV' _ (hs E.1) heq'
    rw [Slater.overlap, Slater.up_join, Slater.up_join, Slater.dn_join, Slater.dn_join, ← pow_two, norm_pow]
    congr 1
    rw [← hf, ← Matrix.mul_assoc, det_mul, norm_mul, hd, mul_one]
    have : Aᴴ * B = (Aᵀ * A)ᴴᵀ := by
      rw [conjTranspose_mul, transpose_mul]
      ext i j
      simp [hB, mul_apply]
    rw [this, det_transpose, det_conjTranspose, norm_star]

end Verif.SpinProj
