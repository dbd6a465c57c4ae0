import Verif.TrialRho.Model
import Verif.TrialRho.Ensemble
import Verif.ChemPot.Props
import Verif.Thermal.Props
import Verif.Stack.Props
import Mathlib.Algebra.Order.Floor.Semifield

/-!
# The one-body trial density matrix is a grand canonical ensemble
-/

namespace Verif.TrialRho

open Matrix Finset Verif.Grand Verif.ChemPot
open Verif.Thermal (Mat oneRdmStable oneRdmStable_eq IsQRP)
open Verif.Step (genOp Sym spin spinOp)

variable {m : Nat}

/-! ## Exponentials -/

theorem expo_decomp {K : Fin 2 → Mat m} (hK : ∀ s, (K s).IsHermitian) (mu : ℝ) (s : Fin 2) : ∃ (V : Mat m) (e : Fin m → ℝ), Vᴴ * V = 1 ∧
    V * Vᴴ = 1 ∧ K s = V * diagonal (fun i => (e i : ℂ)) * Vᴴ ∧
    ∀ t, expo t mu K s = V * diagonal (fun i => (Real.exp (-t * (e i - mu)) : ℂ)) * Vᴴ := by
  obtain ⟨V, e, h1, h2, h3, h4⟩ := herm_decomp (hK s)
  refine ⟨V, e, h1, h2, h3, fun t => ?_⟩
  rw [expo, Step.exp_sub_smul, ← Complex.ofReal_neg, h4, ← Matrix.smul_mul, ← Matrix.mul_smul, ← diagonal_smul]
  congr 3
  funext i
  rw [Pi.smul_apply, smul_eq_mul, ← Complex.ofReal_mul, ← Complex.ofReal_exp, ← Complex.ofReal_mul, ← Real.exp_add]
  congr 2
  ring

theorem expo_pow (t mu : ℝ) (K : Fin 2 → Mat m) (s : Fin 2) (n : Nat) : expo t mu K s ^ n = expo (n * t) mu K s := by
  rw [expo, expo, ← Matrix.exp_nsmul]
  congr 1
  rw [← Nat.cast_smul_eq_nsmul ℂ, smul_smul]
  congr 1
  push_cast
  ring

theorem expo_det (t mu : ℝ) (K : Fin 2 → Mat m) (s : Fin 2) : (expo t mu K s).det ≠ 0 := Step.exp_det_ne_zero _

theorem computeRho_expH (t mu sign : ℝ) (H : Fin 2 → Mat m) (s : Fin 2) :
    computeRho (expH t H s) mu t sign = expo t (sign * mu) H s := by
  rw [expo, Step.exp_sub_smul]
  ext i j
  rw [computeRho, of_apply, expH, Matrix.smul_apply, smul_eq_mul, mul_comm, Complex.ofReal_exp]
  congr 2
  push_cast
  ring

/-- The density matrix of a one-body ensemble. -/
noncomputable def rdm0 (β mu : ℝ) (K : Fin 2 → Mat m) (s : Fin 2) : Mat m := (dens (expo β mu K s))ᵀ

/-- The density matrix in the eigenvectors of the Hamiltonian: Fermi factors. -/
theorem rdm0_decomp {K : Fin 2 → Mat m} (hK : ∀ s, (K s).IsHermitian) (mu : ℝ) (s : Fin 2) : ∃ (V : Mat m) (e : Fin m → ℝ), Vᴴ * V = 1 ∧
    V * Vᴴ = 1 ∧ K s = V * diagonal (fun i => (e i : ℂ)) * Vᴴ ∧
    ∀ t, expo t mu K s = V * diagonal (fun i => (Real.exp (-t * (e i - mu)) : ℂ)) * Vᴴ ∧
      dens (expo t mu K s) = V * diagonal (fun i => (fermiFactor (e i) t mu : ℂ)) * Vᴴ ∧
      (1 + expo t mu K s).det = ((∏ i, (1 + Real.exp (-t * (e i - mu))) : ℝ) : ℂ) := by
  obtain ⟨V, e, h1, h2, h3, h4⟩ := expo_decomp hK mu s
  have e0 : ∀ a b : Fin m → ℝ, V * diagonal (fun i => (a i : ℂ)) * Vᴴ * (V * diagonal (fun i => (b i : ℂ)) * Vᴴ) =
      V * diagonal (fun i => ((a i * b i : ℝ) : ℂ)) * Vᴴ := by
    intro a b
    have : V * diagonal (fun i => (a i : ℂ)) * Vᴴ * (V * diagonal (fun i => (b i : ℂ)) * Vᴴ) =
        V * diagonal (fun i => (a i : ℂ)) * (Vᴴ * V) * diagonal (fun i => (b i : ℂ)) * Vᴴ := by simp only [Matrix.mul_assoc]
    rw [this, h1, Matrix.mul_one, Matrix.mul_assoc V, diagonal_mul_diagonal]
    simp only [Complex.ofReal_mul]
  have e1 : ∀ a b : Fin m → ℝ, V * diagonal (fun i => (a i : ℂ)) * Vᴴ + V * diagonal (fun i => (b i : ℂ)) * Vᴴ =
      V * diagonal (fun i => ((a i + b i : ℝ) : ℂ)) * Vᴴ := by
    intro a b
    rw [← Matrix.add_mul, ← Matrix.mul_add, diagonal_add]
    simp only [Complex.ofReal_add]
  have e2 : (1 : Mat m) = V * diagonal (fun _ => ((1 : ℝ) : ℂ)) * Vᴴ := by
    rw [Complex.ofReal_one, diagonal_one, Matrix.mul_one, h2]
  refine ⟨V, e, h1, h2, h3, fun t => ⟨h4 t, ?_, ?_⟩⟩
  · have hinv : (1 + expo t mu K s)⁻¹ = V * diagonal (fun i => (((1 + Real.exp (-t * (e i - mu)))⁻¹ : ℝ) : ℂ)) * Vᴴ := by
      refine Matrix.inv_eq_left_inv ?_
      conv_lhs => rw [e2, h4 t, e1, e0]
      rw [e2]
      congr 3
      funext i
      rw [inv_mul_cancel₀ (by positivity)]
    have hneg : -(V * diagonal (fun i => (((1 + Real.exp (-t * (e i - mu)))⁻¹ : ℝ) : ℂ)) * Vᴴ) =
        V * diagonal (fun i => ((-(1 + Real.exp (-t * (e i - mu)))⁻¹ : ℝ) : ℂ)) * Vᴴ := by
      rw [← Matrix.neg_mul, ← Matrix.mul_neg, diagonal_neg]
      simp only [Complex.ofReal_neg]
    rw [Grand.dens, hinv, sub_eq_add_neg, hneg]
    conv_lhs => rw [e2, e1]
    congr 3
    funext i
    rw [fermiFactor, Complex.ofReal_inj]
    have : Real.exp (t * (e i - mu)) = (Real.exp (-t * (e i - mu)))⁻¹ := by rw [← Real.exp_neg]; congr 1; ring
    rw [this]
    field_simp
    ring
  · rw [h4 t]
    conv_lhs => rw [e2, e1]
    rw [Matrix.det_mul, Matrix.det_mul, mul_right_comm, ← Matrix.det_mul, h2, Matrix.det_one, one_mul, Matrix.det_diagonal, Complex.ofReal_prod]

theorem expo_det_one (t mu : ℝ) {K : Fin 2 → Mat m} (hK : ∀ s, (K s).IsHermitian) (s : Fin 2) : (1 + expo t mu K s).det ≠ 0 := by
  obtain ⟨V, e, -, -, -, h⟩ := rdm0_decomp hK mu s
  rw [(h t).2.2]
  exact Complex.ofReal_ne_zero.2 (prod_pos fun i _ => by positivity).ne'

/-- The density matrix is Hermitian. -/
theorem rdm0_herm (β mu : ℝ) {K : Fin 2 → Mat m} (hK : ∀ s, (K s).IsHermitian) (s : Fin 2) : (rdm0 β mu K s).IsHermitian := by
  obtain ⟨V, e, -, -, -, h⟩ := rdm0_decomp hK mu s
  have : (dens (expo β mu K s)).IsHermitian := by
    rw [(h β).2.1, Matrix.IsHermitian, Matrix.conjTranspose_mul, Matrix.conjTranspose_mul, conjTranspose_conjTranspose, diagonal_conjTranspose,
      Matrix.mul_assoc]
    congr 3
    funext i
    simp
  exact this.transpose

/-- Its diagonal elements are real and between 0 and 1. -/
theorem rdm0_diag (β mu : ℝ) {K : Fin 2 → Mat m} (hK : ∀ s, (K s).IsHermitian) (s : Fin 2) (i : Fin m) :
    (rdm0 β mu K s i i).im = 0 ∧ 0 ≤ (rdm0 β mu K s i i).re ∧ (rdm0 β mu K s i i).re ≤ 1 := by
  obtain ⟨V, e, -, h2, -, h⟩ := rdm0_decomp hK mu s
  have hd : rdm0 β mu K s i i = ((∑ j, ‖V i j‖ ^ 2 * fermiFactor (e j) β mu : ℝ) : ℂ) := by
    rw [rdm0, Matrix.transpose_apply, (h β).2.1, sum_conj]
  have hr : ∑ j, ‖V i j‖ ^ 2 = 1 := by
    have := sum_conj V (fun _ => 1) i
    simp only [Complex.ofReal_one, diagonal_one, Matrix.mul_one, mul_one, h2, Matrix.one_apply_eq] at this
    exact_mod_cast this.symm
  have hp : ∀ j, 0 ≤ fermiFactor (e j) β mu ∧ fermiFactor (e j) β mu ≤ 1 := by
    intro j
    rw [fermiFactor_eq]
    exact ⟨(Real.sigmoid_pos _).le, (Real.sigmoid_lt_one _).le⟩
  rw [hd, Complex.ofReal_im, Complex.ofReal_re]
  refine ⟨rfl, sum_nonneg fun j _ => mul_nonneg (by positivity) (hp j).1, ?_⟩
  rw [← hr]
  exact sum_le_sum fun j _ => mul_le_of_le_one_right (by positivity) (hp j).2

theorem rdm0_trace (β mu : ℝ) {K : Fin 2 → Mat m} (hK : ∀ s, (K s).IsHermitian) (s : Fin 2) : (rdm0 β mu K s).trace.im = 0 := by
  rw [Matrix.trace, Complex.im_sum]
  exact sum_eq_zero fun i _ => (rdm0_diag β mu hK s i).1

theorem rdm_stable {qrp : Mat m → Mat m × Mat m × Equiv.Perm (Fin m)} (hq : ∀ A, IsQRP A (qrp A).1 (qrp A).2.1 (qrp A).2.2)
    (t mu : ℝ) {K : Fin 2 → Mat m} (hK : ∀ s, (K s).IsHermitian) {n : Nat} (hn : 0 < n) (s : Fin 2) :
    oneRdmStable qrp (expo t mu K s) n = rdm0 (n * t) mu K s := by
  rw [oneRdmStable_eq qrp hq _ (expo_det t mu K s) n hn (by rw [expo_pow]; exact expo_det_one _ _ hK s), expo_pow, rdm0, Grand.dens,
    Matrix.transpose_sub, Matrix.transpose_one]

/-- The averages in a one-body ensemble are functions of the density matrix. -/
theorem mean_rdm0 (β mu : ℝ) {K : Fin 2 → Mat m} (hK : ∀ s, (K s).IsHermitian) {E : (Fin 2 → Mat m) → ℂ} {O : Ops m} (hE : Observes E O)
    (hO : ∀ nu nd, Sym spin (O nu nd)) : mean β (oneOp K) mu O = E (rdm0 β mu K) := by
  have h := fun s => expo_det_one β mu hK s
  rw [mean, gibbs_oneBody β mu K hO, gibbs_oneBody β mu K (O := 1) (fun _ _ => Sym.one), hE _ h, wick_one, mul_div_cancel_left₀]
  · rfl
  · exact mul_ne_zero (h 0) (h 1)

theorem oneOp_sym (Y : Fin 2 → Mat m) (nu nd : Nat) : Sym spin (oneOp Y nu nd) := Sym.spinOp spin Y

/-- The operator `c†_i c_j` for a spin. -/
noncomputable def hop (s : Fin 2) (i j : Fin m) : Ops m := oneOp fun t => if t = s then Matrix.single i j 1 else 0

theorem observes_hop (s : Fin 2) (i j : Fin m) : Observes (fun P : Fin 2 → Mat m => P s i j) (hop s i j) := by
  have key : ∀ (P : Mat m), Energy.dot2 (Matrix.single i j (1 : ℂ)) P = P i j := by
    intro P
    rw [Energy.dot2, sum_eq_single i, sum_eq_single j]
    · simp
    · intro k _ hk
      rw [Matrix.single_apply_of_ne _ _ _ _ _ (by tauto), zero_mul]
    · simp
    · intro k _ hk
      refine sum_eq_zero fun l _ => ?_
      rw [Matrix.single_apply_of_ne _ _ _ _ _ (by tauto), zero_mul]
    · simp
  have zero : ∀ P : Mat m, Energy.dot2 (0 : Mat m) P = 0 := by
    intro P
    simp [Energy.dot2]
  intro C h
  rw [hop, observes_oneBody _ C h]
  fin_cases s
  · simp [key, zero]
  · simp [key, zero]

/-! ## Slices and stacks -/

theorem numSlices_bounds {beta dt : ℝ} (hb : 0 ≤ beta) (hd : 0 < dt) :
    (numSlices beta dt : ℝ) * dt ≤ beta ∧ beta < (numSlices beta dt : ℝ) * dt + dt := by
  rw [numSlices]
  constructor
  · have := Nat.floor_le (div_nonneg hb hd.le)
    calc _ ≤ beta / dt * dt := mul_le_mul_of_nonneg_right this hd.le
      _ = beta := div_mul_cancel₀ _ hd.ne'
  · have := Nat.lt_floor_add_one (beta / dt)
    rw [div_lt_iff₀ hd] at this
    linarith

theorem stackSize_dvd {opt : Option Nat} {n ss : Nat} {cond : ℝ} (hn : 0 < n) (h : stackSize opt n cond = some ss) : ss ∣ n ∧ 0 < ss := by
  unfold stackSize at h
  split at h
  · cases h
  · next s hs =>
    split at h
    · next r hr =>
      cases h
      rcases Nat.eq_zero_or_pos s with rfl | hs0
      · rw [Stack.updateStack_zero] at hr
        cases hr
      · obtain ⟨r', h1, h2, -⟩ := Stack.updateStack_nearest s n hs0 hn
        rw [h1 (n + 1) (by omega)] at hr
        cases hr
        exact ⟨h2, Nat.pos_of_dvd_of_pos h2 hn⟩
    · cases h

theorem numSlices_pos_of {opt : Option Nat} {n ss : Nat} {cond : ℝ} (h : stackSize opt n cond = some ss) : 0 < n := by
  rcases Nat.eq_zero_or_pos n with rfl | h0
  · exfalso
    unfold stackSize at h
    split at h
    · cases h
    · next s hs => 
      have : ∀ s, Stack.updateStack 1 s 0 = .error := by
        intro s
        simp [Stack.updateStack, Stack.lowerLoop]
      rw [this] at h
      cases h
  · exact h0

/-- The bins hold all the slices. -/
theorem bins_eq {beta dt : ℝ} (hd : 0 < dt) {ss : Nat} (h0 : 0 < ss) (h : ss ∣ numSlices beta dt) :
    ⌊beta / (ss * dt)⌋₊ * ss = numSlices beta dt := by
  have e : beta / (ss * dt) = beta / dt / ss := by
    field_simp
  rw [e, Nat.floor_div_natCast]
  exact Nat.div_mul_cancel h

/-- What the constructor needs. -/
structure Inp.Ok (I : Inp m) : Prop where
  herm : ∀ s, (I.H1 s).IsHermitian
  dt : 0 < I.dt
  qrp : ∀ A, IsQRP A (I.qrp A).1 (I.qrp A).2.1 (I.qrp A).2.2

/-- The inverse temperature of the slices. -/
noncomputable def Inp.betaEff (I : Inp m) : ℝ := numSlices I.beta I.dt * I.dt

theorem build_sizes {I : Inp m} (ok : I.Ok) {o : Out m} (h : OneBody I o) :
    0 < o.numSlices ∧ 0 < o.stackSize ∧ 0 < o.numBins ∧ o.numSlices = numSlices I.beta I.dt ∧ o.numBins * o.stackSize = o.numSlices ∧
      (o.numBins : ℝ) * (o.stackSize * I.dt) = I.betaEff := by
  obtain ⟨ss, mu, h1, -, rfl⟩ := h
  have hn := numSlices_pos_of h1
  obtain ⟨h2, h3⟩ := stackSize_dvd hn h1
  have h4 := bins_eq ok.dt h3 h2
  refine ⟨hn, h3, ?_, rfl, h4, ?_⟩
  · rcases Nat.eq_zero_or_pos (⌊I.beta / (ss * I.dt)⌋₊) with h0 | h0
    · rw [h0, zero_mul] at h4
      omega
    · exact h0
  · rw [Inp.betaEff, ← h4]
    simp only [build]
    push_cast
    ring

theorem build_P {I : Inp m} (ok : I.Ok) {o : Out m} (h : OneBody I o) : o.P = rdm0 I.betaEff (I.sign * o.mu) I.H1 := by
  have hs := build_sizes ok h
  obtain ⟨ss, mu, h1, -, rfl⟩ := h
  funext s
  simp only [build] at hs ⊢
  rw [computeRho_expH, rdm_stable ok.qrp _ _ ok.herm hs.2.2.1, hs.2.2.2.2.2]

/-- **C102 (averages)**: the density matrix of the one-body trial is the one of the grand canonical ensemble of its one-body Hamiltonian, at
the inverse temperature of the slices, with the chemical potential in the convention of the system.  So is every quantity computed from it. -/
theorem onebody_ensemble {I : Inp m} (ok : I.Ok) {o : Out m} (h : OneBody I o) :
    (∀ s i j, o.P s i j = mean I.betaEff (oneOp I.H1) (I.sign * o.mu) (hop s i j)) ∧
    (o.nav : ℂ) = mean I.betaEff (oneOp I.H1) (I.sign * o.mu) number ∧
    ∀ (E : (Fin 2 → Mat m) → ℂ) (O : Ops m), Observes E O → (∀ nu nd, Sym spin (O nu nd)) →
      E o.P = mean I.betaEff (oneOp I.H1) (I.sign * o.mu) O := by
  have hP := build_P ok h
  have key : ∀ (E : (Fin 2 → Mat m) → ℂ) (O : Ops m), Observes E O → (∀ nu nd, Sym spin (O nu nd)) →
      E o.P = mean I.betaEff (oneOp I.H1) (I.sign * o.mu) O := by
    intro E O hE hO
    rw [mean_rdm0 _ _ ok.herm hE hO, hP]
  refine ⟨fun s i j => key _ _ (observes_hop s i j) (oneOp_sym _), ?_, key⟩
  rw [← key _ _ observes_number number_sym]
  have : o.nav = navOf o.P := by
    obtain ⟨ss, mu, h1, -, rfl⟩ := h
    rfl
  rw [this, navOf]
  refine Complex.ext rfl ?_
  rw [Complex.ofReal_im, Complex.add_im, hP, rdm0_trace _ _ ok.herm, rdm0_trace _ _ ok.herm, add_zero]

/-- **C102 (slices)**: the product of the density matrices of all the slices is the statistical operator of the ensemble, and the density
matrix is the one of this product. -/
theorem onebody_slices {I : Inp m} (ok : I.Ok) {o : Out m} (h : OneBody I o) (s : Fin 2) :
    o.dmat s ^ o.numSlices = NormedSpace.exp (-(I.betaEff : ℂ) • (I.H1 s - ((I.sign * o.mu : ℝ) : ℂ) • 1)) ∧
    o.P s = 1 - ((1 + o.dmat s ^ o.numSlices)⁻¹)ᵀ ∧ o.numBins * o.stackSize = o.numSlices := by
  have hP := build_P ok h
  have hs := build_sizes ok h
  have hd : o.dmat s ^ o.numSlices = expo I.betaEff (I.sign * o.mu) I.H1 s := by
    obtain ⟨ss, mu, h1, -, rfl⟩ := h
    simp only [build]
    rw [computeRho_expH, expo_pow]
    rfl
  refine ⟨hd, ?_, hs.2.2.2.2.1⟩
  rw [hd, hP, rdm0, Grand.dens, Matrix.transpose_sub, Matrix.transpose_one]

/-- **C102 (temperature)**: the inverse temperature is that of the whole slices that fit into `beta`; it is `beta` exactly if `beta` is a whole
number of slices. -/
theorem onebody_temperature (I : Inp m) (hb : 0 ≤ I.beta) (hd : 0 < I.dt) :
    I.betaEff ≤ I.beta ∧ I.beta < I.betaEff + I.dt ∧ (I.betaEff = I.beta ↔ ∃ n : Nat, I.beta = n * I.dt) := by
  obtain ⟨h1, h2⟩ := numSlices_bounds hb hd
  refine ⟨h1, h2, fun h => ⟨_, h.symm⟩, ?_⟩
  rintro ⟨n, hn⟩
  rw [Inp.betaEff, numSlices, hn, mul_div_assoc, div_self hd.ne', mul_one, Nat.floor_natCast]

/-- **C102 (number of particles)**: if the chemical potential was searched, the number of particles is the target within the threshold. -/
theorem onebody_number {I : Inp m} {o : Out m} (h : OneBody I o) (hmu : I.mu = none) : |o.nav - I.nav| < I.deps := by
  obtain ⟨ss, mu, h1, h2 | ⟨-, h2⟩, rfl⟩ := h
  · rw [hmu] at h2
    cases h2
  · have h3 := finds_sound _ _ _ _ h2
    simp only [deltaNav, navAt] at h3
    simp only [build, navOf]
    exact h3

/-- **C102 (success)**: with a positive stack size, or a condition number above one and at most 1000, at least one slice, and a chemical
potential, the constructor returns. -/
theorem onebody_succeeds (I : Inp m) {mu : ℝ} (hmu : I.mu = some mu) (hb : I.dt ≤ I.beta) (hd : 0 < I.dt)
    (hs : (∃ k, I.stack = some (k + 1)) ∨ I.stack = none ∧ 1 < I.cond ∧ I.cond ≤ 1000) : ∃ o, OneBody I o ∧ o.mu = mu := by
  have hn : 0 < numSlices I.beta I.dt := Nat.floor_pos.2 ((one_le_div hd).2 hb)
  have hg : ∃ k, stackGuess I.stack (numSlices I.beta I.dt) I.cond = some (k + 1) := by
    rcases hs with ⟨k, hk⟩ | ⟨h0, h1, h2⟩
    · exact ⟨k, by rw [hk]; rfl⟩
    · have hl : 0 < Real.logb 10 I.cond := Real.logb_pos (by norm_num) h1
      have hl3 : Real.logb 10 I.cond ≤ 3 := by
        rw [Real.logb_le_iff_le_rpow (by norm_num) (by linarith)]
        norm_num
        exact h2
      have hf : 0 < ⌊3 / Real.logb 10 I.cond⌋₊ := Nat.floor_pos.2 ((one_le_div hl).2 hl3)
      refine ⟨min (numSlices I.beta I.dt) ⌊3 / Real.logb 10 I.cond⌋₊ - 1, ?_⟩
      rw [h0, stackGuess, if_neg hl.ne']
      congr 1
      omega
  obtain ⟨k, hk⟩ := hg
  obtain ⟨r, hr, -⟩ := Stack.updateStack_nearest (k + 1) (numSlices I.beta I.dt) (by omega) hn
  refine ⟨build I r mu, ⟨r, mu, ?_, Or.inl hmu, rfl⟩, rfl⟩
  unfold stackSize
  rw [hk]
  simp only
  rw [hr _ (by omega)]

/-- The constructor raises if no stack size is given and the density matrix of a slice has a condition number above 1000, or equal to one. -/
theorem onebody_raises (I : Inp m) (hs : I.stack = none) (hc : 1000 < I.cond ∨ I.cond = 1) : ¬ ∃ o, OneBody I o := by
  rintro ⟨o, ss, mu, h1, -⟩
  rcases hc with hc | hc
  · have hl : 3 < Real.logb 10 I.cond := by
      rw [Real.lt_logb_iff_rpow_lt (by norm_num) (by linarith)]
      norm_num
      exact hc
    have hf : ⌊3 / Real.logb 10 I.cond⌋₊ = 0 := by
      rw [Nat.floor_eq_zero, div_lt_one (by linarith)]
      exact hl
    simp only [stackSize, stackGuess, hs, if_neg (by linarith : ¬ Real.logb 10 I.cond = 0), hf, Nat.min_zero, Stack.updateStack_zero] at h1
    cases h1
  · simp [stackSize, stackGuess, hs, hc] at h1

/-! ## Entropy -/

/-- `eigh` returns the eigenvalues. -/
def IsEigh (eigh : Mat m → Fin m → ℝ) : Prop :=
  ∀ A : Mat m, A.IsHermitian → ∃ V : Mat m, Vᴴ * V = 1 ∧ A = V * diagonal (fun i => (eigh A i : ℂ)) * Vᴴ

theorem oneOp_herm {K : Fin 2 → Mat m} (hK : ∀ s, (K s).IsHermitian) (nu nd : Nat) : (oneOp K nu nd).IsHermitian := by
  rw [oneOp, Matrix.IsHermitian, spinOp, Step.allP]
  exact Step.sum_herm univ _ fun a _ => Step.onP_herm a (hK (spin a))

/-- The energy with the chemical potential. -/
theorem observes_grand {E : (Fin 2 → Mat m) → ℂ} {O : Ops m} (hE : Observes E O) (mu : ℂ) :
    Observes (fun P => E P - mu * ((P 0).trace + (P 1).trace)) (grand O mu) := by
  intro C h
  have e : grand O mu = O - mu • (number : Ops m) := by
    funext nu nd
    rw [grand, Pi.sub_apply, Pi.sub_apply, Pi.smul_apply, Pi.smul_apply, number, smul_smul]
  rw [e, map_sub, map_smul, hE C h, observes_number C h, smul_eq_mul]
  ring

theorem logZ_oneBody (β mu : ℝ) {K : Fin 2 → Mat m} (e : Fin 2 → Fin m → ℝ) (h : ∀ s,
    (1 + expo β mu K s).det = ((∏ i, (1 + Real.exp (-β * (e s i - mu))) : ℝ) : ℂ)) :
    logZ β (oneOp K) mu = ∑ s, ∑ i, Real.log (1 + Real.exp (-β * (e s i - mu))) := by
  rw [logZ, gibbs_oneBody β mu K (O := 1) (fun _ _ => Sym.one), wick_one, h, h, ← Complex.ofReal_mul, Complex.ofReal_re,
    Real.log_mul (prod_pos fun i _ => by positivity).ne' (prod_pos fun i _ => by positivity).ne',
    Real.log_prod fun i _ => by positivity, Real.log_prod fun i _ => by positivity, Fin.sum_univ_two]

/-- The entropy of a level. -/
theorem level_entropy (β mu e : ℝ) : -(fermiFactor e β mu * Real.log (fermiFactor e β mu) +
    (1 - fermiFactor e β mu) * Real.log (1 - fermiFactor e β mu)) =
      Real.log (1 + Real.exp (-β * (e - mu))) + β * (fermiFactor e β mu * (e - mu)) := by
  set x := Real.exp (-β * (e - mu)) with hx
  have hx0 : 0 < x := Real.exp_pos _
  have hf : fermiFactor e β mu = x / (1 + x) := by
    rw [fermiFactor]
    have : Real.exp (β * (e - mu)) = x⁻¹ := by rw [hx, ← Real.exp_neg]; congr 1; ring
    rw [this]
    field_simp
  have hl : Real.log x = -β * (e - mu) := by rw [hx, Real.log_exp]
  have h1 : 1 - fermiFactor e β mu = (1 + x)⁻¹ := by
    rw [hf]
    field_simp
    ring
  rw [h1, hf, Real.log_div hx0.ne' (by positivity), Real.log_inv, hl]
  field_simp
  ring

theorem sum_trace {A V : Mat m} {a b : Fin m → ℝ} (hV : Vᴴ * V = 1) (hA : A = V * diagonal (fun i => (a i : ℂ)) * Vᴴ) {B : Mat m}
    (hB : B = V * diagonal (fun i => (b i : ℂ)) * Vᴴ) : (A * B).trace = ((∑ i, a i * b i : ℝ) : ℂ) := by
  have : A * B = V * (diagonal (fun i => (a i : ℂ)) * diagonal (fun i => (b i : ℂ))) * Vᴴ := by
    have e : V * diagonal (fun i => (a i : ℂ)) * Vᴴ * (V * diagonal (fun i => (b i : ℂ)) * Vᴴ) =
        V * diagonal (fun i => (a i : ℂ)) * (Vᴴ * V) * diagonal (fun i => (b i : ℂ)) * Vᴴ := by simp only [Matrix.mul_assoc]
    rw [hA, hB, e, hV, Matrix.mul_one, Matrix.mul_assoc V]
  rw [this, Matrix.trace_mul_comm, ← Matrix.mul_assoc, hV, Matrix.one_mul, diagonal_mul_diagonal, Matrix.trace_diagonal, Complex.ofReal_sum]
  simp only [Complex.ofReal_mul]

/-- The entropy of a one-body ensemble is the sum of the entropies of the levels. -/
theorem vonNeumann_levels (β mu : ℝ) {K : Fin 2 → Mat m} (hK : ∀ s, (K s).IsHermitian) : ∃ e : Fin 2 → Fin m → ℝ,
    (∀ s, ∃ V : Mat m, Vᴴ * V = 1 ∧ K s = V * diagonal (fun i => (e s i : ℂ)) * Vᴴ) ∧
    vonNeumann (statOp β (oneOp K) mu) (statOp_herm (oneOp_sym K) (oneOp_herm hK) β mu) =
      ∑ s, ∑ i, -(fermiFactor (e s i) β mu * Real.log (fermiFactor (e s i) β mu) +
        (1 - fermiFactor (e s i) β mu) * Real.log (1 - fermiFactor (e s i) β mu)) := by
  choose V e h1 h2 h3 h4 using fun s => rdm0_decomp hK mu s
  refine ⟨e, fun s => ⟨V s, h1 s, h3 s⟩, ?_⟩
  have hm : mean β (oneOp K) mu (grand (oneOp K) (mu : ℂ)) = ((∑ s, ∑ i, fermiFactor (e s i) β mu * (e s i - mu) : ℝ) : ℂ) := by
    rw [mean_rdm0 β mu hK (observes_grand (observes_oneBody K) (mu : ℂ)) (grand_sym (oneOp_sym K) _)]
    have t1 : ∀ s, Energy.dot2 (K s) (rdm0 β mu K s) = ((∑ i, e s i * fermiFactor (e s i) β mu : ℝ) : ℂ) := by
      intro s
      rw [rdm0, dot2_eq]
      exact sum_trace (h1 s) (h3 s) (h4 s β).2.1
    have t2 : ∀ s, (rdm0 β mu K s).trace = ((∑ i, 1 * fermiFactor (e s i) β mu : ℝ) : ℂ) := by
      intro s
      rw [rdm0, Matrix.trace_transpose, ← Matrix.one_mul (dens _)]
      refine sum_trace (h1 s) ?_ (h4 s β).2.1
      rw [Complex.ofReal_one, diagonal_one, Matrix.mul_one, h2]
    rw [t1, t1, t2, t2, Fin.sum_univ_two]
    have t3 : ∀ s, ∑ i, fermiFactor (e s i) β mu * (e s i - mu) =
        ∑ i, e s i * fermiFactor (e s i) β mu - mu * ∑ i, 1 * fermiFactor (e s i) β mu := by
      intro s
      rw [mul_sum, ← sum_sub_distrib]
      exact sum_congr rfl fun i _ => by ring
    rw [t3, t3]
    push_cast
    ring
  rw [vonNeumann_eq (oneOp_sym K) (oneOp_herm hK), logZ_oneBody β mu e fun s => (h4 s β).2.2, hm, Complex.ofReal_re, mul_sum, ← sum_add_distrib]
  refine sum_congr rfl fun s _ => ?_
  rw [mul_sum, ← sum_add_distrib]
  exact sum_congr rfl fun i _ => (level_entropy β mu (e s i)).symm

/-- **C102 (entropy)**: for equal Hamiltonians of the spins, `entropy` is the von Neumann entropy of the grand canonical state in the space
of all numbers of electrons. -/
theorem entropy_eq {eigh : Mat m → Fin m → ℝ} (he : IsEigh eigh) (β mu : ℝ) {K : Fin 2 → Mat m} (hK : ∀ s, (K s).IsHermitian)
    (h01 : K 0 = K 1) : entropy eigh β mu K =
      some (vonNeumann (statOp β (oneOp K) mu) (statOp_herm (oneOp_sym K) (oneOp_herm hK) β mu)) := by
  obtain ⟨e, hV, h⟩ := vonNeumann_levels β mu hK
  obtain ⟨W, hW, hd⟩ := he (K 0) (hK 0)
  have key : ∀ s (f : ℝ → ℝ), ∑ i, f (e s i) = ∑ i, f (eigh (K 0) i) := by
    intro s f
    obtain ⟨V, hV1, hV2⟩ := hV s
    have hs : K s = K 0 := by
      fin_cases s
      · rfl
      · exact h01.symm
    rw [hs] at hV2
    rw [← sum_eigenvalues (hK 0) hV1 hV2 f]
    exact sum_eigenvalues (hK 0) hW hd f
  rw [h, Fin.sum_univ_two, entropy, if_pos]
  · rw [key 0 fun x => -(fermiFactor x β mu * Real.log (fermiFactor x β mu) + (1 - fermiFactor x β mu) * Real.log (1 - fermiFactor x β mu)),
      key 1 fun x => -(fermiFactor x β mu * Real.log (fermiFactor x β mu) + (1 - fermiFactor x β mu) * Real.log (1 - fermiFactor x β mu))]
    simp only [sum_neg_distrib]
    congr 1
    ring
  · simp only [normF, h01, sub_self, Matrix.zero_apply, norm_zero]
    norm_num

end Verif.TrialRho
