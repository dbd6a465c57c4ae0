import Verif.TrialRho.Field
import Mathlib.Algebra.Order.Chebyshev

/-!
# What the mean-field trial density matrix is good for
-/

namespace Verif.TrialRho

open Matrix Finset Verif.Grand Verif.ChemPot
open Verif.Thermal (Mat oneRdmStable IsQRP)
open Verif.Step (Sym spin hubOp hubOp_sym hubOp_herm)

variable {m : Nat}

/-- **C103 (outer loop)**: the constructor returns after a number of iterations; each takes the Hamiltonian from the inner loop at the
chemical potential of the last one, and the chemical potential from the search with this Hamiltonian.  It stops at the first change of
the chemical potential below the threshold, or at the last iteration allowed. -/
theorem mf_trace {I : MInp m} (ok : I.Ok) {o : Out m} {r : MOut m} {dmat : Fin 2 → Mat m} {nav : ℝ} (h : MeanField I o r dmat nav) :
    ∃ j mus Ps, Trace I o I.maxMacro o.mu (rdm0 I.betaEff (I.sign * o.mu) I.H1) r j mus Ps := by
  obtain ⟨h1, h2, -, -⟩ := h
  rw [build_P ok.toInp h1] at h2
  exact macro_trace ok h1 h2 (rdm0_herm _ _ ok.herm)

/-- **C103 (averages)**: the density matrix returned is the one of the grand canonical ensemble of the one-body Hamiltonian returned, at the
inverse temperature of the slices and the chemical potential of the last iteration but one; the product of the slices is the statistical
operator with the last chemical potential.  The two differ by less than the threshold unless the iterations were used up. -/
theorem mf_ensemble {I : MInp m} (ok : I.Ok) {o : Out m} {r : MOut m} {dmat : Fin 2 → Mat m} {nav : ℝ} (h : MeanField I o r dmat nav) :
    (∀ s, (r.HMF s).IsHermitian) ∧
    (∀ s, dmat s ^ o.numSlices = NormedSpace.exp (-(I.betaEff : ℂ) • (r.HMF s - (r.mu : ℂ) • 1))) ∧
    ∃ j mus Ps, Trace I o I.maxMacro o.mu (rdm0 I.betaEff (I.sign * o.mu) I.H1) r j mus Ps ∧
      r.P = rdm0 I.betaEff (mus j) r.HMF ∧
      (∀ s i k, r.P s i k = mean I.betaEff (oneOp r.HMF) (mus j) (hop s i k)) ∧
      (nav : ℂ) = mean I.betaEff (oneOp r.HMF) (mus j) number ∧
      ∀ (E : (Fin 2 → Mat m) → ℂ) (O : Ops m), Observes E O → (∀ nu nd, Sym spin (O nu nd)) →
        E r.P = mean I.betaEff (oneOp r.HMF) (mus j) O := by
  obtain ⟨j, mus, Ps, t⟩ := mf_trace ok h
  obtain ⟨h1, h2, h3, h4⟩ := h
  have hH : ∀ s, (r.HMF s).IsHermitian := by
    intro s
    rw [t.HMF]
    exact scf_herm ok h1 _ (t.herm j (by omega)) s
  have hP : r.P = rdm0 I.betaEff (mus j) r.HMF := by rw [t.outP, t.P j le_rfl, ← t.HMF]
  have key : ∀ (E : (Fin 2 → Mat m) → ℂ) (O : Ops m), Observes E O → (∀ nu nd, Sym spin (O nu nd)) →
      E r.P = mean I.betaEff (oneOp r.HMF) (mus j) O := by
    intro E O hE hO
    rw [mean_rdm0 _ _ hH hE hO, hP]
  refine ⟨hH, ?_, j, mus, Ps, t, hP, fun s i k => key _ _ (observes_hop s i k) (oneOp_sym _), ?_, key⟩
  · intro s
    have e : dmat s = expo I.dt r.mu r.HMF s := by rw [h3]; rfl
    rw [e, expo_pow, (build_sizes ok.toInp h1).2.2.2.1]
    rfl
  · rw [← key _ _ observes_number number_sym, h4, navOf]
    refine Complex.ext rfl ?_
    rw [Complex.ofReal_im, Complex.add_im, hP, rdm0_trace _ _ hH, rdm0_trace _ _ hH, add_zero]

/-! ## Number of particles -/

theorem navOf_fermi (β : ℝ) {K : Fin 2 → Mat m} (hK : ∀ s, (K s).IsHermitian) :
    ∃ e : Fin 2 → Fin m → ℝ, ∀ mu, navOf (rdm0 β mu K) = ∑ s, ∑ i, fermiFactor (e s i) β mu := by
  choose V e h1 h2 h3 h4 using fun s => herm_decomp (hK s)
  refine ⟨e, fun mu => ?_⟩
  have key : ∀ s, (rdm0 β mu K s).trace = ((∑ i, fermiFactor (e s i) β mu : ℝ) : ℂ) := by
    intro s
    obtain ⟨W, a, w1, w2, w3, w4⟩ := rdm0_decomp hK mu s
    have : (rdm0 β mu K s).trace = ((∑ i, 1 * fermiFactor (a i) β mu : ℝ) : ℂ) := by
      rw [rdm0, Matrix.trace_transpose, ← Matrix.one_mul (dens _)]
      refine sum_trace w1 ?_ (w4 β).2.1
      rw [Complex.ofReal_one, diagonal_one, Matrix.mul_one, w2]
    rw [this]
    congr 1
    simp only [one_mul]
    rw [← sum_eigenvalues (hK s) w1 w3 fun x => fermiFactor x β mu, ← sum_eigenvalues (hK s) (h1 s) (h3 s) fun x => fermiFactor x β mu]
  rw [navOf, key, key, ← Complex.ofReal_add, Complex.ofReal_re, Fin.sum_univ_two]

theorem fermiFactor_lipschitz {β : ℝ} (hβ : 0 ≤ β) (e mu nu : ℝ) : |fermiFactor e β mu - fermiFactor e β nu| ≤ 1 / 4 * (β * |mu - nu|) := by
  have h : ∀ x, fermiFactor e β x = Real.sigmoid (β * (x - e)) := by
    intro x
    rw [fermiFactor, Real.sigmoid_def, show -(β * (x - e)) = β * (e - x) by ring, add_comm, one_div]
  rw [h, h]
  refine (sigmoid_lipschitz _ _).trans (le_of_eq ?_)
  rw [show β * (mu - e) - β * (nu - e) = β * (mu - nu) by ring, abs_mul, abs_of_nonneg hβ]

theorem navOf_lipschitz {β : ℝ} (hβ : 0 ≤ β) {K : Fin 2 → Mat m} (hK : ∀ s, (K s).IsHermitian) (mu nu : ℝ) :
    |navOf (rdm0 β mu K) - navOf (rdm0 β nu K)| ≤ m / 2 * (β * |mu - nu|) := by
  obtain ⟨e, he⟩ := navOf_fermi β hK
  rw [he, he, ← sum_sub_distrib]
  refine (abs_sum_le_sum_abs _ _).trans ?_
  have : ∀ s ∈ (univ : Finset (Fin 2)), |∑ i, fermiFactor (e s i) β mu - ∑ i, fermiFactor (e s i) β nu| ≤ m * (1 / 4 * (β * |mu - nu|)) := by
    intro s _
    rw [← sum_sub_distrib]
    refine (abs_sum_le_sum_abs _ _).trans ?_
    refine (sum_le_sum fun i _ => fermiFactor_lipschitz hβ (e s i) mu nu).trans ?_
    rw [sum_const, card_univ, Fintype.card_fin, nsmul_eq_mul]
  refine (sum_le_sum this).trans (le_of_eq ?_)
  rw [sum_const, card_univ, Fintype.card_fin, nsmul_eq_mul]
  push_cast
  ring

theorem betaEff_pos {I : Inp m} (ok : I.Ok) {o : Out m} (h : OneBody I o) : 0 < I.betaEff := by
  have hs := build_sizes ok h
  rw [Inp.betaEff, ← hs.2.2.2.1]
  exact mul_pos (by exact_mod_cast hs.1) ok.dt

/-- **C103 (number of particles)**: in the usual convention, if the chemical potential is searched and the outer loop converged, the number of
particles is the one of the one-body trial within the threshold and the change of the chemical potential it allows. -/
theorem mf_number {I : MInp m} (ok : I.Ok) {o : Out m} {r : MOut m} {dmat : Fin 2 → Mat m} {nav : ℝ} (h : MeanField I o r dmat nav)
    (hf : I.findMu = true) (ha : I.alt = false) {j : Nat} {mus : Nat → ℝ} {Ps : Nat → Fin 2 → Mat m}
    (t : Trace I o I.maxMacro o.mu (rdm0 I.betaEff (I.sign * o.mu) I.H1) r j mus Ps) (hc : |mus (j + 1) - mus j| < I.deps) :
    |nav - o.nav| < I.deps * (1 + m / 2 * I.betaEff) := by
  obtain ⟨h1, h2, h3, h4⟩ := h
  have hβ := betaEff_pos ok.toInp h1
  have hH : ∀ s, (r.HMF s).IsHermitian := by
    intro s
    rw [t.HMF]
    exact scf_herm ok h1 _ (t.herm j (by omega)) s
  have hP : r.P = rdm0 I.betaEff (mus j) r.HMF := by rw [t.outP, t.P j le_rfl, ← t.HMF]
  have hm := t.mu j le_rfl
  rw [← t.HMF, newMu, if_pos hf] at hm
  have h5 := finds_sound _ _ _ _ hm
  have hsg : I.sign = 1 := by simp [Inp.sign, ha]
  rw [deltaNav, navAt, rdmOld_eq ok.toInp h1 _ _ hH, rdmOld_eq ok.toInp h1 _ _ hH, hsg, one_mul] at h5
  have h6 := navOf_lipschitz hβ.le hH (mus j) (mus (j + 1))
  rw [abs_sub_comm (mus j)] at h6
  have h7 : (m : ℝ) / 2 * (I.betaEff * |mus (j + 1) - mus j|) ≤ m / 2 * (I.betaEff * I.deps) :=
    mul_le_mul_of_nonneg_left (mul_le_mul_of_nonneg_left hc.le hβ.le) (by positivity)
  have h8 : |navOf (rdm0 I.betaEff (mus (j + 1)) r.HMF) - o.nav| < I.deps := h5
  rw [h4, hP]
  calc _ ≤ |navOf (rdm0 I.betaEff (mus j) r.HMF) - navOf (rdm0 I.betaEff (mus (j + 1)) r.HMF)| +
        |navOf (rdm0 I.betaEff (mus (j + 1)) r.HMF) - o.nav| := abs_sub_le _ _ _
    _ < m / 2 * (I.betaEff * I.deps) + I.deps := by linarith
    _ = _ := by ring

/-! ## The grand potential -/

/-- The grand potential of the ensemble of a one-body Hamiltonian, for the energy `E` as a function of the density matrix: `E - mu N - S/β`. -/
noncomputable def omega (E : (Fin 2 → Mat m) → ℂ) (β mu : ℝ) (K : Fin 2 → Mat m) (hK : ∀ s, (K s).IsHermitian) : ℝ :=
  (E (rdm0 β mu K)).re - mu * navOf (rdm0 β mu K) -
    1 / β * vonNeumann (statOp β (oneOp K) mu) (statOp_herm (oneOp_sym K) (oneOp_herm hK) β mu)

theorem mean_sub (β mu : ℝ) (H X Y : Ops m) : mean β H mu (X - Y) = mean β H mu X - mean β H mu Y := by
  rw [mean, mean, mean, gibbs_sub, sub_div]

theorem omega_eq {E : (Fin 2 → Mat m) → ℂ} {β : ℝ} (hβ : 0 < β) (mu : ℝ) {K : Fin 2 → Mat m} (hK : ∀ s, (K s).IsHermitian) :
    omega E β mu K hK = (E (rdm0 β mu K)).re - (Energy.dot2 (K 0) (rdm0 β mu K 0) + Energy.dot2 (K 1) (rdm0 β mu K 1)).re -
      1 / β * logZ β (oneOp K) mu := by
  rw [omega, vonNeumann_eq (oneOp_sym K) (oneOp_herm hK), mean_rdm0 β mu hK (observes_grand (observes_oneBody K) (mu : ℂ)) (grand_sym (oneOp_sym K) _), Complex.sub_re,
    Complex.re_ofReal_mul, navOf]
  field_simp
  ring

/-- **C103 (bound)**: for every Hamiltonian whose energy is a function of the density matrix, the grand potential computed from the
density matrix of any one-body Hamiltonian is at least the exact one. -/
theorem omega_bound {E : (Fin 2 → Mat m) → ℂ} {H : Ops m} (hE : Observes E H) (hS : ∀ nu nd, Sym spin (H nu nd))
    (hH : ∀ nu nd, (H nu nd).IsHermitian) {β : ℝ} (hβ : 0 < β) (mu : ℝ) {K : Fin 2 → Mat m} (hK : ∀ s, (K s).IsHermitian) :
    -(1 / β) * logZ β H mu ≤ omega E β mu K hK := by
  have h := logZ_ge hS hH (oneOp_sym K) (oneOp_herm hK) β mu mu
  rw [mean_sub, mean_rdm0 β mu hK (observes_grand hE (mu : ℂ)) (grand_sym hS _),
    mean_rdm0 β mu hK (observes_grand (observes_oneBody K) (mu : ℂ)) (grand_sym (oneOp_sym K) _), sub_sub_sub_cancel_right] at h
  rw [omega_eq hβ, ← Complex.sub_re]
  have h2 := mul_le_mul_of_nonneg_left h (one_div_pos.2 hβ).le
  have e : 1 / β * (logZ β (oneOp K) mu - β * (E (rdm0 β mu K) - (Energy.dot2 (K 0) (rdm0 β mu K 0) + Energy.dot2 (K 1) (rdm0 β mu K 1))).re) =
      1 / β * logZ β (oneOp K) mu - (E (rdm0 β mu K) - (Energy.dot2 (K 0) (rdm0 β mu K 0) + Energy.dot2 (K 1) (rdm0 β mu K 1))).re := by
    field_simp
  rw [e] at h2
  linarith

/-- The ensemble of a one-body Hamiltonian minimises its own grand potential. -/
theorem omega_oneBody {β : ℝ} (hβ : 0 < β) (mu : ℝ) {K h : Fin 2 → Mat m} (hK : ∀ s, (K s).IsHermitian) (hh : ∀ s, (h s).IsHermitian) :
    omega (fun P => Energy.dot2 (h 0) (P 0) + Energy.dot2 (h 1) (P 1)) β mu h hh ≤
      omega (fun P => Energy.dot2 (h 0) (P 0) + Energy.dot2 (h 1) (P 1)) β mu K hK := by
  refine le_trans (le_of_eq ?_) (omega_bound (observes_oneBody h) (oneOp_sym h) (oneOp_herm hh) hβ mu hK)
  rw [omega_eq hβ]
  ring

/-- The change of the grand potential is at least the change of the energy less its linear part with the matrix `h`. -/
theorem omega_change (E : (Fin 2 → Mat m) → ℂ) {β : ℝ} (hβ : 0 < β) (mu : ℝ) {K h : Fin 2 → Mat m} (hK : ∀ s, (K s).IsHermitian)
    (hh : ∀ s, (h s).IsHermitian) :
    omega E β mu h hh + ((E (rdm0 β mu K)).re - (E (rdm0 β mu h)).re -
      ((Energy.dot2 (h 0) (rdm0 β mu K 0) + Energy.dot2 (h 1) (rdm0 β mu K 1)).re -
        (Energy.dot2 (h 0) (rdm0 β mu h 0) + Energy.dot2 (h 1) (rdm0 β mu h 1)).re)) ≤ omega E β mu K hK := by
  have := omega_oneBody hβ mu hK hh
  simp only [omega] at this ⊢
  linarith

/-! ## The Hubbard model -/

theorem fockHubbard_herm {T : Fin 2 → Mat m} (hT : ∀ s, (T s).IsHermitian) (U : ℝ) (P : Fin 2 → Mat m) (hP : ∀ s, (P s).IsHermitian)
    (s : Fin 2) : (fockHubbard T U P s).IsHermitian := by
  have key : ∀ t, (diagonal fun i => P t i i).IsHermitian := by
    intro t
    rw [Matrix.IsHermitian, diagonal_conjTranspose]
    congr 1
    funext i
    exact (hP t).apply i i
  rw [fockHubbard]
  refine (hT s).add (herm_smul ?_ U)
  split
  · exact key 1
  · exact key 0

theorem dot2_add (A B P : Mat m) : Energy.dot2 (A + B) P = Energy.dot2 A P + Energy.dot2 B P := by
  simp only [Energy.dot2, Matrix.add_apply, add_mul, sum_add_distrib]

theorem dot2_diag (c : ℂ) (d : Fin m → ℂ) (P : Mat m) : Energy.dot2 (c • diagonal d) P = c * ∑ i, d i * P i i := by
  simp only [Energy.dot2, Matrix.smul_apply, smul_eq_mul]
  rw [mul_sum]
  refine sum_congr rfl fun i _ => ?_
  rw [sum_eq_single i]
  · rw [diagonal_apply_eq, mul_assoc]
  · intro j _ hj
    rw [diagonal_apply_ne _ hj.symm, mul_zero, zero_mul]
  · simp

/-- The real part of an element of the diagonal. -/
noncomputable def occ (P : Fin 2 → Mat m) (s : Fin 2) (i : Fin m) : ℝ := (P s i i).re

/-- The energy of the Hubbard model as a function of the density matrix. -/
noncomputable def hubE (T : Fin 2 → Mat m) (U : ℝ) (P : Fin 2 → Mat m) : ℂ := (Energy.localHubbard T (U : ℂ) false P).1

theorem hub_change {T : Fin 2 → Mat m} (U : ℝ) {Q P R : Fin 2 → Mat m} (hQ : ∀ s i, (Q s i i).im = 0)
    (hP : ∀ s i, (P s i i).im = 0) (hR : ∀ s i, (R s i i).im = 0) :
    (hubE T U R).re - (hubE T U P).re -
      ((Energy.dot2 (fockHubbard T U Q 0) (R 0) + Energy.dot2 (fockHubbard T U Q 1) (R 1)).re -
        (Energy.dot2 (fockHubbard T U Q 0) (P 0) + Energy.dot2 (fockHubbard T U Q 1) (P 1)).re) =
      U * ∑ i, ((occ R 0 i - occ P 0 i) * (occ R 1 i - occ P 1 i) +
        ((occ P 1 i - occ Q 1 i) * (occ R 0 i - occ P 0 i) + (occ P 0 i - occ Q 0 i) * (occ R 1 i - occ P 1 i))) := by
  have real : ∀ {X : Fin 2 → Mat m}, (∀ s i, (X s i i).im = 0) → ∀ s i, X s i i = (occ X s i : ℂ) := fun h s i =>
    Complex.ext rfl (by rw [h, Complex.ofReal_im])
  have e : ∀ X : Fin 2 → Mat m, (∀ s i, (X s i i).im = 0) →
      (hubE T U X).re = (Energy.dot2 (T 0) (X 0) + Energy.dot2 (T 1) (X 1)).re + U * ∑ i, occ X 0 i * occ X 1 i := by
    intro X hX
    simp only [hubE, Energy.localHubbard]
    rw [Complex.add_re, Complex.re_ofReal_mul, Complex.re_sum]
    simp only [real hX, ← Complex.ofReal_mul, Complex.ofReal_re]
  have f : ∀ X : Fin 2 → Mat m, (∀ s i, (X s i i).im = 0) →
      (Energy.dot2 (fockHubbard T U Q 0) (X 0) + Energy.dot2 (fockHubbard T U Q 1) (X 1)).re =
        (Energy.dot2 (T 0) (X 0) + Energy.dot2 (T 1) (X 1)).re + U * ∑ i, (occ Q 1 i * occ X 0 i + occ Q 0 i * occ X 1 i) := by
    intro X hX
    simp only [fockHubbard, if_true, show ¬ (1 : Fin 2) = 0 by decide, if_false, dot2_add, dot2_diag]
    simp only [real hX, real hQ, ← Complex.ofReal_mul, ← Complex.ofReal_sum, Complex.add_re, Complex.ofReal_re, sum_add_distrib]
    ring
  rw [e R hR, e P hP, f R hR, f P hP]
  have g : ∑ i, occ R 0 i * occ R 1 i - ∑ i, occ P 0 i * occ P 1 i - (∑ i, (occ Q 1 i * occ R 0 i + occ Q 0 i * occ R 1 i) -
      ∑ i, (occ Q 1 i * occ P 0 i + occ Q 0 i * occ P 1 i)) = ∑ i, ((occ R 0 i - occ P 0 i) * (occ R 1 i - occ P 1 i) +
        ((occ P 1 i - occ Q 1 i) * (occ R 0 i - occ P 0 i) + (occ P 0 i - occ Q 0 i) * (occ R 1 i - occ P 1 i))) := by
    rw [← sum_sub_distrib, ← sum_sub_distrib, ← sum_sub_distrib]
    exact sum_congr rfl fun i _ => by ring
  rw [← g]
  ring

theorem sum_le_normF (A : Fin 2 → Mat m) : ∑ i, (|(A 0 i i).re| + |(A 1 i i).re|) ≤ Real.sqrt (2 * m) * normF A := by
  have h1 : ∑ i, (|(A 0 i i).re| + |(A 1 i i).re|) = ∑ k : Fin 2 × Fin m, |(A k.1 k.2 k.2).re| := by
    rw [Fintype.sum_prod_type, Fin.sum_univ_two, ← sum_add_distrib]
  have h2 := sq_sum_le_card_mul_sum_sq (s := (univ : Finset (Fin 2 × Fin m))) (f := fun k => |(A k.1 k.2 k.2).re|)
  have h3 : ∑ k : Fin 2 × Fin m, |(A k.1 k.2 k.2).re| ^ 2 ≤ ∑ s, ∑ i, ∑ j, ‖A s i j‖ ^ 2 := by
    rw [Fintype.sum_prod_type]
    refine sum_le_sum fun s _ => sum_le_sum fun i _ => ?_
    refine le_trans ?_ (single_le_sum (f := fun j => ‖A s i j‖ ^ 2) (fun j _ => by positivity) (mem_univ i))
    exact pow_le_pow_left₀ (abs_nonneg _) (Complex.abs_re_le_norm _) 2
  rw [h1, normF, ← Real.sqrt_mul (by positivity)]
  refine Real.le_sqrt_of_sq_le (h2.trans ?_)
  rw [card_univ, Fintype.card_prod, Fintype.card_fin, Fintype.card_fin]
  push_cast
  exact mul_le_mul_of_nonneg_left h3 (by positivity)

theorem occ_mem (β mu : ℝ) {K : Fin 2 → Mat m} (hK : ∀ s, (K s).IsHermitian) (s : Fin 2) (i : Fin m) :
    0 ≤ occ (rdm0 β mu K) s i ∧ occ (rdm0 β mu K) s i ≤ 1 := (rdm0_diag β mu hK s i).2

theorem diag_real {P : Fin 2 → Mat m} (hP : ∀ s, (P s).IsHermitian) (s : Fin 2) (i : Fin m) : (P s i i).im = 0 := by
  have := congrArg Complex.im ((hP s).apply i i)
  simp only [Complex.star_def, Complex.conj_im] at this
  linarith

/-- **C103 (minimum)**: for the Hubbard model let `h` be the Fock matrix of a density matrix `Q`.  The grand potential of every other one-body
ensemble is at least that of `h`, plus the interaction of the changes of the occupations, up to the distance of `Q` from self-consistency. -/
theorem hub_min {T : Fin 2 → Mat m} (hT : ∀ s, (T s).IsHermitian) (U : ℝ) {β : ℝ} (hβ : 0 < β) (mu : ℝ) {Q : Fin 2 → Mat m}
    (hQ : ∀ s, (Q s).IsHermitian) {K : Fin 2 → Mat m} (hK : ∀ s, (K s).IsHermitian) :
    omega (hubE T U) β mu (fockHubbard T U Q) (fockHubbard_herm hT U Q hQ) +
      U * ∑ i, (occ (rdm0 β mu K) 0 i - occ (rdm0 β mu (fockHubbard T U Q)) 0 i) *
        (occ (rdm0 β mu K) 1 i - occ (rdm0 β mu (fockHubbard T U Q)) 1 i) -
      |U| * (Real.sqrt (2 * m) * normF fun s => rdm0 β mu (fockHubbard T U Q) s - Q s) ≤ omega (hubE T U) β mu K hK := by
  have hh := fockHubbard_herm hT U Q hQ
  have h1 := omega_change (hubE T U) hβ mu hK hh
  set P := rdm0 β mu (fockHubbard T U Q) with hPd
  set R := rdm0 β mu K with hRd
  have hP : ∀ s, (P s).IsHermitian := rdm0_herm β mu hh
  have hR : ∀ s, (R s).IsHermitian := rdm0_herm β mu hK
  rw [hub_change U (diag_real hQ) (diag_real hP) (diag_real hR)] at h1
  have h2 := sum_le_normF fun s => P s - Q s
  have hb : ∀ s i, |occ R s i - occ P s i| ≤ 1 := by
    intro s i
    have a := occ_mem β mu hK s i
    have b := occ_mem β mu hh s i
    rw [← hRd] at a
    rw [← hPd] at b
    rw [abs_le]
    constructor <;> linarith
  have h3 : |∑ i, ((occ P 1 i - occ Q 1 i) * (occ R 0 i - occ P 0 i) + (occ P 0 i - occ Q 0 i) * (occ R 1 i - occ P 1 i))| ≤
      ∑ i, (|((P 0 - Q 0) i i).re| + |((P 1 - Q 1) i i).re|) := by
    refine (abs_sum_le_sum_abs _ _).trans (sum_le_sum fun i _ => ?_)
    refine (abs_add_le _ _).trans ?_
    rw [abs_mul, abs_mul, add_comm |((P 0 - Q 0) i i).re|]
    exact add_le_add (mul_le_of_le_one_right (abs_nonneg _) (hb 0 i)) (mul_le_of_le_one_right (abs_nonneg _) (hb 1 i))
  have h4 : -(|U| * (Real.sqrt (2 * m) * normF fun s => P s - Q s)) ≤
      U * ∑ i, ((occ P 1 i - occ Q 1 i) * (occ R 0 i - occ P 0 i) + (occ P 0 i - occ Q 0 i) * (occ R 1 i - occ P 1 i)) := by
    refine le_trans (neg_le_neg ?_) (neg_abs_le _)
    rw [abs_mul]
    exact mul_le_mul_of_nonneg_left (h3.trans h2) (abs_nonneg _)
  rw [sum_add_distrib, mul_add] at h1
  linarith

/-- The same among the states with equal occupations of the spins, for a repulsive interaction: no other one has a lower grand potential. -/
theorem hub_min_paired {T : Fin 2 → Mat m} (hT : ∀ s, (T s).IsHermitian) (hT2 : T 0 = T 1) {U : ℝ} (hU : 0 ≤ U) {β : ℝ} (hβ : 0 < β) (mu : ℝ)
    {Q : Fin 2 → Mat m} (hQ : ∀ s, (Q s).IsHermitian) (hQ2 : Q 0 = Q 1) {K : Fin 2 → Mat m} (hK : ∀ s, (K s).IsHermitian) (hK2 : K 0 = K 1) :
    omega (hubE T U) β mu (fockHubbard T U Q) (fockHubbard_herm hT U Q hQ) -
      U * (Real.sqrt (2 * m) * normF fun s => rdm0 β mu (fockHubbard T U Q) s - Q s) ≤ omega (hubE T U) β mu K hK := by
  have h := hub_min hT U hβ mu hQ hK
  rw [abs_of_nonneg hU] at h
  have eq : ∀ {X : Fin 2 → Mat m}, X 0 = X 1 → ∀ i, occ (rdm0 β mu X) 1 i = occ (rdm0 β mu X) 0 i := by
    intro X hX i
    rw [occ, occ, rdm0, rdm0, expo, expo, hX]
  have hF : fockHubbard T U Q 0 = fockHubbard T U Q 1 := by
    simp only [fockHubbard, if_true, show ¬ (1 : Fin 2) = 0 by decide, if_false, hT2, hQ2]
  have : 0 ≤ U * ∑ i, (occ (rdm0 β mu K) 0 i - occ (rdm0 β mu (fockHubbard T U Q)) 0 i) *
        (occ (rdm0 β mu K) 1 i - occ (rdm0 β mu (fockHubbard T U Q)) 1 i) := by
    refine mul_nonneg hU (sum_nonneg fun i _ => ?_)
    rw [eq hK2, eq hF]
    exact mul_self_nonneg _
  linarith

/-- **C103 (Hubbard model)**: the Hamiltonian returned for the Hubbard model, if the inner loop converged and `alpha < 1`. -/
theorem mf_hubbard {I : MInp m} (ok : I.toInp.Ok) {T : Fin 2 → Mat m} (hT : ∀ s, (T s).IsHermitian) {U : ℝ} (hF : I.fock = fockHubbard T U)
    (ha : I.alpha < 1) {o : Out m} {r : MOut m} {dmat : Fin 2 → Mat m} {nav : ℝ} (h : MeanField I o r dmat nav) (hn : 0 < I.maxScf) :
    ∃ j mus Ps, Trace I o I.maxMacro o.mu (rdm0 I.betaEff (I.sign * o.mu) I.H1) r j mus Ps ∧
      ∃ k < I.maxScf, ∃ hH : ∀ s, (r.HMF s).IsHermitian,
        (k + 1 < I.maxScf → ∀ K (hK : ∀ s, (K s).IsHermitian),
          omega (hubE T U) I.betaEff (mus j) r.HMF hH + U * ∑ i, (occ (rdm0 I.betaEff (mus j) K) 0 i - occ r.P 0 i) *
            (occ (rdm0 I.betaEff (mus j) K) 1 i - occ r.P 1 i) - |U| * (Real.sqrt (2 * m) * (I.deps / (1 - I.alpha))) ≤
              omega (hubE T U) I.betaEff (mus j) K hK) ∧
        -(1 / I.betaEff) * logZ I.betaEff (fun _ _ => hubOp T (U : ℂ) spin) (mus j) ≤ omega (hubE T U) I.betaEff (mus j) r.HMF hH := by
  have ok' : I.Ok := ⟨ok, by rw [hF]; exact fun P hP s => fockHubbard_herm hT U P hP s⟩
  obtain ⟨hH, -, j, mus, Ps, t, hP, -⟩ := mf_ensemble ok' h
  obtain ⟨k, hk, e, -, hs⟩ := scf_stops ok' h.1 (mus j) (t.herm j (by omega)) hn
  have hβ := betaEff_pos ok h.1
  rw [← t.HMF] at e
  refine ⟨j, mus, Ps, t, k, hk, hH, ?_, ?_⟩
  · intro hlt K hK
    have hs := hs.resolve_right (by omega)
    set Q := scfIter I I.betaEff (mus j) (Ps j) k with hQd
    have hQ : ∀ s, (Q s).IsHermitian := scfIter_herm ok' _ _ (t.herm j (by omega)) k
    have h1 := hub_min hT U hβ (mus j) hQ hK
    rw [residual, hF] at hs
    have e' : r.HMF = fockHubbard T U Q := by rw [e, hF]
    rw [hP]
    simp only [e']
    have h1a : 0 < 1 - I.alpha := by linarith
    rw [abs_of_pos h1a] at hs
    have h2 : (normF fun s => rdm0 I.betaEff (mus j) (fockHubbard T U Q) s - Q s) ≤ I.deps / (1 - I.alpha) := by
      rw [le_div_iff₀ h1a, mul_comm]
      exact hs.le
    have h3 : |U| * (Real.sqrt (2 * m) * normF fun s => rdm0 I.betaEff (mus j) (fockHubbard T U Q) s - Q s) ≤
        |U| * (Real.sqrt (2 * m) * (I.deps / (1 - I.alpha))) :=
      mul_le_mul_of_nonneg_left (mul_le_mul_of_nonneg_left h2 (Real.sqrt_nonneg _)) (abs_nonneg _)
    linarith
  · refine omega_bound (fun C hC => wick_hub hC T (U : ℂ) false) (fun _ _ => hubOp_sym _ _ _) (fun _ _ => hubOp_herm U hT _) hβ _ hH

end Verif.TrialRho
