import Verif.TrialRho.Mean
import Verif.Thermal.Exist
import Verif.Grand.Dimer

/-!
# Trial density matrices: cases, and where the claims fail
-/

namespace Verif.TrialRho

open Matrix Finset Verif.Grand Verif.ChemPot
open Verif.Thermal (Mat oneRdmStable IsQRP exists_qrp)
open Verif.Step (Sym spin hubOp)

variable {m : Nat}

/-- A pivoted factorisation for every matrix. -/
theorem exists_qrpFun : ∃ qrp : Mat m → Mat m × Mat m × Equiv.Perm (Fin m), ∀ A, IsQRP A (qrp A).1 (qrp A).2.1 (qrp A).2.2 := by
  choose Q R P h using fun A : Mat m => exists_qrp A
  exact ⟨fun A => (Q A, R A, P A), h⟩

noncomputable def someQrp : Mat m → Mat m × Mat m × Equiv.Perm (Fin m) := exists_qrpFun.choose

theorem someQrp_spec (A : Mat m) : IsQRP A (someQrp A).1 (someQrp A).2.1 (someQrp A).2.2 := exists_qrpFun.choose_spec A

/-- Eigenvalues exist. -/
theorem exists_eigh : ∃ eigh : Mat m → Fin m → ℝ, IsEigh eigh := by
  classical
  choose V a h1 h2 h3 h4 using fun A : {A : Mat m // A.IsHermitian} => herm_decomp A.2
  refine ⟨fun A => if h : A.IsHermitian then a ⟨A, h⟩ else 0, fun A hA => ⟨V ⟨A, hA⟩, h1 _, ?_⟩⟩
  simp only [dif_pos hA]
  exact h3 ⟨A, hA⟩

/-- A dimer with three slices of 0.3 in `beta = 1`. -/
noncomputable def dimerInp : Inp 2 where
  H1 := fun _ => dimer 1
  beta := 1
  dt := 3 / 10
  stack := some 2
  cond := 2
  nav := 2
  deps := 1e-6
  maxIt := 1000
  mu := some (1 / 2)
  alt := false
  qrp := someQrp

theorem dimer_herm (t : ℝ) : (dimer t).IsHermitian := by
  ext i j
  fin_cases i <;> fin_cases j <;> simp [dimer]

theorem dimerInp_ok : dimerInp.Ok := ⟨fun _ => dimer_herm 1, by norm_num [dimerInp], someQrp_spec⟩

theorem dimerInp_slices : numSlices dimerInp.beta dimerInp.dt = 3 := by
  rw [numSlices, Nat.floor_eq_iff (by norm_num [dimerInp])]
  norm_num [dimerInp]

/-- **C102 (cases)**: the constructor returns; three slices of 0.3 are taken for `beta = 1`, so the inverse temperature is 0.9. -/
theorem dimer_case : (∃ o, OneBody dimerInp o ∧ o.mu = 1 / 2) ∧ dimerInp.betaEff = 9 / 10 ∧ dimerInp.beta = 1 := by
  refine ⟨onebody_succeeds dimerInp rfl ?_ ?_ (Or.inl ⟨1, rfl⟩), ?_, rfl⟩
  · norm_num [dimerInp]
  · norm_num [dimerInp]
  · rw [Inp.betaEff, dimerInp_slices]
    norm_num [dimerInp]

/-! ## The chemical potential of a flat band -/

theorem herm_scalar (c : ℝ) : ∀ _ : Fin 2, ((c : ℂ) • (1 : Mat m)).IsHermitian := fun _ => herm_smul Matrix.isHermitian_one c

theorem rdm0_scalar (β mu c : ℝ) (s : Fin 2) :
    rdm0 β mu (fun _ => (c : ℂ) • (1 : Mat m)) s = (fermiFactor c β mu : ℂ) • 1 := by
  have e : expo β mu (fun _ => (c : ℂ) • (1 : Mat m)) s = (Real.exp (-β * (c - mu)) : ℂ) • 1 := by
    rw [expo, ← sub_smul, smul_smul, ← Matrix.diagonal_one, ← Matrix.diagonal_smul, Matrix.exp_diagonal, ← Matrix.diagonal_smul]
    congr 1
    funext i
    simp only [Pi.smul_apply, smul_eq_mul, mul_one, Pi.coe_exp, ← Complex.exp_eq_exp_ℂ]
    push_cast
    rfl
  have hx : (1 + (Real.exp (-β * (c - mu)) : ℂ)) ≠ 0 := by
    exact_mod_cast (by positivity : (1 + Real.exp (-β * (c - mu))) ≠ 0)
  have i1 : (1 + (Real.exp (-β * (c - mu)) : ℂ) • (1 : Mat m))⁻¹ = (1 + (Real.exp (-β * (c - mu)) : ℂ))⁻¹ • 1 := by
    refine Matrix.inv_eq_right_inv ?_
    rw [show 1 + (Real.exp (-β * (c - mu)) : ℂ) • (1 : Mat m) = (1 + (Real.exp (-β * (c - mu)) : ℂ)) • 1 by rw [add_smul, one_smul],
      Matrix.smul_mul, Matrix.one_mul, smul_smul, mul_inv_cancel₀ hx, one_smul]
  rw [rdm0, Grand.dens, e, i1]
  have f : (fermiFactor c β mu : ℂ) = 1 - (1 + (Real.exp (-β * (c - mu)) : ℂ))⁻¹ := by
    rw [fermiFactor, show -β * (c - mu) = -(β * (c - mu)) by ring, Real.exp_neg]
    have h1 : (Real.exp (β * (c - mu)) : ℂ) ≠ 0 := by exact_mod_cast (Real.exp_pos _).ne'
    have h2 : (Real.exp (β * (c - mu)) : ℂ) + 1 ≠ 0 := by exact_mod_cast (by positivity : Real.exp (β * (c - mu)) + 1 ≠ 0)
    push_cast at h1 h2 ⊢
    field_simp
    ring
  rw [f, Matrix.transpose_sub, Matrix.transpose_smul, Matrix.transpose_one, sub_smul, one_smul]

theorem navOf_scalar (β mu c : ℝ) : navOf (rdm0 β mu fun _ => (c : ℂ) • (1 : Mat m)) = 2 * m * fermiFactor c β mu := by
  rw [navOf, rdm0_scalar, rdm0_scalar, Matrix.trace_smul, Matrix.trace_one, Fintype.card_fin]
  simp only [smul_eq_mul, Complex.add_re, Complex.re_ofReal_mul, Complex.natCast_re]
  ring

theorem fermi_lt {β : ℝ} (hβ : 0 < β) (e : ℝ) {mu nu : ℝ} (h : mu < nu) : fermiFactor e β mu < fermiFactor e β nu := by
  rw [fermiFactor, fermiFactor]
  refine one_div_lt_one_div_of_lt (by positivity) ?_
  have := Real.exp_lt_exp.2 (mul_lt_mul_of_pos_left (show e - nu < e - mu by linarith) hβ)
  linarith

theorem fermi_half (β e : ℝ) : fermiFactor e β e = 1 / 2 := by
  rw [fermiFactor, sub_self, mul_zero, Real.exp_zero]
  norm_num

/-- The search for half filling of a level at 0: found at the first midpoint. -/
theorem finds_zero {f : ℝ → ℝ} {deps : ℝ} (hd : 0 < deps) {maxIt : Nat} (hm : 0 < maxIt) (h0 : f 0 = 0) (h1 : f (-1) < 0) (h2 : 0 < f 1) :
    Finds f deps maxIt (some 0) := by
  refine ⟨_, Widen.stop (-1) 1 ?_, ?_⟩
  · rw [sign_neg h1, sign_pos h2]
    decide
  · obtain ⟨k, rfl⟩ := Nat.exists_eq_add_of_lt hm
    rw [zero_add, bisect]
    norm_num [h0, hd]

/-- The search for half filling of a level at 3/2: found at the second midpoint. -/
theorem finds_three {f : ℝ → ℝ} {deps : ℝ} (hd : 0 < deps) {maxIt : Nat} (hm : 2 ≤ maxIt) (h0 : f (3 / 2) = 0) (h1 : f (-1) < 0) (h2 : f 1 < 0)
    (h3 : f (-3) < 0) (h4 : 0 < f 3) (h5 : f 0 ≤ -deps) : Finds f deps maxIt (some (3 / 2)) := by
  refine ⟨_, Widen.more (-1) 1 _ ?_ (Widen.stop _ _ ?_), ?_⟩
  · rw [sign_neg h1, sign_neg h2]
    decide
  · norm_num
    rw [sign_neg h3, sign_pos h4]
    decide
  · obtain ⟨k, rfl⟩ := Nat.exists_eq_add_of_le hm
    rw [show 2 + k = (k + 1) + 1 by omega, bisect]
    norm_num
    rw [if_neg, if_pos, bisect]
    · norm_num [h0, hd]
    · exact mul_pos_of_neg_of_neg (by linarith) h3
    · rw [not_lt, abs_of_neg (by linarith)]
      linarith

/-! ## A case of the mean-field trial -/

/-- Sites with a repulsion of 1 at half filling, with `H1` given separately. -/
noncomputable def siteInp (t : ℝ) (U : ℝ) (maxMacro : Nat) : MInp 1 where
  H1 := fun _ => ((0 : ℝ) : ℂ) • 1
  beta := 1
  dt := 1
  stack := some 1
  cond := 1
  nav := 1
  deps := 1 / 10
  maxIt := 1000
  mu := none
  alt := false
  qrp := someQrp
  fock := fockHubbard (fun _ => (t : ℂ) • 1) U
  alpha := 3 / 4
  maxScf := 1000
  maxMacro := maxMacro
  findMu := true

theorem siteInp_ok (t U : ℝ) (k : Nat) : (siteInp t U k).Ok :=
  ⟨⟨herm_scalar 0, by norm_num [siteInp], someQrp_spec⟩, fun P hP s => fockHubbard_herm (herm_scalar t) U P hP s⟩

theorem siteInp_slices (t U : ℝ) (k : Nat) : numSlices (siteInp t U k).beta (siteInp t U k).dt = 1 := by
  simp [numSlices, siteInp]

theorem siteInp_betaEff (t U : ℝ) (k : Nat) : (siteInp t U k).betaEff = 1 := by
  rw [Inp.betaEff, siteInp_slices]
  simp [siteInp]

theorem site_stack (t U : ℝ) (k : Nat) :
    stackSize (siteInp t U k).stack (numSlices (siteInp t U k).beta (siteInp t U k).dt) (siteInp t U k).cond = some 1 := by
  rw [siteInp_slices]
  simp only [stackSize, siteInp, stackGuess]
  rfl

theorem deltaNav_scalar {I : Inp 1} (hq : ∀ A, IsQRP A (I.qrp A).1 (I.qrp A).2.1 (I.qrp A).2.2) (t : ℝ) {nb : Nat} (hb : 0 < nb) (c target mu : ℝ) :
    deltaNav I.qrp (expH t fun _ => (c : ℂ) • 1) t 1 nb target mu = 2 * fermiFactor c (nb * t) mu - target := by
  have h := navOf_scalar (m := 1) (nb * t) mu c
  rw [navOf] at h
  rw [deltaNav, navAt, computeRho_expH, computeRho_expH, rdm_stable hq _ _ (herm_scalar c) hb, rdm_stable hq _ _ (herm_scalar c) hb, one_mul, h]
  push_cast
  ring

theorem site_oneBody (t U : ℝ) (k : Nat) : OneBody (siteInp t U k).toInp (build (siteInp t U k).toInp 1 0) := by
  refine ⟨1, 0, site_stack t U k, Or.inr ⟨rfl, ?_⟩, rfl⟩
  have e : ∀ mu, deltaNav (siteInp t U k).qrp (expH (((1 : Nat) : ℝ) * (siteInp t U k).dt) (siteInp t U k).H1) (((1 : Nat) : ℝ) * (siteInp t U k).dt)
      (siteInp t U k).sign ⌊(siteInp t U k).beta / (((1 : Nat) : ℝ) * (siteInp t U k).dt)⌋₊ (siteInp t U k).nav mu = 2 * fermiFactor 0 1 mu - 1 := by
    intro mu
    have := deltaNav_scalar (I := (siteInp t U k).toInp) someQrp_spec 1 (nb := 1) one_pos 0 1 mu
    simp only [siteInp, Inp.sign] at this ⊢
    norm_num at this ⊢
    exact this
  have h0 := fermi_half 1 0
  have h1 := fermi_lt one_pos 0 (show (-1 : ℝ) < 0 by norm_num)
  have h2 := fermi_lt one_pos 0 (show (0 : ℝ) < 1 by norm_num)
  refine finds_zero (by norm_num [siteInp]) (by norm_num [siteInp]) ?_ ?_ ?_
  · rw [e]; linarith
  · rw [e]; linarith
  · rw [e]; linarith

theorem site_P (t U : ℝ) (k : Nat) : (build (siteInp t U k).toInp 1 0).P = fun _ => ((1 / 2 : ℝ) : ℂ) • 1 := by
  funext s
  rw [build_P (siteInp_ok t U k).toInp (site_oneBody t U k), siteInp_betaEff]
  have e : (siteInp t U k).sign * (build (siteInp t U k).toInp 1 0).mu = 0 := by simp [build]
  rw [e, show (siteInp t U k).H1 = fun _ => ((0 : ℝ) : ℂ) • (1 : Mat 1) from rfl, rdm0_scalar, fermi_half]

theorem site_bins (t U : ℝ) (k : Nat) : (build (siteInp t U k).toInp 1 0).numBins = 1 := by
  simp [build, siteInp]

theorem site_nav (t U : ℝ) (k : Nat) : (build (siteInp t U k).toInp 1 0).nav = 1 := by
  have : (build (siteInp t U k).toInp 1 0).nav = navOf (build (siteInp t U k).toInp 1 0).P := rfl
  rw [this, site_P, navOf]
  norm_num [Matrix.trace_smul]

theorem site_newMu (t U : ℝ) (k : Nat) {c mu : ℝ}
    (h : Finds (fun x => 2 * fermiFactor c 1 x - 1) (1 / 10) 1000 (some mu)) :
    newMu (siteInp t U k) (build (siteInp t U k).toInp 1 0)
      (expH ((build (siteInp t U k).toInp 1 0).stackSize * (siteInp t U k).dt) fun _ => (c : ℂ) • 1) mu := by
  rw [newMu, if_pos (show (siteInp t U k).findMu = true from rfl), site_bins, site_nav]
  have e : deltaNav (siteInp t U k).qrp (expH ((build (siteInp t U k).toInp 1 0).stackSize * (siteInp t U k).dt) fun _ => (c : ℂ) • 1)
      ((build (siteInp t U k).toInp 1 0).stackSize * (siteInp t U k).dt) (siteInp t U k).sign 1 1 = fun x => 2 * fermiFactor c 1 x - 1 := by
    funext x
    have := deltaNav_scalar (I := (siteInp t U k).toInp) someQrp_spec 1 (nb := 1) one_pos c 1 x
    simp only [build, siteInp, Inp.sign] at this ⊢
    norm_num at this ⊢
    exact this
  rw [e]
  exact h

theorem fock_half (t U x : ℝ) : fockHubbard (fun _ => (t : ℂ) • (1 : Mat m)) U (fun _ => (x : ℂ) • 1) = fun _ => ((t + U * x : ℝ) : ℂ) • 1 := by
  funext s
  have d : (diagonal fun i : Fin m => ((x : ℂ) • (1 : Mat m)) i i) = (x : ℂ) • 1 := by
    ext a b
    by_cases h : a = b
    · subst h
      simp
    · rw [diagonal_apply_ne _ h, Matrix.smul_apply, Matrix.one_apply_ne h, smul_zero]
  simp only [fockHubbard, d, ite_self]
  rw [smul_smul, ← add_smul]
  push_cast
  rfl

/-- **C103 (case)**: sites with a repulsion of 1 at half filling: the constructor returns the half-filled ensemble, with the chemical
potential found, converged. -/
theorem site_case (k : Nat) : ∃ o r dmat nav, MeanField (siteInp (-1 / 2) 1 (k + 1)) o r dmat nav ∧ nav = 1 ∧ r.mu = 0 ∧
    r.HMF = fun _ => 0 := by
  set I := siteInp (-1 / 2) 1 (k + 1) with hI
  have ok : I.Ok := siteInp_ok _ _ _
  have h1 : OneBody I.toInp (build I.toInp 1 0) := site_oneBody _ _ _
  have hF : I.fock (fun _ => ((1 / 2 : ℝ) : ℂ) • 1) = fun _ => ((0 : ℝ) : ℂ) • 1 := by
    have := fock_half (m := 1) (-1 / 2) 1 (1 / 2)
    rw [show (-1 / 2 + 1 * (1 / 2) : ℝ) = 0 by norm_num] at this
    exact this
  have hR : rdm0 I.betaEff 0 (I.fock fun _ => ((1 / 2 : ℝ) : ℂ) • 1) = fun _ => ((1 / 2 : ℝ) : ℂ) • 1 := by
    funext s
    rw [hF, rdm0_scalar, fermi_half]
  have hit : ∀ j, scfIter I I.betaEff 0 (fun _ => ((1 / 2 : ℝ) : ℂ) • 1) j = fun _ => ((1 / 2 : ℝ) : ℂ) • 1 := by
    intro j
    induction j with
    | zero => rw [scfIter, hR]
    | succ j ih =>
      funext s
      rw [scfIter, ih, hR]
      beta_reduce
      rw [← add_smul]
      push_cast
      rw [sub_add_cancel, one_smul]
  obtain ⟨j, -, hs, -⟩ := scf_stops ok h1 0 (herm_scalar (m := 1) (1 / 2)) (by norm_num [hI, siteInp])
  rw [hit, hF] at hs
  have hP : (build I.toInp 1 0).P = fun _ => ((1 / 2 : ℝ) : ℂ) • 1 := site_P _ _ _
  have h0 := fermi_half 1 0
  have f1 := fermi_lt one_pos 0 (show (-1 : ℝ) < 0 by norm_num)
  have f2 := fermi_lt one_pos 0 (show (0 : ℝ) < 1 by norm_num)
  have hm : newMu I (build I.toInp 1 0) (expH ((build I.toInp 1 0).stackSize * I.dt) fun _ => ((0 : ℝ) : ℂ) • 1) 0 :=
    site_newMu _ _ _ (finds_zero (by norm_num) (by norm_num) (by linarith) (by linarith) (by linarith))
  have hM := Macro.last (I := I) (o := build I.toInp 1 0) k 0 0 (build I.toInp 1 0).P (fun _ => ((0 : ℝ) : ℂ) • 1) (by rw [hP, hs]) hm
    (Or.inl (by norm_num [hI, siteInp]))
  refine ⟨_, _, _, _, ⟨h1, hM, rfl, rfl⟩, ?_, rfl, ?_⟩
  · simp only
    have e : (fun s => oneRdmStable I.qrp (computeRho (expH ((build I.toInp 1 0).stackSize * I.dt) (fun _ => ((0 : ℝ) : ℂ) • (1 : Mat 1)) s) 0
        ((build I.toInp 1 0).stackSize * I.dt) 1) (build I.toInp 1 0).numBins) = rdm0 I.betaEff 0 fun _ => ((0 : ℝ) : ℂ) • 1 := by
      funext s
      rw [rdmOld_eq ok.toInp h1 0 1 (herm_scalar 0), mul_zero]
    rw [e, navOf_scalar, fermi_half]
    norm_num
  · simp

/-- **C103 (finding)**: the iterations may be used up; the result is returned all the same.  Here the target is 1 and the number of
particles of the result below 0.6. -/
theorem unconverged : ∃ (I : MInp 1) (o : Out 1) (r : MOut 1) (dmat : Fin 2 → Mat 1) (nav : ℝ), I.Ok ∧ I.findMu = true ∧
    MeanField I o r dmat nav ∧ I.nav = 1 ∧ o.nav = 1 ∧ nav < 6 / 10 ∧ r.mu = 3 / 2 := by
  set I := siteInp (3 / 2) 0 1 with hI
  have ok : I.Ok := siteInp_ok _ _ _
  have h1 : OneBody I.toInp (build I.toInp 1 0) := site_oneBody _ _ _
  have hF : ∀ P, I.fock P = fun _ => ((3 / 2 : ℝ) : ℂ) • 1 := by
    intro P
    funext s
    have : I.fock P s = fockHubbard (fun _ => ((3 / 2 : ℝ) : ℂ) • 1) 0 P s := rfl
    rw [this, fockHubbard]
    simp
  have hs : scf I ((build I.toInp 1 0).stackSize * I.dt) (build I.toInp 1 0).numBins 0 (build I.toInp 1 0).P = fun _ => ((3 / 2 : ℝ) : ℂ) • 1 := by
    obtain ⟨j, -, hs, -⟩ := scf_stops ok h1 0 (P := (build I.toInp 1 0).P) (by rw [hI, site_P]; exact herm_scalar (m := 1) (1 / 2)) (by norm_num [hI, siteInp])
    rw [hs, hF]
  have h0 := fermi_half 1 (3 / 2)
  have f1 := fermi_lt one_pos (3 / 2) (show (1 : ℝ) < 3 / 2 by norm_num)
  have f2 := fermi_lt one_pos (3 / 2) (show (-1 : ℝ) < 3 / 2 by norm_num)
  have f3 := fermi_lt one_pos (3 / 2) (show (-3 : ℝ) < 3 / 2 by norm_num)
  have f4 := fermi_lt one_pos (3 / 2) (show (3 / 2 : ℝ) < 3 by norm_num)
  have f5 : fermiFactor (3 / 2) 1 0 < 3 / 10 := by
    rw [fermiFactor, div_lt_iff₀ (by positivity)]
    have := Real.add_one_le_exp (1 * (3 / 2 - 0) : ℝ)
    linarith
  have hm : newMu I (build I.toInp 1 0) (expH ((build I.toInp 1 0).stackSize * I.dt) fun _ => ((3 / 2 : ℝ) : ℂ) • 1) (3 / 2) :=
    site_newMu _ _ _ (finds_three (by norm_num) (by norm_num) (by linarith) (by linarith) (by linarith) (by linarith) (by linarith) (by linarith))
  have hM := Macro.last (I := I) (o := build I.toInp 1 0) 0 0 (3 / 2) (build I.toInp 1 0).P (fun _ => ((3 / 2 : ℝ) : ℂ) • 1) hs.symm hm (Or.inr rfl)
  refine ⟨I, _, _, _, _, ok, rfl, ⟨h1, hM, rfl, rfl⟩, rfl, site_nav _ _ _, ?_, rfl⟩
  simp only
  have e : (fun s => oneRdmStable I.qrp (computeRho (expH ((build I.toInp 1 0).stackSize * I.dt) (fun _ => ((3 / 2 : ℝ) : ℂ) • (1 : Mat 1)) s) 0
      ((build I.toInp 1 0).stackSize * I.dt) 1) (build I.toInp 1 0).numBins) = rdm0 I.betaEff 0 fun _ => ((3 / 2 : ℝ) : ℂ) • 1 := by
    funext s
    rw [rdmOld_eq ok.toInp h1 0 1 (herm_scalar _), mul_zero]
  rw [e, navOf_scalar, siteInp_betaEff]
  push_cast
  linarith

/-! ## No interaction -/

/-- Without interaction and with the chemical potential kept, the mean-field trial takes the one-body Hamiltonian and the chemical potential
of the one-body trial; its density matrix is that of the ensemble with the chemical potential in the usual convention. -/
theorem mf_free {I : MInp m} (ok : I.Ok) (hf : I.fock = fun _ => I.H1) (hm : I.findMu = false) {o : Out m} {r : MOut m}
    {dmat : Fin 2 → Mat m} {nav : ℝ} (h : MeanField I o r dmat nav) :
    r.HMF = I.H1 ∧ r.mu = o.mu ∧ r.P = rdm0 I.betaEff o.mu I.H1 := by
  obtain ⟨hH, -, j, mus, Ps, t, hP, -⟩ := mf_ensemble ok h
  have hs : ∀ mu P, (∀ s, (P s).IsHermitian) → scf I (o.stackSize * I.dt) o.numBins mu P = I.H1 := by
    intro mu P hP
    rcases Nat.eq_zero_or_pos I.maxScf with h0 | h0
    · rw [scf, h0, hf]
      rfl
    · obtain ⟨k, -, e, -⟩ := scf_stops ok h.1 mu hP h0
      rw [e, hf]
  have hmu : ∀ i ≤ j, mus (i + 1) = o.mu := by
    intro i hi
    have := t.mu i hi
    rw [newMu, hm] at this
    simpa using this
  have hmj : mus j = o.mu := by
    rcases j with _ | j
    · exact t.mu0
    · exact hmu j (by omega)
  have e1 : r.HMF = I.H1 := by rw [t.HMF, hs _ _ (t.herm j (by omega))]
  refine ⟨e1, by rw [t.outMu, hmu j le_rfl], by rw [hP, hmj, e1]⟩

/-- In the usual convention this is the one-body trial. -/
theorem mf_free_same {I : MInp m} (ok : I.Ok) (hf : I.fock = fun _ => I.H1) (hm : I.findMu = false) (ha : I.alt = false) {o : Out m}
    {r : MOut m} {dmat : Fin 2 → Mat m} {nav : ℝ} (h : MeanField I o r dmat nav) : r.P = o.P ∧ dmat = o.dmat := by
  obtain ⟨h1, h2, h3⟩ := mf_free ok hf hm h
  have hsg : I.sign = 1 := by simp [Inp.sign, ha]
  refine ⟨by rw [h3, build_P ok.toInp h.1, hsg, one_mul], ?_⟩
  funext s
  have e : dmat s = expo I.dt r.mu r.HMF s := by rw [h.2.2.1]; rfl
  obtain ⟨ss, mu, -, -, ho⟩ := h.1
  rw [e, h1, h2, ho]
  simp only [build]
  rw [computeRho_expH, hsg, one_mul]

/-- **C103 (finding)**: in the alternate convention the mean-field trial uses the opposite chemical potential: without interaction its number
of particles differs from that of the one-body trial, whatever the Hamiltonian and a chemical potential other than 0. -/
theorem alt_wrong {I : MInp m} (ok : I.Ok) (hf : I.fock = fun _ => I.H1) (hm : I.findMu = false) (ha : I.alt = true) (h0 : 0 < m) {o : Out m}
    {r : MOut m} {dmat : Fin 2 → Mat m} {nav : ℝ} (h : MeanField I o r dmat nav) (hmu : o.mu ≠ 0) : nav ≠ o.nav := by
  obtain ⟨h1, h2, h3⟩ := mf_free ok hf hm h
  have hβ := betaEff_pos ok.toInp h.1
  have hsg : I.sign = -1 := by simp [Inp.sign, ha]
  have ho : o.nav = navOf (rdm0 I.betaEff (-o.mu) I.H1) := by
    have e : o.nav = navOf o.P := by
      obtain ⟨ss, mu, -, -, rfl⟩ := h.1
      rfl
    rw [e, build_P ok.toInp h.1, hsg, neg_one_mul]
  obtain ⟨e, he⟩ := navOf_fermi I.betaEff ok.herm
  have mono : ∀ {a b : ℝ}, a < b → navOf (rdm0 I.betaEff a I.H1) < navOf (rdm0 I.betaEff b I.H1) := by
    intro a b hab
    rw [he, he]
    haveI : Nonempty (Fin m) := ⟨⟨0, h0⟩⟩
    exact sum_lt_sum_of_nonempty univ_nonempty fun s _ => sum_lt_sum_of_nonempty univ_nonempty fun i _ => fermi_lt hβ _ hab
  rw [h.2.2.2, h3, ho]
  rcases lt_or_gt_of_ne hmu with hlt | hlt
  · exact (mono (by linarith)).ne
  · exact (mono (by linarith)).ne'

/-- The hypotheses of the finding are met: a dimer in the alternate convention. -/
theorem alt_case : ∃ (I : MInp 2) (o : Out 2) (r : MOut 2) (dmat : Fin 2 → Mat 2) (nav : ℝ), I.Ok ∧ (I.fock = fun _ => I.H1) ∧ I.findMu = false ∧
    I.alt = true ∧ MeanField I o r dmat nav ∧ o.mu = 1 / 2 ∧ nav ≠ o.nav := by
  let I : MInp 2 := { dimerInp with alt := true, fock := fun _ _ => dimer 1, alpha := 3 / 4, maxScf := 1000, maxMacro := 1000, findMu := false }
  have ok : I.Ok := ⟨⟨fun _ => dimer_herm 1, by norm_num [I, dimerInp], someQrp_spec⟩, fun _ _ _ => dimer_herm 1⟩
  obtain ⟨o, ho, hmu⟩ := onebody_succeeds I.toInp (mu := 1 / 2) rfl (by norm_num [I, dimerInp]) (by norm_num [I, dimerInp]) (Or.inl ⟨1, rfl⟩)
  have hM := Macro.last (I := I) (o := o) 999 o.mu o.mu o.P _ rfl rfl (Or.inl (by norm_num [I, dimerInp]))
  have h : MeanField I o _ _ _ := ⟨ho, hM, rfl, rfl⟩
  exact ⟨I, o, _, _, _, ok, rfl, rfl, rfl, h, hmu, alt_wrong ok rfl rfl rfl (by norm_num) h (by rw [hmu]; norm_num)⟩

/-! ## Options and systems -/

/-- **C103 (finding)**: with `alpha = 1` the inner loop takes the first density matrix for converged. -/
theorem alpha_one {I : MInp m} (ok : I.Ok) (ha : I.alpha = 1) (hd : 0 < I.deps) {o : Out m} (h : OneBody I.toInp o) (mu : ℝ)
    {P : Fin 2 → Mat m} (hP : ∀ s, (P s).IsHermitian) (hn : 0 < I.maxScf) :
    scf I (o.stackSize * I.dt) o.numBins mu P = I.fock (rdm0 I.betaEff mu (I.fock P)) := by
  obtain ⟨j, -, h1, h2, -⟩ := scf_stops ok h mu hP hn
  rcases j with _ | j
  · rw [h1, scfIter]
  · have := h2 0 (by omega)
    rw [ha, sub_self, abs_zero, zero_mul] at this
    linarith

/-- **C103 (finding)**: for a `Generic` system the Fock matrix cannot be computed, as the vectors are stored as a matrix. -/
theorem generic_raises (nb nchol : Nat) : fockGenericShape (hsPotShape nb nchol) nb = none := rfl

end Verif.TrialRho
