import Verif.Step.Hubbard

/-!
# One free step of the plane-wave propagator, and wrong cases of the other propagators (C79)
-/

namespace Verif.Step

open MeasureTheory Finset Matrix
open Verif.Energy (ovl oneBody twoBody hamil)

variable {nu nd : Nat}

/-! ## Plane waves -/

theorem oneBody_rep {nb : Nat} (Au Bu : Matrix (Fin nb) (Fin nu) ℂ) (Ad Bd : Matrix (Fin nb) (Fin nd) ℂ)
    (M : Matrix (Fin nb) (Fin nb) ℂ) :
    UEG.oneBody (fun a b => rep Au Bu Ad Bd (Matrix.single a b 1)) M = rep Au Bu Ad Bd M := by
  rw [UEG.oneBody]
  conv_rhs => rw [Matrix.matrix_eq_sum_single M]
  rw [map_sum]
  refine sum_congr rfl fun a _ => ?_
  rw [map_sum]
  refine sum_congr rfl fun b _ => ?_
  rw [← map_smul]
  congr 1
  ext r c
  simp [Matrix.single_apply]

theorem elem_list {nb : Nat} (Au Bu : Matrix (Fin nb) (Fin nu) ℂ) (Ad Bd : Matrix (Fin nb) (Fin nd) ℂ)
    (l : List UEG.Vec) (f : UEG.Vec → Module.End ℂ (ℂ × Matrix (Fin nb) (Fin nb) ℂ × ℂ)) :
    elem Au Bu Ad Bd (l.map f).sum = (l.map fun q => elem Au Bu Ad Bd (f q)).sum := by
  induction l with
  | nil => simp
  | cons a l ih => simp only [List.map_cons, List.sum_cons, map_add, ih]

theorem sqElem_eq_prod {nb : Nat} (M : Matrix (Fin nb) (Fin nb) ℂ) (Au Bu : Matrix (Fin nb) (Fin nu) ℂ)
    (Ad Bd : Matrix (Fin nb) (Fin nd) ℂ) :
    sqElem (fun _ => M) Au Bu Ad Bd = prodElem Au Bu Ad Bd M M := by
  rw [sqElem, prodElem, pairElem, oneElem]; ring

/-- The Coulomb Hamiltonian in terms of the tables of the propagator. -/
theorem coulombElem_eq (I : UEG.Inp) (hk : 0 < I.kfac) (hv : 0 < I.vol) (ht : I.twist = 0)
    (Au Bu : Matrix (Fin (UEG.nb I)) (Fin nu) ℂ) (Ad Bd : Matrix (Fin (UEG.nb I)) (Fin nd) ℂ) :
    coulombElem (UEG.kin I) (UEG.coulomb I) Au Bu Ad Bd =
      oneElem (fun _ => diagonal fun i => (UEG.modOneBody I i : ℂ)) Au Bu Ad Bd -
      (1 / 2 : ℂ) * ((UEG.qvecs I).map fun q => sqElem (fun _ => UEG.iA I q) Au Bu Ad Bd +
        sqElem (fun _ => UEG.iB I q) Au Bu Ad Bd).sum := by
  have h := congrArg (elem Au Bu Ad Bd) (UEG.hamiltonian_eq I hk hv ht
    (fun a b => rep Au Bu Ad Bd (Matrix.single a b 1)))
  simp only [oneBody_rep, map_add, map_sub, map_smul, map_sum, elem_list, elem_rep, pow_two,
    elem_rep_mul, smul_eq_mul] at h
  have hd : ∀ v : Fin (UEG.nb I) → ℂ, oneElem (fun _ => diagonal v) Au Bu Ad Bd =
      ∑ i, v i * oneElem (fun _ => Matrix.single i i 1) Au Bu Ad Bd := by
    intro v
    rw [diagonal_eq, oneElem_sum univ (fun i _ => v i • site i)]
    exact sum_congr rfl fun i _ => oneElem_smul (v i) (fun _ => site i) Au Bu Ad Bd
  simp only [sqElem_eq_prod, hd]
  rw [← h, coulombElem]
  have hk2 : oneElem (UEG.kin I) Au Bu Ad Bd = ∑ i, (UEG.energy I (UEG.bv I i) : ℂ) *
      oneElem (fun _ => Matrix.single i i 1) Au Bu Ad Bd := hd _
  rw [hk2]
  refine congrArg₂ (· + ·) rfl (congrArg ((1 / 2 : ℂ) * ·) ?_)
  refine sum_congr rfl fun p _ => sum_congr rfl fun r _ => sum_congr rfl fun q _ =>
    sum_congr rfl fun s _ => ?_
  rw [UEG.coulomb]
  refine congrArg (_ * ·) ?_
  have hm : (Matrix.single p r (1 : ℂ)) * Matrix.single q s 1 = if r = q then Matrix.single p s 1 else 0 := by
    split_ifs with hrq
    · subst hrq; simp
    · simp [hrq]
  rw [prodElem, hm]
  split_ifs with hrq
  · rw [elem_rep]; ring
  · rw [map_zero]
    simp only [oneElem, oneBody_zero]
    ring

/-- The tables of the propagator of an electron gas, ueg.py 91-96 and 395-430. -/
noncomputable def uegTables (dt : ℝ) (I : UEG.Inp) : Tables ((UEG.qvecs I).length + (UEG.qvecs I).length) (UEG.nb I) :=
  planeWave dt (fun _ => diagonal fun i => (UEG.modOneBody I i : ℂ))
    (fun q => UEG.iA I (UEG.qvecs I)[q]) (fun q => UEG.iB I (UEG.qvecs I)[q])

/-- **C79 (plane waves)**: without twist, the step averages to the kinetic energy plus the Coulomb
repulsion. -/
theorem planeWave_first_order (n : Nat) (hn : 2 ≤ n) (I : UEG.Inp) (hk : 0 < I.kfac) (hv : 0 < I.vol)
    (ht : I.twist = 0) (psi A : Slater.Wfn (UEG.nb I) nu nd) (e : ℂ) (w : Slater.Wk (UEG.nb I) nu nd) :
    FirstOrder (fun dt xi => propagateFree n dt (uegTables dt I) psi e xi w) w A
      (coulombElem (UEG.kin I) (UEG.coulomb I) (Slater.up A) (Slater.up w.phi) (Slater.dn A) (Slater.dn w.phi))
      e := by
  have key := free_first_order n hn (fun dt => uegTables dt I)
    (fun _ => diagonal fun i => (UEG.modOneBody I i : ℂ))
    (fun a _ => Fin.addCases (fun q => UEG.iA I (UEG.qvecs I)[q]) (fun q => UEG.iB I (UEG.qvecs I)[q]) a)
    (fun _ => 0) (fun _ => rfl) (fun _ _ => rfl) (fun dt _ x s => ?_) psi A e w
    (coulombElem (UEG.kin I) (UEG.coulomb I) (Slater.up A) (Slater.up w.phi) (Slater.dn A) (Slater.dn w.phi))
    0 ?_
  · rwa [zero_add] at key
  · simp only [uegTables, planeWave, Fin.sum_univ_add, Fin.addCases_left, Fin.addCases_right]
  · rw [coulombElem_eq I hk hv ht, generator, Fin.sum_univ_add]
    simp only [Fin.addCases_left, Fin.addCases_right, mul_zero, zero_mul, sub_zero, add_zero,
      zero_pow two_ne_zero]
    rw [← sum_add_distrib]
    have hl := Fin.sum_univ_fun_getElem (UEG.qvecs I) (fun q => (1 / 2 : ℂ) * (sqElem (fun _ => UEG.iA I q)
      (Slater.up A) (Slater.up w.phi) (Slater.dn A) (Slater.dn w.phi)) + (1 / 2 : ℂ) *
      sqElem (fun _ => UEG.iB I q) (Slater.up A) (Slater.up w.phi) (Slater.dn A) (Slater.dn w.phi))
    have hl2 : ((UEG.qvecs I).map fun q => (1 / 2 : ℂ) * (sqElem (fun _ => UEG.iA I q)
      (Slater.up A) (Slater.up w.phi) (Slater.dn A) (Slater.dn w.phi)) + (1 / 2 : ℂ) *
      sqElem (fun _ => UEG.iB I q) (Slater.up A) (Slater.up w.phi) (Slater.dn A) (Slater.dn w.phi)).sum =
      (1 / 2 : ℂ) * ((UEG.qvecs I).map fun q => sqElem (fun _ => UEG.iA I q)
      (Slater.up A) (Slater.up w.phi) (Slater.dn A) (Slater.dn w.phi) +
      sqElem (fun _ => UEG.iB I q) (Slater.up A) (Slater.up w.phi) (Slater.dn A) (Slater.dn w.phi)).sum := by
      rw [← List.sum_map_mul_left]
      congr 1
      exact List.map_congr_left fun q _ => by ring
    rw [hl2] at hl
    rw [← hl]
    simp only [Fin.getElem_fin]
    ring

/-! ## Cases in which the step is wrong -/

/-- A walker with weight and phase one. -/
noncomputable def wk0 {nb : Nat} (phi : Slater.Wfn nb nu nd) : Slater.Wk nb nu nd :=
  ⟨phi, 0, 0, 1, 1, 1, 1, 0, 0, 1, 0⟩

/-- One up electron on two sites with the given amplitudes. -/
def orb (a b : ℂ) : Slater.Wfn 2 1 0 := fun i _ => if i = 0 then a else b

theorem orb_up (a b : ℂ) : Slater.up (orb a b) = fun i _ => if i = 0 then a else b := rfl

theorem ovl_dn_zero {nb : Nat} (A B : Matrix (Fin nb) (Fin 0) ℂ) : ovl A B = 1 := by simp [ovl]

theorem ovl_orb (a b c d : ℂ) : ovl (Slater.up (orb a b)) (Slater.up (orb c d)) =
    star a * c + star b * d := by
  rw [ovl, Matrix.det_unique, Matrix.mul_apply, Fin.sum_univ_two]
  rfl

theorem oneBody_orb (T : Matrix (Fin 2) (Fin 2) ℂ) (a b c d : ℂ) :
    oneBody T (Slater.up (orb a b)) (Slater.up (orb c d)) =
      star a * (T 0 0 * c + T 0 1 * d) + star b * (T 1 0 * c + T 1 1 * d) := by
  rw [oneBody, Fin.sum_univ_one, Matrix.det_unique, Matrix.mul_apply, Fin.sum_univ_two]
  have hc : ∀ (B : Matrix (Fin 2) (Fin 1) ℂ) (v : Fin 2 → ℂ) (r : Fin 2), B.updateCol 0 v r default = v r :=
    fun B v r => Matrix.updateCol_self
  rw [hc, hc]
  simp only [Matrix.mulVec, dotProduct, Fin.sum_univ_two]
  rfl

theorem oneBody_zero_elec {nb : Nat} (T : Matrix (Fin nb) (Fin nb) ℂ) (A B : Matrix (Fin nb) (Fin 0) ℂ) :
    oneBody T A B = 0 := by simp [oneBody]

/-- **C79 fails** for the spin decomposition with a spin-polarised trial: for one electron on two sites and
every `U ≠ 0`, the trial with the electron on the first site, no constant makes the average right for
the overlaps with both sites. -/
theorem spin_wrong (n : Nat) (hn : 2 ≤ n) (h1 : Fin 2 → Matrix (Fin 2) (Fin 2) ℂ) (U : ℝ) (hU : U ≠ 0)
    (G : Fin 2 → Matrix (Fin 2) (Fin 2) ℂ)
    (hG : G = fun s => if s = 0 then Matrix.single 0 0 1 else 0) (psi : Slater.Wfn 2 1 0) (e : ℂ) :
    ¬ ∃ c : ℂ, ∀ A : Slater.Wfn 2 1 0,
      FirstOrder (fun dt xi => propagateFree n dt ((Hub.mk h1 U false).spin dt
        ((Hub.mk h1 U false).mfShiftSpin G)) psi e xi (wk0 (orb 1 1))) (wk0 (orb 1 1)) A
        (hubbardElem h1 U (Slater.up A) (Slater.up (orb 1 1)) (Slater.dn A) (Slater.dn (orb 1 1))) c := by
  rintro ⟨c, hc⟩
  have h : ∀ A : Slater.Wfn 2 1 0, _ := fun A =>
    FirstOrder.unique (hc A) (spin_exact n hn (Hub.mk h1 U false) ((Hub.mk h1 U false).mfShiftSpin G) psi A e
      (wk0 (orb 1 1))) (by simp [wk0])
  have a := h (orb 1 0)
  have b := h (orb 0 1)
  simp only [wk0, ovl2, hubbardElem, oneElem, ovl_dn_zero, ovl_orb, oneBody_orb, oneBody_zero_elec,
    Fin.sum_univ_two, Hub.mfShiftSpin, hG, site] at a b
  have hr : root U * root U = (U : ℂ) := root_sq U
  simp at a b
  have hU' : (U : ℂ) ≠ 0 := by exact_mod_cast hU
  apply hU'
  linear_combination (1 / 2) * a + (1 / 2) * b - hr

/-- A Hermitian, not symmetric, Cholesky vector. -/
def cvec : Matrix (Fin 2) (Fin 2) ℂ := !![1, -Complex.I; Complex.I, -1]

theorem cvec_extra : (cvec * cvecᵀ - cvec * cvec) 0 1 = 2 * Complex.I := by
  rw [Matrix.sub_apply, Matrix.mul_apply, Matrix.mul_apply, Fin.sum_univ_two, Fin.sum_univ_two]
  simp [cvec]
  ring

theorem cvec_hermitian : cvecᴴ = cvec := by
  ext i j; fin_cases i <;> fin_cases j <;> simp [cvec]

/-- **C79 fails** for complex Cholesky vectors, Hermitian but not symmetric: no constant makes the average
right. -/
theorem hermitian_wrong (n : Nat) (hn : 2 ≤ n) (h1 : Fin 2 → Matrix (Fin 2) (Fin 2) ℂ) (ecore : ℂ)
    (mf : Fin 1 → ℂ) (psi : Slater.Wfn 2 1 0) (e : ℂ) :
    ¬ ∃ c : ℂ, ∀ A : Slater.Wfn 2 1 0,
      FirstOrder (fun dt xi => propagateFree n dt ((Gen.mk h1 (fun _ => cvec) ecore).tables dt mf) psi e xi
        (wk0 (orb 0 1))) (wk0 (orb 0 1)) A
        (hamil h1 (fun _ : Fin 1 => cvec) ecore (Slater.up A) (Slater.up (orb 0 1)) (Slater.dn A)
          (Slater.dn (orb 0 1))) c := by
  rintro ⟨c, hc⟩
  have a := FirstOrder.unique (hc (orb 1 0)) (generic_exact n hn (Gen.mk h1 (fun _ => cvec) ecore) mf psi (orb 1 0) e
      (wk0 (orb 0 1))) (by simp [wk0])
  simp only [wk0, ovl2, oneElem, ovl_dn_zero, ovl_orb, oneBody_zero_elec, Gen.extra, univ_unique,
    sum_singleton] at a
  rw [oneBody_orb] at a
  simp only [Matrix.smul_apply, cvec_extra, smul_eq_mul] at a
  simp at a
  exact Complex.I_ne_zero (by linear_combination a)

/-! ## Non-vacuity -/

/-- Two real symmetric vectors. -/
noncomputable def exGen : Gen 2 2 := ⟨fun _ => !![1, 2; 2, 3], ![!![1, 1; 1, 0], !![0, 1; 1, 2]], 5⟩

/-- The hypotheses are met, with the mean-field shift of a trial; the matrix element is not zero. -/
example : FirstOrder (fun dt xi => propagateFree 6 dt (exGen.tables dt (exGen.mfShift
      fun _ => Matrix.single 0 0 1)) (orb 1 0) 3 xi (wk0 (orb 1 1))) (wk0 (orb 1 1)) (orb 1 0)
    (hamil exGen.h1 exGen.chol exGen.ecore (Slater.up (orb 1 0))
      (Slater.up (orb 1 1)) (Slater.dn (orb 1 0)) (Slater.dn (orb 1 1)))
    (5 + 1 / 2 * ∑ a, exGen.mfShift (fun _ => Matrix.single 0 0 1) a *
      exGen.mfShift (fun _ => Matrix.single 0 0 1) a + 3) :=
  generic_first_order 6 (by norm_num) _ (by
    intro a
    fin_cases a <;> (ext i j; fin_cases i <;> fin_cases j <;> rfl)) _ _ _ _ _

example : hamil exGen.h1 exGen.chol exGen.ecore (Slater.up (orb 1 0))
      (Slater.up (orb 1 1)) (Slater.dn (orb 1 0)) (Slater.dn (orb 1 1)) = 8 := by
  simp [hamil, ovl_orb, ovl_dn_zero, oneBody_orb, oneBody_zero_elec, twoBody, exGen]
  norm_num

end Verif.Step
