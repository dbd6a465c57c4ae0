import Verif.Grand.Thermo

/-!
# Grand canonical averages of the Hubbard model and the electron gas
-/

namespace Verif.Grand

open Matrix Finset
open Verif.Thermal (Mat)
open Verif.Step (half genOp hubOp hubOp_sym hubOp_herm coulombOp coulombOp_herm Anti Sym spin Linear Hub root root_sq spinOp site)
open scoped ComplexOrder

variable {nx m : Nat}

/-- `H - μ N` on every number of particles. -/
def grand (H : Ops m) (mu : ℂ) : Ops m := fun nu nd => H nu nd - (mu * ((nu + nd : Nat) : ℂ)) • 1

/-- The number of particles. -/
def number : Ops m := fun nu nd => ((nu + nd : Nat) : ℂ) • 1

theorem observes_number : Observes (fun P : Fin 2 → Mat m => (P 0).trace + (P 1).trace) number := fun C h => by
  beta_reduce
  rw [trace_transpose, trace_transpose]
  exact wick_number h

theorem number_sym (nu nd : Nat) : Sym spin ((number : Ops m) nu nd) := Sym.one.smul _

theorem grand_sym {H : Ops m} (hS : ∀ nu nd, Sym spin (H nu nd)) (mu : ℂ) (nu nd : Nat) : Sym spin (grand H mu nu nd) :=
  (hS nu nd).sub (Sym.one.smul _)

theorem grand_herm {H : Ops m} (hH : ∀ nu nd, (H nu nd).IsHermitian) (mu : ℝ) (nu nd : Nat) :
    (grand H (mu : ℂ) nu nd).IsHermitian := by
  refine (hH nu nd).sub ?_
  rw [Matrix.IsHermitian, Matrix.conjTranspose_smul, Matrix.conjTranspose_one]
  congr 1
  simp

/-- A constant in the one-body Hamiltonian is a chemical potential. -/
theorem genOp_shift (K : Fin 2 → Mat m) (W : Fin nx → Fin 2 → Mat m) (mf : Fin nx → ℂ) (c : ℂ) (nu nd : Nat) :
    genOp (fun s => K s - c • 1) W mf (spin : Fin nu ⊕ Fin nd → Fin 2) =
      genOp K W mf spin - (c * ((nu + nd : Nat) : ℂ)) • 1 := by
  rw [genOp, genOp, Step.spinOp_sub spin K fun _ => c • 1, Step.spinOp_smul spin c fun _ => (1 : Mat m), Step.spinOp_one,
    smul_smul]
  have : Fintype.card (Fin nu ⊕ Fin nd) = nu + nd := by simp
  rw [this]
  abel

/-! ## Hubbard model -/

/-- The chemical potential of the ensemble: the input with its sign convention; with `symmetric` it is lowered by
`U / 2`. -/
noncomputable def hubMu (h : Hub m) (alt : Bool) (mu : ℝ) : ℝ :=
  (if alt then -mu else mu) - if h.symmetric then h.U / 2 else 0

theorem hub_linear (h : Hub m) (alt : Bool) (mu : ℝ) (P : Fin 2 → Mat m) :
    Linear (fun dt => hubTables dt h alt mu P)
      (fun s => (h.h1eMod s - (Complex.I * root h.U) • diagonal fun i => Complex.I * root h.U * (P 0 i i + P 1 i i)) -
        ((if alt then -mu else mu : ℝ) : ℂ) • 1)
      (fun i _ => (Complex.I * root h.U) • site i) (fun i => Complex.I * root h.U * (P 0 i i + P 1 i i)) := by
  have hc := Step.Hub.charge_linear h fun i => Complex.I * root h.U * (P 0 i i + P 1 i i)
  refine ⟨fun _ => rfl, fun dt s => ?_, fun dt h0 x s => hc.field dt h0 x s⟩
  simp only [hubTables]
  congr 2
  cases alt
  · simp only [Bool.false_eq_true, if_false]
    module
  · simp only [if_true, Complex.ofReal_neg]
    module

theorem hub_gen (h : Hub m) (alt : Bool) (mu : ℝ) (mf : Fin m → ℂ) (nu nd : Nat) (α : (Fin nu ⊕ Fin nd → Fin m) → ℂ)
    (hα : Anti spin α) :
    α ᵥ* genOp (fun s => (h.h1eMod s - (Complex.I * root h.U) • diagonal mf) - ((if alt then -mu else mu : ℝ) : ℂ) • 1)
      (fun i _ => (Complex.I * root h.U) • site i) mf spin =
    α ᵥ* (grand (fun _ _ => hubOp h.h1 h.U spin) (hubMu h alt mu : ℂ) nu nd - (1 / 2 * ∑ i, mf i * mf i) • 1) := by
  have hcard : Fintype.card (Fin nu ⊕ Fin nd) = nu + nd := by simp
  rw [genOp_shift (fun s => h.h1eMod s - (Complex.I * root h.U) • diagonal mf), Matrix.vecMul_sub,
    Step.Hub.charge_genOp h mf spin hα, ← Matrix.vecMul_sub, hcard]
  congr 1
  rw [grand, hubMu, sub_sub, sub_sub, ← add_smul, ← add_smul]
  congr 2
  cases alt <;> cases h.symmetric <;> simp <;> ring

theorem hub_herm (h : Hub m) (hh : ∀ s, (h.h1 s)ᴴ = h.h1 s) (alt : Bool) (mu : ℝ) {P : Fin 2 → Mat m}
    (hP : ∀ s i, star (P s i i) = P s i i) (s : Fin 2) :
    ((h.h1eMod s - (Complex.I * root h.U) • diagonal fun i => Complex.I * root h.U * (P 0 i i + P 1 i i)) -
        ((if alt then -mu else mu : ℝ) : ℂ) • (1 : Mat m))ᴴ =
      (h.h1eMod s - (Complex.I * root h.U) • diagonal fun i => Complex.I * root h.U * (P 0 i i + P 1 i i)) -
        ((if alt then -mu else mu : ℝ) : ℂ) • 1 := by
  have hr : (Complex.I * root h.U) * (Complex.I * root h.U) = -h.U := by
    linear_combination (Complex.I * Complex.I) * root_sq h.U + h.U * Complex.I_mul_I
  have hd : ((Complex.I * root h.U) • diagonal fun i => Complex.I * root h.U * (P 0 i i + P 1 i i) : Mat m) =
      diagonal fun i => -(h.U : ℂ) * (P 0 i i + P 1 i i) := by
    rw [← Matrix.diagonal_smul]
    congr 1
    funext i
    rw [Pi.smul_apply, smul_eq_mul, ← mul_assoc, hr]
  have hm : (h.h1eMod s)ᴴ = h.h1eMod s := by
    unfold Step.Hub.h1eMod
    split_ifs
    · exact hh s
    · rw [Matrix.conjTranspose_sub, hh s, Matrix.conjTranspose_smul, Matrix.conjTranspose_one]
      congr 2
      simp
  rw [hd, Matrix.conjTranspose_sub, Matrix.conjTranspose_sub, hm, Matrix.diagonal_conjTranspose, Matrix.conjTranspose_smul,
    Matrix.conjTranspose_one]
  congr 2
  · congr 2
    funext i
    simp only [Pi.star_apply, star_mul', star_neg, star_add, hP]
    simp
  · simp

/-- The one-body energy of the estimator. -/
theorem observes_oneBody (T : Fin 2 → Mat m) :
    Observes (fun P => Energy.dot2 (T 0) (P 0) + Energy.dot2 (T 1) (P 1)) (oneOp T) := fun C h => by
  beta_reduce
  rw [wick_oneOp h, Fin.sum_univ_two, dot2_eq, dot2_eq]

/-- **C83 (Hubbard model)**: free projection at finite temperature with continuous auxiliary fields (charge
decomposition, either sign of `U`, any scheme for the Green's function, any positive definite trial density matrix with
any real mean-field shifts).  As the number of slices grows the energy, its one-body part and the number of particles
reported by the run converge to the grand canonical averages. -/
theorem hub_averages (n : Nat) (hn : 2 ≤ n) (h : Hub m) (hh : ∀ s, (h.h1 s)ᴴ = h.h1 s) (alt : Bool) (mu : ℝ)
    {P : Fin 2 → Mat m} (hP : ∀ s i, star (P s i i) = P s i i) {β : ℝ} (hβ : 0 ≤ β) :
    Averages n (fun dt => hubTables dt h alt mu P) β (grand (fun _ _ => hubOp h.h1 h.U spin) (hubMu h alt mu : ℂ))
      (fun P => (Energy.localHubbard h.h1 h.U h.symmetric P).1) (fun _ _ => hubOp h.h1 h.U spin) ∧
    Averages n (fun dt => hubTables dt h alt mu P) β (grand (fun _ _ => hubOp h.h1 h.U spin) (hubMu h alt mu : ℂ))
      (fun P => (Energy.localHubbard h.h1 h.U h.symmetric P).2.1) (oneOp h.h1) ∧
    Averages n (fun dt => hubTables dt h alt mu P) β (grand (fun _ _ => hubOp h.h1 h.U spin) (hubMu h alt mu : ℂ))
      (fun P => (P 0).trace + (P 1).trace) number := by
  have hS : ∀ nu nd : Nat, Sym (spin : Fin nu ⊕ Fin nd → Fin 2) (hubOp h.h1 (h.U : ℂ) spin) := fun _ _ => hubOp_sym _ _ _
  have hH : ∀ nu nd : Nat, (hubOp h.h1 (h.U : ℂ) (spin : Fin nu ⊕ Fin nd → Fin 2)).IsHermitian :=
    fun _ _ => hubOp_herm h.U hh spin
  have key := fun {E : (Fin 2 → Mat m) → ℂ} {O : Ops m} => averages (E := E) (O := O) n hn (hub_linear h alt mu P)
    (hub_herm h hh alt mu hP) hβ (hub_gen h alt mu _) (grand_sym hS _) (grand_herm hH _)
  exact ⟨key hS fun C hC => wick_hub hC h.h1 h.U h.symmetric, key (fun _ _ => Sym.spinOp _ _) (observes_oneBody h.h1),
    key number_sym observes_number⟩

/-- **C83 (Hubbard model, part)**: at the chemical potential of the input, unless `symmetric` is set
(`symmetric_wrong`). -/
theorem hub_averages_partial (n : Nat) (hn : 2 ≤ n) (h : Hub m) (hs : h.symmetric = false) (hh : ∀ s, (h.h1 s)ᴴ = h.h1 s)
    (alt : Bool) (mu : ℝ) {P : Fin 2 → Mat m} (hP : ∀ s i, star (P s i i) = P s i i) {β : ℝ} (hβ : 0 ≤ β) :
    Averages n (fun dt => hubTables dt h alt mu P) β
      (grand (fun _ _ => hubOp h.h1 h.U spin) ((if alt then -mu else mu : ℝ) : ℂ))
      (fun P => (Energy.localHubbard h.h1 h.U false P).1) (fun _ _ => hubOp h.h1 h.U spin) ∧
    Averages n (fun dt => hubTables dt h alt mu P) β
      (grand (fun _ _ => hubOp h.h1 h.U spin) ((if alt then -mu else mu : ℝ) : ℂ))
      (fun P => (P 0).trace + (P 1).trace) number := by
  have hm : hubMu h alt mu = if alt then -mu else mu := by simp [hubMu, hs]
  obtain ⟨h1, -, h3⟩ := hub_averages n hn h hh alt mu hP hβ
  rw [hm] at h1 h3
  rw [hs] at h1
  exact ⟨h1, h3⟩

/-! ### Particle-hole symmetric form -/

theorem site_one : (site (0 : Fin 1)) = (1 : Mat 1) := by
  ext i j
  fin_cases i; fin_cases j
  simp [site]

theorem hubOp_one (U : ℂ) (nu nd : Nat) :
    hubOp (fun _ => (0 : Mat 1)) U (spin : Fin nu ⊕ Fin nd → Fin 2) = (U * (nu * nd)) • 1 := by
  have h0 : ∀ a : Fin nu ⊕ Fin nd, Step.onP a (0 : Mat 1) = 0 := fun a => by
    have := Step.onP_smul a (0 : ℂ) (1 : Mat 1)
    rwa [zero_smul, zero_smul] at this
  rw [hubOp]
  simp only [h0, sum_const_zero, zero_add, Fintype.sum_unique, Fin.default_eq_zero, site_one, Step.onP_one, mul_one,
    Fintype.sum_sum_type]
  simp only [spin, Sum.elim_inl, Sum.elim_inr, zero_ne_one, one_ne_zero, and_true, and_false, false_and, true_and, if_true,
    if_false, sum_const_zero, add_zero, zero_add, sum_const, card_univ, Fintype.card_fin]
  rw [← Nat.cast_smul_eq_nsmul ℂ, ← Nat.cast_smul_eq_nsmul ℂ, smul_smul, smul_smul, mul_assoc]

theorem gibbs_scalar (β : ℝ) (r o : Nat → Nat → ℂ) :
    gibbs β (fun nu nd => r nu nd • 1 : Ops m) (fun nu nd => o nu nd • 1) = ∑ nu ∈ range (m + 1), ∑ nd ∈ range (m + 1),
      o nu nd * Complex.exp (-β * r nu nd) * Fintype.card (Occ m nu × Occ m nd) := by
  rw [gibbs]
  refine sum_congr rfl fun nu _ => sum_congr rfl fun nd _ => ?_
  have h := Step.exp_sub_smul (β : ℂ) (-(r nu nd)) (0 : Matrix (Occ m nu × Occ m nd) (Occ m nu × Occ m nd) ℂ)
  rw [zero_sub, neg_smul (r nu nd), neg_neg, smul_zero, NormedSpace.exp_zero] at h
  rw [sector_smul, sector_smul, sector_one, h, smul_mul_smul_comm, mul_one, Matrix.trace_smul, Matrix.trace_one, smul_eq_mul]
  congr 3
  ring

/-- One site without hopping. -/
theorem gibbs_site (β U mu : ℝ) :
    gibbs β (grand (fun _ _ => hubOp (fun _ => (0 : Mat 1)) (U : ℂ) spin) (mu : ℂ)) 1 =
      ((1 + 2 * Real.exp (β * mu) + Real.exp (-β * (U - 2 * mu)) : ℝ) : ℂ) ∧
    gibbs β (grand (fun _ _ => hubOp (fun _ => (0 : Mat 1)) (U : ℂ) spin) (mu : ℂ)) number =
      ((2 * Real.exp (β * mu) + 2 * Real.exp (-β * (U - 2 * mu)) : ℝ) : ℂ) := by
  have hg : (grand (fun _ _ => hubOp (fun _ => (0 : Mat 1)) (U : ℂ) spin) (mu : ℂ) : Ops 1) =
      fun nu nd => ((U : ℂ) * (nu * nd) - mu * ((nu + nd : Nat) : ℂ)) • 1 := by
    funext nu nd
    rw [grand, hubOp_one, sub_smul]
  have h1 : (1 : Ops 1) = fun nu nd => (1 : ℂ) • 1 := by
    funext nu nd
    rw [one_smul]
    rfl
  have c0 : Fintype.card (Occ 1 0) = 1 := by decide
  have c1 : Fintype.card (Occ 1 1) = 1 := by decide
  rw [hg]
  constructor
  · rw [h1, gibbs_scalar]
    simp only [sum_range_succ, range_zero, sum_empty, Fintype.card_prod, c0, c1]
    push_cast
    norm_num
    ring_nf
  · have h2 : (number : Ops 1) = fun nu nd => ((nu + nd : Nat) : ℂ) • 1 := rfl
    rw [h2, gibbs_scalar]
    simp only [sum_range_succ, range_zero, sum_empty, Fintype.card_prod, c0, c1]
    push_cast
    norm_num
    ring_nf

/-- With `symmetric` and chemical potential zero the site is half filled on average for the particle-hole symmetric
interaction `U (n_up - 1/2) (n_dn - 1/2)`, that is chemical potential `U / 2`; the run converges to another number. -/
theorem symmetric_wrong (β U : ℝ) (hβ : 0 < β) (hU : U ≠ 0) :
    let h : Hub 1 := ⟨fun _ => 0, U, true⟩
    gibbs β (grand (fun _ _ => hubOp h.h1 (h.U : ℂ) spin) ((U / 2 : ℝ) : ℂ)) number /
      gibbs β (grand (fun _ _ => hubOp h.h1 (h.U : ℂ) spin) ((U / 2 : ℝ) : ℂ)) 1 = 1 ∧
    gibbs β (grand (fun _ _ => hubOp h.h1 (h.U : ℂ) spin) (hubMu h false 0 : ℂ)) number /
      gibbs β (grand (fun _ _ => hubOp h.h1 (h.U : ℂ) spin) (hubMu h false 0 : ℂ)) 1 ≠ 1 := by
  intro h
  have hmu : hubMu h false 0 = -(U / 2) := by simp [hubMu, h]
  constructor
  · show gibbs β (grand (fun _ _ => hubOp (fun _ => (0 : Mat 1)) (U : ℂ) spin) ((U / 2 : ℝ) : ℂ)) number / _ = 1
    rw [(gibbs_site β U (U / 2)).2, (gibbs_site β U (U / 2)).1, ← Complex.ofReal_div]
    have : -β * (U - 2 * (U / 2)) = 0 := by ring
    rw [this, Real.exp_zero]
    have h2 : (1 + 2 * Real.exp (β * (U / 2)) + 1 : ℝ) ≠ 0 := by positivity
    rw [show 2 * Real.exp (β * (U / 2)) + 2 * 1 = 1 + 2 * Real.exp (β * (U / 2)) + 1 by ring, div_self h2, Complex.ofReal_one]
  · rw [hmu]
    show gibbs β (grand (fun _ _ => hubOp (fun _ => (0 : Mat 1)) (U : ℂ) spin) ((-(U / 2) : ℝ) : ℂ)) number /
      gibbs β (grand (fun _ _ => hubOp (fun _ => (0 : Mat 1)) (U : ℂ) spin) ((-(U / 2) : ℝ) : ℂ)) 1 ≠ 1
    rw [(gibbs_site β U (-(U / 2))).2, (gibbs_site β U (-(U / 2))).1, ← Complex.ofReal_div]
    intro h1
    have h2 : (1 + 2 * Real.exp (β * -(U / 2)) + Real.exp (-β * (U - 2 * -(U / 2))) : ℝ) ≠ 0 := by positivity
    have h3 := Complex.ofReal_eq_one.1 h1
    rw [div_eq_one_iff_eq h2] at h3
    have h4 : Real.exp (-β * (U - 2 * -(U / 2))) = 1 := by linarith
    rw [Real.exp_eq_one_iff] at h4
    apply hU
    have : -β * (U - 2 * -(U / 2)) = -(2 * β) * U := by ring
    rw [this] at h4
    rcases mul_eq_zero.1 h4 with h5 | h5
    · linarith
    · exact h5

/-! ## Electron gas -/

theorem iA_diag (I : UEG.Inp) (hk : 0 < I.kfac) (ht : I.twist = 0) {q : UEG.Vec} (hq : q ∈ UEG.qvecs I)
    (i : Fin (UEG.nb I)) : UEG.iA I q i i = 0 ∧ UEG.iB I q i i = 0 := by
  have h0 : q ≠ 0 := ((UEG.mem_qvecs I hk ht q).1 hq).1
  have hr : UEG.rho I q i i = 0 := by
    rw [UEG.rho, Matrix.of_apply, if_neg]
    rw [UEG.lookup_bv I (UEG.setupOk_untwisted I hk ht)]
    intro h
    exact h0 (by simpa using h)
  simp only [UEG.iA, UEG.iB, Matrix.of_apply, UEG.rhoH_eq, hr]
  simp

theorem ueg_shift (dt : ℝ) (I : UEG.Inp) (hk : 0 < I.kfac) (ht : I.twist = 0) (mu : ℝ) (d : Fin 2 → Fin (UEG.nb I) → ℂ) :
    (uegThermal dt I mu fun s => diagonal (d s)).mfShift = fun _ => 0 := by
  have hz : ∀ (X : Mat (UEG.nb I)) (v : Fin (UEG.nb I) → ℂ), (∀ i, X i i = 0) →
      ∑ i, ∑ k, (diagonal v : Mat (UEG.nb I)) i k * X i k = 0 := by
    intro X v hX
    refine sum_eq_zero fun i _ => sum_eq_zero fun k _ => ?_
    by_cases hik : i = k
    · rw [← hik, hX, mul_zero]
    · rw [Matrix.diagonal_apply_ne _ hik, zero_mul]
  funext a
  have hm : ∀ q : Fin (UEG.qvecs I).length, (UEG.qvecs I)[q] ∈ UEG.qvecs I := fun q => List.getElem_mem _
  simp only [uegThermal]
  refine Fin.addCases (fun q => ?_) (fun q => ?_) a
  · rw [Fin.addCases_left, hz _ _ fun i => (iA_diag I hk ht (hm q) i).1, hz _ _ fun i => (iA_diag I hk ht (hm q) i).1,
      add_zero]
  · rw [Fin.addCases_right, hz _ _ fun i => (iA_diag I hk ht (hm q) i).2, hz _ _ fun i => (iA_diag I hk ht (hm q) i).2,
      add_zero]

theorem ueg_thermal_linear (I : UEG.Inp) (hk : 0 < I.kfac) (ht : I.twist = 0) (mu : ℝ) (d : Fin 2 → Fin (UEG.nb I) → ℂ) :
    Linear (fun dt => uegThermal dt I mu fun s => diagonal (d s))
      (fun _ => (diagonal fun i => (UEG.modOneBody I i : ℂ)) - (mu : ℂ) • 1)
      (fun a _ => Fin.addCases (fun q => UEG.iA I (UEG.qvecs I)[q]) (fun q => UEG.iB I (UEG.qvecs I)[q]) a)
      (fun _ => 0) := by
  refine ⟨fun dt => ueg_shift dt I hk ht mu d, fun dt s => ?_, fun dt h0 x s => (Step.ueg_linear I).field dt h0 x s⟩
  simp only [uegThermal]
  congr 1
  module

/-- **C83 (electron gas)**: the same for plane waves with a diagonal trial density matrix. -/
theorem ueg_averages (n : Nat) (hn : 2 ≤ n) (I : UEG.Inp) (hk : 0 < I.kfac) (hv : 0 < I.vol) (ht : I.twist = 0) (mu : ℝ)
    (d : Fin 2 → Fin (UEG.nb I) → ℂ) {β : ℝ} (hβ : 0 ≤ β) :
    Averages n (fun dt => uegThermal dt I mu fun s => diagonal (d s)) β
      (grand (fun _ _ => coulombOp (UEG.kin I) (UEG.coulomb I) spin) (mu : ℂ))
      (fun P => (UEG.localUEG I (UEG.nb I) P).1) (fun _ _ => coulombOp (UEG.kin I) (UEG.coulomb I) spin) ∧
    Averages n (fun dt => uegThermal dt I mu fun s => diagonal (d s)) β
      (grand (fun _ _ => coulombOp (UEG.kin I) (UEG.coulomb I) spin) (mu : ℂ))
      (fun P => (P 0).trace + (P 1).trace) number := by
  have hS : ∀ nu nd : Nat, Sym (spin : Fin nu ⊕ Fin nd → Fin 2) (coulombOp (UEG.kin I) (UEG.coulomb I) spin) := by
    intro nu nd
    rw [← Step.ueg_genOp I hk hv ht]
    exact Sym.genOp _ _ _ _
  have hH : ∀ nu nd : Nat, (coulombOp (UEG.kin I) (UEG.coulomb I) (spin : Fin nu ⊕ Fin nd → Fin 2)).IsHermitian := by
    intro nu nd
    refine coulombOp_herm (fun s => ?_) (fun p r q s => ?_) spin
    · rw [UEG.kin, Matrix.diagonal_conjTranspose]
      congr 1
      funext i
      simp
    · rw [UEG.coulomb, UEG.coulomb, UEG.hijkl_swap I p q r s]
      simp
  have hK : ∀ s : Fin 2, ((diagonal fun i => (UEG.modOneBody I i : ℂ)) - (mu : ℂ) • (1 : Mat (UEG.nb I)))ᴴ =
      (diagonal fun i => (UEG.modOneBody I i : ℂ)) - (mu : ℂ) • 1 := by
    intro s
    rw [Matrix.conjTranspose_sub, Matrix.diagonal_conjTranspose, Matrix.conjTranspose_smul, Matrix.conjTranspose_one]
    congr 2
    · funext i
      simp
    · simp
  have hg : ∀ (nu nd : Nat) (α : (Fin nu ⊕ Fin nd → Fin (UEG.nb I)) → ℂ), Anti spin α →
      α ᵥ* genOp (fun _ => (diagonal fun i => (UEG.modOneBody I i : ℂ)) - (mu : ℂ) • 1)
        (fun a _ => Fin.addCases (fun q => UEG.iA I (UEG.qvecs I)[q]) (fun q => UEG.iB I (UEG.qvecs I)[q]) a)
        (fun _ : Fin ((UEG.qvecs I).length + (UEG.qvecs I).length) => 0) spin =
      α ᵥ* (grand (fun _ _ => coulombOp (UEG.kin I) (UEG.coulomb I) spin) (mu : ℂ) nu nd - (0 : ℂ) • 1) := by
    intro nu nd α _
    rw [genOp_shift (fun _ => diagonal fun i => (UEG.modOneBody I i : ℂ)), Step.ueg_genOp I hk hv ht, zero_smul, sub_zero]
    rfl
  have key := fun {E : (Fin 2 → Mat (UEG.nb I)) → ℂ} {O : Ops (UEG.nb I)} => averages (E := E) (O := O) n hn
    (ueg_thermal_linear I hk ht mu d) hK hβ hg (grand_sym hS _) (grand_herm hH _)
  refine ⟨key hS fun C hC => ?_, key number_sym observes_number⟩
  rw [wick_coulomb hC, UEG.localUEG_thermal I hk ht]

/-! ## Example -/

/-- Every number of slices has a run: the one-body trial density matrix `exp(-dt h1)` and Green's functions
recomputed at the current slice. -/
example (h : Hub m) (hh : ∀ s, (h.h1 s)ᴴ = h.h1 s) (mu β : ℝ) (P : Fin 2 → Mat m) (ss nb : Nat) (hs : 0 < ss) (hb : 0 < nb) :
    ∃ BT p, RunOk 6 (fun dt => hubTables dt h false mu P) β (ss * nb) ss BT p := by
  refine ⟨fun s => half (h.h1 s) (Real.sqrt (β / (ss * nb : Nat))) * half (h.h1 s) (Real.sqrt (β / (ss * nb : Nat))),
    ⟨⟨.current, fun s => (half (h.h1 s) (Real.sqrt (β / (ss * nb : Nat))) * half (h.h1 s) (Real.sqrt (β / (ss * nb : Nat))))⁻¹,
      false, Thermal.someQRP⟩, 6, β / (ss * nb : Nat), hubTables (β / (ss * nb : Nat)) h false mu P⟩, Nat.mul_pos hs hb, ⟨nb, rfl⟩, rfl, rfl, rfl, ?_, fun s => half_pos (hh s) _⟩
  refine ⟨⟨Thermal.someQRP_spec, hs, fun s => ?_, fun s hd => by simp at hd, fun s hd => by simp at hd, fun hd => by simp at hd⟩,
    fun hd => absurd rfl hd⟩
  exact Matrix.mul_nonsing_inv _ ((Matrix.isUnit_iff_isUnit_det _).1 (half_pos (hh s) _).isUnit)

/-- The same for plane waves with the left-right scheme and the shortcut for diagonal trial density matrices. -/
example (I : UEG.Inp) (mu β : ℝ) (d : Fin 2 → Fin (UEG.nb I) → ℂ) (ss nb : Nat) (hs : 0 < ss) (hb : 0 < nb) :
    ∃ BT p, p.scheme = .leftRight ∧ p.diag = true ∧
      RunOk 6 (fun dt => uegThermal dt I mu fun s => diagonal (d s)) β (ss * nb) ss BT p := by
  have hx : ∀ i, Complex.exp (-(β / (ss * nb : Nat) * UEG.energy I (UEG.bv I i) : ℝ)) ≠ 0 := fun _ => Complex.exp_ne_zero _
  refine ⟨fun _ => diagonal fun i => Complex.exp (-(β / (ss * nb : Nat) * UEG.energy I (UEG.bv I i) : ℝ)),
    ⟨⟨.leftRight, fun _ => diagonal fun i => (Complex.exp (-(β / (ss * nb : Nat) * UEG.energy I (UEG.bv I i) : ℝ)))⁻¹, true,
      Thermal.someQRP⟩, 6, β / (ss * nb : Nat), uegThermal (β / (ss * nb : Nat)) I mu fun s => diagonal (d s)⟩, rfl, rfl, Nat.mul_pos hs hb, ⟨nb, rfl⟩, rfl, rfl, rfl, ?_, fun s => ?_⟩
  · refine ⟨⟨Thermal.someQRP_spec, hs, fun s => ?_, fun s _ => ⟨_, rfl⟩, fun s _ => ⟨_, rfl⟩, fun _ s => ⟨_, rfl⟩⟩,
      fun _ s => ?_⟩
    · rw [Matrix.diagonal_mul_diagonal, ← Matrix.diagonal_one]
      congr 1
      funext i
      exact mul_inv_cancel₀ (hx i)
    · refine ⟨_, (?_ : _ = diagonal (NormedSpace.exp fun i => -(1 / 2) * ((β / (ss * nb : Nat) : ℝ) : ℂ) *
        UEG.modOneBody I i + 1 / 2 * ((β / (ss * nb : Nat) : ℝ) : ℂ) * mu))⟩
      simp only [uegThermal]
      rw [← Matrix.exp_diagonal]
      congr 1
      ext i j
      by_cases hij : i = j
      · subst hij; simp
      · simp [hij]
  · rw [Matrix.posDef_diagonal_iff]
    intro i
    rw [← Complex.ofReal_neg, ← Complex.ofReal_exp]
    exact_mod_cast Real.exp_pos _

end Verif.Grand
