import Verif.Ekt.Analysis

/-!
# Electron affinities of an eigenstate
-/

namespace Verif.Ekt

open Matrix
open Verif.LangFirsov (amp hop)

variable {n k l : Nat}

/-- An antisymmetric function is a sum of determinants. -/
theorem alternating_expand {ψ : Fun n k} (h : Alternating ψ) (y : Fin k → Fin n) :
    ψ y = ∑ x : Fin k → Fin n, (ψ x / k.factorial) * amp (Matrix.of fun r a => if r = x a then (1 : ℂ) else 0) y := by
  have h1 : ∀ x : Fin k → Fin n, amp (Matrix.of fun r a => if r = x a then (1 : ℂ) else 0) y =
      ∑ σ : Equiv.Perm (Fin k), ((Equiv.Perm.sign σ : ℤ) : ℂ) * if x = y ∘ σ then 1 else 0 := by
    intro x
    rw [amp, Matrix.det_apply']
    refine Finset.sum_congr rfl fun σ _ => ?_
    congr 1
    simp only [Matrix.submatrix_apply, id, Matrix.of_apply]
    rw [Finset.prod_ite_zero]
    simp only [Finset.mem_univ, true_implies, Finset.prod_const_one]
    refine if_congr ?_ rfl rfl
    constructor
    · intro hx
      funext a
      exact (hx a).symm
    · rintro rfl a
      rfl
  simp only [h1, Finset.mul_sum]
  rw [Finset.sum_comm]
  have h2 : ∀ σ : Equiv.Perm (Fin k), ∑ x, ψ x / k.factorial * (((Equiv.Perm.sign σ : ℤ) : ℂ) * if x = y ∘ σ then 1 else 0) =
      ψ y / k.factorial := by
    intro σ
    rw [Finset.sum_eq_single (y ∘ σ)]
    · rw [if_pos rfl, h y σ]
      have : ((Equiv.Perm.sign σ : ℤ) : ℂ) * ((Equiv.Perm.sign σ : ℤ) : ℂ) = 1 := by
        rw [← Int.cast_mul, ← Units.val_mul, Int.units_mul_self]
        simp
      linear_combination (ψ y / k.factorial) * this
    · intro x _ hx
      rw [if_neg hx]
      ring
    · intro hx
      exact absurd (Finset.mem_univ _) hx
  simp only [h2]
  rw [Finset.sum_const, Finset.card_univ, Fintype.card_perm, Fintype.card_fin, nsmul_eq_mul]
  have : (k.factorial : ℂ) ≠ 0 := Nat.cast_ne_zero.2 k.factorial_ne_zero
  field_simp

/-- Adding an electron keeps the antisymmetry. -/
theorem cre_alternating' (q : Fin n) {ψ : Fun n k} (h : Alternating ψ) : Alternating (cre q ψ) := by
  intro x τ
  have e : ψ = fun y => ∑ x : Fin k → Fin n, amp (Matrix.of fun r a => if r = x a then (1 : ℂ) else 0) y * (ψ x / k.factorial) := by
    funext y
    rw [alternating_expand h y]
    exact Finset.sum_congr rfl fun x _ => mul_comm _ _
  rw [e, cre_finsetSum, cre_finsetSum, Finset.mul_sum]
  refine Finset.sum_congr rfl fun w _ => ?_
  rw [cre_right, cre_right, cre_alternating q _ x τ, mul_assoc]

/-- Antisymmetric in the electrons of the first spin. -/
def Anti (Ψ : State n k l) : Prop := ∀ z, Alternating fun x => Ψ x z

theorem braket_slices (Φ Ψ : State n k l) :
    braket Φ Ψ = (∑ z, ∑ x, star (Φ x z) * Ψ x z) / (k.factorial * l.factorial) := by
  rw [braket, Finset.sum_comm]

/-- Adding electrons, in terms of removing them. -/
theorem join_braket (Ψ : State n k l) (hA : Anti Ψ) (p q : Fin n) :
    braket (join p Ψ) (join q Ψ) = (if p = q then braket Ψ Ψ else 0) - braket (leave q Ψ) (leave p Ψ) := by
  have hk : (k.factorial : ℂ) ≠ 0 := Nat.cast_ne_zero.2 k.factorial_ne_zero
  have hl : (l.factorial : ℂ) ≠ 0 := Nat.cast_ne_zero.2 l.factorial_ne_zero
  have h1 : ∀ z, ∑ x, star (join p Ψ x z) * join q Ψ x z = (k + 1 : ℕ) *
      ((if p = q then ∑ x, star (Ψ x z) * Ψ x z else 0) - ∑ x, star (Ψ x z) * hop (Matrix.single q p 1) (fun y => Ψ y z) x) := by
    intro z
    change ∑ x, star (cre p (fun y => Ψ y z) x) * cre q (fun y => Ψ y z) x = _
    rw [ann_adjoint p _ (cre_alternating' q (hA z))]
    simp only [ann_cre p q (hA z), mul_sub, Finset.sum_sub_distrib]
    congr 2
    split_ifs
    · rfl
    · simp
  have hk1 : ((k + 1).factorial : ℂ) = (k + 1 : ℕ) * k.factorial := by rw [Nat.factorial_succ, Nat.cast_mul]
  have hk0 : ((k + 1 : ℕ) : ℂ) ≠ 0 := Nat.cast_ne_zero.2 (Nat.succ_ne_zero k)
  have h2 : ∑ z, ∑ x, star (Ψ x z) * hop (Matrix.single q p 1) (fun y => Ψ y z) x =
      braket (leave q Ψ) (leave p Ψ) * (k.factorial * l.factorial) := by
    cases k with
    | zero =>
      simp [hop, leave, braket]
    | succ k =>
      have hk' : (k.factorial : ℂ) ≠ 0 := Nat.cast_ne_zero.2 k.factorial_ne_zero
      have e : ∀ z, ∑ x, star (Ψ x z) * hop (Matrix.single q p 1) (fun y => Ψ y z) x =
          (k + 1 : ℕ) * ∑ x, star (leave q Ψ x z) * leave p Ψ x z := by
        intro z
        rw [← Finset.sum_congr rfl fun x _ => congrArg (star (Ψ x z) * ·) (cre_ann q p (hA z) x), cre_adjoint q (hA z)]
        rfl
      simp only [e]
      have hb : braket (leave q Ψ) (leave p Ψ) = (∑ z, ∑ x, star (leave q Ψ x z) * leave p Ψ x z) / (k.factorial * l.factorial) :=
        braket_slices (leave q Ψ) (leave p Ψ)
      rw [← Finset.mul_sum, hb, Nat.factorial_succ, Nat.cast_mul]
      field_simp
  have h3 : ∑ z, ∑ x, star (Ψ x z) * Ψ x z = braket Ψ Ψ * (k.factorial * l.factorial) := by
    rw [braket_slices, div_mul_cancel₀]
    exact mul_ne_zero hk hl
  rw [braket_slices, Finset.sum_congr rfl fun z _ => h1 z, ← Finset.mul_sum, Finset.sum_sub_distrib, h2, hk1]
  have h4 : (∑ z, if p = q then ∑ x, star (Ψ x z) * Ψ x z else 0) = (if p = q then braket Ψ Ψ else 0) * (k.factorial * l.factorial) := by
    split_ifs
    · exact h3
    · simp
  rw [h4]
  field_simp

/-- `< c_p c_q^+ >` in a state, for the first spin. -/
theorem added_norm (Ψ : State n k l) (hA : Anti Ψ) (c : Fin n → ℂ) (hN : braket Ψ Ψ ≠ 0) :
    braket (added c Ψ) (added c Ψ) = (∑ p, ∑ q, star (c p) * c q * (1 - (rdmOf Ψ)ᵀ) p q) * braket Ψ Ψ := by
  rw [show added c Ψ = fun x z => ∑ q, c q * join q Ψ x z from rfl, braket_sum, Finset.sum_mul]
  refine Finset.sum_congr rfl fun p _ => ?_
  rw [Finset.sum_mul]
  refine Finset.sum_congr rfl fun q _ => ?_
  rw [join_braket Ψ hA, mul_assoc (star (c p) * c q), Matrix.sub_apply, Matrix.transpose_apply, rdmOf, Matrix.of_apply, sub_mul,
    div_mul_cancel₀ _ hN, Matrix.one_apply, ite_mul, one_mul, zero_mul]

theorem join_smul (E : ℂ) (q : Fin n) (Ψ : State n k l) : join q (fun x z => E * Ψ x z) = fun x z => E * join q Ψ x z := by
  funext x z
  simp only [join, mul_comm E]
  exact cre_right q _ E x

theorem added_energy (h : Matrix (Fin n) (Fin n) ℂ) (v : Integrals n) (Ψ : State n k l) (E : ℂ) (hE : ham h v Ψ = fun x z => E * Ψ x z)
    (c : Fin n → ℂ) (hN : braket Ψ Ψ ≠ 0) :
    energy h v (added c Ψ) - E * braket (added c Ψ) (added c Ψ) =
      (∑ p, ∑ q, star (c p) * c q * particle h v Ψ Ψ p q) * braket Ψ Ψ := by
  have h1 : ham h v (added c Ψ) = fun x z => ∑ q, c q * ham h v (join q Ψ) x z := by
    funext x z
    exact ham_sum h v c (fun q => join q Ψ) x z
  rw [energy, h1, ← braket_smul, ← braket_sub]
  have h2 : (fun x z => (∑ q, c q * ham h v (join q Ψ) x z) - E * added c Ψ x z) =
      fun x z => ∑ q, c q * (ham h v (join q Ψ) x z - join q (ham h v Ψ) x z) := by
    funext x z
    rw [added, Finset.mul_sum, ← Finset.sum_sub_distrib]
    refine Finset.sum_congr rfl fun q _ => ?_
    rw [hE, join_smul]
    ring
  rw [h2, show added c Ψ = fun x z => ∑ q, c q * join q Ψ x z from rfl, braket_sum _ (fun q x z => ham h v (join q Ψ) x z - join q (ham h v Ψ) x z),
    Finset.sum_mul]
  refine Finset.sum_congr rfl fun p _ => ?_
  rw [Finset.sum_mul]
  refine Finset.sum_congr rfl fun q _ => ?_
  rw [particle, Matrix.of_apply, mul_assoc (star (c p) * c q), div_mul_cancel₀ _ hN]

theorem particle_hermitian (h : Matrix (Fin n) (Fin n) ℂ) (v : Integrals n) (hh : ∀ i j, star (h i j) = h j i)
    (hv : ∀ i k j l, star (v i k j l) = v k i l j) (Ψ : State n k l) (E : ℂ) (hE : ham h v Ψ = fun x z => E * Ψ x z)
    (hN : braket Ψ Ψ ≠ 0) : (particle h v Ψ Ψ)ᴴ = particle h v Ψ Ψ := by
  ext p q
  have hr := eigen_real h v hh hv Ψ E hE hN
  rw [Matrix.conjTranspose_apply, particle, Matrix.of_apply, Matrix.of_apply, star_div₀, braket_star Ψ Ψ]
  simp only [hE, join_smul, braket_sub, braket_smul, star_sub, star_mul', ham_hermitian h v hh hv, braket_star, hr]

/-- **C100**: for the exact density and Fock matrices of an eigenstate every returned affinity is the energy of the state with one
electron added, in the orbital of the returned vector, less the energy of the eigenstate (an average over the spin of the electron). -/
theorem affinity (h : Matrix (Fin n) (Fin n) ℂ) (v : Integrals n) (hh : ∀ i j, star (h i j) = h j i)
    (hv : ∀ i k j l, star (v i k j l) = v k i l j) (hp : ∀ i k j l, v i k j l = v j l i k) (Ψ : State n k l) (hA : Anti Ψ)
    (hB : Anti (flip Ψ)) (E : ℂ) (hE : ham h v Ψ = fun x z => E * Ψ x z) (hN : braket Ψ Ψ ≠ 0)
    (hr : ∀ i j, star ((rdmOf Ψ + rdmOf (flip Ψ)) i j) = (rdmOf Ψ + rdmOf (flip Ψ)) i j) (s : Fin n → ℝ) (U : Matrix (Fin n) (Fin n) ℂ)
    (cutoff : ℝ) (hc : 0 ≤ cutoff) (he : Eigh (gammaP (spinRdm (rdmOf Ψ) (rdmOf (flip Ψ)))) s U) (e : {i // cutoff < s i} → ℝ)
    (V : Matrix {i // cutoff < s i} {i // cutoff < s i} ℂ)
    (hV : Eigh (fockT s U cutoff (particle h v Ψ Ψ + particle h v (flip Ψ) (flip Ψ))) e V) (i : {i // cutoff < s i}) :
    let c := fun q => (orthoMod s U cutoff * V) q i
    braket (added c Ψ) (added c Ψ) + braket (added c (flip Ψ)) (added c (flip Ψ)) = braket Ψ Ψ ∧
      energy h v (added c Ψ) + energy h v (added c (flip Ψ)) = (E + e i) * braket Ψ Ψ := by
  intro c
  have hEf : ham h v (flip Ψ) = fun x z => E * flip Ψ x z := by
    funext z x
    rw [flip, ← congrFun (congrFun hE x) z]
    exact ham_swap h v hp Ψ x z
  have hNf : braket (flip Ψ) (flip Ψ) ≠ 0 := by rwa [braket_flip]
  have hS : (rdmOf Ψ + rdmOf (flip Ψ))ᴴ = rdmOf Ψ + rdmOf (flip Ψ) := by
    rw [Matrix.conjTranspose_add, rdmOf_hermitian, rdmOf_hermitian]
  have hF : (particle h v Ψ Ψ + particle h v (flip Ψ) (flip Ψ))ᴴ = particle h v Ψ Ψ + particle h v (flip Ψ) (flip Ψ) := by
    rw [Matrix.conjTranspose_add, particle_hermitian h v hh hv Ψ E hE hN, particle_hermitian h v hh hv (flip Ψ) E hEf hNf]
  rw [spinRdm_eq _ _ hS hr] at he
  have hg : gammaP (rdmOf Ψ + rdmOf (flip Ψ)) = (1 - (rdmOf Ψ)ᵀ) + (1 - (rdmOf (flip Ψ))ᵀ) := by
    rw [gammaP, Matrix.transpose_add, two_smul]
    abel
  have hG : (gammaP (rdmOf Ψ + rdmOf (flip Ψ)))ᴴ = gammaP (rdmOf Ψ + rdmOf (flip Ψ)) := by
    have ht : ((rdmOf Ψ + rdmOf (flip Ψ))ᵀ)ᴴ = ((rdmOf Ψ + rdmOf (flip Ψ))ᴴ)ᵀ := rfl
    rw [gammaP, Matrix.conjTranspose_sub, Matrix.conjTranspose_smul, Matrix.conjTranspose_one, ht, hS]
    simp
  obtain ⟨r1, r2⟩ := roots s _ U _ cutoff hc hG hF he e V hV
  have q1 := congrFun (congrFun r1 i) i
  have q2 := congrFun (congrFun r2 i) i
  rw [form_sum, Matrix.one_apply_eq, hg] at q1
  rw [form_sum, Matrix.diagonal_apply_eq] at q2
  have n1 := added_norm Ψ hA c hN
  have n2 := added_norm (flip Ψ) hB c hNf
  have e1 := added_energy h v Ψ E hE c hN
  have e2 := added_energy h v (flip Ψ) E hEf c hNf
  rw [braket_flip] at n2 e2
  have hn : braket (added c Ψ) (added c Ψ) + braket (added c (flip Ψ)) (added c (flip Ψ)) = braket Ψ Ψ := by
    rw [n1, n2, ← add_mul, ← Finset.sum_add_distrib]
    simp only [← Finset.sum_add_distrib, ← mul_add]
    change (∑ p, ∑ q, star (c p) * c q * ((1 - (rdmOf Ψ)ᵀ) + (1 - (rdmOf (flip Ψ))ᵀ)) p q) * _ = _
    rw [q1, one_mul]
  refine ⟨hn, ?_⟩
  have hs : (∑ p, ∑ q, star (c p) * c q * particle h v Ψ Ψ p q) + (∑ p, ∑ q, star (c p) * c q * particle h v (flip Ψ) (flip Ψ) p q) =
      e i := by
    rw [← q2, ← Finset.sum_add_distrib]
    simp only [← Finset.sum_add_distrib, ← mul_add]
    rfl
  linear_combination e1 + e2 + E * hn + hs * braket Ψ Ψ

theorem braket_pos (Ψ : State n k l) (hN : braket Ψ Ψ ≠ 0) : 0 < (braket Ψ Ψ).re ∧ (braket Ψ Ψ).im = 0 := by
  have e0 : braket Ψ Ψ = (((∑ x, ∑ z, Complex.normSq (Ψ x z)) / (k.factorial * l.factorial) : ℝ) : ℂ) := by
    rw [braket]
    push_cast
    congr 1
    refine Finset.sum_congr rfl fun x _ => Finset.sum_congr rfl fun z _ => ?_
    rw [Complex.normSq_eq_conj_mul_self]
    rfl
  rw [e0] at hN ⊢
  refine ⟨?_, Complex.ofReal_im _⟩
  rw [Complex.ofReal_re]
  refine lt_of_le_of_ne ?_ fun h0 => hN (by rw [← h0, Complex.ofReal_zero])
  exact div_nonneg (Finset.sum_nonneg fun x _ => Finset.sum_nonneg fun z _ => Complex.normSq_nonneg _) (by positivity)

/-- Removing an electron keeps the antisymmetry. -/
theorem ann_alternating (q : Fin n) {ψ : Fun n (k + 1)} (h : Alternating ψ) : Alternating (ann q ψ) := by
  intro x τ
  have e : (Fin.cons q (x ∘ τ) : Fin (k + 1) → Fin n) = (Fin.cons q x : Fin (k + 1) → Fin n) ∘ Equiv.Perm.decomposeFin.symm (0, τ) := by
    funext a
    refine Fin.cases ?_ (fun a => ?_) a
    · simp
    · simp
  rw [ann, e, h, Equiv.Perm.decomposeFin.symm_sign, if_pos rfl, one_mul, ann]

/-- Antisymmetric in the electrons of either spin. -/
def Fermi (Ψ : State n k l) : Prop := Anti Ψ ∧ Anti (flip Ψ)

theorem anti_sum (c : Fin n → ℂ) (f : Fin n → State n k l) (h : ∀ q, Anti (f q)) : Anti fun x z => ∑ q, c q * f q x z := by
  intro z x τ
  change ∑ q, c q * f q (x ∘ τ) z = _ * ∑ q, c q * f q x z
  rw [Finset.mul_sum]
  refine Finset.sum_congr rfl fun q _ => ?_
  have := h q z x τ
  beta_reduce at this
  rw [this]
  ring

theorem removed_fermi (c : Fin n → ℂ) {Ψ : State n k l} (h : Fermi Ψ) : Fermi (removed c Ψ) := by
  constructor
  · refine anti_sum c (fun q => leave q Ψ) fun q z => ?_
    cases k with
    | zero =>
      intro x τ
      simp [leave]
    | succ k => exact ann_alternating q (h.1 z)
  · refine anti_sum c (fun q => flip (leave q Ψ)) fun q x => ?_
    cases k with
    | zero =>
      intro z τ
      simp [leave, flip]
    | succ k => exact h.2 (Fin.cons q x)

theorem added_fermi (c : Fin n → ℂ) {Ψ : State n k l} (h : Fermi Ψ) : Fermi (added c Ψ) := by
  constructor
  · exact anti_sum c (fun q => join q Ψ) fun q z => cre_alternating' q (h.1 z)
  · refine anti_sum c (fun q => flip (join q Ψ)) fun q x => ?_
    intro z τ
    simp only [flip, join, cre, Finset.mul_sum]
    refine Finset.sum_congr rfl fun a _ => ?_
    have := h.2 (a.removeNth x) z τ
    simp only [flip] at this
    split_ifs
    · rw [this]
      ring
    · ring

theorem flip_fermi {Ψ : State n k l} (h : Fermi Ψ) : Fermi (flip Ψ) := ⟨h.2, h.1⟩

/-- An average of two energies bounds the lower one. -/
theorem bound_of (N E a a' b b' : ℂ) (r E' : ℝ) (hN : 0 < N.re ∧ N.im = 0) (q1 : a + a' = N) (q2 : b + b' = (E + r) * N)
    (b1 : E' * a.re ≤ b.re) (b2 : E' * a'.re ≤ b'.re) : E' - E.re ≤ r := by
  have c1 := congrArg Complex.re q1
  have c2 := congrArg Complex.re q2
  simp only [Complex.add_re, Complex.mul_re, hN.2, mul_zero, sub_zero, Complex.ofReal_re] at c1 c2
  have h1 : E' * N.re ≤ (E.re + r) * N.re := by
    rw [← c2]
    linear_combination b1 + b2 - E' * c1
  have := le_of_mul_le_mul_right h1 hN.1
  linarith

/-- **C100**: no returned ionisation energy is below the lowest one. -/
theorem ionisation_bound (h : Matrix (Fin n) (Fin n) ℂ) (v : Integrals n) (hh : ∀ i j, star (h i j) = h j i)
    (hv : ∀ i k j l, star (v i k j l) = v k i l j) (hp : ∀ i k j l, v i k j l = v j l i k) (Ψ : State n k l) (hA : Fermi Ψ) (E : ℂ)
    (hE : ham h v Ψ = fun x z => E * Ψ x z) (hN : braket Ψ Ψ ≠ 0)
    (hr : ∀ i j, star ((rdmOf Ψ + rdmOf (flip Ψ)) i j) = (rdmOf Ψ + rdmOf (flip Ψ)) i j) (s : Fin n → ℝ) (U : Matrix (Fin n) (Fin n) ℂ)
    (cutoff : ℝ) (hc : 0 ≤ cutoff) (he : Eigh (spinRdm (rdmOf Ψ) (rdmOf (flip Ψ))) s U) (e : {i // cutoff < s i} → ℝ)
    (V : Matrix {i // cutoff < s i} {i // cutoff < s i} ℂ)
    (hV : Eigh (fockT s U cutoff (hole h v Ψ Ψ + hole h v (flip Ψ) (flip Ψ))) e V) (i : {i // cutoff < s i}) (E' : ℝ)
    (b1 : ∀ Φ : State n (k - 1) l, Fermi Φ → E' * (braket Φ Φ).re ≤ (energy h v Φ).re)
    (b2 : ∀ Φ : State n (l - 1) k, Fermi Φ → E' * (braket Φ Φ).re ≤ (energy h v Φ).re) : E' - E.re ≤ e i := by
  obtain ⟨q1, q2⟩ := ionisation h v hh hv hp Ψ E hE hN hr s U cutoff hc he e V hV i
  exact bound_of _ E _ _ _ _ _ E' (braket_pos Ψ hN) q1 q2 (b1 _ (removed_fermi _ hA)) (b2 _ (removed_fermi _ (flip_fermi hA)))

/-- **C100**: no returned affinity is below the lowest one. -/
theorem affinity_bound (h : Matrix (Fin n) (Fin n) ℂ) (v : Integrals n) (hh : ∀ i j, star (h i j) = h j i)
    (hv : ∀ i k j l, star (v i k j l) = v k i l j) (hp : ∀ i k j l, v i k j l = v j l i k) (Ψ : State n k l) (hA : Fermi Ψ)
    (E : ℂ) (hE : ham h v Ψ = fun x z => E * Ψ x z) (hN : braket Ψ Ψ ≠ 0)
    (hr : ∀ i j, star ((rdmOf Ψ + rdmOf (flip Ψ)) i j) = (rdmOf Ψ + rdmOf (flip Ψ)) i j) (s : Fin n → ℝ) (U : Matrix (Fin n) (Fin n) ℂ)
    (cutoff : ℝ) (hc : 0 ≤ cutoff) (he : Eigh (gammaP (spinRdm (rdmOf Ψ) (rdmOf (flip Ψ)))) s U) (e : {i // cutoff < s i} → ℝ)
    (V : Matrix {i // cutoff < s i} {i // cutoff < s i} ℂ)
    (hV : Eigh (fockT s U cutoff (particle h v Ψ Ψ + particle h v (flip Ψ) (flip Ψ))) e V) (i : {i // cutoff < s i}) (E' : ℝ)
    (b1 : ∀ Φ : State n (k + 1) l, Fermi Φ → E' * (braket Φ Φ).re ≤ (energy h v Φ).re)
    (b2 : ∀ Φ : State n (l + 1) k, Fermi Φ → E' * (braket Φ Φ).re ≤ (energy h v Φ).re) : E' - E.re ≤ e i := by
  obtain ⟨q1, q2⟩ := affinity h v hh hv hp Ψ hA.1 hA.2 E hE hN hr s U cutoff hc he e V hV i
  exact bound_of _ E _ _ _ _ _ E' (braket_pos Ψ hN) q1 q2 (b1 _ (added_fermi _ hA)) (b2 _ (added_fermi _ (flip_fermi hA)))

/-! ## A case: one electron in one orbital -/

/-- One-body element of the case. -/
def hOne : Matrix (Fin 1) (Fin 1) ℂ := !![1]

/-- Integral of the case. -/
def vOne : Integrals 1 := fun _ _ _ _ => 2

/-- One electron of the first spin. -/
def oneState : State 1 1 0 := fun _ _ => 1

theorem oneState_fermi : Fermi oneState := by
  constructor
  · intro z x τ
    rw [Subsingleton.elim τ 1]
    simp [oneState]
  · intro z x τ
    rw [Subsingleton.elim τ 1]
    simp [oneState, flip]

theorem oneState_eigen : ham hOne vOne oneState = fun x z => 1 * oneState x z := by
  funext x z
  simp [ham, hop, pairs, across, oneState, hOne]

theorem oneState_norm : braket oneState oneState = 1 := by simp [braket, oneState]

theorem oneState_rdm : rdmOf oneState = 1 ∧ rdmOf (flip oneState) = 0 := by
  constructor
  · ext i j
    fin_cases i
    fin_cases j
    rw [rdmOf, Matrix.of_apply, oneState_norm]
    simp [braket, leave, ann, oneState]
  · ext i j
    rw [rdmOf, Matrix.of_apply]
    simp [braket, leave]

theorem oneState_hole : hole hOne vOne oneState oneState = !![-1] ∧ hole hOne vOne (flip oneState) (flip oneState) = 0 := by
  constructor
  · ext i j
    fin_cases i
    fin_cases j
    rw [hole, Matrix.of_apply, oneState_norm]
    simp [braket, leave, ann, oneState, ham, hop, pairs, across, hOne]
  · ext i j
    rw [hole, Matrix.of_apply]
    simp [braket, leave]

theorem oneState_particle : particle hOne vOne oneState oneState = 0 ∧ particle hOne vOne (flip oneState) (flip oneState) = !![3] := by
  constructor
  · ext i j
    fin_cases i
    fin_cases j
    rw [particle, Matrix.of_apply, oneState_norm]
    simp [braket, join, cre, oneState]
  · ext i j
    fin_cases i
    fin_cases j
    rw [particle, Matrix.of_apply, braket_flip, oneState_norm]
    simp [braket, join, cre, oneState, flip, ham, hop, pairs, across, hOne, vOne]
    norm_num

theorem fockT_one (a : ℝ) (M : Matrix (Fin 1) (Fin 1) ℂ) (hM : M 0 0 = a) :
    lower (fockT (fun _ => 1) 1 0 M) = Matrix.diagonal fun _ : {i : Fin 1 // (0 : ℝ) < (fun _ => 1 : Fin 1 → ℝ) i} => (a : ℂ) := by
  ext i j
  obtain rfl : i = j := Subtype.ext (Subsingleton.elim _ _)
  obtain ⟨i, hi⟩ := i
  obtain rfl : i = 0 := Subsingleton.elim _ _
  rw [lower, Matrix.of_apply, if_neg (lt_irrefl _), if_neg (lt_irrefl _), Matrix.diagonal_apply_eq]
  have h1 : (1 : Matrix (Fin 1) (Fin 1) ℂ) 0 0 = 1 := rfl
  simp only [fockT, orthoMod, Matrix.mul_apply, Matrix.conjTranspose_apply, Matrix.of_apply, Fin.sum_univ_one, h1, hM]
  simp

/-- The hypotheses of `ionisation` and `affinity` hold for it, with the energies -1 and 1 + 2. -/
theorem one_case : ∃ (e e' : {i : Fin 1 // (0 : ℝ) < (fun _ => 1 : Fin 1 → ℝ) i} → ℝ),
    (∀ i j, star ((rdmOf oneState + rdmOf (flip oneState)) i j) = (rdmOf oneState + rdmOf (flip oneState)) i j) ∧
      Eigh (spinRdm (rdmOf oneState) (rdmOf (flip oneState))) (fun _ => 1) 1 ∧
      Eigh (gammaP (spinRdm (rdmOf oneState) (rdmOf (flip oneState)))) (fun _ => 1) 1 ∧
      Eigh (fockT (fun _ => 1) 1 0 (hole hOne vOne oneState oneState + hole hOne vOne (flip oneState) (flip oneState))) e 1 ∧
      Eigh (fockT (fun _ => 1) 1 0 (particle hOne vOne oneState oneState + particle hOne vOne (flip oneState) (flip oneState))) e' 1 ∧
      (∀ i, e i = -1) ∧ ∀ i, e' i = 3 := by
  refine ⟨fun _ => -1, fun _ => 3, ?_, ⟨?_, ?_⟩, ⟨?_, ?_⟩, ⟨?_, ?_⟩, ⟨?_, ?_⟩, fun _ => rfl, fun _ => rfl⟩
  · rw [oneState_rdm.1, oneState_rdm.2]
    intro i j
    fin_cases i
    fin_cases j
    simp
  · simp
  · rw [oneState_rdm.1, oneState_rdm.2]
    ext i j
    fin_cases i
    fin_cases j
    simp [lower, spinRdm]
    norm_num
  · simp
  · rw [oneState_rdm.1, oneState_rdm.2]
    ext i j
    fin_cases i
    fin_cases j
    simp [lower, spinRdm, gammaP]
    norm_num
  · simp
  · rw [fockT_one (-1), Matrix.mul_one, Matrix.one_mul]
    rw [oneState_hole.1, oneState_hole.2]
    simp
  · simp
  · rw [fockT_one 3, Matrix.mul_one, Matrix.one_mul]
    rw [oneState_particle.1, oneState_particle.2]
    simp

end Verif.Ekt
