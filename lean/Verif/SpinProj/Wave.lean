import Verif.Step.States
import Mathlib.LinearAlgebra.Matrix.Determinant.Basic

/-!
# The total spin of a determinant

The wave function of a determinant in the coordinates of all electrons, site and spin, and the operators of
the total spin as they are defined in quantum mechanics.  Nothing here is specific to the code.
-/

namespace Verif.SpinProj

open Matrix Finset

variable {nb nu nd : Nat}

/-- The coordinates of the electrons: orbital and spin (`0` up, `1` down). -/
abbrev Conf (nb nu nd : Nat) := Fin nu ⊕ Fin nd → Fin nb × Fin 2

/-- The spin orbitals of a determinant with `nu` up and `nd` down orbitals. -/
def chi (phi : Slater.Wfn nb nu nd) : Fin nu ⊕ Fin nd → Fin nb × Fin 2 → ℂ
  | Sum.inl a, y => if y.2 = 0 then Slater.up phi y.1 a else 0
  | Sum.inr a, y => if y.2 = 1 then Slater.dn phi y.1 a else 0

/-- The wave function of the determinant. -/
noncomputable def wave (phi : Slater.Wfn nb nu nd) (g : Conf nb nu nd) : ℂ :=
  (Matrix.of fun p b => chi phi p (g b)).det

/-- The spin of electron `b` turned over. -/
def flip (b : Fin nu ⊕ Fin nd) (g : Conf nb nu nd) : Conf nb nu nd :=
  Function.update g b ((g b).1, 1 - (g b).2)

/-- `S₊`: the sum over the electrons of the operators that take a down to an up spin. -/
noncomputable def raise (Psi : Conf nb nu nd → ℂ) (g : Conf nb nu nd) : ℂ :=
  ∑ b, if (g b).2 = 0 then Psi (flip b g) else 0

/-- `S₋`. -/
noncomputable def lower (Psi : Conf nb nu nd → ℂ) (g : Conf nb nu nd) : ℂ :=
  ∑ b, if (g b).2 = 1 then Psi (flip b g) else 0

/-- `S_z`. -/
noncomputable def sz (Psi : Conf nb nu nd → ℂ) (g : Conf nb nu nd) : ℂ :=
  ∑ b, (if (g b).2 = 0 then (1 / 2 : ℂ) else -(1 / 2)) * Psi g

/-- `S² = S₋ S₊ + S_z² + S_z`. -/
noncomputable def spinSq (Psi : Conf nb nu nd → ℂ) (g : Conf nb nu nd) : ℂ :=
  lower (raise Psi) g + sz (sz Psi) g + sz Psi g

/-! ## One-body operators on a determinant -/

theorem det_cols_rows {ι : Type*} [Fintype ι] [DecidableEq ι] (M N : Matrix ι ι ℂ) :
    ∑ b, (M.updateCol b fun p => N p b).det = ∑ p, (M.updateRow p (N p)).det := by
  simp only [det_apply']
  rw [sum_comm, sum_comm (γ := ι)]
  refine sum_congr rfl fun σ _ => ?_
  rw [← Equiv.sum_comp σ (fun p => ((Equiv.Perm.sign σ : ℤ) : ℂ) * ∏ i, M.updateRow p (N p) (σ i) i)]
  refine sum_congr rfl fun b _ => ?_
  congr 1
  refine prod_congr rfl fun i _ => ?_
  rw [updateCol_apply, updateRow_apply]
  by_cases h : i = b
  · rw [if_pos h, if_pos (by rw [h]), h]
  · rw [if_neg h, if_neg fun h' => h (σ.injective h')]

theorem wave_update (phi : Slater.Wfn nb nu nd) (g : Conf nb nu nd) (b : Fin nu ⊕ Fin nd)
    (y : Fin nb × Fin 2) : wave phi (Function.update g b y) =
      ((Matrix.of fun p b => chi phi p (g b)).updateCol b fun p => chi phi p y).det := by
  rw [wave]
  congr 1
  ext p c
  rw [updateCol_apply, of_apply, of_apply, Function.update_apply]
  split_ifs <;> rfl

theorem det_col_if {ι : Type*} [Fintype ι] [DecidableEq ι] (M : Matrix ι ι ℂ) (b : ι) (c : Prop)
    [Decidable c] (v : ι → ℂ) :
    (if c then (M.updateCol b v).det else 0) = (M.updateCol b fun p => if c then v p else 0).det := by
  split_ifs
  · rfl
  · exact (det_eq_zero_of_column_eq_zero b fun p => by rw [updateCol_self]).symm

theorem fin2_sub (s : Fin 2) : (s = 0 → 1 - s = 1) ∧ (s = 1 → 1 - s = 0) ∧ 1 - (1 - s) = s := by
  revert s; decide

/-- A determinant whose down orbitals lie in the span of the up orbitals is taken to zero by `S₊`. -/
theorem raise_wave (phi : Slater.Wfn nb nu nd) (C : Matrix (Fin nu) (Fin nd) ℂ)
    (h : Slater.dn phi = Slater.up phi * C) : raise (wave phi) = 0 := by
  funext g
  rw [raise, Pi.zero_apply]
  set M : Matrix (Fin nu ⊕ Fin nd) (Fin nu ⊕ Fin nd) ℂ := Matrix.of fun p b => chi phi p (g b) with hM
  set N : Matrix (Fin nu ⊕ Fin nd) (Fin nu ⊕ Fin nd) ℂ :=
    Matrix.of fun p b => if (g b).2 = 0 then chi phi p ((g b).1, 1) else 0 with hN
  have e : ∀ b, (if (g b).2 = 0 then wave phi (flip b g) else 0) = (M.updateCol b fun p => N p b).det := by
    intro b
    rw [show (fun p => N p b) = fun p => if (g b).2 = 0 then chi phi p ((g b).1, 1) else 0 from rfl,
      ← det_col_if]
    refine ite_congr rfl (fun h0 => ?_) fun _ => rfl
    rw [flip, wave_update, (fin2_sub _).1 h0]
  rw [sum_congr rfl fun b _ => e b, det_cols_rows]
  refine sum_eq_zero fun p _ => ?_
  rcases p with a | a
  · refine det_eq_zero_of_row_eq_zero (Sum.inl a) fun b => ?_
    rw [updateRow_self, hN, of_apply]
    split_ifs
    · simp [chi]
    · rfl
  · have e2 : N (Sum.inr a) = ∑ q, Sum.elim (fun c => C c a) (fun _ => (0 : ℂ)) q • M q := by
      funext b
      rw [Finset.sum_apply, Fintype.sum_sum_type]
      have hz : ∑ q : Fin nd, (Sum.elim (fun c => C c a) (fun _ => (0 : ℂ)) (Sum.inr q) • M (Sum.inr q)) b = 0 :=
        sum_eq_zero fun q _ => by rw [Sum.elim_inr, zero_smul, Pi.zero_apply]
      rw [hz, add_zero]
      simp only [Sum.elim_inl, Pi.smul_apply, smul_eq_mul, hN, hM, of_apply, chi]
      by_cases h0 : (g b).2 = 0
      · simp only [h0, if_true, h, mul_apply]
        exact sum_congr rfl fun c _ => mul_comm _ _
      · simp only [h0, if_false, mul_zero, sum_const_zero]
    rw [e2, det_updateRow_sum, Sum.elim_inr, zero_smul]

/-- The `z` component of the spin of every determinant. -/
theorem sz_wave (phi : Slater.Wfn nb nu nd) :
    sz (wave phi) = ((nu - nd : ℂ) / 2) • wave phi := by
  funext g
  rw [sz]
  set M : Matrix (Fin nu ⊕ Fin nd) (Fin nu ⊕ Fin nd) ℂ := Matrix.of fun p b => chi phi p (g b) with hM
  set N : Matrix (Fin nu ⊕ Fin nd) (Fin nu ⊕ Fin nd) ℂ :=
    Matrix.of fun p b => (if (g b).2 = 0 then (1 / 2 : ℂ) else -(1 / 2)) * M p b with hN
  have e : ∀ b, (if (g b).2 = 0 then (1 / 2 : ℂ) else -(1 / 2)) * wave phi g =
      (M.updateCol b fun p => N p b).det := by
    intro b
    rw [show (fun p => N p b) = (if (g b).2 = 0 then (1 / 2 : ℂ) else -(1 / 2)) • fun p => M p b from rfl,
      det_updateCol_smul, updateCol_eq_self]
    rfl
  rw [sum_congr rfl fun b _ => e b, det_cols_rows, Fintype.sum_sum_type]
  have eu : ∀ a : Fin nu, (M.updateRow (Sum.inl a) (N (Sum.inl a))).det = 1 / 2 * M.det := by
    intro a
    have : N (Sum.inl a) = (1 / 2 : ℂ) • M (Sum.inl a) := by
      funext b
      simp only [hN, hM, of_apply, Pi.smul_apply, smul_eq_mul, chi]
      by_cases h0 : (g b).2 = 0
      · simp only [h0, if_true]
      · simp only [h0, if_false, mul_zero]
    rw [this, det_updateRow_smul, updateRow_eq_self]
  have ed : ∀ a : Fin nd, (M.updateRow (Sum.inr a) (N (Sum.inr a))).det = -(1 / 2) * M.det := by
    intro a
    have : N (Sum.inr a) = (-(1 / 2) : ℂ) • M (Sum.inr a) := by
      funext b
      simp only [hN, hM, of_apply, Pi.smul_apply, smul_eq_mul, chi]
      by_cases h0 : (g b).2 = 0
      · have h1 : ¬ (0 : Fin 2) = 1 := by decide
        simp only [h0, if_true, h1, if_false, mul_zero]
      · simp only [h0, if_false]
    rw [this, det_updateRow_smul, updateRow_eq_self]
  rw [sum_congr rfl fun a _ => eu a, sum_congr rfl fun a _ => ed a, sum_const, sum_const, card_univ, card_univ,
    Fintype.card_fin, Fintype.card_fin, nsmul_eq_mul, nsmul_eq_mul, Pi.smul_apply, smul_eq_mul, wave, ← hM]
  ring

theorem sz_smul (c : ℂ) (Psi : Conf nb nu nd → ℂ) : sz (c • Psi) = c • sz Psi := by
  funext g
  simp only [sz, Pi.smul_apply, smul_eq_mul, mul_sum]
  exact sum_congr rfl fun b _ => by ring

/-- **The spin of a determinant** whose down orbitals lie in the span of the up orbitals is
`s = (nu - nd) / 2`: an eigenfunction of `S²` with eigenvalue `s (s + 1)`. -/
theorem spinSq_wave (phi : Slater.Wfn nb nu nd) (C : Matrix (Fin nu) (Fin nd) ℂ)
    (h : Slater.dn phi = Slater.up phi * C) :
    spinSq (wave phi) = ((nu - nd : ℂ) / 2 * ((nu - nd : ℂ) / 2 + 1)) • wave phi := by
  funext g
  have h0 : lower (fun _ : Conf nb nu nd => (0 : ℂ)) g = 0 := by simp [lower]
  rw [spinSq, raise_wave phi C h, show (0 : Conf nb nu nd → ℂ) = fun _ => 0 from rfl, h0, sz_wave, sz_smul,
    sz_wave]
  simp only [Pi.smul_apply, smul_eq_mul]
  ring

/-! ## States of different spin -/

/-- Inner product of two wave functions. -/
noncomputable def inner (Theta Psi : Conf nb nu nd → ℂ) : ℂ := ∑ g, star (Theta g) * Psi g

theorem flip_flip (b : Fin nu ⊕ Fin nd) (g : Conf nb nu nd) : flip b (flip b g) = g := by
  funext c
  rw [flip, Function.update_apply]
  split_ifs with h
  · rw [flip, Function.update_self, (fin2_sub _).2.2, h]
  · rw [flip, Function.update_of_ne h]

theorem flip_spin (b : Fin nu ⊕ Fin nd) (g : Conf nb nu nd) : (flip b g b).2 = 1 - (g b).2 := by
  rw [flip, Function.update_self]

theorem fin2_sub_iff (s : Fin 2) : (1 - s = 1 ↔ s = 0) ∧ (1 - s = 0 ↔ s = 1) := by
  revert s; decide

theorem inner_raise (Theta Psi : Conf nb nu nd → ℂ) : inner Theta (raise Psi) = inner (lower Theta) Psi := by
  simp only [inner, raise, lower, star_sum, mul_sum, sum_mul]
  rw [sum_comm, sum_comm (γ := Conf nb nu nd)]
  refine sum_congr rfl fun b _ => ?_
  refine Fintype.sum_bijective (flip b) (Function.Involutive.bijective (flip_flip b)) _ _ fun g => ?_
  rw [flip_spin, flip_flip]
  by_cases h : (g b).2 = 0
  · rw [if_pos h, if_pos ((fin2_sub_iff _).1.2 h)]
  · rw [if_neg h, if_neg fun h' => h ((fin2_sub_iff _).1.1 h'), star_zero, mul_zero, zero_mul]

theorem inner_star (Theta Psi : Conf nb nu nd → ℂ) : star (inner Theta Psi) = inner Psi Theta := by
  simp only [inner, star_sum, star_mul', star_star]
  exact sum_congr rfl fun g _ => mul_comm _ _

theorem inner_lower (Theta Psi : Conf nb nu nd → ℂ) : inner Theta (lower Psi) = inner (raise Theta) Psi := by
  rw [← inner_star, ← inner_raise, inner_star]

theorem inner_sz (Theta Psi : Conf nb nu nd → ℂ) : inner Theta (sz Psi) = inner (sz Theta) Psi := by
  simp only [inner, sz, ← sum_mul, star_mul']
  refine sum_congr rfl fun g _ => ?_
  have : star (∑ b, if (g b).2 = 0 then (1 / 2 : ℂ) else -(1 / 2)) =
      ∑ b, if (g b).2 = 0 then (1 / 2 : ℂ) else -(1 / 2) := by
    rw [star_sum]
    refine sum_congr rfl fun b _ => ?_
    split_ifs <;> simp
  rw [this]
  ring

theorem inner_spinSq (Theta Psi : Conf nb nu nd → ℂ) :
    inner Theta (spinSq Psi) = inner (spinSq Theta) Psi := by
  have e : ∀ A B C D : Conf nb nu nd → ℂ, inner A (fun g => B g + C g + D g) =
      inner A B + inner A C + inner A D := by
    intro A B C D
    simp only [inner, ← sum_add_distrib]
    exact sum_congr rfl fun g _ => by ring
  have e' : ∀ A B C D : Conf nb nu nd → ℂ, inner (fun g => B g + C g + D g) A =
      inner B A + inner C A + inner D A := by
    intro A B C D
    rw [← inner_star, e, star_add, star_add, inner_star, inner_star, inner_star]
  rw [show spinSq Psi = fun g => lower (raise Psi) g + sz (sz Psi) g + sz Psi g from rfl,
    show spinSq Theta = fun g => lower (raise Theta) g + sz (sz Theta) g + sz Theta g from rfl, e, e',
    inner_lower, inner_raise, inner_sz, inner_sz, inner_sz]

theorem inner_smul (c : ℂ) (Theta Psi : Conf nb nu nd → ℂ) : inner Theta (c • Psi) = c * inner Theta Psi := by
  simp only [inner, Pi.smul_apply, smul_eq_mul, mul_sum]
  exact sum_congr rfl fun g _ => by ring

/-- Eigenfunctions of `S²` with different eigenvalues, the first one real, are orthogonal. -/
theorem inner_eq_zero {Theta Psi : Conf nb nu nd → ℂ} {t : ℝ} {s : ℂ} (hT : spinSq Theta = (t : ℂ) • Theta)
    (hP : spinSq Psi = s • Psi) (h : (t : ℂ) ≠ s) : inner Theta Psi = 0 := by
  have e := inner_spinSq Theta Psi
  rw [hT, hP, inner_smul, ← inner_star Psi ((t : ℂ) • Theta), inner_smul, star_mul', inner_star] at e
  have : star (t : ℂ) = t := Complex.conj_ofReal t
  rw [this] at e
  have e2 : ((t : ℂ) - s) * inner Theta Psi = 0 := by rw [sub_mul, e, sub_self]
  exact (mul_eq_zero.1 e2).resolve_left (sub_ne_zero.2 h)

/-! ## Operators that do not act on the spins -/

/-- An operator that acts on the orbitals of the electrons only: any matrix between the configurations of
the orbitals, in particular every Hamiltonian with the same integrals for both spins. -/
noncomputable def spatial (K : Matrix (Fin nu ⊕ Fin nd → Fin nb) (Fin nu ⊕ Fin nd → Fin nb) ℂ)
    (Psi : Conf nb nu nd → ℂ) (g : Conf nb nu nd) : ℂ :=
  ∑ f, K (fun b => (g b).1) f * Psi fun b => (f b, (g b).2)

theorem flip_fst (b : Fin nu ⊕ Fin nd) (g : Conf nb nu nd) : (fun c => (flip b g c).1) = fun c => (g c).1 := by
  funext c
  rw [flip, Function.update_apply]
  split_ifs with h
  · rw [h]
  · rfl

theorem flip_pair (b : Fin nu ⊕ Fin nd) (g : Conf nb nu nd) (f : Fin nu ⊕ Fin nd → Fin nb) :
    (fun c => (f c, (flip b g c).2)) = flip b fun c => (f c, (g c).2) := by
  funext c
  simp only [flip, Function.update_apply]
  split_ifs with h
  · rw [h]
  · rfl

variable (K : Matrix (Fin nu ⊕ Fin nd → Fin nb) (Fin nu ⊕ Fin nd → Fin nb) ℂ) (Psi : Conf nb nu nd → ℂ)

theorem spatial_raise : spatial K (raise Psi) = raise (spatial K Psi) := by
  funext g
  simp only [spatial, raise, mul_sum]
  rw [sum_comm]
  refine sum_congr rfl fun b _ => ?_
  split_ifs with h
  · rw [flip_fst]
    exact sum_congr rfl fun f _ => by rw [flip_pair]
  · exact sum_eq_zero fun f _ => mul_zero _

theorem spatial_lower : spatial K (lower Psi) = lower (spatial K Psi) := by
  funext g
  simp only [spatial, lower, mul_sum]
  rw [sum_comm]
  refine sum_congr rfl fun b _ => ?_
  split_ifs with h
  · rw [flip_fst]
    exact sum_congr rfl fun f _ => by rw [flip_pair]
  · exact sum_eq_zero fun f _ => mul_zero _

theorem spatial_sz : spatial K (sz Psi) = sz (spatial K Psi) := by
  funext g
  simp only [spatial, sz, mul_sum]
  rw [sum_comm]
  exact sum_congr rfl fun b _ => sum_congr rfl fun f _ => by ring

theorem spatial_spinSq : spatial K (spinSq Psi) = spinSq (spatial K Psi) := by
  funext g
  rw [spinSq, ← spatial_raise, ← spatial_lower, ← spatial_sz, ← spatial_sz]
  simp only [spatial, spinSq, ← sum_add_distrib]
  exact sum_congr rfl fun f _ => by ring

theorem spatial_smul (c : ℂ) : spatial K (c • Psi) = c • spatial K Psi := by
  funext g
  simp only [spatial, Pi.smul_apply, smul_eq_mul, mul_sum]
  exact sum_congr rfl fun f _ => by ring

/-! ## The wave function and the overlap -/

/-- The component of the wave function with the first `nu` electrons up and the others down is that used in
the theorems on the propagators. -/
theorem wave_component (phi : Slater.Wfn nb nu nd) (f : Fin nu ⊕ Fin nd → Fin nb) :
    wave phi (fun b => (f b, Step.spin b)) = star (Step.slater phi f) := by
  have e : (Matrix.of fun p b => chi phi p (f b, Step.spin b)) = Matrix.fromBlocks
      (Matrix.of fun a b => Slater.up phi (f (Sum.inl b)) a) 0 0
      (Matrix.of fun a b => Slater.dn phi (f (Sum.inr b)) a) := by
    ext p b
    have h0 : ¬ (0 : Fin 2) = 1 := by decide
    rcases p with a | a <;> rcases b with b | b <;> simp [chi, Step.spin]
  rw [wave, e, det_fromBlocks_zero₁₂, Step.slater, star_mul']
  congr 1 <;> rw [Step.slater1, ← det_conjTranspose, ← det_transpose] <;> congr 1 <;> ext a b <;> simp

theorem sum_det_prod {α ι : Type*} [Fintype α] [Fintype ι] [DecidableEq ι] (A B : ι → α → ℂ) :
    ∑ g : ι → α, (Matrix.of fun p b => A p (g b)).det * ∏ b, B b (g b) =
      (Matrix.of fun p q => ∑ y, A p y * B q y).det := by
  classical
  simp only [det_apply', sum_mul, of_apply]
  rw [sum_comm]
  refine sum_congr rfl fun σ _ => ?_
  rw [Finset.prod_univ_sum, mul_sum, ← Fintype.piFinset_univ]
  refine sum_congr rfl fun g _ => ?_
  rw [prod_mul_distrib]
  ring

theorem sum_det_det {α ι : Type*} [Fintype α] [Fintype ι] [DecidableEq ι] (A B : ι → α → ℂ) :
    ∑ g : ι → α, (Matrix.of fun p b => A p (g b)).det * (Matrix.of fun p b => B p (g b)).det =
      (Fintype.card ι).factorial * (Matrix.of fun p q => ∑ y, A p y * B q y).det := by
  classical
  have e : ∀ g : ι → α, (Matrix.of fun p b => B p (g b)).det =
      ∑ σ : Equiv.Perm ι, ((Equiv.Perm.sign σ : ℤ) : ℂ) * ∏ b, B b (g (σ b)) := by
    intro g
    rw [← det_transpose, det_apply']
    rfl
  simp only [e, mul_sum]
  rw [sum_comm]
  have e2 : ∀ σ : Equiv.Perm ι, ∑ g : ι → α, (Matrix.of fun p b => A p (g b)).det *
      (((Equiv.Perm.sign σ : ℤ) : ℂ) * ∏ b, B b (g (σ b))) = (Matrix.of fun p q => ∑ y, A p y * B q y).det := by
    intro σ
    rw [← sum_det_prod]
    refine Fintype.sum_equiv (Equiv.arrowCongr σ.symm (Equiv.refl α)) _ _ fun g => ?_
    have h1 : (Equiv.arrowCongr σ.symm (Equiv.refl α)) g = fun b => g (σ b) := rfl
    rw [h1]
    have h2 : (Matrix.of fun p b => A p (g (σ b))).det =
        ((Equiv.Perm.sign σ : ℤ) : ℂ) * (Matrix.of fun p b => A p (g b)).det := by
      rw [← det_permute' σ]
      rfl
    rw [h2]
    ring
  rw [sum_congr rfl fun σ _ => e2 σ, sum_const, card_univ, Fintype.card_perm, nsmul_eq_mul]

/-- The inner product of the wave functions of two determinants is the product of the two determinants the
code computes, times the number of orders of the electrons. -/
theorem inner_wave (psi phi : Slater.Wfn nb nu nd) : inner (wave psi) (wave phi) =
    (nu + nd).factorial * (((Slater.up psi)ᴴ * Slater.up phi).det * ((Slater.dn psi)ᴴ * Slater.dn phi).det) := by
  have e : ∀ g : Conf nb nu nd, star (wave psi g) * wave phi g =
      (Matrix.of fun p b => (fun q y => star (chi psi q y)) p (g b)).det *
        (Matrix.of fun p b => chi phi p (g b)).det := by
    intro g
    rw [wave, ← det_conjTranspose, ← det_transpose]
    rfl
  rw [inner, sum_congr rfl fun g _ => e g, sum_det_det (fun q y => star (chi psi q y)) (chi phi)]
  have e2 : (Matrix.of fun p q => ∑ y, star (chi psi p y) * chi phi q y) =
      Matrix.fromBlocks ((Slater.up psi)ᴴ * Slater.up phi) 0 0 ((Slater.dn psi)ᴴ * Slater.dn phi) := by
    ext p q
    rw [of_apply, Fintype.sum_prod_type_right, Fin.sum_univ_two]
    have h0 : ¬ (0 : Fin 2) = 1 := by decide
    have h1 : ¬ (1 : Fin 2) = 0 := by decide
    rcases p with a | a <;> rcases q with b | b <;>
      simp [chi, h0, h1, mul_apply]
  rw [e2, det_fromBlocks_zero₁₂, Fintype.card_sum, Fintype.card_fin, Fintype.card_fin]

end Verif.SpinProj
