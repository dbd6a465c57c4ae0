import Verif.Fields.Positive
import Verif.Grand.Lie
import Mathlib.LinearAlgebra.Matrix.Determinant.Basic
import Mathlib.GroupTheory.Perm.Fin
import Mathlib.Data.Fin.Tuple.Sort

/-!
# Minors of the orbitals

The amplitudes of a determinant on the ordered configurations.  A hopping matrix whose action on ordered configurations has no positive
entries off the diagonal keeps all amplitudes positive.  General lemmas, not a model of code.
-/

namespace Verif.Fields

open Matrix Finset
open Verif.Hirsch (IsPos)
open Verif.Step (tens onP allP)

variable {m k : Nat}

/-- The minor of the given rows, in the given order. -/
noncomputable def minor (φ : Matrix (Fin m) (Fin k) ℂ) (I : Fin k → Fin m) : ℂ := (φ.submatrix I id).det

theorem minor_perm (φ : Matrix (Fin m) (Fin k) ℂ) (I : Fin k → Fin m) (σ : Equiv.Perm (Fin k)) :
    minor φ (I ∘ σ) = ((Equiv.Perm.sign σ : ℤ) : ℂ) * minor φ I := by
  have := Matrix.det_permute σ (φ.submatrix I id)
  rw [minor, minor, ← this]
  rfl

theorem minor_zero (φ : Matrix (Fin m) (Fin k) ℂ) {I : Fin k → Fin m} (h : ¬ Function.Injective I) : minor φ I = 0 := by
  rw [Function.not_injective_iff] at h
  obtain ⟨a, b, hab, hne⟩ := h
  exact Matrix.det_zero_of_row_eq hne (by funext j; simp [Matrix.submatrix_apply, hab])

theorem det_rows {l : Nat} (M : Matrix (Fin k) (Fin l) ℂ) (φ : Matrix (Fin l) (Fin k) ℂ) :
    (M * φ).det = ∑ J : Fin k → Fin l, (∏ a, M a (J a)) * minor φ J := by
  have e : M * φ = fun a => ∑ j, M a j • φ j := by
    funext a b
    rw [Matrix.mul_apply, Finset.sum_apply]
    rfl
  have h1 := (Matrix.detRowAlternating (n := Fin k) (R := ℂ)).toMultilinearMap.map_sum (fun a (j : Fin l) => M a j • φ j)
  have h2 : (M * φ).det = ∑ J : Fin k → Fin l, (Matrix.detRowAlternating (n := Fin k) (R := ℂ)) (fun a => M a (J a) • φ (J a)) := by
    rw [e]; exact h1
  rw [h2]
  refine sum_congr rfl fun J _ => ?_
  have h3 := (Matrix.detRowAlternating (n := Fin k) (R := ℂ)).toMultilinearMap.map_smul_univ (fun a => M a (J a)) (fun a => φ (J a))
  exact h3

theorem minor_mul (M : Matrix (Fin m) (Fin m) ℂ) (φ : Matrix (Fin m) (Fin k) ℂ) :
    minor (M * φ) = (tens fun _ : Fin k => M) *ᵥ minor φ := by
  funext I
  have : (M * φ).submatrix I id = (M.submatrix I id) * φ := by
    ext a b; simp [Matrix.mul_apply]
  rw [minor, this, det_rows]
  rfl

theorem minor_diagonal (d : Fin m → ℂ) (φ : Matrix (Fin m) (Fin k) ℂ) (I : Fin k → Fin m) :
    minor (diagonal d * φ) I = (∏ a, d (I a)) * minor φ I := by
  have : (diagonal d * φ).submatrix I id = diagonal (fun a => d (I a)) * φ.submatrix I id := by
    ext a b; simp [Matrix.diagonal_mul]
  rw [minor, this, Matrix.det_mul, Matrix.det_diagonal, minor]

/-! ## Ordered configurations -/

/-- Ordered configurations of `k` electrons on `m` sites. -/
abbrev Ordered (m k : Nat) := { I : Fin k → Fin m // StrictMono I }

noncomputable instance : Fintype (Ordered m k) := Fintype.ofFinite _

/-- The sign of the permutation that orders a configuration. -/
noncomputable def sgn (f : Fin k → Fin m) (J : Ordered m k) : ℂ :=
  ∑ σ : Equiv.Perm (Fin k), if f = J.1 ∘ σ then ((Equiv.Perm.sign σ : ℤ) : ℂ) else 0

theorem ordered_unique {J J' : Fin k → Fin m} (hJ : StrictMono J) (hJ' : StrictMono J') {σ σ' : Equiv.Perm (Fin k)}
    (h : J ∘ σ = J' ∘ σ') : J = J' ∧ σ = σ' := by
  have hr : Set.range J = Set.range J' := by
    rw [← σ.surjective.range_comp J, ← σ'.surjective.range_comp J', h]
  have e : J = J' := (hJ.range_inj hJ').1 hr
  subst e
  refine ⟨rfl, Equiv.ext fun a => hJ.injective (congrFun h a)⟩

theorem exists_sort {f : Fin k → Fin m} (hf : Function.Injective f) : ∃ (J : Ordered m k) (σ : Equiv.Perm (Fin k)), f = J.1 ∘ σ := by
  refine ⟨⟨f ∘ Tuple.sort f, (Tuple.monotone_sort f).strictMono_of_injective (hf.comp (Tuple.sort f).injective)⟩, (Tuple.sort f)⁻¹, ?_⟩
  funext a
  simp

theorem sgn_eq {f : Fin k → Fin m} {J : Ordered m k} {σ : Equiv.Perm (Fin k)} (h : f = J.1 ∘ σ) :
    sgn f J = ((Equiv.Perm.sign σ : ℤ) : ℂ) := by
  rw [sgn, sum_eq_single σ]
  · rw [if_pos h]
  · intro σ' _ hne
    rw [if_neg]
    intro h'
    exact hne (ordered_unique J.2 J.2 (h'.symm.trans h)).2
  · simp

theorem sgn_zero {f : Fin k → Fin m} {J : Ordered m k} (h : ∀ σ : Equiv.Perm (Fin k), f ≠ J.1 ∘ σ) : sgn f J = 0 := by
  rw [sgn]
  exact sum_eq_zero fun σ _ => if_neg (h σ)

theorem sgn_ordered (I J : Ordered m k) : sgn I.1 J = if I = J then 1 else 0 := by
  split_ifs with h
  · subst h
    rw [sgn_eq (σ := 1) (by simp)]
    simp
  · refine sgn_zero fun σ e => h (Subtype.ext ?_)
    exact (ordered_unique (σ := 1) I.2 J.2 (by simpa using e)).1

/-- Functions of the configuration that change sign when two electrons are exchanged. -/
def Alt (W : (Fin k → Fin m) → ℂ) : Prop :=
  (∀ I (σ : Equiv.Perm (Fin k)), W (I ∘ σ) = ((Equiv.Perm.sign σ : ℤ) : ℂ) * W I) ∧ ∀ I, ¬ Function.Injective I → W I = 0

theorem minor_alt (φ : Matrix (Fin m) (Fin k) ℂ) : Alt (minor φ) := ⟨minor_perm φ, fun _ h => minor_zero φ h⟩

theorem alt_expand {W : (Fin k → Fin m) → ℂ} (h : Alt W) (f : Fin k → Fin m) : W f = ∑ J : Ordered m k, sgn f J * W J.1 := by
  by_cases hf : Function.Injective f
  · obtain ⟨J, σ, e⟩ := exists_sort hf
    rw [sum_eq_single J]
    · rw [sgn_eq e, ← h.1, ← e]
    · intro J' _ hne
      rw [sgn_zero, zero_mul]
      intro σ' e'
      exact hne (Subtype.ext (ordered_unique J'.2 J.2 (e'.symm.trans e)).1)
    · simp
  · rw [h.2 f hf, sum_eq_zero]
    intro J _
    rw [sgn_zero, zero_mul]
    rintro σ rfl
    exact hf (J.2.injective.comp σ.injective)

theorem sgn_alt (J : Ordered m k) : Alt (fun f => sgn f J) := by
  refine ⟨fun I σ => ?_, fun I h => ?_⟩
  · by_cases hI : ∃ τ : Equiv.Perm (Fin k), I = J.1 ∘ τ
    · obtain ⟨τ, e⟩ := hI
      beta_reduce
      rw [sgn_eq e, sgn_eq (σ := τ * σ) (by rw [e]; rfl), map_mul]
      push_cast
      ring
    · push Not at hI
      beta_reduce
      rw [sgn_zero hI, sgn_zero, mul_zero]
      intro τ e
      refine hI (τ * σ⁻¹) ?_
      funext a
      have := congrFun e (σ⁻¹ a)
      simpa using this
  · refine sgn_zero ?_
    rintro σ rfl
    exact h (J.2.injective.comp σ.injective)

/-- The overlap of two determinants is the sum over ordered configurations. -/
theorem det_overlap (ψ φ : Matrix (Fin m) (Fin k) ℂ) : (ψᴴ * φ).det = ∑ J : Ordered m k, star (minor ψ J.1) * minor φ J.1 := by
  have h0 : ∀ f : Fin k → Fin m, (∏ a, ψᴴ a (f a)) * minor φ f = ∑ J : Ordered m k, (∏ a, ψᴴ a (f a)) * (sgn f J * minor φ J.1) :=
    fun f => by rw [← mul_sum, ← alt_expand (minor_alt φ)]
  rw [det_rows, sum_congr rfl fun f _ => h0 f, sum_comm]
  refine sum_congr rfl fun J _ => ?_
  have : star (minor ψ J.1) = ∑ f : Fin k → Fin m, (∏ a, ψᴴ a (f a)) * sgn f J := by
    simp only [sgn, mul_sum]
    rw [sum_comm, minor, Matrix.det_apply', star_sum]
    refine sum_congr rfl fun σ _ => ?_
    rw [sum_eq_single (J.1 ∘ σ)]
    · rw [if_pos rfl, star_mul', star_prod, mul_comm]
      congr 1
      simp
    · intro f _ hf
      rw [if_neg hf, mul_zero]
    · simp
  rw [this, sum_mul]
  refine sum_congr rfl fun f _ => ?_
  ring

theorem Alt.of_perm {W : (Fin k → Fin m) → ℂ} (h : ∀ I (σ : Equiv.Perm (Fin k)), W (I ∘ σ) = ((Equiv.Perm.sign σ : ℤ) : ℂ) * W I) :
    Alt W := by
  refine ⟨h, fun I hI => ?_⟩
  rw [Function.not_injective_iff] at hI
  obtain ⟨a, b, hab, hne⟩ := hI
  have e : I ∘ Equiv.swap a b = I := by
    funext c
    rcases eq_or_ne c a with rfl | h1
    · simp [hab]
    · rcases eq_or_ne c b with rfl | h2
      · simp [hab]
      · simp [Equiv.swap_apply_of_ne_of_ne h1 h2]
  have := h I (Equiv.swap a b)
  rw [e, Equiv.Perm.sign_swap hne] at this
  push_cast at this
  linear_combination (1 / 2) * this

/-! ## Hopping on ordered configurations -/

/-- The one-body operator on functions of the configuration. -/
theorem allP_mulVec (A : Matrix (Fin m) (Fin m) ℂ) (W : (Fin k → Fin m) → ℂ) (f : Fin k → Fin m) :
    (allP (fun _ => A) *ᵥ W) f = ∑ a, ∑ j, A (f a) j * W (Function.update f a j) := by
  rw [allP, Matrix.sum_mulVec, Finset.sum_apply]
  refine sum_congr rfl fun a _ => ?_
  rw [Matrix.mulVec, dotProduct]
  refine (Finset.sum_of_injOn (fun j => Function.update f a j) ?_ ?_ ?_ ?_).symm
  · intro j _ j' _ h
    have := congrFun h a
    simpa using this
  · intro j _
    exact mem_coe.2 (mem_univ _)
  · intro g _ hg
    rw [Step.onP_apply]
    have : ∃ b, b ≠ a ∧ f b ≠ g b := by
      by_contra hcon
      push Not at hcon
      refine hg ⟨g a, mem_coe.2 (mem_univ _), ?_⟩
      funext b
      by_cases hb : b = a
      · subst hb; simp
      · simp [Function.update_of_ne hb, hcon b hb]
    obtain ⟨b, hb, hne⟩ := this
    have hz : ∏ b ∈ univ.erase a, (1 : Matrix (Fin m) (Fin m) ℂ) (f b) (g b) = 0 :=
      prod_eq_zero (mem_erase.2 ⟨hb, mem_univ b⟩) (Matrix.one_apply_ne hne)
    rw [hz, zero_mul, zero_mul]
  · intro j _
    rw [Step.onP_apply, prod_eq_one, one_mul, Function.update_self]
    intro b hb
    rw [Function.update_of_ne (ne_of_mem_erase hb), Matrix.one_apply_eq]

theorem Alt.allP {W : (Fin k → Fin m) → ℂ} (h : Alt W) (A : Matrix (Fin m) (Fin m) ℂ) : Alt (allP (fun _ => A) *ᵥ W) := by
  refine Alt.of_perm fun I σ => ?_
  rw [allP_mulVec, allP_mulVec, mul_sum]
  refine Fintype.sum_equiv σ _ _ fun a => ?_
  rw [mul_sum]
  refine sum_congr rfl fun j _ => ?_
  have e : Function.update (I ∘ σ) a j = Function.update I (σ a) j ∘ σ := by
    funext b
    by_cases hb : b = a
    · subst hb; simp
    · simp [Function.update_of_ne hb, Function.update_of_ne (σ.injective.ne hb)]
  rw [e, h.1]
  simp only [Function.comp_apply]
  ring

/-- The hopping between ordered configurations. -/
noncomputable def hop (A : Matrix (Fin m) (Fin m) ℂ) : Matrix (Ordered m k) (Ordered m k) ℂ :=
  Matrix.of fun I J => ∑ a, ∑ j, A (I.1 a) j * sgn (Function.update I.1 a j) J

/-- Functions on ordered configurations continued to all configurations. -/
noncomputable def ext : Matrix (Fin k → Fin m) (Ordered m k) ℂ := Matrix.of sgn

theorem allP_ext (A : Matrix (Fin m) (Fin m) ℂ) : allP (fun _ : Fin k => A) * (ext : Matrix _ (Ordered m k) ℂ) = ext * hop A := by
  ext f J
  have h := alt_expand ((sgn_alt J).allP A) f
  have e : (allP (fun _ : Fin k => A) * (ext : Matrix _ (Ordered m k) ℂ)) f J = (allP (fun _ => A) *ᵥ fun f => sgn f J) f := rfl
  rw [e, h, Matrix.mul_apply]
  refine sum_congr rfl fun I _ => ?_
  rw [allP_mulVec]
  rfl

theorem exp_intertwine {κ κ' : Type} [Fintype κ] [DecidableEq κ] [Fintype κ'] [DecidableEq κ'] {X : Matrix κ κ ℂ} {Y : Matrix κ' κ' ℂ}
    {E : Matrix κ κ' ℂ} (h : X * E = E * Y) : NormedSpace.exp X * E = E * NormedSpace.exp Y := by
  letI : NormedRing (Matrix κ κ ℂ) := Matrix.linftyOpNormedRing
  letI : NormedAlgebra ℂ (Matrix κ κ ℂ) := Matrix.linftyOpNormedAlgebra
  letI : NormedRing (Matrix κ' κ' ℂ) := Matrix.linftyOpNormedRing
  letI : NormedAlgebra ℂ (Matrix κ' κ' ℂ) := Matrix.linftyOpNormedAlgebra
  have hp : ∀ n : Nat, X ^ n * E = E * Y ^ n := by
    intro n
    induction n with
    | zero => simp
    | succ n ih => rw [pow_succ', Matrix.mul_assoc, ih, ← Matrix.mul_assoc, h, Matrix.mul_assoc, ← pow_succ']
  have hX := NormedSpace.exp_series_hasSum_exp' (𝕂 := ℂ) X
  have hY := NormedSpace.exp_series_hasSum_exp' (𝕂 := ℂ) Y
  ext i j
  have h1 : HasSum (fun n : Nat => (((n.factorial : ℂ)⁻¹ • X ^ n) * E) i j) ((NormedSpace.exp X * E) i j) := by
    simp only [Matrix.mul_apply]
    exact hasSum_sum fun l _ => ((Pi.hasSum.1 (Pi.hasSum.1 hX i)) l).mul_right _
  have h2 : HasSum (fun n : Nat => (E * ((n.factorial : ℂ)⁻¹ • Y ^ n)) i j) ((E * NormedSpace.exp Y) i j) := by
    simp only [Matrix.mul_apply]
    exact hasSum_sum fun l _ => ((Pi.hasSum.1 (Pi.hasSum.1 hY l)) j).mul_left _
  refine h1.unique ?_
  have e : (fun n : Nat => (((n.factorial : ℂ)⁻¹ • X ^ n) * E) i j) = fun n => (E * ((n.factorial : ℂ)⁻¹ • Y ^ n)) i j := by
    funext n
    rw [Matrix.smul_mul, hp, Matrix.mul_smul]
  rw [e]
  exact h2

/-- The minors evolve by the hopping between ordered configurations. -/
theorem minor_exp (A : Matrix (Fin m) (Fin m) ℂ) (φ : Matrix (Fin m) (Fin k) ℂ) (I : Ordered m k) :
    minor (NormedSpace.exp A * φ) I.1 = (NormedSpace.exp (hop A) *ᵥ fun J : Ordered m k => minor φ J.1) I := by
  have hE : minor φ = (ext : Matrix _ (Ordered m k) ℂ) *ᵥ fun J : Ordered m k => minor φ J.1 := by
    funext f
    exact alt_expand (minor_alt φ) f
  have hR : ∀ w : Ordered m k → ℂ, ((ext : Matrix _ (Ordered m k) ℂ) *ᵥ w) I.1 = w I := by
    intro w
    have : ∀ J, (ext : Matrix _ (Ordered m k) ℂ) I.1 J = if I = J then 1 else 0 := fun J => sgn_ordered I J
    rw [Matrix.mulVec, dotProduct]
    simp [this]
  have h1 : minor (NormedSpace.exp A * φ) = NormedSpace.exp (allP fun _ : Fin k => A) *ᵥ
      ((ext : Matrix _ (Ordered m k) ℂ) *ᵥ fun J : Ordered m k => minor φ J.1) := by
    rw [← hE, minor_mul, Grand.tens_exp]
  rw [h1, Matrix.mulVec_mulVec, exp_intertwine (allP_ext A), ← Matrix.mulVec_mulVec, hR]

/-! ## Positive amplitudes -/

/-- All amplitudes on ordered configurations are positive, up to a common factor. -/
def PosMin (c : ℂ) (φ : Matrix (Fin m) (Fin k) ℂ) : Prop := ∀ I : Ordered m k, IsPos (c * minor φ I.1)

/-- Hops of one electron are real and, up to the sign of the reordering, not positive. -/
def Hops (T : Matrix (Fin m) (Fin m) ℂ) (k : Nat) : Prop :=
  (∀ i j, (T i j).im = 0) ∧ ∀ (I J : Ordered m k) (a : Fin k) (j : Fin m) (σ : Equiv.Perm (Fin k)), j ≠ I.1 a →
    Function.update I.1 a j = J.1 ∘ σ → ((Equiv.Perm.sign σ : ℤ) : ℝ) * (T (I.1 a) j).re ≤ 0

theorem sgn_im (f : Fin k → Fin m) (J : Ordered m k) : (sgn f J).im = 0 := by
  rw [sgn, Complex.im_sum]
  refine sum_eq_zero fun σ _ => ?_
  split_ifs
  · exact Complex.intCast_im _
  · rfl

theorem Hops.real {T : Matrix (Fin m) (Fin m) ℂ} (hT : Hops T k) (I J : Ordered m k) : (hop T I J).im = 0 := by
  rw [hop, Matrix.of_apply, Complex.im_sum]
  refine sum_eq_zero fun a _ => ?_
  rw [Complex.im_sum]
  refine sum_eq_zero fun j _ => ?_
  rw [Complex.mul_im, sgn_im, hT.1]
  simp

theorem Hops.off {T : Matrix (Fin m) (Fin m) ℂ} (hT : Hops T k) {I J : Ordered m k} (hIJ : I ≠ J) : (hop T I J).re ≤ 0 := by
  rw [hop, Matrix.of_apply, Complex.re_sum]
  refine sum_nonpos fun a _ => ?_
  rw [Complex.re_sum]
  refine sum_nonpos fun j _ => ?_
  by_cases hex : ∃ σ : Equiv.Perm (Fin k), Function.update I.1 a j = J.1 ∘ σ
  · obtain ⟨σ, e⟩ := hex
    by_cases hj : j = I.1 a
    · exfalso
      rw [hj, Function.update_eq_self] at e
      exact hIJ (Subtype.ext (ordered_unique (σ := 1) I.2 J.2 (by simpa using e)).1)
    · have := hT.2 I J a j σ hj e
      rw [sgn_eq e, ← Complex.ofReal_intCast, Complex.re_mul_ofReal, mul_comm]
      exact this
  · push Not at hex
    rw [sgn_zero hex, mul_zero]
    rfl

theorem hop_smul (c : ℂ) (T : Matrix (Fin m) (Fin m) ℂ) : (hop (c • T) : Matrix (Ordered m k) (Ordered m k) ℂ) = c • hop T := by
  ext I J
  simp only [hop, Matrix.of_apply, Matrix.smul_apply, smul_eq_mul, mul_sum, mul_assoc]

theorem PosMin.exp {T : Matrix (Fin m) (Fin m) ℂ} (hT : Hops T k) {t : ℝ} (ht : 0 ≤ t) {c : ℂ} {φ : Matrix (Fin m) (Fin k) ℂ}
    (h : PosMin c φ) : PosMin c (NormedSpace.exp (-(t : ℂ) • T) * φ) := by
  intro I
  rw [minor_exp]
  have hreal : ∀ I J : Ordered m k, (hop (-(t : ℂ) • T) I J).im = 0 := by
    intro I J
    rw [hop_smul, Matrix.smul_apply, smul_eq_mul, ← Complex.ofReal_neg, Complex.im_ofReal_mul, hT.real, mul_zero]
  have hoff : ∀ I J : Ordered m k, I ≠ J → 0 ≤ (hop (-(t : ℂ) • T) I J).re := by
    intro I J hIJ
    rw [hop_smul, Matrix.smul_apply, smul_eq_mul, ← Complex.ofReal_neg, Complex.re_ofReal_mul]
    have := hT.off hIJ
    nlinarith
  have := exp_pos_mul (k := Unit) hreal hoff (B := Matrix.of fun (J : Ordered m k) (_ : Unit) => c * minor φ J.1) (fun J _ => h J) I ()
  have e : c * (NormedSpace.exp (hop (-(t : ℂ) • T)) *ᵥ fun J : Ordered m k => minor φ J.1) I =
      (NormedSpace.exp (hop (-(t : ℂ) • T)) *ᵥ (c • fun J : Ordered m k => minor φ J.1)) I := by
    rw [Matrix.mulVec_smul]
    rfl
  rw [e]
  exact this

theorem PosMin.diagonal {d : Fin m → ℂ} (hd : ∀ i, IsPos (d i)) {c : ℂ} {φ : Matrix (Fin m) (Fin k) ℂ} (h : PosMin c φ) :
    PosMin c (Matrix.diagonal d * φ) := by
  intro I
  rw [minor_diagonal, mul_left_comm]
  refine IsPos.mul ?_ (h I)
  refine ⟨∏ a, (d (I.1 a)).re, prod_pos fun a _ => (hd _).re, ?_⟩
  push_cast
  refine prod_congr rfl fun a _ => ?_
  obtain ⟨r, _, e⟩ := hd (I.1 a)
  rw [e, Complex.ofReal_re]

/-- A change of the orbitals by a matrix with a positive determinant. -/
theorem PosMin.mix {X : Matrix (Fin k) (Fin k) ℂ} (hX : IsPos X.det) {c : ℂ} {φ φ' : Matrix (Fin m) (Fin k) ℂ} (e : φ = φ' * X)
    (h : PosMin c φ) : PosMin c φ' := by
  intro I
  have e1 : minor φ I.1 = minor φ' I.1 * X.det := by
    rw [minor, minor, ← Matrix.det_mul, e]
    rfl
  have := (h I).div hX
  rwa [e1, ← mul_assoc, mul_div_cancel_right₀ _ hX.ne] at this

theorem PosMin.overlap (hk : k ≤ m) {c : ℂ} {ψ φ : Matrix (Fin m) (Fin k) ℂ} (hψ : PosMin c ψ) (hφ : PosMin c φ) :
    IsPos (ψᴴ * φ).det := by
  have hc : c ≠ 0 := left_ne_zero_of_mul (hψ ⟨Fin.castLE hk, Fin.strictMono_castLE hk⟩).ne
  have hcc : IsPos (star c * c) := by
    refine ⟨‖c‖ ^ 2, pow_pos (norm_pos_iff.2 hc) 2, ?_⟩
    rw [Complex.star_def, Complex.conj_mul']
    push_cast
    rfl
  rw [det_overlap]
  refine IsPos.sum ⟨⟨Fin.castLE hk, Fin.strictMono_castLE hk⟩, mem_univ _⟩ fun J _ => ?_
  have := ((hψ J).mul (hφ J)).div hcc
  rw [← (hψ J).star, star_mul'] at this
  have e : star c * star (minor ψ J.1) * (c * minor φ J.1) / (star c * c) = star (minor ψ J.1) * minor φ J.1 := by
    have hc' : star c ≠ 0 := star_ne_zero.2 hc
    field_simp
  rwa [e] at this

end Verif.Fields
