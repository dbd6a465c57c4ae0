import Verif.Fields.Chain
import Verif.Uhf.Model
import Mathlib.Analysis.Matrix.Order
import Mathlib.Logic.Relation

/-!
# The lowest determinant has no nodes

If the hops of a Hermitian matrix have no positive sign and connect all ordered configurations, then the determinant of its lowest
eigenvectors has amplitudes of one common phase.  General lemmas, not a model of code.
-/

namespace Verif.Fields

open Matrix Finset
open Verif.Hirsch (IsPos)
open Verif.Step (allP)
open scoped ComplexOrder

/-- Two configurations between which the matrix has a negative entry. -/
def Linked {κ : Type} (H : Matrix κ κ ℂ) (i j : κ) : Prop := i ≠ j ∧ (H i j).re < 0

/-- The vector of lowest energy of a real symmetric matrix without positive entries off the diagonal, whose entries connect everything. -/
theorem perron {κ : Type} [Fintype κ] [DecidableEq κ] {H : Matrix κ κ ℂ} (hH : H.IsHermitian) (hr : ∀ i j, (H i j).im = 0)
    (ho : ∀ i j, i ≠ j → (H i j).re ≤ 0) (hc : ∀ i j, Relation.ReflTransGen (Linked H) i j) {E : ℝ}
    (hE : ∀ x : κ → ℂ, 0 ≤ star x ⬝ᵥ ((H - (E : ℂ) • (1 : Matrix κ κ ℂ)) *ᵥ x)) {v : κ → ℂ} (hv : H *ᵥ v = (E : ℂ) • v) (i0 : κ)
    (hi0 : v i0 ≠ 0) : ∀ j, IsPos (star (v i0) * v j) := by
  set A : Matrix κ κ ℂ := H - (E : ℂ) • (1 : Matrix κ κ ℂ) with hA
  have hAH : A.IsHermitian := by
    refine hH.sub ?_
    rw [Matrix.IsHermitian, conjTranspose_smul, conjTranspose_one, Complex.star_def, Complex.conj_ofReal]
  have hps : A.PosSemidef := PosSemidef.of_dotProduct_mulVec_nonneg hAH hE
  set u : κ → ℂ := fun i => ((‖v i‖ : ℝ) : ℂ) with hu
  have hAi : ∀ i j, (A i j).im = 0 := by
    intro i j
    simp only [hA, Matrix.sub_apply, Matrix.smul_apply, smul_eq_mul, Complex.sub_im, hr, Matrix.one_apply]
    split_ifs <;> simp
  have hAo : ∀ i j, i ≠ j → (A i j).re = (H i j).re := by
    intro i j hij
    simp [hA, Matrix.one_apply_ne hij]
  have hAv : A *ᵥ v = 0 := by
    rw [hA, Matrix.sub_mulVec, Matrix.smul_mulVec, Matrix.one_mulVec, hv, sub_self]
  have form : ∀ x : κ → ℂ, (star x ⬝ᵥ (A *ᵥ x)).re = ∑ i, ∑ j, (A i j).re * (star (x i) * x j).re := by
    intro x
    simp only [dotProduct, Matrix.mulVec, mul_sum, Complex.re_sum, Pi.star_apply]
    refine sum_congr rfl fun i _ => sum_congr rfl fun j _ => ?_
    have e : star (x i) * (A i j * x j) = A i j * (star (x i) * x j) := by ring
    rw [e, Complex.mul_re, hAi]
    ring
  have uu : ∀ i j, (star (u i) * u j).re = ‖v i‖ * ‖v j‖ := by
    intro i j
    simp only [hu, Complex.star_def, Complex.conj_ofReal, ← Complex.ofReal_mul, Complex.ofReal_re]
  have vv : ∀ i j, (star (v i) * v j).re ≤ ‖v i‖ * ‖v j‖ := by
    intro i j
    refine (Complex.re_le_norm _).trans ?_
    rw [norm_mul, norm_star]
  have term : ∀ i j, (A i j).re * (star (u i) * u j).re ≤ (A i j).re * (star (v i) * v j).re := by
    intro i j
    rw [uu]
    by_cases hij : i = j
    · subst hij
      refine le_of_eq ?_
      congr 1
      rw [Complex.star_def, mul_comm (starRingEnd ℂ (v i)), Complex.mul_conj, Complex.ofReal_re, Complex.normSq_eq_norm_sq, sq]
    · refine mul_le_mul_of_nonpos_left (vv i j) ?_
      rw [hAo i j hij]
      exact ho i j hij
  have hv0 : ∑ i, ∑ j, (A i j).re * (star (v i) * v j).re = 0 := by
    rw [← form, hAv, dotProduct_zero]
    rfl
  have hu0 : 0 ≤ ∑ i, ∑ j, (A i j).re * (star (u i) * u j).re := by
    rw [← form]
    exact (Complex.le_def.1 (hE u)).1
  have hle : ∀ i, ∑ j, (A i j).re * (star (u i) * u j).re ≤ ∑ j, (A i j).re * (star (v i) * v j).re :=
    fun i => sum_le_sum fun j _ => term i j
  have hsum : ∑ i, ∑ j, (A i j).re * (star (u i) * u j).re = ∑ i, ∑ j, (A i j).re * (star (v i) * v j).re :=
    le_antisymm (sum_le_sum fun i _ => hle i) (by rw [hv0]; exact hu0)
  have heq : ∀ i j, (A i j).re * (star (u i) * u j).re = (A i j).re * (star (v i) * v j).re := by
    intro i j
    have h1 := (sum_eq_sum_iff_of_le fun i _ => hle i).1 hsum i (mem_univ i)
    exact (sum_eq_sum_iff_of_le fun j _ => term i j).1 h1 j (mem_univ j)
  have hAu : A *ᵥ u = 0 := by
    rw [← hps.dotProduct_mulVec_zero_iff]
    refine Complex.ext ?_ ?_
    · rw [form, hsum, hv0]; rfl
    · exact ((Complex.le_def.1 (hE u)).2).symm
  -- zeros spread
  have zero : ∀ i j, Linked H i j → v i = 0 → v j = 0 := by
    intro i j hl hi
    have h1 := congrArg Complex.re (congrFun hAu i)
    rw [Matrix.mulVec, dotProduct, Complex.re_sum] at h1
    have h2 : ∀ l ∈ univ, (A i l * u l).re ≤ 0 := by
      intro l _
      have : (A i l * u l).re = (A i l).re * ‖v l‖ := by simp [hu]
      rw [this]
      by_cases hil : i = l
      · subst hil
        rw [hi]; simp
      · rw [hAo i l hil]
        exact mul_nonpos_of_nonpos_of_nonneg (ho i l hil) (norm_nonneg _)
    have h3 := (sum_eq_zero_iff_of_nonpos h2).1 h1 j (mem_univ j)
    have h4 : (A i j * u j).re = (A i j).re * ‖v j‖ := by simp [hu]
    rw [h4, hAo i j hl.1] at h3
    rcases mul_eq_zero.1 h3 with h | h
    · exact absurd h hl.2.ne
    · exact norm_eq_zero.1 h
  have nz : ∀ i, v i ≠ 0 := by
    intro i hi
    have spread : ∀ j, Relation.ReflTransGen (Linked H) i j → v j = 0 := by
      intro j hj
      induction hj with
      | refl => exact hi
      | tail _ h ih => exact zero _ _ h ih
    exact hi0 (spread i0 (hc i i0))
  have step : ∀ i j, Linked H i j → IsPos (star (v i) * v j) := by
    intro i j hl
    have h1 := heq i j
    rw [uu] at h1
    have hn : (A i j).re ≠ 0 := by rw [hAo i j hl.1]; exact hl.2.ne
    have h2 := mul_left_cancel₀ hn h1
    refine ⟨‖v i‖ * ‖v j‖, mul_pos (norm_pos_iff.2 (nz i)) (norm_pos_iff.2 (nz j)), ?_⟩
    have h3 : ‖star (v i) * v j‖ = ‖v i‖ * ‖v j‖ := by rw [norm_mul, norm_star]
    have h4 : (star (v i) * v j).re = ‖star (v i) * v j‖ := by rw [h3, h2]
    have h5 := Complex.re_eq_norm.1 h4
    refine Complex.ext ?_ ?_
    · rw [Complex.ofReal_re, h2]
    · rw [Complex.ofReal_im]
      exact ((Complex.le_def.1 h5).2).symm
  intro j
  have := hc i0 j
  induction this with
  | refl =>
    refine ⟨‖v i0‖ ^ 2, pow_pos (norm_pos_iff.2 hi0) 2, ?_⟩
    rw [Complex.star_def, mul_comm, Complex.mul_conj, Complex.normSq_eq_norm_sq]
  | @tail b d _ h ih =>
    have h1 := ih.mul (step b d h)
    have h2 : IsPos (star (v b) * v b) := by
      refine ⟨‖v b‖ ^ 2, pow_pos (norm_pos_iff.2 (nz b)) 2, ?_⟩
      rw [Complex.star_def, mul_comm, Complex.mul_conj, Complex.normSq_eq_norm_sq]
    have h3 := h1.div h2
    have e : star (v i0) * v b * (star (v b) * v d) / (star (v b) * v b) = star (v i0) * v d := by
      rw [div_eq_iff h2.ne]
      ring
    rwa [e] at h3

variable {m k : Nat}

/-! ## Determinants of eigenvectors -/

/-- The amplitudes of a determinant of eigenvectors are an eigenvector of the hopping between configurations. -/
theorem hop_eigen {T : Matrix (Fin m) (Fin m) ℂ} {φ : Matrix (Fin m) (Fin k) ℂ} {e : Fin k → ℂ} (h : T * φ = φ * diagonal e) :
    (hop T : Matrix (Ordered m k) (Ordered m k) ℂ) *ᵥ (fun J => minor φ J.1) = (∑ a, e a) • fun J : Ordered m k => minor φ J.1 := by
  funext I
  have h1 : ((hop T : Matrix (Ordered m k) (Ordered m k) ℂ) *ᵥ fun J => minor φ J.1) I = (allP (fun _ => T) *ᵥ minor φ) I.1 := by
    rw [allP_mulVec, Matrix.mulVec, dotProduct]
    simp only [hop, Matrix.of_apply, sum_mul]
    rw [sum_comm]
    refine sum_congr rfl fun a _ => ?_
    rw [sum_comm]
    refine sum_congr rfl fun j _ => ?_
    rw [alt_expand (minor_alt φ) (Function.update I.1 a j), mul_sum]
    refine sum_congr rfl fun J _ => ?_
    ring
  have hm : ∀ f : Fin k → Fin m, minor φ f = ∑ σ : Equiv.Perm (Fin k), ((Equiv.Perm.sign σ : ℤ) : ℂ) * ∏ a, φ (f a) (σ a) := by
    intro f
    rw [minor, ← Matrix.det_transpose, Matrix.det_apply']
    rfl
  have hT : ∀ i b, ∑ j, T i j * φ j b = φ i b * e b := by
    intro i b
    have := congrFun (congrFun h i) b
    rw [Matrix.mul_apply, Matrix.mul_diagonal] at this
    exact this
  rw [h1, allP_mulVec, Pi.smul_apply, smul_eq_mul, hm I.1, mul_sum]
  simp only [hm, mul_sum]
  have : ∀ a j (σ : Equiv.Perm (Fin k)), T (I.1 a) j * (((Equiv.Perm.sign σ : ℤ) : ℂ) * ∏ b, φ (Function.update I.1 a j b) (σ b)) =
      ((Equiv.Perm.sign σ : ℤ) : ℂ) * (∏ b ∈ univ.erase a, φ (I.1 b) (σ b)) * (T (I.1 a) j * φ j (σ a)) := by
    intro a j σ
    rw [← mul_prod_erase univ (fun b => φ (Function.update I.1 a j b) (σ b)) (mem_univ a), Function.update_self]
    have e1 : ∏ b ∈ univ.erase a, φ (Function.update I.1 a j b) (σ b) = ∏ b ∈ univ.erase a, φ (I.1 b) (σ b) := by
      refine prod_congr rfl fun b hb => ?_
      rw [Function.update_of_ne (ne_of_mem_erase hb)]
    rw [e1]
    ring
  simp only [this]
  have e2 : ∀ a, ∑ j, ∑ σ : Equiv.Perm (Fin k), ((Equiv.Perm.sign σ : ℤ) : ℂ) * (∏ b ∈ univ.erase a, φ (I.1 b) (σ b)) * (T (I.1 a) j * φ j (σ a)) =
      ∑ σ : Equiv.Perm (Fin k), e (σ a) * (((Equiv.Perm.sign σ : ℤ) : ℂ) * ∏ b, φ (I.1 b) (σ b)) := by
    intro a
    rw [sum_comm]
    refine sum_congr rfl fun σ _ => ?_
    rw [← mul_sum, hT, ← mul_prod_erase univ (fun b => φ (I.1 b) (σ b)) (mem_univ a)]
    ring
  rw [sum_congr rfl fun a _ => e2 a, sum_comm]
  refine sum_congr rfl fun σ _ => ?_
  rw [← sum_mul, Equiv.sum_comp σ e]

theorem hop_herm {T : Matrix (Fin m) (Fin m) ℂ} (hT : T.IsHermitian) {V : Matrix (Fin m) (Fin m) ℂ} {e : Fin m → ℝ} (hV : Vᴴ * V = 1)
    (hd : T * V = V * diagonal fun a => (e a : ℂ)) (hmono : Monotone e) (hk : k ≤ m) :
    (hop T : Matrix (Ordered m k) (Ordered m k) ℂ).IsHermitian ∧ ∀ x : Ordered m k → ℂ,
      0 ≤ star x ⬝ᵥ ((hop T - ((∑ a : Fin k, e (Fin.castLE hk a) : ℝ) : ℂ) • (1 : Matrix (Ordered m k) (Ordered m k) ℂ)) *ᵥ x) := by
  set C : Matrix (Ordered m k) (Ordered m k) ℂ := Matrix.of fun I J => minor (V.submatrix id J.1) I.1 with hC
  set D : Ordered m k → ℂ := fun J => ((∑ a, e (J.1 a) : ℝ) : ℂ) with hD
  have hCC : Cᴴ * C = 1 := by
    ext J J'
    have h1 := det_overlap (V.submatrix id J.1) (V.submatrix id J'.1)
    rw [Matrix.mul_apply]
    simp only [hC, Matrix.conjTranspose_apply, Matrix.of_apply]
    have h2 : (V.submatrix id J.1)ᴴ * V.submatrix id J'.1 = (1 : Matrix (Fin m) (Fin m) ℂ).submatrix J.1 J'.1 := by
      rw [← hV]
      ext a b
      rfl
    rw [← h1, h2, Matrix.det_apply']
    have h3 : ∑ σ : Equiv.Perm (Fin k), ((Equiv.Perm.sign σ : ℤ) : ℂ) * ∏ i, (1 : Matrix (Fin m) (Fin m) ℂ).submatrix J.1 J'.1 (σ i) i = sgn J'.1 J := by
      rw [sgn]
      refine sum_congr rfl fun σ _ => ?_
      simp only [Matrix.submatrix_apply, Matrix.one_apply]
      rw [prod_ite_zero]
      by_cases h : J'.1 = J.1 ∘ σ
      · have h' : ∀ i ∈ univ, J.1 (σ i) = J'.1 i := fun i _ => (congrFun h i).symm
        rw [if_pos h, if_pos h', prod_const_one, mul_one]
      · rw [if_neg h, if_neg (fun h' => h (funext fun i => (h' i (mem_univ i)).symm)), mul_zero]
    rw [h3, sgn_ordered, Matrix.one_apply]
    simp only [eq_comm]
  have hHC : hop T * C = C * diagonal D := by
    ext I J
    have h1 : T * V.submatrix id J.1 = V.submatrix id J.1 * diagonal fun a => (e (J.1 a) : ℂ) := by
      ext i a
      have := congrFun (congrFun hd i) (J.1 a)
      rw [Matrix.mul_diagonal] at this
      rw [Matrix.mul_diagonal]
      exact this
    have h2 := congrFun (hop_eigen h1) I
    rw [Matrix.mul_diagonal]
    rw [Pi.smul_apply, smul_eq_mul] at h2
    simp only [hD]
    push_cast
    rw [mul_comm]
    exact h2
  have hCC' : C * Cᴴ = 1 := mul_eq_one_comm.1 hCC
  have hH : hop T = C * diagonal D * Cᴴ := by
    rw [← hHC, Matrix.mul_assoc, hCC', Matrix.mul_one]
  refine ⟨?_, fun x => ?_⟩
  · rw [Matrix.IsHermitian, hH, conjTranspose_mul, conjTranspose_mul, conjTranspose_conjTranspose, diagonal_conjTranspose, Matrix.mul_assoc]
    have : star D = D := by
      funext J
      exact Complex.conj_ofReal _
    rw [this]
  · set s : ℂ := ((∑ a : Fin k, e (Fin.castLE hk a) : ℝ) : ℂ) with hs
    have e1 : hop T - s • (1 : Matrix (Ordered m k) (Ordered m k) ℂ) = C * diagonal (fun J => D J - s) * Cᴴ := by
      have : (diagonal fun J => D J - s) = diagonal D - s • (1 : Matrix (Ordered m k) (Ordered m k) ℂ) := by
        rw [← Matrix.diagonal_one, ← Matrix.diagonal_smul, Matrix.diagonal_sub]
        simp
      rw [this, Matrix.mul_sub, Matrix.sub_mul, ← hH, Matrix.mul_smul, Matrix.mul_one, Matrix.smul_mul, hCC']
    set y := Cᴴ *ᵥ x with hy
    have e2 : star x ⬝ᵥ ((C * diagonal (fun J => D J - s) * Cᴴ) *ᵥ x) = star y ⬝ᵥ (diagonal (fun J => D J - s) *ᵥ y) := by
      rw [hy, ← Matrix.mulVec_mulVec, ← Matrix.mulVec_mulVec, star_mulVec, conjTranspose_conjTranspose, ← Matrix.dotProduct_mulVec]
    rw [e1, e2, dotProduct]
    refine sum_nonneg fun J _ => ?_
    rw [Matrix.mulVec_diagonal]
    have hle : ∑ a : Fin k, e (Fin.castLE hk a) ≤ ∑ a, e (J.1 a) := by
      refine sum_le_sum fun a _ => hmono ?_
      rw [Fin.le_def]
      have : ∀ n (hn : n < k), n ≤ (J.1 ⟨n, hn⟩).val := by
        intro n
        induction n with
        | zero => intro _; exact Nat.zero_le _
        | succ n ih =>
          intro hn
          have h1 := ih (by omega)
          have h2 : J.1 ⟨n, by omega⟩ < J.1 ⟨n + 1, hn⟩ := J.2 (by rw [Fin.lt_def]; simp)
          rw [Fin.lt_def] at h2
          omega
      exact this a a.isLt
    have : star y J * ((D J - s) * y J) = (((∑ a, e (J.1 a)) - ∑ a : Fin k, e (Fin.castLE hk a) : ℝ) : ℂ) * ((‖y J‖ ^ 2 : ℝ) : ℂ) := by
      rw [← Complex.normSq_eq_norm_sq, ← Complex.mul_conj, Pi.star_apply, Complex.star_def]
      simp only [hD, hs]
      push_cast
      ring
    rw [this, ← Complex.ofReal_mul]
    exact_mod_cast mul_nonneg (sub_nonneg.2 hle) (sq_nonneg _)

/-- The determinant of the lowest eigenvectors. -/
theorem lowest_pos {T : Matrix (Fin m) (Fin m) ℂ} (hT : T.IsHermitian) (hops : Hops T k)
    (hc : ∀ I J : Ordered m k, Relation.ReflTransGen (Linked (hop T)) I J) {eig : Uhf.Eig m} (he : Uhf.Eigh eig) (hk : k ≤ m) :
    ∃ c, PosMin c (Uhf.cols hk (eig T).2) := by
  obtain ⟨hmono, hV, hd⟩ := he T hT
  obtain ⟨hH, hE⟩ := hop_herm (k := k) hT hV hd hmono hk
  have h1 : T * Uhf.cols hk (eig T).2 = Uhf.cols hk (eig T).2 * diagonal fun a => ((eig T).1 (Fin.castLE hk a) : ℂ) := by
    ext i a
    have := congrFun (congrFun hd i) (Fin.castLE hk a)
    rw [Matrix.mul_diagonal] at this
    rw [Matrix.mul_diagonal]
    exact this
  have hv := hop_eigen h1
  have hex : ∃ I : Ordered m k, minor (Uhf.cols hk (eig T).2) I.1 ≠ 0 := by
    by_contra hcon
    push Not at hcon
    have h2 := det_overlap (Uhf.cols hk (eig T).2) (Uhf.cols hk (eig T).2)
    have h3 : (Uhf.cols hk (eig T).2)ᴴ * Uhf.cols hk (eig T).2 = 1 := by
      ext a b
      have := congrFun (congrFun hV (Fin.castLE hk a)) (Fin.castLE hk b)
      rw [Matrix.mul_apply] at this ⊢
      refine this.trans ?_
      simp [Matrix.one_apply, Fin.ext_iff]
    rw [h3, Matrix.det_one, sum_eq_zero fun J _ => by rw [hcon J, mul_zero]] at h2
    exact one_ne_zero h2
  obtain ⟨I, hI⟩ := hex
  have hv' : (hop T : Matrix (Ordered m k) (Ordered m k) ℂ) *ᵥ (fun J => minor (Uhf.cols hk (eig T).2) J.1) =
      ((∑ a : Fin k, (eig T).1 (Fin.castLE hk a) : ℝ) : ℂ) • fun J : Ordered m k => minor (Uhf.cols hk (eig T).2) J.1 := by
    rw [hv]; push_cast; rfl
  exact ⟨_, perron hH hops.real (fun i j h => hops.off h) hc hE hv' I hI⟩

/-! ## Connected configurations -/

/-- A hop that keeps the order. -/
theorem linked_of_hop {T : Matrix (Fin m) (Fin m) ℂ} (hops : Hops T k) {I J : Ordered m k} {a : Fin k} {j : Fin m}
    (e : J.1 = Function.update I.1 a j) (hj : j ≠ I.1 a) (ht : (T (I.1 a) j).re < 0) : Linked (hop T) I J := by
  have hne : I ≠ J := by
    rintro rfl
    have := congrFun e a
    rw [Function.update_self] at this
    exact hj this.symm
  refine ⟨hne, ?_⟩
  have hs : sgn (Function.update I.1 a j) J = 1 := by rw [← e, sgn_ordered, if_pos rfl]
  have term : ∀ b l, (T (I.1 b) l * sgn (Function.update I.1 b l) J).re ≤ 0 := by
    intro b l
    by_cases hex : ∃ σ : Equiv.Perm (Fin k), Function.update I.1 b l = J.1 ∘ σ
    · obtain ⟨σ, e⟩ := hex
      by_cases hl : l = I.1 b
      · exfalso
        rw [hl, Function.update_eq_self] at e
        exact hne (Subtype.ext (ordered_unique (σ := 1) I.2 J.2 (by simpa using e)).1)
      · have := hops.2 I J b l σ hl e
        rw [sgn_eq e, ← Complex.ofReal_intCast, Complex.re_mul_ofReal, mul_comm]
        exact this
    · push Not at hex
      rw [sgn_zero hex, mul_zero]
      rfl
  rw [hop, Matrix.of_apply, Complex.re_sum]
  refine sum_neg' (fun b _ => ?_) ⟨a, mem_univ a, ?_⟩
  · rw [Complex.re_sum]
    exact sum_nonpos fun l _ => term b l
  · rw [Complex.re_sum]
    refine sum_neg' (fun l _ => term a l) ⟨j, mem_univ j, ?_⟩
    rw [hs, mul_one]
    exact ht

theorem linked_symm {κ : Type} {H : Matrix κ κ ℂ} (hH : H.IsHermitian) {i j : κ} (h : Linked H i j) : Linked H j i := by
  refine ⟨h.1.symm, ?_⟩
  rw [← hH.apply]
  exact h.2

theorem path_symm {κ : Type} {H : Matrix κ κ ℂ} (hH : H.IsHermitian) {i j : κ} (h : Relation.ReflTransGen (Linked H) i j) :
    Relation.ReflTransGen (Linked H) j i := by
  induction h with
  | refl => exact .refl
  | tail _ h ih => exact .head (linked_symm hH h) ih

/-- On a chain every configuration is reached: all electrons can be moved to the left. -/
theorem chain_connected {T : Matrix (Fin m) (Fin m) ℂ} (hops : Hops T k) (hH : (hop T : Matrix (Ordered m k) (Ordered m k) ℂ).IsHermitian)
    (hn : ∀ i j : Fin m, j.val + 1 = i.val → (T i j).re < 0) (I J : Ordered m k) : Relation.ReflTransGen (Linked (hop T)) I J := by
  have key : ∀ (n : Nat) (I : Ordered m k), ∑ a, (I.1 a).val = n → ∃ L : Ordered m k, (∀ a, (L.1 a).val = a.val) ∧
      Relation.ReflTransGen (Linked (hop T)) I L := by
    intro n
    induction n using Nat.strong_induction_on with
    | _ n ih =>
      intro I hI
      by_cases hall : ∀ a, (I.1 a).val = a.val
      · exact ⟨I, hall, .refl⟩
      · push Not at hall
        -- the first electron that can move
        obtain ⟨a, ha, hmin⟩ := exists_min_image (univ.filter fun a : Fin k => (I.1 a).val ≠ a.val) id
          (by obtain ⟨a, ha⟩ := hall; exact ⟨a, mem_filter.2 ⟨mem_univ a, ha⟩⟩)
        have ha' := (mem_filter.1 ha).2
        have hlow : ∀ b : Fin k, b < a → (I.1 b).val = b.val := by
          intro b hb
          by_contra hcon
          exact absurd (hmin b (mem_filter.2 ⟨mem_univ b, hcon⟩)) (not_le.2 hb)
        have hge : a.val < (I.1 a).val := by
          have : ∀ n (hn : n < k), n ≤ (I.1 ⟨n, hn⟩).val := by
            intro n
            induction n with
            | zero => intro _; exact Nat.zero_le _
            | succ n ih =>
              intro hn
              have h1 := ih (by omega)
              have h2 : I.1 ⟨n, by omega⟩ < I.1 ⟨n + 1, hn⟩ := I.2 (by rw [Fin.lt_def]; simp)
              rw [Fin.lt_def] at h2
              omega
          have := this a a.isLt
          simp only [Fin.eta] at this
          omega
        set j : Fin m := ⟨(I.1 a).val - 1, by have := (I.1 a).isLt; omega⟩ with hj
        have hj1 : j.val + 1 = (I.1 a).val := by simp only [hj]; omega
        have hinj : Function.Injective (Function.update I.1 a j) := by
          have hne : ∀ b, b ≠ a → I.1 b ≠ j := by
            intro b hb e
            have e' := congrArg Fin.val e
            rcases lt_or_gt_of_ne hb with h | h
            · rw [hlow b h] at e'
              rw [Fin.lt_def] at h
              omega
            · have := I.2 h
              rw [Fin.lt_def] at this
              omega
          intro b c h
          by_cases hb : b = a
          · by_cases hc : c = a
            · rw [hb, hc]
            · rw [hb, Function.update_self, Function.update_of_ne hc] at h
              exact absurd h.symm (hne c hc)
          · by_cases hc : c = a
            · rw [hc, Function.update_self, Function.update_of_ne hb] at h
              exact absurd h (hne b hb)
            · rw [Function.update_of_ne hb, Function.update_of_ne hc] at h
              exact I.2.injective h
        set I' : Ordered m k := ⟨Function.update I.1 a j, hop_mono I.2 (Or.inr hj1) hinj⟩ with hI'
        have hl : Linked (hop T) I I' := linked_of_hop hops (a := a) (j := j) rfl (fun e => by rw [← e] at hj1; omega) (hn _ _ hj1)
        have hlt : ∑ b, (I'.1 b).val < n := by
          rw [← hI]
          refine sum_lt_sum (fun b _ => ?_) ⟨a, mem_univ a, ?_⟩
          · by_cases hb : b = a
            · rw [hb]
              simp only [hI', Function.update_self]
              omega
            · simp only [hI', Function.update_of_ne hb]
              exact le_rfl
          · simp only [hI', Function.update_self]
            omega
        obtain ⟨L, hL, hp⟩ := ih _ hlt I' rfl
        exact ⟨L, hL, .head hl hp⟩
  obtain ⟨L, hL, hp⟩ := key _ I rfl
  obtain ⟨L', hL', hp'⟩ := key _ J rfl
  have : L = L' := Subtype.ext (funext fun a => Fin.ext ((hL a).trans (hL' a).symm))
  subst this
  exact hp.trans (path_symm hH hp')

/-- On a chain: any number of electrons the hops of which keep their order, in any real potential. -/
theorem lowest_chain {T : Matrix (Fin m) (Fin m) ℂ} (hT : T.IsHermitian) (hops : Hops T k) (hn : ∀ i j : Fin m, j.val + 1 = i.val → (T i j).re < 0)
    {eig : Uhf.Eig m} (he : Uhf.Eigh eig) (hk : k ≤ m) : ∃ c, PosMin c (Uhf.cols hk (eig T).2) := by
  obtain ⟨hmono, hV, hd⟩ := he T hT
  exact lowest_pos hT hops (chain_connected hops (hop_herm (k := k) hT hV hd hmono hk).1 hn) he hk

/-- A real potential does not change the hops. -/
theorem Hops.potential {T : Matrix (Fin m) (Fin m) ℂ} (h : Hops T k) (d : Fin m → ℝ) : Hops (T + diagonal fun i => (d i : ℂ)) k := by
  refine ⟨fun i j => ?_, fun I J a j σ hj e => ?_⟩
  · rw [Matrix.add_apply, Complex.add_im, h.1, Matrix.diagonal_apply]
    split_ifs <;> simp
  · rw [Matrix.add_apply, Matrix.diagonal_apply_ne _ hj.symm, add_zero]
    exact h.2 I J a j σ hj e

end Verif.Fields
