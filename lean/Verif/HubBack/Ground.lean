import Verif.HubBack.Window
import Verif.Fields.Perron

/-!
# Density matrices of the ground state: C127
-/

namespace Verif.HubBack

open Matrix Finset Filter Topology
open Verif.Slater
open Verif.Hirsch
open Verif.HubRun (Cone Valid par stepOf steps shifts Kept meanRun SignFree)
open Verif.Step (Hub spin tens Anti Sym prodState orbs slater ovl2 spinOp hubOp)
open Verif.Fields (rowStep rows Linked Hops Ground PosMin Two sector ext2 conf amps hop)
open Verif.BackProp (greens Measures mulBoth)

variable {nb nu nd : Nat}

/-! ## The lowest state of a connected matrix without positive entries off the diagonal -/

open scoped ComplexOrder in
/-- The lowest state is unique, has no nodes, and imaginary time projects onto it. -/
theorem ground_projector {κ : Type} [Fintype κ] [DecidableEq κ] [Nonempty κ] {H : Matrix κ κ ℂ} (hH : H.IsHermitian)
    (hr : ∀ i j, (H i j).im = 0) (ho : ∀ i j, i ≠ j → (H i j).re ≤ 0) (hc : ∀ i j, Relation.ReflTransGen (Linked H) i j) :
    ∃ (E0 : ℝ) (g : κ → ℂ), (∀ i, IsPos (g i)) ∧ H *ᵥ g = (E0 : ℂ) • g ∧ star g ⬝ᵥ g = 1 ∧
      (∀ (E : ℝ) (x : κ → ℂ), x ≠ 0 → H *ᵥ x = (E : ℂ) • x → E0 ≤ E) ∧
      (∀ x : κ → ℂ, H *ᵥ x = (E0 : ℂ) • x → ∃ c : ℂ, x = c • g) ∧
      Tendsto (fun β : ℝ => Complex.exp (β * E0) • NormedSpace.exp (-(β : ℂ) • H)) atTop (𝓝 (vecMulVec g (star g))) := by
  set V : Matrix κ κ ℂ := (hH.eigenvectorUnitary : Matrix κ κ ℂ) with hVd
  have hV : Vᴴ * V = 1 := Matrix.mem_unitaryGroup_iff'.1 hH.eigenvectorUnitary.2
  have hV' : V * Vᴴ = 1 := mul_eq_one_comm.1 hV
  set e : κ → ℝ := hH.eigenvalues with he
  set col : κ → κ → ℂ := fun j i => V i j with hcol
  have hcE : ∀ j, H *ᵥ col j = (e j : ℂ) • col j := by
    intro j
    have h1 : col j = (hH.eigenvectorBasis j).ofLp := by
      funext i
      rw [hcol, hVd]
      exact hH.eigenvectorUnitary_apply i j
    rw [h1, hH.mulVec_eigenvectorBasis j]
    funext i
    simp [he]
  have hHV : H * V = V * diagonal fun j => (e j : ℂ) := by
    ext i j
    have := congrFun (hcE j) i
    rw [Matrix.mul_diagonal, mul_comm]
    exact this
  have hort : ∀ i j, star (col i) ⬝ᵥ col j = if i = j then 1 else 0 := by
    intro i j
    have := congrFun (congrFun hV i) j
    rw [Matrix.one_apply] at this
    exact this
  obtain ⟨j0, -, hj0⟩ := exists_min_image (univ : Finset κ) e univ_nonempty
  set E0 := e j0 with hE0
  have hEq : H = V * (diagonal fun j => (e j : ℂ)) * Vᴴ := by rw [← hHV, Matrix.mul_assoc, hV', Matrix.mul_one]
  have hE : ∀ x : κ → ℂ, 0 ≤ star x ⬝ᵥ ((H - (E0 : ℂ) • (1 : Matrix κ κ ℂ)) *ᵥ x) := by
    intro x
    have e1 : H - (E0 : ℂ) • (1 : Matrix κ κ ℂ) = V * (diagonal fun j => ((e j - E0 : ℝ) : ℂ)) * Vᴴ := by
      have : (diagonal fun j => ((e j - E0 : ℝ) : ℂ)) = (diagonal fun j => (e j : ℂ)) - (E0 : ℂ) • (1 : Matrix κ κ ℂ) := by
        rw [← Matrix.diagonal_one, ← Matrix.diagonal_smul, Matrix.diagonal_sub]
        simp
      rw [this, Matrix.mul_sub, Matrix.sub_mul, ← hEq, Matrix.mul_smul, Matrix.mul_one, Matrix.smul_mul, hV']
    set y := Vᴴ *ᵥ x with hy
    have e2 : star x ⬝ᵥ ((V * (diagonal fun j => ((e j - E0 : ℝ) : ℂ)) * Vᴴ) *ᵥ x) = star y ⬝ᵥ ((diagonal fun j => ((e j - E0 : ℝ) : ℂ)) *ᵥ y) := by
      rw [hy, ← Matrix.mulVec_mulVec, ← Matrix.mulVec_mulVec, star_mulVec, conjTranspose_conjTranspose, ← Matrix.dotProduct_mulVec]
    rw [e1, e2, dotProduct]
    refine sum_nonneg fun j _ => ?_
    rw [Matrix.mulVec_diagonal]
    have : star y j * (((e j - E0 : ℝ) : ℂ) * y j) = ((e j - E0 : ℝ) : ℂ) * ((‖y j‖ ^ 2 : ℝ) : ℂ) := by
      rw [← Complex.normSq_eq_norm_sq, ← Complex.mul_conj, Pi.star_apply, Complex.star_def]
      ring
    rw [this, ← Complex.ofReal_mul]
    exact_mod_cast mul_nonneg (sub_nonneg.2 (hj0 j (mem_univ j))) (sq_nonneg _)
  obtain ⟨i0, hi0⟩ : ∃ i0, col j0 i0 ≠ 0 := by
    by_contra hcon
    push Not at hcon
    have := hort j0 j0
    rw [if_pos rfl, show col j0 = 0 from funext hcon, dotProduct_zero] at this
    exact zero_ne_one this
  have hpos := Fields.perron hH hr ho hc hE (hcE j0) i0 hi0
  have hn0 : (0 : ℝ) < ‖col j0 i0‖ := norm_pos_iff.2 hi0
  set ph : ℂ := star (col j0 i0) / (‖col j0 i0‖ : ℝ) with hph
  have hph1 : ph * star ph = 1 := by
    rw [hph, star_div₀, star_star, div_mul_div_comm, Complex.star_def, Complex.conj_ofReal, mul_comm (starRingEnd ℂ _),
      Complex.mul_conj, Complex.normSq_eq_norm_sq, sq, Complex.ofReal_mul, div_self]
    exact mul_ne_zero (Complex.ofReal_ne_zero.2 hn0.ne') (Complex.ofReal_ne_zero.2 hn0.ne')
  have hph0 : ph ≠ 0 := left_ne_zero_of_mul (by rw [hph1]; exact one_ne_zero)
  set g : κ → ℂ := ph • col j0 with hg
  have hgpos : ∀ i, IsPos (g i) := by
    intro i
    have := (hpos i).div (⟨_, hn0, rfl⟩ : IsPos ((‖col j0 i0‖ : ℝ) : ℂ))
    rw [hg, Pi.smul_apply, smul_eq_mul, hph, div_mul_eq_mul_div]
    exact this
  have hgE : H *ᵥ g = (E0 : ℂ) • g := by rw [hg, Matrix.mulVec_smul, hcE, smul_comm]
  have hgg : star g ⬝ᵥ g = 1 := by
    rw [hg, star_smul, smul_dotProduct, dotProduct_smul, hort, if_pos rfl, smul_eq_mul, smul_eq_mul, mul_one, mul_comm, hph1]
  have huniq : ∀ x : κ → ℂ, H *ᵥ x = (E0 : ℂ) • x → ∃ c : ℂ, x = c • g := by
    intro x hx
    refine ⟨x i0 / g i0, ?_⟩
    by_contra hne
    have hy : H *ᵥ (x - (x i0 / g i0) • g) = (E0 : ℂ) • (x - (x i0 / g i0) • g) := by
      rw [Matrix.mulVec_sub, Matrix.mulVec_smul, hx, hgE, smul_sub, smul_comm]
    obtain ⟨i1, hi1⟩ := Function.ne_iff.1 (sub_ne_zero.2 hne)
    have := Fields.perron hH hr ho hc hE hy i1 hi1 i0
    have h0 : (x - (x i0 / g i0) • g) i0 = 0 := by
      rw [Pi.sub_apply, Pi.smul_apply, smul_eq_mul, div_mul_cancel₀ _ (hgpos i0).ne, sub_self]
    rw [h0, mul_zero] at this
    exact this.ne rfl
  have hgap : ∀ j, j ≠ j0 → E0 < e j := by
    intro j hj
    refine lt_of_le_of_ne (hj0 j (mem_univ j)) fun heq => ?_
    obtain ⟨c, hcj⟩ := huniq (col j) (by rw [hcE, ← heq])
    have h1 := hort j j0
    rw [if_neg hj, hcj, hg, smul_smul, star_smul, smul_dotProduct, hort, if_pos rfl, smul_eq_mul, mul_one] at h1
    have h2 : c * ph = 0 := star_eq_zero.1 h1
    have h3 := hort j j
    rw [if_pos rfl, hcj, hg, smul_smul, h2, zero_smul, dotProduct_zero] at h3
    exact zero_ne_one h3
  refine ⟨E0, g, hgpos, hgE, hgg, fun E x hx hxE => ?_, huniq, ?_⟩
  · have h1 := hE x
    rw [Matrix.sub_mulVec, hxE, Matrix.smul_mulVec, Matrix.one_mulVec, ← sub_smul, dotProduct_smul, smul_eq_mul] at h1
    have h2 : star x ⬝ᵥ x = ((∑ i, ‖x i‖ ^ 2 : ℝ) : ℂ) := by
      rw [dotProduct]
      push_cast
      refine sum_congr rfl fun i _ => ?_
      rw [Pi.star_apply, Complex.star_def, Complex.conj_mul']
    have h3 : 0 < ∑ i, ‖x i‖ ^ 2 := by
      obtain ⟨i, hi⟩ := Function.ne_iff.1 hx
      exact lt_of_lt_of_le (pow_pos (norm_pos_iff.2 hi) 2) (single_le_sum (f := fun i => ‖x i‖ ^ 2) (fun i _ => sq_nonneg _) (mem_univ i))
    rw [h2, ← Complex.ofReal_sub, ← Complex.ofReal_mul] at h1
    have h4 : 0 ≤ (E - E0) * ∑ i, ‖x i‖ ^ 2 := by exact_mod_cast h1
    by_contra hcon
    push Not at hcon
    nlinarith
  · have hexp : ∀ β : ℝ, Complex.exp (β * E0) • NormedSpace.exp (-(β : ℂ) • H) =
        V * (diagonal fun j => Complex.exp (-β * (e j - E0))) * Vᴴ := by
      intro β
      have h1 : NormedSpace.exp (-(β : ℂ) • H) * V = V * NormedSpace.exp (diagonal fun j => -(β : ℂ) * e j) := by
        refine Fields.exp_intertwine ?_
        rw [Matrix.smul_mul, hHV, ← Matrix.mul_smul, ← Matrix.diagonal_smul]
        rfl
      have h2 : NormedSpace.exp (-(β : ℂ) • H) = V * NormedSpace.exp (diagonal fun j => -(β : ℂ) * e j) * Vᴴ := by
        rw [← h1, Matrix.mul_assoc, hV', Matrix.mul_one]
      rw [h2, Matrix.exp_diagonal, ← Matrix.smul_mul, ← Matrix.mul_smul, ← Matrix.diagonal_smul]
      congr 3
      funext j
      rw [Pi.smul_apply, Pi.coe_exp, smul_eq_mul, ← Complex.exp_eq_exp_ℂ, ← Complex.exp_add]
      congr 1
      ring
    have hterm : Tendsto (fun (β : ℝ) (j : κ) => Complex.exp (-β * (e j - E0))) atTop (𝓝 fun j => if j = j0 then (1 : ℂ) else 0) := by
      refine tendsto_pi_nhds.2 fun j => ?_
      by_cases hj : j = j0
      · subst hj
        simp [hE0]
      · rw [if_neg hj, tendsto_zero_iff_norm_tendsto_zero]
        have h1 : ∀ β : ℝ, ‖Complex.exp (-β * (e j - E0))‖ = Real.exp (-(β * (e j - E0))) := by
          intro β
          rw [Complex.norm_exp]
          congr 1
          simp
        simp only [h1]
        exact Real.tendsto_exp_neg_atTop_nhds_zero.comp (tendsto_id.atTop_mul_const (sub_pos.2 (hgap j hj)))
    have hcont : Continuous fun D : κ → ℂ => V * diagonal D * Vᴴ :=
      (continuous_const.matrix_mul continuous_id.matrix_diagonal).matrix_mul continuous_const
    have hlim := (hcont.tendsto _).comp hterm
    have hval : V * (diagonal fun j => if j = j0 then (1 : ℂ) else 0) * Vᴴ = vecMulVec g (star g) := by
      ext i k
      rw [Matrix.mul_apply, vecMulVec_apply, sum_eq_single j0]
      · rw [Matrix.mul_diagonal, if_pos rfl, mul_one, Matrix.conjTranspose_apply, hg, Pi.star_apply, Pi.smul_apply, Pi.smul_apply, smul_eq_mul,
          smul_eq_mul, star_mul', mul_mul_mul_comm, hph1, one_mul]
      · intro j _ hj
        rw [Matrix.mul_diagonal, if_neg hj, mul_zero, zero_mul]
      · intro h
        exact absurd (mem_univ _) h
    rw [← hval]
    exact hlim.congr fun β => (hexp β).symm

/-! ## Operators between ordered configurations -/

theorem ext2_apply (x : Two nb nu nd → ℂ) (K : Two nb nu nd) : (ext2 *ᵥ x) (conf K) = x K := by
  rw [Matrix.mulVec, dotProduct]
  simp [Fields.ext2_conf]

theorem sector_of {X : Matrix (Fin nu ⊕ Fin nd → Fin nb) (Fin nu ⊕ Fin nd → Fin nb) ℂ} {Y : Matrix (Two nb nu nd) (Two nb nu nd) ℂ}
    (h : X * ext2 = ext2 * Y) : sector X = Y := by
  ext K L
  have h3 := congrFun (congrFun h (conf K)) L
  have h4 : (ext2 * Y : Matrix _ (Two nb nu nd) ℂ) (conf K) L = Y K L := by
    rw [Matrix.mul_apply]
    simp [Fields.ext2_conf]
  rw [← h4, ← h3]
  rfl

theorem sector_mul {X Y : Matrix (Fin nu ⊕ Fin nd → Fin nb) (Fin nu ⊕ Fin nd → Fin nb) ℂ} (hX : Sym spin X) (hY : Sym spin Y) :
    sector (X * Y) = sector X * sector Y :=
  sector_of (by rw [Matrix.mul_assoc, Fields.mul_ext2 hY, ← Matrix.mul_assoc, Fields.mul_ext2 hX, Matrix.mul_assoc])

theorem sector_exp {X : Matrix (Fin nu ⊕ Fin nd → Fin nb) (Fin nu ⊕ Fin nd → Fin nb) ℂ} (hX : Sym spin X) (c : ℂ) :
    sector (NormedSpace.exp (c • X)) = NormedSpace.exp (c • sector X) :=
  sector_of (Fields.exp_intertwine (by rw [Matrix.smul_mul, Fields.mul_ext2 hX, Matrix.mul_smul]))

theorem ext2_anti_vec (x : Two nb nu nd → ℂ) : Anti spin (ext2 *ᵥ x : (Fin nu ⊕ Fin nd → Fin nb) → ℂ) := by
  intro a b hab hsp f
  rw [Matrix.mulVec, Matrix.mulVec, dotProduct, dotProduct, ← sum_neg_distrib]
  refine sum_congr rfl fun K _ => ?_
  have := Fields.ext2_anti K a b hab hsp f
  beta_reduce at this
  rw [this, neg_mul]

/-- Configurations of both spins are connected if those of each spin are. -/
theorem both_connected {T : Fin 2 → Matrix (Fin nb) (Fin nb) ℂ} (h0 : Hops (T 0) nu) (h1 : Hops (T 1) nd) (U : ℂ)
    (c0 : ∀ I J : Fields.Ordered nb nu, Relation.ReflTransGen (Linked (hop (T 0))) I J)
    (c1 : ∀ I J : Fields.Ordered nb nd, Relation.ReflTransGen (Linked (hop (T 1))) I J) (K L : Two nb nu nd) :
    Relation.ReflTransGen (Linked (sector (hubOp T U spin))) K L := by
  have a0 : ∀ (I J : Fields.Ordered nb nu) (M : Fields.Ordered nb nd), Linked (hop (T 0)) I J → Linked (sector (hubOp T U spin)) (I, M) (J, M) := by
    intro I J M h
    have hne : ((I, M) : Two nb nu nd) ≠ (J, M) := fun e => h.1 (congrArg Prod.fst e)
    refine ⟨hne, ?_⟩
    rw [Fields.sector_hub, if_neg hne, if_pos rfl, if_neg h.1, mul_zero, add_zero, zero_mul, add_zero, mul_one]
    exact h.2
  have a1 : ∀ (I J : Fields.Ordered nb nd) (M : Fields.Ordered nb nu), Linked (hop (T 1)) I J → Linked (sector (hubOp T U spin)) (M, I) (M, J) := by
    intro I J M h
    have hne : ((M, I) : Two nb nu nd) ≠ (M, J) := fun e => h.1 (congrArg Prod.snd e)
    refine ⟨hne, ?_⟩
    rw [Fields.sector_hub, if_neg hne, if_pos rfl, if_neg h.1, mul_zero, mul_zero, add_zero, zero_add, one_mul]
    exact h.2
  obtain ⟨K0, K1⟩ := K
  obtain ⟨L0, L1⟩ := L
  have s0 : Relation.ReflTransGen (Linked (sector (hubOp T U spin))) (K0, K1) (L0, K1) :=
    (c0 K0 L0).lift (fun I => ((I, K1) : Two nb nu nd)) fun I J h => a0 I J K1 h
  have s1 : Relation.ReflTransGen (Linked (sector (hubOp T U spin))) (L0, K1) (L0, L1) :=
    (c1 K1 L1).lift (fun I => ((L0, I) : Two nb nu nd)) fun I J h => a1 I J L0 h
  exact s0.trans s1

end Verif.HubBack
