import Verif.Grand.Thermo

/-!
# Products of exponentials

Exponentials of one-body operators are product operators; `(exp(-t A) exp(-t B))^N` converges to `exp(-β (A + B))` like
`1/N`; the Hubbard interaction is diagonal in the positions of the electrons.  Nothing here refers to the model of the
code.
-/

namespace Verif.Grand

open Matrix Finset
open Verif.Step (tens spin onP allP spinOp Sym Anti site hubOp)

variable {ι : Type} [Fintype ι] [DecidableEq ι] {m nu nd : Nat}

/-! ## One-body operators -/

/-- A matrix acting on one electron, a homomorphism. -/
def onPHom (a : ι) : Matrix (Fin m) (Fin m) ℂ →ₐ[ℂ] Matrix (ι → Fin m) (ι → Fin m) ℂ :=
  AlgHom.ofLinearMap ⟨⟨onP a, Step.onP_add a⟩, fun r X => Step.onP_smul a r X⟩ (Step.onP_one a) fun X Y => (Step.onP_mul a X Y).symm

theorem onP_exp (a : ι) (X : Matrix (Fin m) (Fin m) ℂ) : onP a (NormedSpace.exp X) = NormedSpace.exp (onP a X) := by
  letI : NormedRing (Matrix (Fin m) (Fin m) ℂ) := Matrix.linftyOpNormedRing
  letI : NormedAlgebra ℂ (Matrix (Fin m) (Fin m) ℂ) := Matrix.linftyOpNormedAlgebra
  letI : NormedRing (Matrix (ι → Fin m) (ι → Fin m) ℂ) := Matrix.linftyOpNormedRing
  letI : NormedAlgebra ℂ (Matrix (ι → Fin m) (ι → Fin m) ℂ) := Matrix.linftyOpNormedAlgebra
  have hc : Continuous (onPHom a : Matrix (Fin m) (Fin m) ℂ →ₐ[ℂ] _) :=
    (onPHom a).toLinearMap.continuous_of_finiteDimensional
  exact NormedSpace.map_exp_of_mem_ball (𝕂 := ℂ) (onPHom a) hc X
    (by rw [NormedSpace.expSeries_radius_eq_top ℂ (Matrix (Fin m) (Fin m) ℂ)]; exact edist_lt_top _ _)

theorem onP_comm {a b : ι} (h : a ≠ b) (X Y : Matrix (Fin m) (Fin m) ℂ) : Commute (onP a X) (onP b Y) := by
  show onP a X * onP b Y = onP b Y * onP a X
  rw [onP, onP, Step.tens_mul, Step.tens_mul]
  congr 1
  funext c
  by_cases hc : c = a
  · subst hc
    rw [Function.update_of_ne h, Function.update_self, mul_one, one_mul]
  · rw [Function.update_of_ne hc, mul_one, one_mul]

theorem noncommProd_onP (Y : ι → Matrix (Fin m) (Fin m) ℂ) (S : Finset ι)
    (h : (S : Set ι).Pairwise (Function.onFun Commute fun a => onP a (Y a))) :
    S.noncommProd (fun a => onP a (Y a)) h = tens fun a => if a ∈ S then Y a else 1 := by
  induction S using Finset.induction_on with
  | empty => simp [Step.tens_one]
  | insert a S ha ih =>
    rw [Finset.noncommProd_insert_of_notMem _ _ _ _ ha, ih, onP, Step.tens_mul]
    congr 1
    funext c
    by_cases hc : c = a
    · subst hc
      simp [ha]
    · simp [Function.update_of_ne hc, hc]

/-- The exponential of a one-body operator acts on every electron by the exponential of its matrix. -/
theorem tens_exp (X : ι → Matrix (Fin m) (Fin m) ℂ) :
    tens (fun a => NormedSpace.exp (X a)) = NormedSpace.exp (allP X) := by
  rw [allP, Matrix.exp_sum_of_commute univ (fun a => onP a (X a)) fun a _ b _ h => onP_comm h _ _]
  have e : (fun a => NormedSpace.exp (onP a (X a))) = fun a => onP a (NormedSpace.exp (X a)) := by
    funext a
    rw [onP_exp]
  simp only [e]
  rw [noncommProd_onP]
  simp

theorem prodOp_exp (K : Fin 2 → Matrix (Fin m) (Fin m) ℂ) (σ : ι → Fin 2) (t : ℂ) :
    (tens fun a => NormedSpace.exp (t • K (σ a))) = NormedSpace.exp (t • spinOp σ K) := by
  rw [tens_exp, ← Step.spinOp_smul]
  rfl

theorem sym_tens (σ : ι → Fin 2) (C : Fin 2 → Matrix (Fin m) (Fin m) ℂ) : Sym σ (tens fun a => C (σ a)) := by
  intro a b h
  ext f g
  rw [Matrix.submatrix_apply, tens, Matrix.of_apply, Matrix.of_apply]
  refine Fintype.prod_equiv (Equiv.swap a b) _ _ fun d => ?_
  have hs : σ (Equiv.swap a b d) = σ d := by
    rcases eq_or_ne d a with rfl | h1
    · rw [Equiv.swap_apply_left, h]
    · rcases eq_or_ne d b with rfl | h2
      · rw [Equiv.swap_apply_right, h]
      · rw [Equiv.swap_apply_of_ne_of_ne h1 h2]
  have hf : ∀ f : ι → Fin m, Step.swapP a b f d = f (Equiv.swap a b d) := fun f => by
    simp [Step.swapP, Equiv.arrowCongr]
  rw [hf, hf, hs]

theorem sym_exp {σ : ι → Fin 2} {X : Matrix (ι → Fin m) (ι → Fin m) ℂ} (hX : Sym σ X) : Sym σ (NormedSpace.exp X) := by
  intro a b h
  letI : NormedRing (Matrix (ι → Fin m) (ι → Fin m) ℂ) := Matrix.linftyOpNormedRing
  letI : NormedAlgebra ℂ (Matrix (ι → Fin m) (ι → Fin m) ℂ) := Matrix.linftyOpNormedAlgebra
  let e := Matrix.reindexAlgEquiv ℂ ℂ (Step.swapP (m := m) a b).symm
  have hc : Continuous e := e.toLinearMap.continuous_of_finiteDimensional
  have h1 := NormedSpace.map_exp_of_mem_ball (𝕂 := ℂ) e hc X
    (by rw [NormedSpace.expSeries_radius_eq_top ℂ (Matrix (ι → Fin m) (ι → Fin m) ℂ)]; exact edist_lt_top _ _)
  have h2 : ∀ Y, e Y = Y.submatrix (Step.swapP a b) (Step.swapP a b) := fun Y => rfl
  rw [h2, h2, hX a b h] at h1
  exact h1

/-! ## Product formula -/

section Norm

attribute [local instance] Matrix.linftyOpNormedRing Matrix.linftyOpNormedAlgebra

variable {κ : Type} [Fintype κ] [DecidableEq κ]

theorem norm_exp_le' {𝔸 : Type*} [NormedRing 𝔸] [NormedAlgebra ℂ 𝔸] [CompleteSpace 𝔸] (h1 : ‖(1 : 𝔸)‖ ≤ 1) (Y : 𝔸) :
    ‖NormedSpace.exp Y‖ ≤ Real.exp ‖Y‖ := by
  have h := NormedSpace.exp_series_hasSum_exp' (𝕂 := ℂ) Y
  have hg : HasSum (fun n : ℕ => ‖Y‖ ^ n / n.factorial) (Real.exp ‖Y‖) := by
    rw [Real.exp_eq_exp_ℝ]
    exact NormedSpace.expSeries_div_hasSum_exp ‖Y‖
  rw [← h.tsum_eq]
  refine tsum_of_norm_bounded hg fun n => ?_
  rw [norm_smul, norm_inv, Complex.norm_natCast, div_eq_inv_mul]
  refine mul_le_mul_of_nonneg_left ?_ (by positivity)
  rcases Nat.eq_zero_or_pos n with rfl | hn
  · rw [pow_zero, pow_zero]
    exact h1
  · exact norm_pow_le' _ hn

theorem norm_exp_le (Y : Matrix κ κ ℂ) : ‖NormedSpace.exp Y‖ ≤ Real.exp ‖Y‖ := norm_exp_le' Step.norm_one_le_one Y

/-- The product formula with its rate. -/
theorem lie_product (A B : Matrix κ κ ℂ) {β : ℝ} (hβ : 0 ≤ β) : ∃ L : ℝ, ∀ N : Nat, 0 < N → ∀ i j,
    ‖((NormedSpace.exp (-((β / N : ℝ) : ℂ) • A) * NormedSpace.exp (-((β / N : ℝ) : ℂ) • B)) ^ N) i j -
      NormedSpace.exp (-(β : ℂ) • (A + B)) i j‖ ≤ L / N := by
  set a := ‖A‖
  set b := ‖B‖
  have ha : 0 ≤ a := norm_nonneg _
  have hb : 0 ≤ b := norm_nonneg _
  set c := a + b
  have hc : 0 ≤ c := by positivity
  set E : ℝ := 4 * c ^ 2 * Real.exp (2 * (β * c)) with hE
  refine ⟨Real.exp (c * β) * E * β ^ 2, fun N hN i j => ?_⟩
  have hN0 : (0 : ℝ) < N := by exact_mod_cast hN
  have hN1 : (1 : ℝ) ≤ N := by exact_mod_cast hN
  set t := β / N with ht
  have ht0 : 0 ≤ t := by positivity
  have htβ : t ≤ β := div_le_self hβ hN1
  have nrm : ∀ M : Matrix κ κ ℂ, ‖-(t : ℂ) • M‖ = t * ‖M‖ := fun M => by
    rw [norm_smul, norm_neg, Complex.norm_real, Real.norm_of_nonneg ht0]
  set X := NormedSpace.exp (-(t : ℂ) • A)
  set Y := NormedSpace.exp (-(t : ℂ) • B)
  set Z := NormedSpace.exp (-(t : ℂ) • (A + B))
  have hX : ‖X‖ ≤ Real.exp (t * a) := (norm_exp_le _).trans (by rw [nrm])
  have hY : ‖Y‖ ≤ Real.exp (t * b) := (norm_exp_le _).trans (by rw [nrm])
  have hAB : ‖A + B‖ ≤ c := norm_add_le _ _
  have hZ : ‖Z‖ ≤ Real.exp (c * t) := by
    refine (norm_exp_le _).trans (Real.exp_le_exp.2 ?_)
    rw [nrm, mul_comm c]
    exact mul_le_mul_of_nonneg_left hAB ht0
  have hXY : ‖X * Y‖ ≤ Real.exp (c * t) := by
    refine (norm_mul_le _ _).trans ((mul_le_mul hX hY (norm_nonneg _) (Real.exp_pos _).le).trans (le_of_eq ?_))
    rw [← Real.exp_add]
    congr 1
    ring
  have step : ∀ M : Matrix κ κ ℂ, ‖M‖ ≤ c → ‖NormedSpace.exp (-(t : ℂ) • M) - (1 + -(t : ℂ) • M)‖ ≤
      c ^ 2 * Real.exp (β * c) * t ^ 2 := by
    intro M hM
    refine (Step.norm_exp_sub_le _).trans ?_
    rw [nrm]
    have h1 : (t * ‖M‖) ^ 2 ≤ (t * c) ^ 2 := by
      have := mul_le_mul_of_nonneg_left hM ht0
      have h0 : 0 ≤ t * ‖M‖ := by positivity
      nlinarith
    have h2 : Real.exp (t * ‖M‖) ≤ Real.exp (β * c) :=
      Real.exp_le_exp.2 (mul_le_mul htβ hM (norm_nonneg _) hβ)
    calc (t * ‖M‖) ^ 2 * Real.exp (t * ‖M‖) ≤ (t * c) ^ 2 * Real.exp (β * c) :=
          mul_le_mul h1 h2 (Real.exp_pos _).le (by positivity)
      _ = _ := by ring
  have hac : a ≤ c := by simp only [c]; linarith
  have hbc : b ≤ c := by simp only [c]; linarith
  have hd : ‖X * Y - Z‖ ≤ E * t ^ 2 := by
    have e : X * Y - Z = (X - (1 + -(t : ℂ) • A)) * Y + (1 + -(t : ℂ) • A) * (Y - (1 + -(t : ℂ) • B)) +
        (-(t : ℂ) • A) * (-(t : ℂ) • B) - (Z - (1 + -(t : ℂ) • (A + B))) := by
      rw [smul_add]
      generalize -(t : ℂ) • A = A'
      generalize -(t : ℂ) • B = B'
      noncomm_ring
    have hY' : ‖Y‖ ≤ Real.exp (β * c) := hY.trans (Real.exp_le_exp.2 (mul_le_mul htβ hbc hb hβ))
    have h1A : ‖(1 : Matrix κ κ ℂ) + -(t : ℂ) • A‖ ≤ Real.exp (β * c) := by
      refine (norm_add_le _ _).trans ((add_le_add Step.norm_one_le_one (nrm A).le).trans ?_)
      have := Real.add_one_le_exp (β * c)
      have h2 : t * a ≤ β * c := mul_le_mul htβ hac ha hβ
      linarith
    have hge : 1 ≤ Real.exp (β * c) := Real.one_le_exp (by positivity)
    have p1 : ‖(X - (1 + -(t : ℂ) • A)) * Y‖ ≤ c ^ 2 * Real.exp (β * c) * t ^ 2 * Real.exp (β * c) :=
      (norm_mul_le _ _).trans (mul_le_mul (step A hac) hY' (norm_nonneg _) (by positivity))
    have p2 : ‖(1 + -(t : ℂ) • A) * (Y - (1 + -(t : ℂ) • B))‖ ≤ Real.exp (β * c) * (c ^ 2 * Real.exp (β * c) * t ^ 2) :=
      (norm_mul_le _ _).trans (mul_le_mul h1A (step B hbc) (norm_nonneg _) (by positivity))
    have p3 : ‖(-(t : ℂ) • A) * (-(t : ℂ) • B)‖ ≤ t * c * (t * c) := by
      refine (norm_mul_le _ _).trans ?_
      rw [nrm, nrm]
      exact mul_le_mul (mul_le_mul_of_nonneg_left hac ht0) (mul_le_mul_of_nonneg_left hbc ht0) (by positivity) (by positivity)
    have p4 := step (A + B) hAB
    rw [e]
    refine (norm_sub_le _ _).trans ((add_le_add ((norm_add_le _ _).trans (add_le_add ((norm_add_le _ _).trans
      (add_le_add p1 p2)) p3)) p4).trans ?_)
    rw [hE, two_mul, Real.exp_add]
    have hq : 0 ≤ c ^ 2 * t ^ 2 := by positivity
    have h5 : c ^ 2 * t ^ 2 ≤ c ^ 2 * t ^ 2 * (Real.exp (β * c) * Real.exp (β * c)) :=
      le_mul_of_one_le_right hq (by nlinarith)
    have h6 : c ^ 2 * t ^ 2 * Real.exp (β * c) ≤ c ^ 2 * t ^ 2 * (Real.exp (β * c) * Real.exp (β * c)) :=
      mul_le_mul_of_nonneg_left (by nlinarith) hq
    nlinarith
  have hr : (1 : ℝ) ≤ Real.exp (c * t) := Real.one_le_exp (by positivity)
  have hpow := Step.norm_pow_sub_pow_le (Step.norm_one_le_one (κ := κ)) hr hXY hZ N
  have hZN : Z ^ N = NormedSpace.exp (-(β : ℂ) • (A + B)) := by
    simp only [Z]
    rw [← Matrix.exp_nsmul, ← Nat.cast_smul_eq_nsmul ℂ, smul_smul]
    congr 2
    have hNc : (N : ℂ) ≠ 0 := by exact_mod_cast hN.ne'
    rw [ht]
    push_cast
    field_simp
  have hexp : Real.exp (c * t) ^ N = Real.exp (c * β) := by
    rw [← Real.exp_nat_mul, ht]
    congr 1
    field_simp
  rw [hZN, hexp] at hpow
  rw [← Matrix.sub_apply]
  refine (Step.entry_le_norm' _ i j).trans (hpow.trans ?_)
  calc (N : ℝ) * Real.exp (c * β) * ‖X * Y - Z‖ ≤ N * Real.exp (c * β) * (E * t ^ 2) :=
        mul_le_mul_of_nonneg_left hd (by positivity)
    _ = _ := by
      rw [ht]
      field_simp

end Norm

/-! ## Electrons on sites -/

/-- The number of electrons of spin `s` on site `i`. -/
def count (σ : ι → Fin 2) (f : ι → Fin m) (i : Fin m) (s : Fin 2) : Nat := #{a | σ a = s ∧ f a = i}

theorem count_le_one {σ : ι → Fin 2} {α : (ι → Fin m) → ℂ} (hα : Anti σ α) {f : ι → Fin m} (hf : α f ≠ 0) (i : Fin m)
    (s : Fin 2) : count σ f i s ≤ 1 := by
  rw [count, Finset.card_le_one]
  intro a ha b hb
  rw [mem_filter] at ha hb
  by_contra hab
  have h := hα a b hab (ha.2.1.trans hb.2.1.symm) f
  have e : Step.swapP a b f = f := by
    funext c
    show f (Equiv.swap a b c) = f c
    rcases eq_or_ne c a with rfl | h1
    · rw [Equiv.swap_apply_left, ha.2.2, hb.2.2]
    · rcases eq_or_ne c b with rfl | h2
      · rw [Equiv.swap_apply_right, ha.2.2, hb.2.2]
      · rw [Equiv.swap_apply_of_ne_of_ne h1 h2]
  rw [e] at h
  apply hf
  linear_combination h / 2

theorem count_sum (σ : ι → Fin 2) (f : ι → Fin m) : ∑ i, (count σ f i 0 + count σ f i 1) = Fintype.card ι := by
  have e : ∀ i, count σ f i 0 + count σ f i 1 = #{a | f a = i} := by
    intro i
    rw [count, count, ← card_union_of_disjoint]
    · congr 1
      ext a
      simp only [mem_union, mem_filter, mem_univ, true_and]
      rcases Fin.exists_fin_two.1 ⟨σ a, rfl⟩ with h | h <;> simp [← h]
    · rw [disjoint_left]
      intro a h1 h2
      rw [mem_filter] at h1 h2
      exact absurd (h1.2.1.symm.trans h2.2.1) (by decide)
  simp only [e]
  rw [← card_univ (α := ι), ← card_eq_sum_card_fiberwise fun a _ => mem_univ (f a)]

theorem prod_count {R : Type} [CommMonoid R] (σ : ι → Fin 2) (f : ι → Fin m) (u : Fin m → Fin 2 → R) :
    ∏ a, u (f a) (σ a) = ∏ i, (u i 0 ^ count σ f i 0 * u i 1 ^ count σ f i 1) := by
  rw [← prod_fiberwise univ (fun a => f a)]
  refine prod_congr rfl fun i _ => ?_
  rw [← prod_filter_mul_prod_filter_not _ (fun a => σ a = 0)]
  congr 1
  · rw [filter_filter, count, ← prod_const]
    refine prod_congr ?_ fun a ha => ?_
    · ext a; simp [and_comm]
    · rw [mem_filter] at ha
      rw [ha.2.1, ha.2.2]
  · rw [filter_filter, count, ← prod_const]
    have h1 : ∀ s : Fin 2, ¬ s = 0 ↔ s = 1 := by decide
    refine prod_congr ?_ fun a ha => ?_
    · ext a; simp [and_comm, h1]
    · rw [mem_filter] at ha
      rw [ha.2.1, ha.2.2]

theorem tens_diagonal (d : ι → Fin m → ℂ) : (tens fun a => diagonal (d a)) = diagonal fun f => ∏ a, d a (f a) := by
  ext f g
  rw [tens, Matrix.of_apply]
  by_cases h : f = g
  · subst h; simp
  · obtain ⟨a, ha⟩ := Function.ne_iff.1 h
    rw [diagonal_apply_ne _ h]
    exact prod_eq_zero (mem_univ a) (diagonal_apply_ne _ ha)

theorem onP_site (a : ι) (i : Fin m) : onP a (site i) = diagonal fun f => if f a = i then 1 else 0 := by
  have e : (Function.update (fun _ => 1) a (site i) : ι → Matrix (Fin m) (Fin m) ℂ) =
      fun b => diagonal fun j => if b = a ∧ j ≠ i then 0 else 1 := by
    funext b
    by_cases h : b = a
    · subst h
      rw [Function.update_self]
      ext j k
      by_cases hjk : j = k
      · subst hjk
        by_cases hi : j = i
        · simp [site, hi]
        · simp [site, hi, Matrix.single_apply_of_row_ne (Ne.symm hi)]
      · rw [diagonal_apply_ne _ hjk, site, Matrix.single_apply_of_ne]
        rintro ⟨rfl, rfl⟩
        exact hjk rfl
    · rw [Function.update_of_ne h]
      simp [h]
  rw [onP, e, tens_diagonal]
  congr 1
  funext f
  rw [prod_eq_single a]
  · by_cases h : f a = i <;> simp [h]
  · intro b _ hb
    simp [hb]
  · simp

/-- The Hubbard interaction. -/
theorem interaction_diagonal (σ : ι → Fin 2) :
    (∑ i : Fin m, ∑ a, ∑ b, if σ a = 0 ∧ σ b = 1 then onP a (site i) * onP b (site i) else 0) =
      diagonal fun f => ∑ i, (count σ f i 0 : ℂ) * count σ f i 1 := by
  have e : ∀ (i : Fin m) (a b : ι), (if σ a = 0 ∧ σ b = 1 then onP a (site i) * onP b (site i) else 0) =
      diagonal fun f => (if σ a = 0 ∧ f a = i then 1 else 0) * (if σ b = 1 ∧ f b = i then (1 : ℂ) else 0) := by
    intro i a b
    rw [onP_site, onP_site, diagonal_mul_diagonal]
    by_cases h : σ a = 0 ∧ σ b = 1
    · rw [if_pos h]
      simp [h.1, h.2]
    · rw [if_neg h, ← diagonal_zero]
      congr 1
      funext f
      rcases not_and_or.1 h with h | h <;> simp [h]
  simp only [e]
  ext f g
  simp only [Matrix.sum_apply]
  by_cases h : f = g
  · subst h
    simp only [diagonal_apply_eq]
    refine sum_congr rfl fun i _ => ?_
    simp only [← mul_sum, ← sum_mul]
    rw [count, count]
    simp only [sum_boole]
  · simp only [diagonal_apply_ne _ h, sum_const_zero]

end Verif.Grand
