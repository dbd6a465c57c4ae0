import Verif.Fields.Minor
import Verif.Step.Run

/-!
# The Hubbard Hamiltonian between ordered configurations

If no hop has a positive sign, the energy to which a run converges is the lowest energy of the Hamiltonian.
-/

namespace Verif.Fields

open Matrix Finset Filter Topology
open Verif.Hirsch (IsPos)
open Verif.Slater (Wfn up dn)
open Verif.Step (tens onP allP spin spinOp Anti Sym hubOp prodState orbs slater)

variable {m k nu nd : Nat}

theorem sgn_star (f : Fin k → Fin m) (J : Ordered m k) : star (sgn f J) = sgn f J :=
  Complex.conj_eq_iff_im.2 (sgn_im f J)

theorem sgn_perm (f : Fin k → Fin m) (J : Ordered m k) (σ : Equiv.Perm (Fin k)) :
    sgn (f ∘ σ) J = ((Equiv.Perm.sign σ : ℤ) : ℂ) * sgn f J := (sgn_alt J).1 f σ

/-- Signs are orthogonal. -/
theorem sgn_sum (I J : Ordered m k) : ∑ f : Fin k → Fin m, sgn f I * sgn f J = if I = J then (k.factorial : ℂ) else 0 := by
  have e1 : ∀ f : Fin k → Fin m, sgn f I * sgn f J = ∑ σ : Equiv.Perm (Fin k), if f = I.1 ∘ σ then sgn I.1 J else 0 := by
    intro f
    rw [sgn, sum_mul]
    refine sum_congr rfl fun σ _ => ?_
    by_cases h : f = I.1 ∘ σ
    · rw [if_pos h, if_pos h, h, sgn_perm, ← mul_assoc, ← Int.cast_mul, ← Units.val_mul, Int.units_mul_self, Units.val_one,
        Int.cast_one, one_mul]
    · rw [if_neg h, if_neg h, zero_mul]
  simp only [e1]
  rw [sum_comm]
  simp only [sum_ite_eq', mem_univ, if_true]
  rw [sum_const, card_univ, Fintype.card_perm, Fintype.card_fin, nsmul_eq_mul, sgn_ordered]
  split_ifs <;> simp

/-! ## Both spins -/

/-- Ordered configurations of both spins. -/
abbrev Two (m nu nd : Nat) := Ordered m nu × Ordered m nd

/-- The configuration as a function on the electrons. -/
def conf (K : Two m nu nd) : Fin nu ⊕ Fin nd → Fin m := Sum.elim K.1.1 K.2.1

/-- Functions on ordered configurations continued to all configurations. -/
noncomputable def ext2 : Matrix (Fin nu ⊕ Fin nd → Fin m) (Two m nu nd) ℂ :=
  Matrix.of fun f K => sgn (fun a => f (Sum.inl a)) K.1 * sgn (fun a => f (Sum.inr a)) K.2

theorem anti_expand {W : (Fin nu ⊕ Fin nd → Fin m) → ℂ} (h : Anti spin W) : W = ext2 *ᵥ fun K => W (conf K) := by
  funext f
  have h1 : ∀ J : Fin nd → Fin m, Alt fun I : Fin nu → Fin m => W (Sum.elim I J) := by
    intro J
    refine Alt.of_perm fun I σ => ?_
    have := h.perm_up σ (Sum.elim I J)
    rw [← this]
    congr 1
    funext a
    rcases a with a | a <;> rfl
  have h2 : ∀ I : Fin nu → Fin m, Alt fun J : Fin nd → Fin m => W (Sum.elim I J) := by
    intro I
    refine Alt.of_perm fun J σ => ?_
    have := h.perm_dn σ (Sum.elim I J)
    rw [← this]
    congr 1
    funext a
    rcases a with a | a <;> rfl
  have e0 : f = Sum.elim (fun a => f (Sum.inl a)) fun a => f (Sum.inr a) := by
    funext a
    rcases a with a | a <;> rfl
  have e1 := alt_expand (h1 fun a => f (Sum.inr a)) fun a => f (Sum.inl a)
  rw [← e0] at e1
  rw [e1, Matrix.mulVec, dotProduct, Fintype.sum_prod_type]
  refine sum_congr rfl fun I _ => ?_
  have e2 := alt_expand (h2 I.1) fun a => f (Sum.inr a)
  rw [e2, mul_sum]
  refine sum_congr rfl fun J _ => ?_
  rw [ext2, Matrix.of_apply, mul_assoc]
  rfl

theorem ext2_anti (K : Two m nu nd) : Anti spin fun f => ext2 f K := by
  intro a b hab hs f
  have hf : ∀ c, Step.swapP a b f c = f (Equiv.swap a b c) := fun c => by simp [Step.swapP, Equiv.arrowCongr]
  simp only [ext2, Matrix.of_apply, hf]
  have sw : ∀ {n : Nat} {i j : Fin n}, i ≠ j → ((Equiv.Perm.sign (Equiv.swap i j) : ℤ) : ℂ) = -1 := by
    intro n i j hij; rw [Equiv.Perm.sign_swap hij]; simp
  rcases a with a | a <;> rcases b with b | b
  · have hne : a ≠ b := fun e => hab (by rw [e])
    have e1 : (fun c : Fin nu => f (Equiv.swap (Sum.inl a) (Sum.inl b) (Sum.inl c))) = (fun c => f (Sum.inl c)) ∘ Equiv.swap a b := by
      funext c
      rw [← Equiv.Perm.sumCongr_swap_one]
      rfl
    have e2 : (fun c : Fin nd => f (Equiv.swap (Sum.inl a) (Sum.inl b) (Sum.inr c))) = fun c => f (Sum.inr c) := by
      funext c
      rw [← Equiv.Perm.sumCongr_swap_one]
      rfl
    rw [e1, e2, sgn_perm, sw hne]
    ring
  · exact absurd hs (by simp [spin])
  · exact absurd hs (by simp [spin])
  · have hne : a ≠ b := fun e => hab (by rw [e])
    have e1 : (fun c : Fin nd => f (Equiv.swap (Sum.inr a) (Sum.inr b) (Sum.inr c))) = (fun c => f (Sum.inr c)) ∘ Equiv.swap a b := by
      funext c
      rw [← Equiv.Perm.sumCongr_one_swap]
      rfl
    have e2 : (fun c : Fin nu => f (Equiv.swap (Sum.inr a) (Sum.inr b) (Sum.inl c))) = fun c => f (Sum.inl c) := by
      funext c
      rw [← Equiv.Perm.sumCongr_one_swap]
      rfl
    rw [e1, e2, sgn_perm, sw hne]
    ring

theorem ext2_conf (K L : Two m nu nd) : (ext2 (conf K) L : ℂ) = if K = L then 1 else 0 := by
  rw [ext2, Matrix.of_apply]
  have e1 : (fun a : Fin nu => conf K (Sum.inl a)) = K.1.1 := rfl
  have e2 : (fun a : Fin nd => conf K (Sum.inr a)) = K.2.1 := rfl
  rw [e1, e2, sgn_ordered, sgn_ordered]
  by_cases h1 : K.1 = L.1 <;> by_cases h2 : K.2 = L.2 <;> simp [h1, h2, Prod.ext_iff]

/-- The operator between ordered configurations. -/
noncomputable def sector (X : Matrix (Fin nu ⊕ Fin nd → Fin m) (Fin nu ⊕ Fin nd → Fin m) ℂ) : Matrix (Two m nu nd) (Two m nu nd) ℂ :=
  Matrix.of fun K L => (X *ᵥ fun f => ext2 f L) (conf K)

theorem anti_mulVec {X : Matrix (Fin nu ⊕ Fin nd → Fin m) (Fin nu ⊕ Fin nd → Fin m) ℂ} (hX : Sym spin X)
    {W : (Fin nu ⊕ Fin nd → Fin m) → ℂ} (hW : Anti spin W) : Anti spin (X *ᵥ W) := by
  intro a b hab hs f
  have h1 := hX a b hs
  rw [Matrix.mulVec, Matrix.mulVec, dotProduct, dotProduct, ← sum_neg_distrib]
  refine (Fintype.sum_equiv (Step.swapP a b) _ _ fun g => ?_).symm
  have e := congrFun (congrFun h1 f) g
  rw [Matrix.submatrix_apply] at e
  rw [e, hW a b hab hs g]
  ring

theorem mul_ext2 {X : Matrix (Fin nu ⊕ Fin nd → Fin m) (Fin nu ⊕ Fin nd → Fin m) ℂ} (hX : Sym spin X) :
    X * ext2 = ext2 * sector X := by
  ext f L
  have := congrFun (anti_expand (anti_mulVec hX (ext2_anti L))) f
  exact this

theorem ext2_ext2 : (ext2 : Matrix (Fin nu ⊕ Fin nd → Fin m) (Two m nu nd) ℂ)ᴴ * ext2 =
    ((nu.factorial : ℂ) * nd.factorial) • (1 : Matrix (Two m nu nd) (Two m nu nd) ℂ) := by
  ext K L
  rw [Matrix.mul_apply, Matrix.smul_apply, Matrix.one_apply, smul_eq_mul]
  have e1 : ∀ f : Fin nu ⊕ Fin nd → Fin m, (ext2ᴴ K f * ext2 f L : ℂ) = (sgn (fun a => f (Sum.inl a)) K.1 * sgn (fun a => f (Sum.inl a)) L.1) *
      (sgn (fun a => f (Sum.inr a)) K.2 * sgn (fun a => f (Sum.inr a)) L.2) := by
    intro f
    simp only [ext2, Matrix.conjTranspose_apply, Matrix.of_apply, star_mul', sgn_star]
    ring
  simp only [e1]
  have e2 : ∑ f : Fin nu ⊕ Fin nd → Fin m, (sgn (fun a => f (Sum.inl a)) K.1 * sgn (fun a => f (Sum.inl a)) L.1) *
      (sgn (fun a => f (Sum.inr a)) K.2 * sgn (fun a => f (Sum.inr a)) L.2) =
      (∑ f : Fin nu → Fin m, sgn f K.1 * sgn f L.1) * ∑ f : Fin nd → Fin m, sgn f K.2 * sgn f L.2 := by
    rw [sum_mul_sum, ← sum_product', univ_product_univ]
    exact Fintype.sum_equiv (Equiv.sumArrowEquivProdArrow _ _ _) _ _ fun f => rfl
  rw [e2, sgn_sum, sgn_sum]
  by_cases h1 : K.1 = L.1 <;> by_cases h2 : K.2 = L.2 <;> simp [h1, h2, Prod.ext_iff]

theorem sector_herm {X : Matrix (Fin nu ⊕ Fin nd → Fin m) (Fin nu ⊕ Fin nd → Fin m) ℂ} (hX : Sym spin X) (hH : X.IsHermitian) :
    (sector X).IsHermitian := by
  have hc : ((nu.factorial : ℂ) * nd.factorial) ≠ 0 := by
    exact_mod_cast mul_ne_zero (Nat.factorial_ne_zero _) (Nat.factorial_ne_zero _)
  have h1 : ((nu.factorial : ℂ) * nd.factorial) • sector X = ext2ᴴ * X * ext2 := by
    rw [Matrix.mul_assoc, mul_ext2 hX, ← Matrix.mul_assoc, ext2_ext2, Matrix.smul_mul, Matrix.one_mul]
  have h2 : (ext2ᴴ * X * ext2 : Matrix (Two m nu nd) (Two m nu nd) ℂ)ᴴ = ext2ᴴ * X * ext2 := by
    rw [Matrix.conjTranspose_mul, Matrix.conjTranspose_mul, Matrix.conjTranspose_conjTranspose, hH.eq, Matrix.mul_assoc]
  rw [← h1, Matrix.conjTranspose_smul] at h2
  have h3 : star ((nu.factorial : ℂ) * nd.factorial) = (nu.factorial : ℂ) * nd.factorial := by simp
  rw [h3] at h2
  exact smul_right_injective _ hc h2

/-! ## Entries -/

theorem onP_vec {ι : Type} [Fintype ι] [DecidableEq ι] (a : ι) (A : Matrix (Fin m) (Fin m) ℂ) (W : (ι → Fin m) → ℂ) (f : ι → Fin m) :
    (onP a A *ᵥ W) f = ∑ j, A (f a) j * W (Function.update f a j) := by
  rw [Matrix.mulVec, dotProduct]
  refine (Finset.sum_of_injOn (fun j => Function.update f a j) ?_ ?_ ?_ ?_).symm
  · intro j _ j' _ h
    have := congrFun h a
    simpa using this
  · intro j _
    exact mem_coe.2 (mem_univ _)
  · intro g _ hg
    rw [Step.onP_apply]
    have : ∃ b, b ≠ a ∧ f b ≠ g b := by
      by_contra hcon
      push Not at hcon
      refine hg ⟨g a, mem_coe.2 (mem_univ _), ?_⟩
      funext b
      by_cases hb : b = a
      · subst hb; simp
      · simp [Function.update_of_ne hb, hcon b hb]
    obtain ⟨b, hb, hne⟩ := this
    have hz : ∏ b ∈ univ.erase a, (1 : Matrix (Fin m) (Fin m) ℂ) (f b) (g b) = 0 :=
      prod_eq_zero (mem_erase.2 ⟨hb, mem_univ b⟩) (Matrix.one_apply_ne hne)
    rw [hz, zero_mul, zero_mul]
  · intro j _
    rw [Step.onP_apply, prod_eq_one, one_mul, Function.update_self]
    intro b hb
    rw [Function.update_of_ne (ne_of_mem_erase hb), Matrix.one_apply_eq]

/-- The Hamiltonian between ordered configurations. -/
theorem sector_hub (T : Fin 2 → Matrix (Fin m) (Fin m) ℂ) (U : ℂ) (K L : Two m nu nd) :
    sector (hubOp T U spin) K L = hop (T 0) K.1 L.1 * (if K.2 = L.2 then 1 else 0) + (if K.1 = L.1 then 1 else 0) * hop (T 1) K.2 L.2 +
      U * (∑ i, (Grand.count spin (conf K) i 0 : ℂ) * Grand.count spin (conf K) i 1) * (if K = L then 1 else 0) := by
  rw [sector, Matrix.of_apply, hubOp, Grand.interaction_diagonal, Matrix.add_mulVec, Matrix.smul_mulVec, Pi.add_apply, Pi.smul_apply,
    Matrix.mulVec_diagonal, ext2_conf, smul_eq_mul, Matrix.sum_mulVec, Finset.sum_apply, Fintype.sum_sum_type, ← mul_assoc]
  congr 2
  · rw [hop, Matrix.of_apply, sum_mul]
    refine sum_congr rfl fun a _ => ?_
    rw [onP_vec, sum_mul]
    refine sum_congr rfl fun j _ => ?_
    have e1 : (fun c : Fin nu => Function.update (conf K) (Sum.inl a) j (Sum.inl c)) = Function.update K.1.1 a j := by
      funext c
      by_cases h : c = a
      · subst h; simp
      · rw [Function.update_of_ne h, Function.update_of_ne (by simpa using h)]; rfl
    have e2 : (fun c : Fin nd => Function.update (conf K) (Sum.inl a) j (Sum.inr c)) = K.2.1 := by
      funext c
      rw [Function.update_of_ne (by simp)]; rfl
    rw [ext2, Matrix.of_apply, e1, e2, sgn_ordered, ← mul_assoc]
    rfl
  · rw [hop, Matrix.of_apply, mul_sum]
    refine sum_congr rfl fun a _ => ?_
    rw [onP_vec, mul_sum]
    refine sum_congr rfl fun j _ => ?_
    have e1 : (fun c : Fin nd => Function.update (conf K) (Sum.inr a) j (Sum.inr c)) = Function.update K.2.1 a j := by
      funext c
      by_cases h : c = a
      · subst h; simp
      · rw [Function.update_of_ne h, Function.update_of_ne (by simpa using h)]; rfl
    have e2 : (fun c : Fin nu => Function.update (conf K) (Sum.inr a) j (Sum.inl c)) = K.1.1 := by
      funext c
      rw [Function.update_of_ne (by simp)]; rfl
    rw [ext2, Matrix.of_apply, e1, e2, sgn_ordered, mul_left_comm]
    rfl

theorem sector_real {T : Fin 2 → Matrix (Fin m) (Fin m) ℂ} (h0 : Hops (T 0) nu) (h1 : Hops (T 1) nd) (U : ℝ) (K L : Two m nu nd) :
    (sector (hubOp T U spin) K L).im = 0 := by
  rw [sector_hub]
  have e : (U : ℂ) * (∑ i, (Grand.count spin (conf K) i 0 : ℂ) * Grand.count spin (conf K) i 1) =
      ((U * ∑ i, (Grand.count spin (conf K) i 0 : ℝ) * Grand.count spin (conf K) i 1 : ℝ) : ℂ) := by push_cast; rfl
  rw [e]
  split_ifs <;> simp [h0.real, h1.real]

theorem sector_off {T : Fin 2 → Matrix (Fin m) (Fin m) ℂ} (h0 : Hops (T 0) nu) (h1 : Hops (T 1) nd) (U : ℂ) {K L : Two m nu nd} (hKL : K ≠ L) :
    (sector (hubOp T U spin) K L).re ≤ 0 := by
  rw [sector_hub, if_neg hKL, mul_zero, add_zero]
  by_cases e1 : K.1 = L.1
  · have e2 : K.2 ≠ L.2 := fun e2 => hKL (Prod.ext e1 e2)
    rw [if_neg e2, if_pos e1, mul_zero, zero_add, one_mul]
    exact h1.off e2
  · rw [if_neg e1, zero_mul, add_zero]
    split_ifs
    · rw [mul_one]; exact h0.off e1
    · simp

/-! ## The lowest energy -/

/-- The lowest energy of the Hamiltonian among antisymmetric wave functions. -/
def Ground (H : Matrix (Fin nu ⊕ Fin nd → Fin m) (Fin nu ⊕ Fin nd → Fin m) ℂ) (E0 : ℝ) : Prop :=
  IsLeast {E : ℝ | ∃ W : (Fin nu ⊕ Fin nd → Fin m) → ℂ, Anti spin W ∧ W ≠ 0 ∧ H *ᵥ W = (E : ℂ) • W} E0

/-- A real symmetric matrix without positive entries off the diagonal: positive vectors reach the lowest energy. -/
theorem stoquastic {κ : Type} [Fintype κ] [DecidableEq κ] [Nonempty κ] {H : Matrix κ κ ℂ} (hH : H.IsHermitian) (hr : ∀ i j, (H i j).im = 0)
    (ho : ∀ i j, i ≠ j → (H i j).re ≤ 0) {a b : κ → ℂ} (ha : ∀ i, IsPos (a i)) (hb : ∀ i, IsPos (b i)) :
    ∃ E0 : ℝ, (∃ u : κ → ℂ, u ≠ 0 ∧ H *ᵥ u = (E0 : ℂ) • u) ∧ (∀ (E : ℝ) (x : κ → ℂ), x ≠ 0 → H *ᵥ x = (E : ℂ) • x → E0 ≤ E) ∧
      Tendsto (fun β : ℝ => ((a ᵥ* H) ⬝ᵥ (NormedSpace.exp (-(β : ℂ) • H) *ᵥ b)) / (a ⬝ᵥ (NormedSpace.exp (-(β : ℂ) • H) *ᵥ b)))
        atTop (𝓝 (E0 : ℂ)) := by
  have hne : a ⬝ᵥ b ≠ 0 := (IsPos.sum univ_nonempty fun i _ => (ha i).mul (hb i)).ne
  obtain ⟨E0, S, u, hu, hsum, hl, hS, h0⟩ := Step.lowest_exists hH hne
  have hu' : ∀ j : S, H *ᵥ u j = ((j : ℝ) : ℂ) • u j := fun j => hu j j.2
  have hl' : ∀ j : S, (j : ℝ) < E0 → a ⬝ᵥ u j = 0 := fun j => hl j j.2
  have h0' : ∑ j ∈ univ.filter (fun j : S => (j : ℝ) = E0), a ⬝ᵥ u j ≠ 0 := by
    have : (univ.filter fun j : S => (j : ℝ) = E0) = {⟨E0, hS⟩} := by
      ext j
      simp [Subtype.ext_iff]
    rw [this, sum_singleton]
    exact h0
  have hsum' : ∑ j : S, u j = b := by rw [← hsum]; exact sum_coe_sort S u
  have hp := Step.project hu' a E0 hl' h0'
  have hd := (Step.project_den hu' a E0 hl').2
  rw [hsum'] at hp hd
  refine ⟨E0, ⟨u E0, fun e => h0 (by rw [e, dotProduct_zero]), hu E0 hS⟩, fun E x hx hE => ?_, hp⟩
  by_contra hcon
  push Not at hcon
  obtain ⟨c, hc, hca⟩ : ∃ c : ℝ, 0 < c ∧ ∀ i j, c ≤ (a i).re * (b j).re := by
    obtain ⟨p, -, hp⟩ := exists_min_image (univ : Finset (κ × κ)) (fun p => (a p.1).re * (b p.2).re) univ_nonempty
    exact ⟨_, mul_pos (ha p.1).re (hb p.2).re, fun i j => hp (i, j) (mem_univ _)⟩
  obtain ⟨d, hd0, hdx⟩ : ∃ d : ℝ, 0 < d ∧ ∀ i j, ‖x i‖ * ‖x j‖ ≤ d := by
    obtain ⟨p, -, hp⟩ := exists_max_image (univ : Finset (κ × κ)) (fun p => ‖x p.1‖ * ‖x p.2‖) univ_nonempty
    obtain ⟨i, hi⟩ := Function.ne_iff.1 hx
    have : 0 < ‖x i‖ * ‖x i‖ := mul_pos (norm_pos_iff.2 hi) (norm_pos_iff.2 hi)
    exact ⟨_, lt_of_lt_of_le this (hp (i, i) (mem_univ _)), fun i j => hp (i, j) (mem_univ _)⟩
  set n : ℝ := ∑ i, ‖x i‖ ^ 2 with hn
  have hnpos : 0 < n := by
    obtain ⟨i, hi⟩ := Function.ne_iff.1 hx
    exact lt_of_lt_of_le (pow_pos (norm_pos_iff.2 hi) 2) (single_le_sum (f := fun i => ‖x i‖ ^ 2) (fun i _ => sq_nonneg _) (mem_univ i))
  have key : ∀ β : ℝ, 0 ≤ β → Real.exp (-β * E) * n ≤ d / c * ‖a ⬝ᵥ (NormedSpace.exp (-(β : ℂ) • H) *ᵥ b)‖ := by
    intro β hβ
    have hM : ∀ i j, NonNeg (NormedSpace.exp (-(β : ℂ) • H) i j) := by
      intro i j
      refine (exp_metzler (fun i j => ?_) (fun i j hij => ?_) i j).1
      · rw [Matrix.smul_apply, smul_eq_mul, ← Complex.ofReal_neg, Complex.im_ofReal_mul, hr, mul_zero]
      · rw [Matrix.smul_apply, smul_eq_mul, ← Complex.ofReal_neg, Complex.re_ofReal_mul]
        have := ho i j hij
        nlinarith
    set M := NormedSpace.exp (-(β : ℂ) • H) with hMd
    have e1 : M *ᵥ x = Complex.exp (-β * E) • x := by
      refine Step.exp_mulVec ?_
      rw [Matrix.smul_mulVec, hE, smul_smul]
    have e2 : star x ⬝ᵥ (M *ᵥ x) = ((Real.exp (-β * E) * n : ℝ) : ℂ) := by
      rw [e1, dotProduct_smul, smul_eq_mul, dotProduct, hn]
      push_cast
      congr 1
      refine sum_congr rfl fun i _ => ?_
      rw [Pi.star_apply, Complex.star_def, Complex.conj_mul']
    have e3 : Real.exp (-β * E) * n = ‖star x ⬝ᵥ (M *ᵥ x)‖ := by
      rw [e2, Complex.norm_real, Real.norm_of_nonneg (mul_nonneg (Real.exp_pos _).le hnpos.le)]
    have e4 : a ⬝ᵥ (M *ᵥ b) = ((∑ i, ∑ j, (a i).re * (b j).re * (M i j).re : ℝ) : ℂ) := by
      rw [dotProduct]
      push_cast
      refine sum_congr rfl fun i _ => ?_
      rw [Matrix.mulVec, dotProduct, mul_sum]
      refine sum_congr rfl fun j _ => ?_
      obtain ⟨p, -, e⟩ := ha i
      obtain ⟨q, -, e'⟩ := hb j
      obtain ⟨r, -, e''⟩ := hM i j
      rw [e, e', e'']
      simp only [Complex.ofReal_re]
      ring
    rw [e3, e4, Complex.norm_real]
    refine le_trans ?_ (mul_le_mul_of_nonneg_left (le_abs_self _) (div_nonneg hd0.le hc.le))
    rw [mul_sum, dotProduct]
    refine (norm_sum_le _ _).trans (sum_le_sum fun i _ => ?_)
    rw [Matrix.mulVec, dotProduct, mul_sum, mul_sum]
    refine (norm_sum_le _ _).trans (sum_le_sum fun j _ => ?_)
    obtain ⟨r, hr0, e''⟩ := hM i j
    rw [e'', Complex.ofReal_re, norm_mul, norm_mul, Pi.star_apply, norm_star, Complex.norm_real, Real.norm_of_nonneg hr0]
    have h1 := hdx i j
    have h2 := hca i j
    have h3 : ‖x i‖ * ‖x j‖ ≤ d / c * ((a i).re * (b j).re) := by
      rw [div_mul_eq_mul_div, le_div_iff₀ hc]
      nlinarith
    nlinarith
  have hbound : Tendsto (fun β : ℝ => d / c * ‖Complex.exp (β * E0) * (a ⬝ᵥ (NormedSpace.exp (-(β : ℂ) • H) *ᵥ b))‖) atTop
      (𝓝 (d / c * ‖∑ j ∈ univ.filter (fun j : S => (j : ℝ) = E0), a ⬝ᵥ u j‖)) := (hd.norm).const_mul _
  have hinf : Tendsto (fun β : ℝ => Real.exp (β * (E0 - E)) * n) atTop atTop := by
    refine Tendsto.atTop_mul_const hnpos (Real.tendsto_exp_atTop.comp ?_)
    exact tendsto_id.atTop_mul_const (sub_pos.2 hcon)
  refine not_tendsto_nhds_of_tendsto_atTop (tendsto_atTop_mono' _ ?_ hinf) _ hbound
  filter_upwards [eventually_ge_atTop 0] with β hβ
  have h1 := key β hβ
  have h2 : ‖Complex.exp (β * E0)‖ = Real.exp (β * E0) := by
    rw [Complex.norm_exp]
    congr 1
    simp
  rw [norm_mul, h2, mul_left_comm, mul_sub, Real.exp_sub]
  have h3 : Real.exp (β * E0) / Real.exp (β * E) * n = Real.exp (β * E0) * (Real.exp (-β * E) * n) := by
    rw [neg_mul, Real.exp_neg]
    field_simp
  rw [h3]
  exact mul_le_mul_of_nonneg_left h1 (Real.exp_pos _).le

theorem ext2_prodState (φ : Wfn m nu nd) (K : Two m nu nd) :
    ∑ f, ext2 f K * prodState (orbs φ) f = minor (up φ) K.1.1 * minor (dn φ) K.2.1 := by
  have h1 : ∀ {k : Nat} (A : Matrix (Fin m) (Fin k) ℂ) (J : Ordered m k), ∑ f : Fin k → Fin m, sgn f J * ∏ a, A (f a) a = minor A J.1 := by
    intro k A J
    have e1 : ∀ f : Fin k → Fin m, sgn f J * ∏ a, A (f a) a = ∑ σ : Equiv.Perm (Fin k),
        if f = J.1 ∘ σ then ((Equiv.Perm.sign σ : ℤ) : ℂ) * ∏ a, A (J.1 (σ a)) a else 0 := by
      intro f
      rw [sgn, sum_mul]
      refine sum_congr rfl fun σ _ => ?_
      by_cases h : f = J.1 ∘ σ
      · rw [if_pos h, if_pos h, h]; rfl
      · rw [if_neg h, if_neg h, zero_mul]
    simp only [e1]
    rw [sum_comm]
    simp only [sum_ite_eq', mem_univ, if_true]
    rw [minor, Matrix.det_apply']
    rfl
  rw [← h1, ← h1, sum_mul_sum, ← sum_product', univ_product_univ]
  refine Fintype.sum_equiv (Equiv.sumArrowEquivProdArrow _ _ _) _ _ fun f => ?_
  rw [prodState, Fintype.prod_sum_type, ext2, Matrix.of_apply]
  show _ = (sgn (fun a => f (Sum.inl a)) K.1 * ∏ a, up φ (f (Sum.inl a)) a) * (sgn (fun a => f (Sum.inr a)) K.2 * ∏ a, dn φ (f (Sum.inr a)) a)
  simp only [orbs, Sum.elim_inl, Sum.elim_inr]
  ring

theorem anti_dot {u : (Fin nu ⊕ Fin nd → Fin m) → ℂ} (hu : Anti spin u) (b : Two m nu nd → ℂ) :
    u ⬝ᵥ (ext2 *ᵥ b) = (nu.factorial : ℂ) * nd.factorial * ((fun K => u (conf K)) ⬝ᵥ b) := by
  conv_lhs => rw [anti_expand hu]
  have e : (ext2 : Matrix (Fin nu ⊕ Fin nd → Fin m) (Two m nu nd) ℂ)ᵀ = ext2ᴴ := by
    ext K f
    simp only [Matrix.transpose_apply, Matrix.conjTranspose_apply, ext2, Matrix.of_apply, star_mul', sgn_star]
  rw [← Matrix.vecMul_transpose, ← Matrix.dotProduct_mulVec, Matrix.mulVec_mulVec, e, ext2_ext2, Matrix.smul_mulVec, Matrix.one_mulVec,
    dotProduct_smul, smul_eq_mul]

/-- The amplitudes of a determinant on ordered configurations. -/
noncomputable def amps (φ : Wfn m nu nd) (K : Two m nu nd) : ℂ := minor (up φ) K.1.1 * minor (dn φ) K.2.1

theorem anti_prodState {u : (Fin nu ⊕ Fin nd → Fin m) → ℂ} (hu : Anti spin u) (φ : Wfn m nu nd) :
    u ⬝ᵥ prodState (orbs φ) = (fun K => u (conf K)) ⬝ᵥ amps φ := by
  conv_lhs => rw [anti_expand hu]
  rw [← Matrix.vecMul_transpose, ← Matrix.dotProduct_mulVec]
  congr 1
  funext K
  rw [amps, ← ext2_prodState]
  rfl

/-- Matrix elements between an antisymmetric wave function and a determinant in terms of ordered configurations. -/
theorem sector_elem {X : Matrix (Fin nu ⊕ Fin nd → Fin m) (Fin nu ⊕ Fin nd → Fin m) ℂ} (hX : Sym spin X)
    {v : (Fin nu ⊕ Fin nd → Fin m) → ℂ} (hv : Anti spin v) (φ : Wfn m nu nd) :
    v ⬝ᵥ (X *ᵥ prodState (orbs φ)) = (fun K => v (conf K)) ⬝ᵥ (sector X *ᵥ amps φ) := by
  have hc : ((nu.factorial : ℂ) * nd.factorial) ≠ 0 := by
    exact_mod_cast mul_ne_zero (Nat.factorial_ne_zero _) (Nat.factorial_ne_zero _)
  refine mul_left_cancel₀ hc ?_
  rw [← anti_dot hv, Matrix.mulVec_mulVec, ← mul_ext2 hX, ← Matrix.mulVec_mulVec, Matrix.dotProduct_mulVec, Matrix.dotProduct_mulVec,
    anti_dot (hv.vecMul hX), anti_prodState (hv.vecMul hX)]

theorem slater_conf (ψ : Wfn m nu nd) (K : Two m nu nd) : slater ψ (conf K) = star (amps ψ K) := by
  have h1 : ∀ {k : Nat} (A : Matrix (Fin m) (Fin k) ℂ) (f : Fin k → Fin m), Step.slater1 A f = star (minor A f) := by
    intro k A f
    rw [Step.slater1, minor, ← Matrix.det_conjTranspose]
    rfl
  rw [slater, h1, h1, amps, star_mul']
  rfl

/-- **C120** If no hop of an electron has a positive sign and the amplitudes of the trial wave function and of the initial determinant
have the same phase, the overlaps never vanish and the energy of the state evolved in imaginary time converges to the lowest energy of
the Hamiltonian. -/
theorem ground {T : Fin 2 → Matrix (Fin m) (Fin m) ℂ} (hT : ∀ s, (T s)ᴴ = T s) (h0 : Hops (T 0) nu) (h1 : Hops (T 1) nd) (U : ℝ)
    (hnu : nu ≤ m) (hnd : nd ≤ m) {ψ φ : Wfn m nu nd} {c c' : ℂ} (hψ : PosMin c (up ψ) ∧ PosMin c' (dn ψ))
    (hφ : PosMin c (up φ) ∧ PosMin c' (dn φ)) :
    (∀ β : ℝ, 0 ≤ β → slater ψ ⬝ᵥ (NormedSpace.exp (-(β : ℂ) • hubOp T U spin) *ᵥ prodState (orbs φ)) ≠ 0) ∧
    ∃ E0 : ℝ, Ground (hubOp T U (spin : Fin nu ⊕ Fin nd → Fin 2)) E0 ∧
      Tendsto (fun β : ℝ => ((slater ψ ᵥ* hubOp T U spin) ⬝ᵥ (NormedSpace.exp (-(β : ℂ) • hubOp T U spin) *ᵥ prodState (orbs φ))) /
        (slater ψ ⬝ᵥ (NormedSpace.exp (-(β : ℂ) • hubOp T U spin) *ᵥ prodState (orbs φ)))) atTop (𝓝 (E0 : ℂ)) := by
  set H : Matrix (Fin nu ⊕ Fin nd → Fin m) (Fin nu ⊕ Fin nd → Fin m) ℂ := hubOp T U spin with hHd
  have hsym : Sym spin H := Step.hubOp_sym _ _ _
  have hherm : H.IsHermitian := Step.hubOp_herm U hT _
  have K0 : Two m nu nd := ⟨⟨Fin.castLE hnu, Fin.strictMono_castLE hnu⟩, ⟨Fin.castLE hnd, Fin.strictMono_castLE hnd⟩⟩
  haveI : Nonempty (Two m nu nd) := ⟨K0⟩
  have hc : c * c' ≠ 0 := mul_ne_zero (left_ne_zero_of_mul (hψ.1 K0.1).ne) (left_ne_zero_of_mul (hψ.2 K0.2).ne)
  have hc' : star (c * c') ≠ 0 := star_ne_zero.2 hc
  have pos : ∀ {χ : Wfn m nu nd}, PosMin c (up χ) ∧ PosMin c' (dn χ) → ∀ K, IsPos (((c * c') • amps χ) K) := by
    intro χ h K
    have := (h.1 K.1).mul (h.2 K.2)
    rwa [mul_mul_mul_comm] at this
  have hs : ∀ K, (star (c * c') • slater ψ) (conf K) = ((c * c') • amps ψ) K := fun K => by
    rw [← (pos hψ K).star, Pi.smul_apply, Pi.smul_apply, smul_eq_mul, smul_eq_mul, slater_conf, star_mul' (c * c')]
  have hanti0 : Anti spin (star (c * c') • slater ψ) := by
    intro a b hab hsp f
    rw [Pi.smul_apply, Pi.smul_apply, Step.slater_anti ψ a b hab hsp f, smul_neg]
  obtain ⟨E0, ⟨u, hu0, hu⟩, hmin, hlim⟩ := stoquastic (sector_herm hsym hherm) (sector_real h0 h1 U) (fun K L hKL => sector_off h0 h1 U hKL)
    (a := (c * c') • amps ψ) (b := (c * c') • amps φ) (pos hψ) (pos hφ)
  have hinj : ∀ x : Two m nu nd → ℂ, ∀ K, (ext2 *ᵥ x) (conf K) = x K := by
    intro x K
    rw [Matrix.mulVec, dotProduct]
    simp [ext2_conf]
  have hanti : ∀ x : Two m nu nd → ℂ, Anti spin (ext2 *ᵥ x) := by
    intro x a b hab hsp f
    rw [Matrix.mulVec, Matrix.mulVec, dotProduct, dotProduct, ← sum_neg_distrib]
    refine sum_congr rfl fun K _ => ?_
    have := ext2_anti K a b hab hsp f
    beta_reduce at this
    rw [this, neg_mul]
  have hexp : ∀ β : ℝ, sector (NormedSpace.exp (-(β : ℂ) • H)) = NormedSpace.exp (-(β : ℂ) • sector H) := by
    intro β
    have h2 : NormedSpace.exp (-(β : ℂ) • H) * ext2 = ext2 * NormedSpace.exp (-(β : ℂ) • sector H) :=
      exp_intertwine (by rw [Matrix.smul_mul, mul_ext2 hsym, Matrix.mul_smul])
    ext K L
    have h3 := congrFun (congrFun h2 (conf K)) L
    have h4 : (ext2 * NormedSpace.exp (-(β : ℂ) • sector H) : Matrix _ (Two m nu nd) ℂ) (conf K) L = NormedSpace.exp (-(β : ℂ) • sector H) K L := by
      rw [Matrix.mul_apply]
      simp [ext2_conf]
    rw [← h4, ← h3]
    rfl
  have hse : ∀ β : ℝ, Sym spin (NormedSpace.exp (-(β : ℂ) • H)) := fun β => Grand.sym_exp (hsym.smul _)
  have hel : ∀ β : ℝ, star (c * c') * (c * c') * (slater ψ ⬝ᵥ (NormedSpace.exp (-(β : ℂ) • H) *ᵥ prodState (orbs φ))) =
      ((c * c') • amps ψ) ⬝ᵥ (NormedSpace.exp (-(β : ℂ) • sector H) *ᵥ ((c * c') • amps φ)) := by
    intro β
    have := sector_elem (hse β) hanti0 φ
    rw [hexp, funext hs, smul_dotProduct, smul_eq_mul] at this
    rw [Matrix.mulVec_smul, dotProduct_smul, smul_eq_mul, ← this]
    ring
  have hden : ∀ β : ℝ, 0 ≤ β → slater ψ ⬝ᵥ (NormedSpace.exp (-(β : ℂ) • H) *ᵥ prodState (orbs φ)) ≠ 0 := by
    intro β hβ e
    have h2 := hel β
    rw [e, mul_zero] at h2
    refine (IsPos.sum univ_nonempty fun K _ => (pos hψ K).mul ?_).ne h2.symm
    have := exp_pos_mul (k := Unit) (A := -(β : ℂ) • sector H) (fun i j => ?_) (fun i j hij => ?_)
      (B := Matrix.of fun (J : Two m nu nd) (_ : Unit) => ((c * c') • amps φ) J) (fun J _ => pos hφ J) K ()
    · exact this
    · rw [Matrix.smul_apply, smul_eq_mul, ← Complex.ofReal_neg, Complex.im_ofReal_mul, sector_real h0 h1, mul_zero]
    · rw [Matrix.smul_apply, smul_eq_mul, ← Complex.ofReal_neg, Complex.re_ofReal_mul]
      have := sector_off h0 h1 (U : ℂ) hij
      nlinarith
  refine ⟨hden, E0, ⟨⟨ext2 *ᵥ u, hanti u, fun e => hu0 ?_, ?_⟩, ?_⟩, ?_⟩
  · funext K
    rw [← hinj u K, e]
    rfl
  · rw [Matrix.mulVec_mulVec, mul_ext2 hsym, ← Matrix.mulVec_mulVec, hu, Matrix.mulVec_smul]
  · rintro E ⟨W, hW, hW0, hWE⟩
    refine hmin E (fun K => W (conf K)) (fun e => hW0 ?_) ?_
    · rw [anti_expand hW, e, Matrix.mulVec_zero]
    · have e1 : ext2 *ᵥ (sector H *ᵥ fun K => W (conf K)) = ext2 *ᵥ ((E : ℂ) • fun K => W (conf K)) := by
        rw [Matrix.mulVec_mulVec, ← mul_ext2 hsym, ← Matrix.mulVec_mulVec, ← anti_expand hW, hWE, Matrix.mulVec_smul, ← anti_expand hW]
      funext K
      rw [← hinj (sector H *ᵥ fun K => W (conf K)) K, e1, hinj]
  · have hvH : (fun K => ((star (c * c') • slater ψ) ᵥ* H) (conf K)) = ((c * c') • amps ψ) ᵥ* sector H := by
      have hf : ((nu.factorial : ℂ) * nd.factorial) ≠ 0 := by
        exact_mod_cast mul_ne_zero (Nat.factorial_ne_zero _) (Nat.factorial_ne_zero _)
      refine dotProduct_eq _ _ fun b => ?_
      refine mul_left_cancel₀ hf ?_
      rw [← anti_dot (hanti0.vecMul hsym), ← Matrix.dotProduct_mulVec, Matrix.mulVec_mulVec, mul_ext2 hsym,
        ← Matrix.mulVec_mulVec, anti_dot hanti0, funext hs, Matrix.dotProduct_mulVec]
    have hnum : ∀ β : ℝ, star (c * c') * (c * c') * ((slater ψ ᵥ* H) ⬝ᵥ (NormedSpace.exp (-(β : ℂ) • H) *ᵥ prodState (orbs φ))) =
        (((c * c') • amps ψ) ᵥ* sector H) ⬝ᵥ (NormedSpace.exp (-(β : ℂ) • sector H) *ᵥ ((c * c') • amps φ)) := by
      intro β
      have := sector_elem (hse β) (hanti0.vecMul hsym) φ
      rw [hexp, hvH, Matrix.smul_vecMul, smul_dotProduct, smul_eq_mul] at this
      rw [Matrix.mulVec_smul, dotProduct_smul, smul_eq_mul, ← this]
      ring
    refine hlim.congr fun β => ?_
    rw [← hel, ← hnum, mul_div_mul_left _ _ (mul_ne_zero hc' hc)]

end Verif.Fields
