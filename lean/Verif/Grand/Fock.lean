import Verif.Step.Run

/-!
# Traces over all numbers of electrons

The states of `nu` up and `nd` down electrons in `m` orbitals are spanned by the determinants of unit vectors.
The trace over all of them, for all `nu` and `nd`, of the product operator of a matrix for each spin is the
product of the determinants of one plus the matrix.  Nothing here refers to the model of the code.
-/

namespace Verif.Grand

open Matrix Finset
open Verif.Step (tens spin slater slater1 unit prodState orbs Sym Anti swapP)

variable {m nu nd k : Nat} {R : Type} [CommRing R]

/-! ## Occupied orbitals -/

/-- Sets of `k` occupied orbitals. -/
abbrev Occ (m k : Nat) := {s : Finset (Fin m) // s.card = k}

/-- The occupied orbitals in increasing order. -/
def occ (s : Occ m k) : Fin k → Fin m := s.1.orderEmbOfFin s.2

theorem occ_injective (s : Occ m k) : Function.Injective (occ s) := (s.1.orderEmbOfFin s.2).injective

theorem occ_mem (s : Occ m k) (i : Fin m) : i ∈ s.1 ↔ ∃ a, occ s a = i := by
  have := Finset.range_orderEmbOfFin s.1 s.2
  constructor
  · intro h
    have h2 : i ∈ Set.range (s.1.orderEmbOfFin s.2) := by rw [this]; exact h
    exact h2
  · rintro ⟨a, rfl⟩
    exact Finset.orderEmbOfFin_mem _ _ _

/-- The occupied orbitals of both spins. -/
def occ2 (S : Occ m nu × Occ m nd) : Fin nu ⊕ Fin nd → Fin m := Sum.elim (occ S.1) (occ S.2)

/-! ## Principal minors -/

theorem det_piecewise (s : Finset (Fin m)) (C : Matrix (Fin m) (Fin m) R) :
    Matrix.det (Matrix.of fun i j => if i ∈ s then C i j else (1 : Matrix (Fin m) (Fin m) R) i j) =
      (C.submatrix (occ (⟨s, rfl⟩ : Occ m s.card)) (occ ⟨s, rfl⟩)).det := by
  have h := Matrix.twoBlockTriangular_det' (Matrix.of fun i j => if i ∈ s then C i j else
      (1 : Matrix (Fin m) (Fin m) R) i j) (fun i => i ∉ s) (by
    intro i hi j hj
    rw [Matrix.of_apply, if_neg hi]
    exact Matrix.one_apply_ne (by rintro rfl; exact hj hi))
  rw [h]
  have h1 : (toSquareBlockProp (Matrix.of fun i j => if i ∈ s then C i j else
      (1 : Matrix (Fin m) (Fin m) R) i j) fun i => i ∉ s) = 1 := by
    ext i j
    show (if (i : Fin m) ∈ s then C i j else (1 : Matrix (Fin m) (Fin m) R) i j) = _
    rw [if_neg i.2]
    by_cases hij : i = j
    · subst hij; simp
    · rw [Matrix.one_apply_ne hij, Matrix.one_apply_ne (fun h => hij (Subtype.ext h))]
  rw [h1, Matrix.det_one, one_mul]
  let e : Fin s.card ≃ {i // ¬ i ∉ s} :=
    (s.orderIsoOfFin rfl).toEquiv.trans (Equiv.subtypeEquivRight fun i => by simp)
  rw [← Matrix.det_submatrix_equiv_self e]
  congr 1
  ext a b
  have ha : ((e a : {i // ¬ i ∉ s}) : Fin m) ∈ s := not_not.1 (e a).2
  show (if ((e a : {i // ¬ i ∉ s}) : Fin m) ∈ s then C (e a) (e b) else (1 : Matrix (Fin m) (Fin m) R) (e a) (e b)) = _
  rw [if_pos ha]
  rfl

/-- The determinant of one plus a matrix is the sum of the principal minors. -/
theorem det_one_add (C : Matrix (Fin m) (Fin m) R) :
    (1 + C).det = ∑ k ∈ range (m + 1), ∑ s : Occ m k, (C.submatrix (occ s) (occ s)).det := by
  rw [add_comm]
  have h : (C + 1).det = ∑ s : Finset (Fin m),
      Matrix.det (Matrix.of fun i j => if i ∈ s then C i j else (1 : Matrix (Fin m) (Fin m) R) i j) := by
    refine (MultilinearMap.map_add_univ (detRowAlternating (n := Fin m) (R := R)).toMultilinearMap C (1 : Matrix (Fin m) (Fin m) R)).trans ?_
    refine sum_congr rfl fun s _ => ?_
    show Matrix.det _ = _
    congr 1
    ext i j
    by_cases hi : i ∈ s
    · rw [Matrix.of_apply, if_pos hi]; exact congrFun (Finset.piecewise_eq_of_mem s C _ hi) j
    · rw [Matrix.of_apply, if_neg hi]; exact congrFun (Finset.piecewise_eq_of_notMem s C _ hi) j
  rw [h, ← Finset.sum_fiberwise_of_maps_to (t := range (m + 1)) (g := Finset.card)]
  · refine sum_congr rfl fun k _ => ?_
    rw [Finset.sum_subtype (univ.filter fun s : Finset (Fin m) => s.card = k) (p := fun s => s.card = k) (by simp)]
    refine sum_congr rfl fun s _ => ?_
    obtain ⟨s, rfl⟩ := s
    exact det_piecewise s C
  · intro s _
    rw [mem_range]
    exact Nat.lt_succ_of_le ((card_le_univ s).trans (by simp))

/-! ## Traces -/

/-- The trace of an operator over the states of `nu` up and `nd` down electrons. -/
def tr (X : Matrix (Fin nu ⊕ Fin nd → Fin m) (Fin nu ⊕ Fin nd → Fin m) R) : R :=
  ∑ S : Occ m nu × Occ m nd, ∑ π : Equiv.Perm (Fin nu), ∑ ρ : Equiv.Perm (Fin nd),
    ((Equiv.Perm.sign π : ℤ) : R) * ((Equiv.Perm.sign ρ : ℤ) : R) *
      X (fun a => occ2 S (Equiv.Perm.sumCongr π ρ a)) (occ2 S)

/-- The trace over all numbers of electrons. -/
def fock (X : ∀ nu nd : Nat, Matrix (Fin nu ⊕ Fin nd → Fin m) (Fin nu ⊕ Fin nd → Fin m) R) : R :=
  ∑ nu ∈ range (m + 1), ∑ nd ∈ range (m + 1), tr (X nu nd)

theorem tr_tens (T : Fin 2 → Matrix (Fin m) (Fin m) R) :
    tr (tens fun a : Fin nu ⊕ Fin nd => T (spin a)) =
      (∑ s : Occ m nu, ((T 0).submatrix (occ s) (occ s)).det) * ∑ s : Occ m nd, ((T 1).submatrix (occ s) (occ s)).det := by
  rw [tr, sum_mul_sum, ← univ_product_univ, sum_product]
  refine sum_congr rfl fun s _ => sum_congr rfl fun t _ => ?_
  rw [Matrix.det_apply', Matrix.det_apply', sum_mul_sum]
  refine sum_congr rfl fun π _ => sum_congr rfl fun ρ _ => ?_
  rw [tens, Matrix.of_apply, Fintype.prod_sum_type]
  simp only [occ2, spin, Equiv.Perm.sumCongr_apply, Sum.map_inl, Sum.map_inr, Sum.elim_inl, Sum.elim_inr,
    Matrix.submatrix_apply]
  ring

/-- The trace of a product operator. -/
theorem fock_tens (T : Fin 2 → Matrix (Fin m) (Fin m) R) :
    fock (fun nu nd => tens fun a : Fin nu ⊕ Fin nd => T (spin a)) = (1 + T 0).det * (1 + T 1).det := by
  rw [fock, det_one_add, det_one_add, sum_mul_sum]
  exact sum_congr rfl fun i _ => sum_congr rfl fun j _ => tr_tens T

/-! ## Matrix elements between determinants -/

theorem sum_injective {M : Type} [AddCommMonoid M] (F : (Fin k → Fin m) → M)
    (h : ∀ f, ¬ Function.Injective f → F f = 0) :
    ∑ f, F f = ∑ s : Occ m k, ∑ π : Equiv.Perm (Fin k), F fun a => occ s (π a) := by
  rw [← sum_product', univ_product_univ]
  symm
  refine Fintype.sum_of_injective (fun p : Occ m k × Equiv.Perm (Fin k) => fun a => occ p.1 (p.2 a)) ?_ _ _ ?_
    fun _ => rfl
  · rintro ⟨s, π⟩ ⟨t, ρ⟩ hst
    have hst' : ∀ a, occ s (π a) = occ t (ρ a) := congrFun hst
    have e : s = t := by
      refine Subtype.ext (Finset.ext fun i => ?_)
      rw [occ_mem, occ_mem]
      constructor
      · rintro ⟨a, rfl⟩; exact ⟨ρ (π.symm a), by rw [← hst', Equiv.apply_symm_apply]⟩
      · rintro ⟨a, rfl⟩; exact ⟨π (ρ.symm a), by rw [hst', Equiv.apply_symm_apply]⟩
    subst e
    congr 1
    ext a
    exact congrArg _ (occ_injective s (hst' a))
  · intro f hf
    refine h f fun hi => hf ?_
    have hc : (univ.image f).card = k := by rw [card_image_of_injective _ hi, card_univ, Fintype.card_fin]
    have hm : ∀ a, ∃ b, occ (⟨univ.image f, hc⟩ : Occ m k) b = f a := fun a =>
      (occ_mem ⟨univ.image f, hc⟩ (f a)).1 (mem_image_of_mem _ (mem_univ a))
    choose g hg using hm
    have gi : Function.Injective g := fun a b hab => hi (by rw [← hg a, ← hg b, hab])
    refine ⟨(⟨univ.image f, hc⟩, Equiv.ofBijective g (Finite.injective_iff_bijective.1 gi)), ?_⟩
    funext a
    exact hg a

/-- The matrix element between two determinants of unit vectors. -/
noncomputable def sector (X : Matrix (Fin nu ⊕ Fin nd → Fin m) (Fin nu ⊕ Fin nd → Fin m) ℂ) :
    Matrix (Occ m nu × Occ m nd) (Occ m nu × Occ m nd) ℂ :=
  Matrix.of fun S T => slater (unit (occ2 S)) ⬝ᵥ (X *ᵥ prodState (orbs (unit (occ2 T))))

theorem prodState_unit (h : Fin nu ⊕ Fin nd → Fin m) : prodState (orbs (unit h)) = Pi.single h 1 := by
  funext f
  have e : ∀ a, orbs (unit h) a (f a) = if f a = h a then 1 else 0 := by
    intro a
    rcases a with a | a
    · have : Slater.up (unit h) = Matrix.of fun p a => if p = h (Sum.inl a) then (1 : ℂ) else 0 := Slater.up_join _ _
      rw [orbs, Sum.elim_inl, this, Matrix.of_apply]
    · have : Slater.dn (unit h) = Matrix.of fun p a => if p = h (Sum.inr a) then (1 : ℂ) else 0 := Slater.dn_join _ _
      rw [orbs, Sum.elim_inr, this, Matrix.of_apply]
  rw [prodState]
  simp only [e, prod_boole, mem_univ, true_implies, Pi.single_apply, funext_iff]

theorem slater_unit (h f : Fin nu ⊕ Fin nd → Fin m) : slater (unit h) f =
    ∑ π : Equiv.Perm (Fin nu), ∑ ρ : Equiv.Perm (Fin nd), ((Equiv.Perm.sign π : ℤ) : ℂ) * ((Equiv.Perm.sign ρ : ℤ) : ℂ) *
      if f = (fun a => h (Equiv.Perm.sumCongr π ρ a)) then 1 else 0 := by
  have hu : Slater.up (unit h) = Matrix.of fun p a => if p = h (Sum.inl a) then 1 else 0 := Slater.up_join _ _
  have hd : Slater.dn (unit h) = Matrix.of fun p a => if p = h (Sum.inr a) then 1 else 0 := Slater.dn_join _ _
  rw [slater, hu, hd, Step.slater1_unit (fun a => h (Sum.inl a)), Step.slater1_unit (fun a => h (Sum.inr a)), sum_mul_sum]
  refine sum_congr rfl fun π _ => sum_congr rfl fun ρ _ => ?_
  have hiff : f = (fun a => h (Equiv.Perm.sumCongr π ρ a)) ↔
      ((fun a => f (Sum.inl a)) = fun b => h (Sum.inl (π b))) ∧
      ((fun a => f (Sum.inr a)) = fun b => h (Sum.inr (ρ b))) := by
    constructor
    · rintro rfl; exact ⟨rfl, rfl⟩
    · rintro ⟨h1, h2⟩
      funext a
      rcases a with a | a
      · exact congrFun h1 a
      · exact congrFun h2 a
  by_cases ha : (fun a => f (Sum.inl a)) = fun b => h (Sum.inl (π b))
  · by_cases hb : (fun a => f (Sum.inr a)) = fun b => h (Sum.inr (ρ b))
    · rw [if_pos ha, if_pos hb, if_pos (hiff.2 ⟨ha, hb⟩)]; ring
    · rw [if_neg hb, if_neg fun h => hb (hiff.1 h).2]; ring
  · rw [if_neg ha, if_neg fun h => ha (hiff.1 h).1]; ring

theorem slater_unit_dot (h : Fin nu ⊕ Fin nd → Fin m) (v : (Fin nu ⊕ Fin nd → Fin m) → ℂ) :
    slater (unit h) ⬝ᵥ v = ∑ π : Equiv.Perm (Fin nu), ∑ ρ : Equiv.Perm (Fin nd),
      ((Equiv.Perm.sign π : ℤ) : ℂ) * ((Equiv.Perm.sign ρ : ℤ) : ℂ) * v fun a => h (Equiv.Perm.sumCongr π ρ a) := by
  simp only [dotProduct, slater_unit, sum_mul]
  rw [sum_comm]
  refine sum_congr rfl fun π _ => ?_
  rw [sum_comm]
  refine sum_congr rfl fun ρ _ => ?_
  rw [Fintype.sum_eq_single fun a => h (Equiv.Perm.sumCongr π ρ a)]
  · rw [if_pos rfl, mul_one]
  · intro f hf
    rw [if_neg hf]; ring

theorem sector_apply (X : Matrix (Fin nu ⊕ Fin nd → Fin m) (Fin nu ⊕ Fin nd → Fin m) ℂ) (S T : Occ m nu × Occ m nd) :
    sector X S T = (slater (unit (occ2 S)) ᵥ* X) (occ2 T) := by
  rw [sector, Matrix.of_apply, Matrix.dotProduct_mulVec, prodState_unit, dotProduct_single, mul_one]

/-- The trace is the trace of the matrix of elements between determinants. -/
theorem tr_sector (X : Matrix (Fin nu ⊕ Fin nd → Fin m) (Fin nu ⊕ Fin nd → Fin m) ℂ) : tr X = (sector X).trace := by
  rw [tr, Matrix.trace]
  refine sum_congr rfl fun S _ => ?_
  rw [Matrix.diag_apply, sector, Matrix.of_apply, prodState_unit, slater_unit_dot]
  refine sum_congr rfl fun π _ => sum_congr rfl fun ρ _ => ?_
  rw [Matrix.mulVec_single_one, Matrix.col_apply]

/-- An antisymmetric functional in terms of the determinants of unit vectors. -/
theorem anti_dot {α : (Fin nu ⊕ Fin nd → Fin m) → ℂ} (hα : Anti spin α) (v : (Fin nu ⊕ Fin nd → Fin m) → ℂ) :
    α ⬝ᵥ v = ∑ S : Occ m nu × Occ m nd, α (occ2 S) * (slater (unit (occ2 S)) ⬝ᵥ v) := by
  have hz : ∀ f : Fin nu ⊕ Fin nd → Fin m, ∀ a b, a ≠ b → spin a = spin b → f a = f b → α f = 0 := by
    intro f a b hab h hf
    have := hα a b hab h f
    have e : swapP a b f = f := by
      funext c
      have hc : swapP a b f c = f (Equiv.swap a b c) := by simp [swapP, Equiv.arrowCongr]
      rw [hc]
      rcases eq_or_ne c a with rfl | h1
      · rw [Equiv.swap_apply_left, hf]
      · rcases eq_or_ne c b with rfl | h2
        · rw [Equiv.swap_apply_right, hf]
        · rw [Equiv.swap_apply_of_ne_of_ne h1 h2]
    rw [e] at this
    exact self_eq_neg.1 this
  have h1 : α ⬝ᵥ v = ∑ f : Fin nu → Fin m, ∑ g : Fin nd → Fin m, α (Sum.elim f g) * v (Sum.elim f g) := by
    rw [← sum_product', univ_product_univ, dotProduct]
    refine Fintype.sum_equiv (Equiv.sumArrowEquivProdArrow _ _ _) _ _ fun f => ?_
    have : Sum.elim (Equiv.sumArrowEquivProdArrow (Fin nu) (Fin nd) (Fin m) f).1
        (Equiv.sumArrowEquivProdArrow (Fin nu) (Fin nd) (Fin m) f).2 = f := by
      funext a; rcases a with a | a <;> rfl
    rw [this]
  rw [h1, sum_injective (fun f => ∑ g : Fin nd → Fin m, α (Sum.elim f g) * v (Sum.elim f g))]
  · have h2 : ∀ f : Fin nu → Fin m, ∑ g : Fin nd → Fin m, α (Sum.elim f g) * v (Sum.elim f g) =
        ∑ t : Occ m nd, ∑ ρ : Equiv.Perm (Fin nd), α (Sum.elim f fun a => occ t (ρ a)) *
          v (Sum.elim f fun a => occ t (ρ a)) := by
      intro f
      refine sum_injective _ fun g hg => ?_
      obtain ⟨a, b, hab, hne⟩ := Function.not_injective_iff.1 hg
      rw [hz (Sum.elim f g) (Sum.inr a) (Sum.inr b) (by simpa using hne) rfl hab, zero_mul]
    simp only [h2]
    rw [← univ_product_univ, sum_product]
    refine sum_congr rfl fun s _ => ?_
    rw [sum_comm]
    refine sum_congr rfl fun t _ => ?_
    rw [slater_unit_dot, mul_sum]
    refine sum_congr rfl fun π _ => ?_
    rw [mul_sum]
    refine sum_congr rfl fun ρ _ => ?_
    have e : (Sum.elim (fun a => occ s (π a)) fun a => occ t (ρ a)) =
        fun a => occ2 (s, t) (Equiv.Perm.sumCongr π ρ a) := by
      funext a; rcases a with a | a <;> rfl
    rw [e]
    have hP : α (fun a => occ2 (s, t) (Equiv.Perm.sumCongr π ρ a)) =
        (Equiv.Perm.sign π : ℂ) * ((Equiv.Perm.sign ρ : ℂ) * α (occ2 (s, t))) := by
      have h1 := hα.perm_up π fun a => occ2 (s, t) (Equiv.Perm.sumCongr 1 ρ a)
      rw [hα.perm_dn] at h1
      rw [← h1]
      congr 1
      funext a
      rcases a with a | a <;> rfl
    rw [hP]
    ring
  · intro f hf
    obtain ⟨a, b, hab, hne⟩ := Function.not_injective_iff.1 hf
    refine sum_eq_zero fun g _ => ?_
    rw [hz (Sum.elim f g) (Sum.inl a) (Sum.inl b) (by simpa using hne) rfl hab, zero_mul]

/-- Products of operators that treat electrons of equal spin alike. -/
theorem sector_mul {X : Matrix (Fin nu ⊕ Fin nd → Fin m) (Fin nu ⊕ Fin nd → Fin m) ℂ} (hX : Sym spin X)
    (Y : Matrix (Fin nu ⊕ Fin nd → Fin m) (Fin nu ⊕ Fin nd → Fin m) ℂ) : sector (X * Y) = sector X * sector Y := by
  ext S T
  rw [Matrix.mul_apply]
  have h : sector (X * Y) S T = (slater (unit (occ2 S)) ᵥ* X) ⬝ᵥ (Y *ᵥ prodState (orbs (unit (occ2 T)))) := by
    rw [sector, Matrix.of_apply, ← Matrix.mulVec_mulVec, Matrix.dotProduct_mulVec]
  rw [h, anti_dot ((Step.slater_anti _).vecMul hX)]
  refine sum_congr rfl fun U _ => ?_
  rw [sector_apply X]
  rfl

theorem sector_one : sector (1 : Matrix (Fin nu ⊕ Fin nd → Fin m) (Fin nu ⊕ Fin nd → Fin m) ℂ) = 1 := by
  have occ_eq : ∀ {k : Nat} {s t : Occ m k} {π : Equiv.Perm (Fin k)}, (∀ a, occ t a = occ s (π a)) → π = 1 ∧ s = t := by
    intro k s t π e
    have h : s = t := by
      refine Subtype.ext (Finset.ext fun i => ?_)
      rw [occ_mem, occ_mem]
      simp only [e]
      exact ⟨fun ⟨a, h⟩ => ⟨π.symm a, by rw [Equiv.apply_symm_apply, h]⟩, fun ⟨a, h⟩ => ⟨π a, h⟩⟩
    subst h
    exact ⟨Equiv.ext fun a => (occ_injective s (e a)).symm, rfl⟩
  ext S T
  rw [sector, Matrix.of_apply, Matrix.one_mulVec, prodState_unit, dotProduct_single, mul_one, slater_unit]
  rw [sum_eq_single (1 : Equiv.Perm (Fin nu)), sum_eq_single (1 : Equiv.Perm (Fin nd))]
  · by_cases h : S = T
    · subst h
      rw [Matrix.one_apply_eq, if_pos]
      · simp
      · funext a; rcases a with a | a <;> rfl
    · rw [Matrix.one_apply_ne h, if_neg, mul_zero]
      intro e
      apply h
      exact Prod.ext (occ_eq (π := 1) fun a => congrFun e (Sum.inl a)).2
        (occ_eq (π := 1) fun a => congrFun e (Sum.inr a)).2
  · intro ρ _ hρ
    rw [if_neg, mul_zero]
    exact fun e => hρ (occ_eq fun a => congrFun e (Sum.inr a)).1
  · simp
  · intro π _ hπ
    refine sum_eq_zero fun ρ _ => ?_
    rw [if_neg, mul_zero]
    exact fun e => hπ (occ_eq fun a => congrFun e (Sum.inl a)).1
  · simp

end Verif.Grand
