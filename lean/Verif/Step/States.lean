import Verif.Step.Operators

/-!
# Determinants as states of several particles

The overlap of a determinant with the orbitals of a walker, and the matrix elements of the Hamiltonian,
as a linear functional of the product state of the orbitals.
-/

namespace Verif.Step

open MeasureTheory Matrix Finset
open Verif.Energy (ovl oneBody twoBody hamil)

variable {ι : Type} [Fintype ι] [DecidableEq ι] {m nx nb nu nd : Nat}

/-- Product state with the given orbital for each particle. -/
def prodState (o : ι → Fin m → ℂ) : (ι → Fin m) → ℂ := fun f => ∏ a, o a (f a)

theorem tens_mulVec (T : ι → Matrix (Fin m) (Fin m) ℂ) (o : ι → Fin m → ℂ) :
    tens T *ᵥ prodState o = prodState fun a => T a *ᵥ o a := by
  funext f
  simp only [Matrix.mulVec, dotProduct, tens, Matrix.of_apply, prodState, ← prod_mul_distrib]
  rw [prod_univ_sum, Fintype.piFinset_univ]

theorem onP_mulVec (a : ι) (X : Matrix (Fin m) (Fin m) ℂ) (o : ι → Fin m → ℂ) :
    onP a X *ᵥ prodState o = prodState (Function.update o a (X *ᵥ o a)) := by
  rw [onP, tens_mulVec]
  congr 1
  funext b
  by_cases h : b = a
  · subst h; simp
  · simp [Function.update_of_ne h]

/-! ## Determinants -/

/-- The wave function of a determinant of `k` electrons, complex conjugated. -/
noncomputable def slater1 {k : Nat} (A : Matrix (Fin m) (Fin k) ℂ) (f : Fin k → Fin m) : ℂ :=
  (Matrix.of fun a b => star (A (f b) a)).det

theorem ovl_eq {k : Nat} (A B : Matrix (Fin m) (Fin k) ℂ) :
    ovl A B = ∑ f, slater1 A f * ∏ b, B (f b) b := by
  have h : (Aᴴ * B)ᵀ = fun b => ∑ p, B p b • fun a => star (A p a) := by
    funext b a
    rw [Matrix.transpose_apply, Matrix.mul_apply, Finset.sum_apply]
    refine sum_congr rfl fun p _ => ?_
    rw [Matrix.conjTranspose_apply, Pi.smul_apply, smul_eq_mul, mul_comm]
  rw [ovl, ← det_transpose, h]
  change (detRowAlternating (n := Fin k) (R := ℂ)).toMultilinearMap (fun b => ∑ p, B p b • fun a => star (A p a)) = _
  rw [MultilinearMap.map_sum]
  refine sum_congr rfl fun f _ => ?_
  rw [MultilinearMap.map_smul_univ (detRowAlternating (n := Fin k) (R := ℂ)).toMultilinearMap
    (fun b => B (f b) b) fun b a => star (A (f b) a), smul_eq_mul, mul_comm]
  congr 1
  rw [slater1, ← det_transpose]
  rfl

/-- Spin of each electron: the up electrons come first. -/
def spin : Fin nu ⊕ Fin nd → Fin 2 := Sum.elim (fun _ => 0) fun _ => 1

/-- The orbital of each electron of a walker. -/
def orbs (phi : Slater.Wfn nb nu nd) : Fin nu ⊕ Fin nd → Fin nb → ℂ :=
  Sum.elim (fun a i => Slater.up phi i a) fun a i => Slater.dn phi i a

/-- The wave function of the product of an up and a down determinant, complex conjugated. -/
noncomputable def slater (A : Slater.Wfn nb nu nd) (f : Fin nu ⊕ Fin nd → Fin nb) : ℂ :=
  slater1 (Slater.up A) (fun a => f (Sum.inl a)) * slater1 (Slater.dn A) fun a => f (Sum.inr a)

theorem slater_prodState (A : Slater.Wfn nb nu nd) (o : Fin nu ⊕ Fin nd → Fin nb → ℂ) :
    slater A ⬝ᵥ prodState o = ovl (Slater.up A) (Matrix.of fun i a => o (Sum.inl a) i) *
      ovl (Slater.dn A) (Matrix.of fun i a => o (Sum.inr a) i) := by
  rw [ovl_eq, ovl_eq, sum_mul_sum, ← sum_product', dotProduct]
  refine Fintype.sum_equiv (Equiv.sumArrowEquivProdArrow _ _ _) _ _ fun f => ?_
  simp only [slater, prodState, Fintype.prod_sum_type, Equiv.sumArrowEquivProdArrow, Equiv.coe_fn_mk,
    Matrix.of_apply, Function.comp_def]
  ring

/-- Overlaps as functionals of the product state. -/
theorem ovl2_eq (A phi : Slater.Wfn nb nu nd) : ovl2 A phi = slater A ⬝ᵥ prodState (orbs phi) := by
  rw [slater_prodState]; rfl

/-! ## Hamiltonian -/

theorem slater_one (A : Slater.Wfn nb nu nd) (phi : Slater.Wfn nb nu nd) (X : Fin 2 → Matrix (Fin nb) (Fin nb) ℂ) :
    slater A ⬝ᵥ ((∑ a, onP a (X (spin a))) *ᵥ prodState (orbs phi)) =
      oneBody (X 0) (Slater.up A) (Slater.up phi) * ovl (Slater.dn A) (Slater.dn phi) +
        ovl (Slater.up A) (Slater.up phi) * oneBody (X 1) (Slater.dn A) (Slater.dn phi) := by
  rw [Matrix.sum_mulVec, dotProduct_sum, Fintype.sum_sum_type, oneBody, oneBody, sum_mul, mul_sum]
  congr 1 <;> refine sum_congr rfl fun a _ => ?_
  · rw [onP_mulVec, slater_prodState]
    congr 1
    · rw [ovl]
      congr 2
      ext i b
      by_cases h : b = a
      · subst h; simp [spin, orbs, Matrix.updateCol_self]; rfl
      · rw [Matrix.of_apply, Function.update_of_ne (by simpa using h), Matrix.updateCol_ne h]; rfl
  · rw [onP_mulVec, slater_prodState]
    congr 1
    · rw [ovl]
      congr 2
      ext i b
      by_cases h : b = a
      · subst h; simp [spin, orbs, Matrix.updateCol_self]; rfl
      · rw [Matrix.of_apply, Function.update_of_ne (by simpa using h), Matrix.updateCol_ne h]; rfl

theorem pair_mulVec {a b : ι} (h : b ≠ a) (X Y : Matrix (Fin m) (Fin m) ℂ) (o : ι → Fin m → ℂ) :
    (onP a X * onP b Y) *ᵥ prodState o =
      prodState (Function.update (Function.update o b (Y *ᵥ o b)) a (X *ᵥ o a)) := by
  rw [← Matrix.mulVec_mulVec, onP_mulVec, onP_mulVec, Function.update_of_ne (Ne.symm h)]

theorem sum_erase_eq {κ M : Type*} [Fintype κ] [DecidableEq κ] [AddCommMonoid M] (a : κ) (F : κ → M) :
    ∑ b ∈ univ.erase a, F b = ∑ b, if b = a then 0 else F b := by
  rw [← Finset.add_sum_erase univ (fun b => if b = a then 0 else F b) (mem_univ a), if_pos rfl, zero_add]
  exact sum_congr rfl fun b hb => (if_neg (ne_of_mem_erase hb)).symm

theorem slater_pair (A : Slater.Wfn nb nu nd) (phi : Slater.Wfn nb nu nd) (X Y : Matrix (Fin nb) (Fin nb) ℂ) :
    slater A ⬝ᵥ ((∑ a, ∑ b ∈ univ.erase a, onP a X * onP b Y) *ᵥ prodState (orbs phi)) =
      pairElem X Y (Slater.up A) (Slater.up phi) (Slater.dn A) (Slater.dn phi) := by
  rw [pairElem, twoBody_symm X Y, twoBody_symm X Y]
  set Bu := Slater.up phi with hBu
  set Bd := Slater.dn phi with hBd
  have hF : ∀ a b : Fin nu ⊕ Fin nd, b ≠ a → slater A ⬝ᵥ ((onP a X * onP b Y) *ᵥ prodState (orbs phi)) =
      slater A ⬝ᵥ prodState (Function.update (Function.update (orbs phi) b (Y *ᵥ orbs phi b)) a
        (X *ᵥ orbs phi a)) := fun a b h => by rw [pair_mulVec h]
  have inl_inl : ∀ i j : Fin nu, j ≠ i → slater A ⬝ᵥ ((onP (Sum.inl i) X * onP (Sum.inl j) Y) *ᵥ
      prodState (orbs phi)) = ((Slater.up A)ᴴ * (Bu.updateCol j (Y *ᵥ Bu.col j)).updateCol i
        (X *ᵥ Bu.col i)).det * ovl (Slater.dn A) Bd := by
    intro i j h
    rw [hF _ _ (by simpa using h), slater_prodState]
    congr 2
    congr 1
    ext r c
    simp only [Matrix.of_apply, Function.update_apply, Matrix.updateCol_apply, Sum.inl.injEq]
    split_ifs <;> rfl
  have inr_inr : ∀ i j : Fin nd, j ≠ i → slater A ⬝ᵥ ((onP (Sum.inr i) X * onP (Sum.inr j) Y) *ᵥ
      prodState (orbs phi)) = ovl (Slater.up A) Bu * ((Slater.dn A)ᴴ * (Bd.updateCol j
        (Y *ᵥ Bd.col j)).updateCol i (X *ᵥ Bd.col i)).det := by
    intro i j h
    rw [hF _ _ (by simpa using h), slater_prodState]
    congr 2
    congr 1
    ext r c
    simp only [Matrix.of_apply, Function.update_apply, Matrix.updateCol_apply, Sum.inr.injEq]
    split_ifs <;> rfl
  have inl_inr : ∀ (i : Fin nu) (j : Fin nd), slater A ⬝ᵥ ((onP (Sum.inl i) X * onP (Sum.inr j) Y) *ᵥ
      prodState (orbs phi)) = ((Slater.up A)ᴴ * Bu.updateCol i (X *ᵥ Bu.col i)).det *
        ((Slater.dn A)ᴴ * Bd.updateCol j (Y *ᵥ Bd.col j)).det := by
    intro i j
    rw [hF _ _ (by simp), slater_prodState]
    congr 2 <;> congr 1 <;> ext r c <;>
      simp only [Matrix.of_apply, Function.update_apply, Matrix.updateCol_apply, Sum.inr.injEq, Sum.inl.injEq,
        reduceCtorEq, if_false] <;> split_ifs <;> rfl
  have inr_inl : ∀ (i : Fin nd) (j : Fin nu), slater A ⬝ᵥ ((onP (Sum.inr i) X * onP (Sum.inl j) Y) *ᵥ
      prodState (orbs phi)) = ((Slater.up A)ᴴ * Bu.updateCol j (Y *ᵥ Bu.col j)).det *
        ((Slater.dn A)ᴴ * Bd.updateCol i (X *ᵥ Bd.col i)).det := by
    intro i j
    rw [hF _ _ (by simp), slater_prodState]
    congr 2 <;> congr 1 <;> ext r c <;>
      simp only [Matrix.of_apply, Function.update_apply, Matrix.updateCol_apply, Sum.inr.injEq, Sum.inl.injEq,
        reduceCtorEq, if_false] <;> split_ifs <;> rfl
  simp only [sum_erase_eq]
  simp only [Fintype.sum_sum_type, Sum.inl.injEq, Sum.inr.injEq, reduceCtorEq, if_false]
  have t1 : ∑ i, ∑ j : Fin nu, slater A ⬝ᵥ ((if j = i then (0 : Matrix (Fin nu ⊕ Fin nd → Fin nb) _ ℂ) else
      onP (Sum.inl i) X * onP (Sum.inl j) Y) *ᵥ prodState (orbs phi)) =
      twoBody Y X (Slater.up A) Bu * ovl (Slater.dn A) Bd := by
    rw [twoBody, sum_comm, sum_mul]
    refine sum_congr rfl fun j _ => ?_
    rw [sum_mul]
    refine sum_congr rfl fun i _ => ?_
    by_cases h : j = i
    · rw [if_pos h, if_pos h, Matrix.zero_mulVec, dotProduct_zero, zero_mul]
    · rw [if_neg h, if_neg h, inl_inl i j h]
  have t2 : ∑ i, ∑ j : Fin nd, slater A ⬝ᵥ ((if j = i then (0 : Matrix (Fin nu ⊕ Fin nd → Fin nb) _ ℂ) else
      onP (Sum.inr i) X * onP (Sum.inr j) Y) *ᵥ prodState (orbs phi)) =
      ovl (Slater.up A) Bu * twoBody Y X (Slater.dn A) Bd := by
    rw [twoBody, sum_comm, mul_sum]
    refine sum_congr rfl fun j _ => ?_
    rw [mul_sum]
    refine sum_congr rfl fun i _ => ?_
    by_cases h : j = i
    · rw [if_pos h, if_pos h, Matrix.zero_mulVec, dotProduct_zero, mul_zero]
    · rw [if_neg h, if_neg h, inr_inr i j h]
  simp only [sum_add_distrib, Matrix.add_mulVec, dotProduct_add, Matrix.sum_mulVec, dotProduct_sum, inl_inr,
    inr_inl]
  rw [t1, t2, oneBody, oneBody, oneBody, oneBody, sum_mul_sum, sum_mul_sum, sum_comm (s := (univ : Finset (Fin nd)))]
  ring

/-- Matrix elements of the Hamiltonian are those of `Energy.hamil`. -/
theorem hamOp_elem (h : Fin 2 → Matrix (Fin nb) (Fin nb) ℂ) (L : Fin nx → Matrix (Fin nb) (Fin nb) ℂ)
    (ecore : ℂ) (A phi : Slater.Wfn nb nu nd) :
    slater A ⬝ᵥ (hamOp h L ecore spin *ᵥ prodState (orbs phi)) =
      hamil h L ecore (Slater.up A) (Slater.up phi) (Slater.dn A) (Slater.dn phi) := by
  rw [hamOp, Matrix.add_mulVec, Matrix.add_mulVec, dotProduct_add, dotProduct_add, slater_one,
    Matrix.smul_mulVec, Matrix.one_mulVec, dotProduct_smul, ← ovl2_eq, Matrix.smul_mulVec, Matrix.sum_mulVec,
    dotProduct_smul, dotProduct_sum, hamil, ovl2, smul_eq_mul, smul_eq_mul]
  congr 2
  refine sum_congr rfl fun x _ => ?_
  rw [slater_pair A phi (L x) (L x), pairElem]
  ring

theorem hubOp_elem (h : Fin 2 → Matrix (Fin nb) (Fin nb) ℂ) (U : ℝ) (A phi : Slater.Wfn nb nu nd) :
    slater A ⬝ᵥ (hubOp h U spin *ᵥ prodState (orbs phi)) =
      hubbardElem h U (Slater.up A) (Slater.up phi) (Slater.dn A) (Slater.dn phi) := by
  have inl_inr : ∀ (i : Fin nu) (j : Fin nd) (X : Matrix (Fin nb) (Fin nb) ℂ),
      slater A ⬝ᵥ ((onP (Sum.inl i) X * onP (Sum.inr j) X) *ᵥ
      prodState (orbs phi)) = ((Slater.up A)ᴴ * (Slater.up phi).updateCol i (X *ᵥ (Slater.up phi).col i)).det *
        ((Slater.dn A)ᴴ * (Slater.dn phi).updateCol j (X *ᵥ (Slater.dn phi).col j)).det := by
    intro i j X
    rw [pair_mulVec (by simp), slater_prodState]
    congr 2 <;> congr 1 <;> ext r c <;>
      simp only [Matrix.of_apply, Function.update_apply, Matrix.updateCol_apply, Sum.inr.injEq, Sum.inl.injEq,
        reduceCtorEq, if_false] <;> split_ifs <;> rfl
  have e0 : ∀ i : Fin nb, (∑ a : Fin nu ⊕ Fin nd, ∑ b : Fin nu ⊕ Fin nd, if spin a = 0 ∧ spin b = 1 then
      onP a (site i) * onP b (site i) else 0) =
      ∑ a : Fin nu, ∑ b : Fin nd, onP (Sum.inl a : Fin nu ⊕ Fin nd) (site i) *
        onP (Sum.inr b : Fin nu ⊕ Fin nd) (site i : Matrix (Fin nb) (Fin nb) ℂ) := by
    intro i
    simp [Fintype.sum_sum_type, spin]
  rw [hubOp, Matrix.add_mulVec, dotProduct_add, slater_one, Matrix.smul_mulVec, dotProduct_smul,
    Matrix.sum_mulVec, dotProduct_sum, hubbardElem, oneElem, smul_eq_mul]
  congr 2
  refine sum_congr rfl fun i _ => ?_
  rw [e0]
  simp only [Matrix.sum_mulVec, dotProduct_sum, inl_inr]
  rw [oneBody, oneBody, sum_mul_sum]

/-- A matrix element as a linear map of the operator. -/
def elemMap {κ : Type} [Fintype κ] (α v : κ → ℂ) : Matrix κ κ ℂ →ₗ[ℂ] ℂ where
  toFun X := α ⬝ᵥ (X *ᵥ v)
  map_add' X Y := by rw [Matrix.add_mulVec, dotProduct_add]
  map_smul' r X := by rw [Matrix.smul_mulVec, dotProduct_smul, RingHom.id_apply]

theorem coulombOp_elem (h : Fin 2 → Matrix (Fin nb) (Fin nb) ℂ) (eri : Energy.Eri nb) (A phi : Slater.Wfn nb nu nd) :
    slater A ⬝ᵥ (coulombOp h eri spin *ᵥ prodState (orbs phi)) =
      coulombElem h eri (Slater.up A) (Slater.up phi) (Slater.dn A) (Slater.dn phi) := by
  have hp : ∀ X Y : Matrix (Fin nb) (Fin nb) ℂ, elemMap (slater A) (prodState (orbs phi))
      (∑ a, ∑ b ∈ univ.erase a, onP a X * onP b Y) =
      pairElem X Y (Slater.up A) (Slater.up phi) (Slater.dn A) (Slater.dn phi) := fun X Y => slater_pair A phi X Y
  have h1 : elemMap (slater A) (prodState (orbs phi)) (∑ a, onP a (h (spin a))) =
      oneElem h (Slater.up A) (Slater.up phi) (Slater.dn A) (Slater.dn phi) := slater_one A phi h
  change elemMap (slater A) (prodState (orbs phi)) (coulombOp h eri spin) = _
  rw [coulombOp, map_add, h1, coulombElem]
  congr 1
  rw [map_smul, smul_eq_mul]
  congr 1
  rw [map_sum]
  refine sum_congr rfl fun p _ => ?_
  rw [map_sum]
  refine sum_congr rfl fun r _ => ?_
  rw [map_sum]
  refine sum_congr rfl fun q _ => ?_
  rw [map_sum]
  refine sum_congr rfl fun s _ => ?_
  rw [map_smul, smul_eq_mul, hp]

end Verif.Step
