import Verif.CI.Wedge
import Verif.CI.Props
import Verif.Step.Run
import Mathlib.LinearAlgebra.Matrix.Block
import Mathlib.Data.Fin.Tuple.Sort

/-!
# Determinants of orbitals and occupation numbers (C86)

Matrix elements of the Hamiltonian that projection samples, between determinants of unit vectors, are the second-quantised
matrix elements of `Verif.CI.ham`; functionals that are antisymmetric in electrons of equal spin are sums of these
determinants.
-/

namespace Verif.CI.Bridge

open Finset Matrix
open Verif.Step (slater slater1 unit onP hamOp spin Anti swapP)

variable {nx nb nu nd m : Nat} {ι : Type} [Fintype ι] [DecidableEq ι]

/-! ## Spin orbitals -/

/-- The spin orbital of orbital `p` for an electron. -/
def shift (nb : Nat) (a : Fin nu ⊕ Fin nd) (p : Nat) : Nat := Sum.elim (fun _ => p) (fun _ => p + nb) a

/-- The spin orbitals of all electrons, up first. -/
def seq (f : Fin nu ⊕ Fin nd → Fin nb) : Fin (nu + nd) → Nat :=
  fun i => shift nb (finSumFinEquiv.symm i) (f (finSumFinEquiv.symm i))

/-- The occupied spin orbitals. -/
def occ (f : Fin nu ⊕ Fin nd → Fin nb) : Finset Nat := univ.image fun a => shift nb a (f a)

/-- The orbitals of each spin increase. -/
def Inc (f : Fin nu ⊕ Fin nd → Fin nb) : Prop :=
  StrictMono (fun a => f (Sum.inl a)) ∧ StrictMono fun a => f (Sum.inr a)

theorem seq_apply (f : Fin nu ⊕ Fin nd → Fin nb) (a : Fin nu ⊕ Fin nd) : seq f (finSumFinEquiv a) = shift nb a (f a) := by
  simp [seq]

theorem image_seq (f : Fin nu ⊕ Fin nd → Fin nb) : univ.image (seq f) = occ f := by
  ext x
  simp only [occ, mem_image, mem_univ, true_and]
  constructor
  · rintro ⟨i, rfl⟩; exact ⟨finSumFinEquiv.symm i, rfl⟩
  · rintro ⟨a, rfl⟩; exact ⟨finSumFinEquiv a, seq_apply f a⟩

theorem Inc.seq {f : Fin nu ⊕ Fin nd → Fin nb} (h : Inc f) : StrictMono (seq f) := by
  intro i j hij
  obtain ⟨a, rfl⟩ := finSumFinEquiv.surjective i
  obtain ⟨b, rfl⟩ := finSumFinEquiv.surjective j
  rw [seq_apply, seq_apply]
  rcases a with a | a <;> rcases b with b | b
  · simp only [finSumFinEquiv_apply_left, Fin.lt_def, Fin.val_castAdd] at hij
    exact h.1 hij
  · have := (f (Sum.inl a)).2
    simp only [shift, Sum.elim_inl, Sum.elim_inr]
    omega
  · simp only [finSumFinEquiv_apply_left, finSumFinEquiv_apply_right, Fin.lt_def, Fin.val_natAdd, Fin.val_castAdd] at hij
    omega
  · simp only [finSumFinEquiv_apply_right, Fin.natAdd_lt_natAdd_iff] at hij
    have := Fin.lt_def.1 (h.2 hij)
    simp only [shift, Sum.elim_inr]
    exact Nat.add_lt_add_right this nb

theorem seq_update (f : Fin nu ⊕ Fin nd → Fin nb) (a : Fin nu ⊕ Fin nd) (p : Fin nb) :
    seq (Function.update f a p) = Function.update (seq f) (finSumFinEquiv a) (shift nb a p) := by
  funext i
  obtain ⟨b, rfl⟩ := finSumFinEquiv.surjective i
  rw [seq_apply]
  by_cases h : b = a
  · subst h; simp
  · rw [Function.update_of_ne h, Function.update_of_ne (by simpa using h), seq_apply]

/-- Amplitudes of determinants of unit vectors. -/
theorem slater_unit {t : Fin nu ⊕ Fin nd → Fin nb} (ht : Inc t) (f : Fin nu ⊕ Fin nd → Fin nb) :
    slater (unit t) f = (wedge (nu + nd) (seq f) (occ t) : ℤ) := by
  rw [← image_seq, wedge_det _ _ _ ht.seq, Int.cast_det, ← Matrix.det_submatrix_equiv_self finSumFinEquiv]
  have e : ((Matrix.of fun i j => if seq t i = seq f j then (1 : ℤ) else 0).map (Int.cast : ℤ → ℂ)).submatrix
      finSumFinEquiv finSumFinEquiv = Matrix.fromBlocks
        (Matrix.of fun a b => if f (Sum.inl b) = t (Sum.inl a) then (1 : ℂ) else 0) 0 0
        (Matrix.of fun a b => if f (Sum.inr b) = t (Sum.inr a) then (1 : ℂ) else 0) := by
    ext a b
    rw [Matrix.submatrix_apply, Matrix.map_apply, Matrix.of_apply, seq_apply, seq_apply]
    rcases a with a | a <;> rcases b with b | b
    · simp only [shift, Sum.elim_inl, Matrix.fromBlocks_apply₁₁, Matrix.of_apply, ← Fin.ext_iff]
      by_cases h : t (Sum.inl a) = f (Sum.inl b)
      · rw [if_pos h, if_pos h.symm, Int.cast_one]
      · rw [if_neg h, if_neg (Ne.symm h), Int.cast_zero]
    · have := (t (Sum.inl a)).2
      rw [if_neg (by simp only [shift, Sum.elim_inl, Sum.elim_inr]; omega)]
      simp
    · have := (f (Sum.inl b)).2
      rw [if_neg (by simp only [shift, Sum.elim_inl, Sum.elim_inr]; omega)]
      simp
    · simp only [shift, Sum.elim_inr, Matrix.fromBlocks_apply₂₂, Matrix.of_apply, Nat.add_right_cancel_iff, ← Fin.ext_iff]
      by_cases h : t (Sum.inr a) = f (Sum.inr b)
      · rw [if_pos h, if_pos h.symm, Int.cast_one]
      · rw [if_neg h, if_neg (Ne.symm h), Int.cast_zero]
  rw [e, Matrix.det_fromBlocks_zero₂₁, slater, unit, Slater.up_join, Slater.dn_join, slater1, slater1]
  congr 2 <;> ext a b <;> simp only [Matrix.of_apply] <;> split_ifs <;> simp

/-! ## Operators of electrons -/

theorem vecMul_onP (α : (ι → Fin m) → ℂ) (a : ι) (X : Matrix (Fin m) (Fin m) ℂ) (f : ι → Fin m) :
    (α ᵥ* onP a X) f = ∑ p, X p (f a) * α (Function.update f a p) := by
  have h0 : ∀ g, onP a X g f = ∑ p, if g = Function.update f a p then X p (f a) else 0 := by
    intro g
    rw [Step.onP_apply]
    by_cases hg : ∃ p, g = Function.update f a p
    · obtain ⟨p, rfl⟩ := hg
      rw [Finset.sum_eq_single p, if_pos rfl, prod_eq_one, one_mul, Function.update_self]
      · intro b hb
        rw [Function.update_of_ne (ne_of_mem_erase hb), Matrix.one_apply_eq]
      · intro q _ hq
        rw [if_neg]
        intro h
        exact hq (by simpa using (congrFun h a).symm)
      · intro h; exact absurd (mem_univ p) h
    · push Not at hg
      rw [sum_eq_zero fun p _ => if_neg (hg p)]
      have : ∃ b, b ≠ a ∧ g b ≠ f b := by
        by_contra hc
        push Not at hc
        refine hg (g a) (funext fun b => ?_)
        by_cases hb : b = a
        · subst hb; simp
        · rw [Function.update_of_ne hb, hc b hb]
      obtain ⟨b, hb, hne⟩ := this
      have hz : ∏ b ∈ univ.erase a, (1 : Matrix (Fin m) (Fin m) ℂ) (g b) (f b) = 0 :=
        prod_eq_zero (i := b) (mem_erase.2 ⟨hb, mem_univ b⟩) (Matrix.one_apply_ne hne)
      rw [hz, zero_mul]
  simp only [Matrix.vecMul, dotProduct, h0, mul_sum]
  rw [sum_comm]
  refine sum_congr rfl fun p _ => ?_
  rw [Finset.sum_eq_single (Function.update f a p), if_pos rfl, mul_comm]
  · intro g _ hg; rw [if_neg hg, mul_zero]
  · intro h; exact absurd (mem_univ _) h

theorem vecMul_pair (α : (ι → Fin m) → ℂ) {a b : ι} (h : b ≠ a) (X Y : Matrix (Fin m) (Fin m) ℂ) (f : ι → Fin m) :
    (α ᵥ* (onP a X * onP b Y)) f =
      ∑ p, ∑ q, X p (f a) * Y q (f b) * α (Function.update (Function.update f b q) a p) := by
  rw [← Matrix.vecMul_vecMul, vecMul_onP, sum_comm]
  refine sum_congr rfl fun q _ => ?_
  rw [vecMul_onP, mul_sum]
  refine sum_congr rfl fun p _ => ?_
  rw [Function.update_of_ne h.symm]
  ring

/-! ## Sums over spin orbitals -/

/-- A table of integrals as a function of natural numbers. -/
def ext (X : Matrix (Fin nb) (Fin nb) ℂ) (p q : Nat) : ℂ :=
  if h : p < nb ∧ q < nb then X ⟨p, h.1⟩ ⟨q, h.2⟩ else 0

theorem ext_fin (X : Matrix (Fin nb) (Fin nb) ℂ) (p q : Fin nb) : ext X p q = X p q := by
  rw [ext, dif_pos ⟨p.2, q.2⟩]

/-- `⟨pq|rs⟩` from Cholesky vectors. -/
noncomputable def eri (L : Fin nx → Matrix (Fin nb) (Fin nb) ℂ) (p q r s : Nat) : ℂ := ∑ x, ext (L x) p r * ext (L x) q s

theorem sp_shift (a : Fin nu ⊕ Fin nd) (p : Fin nb) : sp nb (shift nb a p) = p := by
  have := p.2
  rcases a with a | a <;> simp [sp, shift]

theorem up_shift (a : Fin nu ⊕ Fin nd) (p : Fin nb) : up nb (shift nb a p) = Sum.elim (fun _ => true) (fun _ => false) a := by
  have := p.2
  rcases a with a | a <;> simp [up, shift]

theorem shift_lt (a : Fin nu ⊕ Fin nd) (p : Fin nb) : shift nb a p < 2 * nb := by
  have := p.2
  rcases a with a | a <;> simp [shift] <;> omega

theorem sum_spin (a : Fin nu ⊕ Fin nd) (q : Fin nb) (g : Nat → ℂ) :
    ∑ P ∈ range (2 * nb), (if up nb P = up nb (shift nb a q) then g P else 0) = ∑ p : Fin nb, g (shift nb a p) := by
  rw [two_mul, sum_range_add, up_shift]
  rcases a with a | a
  · rw [sum_eq_zero (s := range nb) (f := fun x => if up nb (nb + x) = _ then g (nb + x) else 0), add_zero,
      Finset.sum_range]
    · refine sum_congr rfl fun p _ => ?_
      simp [up, shift]
    · intro x _
      simp [up]
  · rw [sum_eq_zero (s := range nb) (f := fun x => if up nb x = _ then g x else 0), zero_add,
      Finset.sum_range]
    · refine sum_congr rfl fun p _ => ?_
      simp [up, shift, add_comm]
    · intro x hx
      have := mem_range.1 hx
      rw [if_neg]
      simp [up, this]

/-! ## Matrix elements -/

theorem one_elem_eq (H : Matrix (Fin nb) (Fin nb) ℂ) {t f : Fin nu ⊕ Fin nd → Fin nb} (ht : Inc t) (hf : Inc f) :
    oneBody nb (ext H) (occ t) (occ f) = ∑ a, (slater (unit t) ᵥ* onP a H) f := by
  have e1 : ∀ P Q, h1 nb (ext H) P Q * (inner (occ t) (cre P (ann Q (ket (occ f)))) : ℂ) =
      ∑ a : Fin nu ⊕ Fin nd, if shift nb a (f a) = Q then h1 nb (ext H) P Q *
        (wedge (nu + nd) (Function.update (seq f) (finSumFinEquiv a) P) (occ t) : ℤ) else 0 := by
    intro P Q
    rw [← image_seq f, one_wedge hf.seq, ← finSumFinEquiv.sum_comp, Int.cast_sum, mul_sum]
    refine sum_congr rfl fun a _ => ?_
    rw [seq_apply]
    split_ifs <;> simp
  unfold oneBody
  simp only [e1]
  have e2 : ∀ P, (∑ Q ∈ range (2 * nb), ∑ a : Fin nu ⊕ Fin nd, if shift nb a (f a) = Q then h1 nb (ext H) P Q *
        (wedge (nu + nd) (Function.update (seq f) (finSumFinEquiv a) P) (occ t) : ℂ) else 0) =
      ∑ a : Fin nu ⊕ Fin nd, h1 nb (ext H) P (shift nb a (f a)) *
        (wedge (nu + nd) (Function.update (seq f) (finSumFinEquiv a) P) (occ t) : ℂ) := by
    intro P
    rw [sum_comm]
    refine sum_congr rfl fun a _ => ?_
    rw [sum_ite_eq, if_pos (mem_range.2 (shift_lt a (f a)))]
  simp only [e2]
  rw [sum_comm]
  refine sum_congr rfl fun a _ => ?_
  rw [vecMul_onP]
  simp only [h1, ite_mul, zero_mul]
  rw [sum_spin a (f a) fun P => ext H (sp nb P) (sp nb (shift nb a (f a))) *
    (wedge (nu + nd) (Function.update (seq f) (finSumFinEquiv a) P) (occ t) : ℂ)]
  refine sum_congr rfl fun p _ => ?_
  rw [sp_shift, sp_shift, ext_fin, slater_unit ht, seq_update]

theorem two_elem_eq (L : Fin nx → Matrix (Fin nb) (Fin nb) ℂ) {t f : Fin nu ⊕ Fin nd → Fin nb} (ht : Inc t) (hf : Inc f) :
    twoBody nb (eri L) (occ t) (occ f) =
      1 / 2 * ∑ x, ∑ a, ∑ b ∈ univ.erase a, (slater (unit t) ᵥ* (onP a (L x) * onP b (L x))) f := by
  set w : Fin nu ⊕ Fin nd → Fin nu ⊕ Fin nd → Nat → Nat → ℂ := fun a b P Q =>
    (wedge (nu + nd) (Function.update (Function.update (seq f) (finSumFinEquiv b) Q) (finSumFinEquiv a) P) (occ t) : ℤ)
    with hw
  have e1 : ∀ R S P Q, v2 nb (eri L) P Q R S * (inner (occ t) (cre P (cre Q (ann S (ann R (ket (occ f)))))) : ℂ) =
      ∑ b : Fin nu ⊕ Fin nd, ∑ a : Fin nu ⊕ Fin nd, if a ≠ b then
        if shift nb a (f a) = R then if shift nb b (f b) = S then v2 nb (eri L) P Q R S * w a b P Q else 0 else 0 else 0 := by
    intro R S P Q
    rw [← image_seq f, two_wedge hf.seq, ← finSumFinEquiv.sum_comp, Int.cast_sum, mul_sum]
    refine sum_congr rfl fun b _ => ?_
    rw [← finSumFinEquiv.sum_comp, Int.cast_sum, mul_sum]
    refine sum_congr rfl fun a _ => ?_
    rw [seq_apply, seq_apply]
    by_cases h1 : a = b <;> by_cases h2 : shift nb a (f a) = R <;> by_cases h3 : shift nb b (f b) = S <;>
      simp [h1, h2, h3, hw]
  have e2 : twoBody nb (eri L) (occ t) (occ f) = 1 / 2 * ∑ b : Fin nu ⊕ Fin nd, ∑ a : Fin nu ⊕ Fin nd, if a ≠ b then
      ∑ P ∈ range (2 * nb), ∑ Q ∈ range (2 * nb), v2 nb (eri L) P Q (shift nb a (f a)) (shift nb b (f b)) * w a b P Q
        else 0 := by
    unfold twoBody
    congr 1
    simp only [e1]
    have e3 : ∀ R S, (∑ P ∈ range (2 * nb), ∑ Q ∈ range (2 * nb), ∑ b : Fin nu ⊕ Fin nd, ∑ a : Fin nu ⊕ Fin nd,
        if a ≠ b then if shift nb a (f a) = R then if shift nb b (f b) = S then v2 nb (eri L) P Q R S * w a b P Q
          else 0 else 0 else 0) = ∑ b : Fin nu ⊕ Fin nd, ∑ a : Fin nu ⊕ Fin nd, if a ≠ b then
        if shift nb a (f a) = R then if shift nb b (f b) = S then
          ∑ P ∈ range (2 * nb), ∑ Q ∈ range (2 * nb), v2 nb (eri L) P Q R S * w a b P Q else 0 else 0 else 0 := by
      intro R S
      rw [sum_congr rfl fun P _ => sum_comm, sum_comm]
      refine sum_congr rfl fun b _ => ?_
      rw [sum_congr rfl fun P _ => sum_comm, sum_comm]
      refine sum_congr rfl fun a _ => ?_
      split_ifs <;> simp
    simp only [e3]
    rw [sum_congr rfl fun R _ => sum_comm, sum_comm]
    refine sum_congr rfl fun b _ => ?_
    rw [sum_congr rfl fun R _ => sum_comm, sum_comm]
    refine sum_congr rfl fun a _ => ?_
    by_cases hab : a ≠ b
    · simp only [if_pos hab]
      rw [Finset.sum_eq_single (shift nb a (f a)), Finset.sum_eq_single (shift nb b (f b)), if_pos rfl, if_pos rfl]
      · intro S _ hS; rw [if_pos rfl, if_neg (Ne.symm hS)]
      · intro h; exact absurd (mem_range.2 (shift_lt b (f b))) h
      · intro R _ hR; exact sum_eq_zero fun S _ => if_neg (Ne.symm hR)
      · intro h; exact absurd (mem_range.2 (shift_lt a (f a))) h
    · simp only [if_neg hab]; simp
  have e4 : ∀ a b : Fin nu ⊕ Fin nd, (∑ P ∈ range (2 * nb), ∑ Q ∈ range (2 * nb),
      v2 nb (eri L) P Q (shift nb a (f a)) (shift nb b (f b)) * w a b P Q) =
      ∑ x, ∑ p : Fin nb, ∑ q : Fin nb, L x p (f a) * L x q (f b) * w a b (shift nb a p) (shift nb b q) := by
    intro a b
    simp only [v2, ite_and, ite_mul, zero_mul]
    have e5 : ∀ P, (∑ Q ∈ range (2 * nb), if up nb P = up nb (shift nb a (f a)) then
        if up nb Q = up nb (shift nb b (f b)) then
          eri L (sp nb P) (sp nb Q) (sp nb (shift nb a (f a))) (sp nb (shift nb b (f b))) * w a b P Q else 0 else 0) =
        if up nb P = up nb (shift nb a (f a)) then ∑ q : Fin nb,
          eri L (sp nb P) q (f a) (f b) * w a b P (shift nb b q) else 0 := by
      intro P
      split_ifs with h
      · rw [sum_spin b (f b) fun Q => eri L (sp nb P) (sp nb Q) (sp nb (shift nb a (f a))) (sp nb (shift nb b (f b))) *
          w a b P Q]
        refine sum_congr rfl fun q _ => ?_
        rw [sp_shift, sp_shift, sp_shift]
      · simp
    simp only [e5]
    rw [sum_spin a (f a) fun P => ∑ q : Fin nb, eri L (sp nb P) q (f a) (f b) * w a b P (shift nb b q), sum_comm]
    rw [sum_congr rfl fun q _ => sum_congr rfl fun p _ => by rw [sp_shift, eri, sum_mul]]
    rw [sum_congr rfl fun q _ => sum_comm, sum_comm]
    refine sum_congr rfl fun x _ => ?_
    rw [sum_comm]
    refine sum_congr rfl fun p _ => sum_congr rfl fun q _ => ?_
    rw [ext_fin, ext_fin]
  rw [e2]
  congr 1
  simp only [e4]
  have e6 : ∀ x (a b : Fin nu ⊕ Fin nd), b ≠ a → (slater (unit t) ᵥ* (onP a (L x) * onP b (L x))) f =
      ∑ p : Fin nb, ∑ q : Fin nb, L x p (f a) * L x q (f b) * w a b (shift nb a p) (shift nb b q) := by
    intro x a b hab
    rw [vecMul_pair _ hab]
    refine sum_congr rfl fun p _ => sum_congr rfl fun q _ => ?_
    rw [slater_unit ht, seq_update, seq_update]
  rw [sum_comm]
  rw [sum_comm (s := (univ : Finset (Fin nx)))]
  refine sum_congr rfl fun a _ => ?_
  rw [sum_comm, Step.sum_erase_eq]
  refine sum_congr rfl fun b _ => ?_
  by_cases hab : b = a
  · rw [if_pos hab, if_neg (by simp [hab])]
  · rw [if_neg hab, if_pos (Ne.symm hab)]
    exact sum_congr rfl fun x _ => (e6 x a b hab).symm

/-- **C86 (matrix elements)**: matrix elements of the Hamiltonian of the electrons between determinants of unit vectors
are those of second quantisation. -/
theorem hamOp_fock {h : Fin 2 → Matrix (Fin nb) (Fin nb) ℂ} (h01 : h 1 = h 0) (L : Fin nx → Matrix (Fin nb) (Fin nb) ℂ)
    (ecore : ℂ) {t f : Fin nu ⊕ Fin nd → Fin nb} (ht : Inc t) (hf : Inc f) :
    (slater (unit t) ᵥ* hamOp h L ecore spin) f = ham nb ecore (ext (h 0)) (eri L) (occ t) (occ f) := by
  have hs : ∀ s, h s = h 0 := by
    intro s
    fin_cases s
    · rfl
    · exact h01
  have e0 : (inner (occ t) (ket (occ f)) : ℂ) = slater (unit t) f := by
    rw [slater_unit ht, wedge_mono _ _ hf.seq, image_seq]
    rfl
  rw [ham, e0, one_elem_eq (h 0) ht hf, two_elem_eq L ht hf, hamOp, Matrix.vecMul_add, Matrix.vecMul_add,
    Matrix.vecMul_smul, Matrix.vecMul_smul, Matrix.vecMul_one]
  simp only [Pi.add_apply, Pi.smul_apply, smul_eq_mul, Matrix.vecMul_sum, Finset.sum_apply, hs]

/-! ## Antisymmetric functionals -/

theorem occ_inj {f g : Fin nu ⊕ Fin nd → Fin nb} (hf : Inc f) (hg : Inc g) (h : occ f = occ g) : f = g := by
  rw [← image_seq, ← image_seq] at h
  have h1 : Set.range (seq f) = Set.range (seq g) := by
    have := congrArg (fun s : Finset Nat => (s : Set Nat)) h
    simpa using this
  have h2 := (StrictMono.range_inj hf.seq hg.seq).1 h1
  funext a
  have h3 := congrFun h2 (finSumFinEquiv a)
  rw [seq_apply, seq_apply] at h3
  rcases a with a | a
  · exact Fin.ext h3
  · exact Fin.ext (Nat.add_right_cancel h3)

/-- Overlaps of determinants of unit vectors in increasing order. -/
theorem unit_ortho {t f : Fin nu ⊕ Fin nd → Fin nb} (ht : Inc t) (hf : Inc f) :
    slater (unit t) f = if t = f then 1 else 0 := by
  rw [slater_unit ht, wedge_mono _ _ hf.seq, image_seq, vec, ket, inner]
  by_cases h : t = f
  · subst h; simp
  · rw [if_neg h, if_neg fun hc => h (occ_inj hf ht hc).symm]; simp

theorem anti_zero {α : (Fin nu ⊕ Fin nd → Fin nb) → ℂ} (hα : Anti spin α) {f : Fin nu ⊕ Fin nd → Fin nb}
    {a b : Fin nu ⊕ Fin nd} (hab : a ≠ b) (hs : spin a = spin b) (h : f a = f b) : α f = 0 := by
  have h1 := hα a b hab hs f
  have h2 : swapP a b f = f := by
    funext c
    have : swapP a b f c = f (Equiv.swap a b c) := by simp [swapP, Equiv.arrowCongr]
    rw [this]
    by_cases hca : c = a
    · subst hca; rw [Equiv.swap_apply_left, h]
    · by_cases hcb : c = b
      · subst hcb; rw [Equiv.swap_apply_right, h]
      · rw [Equiv.swap_apply_of_ne_of_ne hca hcb]
  rw [h2] at h1
  exact self_eq_neg.1 h1

/-- Electrons can be put in order. -/
theorem exists_sort {k : Nat} (f : Fin k → Fin nb) (hf : Function.Injective f) : ∃ π : Equiv.Perm (Fin k),
    StrictMono fun a => f (π a) :=
  ⟨Tuple.sort f, (Tuple.monotone_sort f).strictMono_of_injective (hf.comp (Tuple.sort f).injective)⟩

open Classical in
/-- A functional that is antisymmetric in electrons of equal spin is a sum of determinants of unit vectors. -/
theorem anti_expand {α : (Fin nu ⊕ Fin nd → Fin nb) → ℂ} (hα : Anti spin α) :
    α = ∑ h with Inc h, α h • slater (unit h) := by
  funext f
  rw [Finset.sum_apply]
  simp only [Pi.smul_apply, smul_eq_mul]
  by_cases hu : Function.Injective fun a => f (Sum.inl a)
  · by_cases hd : Function.Injective fun a => f (Sum.inr a)
    · obtain ⟨π, hπ⟩ := exists_sort _ hu
      obtain ⟨ρ, hρ⟩ := exists_sort _ hd
      set g : Fin nu ⊕ Fin nd → Fin nb := fun a => f (Equiv.Perm.sumCongr π ρ a) with hg
      have hi : Inc g := ⟨hπ, hρ⟩
      have key : ∀ β : (Fin nu ⊕ Fin nd → Fin nb) → ℂ, Anti spin β →
          β g = (Equiv.Perm.sign π : ℂ) * ((Equiv.Perm.sign ρ : ℂ) * β f) := by
        intro β hβ
        have h1 := hβ.perm_up π fun a => f (Equiv.Perm.sumCongr 1 ρ a)
        rw [hβ.perm_dn] at h1
        rw [← h1]
        congr 1
        funext a
        rcases a with a | a <;> rfl
      have hne : ((Equiv.Perm.sign π : ℂ) * (Equiv.Perm.sign ρ : ℂ)) ≠ 0 := by
        refine mul_ne_zero ?_ ?_ <;> exact_mod_cast Units.ne_zero _
      have hsum : α g = ∑ h with Inc h, α h * slater (unit h) g := by
        rw [Finset.sum_eq_single g]
        · rw [unit_ortho hi hi, if_pos rfl, mul_one]
        · intro h hh hne
          rw [unit_ortho (mem_filter.1 hh).2 hi, if_neg hne, mul_zero]
        · intro h; exact absurd (mem_filter.2 ⟨mem_univ g, hi⟩) h
      apply mul_left_cancel₀ hne
      rw [mul_assoc, ← key α hα, hsum, mul_sum]
      refine sum_congr rfl fun h _ => ?_
      rw [key _ (Step.slater_anti (unit h))]
      ring
    · simp only [Function.Injective] at hd
      push Not at hd
      obtain ⟨a, b, hab, hne⟩ := hd
      have hne' : (Sum.inr a : Fin nu ⊕ Fin nd) ≠ Sum.inr b := by simpa using hne
      rw [anti_zero hα hne' rfl hab]
      exact (sum_eq_zero fun h _ => by rw [anti_zero (Step.slater_anti (unit h)) hne' rfl hab, mul_zero]).symm
  · simp only [Function.Injective] at hu
    push Not at hu
    obtain ⟨a, b, hab, hne⟩ := hu
    have hne' : (Sum.inl a : Fin nu ⊕ Fin nd) ≠ Sum.inl b := by simpa using hne
    rw [anti_zero hα hne' rfl hab]
    exact (sum_eq_zero fun h _ => by rw [anti_zero (Step.slater_anti (unit h)) hne' rfl hab, mul_zero]).symm

end Verif.CI.Bridge
