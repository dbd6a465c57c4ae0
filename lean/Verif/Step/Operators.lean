import Verif.Step.Trotter
import Verif.Step.Optimal

/-!
# The Hamiltonians as operators on several particles

`genOp` of the tables of each propagator in terms of the Hamiltonian of the system.  For the Hubbard model the
two agree on functionals that change sign when two electrons of equal spin are exchanged.
-/

namespace Verif.Step

open Matrix Finset

variable {ι : Type} [Fintype ι] [DecidableEq ι] {m nx nb nu nd : Nat}

/-! ## Hamiltonians -/

/-- The Hamiltonian of the electrons: one-body part `h` for each spin, interaction `1/2 ∑_x ∑_{a≠b} L_x(a)
L_x(b)`, constant. -/
noncomputable def hamOp (h : Fin 2 → Matrix (Fin m) (Fin m) ℂ) (L : Fin nx → Matrix (Fin m) (Fin m) ℂ)
    (ecore : ℂ) (σ : ι → Fin 2) : Matrix (ι → Fin m) (ι → Fin m) ℂ :=
  ecore • 1 + ∑ a, onP a (h (σ a)) +
    (1 / 2 : ℂ) • ∑ x, ∑ a, ∑ b ∈ univ.erase a, onP a (L x) * onP b (L x)

/-- The Hubbard Hamiltonian: hopping `h` for each spin, `U` for each site with an up and a down electron. -/
noncomputable def hubOp (h : Fin 2 → Matrix (Fin m) (Fin m) ℂ) (U : ℂ) (σ : ι → Fin 2) :
    Matrix (ι → Fin m) (ι → Fin m) ℂ :=
  ∑ a, onP a (h (σ a)) + U • ∑ i, ∑ a, ∑ b, if σ a = 0 ∧ σ b = 1 then onP a (site i) * onP b (site i) else 0

/-- One-body part `h` for each spin, interaction `1/2 ∑ (pr|qs) ∑_{a≠b} |p⟩⟨r|(a) |q⟩⟨s|(b)`. -/
noncomputable def coulombOp (h : Fin 2 → Matrix (Fin m) (Fin m) ℂ) (eri : Energy.Eri m) (σ : ι → Fin 2) :
    Matrix (ι → Fin m) (ι → Fin m) ℂ :=
  ∑ a, onP a (h (σ a)) + (1 / 2 : ℂ) • ∑ p, ∑ r, ∑ q, ∑ s, eri p r q s •
    ∑ a, ∑ b ∈ univ.erase a, onP a (Matrix.single p r 1) * onP b (Matrix.single q s 1)

/-! ## One-body operators -/

theorem spinOp_add (σ : ι → Fin 2) (X Y : Fin 2 → Matrix (Fin m) (Fin m) ℂ) :
    spinOp σ (fun s => X s + Y s) = spinOp σ X + spinOp σ Y := allP_add _ _

theorem spinOp_sub (σ : ι → Fin 2) (X Y : Fin 2 → Matrix (Fin m) (Fin m) ℂ) :
    spinOp σ (fun s => X s - Y s) = spinOp σ X - spinOp σ Y := allP_sub _ _

theorem spinOp_smul (σ : ι → Fin 2) (r : ℂ) (X : Fin 2 → Matrix (Fin m) (Fin m) ℂ) :
    spinOp σ (fun s => r • X s) = r • spinOp σ X := allP_smul _ _

theorem spinOp_sum {κ : Type*} (S : Finset κ) (σ : ι → Fin 2) (X : κ → Fin 2 → Matrix (Fin m) (Fin m) ℂ) :
    spinOp σ (fun s => ∑ k ∈ S, X k s) = ∑ k ∈ S, spinOp σ (X k) := allP_sum S fun k a => X k (σ a)

theorem spinOp_one (σ : ι → Fin 2) : spinOp σ (fun _ => (1 : Matrix (Fin m) (Fin m) ℂ)) =
    (Fintype.card ι : ℂ) • 1 := by
  simp only [spinOp, allP, onP_one, sum_const, card_univ]
  rw [← Nat.cast_smul_eq_nsmul ℂ]

theorem spinOp_mul (σ : ι → Fin 2) (X Y : Fin 2 → Matrix (Fin m) (Fin m) ℂ) :
    spinOp σ X * spinOp σ Y = spinOp σ (fun s => X s * Y s) +
      ∑ a, ∑ b ∈ univ.erase a, onP a (X (σ a)) * onP b (Y (σ b)) := allP_mul _ _

/-- Expansion of the squares. -/
theorem genOp_eq (K : Fin 2 → Matrix (Fin m) (Fin m) ℂ) (W : Fin nx → Fin 2 → Matrix (Fin m) (Fin m) ℂ)
    (mf : Fin nx → ℂ) (σ : ι → Fin 2) :
    genOp K W mf σ = spinOp σ (fun s => K s - (1 / 2 : ℂ) • ∑ c, W c s * W c s + ∑ c, mf c • W c s) -
      (1 / 2 : ℂ) • (∑ c, ∑ a, ∑ b ∈ univ.erase a, onP a (W c (σ a)) * onP b (W c (σ b))) -
      (1 / 2 * ∑ c, mf c * mf c) • 1 := by
  have e : ∀ c, (spinOp σ (W c) - mf c • (1 : Matrix (ι → Fin m) (ι → Fin m) ℂ)) * (spinOp σ (W c) - mf c • 1) =
      spinOp σ (fun s => W c s * W c s) + (∑ a, ∑ b ∈ univ.erase a, onP a (W c (σ a)) * onP b (W c (σ b))) -
        (2 * mf c) • spinOp σ (W c) + (mf c * mf c) • 1 := by
    intro c
    rw [← spinOp_mul]
    simp only [sub_mul, mul_sub, smul_mul_assoc, mul_smul_comm, one_mul, mul_one]
    module
  rw [genOp, spinOp_add σ (fun s => K s - (1 / 2 : ℂ) • ∑ c, W c s * W c s), spinOp_sub σ K,
    spinOp_smul σ (1 / 2) (fun s => ∑ c, W c s * W c s), spinOp_sum univ σ (fun c s => W c s * W c s),
    spinOp_sum univ σ (fun c s => mf c • W c s)]
  simp only [e, fun c => spinOp_smul σ (mf c) (W c), sum_add_distrib, sum_sub_distrib]
  have e1 : ∑ c, (2 * mf c) • spinOp σ (W c) = (2 : ℂ) • ∑ c, mf c • spinOp σ (W c) := by
    rw [smul_sum]; exact sum_congr rfl fun c _ => by rw [smul_smul]
  have e2 : ∑ c, (mf c * mf c) • (1 : Matrix (ι → Fin m) (ι → Fin m) ℂ) = (∑ c, mf c * mf c) • 1 := by
    rw [sum_smul]
  rw [e1, e2]
  module

/-! ## Generic systems -/

theorem Gen.genOp_eq (g : Gen nx m) (mf : Fin nx → ℂ) (σ : ι → Fin 2) :
    genOp (fun s => g.h1eMod s - Matrix.of fun i k => Complex.I * ∑ n, g.chol n i k * mf n)
      (fun a _ => Complex.I • g.chol a) mf σ =
      hamOp g.h1 g.chol g.ecore σ - spinOp σ (fun _ => g.extra) -
        (g.ecore + 1 / 2 * ∑ n, mf n * mf n) • 1 := by
  have e1 : (Matrix.of fun i k => Complex.I * ∑ n, g.chol n i k * mf n) =
      ∑ n, mf n • (Complex.I • g.chol n) := by
    ext i k
    simp only [Matrix.of_apply, Matrix.sum_apply, Matrix.smul_apply, smul_eq_mul, mul_sum]
    exact sum_congr rfl fun n _ => by ring
  have e2 : (fun s => (g.h1eMod s - Matrix.of fun i k => Complex.I * ∑ n, g.chol n i k * mf n) -
      (1 / 2 : ℂ) • ∑ c, (Complex.I • g.chol c) * (Complex.I • g.chol c) + ∑ c, mf c • (Complex.I • g.chol c)) =
      fun s => g.h1 s - g.extra := by
    funext s
    rw [e1, Gen.h1eMod_eq, Gen.extra]
    simp only [smul_mul_smul_comm, Complex.I_mul_I, sum_sub_distrib, neg_smul, one_smul, sum_neg_distrib]
    module
  rw [Step.genOp_eq, e2, spinOp_sub σ g.h1, hamOp]
  have e3 : ∑ c, ∑ a : ι, ∑ b ∈ univ.erase a, onP a (Complex.I • g.chol c) * onP b (Complex.I • g.chol c) =
      -∑ c, ∑ a : ι, ∑ b ∈ univ.erase a, onP a (g.chol c) * onP b (g.chol c) := by
    simp only [← sum_neg_distrib]
    refine sum_congr rfl fun c _ => sum_congr rfl fun a _ => sum_congr rfl fun b _ => ?_
    rw [onP_smul, onP_smul, smul_mul_smul_comm, Complex.I_mul_I, neg_smul, one_smul]
  rw [e3, spinOp, allP]
  module

theorem Gen.genOp_symm (g : Gen nx m) (hL : ∀ a, (g.chol a)ᵀ = g.chol a) (mf : Fin nx → ℂ) (σ : ι → Fin 2) :
    genOp (fun s => g.h1eMod s - Matrix.of fun i k => Complex.I * ∑ n, g.chol n i k * mf n)
      (fun a _ => Complex.I • g.chol a) mf σ =
      hamOp g.h1 g.chol g.ecore σ - (g.ecore + 1 / 2 * ∑ n, mf n * mf n) • 1 := by
  have he : g.extra = 0 := by simp [Gen.extra, hL]
  rw [Gen.genOp_eq, he, spinOp, allP_zero, sub_zero]

/-! ## Plane waves -/

theorem oneBody_spinOp (σ : ι → Fin 2) (M : Matrix (Fin m) (Fin m) ℂ) :
    UEG.oneBody (fun a b => spinOp σ (fun _ => Matrix.single a b (1 : ℂ))) M = spinOp σ fun _ => M := by
  rw [UEG.oneBody]
  conv_rhs => rw [Matrix.matrix_eq_sum_single M]
  rw [spinOp_sum univ σ (fun i _ => ∑ j, Matrix.single i j (M i j))]
  refine sum_congr rfl fun i _ => ?_
  rw [spinOp_sum univ σ (fun j _ => Matrix.single i j (M i j))]
  refine sum_congr rfl fun j _ => ?_
  rw [← spinOp_smul σ (M i j) (fun _ => Matrix.single i j (1 : ℂ))]
  simp

theorem ueg_genOp (I : UEG.Inp) (hk : 0 < I.kfac) (hv : 0 < I.vol) (ht : I.twist = 0) (σ : ι → Fin 2) :
    genOp (fun _ => diagonal fun i => (UEG.modOneBody I i : ℂ))
      (fun a _ => Fin.addCases (fun q => UEG.iA I (UEG.qvecs I)[q]) (fun q => UEG.iB I (UEG.qvecs I)[q]) a)
      (fun _ : Fin ((UEG.qvecs I).length + (UEG.qvecs I).length) => 0) σ =
      coulombOp (UEG.kin I) (UEG.coulomb I) σ := by
  have hd : ∀ v : Fin (UEG.nb I) → ℂ, spinOp σ (fun _ => diagonal v) =
      ∑ i, v i • spinOp σ (fun _ => Matrix.single i i (1 : ℂ)) := by
    intro v
    rw [diagonal_eq, spinOp_sum univ σ (fun i _ => v i • site i)]
    exact sum_congr rfl fun i _ => spinOp_smul σ (v i) (fun _ => site i)
  have h := UEG.hamiltonian_eq I hk hv ht (fun a b => spinOp σ (fun _ => Matrix.single a b (1 : ℂ)))
  simp only [oneBody_spinOp, pow_two] at h
  rw [← hd, ← hd] at h
  have hp : ∀ p r q s : Fin (UEG.nb I), spinOp σ (fun _ => Matrix.single p r (1 : ℂ)) * spinOp σ (fun _ => Matrix.single q s 1) -
      (if r = q then spinOp σ (fun _ => Matrix.single p s (1 : ℂ)) else 0) =
      ∑ a, ∑ b ∈ univ.erase a, onP a (Matrix.single p r 1) * onP b (Matrix.single q s 1) := by
    intro p r q s
    rw [spinOp_mul σ (fun _ => Matrix.single p r (1 : ℂ)) (fun _ => Matrix.single q s 1)]
    have : spinOp σ (fun _ => Matrix.single p r (1 : ℂ) * Matrix.single q s 1) =
        if r = q then spinOp σ (fun _ => Matrix.single p s (1 : ℂ)) else 0 := by
      split_ifs with hrq
      · subst hrq; simp
      · simp only [Matrix.single_mul_single_of_ne _ _ _ _ hrq]
        exact allP_zero
    rw [this, add_sub_cancel_left]
  simp only [hp] at h
  rw [genOp, coulombOp]
  simp only [Fin.sum_univ_add, Fin.addCases_left, Fin.addCases_right, zero_smul, sub_zero]
  have hk2 : ∑ a, onP a (UEG.kin I (σ a)) = spinOp σ fun _ => diagonal fun i => (UEG.energy I (UEG.bv I i) : ℂ) := rfl
  rw [hk2]
  simp only [UEG.coulomb]
  rw [h, ← sum_add_distrib]
  congr 2
  exact (Fin.sum_univ_fun_getElem (UEG.qvecs I) (fun q => spinOp σ (fun _ => UEG.iA I q) * spinOp σ (fun _ => UEG.iA I q) +
    spinOp σ (fun _ => UEG.iB I q) * spinOp σ (fun _ => UEG.iB I q)))

/-! ## Exchange of electrons of equal spin -/

/-- Exchange of the positions of two electrons. -/
def swapP (a b : ι) : (ι → Fin m) ≃ (ι → Fin m) := (Equiv.swap a b).arrowCongr (Equiv.refl _)

/-- The functional changes sign when two electrons of equal spin are exchanged. -/
def Anti (σ : ι → Fin 2) (α : (ι → Fin m) → ℂ) : Prop :=
  ∀ a b, a ≠ b → σ a = σ b → ∀ f, α (swapP a b f) = -α f

/-- The operator commutes with exchanges of electrons of equal spin. -/
def Sym (σ : ι → Fin 2) (X : Matrix (ι → Fin m) (ι → Fin m) ℂ) : Prop :=
  ∀ a b, σ a = σ b → X.submatrix (swapP a b) (swapP a b) = X

theorem Sym.add {σ : ι → Fin 2} {X Y : Matrix (ι → Fin m) (ι → Fin m) ℂ} (hX : Sym σ X) (hY : Sym σ Y) :
    Sym σ (X + Y) := fun a b h => by
  rw [Matrix.submatrix_add, Pi.add_apply, Pi.add_apply, hX a b h, hY a b h]

theorem Sym.smul {σ : ι → Fin 2} {X : Matrix (ι → Fin m) (ι → Fin m) ℂ} (r : ℂ) (hX : Sym σ X) :
    Sym σ (r • X) := fun a b h => by
  rw [Matrix.submatrix_smul, Pi.smul_apply, Pi.smul_apply, hX a b h]

theorem Sym.sub {σ : ι → Fin 2} {X Y : Matrix (ι → Fin m) (ι → Fin m) ℂ} (hX : Sym σ X) (hY : Sym σ Y) :
    Sym σ (X - Y) := by
  have := hX.add (hY.smul (-1))
  rwa [neg_one_smul, ← sub_eq_add_neg] at this

theorem Sym.mul {σ : ι → Fin 2} {X Y : Matrix (ι → Fin m) (ι → Fin m) ℂ} (hX : Sym σ X) (hY : Sym σ Y) :
    Sym σ (X * Y) := fun a b h => by
  have := Matrix.submatrix_mul_equiv X Y (swapP a b) (swapP a b) (swapP a b)
  rw [← this, hX a b h, hY a b h]

theorem Sym.one {σ : ι → Fin 2} : Sym σ (1 : Matrix (ι → Fin m) (ι → Fin m) ℂ) := fun a b _ =>
  Matrix.submatrix_one_equiv _

theorem Sym.sum {κ : Type*} {σ : ι → Fin 2} (S : Finset κ) {X : κ → Matrix (ι → Fin m) (ι → Fin m) ℂ}
    (hX : ∀ k, Sym σ (X k)) : Sym σ (∑ k ∈ S, X k) := by
  classical
  induction S using Finset.induction_on with
  | empty => intro a b _; simp
  | insert k S hk ih => rw [sum_insert hk]; exact (hX k).add ih

theorem Sym.spinOp (σ : ι → Fin 2) (X : Fin 2 → Matrix (Fin m) (Fin m) ℂ) : Sym σ (spinOp σ X) := by
  intro a b h
  ext f g
  simp only [Matrix.submatrix_apply, Step.spinOp, allP, Matrix.sum_apply, onP, tens, Matrix.of_apply]
  refine Fintype.sum_equiv (Equiv.swap a b) _ _ fun c => ?_
  refine Fintype.prod_equiv (Equiv.swap a b) _ _ fun d => ?_
  have hs : σ (Equiv.swap a b c) = σ c := by
    rcases eq_or_ne c a with rfl | h1
    · rw [Equiv.swap_apply_left, h]
    · rcases eq_or_ne c b with rfl | h2
      · rw [Equiv.swap_apply_right, h]
      · rw [Equiv.swap_apply_of_ne_of_ne h1 h2]
  have hf : ∀ f : ι → Fin m, swapP a b f d = f (Equiv.swap a b d) := fun f => by
    simp [swapP, Equiv.arrowCongr]
  rw [hf, hf, hs]
  by_cases hd : d = c
  · subst hd; simp
  · rw [Function.update_of_ne hd, Function.update_of_ne (by simpa using hd)]

theorem Sym.genOp (K : Fin 2 → Matrix (Fin m) (Fin m) ℂ) (W : Fin nx → Fin 2 → Matrix (Fin m) (Fin m) ℂ)
    (mf : Fin nx → ℂ) (σ : ι → Fin 2) : Sym σ (genOp K W mf σ) :=
  (Sym.spinOp σ K).sub ((Sym.sum univ fun c => ((Sym.spinOp σ (W c)).sub (Sym.one.smul _)).mul
    ((Sym.spinOp σ (W c)).sub (Sym.one.smul _))).smul _)

theorem Anti.vecMul {σ : ι → Fin 2} {α : (ι → Fin m) → ℂ} (hα : Anti σ α)
    {X : Matrix (ι → Fin m) (ι → Fin m) ℂ} (hX : Sym σ X) : Anti σ (α ᵥ* X) := by
  intro a b hab h g
  simp only [Matrix.vecMul, dotProduct, ← sum_neg_distrib]
  refine (Fintype.sum_equiv (swapP a b) _ _ fun f => ?_).symm
  rw [hα a b hab h f]
  have := congrFun (congrFun (hX a b h) f) g
  rw [Matrix.submatrix_apply] at this
  rw [this]; ring

/-- Two electrons of equal spin are never on one site. -/
theorem Anti.pair {σ : ι → Fin 2} {α : (ι → Fin m) → ℂ} (hα : Anti σ α) {a b : ι} (hab : a ≠ b)
    (h : σ a = σ b) (i : Fin m) : α ᵥ* (onP a (site i) * onP b (site i)) = 0 := by
  have hz : ∀ f : ι → Fin m, f a = f b → α f = 0 := by
    intro f hf
    have := hα a b hab h f
    have e : swapP a b f = f := by
      funext c
      have hc : swapP a b f c = f (Equiv.swap a b c) := by simp [swapP, Equiv.arrowCongr]
      rw [hc]
      rcases eq_or_ne c a with rfl | h1
      · rw [Equiv.swap_apply_left, hf]
      · rcases eq_or_ne c b with rfl | h2
        · rw [Equiv.swap_apply_right, hf]
        · rw [Equiv.swap_apply_of_ne_of_ne h1 h2]
    rw [e] at this
    linear_combination (1 / 2 : ℂ) * this
  funext g
  rw [Matrix.vecMul, dotProduct, Pi.zero_apply]
  refine sum_eq_zero fun f _ => ?_
  rw [onP_pair hab.symm]
  by_cases hf : f a = f b
  · rw [hz f hf, zero_mul]
  · have : (site i : Matrix (Fin m) (Fin m) ℂ) (f b) (g b) * site i (f a) (g a) = 0 := by
      simp only [site, Matrix.single_apply]
      by_cases h1 : i = f b
      · have h2 : i ≠ f a := fun h2 => hf (h2.symm.trans h1)
        rw [if_neg (fun hh : i = f a ∧ i = g a => h2 hh.1), mul_zero]
      · rw [if_neg (fun hh : i = f b ∧ i = g b => h1 hh.1), zero_mul]
    rw [mul_assoc _ (site i (f b) (g b)), this, mul_zero, mul_zero]

/-! ## Powers and exponentials -/

theorem vecMul_pow_eq {σ : ι → Fin 2} {X Y : Matrix (ι → Fin m) (ι → Fin m) ℂ} (hX : Sym σ X)
    (h : ∀ α, Anti σ α → α ᵥ* X = α ᵥ* Y) (k : Nat) {α : (ι → Fin m) → ℂ} (hα : Anti σ α) :
    α ᵥ* X ^ k = α ᵥ* Y ^ k := by
  induction k generalizing α with
  | zero => rfl
  | succ k ih =>
    rw [pow_succ', pow_succ', ← Matrix.vecMul_vecMul, ← Matrix.vecMul_vecMul, ← h α hα, ih (hα.vecMul hX)]

theorem vecMul_exp_eq {σ : ι → Fin 2} {X Y : Matrix (ι → Fin m) (ι → Fin m) ℂ} (hX : Sym σ X)
    (h : ∀ α, Anti σ α → α ᵥ* X = α ᵥ* Y) {α : (ι → Fin m) → ℂ} (hα : Anti σ α) :
    α ᵥ* NormedSpace.exp X = α ᵥ* NormedSpace.exp Y := by
  letI : NormedRing (Matrix (ι → Fin m) (ι → Fin m) ℂ) := Matrix.linftyOpNormedRing
  letI : NormedAlgebra ℂ (Matrix (ι → Fin m) (ι → Fin m) ℂ) := Matrix.linftyOpNormedAlgebra
  have hs : ∀ Z : Matrix (ι → Fin m) (ι → Fin m) ℂ,
      HasSum (fun k : ℕ => α ᵥ* (((k.factorial : ℂ)⁻¹) • Z ^ k)) (α ᵥ* NormedSpace.exp Z) := by
    intro Z
    have h1 := NormedSpace.exp_series_hasSum_exp' (𝕂 := ℂ) Z
    have hc : Continuous fun M : Matrix (ι → Fin m) (ι → Fin m) ℂ => α ᵥ* M := by
      refine continuous_pi fun g => ?_
      simp only [Matrix.vecMul, dotProduct]
      fun_prop
    exact h1.map ({ toFun := fun M => α ᵥ* M, map_zero' := Matrix.vecMul_zero α,
                    map_add' := fun A B => Matrix.vecMul_add A B α } : Matrix (ι → Fin m) (ι → Fin m) ℂ →+ _) hc
  refine (hs X).unique ?_
  convert hs Y using 2 with k
  rw [Matrix.vecMul_smul, Matrix.vecMul_smul, vecMul_pow_eq hX h k hα]

/-! ## Hubbard model -/

/-- Both decompositions: couplings `p` and `q` of the field with the up and the down electrons. -/
theorem hub_genOp (h1 : Fin 2 → Matrix (Fin m) (Fin m) ℂ) (v p q t : ℂ) (hpq : p ^ 2 = q ^ 2) (mf : Fin m → ℂ)
    (ht : ∀ s : Fin 2, (if s = 0 then p else q) • diagonal mf = t • diagonal mf) (σ : ι → Fin 2)
    {α : (ι → Fin m) → ℂ} (hα : Anti σ α) :
    α ᵥ* genOp (fun s => h1 s + v • 1 - t • diagonal mf) (fun i s => if s = 0 then p • site i else q • site i) mf σ =
      α ᵥ* (hubOp h1 (-(p * q)) σ - ((p ^ 2 / 2 - v) * Fintype.card ι + 1 / 2 * ∑ i, mf i * mf i) • 1) := by
  have hW : ∀ (i : Fin m) (s : Fin 2), (if s = 0 then p • site i else q • site i : Matrix (Fin m) (Fin m) ℂ) =
      (if s = 0 then p else q) • site i := by
    intro i s; split_ifs <;> rfl
  have e2 : (fun s => (h1 s + v • 1 - t • diagonal mf) - (1 / 2 : ℂ) • ∑ c : Fin m,
      ((if s = 0 then p • site c else q • site c) * (if s = 0 then p • site c else q • site c)) +
      ∑ c, mf c • (if s = 0 then p • site c else q • site c : Matrix (Fin m) (Fin m) ℂ)) =
      fun s => h1 s + (v - p ^ 2 / 2) • 1 := by
    funext s
    have a1 : ∑ c : Fin m, ((if s = 0 then p • site c else q • site c) *
        (if s = 0 then p • site c else q • site c) : Matrix (Fin m) (Fin m) ℂ) = p ^ 2 • 1 := by
      simp only [hW, smul_mul_smul_comm, site_mul_site]
      rw [← smul_sum, sum_site]
      congr 1
      split_ifs
      · ring
      · rw [hpq]; ring
    have a2 : ∑ c, mf c • (if s = 0 then p • site c else q • site c : Matrix (Fin m) (Fin m) ℂ) =
        t • diagonal mf := by
      rw [← ht s, diagonal_eq, smul_sum]
      refine sum_congr rfl fun c _ => ?_
      rw [hW, smul_comm]
    rw [a1, a2]
    module
  rw [genOp_eq, e2, spinOp_add σ h1, spinOp_smul σ _ (fun _ => 1), spinOp_one]
  have e3 : α ᵥ* (∑ c, ∑ a, ∑ b ∈ univ.erase a, onP a (if σ a = 0 then p • site c else q • site c) *
      onP b (if σ b = 0 then p • site c else q • site c)) =
      α ᵥ* ((2 * (p * q)) • ∑ i, ∑ a, ∑ b, if σ a = 0 ∧ σ b = 1 then onP a (site i) * onP b (site i) else 0) := by
    have hs : ∀ s : Fin 2, s ≠ 0 ↔ s = 1 := by decide
    have e4 : ∀ (c : Fin m) (a b : ι), b ≠ a → α ᵥ* (onP a (if σ a = 0 then p • site c else q • site c) *
        onP b (if σ b = 0 then p • site c else q • site c)) =
        (p * q) • (α ᵥ* (if σ a = 0 ∧ σ b = 1 then onP a (site c) * onP b (site c) else 0) +
          α ᵥ* (if σ b = 0 ∧ σ a = 1 then onP b (site c) * onP a (site c) else 0)) := by
      intro c a b hab
      simp only [hW, onP_smul, smul_mul_smul_comm, Matrix.vecMul_smul]
      by_cases ha : σ a = 0
      · by_cases hb : σ b = 0
        · rw [hα.pair hab.symm (ha.trans hb.symm)]
          simp [ha, hb]
        · have hb' := (hs _).1 hb
          simp [ha, hb']
      · have ha' := (hs _).1 ha
        by_cases hb : σ b = 0
        · have hcomm : onP a (site c) * onP b (site c) = onP b (site c) * onP a (site c : Matrix (Fin m) (Fin m) ℂ) := by
            ext f g
            rw [onP_pair hab, onP_pair hab.symm, erase_right_comm]
            ring
          simp [ha', hb, hcomm, mul_comm]
        · have hb' := (hs _).1 hb
          rw [hα.pair hab.symm (ha'.trans hb'.symm)]
          simp [ha', hb']
    simp only [Matrix.vecMul_smul, Matrix.vecMul_sum]
    rw [smul_sum]
    refine sum_congr rfl fun c _ => ?_
    have e5 : ∀ a : ι, ∑ b ∈ univ.erase a, α ᵥ* (onP a (if σ a = 0 then p • site c else q • site c) *
        onP b (if σ b = 0 then p • site c else q • site c)) =
        ∑ b, (p * q) • (α ᵥ* (if σ a = 0 ∧ σ b = 1 then onP a (site c) * onP b (site c) else 0) +
          α ᵥ* (if σ b = 0 ∧ σ a = 1 then onP b (site c) * onP a (site c) else 0)) := by
      intro a
      rw [← add_sum_erase univ (fun b => (p * q) • (α ᵥ* (if σ a = 0 ∧ σ b = 1 then onP a (site c) * onP b (site c) else 0) +
          α ᵥ* (if σ b = 0 ∧ σ a = 1 then onP b (site c) * onP a (site c) else 0))) (mem_univ a)]
      have hn : ¬(σ a = 0 ∧ σ a = 1) := by rintro ⟨h1, h2⟩; rw [h1] at h2; exact absurd h2 (by decide)
      rw [if_neg hn, Matrix.vecMul_zero, add_zero, smul_zero, zero_add]
      exact sum_congr rfl fun b hb => e4 c a b (ne_of_mem_erase hb)
    simp only [e5, smul_add, sum_add_distrib]
    rw [sum_comm (f := fun a b => (p * q) • α ᵥ* (if σ b = 0 ∧ σ a = 1 then onP b (site c) * onP a (site c) else 0))]
    simp only [← smul_sum]
    module
  rw [hubOp]
  simp only [Matrix.vecMul_sub, Matrix.vecMul_add, Matrix.vecMul_smul] at e3 ⊢
  rw [e3, spinOp, allP]
  module

theorem Hub.charge_genOp (h : Hub m) (mf : Fin m → ℂ) (σ : ι → Fin 2) {α : (ι → Fin m) → ℂ} (hα : Anti σ α) :
    α ᵥ* genOp (fun s => h.h1eMod s - (Complex.I * root h.U) • diagonal mf)
      (fun i _ => (Complex.I * root h.U) • site i) mf σ =
      α ᵥ* (hubOp h.h1 h.U σ - (1 / 2 * ∑ i, mf i * mf i -
        (if h.symmetric then (h.U : ℂ) / 2 * Fintype.card ι else 0)) • 1) := by
  have hr : (Complex.I * root h.U) * (Complex.I * root h.U) = -h.U := by
    linear_combination (Complex.I * Complex.I) * root_sq h.U + h.U * Complex.I_mul_I
  have key := hub_genOp h.h1 (if h.symmetric then 0 else -(1 / 2 * h.U : ℂ)) (Complex.I * root h.U)
    (Complex.I * root h.U) (Complex.I * root h.U) rfl mf (fun s => by split_ifs <;> rfl) σ hα
  simp only [ite_self, sq, hr, neg_neg] at key
  have hK : (fun s => h.h1eMod s - (Complex.I * root h.U) • diagonal mf) = fun s =>
      h.h1 s + (if h.symmetric then (0 : ℂ) else -(1 / 2 * h.U : ℂ)) • 1 - (Complex.I * root h.U) • diagonal mf := by
    funext s
    rw [Hub.h1eMod]
    split_ifs
    · rw [zero_smul, add_zero]
    · rw [neg_smul, sub_eq_add_neg (h.h1 s)]
  rw [hK, key]
  congr 3
  split_ifs <;> ring

theorem Hub.spin_genOp (h : Hub m) (σ : ι → Fin 2) {α : (ι → Fin m) → ℂ} (hα : Anti σ α) :
    α ᵥ* genOp (fun s => h.h1 s + (1 / 2 * h.U : ℂ) • 1 - root h.U • diagonal fun _ => (0 : ℂ))
      (fun i s => if s = 0 then (-root h.U) • site i else root h.U • site i) (fun _ => 0) σ =
      α ᵥ* hubOp h.h1 h.U σ := by
  have hr := root_sq h.U
  have hd : diagonal (fun _ : Fin m => (0 : ℂ)) = 0 := Matrix.diagonal_zero
  have key := hub_genOp h.h1 (1 / 2 * h.U : ℂ) (-root h.U) (root h.U) (root h.U) (by ring) (fun _ => 0)
    (fun s => by rw [hd, smul_zero, smul_zero]) σ hα
  have e1 : -(-root h.U * root h.U) = (h.U : ℂ) := by rw [neg_mul, neg_neg, hr]
  have e2 : ((-root h.U) ^ 2 / 2 - 1 / 2 * (h.U : ℂ)) = 0 := by rw [neg_sq, sq, hr]; ring
  rw [key, e1, e2]
  simp

end Verif.Step
