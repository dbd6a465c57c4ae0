import Verif.Grand.Fock

/-!
# Wick's theorem for traces over all numbers of electrons

The trace of a one-body operator, or of two, times a product operator is the trace of the product operator times
the expression in the one-particle density matrix `C (1 + C)⁻¹`.  Nothing here refers to the model of the code.
-/

namespace Verif.Grand

open Matrix Finset Polynomial
open Verif.Step (tens spin onP allP spinOp cm hamOp hubOp coulombOp site)

variable {m nx nu nd : Nat}

/-- Operators on the states of every number of electrons. -/
abbrev Ops (m : Nat) := ∀ nu nd : Nat, Matrix (Fin nu ⊕ Fin nd → Fin m) (Fin nu ⊕ Fin nd → Fin m) ℂ

/-- The product operator of a matrix for each spin. -/
def prodOp (C : Fin 2 → Matrix (Fin m) (Fin m) ℂ) : Ops m := fun _ _ => tens fun a => C (spin a)

/-- One-body operators. -/
def oneOp (Y : Fin 2 → Matrix (Fin m) (Fin m) ℂ) : Ops m := fun _ _ => spinOp spin Y

/-- Sum over pairs of different electrons. -/
def pairOp (X Y : Fin 2 → Matrix (Fin m) (Fin m) ℂ) : Ops m := fun _ _ =>
  ∑ a, ∑ b ∈ univ.erase a, onP a (X (spin a)) * onP b (Y (spin b))

/-- The trace over all numbers of electrons is linear. -/
def fockL (m : Nat) : Ops m →ₗ[ℂ] ℂ where
  toFun := fock
  map_add' X Y := by
    simp only [fock, tr, Pi.add_apply, Matrix.add_apply, mul_add, sum_add_distrib]
  map_smul' r X := by
    simp only [fock, tr, Pi.smul_apply, Matrix.smul_apply, smul_eq_mul, mul_sum, RingHom.id_apply]
    refine sum_congr rfl fun _ _ => sum_congr rfl fun _ _ => sum_congr rfl fun _ _ => sum_congr rfl fun _ _ =>
      sum_congr rfl fun _ _ => by ring

/-- The trace of an operator times a product operator. -/
def wick (C : Fin 2 → Matrix (Fin m) (Fin m) ℂ) : Ops m →ₗ[ℂ] ℂ :=
  fockL m ∘ₗ LinearMap.mulRight ℂ (prodOp C)

theorem wick_apply (C : Fin 2 → Matrix (Fin m) (Fin m) ℂ) (X : Ops m) :
    wick C X = fock fun nu nd => X nu nd * tens fun a => C (spin a) := rfl

/-! ## Coefficients -/

theorem cm_quad {a b : Type} [Fintype a] [DecidableEq a] (Y Z : Matrix a a ℂ) :
    cm 0 (1 + (X : ℂ[X]) • (Polynomial.C : ℂ →+* ℂ[X]).mapMatrix Y + (X ^ 2 : ℂ[X]) • (Polynomial.C).mapMatrix Z) = 1 ∧
    cm 1 (1 + (X : ℂ[X]) • (Polynomial.C : ℂ →+* ℂ[X]).mapMatrix Y + (X ^ 2 : ℂ[X]) • (Polynomial.C).mapMatrix Z) = Y ∧
    cm 2 (1 + (X : ℂ[X]) • (Polynomial.C : ℂ →+* ℂ[X]).mapMatrix Y + (X ^ 2 : ℂ[X]) • (Polynomial.C).mapMatrix Z) = Z := by
  have h1 : ∀ i j, (1 : Matrix a a ℂ[X]) i j = Polynomial.C ((1 : Matrix a a ℂ) i j) := by
    intro i j
    rw [Matrix.one_apply, Matrix.one_apply]
    split_ifs <;> simp
  refine ⟨?_, ?_, ?_⟩ <;> ext i j <;>
    simp [cm, h1, coeff_X, coeff_X_pow, Polynomial.coeff_C]

theorem det_updateCol_one {n : Nat} (v : Fin n → ℂ) (i : Fin n) :
    ((1 : Matrix (Fin n) (Fin n) ℂ).updateCol i v).det = v i := by
  rw [← Matrix.cramer_apply, Matrix.cramer_one]; rfl

theorem det_quad (Y Z : Matrix (Fin m) (Fin m) ℂ) :
    (1 + (X : ℂ[X]) • (Polynomial.C : ℂ →+* ℂ[X]).mapMatrix Y + (X ^ 2 : ℂ[X]) • (Polynomial.C).mapMatrix Z).det.coeff 0 = 1 ∧
    (1 + (X : ℂ[X]) • (Polynomial.C : ℂ →+* ℂ[X]).mapMatrix Y + (X ^ 2 : ℂ[X]) • (Polynomial.C).mapMatrix Z).det.coeff 1 =
      Y.trace ∧
    (1 + (X : ℂ[X]) • (Polynomial.C : ℂ →+* ℂ[X]).mapMatrix Y + (X ^ 2 : ℂ[X]) • (Polynomial.C).mapMatrix Z).det.coeff 2 =
      Z.trace + 1 / 2 * (Y.trace * Y.trace - (Y * Y).trace) := by
  obtain ⟨h0, h1, h2⟩ := cm_quad (b := Fin m) Y Z
  refine ⟨?_, ?_, ?_⟩
  · rw [Step.det_coeff_zero, h0, Matrix.det_one]
  · rw [Step.det_coeff_one, h0, h1, Matrix.trace]
    exact sum_congr rfl fun i _ => by rw [det_updateCol_one]; rfl
  · rw [Step.det_coeff_two, h0, h1, h2, Matrix.trace]
    congr 1
    · exact sum_congr rfl fun i _ => by rw [det_updateCol_one]; rfl
    · congr 1
      have e : ∀ i j, (if i = j then 0 else (((1 : Matrix (Fin m) (Fin m) ℂ).updateCol i (Y.col i)).updateCol j
          (Y.col j)).det) = Y i i * Y j j - Y i j * Y j i := by
        intro i j
        split_ifs with h
        · subst h; ring
        · rw [Energy.det_one_updateCol_two h]
          simp only [Matrix.col_apply]
          ring
      simp only [e, sum_sub_distrib]
      simp only [Matrix.trace, Matrix.diag_apply, sum_mul_sum, Matrix.mul_apply]

theorem fock_coeff (k : Nat) (Z : ∀ nu nd : Nat, Matrix (Fin nu ⊕ Fin nd → Fin m) (Fin nu ⊕ Fin nd → Fin m) ℂ[X]) :
    (fock Z).coeff k = fock fun nu nd => (Z nu nd).map fun p => p.coeff k := by
  simp only [fock, tr, finset_sum_coeff]
  refine sum_congr rfl fun _ _ => sum_congr rfl fun _ _ => sum_congr rfl fun _ _ => sum_congr rfl fun _ _ =>
      sum_congr rfl fun _ _ => ?_
  rw [← Int.cast_mul, ← Int.cast_mul, coeff_intCast_mul, Matrix.map_apply]

theorem tens_map {ι : Type} [Fintype ι] [DecidableEq ι] (C : ι → Matrix (Fin m) (Fin m) ℂ) :
    (tens fun a => (Polynomial.C : ℂ →+* ℂ[X]).mapMatrix (C a)) = (Polynomial.C : ℂ →+* ℂ[X]).mapMatrix (tens C) := by
  ext1 f g
  simp only [tens, Matrix.of_apply, RingHom.mapMatrix_apply, Matrix.map_apply, map_prod]

theorem map_coeff_mul {κ : Type} [Fintype κ] [DecidableEq κ] (A : Matrix κ κ ℂ[X]) (B : Matrix κ κ ℂ) (k : Nat) :
    (A * (Polynomial.C : ℂ →+* ℂ[X]).mapMatrix B).map (fun p => p.coeff k) = (A.map fun p => p.coeff k) * B := by
  ext i j
  simp only [Matrix.map_apply, Matrix.mul_apply, finset_sum_coeff, RingHom.mapMatrix_apply, coeff_mul_C]

/-- The generating function of one-body operators. -/
theorem gen_coeff (Y C : Fin 2 → Matrix (Fin m) (Fin m) ℂ) :
    (∏ s, (1 + (1 + (X : ℂ[X]) • (Polynomial.C : ℂ →+* ℂ[X]).mapMatrix (Y s) + (X ^ 2 : ℂ[X]) •
      (Polynomial.C).mapMatrix ((1 / 2 : ℂ) • (Y s * Y s))) * (Polynomial.C : ℂ →+* ℂ[X]).mapMatrix (C s)).det).coeff 1 =
      wick C (oneOp Y) ∧
    (∏ s, (1 + (1 + (X : ℂ[X]) • (Polynomial.C : ℂ →+* ℂ[X]).mapMatrix (Y s) + (X ^ 2 : ℂ[X]) •
      (Polynomial.C).mapMatrix ((1 / 2 : ℂ) • (Y s * Y s))) * (Polynomial.C : ℂ →+* ℂ[X]).mapMatrix (C s)).det).coeff 2 =
      1 / 2 * wick C (oneOp Y * oneOp Y) := by
  set P : Fin 2 → Matrix (Fin m) (Fin m) ℂ[X] := fun s => 1 + (X : ℂ[X]) • (Polynomial.C : ℂ →+* ℂ[X]).mapMatrix (Y s) +
    (X ^ 2 : ℂ[X]) • (Polynomial.C).mapMatrix ((1 / 2 : ℂ) • (Y s * Y s)) with hP
  have hc : ∀ s, cm 0 (P s) = 1 ∧ cm 1 (P s) = Y s ∧ cm 2 (P s) = (1 / 2 : ℂ) • (Y s * Y s) := fun s =>
    cm_quad (b := Fin m) _ _
  have h := fock_tens (R := ℂ[X]) fun s => P s * (Polynomial.C : ℂ →+* ℂ[X]).mapMatrix (C s)
  have hsplit : ∀ nu nd : Nat, (tens fun a : Fin nu ⊕ Fin nd => P (spin a) * (Polynomial.C : ℂ →+* ℂ[X]).mapMatrix (C (spin a))) =
      (tens fun a : Fin nu ⊕ Fin nd => P (spin a)) *
        (Polynomial.C : ℂ →+* ℂ[X]).mapMatrix (tens fun a : Fin nu ⊕ Fin nd => C (spin a)) := by
    intro nu nd
    rw [← tens_map, Step.tens_mul]
  have hco := fun (nu nd : Nat) (f g : Fin nu ⊕ Fin nd → Fin m) =>
    Step.tens_coeff (fun a : Fin nu ⊕ Fin nd => P (spin a)) (fun a => (hc _).1) f g
  rw [Fin.prod_univ_two, ← h]
  constructor
  · rw [fock_coeff, wick_apply]
    congr 1
    funext nu nd
    rw [hsplit, map_coeff_mul]
    congr 1
    ext f g
    rw [Matrix.map_apply, (hco nu nd f g).2.1]
    simp only [(hc _).2.1]
    rfl
  · rw [fock_coeff, ← smul_eq_mul (1 / 2 : ℂ), ← LinearMap.map_smul, wick_apply]
    congr 1
    funext nu nd
    rw [hsplit, map_coeff_mul]
    congr 1
    ext f g
    rw [Matrix.map_apply, (hco nu nd f g).2.2]
    simp only [(hc _).2.1, (hc _).2.2]
    rw [Step.allP_smul (1 / 2 : ℂ) fun a : Fin nu ⊕ Fin nd => Y (spin a) * Y (spin a)]
    simp only [Pi.smul_apply, Pi.mul_apply, Matrix.add_apply, Matrix.smul_apply, Matrix.sub_apply, smul_eq_mul, oneOp,
      spinOp]
    ring

/-! ## Wick's theorem -/

/-- `C (1 + C)⁻¹`. -/
noncomputable def dens (C : Matrix (Fin m) (Fin m) ℂ) : Matrix (Fin m) (Fin m) ℂ := 1 - (1 + C)⁻¹

theorem dens_mul {C : Matrix (Fin m) (Fin m) ℂ} (h : (1 + C).det ≠ 0) : dens C * (1 + C) = C := by
  rw [dens, sub_mul, one_mul, Matrix.nonsing_inv_mul _ (isUnit_iff_ne_zero.2 h), add_sub_cancel_left]

theorem det_factor {C : Matrix (Fin m) (Fin m) ℂ} (h : (1 + C).det ≠ 0) (Y Z : Matrix (Fin m) (Fin m) ℂ) :
    (1 + (1 + (X : ℂ[X]) • (Polynomial.C : ℂ →+* ℂ[X]).mapMatrix Y + (X ^ 2 : ℂ[X]) • (Polynomial.C).mapMatrix Z) *
      (Polynomial.C : ℂ →+* ℂ[X]).mapMatrix C).det =
    (1 + (X : ℂ[X]) • (Polynomial.C : ℂ →+* ℂ[X]).mapMatrix (Y * dens C) + (X ^ 2 : ℂ[X]) •
      (Polynomial.C).mapMatrix (Z * dens C)).det * Polynomial.C (1 + C).det := by
  rw [RingHom.map_det, ← Matrix.det_mul]
  congr 1
  have hd := congrArg (Polynomial.C : ℂ →+* ℂ[X]).mapMatrix (dens_mul h)
  rw [map_mul] at hd
  simp only [map_mul, add_mul, smul_mul_assoc, Matrix.mul_assoc, hd, one_mul]
  rw [map_add, map_one]
  abel

/-- The trace of the product operator. -/
theorem wick_one (C : Fin 2 → Matrix (Fin m) (Fin m) ℂ) : wick C 1 = (1 + C 0).det * (1 + C 1).det := by
  rw [wick_apply, ← fock_tens]
  simp only [Pi.one_apply, Matrix.one_mul]

variable {C : Fin 2 → Matrix (Fin m) (Fin m) ℂ}

theorem wick_oneOp (h : ∀ s, (1 + C s).det ≠ 0) (Y : Fin 2 → Matrix (Fin m) (Fin m) ℂ) :
    wick C (oneOp Y) = (1 + C 0).det * (1 + C 1).det * ∑ s, (Y s * dens (C s)).trace := by
  rw [← (gen_coeff Y C).1, Fin.prod_univ_two, det_factor (h 0), det_factor (h 1)]
  obtain ⟨a0, a1, -⟩ := det_quad (Y 0 * dens (C 0)) ((1 / 2 : ℂ) • (Y 0 * Y 0) * dens (C 0))
  obtain ⟨b0, b1, -⟩ := det_quad (Y 1 * dens (C 1)) ((1 / 2 : ℂ) • (Y 1 * Y 1) * dens (C 1))
  rw [mul_mul_mul_comm, ← Polynomial.C_mul, coeff_mul_C, Step.coeff_one_mul, a0, a1, b0, b1, Fin.sum_univ_two]
  ring

theorem wick_sq (h : ∀ s, (1 + C s).det ≠ 0) (Y : Fin 2 → Matrix (Fin m) (Fin m) ℂ) :
    wick C (oneOp Y * oneOp Y) = (1 + C 0).det * (1 + C 1).det * ((∑ s, (Y s * dens (C s)).trace) ^ 2 +
      ∑ s, ((Y s * Y s * dens (C s)).trace - (Y s * dens (C s) * (Y s * dens (C s))).trace)) := by
  have e := (gen_coeff Y C).2
  rw [Fin.prod_univ_two, det_factor (h 0), det_factor (h 1)] at e
  obtain ⟨a0, a1, a2⟩ := det_quad (Y 0 * dens (C 0)) ((1 / 2 : ℂ) • (Y 0 * Y 0) * dens (C 0))
  obtain ⟨b0, b1, b2⟩ := det_quad (Y 1 * dens (C 1)) ((1 / 2 : ℂ) • (Y 1 * Y 1) * dens (C 1))
  rw [mul_mul_mul_comm, ← Polynomial.C_mul, coeff_mul_C, Step.coeff_two_mul, a0, a1, a2, b0, b1, b2] at e
  simp only [smul_mul_assoc, Matrix.trace_smul, smul_eq_mul] at e
  rw [Fin.sum_univ_two, Fin.sum_univ_two]
  linear_combination (-2 : ℂ) * e

theorem pairOp_self (Y : Fin 2 → Matrix (Fin m) (Fin m) ℂ) :
    pairOp Y Y = oneOp Y * oneOp Y - oneOp fun s => Y s * Y s := by
  funext nu nd
  have := Step.spinOp_mul (spin : Fin nu ⊕ Fin nd → Fin 2) Y Y
  simp only [Pi.sub_apply, Pi.mul_apply, oneOp, this, pairOp]
  abel

theorem pairOp_symm (X Y : Fin 2 → Matrix (Fin m) (Fin m) ℂ) : pairOp X Y = pairOp Y X := by
  funext nu nd
  simp only [pairOp, Step.sum_erase_eq]
  rw [sum_comm]
  refine sum_congr rfl fun b _ => sum_congr rfl fun a _ => ?_
  by_cases h : b = a
  · rw [if_pos h, if_pos h.symm]
  · rw [if_neg h, if_neg (Ne.symm h), Step.onP_comm h]

theorem pairOp_add (X Y Z : Fin 2 → Matrix (Fin m) (Fin m) ℂ) : pairOp (X + Y) Z = pairOp X Z + pairOp Y Z := by
  funext nu nd
  simp only [pairOp, Pi.add_apply, Step.onP_add, add_mul, sum_add_distrib]

theorem wick_self (h : ∀ s, (1 + C s).det ≠ 0) (Y : Fin 2 → Matrix (Fin m) (Fin m) ℂ) :
    wick C (pairOp Y Y) = (1 + C 0).det * (1 + C 1).det * ((∑ s, (Y s * dens (C s)).trace) ^ 2 -
      ∑ s, (Y s * dens (C s) * (Y s * dens (C s))).trace) := by
  rw [pairOp_self, map_sub, wick_sq h, wick_oneOp h]
  simp only [Fin.sum_univ_two]
  ring

/-- Wick's theorem for pairs of electrons. -/
theorem wick_pair (h : ∀ s, (1 + C s).det ≠ 0) (X Y : Fin 2 → Matrix (Fin m) (Fin m) ℂ) :
    wick C (pairOp X Y) = (1 + C 0).det * (1 + C 1).det * ((∑ s, (X s * dens (C s)).trace) *
      (∑ s, (Y s * dens (C s)).trace) - ∑ s, (X s * dens (C s) * (Y s * dens (C s))).trace) := by
  have e : pairOp (X + Y) (X + Y) = pairOp X X + pairOp Y Y + (2 : ℂ) • pairOp X Y := by
    rw [pairOp_add, pairOp_symm X, pairOp_symm Y, pairOp_add, pairOp_add, pairOp_symm Y X, two_smul]
    abel
  have e' := congrArg (wick C) e
  rw [map_add, map_add, map_smul, wick_self h, wick_self h, wick_self h, smul_eq_mul] at e'
  have hc : ∀ s, (Y s * dens (C s) * (X s * dens (C s))).trace = (X s * dens (C s) * (Y s * dens (C s))).trace :=
    fun s => Matrix.trace_mul_comm _ _
  simp only [Fin.sum_univ_two, Pi.add_apply, add_mul, mul_add, Matrix.trace_add, hc] at e' ⊢
  linear_combination (-1 / 2 : ℂ) * e'

/-! ## Energies -/

/-- `∑ A_ij G_ij` is the trace with the transpose. -/
theorem dot2_eq (A G : Matrix (Fin m) (Fin m) ℂ) : Energy.dot2 A Gᵀ = (A * G).trace := by
  simp only [Energy.dot2, Matrix.trace, Matrix.diag_apply, Matrix.mul_apply, Matrix.transpose_apply]

/-- The number of electrons. -/
theorem wick_number (h : ∀ s, (1 + C s).det ≠ 0) :
    wick C (fun nu nd => ((nu + nd : Nat) : ℂ) • 1) = (1 + C 0).det * (1 + C 1).det *
      ((dens (C 0)).trace + (dens (C 1)).trace) := by
  have e : (fun nu nd => ((nu + nd : Nat) : ℂ) • 1 : Ops m) = oneOp fun _ => 1 := by
    funext nu nd
    rw [oneOp, Step.spinOp_one, Fintype.card_sum, Fintype.card_fin, Fintype.card_fin]
  rw [e, wick_oneOp h, Fin.sum_univ_two, Matrix.one_mul, Matrix.one_mul]

/-- The Hubbard Hamiltonian. -/
theorem wick_hub (h : ∀ s, (1 + C s).det ≠ 0) (T : Fin 2 → Matrix (Fin m) (Fin m) ℂ) (U : ℂ) (b : Bool) :
    wick C (fun _ _ => hubOp T U spin) = (1 + C 0).det * (1 + C 1).det *
      (Energy.localHubbard T U b fun s => (dens (C s))ᵀ).1 := by
  have e : (fun _ _ => hubOp T U spin : Ops m) = oneOp T + U • ∑ i, pairOp ![site i, 0] ![0, site i] := by
    funext nu nd
    simp only [hubOp, oneOp, spinOp, Step.allP, Pi.add_apply, Pi.smul_apply, Finset.sum_apply, pairOp]
    congr 2
    refine sum_congr rfl fun i _ => sum_congr rfl fun a _ => ?_
    rw [Step.sum_erase_eq]
    refine sum_congr rfl fun c _ => ?_
    have h0 : ∀ a : Fin nu ⊕ Fin nd, onP a (0 : Matrix (Fin m) (Fin m) ℂ) = 0 := fun a => by
      have := Step.onP_smul a 0 (0 : Matrix (Fin m) (Fin m) ℂ)
      simpa using this
    rcases (by omega : (spin a : Fin 2).val = 0 ∨ (spin a : Fin 2).val = 1) with ha | ha <;>
    rcases (by omega : (spin c : Fin 2).val = 0 ∨ (spin c : Fin 2).val = 1) with hc | hc
    · have ha' : spin a = 0 := Fin.ext ha
      have hc' : spin c = 0 := Fin.ext hc
      simp [ha', hc', h0]
    · have ha' : spin a = 0 := Fin.ext ha
      have hc' : spin c = 1 := Fin.ext hc
      have : c ≠ a := fun h => by rw [h, ha'] at hc'; exact absurd (show (0 : Fin 2) = 1 from hc') (by decide)
      simp [ha', hc', this]
    · have ha' : spin a = 1 := Fin.ext ha
      have hc' : spin c = 0 := Fin.ext hc
      simp [ha', hc', h0]
    · have ha' : spin a = 1 := Fin.ext ha
      have hc' : spin c = 1 := Fin.ext hc
      simp [ha', hc', h0]
  have hs : ∀ i (A : Matrix (Fin m) (Fin m) ℂ), (site i * A).trace = A i i := fun i A => by
    rw [site, Matrix.trace_single_mul, one_smul]
  rw [e, map_add, map_smul, map_sum, wick_oneOp h]
  simp only [wick_pair h, Fin.sum_univ_two, Matrix.cons_val_zero, Matrix.cons_val_one, Matrix.zero_mul,
    Matrix.mul_zero, Matrix.trace_zero, add_zero, zero_add, sub_zero, hs, Energy.localHubbard, dot2_eq,
    Matrix.transpose_apply, ← mul_sum, smul_eq_mul]
  ring

/-- Hamiltonians with an interaction given by its matrix elements. -/
theorem wick_coulomb (h : ∀ s, (1 + C s).det ≠ 0) (T : Fin 2 → Matrix (Fin m) (Fin m) ℂ) (eri : Energy.Eri m) :
    wick C (fun _ _ => coulombOp T eri spin) = (1 + C 0).det * (1 + C 1).det *
      (Energy.localGeneric T eri (fun s => (dens (C s))ᵀ) 0).1 := by
  have e : (fun _ _ => coulombOp T eri spin : Ops m) = oneOp T + (1 / 2 : ℂ) • ∑ p, ∑ r, ∑ q, ∑ s, eri p r q s •
      pairOp (fun _ => Matrix.single p r 1) (fun _ => Matrix.single q s 1) := by
    funext nu nd
    simp only [coulombOp, oneOp, spinOp, Step.allP, Pi.add_apply, Pi.smul_apply, Finset.sum_apply, pairOp]
  have hs : ∀ p r (A : Matrix (Fin m) (Fin m) ℂ), (Matrix.single p r 1 * A).trace = A r p := fun p r A => by
    rw [Matrix.trace_single_mul, one_smul]
  have hs2 : ∀ p r q s (A : Matrix (Fin m) (Fin m) ℂ), (Matrix.single p r 1 * A * (Matrix.single q s 1 * A)).trace =
      A r q * A s p := fun p r q s A => by
    rw [Matrix.mul_assoc, hs, Matrix.mul_apply]
    simp [Matrix.single_mul_apply_same, Matrix.mul_apply, Matrix.single_apply, ite_and, Finset.sum_ite_eq]
  rw [e, map_add, map_smul, wick_oneOp h]
  simp only [map_sum, map_smul, wick_pair h, Fin.sum_univ_two, hs, hs2, smul_eq_mul, Energy.localGeneric, dot2_eq,
    Matrix.transpose_apply]
  have e2 : ∀ D a : ℂ, D * a + 1 / 2 * ∑ p, ∑ r, ∑ q, ∑ s, eri p r q s * (D * ((dens (C 0) r p + dens (C 1) r p) *
      (dens (C 0) s q + dens (C 1) s q) - (dens (C 0) r q * dens (C 0) s p + dens (C 1) r q * dens (C 1) s p))) =
      D * (a + 1 / 2 * ∑ p, ∑ r, ∑ q, ∑ s, eri p r q s * ((dens (C 0) r p + dens (C 1) r p) *
      (dens (C 0) s q + dens (C 1) s q) - (dens (C 0) r q * dens (C 0) s p + dens (C 1) r q * dens (C 1) s p))) := by
    intro D a
    simp only [mul_left_comm _ D, ← mul_sum]
    ring
  rw [e2]
  congr 1
  simp only [mul_add, add_mul, mul_sub, sum_add_distrib, sum_sub_distrib, ← mul_assoc]
  have hk : ∀ s : Fin 2, ∑ p, ∑ r, ∑ q, ∑ u, eri p r q u * dens (C s) r q * dens (C s) u p =
      ∑ p, ∑ r, ∑ q, ∑ u, eri p r q u * dens (C s) u p * dens (C s) r q := fun s =>
    sum_congr rfl fun p _ => sum_congr rfl fun r _ => sum_congr rfl fun q _ => sum_congr rfl fun u _ => by ring
  rw [hk, hk]
  ring

/-- Hamiltonians with an interaction given by Cholesky vectors. -/
theorem wick_ham (h : ∀ s, (1 + C s).det ≠ 0) (T : Fin 2 → Matrix (Fin m) (Fin m) ℂ)
    (L : Fin nx → Matrix (Fin m) (Fin m) ℂ) (ecore : ℂ) :
    wick C (fun _ _ => hamOp T L ecore spin) = (1 + C 0).det * (1 + C 1).det *
      (Energy.localGeneric T (Energy.cholEri L) (fun s => (dens (C s))ᵀ) ecore).1 := by
  have e : (fun _ _ => hamOp T L ecore spin : Ops m) = ecore • 1 + oneOp T +
      (1 / 2 : ℂ) • ∑ x, pairOp (fun _ => L x) fun _ => L x := by
    funext nu nd
    simp only [hamOp, oneOp, spinOp, Step.allP, Pi.add_apply, Pi.smul_apply, Finset.sum_apply, pairOp, Pi.one_apply]
  have hl : ∀ G : Fin 2 → Matrix (Fin m) (Fin m) ℂ, (Energy.localGeneric T (Energy.cholEri L) G ecore).1 =
      Energy.dot2 (T 0) (G 0) + Energy.dot2 (T 1) (G 1) + Energy.twoBodyForm L G + ecore := by
    intro G
    rw [← Energy.localGeneric_form T L G ecore]
    rfl
  rw [e, map_add, map_add, map_smul, map_smul, wick_oneOp h, wick_one, hl, Energy.twoBodyForm]
  simp only [map_sum, wick_self h, Fin.sum_univ_two, dot2_eq, Matrix.transpose_transpose, smul_eq_mul, ← mul_sum,
    Matrix.mul_assoc]
  have e3 : ∀ x, (((L x * dens (C 0)).trace + (L x * dens (C 1)).trace) ^ 2 - ((L x * (dens (C 0) * (L x * dens (C 0)))).trace +
    (L x * (dens (C 1) * (L x * dens (C 1)))).trace)) = ((L x * dens (C 0)).trace + (L x * dens (C 1)).trace) ^ 2 -
    (L x * (dens (C 0) * (L x * dens (C 0)))).trace - (L x * (dens (C 1) * (L x * dens (C 1)))).trace := fun x => by ring
  simp only [e3]
  ring

end Verif.Grand
