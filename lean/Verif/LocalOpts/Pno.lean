import Verif.LocalOpts.Runs
import Mathlib.Analysis.InnerProductSpace.Basic
import Mathlib.Analysis.SpecialFunctions.Pow.Real

/-!
# C116: the energy from pair natural orbitals
-/

namespace Verif.LocalOpts

open Matrix Finset Energy

variable {M na nb : Nat}

/-- Contract of `numpy.linalg.svd` on a square matrix. -/
structure IsSVD (V U : Matrix (Fin M) (Fin M) ℂ) (s : Fin M → ℝ) (VT : Matrix (Fin M) (Fin M) ℂ) :
    Prop where
  left : U * Uᴴ = 1
  right : VTᴴ * VT = 1
  nonneg : ∀ k, 0 ≤ s k
  eq : V = U * diagonal (fun k => (s k : ℂ)) * VT

/-- The routine meets its contract. -/
def SVDSpec (svd : SVD M) : Prop := ∀ V, IsSVD V (svd V).1 (svd V).2.1 (svd V).2.2

/-- Euclidean length. -/
noncomputable def len (x : Fin M → ℂ) : ℝ := Real.sqrt (∑ p, ‖x p‖ ^ 2)

theorem len_nonneg (x : Fin M → ℂ) : 0 ≤ len x := Real.sqrt_nonneg _

/-- A unitary matrix keeps the length. -/
theorem parseval (U : Matrix (Fin M) (Fin M) ℂ) (h : U * Uᴴ = 1) (x : Fin M → ℂ) :
    ∑ k, ‖∑ p, x p * U p k‖ ^ 2 = ∑ p, ‖x p‖ ^ 2 := by
  have key : ∑ k, ((∑ p, x p * U p k) * star (∑ p, x p * U p k)) = ∑ p, x p * star (x p) := by
    have h2 : (x ᵥ* U) ⬝ᵥ (star (x ᵥ* U)) = x ⬝ᵥ star x := by
      rw [star_vecMul, ← dotProduct_mulVec, mulVec_mulVec, h, one_mulVec]
    exact h2
  have conv : ∀ z : ℂ, z * star z = ((‖z‖ ^ 2 : ℝ) : ℂ) := by
    intro z
    rw [Complex.star_def, Complex.mul_conj, Complex.normSq_eq_norm_sq]
  simp only [conv] at key
  exact_mod_cast key

/-- The kept part, written as a sum over singular values. -/
theorem viaFactor_truncate (thresh : ℝ) (U : Matrix (Fin M) (Fin M) ℂ) (s : Fin M → ℝ)
    (VT : Matrix (Fin M) (Fin M) ℂ) (hs : ∀ k, 0 ≤ s k) (x y : Fin M → ℂ) :
    viaFactor (truncate thresh (U, s, VT)) x y =
      ∑ k, if thresh < s k then (∑ p, x p * U p k) * (s k : ℂ) * ∑ q, y q * VT k q else 0 := by
  classical
  have h : ∀ l : List (Fin M),
      (∑ a : Fin l.length, (∑ p, x p * (U p (l.get a) * (Real.sqrt (s (l.get a)) : ℂ))) *
        ∑ q, y q * ((Real.sqrt (s (l.get a)) : ℂ) * VT (l.get a) q)) =
      (l.map fun k => (∑ p, x p * U p k) * (s k : ℂ) * ∑ q, y q * VT k q).sum := by
    intro l
    have hk : ∀ k, (∑ p, x p * (U p k * ((Real.sqrt (s k) : ℝ) : ℂ))) *
        ∑ q, y q * (((Real.sqrt (s k) : ℝ) : ℂ) * VT k q) =
        (∑ p, x p * U p k) * (s k : ℂ) * ∑ q, y q * VT k q := by
      intro k
      have hsq : ((Real.sqrt (s k) : ℝ) : ℂ) * ((Real.sqrt (s k) : ℝ) : ℂ) = (s k : ℂ) := by
        rw [← Complex.ofReal_mul, Real.mul_self_sqrt (hs _)]
      have e1 : ∑ p, x p * (U p k * ((Real.sqrt (s k) : ℝ) : ℂ)) =
          (∑ p, x p * U p k) * ((Real.sqrt (s k) : ℝ) : ℂ) := by
        rw [Finset.sum_mul]; exact Finset.sum_congr rfl fun p _ => by ring
      have e2 : ∑ q, y q * (((Real.sqrt (s k) : ℝ) : ℂ) * VT k q) =
          ((Real.sqrt (s k) : ℝ) : ℂ) * ∑ q, y q * VT k q := by
        rw [Finset.mul_sum]; exact Finset.sum_congr rfl fun p _ => by ring
      rw [e1, e2, ← hsq]
      ring
    simp only [hk]
    exact Fin.sum_univ_fun_getElem l fun k => (∑ p, x p * U p k) * (s k : ℂ) * ∑ q, y q * VT k q
  have h2 := h (kept thresh s)
  have h3 : viaFactor (truncate thresh (U, s, VT)) x y =
      ((kept thresh s).map fun k => (∑ p, x p * U p k) * (s k : ℂ) * ∑ q, y q * VT k q).sum := by
    rw [← h2]
    rfl
  rw [h3]
  have h4 : ∀ (l : List (Fin M)) (f : Fin M → ℂ),
      ((l.filter fun k => thresh < s k).map f).sum =
        (l.map fun k => if thresh < s k then f k else 0).sum := by
    intro l f
    induction l with
    | nil => rfl
    | cons a l ih =>
      by_cases ha : thresh < s a
      · simp [List.filter_cons, ha, ih]
      · simp [List.filter_cons, ha, ih]
  have h5 : kept thresh s = (List.finRange M).filter fun k => thresh < s k := by
    unfold kept
    congr
  rw [h5, h4, ← List.sum_ofFn, ← List.map_id (List.ofFn _), List.ofFn_eq_map, List.map_map]
  rfl

/-- The quadratic form of a matrix. -/
noncomputable def quad (V : Matrix (Fin M) (Fin M) ℂ) (x y : Fin M → ℂ) : ℂ :=
  ∑ p, ∑ q, V p q * x p * y q

theorem quad_svd {V U VT : Matrix (Fin M) (Fin M) ℂ} {s : Fin M → ℝ} (h : IsSVD V U s VT)
    (x y : Fin M → ℂ) :
    quad V x y = ∑ k, (∑ p, x p * U p k) * (s k : ℂ) * ∑ q, y q * VT k q := by
  have e : quad V x y = x ⬝ᵥ (V *ᵥ y) := by
    simp only [quad, dotProduct, mulVec, Finset.mul_sum]
    exact Finset.sum_congr rfl fun p _ => Finset.sum_congr rfl fun q _ => by ring
  rw [e, h.eq, ← mulVec_mulVec, ← mulVec_mulVec, dotProduct_mulVec]
  simp only [dotProduct, vecMul, mulVec, diagonal_apply, ite_mul, zero_mul, Finset.sum_ite_eq,
    Finset.mem_univ, if_true]
  refine Finset.sum_congr rfl fun k _ => ?_
  have : ∑ q, VT k q * y q = ∑ q, y q * VT k q := Finset.sum_congr rfl fun q _ => mul_comm _ _
  rw [mul_assoc, ← this]

/-- **C116**, one pair: dropping the singular values up to the threshold changes the form by at most
the threshold times the lengths. -/
theorem truncate_error {V : Matrix (Fin M) (Fin M) ℂ} {thresh : ℝ} (ht : 0 ≤ thresh) (svd : SVD M)
    (h : IsSVD V (svd V).1 (svd V).2.1 (svd V).2.2) (x y : Fin M → ℂ) :
    ‖viaFactor (truncate thresh (svd V)) x y - quad V x y‖ ≤ thresh * (len x * len y) := by
  generalize svd V = d at h
  obtain ⟨U, s, VT⟩ := d
  dsimp only at h
  rw [viaFactor_truncate thresh U s VT h.nonneg, quad_svd h, ← Finset.sum_sub_distrib]
  have hVT : VTᵀ * (VTᵀ)ᴴ = 1 := by
    have : VTᵀ * (VTᵀ)ᴴ = (VTᴴ * VT)ᵀ := by
      rw [transpose_mul]; rfl
    rw [this, h.right, transpose_one]
  calc ‖∑ k, ((if thresh < s k then (∑ p, x p * U p k) * (s k : ℂ) * ∑ q, y q * VT k q else 0) -
        (∑ p, x p * U p k) * (s k : ℂ) * ∑ q, y q * VT k q)‖
      ≤ ∑ k, ‖(if thresh < s k then (∑ p, x p * U p k) * (s k : ℂ) * ∑ q, y q * VT k q else 0) -
        (∑ p, x p * U p k) * (s k : ℂ) * ∑ q, y q * VT k q‖ := norm_sum_le _ _
    _ ≤ ∑ k, thresh * (‖∑ p, x p * U p k‖ * ‖∑ q, y q * VT k q‖) := by
        refine Finset.sum_le_sum fun k _ => ?_
        by_cases hk : thresh < s k
        · rw [if_pos hk, sub_self, norm_zero]
          positivity
        · rw [if_neg hk, zero_sub, norm_neg, norm_mul, norm_mul, Complex.norm_real, Real.norm_eq_abs,
            abs_of_nonneg (h.nonneg k)]
          push Not at hk
          have : ‖∑ p, x p * U p k‖ * s k * ‖∑ q, y q * VT k q‖ =
              s k * (‖∑ p, x p * U p k‖ * ‖∑ q, y q * VT k q‖) := by ring
          rw [this]
          exact mul_le_mul_of_nonneg_right hk (by positivity)
    _ = thresh * ∑ k, ‖∑ p, x p * U p k‖ * ‖∑ q, y q * VT k q‖ := by rw [Finset.mul_sum]
    _ ≤ thresh * (len x * len y) := by
        refine mul_le_mul_of_nonneg_left ?_ ht
        refine (Real.sum_mul_le_sqrt_mul_sqrt _ _ _).trans ?_
        rw [parseval U h.left x]
        have := parseval VTᵀ hVT y
        simp only [transpose_apply] at this
        rw [this]
        rfl

/-! ### Sums over pairs -/

theorem sum_pairsSame {k : Nat} (f : Fin k × Fin k → ℂ) :
    ((pairsSame k).map f).sum = ∑ i, ∑ j, if i ≤ j then f (i, j) else 0 := by
  have fin : ∀ (n : Nat) (g : Fin n → ℂ), ((List.finRange n).map g).sum = ∑ i, g i := by
    intro n g
    rw [← List.ofFn_eq_map, List.sum_ofFn]
  have h4 : ∀ (l : List (Fin k)) (i : Fin k) (g : Fin k → ℂ),
      ((l.filter fun j => decide (i ≤ j)).map g).sum = (l.map fun j => if i ≤ j then g j else 0).sum := by
    intro l i g
    induction l with
    | nil => rfl
    | cons a l ih =>
      by_cases ha : i ≤ a
      · simp [List.filter_cons, ha, ih]
      · simp only [List.filter_cons, ha, decide_false, Bool.false_eq_true, if_false, ih,
          List.map_cons, List.sum_cons, zero_add]
  have flat : ∀ (l : List (Fin k)), ((l.flatMap fun i =>
      ((List.finRange k).filter fun j => i ≤ j).map fun j => (i, j)).map f).sum =
      (l.map fun i => ∑ j, if i ≤ j then f (i, j) else 0).sum := by
    intro l
    induction l with
    | nil => rfl
    | cons a l ih =>
      rw [List.flatMap_cons, List.map_append, List.sum_append, ih, List.map_cons, List.sum_cons,
        List.map_map, h4, fin]
      rfl
  rw [pairsSame, flat, fin]

theorem sum_pairsMixed {k l : Nat} (f : Fin k × Fin l → ℂ) :
    ((pairsMixed k l).map f).sum = ∑ i, ∑ j, f (i, j) := by
  have fin : ∀ (n : Nat) (g : Fin n → ℂ), ((List.finRange n).map g).sum = ∑ i, g i := by
    intro n g
    rw [← List.ofFn_eq_map, List.sum_ofFn]
  have flat : ∀ (m : List (Fin k)), ((m.flatMap fun i =>
      (List.finRange l).map fun j => (i, j)).map f).sum =
      (m.map fun i => ∑ j, f (i, j)).sum := by
    intro m
    induction m with
    | nil => rfl
    | cons a m ih =>
      rw [List.flatMap_cons, List.map_append, List.sum_append, ih, List.map_cons, List.sum_cons,
        List.map_map, fin]
      rfl
  rw [pairsMixed, flat, fin]

theorem zip_map_sum {α β : Type*} (l : List α) (f : α → β) (g : α × β → ℂ) :
    ((l.zip (l.map f)).map g).sum = (l.map fun x => g (x, f x)).sum := by
  induction l with
  | nil => rfl
  | cons a l ih => simp [ih]

/-- Half the sum over all pairs is the sum over ordered pairs with half weight on the diagonal. -/
theorem half_pairs {R : Type*} [Field R] [CharZero R] {k : Nat} (f : Fin k → Fin k → R)
    (hf : ∀ i j, f i j = f j i) :
    (∑ i, ∑ j, if i ≤ j then (if i = j then 1 / 2 else 1) * f i j else 0) =
      (1 / 2 : R) * ∑ i, ∑ j, f i j := by
  have h : ∀ i j, f i j * (1 / 2) + f i j * (1 / 2) = f i j := fun i j => by ring
  have sw : (∑ i, ∑ j, if i ≤ j then (if i = j then 1 / 2 else 1) * f i j else 0) =
      ∑ i, ∑ j, if j ≤ i then (if i = j then 1 / 2 else 1) * f i j else 0 := by
    rw [Finset.sum_comm]
    refine Finset.sum_congr rfl fun i _ => Finset.sum_congr rfl fun j _ => ?_
    rw [hf j i]
    simp only [eq_comm (a := j)]
  have two : (∑ i, ∑ j, if i ≤ j then (if i = j then 1 / 2 else 1) * f i j else 0) +
      (∑ i, ∑ j, if i ≤ j then (if i = j then 1 / 2 else 1) * f i j else 0) = ∑ i, ∑ j, f i j := by
    conv_lhs => rhs; rw [sw]
    rw [← Finset.sum_add_distrib]
    refine Finset.sum_congr rfl fun i _ => ?_
    rw [← Finset.sum_add_distrib]
    refine Finset.sum_congr rfl fun j _ => ?_
    rcases lt_trichotomy i j with hij | hij | hij
    · rw [if_pos hij.le, if_neg (not_le.mpr hij), if_neg hij.ne, one_mul, add_zero]
    · rw [if_pos hij.le, if_pos hij.ge, if_pos hij]
      ring
    · rw [if_neg (not_le.mpr hij), if_pos hij.le, if_neg hij.ne', one_mul, zero_add]
  rw [← two]
  ring

/-! ### The energy -/

/-- The two-body energy from half-rotated integrals. -/
noncomputable def e2Half {nchol : Nat} (ra : Fin nchol → Matrix (Fin na) (Fin M) ℂ)
    (rb : Fin nchol → Matrix (Fin nb) (Fin M) ℂ) (a : Matrix (Fin na) (Fin M) ℂ)
    (b : Matrix (Fin nb) (Fin M) ℂ) : ℂ :=
  (localCholOpt (0 : Fin 2 → Matrix (Fin M) (Fin M) ℂ) 0 ra rb a b 0).2.2

/-- Coulomb minus exchange of equal spins as a sum over pairs. -/
theorem same_pairs {k : Nat} (V : Fin k → Fin k → Matrix (Fin M) (Fin M) ℂ)
    (hV : ∀ i j p q, V i j p q = V j i q p) (t : Matrix (Fin k) (Fin M) ℂ) :
    (∑ i, ∑ j, if i ≤ j then (if i = j then (1 / 2 : ℂ) else 1) *
        (quad (V i j) (t i) (t j) - quad (V i j) (t j) (t i)) else 0) =
      (1 / 2 : ℂ) * ((∑ i, ∑ r, ∑ j, ∑ s, V i j r s * t i r * t j s) -
        ∑ i, ∑ r, ∑ j, ∑ s, V i j r s * t i s * t j r) := by
  have sw : ∀ i j (x y : Fin M → ℂ), quad (V i j) x y = quad (V j i) y x := by
    intro i j x y
    simp only [quad]
    rw [Finset.sum_comm]
    refine Finset.sum_congr rfl fun p _ => Finset.sum_congr rfl fun q _ => ?_
    rw [hV i j q p]
    ring
  rw [half_pairs (fun i j => quad (V i j) (t i) (t j) - quad (V i j) (t j) (t i))
    (fun i j => by rw [sw i j, sw i j])]
  congr 1
  simp only [Finset.sum_sub_distrib]
  congr 1
  · refine Finset.sum_congr rfl fun i _ => ?_
    rw [Finset.sum_comm]
    rfl
  · refine Finset.sum_congr rfl fun i _ => ?_
    rw [Finset.sum_comm (s := (Finset.univ : Finset (Fin M)))]
    refine Finset.sum_congr rfl fun j _ => ?_
    simp only [quad]
    refine Finset.sum_congr rfl fun p _ => Finset.sum_congr rfl fun q _ => ?_
    ring

/-- The two-body energy is the sum over pairs. -/
theorem e2Half_pairs {nchol : Nat} (A : Matrix (Fin M) (Fin na) ℂ) (B : Matrix (Fin M) (Fin nb) ℂ)
    (L : Fin nchol → Matrix (Fin M) (Fin M) ℂ) (a : Matrix (Fin na) (Fin M) ℂ)
    (b : Matrix (Fin nb) (Fin M) ℂ) :
    e2Half (Energy.halfRotate A L) (Energy.halfRotate B L) a b =
      (∑ i, ∑ j, if i ≤ j then (if i = j then (1 / 2 : ℂ) else 1) *
        (quad (Matrix.of fun p q => halfEri A A L i p j q) (a i) (a j) -
          quad (Matrix.of fun p q => halfEri A A L i p j q) (a j) (a i)) else 0) +
      (∑ i, ∑ j, if i ≤ j then (if i = j then (1 / 2 : ℂ) else 1) *
        (quad (Matrix.of fun p q => halfEri B B L i p j q) (b i) (b j) -
          quad (Matrix.of fun p q => halfEri B B L i p j q) (b j) (b i)) else 0) +
      ∑ i, ∑ j, quad (Matrix.of fun p q => halfEri A B L i p j q) (a i) (b j) := by
  have sym : ∀ {k : Nat} (C : Matrix (Fin M) (Fin k) ℂ) (i j : Fin k) (p q : Fin M),
      halfEri C C L i p j q = halfEri C C L j q i p := by
    intro k C i j p q
    rw [halfEri_eq, halfEri_eq]
    exact Finset.sum_congr rfl fun x _ => mul_comm _ _
  rw [same_pairs (fun i j => Matrix.of fun p q => halfEri A A L i p j q) (fun i j p q => sym A i j p q),
    same_pairs (fun i j => Matrix.of fun p q => halfEri B B L i p j q) (fun i j p q => sym B i j p q),
    e2Half, ← localOpt_eq]
  have mixed : ∑ i, ∑ j, quad (Matrix.of fun p q => halfEri A B L i p j q) (a i) (b j) =
      ∑ i, ∑ r, ∑ j, ∑ s, halfEri A B L i r j s * a i r * b j s := by
    refine Finset.sum_congr rfl fun i _ => ?_
    rw [Finset.sum_comm]
    refine Finset.sum_congr rfl fun j _ => ?_
    rfl
  rw [mixed]
  simp only [localOpt, Matrix.of_apply]
  ring

/-- Sum of the lengths of the rows. -/
noncomputable def rowLen {k : Nat} (t : Matrix (Fin k) (Fin M) ℂ) : ℝ := ∑ i, len (t i)

/-- What truncation may change, per unit of threshold. -/
noncomputable def room (a : Matrix (Fin na) (Fin M) ℂ) (b : Matrix (Fin nb) (Fin M) ℂ) : ℝ :=
  rowLen a ^ 2 + rowLen b ^ 2 + rowLen a * rowLen b

/-- Errors of equal-spin pairs add up. -/
theorem same_error {k : Nat} {thresh : ℝ} (svd : SVD M)
    (hsvd : SVDSpec svd) (ht : 0 ≤ thresh) (V : Fin k → Fin k → Matrix (Fin M) (Fin M) ℂ)
    (t t0 : Matrix (Fin k) (Fin M) ℂ) :
    ‖(((pairsSame k).zip ((pairsSame k).map fun x => truncate thresh (svd (V x.1 x.2)))).map
        (pairTerm t t0)).sum -
      ((∑ i, ∑ j, if i ≤ j then (if i = j then (1 / 2 : ℂ) else 1) *
        (quad (V i j) (t i) (t j) - quad (V i j) (t j) (t i)) else 0) -
       (∑ i, ∑ j, if i ≤ j then (if i = j then (1 / 2 : ℂ) else 1) *
        (quad (V i j) (t0 i) (t0 j) - quad (V i j) (t0 j) (t0 i)) else 0))‖ ≤
      thresh * (rowLen t ^ 2 + rowLen t0 ^ 2) := by
  rw [zip_map_sum, sum_pairsSame, ← Finset.sum_sub_distrib, ← Finset.sum_sub_distrib]
  simp only [← Finset.sum_sub_distrib]
  have term : ∀ i j : Fin k,
      ‖(if i ≤ j then pairTerm t t0 ((i, j), truncate thresh (svd (V i j))) else 0) -
        ((if i ≤ j then (if i = j then (1 / 2 : ℂ) else 1) *
          (quad (V i j) (t i) (t j) - quad (V i j) (t j) (t i)) else 0) -
        (if i ≤ j then (if i = j then (1 / 2 : ℂ) else 1) *
          (quad (V i j) (t0 i) (t0 j) - quad (V i j) (t0 j) (t0 i)) else 0))‖ ≤
      if i ≤ j then (if i = j then (1 / 2 : ℝ) else 1) *
        (2 * thresh * (len (t i) * len (t j) + len (t0 i) * len (t0 j))) else 0 := by
    intro i j
    by_cases hij : i ≤ j
    · simp only [if_pos hij, pairTerm]
      set c : ℂ := if i = j then (1 / 2 : ℂ) else 1 with hc
      have hcn : ‖c‖ = if i = j then (1 / 2 : ℝ) else 1 := by
        rw [hc]; split_ifs <;> norm_num
      have e1 := truncate_error ht svd (hsvd (V i j)) (t i) (t j)
      have e2 := truncate_error ht svd (hsvd (V i j)) (t0 i) (t0 j)
      have e3 := truncate_error ht svd (hsvd (V i j)) (t j) (t i)
      have e4 := truncate_error ht svd (hsvd (V i j)) (t0 j) (t0 i)
      set F := truncate thresh (svd (V i j))
      have split : c * (viaFactor F (t i) (t j) - viaFactor F (t0 i) (t0 j)) -
          c * (viaFactor F (t j) (t i) - viaFactor F (t0 j) (t0 i)) -
          (c * (quad (V i j) (t i) (t j) - quad (V i j) (t j) (t i)) -
            c * (quad (V i j) (t0 i) (t0 j) - quad (V i j) (t0 j) (t0 i))) =
          c * ((viaFactor F (t i) (t j) - quad (V i j) (t i) (t j)) -
            (viaFactor F (t0 i) (t0 j) - quad (V i j) (t0 i) (t0 j)) -
            ((viaFactor F (t j) (t i) - quad (V i j) (t j) (t i)) -
            (viaFactor F (t0 j) (t0 i) - quad (V i j) (t0 j) (t0 i)))) := by ring
      rw [split, norm_mul, hcn]
      refine mul_le_mul_of_nonneg_left ?_ (by split_ifs <;> norm_num)
      refine (norm_sub_le _ _).trans ?_
      refine (add_le_add (norm_sub_le _ _) (norm_sub_le _ _)).trans ?_
      refine (add_le_add (add_le_add e1 e2) (add_le_add e3 e4)).trans (le_of_eq ?_)
      ring
    · simp only [if_neg hij, sub_self, norm_zero, le_refl]
  calc _ ≤ ∑ i, ∑ j, (if i ≤ j then (if i = j then (1 / 2 : ℝ) else 1) *
        (2 * thresh * (len (t i) * len (t j) + len (t0 i) * len (t0 j))) else 0) := by
        refine (norm_sum_le _ _).trans (Finset.sum_le_sum fun i _ => ?_)
        exact (norm_sum_le _ _).trans (Finset.sum_le_sum fun j _ => term i j)
    _ = (1 / 2 : ℝ) * ∑ i, ∑ j, 2 * thresh * (len (t i) * len (t j) + len (t0 i) * len (t0 j)) :=
        half_pairs (fun i j => 2 * thresh * (len (t i) * len (t j) + len (t0 i) * len (t0 j)))
          (fun i j => by ring)
    _ = thresh * (rowLen t ^ 2 + rowLen t0 ^ 2) := by
        simp only [← Finset.mul_sum, Finset.sum_add_distrib, rowLen, sq, Finset.sum_mul_sum]
        ring

/-- Errors of opposite-spin pairs. -/
theorem mixed_error {k l : Nat} {thresh : ℝ} (svd : SVD M)
    (hsvd : SVDSpec svd) (ht : 0 ≤ thresh) (V : Fin k → Fin l → Matrix (Fin M) (Fin M) ℂ)
    (a a0 : Matrix (Fin k) (Fin M) ℂ) (b b0 : Matrix (Fin l) (Fin M) ℂ) :
    ‖(((pairsMixed k l).zip ((pairsMixed k l).map fun x => truncate thresh (svd (V x.1 x.2)))).map
        (mixedTerm a a0 b b0)).sum -
      ((∑ i, ∑ j, quad (V i j) (a i) (b j)) - ∑ i, ∑ j, quad (V i j) (a0 i) (b0 j))‖ ≤
      thresh * (rowLen a * rowLen b + rowLen a0 * rowLen b0) := by
  rw [zip_map_sum, sum_pairsMixed, ← Finset.sum_sub_distrib, ← Finset.sum_sub_distrib]
  simp only [← Finset.sum_sub_distrib]
  calc _ ≤ ∑ i, ∑ j, thresh * (len (a i) * len (b j) + len (a0 i) * len (b0 j)) := by
        refine (norm_sum_le _ _).trans (Finset.sum_le_sum fun i _ => ?_)
        refine (norm_sum_le _ _).trans (Finset.sum_le_sum fun j _ => ?_)
        have e1 := truncate_error ht svd (hsvd (V i j)) (a i) (b j)
        have e2 := truncate_error ht svd (hsvd (V i j)) (a0 i) (b0 j)
        simp only [mixedTerm]
        set F := truncate thresh (svd (V i j))
        have split : viaFactor F (a i) (b j) - viaFactor F (a0 i) (b0 j) -
            (quad (V i j) (a i) (b j) - quad (V i j) (a0 i) (b0 j)) =
            (viaFactor F (a i) (b j) - quad (V i j) (a i) (b j)) -
            (viaFactor F (a0 i) (b0 j) - quad (V i j) (a0 i) (b0 j)) := by ring
        rw [split]
        refine (norm_sub_le _ _).trans ((add_le_add e1 e2).trans (le_of_eq ?_))
        ring
    _ = thresh * (rowLen a * rowLen b + rowLen a0 * rowLen b0) := by
        simp only [← Finset.mul_sum, Finset.sum_add_distrib, rowLen, Finset.sum_mul_sum]

end Verif.LocalOpts
