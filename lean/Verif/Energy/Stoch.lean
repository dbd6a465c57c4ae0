import Verif.Energy.Props
import Mathlib.Data.Fintype.Pi
import Mathlib.Data.Fintype.BigOperators

/-!
# Averages over sign vectors: C29
-/

namespace Verif.Energy

open Matrix Finset

variable {m na nb nx ns : Nat}

/-- Average over all sign vectors: every component is `±1` with probability one half, independently. -/
noncomputable def avg (f : Signs nx ns → ℂ) : ℂ := (∑ θ, f θ) / Fintype.card (Signs nx ns)

theorem card_signs_ne : (Fintype.card (Signs nx ns) : ℂ) ≠ 0 := by
  have : 0 < Fintype.card (Signs nx ns) := Fintype.card_pos
  exact_mod_cast this.ne'

theorem avg_const (c : ℂ) : avg (fun _ : Signs nx ns => c) = c := by
  rw [avg, Finset.sum_const, Finset.card_univ, nsmul_eq_mul, mul_comm,
    mul_div_assoc, div_self card_signs_ne, mul_one]

theorem avg_add (f g : Signs nx ns → ℂ) : avg (fun θ => f θ + g θ) = avg f + avg g := by
  simp only [avg, Finset.sum_add_distrib, add_div]

theorem avg_sub (f g : Signs nx ns → ℂ) : avg (fun θ => f θ - g θ) = avg f - avg g := by
  simp only [avg, Finset.sum_sub_distrib, sub_div]

theorem avg_mul (c : ℂ) (f : Signs nx ns → ℂ) : avg (fun θ => c * f θ) = c * avg f := by
  simp only [avg, ← Finset.mul_sum, mul_div_assoc]

theorem avg_sum {ι : Type} (s : Finset ι) (f : ι → Signs nx ns → ℂ) :
    avg (fun θ => ∑ i ∈ s, f i θ) = ∑ i ∈ s, avg (f i) := by
  simp only [avg]
  rw [Finset.sum_comm, Finset.sum_div]

/-- Flipping one sign. -/
def flip (x : Fin nx) (s : Fin ns) (θ : Signs nx ns) : Signs nx ns :=
  fun y t => if y = x ∧ t = s then !(θ y t) else θ y t

theorem flip_flip (x : Fin nx) (s : Fin ns) (θ : Signs nx ns) : flip x s (flip x s θ) = θ := by
  funext y t
  by_cases h : y = x ∧ t = s <;> simp [flip, h]

theorem sgn_not (b : Bool) : sgn (!b) = -sgn b := by cases b <;> simp [sgn]

theorem sgn_sq (b : Bool) : sgn b * sgn b = 1 := by cases b <;> simp [sgn]

/-- Products of two signs of one sample average to a Kronecker delta. -/
theorem avg_pair (x y : Fin nx) (s : Fin ns) :
    avg (fun θ : Signs nx ns => sgn (θ x s) * sgn (θ y s)) = if x = y then 1 else 0 := by
  split_ifs with h
  · subst h
    simp only [sgn_sq]
    exact avg_const 1
  · have h0 : (∑ θ : Signs nx ns, sgn (θ x s) * sgn (θ y s)) =
        -∑ θ : Signs nx ns, sgn (θ x s) * sgn (θ y s) := by
      rw [← Finset.sum_neg_distrib]
      refine Finset.sum_nbij' (flip x s) (flip x s) (by simp) (by simp)
        (fun θ _ => flip_flip x s θ) (fun θ _ => flip_flip x s θ) fun θ _ => ?_
      have h1 : flip x s θ x s = !(θ x s) := by simp [flip]
      have h2 : flip x s θ y s = θ y s := by simp [flip, Ne.symm h]
      rw [h1, h2, sgn_not]; ring
    have h1 : (∑ θ : Signs nx ns, sgn (θ x s) * sgn (θ y s)) = 0 := by
      linear_combination (1 / 2 : ℂ) * h0
    rw [avg, h1, zero_div]

/-- Average of a product of two contractions. -/
theorem avg_quad (a b : Fin nx → ℂ) (s : Fin ns) :
    avg (fun θ : Signs nx ns => (∑ x, a x * sgn (θ x s)) * (∑ y, b y * sgn (θ y s))) =
      ∑ x, a x * b x := by
  have h : (fun θ : Signs nx ns => (∑ x, a x * sgn (θ x s)) * (∑ y, b y * sgn (θ y s))) =
      fun θ => ∑ x, ∑ y, (a x * b y) * (sgn (θ x s) * sgn (θ y s)) := by
    funext θ
    rw [Finset.sum_mul_sum]
    exact Finset.sum_congr rfl fun x _ => Finset.sum_congr rfl fun y _ => by ring
  rw [h, avg_sum]
  refine Finset.sum_congr rfl fun x _ => ?_
  rw [avg_sum]
  simp only [avg_mul, avg_pair, mul_ite, mul_one, mul_zero, Finset.sum_ite_eq, Finset.mem_univ,
    if_true]

theorem sqrt_mul_self (hs : 0 < ns) : ((Real.sqrt (1 / ns) : ℝ) : ℂ) * ((Real.sqrt (1 / ns) : ℝ) : ℂ) =
    1 / (ns : ℂ) := by
  rw [← Complex.ofReal_mul, Real.mul_self_sqrt (by positivity)]
  push_cast
  rfl

/-- A contracted vector times a fixed matrix. -/
theorem contract_mul {k l : Nat} (r : Fin nx → Matrix (Fin k) (Fin m) ℂ)
    (C : Matrix (Fin m) (Fin l) ℂ) (θ : Signs nx ns) (s : Fin ns) (i : Fin k) (j : Fin l) :
    (contractSigns r θ s * C) i j =
      (Real.sqrt (1 / ns) : ℂ) * ∑ x, (r x * C) i j * sgn (θ x s) := by
  simp only [Matrix.mul_apply, contractSigns, Finset.sum_mul, Finset.mul_sum]
  rw [Finset.sum_comm]
  refine Finset.sum_congr rfl fun x _ => Finset.sum_congr rfl fun q _ => ?_
  ring

/-- The stochastic exchange averages to the exact one, for any matrix in place of the Green's
function. -/
theorem avg_trace (hs : 0 < ns) {k : Nat} (r : Fin nx → Matrix (Fin k) (Fin m) ℂ)
    (C : Matrix (Fin m) (Fin k) ℂ) :
    avg (fun θ : Signs nx ns => ∑ s, ∑ i, ∑ j,
      (contractSigns r θ s * C) i j * (contractSigns r θ s * C) j i) =
      ∑ x, ∑ i, ∑ j, (r x * C) i j * (r x * C) j i := by
  rw [avg_sum]
  have h : ∀ s : Fin ns, avg (fun θ : Signs nx ns => ∑ i, ∑ j,
      (contractSigns r θ s * C) i j * (contractSigns r θ s * C) j i) =
      (1 / (ns : ℂ)) * ∑ x, ∑ i, ∑ j, (r x * C) i j * (r x * C) j i := by
    intro s
    rw [avg_sum]
    have h2 : ∀ i j, avg (fun θ : Signs nx ns =>
        (contractSigns r θ s * C) i j * (contractSigns r θ s * C) j i) =
        (1 / (ns : ℂ)) * ∑ x, (r x * C) i j * (r x * C) j i := by
      intro i j
      have h3 : (fun θ : Signs nx ns =>
          (contractSigns r θ s * C) i j * (contractSigns r θ s * C) j i) = fun θ =>
          (1 / (ns : ℂ)) * ((∑ x, (r x * C) i j * sgn (θ x s)) *
            (∑ x, (r x * C) j i * sgn (θ x s))) := by
        funext θ
        rw [contract_mul, contract_mul, ← sqrt_mul_self hs]
        ring
      rw [h3, avg_mul, avg_quad]
    simp only [avg_sum, h2, ← Finset.mul_sum]
    congr 1
    symm
    rw [Finset.sum_comm]
    refine Finset.sum_congr rfl fun i _ => ?_
    rw [Finset.sum_comm]
  simp only [h, Finset.sum_const, Finset.card_univ, Fintype.card_fin, nsmul_eq_mul]
  have : (ns : ℂ) ≠ 0 := by exact_mod_cast hs.ne'
  field_simp

/-- **C29**: the stochastic exchange energy averages to the exact one. -/
theorem avg_stochExx (hs : 0 < ns) {k : Nat} (r : Fin nx → Matrix (Fin k) (Fin m) ℂ)
    (Gh : Matrix (Fin k) (Fin m) ℂ) :
    avg (fun θ : Signs nx ns => stochExx r Gh θ) =
      ∑ x, ∑ i, ∑ j, (r x * Ghᵀ) i j * (r x * Ghᵀ) j i := by
  rw [← avg_trace hs]
  congr 1
  funext θ
  have h : ∀ l j s, (∑ q, Gh j q * contractSigns r θ s l q) = (contractSigns r θ s * Ghᵀ) l j := by
    intro l j s
    rw [Matrix.mul_apply]
    exact Finset.sum_congr rfl fun q _ => by rw [Matrix.transpose_apply]; ring
  show ∑ l, ∑ j, ∑ s, (∑ q, Gh j q * contractSigns r θ s l q) *
    (∑ q, Gh l q * contractSigns r θ s j q) = _
  simp only [h]
  symm
  rw [Finset.sum_comm]
  refine Finset.sum_congr rfl fun l _ => ?_
  rw [Finset.sum_comm]

/-- **C29**: the average of the stochastic local energy (without control variate) is the local energy
of the deterministic routine, in all three components. -/
theorem avg_localStoch (hs : 0 < ns) (h1 G : Fin 2 → Matrix (Fin m) (Fin m) ℂ)
    (ra : Fin nx → Matrix (Fin na) (Fin m) ℂ) (rb : Fin nx → Matrix (Fin nb) (Fin m) ℂ)
    (Ga : Matrix (Fin na) (Fin m) ℂ) (Gb : Matrix (Fin nb) (Fin m) ℂ) (ecore : ℂ) :
    (avg fun θ : Signs nx ns => (localStoch h1 G ra rb Ga Gb ecore θ).1,
      avg fun θ : Signs nx ns => (localStoch h1 G ra rb Ga Gb ecore θ).2.1,
      avg fun θ : Signs nx ns => (localStoch h1 G ra rb Ga Gb ecore θ).2.2) =
      localCholOpt h1 G ra rb Ga Gb ecore := by
  simp only [localStoch, localCholOpt, avg_add, avg_mul, avg_sub, avg_const, avg_stochExx hs]

/-- **C29** with control variate: the reference exchange energies have to be those of the trial
orbitals. -/
theorem avg_localStochControl (hs : 0 < ns) (h1 G : Fin 2 → Matrix (Fin m) (Fin m) ℂ)
    (ra : Fin nx → Matrix (Fin na) (Fin m) ℂ) (rb : Fin nx → Matrix (Fin nb) (Fin m) ℂ)
    (Ga : Matrix (Fin na) (Fin m) ℂ) (Gb : Matrix (Fin nb) (Fin m) ℂ) (ecore : ℂ)
    (C0a : Matrix (Fin m) (Fin na) ℂ) (C0b : Matrix (Fin m) (Fin nb) ℂ) (exxa0 exxb0 : ℂ)
    (ha : exxa0 = ∑ x, ∑ i, ∑ j, (ra x * C0a) i j * (ra x * C0a) j i)
    (hb : exxb0 = ∑ x, ∑ i, ∑ j, (rb x * C0b) i j * (rb x * C0b) j i) :
    (avg fun θ : Signs nx ns => (localStochControl h1 G ra rb Ga Gb C0a C0b exxa0 exxb0 ecore θ).1,
      avg fun θ : Signs nx ns =>
        (localStochControl h1 G ra rb Ga Gb C0a C0b exxa0 exxb0 ecore θ).2.1,
      avg fun θ : Signs nx ns =>
        (localStochControl h1 G ra rb Ga Gb C0a C0b exxa0 exxb0 ecore θ).2.2) =
      localCholOpt h1 G ra rb Ga Gb ecore := by
  simp only [localStochControl, localCholOpt, avg_add, avg_mul, avg_sub, avg_const, avg_trace hs,
    ← ha, ← hb, add_sub_cancel]

/-- If the walker is the trial (its half-rotated Green's function is the transposed orbital matrix,
as for orthonormal orbitals), the control variate removes all noise. -/
theorem localStochControl_exact (h1 G : Fin 2 → Matrix (Fin m) (Fin m) ℂ)
    (ra : Fin nx → Matrix (Fin na) (Fin m) ℂ) (rb : Fin nx → Matrix (Fin nb) (Fin m) ℂ)
    (C0a : Matrix (Fin m) (Fin na) ℂ) (C0b : Matrix (Fin m) (Fin nb) ℂ) (ecore : ℂ)
    (θ : Signs nx ns) :
    localStochControl h1 G ra rb C0aᵀ C0bᵀ C0a C0b
      (∑ x, ∑ i, ∑ j, (ra x * C0a) i j * (ra x * C0a) j i)
      (∑ x, ∑ i, ∑ j, (rb x * C0b) i j * (rb x * C0b) j i) ecore θ =
      localCholOpt h1 G ra rb C0aᵀ C0bᵀ ecore := by
  simp only [localStochControl, localCholOpt, Matrix.transpose_transpose, sub_self, add_zero]

/-- **C29**: the stochastic kinetic step averages to the exact one, entry by entry. -/
theorem avg_kineticStoch (hs : 0 < ns) {k : Nat} (B : Matrix (Fin m) (Fin m) ℂ)
    (φ : Matrix (Fin m) (Fin k) ℂ) (i : Fin m) (j : Fin k) :
    avg (fun θ : Signs m ns => kineticStoch B φ θ i j) = (B * φ) i j := by
  have h : (fun θ : Signs m ns => kineticStoch B φ θ i j) = fun θ => ∑ s : Fin ns,
      (1 / (ns : ℂ)) * ((∑ p, B i p * sgn (θ p s)) * (∑ q, φ q j * sgn (θ q s))) := by
    funext θ
    rw [kineticStoch, Matrix.smul_apply, Matrix.mul_apply, smul_eq_mul, Finset.mul_sum]
    refine Finset.sum_congr rfl fun s _ => ?_
    simp only [Matrix.mul_apply, Matrix.of_apply, Matrix.transpose_apply]
    simp only [mul_comm (sgn _) (φ _ _)]
  rw [h, avg_sum]
  simp only [avg_mul, avg_quad, Finset.sum_const, Finset.card_univ, Fintype.card_fin, nsmul_eq_mul]
  have : (ns : ℂ) ≠ 0 := by exact_mod_cast hs.ne'
  rw [Matrix.mul_apply]
  field_simp

/-- One sample is not exact: the average is over different values. -/
example : ∃ θ : Signs 2 1,
    stochExx (k := 1) (m := 1) (fun _ => (1 : Matrix (Fin 1) (Fin 1) ℂ)) 1 θ = 4 ∧
    avg (fun θ : Signs 2 1 =>
      stochExx (k := 1) (m := 1) (fun _ => (1 : Matrix (Fin 1) (Fin 1) ℂ)) 1 θ) = 2 := by
  refine ⟨fun _ _ => true, ?_, ?_⟩
  · simp [stochExx, contractSigns, sgn]
    norm_num
  · rw [avg_stochExx Nat.one_pos]
    simp

end Verif.Energy
