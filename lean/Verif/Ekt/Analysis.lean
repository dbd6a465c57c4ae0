import Verif.Ekt.Props
import Mathlib.Data.Matrix.Mul
import Mathlib.LinearAlgebra.Matrix.Hermitian

/-!
# Ionisation energies and electron affinities from the averaged matrices

Model of `analyse_ekt_ipea` (`pauxy/analysis/blocking.py`) and of `get_ortho_ao_mod` (`pauxy/utils/linalg.py`).  `numpy.linalg.eigh` is a
parameter with its contract: it diagonalises the Hermitian matrix whose lower triangle it is given.
-/

namespace Verif.Ekt

open Matrix
open Verif.LangFirsov (amp hop)

variable {n k l : Nat}

/-- The Hermitian matrix that `numpy.linalg.eigh` sees: it reads the lower triangle and the real part of the diagonal. -/
noncomputable def lower {ι : Type*} [LinearOrder ι] (M : Matrix ι ι ℂ) : Matrix ι ι ℂ :=
  Matrix.of fun i j => if j < i then M i j else if i < j then star (M j i) else ((M i i).re : ℂ)

/-- What `numpy.linalg.eigh` promises. -/
structure Eigh {ι : Type*} [Fintype ι] [DecidableEq ι] [LinearOrder ι] (M : Matrix ι ι ℂ) (w : ι → ℝ) (V : Matrix ι ι ℂ) : Prop where
  ortho : Vᴴ * V = 1
  eigen : lower M * V = V * Matrix.diagonal fun i => (w i : ℂ)

/-- `X` of `get_ortho_ao_mod`, linalg.py 191-199, from the eigenvalues and vectors of `S` (setting small eigenvalues to zero first does
not change which are kept unless the cutoff is negative). -/
noncomputable def orthoMod (s : Fin n → ℝ) (U : Matrix (Fin n) (Fin n) ℂ) (cutoff : ℝ) : Matrix (Fin n) {i // cutoff < s i} ℂ :=
  Matrix.of fun r i => U r i / (Real.sqrt (s i) : ℂ)

/-- `fockT` of `analyse_ekt_ipea`, blocking.py 354 and 360. -/
noncomputable def fockT (s : Fin n → ℝ) (U : Matrix (Fin n) (Fin n) ℂ) (cutoff : ℝ) (F : Matrix (Fin n) (Fin n) ℂ) :
    Matrix {i // cutoff < s i} {i // cutoff < s i} ℂ := (orthoMod s U cutoff)ᴴ * (F * orthoMod s U cutoff)

/-- `rdm` after the spin sum, blocking.py 350-351. -/
noncomputable def spinRdm (a b : Matrix (Fin n) (Fin n) ℂ) : Matrix (Fin n) (Fin n) ℂ :=
  Matrix.of fun i j => ((1 / 2 * ((a i j + b i j) + star (a j i + b j i)).re : ℝ) : ℂ)

/-- `gamma` for the affinities, blocking.py 358. -/
noncomputable def gammaP (rdm : Matrix (Fin n) (Fin n) ℂ) : Matrix (Fin n) (Fin n) ℂ := (2 : ℂ) • 1 - rdmᵀ

theorem lower_hermitian {ι : Type*} [LinearOrder ι] {M : Matrix ι ι ℂ} (h : Mᴴ = M) : lower M = M := by
  ext i j
  have hij : ∀ i j, star (M j i) = M i j := fun i j => congrFun (congrFun h i) j
  rw [lower, Matrix.of_apply]
  split_ifs with h1 h2
  · rfl
  · exact hij i j
  · obtain rfl : i = j := le_antisymm (not_lt.1 h1) (not_lt.1 h2)
    exact Complex.conj_eq_iff_re.1 (hij i i)

/-- The metric in the kept space is the identity. -/
theorem orthoMod_metric (s : Fin n → ℝ) (S U : Matrix (Fin n) (Fin n) ℂ) (cutoff : ℝ) (hc : 0 ≤ cutoff) (hS : Sᴴ = S) (he : Eigh S s U) :
    (orthoMod s U cutoff)ᴴ * S * orthoMod s U cutoff = 1 := by
  have h1 : Uᴴ * S * U = Matrix.diagonal fun i => (s i : ℂ) := by
    have := he.eigen
    rw [lower_hermitian hS] at this
    rw [Matrix.mul_assoc, this, ← Matrix.mul_assoc, he.ortho, Matrix.one_mul]
  ext a b
  have h2 : ((orthoMod s U cutoff)ᴴ * S * orthoMod s U cutoff) a b =
      (Uᴴ * S * U) a b / ((Real.sqrt (s a) : ℂ) * (Real.sqrt (s b) : ℂ)) := by
    simp only [Matrix.mul_apply, orthoMod, Matrix.conjTranspose_apply, Matrix.of_apply, Finset.sum_div, Finset.sum_mul]
    refine Finset.sum_congr rfl fun j _ => Finset.sum_congr rfl fun i _ => ?_
    rw [star_div₀]
    have : star ((Real.sqrt (s a) : ℝ) : ℂ) = (Real.sqrt (s a) : ℂ) := Complex.conj_ofReal _
    rw [this]
    field_simp
  rw [h2, h1]
  by_cases hab : a = b
  · subst hab
    have hpos : 0 < s a := lt_of_le_of_lt hc a.2
    rw [Matrix.diagonal_apply_eq, Matrix.one_apply_eq, ← Complex.ofReal_mul, Real.mul_self_sqrt hpos.le, div_self]
    exact Complex.ofReal_ne_zero.mpr hpos.ne'
  · rw [Matrix.diagonal_apply_ne _ fun h => hab (Subtype.ext h), Matrix.one_apply_ne hab, zero_div]

/-- **C100**: every returned energy is the quotient of the Fock matrix and the metric at its vector, and the vectors are orthonormal in
the metric. -/
theorem roots (s : Fin n → ℝ) (S U F : Matrix (Fin n) (Fin n) ℂ) (cutoff : ℝ) (hc : 0 ≤ cutoff) (hS : Sᴴ = S) (hF : Fᴴ = F)
    (he : Eigh S s U) (e : {i // cutoff < s i} → ℝ) (V : Matrix {i // cutoff < s i} {i // cutoff < s i} ℂ)
    (hV : Eigh (fockT s U cutoff F) e V) :
    (orthoMod s U cutoff * V)ᴴ * S * (orthoMod s U cutoff * V) = 1 ∧
      (orthoMod s U cutoff * V)ᴴ * F * (orthoMod s U cutoff * V) = Matrix.diagonal fun i => (e i : ℂ) := by
  have hm := orthoMod_metric s S U cutoff hc hS he
  have hT : (fockT s U cutoff F)ᴴ = fockT s U cutoff F := by
    rw [fockT, Matrix.conjTranspose_mul, Matrix.conjTranspose_mul, Matrix.conjTranspose_conjTranspose, hF, Matrix.mul_assoc]
  have hE := hV.eigen
  rw [lower_hermitian hT] at hE
  constructor
  · rw [Matrix.conjTranspose_mul]
    calc _ = Vᴴ * ((orthoMod s U cutoff)ᴴ * S * orthoMod s U cutoff) * V := by simp only [Matrix.mul_assoc]
      _ = _ := by rw [hm, Matrix.mul_one, hV.ortho]
  · rw [Matrix.conjTranspose_mul]
    calc _ = Vᴴ * (fockT s U cutoff F * V) := by simp only [fockT, Matrix.mul_assoc]
      _ = _ := by rw [hE, ← Matrix.mul_assoc, hV.ortho, Matrix.one_mul]

/-! ## Exact states -/

/-- The spins exchanged. -/
def flip (Ψ : State n k l) : State n l k := fun z x => Ψ x z

/-- `< c_p^+ c_q >` in a state, for the first spin. -/
noncomputable def rdmOf (Ψ : State n k l) : Matrix (Fin n) (Fin n) ℂ :=
  Matrix.of fun p q => braket (leave p Ψ) (leave q Ψ) / braket Ψ Ψ

/-- A state with an electron of the first spin removed. -/
noncomputable def removed (c : Fin n → ℂ) (Ψ : State n k l) : State n (k - 1) l := fun x z => ∑ q, c q * leave q Ψ x z

/-- A state with an electron of the first spin added. -/
noncomputable def added (c : Fin n → ℂ) (Ψ : State n k l) : State n (k + 1) l := fun x z => ∑ q, c q * join q Ψ x z

/-- Energy times norm. -/
noncomputable def energy (h : Matrix (Fin n) (Fin n) ℂ) (v : Integrals n) (Φ : State n k l) : ℂ := braket Φ (ham h v Φ)

theorem braket_sum (f g : Fin n → State n k l) (c d : Fin n → ℂ) :
    braket (fun x z => ∑ p, c p * f p x z) (fun x z => ∑ q, d q * g q x z) = ∑ p, ∑ q, star (c p) * d q * braket (f p) (g q) := by
  have key : ∑ x, ∑ z, star (∑ p, c p * f p x z) * ∑ q, d q * g q x z =
      ∑ p, ∑ q, star (c p) * d q * ∑ x, ∑ z, star (f p x z) * g q x z := by
    have e : ∀ x z, star (∑ p, c p * f p x z) * ∑ q, d q * g q x z = ∑ p, ∑ q, star (c p) * d q * (star (f p x z) * g q x z) := by
      intro x z
      rw [star_sum, Finset.sum_mul_sum]
      refine Finset.sum_congr rfl fun p _ => Finset.sum_congr rfl fun q _ => ?_
      rw [star_mul']
      ring
    simp only [e, Finset.mul_sum]
    have e1 : ∀ x, ∑ z, ∑ p, ∑ q, star (c p) * d q * (star (f p x z) * g q x z) =
        ∑ p, ∑ q, ∑ z, star (c p) * d q * (star (f p x z) * g q x z) := by
      intro x
      rw [Finset.sum_comm]
      exact Finset.sum_congr rfl fun p _ => Finset.sum_comm
    simp only [e1]
    rw [Finset.sum_comm]
    exact Finset.sum_congr rfl fun p _ => Finset.sum_comm
  rw [braket, key, Finset.sum_div]
  refine Finset.sum_congr rfl fun p _ => ?_
  rw [Finset.sum_div]
  exact Finset.sum_congr rfl fun q _ => mul_div_assoc _ _ _

theorem braket_sub (Φ Ψ Χ : State n k l) : braket Φ (fun x z => Ψ x z - Χ x z) = braket Φ Ψ - braket Φ Χ := by
  simp only [braket, mul_sub, Finset.sum_sub_distrib, sub_div]

theorem braket_smul (Φ Ψ : State n k l) (c : ℂ) : braket Φ (fun x z => c * Ψ x z) = c * braket Φ Ψ := by
  simp only [braket, mul_div_assoc', Finset.mul_sum]
  congr 1
  exact Finset.sum_congr rfl fun x _ => Finset.sum_congr rfl fun z _ => by ring

theorem pairs_finsetSum {ι : Type*} (t : Finset ι) (v : Integrals n) (φ : ι → Fun n k) (x : Fin k → Fin n) :
    pairs v (fun y => ∑ i ∈ t, φ i y) x = ∑ i ∈ t, pairs v (φ i) x := by
  simp only [pairs]
  symm
  rw [Finset.sum_comm]
  refine Finset.sum_congr rfl fun a _ => ?_
  rw [Finset.sum_comm]
  refine Finset.sum_congr rfl fun b _ => ?_
  split_ifs
  · simp
  · simp only [Finset.mul_sum]
    rw [Finset.sum_comm]
    exact Finset.sum_congr rfl fun i _ => Finset.sum_comm

/-- The Hamiltonian is linear. -/
theorem ham_sum (h : Matrix (Fin n) (Fin n) ℂ) (v : Integrals n) (c : Fin n → ℂ) (f : Fin n → State n k l) (x : Fin k → Fin n)
    (z : Fin l → Fin n) : ham h v (fun x z => ∑ q, c q * f q x z) x z = ∑ q, c q * ham h v (f q) x z := by
  have ha : across v (fun x z => ∑ q, c q * f q x z) x z = ∑ q, c q * across v (f q) x z := by
    simp only [across, Finset.mul_sum]
    symm
    rw [Finset.sum_comm]
    refine Finset.sum_congr rfl fun a _ => ?_
    rw [Finset.sum_comm]
    refine Finset.sum_congr rfl fun b _ => ?_
    rw [Finset.sum_comm]
    refine Finset.sum_congr rfl fun i _ => ?_
    rw [Finset.sum_comm]
    exact Finset.sum_congr rfl fun j _ => Finset.sum_congr rfl fun q _ => by ring
  simp only [ham, ha, hop_finsetSum, pairs_finsetSum, hop_left, pairs_left]
  simp only [mul_add, Finset.sum_add_distrib, Finset.mul_sum]
  congr 4
  · funext q
    ring
  · funext q
    ring

theorem removed_norm (Ψ : State n k l) (c : Fin n → ℂ) (hN : braket Ψ Ψ ≠ 0) :
    braket (removed c Ψ) (removed c Ψ) = (∑ p, ∑ q, star (c p) * c q * rdmOf Ψ p q) * braket Ψ Ψ := by
  rw [show removed c Ψ = fun x z => ∑ q, c q * leave q Ψ x z from rfl, braket_sum, Finset.sum_mul]
  refine Finset.sum_congr rfl fun p _ => ?_
  rw [Finset.sum_mul]
  refine Finset.sum_congr rfl fun q _ => ?_
  rw [rdmOf, Matrix.of_apply, mul_assoc (star (c p) * c q), div_mul_cancel₀ _ hN]

theorem leave_smul (E : ℂ) (q : Fin n) (Ψ : State n k l) : leave q (fun x z => E * Ψ x z) = fun x z => E * leave q Ψ x z := by
  cases k with
  | zero => funext x z; simp [leave]
  | succ k => rfl

theorem removed_energy (h : Matrix (Fin n) (Fin n) ℂ) (v : Integrals n) (Ψ : State n k l) (E : ℂ) (hE : ham h v Ψ = fun x z => E * Ψ x z)
    (c : Fin n → ℂ) (hN : braket Ψ Ψ ≠ 0) :
    energy h v (removed c Ψ) - E * braket (removed c Ψ) (removed c Ψ) =
      (∑ p, ∑ q, star (c p) * c q * hole h v Ψ Ψ p q) * braket Ψ Ψ := by
  have h1 : ham h v (removed c Ψ) = fun x z => ∑ q, c q * ham h v (leave q Ψ) x z := by
    funext x z
    exact ham_sum h v c (fun q => leave q Ψ) x z
  rw [energy, h1, ← braket_smul, ← braket_sub]
  have h2 : (fun x z => (∑ q, c q * ham h v (leave q Ψ) x z) - E * removed c Ψ x z) =
      fun x z => ∑ q, c q * (ham h v (leave q Ψ) x z - leave q (ham h v Ψ) x z) := by
    funext x z
    rw [removed, Finset.mul_sum, ← Finset.sum_sub_distrib]
    refine Finset.sum_congr rfl fun q _ => ?_
    rw [hE, leave_smul]
    ring
  rw [h2, show removed c Ψ = fun x z => ∑ q, c q * leave q Ψ x z from rfl, braket_sum _ (fun q x z => ham h v (leave q Ψ) x z - leave q (ham h v Ψ) x z),
    Finset.sum_mul]
  refine Finset.sum_congr rfl fun p _ => ?_
  rw [Finset.sum_mul]
  refine Finset.sum_congr rfl fun q _ => ?_
  rw [hole, Matrix.of_apply, mul_assoc (star (c p) * c q), div_mul_cancel₀ _ hN]

/-! ## The Hamiltonian is Hermitian -/

/-- Moving one electron back and forth. -/
theorem sum_move (a : Fin k) (g : (Fin k → Fin n) → (Fin k → Fin n) → ℂ) :
    ∑ x : Fin k → Fin n, ∑ j, g x (Function.update x a j) = ∑ x : Fin k → Fin n, ∑ j, g (Function.update x a j) x := by
  rw [← Fintype.sum_prod_type', ← Fintype.sum_prod_type']
  let e : (Fin k → Fin n) × Fin n → (Fin k → Fin n) × Fin n := fun y => (Function.update y.1 a y.2, y.1 a)
  have he : Function.Involutive e := by
    rintro ⟨x, j⟩
    simp [e]
  refine (Equiv.sum_comp (he.toPerm e) _).symm.trans ?_
  refine Finset.sum_congr rfl fun y _ => ?_
  simp [e]

theorem hop_hermitian (M : Matrix (Fin n) (Fin n) ℂ) (hM : ∀ i j, star (M i j) = M j i) (f g : Fun n k) :
    star (∑ x, star (f x) * hop M g x) = ∑ x, star (g x) * hop M f x := by
  simp only [hop, Finset.mul_sum, star_sum]
  rw [Finset.sum_comm, Finset.sum_comm (γ := Fin k → Fin n)]
  refine Finset.sum_congr rfl fun a _ => ?_
  have := sum_move a fun x y => star (g x) * (M (x a) (y a) * f y)
  simp only [Function.update_self] at this
  rw [this]
  refine Finset.sum_congr rfl fun x _ => Finset.sum_congr rfl fun j _ => ?_
  rw [star_mul', star_mul', star_star, hM]
  ring

theorem update_two (x : Fin k → Fin n) {a b : Fin k} (h : a ≠ b) (i j : Fin n) :
    Function.update (Function.update x a i) b j a = i := by
  rw [Function.update_of_ne h, Function.update_self]

theorem pairs_hermitian (v : Integrals n) (hv : ∀ i k j l, star (v i k j l) = v k i l j) (f g : Fun n k) :
    star (∑ x, star (f x) * pairs v g x) = ∑ x, star (g x) * pairs v f x := by
  simp only [pairs, Finset.mul_sum, star_sum]
  rw [Finset.sum_comm, Finset.sum_comm (γ := Fin k → Fin n)]
  refine Finset.sum_congr rfl fun a _ => ?_
  rw [Finset.sum_comm, Finset.sum_comm (γ := Fin k → Fin n)]
  refine Finset.sum_congr rfl fun b _ => ?_
  by_cases hab : a = b
  · simp [hab]
  · simp only [if_neg hab, Finset.mul_sum, star_sum]
    have h1 : ∀ w : (Fin k → Fin n) → (Fin k → Fin n) → ℂ, ∑ x : Fin k → Fin n, ∑ i, ∑ j, w x (Function.update (Function.update x a i) b j) =
        ∑ x : Fin k → Fin n, ∑ i, ∑ j, w (Function.update (Function.update x a i) b j) x := by
      intro w
      rw [sum_move a fun x y => ∑ j, w x (Function.update y b j)]
      rw [Finset.sum_comm, Finset.sum_congr rfl fun i _ => sum_move b fun x y => w (Function.update x a i) y, Finset.sum_comm]
      refine Finset.sum_congr rfl fun x _ => Finset.sum_congr rfl fun i _ => Finset.sum_congr rfl fun j _ => ?_
      rw [Function.update_comm (Ne.symm hab)]
    have h2 := h1 fun x y => star (g x) * (v (x a) (y a) (x b) (y b) * f y)
    simp only [Function.update_self, update_two _ hab] at h2
    rw [h2]
    refine Finset.sum_congr rfl fun x _ => Finset.sum_congr rfl fun i _ => Finset.sum_congr rfl fun j _ => ?_
    rw [star_mul', star_mul', star_star, hv]
    ring

theorem braket_star (Φ Ψ : State n k l) : star (braket Φ Ψ) = braket Ψ Φ := by
  rw [braket, braket, star_div₀, star_sum]
  congr 1
  · refine Finset.sum_congr rfl fun x _ => ?_
    rw [star_sum]
    refine Finset.sum_congr rfl fun z _ => ?_
    rw [star_mul', star_star, mul_comm]
  · simp

theorem across_hermitian (v : Integrals n) (hv : ∀ i k j l, star (v i k j l) = v k i l j) (Φ Ψ : State n k l) :
    star (∑ x, ∑ z, star (Φ x z) * across v Ψ x z) = ∑ x, ∑ z, star (Ψ x z) * across v Φ x z := by
  have e : ∀ Φ Ψ : State n k l, ∑ x, ∑ z, star (Φ x z) * across v Ψ x z = ∑ a, ∑ b, ∑ x, ∑ i, ∑ z, ∑ j,
      star (Φ x z) * (v (x a) i (z b) j * Ψ (Function.update x a i) (Function.update z b j)) := by
    intro Φ Ψ
    simp only [across, Finset.mul_sum]
    calc _ = ∑ x : Fin k → Fin n, ∑ a, ∑ z : Fin l → Fin n, ∑ b, ∑ i, ∑ j,
            star (Φ x z) * (v (x a) i (z b) j * Ψ (Function.update x a i) (Function.update z b j)) :=
          Finset.sum_congr rfl fun x _ => Finset.sum_comm
      _ = ∑ x : Fin k → Fin n, ∑ a, ∑ b, ∑ z : Fin l → Fin n, ∑ i, ∑ j,
            star (Φ x z) * (v (x a) i (z b) j * Ψ (Function.update x a i) (Function.update z b j)) :=
          Finset.sum_congr rfl fun x _ => Finset.sum_congr rfl fun a _ => Finset.sum_comm
      _ = ∑ a, ∑ x : Fin k → Fin n, ∑ b, ∑ z : Fin l → Fin n, ∑ i, ∑ j,
            star (Φ x z) * (v (x a) i (z b) j * Ψ (Function.update x a i) (Function.update z b j)) := Finset.sum_comm
      _ = ∑ a, ∑ b, ∑ x : Fin k → Fin n, ∑ z : Fin l → Fin n, ∑ i, ∑ j,
            star (Φ x z) * (v (x a) i (z b) j * Ψ (Function.update x a i) (Function.update z b j)) :=
          Finset.sum_congr rfl fun a _ => Finset.sum_comm
      _ = _ := Finset.sum_congr rfl fun a _ => Finset.sum_congr rfl fun b _ => Finset.sum_congr rfl fun x _ => Finset.sum_comm
  rw [e, e, star_sum]
  refine Finset.sum_congr rfl fun a _ => ?_
  rw [star_sum]
  refine Finset.sum_congr rfl fun b _ => ?_
  have h1 := sum_move (n := n) a fun x y => ∑ z : Fin l → Fin n, ∑ j,
    star (Ψ x z) * (v (x a) (y a) (z b) j * Φ y (Function.update z b j))
  simp only [Function.update_self] at h1
  rw [h1]
  simp only [star_sum]
  refine Finset.sum_congr rfl fun x _ => Finset.sum_congr rfl fun i _ => ?_
  have h2 := sum_move (n := n) b fun z y => star (Ψ (Function.update x a i) z) * (v i (x a) (z b) (y b) * Φ x y)
  simp only [Function.update_self] at h2
  rw [h2]
  refine Finset.sum_congr rfl fun z _ => Finset.sum_congr rfl fun j _ => ?_
  rw [star_mul', star_mul', star_star, hv]
  ring

/-- The Hamiltonian with Hermitian elements. -/
theorem ham_hermitian (h : Matrix (Fin n) (Fin n) ℂ) (v : Integrals n) (hh : ∀ i j, star (h i j) = h j i)
    (hv : ∀ i k j l, star (v i k j l) = v k i l j) (Φ Ψ : State n k l) : star (braket Φ (ham h v Ψ)) = braket Ψ (ham h v Φ) := by
  rw [braket, braket, star_div₀]
  congr 1
  · have e : ∀ Φ Ψ : State n k l, ∑ x, ∑ z, star (Φ x z) * ham h v Ψ x z =
        ∑ z, (∑ x, star (Φ x z) * hop h (fun y => Ψ y z) x) + ∑ x, (∑ z, star (Φ x z) * hop h (Ψ x) z) +
        1 / 2 * (∑ z, (∑ x, star (Φ x z) * pairs v (fun y => Ψ y z) x) + ∑ x, (∑ z, star (Φ x z) * pairs v (Ψ x) z)) +
        ∑ x, ∑ z, star (Φ x z) * across v Ψ x z := by
      intro Φ Ψ
      rw [Finset.sum_comm (γ := Fin l → Fin n), Finset.sum_comm (γ := Fin l → Fin n)
        (f := fun z x => star (Φ x z) * pairs v (fun y => Ψ y z) x)]
      simp only [Finset.mul_sum, ← Finset.sum_add_distrib]
      refine Finset.sum_congr rfl fun x _ => Finset.sum_congr rfl fun z _ => ?_
      rw [ham]
      ring
    rw [e, e]
    have s1 : star (∑ z, ∑ x, star (Φ x z) * hop h (fun y => Ψ y z) x) = ∑ z, ∑ x, star (Ψ x z) * hop h (fun y => Φ y z) x := by
      rw [star_sum]
      exact Finset.sum_congr rfl fun z _ => hop_hermitian h hh (fun x => Φ x z) fun x => Ψ x z
    have s2 : star (∑ x, ∑ z, star (Φ x z) * hop h (Ψ x) z) = ∑ x, ∑ z, star (Ψ x z) * hop h (Φ x) z := by
      rw [star_sum]
      exact Finset.sum_congr rfl fun x _ => hop_hermitian h hh (Φ x) (Ψ x)
    have s3 : star (∑ z, ∑ x, star (Φ x z) * pairs v (fun y => Ψ y z) x) = ∑ z, ∑ x, star (Ψ x z) * pairs v (fun y => Φ y z) x := by
      rw [star_sum]
      exact Finset.sum_congr rfl fun z _ => pairs_hermitian v hv (fun x => Φ x z) fun x => Ψ x z
    have s4 : star (∑ x, ∑ z, star (Φ x z) * pairs v (Ψ x) z) = ∑ x, ∑ z, star (Ψ x z) * pairs v (Φ x) z := by
      rw [star_sum]
      exact Finset.sum_congr rfl fun x _ => pairs_hermitian v hv (Φ x) (Ψ x)
    have s5 : star (1 / 2 : ℂ) = 1 / 2 := by simp
    rw [star_add, star_add, star_add, star_mul', star_add, s1, s2, s3, s4, s5, across_hermitian v hv]
  · simp

theorem braket_flip (Φ Ψ : State n k l) : braket (flip Φ) (flip Ψ) = braket Φ Ψ := by
  rw [braket, braket, Finset.sum_comm, mul_comm (l.factorial : ℂ)]
  rfl

/-- An energy is real. -/
theorem eigen_real (h : Matrix (Fin n) (Fin n) ℂ) (v : Integrals n) (hh : ∀ i j, star (h i j) = h j i)
    (hv : ∀ i k j l, star (v i k j l) = v k i l j) (Ψ : State n k l) (E : ℂ) (hE : ham h v Ψ = fun x z => E * Ψ x z)
    (hN : braket Ψ Ψ ≠ 0) : star E = E := by
  have h1 := ham_hermitian h v hh hv Ψ Ψ
  rw [hE, braket_smul, star_mul', braket_star] at h1
  exact mul_right_cancel₀ hN h1

theorem rdmOf_hermitian (Ψ : State n k l) : (rdmOf Ψ)ᴴ = rdmOf Ψ := by
  ext p q
  rw [Matrix.conjTranspose_apply, rdmOf, Matrix.of_apply, Matrix.of_apply, star_div₀, braket_star, braket_star]

theorem hole_hermitian (h : Matrix (Fin n) (Fin n) ℂ) (v : Integrals n) (hh : ∀ i j, star (h i j) = h j i)
    (hv : ∀ i k j l, star (v i k j l) = v k i l j) (Ψ : State n k l) (E : ℂ) (hE : ham h v Ψ = fun x z => E * Ψ x z)
    (hN : braket Ψ Ψ ≠ 0) : (hole h v Ψ Ψ)ᴴ = hole h v Ψ Ψ := by
  ext p q
  have hr := eigen_real h v hh hv Ψ E hE hN
  rw [Matrix.conjTranspose_apply, hole, Matrix.of_apply, Matrix.of_apply, star_div₀, braket_star Ψ Ψ]
  simp only [hE, leave_smul, braket_sub, braket_smul, star_sub, star_mul', ham_hermitian h v hh hv, braket_star, hr]

/-- The real symmetric part of the spin sum is the spin sum of real density matrices. -/
theorem spinRdm_eq (a b : Matrix (Fin n) (Fin n) ℂ) (h : (a + b)ᴴ = a + b) (hr : ∀ i j, star ((a + b) i j) = (a + b) i j) :
    spinRdm a b = a + b := by
  ext i j
  have h1 : star (a j i + b j i) = a i j + b i j := congrFun (congrFun h i) j
  rw [spinRdm, Matrix.of_apply, h1, Matrix.add_apply, ← two_mul]
  have h2 : (((a i j + b i j).re : ℝ) : ℂ) = a i j + b i j := Complex.conj_eq_iff_re.1 (hr i j)
  rw [← h2]
  push_cast
  simp

theorem form_sum {ι : Type*} (C : Matrix (Fin n) ι ℂ) (S : Matrix (Fin n) (Fin n) ℂ) (i : ι) :
    (Cᴴ * S * C) i i = ∑ p, ∑ q, star (C p i) * C q i * S p q := by
  simp only [Matrix.mul_apply, Matrix.conjTranspose_apply, Finset.sum_mul]
  rw [Finset.sum_comm]
  exact Finset.sum_congr rfl fun p _ => Finset.sum_congr rfl fun q _ => by ring

/-- **C100**: for the exact density and Fock matrices of an eigenstate every returned ionisation energy is the energy of the state with one
electron removed, in the orbital of the returned vector, less the energy of the eigenstate (an average over the spin of the electron). -/
theorem ionisation (h : Matrix (Fin n) (Fin n) ℂ) (v : Integrals n) (hh : ∀ i j, star (h i j) = h j i)
    (hv : ∀ i k j l, star (v i k j l) = v k i l j) (hp : ∀ i k j l, v i k j l = v j l i k) (Ψ : State n k l) (E : ℂ)
    (hE : ham h v Ψ = fun x z => E * Ψ x z) (hN : braket Ψ Ψ ≠ 0)
    (hr : ∀ i j, star ((rdmOf Ψ + rdmOf (flip Ψ)) i j) = (rdmOf Ψ + rdmOf (flip Ψ)) i j) (s : Fin n → ℝ) (U : Matrix (Fin n) (Fin n) ℂ)
    (cutoff : ℝ) (hc : 0 ≤ cutoff) (he : Eigh (spinRdm (rdmOf Ψ) (rdmOf (flip Ψ))) s U) (e : {i // cutoff < s i} → ℝ)
    (V : Matrix {i // cutoff < s i} {i // cutoff < s i} ℂ)
    (hV : Eigh (fockT s U cutoff (hole h v Ψ Ψ + hole h v (flip Ψ) (flip Ψ))) e V) (i : {i // cutoff < s i}) :
    let c := fun q => (orthoMod s U cutoff * V) q i
    braket (removed c Ψ) (removed c Ψ) + braket (removed c (flip Ψ)) (removed c (flip Ψ)) = braket Ψ Ψ ∧
      energy h v (removed c Ψ) + energy h v (removed c (flip Ψ)) = (E + e i) * braket Ψ Ψ := by
  intro c
  have hEf : ham h v (flip Ψ) = fun x z => E * flip Ψ x z := by
    funext z x
    rw [flip, ← congrFun (congrFun hE x) z]
    exact ham_swap h v hp Ψ x z
  have hNf : braket (flip Ψ) (flip Ψ) ≠ 0 := by rwa [braket_flip]
  have hS : (rdmOf Ψ + rdmOf (flip Ψ))ᴴ = rdmOf Ψ + rdmOf (flip Ψ) := by
    rw [Matrix.conjTranspose_add, rdmOf_hermitian, rdmOf_hermitian]
  have hF : (hole h v Ψ Ψ + hole h v (flip Ψ) (flip Ψ))ᴴ = hole h v Ψ Ψ + hole h v (flip Ψ) (flip Ψ) := by
    rw [Matrix.conjTranspose_add, hole_hermitian h v hh hv Ψ E hE hN, hole_hermitian h v hh hv (flip Ψ) E hEf hNf]
  rw [spinRdm_eq _ _ hS hr] at he
  obtain ⟨r1, r2⟩ := roots s _ U _ cutoff hc hS hF he e V hV
  have q1 := congrFun (congrFun r1 i) i
  have q2 := congrFun (congrFun r2 i) i
  rw [form_sum, Matrix.one_apply_eq] at q1
  rw [form_sum, Matrix.diagonal_apply_eq] at q2
  have n1 := removed_norm Ψ c hN
  have n2 := removed_norm (flip Ψ) c hNf
  have e1 := removed_energy h v Ψ E hE c hN
  have e2 := removed_energy h v (flip Ψ) E hEf c hNf
  rw [braket_flip] at n2 e2
  have hn : braket (removed c Ψ) (removed c Ψ) + braket (removed c (flip Ψ)) (removed c (flip Ψ)) = braket Ψ Ψ := by
    rw [n1, n2, ← add_mul, ← Finset.sum_add_distrib]
    simp only [← Finset.sum_add_distrib, ← mul_add]
    change (∑ p, ∑ q, star (c p) * c q * (rdmOf Ψ + rdmOf (flip Ψ)) p q) * _ = _
    rw [q1, one_mul]
  refine ⟨hn, ?_⟩
  have hs : (∑ p, ∑ q, star (c p) * c q * hole h v Ψ Ψ p q) + (∑ p, ∑ q, star (c p) * c q * hole h v (flip Ψ) (flip Ψ) p q) = e i := by
    rw [← q2, ← Finset.sum_add_distrib]
    simp only [← Finset.sum_add_distrib, ← mul_add]
    rfl
  linear_combination e1 + e2 + E * hn + hs * braket Ψ Ψ

end Verif.Ekt
