import Mathlib.Analysis.SpecialFunctions.Complex.Log
import Mathlib.RingTheory.RootsOfUnity.Complex
import Mathlib.Algebra.BigOperators.Fin
import Mathlib.Tactic.Ring
import Mathlib.Tactic.Linarith
import Mathlib.Tactic.FieldSimp

/-!
# Convolutions by Fourier transforms

Model of `convolve` and `scipy_fftconvolve`, pauxy/estimators/utils.py 148-277 (a second copy of
lines 16-145), for cubic meshes.  `numpy.fft.fftn` and `ifftn`
are the sums that define them; a flat array is a function of the position, its length is known from the mesh.
`next_fast_len` is a parameter.
-/

namespace Verif.PWFFT

open Finset

/-- A position in a three-dimensional array. -/
abbrev P3 := Nat × Nat × Nat

/-- All positions of a mesh `[n, n, n]`. -/
def box (n : Nat) : Finset P3 := range n ×ˢ range n ×ˢ range n

/-- `f.reshape(n, n, n)` of a flat array. -/
def reshape (n : Nat) (f : Nat → ℂ) (x : P3) : ℂ := f ((x.1 * n + x.2.1) * n + x.2.2)

/-- `ravel()` of an array of shape `[n, n, n]`. -/
def ravel (n : Nat) (F : P3 → ℂ) (p : Nat) : ℂ := F (p / (n * n), p / n % n, p % n)

/-- The array `F` of shape `[n, n, n]` padded with zeros, as `fftn` and `ifftn` do for a larger `s`. -/
def pad (n : Nat) (F : P3 → ℂ) (x : P3) : ℂ := if x ∈ box n then F x else 0

/-- The sum of products of components. -/
def dot (x u : P3) : Nat := x.1 * u.1 + x.2.1 * u.2.1 + x.2.2 * u.2.2

/-- `numpy.fft.fftn` for shape `[N, N, N]`. -/
noncomputable def fftn (N : Nat) (F : P3 → ℂ) (u : P3) : ℂ :=
  ∑ x ∈ box N, F x * Complex.exp (-(2 * Real.pi * Complex.I) * dot x u / N)

/-- `numpy.fft.ifftn` for shape `[N, N, N]`. -/
noncomputable def ifftn (N : Nat) (F : P3 → ℂ) (u : P3) : ℂ :=
  (1 / (N : ℂ) ^ 3) * ∑ x ∈ box N, F x * Complex.exp ((2 * Real.pi * Complex.I) * dot x u / N)

/-- `convolve(f, g, [n, n, n])`, estimators/utils.py 261-277: a flat array of length `(2n-1)**3`. -/
noncomputable def convolve (fast : Nat → Nat) (f g : Nat → ℂ) (n : Nat) : Nat → ℂ :=
  let m := n + n - 1
  let N := fast m
  let finv := ifftn N (pad n (reshape n f))
  let ginv := ifftn N (pad n (reshape n g))
  let fq := fftn N fun t => finv t * ginv t
  fun p => ravel m fq p * (N : ℂ) ^ 3

/-- `scipy_fftconvolve(f, g, mesh1=[n1]*3, mesh2=[n2]*3, mode='valid').ravel()`, estimators/utils.py 148-259: a flat array of
length `(|n1-n2|+1)**3`; `_centered` starts at half the difference of the shapes. -/
noncomputable def convolveValid (fast : Nat → Nat) (f g : Nat → ℂ) (n1 n2 : Nat) : Nat → ℂ :=
  let shape := n1 + n2 - 1
  let N := fast shape
  let sp1 := fftn N (pad n1 (reshape n1 f))
  let sp2 := fftn N (pad n2 (reshape n2 g))
  let ret := ifftn N fun t => sp1 t * sp2 t
  let valid := max n1 n2 - min n1 n2 + 1
  let start := (shape - valid) / 2
  ravel valid fun x => ret (x.1 + start, x.2.1 + start, x.2.2 + start)

/-! ## The convolution theorem -/

/-- Roots of unity. -/
noncomputable def om (N : Nat) (m : ℤ) : ℂ := Complex.exp (2 * Real.pi * Complex.I * m / N)

theorem om_add (N : Nat) (a b : ℤ) : om N (a + b) = om N a * om N b := by
  unfold om
  rw [← Complex.exp_add]
  congr 1
  push_cast
  ring

theorem om_mul (N : Nat) (t : Nat) (m : ℤ) : om N (t * m) = om N m ^ t := by
  unfold om
  rw [← Complex.exp_nat_mul]
  congr 1
  push_cast
  ring

theorem om_eq_one {N : Nat} (hN : N ≠ 0) (m : ℤ) : om N m = 1 ↔ (N : ℤ) ∣ m := by
  unfold om
  rw [Complex.exp_eq_one_iff]
  have hN' : (N : ℂ) ≠ 0 := Nat.cast_ne_zero.2 hN
  have hpi : (2 * Real.pi * Complex.I : ℂ) ≠ 0 := Complex.two_pi_I_ne_zero
  constructor
  · rintro ⟨k, hk⟩
    refine ⟨k, ?_⟩
    field_simp at hk
    have : (m : ℂ) = N * k := hk
    exact_mod_cast this
  · rintro ⟨k, rfl⟩
    refine ⟨k, ?_⟩
    push_cast
    field_simp

theorem om_sum {N : Nat} (hN : N ≠ 0) (m : ℤ) : ∑ t ∈ range N, om N (t * m) = if (N : ℤ) ∣ m then (N : ℂ) else 0 := by
  simp only [om_mul]
  split_ifs with h
  · rw [(om_eq_one hN m).2 h]; simp
  · have h1 : om N m ≠ 1 := fun e => h ((om_eq_one hN m).1 e)
    rw [geom_sum_eq h1]
    have : om N m ^ N = 1 := by rw [← om_mul, om_eq_one hN]; exact Dvd.intro _ rfl
    rw [this, sub_self, zero_div]

/-- Sum over a box of a product. -/
theorem box_sum (N : Nat) (a b c : Nat → ℂ) :
    ∑ t ∈ box N, a t.1 * b t.2.1 * c t.2.2 = (∑ t ∈ range N, a t) * (∑ t ∈ range N, b t) * ∑ t ∈ range N, c t := by
  unfold box
  rw [sum_product]
  simp only [sum_product, mul_assoc, ← mul_sum]
  rw [sum_mul]
  refine sum_congr rfl fun i _ => ?_
  rw [← sum_mul]

theorem om_box {N : Nat} (hN : N ≠ 0) (m : ℤ × ℤ × ℤ) :
    ∑ t ∈ box N, om N (t.1 * m.1 + t.2.1 * m.2.1 + t.2.2 * m.2.2) =
      if (N : ℤ) ∣ m.1 ∧ (N : ℤ) ∣ m.2.1 ∧ (N : ℤ) ∣ m.2.2 then (N : ℂ) ^ 3 else 0 := by
  simp only [om_add]
  rw [box_sum N (fun t => om N (t * m.1)) (fun t => om N (t * m.2.1)) (fun t => om N (t * m.2.2)),
    om_sum hN, om_sum hN, om_sum hN]
  by_cases h1 : (N : ℤ) ∣ m.1 <;> by_cases h2 : (N : ℤ) ∣ m.2.1 <;> by_cases h3 : (N : ℤ) ∣ m.2.2 <;>
    simp [h1, h2, h3]
  ring

theorem exp_om (N : Nat) (x u : P3) : Complex.exp ((2 * Real.pi * Complex.I) * dot x u / N) = om N (dot x u) := by
  simp [om]

theorem exp_om_neg (N : Nat) (x u : P3) : Complex.exp (-(2 * Real.pi * Complex.I) * dot x u / N) = om N (-(dot x u : ℤ)) := by
  unfold om
  congr 1
  push_cast
  ring

/-- Sum over two positions with a given sum. -/
def conv (n1 n2 : Nat) (F G : P3 → ℂ) (u : P3) : ℂ :=
  ∑ x ∈ box n1, ∑ y ∈ box n2, if x + y = u then F x * G y else 0

theorem mem_box {n : Nat} {x : P3} : x ∈ box n ↔ x.1 < n ∧ x.2.1 < n ∧ x.2.2 < n := by simp [box]

theorem box_mono {m n : Nat} (h : m ≤ n) : box m ⊆ box n := by
  intro x hx
  rw [mem_box] at hx ⊢
  omega

theorem pad_sum {n N : Nat} (h : n ≤ N) (F : P3 → ℂ) (k : P3 → ℂ) :
    ∑ x ∈ box N, pad n F x * k x = ∑ x ∈ box n, F x * k x := by
  rw [← sum_subset (box_mono h)]
  · refine sum_congr rfl fun x hx => ?_
    rw [pad, if_pos hx]
  · intro x _ hx
    rw [pad, if_neg hx, zero_mul]

/-- Positions are equal modulo `N` only if they are equal. -/
theorem dvd_iff {n1 n2 N : Nat} (h : n1 + n2 - 1 ≤ N) {x y u : P3} (hx : x ∈ box n1) (hy : y ∈ box n2)
    (hu : u ∈ box (n1 + n2 - 1)) :
    ((N : ℤ) ∣ (x.1 + y.1 : ℤ) - u.1 ∧ (N : ℤ) ∣ (x.2.1 + y.2.1 : ℤ) - u.2.1 ∧ (N : ℤ) ∣ (x.2.2 + y.2.2 : ℤ) - u.2.2) ↔
      x + y = u := by
  rw [mem_box] at hx hy hu
  have key : ∀ a b c : Nat, a < n1 → b < n2 → c < n1 + n2 - 1 → ((N : ℤ) ∣ (a + b : ℤ) - c ↔ a + b = c) := by
    intro a b c ha hb hc
    constructor
    · rintro ⟨k, hk⟩
      have hk0 : k = 0 := by
        by_contra hne
        rcases lt_or_gt_of_ne hne with hlt | hgt
        · have : (N : ℤ) * k ≤ -N := by nlinarith
          omega
        · have : (N : ℤ) ≤ N * k := by nlinarith
          omega
      subst hk0
      omega
    · intro e
      rw [show ((a : ℤ) + b - c) = 0 by omega]
      exact dvd_zero _
  rw [key _ _ _ hx.1 hy.1 hu.1, key _ _ _ hx.2.1 hy.2.1 hu.2.1, key _ _ _ hx.2.2 hy.2.2 hu.2.2, Prod.ext_iff, Prod.ext_iff]
  rfl

/-- **Product of inverse transforms**. -/
theorem fft_conv {n1 n2 N : Nat} (h1 : n1 ≤ N) (h2 : n2 ≤ N) (h : n1 + n2 - 1 ≤ N) (hN : N ≠ 0) (F G : P3 → ℂ) {u : P3}
    (hu : u ∈ box (n1 + n2 - 1)) :
    fftn N (fun t => ifftn N (pad n1 F) t * ifftn N (pad n2 G) t) u * (N : ℂ) ^ 3 = conv n1 n2 F G u := by
  have hN' : (N : ℂ) ≠ 0 := Nat.cast_ne_zero.2 hN
  unfold fftn ifftn conv
  simp only [pad_sum h1, pad_sum h2, exp_om, exp_om_neg]
  have e : ∀ t : P3, (1 / (N : ℂ) ^ 3 * ∑ x ∈ box n1, F x * om N (dot x t)) *
      (1 / (N : ℂ) ^ 3 * ∑ y ∈ box n2, G y * om N (dot y t)) * om N (-(dot t u : ℤ)) =
      ∑ x ∈ box n1, ∑ y ∈ box n2, (1 / (N : ℂ) ^ 6) * (F x * G y) *
        om N (t.1 * ((x.1 + y.1 : ℤ) - u.1) + t.2.1 * ((x.2.1 + y.2.1 : ℤ) - u.2.1) + t.2.2 * ((x.2.2 + y.2.2 : ℤ) - u.2.2)) := by
    intro t
    rw [show ∀ a b c d e : ℂ, a * b * (c * d) * e = a * c * (b * d) * e from fun a b c d e => by ring, sum_mul_sum, mul_sum,
      sum_mul]
    refine sum_congr rfl fun x _ => ?_
    rw [mul_sum, sum_mul]
    refine sum_congr rfl fun y _ => ?_
    rw [show (t.1 * ((x.1 + y.1 : ℤ) - u.1) + t.2.1 * ((x.2.1 + y.2.1 : ℤ) - u.2.1) + t.2.2 * ((x.2.2 + y.2.2 : ℤ) - u.2.2)) =
      (dot x t : ℤ) + (dot y t : ℤ) + (-(dot t u : ℤ)) by unfold dot; push_cast; ring, om_add, om_add]
    ring
  simp only [e]
  rw [sum_comm, sum_mul]
  refine sum_congr rfl fun x hx => ?_
  rw [sum_comm, sum_mul]
  refine sum_congr rfl fun y hy => ?_
  rw [← mul_sum, om_box hN ((x.1 + y.1 : ℤ) - u.1, (x.2.1 + y.2.1 : ℤ) - u.2.1, (x.2.2 + y.2.2 : ℤ) - u.2.2)]
  simp only [dvd_iff h hx hy hu]
  split_ifs
  · field_simp
  · ring

/-- **Inverse transform of a product**. -/
theorem ifft_conv {n1 n2 N : Nat} (h1 : n1 ≤ N) (h2 : n2 ≤ N) (h : n1 + n2 - 1 ≤ N) (hN : N ≠ 0) (F G : P3 → ℂ) {u : P3}
    (hu : u ∈ box (n1 + n2 - 1)) :
    ifftn N (fun t => fftn N (pad n1 F) t * fftn N (pad n2 G) t) u = conv n1 n2 F G u := by
  have hN' : (N : ℂ) ≠ 0 := Nat.cast_ne_zero.2 hN
  unfold fftn ifftn conv
  simp only [pad_sum h1, pad_sum h2, exp_om, exp_om_neg]
  have e : ∀ t : P3, (∑ x ∈ box n1, F x * om N (-(dot x t : ℤ))) *
      (∑ y ∈ box n2, G y * om N (-(dot y t : ℤ))) * om N (dot t u) =
      ∑ x ∈ box n1, ∑ y ∈ box n2, (F x * G y) *
        om N (t.1 * -((x.1 + y.1 : ℤ) - u.1) + t.2.1 * -((x.2.1 + y.2.1 : ℤ) - u.2.1) + t.2.2 * -((x.2.2 + y.2.2 : ℤ) - u.2.2)) := by
    intro t
    rw [sum_mul_sum, sum_mul]
    refine sum_congr rfl fun x _ => ?_
    rw [sum_mul]
    refine sum_congr rfl fun y _ => ?_
    rw [show (t.1 * -((x.1 + y.1 : ℤ) - u.1) + t.2.1 * -((x.2.1 + y.2.1 : ℤ) - u.2.1) + t.2.2 * -((x.2.2 + y.2.2 : ℤ) - u.2.2)) =
      -(dot x t : ℤ) + -(dot y t : ℤ) + (dot t u : ℤ) by unfold dot; push_cast; ring, om_add, om_add]
    ring
  simp only [e]
  rw [sum_comm, mul_sum]
  refine sum_congr rfl fun x hx => ?_
  rw [sum_comm, mul_sum]
  refine sum_congr rfl fun y hy => ?_
  rw [← mul_sum, om_box hN (-((x.1 + y.1 : ℤ) - u.1), -((x.2.1 + y.2.1 : ℤ) - u.2.1), -((x.2.2 + y.2.2 : ℤ) - u.2.2))]
  simp only [dvd_neg, dvd_iff h hx hy hu]
  split_ifs
  · field_simp
  · ring

/-- The position of a flat index. -/
def unflat (n p : Nat) : P3 := (p / (n * n), p / n % n, p % n)

theorem unflat_mem {n p : Nat} (h : p < n * n * n) : unflat n p ∈ box n := by
  rcases Nat.eq_zero_or_pos n with h0 | h0
  · subst h0; omega
  rw [mem_box]
  exact ⟨Nat.div_lt_of_lt_mul (by rwa [mul_assoc] at h ⊢), Nat.mod_lt _ h0, Nat.mod_lt _ h0⟩

/-- **`convolve` is the linear convolution**, whatever length the transforms are padded to. -/
theorem convolve_eq {fast : Nat → Nat} (hf : ∀ d, d ≤ fast d) (f g : Nat → ℂ) {n : Nat} (hn : 0 < n) {p : Nat}
    (hp : p < (n + n - 1) * (n + n - 1) * (n + n - 1)) :
    convolve fast f g n p = conv n n (reshape n f) (reshape n g) (unflat (n + n - 1) p) := by
  have hN := hf (n + n - 1)
  have := fft_conv (n1 := n) (n2 := n) (N := fast (n + n - 1)) (by omega) (by omega) hN (by omega) (reshape n f)
    (reshape n g) (unflat_mem hp)
  exact this

/-- **`scipy_fftconvolve` in mode `valid` is the middle part of the linear convolution**. -/
theorem convolveValid_eq {fast : Nat → Nat} (hf : ∀ d, d ≤ fast d) (f g : Nat → ℂ) {n1 n2 : Nat} (h2 : 0 < n2) (h12 : n2 ≤ n1)
    {p : Nat} (hp : p < (n1 - n2 + 1) * (n1 - n2 + 1) * (n1 - n2 + 1)) :
    convolveValid fast f g n1 n2 p =
      conv n1 n2 (reshape n1 f) (reshape n2 g) (unflat (n1 - n2 + 1) p + (n2 - 1, n2 - 1, n2 - 1)) := by
  have hN := hf (n1 + n2 - 1)
  have hm := mem_box.1 (unflat_mem hp)
  have := ifft_conv (n1 := n1) (n2 := n2) (N := fast (n1 + n2 - 1)) (by omega) (by omega) hN (by omega) (reshape n1 f)
    (reshape n2 g) (u := unflat (n1 - n2 + 1) p + (n2 - 1, n2 - 1, n2 - 1)) (by
      rw [mem_box]
      simp only [Prod.fst_add, Prod.snd_add]
      omega)
  unfold convolveValid
  simp only [max_eq_left h12, min_eq_right h12]
  rw [show (n1 + n2 - 1 - (n1 - n2 + 1)) / 2 = n2 - 1 by omega]
  exact this

end Verif.PWFFT
