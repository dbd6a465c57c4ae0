import Verif.Lattice.Model
import Mathlib.LinearAlgebra.Matrix.Hermitian
import Mathlib.Tactic.FieldSimp
import Mathlib.Tactic.Ring
import Mathlib.Tactic.LinearCombination
import Mathlib.Logic.Equiv.Fin.Basic
import Mathlib.RingTheory.RootsOfUnity.Complex
import Mathlib.Algebra.Field.GeomSum

/-!
# Lattice models: properties (C53)
-/

namespace Verif.Lattice

open Matrix

/-! ## Coordinates -/

/-- Coordinates of a site lie on the lattice and `encode` recovers the site. -/
theorem encode_decode (nx ny i : Nat) (hi : i < nx * ny) :
    (ny = 1 ∧ decode nx ny i = [i] ∧ encode i 0 nx = i) ∨
      (ny ≠ 1 ∧ ∃ x y, decode nx ny i = [x, y] ∧ x < nx ∧ y < ny ∧ encode x y nx = i) := by
  rcases Nat.eq_zero_or_pos nx with h0 | hx
  · subst h0; omega
  by_cases h1 : ny = 1
  · subst h1
    refine .inl ⟨rfl, ?_, by simp [encode]⟩
    simp only [decode, if_true]
    rw [Nat.mod_eq_of_lt (by omega)]
  · refine .inr ⟨h1, i % nx, i / nx, by simp [decode, h1], Nat.mod_lt _ hx, ?_, ?_⟩
    · exact Nat.div_lt_of_lt_mul hi
    · rw [encode, Nat.mul_comm]; exact Nat.mod_add_div _ _

/-- Every point of the lattice is a site and `decode` recovers its coordinates. -/
theorem decode_encode (nx ny x y : Nat) (hx : x < nx) (hy : y < ny) :
    encode x y nx < nx * ny ∧ decode nx ny (encode x y nx) = if ny = 1 then [x] else [x, y] := by
  have h1 : (x + y * nx) % nx = x := by rw [Nat.add_mul_mod_self_right, Nat.mod_eq_of_lt hx]
  have h2 : (x + y * nx) / nx = y := by
    rw [Nat.add_mul_div_right _ _ (by omega), Nat.div_eq_of_lt hx, Nat.zero_add]
  refine ⟨?_, ?_⟩
  · rw [encode]
    calc x + y * nx < nx + y * nx := by omega
      _ = nx * (y + 1) := by ring
      _ ≤ nx * ny := Nat.mul_le_mul_left _ hy
  · rw [decode, encode, h1, h2]

/-! ## Hermiticity -/

/-- The hopping matrix is Hermitian for every lattice, twist and choice of boundaries. -/
theorem kinetic_hermitian (t : ℝ) (nx ny : Nat) (ks : Option (List ℝ)) (xpbc ypbc : Bool) :
    (kinetic t nx ny ks xpbc ypbc).IsHermitian := by
  unfold kinetic
  simp only
  exact isHermitian_add_transpose_self _

theorem phase_conj (ks : Option (List ℝ)) (d : Nat) : star (phase ks d) * phase ks d = 1 := by
  unfold phase
  cases ks with
  | none => simp
  | some k =>
    simp only
    rw [Complex.star_def, ← Complex.exp_conj, ← Complex.exp_add]
    simp

/-! ## One dimension -/

/-- The ring of `n` sites: neighbours, and a phase on the hop across the boundary. -/
noncomputable def ring1 (n : Nat) (p : ℂ) (x x' : Nat) : ℂ :=
  (if x' = x + 1 then 1 else 0) + (if x = x' + 1 then 1 else 0) +
    (if x = 0 ∧ x' + 1 = n then p else 0) + (if x' = 0 ∧ x + 1 = n then star p else 0)

theorem ring1_wave (n : Nat) (hn : 2 ≤ n) (p z : ℂ) (hp : star p * p = 1) (hz : p * z ^ n = 1) (x : Nat)
    (hx : x < n) : ∑ x' : Fin n, ring1 n p x x' * z ^ (x' : Nat) = (z + z⁻¹) * z ^ x := by
  have hz0 : z ≠ 0 := by
    rintro rfl
    rw [zero_pow (by omega)] at hz; simp at hz
  have hs : star p = z ^ n := by
    have : star p = star p * (p * z ^ n) := by rw [hz, mul_one]
    rw [this, ← mul_assoc, hp, one_mul]
  have s1 : ∑ x' : Fin n, (if (x' : Nat) = x + 1 then (1 : ℂ) else 0) * z ^ (x' : Nat)
      = if x + 1 < n then z ^ (x + 1) else 0 := by
    by_cases h : x + 1 < n
    · rw [Finset.sum_eq_single ⟨x + 1, h⟩] <;> simp_all [Fin.ext_iff]
    · rw [if_neg h]
      exact Finset.sum_eq_zero fun i _ => by rw [if_neg (by omega), zero_mul]
  have s2 : ∑ x' : Fin n, (if x = (x' : Nat) + 1 then (1 : ℂ) else 0) * z ^ (x' : Nat)
      = if 0 < x then z ^ (x - 1) else 0 := by
    by_cases h : 0 < x
    · rw [if_pos h, Finset.sum_eq_single ⟨x - 1, by omega⟩]
      · rw [if_pos (by simp; omega), one_mul]
      · intro b _ hb
        rw [if_neg (by intro hc; apply hb; ext; simp; omega), zero_mul]
      · simp
    · rw [if_neg h]
      exact Finset.sum_eq_zero fun i _ => by rw [if_neg (by omega), zero_mul]
  have s3 : ∑ x' : Fin n, (if x = 0 ∧ (x' : Nat) + 1 = n then p else 0) * z ^ (x' : Nat)
      = if x = 0 then p * z ^ (n - 1) else 0 := by
    by_cases h : x = 0
    · rw [if_pos h, Finset.sum_eq_single ⟨n - 1, by omega⟩]
      · rw [if_pos ⟨h, by simp; omega⟩]
      · intro b _ hb
        rw [if_neg (by rintro ⟨_, hc⟩; apply hb; ext; simp; omega), zero_mul]
      · simp
    · rw [if_neg h]
      exact Finset.sum_eq_zero fun i _ => by rw [if_neg (by tauto), zero_mul]
  have s4 : ∑ x' : Fin n, (if (x' : Nat) = 0 ∧ x + 1 = n then star p else 0) * z ^ (x' : Nat)
      = if x + 1 = n then star p else 0 := by
    by_cases h : x + 1 = n
    · rw [if_pos h, Finset.sum_eq_single ⟨0, by omega⟩]
      · simp [h]
      · intro b _ hb
        rw [if_neg (by rintro ⟨hc, _⟩; apply hb; ext; simp; omega), zero_mul]
      · simp
    · rw [if_neg h]
      exact Finset.sum_eq_zero fun i _ => by rw [if_neg (by tauto), zero_mul]
  have e : ∑ x' : Fin n, ring1 n p x x' * z ^ (x' : Nat)
      = (if x + 1 < n then z ^ (x + 1) else 0) + (if 0 < x then z ^ (x - 1) else 0) +
        (if x = 0 then p * z ^ (n - 1) else 0) + (if x + 1 = n then star p else 0) := by
    rw [← s1, ← s2, ← s3, ← s4, ← Finset.sum_add_distrib, ← Finset.sum_add_distrib, ← Finset.sum_add_distrib]
    exact Finset.sum_congr rfl fun i _ => by rw [ring1]; ring
  rw [e]
  have up : (if x + 1 < n then z ^ (x + 1) else 0) + (if x + 1 = n then star p else 0) = z * z ^ x := by
    rcases Nat.lt_or_ge (x + 1) n with h | h
    · rw [if_pos h, if_neg (by omega), add_zero, pow_succ']
    · rw [if_neg (by omega), if_pos (by omega), zero_add, hs, ← pow_succ']
      congr 1; omega
  have down : (if 0 < x then z ^ (x - 1) else 0) + (if x = 0 then p * z ^ (n - 1) else 0) = z⁻¹ * z ^ x := by
    rcases Nat.eq_zero_or_pos x with h | h
    · rw [if_neg (by omega), if_pos h, zero_add, h, pow_zero, mul_one]
      apply eq_inv_of_mul_eq_one_left
      rw [mul_assoc, ← pow_succ, show n - 1 + 1 = n by omega, hz]
    · rw [if_pos h, if_neg (by omega), add_zero]
      obtain ⟨y, rfl⟩ : ∃ y, x = y + 1 := ⟨x - 1, by omega⟩
      rw [Nat.add_sub_cancel, pow_succ']; field_simp
  linear_combination up + down

/-- Without a twist the ring is invariant under translations. -/
theorem ring1_shift (n : Nat) (hn : 2 ≤ n) (a x x' : Nat) (hx : x < n) (hx' : x' < n) :
    ring1 n 1 ((x + a) % n) ((x' + a) % n) = ring1 n 1 x x' := by
  have key : ∀ u v : Nat, u < n → v < n → ring1 n 1 u v
      = (if v = (u + 1) % n then 1 else 0) + (if u = (v + 1) % n then 1 else 0) := by
    intro u v hu hv
    have hu' : (u + 1) % n = if u + 1 = n then 0 else u + 1 := by
      split_ifs with h
      · rw [h, Nat.mod_self]
      · exact Nat.mod_eq_of_lt (by omega)
    have hv' : (v + 1) % n = if v + 1 = n then 0 else v + 1 := by
      split_ifs with h
      · rw [h, Nat.mod_self]
      · exact Nat.mod_eq_of_lt (by omega)
    rw [hu', hv', ring1]
    by_cases h1 : u + 1 = n <;> by_cases h2 : v + 1 = n <;> simp only [h1, h2, if_true, if_false, and_true, and_false, star_one] <;>
      (try have h3 : ¬ v = u + 1 := by omega) <;> (try have h4 : ¬ u = v + 1 := by omega) <;>
      simp_all <;> ring
  have hm : ∀ u, (u % n) < n := fun u => Nat.mod_lt _ (by omega)
  rw [key _ _ (hm _) (hm _), key _ _ hx hx']
  have cond : ∀ u v : Nat, u < n → v < n → ((v + a) % n = ((u + a) % n + 1) % n ↔ v = (u + 1) % n) := by
    intro u v hu hv
    rw [Nat.mod_add_mod, show u + a + 1 = (u + 1) + a by ring]
    constructor
    · intro h
      have h1 : v ≡ u + 1 [MOD n] := Nat.ModEq.add_right_cancel' a h
      rw [← Nat.mod_eq_of_lt hv]; exact h1
    · intro h
      rw [h, Nat.mod_add_mod]
  rw [if_congr (cond x x' hx hx') rfl rfl, if_congr (cond x' x hx' hx) rfl rfl]

/-! ## The entries of the hopping matrix -/

/-- The phase of a boundary that may be open. -/
noncomputable def bphase (ks : Option (List ℝ)) (d : Nat) (pbc : Bool) : ℂ := if pbc then phase ks d else 0

theorem kinetic_apply (t : ℝ) (nx ny : Nat) (ks : Option (List ℝ)) (xpbc ypbc : Bool) (i j : Fin (ny * nx)) :
    kinetic t nx ny ks xpbc ypbc i j = (if i < j then upper t nx ny ks xpbc ypbc i j else 0) +
      star (if j < i then upper t nx ny ks xpbc ypbc j i else 0) := rfl

theorem upper_one (t : ℝ) (nx : Nat) (hn : 2 ≤ nx) (ks : Option (List ℝ)) (xpbc ypbc : Bool) (i j : Nat)
    (hij : i < j) (hj : j < nx) :
    upper t nx 1 ks xpbc ypbc i j = -(t : ℂ) * ring1 nx (bphase ks 0 xpbc) i j := by
  have hd : absDiff (decode nx 1 i) (decode nx 1 j) = [j - i] := by
    simp only [decode, if_true, absDiff, List.zipWith_cons_cons, List.zipWith_nil_right, dist,
      Nat.mod_eq_of_lt (show i < nx by omega), Nat.mod_eq_of_lt hj]
    congr 1; omega
  unfold upper
  simp only [hd, List.sum_cons, List.sum_nil, Nat.add_zero, true_and, List.cons.injEq, and_true]
  rw [if_neg (show ¬ (allEq [j - i] (nx - 1) 0 ∧ xpbc = true) by
    simp only [allEq, List.cons.injEq]; rintro ⟨h, _⟩; simp at h; omega),
    if_neg (show ¬ (allEq [j - i] 0 (1 - 1) ∧ ypbc = true) by
    simp only [allEq, List.cons.injEq]; rintro ⟨h, _⟩; simp at h; omega)]
  have c1 : (j - i = 1) ↔ j = i + 1 := by omega
  have c2 : (j - i = nx - 1 ∧ xpbc = true) ↔ (i = 0 ∧ j + 1 = nx) ∧ xpbc = true := by
    constructor <;> rintro ⟨h, hx⟩ <;> exact ⟨by omega, hx⟩
  rw [if_congr c1 rfl rfl, if_congr c2 rfl rfl, ring1, if_neg (show ¬ i = j + 1 by omega),
    if_neg (show ¬ (j = 0 ∧ i + 1 = nx) by omega), bphase]
  cases xpbc <;> simp <;> split_ifs <;> ring

theorem ring1_star (n : Nat) (p : ℂ) (x x' : Nat) : star (ring1 n p x x') = ring1 n p x' x := by
  unfold ring1
  simp only [star_add, apply_ite star, star_one, star_zero, star_star]
  ring

theorem ring1_self (n : Nat) (hn : 2 ≤ n) (p : ℂ) (x : Nat) : ring1 n p x x = 0 := by
  unfold ring1
  rw [if_neg (by omega), if_neg (by omega), if_neg (by omega)]
  simp

/-- Chain: each entry is a hop between neighbours or across the boundary. -/
theorem kinetic_chain (t : ℝ) (nx : Nat) (hn : 2 ≤ nx) (ks : Option (List ℝ)) (xpbc ypbc : Bool) (i j : Fin (1 * nx)) :
    kinetic t nx 1 ks xpbc ypbc i j = -(t : ℂ) * ring1 nx (bphase ks 0 xpbc) i j := by
  have hi : i.val < nx := by have := i.isLt; omega
  have hj : j.val < nx := by have := j.isLt; omega
  rw [kinetic_apply]
  rcases lt_trichotomy i j with h | h | h
  · rw [if_pos h, if_neg (not_lt_of_gt h), star_zero, add_zero, upper_one t nx hn ks xpbc ypbc _ _ h hj]
  · subst h
    rw [if_neg (lt_irrefl _), star_zero, add_zero, ring1_self nx hn, mul_zero]
  · rw [if_neg (not_lt_of_gt h), if_pos h, zero_add, upper_one t nx hn ks xpbc ypbc _ _ h hi, star_mul', ring1_star,
      star_neg, Complex.star_def, Complex.conj_ofReal]

/-- The site with coordinates `(x, y)`. -/
def site {nx ny : Nat} (x : Fin nx) (y : Fin ny) : Fin (ny * nx) := finProdFinEquiv (y, x)

theorem site_val {nx ny : Nat} (x : Fin nx) (y : Fin ny) : (site x y).val = encode x y nx := by
  simp [site, encode, finProdFinEquiv, Nat.mul_comm]

theorem decode_site {nx ny : Nat} (h1 : ny ≠ 1) (x : Fin nx) (y : Fin ny) :
    decode nx ny (site x y) = [x.val, y.val] := by
  rw [site_val, (decode_encode nx ny x y x.isLt y.isLt).2, if_neg h1]

theorem upper_two (t : ℝ) (nx ny : Nat) (hx : 2 ≤ nx) (hy : 2 ≤ ny) (ks : Option (List ℝ)) (xpbc ypbc : Bool)
    (x x' : Fin nx) (y y' : Fin ny) (hlt : y < y' ∨ (y = y' ∧ x < x')) :
    upper t nx ny ks xpbc ypbc (site x y) (site x' y') =
      -(t : ℂ) * ((if y = y' then ring1 nx (bphase ks 0 xpbc) x x' else 0) +
        (if x = x' then ring1 ny (bphase ks 1 ypbc) y y' else 0)) := by
  have hx1 := x.isLt
  have hx2 := x'.isLt
  have hy1 := y.isLt
  have hy2 := y'.isLt
  have n1 : ¬ ny = 1 := by omega
  unfold upper
  simp only [decode_site n1, absDiff, List.zipWith_cons_cons, List.zipWith_nil_right, List.sum_cons, List.sum_nil,
    Nat.add_zero, n1, false_and, if_false, allEq, List.cons.injEq, and_true, reduceCtorEq, and_false, or_false]
  rcases hlt with h | ⟨h, h'⟩
  · have hv : y.val < y'.val := h
    rw [if_neg (show ¬ y = y' from ne_of_lt h), zero_add]
    rw [if_neg (show ¬ ((dist x x' = nx - 1 ∧ dist y y' = 0) ∧ xpbc = true) by
      simp only [dist]; omega)]
    by_cases he : x = x'
    · subst he
      have c1 : (dist x.val x.val + dist y.val y'.val = 1) ↔ y'.val = y.val + 1 := by simp only [dist]; omega
      have c2 : ((dist x.val x.val = 0 ∧ dist y.val y'.val = ny - 1) ∧ ypbc = true) ↔
          (y.val = 0 ∧ y'.val + 1 = ny) ∧ ypbc = true := by
        simp only [dist]
        constructor <;> rintro ⟨h, hx⟩ <;> exact ⟨by omega, hx⟩
      rw [if_congr c1 rfl rfl, if_congr c2 rfl rfl, if_pos rfl, ring1, if_neg (show ¬ y.val = y'.val + 1 by omega),
        if_neg (show ¬ (y'.val = 0 ∧ y.val + 1 = ny) by omega), bphase]
      cases ypbc <;> simp <;> split_ifs <;> ring
    · have hne : x.val ≠ x'.val := fun hc => he (Fin.ext hc)
      rw [if_neg he, mul_zero, if_neg (by simp only [dist]; omega), if_neg (by simp only [dist]; omega), zero_add]
  · subst h
    have hv : x.val < x'.val := h'
    rw [if_neg (show ¬ x = x' from ne_of_lt h'), add_zero, if_pos rfl]
    rw [if_neg (show ¬ ((dist x x' = 0 ∧ dist y y = ny - 1) ∧ ypbc = true) by simp only [dist]; omega)]
    have c1 : (dist x.val x'.val + dist y.val y.val = 1) ↔ x'.val = x.val + 1 := by simp only [dist]; omega
    have c2 : ((dist x.val x'.val = nx - 1 ∧ dist y.val y.val = 0) ∧ xpbc = true) ↔
        (x.val = 0 ∧ x'.val + 1 = nx) ∧ xpbc = true := by
      simp only [dist]
      constructor <;> rintro ⟨h, hx⟩ <;> exact ⟨by omega, hx⟩
    rw [if_congr c1 rfl rfl, if_congr c2 rfl rfl, ring1, if_neg (show ¬ x.val = x'.val + 1 by omega),
      if_neg (show ¬ (x'.val = 0 ∧ x.val + 1 = nx) by omega), bphase]
    cases xpbc <;> simp <;> split_ifs <;> ring

theorem site_lt {nx ny : Nat} (x x' : Fin nx) (y y' : Fin ny) :
    site x y < site x' y' ↔ y < y' ∨ (y = y' ∧ x < x') := by
  rw [Fin.lt_def, site_val, site_val, encode, encode]
  have hx1 := x.isLt
  have hx2 := x'.isLt
  rcases lt_trichotomy y y' with h | h | h
  · have : y.val + 1 ≤ y'.val := h
    have := Nat.mul_le_mul_right nx this
    rw [Nat.add_mul] at this
    exact ⟨fun _ => .inl h, fun _ => by omega⟩
  · subst h
    simp
  · have : y'.val + 1 ≤ y.val := h
    have := Nat.mul_le_mul_right nx this
    rw [Nat.add_mul] at this
    constructor
    · intro h'; omega
    · rintro (h' | ⟨h', _⟩)
      · exact absurd h' (not_lt_of_gt h)
      · exact absurd h' (ne_of_gt h)

/-- Rectangle: each entry is a hop along `x` or along `y`. -/
theorem kinetic_rect (t : ℝ) (nx ny : Nat) (hx : 2 ≤ nx) (hy : 2 ≤ ny) (ks : Option (List ℝ)) (xpbc ypbc : Bool)
    (x x' : Fin nx) (y y' : Fin ny) :
    kinetic t nx ny ks xpbc ypbc (site x y) (site x' y') =
      -(t : ℂ) * ((if y = y' then ring1 nx (bphase ks 0 xpbc) x x' else 0) +
        (if x = x' then ring1 ny (bphase ks 1 ypbc) y y' else 0)) := by
  rw [kinetic_apply]
  rcases lt_trichotomy (site x y) (site x' y') with h | h | h
  · rw [if_pos h, if_neg (not_lt_of_gt h), star_zero, add_zero,
      upper_two t nx ny hx hy ks xpbc ypbc _ _ _ _ ((site_lt _ _ _ _).1 h)]
  · have : (y, x) = (y', x') := finProdFinEquiv.injective h
    simp only [Prod.mk.injEq] at this
    obtain ⟨rfl, rfl⟩ := this
    rw [if_neg (lt_irrefl _), star_zero, add_zero, ring1_self nx hx, ring1_self ny hy]
    simp
  · rw [if_neg (not_lt_of_gt h), if_pos h, zero_add,
      upper_two t nx ny hx hy ks xpbc ypbc _ _ _ _ ((site_lt _ _ _ _).1 h)]
    simp only [star_mul', star_neg, star_add, apply_ite star, star_zero, ring1_star, Complex.star_def,
      Complex.conj_ofReal]
    rw [if_congr (eq_comm (a := y')) rfl rfl, if_congr (eq_comm (a := x')) rfl rfl]

/-! ## Plane waves -/

/-- Plane waves on a periodic chain, for every twist. -/
theorem chain_eigen (t : ℝ) (nx : Nat) (hn : 2 ≤ nx) (ks : Option (List ℝ)) (ypbc : Bool) (z : ℂ)
    (hz : phase ks 0 * z ^ nx = 1) :
    kinetic t nx 1 ks true ypbc *ᵥ (fun i => z ^ i.val) = (-(t : ℂ) * (z + z⁻¹)) • fun i => z ^ i.val := by
  funext i
  have hi : i.val < nx := by have := i.isLt; omega
  simp only [mulVec, dotProduct, Pi.smul_apply, smul_eq_mul]
  rw [mul_assoc, ← ring1_wave nx hn (phase ks 0) z (phase_conj _ _) hz i hi, Finset.mul_sum]
  rw [← (finCongr (Nat.one_mul nx)).sum_comp]
  refine Finset.sum_congr rfl fun j _ => ?_
  rw [kinetic_chain t nx hn, bphase, if_pos rfl]
  simp [mul_assoc]

/-- The wave `zx^x * zy^y` on a rectangle. -/
def rectWave (nx ny : Nat) (zx zy : ℂ) : Fin (ny * nx) → ℂ := fun i => zx ^ (i.val % nx) * zy ^ (i.val / nx)

theorem rectWave_site {nx ny : Nat} (zx zy : ℂ) (x : Fin nx) (y : Fin ny) :
    rectWave nx ny zx zy (site x y) = zx ^ x.val * zy ^ y.val := by
  have hx := x.isLt
  rw [rectWave, site_val, encode, Nat.add_mul_mod_self_right, Nat.mod_eq_of_lt hx,
    Nat.add_mul_div_right _ _ (by omega), Nat.div_eq_of_lt hx, Nat.zero_add]

/-- Plane waves on a periodic rectangle, for every twist. -/
theorem rect_eigen (t : ℝ) (nx ny : Nat) (hx : 2 ≤ nx) (hy : 2 ≤ ny) (ks : Option (List ℝ)) (zx zy : ℂ)
    (hzx : phase ks 0 * zx ^ nx = 1) (hzy : phase ks 1 * zy ^ ny = 1) :
    kinetic t nx ny ks true true *ᵥ rectWave nx ny zx zy =
      (-(t : ℂ) * (zx + zx⁻¹ + zy + zy⁻¹)) • rectWave nx ny zx zy := by
  funext i
  obtain ⟨⟨y, x⟩, rfl⟩ := (finProdFinEquiv (m := ny) (n := nx)).surjective i
  change (kinetic t nx ny ks true true *ᵥ rectWave nx ny zx zy) (site x y) =
    (-(t : ℂ) * (zx + zx⁻¹ + zy + zy⁻¹)) • rectWave nx ny zx zy (site x y)
  rw [rectWave_site, mulVec, dotProduct, ← (finProdFinEquiv (m := ny) (n := nx)).sum_comp, Fintype.sum_prod_type]
  have e : ∀ (y' : Fin ny) (x' : Fin nx),
      kinetic t nx ny ks true true (site x y) (finProdFinEquiv (y', x')) *
        rectWave nx ny zx zy (finProdFinEquiv (y', x')) =
      -(t : ℂ) * ((if y = y' then (ring1 nx (phase ks 0) x x' * zx ^ x'.val) * zy ^ y'.val else 0) +
        (if x = x' then zx ^ x'.val * (ring1 ny (phase ks 1) y y' * zy ^ y'.val) else 0)) := by
    intro y' x'
    rw [show finProdFinEquiv (y', x') = site x' y' from rfl, kinetic_rect t nx ny hx hy, rectWave_site,
      bphase, bphase, if_pos rfl, if_pos rfl]
    split_ifs <;> ring
  simp only [e, ← Finset.mul_sum, Finset.sum_add_distrib, Finset.sum_ite_eq, Finset.mem_univ, if_true]
  have e1 : ∑ y' : Fin ny, ∑ x' : Fin nx,
      (if y = y' then (ring1 nx (phase ks 0) x x' * zx ^ x'.val) * zy ^ y'.val else 0)
      = (∑ x' : Fin nx, ring1 nx (phase ks 0) x x' * zx ^ x'.val) * zy ^ y.val := by
    rw [Finset.sum_comm]
    simp only [Finset.sum_ite_eq, Finset.mem_univ, if_true, Finset.sum_mul]
  rw [e1, ring1_wave nx hx _ zx (phase_conj _ _) hzx x x.isLt,
    ring1_wave ny hy _ zy (phase_conj _ _) hzy y y.isLt, smul_eq_mul]
  ring

/-! ## The tabulated momenta and energies -/

/-- The generator of the momenta of direction with `n` sites. -/
noncomputable def zeta (n : Nat) : ℂ := Complex.exp (2 * Real.pi * Complex.I / n)

theorem zeta_pow (n k : Nat) :
    zeta n ^ k = Complex.exp (Complex.I * ((2 * Real.pi / n * k : ℝ) : ℂ)) := by
  rw [zeta, ← Complex.exp_nat_mul]
  congr 1
  push_cast
  ring

theorem zeta_cos (n k : Nat) :
    zeta n ^ k + (zeta n ^ k)⁻¹ = ((2 * Real.cos (2 * Real.pi / n * k) : ℝ) : ℂ) := by
  rw [zeta_pow, ← Complex.exp_neg]
  push_cast
  rw [Complex.cos]
  rw [show Complex.I * (2 * Real.pi / n * k : ℂ) = 2 * Real.pi / n * k * Complex.I by ring,
    show -(2 * Real.pi / n * k * Complex.I : ℂ) = -(2 * Real.pi / n * k) * Complex.I by ring]
  ring

theorem zeta_root (n k : Nat) (hn : n ≠ 0) : (zeta n ^ k) ^ n = 1 := by
  rw [← pow_mul, mul_comm, pow_mul,
    show zeta n ^ n = 1 from (Complex.isPrimitiveRoot_exp n hn).pow_eq_one, one_pow]

theorem wave_chain (nx k : Nat) (i : Fin (1 * nx)) : wave nx 1 [k] i = (zeta nx ^ k) ^ i.val := by
  have hi : i.val < nx := by have := i.isLt; omega
  simp only [wave, kfac, decode, if_true, dotk, List.map_cons, List.map_nil, List.zipWith_cons_cons,
    List.zipWith_nil_right, List.sum_cons, List.sum_nil, add_zero, Nat.mod_eq_of_lt hi]
  rw [zeta_pow, ← Complex.exp_nat_mul]
  congr 1
  push_cast
  ring

theorem wave_rect (nx ny n m : Nat) (h1 : ny ≠ 1) :
    wave nx ny [n, m] = rectWave nx ny (zeta nx ^ n) (zeta ny ^ m) := by
  funext i
  simp only [wave, kfac, decode, if_neg h1, dotk, List.map_cons, List.map_nil, List.zipWith_cons_cons,
    List.zipWith_nil_right, List.sum_cons, List.sum_nil, add_zero, rectWave]
  rw [zeta_pow, zeta_pow, ← Complex.exp_nat_mul, ← Complex.exp_nat_mul, ← Complex.exp_add]
  congr 1
  push_cast
  ring

/-- One momentum per site. -/
theorem kpoints_length (nx ny : Nat) : (kpoints nx ny).length = nx * ny := by
  unfold kpoints
  split_ifs with h
  · simp [h]
  · simp [List.length_flatMap]

theorem mem_kpoints (nx ny : Nat) (k : List Nat) : k ∈ kpoints nx ny ↔
    (ny = 1 ∧ ∃ n < nx, k = [n]) ∨ (ny ≠ 1 ∧ ∃ n < nx, ∃ m < ny, k = [n, m]) := by
  unfold kpoints
  split_ifs with h
  · simp [h, eq_comm]
  · simp [h, eq_comm]

theorem nodup_kpoints (nx ny : Nat) : (kpoints nx ny).Nodup := by
  unfold kpoints
  split_ifs with h
  · exact List.Nodup.map (fun a b hab => by simpa using hab) List.nodup_range
  · rw [List.nodup_flatMap]
    refine ⟨fun n _ => List.Nodup.map (fun a b hab => by simpa using hab) List.nodup_range, ?_⟩
    refine List.Pairwise.imp ?_ (List.nodup_range (n := nx))
    intro a b hab l h1 h2
    simp only [List.mem_map] at h1 h2
    obtain ⟨_, _, rfl⟩ := h1
    obtain ⟨_, _, h⟩ := h2
    simp at h
    exact hab h.1.symm

/-- The tabulated energy belongs to the wave of the tabulated momentum (no twist, periodic boundaries, at
least two sites along `x`). -/
theorem wave_eigen_partial (t : ℝ) (nx ny : Nat) (hx : 2 ≤ nx) (k : List Nat) (hk : k ∈ kpoints nx ny) :
    kinetic t nx ny none true true *ᵥ wave nx ny k = (ek t k (kfac nx ny) ny : ℂ) • wave nx ny k := by
  rcases (mem_kpoints nx ny k).1 hk with ⟨rfl, n, _, rfl⟩ | ⟨h1, n, _, m, hm, rfl⟩
  · have hw : wave nx 1 [n] = fun i => (zeta nx ^ n) ^ i.val := funext fun i => wave_chain nx n i
    rw [hw, chain_eigen t nx hx none true _ (by rw [phase, zeta_root _ _ (by omega), one_mul]), zeta_cos]
    congr 1
    simp only [ek, kfac, if_true, List.getD_cons_zero]
    push_cast
    ring
  · rw [wave_rect _ _ _ _ h1, rect_eigen t nx ny hx (by omega) none _ _
      (by rw [phase, zeta_root _ _ (by omega), one_mul]) (by rw [phase, zeta_root _ _ (by omega), one_mul]),
      add_assoc (zeta nx ^ n + _), zeta_cos, zeta_cos]
    congr 1
    simp only [ek, kfac, if_neg h1, List.getD_cons_zero, List.getD_cons_succ]
    push_cast
    ring

/-- The same read off the two lists position by position. -/
theorem table_eigen_partial (t : ℝ) (nx ny : Nat) (hx : 2 ≤ nx) (p : Nat) (k : List Nat) (e : ℝ)
    (hk : (kpoints nx ny)[p]? = some k) (he : (eigs t nx ny)[p]? = some e) :
    kinetic t nx ny none true true *ᵥ wave nx ny k = (e : ℂ) • wave nx ny k := by
  rw [eigs, List.getElem?_map, hk] at he
  simp only [Option.map_some, Option.some.injEq] at he
  rw [← he]
  exact wave_eigen_partial t nx ny hx k (List.mem_of_getElem? hk)

theorem zeta_orth (n : Nat) (a b : Nat) (ha : a < n) (hb : b < n) :
    ∑ x : Fin n, (zeta n ^ a) ^ x.val * star ((zeta n ^ b) ^ x.val) = if a = b then (n : ℂ) else 0 := by
  have hn : n ≠ 0 := by omega
  have hz := Complex.isPrimitiveRoot_exp n hn
  have hs : star (zeta n) = (zeta n)⁻¹ := by
    rw [zeta, Complex.star_def, ← Complex.exp_conj, ← Complex.exp_neg]
    congr 1
    simp [Complex.conj_ofNat]
    ring
  have h0 : zeta n ≠ 0 := Complex.exp_ne_zero _
  have e : ∀ x : Fin n, (zeta n ^ a) ^ x.val * star ((zeta n ^ b) ^ x.val) = (zeta n ^ a * (zeta n ^ b)⁻¹) ^ x.val := by
    intro x
    rw [star_pow, star_pow, hs, mul_pow, inv_pow]
  rw [Finset.sum_congr rfl fun x _ => e x, Fin.sum_univ_eq_sum_range (fun i => (zeta n ^ a * (zeta n ^ b)⁻¹) ^ i)]
  split_ifs with h
  · subst h
    rw [mul_inv_cancel₀ (pow_ne_zero _ h0)]
    simp
  · have hne : zeta n ^ a * (zeta n ^ b)⁻¹ ≠ 1 := by
      intro hc
      rw [mul_inv_eq_one₀ (pow_ne_zero _ h0)] at hc
      exact h (hz.pow_inj ha hb hc)
    rw [geom_sum_eq hne, mul_pow, inv_pow, zeta_root _ _ hn, zeta_root _ _ hn]
    simp

/-- The waves of different momenta are orthogonal, so they form a basis of eigenvectors: there are as many
as sites. -/
theorem wave_orth (nx ny : Nat) (k k' : List Nat) (hk : k ∈ kpoints nx ny) (hk' : k' ∈ kpoints nx ny) :
    wave nx ny k ⬝ᵥ star (wave nx ny k') = if k = k' then ((nx * ny : Nat) : ℂ) else 0 := by
  rcases (mem_kpoints nx ny k).1 hk with ⟨rfl, n, hn, rfl⟩ | ⟨h1, n, hn, m, hm, rfl⟩
  · rcases (mem_kpoints nx 1 k').1 hk' with ⟨-, n', hn', rfl⟩ | ⟨h, _⟩
    swap
    · exact absurd rfl h
    rw [dotProduct, ← (finCongr (Nat.one_mul nx).symm).sum_comp]
    simp only [wave_chain, Pi.star_apply]
    have := zeta_orth nx n n' hn hn'
    simp only [finCongr_apply, Fin.val_cast]
    rw [this]
    simp
  · rcases (mem_kpoints nx ny k').1 hk' with ⟨h, _⟩ | ⟨-, n', hn', m', hm', rfl⟩
    · exact absurd h h1
    rw [wave_rect _ _ _ _ h1, wave_rect _ _ _ _ h1, dotProduct, ← (finProdFinEquiv (m := ny) (n := nx)).sum_comp,
      Fintype.sum_prod_type]
    have e : ∀ (y : Fin ny) (x : Fin nx), rectWave nx ny (zeta nx ^ n) (zeta ny ^ m) (finProdFinEquiv (y, x)) *
        star (rectWave nx ny (zeta nx ^ n') (zeta ny ^ m')) (finProdFinEquiv (y, x)) =
        ((zeta ny ^ m) ^ y.val * star ((zeta ny ^ m') ^ y.val)) *
          ((zeta nx ^ n) ^ x.val * star ((zeta nx ^ n') ^ x.val)) := by
      intro y x
      rw [Pi.star_apply, show finProdFinEquiv (y, x) = site x y from rfl, rectWave_site, rectWave_site, star_mul']
      ring
    simp only [e, ← Finset.mul_sum, ← Finset.sum_mul]
    rw [zeta_orth nx n n' hn hn', zeta_orth ny m m' hm hm']
    by_cases ha : n = n' <;> by_cases hb : m = m' <;> simp [ha, hb, mul_comm]

/-! ## Translations -/

/-- Without a twist a periodic rectangle looks the same from every site. -/
theorem kinetic_translate (t : ℝ) (nx ny : Nat) (hx : 2 ≤ nx) (hy : 2 ≤ ny) (a : Fin nx) (b : Fin ny)
    (x x' : Fin nx) (y y' : Fin ny) :
    kinetic t nx ny none true true (site (x + a) (y + b)) (site (x' + a) (y' + b)) =
      kinetic t nx ny none true true (site x y) (site x' y') := by
  rw [kinetic_rect t nx ny hx hy, kinetic_rect t nx ny hx hy]
  have e1 : bphase none 0 true = 1 := rfl
  have e2 : bphase none 1 true = 1 := rfl
  rw [e1, e2, Fin.val_add, Fin.val_add, Fin.val_add, Fin.val_add,
    ring1_shift nx hx a x x' x.isLt x'.isLt, ring1_shift ny hy b y y' y.isLt y'.isLt]
  haveI : NeZero nx := ⟨by omega⟩
  haveI : NeZero ny := ⟨by omega⟩
  rw [if_congr (add_left_inj b) rfl rfl, if_congr (add_left_inj a) rfl rfl]

/-- Likewise a periodic chain. -/
theorem kinetic_translate_chain (t : ℝ) (nx : Nat) (hx : 2 ≤ nx) (ypbc : Bool) (a i j : Fin (1 * nx)) :
    kinetic t nx 1 none true ypbc (i + a) (j + a) = kinetic t nx 1 none true ypbc i j := by
  rw [kinetic_chain t nx hx, kinetic_chain t nx hx]
  have e1 : bphase none 0 true = 1 := rfl
  have hi : i.val < nx := by have := i.isLt; omega
  have hj : j.val < nx := by have := j.isLt; omega
  have hm : ∀ u : Nat, u % (1 * nx) = u % nx := fun u => by rw [Nat.one_mul]
  rw [e1, Fin.val_add, Fin.val_add, hm, hm, ring1_shift nx hx a i j hi hj]

/-! ## Narrow lattices

Finding: with one site along `x` the table of energies adds a band along `x` that the hopping matrix does not
have. -/

theorem kinetic_column (t : ℝ) (ny : Nat) (hy : 2 ≤ ny) (ks : Option (List ℝ)) (xpbc ypbc : Bool) (i j : Fin (ny * 1)) :
    kinetic t 1 ny ks xpbc ypbc i j = -(t : ℂ) * ring1 ny (bphase ks 1 ypbc) i j := by
  have hu : ∀ i j : Nat, i < j → j < ny →
      upper t 1 ny ks xpbc ypbc i j = -(t : ℂ) * ring1 ny (bphase ks 1 ypbc) i j := by
    intro i j hij hj
    have n1 : ¬ ny = 1 := by omega
    have hd : absDiff (decode 1 ny i) (decode 1 ny j) = [0, j - i] := by
      simp only [decode, if_neg n1, absDiff, List.zipWith_cons_cons, List.zipWith_nil_right, dist,
        Nat.mod_one, Nat.div_one, List.cons.injEq, and_true]
      exact ⟨trivial, by omega⟩
    unfold upper
    simp only [hd, List.sum_cons, List.sum_nil, Nat.add_zero, Nat.zero_add, n1, false_and, if_false, allEq,
      List.cons.injEq, and_true, reduceCtorEq, and_false, or_false, true_and, Nat.sub_self]
    rw [if_neg (show ¬ (j - i = 0 ∧ xpbc = true) by omega)]
    have c1 : (j - i = 1) ↔ j = i + 1 := by omega
    have c2 : (j - i = ny - 1 ∧ ypbc = true) ↔ (i = 0 ∧ j + 1 = ny) ∧ ypbc = true := by
      constructor <;> rintro ⟨h, hx⟩ <;> exact ⟨by omega, hx⟩
    rw [if_congr c1 rfl rfl, if_congr c2 rfl rfl, ring1, if_neg (show ¬ i = j + 1 by omega),
      if_neg (show ¬ (j = 0 ∧ i + 1 = ny) by omega), bphase]
    cases ypbc <;> simp <;> split_ifs <;> ring
  have hi : i.val < ny := by have := i.isLt; omega
  have hj : j.val < ny := by have := j.isLt; omega
  rw [kinetic_apply]
  rcases lt_trichotomy i j with h | h | h
  · rw [if_pos h, if_neg (not_lt_of_gt h), star_zero, add_zero, hu _ _ h hj]
  · subst h
    rw [if_neg (lt_irrefl _), star_zero, add_zero, ring1_self ny hy, mul_zero]
  · rw [if_neg (not_lt_of_gt h), if_pos h, zero_add, hu _ _ h hi, star_mul', ring1_star,
      star_neg, Complex.star_def, Complex.conj_ofReal]

/-- The uniform wave on a column has energy `-2t`, but the table says `-4t`. -/
theorem column_wrong (t : ℝ) (ht : t ≠ 0) (ny : Nat) (hy : 2 ≤ ny) :
    (kpoints 1 ny)[0]? = some [0, 0] ∧ (eigs t 1 ny)[0]? = some (-4 * t) ∧
      kinetic t 1 ny none true true *ᵥ wave 1 ny [0, 0] = ((-2 * t : ℝ) : ℂ) • wave 1 ny [0, 0] ∧
      kinetic t 1 ny none true true *ᵥ wave 1 ny [0, 0] ≠ ((-4 * t : ℝ) : ℂ) • wave 1 ny [0, 0] := by
  have n1 : ¬ ny = 1 := by omega
  have hk : (kpoints 1 ny)[0]? = some [0, 0] := by
    obtain ⟨m, rfl⟩ : ∃ m, ny = m + 1 := ⟨ny - 1, by omega⟩
    rw [kpoints, if_neg n1]
    simp [List.range_succ_eq_map]
  have hw : wave 1 ny [0, 0] = fun _ => 1 := by
    rw [wave_rect _ _ _ _ n1]
    funext i
    simp [rectWave]
  have hT : kinetic t 1 ny none true true *ᵥ wave 1 ny [0, 0] = ((-2 * t : ℝ) : ℂ) • wave 1 ny [0, 0] := by
    rw [hw]
    funext i
    have hi : i.val < ny := by have := i.isLt; omega
    simp only [mulVec, dotProduct, mul_one, Pi.smul_apply, smul_eq_mul]
    have := ring1_wave ny hy 1 1 (by simp) (by simp) i.val hi
    simp only [one_pow, mul_one, inv_one] at this
    rw [Finset.sum_congr rfl fun j _ => kinetic_column t ny hy none true true i j, ← Finset.mul_sum,
      ← (finCongr (Nat.mul_one ny).symm).sum_comp]
    simp only [finCongr_apply, Fin.val_cast]
    rw [show bphase none 1 true = 1 from rfl, this]
    push_cast
    ring
  refine ⟨hk, ?_, hT, ?_⟩
  · rw [eigs, List.getElem?_map, hk]
    simp [ek, n1]
    ring
  · rw [hT, hw]
    intro h
    have := congrFun h ⟨0, by omega⟩
    simp only [Pi.smul_apply, smul_eq_mul, mul_one, Complex.ofReal_inj] at this
    exact ht (by linarith)

/-- A single site does not hop, but the table gives it the energy `-2t`. -/
theorem single_site_wrong (t : ℝ) : kinetic t 1 1 none true true = 0 ∧ eigs t 1 1 = [-2 * t] := by
  refine ⟨?_, by simp [eigs, kpoints, kfac, ek]⟩
  ext i j
  rw [kinetic_apply]
  have : i = j := Fin.ext (by have := i.isLt; have := j.isLt; omega)
  subst this
  simp

/-- Case: a 3 by 2 lattice with its six momenta; the hop along the short direction is doubled, because the two
neighbours are the same site. -/
example : (kpoints 3 2).length = 6 ∧ [2, 1] ∈ kpoints 3 2 ∧
    kinetic 1 3 2 none true true (site (0 : Fin 3) (0 : Fin 2)) (site 0 1) = -2 := by
  refine ⟨by decide, by decide, ?_⟩
  rw [kinetic_rect 1 3 2 (by omega) (by omega)]
  simp [ring1, bphase, phase]
  norm_num

/-- Case: a twisted chain meets the condition on the wave. -/
example (θ : ℝ) : phase (some [θ]) 0 * Complex.exp (-Complex.I * ((Real.pi * θ / 5 : ℝ) : ℂ)) ^ 5 = 1 := by
  rw [phase, ← Complex.exp_nat_mul, ← Complex.exp_add]
  simp only [List.getD_cons_zero]
  convert Complex.exp_zero using 2
  push_cast
  ring

end Verif.Lattice
