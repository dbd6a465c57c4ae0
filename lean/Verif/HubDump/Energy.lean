import Verif.HubDump.Props

/-!
# Energies from the FCIDUMP of a Hubbard system, and where it goes wrong (C109)
-/

namespace Verif.HubDump

open Matrix Files Finset

/-- The energy of electrons with Green's functions `G` for integrals `(ik|jl)`: Coulomb less exchange. -/
noncomputable def energyOf {n : Nat} (r : FRead) (G : Fin 2 → Matrix (Fin n) (Fin n) ℂ) : ℂ :=
  r.ecore + ∑ i : Fin n, ∑ j : Fin n, r.h1 i j * (G 0 i j + G 1 i j) +
    1 / 2 * ∑ i : Fin n, ∑ k : Fin n, ∑ j : Fin n, ∑ l : Fin n, r.h2 (i, k, j, l) *
      ((G 0 i k + G 1 i k) * (G 0 j l + G 1 j l) - G 0 i l * G 0 j k - G 1 i l * G 1 j k)

/-- Printing keeps the numbers of this system. -/
structure Exact (rnd : ℝ → ℝ) (y : Sys) : Prop where
  zero : rnd 0 = 0
  hop : rnd (-y.t) = -y.t
  twice : rnd (-2 * y.t) = -2 * y.t
  int : rnd y.U = y.U
  large : 1 / 10 ^ 8 < |y.t|

theorem kinetic_value (t : ℝ) (nx ny : Nat) (xp yp : Bool) (i j : Fin (ny * nx)) :
    Lattice.kinetic t nx ny none xp yp i j = 0 ∨ Lattice.kinetic t nx ny none xp yp i j = ((-t : ℝ) : ℂ) ∨
      Lattice.kinetic t nx ny none xp yp i j = ((-2 * t : ℝ) : ℂ) := by
  have hu : ∀ a b, Lattice.upper t nx ny none xp yp a b = 0 ∨ Lattice.upper t nx ny none xp yp a b = ((-t : ℝ) : ℂ) ∨
      Lattice.upper t nx ny none xp yp a b = ((-2 * t : ℝ) : ℂ) := by
    intro a b
    have e : (-2 * (t : ℂ)) = -t + -t := by ring
    simp only [Lattice.upper, Lattice.phase, mul_one]
    push_cast
    rw [e]
    split_ifs <;> simp
  rw [Lattice.kinetic_apply]
  rcases lt_trichotomy i j with h | h | h
  · rw [if_pos h, if_neg h.asymm, star_zero, add_zero]
    exact hu i j
  · rw [if_neg (by rw [h]; exact lt_irrefl _), if_neg (by rw [h]; exact lt_irrefl _)]
    simp
  · rw [if_neg h.asymm, if_pos h, zero_add]
    rcases hu j i with e | e | e <;> rw [e]
    · simp
    · right; left; simp
    · right; right; simp

theorem kinetic_diag (t : ℝ) (nx ny : Nat) (xp yp : Bool) (i : Fin (ny * nx)) : Lattice.kinetic t nx ny none xp yp i i = 0 := by
  rw [Lattice.kinetic_apply, if_neg (lt_irrefl _)]
  simp

/-- Off the diagonal both spins have the hopping of one lattice. -/
theorem hopping_off (y : Sys) (hc : isComplex y = false) {T} (hT : hopping y = some T) : ∃ xp yp, ∀ s i j, i ≠ j →
    T s i j = Lattice.kinetic y.t y.nx y.ny none xp yp i j := by
  rw [hopping] at hT
  split_ifs at hT with hp
  · refine ⟨false, true, fun s i j hij => ?_⟩
    have h2 : y.ny ≠ 1 := by
      intro h2
      rw [pinningAlt, if_pos] at hT
      · simp at hT
      · refine ⟨h2, Nat.pos_of_ne_zero fun h3 => ?_⟩
        have := i.2
        simp [h3] at this
    obtain ⟨T', e, hT'⟩ := alt_spec y.t y.nx y.ny h2
    rw [e] at hT
    obtain rfl := Option.some.inj hT
    rw [hT', Matrix.add_apply, diagonal_apply_ne _ hij, add_zero]
  · obtain rfl := Option.some.inj hT
    have : y.ktwist = none := by simpa [isComplex, hp] using hc
    exact ⟨_, _, fun s i j _ => by rw [this]⟩

/-- **C109**: the file holds the two-electron integrals of the system and its hopping without the diagonal. -/
theorem read_exact (rnd : ℝ → ℝ) (y : Sys) (he : Exact rnd y) (hc : isComplex y = false) {T} (hT : hopping y = some T)
    (sym : Nat) (hs : sym = 1 ∨ sym = 4 ∨ sym = 8) : ∃ r, readFcidump (text rnd y T) sym = some r ∧
      r.nelec = ((y.nup : ℤ), (y.ndown : ℤ)) ∧ r.ecore = 0 ∧
      (∀ i j k l : Fin (y.ny * y.nx), r.h2 (i, k, j, l) = hijkl y i j k l) ∧
      ∀ s, ∀ i j : Fin (y.ny * y.nx), r.h1 i j = if i = j then 0 else T s i j := by
  obtain ⟨r, h1, h2, h3, h4, h5⟩ := read_text rnd he.zero y hc hT sym hs
  obtain ⟨xp, yp, ho⟩ := hopping_off y hc hT
  refine ⟨r, h1, h2, h3, fun i j k l => ?_, fun s i j => ?_⟩
  · rw [h4, hijkl, he.int]
    refine if_congr ?_ rfl rfl
    simp only [Fin.ext_iff]
    omega
  · rw [h5]
    by_cases hij : i = j
    · rw [if_pos hij, if_neg fun h => h.1 hij]
    · rw [if_neg hij, ho s i j hij, ho 0 i j hij]
      have hl := he.large
      rcases kinetic_value y.t y.nx y.ny xp yp i j with e | e | e <;> rw [e]
      · rw [if_neg]
        rintro ⟨-, h⟩
        simp at h
        norm_num at h
      · rw [if_pos ⟨hij, by rw [Complex.norm_real, Real.norm_eq_abs, abs_neg]; exact hl⟩, Complex.ofReal_re, he.hop]
      · rw [if_pos ⟨hij, by
          rw [Complex.norm_real, Real.norm_eq_abs, abs_mul]
          norm_num
          norm_num at hl
          linarith [abs_nonneg y.t]⟩, Complex.ofReal_re, he.twice]

/-- **C109**: the energy from the file is the energy of the run less that of the diagonal of the hopping. -/
theorem energy_diag (rnd : ℝ → ℝ) (y : Sys) (he : Exact rnd y) (hc : isComplex y = false) {T} (hT : hopping y = some T)
    (sym : Nat) (hs : sym = 1 ∨ sym = 4 ∨ sym = 8) (G : Fin 2 → Matrix (Fin (y.ny * y.nx)) (Fin (y.ny * y.nx)) ℂ) (b : Bool) :
    ∃ r, readFcidump (text rnd y T) sym = some r ∧
      (Energy.localHubbard T (y.U : ℂ) b G).1 = energyOf r G + ∑ i, (T 0 i i * G 0 i i + T 1 i i * G 1 i i) := by
  obtain ⟨r, h1, -, h3, h4, h5⟩ := read_exact rnd y he hc hT sym hs
  refine ⟨r, h1, ?_⟩
  have e2 : ∑ i : Fin (y.ny * y.nx), ∑ k : Fin (y.ny * y.nx), ∑ j : Fin (y.ny * y.nx), ∑ l : Fin (y.ny * y.nx), r.h2 (i, k, j, l) *
      ((G 0 i k + G 1 i k) * (G 0 j l + G 1 j l) - G 0 i l * G 0 j k - G 1 i l * G 1 j k) =
      ∑ i, (y.U : ℂ) * (2 * (G 0 i i * G 1 i i)) := by
    refine sum_congr rfl fun i _ => ?_
    rw [sum_eq_single i, sum_eq_single i, sum_eq_single i]
    · rw [h4, hijkl, if_pos ⟨rfl, rfl, rfl⟩]
      ring
    · intro l _ hl
      rw [h4, hijkl, if_neg, zero_mul]
      rintro ⟨-, -, h⟩
      exact hl (Fin.ext h).symm
    · simp
    · intro j _ hj
      refine sum_eq_zero fun l _ => ?_
      rw [h4, hijkl, if_neg, zero_mul]
      rintro ⟨h, -, -⟩
      exact hj (Fin.ext h).symm
    · simp
    · intro k _ hk
      refine sum_eq_zero fun j _ => sum_eq_zero fun l _ => ?_
      rw [h4, hijkl, if_neg, zero_mul]
      rintro ⟨h, h', -⟩
      exact hk (Fin.ext (h.trans h')).symm
    · simp
  have e1 : ∑ i : Fin (y.ny * y.nx), ∑ j : Fin (y.ny * y.nx), r.h1 i j * (G 0 i j + G 1 i j) + ∑ i, (T 0 i i * G 0 i i + T 1 i i * G 1 i i) =
      Energy.dot2 (T 0) (G 0) + Energy.dot2 (T 1) (G 1) := by
    simp only [Energy.dot2]
    rw [← sum_add_distrib, ← sum_add_distrib]
    refine sum_congr rfl fun i _ => ?_
    have : ∀ j : Fin (y.ny * y.nx), r.h1 i j * (G 0 i j + G 1 i j) = (T 0 i j * G 0 i j + T 1 i j * G 1 i j) -
        if i = j then T 0 i j * G 0 i j + T 1 i j * G 1 i j else 0 := by
      intro j
      by_cases hij : i = j
      · rw [h5 0, if_pos hij, if_pos hij]; ring
      · rw [mul_add, if_neg hij]
        nth_rw 1 [h5 0]
        rw [h5 1, if_neg hij, if_neg hij, sub_zero]
    simp only [this]
    rw [sum_sub_distrib, sum_ite_eq, if_pos (mem_univ _), sub_add_cancel, sum_add_distrib]
  unfold energyOf
  rw [h3, e2, Energy.localHubbard, ← mul_sum, ← mul_sum]
  simp only
  rw [← e1]
  ring

/-- **C109**: without a twist and pinning fields the energy from the file is that of the run. -/
theorem energy_partial (rnd : ℝ → ℝ) (y : Sys) (he : Exact rnd y) (hp : y.pinning = false) (hk : y.ktwist = none)
    (sym : Nat) (hs : sym = 1 ∨ sym = 4 ∨ sym = 8) (G : Fin 2 → Matrix (Fin (y.ny * y.nx)) (Fin (y.ny * y.nx)) ℂ) (b : Bool) :
    ∃ f r, fcidump rnd y false = some (.returned f) ∧ readFcidump f sym = some r ∧ r.nelec = ((y.nup : ℤ), (y.ndown : ℤ)) ∧
      (Energy.localHubbard (fun _ => Lattice.kinetic y.t y.nx y.ny none y.xpbc y.ypbc) (y.U : ℂ) b G).1 = energyOf r G := by
  have hT : hopping y = some fun _ => Lattice.kinetic y.t y.nx y.ny none y.xpbc y.ypbc := by
    rw [hopping, hp, hk]; rfl
  have hc : isComplex y = false := by simp [isComplex, hk]
  obtain ⟨r, h1, h2⟩ := energy_diag rnd y he hc hT sym hs G b
  obtain ⟨r', h1', hn, -⟩ := read_exact rnd y he hc hT sym hs
  rw [h1] at h1'
  obtain rfl := Option.some.inj h1'
  refine ⟨_, r, by rw [fcidump, hT]; rfl, h1, hn, ?_⟩
  rw [h2]
  simp [kinetic_diag]

/-- **C109**: with pinning fields the file has lost them: the energy is that of the run less the energy of the spins in the
fields. -/
theorem pinning_lost (rnd : ℝ → ℝ) (y : Sys) (he : Exact rnd y) (hp : y.pinning = true) (hy : y.ny ≠ 1)
    (sym : Nat) (hs : sym = 1 ∨ sym = 4 ∨ sym = 8) (G : Fin 2 → Matrix (Fin (y.ny * y.nx)) (Fin (y.ny * y.nx)) ℂ) (b : Bool) :
    ∃ T f r, hopping y = some T ∧ fcidump rnd y false = some (.returned f) ∧ readFcidump f sym = some r ∧
      (Energy.localHubbard T (y.U : ℂ) b G).1 = energyOf r G + ∑ i : Fin (y.ny * y.nx),
        if (i : Nat) % y.nx = 0 then (-1) ^ ((i : Nat) / y.nx) * (y.t / 10) * (G 0 i i - G 1 i i) else 0 := by
  obtain ⟨T, e, hT'⟩ := alt_spec y.t y.nx y.ny hy
  have hT : hopping y = some T := by rw [hopping, hp, if_pos rfl, e]
  have hc : isComplex y = false := by simp [isComplex, hp]
  obtain ⟨r, h1, h2⟩ := energy_diag rnd y he hc hT sym hs G b
  refine ⟨T, _, r, hT, by rw [fcidump, hT]; rfl, h1, ?_⟩
  rw [h2]
  congr 1
  refine sum_congr rfl fun i _ => ?_
  rw [hT', hT', Matrix.add_apply, Matrix.add_apply, kinetic_diag, diagonal_apply_eq, diagonal_apply_eq, zero_add, zero_add]
  split_ifs
  · simp only [stag, if_true, show (1 : Fin 2) ≠ 0 by decide, if_false, pow_succ]
    ring
  · ring

theorem paren_none (n sym : Nat) (st : RSt) : ∀ l : List Line, Line.paren ∈ l → readLines n sym st l = none
  | [], h => by simp at h
  | a :: l, h => by
    rw [readLines]
    rcases List.mem_cons.1 h with rfl | h
    · rfl
    · cases readLine n sym st a with
      | none => rfl
      | some st' => exact paren_none n sym st' l h

/-- **C109**: with a twist, even a twist of zero, the file cannot be read. -/
theorem twist_unreadable (rnd : ℝ → ℝ) (y : Sys) (hp : y.pinning = false) (k : List ℝ) (hk : y.ktwist = some k) :
    ∃ f, fcidump rnd y false = some (.returned f) ∧ ∀ sym, readFcidump f sym = none := by
  have hT : hopping y = some fun _ => Lattice.kinetic y.t y.nx y.ny y.ktwist y.xpbc y.ypbc := by rw [hopping, hp]; rfl
  refine ⟨_, by rw [fcidump, hT]; rfl, fun sym => ?_⟩
  rw [readFcidump]
  split_ifs
  · rw [paren_none]
    · rfl
    · rw [text]
      refine List.mem_append_right _ ?_
      simp [fmt, isComplex, hp, hk]
  · rfl

/-- **C109**: asked for a string, `fcidump` returns none. -/
theorem to_string_wrong (rnd : ℝ → ℝ) (y : Sys) (f : FFile) : fcidump rnd y true ≠ some (.returned f) := by
  rw [fcidump]
  cases hopping y <;> simp

/-- **C109**: a single row with pinning fields raises an exception. -/
theorem pinning_row (y : Sys) (hp : y.pinning = true) (hy : y.ny = 1) (hx : 0 < y.nx) : hopping y = none := by
  rw [hopping, hp, if_pos rfl, pinningAlt, if_pos ⟨hy, hx⟩]

/-- **C109**: the pinning fields and the boundaries are not those of the documentation. -/
theorem pinning_documented_wrong (t : ℝ) (ht : t ≠ 0) (nx ny : Nat) (hx : 0 < nx) (hy : 2 ≤ ny) : pinningAlt t nx ny ≠ pinningDoc t nx ny := by
  obtain ⟨T, e, hT⟩ := alt_spec t nx ny (by omega)
  obtain ⟨T', e', hT'⟩ := doc_spec t nx ny (by omega)
  rw [e, e']
  intro h
  have h := Option.some.inj h
  have h0 : 0 < ny * nx := Nat.mul_pos (by omega) hx
  have := congrFun (congrFun (congrFun h 0) ⟨0, h0⟩) ⟨0, h0⟩
  rw [hT, hT', Matrix.add_apply, Matrix.add_apply, kinetic_diag, kinetic_diag, diagonal_apply_eq, diagonal_apply_eq] at this
  have ht' : (t : ℂ) ≠ 0 := by exact_mod_cast ht
  simp [stag] at this
  have h3 : (t : ℂ) * (1 / 4 - 1 / 10) = 0 := by linear_combination -this
  rcases mul_eq_zero.1 h3 with h | h
  · exact ht' h
  · norm_num at h

/-- **C109**: pinning fields and boundary options: a pinned lattice with periodic boundaries in both directions is open along
`x` all the same. -/
theorem pinning_ignores (y : Sys) (hp : y.pinning = true) (xp yp : Bool) (k : Option (List ℝ)) :
    hopping y = hopping { y with xpbc := xp, ypbc := yp, ktwist := k } := by
  simp [hopping, hp]

/-! ## Cases -/

/-- A three by two lattice with three electrons. -/
noncomputable def exSys : Sys := ⟨2, 1, 1, 4, 3, 2, none, true, true, false⟩

theorem exSys_exact : Exact id exSys := ⟨rfl, rfl, rfl, rfl, by norm_num [exSys]⟩

example (G) : ∃ f r, fcidump id exSys false = some (.returned f) ∧ readFcidump f 8 = some r ∧ r.nelec = (2, 1) ∧
    (Energy.localHubbard (fun _ => Lattice.kinetic 1 3 2 none true true) (4 : ℝ) false G).1 = energyOf r G :=
  energy_partial id exSys exSys_exact rfl rfl 8 (by norm_num) G false

/-- Two by two sites: the file's energy of one electron on the first site is zero, the run's is `t/10`. -/
example : ∃ T f r, hopping ⟨1, 0, 1, 4, 2, 2, none, true, true, true⟩ = some T ∧
    fcidump id ⟨1, 0, 1, 4, 2, 2, none, true, true, true⟩ false = some (.returned f) ∧ readFcidump f 8 = some r ∧
    (Energy.localHubbard T (4 : ℝ) false (fun s => if s = 0 then Matrix.single 0 0 1 else 0)).1 =
      energyOf r (n := 2 * 2) (fun s => if s = 0 then Matrix.single 0 0 1 else 0) + 1 / 10 := by
  obtain ⟨T, f, r, h1, h2, h3, h4⟩ := pinning_lost id ⟨1, 0, 1, 4, 2, 2, none, true, true, true⟩
    ⟨rfl, rfl, rfl, rfl, by norm_num⟩ rfl (by norm_num) 8 (by norm_num) (fun s => if s = 0 then Matrix.single 0 0 1 else 0) false
  refine ⟨T, f, r, h1, h2, h3, h4.trans ?_⟩
  congr 1
  simp [Fin.sum_univ_four, Matrix.single]

example : ∃ T, pinningAlt 1 2 2 = some T := ⟨_, (alt_spec 1 2 2 (by norm_num)).choose_spec.1⟩

end Verif.HubDump
