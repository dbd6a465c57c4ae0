import Verif.HubDump.Model
import Verif.Files.FcidumpProps
import Verif.Lattice.Props
import Verif.Energy.Model

/-!
# The FCIDUMP of a Hubbard system (C109)
-/

namespace Verif.HubDump

open Matrix Files

/-! ## Pinning fields -/

/-- The hopping that is periodic along `y` and open along `x`, with fields on the first column. -/
theorem alt_spec (t : ℝ) (nx ny : Nat) (h : ny ≠ 1) : ∃ T, pinningAlt t nx ny = some T ∧ ∀ s,
    T s = Lattice.kinetic t nx ny none false true + diagonal fun i : Fin (ny * nx) => if (i : Nat) % nx = 0 then stag s (i / nx) * (t / 10) else 0 := by
  refine ⟨_, by rw [pinningAlt, if_neg fun hc => h hc.1], fun s => ?_⟩
  have hu : ∀ i j, altUpper t nx ny i j = Lattice.upper t nx ny none false true i j := by
    intro i j
    simp [altUpper, Lattice.upper, h, Lattice.phase]
  have hs : ∀ i j, star (Lattice.upper t nx ny none false true i j) = Lattice.upper t nx ny none false true i j := by
    intro i j
    simp only [Lattice.upper, Lattice.phase]
    split_ifs <;> simp
  ext i j
  simp only [Matrix.add_apply, of_apply, Lattice.kinetic_apply, hu]
  rcases lt_trichotomy i j with hij | hij | hij
  · have h1 := hij.ne
    have h2 : ¬ j < i := hij.asymm
    simp [hij, h1, h2]
  · subst hij
    simp only [altDiag, Lattice.decode, h, if_false, List.getD_cons_zero, List.getD_cons_succ, if_true, lt_irrefl, star_zero, zero_add,
      add_zero, diagonal_apply_eq]
    split_ifs
    · ring
    · rfl
  · have h1 := hij.ne'
    have h2 : ¬ i < j := hij.asymm
    have h3 := hs j i
    simp only [Complex.star_def] at h3
    simp [hij, hij.ne, h1, h2, h3]

/-- The hopping and fields of the documentation: periodic along `x`, open along `y`, fields on the two edges. -/
theorem doc_spec (t : ℝ) (nx ny : Nat) (h : ny ≠ 1) : ∃ T, pinningDoc t nx ny = some T ∧ ∀ s,
    T s = Lattice.kinetic t nx ny none true false +
      diagonal fun i : Fin (ny * nx) => if (i : Nat) / nx = 0 ∨ (i : Nat) / nx + 1 = ny then stag s ((i : Nat) % nx + i / nx) * (t / 4) else 0 := by
  refine ⟨_, by rw [pinningDoc, if_neg fun hc => h hc.1], fun s => ?_⟩
  have hu : ∀ i j, docUpper t nx ny i j = Lattice.upper t nx ny none true false i j := by
    intro i j
    simp [docUpper, Lattice.upper, h, Lattice.phase]
  have hs : ∀ i j, star (Lattice.upper t nx ny none true false i j) = Lattice.upper t nx ny none true false i j := by
    intro i j
    simp only [Lattice.upper, Lattice.phase]
    split_ifs <;> simp
  ext i j
  simp only [Matrix.add_apply, of_apply, Lattice.kinetic_apply, hu]
  rcases lt_trichotomy i j with hij | hij | hij
  · have h1 := hij.ne
    have h2 : ¬ j < i := hij.asymm
    simp [hij, h1, h2]
  · subst hij
    simp only [docDiag, Lattice.decode, h, if_false, List.getD_cons_zero, List.getD_cons_succ, if_true, lt_irrefl, star_zero, zero_add,
      add_zero, diagonal_apply_eq]
    split_ifs
    · ring
    · rfl
  · have h1 := hij.ne'
    have h2 : ¬ i < j := hij.asymm
    have h3 := hs j i
    simp only [Complex.star_def] at h3
    simp [hij, hij.ne, h1, h2, h3]

theorem stag_real (s : Fin 2) (p : Nat) : star (stag s p) = stag s p := by
  rw [stag]; split_ifs <;> simp

/-- Opposite fields for the two spins. -/
theorem stag_flip (s : Fin 2) (p : Nat) : stag (1 - s) p = -stag s p := by
  fin_cases s <;> simp [stag, pow_succ]

/-- **C109**: the hopping of every system is Hermitian, with pinning fields or without. -/
theorem hopping_hermitian (y : Sys) (T) (h : hopping y = some T) (s : Fin 2) : (T s).IsHermitian := by
  rw [hopping] at h
  split_ifs at h with hp
  · by_cases h1 : y.ny = 1 ∧ 0 < y.nx
    · rw [pinningAlt, if_pos h1] at h; simp at h
    · by_cases h2 : y.ny = 1
      · have : y.nx = 0 := by omega
        ext i j
        have := i.2
        simp_all
      · obtain ⟨T', e, hT⟩ := alt_spec y.t y.nx y.ny h2
        rw [e] at h
        obtain rfl := Option.some.inj h
        rw [hT]
        refine (Lattice.kinetic_hermitian _ _ _ _ _ _).add ?_
        rw [isHermitian_diagonal_iff]
        intro i
        rw [isSelfAdjoint_iff]
        split_ifs
        · simp [stag_real]
        · simp
  · obtain rfl := Option.some.inj h
    exact Lattice.kinetic_hermitian _ _ _ _ _ _

/-- **C109**: with an even number of rows the pinned Hamiltonian does not change when the lattice is moved by one row and the
spins are exchanged. -/
theorem pinning_symmetry (t : ℝ) (nx ny : Nat) (hx : 2 ≤ nx) (hy : 2 ≤ ny) (he : Even ny) {T} (h : pinningAlt t nx ny = some T)
    (s : Fin 2) (x x' : Fin nx) (y y' : Fin ny) :
    T (1 - s) (Lattice.site x ⟨(y + 1) % ny, Nat.mod_lt _ (by omega)⟩) (Lattice.site x' ⟨(y' + 1) % ny, Nat.mod_lt _ (by omega)⟩) =
      T s (Lattice.site x y) (Lattice.site x' y') := by
  obtain ⟨T', e, hT⟩ := alt_spec t nx ny (by omega)
  rw [e] at h
  obtain rfl := Option.some.inj h
  rw [hT, hT, Matrix.add_apply, Matrix.add_apply, Lattice.kinetic_rect t nx ny hx hy, Lattice.kinetic_rect t nx ny hx hy]
  have hinj : ∀ a b : Fin ny, (⟨(a + 1) % ny, Nat.mod_lt _ (by omega)⟩ : Fin ny) = ⟨(b + 1) % ny, Nat.mod_lt _ (by omega)⟩ ↔ a = b := by
    intro a b
    rw [Fin.mk.injEq]
    constructor
    · intro h
      have := Nat.ModEq.add_right_cancel' 1 h
      exact Fin.ext (by rw [← Nat.mod_eq_of_lt a.2, ← Nat.mod_eq_of_lt b.2]; exact this)
    · rintro rfl; rfl
  congr 1
  · congr 1
    congr 1
    · simp only [hinj]
    · by_cases hxx : x = x'
      · rw [if_pos hxx, if_pos hxx]
        have b1 : Lattice.bphase none 1 true = 1 := by simp [Lattice.bphase, Lattice.phase]
        rw [b1]
        have := Lattice.ring1_shift ny hy 1 y y' y.2 y'.2
        simpa using this
      · rw [if_neg hxx, if_neg hxx]
  · by_cases hd : x = x' ∧ y = y'
    · obtain ⟨rfl, rfl⟩ := hd
      rw [diagonal_apply_eq, diagonal_apply_eq, Lattice.site_val, Lattice.site_val]
      simp only [Lattice.encode, Nat.add_mul_mod_self_right, Nat.mod_eq_of_lt x.2, Nat.add_mul_div_right _ _ (show 0 < nx by omega),
        Nat.div_eq_of_lt x.2, zero_add]
      have : stag (1 - s) (((y : Nat) + 1) % ny) = stag s y := by
        rw [stag_flip]
        by_cases hl : (y : Nat) + 1 = ny
        · rw [hl, Nat.mod_self]
          have ho : Odd (y : Nat) := by
            rcases Nat.even_or_odd (y : Nat) with h | h
            · exact absurd he (by rw [← hl]; simpa using h.add_one)
            · exact h
          fin_cases s <;> simp [stag, ho.neg_one_pow, pow_succ]
        · rw [Nat.mod_eq_of_lt (by have := y.2; omega)]
          fin_cases s <;> simp [stag, pow_succ]
      rw [this]
    · rw [diagonal_apply_ne, diagonal_apply_ne]
      · intro h
        have := finProdFinEquiv.injective h
        simp only [Prod.mk.injEq] at this
        exact hd ⟨this.2, this.1⟩
      · intro h
        have := finProdFinEquiv.injective h
        simp only [Prod.mk.injEq, hinj] at this
        exact hd ⟨this.2, this.1⟩

/-! ## Reading the file -/

theorem mem_diag (sym i : Nat) (U : ℂ) (hU : star U = U) {x : Quad × ℂ} (h : x ∈ assigns sym (i, i, i, i) U) :
    x = ((i, i, i, i), U) := by
  have hU' : (starRingEnd ℂ) U = U := hU
  simp only [assigns] at h
  split_ifs at h
  · simpa using h
  · simpa [hU'] using h
  · simpa [hU'] using h

/-- The two-electron part of the lines. -/
theorem h2_spec (n sym : Nat) (U : ℂ) (a b c d : Nat) (hU : star U = U) :
    setAll (fun _ => 0) ((List.finRange n).flatMap fun i : Fin n => assigns sym (i, i, i, i) U) (a, b, c, d) =
      if a < n ∧ b = a ∧ c = a ∧ d = a then U else 0 := by
  rw [setAll_spec (a, b, c, d) U]
  · congr 1
    rw [eq_iff_iff, List.mem_map]
    constructor
    · rintro ⟨x, hx, hk⟩
      obtain ⟨i, -, hx⟩ := List.mem_flatMap.1 hx
      rw [mem_diag sym i U hU hx] at hk
      simp only [Prod.mk.injEq] at hk
      obtain ⟨rfl, rfl, rfl, rfl⟩ := hk
      exact ⟨i.2, rfl, rfl, rfl⟩
    · rintro ⟨h, rfl, rfl, rfl⟩
      refine ⟨((_, _, _, _), U), List.mem_flatMap.2 ⟨⟨_, h⟩, List.mem_finRange _, ?_⟩, rfl⟩
      simp only [assigns]
      exact List.mem_append_left _ (List.mem_singleton_self _)
  · intro x hx _
    obtain ⟨i, -, hx⟩ := List.mem_flatMap.1 hx
    rw [mem_diag sym i U hU hx]

theorem mem_pairs {n : Nat} (T : Matrix (Fin n) (Fin n) ℂ) (i j : Fin n) : (i, j) ∈ pairs T ↔ i < j ∧ 1 / 10 ^ 8 < ‖T i j‖ := by
  simp [pairs]

open Classical in
/-- The one-electron part of the lines. -/
theorem h1_spec {n : Nat} (rnd : ℝ → ℝ) (T : Matrix (Fin n) (Fin n) ℂ) (hT : T.IsHermitian) (hr : ∀ i j, (T i j).im = 0) (i j : Fin n) :
    set1All (fun _ _ => 0) ((pairs T).map fun p => ((p.1 : Nat), (p.2 : Nat), arrives rnd false (T p.1 p.2))) i j =
      if i ≠ j ∧ 1 / 10 ^ 8 < ‖T i j‖ then (rnd (T i j).re : ℂ) else 0 := by
  have hsym : ∀ a b, T a b = T b a := by
    intro a b
    have h1 := hT.apply a b
    apply Complex.ext
    · rw [← h1]; simp
    · rw [hr, hr]
  have hsp := set1All_spec i j (rnd (T i j).re : ℂ)
    ((pairs T).map fun p => ((p.1 : Nat), (p.2 : Nat), arrives rnd false (T p.1 p.2))) (fun _ _ => 0) (by
      intro x hx
      obtain ⟨⟨a, b⟩, -, rfl⟩ := List.mem_map.1 hx
      refine ⟨?_, ?_⟩
      · rintro ⟨h1, h2⟩
        obtain rfl := Fin.ext h1
        obtain rfl := Fin.ext h2
        simp [arrives]
      · rintro ⟨h1, h2⟩
        obtain rfl := Fin.ext h1
        obtain rfl := Fin.ext h2
        simp [arrives, hsym a b])
  have hex : (∃ x ∈ ((pairs T).map fun p => ((p.1 : Nat), (p.2 : Nat), arrives rnd false (T p.1 p.2))),
      (x.1 = (i : Nat) ∧ x.2.1 = (j : Nat)) ∨ (x.2.1 = (i : Nat) ∧ x.1 = (j : Nat))) ↔ i ≠ j ∧ 1 / 10 ^ 8 < ‖T i j‖ := by
    constructor
    · rintro ⟨x, hx, h⟩
      obtain ⟨⟨a, b⟩, hp, rfl⟩ := List.mem_map.1 hx
      rw [mem_pairs] at hp
      rcases h with ⟨h1, h2⟩ | ⟨h1, h2⟩
      · obtain rfl := Fin.ext h1
        obtain rfl := Fin.ext h2
        exact ⟨hp.1.ne, hp.2⟩
      · obtain rfl := Fin.ext h1
        obtain rfl := Fin.ext h2
        rw [hsym b a]
        exact ⟨hp.1.ne', hp.2⟩
    · rintro ⟨h1, h2⟩
      rcases lt_or_gt_of_ne h1 with h | h
      · exact ⟨_, List.mem_map.2 ⟨(i, j), (mem_pairs T i j).2 ⟨h, h2⟩, rfl⟩, Or.inl ⟨rfl, rfl⟩⟩
      · exact ⟨_, List.mem_map.2 ⟨(j, i), (mem_pairs T j i).2 ⟨h, by rw [hsym j i]; exact h2⟩, rfl⟩, Or.inr ⟨rfl, rfl⟩⟩
  by_cases h : i ≠ j ∧ 1 / 10 ^ 8 < ‖T i j‖
  · rw [if_pos h]; exact hsp.1 (hex.2 h)
  · rw [if_neg h]; exact hsp.2 fun h1 => h (hex.1 h1)

open Classical in
/-- **C109**: what reading a file without a twist gives. -/
theorem read_text (rnd : ℝ → ℝ) (h0 : rnd 0 = 0) (y : Sys) (hc : isComplex y = false) {T} (hT : hopping y = some T)
    (sym : Nat) (hs : sym = 1 ∨ sym = 4 ∨ sym = 8) : ∃ r, readFcidump (text rnd y T) sym = some r ∧
      r.nelec = ((y.nup : ℤ), (y.ndown : ℤ)) ∧ r.ecore = 0 ∧
      (∀ i k j l : Fin (y.ny * y.nx), r.h2 (i, k, j, l) = if k = i ∧ j = i ∧ l = i then (rnd y.U : ℂ) else 0) ∧
      ∀ i j : Fin (y.ny * y.nx), r.h1 i j = if i ≠ j ∧ 1 / 10 ^ 8 < ‖T 0 i j‖ then (rnd (T 0 i j).re : ℂ) else 0 := by
  have hreal : ∀ i j, (T 0 i j).im = 0 := by
    have hk : ∀ xp yp i j, (Lattice.kinetic y.t y.nx y.ny none xp yp i j).im = 0 := by
      intro xp yp i j
      rw [Lattice.kinetic_apply]
      simp only [Lattice.upper, Lattice.phase]
      split_ifs <;> simp
    rw [hopping] at hT
    split_ifs at hT with hp
    · intro i j
      have h2 : y.ny ≠ 1 := by
        intro h2
        rw [pinningAlt, if_pos] at hT
        · simp at hT
        · refine ⟨h2, Nat.pos_of_ne_zero fun h3 => ?_⟩
          have := i.2
          simp [h3] at this
      obtain ⟨T', e, hT'⟩ := alt_spec y.t y.nx y.ny h2
      rw [e] at hT
      obtain rfl := Option.some.inj hT
      rw [hT', Matrix.add_apply, Complex.add_im, hk, zero_add, diagonal_apply]
      split_ifs
      · have := Complex.conj_eq_iff_im.1 (stag_real 0 ((i : Nat) / y.nx))
        have e : (y.t / 10 : ℂ) = ((y.t / 10 : ℝ) : ℂ) := by push_cast; rfl
        rw [e, Complex.im_mul_ofReal, this, zero_mul]
      · rfl
      · rfl
    · obtain rfl := Option.some.inj hT
      have : y.ktwist = none := by
        simpa [isComplex, hp] using hc
      intro i j
      rw [this]
      exact hk _ _ i j
  have hh := hopping_hermitian y T hT 0
  have h1 := readLines_eri (y.ny * y.nx) sym rnd (fun _ => (y.U : ℂ)) false
    ((List.finRange (y.ny * y.nx)).map fun i => (i, i, i, i)) ⟨fun _ _ => 0, fun _ => 0, none⟩
  rw [List.map_map, List.flatMap_map] at h1
  have h2 := fun st => readLines_one (y.ny * y.nx) sym rnd (T 0) false (pairs (T 0)) st
  have hb : ∀ z q, fmt rnd z q false true = fmt rnd z q false false := fun z q => by simp [fmt]
  have hl : readLines (y.ny * y.nx) sym ⟨fun _ _ => 0, fun _ => 0, none⟩ (text rnd y T).lines = some
      ⟨set1All (fun _ _ => 0) ((pairs (T 0)).map fun p => ((p.1 : Nat), (p.2 : Nat), arrives rnd false (T 0 p.1 p.2))),
        setAll (fun _ => 0) ((List.finRange (y.ny * y.nx)).flatMap fun i : Fin (y.ny * y.nx) => assigns sym (i, i, i, i) (rnd y.U : ℂ)), some 0⟩ := by
    rw [text]
    simp only [hc, hb]
    rw [readLines_append, readLines_append]
    have e1 : (List.finRange (y.ny * y.nx)).map (fun i : Fin (y.ny * y.nx) => fmt rnd (y.U : ℂ) ((i : Nat) + 1, (i : Nat) + 1, (i : Nat) + 1, (i : Nat) + 1) false false) =
        (List.finRange (y.ny * y.nx)).map ((fun q => fmt rnd (y.U : ℂ) (up (nat q)) false false) ∘ fun i => (i, i, i, i)) := rfl
    rw [e1, h1, Option.bind_some, h2, Option.bind_some]
    simp [readLines, readLine, fmt, arrives, h0, nat]
  refine ⟨_, by rw [readFcidump, if_pos hs]; show (readLines (y.ny * y.nx) sym _ _).bind _ = _; rw [hl]; rfl, ?_, rfl, ?_, ?_⟩
  · simp only [text, Prod.mk.injEq]
    omega
  · intro i k j l
    show setAll _ _ _ = _
    rw [h2_spec _ _ _ _ _ _ _ (by simp)]
    congr 1
    rw [eq_iff_iff]
    simp only [Fin.ext_iff]
    exact ⟨fun h => h.2, fun h => ⟨i.2, h⟩⟩
  · intro i j
    exact h1_spec rnd (T 0) hh hreal i j

end Verif.HubDump
