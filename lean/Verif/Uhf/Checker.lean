import Verif.Uhf.Props
import Verif.Lattice.Props

/-!
# The checkerboard (C107)
-/

namespace Verif.Uhf

open Matrix Finset

/-- Number of sites of the first kind before site `i`. -/
def upBefore (i : Nat) : Nat := (List.range i).countP fun j => isUp j
/-- Number of sites of the second kind before site `i`. -/
def dnBefore (i : Nat) : Nat := (List.range i).countP fun j => !isUp j

/-- The column a site goes to. -/
def colOf (nup i : Nat) : Nat := if isUp i then upBefore i else nup + dnBefore i

/-- The entry set for a site. -/
def entry (nup i : Nat) : Nat × Nat × Int := (i, colOf nup i, if isUp i then 1 else -1)

theorem upBefore_succ (i : Nat) : upBefore (i + 1) = upBefore i + if isUp i then 1 else 0 := by
  simp [upBefore, List.range_succ, List.countP_append, List.countP_singleton]

theorem dnBefore_succ (i : Nat) : dnBefore (i + 1) = dnBefore i + if isUp i then 0 else 1 := by
  rw [dnBefore, List.range_succ, List.countP_append, List.countP_singleton, dnBefore]
  cases isUp i <;> simp

theorem upBefore_add (i : Nat) : upBefore i + dnBefore i = i := by
  induction i with
  | zero => rfl
  | succ i ih => rw [upBefore_succ, dnBefore_succ]; split_ifs <;> omega

theorem upBefore_mono {i j : Nat} (h : i ≤ j) : upBefore i ≤ upBefore j := by
  induction j, h using Nat.le_induction with
  | base => exact le_rfl
  | succ j _ ih => rw [upBefore_succ]; omega

theorem dnBefore_mono {i j : Nat} (h : i ≤ j) : dnBefore i ≤ dnBefore j := by
  induction j, h using Nat.le_induction with
  | base => exact le_rfl
  | succ j _ ih => rw [dnBefore_succ]; omega

theorem loop_spec (ncol nup k s : Nat) : checkerLoop ncol nup (List.range' s k) (upBefore s) (dnBefore s) =
    if ∀ i ∈ List.range' s k, colOf nup i < ncol then some ((List.range' s k).map (entry nup)) else none := by
  induction k generalizing s with
  | zero => simp [checkerLoop]
  | succ k ih =>
    rw [List.range'_succ, checkerLoop]
    have h1 := ih (s + 1)
    rw [upBefore_succ, dnBefore_succ] at h1
    by_cases hs : isUp s = true
    · rw [if_pos hs]
      rw [if_pos hs, if_pos hs, Nat.add_zero (dnBefore s)] at h1
      rw [h1]
      have hc : colOf nup s = upBefore s := by rw [colOf, if_pos hs]
      simp only [List.forall_mem_cons, hc, List.map_cons, entry, hs, if_true]
      by_cases h2 : upBefore s < ncol
      · rw [if_pos h2]
        split_ifs with h3 h4 h4
        · rfl
        · exact absurd ⟨h2, h3⟩ h4
        · exact absurd h4.2 h3
        · rfl
      · rw [if_neg h2, if_neg fun h => h2 h.1]
    · rw [if_neg hs]
      rw [if_neg hs, if_neg hs, Nat.add_zero (upBefore s)] at h1
      rw [h1]
      have hc : colOf nup s = nup + dnBefore s := by rw [colOf, if_neg hs]
      simp only [List.forall_mem_cons, hc, List.map_cons, entry, show isUp s = false by simpa using hs, Bool.false_eq_true, if_false]
      by_cases h2 : nup + dnBefore s < ncol
      · rw [if_pos h2]
        split_ifs with h3 h4 h4
        · rfl
        · exact absurd ⟨h2, h3⟩ h4
        · exact absurd h4.2 h3
        · rfl
      · rw [if_neg h2, if_neg fun h => h2 h.1]

theorem checkerboard_spec (n nup ndown : Nat) : checkerboard n nup ndown =
    if ∀ i < n, colOf nup i < nup + ndown then some ((List.range n).map (entry nup)) else none := by
  have h := loop_spec (nup + ndown) nup n 0
  rw [← List.range_eq_range'] at h
  rw [checkerboard]
  refine h.trans ?_
  simp only [List.mem_range]

theorem fold_spec (nup i a : Nat) (l : List Nat) (z : ℂ) :
    (l.map (entry nup)).foldl (fun z e => if e.1 = i ∧ e.2.1 = a then (e.2.2 : ℂ) else z) z =
      if i ∈ l ∧ colOf nup i = a then (if isUp i then 1 else -1) else z := by
  induction l generalizing z with
  | nil => simp
  | cons j l ih =>
    rw [List.map_cons, List.foldl_cons, ih]
    by_cases h : j = i
    · subst h
      by_cases h2 : colOf nup j = a
      · simp [entry, h2]
      · simp [entry, h2]
    · have h' : ¬ i = j := fun e => h e.symm
      simp [entry, h, h']

theorem matrix_spec {n nup ndown : Nat} {es : List (Nat × Nat × Int)} (h : checkerboard n nup ndown = some es)
    (i : Fin n) (a : Fin (nup + ndown)) : toMatrix n (nup + ndown) es i a =
      if colOf nup i = a then (if isUp i then 1 else -1) else 0 := by
  rw [checkerboard_spec] at h
  split_ifs at h with hc
  cases h
  rw [toMatrix, fold_spec]
  simp

/-- The orbitals of both spins. -/
def checkerOrbs (m nu nd : Nat) (es : List (Nat × Nat × Int)) : Orbs m nu nd :=
  ⟨Slater.up (toMatrix m (nu + nd) es), Slater.dn (toMatrix m (nu + nd) es)⟩

section

variable {m nu nd : Nat} {es : List (Nat × Nat × Int)}

theorem colOf_inj (hu : upBefore m = nu) {i j : Nat} (hi : i < m) (hj : j < m) (h : colOf nu i = colOf nu j) : i = j := by
  have key : ∀ {i j : Nat}, i < j → j < m → colOf nu i ≠ colOf nu j := by
    intro i j hij hj h
    have a1 : upBefore (i + 1) ≤ upBefore j := upBefore_mono hij
    have a2 : dnBefore (i + 1) ≤ dnBefore j := dnBefore_mono hij
    have a3 : upBefore (j + 1) ≤ upBefore m := upBefore_mono hj
    have a4 : upBefore (i + 1) ≤ upBefore m := upBefore_mono (by omega)
    rw [upBefore_succ] at a1 a3 a4
    rw [dnBefore_succ] at a2
    unfold colOf at h
    split_ifs at h a1 a2 a3 a4 <;> omega
  rcases lt_trichotomy i j with hij | hij | hij
  · exact absurd h (key hij hj)
  · exact hij
  · exact absurd h.symm (key hij hi)

theorem colOf_lt (hu : upBefore m = nu) (hd : dnBefore m = nd) {i : Nat} (hi : i < m) :
    colOf nu i < nu + nd ∧ (colOf nu i < nu ↔ isUp i = true) := by
  have a1 : upBefore (i + 1) ≤ upBefore m := upBefore_mono hi
  have a2 : dnBefore (i + 1) ≤ dnBefore m := dnBefore_mono hi
  rw [upBefore_succ] at a1
  rw [dnBefore_succ] at a2
  unfold colOf
  by_cases h : isUp i = true
  · simp only [h, if_true] at a1 a2 ⊢
    constructor
    · omega
    · simp; omega
  · simp only [h, if_false] at a1 a2 ⊢
    constructor
    · simp at a2 ⊢; omega
    · simp

/-- With as many electrons of each spin as there are sites of each kind the guess is built. -/
theorem checkerboard_some (hu : upBefore m = nu) (hd : dnBefore m = nd) : ∃ es, checkerboard m nu nd = some es :=
  ⟨_, by rw [checkerboard_spec, if_pos fun i hi => (colOf_lt hu hd hi).1]⟩

theorem colOf_surj (hu : upBefore m = nu) (hd : dnBefore m = nd) (a : Fin (nu + nd)) : ∃ i : Fin m, colOf nu i = a := by
  have hm : m = nu + nd := by have := upBefore_add m; omega
  have hinj : Function.Injective fun i : Fin m => (⟨colOf nu i, (colOf_lt hu hd i.2).1⟩ : Fin (nu + nd)) := by
    intro i j h
    exact Fin.ext (colOf_inj hu i.2 j.2 (Fin.mk.inj_iff.1 h))
  have hs := ((Fintype.bijective_iff_injective_and_card _).2 ⟨hinj, by simp [hm]⟩).2
  obtain ⟨i, hi⟩ := hs a
  exact ⟨i, congrArg Fin.val hi⟩

theorem cols_spec (hu : upBefore m = nu) (hd : dnBefore m = nd) (h : checkerboard m nu nd = some es) :
    (toMatrix m (nu + nd) es)ᴴ * toMatrix m (nu + nd) es = 1 := by
  ext a b
  rw [mul_apply]
  obtain ⟨i, hi⟩ := colOf_surj hu hd a
  rw [sum_eq_single i]
  · rw [conjTranspose_apply, matrix_spec h, matrix_spec h, if_pos hi, one_apply, hi]
    by_cases hab : a = b
    · subst hab
      rw [if_pos rfl, if_pos rfl]
      split_ifs <;> simp
    · rw [if_neg fun e => hab (Fin.ext e), mul_zero, if_neg hab]
  · intro j _ hj
    rw [conjTranspose_apply, matrix_spec h, if_neg, star_zero, zero_mul]
    intro e
    exact hj (Fin.ext (colOf_inj hu j.2 i.2 (e.trans hi.symm)))
  · simp

/-- The density matrices of the guess: one electron on each site, of a spin that depends on the kind of the site. -/
theorem checker_rho (hu : upBefore m = nu) (hd : dnBefore m = nd) (h : checkerboard m nu nd = some es) (i j : Fin m) :
    ((checkerOrbs m nu nd es).up * (checkerOrbs m nu nd es).upᴴ) i j = (if i = j ∧ isUp i = true then 1 else 0) ∧
      ((checkerOrbs m nu nd es).dn * (checkerOrbs m nu nd es).dnᴴ) i j = if i = j ∧ isUp i = false then 1 else 0 := by
  have hi := colOf_lt hu hd i.2
  have e : ∀ (a : Fin (nu + nd)), toMatrix m (nu + nd) es i a * star (toMatrix m (nu + nd) es j a) =
      if i = j ∧ colOf nu i = a then 1 else 0 := by
    intro a
    rw [matrix_spec h, matrix_spec h]
    by_cases h1 : colOf nu i = a
    · by_cases h2 : colOf nu j = a
      · have hij : i = j := Fin.ext (colOf_inj hu i.2 j.2 (h1.trans h2.symm))
        subst hij
        simp only [h1, if_true, and_self]
        split_ifs <;> simp
      · have hij : i ≠ j := by rintro rfl; exact h2 h1
        simp [h2, hij]
    · simp [h1]
  constructor
  · rw [mul_apply]
    simp only [conjTranspose_apply, checkerOrbs, Slater.up]
    by_cases hij : i = j
    · by_cases hs : isUp i = true
      · rw [if_pos ⟨hij, hs⟩, sum_eq_single ⟨colOf nu i, hi.2.2 hs⟩]
        · refine (e _).trans (if_pos ⟨hij, rfl⟩)
        · intro b _ hb
          refine (e _).trans (if_neg fun hh => hb (Fin.ext hh.2.symm))
        · simp
      · rw [if_neg fun hh => hs hh.2]
        refine sum_eq_zero fun b _ => (e _).trans (if_neg fun hh => hs (hi.2.1 ?_))
        rw [hh.2]; exact b.2
    · rw [if_neg fun hh => hij hh.1]
      exact sum_eq_zero fun b _ => (e _).trans (if_neg fun hh => hij hh.1)
  · rw [mul_apply]
    simp only [conjTranspose_apply, checkerOrbs, Slater.dn]
    by_cases hij : i = j
    · by_cases hs : isUp i = true
      · rw [if_neg fun hh => by rw [hs] at hh; exact absurd hh.2 (by decide)]
        refine sum_eq_zero fun b _ => (e _).trans (if_neg fun hh => ?_)
        have := hi.2.2 hs
        rw [hh.2] at this
        simp at this
      · have hge : nu ≤ colOf nu i := by
          by_contra hc
          exact hs (hi.2.1 (by omega))
        have hlt : colOf nu i - nu < nd := by have := hi.1; omega
        rw [if_pos ⟨hij, by simpa using hs⟩, sum_eq_single ⟨colOf nu i - nu, hlt⟩]
        · refine (e _).trans (if_pos ⟨hij, ?_⟩)
          simp; omega
        · intro b _ hb
          refine (e _).trans (if_neg fun hh => hb (Fin.ext ?_))
          have := hh.2
          simp at this ⊢
          omega
        · simp
    · rw [if_neg fun hh => hij hh.1]
      exact sum_eq_zero fun b _ => (e _).trans (if_neg fun hh => hij hh.1)

/-- **C107**: the checkerboard guess, with as many electrons of each spin as there are sites of each kind: orthonormal
orbitals, one electron on each site, no double occupancy; the energy is that of electrons that do not hop. -/
theorem checkerboard_trial (hu : upBefore m = nu) (hd : dnBefore m = nd) (h : checkerboard m nu nd = some es)
    (T : Fin 2 → Matrix (Fin m) (Fin m) ℂ) (U : ℝ) :
    Orth (checkerOrbs m nu nd es) ∧
      (∀ i, density (checkerOrbs m nu nd es).up i = if isUp i then 1 else 0) ∧
      (∀ i, density (checkerOrbs m nu nd es).dn i = if isUp i then 0 else 1) ∧
      hf T U (checkerOrbs m nu nd es) = ∑ i : Fin m, if isUp i then (T 0 i i).re else (T 1 i i).re := by
  have hc := cols_spec hu hd h
  have ho : Orth (checkerOrbs m nu nd es) := by
    constructor
    · ext a b
      have := congrFun (congrFun hc (Fin.castAdd nd a)) (Fin.castAdd nd b)
      rw [one_apply] at this ⊢
      simp only [Fin.castAdd_inj] at this
      exact this
    · ext a b
      have := congrFun (congrFun hc (Fin.natAdd nu a)) (Fin.natAdd nu b)
      rw [one_apply] at this ⊢
      simp only [Fin.natAdd_inj] at this
      exact this
  have d1 : ∀ i, density (checkerOrbs m nu nd es).up i = if isUp i then 1 else 0 := by
    intro i
    have := density_diag (checkerOrbs m nu nd es).up i
    rw [(checker_rho hu hd h i i).1] at this
    apply Complex.ofReal_injective
    rw [← this]
    by_cases hs : isUp i = true <;> simp [hs]
  have d2 : ∀ i, density (checkerOrbs m nu nd es).dn i = if isUp i then 0 else 1 := by
    intro i
    have := density_diag (checkerOrbs m nu nd es).dn i
    rw [(checker_rho hu hd h i i).2] at this
    apply Complex.ofReal_injective
    rw [← this]
    by_cases hs : isUp i = true <;> simp [hs]
  refine ⟨ho, d1, d2, ?_⟩
  have k : ∀ {k : Nat} (T : Matrix (Fin m) (Fin m) ℂ) (A : Matrix (Fin m) (Fin k) ℂ) (p : Fin m → Prop) [DecidablePred p],
      (∀ i j, (A * Aᴴ) i j = if i = j ∧ p i then 1 else 0) → kin T A = ∑ i, if p i then (T i i).re else 0 := by
    intro k T A p _ hA
    rw [kin, Matrix.mul_assoc, trace_mul_comm, Matrix.mul_assoc, trace, Complex.re_sum]
    refine sum_congr rfl fun i _ => ?_
    rw [diag_apply, mul_apply, sum_eq_single i]
    · rw [hA]
      by_cases hp : p i <;> simp [hp]
    · intro j _ hj
      rw [hA, if_neg fun hh => hj hh.1, mul_zero]
    · simp
  have h0 : ∑ i, density (checkerOrbs m nu nd es).up i * density (checkerOrbs m nu nd es).dn i = 0 :=
    sum_eq_zero fun i _ => by
      rw [d1, d2]
      by_cases hs : isUp i = true <;> simp [hs]
  rw [hf, k (T 0) _ (fun i => isUp i = true) fun i j => (checker_rho hu hd h i j).1,
    k (T 1) _ (fun i => isUp i = false) fun i j => (checker_rho hu hd h i j).2, h0, mul_zero, add_zero, ← sum_add_distrib]
  refine sum_congr rfl fun i _ => ?_
  by_cases hs : isUp i = true <;> simp [hs]

end

/-! ## Lattices of width four -/

theorem isUp_encode {x y : Nat} (hx : x < 4) : isUp (Lattice.encode x y 4) = decide ((x + y) % 2 = 0) := by
  have h1 : (x + y * 4) % 4 = x := by omega
  have h2 : (x + y * 4) / 4 = y := by omega
  simp only [isUp, Lattice.encode, Lattice.decode, show (4 : Nat) ≠ 1 by decide, if_false, h1, h2]
  simp only [List.getD_cons_zero, List.getD_cons_succ]
  rw [decide_eq_decide]
  omega

theorem count_four (ny : Nat) : upBefore (4 * ny) = 2 * ny ∧ dnBefore (4 * ny) = 2 * ny := by
  have h : upBefore (4 * ny) = 2 * ny := by
    induction ny with
    | zero => rfl
    | succ n ih =>
      have e : ∀ x < 4, isUp (4 * n + x) = decide ((x + n) % 2 = 0) := fun x hx => by
        rw [← isUp_encode hx, Lattice.encode]; congr 1; omega
      rw [show 4 * (n + 1) = 4 * n + 3 + 1 by ring, upBefore_succ, upBefore_succ, upBefore_succ, upBefore_succ, ih,
        e 3 (by omega), e 2 (by omega), e 1 (by omega)]
      have e0 := e 0 (by omega)
      rw [Nat.add_zero] at e0
      rw [e0]
      simp only [decide_eq_true_eq]
      split_ifs <;> omega
  exact ⟨h, by have := upBefore_add (4 * ny); omega⟩

/-- **C107**: on a lattice of width four at half filling the checkerboard is the antiferromagnetic state: it is built,
orbitals are orthonormal, each site has one electron, and sites next to each other in a row or column, also around a row,
have electrons of opposite spin. -/
theorem checkerboard_four_partial (ny : Nat) : ∃ es, checkerboard (4 * ny) (2 * ny) (2 * ny) = some es ∧
    Orth (checkerOrbs (4 * ny) (2 * ny) (2 * ny) es) ∧
    (∀ i, density (checkerOrbs (4 * ny) (2 * ny) (2 * ny) es).up i + density (checkerOrbs (4 * ny) (2 * ny) (2 * ny) es).dn i = 1) ∧
    ∀ i j : Fin (4 * ny), ∀ x y : Nat, x < 4 → (i : Nat) = Lattice.encode x y 4 →
      ((j : Nat) = Lattice.encode ((x + 1) % 4) y 4 ∨ (j : Nat) = Lattice.encode x (y + 1) 4) →
      density (checkerOrbs (4 * ny) (2 * ny) (2 * ny) es).up i = density (checkerOrbs (4 * ny) (2 * ny) (2 * ny) es).dn j ∧
      density (checkerOrbs (4 * ny) (2 * ny) (2 * ny) es).up i = (if (x + y) % 2 = 0 then 1 else 0) := by
  obtain ⟨hu, hd⟩ := count_four ny
  obtain ⟨es, hes⟩ := checkerboard_some hu hd
  obtain ⟨ho, d1, d2, -⟩ := checkerboard_trial hu hd hes (fun _ => 0) 0
  refine ⟨es, hes, ho, fun i => ?_, fun i j x y hx hi hj => ?_⟩
  · rw [d1, d2]; split_ifs <;> norm_num
  · have h1 : isUp i = decide ((x + y) % 2 = 0) := by rw [hi, isUp_encode hx]
    have h2 : isUp j = !isUp i := by
      rw [h1]
      rcases hj with hj | hj
      · rw [hj, isUp_encode (by omega)]
        by_cases h : (x + y) % 2 = 0
        · simp [h]; omega
        · simp [h]; omega
      · rw [hj, isUp_encode hx]
        by_cases h : (x + y) % 2 = 0
        · simp [h]; omega
        · simp [h]; omega
    rw [d1, d2, h2, h1]
    by_cases h : (x + y) % 2 = 0 <;> simp [h]

/-! ## Other lattices -/

/-- **C107 fails** for any other width: two neighbouring sites get electrons of the same spin. -/
theorem checkerboard_width_wrong (nx ny : Nat) (hx : 2 ≤ nx) (h4 : nx ≠ 4) (hy : 2 ≤ ny ∨ 5 ≤ nx) (hy1 : 1 ≤ ny) :
    ∃ x y x' y', x < nx ∧ x' < nx ∧ y < ny ∧ y' < ny ∧ (x' = x + 1 ∧ y' = y ∨ x' = x ∧ y' = y + 1) ∧
      isUp (Lattice.encode x y nx) = isUp (Lattice.encode x' y' nx) := by
  by_cases h5 : 5 ≤ nx
  · exact ⟨3, 0, 4, 0, by omega, by omega, by omega, by omega, Or.inl ⟨rfl, rfl⟩, by simp [Lattice.encode]; decide⟩
  · obtain rfl | rfl : nx = 2 ∨ nx = 3 := by omega
    · exact ⟨0, 0, 0, 1, by omega, by omega, by omega, by omega, Or.inr ⟨rfl, rfl⟩, by decide⟩
    · exact ⟨1, 0, 1, 1, by omega, by omega, by omega, by omega, Or.inr ⟨rfl, rfl⟩, by decide⟩

/-- **C107 fails** below half filling: with fewer electrons of the second spin than sites of the second kind the guess is an
index error. -/
theorem checkerboard_filling_wrong (m nu nd : Nat) (h : nd < dnBefore m) : checkerboard m nu nd = none := by
  rw [checkerboard_spec, if_neg]
  intro hc
  have : ∃ i < m, isUp i = false ∧ dnBefore i = nd := by
    clear hc
    induction m with
    | zero => simp [dnBefore] at h
    | succ k ih =>
      rw [dnBefore_succ] at h
      by_cases hk : nd < dnBefore k
      · obtain ⟨i, hi, h1, h2⟩ := ih hk
        exact ⟨i, by omega, h1, h2⟩
      · split_ifs at h with hs
        · omega
        · exact ⟨k, by omega, by simpa using hs, by omega⟩
  obtain ⟨i, hi, h1, h2⟩ := this
  have := hc i hi
  rw [colOf, h1] at this
  simp at this
  omega

/-- On a lattice of width four that is fewer than half of the sites. -/
theorem checkerboard_doped (ny nu nd : Nat) (h : nd < 2 * ny) : checkerboard (4 * ny) nu nd = none :=
  checkerboard_filling_wrong _ _ _ (by rw [(count_four ny).2]; exact h)

end Verif.Uhf
