import Verif.Fft.Props

/-!
# Where the momentum-space step differs from the one-body step (C108)
-/

namespace Verif.Fft

open Matrix Finset

variable {nx ny nu nd : Nat}

/-- Numbers for each momentum fit any number of electrons. -/
theorem vec_fits (nx ny k : Nat) : fits [nx * ny] nx ny k = true := by
  have h : broadcast [nx * ny] [k, nx * ny] = some [k, nx * ny] := by
    simp only [broadcast, List.length_cons, List.length_nil]
    simp
    by_cases h : 1 = k <;> simp [h]
  rw [fits, h]
  simp [mul_comm]

/-- A matrix for each spin fits no number of electrons. -/
theorem mats_unfit (k : Nat) (h : 2 ≤ nx * ny) : fits [2, nx * ny, nx * ny] nx ny k = false := by
  by_cases hk : nx * ny = k
  · have : broadcast [2, nx * ny, nx * ny] [k, nx * ny] = some [2, nx * ny, nx * ny] := by
      rw [← hk]; simp [broadcast]
    rw [fits, this]
    simp only [List.prod_cons, List.prod_nil, mul_one, decide_eq_false_iff_not]
    rw [← hk]
    generalize nx * ny = n at *
    intro e
    have : 0 < n * n := Nat.mul_pos (by omega) (by omega)
    omega
  · by_cases h1 : k = 1
    · have : broadcast [2, nx * ny, nx * ny] [k, nx * ny] = some [2, nx * ny, nx * ny] := by
        subst h1
        simp [broadcast, hk, show nx * ny ≠ 1 by omega]
      rw [fits, this]
      simp only [List.prod_cons, List.prod_nil, mul_one, decide_eq_false_iff_not]
      subst h1
      generalize nx * ny = n at *
      intro e
      have : n * 2 ≤ n * n := Nat.mul_le_mul_left _ h
      omega
    · have : broadcast [2, nx * ny, nx * ny] [k, nx * ny] = none := by
        simp [broadcast, hk, h1, show nx * ny ≠ 1 by omega]
      rw [fits, this]

/-- With numbers for each momentum every column goes through the transforms. -/
theorem kspace_vec (b : Fin (nx * ny) → ℂ) (phi : Slater.Wfn (nx * ny) nu nd) :
    kspace nx ny (.vec b) phi = some (Matrix.of fun i a => column nx ny b (fun j => phi j a) i) := by
  rw [kspace, if_pos ⟨vec_fits nx ny nu, vec_fits nx ny nd⟩]

/-- **C108**: with the option every one-body step of a lattice of two sites or more raises an exception. -/
theorem ffts_raises (dt : ℝ) (T : Fin 2 → Matrix (Fin (nx * ny)) (Fin (nx * ny)) ℂ) (phi : Slater.Wfn (nx * ny) nu nd) (h : 2 ≤ nx * ny) :
    kineticCall true dt T phi = none := by
  rw [kineticCall, if_pos rfl, kspace, if_neg]
  rw [Arg.shape, mats_unfit _ h]
  simp

theorem join_col {A : Matrix (Fin (nx * ny)) (Fin nu) ℂ} {B : Matrix (Fin (nx * ny)) (Fin nd) ℂ} (i : Fin (nx * ny)) :
    (∀ a, Slater.join A B i (Fin.castAdd nd a) = A i a) ∧ ∀ b, Slater.join A B i (Fin.natAdd nu b) = B i b :=
  ⟨fun a => congrFun (congrFun (Slater.up_join A B) i) a, fun b => congrFun (congrFun (Slater.dn_join A B) i) b⟩

/-- **C108**: with the factors for the momenta passed in their place, the step of a square lattice, periodic and without a
twist, is the step of the default. -/
theorem kspace_square (n : Nat) (hn : 2 ≤ n) (dt t : ℝ) (phi : Slater.Wfn (n * n) nu nd) :
    kspace n n (.vec (btk dt t n n)) phi = kineticCall false dt (fun _ => Lattice.kinetic t n n none true true) phi := by
  rw [kspace_vec, kineticCall, if_neg (by simp), Hirsch.kineticReal]
  congr 1
  ext i a
  rw [of_apply, column_lattice dt t hn hn]
  refine Fin.addCases (fun a => ?_) (fun a => ?_) a
  · rw [(join_col i).1]; rfl
  · rw [(join_col i).2]; rfl

/-- **C108**: it is the step of the default only for the periodic lattice without a twist and with rows of `ny` sites. -/
theorem kspace_iff (dt t : ℝ) (hdt : dt ≠ 0) (hx : 2 ≤ nx) (hy : 2 ≤ ny) (T : Fin 2 → Matrix (Fin (nx * ny)) (Fin (nx * ny)) ℂ)
    (hT : ∀ s, (T s).IsHermitian) :
    (∀ phi : Slater.Wfn (nx * ny) nu nd, kspace nx ny (.vec (btk dt t nx ny)) phi = kineticCall false dt T phi) ↔
      (1 ≤ nu → T 0 = Lattice.kinetic t ny nx none true true) ∧ (1 ≤ nd → T 1 = Lattice.kinetic t ny nx none true true) := by
  constructor
  · intro h
    refine ⟨fun hu => ?_, fun hd => ?_⟩
    · rw [← column_iff dt t hdt hy hx (hT 0)]
      intro v
      have h1 := h (Matrix.of fun i _ => v i)
      rw [kspace_vec, kineticCall, if_neg (by simp), Hirsch.kineticReal] at h1
      funext i
      have h2 := congrFun (congrFun (Option.some.inj h1) i) (Fin.castAdd nd ⟨0, hu⟩)
      rw [(join_col i).1] at h2
      exact h2
    · rw [← column_iff dt t hdt hy hx (hT 1)]
      intro v
      have h1 := h (Matrix.of fun i _ => v i)
      rw [kspace_vec, kineticCall, if_neg (by simp), Hirsch.kineticReal] at h1
      funext i
      have h2 := congrFun (congrFun (Option.some.inj h1) i) (Fin.natAdd nu ⟨0, hd⟩)
      rw [(join_col i).2] at h2
      exact h2
  · intro h phi
    rw [kspace_vec, kineticCall, if_neg (by simp), Hirsch.kineticReal]
    congr 1
    ext i a
    rw [of_apply]
    refine Fin.addCases (fun a => ?_) (fun a => ?_) a
    · rw [(join_col i).1, (column_iff dt t hdt hy hx (hT 0)).2 (h.1 (by have := a.2; omega))]; rfl
    · rw [(join_col i).2, (column_iff dt t hdt hy hx (hT 1)).2 (h.2 (by have := a.2; omega))]; rfl

/-- The hopping of the lattice the code simulates, with the sites counted in the same type. -/
noncomputable def hop (t : ℝ) (nx ny : Nat) (ks : Option (List ℝ)) (xpbc ypbc : Bool) : Matrix (Fin (nx * ny)) (Fin (nx * ny)) ℂ :=
  (Lattice.kinetic t nx ny ks xpbc ypbc).submatrix (Fin.cast (mul_comm _ _)) (Fin.cast (mul_comm _ _))

theorem hop_hermitian (t : ℝ) (nx ny : Nat) (ks : Option (List ℝ)) (xpbc ypbc : Bool) : (hop t nx ny ks xpbc ypbc).IsHermitian :=
  (Lattice.kinetic_hermitian t nx ny ks xpbc ypbc).submatrix _

theorem entry_long {a b : Nat} (t : ℝ) (hb : 2 ≤ b) (hab : b < a) (h0 : 0 < b * a) (h1 : a < b * a) :
    Lattice.kinetic t a b none true true ⟨0, h0⟩ ⟨a, h1⟩ = if b = 2 then -2 * (t : ℂ) else -(t : ℂ) := by
  have e0 : (⟨0, h0⟩ : Fin (b * a)) = Lattice.site ⟨0, by omega⟩ ⟨0, by omega⟩ := Fin.ext (by simp [Lattice.site_val, Lattice.encode])
  have e1 : (⟨a, h1⟩ : Fin (b * a)) = Lattice.site ⟨0, by omega⟩ ⟨1, by omega⟩ := Fin.ext (by simp [Lattice.site_val, Lattice.encode])
  rw [e0, e1, Lattice.kinetic_rect t a b (by omega) hb]
  by_cases h2 : b = 2
  · simp [Lattice.ring1, Lattice.bphase, Lattice.phase, h2]
    ring
  · simp [Lattice.ring1, Lattice.bphase, Lattice.phase, h2, show ¬ 2 = b by omega]

theorem entry_short {a b : Nat} (t : ℝ) (hb : 2 ≤ b) (hab : b < a) (h0 : 0 < a * b) (h1 : a < a * b) :
    Lattice.kinetic t b a none true true ⟨0, h0⟩ ⟨a, h1⟩ = 0 := by
  have hd : 1 ≤ a / b := Nat.div_pos hab.le (by omega)
  have hl : a / b < a := Nat.div_lt_self (by omega) (by omega)
  have e0 : (⟨0, h0⟩ : Fin (a * b)) = Lattice.site ⟨0, by omega⟩ ⟨0, by omega⟩ := Fin.ext (by simp [Lattice.site_val, Lattice.encode])
  have e1 : (⟨a, h1⟩ : Fin (a * b)) = Lattice.site ⟨a % b, Nat.mod_lt _ (by omega)⟩ ⟨a / b, hl⟩ :=
    Fin.ext (by simp [Lattice.site_val, Lattice.encode, Nat.mod_add_div'])
  rw [e0, e1, Lattice.kinetic_rect t b a hb (by omega)]
  have hm := Nat.mod_add_div a b
  rw [if_neg (by simp only [Fin.mk.injEq]; omega)]
  by_cases h : 0 = a % b
  · rw [← h, zero_add] at hm
    have h3 : a / b ≠ 1 := by intro e; rw [e] at hm; omega
    have h4 : a / b + 1 ≠ a := by
      intro e
      have : 2 * (a / b) ≤ b * (a / b) := Nat.mul_le_mul_right _ hb
      omega
    simp [Lattice.ring1, h3, h4, show ¬ a / b = 0 by omega]
  · rw [if_neg (by simpa using h)]
    simp

/-- The hopping of a rectangle is not that of the rectangle on its side. -/
theorem hop_rect (t : ℝ) (ht : t ≠ 0) (hx : 2 ≤ nx) (hy : 2 ≤ ny) (h : nx ≠ ny) :
    hop t nx ny none true true ≠ Lattice.kinetic t ny nx none true true := by
  have hne : ∀ b : Nat, (if b = 2 then (-2 * t : ℂ) else -t) ≠ 0 := by
    intro b
    have : (t : ℂ) ≠ 0 := by exact_mod_cast ht
    split_ifs
    · exact mul_ne_zero (by norm_num) this
    · exact neg_ne_zero.2 this
  intro e
  rcases Nat.lt_or_gt_of_ne h with h | h
  · have h1 : ny < nx * ny := by nlinarith
    have h0 : 0 < nx * ny := by omega
    have e1 := congrFun (congrFun e ⟨0, h0⟩) ⟨ny, h1⟩
    rw [entry_long t hx h h0 h1, hop, submatrix_apply] at e1
    exact hne _ (e1.symm.trans (entry_short t hx h (by rw [mul_comm]; exact h0) (by rw [mul_comm]; exact h1)))
  · have h1 : nx < nx * ny := by nlinarith
    have h0 : 0 < nx * ny := by omega
    have e1 := congrFun (congrFun e ⟨0, h0⟩) ⟨nx, h1⟩
    rw [entry_short t hy h h0 h1, hop, submatrix_apply] at e1
    exact hne _ ((entry_long t hy h (by rw [mul_comm]; exact h0) (by rw [mul_comm]; exact h1)).symm.trans e1)

/-- **C108**: for a rectangle that is not a square the step in momentum space is wrong for some orbitals, even with the
factors for the momenta. -/
theorem kspace_rect_wrong (dt t : ℝ) (hdt : dt ≠ 0) (ht : t ≠ 0) (hx : 2 ≤ nx) (hy : 2 ≤ ny) (h : nx ≠ ny) (he : 1 ≤ nu + nd) :
    ∃ phi : Slater.Wfn (nx * ny) nu nd, kspace nx ny (.vec (btk dt t nx ny)) phi ≠
      kineticCall false dt (fun _ => hop t nx ny none true true) phi := by
  by_contra hc
  push Not at hc
  have := (kspace_iff dt t hdt hx hy _ fun _ => hop_hermitian t nx ny none true true).1 hc
  rcases Nat.eq_zero_or_pos nu with h0 | h0
  · exact hop_rect t ht hx hy h (this.2 (by omega))
  · exact hop_rect t ht hx hy h (this.1 h0)

/-- A twist, or an open boundary, changes the hopping. -/
theorem kinetic_twist (n : Nat) (hn : 3 ≤ n) (t : ℝ) (ht : t ≠ 0) (ks : Option (List ℝ)) (xpbc ypbc : Bool) :
    Lattice.kinetic t n n ks xpbc ypbc = Lattice.kinetic t n n none true true ↔
      Lattice.bphase ks 0 xpbc = 1 ∧ Lattice.bphase ks 1 ypbc = 1 := by
  have ht' : (t : ℂ) ≠ 0 := by exact_mod_cast ht
  have b1 : ∀ d, Lattice.bphase none d true = 1 := fun d => by simp [Lattice.bphase, Lattice.phase]
  constructor
  · intro h
    refine ⟨?_, ?_⟩
    · have e := congrFun (congrFun h (Lattice.site ⟨0, by omega⟩ ⟨0, by omega⟩)) (Lattice.site ⟨n - 1, by omega⟩ ⟨0, by omega⟩)
      rw [Lattice.kinetic_rect t n n (by omega) (by omega), Lattice.kinetic_rect t n n (by omega) (by omega)] at e
      simpa [Lattice.ring1, b1, ht', show ¬ n - 1 = 1 by omega, show n - 1 + 1 = n by omega, show ¬ n - 1 = 0 by omega,
        show ¬ 0 = n - 1 by omega] using e
    · have e := congrFun (congrFun h (Lattice.site ⟨0, by omega⟩ ⟨0, by omega⟩)) (Lattice.site ⟨0, by omega⟩ ⟨n - 1, by omega⟩)
      rw [Lattice.kinetic_rect t n n (by omega) (by omega), Lattice.kinetic_rect t n n (by omega) (by omega)] at e
      simpa [Lattice.ring1, b1, ht', show ¬ n - 1 = 1 by omega, show n - 1 + 1 = n by omega, show ¬ n - 1 = 0 by omega,
        show ¬ 0 = n - 1 by omega] using e
  · rintro ⟨h1, h2⟩
    ext i j
    obtain ⟨⟨y, x⟩, rfl⟩ := finProdFinEquiv.surjective i
    obtain ⟨⟨y', x'⟩, rfl⟩ := finProdFinEquiv.surjective j
    have := Lattice.kinetic_rect t n n (by omega) (by omega) ks xpbc ypbc x x' y y'
    have h' := Lattice.kinetic_rect t n n (by omega) (by omega) none true true x x' y y'
    rw [h1, h2] at this
    rw [b1, b1] at h'
    exact this.trans h'.symm

/-- **C108**: for a square the step in momentum space is wrong for some orbitals as soon as a boundary is open or has a
phase. -/
theorem kspace_twist_wrong (n : Nat) (hn : 3 ≤ n) (dt t : ℝ) (hdt : dt ≠ 0) (ht : t ≠ 0) (ks : Option (List ℝ)) (xpbc ypbc : Bool)
    (h : Lattice.bphase ks 0 xpbc ≠ 1 ∨ Lattice.bphase ks 1 ypbc ≠ 1) (he : 1 ≤ nu + nd) :
    ∃ phi : Slater.Wfn (n * n) nu nd, kspace n n (.vec (btk dt t n n)) phi ≠
      kineticCall false dt (fun _ => Lattice.kinetic t n n ks xpbc ypbc) phi := by
  by_contra hc
  push Not at hc
  have h1 := (kspace_iff dt t hdt (by omega) (by omega) _ fun _ => Lattice.kinetic_hermitian t n n ks xpbc ypbc).1 hc
  have h2 : Lattice.kinetic t n n ks xpbc ypbc = Lattice.kinetic t n n none true true := by
    rcases Nat.eq_zero_or_pos nu with h0 | h0
    · exact h1.2 (by omega)
    · exact h1.1 h0
  have h3 := (kinetic_twist n hn t ht ks xpbc ypbc).1 h2
  rcases h with h | h
  · exact h h3.1
  · exact h h3.2

end Verif.Fft
