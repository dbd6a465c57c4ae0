import Verif.Uhf.Props
import Verif.Lattice.Props
import Mathlib.Analysis.Matrix.Spectrum

/-!
# The UHF trial: existence, and where it goes wrong (C107)
-/

namespace Verif.Uhf

open Matrix Finset

/-! ## An eigensolver -/

/-- There is an eigensolver as `diagonalise_sorted` is meant to be. -/
theorem eigh_exists (m : Nat) : ∃ eig : Eig m, Eigh eig := by
  classical
  have h : ∀ H : Matrix (Fin m) (Fin m) ℂ, ∃ r : (Fin m → ℝ) × Matrix (Fin m) (Fin m) ℂ, H.IsHermitian →
      Monotone r.1 ∧ r.2ᴴ * r.2 = 1 ∧ H * r.2 = r.2 * diagonal fun a => (r.1 a : ℂ) := by
    intro H
    by_cases hH : H.IsHermitian
    · let σ := Tuple.sort hH.eigenvalues
      let V : Matrix (Fin m) (Fin m) ℂ := (hH.eigenvectorUnitary : Matrix (Fin m) (Fin m) ℂ).submatrix id σ
      have hV : (hH.eigenvectorUnitary : Matrix (Fin m) (Fin m) ℂ)ᴴ * (hH.eigenvectorUnitary : Matrix (Fin m) (Fin m) ℂ) = 1 := by
        rw [← star_eq_conjTranspose]; exact Unitary.coe_star_mul_self hH.eigenvectorUnitary
      refine ⟨(hH.eigenvalues ∘ σ, V), fun _ => ⟨Tuple.monotone_sort hH.eigenvalues, ?_, ?_⟩⟩
      · ext a b
        have := congrFun (congrFun hV (σ a)) (σ b)
        rw [one_apply] at this ⊢
        simp only [σ.injective.eq_iff] at this
        exact this
      · ext i a
        rw [mul_diagonal, mul_apply]
        have := congrFun (hH.mulVec_eigenvectorBasis (σ a)) i
        simp only [mulVec, dotProduct, Pi.smul_apply] at this
        rw [show ∑ j, H i j * V j a = ∑ j, H i j * (hH.eigenvectorBasis (σ a)).ofLp j from rfl, this]
        simp only [Function.comp_apply, V, submatrix_apply, id]
        rw [Complex.real_smul, mul_comm]
        rfl
    · exact ⟨(fun _ => 0, 0), fun h => absurd h hH⟩
  choose eig heig using h
  exact ⟨eig, heig⟩

/-! ## Two sites without hopping -/

/-- An orbital on one site. -/
def siteOrb (i : Fin 2) : Matrix (Fin 2) (Fin 1) ℂ := Matrix.of fun a _ => if a = i then 1 else 0

theorem siteOrb_orth (i : Fin 2) : (siteOrb i)ᴴ * siteOrb i = 1 := by
  ext a b
  rw [mul_apply, Subsingleton.elim a b, one_apply_eq]
  simp [siteOrb]

theorem siteOrb_density (i a : Fin 2) : density (siteOrb i) a = if a = i then 1 else 0 := by
  simp only [density, siteOrb, of_apply, univ_unique, sum_singleton]
  split_ifs <;> simp

/-- The lowest orbital of a diagonal Hamiltonian with two sites is on the lower one. -/
theorem low_site {eig : Eig 2} (hE : Eigh eig) (d : Fin 2 → ℝ) (i j : Fin 2) (hij : i ≠ j) (h : d i < d j) {H : Matrix (Fin 2) (Fin 2) ℂ}
    (hd : H = diagonal fun a => (d a : ℂ)) (hk : 1 ≤ 2) :
    density (cols hk (eig H).2) i = 1 ∧ density (cols hk (eig H).2) j = 0 ∧ (eig H).1 0 = d i := by
  have hH : H.IsHermitian := by
    rw [hd, IsHermitian, diagonal_conjTranspose]; congr 1; funext a; simp
  have ho := cols_orth hE hk hH
  have hs := density_sum _ ho
  have hl := aufbau hE hk hH (siteOrb i) (siteOrb_orth i)
  have hkc := kin_cols hE hk hH
  rw [show kin H (siteOrb i) = d i by rw [hd, kin_diagonal]; simp [siteOrb_density]] at hl
  have e1 : kin H (cols hk (eig H).2) = ∑ a, d a * density (cols hk (eig H).2) a := by
    conv_lhs => rw [hd]
    rw [kin_diagonal, ← hd]
  generalize hw : density (cols hk (eig H).2) = w at *
  have hn : 0 ≤ w j := by rw [← hw]; exact density_nonneg _ _
  have two : ∀ f : Fin 2 → ℝ, ∑ a, f a = f i + f j := by
    intro f
    fin_cases i <;> fin_cases j <;> simp_all [Fin.sum_univ_two, add_comm]
  rw [e1, two] at hl
  rw [two] at hs
  have hj : w j = 0 := by
    push_cast at hs
    have : (d j - d i) * w j ≤ 0 := by
      have e : w i = 1 - w j := by linarith
      rw [e] at hl
      linarith
    have h2 : w j ≤ 0 := nonpos_of_mul_nonpos_right this (sub_pos.2 h)
    exact le_antisymm h2 hn
  have hi : w i = 1 := by rw [hj] at hs; push_cast at hs; linarith
  refine ⟨hi, hj, ?_⟩
  rw [e1, two, hi, hj] at hkc
  simp only [univ_unique, sum_singleton] at hkc
  have : Fin.castLE hk default = (0 : Fin 2) := rfl
  rw [this] at hkc
  linarith

theorem scf_stop {m nu nd : Nat} {I : Inp m nu nd} {eig : Eig m} (k : Nat) {s : Snap m nu nd} {eold : ℝ} {old : Dens m}
    (h : Consistent I.deps (energy I I.ueff (diagonalise I eig s.dens)) eold (densities (diagonalise I eig s.dens)) old) :
    scf I eig (k + 1) s eold old = ⟨true, energy I I.ueff (diagonalise I eig s.dens),
      ⟨diagonalise I eig s.dens, eigs I eig s.dens, densities (diagonalise I eig s.dens)⟩,
      ⟨diagonalise I eig s.dens, eigs I eig s.dens, densities (diagonalise I eig s.dens)⟩⟩ := if_pos h

theorem scf_go {m nu nd : Nat} {I : Inp m nu nd} {eig : Eig m} (k : Nat) {s : Snap m nu nd} {eold : ℝ} {old : Dens m}
    (h : ¬Consistent I.deps (energy I I.ueff (diagonalise I eig s.dens)) eold (densities (diagonalise I eig s.dens)) old) :
    scf I eig (k + 1) s eold old = scf I eig k ⟨diagonalise I eig s.dens, eigs I eig s.dens,
      mix I.alpha (densities (diagonalise I eig s.dens)) old⟩ (energy I I.ueff (diagonalise I eig s.dens))
      (densities (diagonalise I eig s.dens)) := if_neg h

/-- Two sites without hopping, one electron of each spin, interaction one. -/
noncomputable def pair (alpha deps : ℝ) (nconv : Nat) : Inp 2 1 1 where
  T := fun _ => 0
  U := 1
  symmetric := false
  ueff := 1
  deps := deps
  alpha := alpha
  nconv := nconv
  hu := by omega
  hd := by omega

/-- Random numbers, each in `[0, 1)`, that start both electrons on the first site. -/
noncomputable def start : Random 2 := fun _ => diagonal ![0, 1 / 2]

/-- This is the lattice of two sites with hopping zero. -/
theorem pair_lattice (alpha deps : ℝ) (nconv : Nat) (s : Fin 2) (ks : Option (List ℝ)) (xpbc ypbc : Bool) :
    (pair alpha deps nconv).T s = (Lattice.kinetic 0 2 1 ks xpbc ypbc : Matrix (Fin (1 * 2)) (Fin (1 * 2)) ℂ) := by
  ext i j
  rw [Lattice.kinetic_chain 0 2 le_rfl]
  simp [pair]

/-- **C107 fails** with mixing: the density that is compared with the new one is not the density that the orbitals were
made from.  Both electrons end on the same site, with an energy of one, and the solution is accepted, although the
energy is zero when either electron is moved to the other site. -/
theorem not_self_consistent {eig : Eig 2} (hE : Eigh eig) (alpha deps : ℝ) (ha : 1 / 2 < alpha) (hd : 0 < deps) (hd1 : deps ≤ 1)
    (n k : Nat) : ∃ o etrial, build (pair alpha deps (n + 2)) eig (List.replicate (k + 1) start) = some (o, 1, etrial) ∧
      densities o = ![![0, 1], ![0, 1]] ∧
      ∃ A : Matrix (Fin 2) (Fin 1) ℂ, Aᴴ * A = 1 ∧ hf (pair alpha deps (n + 2)).T 1 ⟨A, o.dn⟩ = 0 := by
  set I := pair alpha deps (n + 2) with hI
  have hT : ∀ s, (I.T s).IsHermitian := fun s => by rw [hI]; exact isHermitian_zero
  -- the start
  have hsym : symm (start 0) = diagonal fun a => ((![0, 1 / 2] : Fin 2 → ℝ) a : ℂ) := by
    ext i j
    fin_cases i <;> fin_cases j <;> simp [symm, start, map_apply] <;> norm_num
  obtain ⟨s0, s1, se⟩ := low_site hE ![0, 1 / 2] 0 1 (by decide) (by simp) hsym (by omega)
  have ds : densities (initialise I eig start).1 = ![![1, 0], ![1, 0]] := by
    funext s i
    fin_cases s <;> fin_cases i <;> first | exact s0 | exact s1
  have es : (initialise I eig start).2 = 0 := by
    show ∑ a : Fin 1, (eig (symm (start 0))).1 (Fin.castLE I.hu a) + ∑ a : Fin 1, (eig (symm (start 0))).1 (Fin.castLE I.hd a) = 0
    have c : ∀ h : 1 ≤ 2, Fin.castLE h (default : Fin 1) = (0 : Fin 2) := fun _ => rfl
    simp only [univ_unique, sum_singleton, c, se]
    simp
  -- a density that is larger on the first site sends both electrons to the second
  have step : ∀ v : Dens 2, (∀ s, v s 1 < v s 0) → densities (diagonalise I eig v) = ![![0, 1], ![0, 1]] ∧
      energy I I.ueff (diagonalise I eig v) = 1 := by
    intro v hv
    have hm : ∀ s t, meanField (I.T s) I.ueff (v t) = diagonal fun a => (v t a : ℂ) := by
      intro s t
      rw [meanField, hI]
      simp [pair]
    obtain ⟨a0, a1, -⟩ := low_site hE (v 1) 1 0 (by decide) (hv 1) (hm 0 1) (by omega)
    obtain ⟨b0, b1, -⟩ := low_site hE (v 0) 1 0 (by decide) (hv 0) (hm 1 0) (by omega)
    have e : densities (diagonalise I eig v) = ![![0, 1], ![0, 1]] := by
      funext s i
      fin_cases s <;> fin_cases i
      · exact a1
      · exact a0
      · exact b1
      · exact b0
    refine ⟨e, ?_⟩
    rw [energy_eq I _ (diagonalise_orth hE hT v), hf, Fin.sum_univ_two]
    have x0 : density (diagonalise I eig v).up 0 = 0 := a1
    have x1 : density (diagonalise I eig v).up 1 = 1 := a0
    have y1 : density (diagonalise I eig v).dn 1 = 1 := b0
    rw [x0, x1, y1]
    simp [hI, pair, kin]
  have m0 : mix I.alpha (![![0, 1], ![0, 1]] : Dens 2) ![![1, 0], ![1, 0]] = ![![alpha, 1 - alpha], ![alpha, 1 - alpha]] := by
    funext s i
    fin_cases s <;> fin_cases i <;> simp [mix, hI, pair]
  have st1 := step ![![1, 0], ![1, 0]] (fun s => by fin_cases s <;> simp)
  have st2 := step ![![alpha, 1 - alpha], ![alpha, 1 - alpha]] (fun s => by fin_cases s <;> simp <;> linarith)
  have att : (attempt I eig start).converged = true ∧ (attempt I eig start).energy = 1 ∧
      densities (attempt I eig start).psi.trial = ![![0, 1], ![0, 1]] ∧ Orth (attempt I eig start).psi.trial := by
    unfold attempt
    simp only [ds, es]
    rw [show I.nconv = n + 1 + 1 from rfl, scf_go, st1.1, st1.2, m0, scf_stop]
    · exact ⟨rfl, st2.2, st2.1, diagonalise_orth hE hT _⟩
    · rw [st2.1, st2.2]
      refine ⟨by simpa [hI, pair] using hd, ?_, ?_⟩ <;>
      · simp only [sub_self, abs_zero, sum_const_zero, zero_div]
        exact Real.sqrt_pos.2 hd
    · intro hc
      have := hc.1
      rw [show I.deps = deps from rfl, sub_zero, st1.2, abs_one] at this
      linarith
  obtain ⟨ac, ae, ad, ao⟩ := att
  have hsome : (find I eig (List.replicate (k + 1) start)).isSome = true := by
    rw [find, (Setup.uhfResult_exists I.deps hd.le I.U I.ueff _).1]
    exact ⟨attempt I eig start, List.mem_map.2 ⟨start, by simp, rfl⟩, ac⟩
  obtain ⟨r, hr⟩ := Option.isSome_iff_exists.1 hsome
  have hb : build I eig (List.replicate (k + 1) start) = some (r.1.trial, r.2.1, energy I I.U r.1.trial) := by
    rw [build, hr]; rfl
  obtain ⟨R, hR, -, ho, he, -, -⟩ := build_spec hd.le hb
  have hRs : R = start := (List.mem_replicate.1 hR).2
  subst hRs
  rw [ae] at he
  rw [ho] at ad ao
  refine ⟨r.1.trial, energy I I.U r.1.trial, by rw [hb, ← he], ad, siteOrb 0, siteOrb_orth 0, ?_⟩
  rw [hf, Fin.sum_univ_two, siteOrb_density, siteOrb_density]
  have y0 : density r.1.trial.dn 0 = 0 := congrFun (congrFun ad 1) 0
  simp only [y0]
  simp [hI, pair, kin]

end Verif.Uhf
