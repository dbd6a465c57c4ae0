import Verif.HubHalf.Run
import Verif.HubHalf.Trials

/-!
# Two sites with two electrons: C132, and updates of single sites
-/

namespace Verif.HubHalf

open Matrix Finset
open Verif.Slater
open Verif.Hirsch
open Verif.HubRun (par start)
open Verif.Step (Hub)
open Verif.Uhf (Eig Eigh)

/-- Two sites; the time step is one. -/
noncomputable def pair : Hub 2 := ⟨fun _ => !![0, -((2 * Real.log 5 : ℝ) : ℂ); -((2 * Real.log 5 : ℝ) : ℂ), 0], 2 * Real.log (5 / 4), false⟩

/-- A trial wave function with one electron of each spin. -/
def trial2 : Wfn 2 1 1 := join !![2; -3] !![-3; 2]

theorem conj2 : (starRingEnd ℂ) 2 = 2 := map_ofNat (starRingEnd ℂ) 2

theorem conj3 : (starRingEnd ℂ) 3 = 3 := map_ofNat (starRingEnd ℂ) 3

theorem diag2 (v : Fin 2 → ℂ) : diagonal v = !![v 0, 0; 0, v 1] := by
  ext i j
  fin_cases i <;> fin_cases j <;> rfl

/-- The first site and the second. -/
def sub2 : Fin 2 → Bool := fun i => i == 0

theorem pair_bipartite : Bipartite sub2 pair := by
  refine ⟨?_, rfl, fun i j h => ?_⟩
  · ext i j
    have hl : star (-((2 * Real.log 5 : ℝ) : ℂ)) = -((2 * Real.log 5 : ℝ) : ℂ) := by
      rw [star_neg]
      exact congrArg _ (Complex.conj_ofReal _)
    fin_cases i <;> fin_cases j
    · exact star_zero _
    · exact hl
    · exact hl
    · exact star_zero _
  · fin_cases i <;> fin_cases j <;> simp_all [pair, sub2]

theorem trial2_ok : Trial sub2 trial2 := by
  refine ⟨?_, ?_, ?_⟩
  · rw [trial2, up_join, dn_join]
    ext a b
    fin_cases a; fin_cases b
    simp [sgn, sub2, Matrix.mul_apply, Fin.sum_univ_two, Matrix.diagonal_apply, conj2, conj3]
    norm_num
  · rw [trial2, up_join, FullRank, Matrix.det_fin_one]
    simp [Matrix.mul_apply, Fin.sum_univ_two, conj2, conj3]
    norm_num
  · rw [trial2, dn_join, FullRank, Matrix.det_fin_one]
    simp [Matrix.mul_apply, Fin.sum_univ_two, conj2, conj3]
    norm_num

theorem pair_exp (s : Fin 2) : (par pair 1).bt2 s = !![13 / 5, 12 / 5; 12 / 5, 13 / 5] := by
  show NormedSpace.exp (-(((1 : ℝ) : ℂ) / 2) • (!![0, -((2 * Real.log 5 : ℝ) : ℂ); -((2 * Real.log 5 : ℝ) : ℂ), 0] : Matrix (Fin 2) (Fin 2) ℂ)) = _
  have hi : (!![1, 1; 1, -1] : Matrix (Fin 2) (Fin 2) ℂ) * !![1 / 2, 1 / 2; 1 / 2, -(1 / 2)] = 1 := by
    ext i j
    fin_cases i <;> fin_cases j <;> norm_num [Matrix.mul_apply, Fin.sum_univ_two]
  have hinv : (!![1, 1; 1, -1] : Matrix (Fin 2) (Fin 2) ℂ)⁻¹ = !![1 / 2, 1 / 2; 1 / 2, -(1 / 2)] := Matrix.inv_eq_right_inv hi
  have hU : IsUnit (!![1, 1; 1, -1] : Matrix (Fin 2) (Fin 2) ℂ) := by
    rw [Matrix.isUnit_iff_isUnit_det, Matrix.det_fin_two_of]
    norm_num
  have e : -(((1 : ℝ) : ℂ) / 2) • (!![0, -((2 * Real.log 5 : ℝ) : ℂ); -((2 * Real.log 5 : ℝ) : ℂ), 0] : Matrix (Fin 2) (Fin 2) ℂ) =
      !![1, 1; 1, -1] * diagonal ![((Real.log 5 : ℝ) : ℂ), -((Real.log 5 : ℝ) : ℂ)] * (!![1, 1; 1, -1])⁻¹ := by
    rw [hinv, diag2, Matrix.mul_fin_two, Matrix.mul_fin_two]
    push_cast
    generalize (Real.log 5 : ℂ) = L
    ext i j
    fin_cases i <;> fin_cases j <;> simp <;> ring
  have h5 : Complex.exp ((Real.log 5 : ℝ) : ℂ) = 5 := by
    rw [← Complex.ofReal_exp, Real.exp_log (by norm_num)]
    norm_num
  rw [e, Matrix.exp_conj _ _ hU, Matrix.exp_diagonal, hinv, Pi.exp_def, ← Complex.exp_eq_exp_ℂ, diag2, Matrix.mul_fin_two, Matrix.mul_fin_two]
  show !![(1 * Complex.exp ((Real.log 5 : ℝ) : ℂ) + 1 * 0) * (1 / 2) + (1 * 0 + 1 * Complex.exp (-((Real.log 5 : ℝ) : ℂ))) * (1 / 2),
    (1 * Complex.exp ((Real.log 5 : ℝ) : ℂ) + 1 * 0) * (1 / 2) + (1 * 0 + 1 * Complex.exp (-((Real.log 5 : ℝ) : ℂ))) * -(1 / 2);
    (1 * Complex.exp ((Real.log 5 : ℝ) : ℂ) + -1 * 0) * (1 / 2) + (1 * 0 + -1 * Complex.exp (-((Real.log 5 : ℝ) : ℂ))) * (1 / 2),
    (1 * Complex.exp ((Real.log 5 : ℝ) : ℂ) + -1 * 0) * (1 / 2) + (1 * 0 + -1 * Complex.exp (-((Real.log 5 : ℝ) : ℂ))) * -(1 / 2)] = _
  rw [Complex.exp_neg, h5]
  norm_num

theorem pair_aux (x s : Fin 2) : (par pair 1).auxf x s = if x = s then 8 / 5 else 2 / 5 := by
  show spinAux (spinGamma 1 (2 * Real.log (5 / 4))) x s * Complex.exp (-(((1 : ℝ) : ℂ) * ((2 * Real.log (5 / 4) : ℝ) : ℂ) / 2)) = _
  have hl : Real.exp (1 * (2 * Real.log (5 / 4)) / 2) = 5 / 4 := by
    rw [show (1 * (2 * Real.log (5 / 4)) / 2 : ℝ) = Real.log (5 / 4) by ring, Real.exp_log (by norm_num)]
  have hg : spinGamma 1 (2 * Real.log (5 / 4)) = Real.log 2 := by
    rw [spinGamma, hl, show (5 / 4 : ℝ) = Real.cosh (Real.log 2) by rw [Real.cosh_log (by norm_num)]; norm_num,
      Real.arcosh_cosh (Real.log_nonneg (by norm_num))]
  have h2 : Complex.exp ((Real.log 2 : ℝ) : ℂ) = 2 := by
    rw [← Complex.ofReal_exp, Real.exp_log (by norm_num)]
    norm_num
  have h4 : Complex.exp (-(((1 : ℝ) : ℂ) * ((2 * Real.log (5 / 4) : ℝ) : ℂ) / 2)) = 4 / 5 := by
    rw [show -(((1 : ℝ) : ℂ) * ((2 * Real.log (5 / 4) : ℝ) : ℂ) / 2) = ((-(1 * (2 * Real.log (5 / 4)) / 2) : ℝ) : ℂ) by push_cast; ring,
      ← Complex.ofReal_exp, Real.exp_neg, hl]
    norm_num
  rw [hg, h4, spinAux, Complex.exp_neg, h2]
  split_ifs <;> norm_num

/-- The orbitals after the first hops. -/
theorem pair_hop : kineticReal (par pair 1).bt2 trial2 = join !![-2; -3] !![-3; -2] := by
  rw [kineticReal, pair_exp, pair_exp, trial2, up_join, dn_join]
  congr 1
  · ext a b
    fin_cases a <;> fin_cases b <;> simp [Matrix.mul_apply, Fin.sum_univ_two] <;> norm_num
  · ext a b
    fin_cases a <;> fin_cases b <;> simp [Matrix.mul_apply, Fin.sum_univ_two] <;> norm_num

theorem pair_overlap (a b c d : ℂ) : overlap trial2 (join !![a; b] !![c; d]) = (2 * a - 3 * b) * (2 * d - 3 * c) := by
  rw [overlap, up_join, dn_join, trial2, up_join, dn_join, Matrix.det_fin_one, Matrix.det_fin_one]
  simp [Matrix.mul_apply, Fin.sum_univ_two, conj2, conj3]
  ring

theorem pair_good : Good trial2 (kineticIS (par pair 1) trial2 (start trial2)) ∧
    (kineticIS (par pair 1) trial2 (start trial2)).phi = join !![-2; -3] !![-3; -2] := by
  have hw : (kineticIS (par pair 1) trial2 (start trial2)).weight ≠ 0 := by
    refine kineticIS_survives trial2 (start trial2) one_ne_zero ?_
    show IsPos (overlap trial2 (kineticReal (par pair 1).bt2 trial2) * Complex.exp ((0 : ℝ) : ℂ) / overlap trial2 trial2)
    rw [pair_hop, pair_overlap, show overlap trial2 trial2 = (2 * 2 - 3 * (-3)) * (2 * 2 - 3 * (-3)) from pair_overlap 2 (-3) (-3) 2]
    exact ⟨25 / 169, by norm_num, by norm_num⟩
  obtain ⟨h1, h2, -⟩ := kineticIS_spec (par pair 1) trial2 (start trial2) hw
  exact ⟨h1, h2.trans pair_hop⟩

/-- The orbitals after a whole sweep. -/
theorem pair_sweep (f : Fin 2 → Fin 2) : overlap trial2
    (join (diagonal (fun i => (par pair 1).auxf (f i) 0) * up (join !![-2; -3] !![-3; -2] : Wfn 2 1 1))
      (diagonal (fun i => (par pair 1).auxf (f i) 1) * dn (join !![-2; -3] !![-3; -2] : Wfn 2 1 1))) =
    (-4 * (par pair 1).auxf (f 0) 0 + 9 * (par pair 1).auxf (f 1) 0) * (9 * (par pair 1).auxf (f 0) 1 - 4 * (par pair 1).auxf (f 1) 1) := by
  rw [up_join, dn_join]
  have e1 : diagonal (fun i => (par pair 1).auxf (f i) 0) * (!![-2; -3] : Matrix (Fin 2) (Fin 1) ℂ) =
      !![(par pair 1).auxf (f 0) 0 * -2; (par pair 1).auxf (f 1) 0 * -3] := by
    ext a b
    fin_cases a <;> fin_cases b <;> simp [Matrix.diagonal_mul]
  have e2 : diagonal (fun i => (par pair 1).auxf (f i) 1) * (!![-3; -2] : Matrix (Fin 2) (Fin 1) ℂ) =
      !![(par pair 1).auxf (f 0) 1 * -3; (par pair 1).auxf (f 1) 1 * -2] := by
    ext a b
    fin_cases a <;> fin_cases b <;> simp [Matrix.diagonal_mul]
  rw [e1, e2, pair_overlap]
  ring

/-- **C132** Updates site by site meet the constraint all the same.  For this half-filled model on two sites the first site never gets
the first field, although with that field, whatever the field of the second site, the overlap is positive once the sweep is complete. -/
theorem single_site_cut : (∀ r : ℝ, 0 ≤ r → Hirsch.choose (par pair 1) trial2 (kineticIS (par pair 1) trial2 (start trial2)) 0 r = 1) ∧
    ∀ f : Fin 2 → Fin 2, f 0 = 0 → IsPos (overlap trial2
      (join (diagonal (fun i => (par pair 1).auxf (f i) 0) * up (kineticIS (par pair 1) trial2 (start trial2)).phi)
        (diagonal (fun i => (par pair 1).auxf (f i) 1) * dn (kineticIS (par pair 1) trial2 (start trial2)).phi))) := by
  obtain ⟨hg, hφ⟩ := pair_good
  constructor
  · intro r hr
    have hp : probs (par pair 1) trial2 (kineticIS (par pair 1) trial2 (start trial2)) 0 0 = ((-(13 / 625) : ℝ) : ℂ) := by
      rw [probs_eq _ _ _ _ _ hg]
      have e : (applyField (par pair 1) trial2 (kineticIS (par pair 1) trial2 (start trial2)) 0 0).phi =
          join !![-(16 / 5); -3] !![-(6 / 5); -2] := by
        show join (addRow (up (kineticIS (par pair 1) trial2 (start trial2)).phi) 0 ((par pair 1).delta 0 0))
          (addRow (dn (kineticIS (par pair 1) trial2 (start trial2)).phi) 0 ((par pair 1).delta 0 1)) = _
        rw [hφ, Par.delta, Par.delta, pair_aux, pair_aux, up_join, dn_join]
        congr 1
        · ext a b
          fin_cases a <;> fin_cases b <;> simp [addRow] <;> norm_num
        · ext a b
          fin_cases a <;> fin_cases b <;> simp [addRow] <;> norm_num
      rw [e, hφ, pair_overlap, pair_overlap]
      show _ * _ * (1 : ℂ) = _
      norm_num
    have ht : trunc (par pair 1) trial2 (kineticIS (par pair 1) trial2 (start trial2)) 0 0 = 0 := by
      rw [trunc, hp, Complex.ofReal_re]
      norm_num
    rw [Hirsch.choose, ht, zero_div, if_neg (not_lt.2 hr)]
  · intro f hf
    rw [hφ, pair_sweep, hf, pair_aux, pair_aux, pair_aux, pair_aux]
    obtain h | h : f 1 = 0 ∨ f 1 = 1 := by
      generalize f 1 = x
      fin_cases x <;> simp
    · rw [h]
      exact ⟨16, by norm_num, by norm_num⟩
    · rw [h]
      exact ⟨196 / 25, by norm_num, by norm_num⟩

/-- The trial wave function of free electrons on the two sites. -/
theorem pair_free {eig : Eig 2} (hE : Eigh eig) : Trial sub2 (HubRun.freeElectron eig pair.h1 (by omega) (by omega) : Wfn 2 1 1) := by
  have h0 : (eig (pair.h1 0)).1 0 < 0 := by
    obtain ⟨h1, h2, h3⟩ := hE (pair.h1 0) pair_bipartite.herm
    have h4 : (pair.h1 0).det = -((2 * Real.log 5 : ℝ) : ℂ) ^ 2 := by
      show Matrix.det !![0, -((2 * Real.log 5 : ℝ) : ℂ); -((2 * Real.log 5 : ℝ) : ℂ), 0] = _
      rw [Matrix.det_fin_two_of]
      ring
    generalize eig (pair.h1 0) = dv at h1 h2 h3
    obtain ⟨d, V⟩ := dv
    have hV : V.det ≠ 0 := by
      have := congrArg Matrix.det h2
      rw [Matrix.det_mul, Matrix.det_one] at this
      exact right_ne_zero_of_mul (this.symm ▸ one_ne_zero)
    have h5 := congrArg Matrix.det h3
    rw [Matrix.det_mul, Matrix.det_mul, mul_comm, Matrix.det_diagonal, Fin.prod_univ_two, h4] at h5
    have h6 := mul_left_cancel₀ hV h5
    have h7 : -(2 * Real.log 5) ^ 2 = d 0 * d 1 := by exact_mod_cast h6
    have h8 : d 0 ≤ d 1 := h1 (by decide)
    have h9 : 0 < Real.log 5 := Real.log_pos (by norm_num)
    show d 0 < 0
    by_contra h
    have := mul_nonneg (not_lt.1 h) ((not_lt.1 h).trans h8)
    nlinarith
  exact free_trial pair_bipartite hE _ _ (fun a => by rw [Fin.fin_one_eq_zero a]; exact h0) (fun a => by rw [Fin.fin_one_eq_zero a]; exact h0)

/-- Runs of the two sites. -/
theorem pair_runs {qr : QR 2} (hqr : QRSpec qr) (γ : ℂ) :
    (∀ ops : List (FreeOp 2), ∃ r : ℝ, 0 ≤ r ∧ ((ops.foldl (freeOp (par pair 1) qr trial2) (start trial2)).weight : ℂ) *
      (ops.foldl (freeOp (par pair 1) qr trial2) (start trial2)).phase * (ops.foldl (freeOp (par pair 1) qr trial2) (start trial2)).ot = r) ∧
    ∀ l : List (Option ((Fin 2 → ℝ) × ℝ)), l.foldl (act (directStep (par pair 1) γ trial2) qr) (start trial2) = l.foldl (act (stepAll (par pair 1) γ trial2) qr) (start trial2) :=
  ⟨fun ops => free_no_sign pair_bipartite 1 rfl trial2_ok hqr ops, fun l => direct_run (hn := rfl) trial2_ok pair_bipartite 1 γ hqr l⟩

end Verif.HubHalf
