import Verif.Ghf.Site

/-!
# Generalised Hartree-Fock: the sweep over the sites, and cases (C125)
-/

namespace Verif.Ghf

open Matrix Finset
open Verif.Slater (gab)
open Verif.Energy (ovl oneBody twoBody oneBody_eq twoBody_eq)

variable {m n d : Nat}

theorem good_fresh {nup : Nat} (t : Trial m n d) (w : Wk m n d) (hB : Block nup w.phi) (hne : ∀ k, ovl (t.psi k) w.phi ≠ 0) :
    Good nup t { fresh t w with ot := calcOtrial t (inverseOverlap t w) } :=
  ⟨hB, hne, fun _ => rfl, fun k => by
    show 1 / (((t.psi k)ᴴ * w.phi)⁻¹).det = _
    exact one_div_det_inv _, fun k => fresh_weights t w k, overlap_eq t w⟩

/-- `phaseless_ratio`, propagation/hubbard.py 197. -/
noncomputable def cut (t : Trial m n d) (delta : Fin 2 → Fin 2 → ℂ) (i : Fin m) (w : Wk m n d) (xi : Fin 2) : ℝ :=
  max (probs t delta (greens t w) i xi).re 0

/-- Mean of `F` over the random numbers of the loop of `two_body`, propagation/hubbard.py 187-220, over the sites of the list: `norm > 0`
multiplies the weight and chooses a field, otherwise the walker is left with weight zero. -/
noncomputable def meanSites (t : Trial m n d) (nup : Nat) (delta : Fin 2 → Fin 2 → ℂ) (F : ℝ → Wk m n d → ℂ) : List (Fin m) → ℝ → Wk m n d → ℂ
  | [], weight, w => F weight w
  | i :: l, weight, w =>
    let p := cut t delta i w
    if 0 < p 0 + p 1 then
      ∫ r in (0 : ℝ)..1, meanSites t nup delta F l (weight * (p 0 + p 1)) (site t nup delta i (if r < p 0 / (p 0 + p 1) then 0 else 1) w)
    else F 0 (greens t w)

/-- Mean over all fields of the sites of the list, each with probability one half. -/
noncomputable def meanMoves (nup : Nat) (delta : Fin 2 → Fin 2 → ℂ) (F : Det m n → ℂ) : List (Fin m) → Det m n → ℂ
  | [], phi => F phi
  | i :: l, phi => 1 / 2 * ∑ xi, meanMoves nup delta F l (move nup (delta xi) i phi)

/-- For no choice of the fields of the sites of the list the trial is orthogonal to the walker or the ratio not a positive number. -/
def Open (t : Trial m n d) (nup : Nat) (delta : Fin 2 → Fin 2 → ℂ) : List (Fin m) → Det m n → Prop
  | [], _ => True
  | i :: l, phi => ∀ xi, (∀ k, ovl (t.psi k) (move nup (delta xi) i phi) ≠ 0) ∧
      (∃ q : ℝ, 0 < q ∧ bra t (move nup (delta xi) i phi) = q * bra t phi) ∧ Open t nup delta l (move nup (delta xi) i phi)

/-- **C125** The average over the random numbers of a sweep: weight over overlap times any quantity of the determinant averages to the mean
over all fields. -/
theorem sweep_average {nup : Nat} (t : Trial m n d) (delta : Fin 2 → Fin 2 → ℂ) (F : Det m n → ℂ) : ∀ (l : List (Fin m)) (weight : ℝ) (w : Wk m n d),
    Good nup t w → bra t w.phi ≠ 0 → Open t nup delta l w.phi →
    meanSites t nup delta (fun weight w => weight / w.ot * F w.phi) l weight w = weight / w.ot * meanMoves nup delta F l w.phi
  | [], weight, w, _, _, _ => rfl
  | i :: l, weight, w, h, hb, ho => by
    choose q hq hqe using fun xi => (ho xi).2.1
    have hp : ∀ xi, probs t delta (greens t w) i xi = (q xi / 2 : ℝ) := fun xi => by
      rw [probs_eq h, hqe]
      push_cast
      field_simp
    have hc : ∀ xi, cut t delta i w xi = q xi / 2 := fun xi => by
      rw [cut, hp, Complex.ofReal_re, max_eq_left (by linarith [hq xi])]
    have hs : 0 < cut t delta i w 0 + cut t delta i w 1 := by rw [hc, hc]; linarith [hq 0, hq 1]
    rw [meanSites, if_pos hs]
    have ih : ∀ xi, meanSites t nup delta (fun weight w => weight / w.ot * F w.phi) l (weight * (cut t delta i w 0 + cut t delta i w 1))
        (site t nup delta i xi w) = (weight * (cut t delta i w 0 + cut t delta i w 1) : ℝ) / (site t nup delta i xi w).ot *
          meanMoves nup delta F l (site t nup delta i xi w).phi := fun xi =>
      sweep_average t delta F l _ _ (h.site hb delta i xi (ho xi).1)
        (by
          show bra t (move nup (delta xi) i w.phi) ≠ 0
          rw [hqe]
          exact mul_ne_zero (Complex.ofReal_ne_zero.2 (hq xi).ne') hb) (ho xi).2.2
    simp only [ih]
    exact site_average h hb delta i (p := cut t delta i w) (fun xi => ⟨by rw [hc]; linarith [hq xi], by rw [hp, hc]⟩) weight
      (meanMoves nup delta F l)

/-! ## Cases -/

/-- One site, two electrons. -/
noncomputable def rot : Det 1 2 := !![1, 1; -1, 1]

noncomputable def caseTrial : Trial 1 2 2 := ⟨fun k => if k = 0 then rot else 1, fun _ => 1⟩

theorem one_block : Block 1 (1 : Det 1 2) := by
  refine ⟨fun x c hc => ?_, fun x c hc => ?_⟩
  · have : c = 1 := Fin.ext (by omega)
    subst this
    fin_cases x
    rfl
  · have : c = 0 := Fin.ext (by omega)
    subst this
    fin_cases x
    rfl

theorem rot_ovl (a b : ℂ) : ovl rot (!![a, 0; 0, b] : Det 1 2) = 2 * (a * b) := by
  rw [ovl, rot]
  rw [Matrix.det_fin_two]
  simp only [Matrix.mul_apply]
  show (∑ j : Fin 2, _) * (∑ j : Fin 2, _) - (∑ j : Fin 2, _) * (∑ j : Fin 2, _) = _
  simp only [Fin.sum_univ_two]
  simp
  ring

theorem one_ovl (a b : ℂ) : ovl (1 : Det 1 2) (!![a, 0; 0, b] : Det 1 2) = a * b := by
  rw [ovl]
  simp [Matrix.det_fin_two, Matrix.mul_apply, Fin.sum_univ_two]

/-- The hypotheses of `sweep_average` and `local_energy` hold for a trial with two determinants of which one mixes the spins. -/
example (dt U gamma : ℝ) (w : Wk 1 2 2) (hw : w.phi = 1) : ∃ w', Good 1 caseTrial w' ∧ w'.phi = w.phi ∧ bra caseTrial w'.phi ≠ 0 ∧
    Open caseTrial 1 (fun xi s => spinAuxf dt U gamma xi s - 1) (List.finRange 1) w'.phi := by
  have e1 : (1 : Det 1 2) = !![1, 0; 0, 1] := Matrix.one_fin_two
  have hm : ∀ xi, move 1 (fun s => spinAuxf dt U gamma xi s - 1) 0 (1 : Det 1 2) = !![spinAuxf dt U gamma xi 0, 0; 0, spinAuxf dt U gamma xi 1] := by
    intro xi
    ext r c
    fin_cases r <;> fin_cases c <;> simp [move, up, dn, Matrix.one_apply]
  have hb : ∀ a b : ℂ, bra caseTrial (!![a, 0; 0, b] : Det 1 2) = 3 * (a * b) := by
    intro a b
    rw [bra, Fin.sum_univ_two]
    simp only [caseTrial, if_pos, if_neg (one_ne_zero (α := Fin 2)), rot_ovl, one_ovl]
    ring
  have hne : ∀ (a b : ℂ), a * b ≠ 0 → ∀ k, ovl (caseTrial.psi k) (!![a, 0; 0, b] : Det 1 2) ≠ 0 := by
    intro a b h k
    fin_cases k
    · exact (rot_ovl a b).trans_ne (mul_ne_zero two_ne_zero h)
    · exact (one_ovl a b).trans_ne h
  have hx : ∀ xi, spinAuxf dt U gamma xi 0 * spinAuxf dt U gamma xi 1 = (Real.exp (-(dt * U)) : ℝ) := by
    intro xi
    have : ∀ a b c e : ℂ, a + b = 0 → Complex.exp a * c * (Complex.exp b * e) = c * e := by
      intro a b c e h
      rw [show Complex.exp a * c * (Complex.exp b * e) = Complex.exp a * Complex.exp b * (c * e) by ring, ← Complex.exp_add, h, Complex.exp_zero,
        one_mul]
    rw [spinAuxf, spinAuxf, this, ← Complex.exp_add, Complex.ofReal_exp]
    · congr 1
      push_cast
      ring
    · fin_cases xi <;> simp
  refine ⟨_, good_fresh caseTrial w (hw ▸ one_block) ?_, rfl, ?_, ?_⟩
  · rw [hw, e1]
    exact hne 1 1 (by simp)
  · show bra caseTrial w.phi ≠ 0
    rw [hw, e1, hb]
    simp
  · show Open caseTrial 1 (fun xi s => spinAuxf dt U gamma xi s - 1) (List.finRange 1) w.phi
    rw [hw]
    intro xi
    show (∀ k, ovl (caseTrial.psi k) (move 1 (fun s => spinAuxf dt U gamma xi s - 1) 0 (1 : Det 1 2)) ≠ 0) ∧
      (∃ q : ℝ, 0 < q ∧ bra caseTrial (move 1 (fun s => spinAuxf dt U gamma xi s - 1) 0 (1 : Det 1 2)) = q * bra caseTrial (1 : Det 1 2)) ∧ True
    have h0 : spinAuxf dt U gamma xi 0 * spinAuxf dt U gamma xi 1 ≠ 0 := by
      rw [hx]; exact Complex.ofReal_ne_zero.2 (Real.exp_pos _).ne'
    rw [hm, hb, e1, hb, hx]
    exact ⟨hne _ _ h0, ⟨Real.exp (-(dt * U)), Real.exp_pos _, by ring⟩, trivial⟩

/-- **C125** The code also lets walkers start from a determinant that mixes the spins.  For these the update of a site changes only half of
the entries, and the stored overlap is not that of the new determinant. -/
theorem mixed_walker : ∃ (t : Trial 1 1 1) (w : Wk 1 1 1) (delta : Fin 2 → Fin 2 → ℂ),
    (∀ k, w.inv k = ((t.psi k)ᴴ * w.phi)⁻¹) ∧ (∀ k, w.ots k = ovl (t.psi k) w.phi) ∧ ovl (t.psi 0) w.phi ≠ 0 ∧
    (site t 1 delta 0 0 w).ots 0 ≠ ovl (t.psi 0) (site t 1 delta 0 0 w).phi := by
  let v : Det 1 1 := !![1; 1]
  have hv : vᴴ * v = !![2] := by
    ext i j
    fin_cases i; fin_cases j
    simp [v, Matrix.mul_apply, Fin.sum_univ_two]
    norm_num
  have hi : (vᴴ * v)⁻¹ = !![1 / 2] := by
    rw [hv]
    ext i j
    fin_cases i; fin_cases j
    simp [Matrix.inv_def]
  have ho : ovl v v = 2 := by rw [ovl, hv]; simp
  refine ⟨⟨fun _ => v, fun _ => 1⟩, ⟨v, fun _ => (vᴴ * v)⁻¹, fun _ => ovl v v, fun _ => ovl v v, ovl v v, fun _ => 0⟩, fun _ s => if s = 0 then 0 else 1,
    fun _ => rfl, fun _ => rfl, by show ovl v v ≠ 0; rw [ho]; exact two_ne_zero, ?_⟩
  have h1 : move 1 (fun s : Fin 2 => if s = 0 then (0 : ℂ) else 1) 0 v = v := by
    ext r c
    fin_cases r <;> fin_cases c <;> simp [move, up, dn, v]
  show (ratios _ _ 0 0 0) * ovl v v ≠ ovl v (move 1 (fun s : Fin 2 => if s = 0 then (0 : ℂ) else 1) 0 v)
  have hg : ∀ a b : Fin 2, (v * (vᴴ * v)⁻¹ * vᴴ)ᵀ a b = 1 / 2 := by
    intro a b
    rw [hi, Matrix.transpose_apply, Matrix.mul_apply, Fin.sum_univ_one, Matrix.mul_apply, Fin.sum_univ_one, Matrix.conjTranspose_apply]
    fin_cases a <;> fin_cases b <;> simp [v]
  rw [h1, ho, ratios]
  show ((1 + (if (0 : Fin 2) = 0 then (0 : ℂ) else 1) * (v * (vᴴ * v)⁻¹ * vᴴ)ᵀ (up 0) (up 0)) *
    (1 + (if (1 : Fin 2) = 0 then (0 : ℂ) else 1) * (v * (vᴴ * v)⁻¹ * vᴴ)ᵀ (dn 0) (dn 0)) -
    (if (0 : Fin 2) = 0 then (0 : ℂ) else 1) * (v * (vᴴ * v)⁻¹ * vᴴ)ᵀ (up 0) (dn 0) * (if (1 : Fin 2) = 0 then (0 : ℂ) else 1) *
      (v * (vᴴ * v)⁻¹ * vᴴ)ᵀ (dn 0) (up 0)) * 2 ≠ 2
  rw [hg, hg, hg, hg]
  norm_num

/-- **C125** With a hopping that is not symmetric the energy of `gab_multi_ghf` has the wrong sign. -/
theorem gab_energy_fails : ∃ (T : Fin 2 → Matrix (Fin 2) (Fin 2) ℂ) (t : Trial 2 1 1) (phi : Det 2 1), (∀ s, (T s)ᴴ = T s) ∧
    ovl (t.psi 0) phi ≠ 0 ∧
    (localEnergy (text T) 0 (gabMultiGhf t.psi phi).1 (fun k => t.coeffs k * (gabMultiGhf t.psi phi).2 k) (bra t phi)).1 ≠
      (∑ k, t.coeffs k * hub (text T) 0 (t.psi k) phi) / bra t phi := by
  let v : Det 2 1 := !![1; Complex.I; 0; 0]
  let T : Fin 2 → Matrix (Fin 2) (Fin 2) ℂ := fun _ => !![0, Complex.I; -Complex.I, 0]
  have hv : vᴴ * v = !![2] := by
    ext i j
    fin_cases i; fin_cases j
    simp [v, Matrix.mul_apply, Fin.sum_univ_four]
    norm_num
  have hi : (vᴴ * v)⁻¹ = !![1 / 2] := by
    rw [hv]
    ext i j
    fin_cases i; fin_cases j
    simp [Matrix.inv_def]
  have ho : ovl v v = 2 := by rw [ovl, hv]; simp
  have ht : (text T)ᵀ = text fun s => (T s)ᵀ := by
    rw [text, Matrix.transpose_submatrix, Matrix.fromBlocks_transpose]
    simp only [Matrix.transpose_zero]
    rfl
  have htr : ∀ M : Matrix (Fin 2) (Fin 2) ℂ, (text (fun _ => M) * gab v v).trace =
      1 / 2 * (M 0 0 + M 0 1 * Complex.I - M 1 0 * Complex.I + M 1 1) := by
    intro M
    have e : ∀ a b : Fin 4, gab v v a b = 1 / 2 * (v a 0 * star (v b 0)) := by
      intro a b
      rw [gab, hi, Matrix.mul_apply]
      simp [Matrix.mul_apply]
      ring
    simp only [Matrix.trace, Matrix.diag_apply, Matrix.mul_apply]
    show ∑ a : Fin 4, ∑ b : Fin 4, text (fun _ => M) a b * gab v v b a = _
    simp only [e, Fin.sum_univ_four]
    have t00 : text (fun _ => M) 0 0 = M 0 0 := rfl
    have t01 : text (fun _ => M) 0 1 = M 0 1 := rfl
    have t10 : text (fun _ => M) 1 0 = M 1 0 := rfl
    have t11 : text (fun _ => M) 1 1 = M 1 1 := rfl
    have v0 : v 0 0 = 1 := rfl
    have v1 : v 1 0 = Complex.I := rfl
    have v2 : v 2 0 = 0 := rfl
    have v3 : v 3 0 = 0 := rfl
    simp only [t00, t01, t10, t11, v0, v1, v2, v3, star_zero, mul_zero, zero_mul, add_zero, star_one, Complex.star_def, Complex.conj_I]
    linear_combination (-(1 / 2) * M 1 1) * Complex.I_mul_I
  refine ⟨T, ⟨fun _ => v, fun _ => 1⟩, v, ?_, by show ovl v v ≠ 0; rw [ho]; exact two_ne_zero, ?_⟩
  · intro s
    ext i j
    fin_cases i <;> fin_cases j <;> simp [T]
  · rw [gab_energy _ _ _ _ fun _ => by show ovl v v ≠ 0; rw [ho]; exact two_ne_zero]
    have hb : bra (⟨fun _ => v, fun _ => 1⟩ : Trial 2 1 1) v = 2 := by
      rw [bra]
      simp [ho]
    rw [hb]
    simp only [Fin.sum_univ_one, one_mul]
    have hn : ovl v v ≠ 0 := by rw [ho]; exact two_ne_zero
    rw [hub_eq _ _ _ _ hn, hub_eq _ _ _ _ hn, ht, ho]
    simp only [zero_mul, add_zero]
    rw [show (text fun s => (T s)ᵀ) = text fun _ => (T 0)ᵀ from rfl, show text T = text fun _ => T 0 from rfl, htr, htr]
    simp only [T, Matrix.transpose_apply]
    simp
    norm_num

end Verif.Ghf
