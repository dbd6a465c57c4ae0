import Verif.Ghf.Props
import Verif.Fields.Mean
import Verif.Slater.Props

/-!
# Generalised Hartree-Fock: fields and back propagation (C125)
-/

namespace Verif.Ghf

open Matrix Finset
open Verif.Slater (QR QRSpec FullRank linReortho gab)
open Verif.Energy (ovl oneBody twoBody oneBody_eq twoBody_eq)

variable {m n d : Nat}

/-- The walker has no spin mixing: up electrons in the first `nup` columns and rows of spin up. -/
structure Block (nup : Nat) (phi : Det m n) : Prop where
  up : ∀ x c, nup ≤ c.val → phi (up x) c = 0
  dn : ∀ x c, c.val < nup → phi (dn x) c = 0

/-- The operator that multiplies the orbitals at site `i`. -/
noncomputable def factor (dl : Fin 2 → ℂ) (i : Fin m) : Big m := 1 + dl 0 • number (up i) + dl 1 • number (dn i)

theorem number_mul_apply (a : Fin (m + m)) (phi : Det m n) (r : Fin (m + m)) (c : Fin n) :
    (number a * phi) r c = if r = a then phi r c else 0 := by
  rw [number]
  split_ifs with h
  · subst h
    rw [Matrix.single_mul_apply_same, one_mul]
  · rw [Matrix.single_mul_apply_of_ne (h := h)]

theorem factor_mul_apply (dl : Fin 2 → ℂ) (i : Fin m) (phi : Det m n) (r : Fin (m + m)) (c : Fin n) :
    (factor dl i * phi) r c = phi r c + dl 0 * (if r = up i then phi r c else 0) + dl 1 * (if r = dn i then phi r c else 0) := by
  rw [factor, Matrix.add_mul, Matrix.add_mul, Matrix.one_mul, Matrix.smul_mul, Matrix.smul_mul, Matrix.add_apply, Matrix.add_apply,
    Matrix.smul_apply, Matrix.smul_apply, number_mul_apply, number_mul_apply, smul_eq_mul, smul_eq_mul]

/-- Without spin mixing the change of the rows of a site is the action of the operator. -/
theorem move_eq {nup : Nat} {phi : Det m n} (h : Block nup phi) (dl : Fin 2 → ℂ) (i : Fin m) : move nup dl i phi = factor dl i * phi := by
  ext r c
  rw [factor_mul_apply, move, Matrix.of_apply]
  by_cases hu : r = up i
  · subst hu
    have hn : ¬ ((up i : Fin (m + m)) = dn i ∧ nup ≤ c.val) := fun e => up_ne_dn i i e.1
    by_cases hc : c.val < nup
    · rw [if_pos ⟨rfl, hc⟩, if_pos rfl, if_neg (up_ne_dn i i)]; ring
    · rw [if_neg (fun e => hc e.2), if_neg hn, if_pos rfl, if_neg (up_ne_dn i i), h.up i c (not_lt.1 hc)]; ring
  · rw [if_neg fun e => hu e.1, if_neg hu]
    by_cases hd : r = dn i
    · subst hd
      rw [if_pos rfl]
      by_cases hc : nup ≤ c.val
      · rw [if_pos ⟨rfl, hc⟩]; ring
      · rw [if_neg fun e => hc e.2, h.dn i c (not_le.1 hc)]; ring
    · rw [if_neg fun e => hd e.1, if_neg hd]; ring

theorem Block.move {nup : Nat} {phi : Det m n} (h : Block nup phi) (dl : Fin 2 → ℂ) (i : Fin m) : Block nup (move nup dl i phi) := by
  rw [move_eq h]
  exact ⟨fun x c hc => by rw [factor_mul_apply, h.up x c hc]; simp, fun x c hc => by rw [factor_mul_apply, h.dn x c hc]; simp⟩

/-- The overlap after the change of a site. -/
theorem ovl_factor (dl : Fin 2 → ℂ) (i : Fin m) (A B : Det m n) (h : ovl A B ≠ 0) : ovl A (factor dl i * B) = ovl A B *
    ((1 + dl 0 * gab A B (up i) (up i)) * (1 + dl 1 * gab A B (dn i) (dn i)) -
      dl 0 * gab A B (up i) (dn i) * dl 1 * gab A B (dn i) (up i)) := by
  have hu : IsUnit (Aᴴ * B).det := isUnit_iff_ne_zero.2 h
  let sp : Fin 2 → Fin (m + m) := fun s => if s = 0 then up i else dn i
  let L : Matrix (Fin (m + m)) (Fin 2) ℂ := Matrix.of fun r s => if r = sp s then dl s else 0
  let R : Matrix (Fin 2) (Fin (m + m)) ℂ := Matrix.of fun s r => if r = sp s then 1 else 0
  have hsp : sp 0 ≠ sp 1 := up_ne_dn i i
  have e0 : factor dl i = 1 + L * R := by
    rw [factor, add_assoc]
    congr 1
    ext r c
    rw [Matrix.mul_apply, Fin.sum_univ_two, Matrix.add_apply, Matrix.smul_apply, Matrix.smul_apply, number, number, Matrix.single_apply,
      Matrix.single_apply]
    simp only [L, R, Matrix.of_apply, smul_eq_mul]
    have h0 : sp 0 = up i := rfl
    have h1 : sp 1 = dn i := rfl
    rw [h0, h1]
    congr 1
    · by_cases h1 : r = up i <;> by_cases h2 : c = up i <;> simp [h1, h2, eq_comm]
    · by_cases h1 : r = dn i <;> by_cases h2 : c = dn i <;> simp [h1, h2, eq_comm]
  have e1 : Aᴴ * (factor dl i * B) = (Aᴴ * B) * (1 + ((Aᴴ * B)⁻¹ * Aᴴ * L) * (R * B)) := by
    rw [e0, Matrix.add_mul, Matrix.one_mul, Matrix.mul_add, Matrix.mul_add, Matrix.mul_one]
    congr 1
    rw [show (Aᴴ * B) * ((Aᴴ * B)⁻¹ * Aᴴ * L * (R * B)) = ((Aᴴ * B) * (Aᴴ * B)⁻¹) * (Aᴴ * (L * R * B)) from by simp only [Matrix.mul_assoc],
      Matrix.mul_nonsing_inv _ hu, Matrix.one_mul]
  rw [ovl, e1, Matrix.det_mul, Matrix.det_one_add_mul_comm, Matrix.det_fin_two]
  have e2 : (R * B) * ((Aᴴ * B)⁻¹ * Aᴴ * L) = R * gab A B * L := by
    simp only [gab, Matrix.mul_assoc]
  have e3 : ∀ s s', (R * gab A B * L) s s' = gab A B (sp s) (sp s') * dl s' := by
    intro s s'
    rw [Matrix.mul_apply, Finset.sum_eq_single (sp s')]
    · simp only [L, Matrix.of_apply, if_pos]
      rw [Matrix.mul_apply, Finset.sum_eq_single (sp s)]
      · simp only [R, Matrix.of_apply, if_pos, one_mul]
      · intro b _ hb
        simp only [R, Matrix.of_apply, if_neg hb, zero_mul]
      · simp
    · intro b _ hb
      simp only [L, Matrix.of_apply, if_neg hb, mul_zero]
    · simp
  rw [e2]
  simp only [Matrix.add_apply, e3, Matrix.one_apply_eq, Matrix.one_apply_ne (zero_ne_one (α := Fin 2)), Matrix.one_apply_ne (one_ne_zero (α := Fin 2))]
  rw [show sp 0 = up i from rfl, show sp 1 = dn i from rfl, ovl]
  ring

/-- A walker whose stored numbers belong to its determinant. -/
structure Good (nup : Nat) (t : Trial m n d) (w : Wk m n d) : Prop where
  block : Block nup w.phi
  ne : ∀ k, ovl (t.psi k) w.phi ≠ 0
  inv : ∀ k, w.inv k = ((t.psi k)ᴴ * w.phi)⁻¹
  ots : ∀ k, w.ots k = ovl (t.psi k) w.phi
  weights : ∀ k, w.weights k = t.coeffs k * ovl (t.psi k) w.phi
  ot : w.ot = bra t w.phi

theorem Good.ratios {nup : Nat} {t : Trial m n d} {w : Wk m n d} (h : Good nup t w) (delta : Fin 2 → Fin 2 → ℂ) (i : Fin m) (k : Fin d)
    (xi : Fin 2) : ratios delta (greens t w) i k xi * ovl (t.psi k) w.phi = ovl (t.psi k) (move nup (delta xi) i w.phi) := by
  have hG : (greens t w).Gi k = (gab (t.psi k) w.phi)ᵀ := by
    show (w.phi * w.inv k * (t.psi k)ᴴ)ᵀ = _
    rw [h.inv, gab, Matrix.mul_assoc]
  rw [move_eq h.block, ovl_factor _ _ _ _ (h.ne k), Ghf.ratios, hG]
  simp only [Matrix.transpose_apply]
  ring

/-- **C125** The ratios by which the fields are chosen are the overlaps after over before, halved. -/
theorem probs_eq {nup : Nat} {t : Trial m n d} {w : Wk m n d} (h : Good nup t w) (delta : Fin 2 → Fin 2 → ℂ) (i : Fin m) (xi : Fin 2) :
    probs t delta (greens t w) i xi = bra t (move nup (delta xi) i w.phi) / (2 * bra t w.phi) := by
  rw [probs, show (greens t w).ot = w.ot from rfl, h.ot]
  have : ∑ k, t.coeffs k * ratios delta (greens t w) i k xi * (greens t w).ots k = bra t (move nup (delta xi) i w.phi) := by
    refine sum_congr rfl fun k _ => ?_
    rw [show (greens t w).ots k = w.ots k from rfl, h.ots, mul_assoc, h.ratios]
  rw [this, div_mul_div_comm, one_mul]

/-- **C125** After the update of a site the stored numbers belong to the new determinant. -/
theorem Good.site {nup : Nat} {t : Trial m n d} {w : Wk m n d} (h : Good nup t w) (hb : bra t w.phi ≠ 0) (delta : Fin 2 → Fin 2 → ℂ) (i : Fin m)
    (xi : Fin 2) (hne : ∀ k, ovl (t.psi k) (move nup (delta xi) i w.phi) ≠ 0) : Good nup t (site t nup delta i xi w) := by
  have hots : ∀ k, Ghf.ratios delta (greens t w) i k xi * w.ots k = ovl (t.psi k) (move nup (delta xi) i w.phi) := fun k => by rw [h.ots, h.ratios]
  refine ⟨h.block.move _ _, hne, fun k => rfl, hots, fun k => congrArg (t.coeffs k * ·) (hots k), ?_⟩
  show 2 * w.ot * probs t delta (greens t w) i xi = bra t (move nup (delta xi) i w.phi)
  rw [probs_eq h, h.ot]
  field_simp

/-- **C125** The average over the random number of a site: if both ratios are positive, weight over overlap times any quantity of the
determinant averages to the mean over both fields. -/
theorem site_average {nup : Nat} {t : Trial m n d} {w : Wk m n d} (h : Good nup t w) (hb : bra t w.phi ≠ 0) (delta : Fin 2 → Fin 2 → ℂ) (i : Fin m)
    {p : Fin 2 → ℝ} (hp : ∀ xi, 0 < p xi ∧ probs t delta (greens t w) i xi = p xi) (weight : ℝ) (F : Det m n → ℂ) :
    ∫ r in (0 : ℝ)..1, (fun xi => (weight * (p 0 + p 1) : ℝ) / (site t nup delta i xi w).ot * F (site t nup delta i xi w).phi)
        (if r < p 0 / (p 0 + p 1) then 0 else 1) =
      weight / w.ot * (1 / 2 * ∑ xi, F (move nup (delta xi) i w.phi)) := by
  have hs : 0 < p 0 + p 1 := add_pos (hp 0).1 (hp 1).1
  rw [Fields.integral_choice _ (div_nonneg (hp 0).1.le hs.le) ((div_le_one hs).2 (by linarith [(hp 1).1])) 
    (fun xi => (weight * (p 0 + p 1) : ℝ) / (site t nup delta i xi w).ot * F (site t nup delta i xi w).phi)]
  have ho : ∀ xi, (site t nup delta i xi w).ot = 2 * w.ot * p xi := fun xi => by
    show 2 * w.ot * probs t delta (greens t w) i xi = _
    rw [(hp xi).2]
  have hph : ∀ xi, (site t nup delta i xi w).phi = move nup (delta xi) i w.phi := fun _ => rfl
  simp only [ho, hph, Fin.sum_univ_two]
  have h0 : (p 0 : ℂ) ≠ 0 := Complex.ofReal_ne_zero.2 (hp 0).1.ne'
  have h1 : (p 1 : ℂ) ≠ 0 := Complex.ofReal_ne_zero.2 (hp 1).1.ne'
  have h2 : (p 0 : ℂ) + p 1 ≠ 0 := by rw [← Complex.ofReal_add]; exact Complex.ofReal_ne_zero.2 hs.ne'
  have h3 : w.ot ≠ 0 := by rw [h.ot]; exact hb
  push_cast
  field_simp
  ring

/-- `auxf` of the spin decomposition, propagation/hubbard.py 73-77: field, spin. -/
noncomputable def spinAuxf (dt U gamma : ℝ) (xi s : Fin 2) : ℂ :=
  Complex.exp (if xi = s then gamma else -gamma) * Complex.exp (-(dt * U / 2 : ℝ))

/-- **C125** The mean over both fields of a site is the action of `exp(-dt U n_up n_down)`, which is `1 + (exp(-dt U) - 1) n_up n_down`
because `n_up n_down` is zero or one. -/
theorem field_average (dt U gamma : ℝ) (hg : Real.cosh gamma = Real.exp (dt * U / 2)) {nup : Nat} {B : Det m n} (hB : Block nup B) (A : Det m n)
    (h : ovl A B ≠ 0) (i : Fin m) :
    1 / 2 * ∑ xi, ovl A (move nup (fun s => spinAuxf dt U gamma xi s - 1) i B) =
      ovl A B + (Complex.exp (-(dt * U : ℝ)) - 1) * twoBody (number (up i)) (number (dn i)) A B := by
  simp only [move_eq hB, ovl_factor _ _ _ _ h, twoBody_eq _ _ A B h, trace_number, trace_number_two, Fin.sum_univ_two]
  have e1 : spinAuxf dt U gamma 0 0 = Complex.exp gamma * Complex.exp (-(dt * U / 2 : ℝ)) := by simp [spinAuxf]
  have e2 : spinAuxf dt U gamma 0 1 = Complex.exp (-gamma) * Complex.exp (-(dt * U / 2 : ℝ)) := by simp [spinAuxf]
  have e3 : spinAuxf dt U gamma 1 0 = Complex.exp (-gamma) * Complex.exp (-(dt * U / 2 : ℝ)) := by simp [spinAuxf]
  have e4 : spinAuxf dt U gamma 1 1 = Complex.exp gamma * Complex.exp (-(dt * U / 2 : ℝ)) := by simp [spinAuxf]
  rw [e1, e2, e3, e4]
  have hc : Complex.exp gamma + Complex.exp (-gamma) = 2 * Complex.exp (dt * U / 2 : ℝ) := by
    rw [← Complex.ofReal_exp (dt * U / 2), ← hg, Complex.ofReal_cosh, Complex.cosh]
    ring
  have hx : Complex.exp (dt * U / 2 : ℝ) * Complex.exp (-(dt * U / 2 : ℝ)) = 1 := by
    rw [← Complex.exp_add, add_neg_cancel, Complex.exp_zero]
  have hg1 : Complex.exp gamma * Complex.exp (-gamma) = 1 := by rw [← Complex.exp_add, add_neg_cancel, Complex.exp_zero]
  have hdt : Complex.exp (-(dt * U : ℝ)) = Complex.exp (-(dt * U / 2 : ℝ)) * Complex.exp (-(dt * U / 2 : ℝ)) := by
    rw [← Complex.exp_add]
    congr 1
    push_cast
    ring
  rw [hdt]
  generalize Complex.exp (gamma : ℂ) = g at *
  generalize Complex.exp (-gamma : ℂ) = g' at *
  generalize Complex.exp (dt * U / 2 : ℝ) = y at *
  generalize Complex.exp (-(dt * U / 2 : ℝ)) = z at *
  generalize gab A B (up i) (up i) = a
  generalize gab A B (dn i) (dn i) = b
  generalize gab A B (up i) (dn i) = c
  generalize gab A B (dn i) (up i) = f
  generalize ovl A B = o
  linear_combination (o * z / 2 * (a + b + 2 * (-1) * (a * b - c * f)) ) * hc + (o * (a + b - 2 * (a * b - c * f))) * hx + o * z * z * (a * b - c * f) * hg1

/-! ## The matrix of a step and back propagation -/

theorem kinetic_eq {nup : Nat} {phi : Det m n} (h : Block nup phi) (bt2 : Matrix (Fin m) (Fin m) ℂ) :
    kinetic nup bt2 phi = text (fun _ => bt2) * phi := by
  ext r c
  rw [Matrix.mul_apply, Fin.sum_univ_add]
  refine Fin.addCases (fun x => ?_) (fun x => ?_) r
  · rw [kinetic, Matrix.of_apply, Fin.addCases_left]
    have e1 : ∀ y : Fin m, text (fun _ => bt2) (Fin.castAdd m x) (Fin.castAdd m y) = bt2 x y := fun y => by
      rw [text, Matrix.submatrix_apply, finSumFinEquiv_symm_apply_castAdd, finSumFinEquiv_symm_apply_castAdd]
      rfl
    have e2 : ∀ y : Fin m, text (fun _ => bt2) (Fin.castAdd m x) (Fin.natAdd m y) = 0 := fun y => by
      rw [text, Matrix.submatrix_apply, finSumFinEquiv_symm_apply_castAdd, finSumFinEquiv_symm_apply_natAdd]
      rfl
    simp only [e1, e2, zero_mul, sum_const_zero, add_zero]
    split_ifs with hc
    · rfl
    · have e3 : ∀ y, phi (Fin.castAdd m y) c = 0 := fun y => h.up y c (not_lt.1 hc)
      simp only [e3, mul_zero, sum_const_zero]
  · rw [kinetic, Matrix.of_apply, Fin.addCases_right]
    have e1 : ∀ y : Fin m, text (fun _ => bt2) (Fin.natAdd m x) (Fin.natAdd m y) = bt2 x y := fun y => by
      rw [text, Matrix.submatrix_apply, finSumFinEquiv_symm_apply_natAdd, finSumFinEquiv_symm_apply_natAdd]
      rfl
    have e2 : ∀ y : Fin m, text (fun _ => bt2) (Fin.natAdd m x) (Fin.castAdd m y) = 0 := fun y => by
      rw [text, Matrix.submatrix_apply, finSumFinEquiv_symm_apply_natAdd, finSumFinEquiv_symm_apply_castAdd]
      rfl
    simp only [e1, e2, zero_mul, sum_const_zero, zero_add]
    split_ifs with hc
    · rfl
    · have e3 : ∀ y, phi (Fin.natAdd m y) c = 0 := fun y => h.dn y c (not_le.1 hc)
      simp only [e3, mul_zero, sum_const_zero]

theorem Block.kinetic {nup : Nat} {phi : Det m n} (h : Block nup phi) (bt2 : Matrix (Fin m) (Fin m) ℂ) : Block nup (kinetic nup bt2 phi) := by
  refine ⟨fun x c hc => ?_, fun x c hc => ?_⟩
  · rw [Ghf.kinetic, Matrix.of_apply, Ghf.up, Fin.addCases_left, if_neg (not_lt.2 hc)]
    exact h.up x c hc
  · rw [Ghf.kinetic, Matrix.of_apply, Ghf.dn, Fin.addCases_right, if_neg (not_le.2 hc)]
    exact h.dn x c hc

/-- The changes of all sites. -/
noncomputable def sweep (nup : Nat) (auxf : Fin 2 → Fin 2 → ℂ) (config : Fin m → Fin 2) (phi : Det m n) : Det m n :=
  (List.finRange m).foldl (fun phi i => move nup (fun s => auxf (config i) s - 1) i phi) phi

theorem sweep_rows {nup : Nat} (auxf : Fin 2 → Fin 2 → ℂ) (config : Fin m → Fin 2) : ∀ (l : List (Fin m)) (phi : Det m n), l.Nodup → Block nup phi →
    Block nup (l.foldl (fun phi i => move nup (fun s => auxf (config i) s - 1) i phi) phi) ∧ ∀ x c,
      (l.foldl (fun phi i => move nup (fun s => auxf (config i) s - 1) i phi) phi) (up x) c =
        (if x ∈ l then auxf (config x) 0 else 1) * phi (up x) c ∧
      (l.foldl (fun phi i => move nup (fun s => auxf (config i) s - 1) i phi) phi) (dn x) c =
        (if x ∈ l then auxf (config x) 1 else 1) * phi (dn x) c
  | [], phi, _, h => ⟨h, fun x c => by simp⟩
  | i :: l, phi, hl, h => by
    obtain ⟨h1, h2⟩ := sweep_rows auxf config l (move nup (fun s => auxf (config i) s - 1) i phi) (List.nodup_cons.1 hl).2 (h.move _ _)
    refine ⟨h1, fun x c => ?_⟩
    have hi := (List.nodup_cons.1 hl).1
    obtain ⟨e1, e2⟩ := h2 x c
    rw [List.foldl_cons, e1, e2, move_eq h, factor_mul_apply, factor_mul_apply, if_neg (up_ne_dn x i), if_neg (Ne.symm (up_ne_dn i x))]
    have hinj : (up x : Fin (m + m)) = up i ↔ x = i := ⟨fun e => Fin.castAdd_injective _ _ e, fun e => by rw [e]⟩
    have hinj' : (dn x : Fin (m + m)) = dn i ↔ x = i := ⟨fun e => Fin.natAdd_injective _ _ e, fun e => by rw [e]⟩
    simp only [hinj, hinj', List.mem_cons]
    by_cases hx : x = i
    · subst hx
      simp only [if_pos, true_or, if_neg hi]
      constructor <;> ring
    · simp only [hx, false_or, if_false]
      constructor <;> ring

/-- **C125** The matrix of a step that back propagation uses is the one that the forward step has applied. -/
theorem step_matrix {nup : Nat} {phi : Det m n} (h : Block nup phi) (auxf : Fin 2 → Fin 2 → ℂ) (bt2 : Matrix (Fin m) (Fin m) ℂ)
    (config : Fin m → Fin 2) :
    kinetic nup bt2 (sweep nup auxf config (kinetic nup bt2 phi)) = propMatrix auxf (text fun _ => bt2) config * phi := by
  have h1 := h.kinetic bt2
  obtain ⟨h2, h3⟩ := sweep_rows auxf config (List.finRange m) (kinetic nup bt2 phi) (List.nodup_finRange m) h1
  have e : sweep nup auxf config (kinetic nup bt2 phi) = fieldMatrix auxf config * kinetic nup bt2 phi := by
    ext r c
    rw [fieldMatrix, Matrix.diagonal_mul]
    refine Fin.addCases (fun x => ?_) (fun x => ?_) r
    · rw [Fin.addCases_left]
      refine ((h3 x c).1).trans ?_
      rw [if_pos (List.mem_finRange x)]
      rfl
    · rw [Fin.addCases_right]
      refine ((h3 x c).2).trans ?_
      rw [if_pos (List.mem_finRange x)]
      rfl
  have h4 : Block nup (sweep nup auxf config (kinetic nup bt2 phi)) := h2
  rw [kinetic_eq h4, e, kinetic_eq h, propMatrix]
  simp only [Matrix.mul_assoc]

theorem backLoop_spec (qr : QR (m + m)) (hqr : QRSpec qr) (nstblz : Nat) : ∀ (l : List (Big m)) (i : Nat) (phi : Det m n) (c : ℂ), FullRank phi →
    (∀ B ∈ l, B.det ≠ 0) → ∀ x : Det m n,
      (backLoop qr nstblz i l (phi, c)).2 * ovl (backLoop qr nstblz i l (phi, c)).1 x = c * ovl phi (l.prod * x)
  | [], i, phi, c, _, _, x => by rw [backLoop, List.prod_nil, Matrix.one_mul]
  | B :: l, i, phi, c, hr, hB, x => by
    have hBd : B.det ≠ 0 := hB B List.mem_cons_self
    have hBc : Bᴴ.det ≠ 0 := by rw [Matrix.det_conjTranspose]; exact star_ne_zero.2 hBd
    have h1 : FullRank (Bᴴ * phi) := hr.mul hBc
    have hl : ∀ B ∈ l, B.det ≠ 0 := fun C hC => hB C (List.mem_cons_of_mem _ hC)
    have hprod : ovl phi ((B :: l).prod * x) = ovl (Bᴴ * phi) (l.prod * x) := by
      rw [List.prod_cons, ovl, ovl, Matrix.conjTranspose_mul, Matrix.conjTranspose_conjTranspose]
      simp only [Matrix.mul_assoc]
    rw [hprod, backLoop]
    by_cases hc : i ≠ 0 ∧ i % nstblz = 0
    · simp only [if_pos hc]
      obtain ⟨Y, e, ho, he⟩ := Slater.linReortho_ortho qr hqr _ h1
      rw [backLoop_spec qr hqr nstblz l (i + 1) _ _ ho.fullRank hl x, mul_assoc]
      congr 1
      conv_rhs => rw [ho.eq, ovl, Matrix.conjTranspose_mul, Matrix.mul_assoc, Matrix.det_mul, Matrix.det_conjTranspose, ho.det]
      rw [he, ovl]
    · simp only [if_neg hc]
      exact backLoop_spec qr hqr nstblz l (i + 1) _ _ h1 hl x

/-- **C125** Back propagation: the expansion with the back-propagated determinants and weights has with every determinant the overlap of
the trial with the determinant propagated forward, for any number of steps and any frequency of the reorthogonalisation. -/
theorem back_propagation (qr : QR (m + m)) (hqr : QRSpec qr) (nstblz : Nat) (t : Trial m n d) (hr : ∀ k, FullRank (t.psi k)) (Bs : List (Big m))
    (hB : ∀ B ∈ Bs, B.det ≠ 0) (x : Det m n) :
    ∑ k, t.coeffs k * (backPropagate qr nstblz Bs t.psi k).2 * ovl (backPropagate qr nstblz Bs t.psi k).1 x = bra t (Bs.reverse.prod * x) := by
  refine sum_congr rfl fun k _ => ?_
  rw [mul_assoc, backPropagate, backLoop_spec qr hqr nstblz _ _ _ _ (hr k) (fun B hb => hB B (List.mem_reverse.1 hb)), one_mul]

end Verif.Ghf
