import Verif.HubRun.Pair

/-!
# Free projection of attractive Hubbard models with paired electrons: C134
-/

namespace Verif.HubRun

open Matrix Finset
open Verif.Slater
open Verif.Hirsch
open Verif.Step (Hub)
open Verif.Uhf (Eig Eigh)

variable {nb n : Nat}

theorem Real'.inv {A : Matrix (Fin n) (Fin n) ℂ} (h : Real' A) : Real' A⁻¹ :=
  .of_adj (by rw [Matrix.conjTranspose_nonsing_inv, Matrix.transpose_nonsing_inv, h.adj])

theorem forward_real {h : Hub nb} (hh : Plain h) (dt : ℝ) (f : Fin nb → Fin 2) : Real' (forwardMatrix (chPar h dt) f 0) := by
  rw [forwardMatrix]
  refine ((bt2_real hh dt).mul fun a b => ?_).mul (bt2_real hh dt)
  rw [Matrix.diagonal_apply]
  split_ifs
  · exact (charge_aux_pos h dt (f a) 0).star
  · simp

theorem forward_same {h : Hub nb} (hh : Plain h) (dt : ℝ) (f : Fin nb → Fin 2) : forwardMatrix (chPar h dt) f 1 = forwardMatrix (chPar h dt) f 0 := by
  have hb : (chPar h dt).bt2 1 = (chPar h dt).bt2 0 := by
    show NormedSpace.exp (-((dt : ℂ) / 2) • h.h1 1) = NormedSpace.exp (-((dt : ℂ) / 2) • h.h1 0)
    rw [hh.same]
  rw [forwardMatrix, forwardMatrix, hb]
  rfl

theorem charge_forward_det (h : Hub nb) (dt : ℝ) (f : Fin nb → Fin 2) (s : Fin 2) : (forwardMatrix (chPar h dt) f s).det ≠ 0 := by
  have hs : IsUnit ((chPar h dt).bt2 s) := by
    have : IsUnit (NormedSpace.exp (-((dt : ℂ) / 2) • h.h1 s)) := Matrix.isUnit_exp _
    exact this
  rw [Matrix.isUnit_iff_isUnit_det, isUnit_iff_ne_zero] at hs
  rw [forwardMatrix, Matrix.det_mul, Matrix.det_mul, Matrix.det_diagonal]
  exact mul_ne_zero (mul_ne_zero hs (prod_ne_zero_iff.2 fun i _ => (charge_aux_pos h dt (f i) s).ne)) hs

theorem ops_real {h : Hub nb} (hh : Plain h) (dt : ℝ) : ∀ l : List (FreeOp nb), Real' (opsMatrix (chPar h dt) 0 l)
  | [] => fun i j => by rw [opsMatrix, Matrix.one_apply]; split_ifs <;> simp
  | none :: l => ops_real hh dt l
  | some (f, _) :: l => (ops_real hh dt l).mul (forward_real hh dt f)

theorem ops_same {h : Hub nb} (hh : Plain h) (dt : ℝ) : ∀ l : List (FreeOp nb), opsMatrix (chPar h dt) 1 l = opsMatrix (chPar h dt) 0 l
  | [] => rfl
  | none :: l => ops_same hh dt l
  | some (f, _) :: l => by rw [opsMatrix, opsMatrix, ops_same hh dt l, forward_same hh dt f]

theorem charge_opsFactor (h : Hub nb) (dt : ℝ) : ∀ l : List (FreeOp nb), IsPos (opsFactor (chPar h dt) l)
  | [] => ⟨1, one_pos, by simp [opsFactor]⟩
  | none :: l => charge_opsFactor h dt l
  | some (f, x) :: l => by
    rw [opsFactor]
    refine IsPos.mul (IsPos.mul ⟨_, Real.exp_pos _, rfl⟩ ?_) (charge_opsFactor h dt l)
    choose r hr er using fun i => charge_wfac_pos h dt (f i)
    exact ⟨∏ i, r i, prod_pos fun i _ => hr i, by push_cast; exact prod_congr rfl fun i _ => er i⟩

/-- **C134** Free projection of an attractive Hubbard model with paired electrons has no sign problem, on any lattice and for any time step:
whatever the fields, weight × phase × overlap is real and not negative. -/
theorem paired_free {h : Hub nb} (hh : Plain h) (dt : ℝ) {psi : Wfn nb n n} (hψ : Paired psi) {qr : QR nb} (hqr : QRSpec qr) (ops : List (FreeOp nb)) :
    let w := ops.foldl (freeOp (chPar h dt) qr psi) (start psi)
    ∃ r : ℝ, 0 ≤ r ∧ (w.weight : ℂ) * w.phase * w.ot = r := by
  intro w
  have rd : FullRank (dn psi) := by
    rw [hψ.same]
    exact hψ.indep
  obtain ⟨h1, h2⟩ := free_run (chPar h dt) qr hqr psi (charge_forward_det h dt) ops (start psi) hψ.indep rd rfl rfl rfl
  obtain ⟨c, hc, ec⟩ := charge_opsFactor h dt ops
  have hr : star ((up psi)ᴴ * (opsMatrix (chPar h dt) 0 ops * up psi)).det = ((up psi)ᴴ * (opsMatrix (chPar h dt) 0 ops * up psi)).det :=
    Real'.det (hψ.real.transpose.mul ((ops_real hh dt ops).mul hψ.real))
  obtain ⟨d, ed⟩ := Complex.conj_eq_iff_real.1 hr
  refine ⟨c * (d * d), mul_nonneg hc.le (mul_self_nonneg d), ?_⟩
  have h3 := h1 psi
  rw [← h2] at h3
  refine h3.trans ?_
  show ((1 : ℝ) : ℂ) * 1 * _ * overlap psi (join (opsMatrix (chPar h dt) 0 ops * up psi) (opsMatrix (chPar h dt) 1 ops * dn psi)) = _
  rw [overlap, up_join, dn_join, ops_same hh dt, hψ.same, ed, ec]
  push_cast
  ring

/-- What free projection keeps. -/
structure Same (psi φ : Wfn nb n n) : Prop where
  same : dn φ = up φ
  real : ∃ R : Matrix (Fin nb) (Fin n) ℂ, ∃ X : Matrix (Fin n) (Fin n) ℂ, Real' R ∧ FullRank R ∧ X.det ≠ 0 ∧ up φ = R * X

theorem Same.rank {psi φ : Wfn nb n n} (h : Same psi φ) : FullRank (up φ) := by
  obtain ⟨-, R, X, -, hR, hX, e⟩ := h
  rw [FullRank, e, Matrix.conjTranspose_mul, Matrix.mul_assoc, ← Matrix.mul_assoc Rᴴ, Matrix.det_mul, Matrix.det_mul, Matrix.det_conjTranspose]
  exact mul_ne_zero (star_ne_zero.2 hX) (mul_ne_zero hR hX)

theorem Same.reortho {psi : Wfn nb n n} {w : Wk nb n n} (h : Same psi w.phi) {qr : QR nb} (hqr : QRSpec qr) : Same psi (reortho qr w).phi := by
  have hd : FullRank (dn w.phi) := by
    rw [h.same]
    exact h.rank
  obtain ⟨-, ⟨X, Y, hX, -, e1, -⟩, -⟩ := reortho_facts qr hqr w h.rank hd
  obtain ⟨R, Z, hR, rR, hZ, e⟩ := h.real
  refine ⟨?_, R, Z * X⁻¹, hR, rR, ?_, ?_⟩
  · show dn (join _ _) = up (join _ _)
    rw [dn_join, up_join, h.same]
  · rw [Matrix.det_mul, Matrix.det_nonsing_inv, Ring.inverse_eq_inv']
    exact mul_ne_zero hZ (inv_ne_zero hX)
  · rw [← Matrix.mul_assoc, ← e, e1, Matrix.mul_assoc, Matrix.mul_nonsing_inv _ (isUnit_iff_ne_zero.2 hX), Matrix.mul_one]

theorem free_same {h : Hub nb} (hh : Plain h) (dt : ℝ) {psi : Wfn nb n n} (hψ : Paired psi) {qr : QR nb} (hqr : QRSpec qr) (ops : List (FreeOp nb)) :
    Same psi (ops.foldl (freeOp (chPar h dt) qr psi) (start psi)).phi := by
  have h0 : Same psi (start psi).phi := ⟨hψ.same, up psi, 1, hψ.real, hψ.indep, by rw [Matrix.det_one]; exact one_ne_zero, (Matrix.mul_one _).symm⟩
  generalize start psi = w at h0
  induction ops generalizing w with
  | nil => exact h0
  | cons o l ih =>
    match o with
    | none => exact ih _ (h0.reortho hqr)
    | some (f, x) =>
      refine ih _ ?_
      obtain ⟨fu, fd, -⟩ := freeStep_spec (chPar h dt) psi x f w
      obtain ⟨hs, R, X, hR, rR, hX, e⟩ := h0
      refine ⟨?_, forwardMatrix (chPar h dt) f 0 * R, X, (forward_real hh dt f).mul hR, rR.mul (charge_forward_det h dt f 0), hX, ?_⟩
      · show dn (freeStep (chPar h dt) psi x f w).phi = up (freeStep (chPar h dt) psi x f w).phi
        rw [fu, fd, forward_same hh dt, hs]
      · show up (freeStep (chPar h dt) psi x f w).phi = _
        rw [fu, e, Matrix.mul_assoc]

/-- **C134** Both spins have the same, real Green's function, and the local energy is real. -/
theorem paired_energy {h : Hub nb} (hh : Plain h) {psi : Wfn nb n n} (hψ : Paired psi) {w : Wk nb n n} (hs : Same psi w.phi)
    (hne : overlap psi w.phi ≠ 0) : (greensFunction psi w).gDn = (greensFunction psi w).gUp ∧ Real' (greensFunction psi w).gUp ∧
      (energy h psi w).im = 0 := by
  obtain ⟨eu, ed⟩ := greensFunction_eq psi w
  have hg : (greensFunction psi w).gDn = (greensFunction psi w).gUp := by rw [eu, ed, hψ.same, hs.same]
  obtain ⟨R, X, hR, rR, hX, e⟩ := hs.real
  have hu : ((up psi)ᴴ * R).det ≠ 0 := by
    have := left_ne_zero_of_mul hne
    rw [e, ← Matrix.mul_assoc, Matrix.det_mul] at this
    exact left_ne_zero_of_mul this
  have hG : gab (up psi) (up w.phi) = gab (up psi) R := by
    have h1 : IsUnit X.det := isUnit_iff_ne_zero.2 hX
    rw [gab, gab, e, ← Matrix.mul_assoc _ R X, Matrix.mul_inv_rev, Matrix.mul_assoc R X, Matrix.mul_assoc X⁻¹, ← Matrix.mul_assoc X,
      Matrix.mul_nonsing_inv _ h1, Matrix.one_mul]
  have hr : Real' (greensFunction psi w).gUp := by
    have h1 : Real' (gab (up psi) R) := hR.mul ((Real'.inv (hψ.real.transpose.mul hR)).mul hψ.real.transpose)
    rw [eu, hG]
    exact fun i j => h1 j i
  refine ⟨hg, hr, ?_⟩
  have hz : ∀ i j, ((greensFunction psi w).gUp i j).im = 0 := fun i j => Complex.conj_eq_iff_im.1 (hr i j)
  have ht : ∀ i j, (h.h1 0 i j).im = 0 := fun i j => Complex.conj_eq_iff_im.1 (hh.real i j)
  show ((∑ i, ∑ j, h.h1 0 i j * (greensFunction psi w).gUp i j + ∑ i, ∑ j, h.h1 1 i j * (greensFunction psi w).gDn i j) +
    (h.U : ℂ) * ∑ i, (greensFunction psi w).gUp i i * (greensFunction psi w).gDn i i).im = 0
  rw [hg, hh.same]
  have e1 : (∑ i, ∑ j, h.h1 0 i j * (greensFunction psi w).gUp i j).im = 0 := by
    rw [Complex.im_sum]
    refine sum_eq_zero fun i _ => ?_
    rw [Complex.im_sum]
    refine sum_eq_zero fun j _ => ?_
    rw [Complex.mul_im, hz, ht, mul_zero, zero_mul, add_zero]
  have e2 : (∑ i, (greensFunction psi w).gUp i i * (greensFunction psi w).gUp i i).im = 0 := by
    rw [Complex.im_sum]
    refine sum_eq_zero fun i _ => ?_
    rw [Complex.mul_im, hz, mul_zero, zero_mul, add_zero]
  rw [Complex.add_im, Complex.add_im, e1, Complex.mul_im, e2, Complex.ofReal_im]
  simp

/-- **C134** In free projection numerator and denominator of the energy are real, walker by walker. -/
theorem paired_free_energy {h : Hub nb} (hh : Plain h) (dt : ℝ) {psi : Wfn nb n n} (hψ : Paired psi) {qr : QR nb} (hqr : QRSpec qr)
    (ops : List (FreeOp nb)) :
    let w := ops.foldl (freeOp (chPar h dt) qr psi) (start psi)
    overlap psi w.phi ≠ 0 → (greensFunction psi w).gDn = (greensFunction psi w).gUp ∧
      ((w.weight : ℂ) * w.phase * w.ot * energy h psi w).im = 0 := by
  intro w hne
  obtain ⟨h1, -, h3⟩ := paired_energy hh hψ (free_same hh dt hψ hqr ops) hne
  obtain ⟨r, -, er⟩ := paired_free hh dt hψ hqr ops
  refine ⟨h1, ?_⟩
  have er' : (w.weight : ℂ) * w.phase * w.ot = r := er
  rw [er', Complex.mul_im, h3, Complex.ofReal_im]
  simp

theorem path_det (h : Hub nb) (dt : ℝ) : ∀ l, (path (chPar h dt) l).det ≠ 0
  | [] => by rw [path, Matrix.det_one]; exact one_ne_zero
  | none :: l => by
    have hs : IsUnit (NormedSpace.exp (-((dt : ℂ) / 2) • h.h1 0)) := Matrix.isUnit_exp _
    rw [Matrix.isUnit_iff_isUnit_det, isUnit_iff_ne_zero] at hs
    rw [path, Matrix.det_mul]
    exact mul_ne_zero hs (path_det h dt l)
  | some (i, xi) :: l => by
    rw [path, Matrix.det_mul, Matrix.det_diagonal]
    refine mul_ne_zero (prod_ne_zero_iff.2 fun j _ => ?_) (path_det h dt l)
    split_ifs
    · exact (charge_aux_pos h dt xi 0).ne
    · exact one_ne_zero

/-- Walkers of constrained runs (C131) have the same properties. -/
theorem Twin.same {h : Hub nb} (hh : Plain h) {dt : ℝ} {psi φ : Wfn nb n n} (hψ : Paired psi) (ht : Twin (chPar h dt) psi φ) : Same psi φ := by
  obtain ⟨hd, l, X, hX, e⟩ := ht
  exact ⟨hd, path (chPar h dt) l * up psi, X, (path_real hh dt l).mul hψ.real, hψ.indep.mul (path_det h dt l), hX.ne, e⟩

/-- Energies of walkers as in C131. -/
theorem twin_energy {h : Hub nb} (hh : Plain h) {dt : ℝ} {psi : Wfn nb n n} (hψ : Paired psi) (hc : Clear (chPar h dt) psi) {w : Wk nb n n}
    (ht : Twin (chPar h dt) psi w.phi) : (greensFunction psi w).gDn = (greensFunction psi w).gUp ∧ (energy h psi w).im = 0 := by
  obtain ⟨h1, -, h3⟩ := paired_energy hh hψ (ht.same hh hψ) ((twin_cone hh hψ hc).pos _ ht).ne
  exact ⟨h1, h3⟩

/-- A step with random numbers and energy shift (`propagate_walker_constrained`, propagation/hubbard.py 277-301), or a
reorthogonalisation (walkers/handler.py 176-181). -/
noncomputable def pairAct (p : Par nb) (qr : QR nb) (psi : Wfn nb n n) (w : Wk nb n n) : Option ((Fin nb → ℝ) × ℝ) → Wk nb n n
  | none => orthogonalise qr false w
  | some (rs, x) => constrainedStep p psi x rs w

/-- **C134** In constrained runs no walker is ever cut; both spins have the same Green's function and the energy is real, after every
sequence of steps and reorthogonalisations, but for countably many time steps. -/
theorem paired_run_energy (h : Hub nb) (hU : h.U < 0) (hh : Plain h) {psi : Wfn nb n n} (hψ : Paired psi) {qr : QR nb} (hqr : QRSpec qr) :
    ∃ Z : Set ℝ, Z.Countable ∧ ∀ dt, 0 ≤ dt → dt ∉ Z → ∀ l : List (Option ((Fin nb → ℝ) × ℝ)),
      let w := l.foldl (pairAct (chPar h dt) qr psi) (start psi)
      0 < w.weight ∧ (greensFunction psi w).gDn = (greensFunction psi w).gUp ∧ (energy h psi w).im = 0 := by
  refine ⟨_, clear_countable h hU hψ.indep, fun dt hdt hZ l => ?_⟩
  have hc : Clear (chPar h dt) psi := by
    by_contra hcon
    exact hZ ⟨hdt, hcon⟩
  have hS := twin_cone hh hψ hc
  have key : ∀ (l : List (Option ((Fin nb → ℝ) × ℝ))) (w : Wk nb n n), Ready psi (Twin (chPar h dt) psi) 0 w →
      Ready psi (Twin (chPar h dt) psi) 0 (l.foldl (pairAct (chPar h dt) qr psi) w) := by
    intro l
    induction l with
    | nil => exact fun w hw => hw
    | cons o l ih =>
      intro w hw
      match o with
      | none => exact ih _ (hw.ortho hS hqr (twin_kept hc hqr))
      | some (rs, x) => exact ih _ (hw.step hS x rs)
  have hr := key l (start psi) (start_ready (twin_start hψ))
  exact ⟨hr.pos, twin_energy hh hψ hc hr.valid.mem⟩

/-- Case: the attractive lattice of `paired_case`. -/
theorem paired_free_case : ∃ (eig : Eig (2 * 3)) (qr : QR (2 * 3)), Eigh eig ∧ RealEig eig ∧ QRSpec qr ∧ ∀ (dt : ℝ) (ops : List (FreeOp (2 * 3))),
    let h := lattice 1 (-4) false 3 2 true true
    let psi : Wfn (2 * 3) 2 2 := freeElectron eig h.h1 (by norm_num) (by norm_num)
    let w := ops.foldl (freeOp (chPar h dt) qr psi) (start psi)
    (∃ r : ℝ, 0 ≤ r ∧ (w.weight : ℂ) * w.phase * w.ot = r) ∧
      (overlap psi w.phi ≠ 0 → ((w.weight : ℂ) * w.phase * w.ot * energy h psi w).im = 0) := by
  obtain ⟨eig, he, hr⟩ := realEig_exists (2 * 3)
  have hh := lattice_plain 1 (-4) false 3 2 true true
  have hψ := cols_paired he hr hh (n := 2) (by norm_num)
  exact ⟨eig, someQR _, he, hr, someQR_spec _, fun dt ops => ⟨paired_free hh dt hψ (someQR_spec _) ops,
    fun hne => (paired_free_energy hh dt hψ (someQR_spec _) ops hne).2⟩⟩

end Verif.HubRun
