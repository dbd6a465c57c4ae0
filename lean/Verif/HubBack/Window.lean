import Verif.HubBack.Path

/-!
# Density matrices of a window: C127
-/

namespace Verif.HubBack

open Matrix Finset Filter Topology
open Verif.Slater
open Verif.Hirsch
open Verif.HubRun (Cone Valid par stepOf steps shifts Kept meanRun)
open Verif.Step (Hub spin tens Anti Sym prodState orbs slater ovl2 spinOp hubOp)
open Verif.Fields (rowStep rows)
open Verif.BackProp (greens Measures mulBoth)

variable {nb nu nd : Nat}

/-! ## The history -/

theorem length_flat : ∀ fs : List (Fin nb → Fin 2), (flat fs).length = fs.length * nb
  | [] => by simp [flat]
  | f :: fs => by
    have : flat (f :: fs) = List.ofFn f ++ flat fs := rfl
    rw [this, List.length_append, List.length_ofFn, length_flat fs, List.length_cons]
    ring

theorem getD_flat : ∀ (fs : List (Fin nb → Fin 2)) (t : Nat) (ht : t < fs.length) (i : Fin nb), (flat fs).getD (t * nb + i) 0 = fs[t] i
  | f :: fs, 0, _, i => by
    have : flat (f :: fs) = List.ofFn f ++ flat fs := rfl
    rw [this, zero_mul, zero_add, List.getD_eq_getElem?_getD, List.getElem?_append_left (by rw [List.length_ofFn]; exact i.2)]
    simp
  | f :: fs, t + 1, ht, i => by
    have : flat (f :: fs) = List.ofFn f ++ flat fs := rfl
    rw [this, List.getD_eq_getElem?_getD, List.getElem?_append_right (by rw [List.length_ofFn]; nlinarith), List.length_ofFn,
      ← List.getD_eq_getElem?_getD, show (t + 1) * nb + i - nb = t * nb + i from by rw [add_mul, one_mul]; omega, getD_flat fs t (by simpa using ht) i]
    rfl

/-- The history gives back the fields step by step. -/
theorem block_flat (hn : 0 < nb) (fs : List (Fin nb → Fin 2)) : block nb (flat fs) = fs := by
  rw [block, length_flat, Nat.mul_div_cancel _ hn]
  refine List.ext_getElem (by simp) fun t h1 h2 => ?_
  funext i
  rw [List.getElem_map, List.getElem_range]
  exact getD_flat fs t h2 i

/-! ## The Green's function -/

theorem fold_mul {m : Nat} (l : List (Matrix (Fin m) (Fin m) ℂ)) (N : Matrix (Fin m) (Fin m) ℂ) :
    l.foldl (fun M B => B * M) N = l.foldl (fun M B => B * M) 1 * N := by
  induction l generalizing N with
  | nil => simp
  | cons B l ih => rw [List.foldl_cons, List.foldl_cons, ih, ih (B * 1), mul_one, Matrix.mul_assoc]

/-- The matrices of back propagation lack a factor. -/
theorem pathMat_fold (h : Hub nb) (dt : ℝ) (s : Fin 2) : ∀ fs : List (Fin nb → Fin 2), pathMat (par h dt) fs s =
    Complex.exp (-(dt * h.U / 2)) ^ fs.length • (fs.map fun f => bpMatrix dt h.U ((par h dt).bt2 s) f s).foldl (fun M B => B * M) 1
  | [] => by simp [pathMat]
  | f :: fs => by
    rw [pathMat, pathMat_fold h dt s fs, List.map_cons, List.foldl_cons, fold_mul _ (_ * 1), mul_one, fieldMat, par, bpMatrix_spin,
      Matrix.smul_mul, Matrix.mul_smul, smul_smul, List.length_cons, pow_succ]
    rfl

theorem bpMatrix_det (h : Hub nb) (dt : ℝ) (f : Fin nb → Fin 2) (s : Fin 2) : (bpMatrix dt h.U ((par h dt).bt2 s) f s).det ≠ 0 := by
  have hk : ((par h dt).bt2 s).det ≠ 0 := (Matrix.isUnit_iff_isUnit_det _).1 (Matrix.isUnit_exp (-((dt : ℂ) / 2) • h.h1 s)) |>.ne_zero
  rw [bpMatrix, Matrix.det_mul, Matrix.det_mul, Matrix.det_diagonal]
  refine mul_ne_zero hk (mul_ne_zero (prod_ne_zero_iff.2 fun i _ => ?_) hk)
  rw [spinAux]
  split_ifs <;> exact Complex.exp_ne_zero _

theorem gab_smul {m l : Nat} (A B : Matrix (Fin m) (Fin l) ℂ) {c : ℂ} (hc : c ≠ 0) : gab (c • A) B = gab A B := by
  have := gab_mix A B (c • (1 : Matrix (Fin l) (Fin l) ℂ)) 1 (by rw [Matrix.det_smul, Matrix.det_one, mul_one]; exact pow_ne_zero _ hc)
    (by rw [Matrix.det_one]; exact one_ne_zero)
  rwa [Matrix.mul_one, Matrix.mul_smul, Matrix.mul_one] at this

/-- The Green's function of back propagation is that of the determinant at the beginning of the window and the trial behind the operators
of the window, in spite of the missing factor and of the reorthogonalisations. -/
theorem green_path (h : Hub nb) (hn : 0 < nb) (dt : ℝ) {qr : QR nb} (hqr : QRSpec qr) (nstblz : Nat) {psi : Wfn nb nu nd}
    (hu : FullRank (up psi)) (hd : FullRank (dn psi)) (v : BW nb nu nd) (fs : List (Fin nb → Fin 2)) (hv : v.hist = flat fs) :
    green dt h.U (par h dt).bt2 qr nstblz psi v = greens (mulBoth (fun s => (pathMat (par h dt) fs s)ᴴ) psi) v.old := by
  have hc : star (Complex.exp (-(dt * h.U / 2)) ^ fs.length) ≠ 0 := star_ne_zero.2 (pow_ne_zero _ (Complex.exp_ne_zero _))
  obtain ⟨-, -, -, -, gu, -⟩ := Slater.backPropagate_adjoint qr hqr nstblz (fs.map fun f => bpMatrix dt h.U ((par h dt).bt2 0) f 0)
    (by
      intro B hB
      obtain ⟨f, -, rfl⟩ := List.mem_map.1 hB
      exact bpMatrix_det h dt f 0) (up psi) (up v.old) hu
  obtain ⟨-, -, -, -, gd, -⟩ := Slater.backPropagate_adjoint qr hqr nstblz (fs.map fun f => bpMatrix dt h.U ((par h dt).bt2 1) f 1)
    (by
      intro B hB
      obtain ⟨f, -, rfl⟩ := List.mem_map.1 hB
      exact bpMatrix_det h dt f 1) (dn psi) (dn v.old) hd
  rw [green, backward, hv, block_flat hn, up_join, dn_join, gu, gd, greens, mulBoth, up_join, dn_join, pathMat_fold, pathMat_fold,
    Matrix.conjTranspose_smul, Matrix.conjTranspose_smul, Matrix.smul_mul, Matrix.smul_mul, gab_smul _ _ hc, gab_smul _ _ hc]

/-! ## Averages -/

theorem cone_rows {p : Par nb} {psi : Wfn nb nu nd} {S : Wfn nb nu nd → Prop} (hS : Cone p psi S) (f : Fin nb → Fin 2) {φ : Wfn nb nu nd}
    (hφ : S φ) : S (rows p.auxf f φ) := by
  rw [← Fields.rowStep_all]
  have : ∀ (l : List (Fin nb)) (φ : Wfn nb nu nd), S φ → S (l.foldl (fun φ i => rowStep p.auxf φ i (f i)) φ) := by
    intro l
    induction l with
    | nil => exact fun φ h => h
    | cons i l ih => exact fun φ h => ih _ (hS.row φ h i (f i))
  exact this _ _ hφ

theorem cone_path {p : Par nb} {psi : Wfn nb nu nd} {S : Wfn nb nu nd → Prop} (hS : Cone p psi S) : ∀ (fs : List (Fin nb → Fin 2))
    {φ : Wfn nb nu nd}, S φ → S (mulBoth (pathMat p fs) φ)
  | [], φ, hφ => by
    have : mulBoth (pathMat p []) φ = φ := BackProp.mulBoth_one φ
    rwa [this]
  | f :: fs, φ, hφ => by
    have e : mulBoth (pathMat p (f :: fs)) φ = mulBoth (pathMat p fs) (kineticReal p.bt2 (rows p.auxf f (kineticReal p.bt2 φ))) := by
      have e1 : kineticReal p.bt2 (rows p.auxf f (kineticReal p.bt2 φ)) = mulBoth (fieldMat p f) φ := by
        simp only [kineticReal, rows, mulBoth, up_join, dn_join, fieldMat, forwardMatrix, Matrix.mul_assoc]
      rw [e1, BackProp.mulBoth_mulBoth]
      rfl
    rw [e]
    exact cone_path hS fs (hS.kin _ (cone_rows hS f (hS.kin _ hφ)))

theorem avgPath_congr {m : Nat} : ∀ (n : Nat) {F G : List (Fin m → Fin 2) → ℂ}, (∀ fs, F fs = G fs) → avgPath n F = avgPath n G
  | 0, _, _, h => h []
  | n + 1, _, _, h => by
    rw [avgPath, avgPath]
    congr 1
    exact sum_congr rfl fun f _ => avgPath_congr n fun fs => h (f :: fs)

/-- **C127** (a window) The average, over all random numbers of a window, of weight times a quantity computed from the back-propagated
Green's function, for any energy shifts and any reorthogonalisations of walkers and trial: the quantity is measured at the beginning of
the window, between the walker and the trial evolved by the window. -/
theorem share_average (h : Hub nb) (hn : 0 < nb) {dt : ℝ} (hU : 0 ≤ dt * h.U) {psi : Wfn nb nu nd} {S : Wfn nb nu nd → Prop}
    (hS : Cone (par h dt) psi S) {qr qr' : QR nb} (hqr : QRSpec qr) (hqr' : QRSpec qr') (hk : Kept qr S) (nstblz : Nat)
    {E : (Fin 2 → Matrix (Fin nb) (Fin nb) ℂ) → ℂ} {O : Matrix (Fin nu ⊕ Fin nd → Fin nb) (Fin nu ⊕ Fin nd → Fin nb) ℂ} (hE : Measures E O)
    (l : List (Option ℝ)) {w : Wk nb nu nd} (hw : Valid psi S w) (hs : w.detRShift = 0) :
    meanWin (par h dt) psi qr l (share dt h.U (par h dt).bt2 qr' nstblz psi E) (fresh w) =
      Real.exp (dt * shifts l) * (w.weight / overlap psi w.phi) *
        (slater psi ⬝ᵥ (stepOf h dt ^ steps l *ᵥ (O *ᵥ prodState (orbs w.phi)))) := by
  have hne := (hS.pos _ hw.mem).ne
  have hfu : FullRank (up psi) := BackProp.fullRank_left (left_ne_zero_of_mul hne)
  have hfd : FullRank (dn psi) := BackProp.fullRank_left (right_ne_zero_of_mul hne)
  let X : List (Fin 2) → ℂ := fun g => E (green dt h.U (par h dt).bt2 qr' nstblz psi ⟨w, w.phi, g⟩)
  have e1 := window_congr hS hqr hk (c := w.logShift) (o := w.phi) (F := share dt h.U (par h dt).bt2 qr' nstblz psi E)
    (G := fun u => u.w.weight / u.w.ot * (((Complex.exp (w.logShift : ℂ) * X u.hist) • slater psi) ⬝ᵥ prodState (orbs u.w.phi))) (by
      intro u hu hc ho
      have e2 := HubRun.weight_eq hS hu
      rw [hc] at e2
      rw [share]
      have e3 : E (green dt h.U (par h dt).bt2 qr' nstblz psi u) = X u.hist := by
        simp only [X, green, ho]
      rw [smul_dotProduct, smul_eq_mul] at e2
      rw [e3, smul_dotProduct, smul_eq_mul]
      refine (congrArg (· * X u.hist) e2).trans ?_
      ring) l (fresh w) hw rfl rfl hs
  rw [e1, window_average hS hqr hk l (fresh w) hw hs (fun g => (Complex.exp (w.logShift : ℂ) * X g) • slater psi)
    (fun g => HubRun.anti_smul (Step.slater_anti psi) _)]
  have e4 : ∀ fs : List (Fin nb → Fin 2), (((Complex.exp (w.logShift : ℂ) * X (flat fs)) • slater psi) ᵥ*
      (tens fun a => pathMat (par h dt) fs (spin a))) ⬝ᵥ prodState (orbs w.phi) =
      ((Complex.exp (w.logShift : ℂ) • slater psi) ᵥ* (tens fun a => pathMat (par h dt) fs (spin a))) ⬝ᵥ (O *ᵥ prodState (orbs w.phi)) := by
    intro fs
    have e5 : X (flat fs) = E (greens (mulBoth (fun s => (pathMat (par h dt) fs s)ᴴ) psi) w.phi) := by
      simp only [X]
      rw [green_path h hn dt hqr' nstblz hfu hfd _ fs rfl]
    have hne' : ovl2 (mulBoth (fun s => (pathMat (par h dt) fs s)ᴴ) psi) w.phi ≠ 0 := by
      rw [← BackProp.ovl2_mulBoth]
      exact (hS.pos _ (cone_path hS fs hw.mem)).ne
    have e6 := hE _ _ hne'
    rw [Step.ovl2_eq, BackProp.slater_adj, ← e5] at e6
    rw [Matrix.smul_vecMul, Matrix.smul_vecMul, smul_dotProduct, smul_dotProduct, smul_eq_mul, smul_eq_mul, ← e6]
    ring
  have e7 : (fresh w).hist = [] := rfl
  have e8 : (fresh w).w = w := rfl
  simp only [e7, e8, List.nil_append]
  rw [pathVec_avg, avgPath_congr _ e4]
  have e9 := pathVec_avg (par h dt) (steps l) (fun _ => Complex.exp (w.logShift : ℂ) • slater psi) (O *ᵥ prodState (orbs w.phi))
  rw [← e9, pathVec_const h hU (HubRun.anti_smul (Step.slater_anti psi) _), Matrix.smul_vecMul, smul_dotProduct, ← Matrix.dotProduct_mulVec,
    hw.ot, smul_eq_mul]
  have hx := Complex.exp_ne_zero (w.logShift : ℂ)
  have hp : (par h dt).dt = dt := rfl
  rw [hp]
  field_simp

/-! ## A run before the window -/

/-- A run, then a window: the average over all random numbers. -/
noncomputable def backMean (p : Par nb) (psi : Wfn nb nu nd) (qr : QR nb) (l l' : List (Option ℝ)) (F : BW nb nu nd → ℂ) (w : Wk nb nu nd) : ℂ :=
  meanRun p psi qr l (fun w => meanWin p psi qr l' F (fresh w)) w

/-- **C127** The average, over all random numbers of a run and of the window at its end, of weight times a quantity computed from the
back-propagated Green's function. -/
theorem back_average (h : Hub nb) (hn : 0 < nb) {dt : ℝ} (hU : 0 ≤ dt * h.U) {psi : Wfn nb nu nd} {S : Wfn nb nu nd → Prop}
    (hS : Cone (par h dt) psi S) {qr qr' : QR nb} (hqr : QRSpec qr) (hqr' : QRSpec qr') (hk : Kept qr S) (nstblz : Nat)
    {E : (Fin 2 → Matrix (Fin nb) (Fin nb) ℂ) → ℂ} {O : Matrix (Fin nu ⊕ Fin nd → Fin nb) (Fin nu ⊕ Fin nd → Fin nb) ℂ} (hE : Measures E O)
    (hO : Sym spin O) (l l' : List (Option ℝ)) {w : Wk nb nu nd} (hw : Valid psi S w) (hs : w.detRShift = 0) :
    backMean (par h dt) psi qr l l' (share dt h.U (par h dt).bt2 qr' nstblz psi E) w =
      Real.exp (dt * (shifts l + shifts l')) * (w.weight / overlap psi w.phi) *
        (slater psi ⬝ᵥ ((stepOf h dt ^ steps l' * O * stepOf h dt ^ steps l) *ᵥ prodState (orbs w.phi))) := by
  rw [backMean]
  have e1 : ∀ u : Wk nb nu nd, Valid psi S u → u.logShift = w.logShift → u.detRShift = 0 →
      meanWin (par h dt) psi qr l' (share dt h.U (par h dt).bt2 qr' nstblz psi E) (fresh u) =
      u.weight / u.ot * (((Real.exp (dt * shifts l') * Complex.exp (w.logShift : ℂ) : ℂ) • (slater psi ᵥ* (stepOf h dt ^ steps l' * O))) ⬝ᵥ
        prodState (orbs u.phi)) := by
    intro u hu hc hsu
    rw [share_average h hn hU hS hqr hqr' hk nstblz hE l' hu hsu, smul_dotProduct, smul_eq_mul, ← Matrix.dotProduct_mulVec,
      Matrix.mulVec_mulVec, hu.ot, hc]
    have hx := Complex.exp_ne_zero (w.logShift : ℂ)
    have hne := (hS.pos _ hu.mem).ne
    field_simp
  have hA : Anti spin ((Real.exp (dt * shifts l') * Complex.exp (w.logShift : ℂ) : ℂ) • (slater psi ᵥ* (stepOf h dt ^ steps l' * O))) := by
    refine HubRun.anti_smul ?_ _
    rw [← Matrix.vecMul_vecMul]
    exact (HubRun.vecMul_pow_anti (HubRun.stepOf_sym h dt) _ (Step.slater_anti psi)).vecMul hO
  have e2 : meanRun (par h dt) psi qr l (fun w => meanWin (par h dt) psi qr l' (share dt h.U (par h dt).bt2 qr' nstblz psi E) (fresh w)) w =
      meanRun (par h dt) psi qr l (fun u => u.weight / u.ot * (((Real.exp (dt * shifts l') * Complex.exp (w.logShift : ℂ) : ℂ) •
        (slater psi ᵥ* (stepOf h dt ^ steps l' * O))) ⬝ᵥ prodState (orbs u.phi))) w := by
    have key : ∀ (l : List (Option ℝ)) (u : Wk nb nu nd), Valid psi S u → u.logShift = w.logShift → u.detRShift = 0 →
        meanRun (par h dt) psi qr l (fun w => meanWin (par h dt) psi qr l' (share dt h.U (par h dt).bt2 qr' nstblz psi E) (fresh w)) u =
        meanRun (par h dt) psi qr l (fun u => u.weight / u.ot * (((Real.exp (dt * shifts l') * Complex.exp (w.logShift : ℂ) : ℂ) •
          (slater psi ᵥ* (stepOf h dt ^ steps l' * O))) ⬝ᵥ prodState (orbs u.phi))) u := by
      intro l
      induction l with
      | nil => exact fun u h1 h2 h3 => e1 u h1 h2 h3
      | cons x l ih =>
        intro u h1 h2 h3
        rcases x with _ | e
        · rw [meanRun, meanRun]
          obtain ⟨k1, -, k3, k4, -⟩ := h1.reortho hS hqr hk h3
          exact ih _ k1 (k3.trans h2) k4
        · rw [meanRun, meanRun]
          congr 1
          funext rs
          obtain ⟨k1, k2, k3⟩ := h1.step hS e rs
          exact ih _ k1 (k2.trans h2) (k3.trans h3)
    exact key l w hw rfl hs
  rw [e2, HubRun.run_average h hU hS hqr hk l w hw hs _ hA, smul_dotProduct, smul_eq_mul, ← Matrix.dotProduct_mulVec, Matrix.mulVec_mulVec,
    hw.ot, mul_add, Real.exp_add]
  have hx := Complex.exp_ne_zero (w.logShift : ℂ)
  have hne := (hS.pos _ hw.mem).ne
  push_cast
  field_simp

/-- What the estimator prints for the quantity: the average of weight times quantity over the average of the weight. -/
noncomputable def backQuotient (h : Hub nb) (dt : ℝ) (psi : Wfn nb nu nd) (qr qr' : QR nb) (nstblz : Nat) (l l' : List (Option ℝ))
    (E : (Fin 2 → Matrix (Fin nb) (Fin nb) ℂ) → ℂ) (w : Wk nb nu nd) : ℂ :=
  backMean (par h dt) psi qr l l' (share dt h.U (par h dt).bt2 qr' nstblz psi E) w /
    backMean (par h dt) psi qr l l' (share dt h.U (par h dt).bt2 qr' nstblz psi fun _ => 1) w

theorem sym_one : Sym spin (1 : Matrix (Fin nu ⊕ Fin nd → Fin nb) (Fin nu ⊕ Fin nd → Fin nb) ℂ) := Step.Sym.one

theorem quotient_eq (h : Hub nb) (hn : 0 < nb) {dt : ℝ} (hU : 0 ≤ dt * h.U) {psi : Wfn nb nu nd} {S : Wfn nb nu nd → Prop}
    (hS : Cone (par h dt) psi S) {qr qr' : QR nb} (hqr : QRSpec qr) (hqr' : QRSpec qr') (hk : Kept qr S) (nstblz : Nat)
    {E : (Fin 2 → Matrix (Fin nb) (Fin nb) ℂ) → ℂ} {O : Matrix (Fin nu ⊕ Fin nd → Fin nb) (Fin nu ⊕ Fin nd → Fin nb) ℂ} (hE : Measures E O)
    (hO : Sym spin O) (l l' : List (Option ℝ)) {w : Wk nb nu nd} (hw : Valid psi S w) (hs : w.detRShift = 0) (h0 : w.weight ≠ 0) :
    backQuotient h dt psi qr qr' nstblz l l' E w =
      (slater psi ⬝ᵥ ((stepOf h dt ^ steps l' * O * stepOf h dt ^ steps l) *ᵥ prodState (orbs w.phi))) /
        (slater psi ⬝ᵥ ((stepOf h dt ^ steps l' * stepOf h dt ^ steps l) *ᵥ prodState (orbs w.phi))) := by
  rw [backQuotient, back_average h hn hU hS hqr hqr' hk nstblz hE hO l l' hw hs,
    back_average h hn hU hS hqr hqr' hk nstblz BackProp.measures_weight sym_one l l' hw hs, Matrix.mul_one, mul_div_mul_left]
  exact mul_ne_zero (Complex.ofReal_ne_zero.2 (Real.exp_pos _).ne') (div_ne_zero (Complex.ofReal_ne_zero.2 h0) (hS.pos _ hw.mem).ne)

/-- The matrix element between the evolved trial and the evolved walker over their overlap. -/
noncomputable def exactBack (h : Hub nb) (psi φ : Wfn nb nu nd) (O : Matrix (Fin nu ⊕ Fin nd → Fin nb) (Fin nu ⊕ Fin nd → Fin nb) ℂ)
    (β β' : ℝ) : ℂ :=
  (slater psi ⬝ᵥ ((NormedSpace.exp (-(β' : ℂ) • hubOp h.h1 h.U spin) * O * NormedSpace.exp (-(β : ℂ) • hubOp h.h1 h.U spin)) *ᵥ prodState (orbs φ))) /
    (slater psi ⬝ᵥ ((NormedSpace.exp (-(β' : ℂ) • hubOp h.h1 h.U spin) * NormedSpace.exp (-(β : ℂ) • hubOp h.h1 h.U spin)) *ᵥ
      prodState (orbs φ)))

end Verif.HubBack
