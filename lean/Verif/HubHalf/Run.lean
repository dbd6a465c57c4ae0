import Verif.HubHalf.Props

/-!
# Constrained runs of half-filled Hubbard models with `two_body_direct`: C132
-/

namespace Verif.HubHalf

open Matrix Finset
open Verif.Slater
open Verif.Hirsch
open Verif.HubRun (par start)
open Verif.Step (Hub)

variable {nb nu nd n : Nat}

open Classical in
/-- `propagate_walker_constrained`, propagation/hubbard.py 277-302, with `two_body` the function `two_body_direct` (lines 56-57). -/
noncomputable def directStep (p : Par nb) (γ : ℂ) (psi : Wfn nb nu nd) (eshift : ℝ) (rs : Fin nb → ℝ) (w : Wk nb nu nd) : Wk nb nu nd :=
  let w1 := if 0 < |w.weight| then kineticIS p psi w else w
  let w2 := if 0 < |w1.weight| then direct p false γ psi rs w1 else w1
  let w3 := if 0 < |w2.weight| then kineticIS p psi w2 else w2
  { w3 with weight := w3.weight * Real.exp (p.dt * eshift) }

/-- `kinetic_importance_sampling`, propagation/hubbard.py 146-170, without the constraint. -/
noncomputable def kineticAll (p : Par nb) (psi : Wfn nb nu nd) (w : Wk nb nu nd) : Wk nb nu nd :=
  let w1 := inverseOverlap psi { w with phi := kineticReal p.bt2 w.phi }
  { w1 with weight := w.weight * (calcOtrial w1 / w.ot).re, ot := calcOtrial w1 }

/-- `two_body_direct`, propagation/hubbard.py 222-275, without the constraint. -/
noncomputable def directAll (p : Par nb) (γ : ℂ) (psi : Wfn nb nu nd) (rs : Fin nb → ℝ) (w : Wk nb nu nd) : Wk nb nu nd :=
  let g := greensFunction psi w
  let s := fbLoop γ ((List.finRange nb).map fun i => (fbTerm false (g.gUp i i) (g.gDn i i), rs i)) ([], 1)
  let fields : Fin nb → Fin 2 := fun i => s.1.getD i 0
  let φ := join (diagonal (fun i => p.auxf (fields i) 0) * up w.phi) (diagonal (fun i => p.auxf (fields i) 1) * dn w.phi)
  let ovlp := calcOverlap psi { w with phi := φ }
  { w with phi := φ, ot := ovlp, ovlp := ovlp, weight := w.weight * (s.2 * ((∏ i, p.wfac (fields i)) * ovlp / w.ot)).re }

open Classical in
/-- A step without the constraint. -/
noncomputable def stepAll (p : Par nb) (γ : ℂ) (psi : Wfn nb nu nd) (eshift : ℝ) (rs : Fin nb → ℝ) (w : Wk nb nu nd) : Wk nb nu nd :=
  let w1 := if 0 < |w.weight| then kineticAll p psi w else w
  let w2 := if 0 < |w1.weight| then directAll p γ psi rs w1 else w1
  let w3 := if 0 < |w2.weight| then kineticAll p psi w2 else w2
  { w3 with weight := w3.weight * Real.exp (p.dt * eshift) }

/-- What happens to a walker: `none` orthogonalises it, `some (rs, x)` is a step with random numbers `rs` and energy shift `x`. -/
noncomputable def act (step : ℝ → (Fin nb → ℝ) → Wk nb nu nd → Wk nb nu nd) (qr : QR nb) (w : Wk nb nu nd) :
    Option ((Fin nb → ℝ) × ℝ) → Wk nb nu nd
  | none => reortho qr w
  | some (rs, x) => step x rs w

/-- What is kept during a run. -/
structure Kept (hn : n + n = nb) (A : Fin nb → Bool) (psi : Wfn nb n n) (w : Wk nb n n) : Prop where
  half : Half (finSumFinEquiv.trans (finCongr hn)) A psi w.phi
  log : w.logShift = 0
  shift : w.detRShift = 0
  ot : w.ot = overlap psi w.phi

theorem half_right {e : Fin nu ⊕ Fin nd ≃ Fin nb} {A : Fin nb → Bool} {psi φ φ' : Wfn nb nu nd} (h : Half e A psi φ)
    {X : Matrix (Fin nu) (Fin nu) ℂ} {Y : Matrix (Fin nd) (Fin nd) ℂ} (hX : X.det ≠ 0) (hY : Y.det ≠ 0) (hp : IsPos (X.det * Y.det))
    (hu : up φ = up φ' * X) (hd : dn φ = dn φ' * Y) (ru : FullRank (up φ')) (rd : FullRank (dn φ')) : Half e A psi φ' := by
  refine ⟨?_, ru, rd.mul (sgn_det A), ?_⟩
  · have h0 := h.orth
    rw [hu, hd, ← Matrix.mul_assoc (sgn A), Matrix.conjTranspose_mul] at h0
    have h1 : Xᴴ * ((up φ')ᴴ * (sgn A * dn φ')) * Y = 0 := by
      rw [← h0]
      simp only [Matrix.mul_assoc]
    have ux : IsUnit Xᴴ.det := by
      rw [Matrix.det_conjTranspose]
      exact isUnit_iff_ne_zero.2 (star_ne_zero.2 hX)
    have uy : IsUnit Y.det := isUnit_iff_ne_zero.2 hY
    have h2 := congrArg (fun Z => (Xᴴ)⁻¹ * Z * Y⁻¹) h1
    simp only [Matrix.mul_zero, Matrix.zero_mul] at h2
    rw [Matrix.mul_assoc Xᴴ, ← Matrix.mul_assoc (Xᴴ)⁻¹, Matrix.nonsing_inv_mul _ ux, Matrix.one_mul, Matrix.mul_assoc, Matrix.mul_nonsing_inv _ uy,
      Matrix.mul_one] at h2
    exact h2
  · have e1 : blk e (up φ) (sgn A * dn φ) = blk e (up φ') (sgn A * dn φ') * fromBlocks X 0 0 Y := by
      rw [hu, hd, ← Matrix.mul_assoc (sgn A), blk, blk]
      have : fromCols (up φ' * X) (sgn A * dn φ' * Y) = fromCols (up φ') (sgn A * dn φ') * fromBlocks X 0 0 Y := by
        rw [Matrix.fromCols_mul_fromBlocks, Matrix.mul_zero, Matrix.mul_zero, add_zero, zero_add]
      rw [this]
      rfl
    have h2 := h.pos
    rw [e1, Matrix.det_mul, Matrix.det_fromBlocks_zero₁₂] at h2
    have h3 := h2.div hp
    have := hp.ne
    rwa [← mul_assoc, mul_div_assoc, div_self this, mul_one] at h3

theorem Kept.reortho {hn : n + n = nb} {A : Fin nb → Bool} {psi : Wfn nb n n} {w : Wk nb n n} (h : Kept hn A psi w) {qr : QR nb} (hqr : QRSpec qr) :
    Kept hn A psi (reortho qr w) := by
  have hd : FullRank (dn w.phi) := by
    have := h.half.rd
    rwa [FullRank, gram_adj] at this
  obtain ⟨⟨o1, o2⟩, ⟨X, Y, hX, hY, e1, e2⟩, hR, hov, hot, -⟩ := reortho_facts qr hqr w h.half.ru hd
  rw [h.shift] at hov
  simp only [Complex.ofReal_zero, Complex.exp_zero, mul_one] at hov
  have hp : X.det * Y.det = ((Slater.reortho qr w).detR : ℂ) := by
    have := hov (Slater.reortho qr w).phi
    rw [overlap, overlap, e1, e2, ← Matrix.mul_assoc, ← Matrix.mul_assoc, o1, o2, Matrix.one_mul, Matrix.one_mul, Matrix.det_one,
      mul_one, mul_one] at this
    exact this
  refine ⟨half_right h.half hX hY ⟨_, hR, hp⟩ e1 e2 ?_ ?_, h.log, h.shift, ?_⟩
  · rw [FullRank, o1, Matrix.det_one]
    exact one_ne_zero
  · rw [FullRank, o2, Matrix.det_one]
    exact one_ne_zero
  · rw [hot, h.ot, hov psi, mul_div_cancel_left₀ _ (by exact_mod_cast hR.ne')]

theorem Kept.kinetic {hn : n + n = nb} {A : Fin nb → Bool} {psi : Wfn nb n n} {w : Wk nb n n} (h : Kept hn A psi w) (hψ : Trial A psi)
    {hub : Hub nb} (hb : Bipartite A hub) (dt : ℝ) :
    kineticIS (par hub dt) psi w = kineticAll (par hub dt) psi w ∧ Kept hn A psi (kineticIS (par hub dt) psi w) := by
  obtain ⟨h1, h2, -⟩ := kinetic_not_cut hb dt hψ h.half h.log h.ot
  have hov : calcOtrial (inverseOverlap psi { w with phi := kineticReal (par hub dt).bt2 w.phi }) = overlap psi (kineticReal (par hub dt).bt2 w.phi) := by
    rw [calcOtrial_eq psi (inverseOverlap psi { w with phi := kineticReal (par hub dt).bt2 w.phi }) rfl rfl]
    show overlap psi (kineticReal (par hub dt).bt2 w.phi) * Complex.exp ((w.logShift : ℝ) : ℂ) = _
    rw [h.log]
    simp
  have hcut : |Complex.arg (calcOtrial (inverseOverlap psi { w with phi := kineticReal (par hub dt).bt2 w.phi }) / w.ot)| < Real.pi / 2 := by
    rw [hov, h.ot]
    exact not_cut (nonneg_div ((hψ.half _).overlap (h.half.kinetic hb dt)) ((hψ.half _).overlap h.half))
  have e : kineticIS (par hub dt) psi w = kineticAll (par hub dt) psi w := if_pos hcut
  refine ⟨e, h1, ?_, ?_, h2⟩
  · rw [e]
    exact h.log
  · rw [e]
    exact h.shift

theorem Kept.direct {hn : n + n = nb} {A : Fin nb → Bool} {psi : Wfn nb n n} {w : Wk nb n n} (h : Kept hn A psi w) (hψ : Trial A psi)
    (hub : Hub nb) (dt : ℝ) (γ : ℂ) (rs : Fin nb → ℝ) :
    direct (par hub dt) false γ psi rs w = directAll (par hub dt) γ psi rs w ∧ Kept hn A psi (direct (par hub dt) false γ psi rs w) := by
  obtain ⟨h1, h2, -⟩ := direct_not_cut hub dt hn hψ γ rs h.half h.log h.ot
  have hov : ∀ φ : Wfn nb n n, calcOverlap psi { w with phi := φ } = overlap psi φ := by
    intro φ
    rw [calcOverlap_eq]
    show overlap psi φ * Complex.exp (-((w.logShift : ℝ) : ℂ)) = _
    rw [h.log]
    simp
  have e : Hirsch.direct (par hub dt) false γ psi rs w = directAll (par hub dt) γ psi rs w := by
    refine if_pos ?_
    have h1 : ∀ f : Fin nb → Fin 2, ∏ i, (par hub dt).wfac (f i) = 1 := fun f => prod_eq_one fun _ _ => rfl
    rw [h1, one_mul, hov, h.ot]
    exact not_cut (nonneg_div ((hψ.half _).overlap (h.half.sweep hub dt _)) ((hψ.half _).overlap h.half))
  refine ⟨e, h1, ?_, ?_, h2⟩
  · rw [e]
    exact h.log
  · rw [e]
    exact h.shift

theorem Kept.step {hn : n + n = nb} {A : Fin nb → Bool} {psi : Wfn nb n n} {w : Wk nb n n} (h : Kept hn A psi w) (hψ : Trial A psi)
    {hub : Hub nb} (hb : Bipartite A hub) (dt : ℝ) (γ : ℂ) (x : ℝ) (rs : Fin nb → ℝ) :
    directStep (par hub dt) γ psi x rs w = stepAll (par hub dt) γ psi x rs w ∧ Kept hn A psi (directStep (par hub dt) γ psi x rs w) := by
  classical
  have k1 : ∀ {v : Wk nb n n}, Kept hn A psi v → (if 0 < |v.weight| then kineticIS (par hub dt) psi v else v) =
      (if 0 < |v.weight| then kineticAll (par hub dt) psi v else v) ∧ Kept hn A psi (if 0 < |v.weight| then kineticIS (par hub dt) psi v else v) := by
    intro v hv
    split_ifs
    · exact hv.kinetic hψ hb dt
    · exact ⟨rfl, hv⟩
  have k2 : ∀ {v : Wk nb n n}, Kept hn A psi v → (if 0 < |v.weight| then Hirsch.direct (par hub dt) false γ psi rs v else v) =
      (if 0 < |v.weight| then directAll (par hub dt) γ psi rs v else v) ∧
        Kept hn A psi (if 0 < |v.weight| then Hirsch.direct (par hub dt) false γ psi rs v else v) := by
    intro v hv
    split_ifs
    · exact hv.direct hψ hub dt γ rs
    · exact ⟨rfl, hv⟩
  obtain ⟨e1, c1⟩ := k1 h
  obtain ⟨e2, c2⟩ := k2 c1
  obtain ⟨e3, c3⟩ := k1 c2
  refine ⟨?_, ⟨c3.half, c3.log, c3.shift, c3.ot⟩⟩
  rw [directStep, stepAll]
  rw [e3, e2, e1]

/-- **C132** In a half-filled run with `two_body_direct` the constraint does nothing: for all random numbers, shifts and
reorthogonalisations the walker is the one of a run without the constraint. -/
theorem direct_run {hn : n + n = nb} {A : Fin nb → Bool} {psi : Wfn nb n n} (hψ : Trial A psi) {hub : Hub nb} (hb : Bipartite A hub) (dt : ℝ)
    (γ : ℂ) {qr : QR nb} (hqr : QRSpec qr) (l : List (Option ((Fin nb → ℝ) × ℝ))) :
    l.foldl (act (directStep (par hub dt) γ psi) qr) (start psi) = l.foldl (act (stepAll (par hub dt) γ psi) qr) (start psi) := by
  have h0 : Kept hn A psi (start psi) := ⟨hψ.half _, rfl, rfl, rfl⟩
  generalize start psi = w at h0
  induction l generalizing w with
  | nil => rfl
  | cons o l ih =>
    match o with
    | none => exact ih _ (h0.reortho hqr)
    | some (rs, x) =>
      obtain ⟨e, c⟩ := h0.step hψ hb dt γ x rs
      show l.foldl _ (directStep (par hub dt) γ psi x rs w) = l.foldl _ (stepAll (par hub dt) γ psi x rs w)
      rw [← e]
      exact ih _ c

end Verif.HubHalf
