import Verif.HubHalf.Run
import Verif.HubHalf.Trials
import Verif.HubRun.Run

/-!
# Densities and energies of half-filled Hubbard models: C133
-/

namespace Verif.HubHalf

open Matrix Finset
open Verif.Slater
open Verif.Hirsch
open Verif.HubRun (par start energy)
open Verif.Step (Hub)

variable {nb nu nd n : Nat}

/-- Electrons and holes: the Green's function of the down electrons follows from that of the up electrons. -/
theorem half_gab {e : Fin nu ⊕ Fin nd ≃ Fin nb} {A : Fin nb → Bool} {psi φ : Wfn nb nu nd} (hψ : Trial A psi) (h : Half e A psi φ)
    (hne : overlap psi φ ≠ 0) : gab (up psi) (up φ) + (sgn A * gab (dn psi) (dn φ) * sgn A)ᴴ = 1 := by
  have hu : IsUnit ((up psi)ᴴ * up φ).det := isUnit_iff_ne_zero.2 (left_ne_zero_of_mul hne)
  have hd : IsUnit ((dn psi)ᴴ * dn φ).det := isUnit_iff_ne_zero.2 (right_ne_zero_of_mul hne)
  have hd' : IsUnit ((dn φ)ᴴ * dn psi).det := by
    have e0 : (dn φ)ᴴ * dn psi = ((dn psi)ᴴ * dn φ)ᴴ := by rw [Matrix.conjTranspose_mul, Matrix.conjTranspose_conjTranspose]
    rw [e0, Matrix.det_conjTranspose]
    exact isUnit_iff_ne_zero.2 (star_ne_zero.2 (right_ne_zero_of_mul hne))
  have hz : (sgn A * dn φ)ᴴ * up φ = 0 := by
    have := congrArg conjTranspose h.orth
    rwa [Matrix.conjTranspose_mul, Matrix.conjTranspose_conjTranspose, Matrix.conjTranspose_zero] at this
  have eB : (sgn A * gab (dn psi) (dn φ) * sgn A)ᴴ = (sgn A * dn psi) * (((dn φ)ᴴ * dn psi)⁻¹ * (sgn A * dn φ)ᴴ) := by
    rw [gab]
    simp only [Matrix.conjTranspose_mul, Matrix.conjTranspose_nonsing_inv, Matrix.conjTranspose_conjTranspose, sgn_adj, Matrix.mul_assoc]
  have m1 : (gab (up psi) (up φ) + (sgn A * gab (dn psi) (dn φ) * sgn A)ᴴ) * up φ = up φ := by
    have b1 : (sgn A * dn psi) * (((dn φ)ᴴ * dn psi)⁻¹ * (sgn A * dn φ)ᴴ) * up φ = 0 := by
      rw [Matrix.mul_assoc _ _ (up φ), Matrix.mul_assoc _ _ (up φ), hz, Matrix.mul_zero, Matrix.mul_zero]
    rw [eB, Matrix.add_mul, b1, add_zero, gab, Matrix.mul_assoc, Matrix.mul_assoc, Matrix.nonsing_inv_mul _ hu, Matrix.mul_one]
  have m2 : (gab (up psi) (up φ) + (sgn A * gab (dn psi) (dn φ) * sgn A)ᴴ) * (sgn A * dn psi) = sgn A * dn psi := by
    rw [eB, Matrix.add_mul, gab, Matrix.mul_assoc, Matrix.mul_assoc, hψ.orth, Matrix.mul_zero, Matrix.mul_zero, zero_add, Matrix.mul_assoc (sgn A * dn psi),
      Matrix.mul_assoc _ (sgn A * dn φ)ᴴ, gram_adj, Matrix.nonsing_inv_mul _ hd', Matrix.mul_one]
  have hb : (blk e (up φ) (sgn A * dn psi)).det ≠ 0 := by
    have h2 := blk_det e (up φ) (up φ) (sgn A * dn φ) (sgn A * dn psi)
    rw [hz, Matrix.det_fromBlocks_zero₂₁, gram_adj] at h2
    refine right_ne_zero_of_mul (a := star (blk e (up φ) (sgn A * dn φ)).det) ?_
    rw [h2]
    exact mul_ne_zero (gram_pos h.ru).ne hd'.ne_zero
  generalize gab (up psi) (up φ) + (sgn A * gab (dn psi) (dn φ) * sgn A)ᴴ = M at m1 m2
  have m3 := blk_mul e M (up φ) (sgn A * dn psi)
  rw [m1, m2] at m3
  have hub : IsUnit (blk e (up φ) (sgn A * dn psi)).det := isUnit_iff_ne_zero.2 hb
  have m4 := congrArg (· * (blk e (up φ) (sgn A * dn psi))⁻¹) m3
  simp only [Matrix.mul_assoc, Matrix.mul_nonsing_inv _ hub, Matrix.mul_one] at m4
  ext i j
  have := congrFun (congrFun m4 (e.symm i)) (e.symm j)
  rw [Matrix.submatrix_apply, Equiv.apply_symm_apply, Equiv.apply_symm_apply] at this
  rw [← this, Matrix.one_apply, Matrix.one_apply]
  simp

/-- **C133** The Green's functions of a walker that is half filled: densities, and hops of the down electrons. -/
theorem half_green {e : Fin nu ⊕ Fin nd ≃ Fin nb} {A : Fin nb → Bool} {psi : Wfn nb nu nd} (hψ : Trial A psi) {w : Wk nb nu nd}
    (h : Half e A psi w.phi) (hne : overlap psi w.phi ≠ 0) :
    (∀ i, (greensFunction psi w).gUp i i + star ((greensFunction psi w).gDn i i) = 1) ∧
      ∀ i j, A i ≠ A j → (greensFunction psi w).gDn i j = star ((greensFunction psi w).gUp j i) := by
  obtain ⟨eu, ed⟩ := greensFunction_eq psi w
  have h1 := half_gab hψ h hne
  have h2 : ∀ i j, gab (up psi) (up w.phi) i j + star ((if A j then 1 else -1) * gab (dn psi) (dn w.phi) j i * (if A i then 1 else -1)) =
      if i = j then 1 else 0 := by
    intro i j
    have := congrFun (congrFun h1 i) j
    rwa [Matrix.add_apply, Matrix.conjTranspose_apply, sgn, Matrix.mul_diagonal, Matrix.diagonal_mul, Matrix.one_apply] at this
  rw [eu, ed]
  constructor
  · intro i
    have := h2 i i
    rw [if_pos rfl] at this
    rw [Matrix.transpose_apply, Matrix.transpose_apply, ← this]
    congr 2
    split_ifs <;> ring
  · intro i j hij
    rw [Matrix.transpose_apply, Matrix.transpose_apply]
    have hne' : i ≠ j := fun h => hij (h ▸ rfl)
    have := h2 i j
    rw [if_neg hne'] at this
    have h3 : gab (up psi) (up w.phi) i j = star (gab (dn psi) (dn w.phi) j i) := by
      have hs : (if A j then 1 else -1) * gab (dn psi) (dn w.phi) j i * (if A i then 1 else -1) = -gab (dn psi) (dn w.phi) j i := by
        cases hi : A i <;> cases hj : A j <;> simp_all
      rw [hs, star_neg] at this
      linear_combination this
    rw [h3, star_star]

/-- **C133** The local energy of such a walker is real, also for complex hopping. -/
theorem half_energy {e : Fin nu ⊕ Fin nd ≃ Fin nb} {A : Fin nb → Bool} {hub : Hub nb} (hb : Bipartite A hub) {psi : Wfn nb nu nd} (hψ : Trial A psi)
    {w : Wk nb nu nd} (h : Half e A psi w.phi) (hne : overlap psi w.phi ≠ 0) :
    energy hub psi w = ((2 * (∑ i, ∑ j, hub.h1 0 i j * (greensFunction psi w).gUp i j).re +
      hub.U * (nu - ∑ i, Complex.normSq ((greensFunction psi w).gUp i i)) : ℝ) : ℂ) := by
  obtain ⟨h1, h2⟩ := half_green hψ h hne
  have htr : ∑ i, (greensFunction psi w).gUp i i = (nu : ℂ) :=
    (greensFunction_projector psi w (left_ne_zero_of_mul hne) (right_ne_zero_of_mul hne)).2.1.1
  have hk : ∑ i, ∑ j, hub.h1 1 i j * (greensFunction psi w).gDn i j = star (∑ i, ∑ j, hub.h1 0 i j * (greensFunction psi w).gUp i j) := by
    rw [star_sum, Finset.sum_comm]
    refine sum_congr rfl fun j _ => ?_
    rw [star_sum]
    refine sum_congr rfl fun i _ => ?_
    rw [hb.same]
    by_cases hij : A i = A j
    · rw [hb.hops i j hij, hb.hops j i hij.symm]
      simp
    · rw [h2 i j hij, star_mul']
      congr 1
      have := congrFun (congrFun hb.herm i) j
      rw [Matrix.conjTranspose_apply] at this
      exact this.symm
  have hp : ∑ i, (greensFunction psi w).gUp i i * (greensFunction psi w).gDn i i =
      ((nu - ∑ i, Complex.normSq ((greensFunction psi w).gUp i i) : ℝ) : ℂ) := by
    have : ∀ i, (greensFunction psi w).gUp i i * (greensFunction psi w).gDn i i =
        (greensFunction psi w).gUp i i - (Complex.normSq ((greensFunction psi w).gUp i i) : ℂ) := by
      intro i
      have h3 : (greensFunction psi w).gDn i i = 1 - star ((greensFunction psi w).gUp i i) := by
        have := congrArg star (h1 i)
        rw [star_add, star_star, star_one] at this
        linear_combination this
      rw [h3, Complex.normSq_eq_conj_mul_self]
      show _ = _ - star _ * _
      ring
    rw [sum_congr rfl fun i _ => this i, sum_sub_distrib, htr]
    push_cast
    rfl
  show (∑ i, ∑ j, hub.h1 0 i j * (greensFunction psi w).gUp i j + ∑ i, ∑ j, hub.h1 1 i j * (greensFunction psi w).gDn i j) +
    (hub.U : ℂ) * ∑ i, (greensFunction psi w).gUp i i * (greensFunction psi w).gDn i i = _
  rw [hk, hp]
  have := Complex.add_conj (∑ i, ∑ j, hub.h1 0 i j * (greensFunction psi w).gUp i j)
  rw [show star (∑ i, ∑ j, hub.h1 0 i j * (greensFunction psi w).gUp i j) = (starRingEnd ℂ) _ from rfl, this]
  push_cast
  ring

/-- What is kept by steps of all kinds. -/
structure Live (e : Fin nu ⊕ Fin nd ≃ Fin nb) (A : Fin nb → Bool) (psi : Wfn nb nu nd) (w : Wk nb nu nd) : Prop where
  half : Half e A psi w.phi
  log : w.logShift = 0
  shift : w.detRShift = 0
  ot : w.ot = overlap psi w.phi
  ne : overlap psi w.phi ≠ 0

theorem half_reortho {e : Fin nu ⊕ Fin nd ≃ Fin nb} {A : Fin nb → Bool} {psi : Wfn nb nu nd} {w : Wk nb nu nd} (h : Half e A psi w.phi) {qr : QR nb}
    (hqr : QRSpec qr) : Half e A psi (reortho qr w).phi := by
  have hd : FullRank (dn w.phi) := by
    have := h.rd
    rwa [FullRank, gram_adj] at this
  obtain ⟨⟨o1, o2⟩, ⟨X, Y, hX, hY, e1, e2⟩, hR, hov, -⟩ := reortho_facts qr hqr w h.ru hd
  have hp : X.det * Y.det = ((reortho qr w).detR : ℂ) * Complex.exp (w.detRShift : ℂ) := by
    have := hov (reortho qr w).phi
    rw [overlap, overlap, e1, e2, ← Matrix.mul_assoc, ← Matrix.mul_assoc, o1, o2, Matrix.one_mul, Matrix.one_mul, Matrix.det_one, Matrix.det_one,
      mul_one, mul_one] at this
    exact this
  have hpos : IsPos (X.det * Y.det) := by
    rw [hp]
    exact IsPos.mul ⟨_, hR, rfl⟩ (IsPos.exp _)
  refine half_right h hX hY hpos e1 e2 ?_ ?_
  · rw [FullRank, o1, Matrix.det_one]
    exact one_ne_zero
  · rw [FullRank, o2, Matrix.det_one]
    exact one_ne_zero

theorem Live.reortho {e : Fin nu ⊕ Fin nd ≃ Fin nb} {A : Fin nb → Bool} {psi : Wfn nb nu nd} {w : Wk nb nu nd} (h : Live e A psi w) {qr : QR nb}
    (hqr : QRSpec qr) : Live e A psi (reortho qr w) := by
  have hd : FullRank (dn w.phi) := by
    have := h.half.rd
    rwa [FullRank, gram_adj] at this
  obtain ⟨-, -, hR, hov, hot, -⟩ := reortho_facts qr hqr w h.half.ru hd
  rw [h.shift] at hov
  simp only [Complex.ofReal_zero, Complex.exp_zero, mul_one] at hov
  have hR' : ((Slater.reortho qr w).detR : ℂ) ≠ 0 := by exact_mod_cast hR.ne'
  refine ⟨half_reortho h.half hqr, h.log, h.shift, ?_, ?_⟩
  · rw [hot, h.ot, hov psi, mul_div_cancel_left₀ _ hR']
  · intro h0
    refine h.ne ?_
    rw [hov psi, h0, mul_zero]

theorem kineticIS_shift (p : Par nb) (psi : Wfn nb nu nd) (w : Wk nb nu nd) : (kineticIS p psi w).detRShift = w.detRShift := by
  unfold kineticIS
  simp only
  split_ifs <;> rfl

theorem singleSite_shift (p : Par nb) (psi : Wfn nb nu nd) (rs : Fin nb → ℝ) (l : List (Fin nb)) :
    ∀ w : Wk nb nu nd, (singleSite p psi rs l w).1.detRShift = w.detRShift := by
  induction l with
  | nil => intro w; rfl
  | cons i l ih =>
    intro w
    rw [singleSite]
    split_ifs
    · exact ih _
    · rfl

theorem Live.kinetic {e : Fin nu ⊕ Fin nd ≃ Fin nb} {A : Fin nb → Bool} {psi : Wfn nb nu nd} {w : Wk nb nu nd} (h : Live e A psi w)
    {hub : Hub nb} (hb : Bipartite A hub) (dt : ℝ) (hw : (kineticIS (par hub dt) psi w).weight ≠ 0) : Live e A psi (kineticIS (par hub dt) psi w) ∧
      Good psi (kineticIS (par hub dt) psi w) := by
  obtain ⟨hg, hphi, hlog, hot, -⟩ := kineticIS_spec (par hub dt) psi w hw
  refine ⟨⟨?_, hlog.trans h.log, (kineticIS_shift _ _ _).trans h.shift, ?_, hg.ne⟩, hg⟩
  · rw [hphi]
    exact h.half.kinetic hb dt
  · rw [hot, h.log]
    simp

theorem Live.constrained {e : Fin nu ⊕ Fin nd ≃ Fin nb} {A : Fin nb → Bool} {psi : Wfn nb nu nd} {w : Wk nb nu nd} (h : Live e A psi w)
    {hub : Hub nb} (hb : Bipartite A hub) (dt x : ℝ) {rs : Fin nb → ℝ} (hrs : ∀ i, 0 ≤ rs i ∧ rs i < 1) (hw0 : w.weight ≠ 0)
    (hw : (constrainedStep (par hub dt) psi x rs w).weight ≠ 0) : Live e A psi (constrainedStep (par hub dt) psi x rs w) := by
  classical
  have key : ∀ v u : Wk nb nu nd, (if 0 < |v.weight| then u else v).weight ≠ 0 → v.weight ≠ 0 ∧ (if 0 < |v.weight| then u else v) = u := by
    intro v u hv
    by_cases hp : 0 < |v.weight|
    · exact ⟨abs_pos.1 hp, if_pos hp⟩
    · rw [if_neg hp] at hv
      exact absurd (abs_pos.2 hv) hp
  have e1 : (if 0 < |w.weight| then kineticIS (par hub dt) psi w else w) = kineticIS (par hub dt) psi w := if_pos (abs_pos.2 hw0)
  rw [constrainedStep, e1] at hw ⊢
  have hw' := left_ne_zero_of_mul hw
  obtain ⟨w2, e3⟩ := key _ _ hw'
  obtain ⟨w1, e2⟩ := key _ _ w2
  rw [e3] at hw' ⊢
  rw [e2] at hw' w2 ⊢
  obtain ⟨l1, g1⟩ := h.kinetic hb dt w1
  obtain ⟨f, -, fu, fd, g2, o2⟩ := singleSite_overlap (par hub dt) psi rs hrs _ g1 l1.ot w2
  have l2 : Live e A psi (singleSite (par hub dt) psi rs (List.finRange nb) (kineticIS (par hub dt) psi w)).1 := by
    refine ⟨(l1.half.sweep hub dt f).scale ?_ ?_, (singleSite_logShift _ _ _ _ _).trans l1.log, (singleSite_shift _ _ _ _ _).trans l1.shift, ?_, g2.ne⟩
    · rw [fu, up_join]
    · rw [fd, dn_join]
    · rw [o2, prod_eq_one fun i _ => (rfl : (par hub dt).wfac (f i) = 1), one_mul]
  obtain ⟨l3, -⟩ := l2.kinetic hb dt hw'
  exact ⟨l3.half, l3.log, l3.shift, l3.ot, l3.ne⟩

theorem constrained_dead (p : Par nb) (psi : Wfn nb nu nd) (x : ℝ) (rs : Fin nb → ℝ) {w : Wk nb nu nd} (h : w.weight = 0) :
    (constrainedStep p psi x rs w).weight = 0 := by
  classical
  have hn : ¬ 0 < |w.weight| := by rw [h]; simp
  rw [constrainedStep, if_neg hn, if_neg hn, if_neg hn]
  show w.weight * _ = 0
  rw [h, zero_mul]

theorem Trial.live {A : Fin nb → Bool} {psi : Wfn nb nu nd} (h : Trial A psi) (e : Fin nu ⊕ Fin nd ≃ Fin nb) : Live e A psi (start psi) :=
  ⟨h.half e, rfl, rfl, rfl, mul_ne_zero h.ru h.rd⟩

/-- The default constrained run keeps walkers half filled. -/
theorem run_live {A : Fin nb → Bool} {psi : Wfn nb nu nd} (hψ : Trial A psi) {hub : Hub nb} (hb : Bipartite A hub) (dt : ℝ)
    (e : Fin nu ⊕ Fin nd ≃ Fin nb) {qr : QR nb} (hqr : QRSpec qr) (l : List (Option ((Fin nb → ℝ) × ℝ)))
    (hl : ∀ rs x, some (rs, x) ∈ l → ∀ i, 0 ≤ rs i ∧ rs i < 1) :
    (l.foldl (act (fun x rs w => constrainedStep (par hub dt) psi x rs w) qr) (start psi)).weight ≠ 0 →
      Live e A psi (l.foldl (act (fun x rs w => constrainedStep (par hub dt) psi x rs w) qr) (start psi)) := by
  have h0 : (start psi).weight ≠ 0 → Live e A psi (start psi) := fun _ => hψ.live e
  generalize start psi = w at h0
  induction l generalizing w with
  | nil => exact h0
  | cons o l ih =>
    have hl' : ∀ rs x, some (rs, x) ∈ l → ∀ i, 0 ≤ rs i ∧ rs i < 1 := fun rs x hm => hl rs x (List.mem_cons_of_mem _ hm)
    match o with
    | none => exact ih hl' _ fun hw => (h0 hw).reortho hqr
    | some (rs, x) =>
      refine ih hl' _ fun hw => ?_
      by_cases hw0 : w.weight = 0
      · exact absurd (constrained_dead _ _ _ _ hw0) hw
      · exact (h0 hw0).constrained hb dt x (hl rs x (by simp)) hw0 hw

/-- **C133** In a constrained run with the default settings every surviving walker has density one on every site and a real energy. -/
theorem run_energy {A : Fin nb → Bool} {psi : Wfn nb nu nd} (hψ : Trial A psi) {hub : Hub nb} (hb : Bipartite A hub) (dt : ℝ)
    (hn : nu + nd = nb) {qr : QR nb} (hqr : QRSpec qr) (l : List (Option ((Fin nb → ℝ) × ℝ)))
    (hl : ∀ rs x, some (rs, x) ∈ l → ∀ i, 0 ≤ rs i ∧ rs i < 1) :
    let w := l.foldl (act (fun x rs w => constrainedStep (par hub dt) psi x rs w) qr) (start psi)
    w.weight ≠ 0 → (∀ i, (greensFunction psi w).gUp i i + star ((greensFunction psi w).gDn i i) = 1) ∧ (energy hub psi w).im = 0 := by
  intro w hw
  have h := run_live hψ hb dt (finSumFinEquiv.trans (finCongr hn)) hqr l hl hw
  refine ⟨(half_green hψ h.half h.ne).1, ?_⟩
  rw [half_energy hb hψ h.half h.ne, Complex.ofReal_im]

/-- Free projection keeps walkers half filled. -/
theorem free_half {A : Fin nb → Bool} {psi : Wfn nb nu nd} (hψ : Trial A psi) {hub : Hub nb} (hb : Bipartite A hub) (dt : ℝ)
    (e : Fin nu ⊕ Fin nd ≃ Fin nb) {qr : QR nb} (hqr : QRSpec qr) (ops : List (FreeOp nb)) :
    Half e A psi (ops.foldl (freeOp (par hub dt) qr psi) (start psi)).phi := by
  have h0 : Half e A psi (start psi).phi := hψ.half e
  generalize start psi = w at h0
  induction ops generalizing w with
  | nil => exact h0
  | cons o l ih =>
    match o with
    | none => exact ih _ (half_reortho h0 hqr)
    | some (f, x) =>
      refine ih _ ((h0.forward hb dt f).scale ?_ ?_)
      · rw [up_join]
        exact (freeStep_spec (par hub dt) psi x f w).1
      · rw [dn_join]
        exact (freeStep_spec (par hub dt) psi x f w).2.1

/-- **C133** In free projection, what a walker adds to the numerator and to the denominator of the energy (`estimators/mixed.py` 154-168) is real. -/
theorem free_energy {A : Fin nb → Bool} {psi : Wfn nb nu nd} (hψ : Trial A psi) {hub : Hub nb} (hb : Bipartite A hub) (dt : ℝ)
    (hn : nu + nd = nb) {qr : QR nb} (hqr : QRSpec qr) (ops : List (FreeOp nb)) :
    let w := ops.foldl (freeOp (par hub dt) qr psi) (start psi)
    overlap psi w.phi ≠ 0 → (∀ i, (greensFunction psi w).gUp i i + star ((greensFunction psi w).gDn i i) = 1) ∧
      ∃ r E : ℝ, 0 ≤ r ∧ (w.weight : ℂ) * w.phase * w.ot = r ∧ (w.weight : ℂ) * w.phase * w.ot * energy hub psi w = (r * E : ℝ) := by
  intro w hne
  have h : Half (finSumFinEquiv.trans (finCongr hn)) A psi w.phi := free_half hψ hb dt _ hqr ops
  refine ⟨(half_green hψ h hne).1, ?_⟩
  obtain ⟨r, hr, er⟩ := free_no_sign hb dt hn hψ hqr ops
  refine ⟨r, 2 * (∑ i, ∑ j, hub.h1 0 i j * (greensFunction psi w).gUp i j).re +
    hub.U * (nu - ∑ i, Complex.normSq ((greensFunction psi w).gUp i i)), hr, er, ?_⟩
  rw [half_energy hb hψ h hne, Complex.ofReal_mul]
  exact congrArg (· * _) er

end Verif.HubHalf
