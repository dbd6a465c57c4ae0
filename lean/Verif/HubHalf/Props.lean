import Verif.HubHalf.Half
import Verif.HubRun.Chain

/-!
# Runs of half-filled Hubbard models: C132
-/

namespace Verif.HubHalf

open Matrix Finset
open Verif.Slater
open Verif.Hirsch
open Verif.HubRun (par aux_pos)
open Verif.Step (Hub)

variable {nb nu nd n : Nat}

theorem Half.scale {e : Fin nu ⊕ Fin nd ≃ Fin nb} {A : Fin nb → Bool} {psi φ : Wfn nb nu nd} (h : Half e A psi φ) {φ' : Wfn nb nu nd}
    (hu : up φ' = up φ) (hd : dn φ' = dn φ) : Half e A psi φ' := by
  refine ⟨by rw [hu, hd]; exact h.orth, by rw [hu]; exact h.ru, by rw [hd]; exact h.rd, by rw [hu, hd]; exact h.pos⟩

/-- A whole step of free projection, for given fields. -/
theorem Half.forward {e : Fin nu ⊕ Fin nd ≃ Fin nb} {A : Fin nb → Bool} {psi φ : Wfn nb nu nd} (h : Half e A psi φ) {hub : Hub nb}
    (hb : Bipartite A hub) (dt : ℝ) (f : Fin nb → Fin 2) :
    Half e A psi (join (forwardMatrix (par hub dt) f 0 * up φ) (forwardMatrix (par hub dt) f 1 * dn φ)) := by
  refine (((h.kinetic hb dt).sweep hub dt f).kinetic hb dt).scale ?_ ?_
  · rw [up_join, kineticReal, up_join, up_join, kineticReal, up_join, forwardMatrix]
    simp only [Matrix.mul_assoc]
  · rw [dn_join, kineticReal, dn_join, dn_join, kineticReal, dn_join, forwardMatrix]
    simp only [Matrix.mul_assoc]

theorem Half.ops {e : Fin nu ⊕ Fin nd ≃ Fin nb} {A : Fin nb → Bool} {psi : Wfn nb nu nd} {hub : Hub nb} (hb : Bipartite A hub) (dt : ℝ) :
    ∀ (l : List (FreeOp nb)) {φ : Wfn nb nu nd}, Half e A psi φ →
      Half e A psi (join (opsMatrix (par hub dt) 0 l * up φ) (opsMatrix (par hub dt) 1 l * dn φ))
  | [], φ, h => h.scale (by rw [up_join, opsMatrix, Matrix.one_mul]) (by rw [dn_join, opsMatrix, Matrix.one_mul])
  | none :: l, φ, h => Half.ops hb dt l h
  | some (f, _) :: l, φ, h => by
    refine (Half.ops hb dt l (h.forward hb dt f)).scale ?_ ?_
    · rw [up_join, up_join, up_join, opsMatrix, Matrix.mul_assoc]
    · rw [dn_join, dn_join, dn_join, opsMatrix, Matrix.mul_assoc]

theorem opsFactor_pos (hub : Hub nb) (dt : ℝ) : ∀ l : List (FreeOp nb), IsPos (opsFactor (par hub dt) l)
  | [] => ⟨1, one_pos, by simp [opsFactor]⟩
  | none :: l => opsFactor_pos hub dt l
  | some (f, x) :: l => by
    have h1 : ∏ i, (par hub dt).wfac (f i) = 1 := prod_eq_one fun _ _ => rfl
    rw [opsFactor, h1, mul_one]
    exact IsPos.mul ⟨_, Real.exp_pos _, rfl⟩ (opsFactor_pos hub dt l)

theorem forward_det {A : Fin nb → Bool} {hub : Hub nb} (hb : Bipartite A hub) (dt : ℝ) (f : Fin nb → Fin 2) (s : Fin 2) :
    (forwardMatrix (par hub dt) f s).det ≠ 0 := by
  have hs : IsUnit ((par hub dt).bt2 s) := by
    have : IsUnit (NormedSpace.exp (-((dt : ℂ) / 2) • hub.h1 s)) := Matrix.isUnit_exp _
    exact this
  rw [Matrix.isUnit_iff_isUnit_det, isUnit_iff_ne_zero] at hs
  rw [forwardMatrix, Matrix.det_mul, Matrix.det_mul, Matrix.det_diagonal]
  exact mul_ne_zero (mul_ne_zero hs (prod_ne_zero_iff.2 fun i _ => (aux_pos hub dt (f i) s).ne)) hs

/-- A trial wave function whose down orbitals are, up to the signs of a sublattice, those that the up orbitals leave empty. -/
structure Trial (A : Fin nb → Bool) (psi : Wfn nb nu nd) : Prop where
  orth : (up psi)ᴴ * (sgn A * dn psi) = 0
  ru : FullRank (up psi)
  rd : FullRank (dn psi)

theorem Trial.half {A : Fin nb → Bool} {psi : Wfn nb nu nd} (h : Trial A psi) (e : Fin nu ⊕ Fin nd ≃ Fin nb) : Half e A psi psi := by
  have rd : FullRank (sgn A * dn psi) := h.rd.mul (sgn_det A)
  refine ⟨h.orth, h.ru, rd, ?_⟩
  rw [blk_det, h.orth, Matrix.det_fromBlocks_zero₁₂]
  exact (gram_pos h.ru).mul (gram_pos rd)

/-- **C132** Free projection of a half-filled Hubbard model on a bipartite lattice has no sign problem: whatever the fields, shifts and
reorthogonalisations, the factor weight × phase × overlap with which a walker enters the averages (`estimators/mixed.py` 154) is real and
not negative. -/
theorem free_no_sign {A : Fin nb → Bool} {hub : Hub nb} (hb : Bipartite A hub) (dt : ℝ) (hn : nu + nd = nb) {psi : Wfn nb nu nd}
    (hψ : Trial A psi) {qr : QR nb} (hqr : QRSpec qr) (ops : List (FreeOp nb)) :
    let w := ops.foldl (freeOp (par hub dt) qr psi) (HubRun.start psi)
    ∃ r : ℝ, 0 ≤ r ∧ (w.weight : ℂ) * w.phase * w.ot = r := by
  intro w
  obtain ⟨h1, h2⟩ := free_run (par hub dt) qr hqr psi (fun f s => forward_det hb dt f s) ops (HubRun.start psi) hψ.ru hψ.rd rfl rfl rfl
  have hh := Half.ops hb dt ops (hψ.half (finSumFinEquiv.trans (finCongr hn)))
  obtain ⟨r, hr, e⟩ := (hψ.half _).overlap hh
  obtain ⟨c, hc, ec⟩ := opsFactor_pos hub dt ops
  refine ⟨c * r, mul_nonneg hc.le hr, ?_⟩
  have h3 := h1 psi
  rw [← h2] at h3
  refine h3.trans ?_
  show ((1 : ℝ) : ℂ) * 1 * _ * overlap psi (join (opsMatrix (par hub dt) 0 ops * up psi) (opsMatrix (par hub dt) 1 ops * dn psi)) = _
  rw [e, ec]
  push_cast
  ring

theorem not_cut {z : ℂ} (h : ∃ r : ℝ, 0 ≤ r ∧ z = r) : |Complex.arg z| < Real.pi / 2 := by
  obtain ⟨r, hr, rfl⟩ := h
  rw [Complex.arg_ofReal_of_nonneg hr, abs_zero]
  exact div_pos Real.pi_pos two_pos

theorem nonneg_div {a b : ℂ} (ha : ∃ r : ℝ, 0 ≤ r ∧ a = r) (hb : ∃ r : ℝ, 0 ≤ r ∧ b = r) : ∃ r : ℝ, 0 ≤ r ∧ a / b = r := by
  obtain ⟨r, hr, rfl⟩ := ha
  obtain ⟨s, hs, rfl⟩ := hb
  exact ⟨r / s, div_nonneg hr hs, by push_cast; rfl⟩

/-- **C132** With `two_body_direct`, which draws the fields of all sites before it looks at the overlap, the constraint never removes a
walker: for all random numbers the new overlap is stored and the weight multiplied by its ratio to the old one. -/
theorem direct_not_cut {A : Fin nb → Bool} (hub : Hub nb) (dt : ℝ) (hn : n + n = nb) {psi : Wfn nb n n} (hψ : Trial A psi) (γ : ℂ)
    (rs : Fin nb → ℝ) {w : Wk nb n n} (h : Half (finSumFinEquiv.trans (finCongr hn)) A psi w.phi) (hs : w.logShift = 0)
    (ho : w.ot = overlap psi w.phi) :
    Half (finSumFinEquiv.trans (finCongr hn)) A psi (direct (par hub dt) false γ psi rs w).phi ∧
      (direct (par hub dt) false γ psi rs w).ot = overlap psi (direct (par hub dt) false γ psi rs w).phi ∧
      ∃ k : ℝ, (direct (par hub dt) false γ psi rs w).weight = w.weight * (k * (overlap psi (direct (par hub dt) false γ psi rs w).phi).re / (overlap psi w.phi).re) := by
  set s := fbLoop γ ((List.finRange nb).map fun i =>
    (fbTerm false ((greensFunction psi w).gUp i i) ((greensFunction psi w).gDn i i), rs i)) ([], 1) with hsd
  set f : Fin nb → Fin 2 := fun i => s.1.getD i 0 with hf
  set φ : Wfn nb n n := join (diagonal (fun i => (par hub dt).auxf (f i) 0) * up w.phi) (diagonal (fun i => (par hub dt).auxf (f i) 1) * dn w.phi) with hφ
  have hh : Half (finSumFinEquiv.trans (finCongr hn)) A psi φ := h.sweep hub dt f
  have hov : calcOverlap psi { w with phi := φ } = overlap psi φ := by
    rw [calcOverlap_eq]
    show overlap psi φ * Complex.exp (-((w.logShift : ℝ) : ℂ)) = _
    rw [hs]
    simp
  have h1 : ∏ i, (par hub dt).wfac (f i) = 1 := prod_eq_one fun _ _ => rfl
  have hcut : |Complex.arg ((∏ i, (par hub dt).wfac (f i)) * calcOverlap psi { w with phi := φ } / w.ot)| < Real.pi / 2 := by
    rw [h1, one_mul, hov, ho]
    exact not_cut (nonneg_div ((hψ.half _).overlap hh) ((hψ.half _).overlap h))
  have e : direct (par hub dt) false γ psi rs w = { w with
      phi := φ
      ot := calcOverlap psi { w with phi := φ }
      ovlp := calcOverlap psi { w with phi := φ }
      weight := w.weight * (s.2 * ((∏ i, (par hub dt).wfac (f i)) * calcOverlap psi { w with phi := φ } / w.ot)).re } := if_pos hcut
  rw [e]
  refine ⟨hh, hov, s.2, ?_⟩
  show w.weight * (s.2 * ((∏ i, (par hub dt).wfac (f i)) * calcOverlap psi { w with phi := φ } / w.ot) : ℂ).re = _
  obtain ⟨a, -, ea⟩ := (hψ.half _).overlap hh
  obtain ⟨b, -, eb⟩ := (hψ.half _).overlap h
  show _ = w.weight * (s.2 * (overlap psi φ).re / (overlap psi w.phi).re)
  rw [h1, one_mul, hov, ho, ea, eb, Complex.ofReal_re, Complex.ofReal_re, ← Complex.ofReal_div, ← Complex.ofReal_mul, Complex.ofReal_re, mul_div_assoc]

/-- **C132** Nor does the constraint in the hops. -/
theorem kinetic_not_cut {A : Fin nb → Bool} {hub : Hub nb} (hb : Bipartite A hub) (dt : ℝ) {e : Fin nu ⊕ Fin nd ≃ Fin nb} {psi : Wfn nb nu nd}
    (hψ : Trial A psi) {w : Wk nb nu nd} (h : Half e A psi w.phi) (hs : w.logShift = 0) (ho : w.ot = overlap psi w.phi) :
    Half e A psi (kineticIS (par hub dt) psi w).phi ∧ (kineticIS (par hub dt) psi w).ot = overlap psi (kineticIS (par hub dt) psi w).phi ∧
      (kineticIS (par hub dt) psi w).weight = w.weight * ((overlap psi (kineticIS (par hub dt) psi w).phi).re / (overlap psi w.phi).re) := by
  have hh := h.kinetic hb dt
  have hov : calcOtrial (inverseOverlap psi { w with phi := kineticReal (par hub dt).bt2 w.phi }) = overlap psi (kineticReal (par hub dt).bt2 w.phi) := by
    rw [calcOtrial_eq psi (inverseOverlap psi { w with phi := kineticReal (par hub dt).bt2 w.phi }) rfl rfl]
    show overlap psi (kineticReal (par hub dt).bt2 w.phi) * Complex.exp ((w.logShift : ℝ) : ℂ) = _
    rw [hs]
    simp
  obtain ⟨a, ha, ea⟩ := (hψ.half e).overlap hh
  obtain ⟨b, hb', eb⟩ := (hψ.half e).overlap h
  have hcut : |Complex.arg (calcOtrial (inverseOverlap psi { w with phi := kineticReal (par hub dt).bt2 w.phi }) / w.ot)| < Real.pi / 2 := by
    rw [hov, ho]
    exact not_cut (nonneg_div ⟨a, ha, ea⟩ ⟨b, hb', eb⟩)
  have e : kineticIS (par hub dt) psi w = { inverseOverlap psi { w with phi := kineticReal (par hub dt).bt2 w.phi } with
      weight := w.weight * (calcOtrial (inverseOverlap psi { w with phi := kineticReal (par hub dt).bt2 w.phi }) / w.ot).re
      ot := calcOtrial (inverseOverlap psi { w with phi := kineticReal (par hub dt).bt2 w.phi }) } := if_pos hcut
  rw [e]
  refine ⟨hh, hov, ?_⟩
  show w.weight * (calcOtrial (inverseOverlap psi { w with phi := kineticReal (par hub dt).bt2 w.phi }) / w.ot).re =
    w.weight * ((overlap psi (kineticReal (par hub dt).bt2 w.phi)).re / (overlap psi w.phi).re)
  rw [hov, ho, ea, eb, Complex.ofReal_re, Complex.ofReal_re, ← Complex.ofReal_div, Complex.ofReal_re]

end Verif.HubHalf
