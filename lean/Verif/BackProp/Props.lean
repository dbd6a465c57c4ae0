import Verif.BackProp.Model
import Verif.Weights.Props

/-!
# The weight and the Green's function of a window

For every sequence of fields: with fully restored weights, weight × Green's function of a walker is a matrix element of the product of
the operators of the window, acting on the state at its start.
-/

namespace Verif.BackProp

open Matrix Finset Verif.Step
open Verif.Energy (ovl oneBody twoBody hamil)
open Verif.Slater (FullRank QRSpec propMatrix)
open Verif.Weights (hybridEnergy Uncapped updateHybrid importances)

variable {nx nb nu nd k : Nat}

/-! ## The operators of a window -/

/-- The operator of a step with the fields `x`, on the orbitals of a spin. -/
noncomputable def mat (R : Setup nx nb nu nd) (x : Fin nx → ℂ) (s : Fin 2) : Matrix (Fin nb) (Fin nb) ℂ :=
  R.t.BH1 s * (Slater.taylor 6 (R.t.vhs x s) * R.t.BH1 s)

/-- The operator of a step on the states of the electrons. -/
noncomputable def op (R : Setup nx nb nu nd) (x : Fin nx → ℂ) :
    Matrix (Fin nu ⊕ Fin nd → Fin nb) (Fin nu ⊕ Fin nd → Fin nb) ℂ :=
  tens fun a => mat R x (spin a)

/-- The product of the operators of the steps on the orbitals of a spin, the last step on the left. -/
noncomputable def windowMat (R : Setup nx nb nu nd) : List (Bool × (Fin nx → ℝ)) → BW nx nb nu nd → Fin 2 →
    Matrix (Fin nb) (Fin nb) ℂ
  | [], _, _ => 1
  | a :: l, v, s => windowMat R l (step R a.1 a.2 v) s * mat R (fields R a.2 v.s) s

/-- The product of the operators of the steps. -/
noncomputable def windowOp (R : Setup nx nb nu nd) : List (Bool × (Fin nx → ℝ)) → BW nx nb nu nd →
    Matrix (Fin nu ⊕ Fin nd → Fin nb) (Fin nu ⊕ Fin nd → Fin nb) ℂ
  | [], _ => 1
  | a :: l, v => windowOp R l (step R a.1 a.2 v) * op R (fields R a.2 v.s)

/-- The sum of the constants of the fields: force bias and mean-field shift. -/
noncomputable def windowConst (R : Setup nx nb nu nd) : List (Bool × (Fin nx → ℝ)) → BW nx nb nu nd → ℂ
  | [], _ => 0
  | a :: l, v =>
    ((phaseless R.n R.dt R.t R.fb R.eloc R.psi a.2 v.s).1.cfb + (phaseless R.n R.dt R.t R.fb R.eloc R.psi a.2 v.s).1.cmf) +
      windowConst R l (step R a.1 a.2 v)

/-- What is recorded in the steps. -/
noncomputable def recorded (R : Setup nx nb nu nd) : List (Bool × (Fin nx → ℝ)) → BW nx nb nu nd →
    List ((Fin nx → ℂ) × ℂ × ℂ)
  | [], _ => []
  | a :: l, v =>
    (fields R a.2 v.s, (updateHybrid R.dt R.eshift (phaseless R.n R.dt R.t R.fb R.eloc R.psi a.2 v.s).1 v.w).2.1,
      (((updateHybrid R.dt R.eshift (phaseless R.n R.dt R.t R.fb R.eloc R.psi a.2 v.s).1 v.w).2.2.re : ℝ) : ℂ)) ::
      recorded R l (step R a.1 a.2 v)

/-- In every step: no overlap is zero and the hybrid energy is not capped, the recorded cosine is not zero, the matrices are
invertible. -/
def Fine (R : Setup nx nb nu nd) : List (Bool × (Fin nx → ℝ)) → BW nx nb nu nd → Prop
  | [], _ => True
  | a :: l, v =>
    Uncapped R.dt R.eshift (phaseless R.n R.dt R.t R.fb R.eloc R.psi a.2 v.s).1 ∧
    (updateHybrid R.dt R.eshift (phaseless R.n R.dt R.t R.fb R.eloc R.psi a.2 v.s).1 v.w).2.2 ≠ 0 ∧
    (∀ s, (mat R (fields R a.2 v.s) s).det ≠ 0) ∧
    Fine R l (step R a.1 a.2 v)

theorem hist_run (R : Setup nx nb nu nd) (l : List (Bool × (Fin nx → ℝ))) (v : BW nx nb nu nd) :
    (run R l v).hist = v.hist ++ recorded R l v := by
  induction l generalizing v with
  | nil => simp [run, recorded]
  | cons a l ih =>
    have : run R (a :: l) v = run R l (step R a.1 a.2 v) := rfl
    rw [this, ih, recorded]
    simp [step]

theorem recorded_length (R : Setup nx nb nu nd) (l : List (Bool × (Fin nx → ℝ))) (v : BW nx nb nu nd) :
    (recorded R l v).length = l.length := by
  induction l generalizing v with
  | nil => rfl
  | cons a l ih => simp [recorded, ih]

theorem windowOp_eq (R : Setup nx nb nu nd) (l : List (Bool × (Fin nx → ℝ))) (v : BW nx nb nu nd) :
    windowOp R l v = tens fun a => windowMat R l v (spin a) := by
  induction l generalizing v with
  | nil =>
    ext f g
    simp only [windowOp, windowMat, tens, Matrix.of_apply, Matrix.one_apply]
    by_cases h : f = g
    · subst h; simp
    · obtain ⟨a, ha⟩ := Function.ne_iff.1 h
      rw [if_neg h]
      exact (prod_eq_zero (mem_univ a) (if_neg ha)).symm
  | cons a l ih => simp only [windowOp, windowMat, ih, op, tens_mul]

/-- The matrices of the back propagation are those of the steps. -/
theorem propMatrix_eq (R : Setup nx nb nu nd) (x : Fin nx → ℂ) (s : Fin 2) :
    propMatrix (R.t.BH1 s) (R.t.vhs x s) = mat R x s := by
  rw [propMatrix, Slater.exponentiateMatrix_taylor, mat, Matrix.mul_assoc]

theorem foldl_mats (l : List (Matrix (Fin nb) (Fin nb) ℂ)) (M : Matrix (Fin nb) (Fin nb) ℂ) :
    l.foldl (fun M B => B * M) M = l.foldl (fun M B => B * M) 1 * M := by
  induction l generalizing M with
  | nil => simp
  | cons B l ih => rw [List.foldl_cons, List.foldl_cons, ih (B * M), ih (B * 1), mul_one, Matrix.mul_assoc]

theorem windowMat_eq (R : Setup nx nb nu nd) (l : List (Bool × (Fin nx → ℝ))) (v : BW nx nb nu nd) (s : Fin 2) :
    ((recorded R l v).map fun e => propMatrix (R.t.BH1 s) (R.t.vhs e.1 s)).foldl (fun M B => B * M) 1 = windowMat R l v s := by
  induction l generalizing v with
  | nil => rfl
  | cons a l ih => rw [recorded, List.map_cons, List.foldl_cons, mul_one, foldl_mats, ih, windowMat, propMatrix_eq]

/-- The orbitals after a step, before reorthogonalisation. -/
theorem orbitals (R : Setup nx nb nu nd) (hn : R.n = 6) (xi : Fin nx → ℝ) (w : Slater.Wk nb nu nd) :
    Slater.up (phaseless R.n R.dt R.t R.fb R.eloc R.psi xi w).2.phi = mat R (fields R xi w) 0 * Slater.up w.phi ∧
    Slater.dn (phaseless R.n R.dt R.t R.fb R.eloc R.psi xi w).2.phi = mat R (fields R xi w) 1 * Slater.dn w.phi := by
  simp only [phaseless, twoBodyPropagator, kineticReal, Slater.up_join, Slater.dn_join, Slater.applyExponential_taylor, mat, fields,
    hn, Matrix.mul_assoc, and_self]

/-- The orbitals `phi` multiplied by a matrix for each spin. -/
def mulBoth (M : Fin 2 → Matrix (Fin nb) (Fin nb) ℂ) (phi : Slater.Wfn nb nu nd) : Slater.Wfn nb nu nd :=
  Slater.join (M 0 * Slater.up phi) (M 1 * Slater.dn phi)

theorem ovl2_mulBoth (A : Slater.Wfn nb nu nd) (M : Fin 2 → Matrix (Fin nb) (Fin nb) ℂ) (phi : Slater.Wfn nb nu nd) :
    ovl2 A (mulBoth M phi) = ovl2 (mulBoth (fun s => (M s)ᴴ) A) phi := by
  rw [ovl2, ovl2, mulBoth, mulBoth, Slater.up_join, Slater.dn_join, Slater.up_join, Slater.dn_join, ovl_adj, ovl_adj]

theorem mulBoth_mulBoth (M N : Fin 2 → Matrix (Fin nb) (Fin nb) ℂ) (phi : Slater.Wfn nb nu nd) :
    mulBoth M (mulBoth N phi) = mulBoth (fun s => M s * N s) phi := by
  simp only [mulBoth, Slater.up_join, Slater.dn_join, Matrix.mul_assoc]

theorem mulBoth_one (phi : Slater.Wfn nb nu nd) : mulBoth (fun _ => 1) phi = phi := by
  ext i j
  rw [mulBoth, Matrix.one_mul, Matrix.one_mul]
  refine Fin.addCases (fun a => ?_) (fun a => ?_) j
  · rw [Slater.join, Fin.addCases_left]; rfl
  · rw [Slater.join, Fin.addCases_right]; rfl

theorem orbitals' (R : Setup nx nb nu nd) (hn : R.n = 6) (xi : Fin nx → ℝ) (w : Slater.Wk nb nu nd) :
    (phaseless R.n R.dt R.t R.fb R.eloc R.psi xi w).2.phi = mulBoth (mat R (fields R xi w)) w.phi := by
  simp only [phaseless, twoBodyPropagator, kineticReal, Slater.up_join, Slater.dn_join, Slater.applyExponential_taylor, mat, fields,
    hn, Matrix.mul_assoc, mulBoth]

/-- Reorthogonalisation multiplies all overlaps by the same number. -/
theorem step_ovl (R : Setup nx nb nu nd) (hn : R.n = 6) (hqr : QRSpec R.qr) (o : Bool) (xi : Fin nx → ℝ) (v : BW nx nb nu nd)
    (h : ovl2 R.psi (mulBoth (mat R (fields R xi v.s)) v.s.phi) ≠ 0) :
    ∃ d : ℂ, d ≠ 0 ∧ ∀ A, ovl2 A (mulBoth (mat R (fields R xi v.s)) v.s.phi) = d * ovl2 A (step R o xi v).s.phi := by
  rw [← orbitals' R hn] at h ⊢
  cases o with
  | false => exact ⟨1, one_ne_zero, fun A => by rw [one_mul]; rfl⟩
  | true =>
    obtain ⟨-, -, hpos, a4, -, -, -⟩ := Slater.reortho_facts R.qr hqr (phaseless R.n R.dt R.t R.fb R.eloc R.psi xi v.s).2
      (Slater.fullRank_of_overlap (left_ne_zero_of_mul h)) (Slater.fullRank_of_overlap (right_ne_zero_of_mul h))
    exact ⟨_, mul_ne_zero (by exact_mod_cast hpos.ne') (Complex.exp_ne_zero _), a4⟩

theorem step_logShift (R : Setup nx nb nu nd) (o : Bool) (xi : Fin nx → ℝ) (v : BW nx nb nu nd) :
    (step R o xi v).s.logShift = v.s.logShift := by
  cases o <;> rfl

/-- One step: weight × recorded phase factor. -/
theorem step_weight (R : Setup nx nb k k) (hdt : 0 < R.dt) (hn : R.n = 6) (o : Bool) (xi : Fin nx → ℝ) (v : BW nx nb k k)
    (hu : Uncapped R.dt R.eshift (phaseless R.n R.dt R.t R.fb R.eloc R.psi xi v.s).1)
    (hc : (updateHybrid R.dt R.eshift (phaseless R.n R.dt R.t R.fb R.eloc R.psi xi v.s).1 v.w).2.2 ≠ 0) :
    ovl2 R.psi v.s.phi ≠ 0 ∧ ovl2 R.psi (mulBoth (mat R (fields R xi v.s)) v.s.phi) ≠ 0 ∧
    ((step R o xi v).w.weight : ℂ) * (updateHybrid R.dt R.eshift (phaseless R.n R.dt R.t R.fb R.eloc R.psi xi v.s).1 v.w).2.1 *
        Complex.exp (-(R.dt / 2) * (step R o xi v).w.hyb) =
      v.w.weight * (((updateHybrid R.dt R.eshift (phaseless R.n R.dt R.t R.fb R.eloc R.psi xi v.s).1 v.w).2.2.re : ℝ) : ℂ) *
        (ovl2 R.psi (mulBoth (mat R (fields R xi v.s)) v.s.phi) / ovl2 R.psi v.s.phi) *
        Complex.exp ((phaseless R.n R.dt R.t R.fb R.eloc R.psi xi v.s).1.cfb +
          (phaseless R.n R.dt R.t R.fb R.eloc R.psi xi v.s).1.cmf) *
        Complex.exp (R.dt * R.eshift) * Complex.exp (-(R.dt / 2) * v.w.hyb) := by
  have e1 : (phaseless R.n R.dt R.t R.fb R.eloc R.psi xi v.s).1.ovlpNew =
      ovl2 R.psi (mulBoth (mat R (fields R xi v.s)) v.s.phi) * Complex.exp (-(v.s.logShift : ℂ)) := by
    rw [← orbitals' R hn]
    exact Slater.calcOverlap_eq R.psi (phaseless R.n R.dt R.t R.fb R.eloc R.psi xi v.s).2
  have e2 : (phaseless R.n R.dt R.t R.fb R.eloc R.psi xi v.s).1.ovlp =
      ovl2 R.psi v.s.phi * Complex.exp (-(v.s.logShift : ℂ)) := Slater.greensFunction_det R.psi v.s
  have hw : (step R o xi v).w = (updateHybrid R.dt R.eshift (phaseless R.n R.dt R.t R.fb R.eloc R.psi xi v.s).1 v.w).1 := by
    cases o <;> rfl
  rw [hw]
  generalize (phaseless R.n R.dt R.t R.fb R.eloc R.psi xi v.s).1 = p at *
  obtain ⟨u1, u2, u3⟩ := hu
  have hE := Complex.exp_ne_zero (-(v.s.logShift : ℂ))
  refine ⟨left_ne_zero_of_mul (e2 ▸ u1), left_ne_zero_of_mul (e1 ▸ u2), ?_⟩
  have hm : (1e-16 : ℝ) < ‖Complex.exp (-(R.dt : ℂ) * (1 / 2 * (hybridEnergy R.dt R.eshift p + v.w.hyb) - R.eshift))‖ := by
    by_contra h
    apply hc
    simp only [updateHybrid]
    rw [if_neg h]
  have hp := (Weights.updateHybrid_pushed R.dt R.eshift p v.w hm).2
  have hre : (updateHybrid R.dt R.eshift p v.w).2.2 = (((updateHybrid R.dt R.eshift p v.w).2.2.re : ℝ) : ℂ) := by
    simp only [updateHybrid, if_pos hm, Complex.ofReal_re]
  rw [hp, ← hre]
  have hh : (updateHybrid R.dt R.eshift p v.w).1.hyb = hybridEnergy R.dt R.eshift p := rfl
  rw [hh]
  have hd : (R.dt : ℂ) ≠ 0 := by exact_mod_cast hdt.ne'
  have hr : ovl2 R.psi (mulBoth (mat R (fields R xi v.s)) v.s.phi) / ovl2 R.psi v.s.phi = p.ovlpNew / p.ovlp := by
    rw [e1, e2, mul_div_mul_right _ _ hE]
  have hkey : Complex.exp (-(R.dt : ℂ) * (1 / 2 * (hybridEnergy R.dt R.eshift p + v.w.hyb) - R.eshift)) *
      Complex.exp (-(R.dt / 2) * hybridEnergy R.dt R.eshift p) =
      p.ovlpNew / p.ovlp * Complex.exp (p.cfb + p.cmf) * Complex.exp (R.dt * R.eshift) *
        Complex.exp (-(R.dt / 2) * v.w.hyb) := by
    rw [← Complex.exp_log (div_ne_zero u2 u1), ← Complex.exp_add, ← Complex.exp_add, ← Complex.exp_add, ← Complex.exp_add, u3]
    congr 1
    field_simp
    ring
  rw [hr]
  simp only [importances, List.prod_cons, List.prod_nil, mul_one]
  linear_combination (v.w.weight * (updateHybrid R.dt R.eshift p v.w).2.2 : ℂ) * hkey

/-- The weight of the walker at the end of a window times the recorded phase factors. -/
theorem run_weight (R : Setup nx nb k k) (hdt : 0 < R.dt) (hn : R.n = 6) (hqr : QRSpec R.qr) (l : List (Bool × (Fin nx → ℝ)))
    (v : BW nx nb k k) (hf : Fine R l v) (h0 : ovl2 R.psi v.s.phi ≠ 0) :
    ((run R l v).w.weight : ℂ) * ((recorded R l v).map fun e => e.2.1).prod * Complex.exp (-(R.dt / 2) * (run R l v).w.hyb) *
        ovl2 R.psi v.s.phi =
      v.w.weight * ((recorded R l v).map fun e => e.2.2).prod * Complex.exp (-(R.dt / 2) * v.w.hyb) *
        Complex.exp (l.length * R.dt * R.eshift) * Complex.exp (windowConst R l v) *
        ovl2 R.psi (mulBoth (windowMat R l v) v.s.phi) := by
  induction l generalizing v with
  | nil =>
    have : mulBoth (windowMat R [] v) v.s.phi = v.s.phi := mulBoth_one _
    rw [this]
    simp [run, recorded, windowConst]
  | cons a l ih =>
    obtain ⟨hu, hc, hm, hf⟩ := hf
    obtain ⟨o0, o1, hw⟩ := step_weight R hdt hn a.1 a.2 v hu hc
    obtain ⟨d, hd, hov⟩ := step_ovl R hn hqr a.1 a.2 v o1
    have h1 : ovl2 R.psi (step R a.1 a.2 v).s.phi ≠ 0 := fun h => o1 (by rw [hov, h, mul_zero])
    have IH := ih (step R a.1 a.2 v) hf h1
    have hrun : run R (a :: l) v = run R l (step R a.1 a.2 v) := rfl
    have e2 : ovl2 R.psi (mulBoth (windowMat R (a :: l) v) v.s.phi) =
        d * ovl2 R.psi (mulBoth (windowMat R l (step R a.1 a.2 v)) (step R a.1 a.2 v).s.phi) := by
      have : mulBoth (windowMat R (a :: l) v) v.s.phi =
          mulBoth (windowMat R l (step R a.1 a.2 v)) (mulBoth (mat R (fields R a.2 v.s)) v.s.phi) := by
        rw [mulBoth_mulBoth]; rfl
      rw [this, ovl2_mulBoth, hov, ← ovl2_mulBoth]
    rw [hrun, recorded, List.map_cons, List.map_cons, List.prod_cons, List.prod_cons, windowConst, Complex.exp_add, e2,
      List.length_cons]
    have hov' := hov R.psi
    have hlen : Complex.exp (((l.length + 1 : ℕ) : ℂ) * R.dt * R.eshift) =
        Complex.exp (l.length * R.dt * R.eshift) * Complex.exp (R.dt * R.eshift) := by
      rw [← Complex.exp_add]; congr 1; push_cast; ring
    rw [hlen]
    simp only
    generalize ((recorded R l (step R a.1 a.2 v)).map fun e => e.2.1).prod = P at *
    generalize ((recorded R l (step R a.1 a.2 v)).map fun e => e.2.2).prod = Cc at *
    generalize (updateHybrid R.dt R.eshift (phaseless R.n R.dt R.t R.fb R.eloc R.psi a.2 v.s).1 v.w).2.1 = ph at *
    generalize ((((updateHybrid R.dt R.eshift (phaseless R.n R.dt R.t R.fb R.eloc R.psi a.2 v.s).1 v.w).2.2.re : ℝ)) : ℂ) = c1 at *
    generalize ovl2 R.psi (mulBoth (windowMat R l (step R a.1 a.2 v)) (step R a.1 a.2 v).s.phi) = X at *
    generalize ovl2 R.psi (mulBoth (mat R (fields R a.2 v.s)) v.s.phi) = Y at *
    generalize ovl2 R.psi (step R a.1 a.2 v).s.phi = Z at *
    generalize ovl2 R.psi v.s.phi = O at *
    generalize ((run R l (step R a.1 a.2 v)).w.weight : ℂ) = w2 at *
    generalize ((step R a.1 a.2 v).w.weight : ℂ) = w1 at *
    generalize Complex.exp (-(R.dt / 2) * (run R l (step R a.1 a.2 v)).w.hyb) = E2 at *
    generalize Complex.exp (-(R.dt / 2) * (step R a.1 a.2 v).w.hyb) = E1 at *
    generalize Complex.exp (-(R.dt / 2) * v.w.hyb) = E0 at *
    generalize Complex.exp (windowConst R l (step R a.1 a.2 v)) = F at *
    generalize Complex.exp (l.length * R.dt * R.eshift) = L at *
    generalize Complex.exp (R.dt * R.eshift) = S at *
    generalize Complex.exp ((phaseless R.n R.dt R.t R.fb R.eloc R.psi a.2 v.s).1.cfb +
          (phaseless R.n R.dt R.t R.fb R.eloc R.psi a.2 v.s).1.cmf) = f at *
    have hw' : w1 * ph * E1 * O = (v.w.weight : ℂ) * c1 * Y * f * S * E0 := by
      rw [hw]; field_simp
    subst hov'
    refine mul_left_cancel₀ (mul_ne_zero hd h1) ?_
    linear_combination (d * ph * O) * IH + (Cc * L * F * X * d) * hw'

end Verif.BackProp
