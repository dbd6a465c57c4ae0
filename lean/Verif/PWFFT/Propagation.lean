import Verif.PWFFT.Energy
import Verif.Step.PlaneWave

/-!
# The plane-wave propagator by Fourier transforms (C93)
-/

namespace Verif.PWFFT

open Finset
open Verif.UEG (Vec nsq Inp energy)
open Verif.Energy (ovl)

/-! ## The field potential -/

/-- Coefficient of a momentum transfer. -/
noncomputable def coef (I : Inp) (q : Fin (nq I)) : ℝ := Real.sqrt (1 / (4 * I.vol)) * Real.sqrt (vq I (qv I q))

/-- The density operator of a momentum transfer: it moves every plane wave by `q`. -/
noncomputable def dens (I : Inp) (q : Fin (nq I)) : Matrix (Fin (nb I)) (Fin (nb I)) ℂ :=
  Matrix.of fun a b => if pv I a = pv I b + qv I q then 1 else 0

/-- `i (ρ_q + ρ_q†)` with its coefficient. -/
noncomputable def opA (I : Inp) (q : Fin (nq I)) : Matrix (Fin (nb I)) (Fin (nb I)) ℂ :=
  (Complex.I * (coef I q : ℂ)) • (dens I q + (dens I q).transpose)

/-- `-(ρ_q - ρ_q†)` with its coefficient. -/
noncomputable def opB (I : Inp) (q : Fin (nq I)) : Matrix (Fin (nb I)) (Fin (nb I)) ℂ :=
  (-(coef I q : ℂ)) • (dens I q - (dens I q).transpose)

/-- The tables with which the general propagator does the same. -/
noncomputable def tables (dt : ℝ) (I : Inp) : Step.Tables (nq I + nq I) (nb I) :=
  Step.planeWave dt (fun _ => Matrix.diagonal fun i => (modOneBody I i : ℂ)) (opA I) (opB I)

theorem valid_at {fast : Nat → Nat} (hf : ∀ d, d ≤ fast d) (I : Inp) (X : Fin (nq I) → ℂ) (v : Fin (nb I) → ℂ) {p : Nat}
    (hp : p < len (M I)) :
    convolveValid fast (scatter (qmap I) X) (scatter (gmap I) v) (qmesh I) (mesh I) p =
      ∑ q, ∑ b, if qv I q + pv I b = vecAt (M I) p then X q * v b else 0 := by
  have hm : qmesh I - mesh I + 1 = mesh I := by unfold mesh qmesh; omega
  rw [convolveValid_eq hf _ _ (by unfold mesh; omega) (by unfold mesh qmesh; omega) (by rw [hm, mesh_cube]; exact hp),
    conv_scatter (nodup_qmap I) (nodup_gmap I) (qmap_lt I) (gmap_lt I)]
  refine sum_congr rfl fun q _ => sum_congr rfl fun b _ => if_congr ?_ rfl rfl
  rw [hm, qv_eq, pv_eq, vecAt, vecAt, vecAt, toVec_add, ← mesh_eq, ← qmesh_eq]
  obtain ⟨x1, x2, x3⟩ := unflat (qmesh I) (qmap I)[q]
  obtain ⟨y1, y2, y3⟩ := unflat (mesh I) (gmap I)[b]
  obtain ⟨z1, z2, z3⟩ := unflat (mesh I) p
  simp only [toVec, Prod.mk_add_mk, Prod.mk.injEq]
  unfold mesh
  push_cast
  omega

/-- A convolution of a reversed array, reversed. -/
theorem valid_flip {fast : Nat → Nat} (hf : ∀ d, d ≤ fast d) (I : Inp) (X : Fin (nq I) → ℂ) (v : Fin (nb I) → ℂ) {p : Nat}
    (hp : p < len (M I)) :
    flip (mesh I * mesh I * mesh I) (convolveValid fast (scatter (qmap I) X)
      (flip (mesh I * mesh I * mesh I) (scatter (gmap I) v)) (qmesh I) (mesh I)) p =
      ∑ q, ∑ b, if vecAt (M I) p + qv I q = pv I b then X q * v b else 0 := by
  have hc : convolveValid fast (scatter (qmap I) X) (flip (len (M I)) (scatter (gmap I) v)) (qmesh I) (mesh I) =
      convolveValid fast (scatter (qmap I) X) (scatter (gmap I) (rev v)) (qmesh I) (mesh I) := by
    unfold convolveValid
    have : pad (mesh I) (reshape (mesh I) (flip (len (M I)) (scatter (gmap I) v))) =
        pad (mesh I) (reshape (mesh I) (scatter (gmap I) (rev v))) := by
      funext x
      unfold pad
      split_ifs with h
      · exact flip_scatter v (by rw [← mesh_cube]; exact flat_lt h)
      · rfl
    rw [this]
  rw [mesh_cube, flip, hc, valid_at hf _ _ _ (by omega)]
  refine sum_congr rfl fun q _ => ?_
  rw [← rev_sum]
  refine sum_congr rfl fun b _ => ?_
  rw [pv_rev, rev, Fin.rev_rev, vecAt_flip hp]
  refine if_congr ?_ rfl rfl
  constructor
  · intro h; linear_combination (exp := 1) h
  · intro h; rw [← h]; abel

/-- The matrix of the potential for given fields. -/
noncomputable def pot (I : Inp) (X Y : Fin (nq I) → ℂ) : Matrix (Fin (nb I)) (Fin (nb I)) ℂ :=
  ∑ q, (X q * Complex.I) • (dens I q + (dens I q).transpose) - ∑ q, Y q • (dens I q - (dens I q).transpose)

theorem pot_mul (I : Inp) (X Y : Fin (nq I) → ℂ) (v : Fin (nb I) → ℂ) (a : Fin (nb I)) :
    ∑ b, pot I X Y a b * v b =
      Complex.I * ((∑ q, ∑ b, if qv I q + pv I b = pv I a then X q * v b else 0) +
        ∑ q, ∑ b, if pv I a + qv I q = pv I b then X q * v b else 0) -
      ((∑ q, ∑ b, if qv I q + pv I b = pv I a then Y q * v b else 0) -
        ∑ q, ∑ b, if pv I a + qv I q = pv I b then Y q * v b else 0) := by
  have e : ∀ b, pot I X Y a b = (∑ q, X q * Complex.I * ((if qv I q + pv I b = pv I a then 1 else 0) +
      if pv I a + qv I q = pv I b then 1 else 0)) - ∑ q, Y q * ((if qv I q + pv I b = pv I a then 1 else 0) -
      if pv I a + qv I q = pv I b then 1 else 0) := by
    intro b
    have h1 : ∀ q, dens I q a b = if qv I q + pv I b = pv I a then (1 : ℂ) else 0 := by
      intro q
      rw [dens, Matrix.of_apply, add_comm]
      exact if_congr eq_comm rfl rfl
    have h2 : ∀ q, dens I q b a = if pv I a + qv I q = pv I b then (1 : ℂ) else 0 := by
      intro q
      rw [dens, Matrix.of_apply]
      exact if_congr eq_comm rfl rfl
    simp only [pot, Matrix.sub_apply, Matrix.sum_apply, Matrix.smul_apply, Matrix.add_apply, Matrix.transpose_apply,
      smul_eq_mul, h1, h2]
  simp only [e, sub_mul, sum_mul, sum_sub_distrib, mul_add, mul_sub, mul_sum, add_mul, sum_add_distrib]
  have c : ∀ (P : Fin (nb I) → Fin (nq I) → Prop) [∀ b q, Decidable (P b q)] (Z : Fin (nq I) → ℂ) (k : ℂ),
      ∑ b, ∑ q, Z q * k * (if P b q then 1 else 0) * v b = ∑ q, ∑ b, k * if P b q then Z q * v b else 0 := by
    intro P _ Z k
    rw [sum_comm]
    refine sum_congr rfl fun q _ => sum_congr rfl fun b _ => ?_
    split_ifs <;> ring
  have c1 : ∀ (P : Fin (nb I) → Fin (nq I) → Prop) [∀ b q, Decidable (P b q)] (Z : Fin (nq I) → ℂ),
      ∑ b, ∑ q, Z q * (if P b q then 1 else 0) * v b = ∑ q, ∑ b, if P b q then Z q * v b else 0 := by
    intro P _ Z
    have := c P Z 1
    simpa only [mul_one, one_mul] using this
  rw [c, c, c1, c1]

theorem gmap_mem_vec (I : Inp) (a : Fin (nb I)) : vecAt (M I) (gmap I)[a] = pv I a := (pv_eq I a).symm

/-- One order of the expansion is the action of the potential. -/
theorem applyV_eq {fast : Nat → Nat} (hf : ∀ d, d ≤ fast d) (I : Inp) (X Y : Fin (nq I) → ℂ) (v : Fin (nb I) → ℂ) (n : Nat) :
    applyV fast I (scatter (qmap I) X) (scatter (qmap I) Y) (scatter (gmap I) v) n =
      scatter (gmap I) fun a => (1 / (n : ℂ)) * ∑ b, pot I X Y a b * v b := by
  rw [← scatter_gather (nodup_gmap I) (applyV fast I (scatter (qmap I) X) (scatter (qmap I) Y) (scatter (gmap I) v) n)
    fun p hp => by rw [applyV]; exact if_neg hp]
  congr 1
  funext a
  have ha : (gmap I)[a] < len (M I) := gmapOf_lt a
  have hm : (gmap I)[a] ∈ gmap I := List.getElem_mem _
  rw [gather, applyV]
  simp only [if_pos hm]
  rw [valid_at hf I X v ha, valid_flip hf I X v ha, valid_at hf I Y v ha, valid_flip hf I Y v ha, gmap_mem_vec, pot_mul]
  ring

/-- The loop over orders is that of `apply_exponential`. -/
theorem expV_eq {fast : Nat → Nat} (hf : ∀ d, d ≤ fast d) (I : Inp) (nmax : Nat) (X Y : Fin (nq I) → ℂ) {k : Nat}
    (phi : Matrix (Fin (nb I)) (Fin k) ℂ) (i : Fin k) (a : Fin (nb I)) :
    expV fast I nmax (scatter (qmap I) X) (scatter (qmap I) Y) (fun b => phi b i) a =
      Slater.applyExponential nmax (pot I X Y) phi a i := by
  unfold expV Slater.applyExponential
  have key : ∀ (l : List Nat) (s : Matrix (Fin (nb I)) (Fin k) ℂ × Matrix (Fin (nb I)) (Fin k) ℂ),
      (l.foldl (fun (s : (Nat → ℂ) × (Fin (nb I) → ℂ)) n =>
        let g := applyV fast I (scatter (qmap I) X) (scatter (qmap I) Y) s.1 (n + 1)
        (g, fun a => s.2 a + gather (gmap I) g a)) (scatter (gmap I) (fun b => s.1 b i), fun b => s.2 b i)).2 =
      fun b => (l.foldl (fun (s : Matrix (Fin (nb I)) (Fin k) ℂ × Matrix (Fin (nb I)) (Fin k) ℂ) n =>
        let T := (1 / ((n + 1 : Nat) : ℂ)) • (pot I X Y * s.1)
        (T, s.2 + T)) s).2 b i := by
    intro l
    induction l with
    | nil => intro s; rfl
    | cons n l ih =>
      intro s
      rw [List.foldl_cons, List.foldl_cons, ← ih]
      simp only [applyV_eq hf, gather_scatter (nodup_gmap I)]
      rfl
  exact congrFun (key (List.range nmax) (phi, phi)) a

variable {nu nd : Nat}

theorem vhs_eq (dt : ℝ) (I : Inp) (x : Fin (nq I + nq I) → ℂ) (s : Fin 2) :
    (tables dt I).vhs x s = pot I (fun q => x (Fin.castAdd (nq I) q) * vqfactor dt I q)
      fun q => x (Fin.natAdd (nq I) q) * vqfactor dt I q := by
  simp only [tables, Step.planeWave, pot, opA, opB, vqfactor, coef, sub_eq_add_neg (∑ q, _ : Matrix (Fin (nb I)) (Fin (nb I)) ℂ),
    ← sum_neg_distrib, smul_add (Real.sqrt dt : ℂ), smul_sum, smul_smul, ← neg_smul]
  refine congrArg₂ (· + ·) (sum_congr rfl fun q _ => ?_) (sum_congr rfl fun q _ => ?_)
  · congr 1; push_cast; ring
  · congr 1; push_cast; ring

/-- **C93 (two-body factor)**: the Fourier transforms apply the same matrix exponential, order by order, as the general
propagator with the density operators. -/
theorem twoBody_eq {fast : Nat → Nat} (hf : ∀ d, d ≤ fast d) (nmax : Nat) (dt : ℝ) (I : Inp) (xi : Fin (nq I + nq I) → ℝ)
    (fb : Fin (nq I + nq I) → ℂ) (phi : Slater.Wfn (nb I) nu nd) :
    twoBody fast nmax dt I xi fb phi = Step.twoBodyPropagator nmax dt (tables dt I) xi fb phi := by
  unfold twoBody Step.twoBodyPropagator
  simp only [vhs_eq]
  refine Prod.ext ?_ rfl
  funext a i
  simp only [Slater.join]
  refine Fin.addCases (fun i => ?_) (fun i => ?_) i
  · rw [Fin.addCases_left]
    exact expV_eq hf I nmax _ _ (Slater.up phi) i a
  · rw [Fin.addCases_right]
    exact expV_eq hf I nmax _ _ (Slater.dn phi) i a

/-- The one-body factor. -/
theorem kinetic_eq (dt : ℝ) (I : Inp) (phi : Slater.Wfn (nb I) nu nd) :
    kinetic dt I phi = Step.kineticReal (tables dt I).BH1 phi := by
  have hd : ∀ s, (tables dt I).BH1 s = Matrix.diagonal fun a => Complex.exp (-(1 / 2) * dt * (modOneBody I a : ℂ)) := by
    intro s
    simp only [tables, Step.planeWave]
    rw [← Matrix.diagonal_smul, Matrix.exp_diagonal]
    congr 1
    funext a
    rw [Pi.coe_exp, ← Complex.exp_eq_exp_ℂ]
    rfl
  unfold Step.kineticReal
  funext a i
  simp only [hd, Slater.join]
  refine Fin.addCases (fun i => ?_) (fun i => ?_) i
  · rw [Fin.addCases_left, Matrix.diagonal_mul]; rfl
  · rw [Fin.addCases_right, Matrix.diagonal_mul]; rfl

/-! ## Force bias -/

theorem convolve_flip (fast : Nat → Nat) (I : Inp) (f : Nat → ℂ) (v : Fin (nb I) → ℂ) :
    convolve fast f (flip (mesh I * mesh I * mesh I) (scatter (gmap I) v)) (mesh I) =
      convolve fast f (scatter (gmap I) (rev v)) (mesh I) := by
  unfold convolve
  have : pad (mesh I) (reshape (mesh I) (flip (mesh I * mesh I * mesh I) (scatter (gmap I) v))) =
      pad (mesh I) (reshape (mesh I) (scatter (gmap I) (rev v))) := by
    funext x
    unfold pad
    split_ifs with h
    · rw [mesh_cube]
      exact flip_scatter v (by rw [← mesh_cube]; exact flat_lt h)
    · rfl
  rw [this]

theorem lq1_eq (fast : Nat → Nat) (I : Inp) (ct gh : Fin (nb I) → ℂ) : lq1 fast I ct gh = lkpq fast I ct gh := by
  rw [lq1, lkpq, convolve_flip]

theorem lq2_eq (fast : Nat → Nat) (I : Inp) (ct gh : Fin (nb I) → ℂ) : lq2 fast I ct gh = lpmq fast I ct gh := by
  rw [lq2, lpmq, convolve_flip]

/-- **C93 (force bias)**: the Fourier transforms give the traces of the density operators with the Green's function. -/
theorem forceBias_eq {fast : Nat → Nat} (hf : ∀ d, d ≤ fast d) (dt : ℝ) (I : Inp) (psi : Slater.Wfn (nb I) nu nd)
    (w : Slater.Wk (nb I) nu nd) :
    forceBias fast dt I psi (Slater.greensFunction psi w) =
      Step.planeWaveForceBias dt (opA I) (opB I) (Slater.greensFunction psi w) := by
  have hk : ∀ (G : Matrix (Fin (nb I)) (Fin (nb I)) ℂ) q,
      (∑ a, ∑ b, if pv I a = pv I b + qv I q then G a b else 0) = ∑ a, ∑ b, G a b * dens I q a b := by
    intro G q
    refine sum_congr rfl fun a _ => sum_congr rfl fun b _ => ?_
    rw [dens, Matrix.of_apply]
    split_ifs <;> simp
  have hp : ∀ (G : Matrix (Fin (nb I)) (Fin (nb I)) ℂ) q,
      (∑ a, ∑ b, if pv I b = pv I a + qv I q then G a b else 0) = ∑ a, ∑ b, G a b * dens I q b a := by
    intro G q
    refine sum_congr rfl fun a _ => sum_congr rfl fun b _ => ?_
    rw [dens, Matrix.of_apply]
    split_ifs <;> simp
  have gu : fullG (Slater.up psi) (Slater.greensFunction psi w).gmodUp = (Slater.greensFunction psi w).gUp := rfl
  have gd : fullG (Slater.dn psi) (Slater.greensFunction psi w).gmodDn = (Slater.greensFunction psi w).gDn := rfl
  have tA : ∀ (G : Matrix (Fin (nb I)) (Fin (nb I)) ℂ) q, ∑ i, ∑ k, G i k * opA I q i k =
      (Complex.I * (coef I q : ℂ)) * ((∑ a, ∑ b, G a b * dens I q a b) + ∑ a, ∑ b, G a b * dens I q b a) := by
    intro G q
    rw [mul_add, mul_sum, mul_sum, ← sum_add_distrib]
    refine sum_congr rfl fun a _ => ?_
    rw [mul_sum, mul_sum, ← sum_add_distrib]
    refine sum_congr rfl fun b _ => ?_
    rw [opA, Matrix.smul_apply, Matrix.add_apply, Matrix.transpose_apply, smul_eq_mul]
    ring
  have tB : ∀ (G : Matrix (Fin (nb I)) (Fin (nb I)) ℂ) q, ∑ i, ∑ k, G i k * opB I q i k =
      (coef I q : ℂ) * (-(∑ a, ∑ b, G a b * dens I q a b) + ∑ a, ∑ b, G a b * dens I q b a) := by
    intro G q
    rw [mul_add, mul_neg, mul_sum, mul_sum, ← sum_neg_distrib, ← sum_add_distrib]
    refine sum_congr rfl fun a _ => ?_
    rw [mul_sum, mul_sum, ← sum_neg_distrib, ← sum_add_distrib]
    refine sum_congr rfl fun b _ => ?_
    rw [opB, Matrix.smul_apply, Matrix.sub_apply, Matrix.transpose_apply, smul_eq_mul]
    ring
  unfold forceBias Step.planeWaveForceBias
  simp only [lq1_eq, lq2_eq, gk_eq hf, gp_eq hf, hk, hp, tA, tB, gu, gd]
  funext i
  refine Fin.addCases (fun q => ?_) (fun q => ?_) i
  · rw [Fin.addCases_left, Fin.addCases_left, coef]
    ring
  · rw [Fin.addCases_right, Fin.addCases_right, coef]
    ring

end Verif.PWFFT
