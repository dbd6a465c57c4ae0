import Verif.Grand.Mean
import Verif.Grand.Sector
import Verif.Step.Ground
import Mathlib.LinearAlgebra.Matrix.PosDef
import Mathlib.Analysis.Matrix.PosDef

/-!
# Free projection at finite temperature gives grand canonical averages
-/

namespace Verif.Grand

open Matrix Finset MeasureTheory
open Verif.Thermal (Mat)
open Verif.Step (half genOp avgOp avgOp_pow hubOp coulombOp Anti Sym spin Linear)
open scoped ComplexOrder

variable {nx m : Nat}

/-! ## The starting point can reach a non-singular path -/

theorem pos_pow {A : Mat m} (hA : A.PosDef) : ∀ k : Nat, (A ^ k).PosDef
  | 0 => by rw [pow_zero]; exact .one
  | 1 => by rwa [pow_one]
  | k + 2 => by
    have h := (pos_pow hA k).mul_mul_conjTranspose_same (B := A) (Matrix.vecMul_injective_iff_isUnit.2 hA.isUnit)
    rwa [hA.isHermitian.eq, ← pow_succ', ← pow_succ] at h

theorem pos_det {A B : Mat m} (hA : A.PosDef) (hB : B.PosDef) : (1 + A * B).det ≠ 0 := by
  have hu : IsUnit A.det := (Matrix.isUnit_iff_isUnit_det A).1 hA.isUnit
  have e : 1 + A * B = A * (A⁻¹ + B) := by rw [mul_add, Matrix.mul_nonsing_inv _ hu]
  rw [e, Matrix.det_mul]
  exact mul_ne_zero hA.det_pos.ne' (hA.inv.add hB).det_pos.ne'

theorem half_pos {K : Mat m} (hK : Kᴴ = K) (s : ℝ) : (half K s * half K s).PosDef := by
  have hh : (half K s)ᴴ = half K s := by
    rw [half, ← Matrix.exp_conjTranspose, Matrix.conjTranspose_smul, hK]
    congr 2
    simp
  have hu : IsUnit (half K s) := by
    rw [half]
    exact Matrix.isUnit_exp _
  have := Matrix.PosDef.mul_conjTranspose_self (half K s) (Matrix.vecMul_injective_iff_isUnit.2 hu)
  rwa [hh] at this

theorem run_zero (n : Nat) (K : Fin 2 → Mat m) (W : Fin nx → Fin 2 → Mat m) (s : ℝ) (k : Nat) (C : Fin 2 → Mat m) (σ : Fin 2) :
    run n K W s (List.replicate k 0) C σ = (half (K σ) s * half (K σ) s) ^ k * C σ := by
  induction k generalizing C with
  | zero => simp [run]
  | succ k ih => rw [List.replicate_succ, run, ih, slice_zero, ← Matrix.mul_assoc, ← pow_succ]

theorem reach_start (n : Nat) {K : Fin 2 → Mat m} (hK : ∀ s, (K s)ᴴ = K s) (W : Fin nx → Fin 2 → Mat m) (s : ℝ)
    {BT : Fin 2 → Mat m} (hB : ∀ s, (BT s).PosDef) (rem : Nat) : Reach n K W s BT rem fun _ => 1 := by
  intro k _
  refine ⟨List.replicate k 0, List.length_replicate, fun σ => ?_⟩
  rw [run_zero, mul_one]
  exact pos_det (pos_pow (hB σ) _) (pos_pow (half_pos (hK σ) s) _)

/-! ## The mean of a run -/

theorem observes_one : Observes (fun _ : Fin 2 → Mat m => (1 : ℂ)) 1 := fun C _ => by rw [wick_one, mul_one]

theorem runMean_eq {t : ℝ → Step.Tables nx m} {K : Fin 2 → Mat m} {W : Fin nx → Fin 2 → Mat m} {mf : Fin nx → ℂ}
    (ht : Linear t K W mf) (hK : ∀ s, (K s)ᴴ = K s) {p : Par nx m} (hn : 2 ≤ p.order) (hp : p.tab = t p.dt)
    (h0 : 0 ≤ p.dt) (h1 : p.dt ≤ 1) {BT : Fin 2 → Mat m} {ss : Nat} (ok : ParOk p BT ss) (hB : ∀ s, (BT s).PosDef)
    {E : (Fin 2 → Mat m) → ℂ} {O : Ops m} (hE : Observes E O) (L : Nat) (hL : 0 < L) (hd : ss ∣ L) (w0 : ℝ) :
    runMean p BT ss L w0 E = some (w0 / ((1 + BT 0 ^ L).det * (1 + BT 1 ^ L).det) *
      fock (O * meanOps p.order K W mf (Real.sqrt p.dt) ^ L)) := by
  obtain ⟨nb, rfl⟩ := hd
  have hnb : 0 < nb := Nat.pos_of_mul_pos_left hL
  obtain ⟨w, hw, hi, hww⟩ := newWalker_ok ok.toSetupOk nb w0
  have h := avgPath_eq ht hn hp h0 h1 ok hnb hE (ss * nb) 0 (fun _ => []) w (by rw [zero_add, mul_comm]) hi
    (reach_start _ hK W _ hB _)
  rw [runMean, hw, Option.map_some, h, hww]
  have ho : Stack.ordered ([] : List (Mat m)) = 1 := rfl
  have hpo : (prodOp fun _ => (1 : Mat m)) = 1 := by
    funext nu nd
    exact Step.tens_one
  simp only [ho, hpo, mul_one]

/-! ## The limit -/

/-- The trace of `O exp(-β H)` over all numbers of particles: on each number of particles of both spins the
operators are written as matrices between the determinants of occupied orbitals. -/
noncomputable def gibbs (β : ℝ) (H O : Ops m) : ℂ :=
  ∑ nu ∈ range (m + 1), ∑ nd ∈ range (m + 1), (sector (O nu nd) * NormedSpace.exp (-(β : ℂ) • sector (H nu nd))).trace

theorem lin_bound {κ : Type} [Fintype κ] [DecidableEq κ] (φ : Matrix κ κ ℂ →ₗ[ℂ] ℂ) :
    ∃ B : ℝ, ∀ (X : Matrix κ κ ℂ) (ε : ℝ), (∀ f g, ‖X f g‖ ≤ ε) → ‖φ X‖ ≤ B * ε := by
  refine ⟨∑ f, ∑ g, ‖φ (Matrix.single f g 1)‖, fun X ε h => ?_⟩
  have e : φ X = ∑ f, ∑ g, X f g * φ (Matrix.single f g 1) := by
    conv_lhs => rw [Matrix.matrix_eq_sum_single X]
    rw [map_sum]
    refine sum_congr rfl fun f _ => ?_
    rw [map_sum]
    refine sum_congr rfl fun g _ => ?_
    rw [← smul_eq_mul, ← map_smul, Matrix.smul_single, smul_eq_mul, mul_one]
  rw [e, sum_mul]
  refine (norm_sum_le _ _).trans (sum_le_sum fun f _ => ?_)
  rw [sum_mul]
  refine (norm_sum_le _ _).trans (sum_le_sum fun g _ => ?_)
  rw [norm_mul, mul_comm]
  exact mul_le_mul_of_nonneg_left (h f g) (norm_nonneg _)

theorem fock_converges (n : Nat) (hn : 2 ≤ n) (K : Fin 2 → Mat m) (W : Fin nx → Fin 2 → Mat m) (mf : Fin nx → ℂ)
    {β : ℝ} (hβ : 0 ≤ β) (O : Ops m) : ∃ B : ℝ, ∀ N : Nat, 0 < N → β ≤ N →
      ‖fock (O * meanOps n K W mf (Real.sqrt (β / N)) ^ N) -
        fock (O * fun _ _ => NormedSpace.exp (-(β : ℂ) • genOp K W mf spin))‖ ≤ B / Real.sqrt N := by
  have key : ∀ nu nd : Nat, ∃ B : ℝ, ∀ N : Nat, 0 < N → β ≤ N →
      ‖tr (O nu nd * avgOp n K W mf spin (Real.sqrt (β / N)) ^ N) -
        tr (O nu nd * NormedSpace.exp (-(β : ℂ) • genOp K W mf spin))‖ ≤ B / Real.sqrt N := by
    intro nu nd
    obtain ⟨B, hB⟩ := avgOp_pow n hn K W mf (spin : Fin nu ⊕ Fin nd → Fin 2) hβ
    obtain ⟨C, hC⟩ := lin_bound (trL (O nu nd) 1)
    refine ⟨C * B, fun N h0 hN => ?_⟩
    have := hC (avgOp n K W mf spin (Real.sqrt (β / N)) ^ N - NormedSpace.exp (-(β : ℂ) • genOp K W mf spin))
      (B / Real.sqrt N) fun f g => hB N h0 hN f g
    rw [map_sub] at this
    simp only [trL, LinearMap.coe_mk, AddHom.coe_mk, mul_one] at this
    rwa [mul_div_assoc]
  choose B hB using key
  refine ⟨∑ nu ∈ range (m + 1), ∑ nd ∈ range (m + 1), B nu nd, fun N h0 hN => ?_⟩
  rw [fock, fock, ← sum_sub_distrib, sum_div]
  refine (norm_sum_le _ _).trans (sum_le_sum fun nu _ => ?_)
  rw [← sum_sub_distrib, sum_div]
  refine (norm_sum_le _ _).trans (sum_le_sum fun nd _ => ?_)
  exact hB nu nd N h0 hN

theorem tr_gibbs {nu nd : Nat} (K : Fin 2 → Mat m) (W : Fin nx → Fin 2 → Mat m) (mf : Fin nx → ℂ) (β c : ℂ)
    {H O : Matrix (Fin nu ⊕ Fin nd → Fin m) (Fin nu ⊕ Fin nd → Fin m) ℂ} (hO : Sym spin O)
    (hgen : ∀ α, Anti spin α → α ᵥ* genOp K W mf spin = α ᵥ* (H - c • 1)) :
    tr (O * NormedSpace.exp (-β • genOp K W mf spin)) =
      Complex.exp (β * c) * (sector O * NormedSpace.exp (-β • sector H)).trace := by
  have hs : sector (genOp K W mf (spin : Fin nu ⊕ Fin nd → Fin 2)) = sector H - c • 1 := by
    rw [sector_congr hgen, sector_sub, sector_smul, sector_one]
  have h1 := sector_exp ((Sym.genOp K W mf (spin : Fin nu ⊕ Fin nd → Fin 2)).smul (-β))
  rw [sector_smul, hs, Step.exp_sub_smul] at h1
  rw [tr_sector, sector_mul hO, h1, mul_smul_comm, Matrix.trace_smul, smul_eq_mul]

theorem fock_gibbs (K : Fin 2 → Mat m) (W : Fin nx → Fin 2 → Mat m) (mf : Fin nx → ℂ) (β : ℝ) {H O : Ops m}
    (hO : ∀ nu nd, Sym spin (O nu nd)) (c : ℂ)
    (hgen : ∀ (nu nd : Nat) (α : (Fin nu ⊕ Fin nd → Fin m) → ℂ), Anti spin α → α ᵥ* genOp K W mf spin = α ᵥ* (H nu nd - c • 1)) :
    fock (O * fun _ _ => NormedSpace.exp (-(β : ℂ) • genOp K W mf spin)) = Complex.exp (β * c) * gibbs β H O := by
  rw [fock, gibbs, mul_sum]
  refine sum_congr rfl fun nu _ => ?_
  rw [mul_sum]
  exact sum_congr rfl fun nd _ => tr_gibbs K W mf β c (hO nu nd) (hgen nu nd)

theorem gibbs_pos (β : ℝ) {H : Ops m} (hS : ∀ nu nd, Sym spin (H nu nd)) (hH : ∀ nu nd, (H nu nd).IsHermitian) :
    ∃ r : ℝ, 0 < r ∧ gibbs β H 1 = r := by
  obtain ⟨r, hr, e⟩ := partition_pos (m := m) (fun nu nd => -(β : ℂ) • sector (H nu nd)) fun nu nd => by
    rw [Matrix.IsHermitian, Matrix.conjTranspose_smul, (sector_herm (hS nu nd) (hH nu nd)).eq]
    simp
  refine ⟨r, hr, ?_⟩
  rw [← e, gibbs]
  refine sum_congr rfl fun nu _ => sum_congr rfl fun nd _ => ?_
  rw [show (1 : Ops m) nu nd = 1 from rfl, sector_one, one_mul]

/-- The parameters of a run with `L` slices of length `β / L`. -/
structure RunOk (n : Nat) (t : ℝ → Step.Tables nx m) (β : ℝ) (L ss : Nat) (BT : Fin 2 → Mat m) (p : Par nx m) : Prop where
  pos : 0 < L
  dvd : ss ∣ L
  order : p.order = n
  dt : p.dt = β / L
  tab : p.tab = t p.dt
  ok : ParOk p BT ss
  trial : ∀ s, (BT s).PosDef

/-- The mean of an estimator over a run of free projection, up to the normalisation by the trial density matrix. -/
theorem run_converges (n : Nat) (hn : 2 ≤ n) {t : ℝ → Step.Tables nx m} {K : Fin 2 → Mat m} {W : Fin nx → Fin 2 → Mat m}
    {mf : Fin nx → ℂ} (ht : Linear t K W mf) (hK : ∀ s, (K s)ᴴ = K s) {β : ℝ} (hβ : 0 ≤ β) {H O : Ops m} {c : ℂ}
    (hgen : ∀ (nu nd : Nat) (α : (Fin nu ⊕ Fin nd → Fin m) → ℂ), Anti spin α → α ᵥ* genOp K W mf spin = α ᵥ* (H nu nd - c • 1))
    (hO : ∀ nu nd, Sym spin (O nu nd)) {E : (Fin 2 → Mat m) → ℂ} (hE : Observes E O) :
    ∃ B : ℝ, ∀ (L ss : Nat) (BT : Fin 2 → Mat m) (p : Par nx m) (w0 : ℝ), RunOk n t β L ss BT p → β ≤ L →
      ∃ a e : ℂ, runMean p BT ss L w0 E = some a ∧
        a = w0 / ((1 + BT 0 ^ L).det * (1 + BT 1 ^ L).det) * (Complex.exp (β * c) * gibbs β H O + e) ∧
        ‖e‖ ≤ B / Real.sqrt L := by
  obtain ⟨B, hB⟩ := fock_converges n hn K W mf hβ O
  refine ⟨B, fun L ss BT p w0 h hL => ?_⟩
  have h0 : 0 ≤ p.dt := by rw [h.dt]; positivity
  have h1 : p.dt ≤ 1 := by
    rw [h.dt]
    exact (div_le_one (by exact_mod_cast h.pos)).2 hL
  have hr := runMean_eq ht hK (h.order ▸ hn) h.tab h0 h1 h.ok h.trial hE L h.pos h.dvd w0
  refine ⟨_, _, hr, ?_, hB L h.pos hL⟩
  rw [fock_gibbs K W mf β hO c hgen, h.order, h.dt, add_sub_cancel]

theorem ratio_close {x y A Z : ℂ} {ε : ℝ} (hZ : Z ≠ 0) (hx : ‖x - A‖ ≤ ε) (hy : ‖y - Z‖ ≤ ε) (he : ε ≤ ‖Z‖ / 2) :
    y ≠ 0 ∧ ‖x / y - A / Z‖ ≤ 2 * (‖Z‖ + ‖A‖) / ‖Z‖ ^ 2 * ε := by
  have hz : 0 < ‖Z‖ := norm_pos_iff.2 hZ
  have h1 : ‖Z‖ / 2 ≤ ‖y‖ := by
    have := norm_sub_norm_le Z y
    rw [norm_sub_rev] at this
    linarith
  have hy0 : y ≠ 0 := norm_pos_iff.1 (by linarith)
  refine ⟨hy0, ?_⟩
  have e : x / y - A / Z = ((x - A) * Z - A * (y - Z)) / (y * Z) := by
    field_simp
    ring
  rw [e, norm_div, norm_mul y Z, div_le_iff₀ (by positivity)]
  have h2 : ‖(x - A) * Z - A * (y - Z)‖ ≤ (‖Z‖ + ‖A‖) * ε := by
    refine (norm_sub_le _ _).trans ?_
    rw [norm_mul, norm_mul]
    nlinarith [norm_nonneg A]
  refine h2.trans ?_
  have h3 : 2 * (‖Z‖ + ‖A‖) / ‖Z‖ ^ 2 * ε * (‖y‖ * ‖Z‖) = (‖Z‖ + ‖A‖) * ε * (2 * ‖y‖ / ‖Z‖) := by
    field_simp
  rw [h3]
  have h4 : 1 ≤ 2 * ‖y‖ / ‖Z‖ := by
    rw [le_div_iff₀ hz]
    linarith
  have h5 : 0 ≤ ε := (norm_nonneg _).trans hx
  exact le_mul_of_one_le_right (by positivity) h4

/-- What a run of free projection reports for `E`: the mean of the numerator over the mean of the denominator
(mixed.py 152-170, 258-266), converges to the grand canonical average of `O` with an error of order `1/√L`. -/
def Averages (n : Nat) (t : ℝ → Step.Tables nx m) (β : ℝ) (H : Ops m) (E : (Fin 2 → Mat m) → ℂ) (O : Ops m) : Prop :=
  gibbs β H 1 ≠ 0 ∧ ∃ (B : ℝ) (L0 : Nat), ∀ (L ss : Nat) (BT : Fin 2 → Mat m) (p : Par nx m) (w0 : ℝ), L0 ≤ L → w0 ≠ 0 →
    RunOk n t β L ss BT p → ∃ a b : ℂ, runMean p BT ss L w0 E = some a ∧ runMean p BT ss L w0 (fun _ => 1) = some b ∧
      b ≠ 0 ∧ ‖a / b - gibbs β H O / gibbs β H 1‖ ≤ B / Real.sqrt L

theorem averages (n : Nat) (hn : 2 ≤ n) {t : ℝ → Step.Tables nx m} {K : Fin 2 → Mat m} {W : Fin nx → Fin 2 → Mat m}
    {mf : Fin nx → ℂ} (ht : Linear t K W mf) (hK : ∀ s, (K s)ᴴ = K s) {β : ℝ} (hβ : 0 ≤ β) {H O : Ops m} {c : ℂ}
    (hgen : ∀ (nu nd : Nat) (α : (Fin nu ⊕ Fin nd → Fin m) → ℂ), Anti spin α → α ᵥ* genOp K W mf spin = α ᵥ* (H nu nd - c • 1))
    (hS : ∀ nu nd, Sym spin (H nu nd)) (hH : ∀ nu nd, (H nu nd).IsHermitian)
    (hO : ∀ nu nd, Sym spin (O nu nd)) {E : (Fin 2 → Mat m) → ℂ} (hE : Observes E O) : Averages n t β H E O := by
  obtain ⟨r, hr, hr1⟩ := gibbs_pos β hS hH
  have hz : gibbs β H 1 ≠ 0 := by rw [hr1]; exact_mod_cast hr.ne'
  obtain ⟨B1, h1⟩ := run_converges n hn ht hK hβ hgen hO hE
  obtain ⟨B2, h2⟩ := run_converges n hn ht hK hβ hgen (O := 1) (fun _ _ => Sym.one) observes_one
  set A := Complex.exp (β * c) * gibbs β H O with hA
  set Z := Complex.exp (β * c) * gibbs β H 1 with hZ
  have hZ0 : Z ≠ 0 := mul_ne_zero (Complex.exp_ne_zero _) hz
  set B := max (max B1 B2) 0 with hBd
  have hB0 : 0 ≤ B := le_max_right _ _
  obtain ⟨L1, hL1⟩ := exists_nat_ge (max β ((2 * B / ‖Z‖) ^ 2))
  refine ⟨hz, 2 * (‖Z‖ + ‖A‖) / ‖Z‖ ^ 2 * B, L1, fun L ss BT p w0 hL hw h => ?_⟩
  have hLr : max β ((2 * B / ‖Z‖) ^ 2) ≤ (L : ℝ) := hL1.trans (by exact_mod_cast hL)
  have hβL : β ≤ L := (le_max_left _ _).trans hLr
  obtain ⟨a, e, ha, hae, hen⟩ := h1 L ss BT p w0 h hβL
  obtain ⟨b, f, hb, hbf, hfn⟩ := h2 L ss BT p w0 h hβL
  have hsq : 0 < Real.sqrt L := Real.sqrt_pos.2 (by exact_mod_cast h.pos)
  have he1 : ‖A + e - A‖ ≤ B / Real.sqrt L := by
    rw [add_sub_cancel_left]
    exact hen.trans (div_le_div_of_nonneg_right ((le_max_left _ _).trans (le_max_left _ _)) hsq.le)
  have he2 : ‖Z + f - Z‖ ≤ B / Real.sqrt L := by
    rw [add_sub_cancel_left]
    exact hfn.trans (div_le_div_of_nonneg_right ((le_max_right _ _).trans (le_max_left _ _)) hsq.le)
  have he3 : B / Real.sqrt L ≤ ‖Z‖ / 2 := by
    have hzn : 0 < ‖Z‖ := norm_pos_iff.2 hZ0
    have h3 : 2 * B / ‖Z‖ ≤ Real.sqrt L := Real.le_sqrt_of_sq_le ((le_max_right _ _).trans hLr)
    rw [div_le_iff₀ hzn] at h3
    rw [div_le_iff₀ hsq]
    linarith
  obtain ⟨hy, hq⟩ := ratio_close hZ0 he1 he2 he3
  have hd : ∀ s, (1 + BT s ^ L).det ≠ 0 := fun s => by
    have := pos_det (pos_pow (h.trial s) L) Matrix.PosDef.one
    rwa [mul_one] at this
  have hpre : (w0 : ℂ) / ((1 + BT 0 ^ L).det * (1 + BT 1 ^ L).det) ≠ 0 :=
    div_ne_zero (by exact_mod_cast hw) (mul_ne_zero (hd 0) (hd 1))
  refine ⟨a, b, ha, hb, ?_, ?_⟩
  · rw [hbf]
    exact mul_ne_zero hpre hy
  · have e1 : a / b = (A + e) / (Z + f) := by
      rw [hae, hbf, mul_div_mul_left _ _ hpre]
    have e2 : gibbs β H O / gibbs β H 1 = A / Z := by
      rw [hA, hZ, mul_div_mul_left _ _ (Complex.exp_ne_zero _)]
    rw [e1, e2, mul_div_assoc (_ : ℝ) B]
    exact hq

end Verif.Grand
