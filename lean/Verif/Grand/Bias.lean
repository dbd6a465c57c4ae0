import Verif.Grand.Systems
import Verif.Step.Shift
import Mathlib.Algebra.MvPolynomial.Funext
import Mathlib.Topology.Algebra.MvPolynomial

/-!
# Free projection at finite temperature with force bias

With `free_projection` and `force_bias` both set (continuous.py 65-70) every step shifts the fields by the force bias of
the walker's Green's function.  The average over the fields of every step does not depend on the shift, so the mean of a
run is the one without force bias, whatever the force bias is.
-/

namespace Verif.Grand

open Matrix Finset MeasureTheory Polynomial
open Verif.Thermal (Mat)
open Verif.Stack (ordered)
open Verif.Step (Linear half field avg IsPoly IsPolyM stepTens spin tens Hub root hubOp)
open Verif.Weights (density cfb cmf xshifted rescale)
open scoped ComplexOrder

variable {nx m : Nat}

/-! ## Model -/

/-- `construct_force_bias` of `HubbardContinuous`, thermal_propagation/hubbard.py 241-244, of the density matrix `P`. -/
noncomputable def hubBias (dt : ℝ) (h : Hub m) (t : Step.Tables m m) (P : Fin 2 → Mat m) : Fin m → ℂ :=
  fun i => -(Real.sqrt dt : ℂ) * (Complex.I * root h.U * (P 0 i i + P 1 i i) - t.mfShift i)

/-- `xbar` of `two_body_propagator`, continuous.py 95-113: the force bias `bias` of the density matrix of the walker's
Green's function, rescaled where it is larger than one. -/
noncomputable def xbarOf (bias : (Fin 2 → Mat m) → Fin nx → ℂ) (w : TWk m) : Fin nx → ℂ :=
  fun i => rescale (bias (rdm w.G) i)

/-- The propagator of the slice with shifted fields, continuous.py 116-120, 125-155 and 175-183. -/
noncomputable def sliceOfB (p : Par nx m) (xbar : Fin nx → ℂ) (xi : Fin nx → ℝ) (s : Fin 2) : Mat m :=
  slab p.scheme (p.tab.BH1 s) (Slater.applyExponential p.order (p.tab.vhs (xshifted xi xbar) s) 1)

/-- `propagate_walker_free`, continuous.py 157-200, with force bias. -/
noncomputable def freeStepB (p : Par nx m) (bias : (Fin 2 → Mat m) → Fin nx → ℂ) (xi : Fin nx → ℝ) (w : TWk m) :
    Option (TWk m) :=
  stepWith p.toSetup (Complex.exp (cmf p.dt p.tab.mfShift xi (xbarOf bias w) + cfb xi (xbarOf bias w)))
    (sliceOfB p (xbarOf bias w) xi) w

/-- The average over all fields of what is measured after `k` further slices. -/
noncomputable def avgPathB (p : Par nx m) (bias : (Fin 2 → Mat m) → Fin nx → ℂ) (F : TWk m → ℂ) : Nat → TWk m → ℂ
  | 0, w => F w
  | k + 1, w => Step.avg fun xi => ((freeStepB p bias xi w).map (avgPathB p bias F k)).getD 0

/-- A run from new walkers. -/
noncomputable def runMeanB (p : Par nx m) (bias : (Fin 2 → Mat m) → Fin nx → ℂ) (BT : Fin 2 → Mat m) (ss nsl : Nat)
    (w0 : ℝ) (E : (Fin 2 → Mat m) → ℂ) : Option ℂ :=
  (newWalker p.toSetup BT ss nsl w0).map (avgPathB p bias (measure p.qrp E) nsl)

/-! ## Polynomials at shifted points -/

/-- A polynomial that does not vanish at some real point is nonzero almost everywhere on any shifted real space. -/
theorem ae_ne_zero_shift {g : (Fin nx → ℂ) → ℂ} (hg : IsPoly g) {x0 : Fin nx → ℝ} (h0 : g (fun a => (x0 a : ℂ)) ≠ 0)
    (b : Fin nx → ℂ) : ∀ᵐ x : Fin nx → ℝ, g (xshifted x b) ≠ 0 := by
  obtain ⟨P, hP⟩ := hg
  -- the shifted polynomial
  let Q : MvPolynomial (Fin nx) ℂ := MvPolynomial.eval₂ MvPolynomial.C (fun a => MvPolynomial.X a - MvPolynomial.C (b a)) P
  have hQ : ∀ z : Fin nx → ℂ, MvPolynomial.eval z Q = MvPolynomial.eval (fun a => z a - b a) P := by
    intro z
    rw [MvPolynomial.eval_eval₂]
    have : (MvPolynomial.eval z).comp (MvPolynomial.C : ℂ →+* MvPolynomial (Fin nx) ℂ) = RingHom.id ℂ := by
      ext r; simp
    rw [this]
    simp only [map_sub, MvPolynomial.eval_X, MvPolynomial.eval_C]
    rfl
  have hex : ∃ x1 : Fin nx → ℝ, g (xshifted x1 b) ≠ 0 := by
    by_contra hne
    push Not at hne
    have hQ0 : Q = 0 := by
      refine MvPolynomial.funext_set (fun _ => Set.range fun r : ℝ => (r : ℂ))
        (fun _ => Set.infinite_range_of_injective Complex.ofReal_injective) fun z hz => ?_
      choose r hr using fun a => hz a (Set.mem_univ a)
      have := hne r
      rw [hP] at this
      rw [map_zero, hQ, ← this]
      congr 1
      congr 1
      funext a
      rw [← hr a, xshifted]
    have h1 := hQ fun a => (x0 a : ℂ) + b a
    rw [hQ0, map_zero] at h1
    simp only [add_sub_cancel_right] at h1
    exact h0 (by rw [hP, ← h1])
  obtain ⟨x1, h1⟩ := hex
  have hc : Continuous fun x : Fin nx → ℝ => g (xshifted x b) := by
    simp only [hP]
    refine (MvPolynomial.continuous_eval P).comp ?_
    unfold xshifted
    fun_prop
  refine ae_ne_zero hc h1 fun v => ?_
  refine ⟨MvPolynomial.eval₂ Polynomial.C (fun a => Polynomial.C ((x1 a : ℂ) - b a) + X * Polynomial.C (v a : ℂ)) P, fun t => ?_⟩
  rw [hP, ← Polynomial.coe_evalRingHom, MvPolynomial.hom_eval₂]
  have : (Polynomial.evalRingHom (t : ℂ)).comp Polynomial.C = RingHom.id ℂ := by ext r; simp
  rw [this]
  show MvPolynomial.eval₂ (RingHom.id ℂ) _ P = MvPolynomial.eval₂ (RingHom.id ℂ) _ P
  congr 1
  funext a
  simp only [xshifted, Pi.add_apply, Pi.smul_apply, smul_eq_mul, Complex.ofReal_add, Complex.ofReal_mul, map_add, map_mul,
    Polynomial.coe_evalRingHom, Polynomial.eval_C, Polynomial.eval_X, Function.comp]
  ring

/-! ## Slices with complex fields -/

/-- The matrix of one time slice for complex fields. -/
noncomputable def sliceC (n : Nat) (K : Fin 2 → Mat m) (W : Fin nx → Fin 2 → Mat m) (s : ℝ) (z : Fin nx → ℂ) (σ : Fin 2) : Mat m :=
  half (K σ) s * (Slater.taylor n ((s : ℂ) • ∑ a, z a • W a σ) * half (K σ) s)

variable {n : Nat} {K : Fin 2 → Mat m} {W : Fin nx → Fin 2 → Mat m} {s : ℝ}

theorem sliceC_real (x : Fin nx → ℝ) (σ : Fin 2) : sliceC n K W s (fun a => (x a : ℂ)) σ = slice n K W s x σ := rfl

theorem poly_sliceC (σ : Fin 2) : IsPolyM fun z => sliceC n K W s z σ := by
  unfold sliceC
  refine (IsPolyM.const _).mul (IsPolyM.mul ?_ (IsPolyM.const _))
  simp only [Slater.taylor]
  refine IsPolyM.sum _ fun j _ => ?_
  refine IsPolyM.smul (IsPoly.const _) ?_
  refine IsPolyM.pow (IsPolyM.smul (IsPoly.const _) (IsPolyM.sum _ fun a _ => IsPolyM.smul (IsPoly.var a) (IsPolyM.const _))) j

theorem poly_add {a b : Type} {M N : (Fin nx → ℂ) → Matrix a b ℂ} (hM : IsPolyM M) (hN : IsPolyM N) :
    IsPolyM fun z => M z + N z := fun i j => (hM i j).add (hN i j)

theorem poly_runC (l : List (Fin nx → ℝ)) (C : (Fin nx → ℂ) → Fin 2 → Mat m) (hC : ∀ σ, IsPolyM fun z => C z σ)
    (σ : Fin 2) : IsPolyM fun z => run n K W s l (C z) σ := by
  induction l generalizing C with
  | nil => exact hC σ
  | cons x l ih => exact ih (fun z σ => slice n K W s x σ * C z σ) fun σ => (IsPolyM.const _).mul (hC σ)

/-- For almost all fields the shifted slice is invertible. -/
theorem sliceC_det_ae (b : Fin nx → ℂ) : ∀ᵐ x : Fin nx → ℝ, ∀ σ, (sliceC n K W s (xshifted x b) σ).det ≠ 0 := by
  rw [ae_all_iff]
  intro σ
  refine ae_ne_zero_shift (g := fun z => (sliceC n K W s z σ).det) (poly_sliceC σ).det (x0 := 0) ?_ b
  have : sliceC n K W s (fun a => (((0 : Fin nx → ℝ) a : ℝ) : ℂ)) σ = slice n K W s 0 σ := sliceC_real 0 σ
  beta_reduce
  rw [this, slice_zero, Matrix.det_mul]
  exact mul_ne_zero (Step.exp_det_ne_zero _) (Step.exp_det_ne_zero _)

/-- As `Reach.step`, with shifted fields. -/
theorem Reach.shift {BT C : Fin 2 → Mat m} {rem : Nat} (h : Reach n K W s BT (rem + 1) C) (b : Fin nx → ℂ) :
    ∀ᵐ x : Fin nx → ℝ, Reach n K W s BT rem fun σ => sliceC n K W s (xshifted x b) σ * C σ := by
  have hk : ∀ k : Fin (rem + 1), ∀ᵐ x : Fin nx → ℝ, ∃ xs : List (Fin nx → ℝ), xs.length = k.val ∧
      ∀ σ, (1 + BT σ ^ (rem - k.val) * run n K W s xs (fun σ => sliceC n K W s (xshifted x b) σ * C σ) σ).det ≠ 0 := by
    intro k
    obtain ⟨xs, hx, hd⟩ := h (k.val + 1) (by omega)
    cases xs with
    | nil => simp at hx
    | cons x0 l =>
      have hl : l.length = k.val := by simpa using hx
      have h1 : ∀ᵐ x : Fin nx → ℝ, ∀ σ, (1 + BT σ ^ (rem - k.val) *
          run n K W s l (fun σ => sliceC n K W s (xshifted x b) σ * C σ) σ).det ≠ 0 := by
        rw [ae_all_iff]
        intro σ
        refine ae_ne_zero_shift (g := fun z => (1 + BT σ ^ (rem - k.val) *
          run n K W s l (fun σ => sliceC n K W s z σ * C σ) σ).det) ?_ (x0 := x0) ?_ b
        · refine IsPolyM.det (poly_add (IsPolyM.const _) ((IsPolyM.const _).mul ?_))
          exact poly_runC l (fun z σ => sliceC n K W s z σ * C σ) (fun σ => (poly_sliceC σ).mul (IsPolyM.const _)) σ
        · have := hd σ
          rwa [Nat.add_sub_add_right] at this
      filter_upwards [h1] with x hx
      exact ⟨l, hl, hx⟩
  rw [← ae_all_iff] at hk
  filter_upwards [hk] with x hx k hkr
  exact hx ⟨k, by omega⟩

/-! ## Averages -/

/-- The operator of a slice with complex fields. -/
noncomputable def stepOpsC (n : Nat) (K : Fin 2 → Mat m) (W : Fin nx → Fin 2 → Mat m) (s : ℝ) (z : Fin nx → ℂ) : Ops m :=
  fun _ _ => tens fun a => sliceC n K W s z (spin a)

theorem stepOpsC_mul (z : Fin nx → ℂ) (C : Fin 2 → Mat m) :
    stepOpsC n K W s z * prodOp C = prodOp fun σ => sliceC n K W s z σ * C σ := by
  funext nu nd
  show (tens fun a => sliceC n K W s z (spin a)) * (tens fun a => C (spin a)) = _
  rw [Step.tens_mul]
  rfl

theorem poly_fock (A B : Ops m) : IsPoly fun z => fock (A * stepOpsC n K W s z * B) := by
  have ht : ∀ nu nd, IsPolyM fun z => stepOpsC n K W s z nu nd := by
    intro nu nd f g
    show IsPoly fun z => ∏ a, sliceC n K W s z (spin a) (f a) (g a)
    exact IsPoly.prod _ fun a _ => poly_sliceC (spin a) (f a) (g a)
  simp only [fock, tr]
  refine IsPoly.sum _ fun nu _ => IsPoly.sum _ fun nd _ => IsPoly.sum _ fun S _ => IsPoly.sum _ fun π _ =>
    IsPoly.sum _ fun ρ _ => (IsPoly.const _).mul ?_
  exact (((IsPolyM.const (A nu nd)).mul (ht nu nd)).mul (IsPolyM.const (B nu nd))) _ _

/-- The average over the fields of a step does not depend on the shift. -/
theorem avg_fock_shift (hn : 2 ≤ n) (mf : Fin nx → ℂ) (h0 : 0 ≤ s) (h1 : s ≤ 1) (A B : Ops m) (b : Fin nx → ℂ) :
    avg (fun x : Fin nx → ℝ => Complex.exp (cfb x b) * (Complex.exp (∑ a, xshifted x b a * (-(s : ℂ) * mf a)) *
      fock (A * stepOpsC n K W s (xshifted x b) * B))) = fock (A * meanOps n K W mf s * B) := by
  rw [Step.force_bias_polynomial b (fun a => -(s : ℂ) * mf a) (poly_fock (n := n) (K := K) (W := W) (s := s) A B),
    ← avg_fock hn mf h0 h1]
  congr 1
  funext x
  congr 2
  rw [mul_sum]
  exact sum_congr rfl fun a _ => by ring

/-- The slice of the code is the one of the operators. -/
theorem sliceOfB_eq {t : ℝ → Step.Tables nx m} {mf : Fin nx → ℂ}
    (ht : Linear t K W mf) {p : Par nx m} (hp : p.tab = t p.dt) (h0 : 0 ≤ p.dt) {BT : Fin 2 → Mat m} {ss : Nat}
    (ok : ParOk p BT ss) (b : Fin nx → ℂ) (xi : Fin nx → ℝ) (s : Fin 2) :
    sliceOfB p b xi s = sliceC p.order K W (Real.sqrt p.dt) (xshifted xi b) s := by
  rw [sliceOfB, slab_eq _ _ fun hs => ok.one hs s, Slater.applyExponential_taylor, mul_one, hp, ht.oneBody, ht.field _ h0,
    sliceC, half]
  have e : ((Real.sqrt p.dt : ℝ) : ℂ) ^ 2 = (p.dt : ℂ) := by
    rw [← Complex.ofReal_pow, Real.sq_sqrt h0]
  rw [e]

theorem cancel_dets {a b x y D0 D1 E0 E1 F : ℂ} (h0 : D0 ≠ 0) (h1 : D1 ≠ 0) (g0 : E0 ≠ 0) (g1 : E1 ≠ 0) :
    a * b * (x * y * (D0 * D1 / (E0 * E1))) / (D0 * D1) * F = a * b / (E0 * E1) * (x * (y * F)) := by
  field_simp

/-- **C83 (any force bias, from any walker on the way)**: the average of what is measured is the one without force bias
(`avgPath_eq`). -/
theorem avgPathB_eq {t : ℝ → Step.Tables nx m} {mf : Fin nx → ℂ}
    (ht : Linear t K W mf) {p : Par nx m} (hn : 2 ≤ p.order) (hp : p.tab = t p.dt) (h0 : 0 ≤ p.dt) (h1 : p.dt ≤ 1)
    {BT : Fin 2 → Mat m} {ss nb : Nat} (ok : ParOk p BT ss) (hnb : 0 < nb) {E : (Fin 2 → Mat m) → ℂ} {O : Ops m}
    (hE : Observes E O) (bias : (Fin 2 → Mat m) → Fin nx → ℂ) : ∀ (k j : Nat) (Bs : Fin 2 → List (Mat m)) (w : TWk m),
      j + k = nb * ss →
      WalkInv p.toSetup BT ss nb j Bs w → Reach p.order K W (Real.sqrt p.dt) BT k (fun s => ordered (Bs s)) →
      avgPathB p bias (measure p.qrp E) k w = w.weight * w.phase /
        ((1 + BT 0 ^ k * ordered (Bs 0)).det * (1 + BT 1 ^ k * ordered (Bs 1)).det) *
        fock (O * meanOps p.order K W mf (Real.sqrt p.dt) ^ k * prodOp fun s => ordered (Bs s))
  | 0, j, Bs, w, hk, h, hr => avgPath_eq ht hn hp h0 h1 ok hnb hE 0 j Bs w hk h hr
  | k + 1, j, Bs, w, hk, h, hr => by
    have hs0 : 0 ≤ Real.sqrt p.dt := Real.sqrt_nonneg _
    have hs1 : Real.sqrt p.dt ≤ 1 := Real.sqrt_le_one.2 h1
    have hrem : nb * ss - j = k + 1 := by omega
    have hrem' : nb * ss - (j + 1) = k := by omega
    have hC : ∀ s, (1 + BT s ^ (nb * ss - j) * ordered (Bs s)).det ≠ 0 := by
      intro s; rw [hrem]; exact hr.now s
    rw [avgPathB]
    set b := xbarOf bias w with hb
    have key : ∀ᵐ x : Fin nx → ℝ, ((freeStepB p bias x w).map (avgPathB p bias (measure p.qrp E) k)).getD 0 =
        w.weight * w.phase / ((1 + BT 0 ^ (k + 1) * ordered (Bs 0)).det * (1 + BT 1 ^ (k + 1) * ordered (Bs 1)).det) *
        (Complex.exp (cfb x b) * (Complex.exp (∑ a, xshifted x b a * (-(Real.sqrt p.dt : ℂ) * mf a)) *
          fock (O * meanOps p.order K W mf (Real.sqrt p.dt) ^ k * stepOpsC p.order K W (Real.sqrt p.dt) (xshifted x b) *
            prodOp fun s => ordered (Bs s)))) := by
      filter_upwards [sliceC_det_ae (n := p.order) (K := K) (W := W) (s := Real.sqrt p.dt) b, hr.shift b] with x hx hrx
      have hsl := sliceOfB_eq ht hp h0 ok b x
      obtain ⟨w', hw', hinv, hwt⟩ := stepWith_ok ok.toSetupOk h (by omega) hC
        (Complex.exp (cmf p.dt p.tab.mfShift x b + cfb x b)) (sliceOfB p b x) (fun s => by rw [hsl]; exact hx s)
        (fun s => by rw [hsl, hrem']; exact hrx.now s)
      have ho : (fun s => ordered (Bs s ++ [sliceOfB p b x s])) = fun s =>
          sliceC p.order K W (Real.sqrt p.dt) (xshifted x b) s * ordered (Bs s) := by
        funext s
        rw [Stack.ordered_append, hsl]
      have ih := avgPathB_eq ht hn hp h0 h1 ok hnb hE bias k (j + 1) _ w' (by omega) hinv (by rw [ho]; exact hrx)
      rw [freeStepB, ← hb, hw', Option.map_some, Option.getD_some, ih, ho, hwt, mul_assoc O, mul_assoc (O * _), stepOpsC_mul]
      simp only [Stack.ordered_append, hrem, hrem', hsl]
      have hD0 := hrx.now 0
      have hD1 := hrx.now 1
      have hE0 := hC 0
      have hE1 := hC 1
      rw [hrem] at hE0 hE1
      have hmf : Complex.exp (cmf p.dt p.tab.mfShift x b + cfb x b) =
          Complex.exp (cfb x b) * Complex.exp (∑ a, xshifted x b a * (-(Real.sqrt p.dt : ℂ) * mf a)) := by
        rw [← Complex.exp_add]
        congr 1
        rw [cmf, hp, ht.shift, mul_sum, add_comm]
        congr 1
        exact sum_congr rfl fun a _ => by ring
      rw [hmf]
      rw [cancel_dets hD0 hD1 hE0 hE1, mul_assoc O]
    rw [avg_congr_ae key, Step.avg_smul, avg_fock_shift hn mf hs0 hs1, mul_assoc O, ← pow_succ]

/-- **C83 (any force bias)**: the mean of a run with force bias is the mean of the run without. -/
theorem runMeanB_eq {t : ℝ → Step.Tables nx m} {mf : Fin nx → ℂ}
    (ht : Linear t K W mf) (hK : ∀ s, (K s)ᴴ = K s) {p : Par nx m} (hn : 2 ≤ p.order) (hp : p.tab = t p.dt)
    (h0 : 0 ≤ p.dt) (h1 : p.dt ≤ 1) {BT : Fin 2 → Mat m} {ss : Nat} (ok : ParOk p BT ss) (hB : ∀ s, Matrix.PosDef (BT s))
    {E : (Fin 2 → Mat m) → ℂ} {O : Ops m} (hE : Observes E O) (bias : (Fin 2 → Mat m) → Fin nx → ℂ) (L : Nat) (hL : 0 < L)
    (hd : ss ∣ L) (w0 : ℝ) : runMeanB p bias BT ss L w0 E = runMean p BT ss L w0 E := by
  obtain ⟨nb, rfl⟩ := hd
  have hnb : 0 < nb := Nat.pos_of_mul_pos_left hL
  obtain ⟨w, hw, hi, hww⟩ := newWalker_ok ok.toSetupOk nb w0
  have hr := reach_start p.order hK W (Real.sqrt p.dt) hB (ss * nb)
  rw [runMeanB, runMean, hw, Option.map_some, Option.map_some,
    avgPathB_eq ht hn hp h0 h1 ok hnb hE bias (ss * nb) 0 (fun _ => []) w (by rw [zero_add, mul_comm]) hi hr,
    avgPath_eq ht hn hp h0 h1 ok hnb hE (ss * nb) 0 (fun _ => []) w (by rw [zero_add, mul_comm]) hi hr]

/-- What a run with force bias reports converges to the grand canonical average. -/
def AveragesB (n : Nat) (t : ℝ → Step.Tables nx m) (bias : ℝ → (Fin 2 → Mat m) → Fin nx → ℂ) (β : ℝ) (H : Ops m)
    (E : (Fin 2 → Mat m) → ℂ) (O : Ops m) : Prop :=
  gibbs β H 1 ≠ 0 ∧ ∃ (B : ℝ) (L0 : Nat), ∀ (L ss : Nat) (BT : Fin 2 → Mat m) (p : Par nx m) (w0 : ℝ), L0 ≤ L → w0 ≠ 0 →
    RunOk n t β L ss BT p → ∃ a b : ℂ, runMeanB p (bias p.dt) BT ss L w0 E = some a ∧
      runMeanB p (bias p.dt) BT ss L w0 (fun _ => 1) = some b ∧
      b ≠ 0 ∧ ‖a / b - gibbs β H O / gibbs β H 1‖ ≤ B / Real.sqrt L

theorem averages_bias {n : Nat} (hn : 2 ≤ n) {t : ℝ → Step.Tables nx m} {mf : Fin nx → ℂ} (ht : Linear t K W mf)
    (hK : ∀ s, (K s)ᴴ = K s) {β : ℝ} (hβ : 0 ≤ β) {H O : Ops m} {E : (Fin 2 → Mat m) → ℂ} (hE : Observes E O)
    (bias : ℝ → (Fin 2 → Mat m) → Fin nx → ℂ) (h : Averages n t β H E O) : AveragesB n t bias β H E O := by
  obtain ⟨hz, B, L0, h⟩ := h
  obtain ⟨L1, hL1⟩ := exists_nat_ge β
  refine ⟨hz, B, max L0 L1, fun L ss BT p w0 hL hw hok => ?_⟩
  obtain ⟨a, b, ha, hb, hne, hab⟩ := h L ss BT p w0 ((le_max_left _ _).trans hL) hw hok
  have h0 : 0 ≤ p.dt := by rw [hok.dt]; positivity
  have h1 : p.dt ≤ 1 := by
    rw [hok.dt]
    refine (div_le_one (by exact_mod_cast hok.pos)).2 (hL1.trans ?_)
    exact_mod_cast (le_max_right _ _).trans hL
  have e := fun {E : (Fin 2 → Mat m) → ℂ} {O : Ops m} (hE : Observes E O) =>
    runMeanB_eq ht hK (hok.order ▸ hn) hok.tab h0 h1 hok.ok hok.trial hE (bias p.dt) L hok.pos hok.dvd w0
  exact ⟨a, b, by rw [e hE, ha], by rw [e observes_one, hb], hne, hab⟩

/-- **C83 (Hubbard model with force bias)**: as `hub_averages`, with `force_bias` set. -/
theorem hub_averages_bias (n : Nat) (hn : 2 ≤ n) (h : Hub m) (hh : ∀ s, (h.h1 s)ᴴ = h.h1 s) (alt : Bool) (mu : ℝ)
    {P : Fin 2 → Mat m} (hP : ∀ s i, star (P s i i) = P s i i) {β : ℝ} (hβ : 0 ≤ β) :
    AveragesB n (fun dt => hubTables dt h alt mu P) (fun dt => hubBias dt h (hubTables dt h alt mu P)) β
      (grand (fun _ _ => hubOp h.h1 h.U spin) (hubMu h alt mu : ℂ))
      (fun P => (Energy.localHubbard h.h1 h.U h.symmetric P).1) (fun _ _ => hubOp h.h1 h.U spin) ∧
    AveragesB n (fun dt => hubTables dt h alt mu P) (fun dt => hubBias dt h (hubTables dt h alt mu P)) β
      (grand (fun _ _ => hubOp h.h1 h.U spin) (hubMu h alt mu : ℂ))
      (fun P => (Energy.localHubbard h.h1 h.U h.symmetric P).2.1) (oneOp h.h1) ∧
    AveragesB n (fun dt => hubTables dt h alt mu P) (fun dt => hubBias dt h (hubTables dt h alt mu P)) β
      (grand (fun _ _ => hubOp h.h1 h.U spin) (hubMu h alt mu : ℂ))
      (fun P => (P 0).trace + (P 1).trace) number := by
  obtain ⟨h1, h2, h3⟩ := hub_averages n hn h hh alt mu hP hβ
  have hl := hub_linear h alt mu P
  have hK := hub_herm h hh alt mu hP
  exact ⟨averages_bias hn hl hK hβ (fun C hC => wick_hub hC h.h1 h.U h.symmetric) _ h1,
    averages_bias hn hl hK hβ (observes_oneBody h.h1) _ h2, averages_bias hn hl hK hβ observes_number _ h3⟩

end Verif.Grand
