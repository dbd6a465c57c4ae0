import Verif.Grand.DiscreteModel
import Verif.Grand.Lie
import Verif.Grand.Systems

/-!
# Discrete fields give grand canonical averages: C84
-/

namespace Verif.Grand

open Matrix Finset
open Verif.Thermal (Mat)
open Verif.Stack (ordered)
open Verif.Step (tens spin onP allP spinOp Sym Anti site hubOp hubOp_sym hubOp_herm)
open Verif.Hirsch (thermalWfac thermalSlice thermalAux0 IsThermalGamma siteEnergy)
open scoped ComplexOrder

variable {m nu nd : Nat}

/-! ## Average of one slice -/

/-- The averaged operator of a slice. -/
noncomputable def discOps (p : DPar m) : Ops m :=
  fun _ _ => ((1 / 2 : ℂ) ^ m) • ∑ x : Fin m → Fin 2, discFactor p x • tens fun a => discSlice p x (spin a)

/-- The one-body Hamiltonian with the chemical potential. -/
noncomputable def discOne (S : DSys m) (s : Fin 2) : Mat m := S.H1 s + ((if S.alt then S.mu else -S.mu : ℝ) : ℂ) • 1

/-- The interaction. -/
noncomputable def discV (S : DSys m) {ι : Type} [Fintype ι] [DecidableEq ι] (σ : ι → Fin 2) (f : ι → Fin m) : ℂ :=
  ∑ i, (siteEnergy S.symmetric S.U (count σ f i 0) (count σ f i 1) : ℂ)

/-- The average over the fields of the factors of a configuration. -/
theorem avg_fields (p : DPar m) (hg : IsThermalGamma p.charge p.dt p.U p.γ) {ι : Type} [Fintype ι] [DecidableEq ι]
    (σ : ι → Fin 2) (f : ι → Fin m) (hf : ∀ i s, count σ f i s ≤ 1) :
    (1 / 2 : ℂ) ^ m * ∑ x : Fin m → Fin 2, discFactor p x *
      ∏ a, thermalAux0 p.charge p.symmetric p.dt p.U p.γ (x (f a)) (σ a) =
      Complex.exp (-(p.dt * discV p.toDSys σ f)) := by
  have h1 : ∀ x : Fin m → Fin 2, discFactor p x * ∏ a, thermalAux0 p.charge p.symmetric p.dt p.U p.γ (x (f a)) (σ a) =
      ∏ i, (thermalWfac p.charge p.dt p.U p.γ (x i) * (thermalAux0 p.charge p.symmetric p.dt p.U p.γ (x i) 0 ^ count σ f i 0 *
        thermalAux0 p.charge p.symmetric p.dt p.U p.γ (x i) 1 ^ count σ f i 1)) := by
    intro x
    rw [prod_count σ f fun i s => thermalAux0 p.charge p.symmetric p.dt p.U p.γ (x i) s, discFactor, ← prod_mul_distrib]
  simp only [h1]
  have h2 := Fintype.prod_sum (fun (i : Fin m) (y : Fin 2) => thermalWfac p.charge p.dt p.U p.γ y *
    (thermalAux0 p.charge p.symmetric p.dt p.U p.γ y 0 ^ count σ f i 0 *
        thermalAux0 p.charge p.symmetric p.dt p.U p.γ y 1 ^ count σ f i 1))
  rw [← h2]
  have h3 : ((1 : ℂ) / 2) ^ m = ∏ _i : Fin m, (1 / 2 : ℂ) := by simp
  rw [h3, ← prod_mul_distrib, discV, mul_sum, ← sum_neg_distrib, Complex.exp_sum]
  refine prod_congr rfl fun i _ => ?_
  exact Hirsch.thermal_hs p.charge p.symmetric p.dt p.U p.γ hg ⟨count σ f i 0, by have := hf i 0; omega⟩
    ⟨count σ f i 1, by have := hf i 1; omega⟩

/-- On antisymmetric functionals the averaged slice is the exponential of the interaction times the one of the one-body
Hamiltonian. -/
theorem discOps_anti (p : DPar m) (hg : IsThermalGamma p.charge p.dt p.U p.γ)
    (hm : p.mu = p.muT ∨ (1e-16 : ℝ) < |p.mu - p.muT|) (α : (Fin nu ⊕ Fin nd → Fin m) → ℂ) (hα : Anti spin α) :
    α ᵥ* discOps p nu nd = α ᵥ* (NormedSpace.exp (-(p.dt : ℂ) • diagonal (discV p.toDSys spin)) *
      NormedSpace.exp (-(p.dt : ℂ) • spinOp spin (discOne p.toDSys))) := by
  have e1 : ∀ x : Fin m → Fin 2, (tens fun a : Fin nu ⊕ Fin nd => discSlice p x (spin a)) =
      (diagonal fun f => ∏ a, thermalAux0 p.charge p.symmetric p.dt p.U p.γ (x (f a)) (spin a)) *
        NormedSpace.exp (-(p.dt : ℂ) • spinOp spin (discOne p.toDSys)) := by
    intro x
    rw [← prodOp_exp, ← tens_diagonal fun (a : Fin nu ⊕ Fin nd) i => thermalAux0 p.charge p.symmetric p.dt p.U p.γ (x i) (spin a),
      Step.tens_mul]
    congr 1
    funext a
    exact Hirsch.thermalSlice_mu _ _ _ _ _ _ _ _ _ _ _ hm
  have e2 : discOps p nu nd = (diagonal fun f => (1 / 2 : ℂ) ^ m * ∑ x : Fin m → Fin 2, discFactor p x *
      ∏ a, thermalAux0 p.charge p.symmetric p.dt p.U p.γ (x (f a)) (spin a)) *
        NormedSpace.exp (-(p.dt : ℂ) • spinOp spin (discOne p.toDSys)) := by
    rw [discOps]
    simp only [e1, ← Matrix.smul_mul, ← Matrix.sum_mul]
    congr 1
    ext f g
    simp only [Matrix.smul_apply, Matrix.sum_apply, smul_eq_mul]
    by_cases h : f = g
    · subst h
      simp only [diagonal_apply_eq]
    · simp only [diagonal_apply_ne _ h, mul_zero, sum_const_zero]
  rw [e2, ← Matrix.vecMul_vecMul, ← Matrix.vecMul_vecMul]
  congr 1
  rw [← Matrix.diagonal_smul, Matrix.exp_diagonal]
  funext f
  rw [Matrix.vecMul_diagonal, Matrix.vecMul_diagonal]
  by_cases hf : α f = 0
  · rw [hf, zero_mul, zero_mul]
  · congr 1
    rw [avg_fields p hg spin f fun i s => count_le_one hα hf i s, Pi.exp_def, ← Complex.exp_eq_exp_ℂ]
    beta_reduce
    rw [Pi.smul_apply, smul_eq_mul, neg_mul]

/-! ## The limit Hamiltonian -/

/-- The chemical potential of the ensemble: the input with its sign convention; `symmetric` raises it by `U / 2`, the
particle-hole symmetric interaction. -/
noncomputable def discMu (S : DSys m) : ℝ := (if S.alt then -S.mu else S.mu) + if S.symmetric then S.U / 2 else 0

theorem disc_gen (S : DSys m) : diagonal (discV S (spin : Fin nu ⊕ Fin nd → Fin 2)) + spinOp spin (discOne S) =
    grand (fun _ _ => hubOp S.H1 S.U spin) (discMu S : ℂ) nu nd := by
  have hcard : Fintype.card (Fin nu ⊕ Fin nd) = nu + nd := by simp
  have hV : diagonal (discV S (spin : Fin nu ⊕ Fin nd → Fin 2)) =
      (S.U : ℂ) • (diagonal fun f => ∑ i, (count spin f i 0 : ℂ) * count spin f i 1) -
        ((if S.symmetric then S.U / 2 else 0 : ℝ) * ((nu + nd : Nat) : ℂ)) • 1 := by
    rw [← diagonal_one, ← diagonal_smul, ← diagonal_smul, diagonal_sub]
    congr 1
    funext f
    have hc := congrArg (Nat.cast : Nat → ℂ) (count_sum (spin : Fin nu ⊕ Fin nd → Fin 2) f)
    rw [hcard] at hc
    simp only [discV, Pi.smul_apply, smul_eq_mul, mul_one]
    rw [← hc, mul_sum]
    push_cast
    rw [mul_sum, ← sum_sub_distrib]
    refine sum_congr rfl fun i _ => ?_
    cases S.symmetric
    · simp [siteEnergy]
      ring
    · simp [siteEnergy]
      ring
  rw [hV, ← interaction_diagonal, grand, hubOp]
  have hK : spinOp (spin : Fin nu ⊕ Fin nd → Fin 2) (discOne S) = spinOp spin S.H1 +
      ((if S.alt then S.mu else -S.mu : ℝ) * ((nu + nd : Nat) : ℂ)) • 1 := by
    rw [← hcard, ← smul_smul, ← Step.spinOp_one, ← Step.spinOp_smul, ← Step.spinOp_add]
    rfl
  rw [hK, discMu]
  have : (∑ a, onP a (S.H1 (spin a)) : Matrix (Fin nu ⊕ Fin nd → Fin m) (Fin nu ⊕ Fin nd → Fin m) ℂ) = spinOp spin S.H1 := rfl
  rw [this]
  cases S.alt <;> cases S.symmetric <;> simp <;> module

/-! ## Paths -/

/-- The determinants that occur along every path of at most `L` slices do not vanish: `det(1 + BT^{L-k} B_k ... B_1)`. -/
def Regular (p : DPar m) (BT : Fin 2 → Mat m) (k : Nat) (C : Fin 2 → Mat m) : Prop :=
  ∀ xs : List (Fin m → Fin 2), xs.length ≤ k → ∀ s,
    (1 + BT s ^ (k - xs.length) * (ordered (xs.map fun x => discSlice p x s) * C s)).det ≠ 0

theorem Regular.now {p : DPar m} {BT C : Fin 2 → Mat m} {k : Nat} (h : Regular p BT k C) (s : Fin 2) :
    (1 + BT s ^ k * C s).det ≠ 0 := by
  have := h [] (Nat.zero_le _) s
  simpa [ordered] using this

theorem Regular.step {p : DPar m} {BT C : Fin 2 → Mat m} {k : Nat} (h : Regular p BT (k + 1) C) (x : Fin m → Fin 2) :
    Regular p BT k fun s => discSlice p x s * C s := by
  intro xs hx s
  have := h (x :: xs) (by simpa using hx) s
  rw [List.map_cons, ordered, List.reverse_cons, List.prod_append, List.prod_singleton, List.length_cons,
    Nat.add_sub_add_right] at this
  rwa [mul_assoc (List.prod _)] at this

theorem discSlice_det (p : DPar m) (x : Fin m → Fin 2) (s : Fin 2) : (discSlice p x s).det ≠ 0 := by
  rw [discSlice, thermalSlice, Matrix.det_mul, Matrix.det_diagonal]
  refine mul_ne_zero (prod_ne_zero_iff.2 fun i _ => ?_) (Step.exp_det_ne_zero _)
  rw [Hirsch.thermalAux, thermalAux0]
  refine mul_ne_zero (mul_ne_zero ?_ ?_) (Complex.exp_ne_zero _)
  · split_ifs <;> exact Complex.exp_ne_zero _
  · split_ifs
    · exact one_ne_zero
    · exact Complex.exp_ne_zero _

theorem fock_sum {κ : Type} (S : Finset κ) (c : κ → ℂ) (A B : Ops m) (X : κ → Ops m) :
    fock (A * (∑ k ∈ S, c k • X k) * B) = ∑ k ∈ S, c k * fock (A * X k * B) := by
  have h : fock (A * (∑ k ∈ S, c k • X k) * B) = fockL m (A * (∑ k ∈ S, c k • X k) * B) := rfl
  rw [h, mul_sum, sum_mul, map_sum]
  refine sum_congr rfl fun k _ => ?_
  rw [mul_smul_comm, smul_mul_assoc, map_smul, smul_eq_mul]
  rfl

/-- The average of what is measured, from any walker on the way. -/
theorem discPath_eq {p : DPar m} {BT : Fin 2 → Mat m} {ss nb : Nat} (ok : SetupOk p.setup BT ss) (hnb : 0 < nb)
    {E : (Fin 2 → Mat m) → ℂ} {O : Ops m} (hE : Observes E O) : ∀ (k j : Nat) (Bs : Fin 2 → List (Mat m)) (w : TWk m),
      j + k = nb * ss → WalkInv p.setup BT ss nb j Bs w → Regular p BT k (fun s => ordered (Bs s)) →
      discPath p (measure p.qrp E) k w = w.weight * w.phase /
        ((1 + BT 0 ^ k * ordered (Bs 0)).det * (1 + BT 1 ^ k * ordered (Bs 1)).det) *
        fock (O * discOps p ^ k * prodOp fun s => ordered (Bs s))
  | 0, j, Bs, w, hk, h, hr => by
    rw [Nat.add_zero] at hk
    rw [hk] at h
    have hC : ∀ s, (1 + ordered (Bs s)).det ≠ 0 := by
      intro s
      have := hr.now s
      rwa [pow_zero, one_mul] at this
    have hm := measure_ok ok hnb h hC hE
    rw [discPath, pow_zero, pow_zero, pow_zero, one_mul, one_mul, mul_one]
    exact hm
  | k + 1, j, Bs, w, hk, h, hr => by
    have hrem : nb * ss - j = k + 1 := by omega
    have hrem' : nb * ss - (j + 1) = k := by omega
    have hC : ∀ s, (1 + BT s ^ (nb * ss - j) * ordered (Bs s)).det ≠ 0 := by
      intro s; rw [hrem]; exact hr.now s
    rw [discPath]
    have key : ∀ x : Fin m → Fin 2, ((discStep p x w).map (discPath p (measure p.qrp E) k)).getD 0 =
        w.weight * w.phase / ((1 + BT 0 ^ (k + 1) * ordered (Bs 0)).det * (1 + BT 1 ^ (k + 1) * ordered (Bs 1)).det) *
        (discFactor p x * fock (O * discOps p ^ k * (prodOp fun s => discSlice p x s) * prodOp fun s => ordered (Bs s))) := by
      intro x
      have hrx := hr.step x
      obtain ⟨w', hw', hinv, hwt⟩ := stepWith_ok ok h (by omega) hC (discFactor p x) (discSlice p x) (discSlice_det p x)
        (fun s => by rw [hrem']; exact hrx.now s)
      have ho : (fun s => ordered (Bs s ++ [discSlice p x s])) = fun s => discSlice p x s * ordered (Bs s) := by
        funext s
        rw [Stack.ordered_append]
      have ih := discPath_eq ok hnb hE k (j + 1) _ w' (by omega) hinv (by rw [ho]; exact hrx)
      have hmul : (prodOp fun s => discSlice p x s) * (prodOp fun s => ordered (Bs s)) =
          prodOp fun s => discSlice p x s * ordered (Bs s) := by
        funext nu nd
        exact Step.tens_mul _ _
      rw [discStep, hw', Option.map_some, Option.getD_some, ih, ho, hwt, mul_assoc (O * _), hmul]
      simp only [Stack.ordered_append, hrem, hrem']
      have hD0 := hrx.now 0
      have hD1 := hrx.now 1
      have hE0 := hC 0
      have hE1 := hC 1
      rw [hrem] at hE0 hE1
      beta_reduce at hD0 hD1
      field_simp
    simp only [key]
    have hsum : discOps p = (1 / 2 : ℂ) ^ m • ∑ x : Fin m → Fin 2, discFactor p x • prodOp fun s => discSlice p x s := by
      funext nu nd
      simp only [discOps, Pi.smul_apply, Finset.sum_apply]
      rfl
    rw [← mul_sum, ← fock_sum, mul_left_comm, pow_succ (discOps p), ← mul_assoc O]
    congr 1
    generalize O * discOps p ^ k = Q
    rw [hsum, mul_smul_comm, smul_mul_assoc]
    exact ((fockL m).map_smul _ _).symm

/-! ## The limit -/

/-- The parameters of a run with `L` slices of length `β / L` for the input `S`: `γ` as computed, the chemical potential
of the trial equal to the one of the system or different by more than `1e-16`, and no path with a vanishing
determinant. -/
structure DRunOk (S : DSys m) (β : ℝ) (L ss : Nat) (BT : Fin 2 → Mat m) (p : DPar m) : Prop where
  pos : 0 < L
  dvd : ss ∣ L
  sys : p.toDSys = S
  dt : p.dt = β / L
  gamma : IsThermalGamma p.charge p.dt p.U p.γ
  chem : p.mu = p.muT ∨ (1e-16 : ℝ) < |p.mu - p.muT|
  ok : SetupOk p.setup BT ss
  regular : Regular p BT L fun _ => 1

theorem discMean_eq {p : DPar m} {BT : Fin 2 → Mat m} {ss : Nat} (ok : SetupOk p.setup BT ss) {L : Nat} (hL : 0 < L)
    (hd : ss ∣ L) (hr : Regular p BT L fun _ => 1) {E : (Fin 2 → Mat m) → ℂ} {O : Ops m} (hE : Observes E O) (w0 : ℝ) :
    discMean p BT ss L w0 E = some (w0 / ((1 + BT 0 ^ L).det * (1 + BT 1 ^ L).det) * fock (O * discOps p ^ L)) := by
  obtain ⟨nb, rfl⟩ := hd
  have hnb : 0 < nb := Nat.pos_of_mul_pos_left hL
  obtain ⟨w, hw, hi, hww⟩ := newWalker_ok ok nb w0
  have h := discPath_eq ok hnb hE (ss * nb) 0 (fun _ => []) w (by rw [zero_add, mul_comm]) hi hr
  rw [discMean, hw, Option.map_some, h, hww]
  have ho : ordered ([] : List (Mat m)) = 1 := rfl
  have hpo : (prodOp fun _ => (1 : Mat m)) = 1 := by
    funext nu nd
    exact Step.tens_one
  simp only [ho, hpo, mul_one]

theorem discOps_sym (p : DPar m) (nu nd : Nat) : Sym spin (discOps p nu nd) :=
  (Sym.sum _ fun x => (sym_tens spin (discSlice p x)).smul _).smul _

theorem discV_sym (S : DSys m) (nu nd : Nat) : Sym (spin : Fin nu ⊕ Fin nd → Fin 2) (diagonal (discV S spin)) := by
  have h := (grand_sym (m := m) (fun nu nd => hubOp_sym S.H1 (S.U : ℂ) (spin : Fin nu ⊕ Fin nd → Fin 2)) (discMu S : ℂ) nu nd).sub
    (Sym.spinOp (spin : Fin nu ⊕ Fin nd → Fin 2) (discOne S))
  rwa [← disc_gen, add_sub_cancel_right] at h

theorem disc_sector (S : DSys m) {β : ℝ} (hβ : 0 ≤ β) {O : Ops m} (hO : ∀ nu nd, Sym spin (O nu nd)) (nu nd : Nat) :
    ∃ B : ℝ, ∀ (L ss : Nat) (BT : Fin 2 → Mat m) (p : DPar m), DRunOk S β L ss BT p →
      ‖tr (O nu nd * discOps p nu nd ^ L) - (sector (O nu nd) *
        NormedSpace.exp (-(β : ℂ) • sector (grand (fun _ _ => hubOp S.H1 S.U spin) (discMu S : ℂ) nu nd))).trace‖ ≤ B / L := by
  obtain ⟨B, hB⟩ := lie_product (sector (diagonal (discV S (spin : Fin nu ⊕ Fin nd → Fin 2))))
    (sector (spinOp (spin : Fin nu ⊕ Fin nd → Fin 2) (discOne S))) hβ
  obtain ⟨C, hC⟩ := lin_bound ((Matrix.traceLinearMap (Occ m nu × Occ m nd) ℂ ℂ) ∘ₗ LinearMap.mulLeft ℂ (sector (O nu nd)))
  refine ⟨C * B, fun L ss BT p h => ?_⟩
  have hS := h.sys
  subst hS
  have hs : sector (discOps p nu nd) = NormedSpace.exp (-((β / L : ℝ) : ℂ) • sector (diagonal (discV p.toDSys spin))) *
      NormedSpace.exp (-((β / L : ℝ) : ℂ) • sector (spinOp spin (discOne p.toDSys))) := by
    rw [sector_congr (discOps_anti p h.gamma h.chem), h.dt, ← sector_smul, ← sector_smul,
      ← sector_exp ((discV_sym p.toDSys nu nd).smul _), ← sector_exp ((Sym.spinOp spin (discOne p.toDSys)).smul _), sector_mul]
    exact sym_exp ((discV_sym p.toDSys nu nd).smul _)
  have hadd : sector (grand (fun _ _ => hubOp p.H1 p.U spin) (discMu p.toDSys : ℂ) nu nd) =
      sector (diagonal (discV p.toDSys spin)) + sector (spinOp spin (discOne p.toDSys)) := by
    rw [← disc_gen]
    exact (sectorL m nu nd).map_add _ _
  rw [tr_sector, sector_mul (hO nu nd), sector_pow (discOps_sym p nu nd), hs, hadd, ← Matrix.trace_sub, ← Matrix.mul_sub,
    mul_div_assoc]
  exact hC _ _ fun f g => hB L h.pos f g

theorem disc_converges (S : DSys m) {β : ℝ} (hβ : 0 ≤ β) {O : Ops m} (hO : ∀ nu nd, Sym spin (O nu nd))
    {E : (Fin 2 → Mat m) → ℂ} (hE : Observes E O) :
    ∃ B : ℝ, ∀ (L ss : Nat) (BT : Fin 2 → Mat m) (p : DPar m) (w0 : ℝ), DRunOk S β L ss BT p →
      ∃ a e : ℂ, discMean p BT ss L w0 E = some a ∧
        a = w0 / ((1 + BT 0 ^ L).det * (1 + BT 1 ^ L).det) *
          (gibbs β (grand (fun _ _ => hubOp S.H1 S.U spin) (discMu S : ℂ)) O + e) ∧ ‖e‖ ≤ B / L := by
  choose B hB using disc_sector S hβ hO
  refine ⟨∑ nu ∈ range (m + 1), ∑ nd ∈ range (m + 1), B nu nd, fun L ss BT p w0 h => ?_⟩
  have hr := discMean_eq h.ok h.pos h.dvd h.regular hE w0
  refine ⟨_, fock (O * discOps p ^ L) - gibbs β (grand (fun _ _ => hubOp S.H1 S.U spin) (discMu S : ℂ)) O, hr, ?_, ?_⟩
  · rw [add_sub_cancel]
  · rw [fock, gibbs, ← sum_sub_distrib, sum_div]
    refine (norm_sum_le _ _).trans (sum_le_sum fun nu _ => ?_)
    rw [← sum_sub_distrib, sum_div]
    refine (norm_sum_le _ _).trans (sum_le_sum fun nd _ => ?_)
    exact hB nu nd L ss BT p h

/-- What a run with discrete fields reports for `E`: the mean of the numerator over the mean of the denominator
converges to the grand canonical average of `O` with an error of order `1/L`. -/
def DAverages (S : DSys m) (β : ℝ) (H : Ops m) (E : (Fin 2 → Mat m) → ℂ) (O : Ops m) : Prop :=
  gibbs β H 1 ≠ 0 ∧ ∃ (B : ℝ) (L0 : Nat), ∀ (L ss : Nat) (BT : Fin 2 → Mat m) (p : DPar m) (w0 : ℝ), L0 ≤ L → w0 ≠ 0 →
    DRunOk S β L ss BT p → ∃ a b : ℂ, discMean p BT ss L w0 E = some a ∧ discMean p BT ss L w0 (fun _ => 1) = some b ∧
      b ≠ 0 ∧ ‖a / b - gibbs β H O / gibbs β H 1‖ ≤ B / L

theorem daverages (S : DSys m) (hh : ∀ s, (S.H1 s)ᴴ = S.H1 s) {β : ℝ} (hβ : 0 ≤ β) {O : Ops m}
    (hO : ∀ nu nd, Sym spin (O nu nd)) {E : (Fin 2 → Mat m) → ℂ} (hE : Observes E O) :
    DAverages S β (grand (fun _ _ => hubOp S.H1 S.U spin) (discMu S : ℂ)) E O := by
  obtain ⟨r, hr, hr1⟩ := gibbs_pos β
    (grand_sym (m := m) (fun nu nd => hubOp_sym S.H1 (S.U : ℂ) (spin : Fin nu ⊕ Fin nd → Fin 2)) (discMu S : ℂ))
    (grand_herm (fun nu nd => hubOp_herm S.U hh (spin : Fin nu ⊕ Fin nd → Fin 2)) (discMu S))
  set H := grand (fun nu nd => hubOp S.H1 S.U (spin : Fin nu ⊕ Fin nd → Fin 2)) (discMu S : ℂ) with hH
  have hz : gibbs β H 1 ≠ 0 := by rw [hr1]; exact_mod_cast hr.ne'
  obtain ⟨B1, h1⟩ := disc_converges S hβ hO hE
  obtain ⟨B2, h2⟩ := disc_converges S hβ (O := 1) (fun _ _ => Sym.one) observes_one
  rw [← hH] at h1 h2
  set A := gibbs β H O
  set Z := gibbs β H 1
  set B := max (max B1 B2) 0 with hBd
  have hB0 : 0 ≤ B := le_max_right _ _
  obtain ⟨L1, hL1⟩ := exists_nat_ge (2 * B / ‖Z‖)
  refine ⟨hz, 2 * (‖Z‖ + ‖A‖) / ‖Z‖ ^ 2 * B, L1, fun L ss BT p w0 hL hw h => ?_⟩
  have hLr : 2 * B / ‖Z‖ ≤ (L : ℝ) := hL1.trans (by exact_mod_cast hL)
  obtain ⟨a, e, ha, hae, hen⟩ := h1 L ss BT p w0 h
  obtain ⟨b, f, hb, hbf, hfn⟩ := h2 L ss BT p w0 h
  have hl : (0 : ℝ) < L := by exact_mod_cast h.pos
  have he1 : ‖A + e - A‖ ≤ B / L := by
    rw [add_sub_cancel_left]
    exact hen.trans (div_le_div_of_nonneg_right ((le_max_left _ _).trans (le_max_left _ _)) hl.le)
  have he2 : ‖Z + f - Z‖ ≤ B / L := by
    rw [add_sub_cancel_left]
    exact hfn.trans (div_le_div_of_nonneg_right ((le_max_right _ _).trans (le_max_left _ _)) hl.le)
  have he3 : B / L ≤ ‖Z‖ / 2 := by
    have hzn : 0 < ‖Z‖ := norm_pos_iff.2 hz
    rw [div_le_iff₀ hzn] at hLr
    rw [div_le_iff₀ hl]
    linarith
  obtain ⟨hy, hq⟩ := ratio_close hz he1 he2 he3
  have hd : ∀ s, (1 + BT s ^ L).det ≠ 0 := fun s => by
    have := h.regular.now s
    rwa [mul_one] at this
  have hpre : (w0 : ℂ) / ((1 + BT 0 ^ L).det * (1 + BT 1 ^ L).det) ≠ 0 :=
    div_ne_zero (by exact_mod_cast hw) (mul_ne_zero (hd 0) (hd 1))
  refine ⟨a, b, ha, hb, ?_, ?_⟩
  · rw [hbf]
    exact mul_ne_zero hpre hy
  · have e1 : a / b = (A + e) / (Z + f) := by
      rw [hae, hbf, mul_div_mul_left _ _ hpre]
    rw [e1, mul_div_assoc (_ : ℝ) B]
    exact hq

/-- **C84** Free projection at finite temperature with discrete fields, charge or spin decomposition, plain or
particle-hole symmetric interaction, either sign convention: as the number of slices grows the energy, its one-body part
and the number of particles reported by the run converge to the grand canonical averages at the chemical potential of
the input, with an error of order `1/L`. -/
theorem disc_averages (S : DSys m) (hh : ∀ s, (S.H1 s)ᴴ = S.H1 s) {β : ℝ} (hβ : 0 ≤ β) :
    DAverages S β (grand (fun _ _ => hubOp S.H1 S.U spin) (discMu S : ℂ))
      (fun P => (Energy.localHubbard S.H1 S.U S.symmetric P).1) (fun _ _ => hubOp S.H1 S.U spin) ∧
    DAverages S β (grand (fun _ _ => hubOp S.H1 S.U spin) (discMu S : ℂ))
      (fun P => (Energy.localHubbard S.H1 S.U S.symmetric P).2.1) (oneOp S.H1) ∧
    DAverages S β (grand (fun _ _ => hubOp S.H1 S.U spin) (discMu S : ℂ)) (fun P => (P 0).trace + (P 1).trace) number :=
  ⟨daverages S hh hβ (fun _ _ => hubOp_sym _ _ _) fun _ hC => wick_hub hC S.H1 S.U S.symmetric,
    daverages S hh hβ (fun _ _ => Sym.spinOp _ _) (observes_oneBody S.H1), daverages S hh hβ number_sym observes_number⟩

end Verif.Grand
